import Verif.Lemmas.ExpandWp
import Verif.Lemmas.Names
import Verif.Spec.Tame
import Verif.Model.Lex
/-
C01: the macro terminates.  C02: where it can panic.
-/

namespace Mview
open Lex

/-- No assumption on the input; panics only about five names and slots. -/
def anyInput (pp : PathParser) : Inv pp where
  A p := p = .slotNotComponent ∨ ∃ n ∈ notRaw, p = .rawIdent n
  T _ := True
  tail _ := trivial
  group _ _ := trivial
  kebab _ _ h := Or.inr ⟨_, h, rfl⟩
  slotName _ _ h := Or.inr ⟨_, h, rfl⟩
  slotPath _ _ _ h := Or.inr ⟨_, h, rfl⟩
  slotTag _ _ := Or.inr (Or.inl rfl)

/-- C01.  For every input, every path parser and every hash order, the macro
terminates. -/
theorem mview_terminates (pp : PathParser) (s : Sched) (ts : Toks) :
    mview pp s ts ≠ .hangs := by
  have h := mviewImpl_safe (I := anyInput pp) (s := s) (ts := ts) trivial
  unfold mview
  intro hh
  split at hh <;> simp at hh
  rename_i he
  rw [he] at h
  exact h

/-- C01.  The parser itself always finishes, having consumed the whole input, and never
returns an `Err` to its caller (so `lib.rs` never takes its error branch). -/
theorem parse_total (pp : PathParser) (ts : Toks) :
    (∃ ds cs, parseChildren pp ts = .ret ds (.ok cs [])) ∨
    (∃ ds, parseChildren pp ts = .abort ds) ∨
    (∃ p, parseChildren pp ts = .panic p) := by
  have h := parseChildren_wp (I := anyInput pp) (ts := ts) trivial
  cases he : parseChildren pp ts with
  | ret ds r =>
    rw [he] at h
    cases r with
    | ok cs rest =>
      have h2 : rest = [] := h.2
      rw [h2]; exact Or.inl ⟨ds, cs, rfl⟩
    | err e rest => exact h.elim
  | abort ds => exact Or.inr (Or.inl ⟨ds, rfl⟩)
  | panic p => exact Or.inr (Or.inr ⟨p, rfl⟩)
  | diverge => rw [he] at h; exact h.elim

/-- C02.  For every input, the macro panics only in `Ident::new_raw` with one of five
names or at a slot whose tag is not a component: all other `unwrap`s, `expect`s and
assertions hold. -/
theorem mview_panics_only (pp : PathParser) (s : Sched) (ts : Toks) (p : PanicSite)
    (h : mview pp s ts = .panicked p) :
    p = .slotNotComponent ∨
      ∃ n ∈ [c!"_", c!"self", c!"Self", c!"super", c!"crate"], p = .rawIdent n := by
  have hs := mviewImpl_safe (I := anyInput pp) (s := s) (ts := ts) trivial
  unfold mview at h
  split at h <;> simp at h
  rename_i p' he
  rw [he] at hs
  subst h
  exact hs

theorem Within.trans {a b c : Toks} (h : Within a b) (h' : Within b c) : Within a c := by
  induction h' with
  | here => exact h
  | tail _ ih => exact .tail ih
  | group hd _ ih => exact .group hd ih

theorem Tame.within {a b : Toks} (h : Tame b) (hw : Within a b) : Tame a :=
  ⟨fun h' => h.lexical (h'.trans hw), fun h' => h.idents (h'.trans hw),
    fun h' => h.names (h'.trans hw), fun h' => h.slots (h'.trans hw)⟩

theorem Tame.headLexical {ts : Toks} (h : Tame ts) : HeadLexical ts := by
  rintro i r rfl hi
  have := (h.lexical (Within.here _)).2
  simp [hi] at this

/-- Tame inputs, no panic allowed. -/
def tameInput (pp : PathParser) (hpp : pp.Honest) : Inv pp where
  A _ := False
  T := Tame
  tail h := h.within (.tail (.here _))
  group hd h := h.within (.group hd (.here _))
  kebab h hs hr := by
    refine h.names (.here _) (kebabSplit_longest h.headLexical hs) ?_
    have := dash_notRaw hr
    simp only [badNames, List.mem_cons, List.not_mem_nil, or_false] at this ⊢
    rcases this with h | h | h | h | h | h <;> simp [h]
  slotName h hs hr :=
    h.names (.here _) (kebabSplit_longest h.headLexical hs) (snake_dash_notRaw hr)
  slotPath h hp hi hr := by
    obtain ⟨r, rfl⟩ := hpp hp hi
    refine h.idents (.here _) ?_
    have := snake_notRaw hr
    simp only [badNames, List.mem_cons, List.not_mem_nil, or_false] at this ⊢
    rcases this with h | h | h | h | h | h | h <;> simp [h]
  slotTag h hs := by
    have h' : Tame _ := h.within (.tail (.tail (.here _)))
    obtain ⟨c, cs, he, h1, h2⟩ := h.slots (.here _) (kebabSplit_longest h'.headLexical hs)
    rw [he]
    exact Or.inl (by simp only [isComponent, isAsciiUpper, h1, h2]; decide)

/-- C02.  An input containing none of the triggers never crashes the macro. -/
theorem mview_tame_no_panic (pp : PathParser) (hpp : pp.Honest) (s : Sched) (ts : Toks)
    (h : Tame ts) (p : PanicSite) : mview pp s ts ≠ .panicked p := by
  have hs := mviewImpl_safe (I := tameInput pp hpp) (s := s) (ts := ts) h
  unfold mview
  intro hh
  split at hh <;> simp at hh
  rename_i p' he
  rw [he] at hs
  exact hs

/-- `simplePaths` is honest. -/
theorem simplePaths_honest : simplePaths.Honest := by
  intro ts p rest i h hi
  have h : simpleRun ts = (some p, rest) := h
  unfold simpleRun at h
  simp only at h
  split at h
  · rename_i ss r hs
    simp only [Prod.mk.injEq, Option.some.injEq] at h
    obtain ⟨rfl, rfl⟩ := h
    unfold Path.getIdent at hi
    split at hi
    · rename_i i' hp
      simp only [Path.mk.injEq] at hp
      obtain ⟨hl, rfl⟩ := hp
      simp at hi; subst hi
      rw [hl] at hs
      simp only [Bool.false_eq_true, if_false] at hs
      cases ts with
      | nil => simp [simpleSegs] at hs
      | cons t ts =>
        cases t with
        | ident j =>
          simp only [simpleSegs] at hs
          split at hs
          · simp at hs
          · split at hs
            · simp only [Option.map_eq_some_iff, Prod.exists, Prod.mk.injEq, List.cons.injEq,
                PathSeg.mk.injEq] at hs
              obtain ⟨_, _, _, ⟨⟨rfl, _⟩, _⟩, _⟩ := hs
              exact ⟨_, rfl⟩
            · simp only [Option.some.injEq, Prod.mk.injEq, List.cons.injEq, PathSeg.mk.injEq] at hs
              obtain ⟨⟨⟨rfl, _⟩, _⟩, _⟩ := hs
              exact ⟨_, rfl⟩
        | _ => simp [simpleSegs] at hs
    · simp at hi
  · simp at h

mutual
/-- All places, for checking concrete inputs. -/
def TT.places : TT → List Toks
  | .group .bracket _ => []
  | .group _ inner => places inner
  | _ => []
/-- All places, for checking concrete inputs. -/
def places : List TT → List Toks
  | [] => [[]]
  | t :: ts => (t :: ts) :: (t.places ++ places ts)
end

theorem Within.mem_places {pos ts : Toks} (h : Within pos ts) : pos ∈ places ts := by
  induction h with
  | here => cases pos <;> simp [places]
  | tail _ ih => simp [places, ih]
  | @group inner d ts hd _ ih => cases d <;> simp_all [places, TT.places]

/-- A sufficient check of one place. -/
def placeOk (pos : Toks) : Bool :=
  (match pos with
    | .ident i :: r =>
      !i.name.isEmpty && !i.name.contains '-' && !badNames.contains i.name &&
      (match r with
        | .punct ':' _ :: r' =>
          i != ⟨false, c!"slot"⟩ ||
          (match r' with
            | .ident j :: _ => isComponent j.name
            | _ => false)
        | _ => true)
    | _ => true) &&
  (match kebabSplit pos with
    | some (run, _) => !badNames.contains (kebabText run)
    | none => true)

theorem tame_of_places {ts : Toks} (h : (places ts).all placeOk = true) : Tame ts := by
  have hp : ∀ {pos}, Within pos ts → placeOk pos = true :=
    fun hw => List.all_eq_true.mp h _ hw.mem_places
  have lex : ∀ {i r}, Within (.ident i :: r) ts → i.Lexical := by
    intro i r hw
    have := hp hw
    simp only [placeOk, Bool.and_eq_true] at this
    obtain ⟨⟨⟨⟨h1, h2⟩, h3⟩, h4⟩, h5⟩ := this
    exact ⟨by intro h; simp [h] at h1, by intro h; simp [h] at h2⟩
  have hl : ∀ {pos}, Within pos ts → HeadLexical pos := by
    rintro pos hw i r rfl hi
    have := (lex hw).2
    simp [hi] at this
  refine ⟨lex, ?_, ?_, ?_⟩
  · intro i r hw
    have := hp hw
    simp only [placeOk, Bool.and_eq_true] at this
    obtain ⟨⟨⟨⟨h1, h2⟩, h3⟩, h4⟩, h5⟩ := this
    intro h; simp [h] at h3
  · intro pos run rest hw hk
    have := hp hw
    unfold placeOk at this
    rw [hk.kebabSplit (hl hw), Bool.and_eq_true] at this
    intro h
    have := this.2
    simp [h] at this
  · intro pos s run rest hw hk
    have := hp hw
    simp only [placeOk, Bool.and_eq_true] at this
    obtain ⟨⟨⟨⟨h1, h2⟩, h3⟩, h4⟩, h5⟩ := this
    simp only [bne_self_eq_false, Bool.false_or] at h4
    split at h4
    · rename_i j r
      have hh := hk.split
      cases run with
      | nil => exact absurd rfl hk.kebab.nonempty
      | cons t run =>
        simp only [List.cons_append, List.cons.injEq] at hh
        rw [← hh.1]
        unfold isComponent at h4
        split at h4
        · rename_i c cs hj
          refine ⟨c, cs ++ kebabText run, by simp [kebabText, TT.text, hj], ?_⟩
          simpa [isAsciiUpper] using h4
        · simp at h4
    · simp at h4

/-- The hypothesis holds of a realistic input (and of erroneous ones). -/
example : Tame t!"div.big #main data-foo={count + 1} on:click={inc} {
    Comp key=[self.x()] { slot:Item; \"hi\" } ; 3 = |
  }" := tame_of_places rfl

/-- C02: the unconditional "never panics" is false. Each of these is a crash. -/
theorem mview_can_panic (s : Sched) :
    mview simplePaths s t!"self;" = .panicked (.rawIdent c!"self") ∧
    mview simplePaths s t!"Self;" = .panicked (.rawIdent c!"Self") ∧
    mview simplePaths s t!"div _=1;" = .panicked (.rawIdent c!"_") ∧
    mview simplePaths s t!"div crate=1;" = .panicked (.rawIdent c!"crate") ∧
    mview simplePaths s t!"div {super}" = .panicked (.rawIdent c!"super") ∧
    mview simplePaths s t!"Foo a=1 -;" = .panicked (.rawIdent c!"_") ∧
    mview simplePaths s t!"Foo { slot:div; }" = .panicked .slotNotComponent ∧
    mview simplePaths (fun _ => []) t!"Foo { slot:Super; }" = .panicked (.rawIdent c!"super") :=
  ⟨rfl, rfl, rfl, rfl, rfl, rfl, rfl, rfl⟩

end Mview
