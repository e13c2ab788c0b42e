import Verif.Lemmas.ReadsTotal
import Verif.Props.Issues
import Verif.Props.Whole
/-
C39: how any input is read, valid or not, and which errors are reported.
-/

namespace Mview
open Lex

variable {pp : PathParser} {s : Sched} {ts : Toks} {is : List Issue} {cs : List Child}

/-- C39.  Every input can be read, however malformed. -/
theorem reading_exists (hl : LexicalToks ts) : ∃ is cs, ReadsChildren pp ts is cs :=
  children_total pp _ ts (Nat.le_refl _) hl

/-- The parser goes through the issues of the reading and ends with its tree. -/
theorem reading_given (hl : LexicalToks ts) (h : ReadsChildren pp ts is cs) :
    Gives (parseChildren pp ts) is (.ok cs []) := by
  obtain ⟨N, hN⟩ := children_give h hl
  have h1 := (descent_mono pp (Nat.le_max_left (fuelFor ts) N)).2.2 ts
  rcases h1 with h1 | h1
  · exact absurd h1 (parseChildren_ne_diverge pp ts)
  · unfold parseChildren
    rw [h1]
    exact hN _ (Nat.le_max_right _ _)

/-- The issues of the parser come before those of the expansion. -/
theorem given_exact (hg : Gives (parseChildren pp ts) is (.ok cs [])) :
    (mview pp s ts).Is (verdict (is ++ rootIssues cs)) := by
  have : Shows (mviewImpl pp s ts) (is ++ rootIssues cs) := by
    unfold mviewImpl
    rw [Out.monad_bind]
    refine hg.1.bind' fun ds q hq => ?_
    obtain rfl := hg.2 ds q hq
    refine root_shows (I := noAssumption pp) s cs ?_
    have := parseChildren_wp (I := noAssumption pp) (ts := ts) trivial
    rw [hq] at this
    exact this.1
  unfold mview
  unfold Shows at this
  generalize verdict _ = v at this
  generalize mviewImpl pp s ts = o at this
  cases o with
  | ret es out =>
    cases v <;> simp only [Out.Is] at this
    subst this
    cases es
    · trivial
    · exact ⟨rfl, rfl⟩
  | abort es =>
    cases v <;> simp only [Out.Is] at this
    subst this
    exact ⟨rfl, rfl⟩
  | panic p => cases v <;> simp only [Out.Is] at this; trivial
  | diverge => cases v <;> simp only [Out.Is] at this

/-- C39.  Whatever the macro is given, its result is determined by a reading of it: first the issues of the
reading, then those of the tree it is read as, each in order, up to one that stops the macro. -/
theorem reading_exact (hl : LexicalToks ts) (h : ReadsChildren pp ts is cs) :
    (mview pp s ts).Is (verdict (is ++ rootIssues cs)) :=
  given_exact (reading_given hl h)

theorem verdict_none {is : List Issue} : verdict is = .errors [] ↔ is = [] := by
  cases is with
  | nil => simp [verdict]
  | cons i is =>
    cases i with
    | report d => simp only [verdict]; cases verdict is <;> simp [Verdict.add]
    | stop d => simp [verdict]
    | crash => simp [verdict]

/-- C39.  The inputs the parser accepts as they are, are those that have a reading without issues. -/
theorem reading_parses (hl : LexicalToks ts) : ReadsChildren pp ts [] cs ↔ Parses pp ts cs := by
  constructor
  · intro h
    have hg := reading_given hl h
    have h1 := hg.1
    unfold Shows at h1
    unfold Parses
    generalize parseChildren pp ts = o at *
    cases o with
    | ret ds q =>
      simp only [verdict, Out.Is] at h1
      rw [h1, hg.2 _ _ rfl]
    | _ => simp [verdict, Out.Is] at h1
  · intro h
    obtain ⟨is, cs', h'⟩ := reading_exists (pp := pp) hl
    have hg := reading_given hl h'
    rw [h] at hg
    have h2 := hg.2 _ _ rfl
    simp only [PR.ok.injEq, and_true] at h2
    have h1 := hg.1
    unfold Shows at h1
    have : verdict is = .errors [] := by
      generalize verdict is = v at h1
      cases v <;> simp only [Out.Is] at h1
      rw [h1]
    rw [verdict_none] at this
    subst this h2
    exact h'

/-- C39.  The macro accepts exactly the inputs that have a reading without issues as a tree without issues. -/
theorem accepted_iff_reading (hl : LexicalToks ts) :
    (∃ out, mview pp s ts = .tokens out) ↔ ∃ cs, ReadsChildren pp ts [] cs ∧ rootIssues cs = [] := by
  constructor
  · rintro ⟨out, ho⟩
    obtain ⟨is, cs, h⟩ := reading_exists (pp := pp) hl
    have := reading_exact (s := s) hl h
    rw [ho] at this
    have hv : verdict (is ++ rootIssues cs) = .errors [] := by
      generalize verdict _ = v at this
      cases v with
      | errors ds => cases ds <;> simp only [MacroResult.Is] at this; rfl
      | _ => simp only [MacroResult.Is] at this
    rw [verdict_none, List.append_eq_nil_iff] at hv
    obtain ⟨rfl, hr⟩ := hv
    exact ⟨cs, h, hr⟩
  · rintro ⟨cs, h, hr⟩
    have := reading_exact (s := s) hl h
    rw [hr] at this
    simp only [List.append_nil, verdict] at this
    cases ho : mview pp s ts with
    | tokens out => exact ⟨out, rfl⟩
    | _ => rw [ho] at this; simp only [MacroResult.Is] at this

/-- C39.  The expansions of an input are exactly what the trees stand for as which it can be read without
issues. -/
theorem expansion_iff {out : Toks} (hl : LexicalToks ts) : (∃ s, mview pp s ts = .tokens out) ↔
    ∃ root, ReadsChildren pp ts [] root ∧ RootMeans root out := by
  constructor
  · rintro ⟨s, h⟩
    obtain ⟨root, h1, h2⟩ := mview_sound h
    exact ⟨root, (reading_parses hl).mpr h1, h2⟩
  · rintro ⟨root, h1, h2⟩
    exact mview_complete ((reading_parses hl).mp h1) h2

/-! ### examples -/

/-- a name in an example -/
theorem longName {ts run rest : Toks} (hl : toksLexical ts = true) (h : kebabSplit ts = some (run, rest)) :
    LongestKebab ts run rest := kebabSplit_longest (lexical_of hl).head h

theorem noStart {ts : Toks} (h : ∀ t, ts.head? = some t → t.isIdent = false ∧ t.isDash = false) :
    ¬ NameStart ts := by
  rintro ⟨t, r, rfl, ht⟩
  have := h t rfl
  simp [this] at ht

theorem noColons {ts : Toks} (h : peekPunct2 ':' ':' ts = false) : ¬ StartsColons ts := by
  rw [← peekPunct2_colons, h]; simp

theorem noPath {ts : Toks} (h : (peekPunct2 ':' ':' (skip ts) || peekPunct2 ':' ':' ts ||
    peekPunct '<' (skip ts)) = false) : ¬ PathStart ts := by
  rw [← pathStart_iff, h]; simp

theorem noVal {ts r : Toks} {e : Err} (h : parseValue ts = .ret [] (.err e r)) : NoValue ts := by
  rcases value_or_none ts with ⟨v, rest, rfl, he⟩ | hn
  · exact absurd ⟨_, _, h⟩ (yields_value.mpr ⟨v, rfl, rfl, he⟩).not_fails
  · exact hn

theorem noSlot {ts : Toks} (h : (peekKw c!"slot" ts && peekPunct ':' (skip ts) &&
    !(peekPunct2 ':' ':' (skip ts))) = false) : ¬ SlotStart ts := by
  rw [← slotStart_iff, h]; simp

/-- Five errors in `div.b r#a= ; 3; span-r#c`: a value is missing, `3` is not a string, the semicolon after it
is superfluous, `r#` is not allowed within a name, and the last element is not terminated. -/
example : ReadsChildren simplePaths t!"div.b r#a= ; 3; span-r#c"
      [.report (.missingValue false), .report .nonStringChild, .report .extraSemicolon,
        .report (.rawInKebab ⟨true, c!"c"⟩), .report .unterminated]
      [.elem (.mk (.html ⟨true, c!"div"⟩) [.cls ⟨c!"b", 1⟩]
          [.kv ⟨⟨c!"a", 1⟩, .block t!"::leptos_mview::MissingValueAfterEq"⟩] none none),
        .value (.lit (.tok (.str []))),
        .elem (.mk (.webComponent ⟨c!"span-c", 2⟩) [] [] none none)] ∧
    mview simplePaths (fun _ => []) t!"div.b r#a= ; 3; span-r#c" =
      .errors [.missingValue false, .nonStringChild, .extraSemicolon, .rawInKebab ⟨true, c!"c"⟩,
        .unterminated] t!"()" := by
  refine ⟨?_, rfl⟩
  refine .elem (isSlot := false) (r0 := t!"div.b r#a= ; 3; span-r#c") (ti := []) (r1 := t!".b r#a= ; 3; span-r#c")
    (si := []) (r2 := t!"r#a= ; 3; span-r#c") (ai := [.report (.missingValue false)]) (r3 := t!"; 3; span-r#c")
    (ei := []) (r4 := t!"3; span-r#c") (.elem (noVal rfl) (noSlot rfl)) ?_ ?_ ?_ .semi ?_
  · exact .name (run := t!"div") (noPath rfl) (longName rfl rfl) rfl
  · exact .cls (run := t!"b") (rest := t!"r#a= ; 3; span-r#c") (longName rfl rfl) (.done (by simp))
  · exact .kv (run := t!"r#a") (rest := t!"= ; 3; span-r#c") (js := [.report (.missingValue false)])
      (v := some (.block t!"::leptos_mview::MissingValueAfterEq"))
      (longName rfl rfl) (by simp) (.some (.missing (noVal rfl) (by simp [WordNext]))) (.done (noStart (by simp [TT.isIdent, TT.isDash])) (by simp))
  · refine .literal (v := .lit (.int c!"3")) (by simp) id ?_
    refine .semi ?_
    refine .elem (isSlot := false) (r0 := t!"span-r#c") (ti := [.report (.rawInKebab ⟨true, c!"c"⟩)])
      (r1 := []) (si := []) (r2 := []) (ai := []) (r3 := []) (ei := [.report .unterminated]) (r4 := [])
      (.elem (noVal rfl) (noSlot rfl)) ?_ (.done (by simp)) (.done (noStart (by simp)) (by simp)) .nothing .nil
    exact .name (run := t!"span-r#c") (noPath rfl) (longName rfl rfl) rfl

/-- The macro stops at `on:` without an event; what follows is not read. -/
example : ReadsChildren simplePaths t!"div on:={f}; 3"
      [.stop (.synAbort .expectedKebab), .report .unterminated]
      [.elem (.mk (.html ⟨true, c!"div"⟩) [] [] none none)] ∧
    mview simplePaths (fun _ => []) t!"div on:={f}; 3" = .errors [.synAbort .expectedKebab] t!"()" := by
  refine ⟨?_, rfl⟩
  refine .elem (isSlot := false) (r0 := t!"div on:={f}; 3") (ti := []) (r1 := t!"on:={f}; 3")
    (si := []) (r2 := t!"on:={f}; 3") (ai := [.stop (.synAbort .expectedKebab)]) (r3 := [])
    (ei := [.report .unterminated]) (r4 := []) (.elem (noVal rfl) (noSlot rfl)) ?_ (.done (by simp)) ?_ .nothing .nil
  · exact .name (run := t!"div") (noPath rfl) (longName rfl rfl) rfl
  · exact .dirNoKey (noStart (by simp [TT.isIdent, TT.isDash])) (by simp) (by simp)

/-- Closure arguments that are not closed: nothing after them is read, and the element is lost. -/
example : ReadsChildren simplePaths t!"Foo a |x { 3 }" [.report (.synError .closureNotClosed)] [] ∧
    mview simplePaths (fun _ => []) t!"Foo a |x { 3 }" = .errors [.synError .closureNotClosed] t!"()" := by
  refine ⟨?_, rfl⟩
  refine .unclosed (isSlot := false) (r0 := t!"Foo a |x { 3 }") (ti := []) (tag := .component (.ofIdent (plain c!"Foo")))
    (r1 := t!"a |x { 3 }") (si := []) (sels := []) (r2 := t!"a |x { 3 }") (ai := [])
    (attrs := [.kv ⟨⟨c!"a", 1⟩, .lit (.bool true)⟩]) (s := .alone) (args := t!"x { 3 }")
    (.elem (noVal rfl) (noSlot rfl)) ?_ (.done (by simp)) ?_ (by simp [NoPipe])
  · exact .name (run := t!"Foo") (noPath rfl) (longName rfl rfl) rfl
  · exact .kv (run := t!"a") (rest := t!"|x { 3 }") (js := []) (v := none) (longName rfl rfl) (by simp) (.none (by simp))
      (.done (noStart (by simp [TT.isIdent, TT.isDash])) (by simp))

end Mview
