import Verif.Spec.About
import Verif.Lemmas.LocReadsTotal
/-
C70: what errors are about.
-/

namespace Mview.Loc
open Lex

variable {σ : Type} {e0 e : σ} {ts0 ts : Toks σ}

/-! ### parts of the input -/

theorem From.append {a r : Toks σ} (h : From e0 ts0 e (a ++ r)) : From e0 ts0 e r := by
  induction a with
  | nil => exact h
  | cons t a ih => exact ih h.next

theorem From.suffix {r : Toks σ} (h : From e0 ts0 e ts) (hs : r <:+ ts) : From e0 ts0 e r := by
  obtain ⟨a, rfl⟩ := hs
  exact h.append

theorem From.nil (h : From e0 ts0 e ts) : From e0 ts0 e [] := h.suffix (List.nil_suffix)

theorem From.mem {t : TT σ} (h : From e0 ts0 e ts) (ht : t ∈ ts) : ∃ r, From e0 ts0 e (t :: r) := by
  obtain ⟨a, b, rfl⟩ := List.append_of_mem ht
  exact ⟨b, h.append⟩

theorem From.has (h : From e0 ts0 e ts) : Has e0 ts0 ts := ⟨e, h⟩

variable [Spans σ] {pp : Mview.PathParser} {lp : PathParser σ pp}

/-! ### issues -/

/-- The issue is where it should be. -/
def Issue.Ok (lp : PathParser σ pp) (e0 : σ) (ts0 : Toks σ) : Issue σ → Prop
  | .report d p => About lp e0 ts0 p d
  | .stop d p => About lp e0 ts0 p d
  | .crash => True

/-- All are. -/
def AllOk (lp : PathParser σ pp) (e0 : σ) (ts0 : Toks σ) (is : List (Issue σ)) : Prop := ∀ i ∈ is, i.Ok lp e0 ts0

/-- All are, up to the one that stops the macro. -/
def Until (lp : PathParser σ pp) (e0 : σ) (ts0 : Toks σ) : List (Issue σ) → Prop
  | [] => True
  | .report d p :: is => About lp e0 ts0 p d ∧ Until lp e0 ts0 is
  | .stop d p :: _ => About lp e0 ts0 p d
  | .crash :: _ => True

/-- Nothing stops the macro. -/
def Goes (is : List (Issue σ)) : Prop := ∀ i ∈ is, ∃ d p, i = .report d p

omit [Spans σ] in
theorem goes_append {a b : List (Issue σ)} : Goes (a ++ b) ↔ Goes a ∧ Goes b := by
  simp only [Goes, List.mem_append]
  constructor
  · intro h; exact ⟨fun i hi => h i (.inl hi), fun i hi => h i (.inr hi)⟩
  · rintro ⟨h1, h2⟩ i (hi | hi)
    · exact h1 i hi
    · exact h2 i hi

omit [Spans σ] in
theorem goes_cons {d : Diag} {p : σ} {b : List (Issue σ)} : Goes (.report d p :: b) ↔ Goes b := by
  constructor
  · intro h i hi; exact h i (.tail _ hi)
  · intro h i hi
    cases hi with
    | head => exact ⟨d, p, rfl⟩
    | tail _ hi => exact h i hi

omit [Spans σ] in
theorem goes_nil : Goes ([] : List (Issue σ)) := by intro i hi; cases hi

omit [Spans σ] in
theorem goes_stop {d : Diag} {p : σ} : ¬ Goes [.stop d p] := by
  intro h
  obtain ⟨d', p', h⟩ := h _ (.head _)
  cases h

omit [Spans σ] in
theorem goes_crash : ¬ Goes ([.crash] : List (Issue σ)) := by
  intro h
  obtain ⟨d', p', h⟩ := h _ (.head _)
  cases h

theorem allOk_nil : AllOk lp e0 ts0 [] := by intro i hi; cases hi

theorem allOk_cons {i : Issue σ} {is : List (Issue σ)} : AllOk lp e0 ts0 (i :: is) ↔ i.Ok lp e0 ts0 ∧ AllOk lp e0 ts0 is := by
  simp [AllOk]

theorem allOk_append {a b : List (Issue σ)} : AllOk lp e0 ts0 (a ++ b) ↔ AllOk lp e0 ts0 a ∧ AllOk lp e0 ts0 b := by
  simp only [AllOk, List.mem_append]
  constructor
  · intro h; exact ⟨fun i hi => h i (.inl hi), fun i hi => h i (.inr hi)⟩
  · rintro ⟨h1, h2⟩ i (hi | hi)
    · exact h1 i hi
    · exact h2 i hi

theorem Until.append {a b : List (Issue σ)} (ha : Until lp e0 ts0 a) (hb : Goes a → Until lp e0 ts0 b) :
    Until lp e0 ts0 (a ++ b) := by
  induction a with
  | nil => exact hb goes_nil
  | cons i a ih =>
    cases i with
    | report d p => exact ⟨ha.1, ih ha.2 fun h => hb (goes_cons.mpr h)⟩
    | stop d p => exact ha
    | crash => trivial

theorem AllOk.until {a : List (Issue σ)} (ha : AllOk lp e0 ts0 a) : Until lp e0 ts0 a := by
  induction a with
  | nil => trivial
  | cons i a ih =>
    rw [allOk_cons] at ha
    cases i with
    | report d p => exact ⟨ha.1, ih ha.2⟩
    | stop d p => exact ha.1
    | crash => trivial

theorem nameIssues_ok (n : Str) : AllOk lp e0 ts0 (nameIssues n) := by
  unfold nameIssues
  split
  · exact allOk_nil
  · rw [allOk_cons]; exact ⟨trivial, allOk_nil⟩

/-! ### names -/

theorem rawIssues_ok {run : Toks σ} (h : From e0 ts0 e run) : AllOk lp e0 ts0 (rawIssues run) := by
  cases run with
  | nil => exact allOk_nil
  | cons t run =>
    intro i hi
    simp only [rawIssues, List.mem_filterMap] at hi
    obtain ⟨t, ht, hi⟩ := hi
    obtain ⟨r, hr⟩ := h.next.mem ht
    cases t with
    | ident j p =>
      simp only at hi
      split at hi
      · cases hi; rename_i hj; exact ⟨hj, r, hr.has⟩
      · cases hi
    | _ => cases hi

theorem LongName.raw {run rest : Toks σ} (h : LongName ts run rest) (hf : From e0 ts0 e ts) :
    AllOk lp e0 ts0 (rawIssues run) := by
  obtain ⟨rfl, -⟩ := h
  cases run with
  | nil => exact allOk_nil
  | cons t run =>
    intro i hi
    simp only [rawIssues, List.mem_filterMap] at hi
    obtain ⟨t, ht, hi⟩ := hi
    obtain ⟨r, hr⟩ := hf.next.mem (List.mem_append.mpr (.inl ht) : t ∈ run ++ rest)
    cases t with
    | ident j p =>
      simp only at hi
      split at hi
      · cases hi; rename_i hj; exact ⟨hj, r, hr.has⟩
      · cases hi
    | _ => cases hi

omit [Spans σ] in
theorem LongName.from {run rest : Toks σ} (h : LongName ts run rest) (hf : From e0 ts0 e ts) : From e0 ts0 e rest := by
  obtain ⟨rfl, -⟩ := h
  exact hf.append

/-! ### selectors -/

theorem sels_ok {is : List (Issue σ)} {sels : List (Selector σ)} {rest : Toks σ} (h : ReadsSels ts is sels rest)
    (hf : From e0 ts0 e ts) :
    AllOk lp e0 ts0 is ∧ AllOk lp e0 ts0 (selectorIssues sels) ∧ From e0 ts0 e rest := by
  induction h with
  | cls hn _ ih =>
    obtain ⟨h1, -, h3⟩ := ih (hn.from hf.next)
    refine ⟨allOk_append.mpr ⟨hn.raw hf.next, h1⟩, allOk_cons.mpr ⟨?_, allOk_nil⟩, h3⟩
    exact ⟨_, _, _, hf.has, .inl rfl, hn.nameStart⟩
  | id hn _ ih =>
    obtain ⟨h1, -, h3⟩ := ih (hn.from hf.next)
    refine ⟨allOk_append.mpr ⟨hn.raw hf.next, h1⟩, allOk_cons.mpr ⟨?_, allOk_nil⟩, h3⟩
    exact ⟨_, _, _, hf.has, .inr rfl, hn.nameStart⟩
  | done _ => exact ⟨allOk_nil, allOk_nil, hf⟩

/-! ### values -/

theorem value_ok {v : Value σ} {rest : Toks σ} (h : ValueNext ts v rest) (hf : From e0 ts0 e ts) :
    AllOk lp e0 ts0 v.issues ∧ From e0 ts0 e rest := by
  obtain ⟨hv, -⟩ := h
  refine ⟨?_, hf.append⟩
  cases hv with
  | @pfx i p c b =>
    simp only [Value.issues]
    split
    · exact allOk_nil
    · rename_i hp
      exact allOk_cons.mpr ⟨⟨hp, c, b, rest, hf.has⟩, allOk_nil⟩
  | _ => exact allOk_nil

theorem readsValue_ok {q : σ} {is : List (Issue σ)} {v : Value σ} {s : Spacing} {rest : Toks σ} (h : ReadsValue q ts is v rest)
    (hf : From e0 ts0 e (.punct '=' s q :: ts)) :
    AllOk lp e0 ts0 is ∧ AllOk lp e0 ts0 v.issues ∧ About lp e0 ts0 v.place .cloneValue ∧ From e0 ts0 e rest := by
  cases h with
  | value h =>
    have := value_ok (lp := lp) h hf.next
    exact ⟨allOk_nil, this.1, .inl ⟨s, q, ts, hf.has, .inl ⟨v, rest, h, rfl⟩⟩, this.2⟩
  | missing hn hw =>
    exact ⟨allOk_cons.mpr ⟨⟨_, _, _, hf.has, hn, rfl, hw⟩, allOk_nil⟩, allOk_nil,
      .inl ⟨s, q, _, hf.has, .inr ⟨hn, rfl⟩⟩, hf.next⟩

theorem readsEq_ok {is : List (Issue σ)} {v : Option (Value σ)} {rest : Toks σ} (h : ReadsEq ts is v rest)
    (hf : From e0 ts0 e ts) :
    AllOk lp e0 ts0 is ∧ AllOk lp e0 ts0 (optIssues v) ∧ (∀ w, v = some w → About lp e0 ts0 w.place .cloneValue) ∧
      From e0 ts0 e rest := by
  cases h with
  | some h =>
    obtain ⟨h1, h2, h3, h4⟩ := readsValue_ok (lp := lp) h hf
    exact ⟨h1, h2, fun w hw => by cases hw; exact h3, h4⟩
  | none h => exact ⟨allOk_nil, allOk_nil, fun w hw => (nomatch hw), hf⟩

/-! ### directives -/

variable (e0 ts0) in
/-- The modifier is where it should be. -/
def ModifierOk (m : Option (SIdent σ)) : Prop :=
  ∀ i, m = some i → ∃ s q r, Has e0 ts0 (.punct ':' s q :: .ident i.id i.sp :: r)

omit [Spans σ] in
theorem modifier_ok {m : Option (SIdent σ)} {rest : Toks σ} (h : ReadsModifier ts m rest) (hf : From e0 ts0 e ts) :
    ModifierOk e0 ts0 m ∧ From e0 ts0 e rest := by
  cases h with
  | some => exact ⟨fun i hi => by cases hi; exact ⟨_, _, _, hf.has⟩, hf.next.next⟩
  | none h => exact ⟨fun i hi => (nomatch hi), hf⟩

/-- The parts of a directive are where they should be. -/
structure DirOk (lp : PathParser σ pp) (e0 : σ) (ts0 : Toks σ) (d : Directive σ) : Prop where
  dir : ∃ s q r, Has e0 ts0 (.ident d.dir.id d.dir.sp :: .punct ':' s q :: r)
  key : ∀ x, d.key = .str x → ∃ s q r, Has e0 ts0 (.ident d.dir.id d.dir.sp :: .punct ':' s q :: .lit (.str x.str) x.sp :: r)
  modifier : ModifierOk e0 ts0 d.modifier
  value : AllOk lp e0 ts0 (optIssues d.value)
  clone : d.dir.id = plain c!"clone" → ∀ v, d.value = some v → About lp e0 ts0 v.place .cloneValue

theorem modifierIssues_ok {m : Option (SIdent σ)} (h : ModifierOk e0 ts0 m) : AllOk lp e0 ts0 (modifierIssues m) := by
  cases m with
  | none => exact allOk_nil
  | some m => exact allOk_cons.mpr ⟨h m rfl, allOk_nil⟩

section
variable {d : Directive σ} (h : DirOk lp e0 ts0 d)
include h

theorem DirOk.keyIssues (hd : d.dir.id ∈ [plain c!"attr", plain c!"prop", plain c!"use", plain c!"clone"]) :
    AllOk lp e0 ts0 d.key.issues := by
  have := h.key
  cases hk : d.key with
  | kebab k => exact nameIssues_ok _
  | str x =>
    obtain ⟨s, q, r, hx⟩ := this x hk
    exact allOk_cons.mpr ⟨⟨d.dir.id, _, _, _, _, hd, hx⟩, allOk_nil⟩

theorem DirOk.eventIssues (hd : d.dir.id = plain c!"on") : AllOk lp e0 ts0 d.eventIssues := by
  unfold Directive.eventIssues
  refine allOk_append.mpr ⟨?_, ?_⟩
  · have := h.key
    cases hk : d.key with
    | kebab k => exact nameIssues_ok _
    | str x =>
      obtain ⟨s, q, r, hx⟩ := this x hk
      exact allOk_cons.mpr ⟨⟨_, _, _, _, hd ▸ hx⟩, allOk_nil⟩
  · have := h.modifier
    cases hm : d.modifier with
    | none => exact allOk_nil
    | some m =>
      simp only
      split
      · exact allOk_nil
      · rename_i hne
        exact allOk_cons.mpr ⟨⟨hne, this m hm⟩, allOk_nil⟩

theorem DirOk.useIssues (hd : d.dir.id = plain c!"use") : AllOk lp e0 ts0 d.useIssues :=
  allOk_append.mpr ⟨h.keyIssues (by simp [hd]), modifierIssues_ok h.modifier⟩

theorem DirOk.cloneIssues (hd : d.dir.id = plain c!"clone") : AllOk lp e0 ts0 d.cloneIssues := by
  have hm := modifierIssues_ok (lp := lp) h.modifier
  refine allOk_append.mpr ⟨allOk_append.mpr ⟨allOk_append.mpr ⟨hm, h.keyIssues (by simp [hd])⟩, hm⟩, ?_⟩
  have := h.clone hd
  cases hv : d.value with
  | none => exact allOk_nil
  | some v => exact allOk_cons.mpr ⟨this v hv, allOk_nil⟩

theorem DirOk.onElement : AllOk lp e0 ts0 d.issuesOnElement := by
  unfold Directive.issuesOnElement
  split
  · exact allOk_append.mpr ⟨modifierIssues_ok h.modifier, h.value⟩
  · rename_i h1
    split
    · rename_i hd; exact allOk_append.mpr ⟨h.eventIssues hd, h.value⟩
    · rename_i h2
      split
      · rename_i hd; exact allOk_append.mpr ⟨h.useIssues hd, h.value⟩
      · rename_i h3
        split
        · rename_i hd; exact allOk_cons.mpr ⟨⟨hd, h.dir⟩, allOk_nil⟩
        · rename_i h4
          refine allOk_cons.mpr ⟨⟨?_, h.dir⟩, allOk_nil⟩
          simp only [List.mem_cons, List.not_mem_nil, or_false, not_or] at h1 h4 ⊢
          exact ⟨h1.1, h1.2.1, h1.2.2, h2, h3, h4.1, h4.2⟩

theorem DirOk.onComponent : AllOk lp e0 ts0 d.issuesOnComponent := by
  unfold Directive.issuesOnComponent
  split
  · rename_i hd; exact h.cloneIssues hd
  · rename_i h1
    split
    · exact h.value
    · rename_i h2
      split
      · rename_i hd
        refine allOk_append.mpr ⟨?_, h.value⟩
        split
        · exact allOk_nil
        · exact h.keyIssues (by simp [hd])
      · rename_i h3
        split
        · rename_i hd; exact allOk_append.mpr ⟨h.keyIssues (by simp [hd]), h.value⟩
        · rename_i h4
          split
          · rename_i hd; exact allOk_append.mpr ⟨h.eventIssues hd, h.value⟩
          · rename_i h5
            split
            · rename_i hd; exact allOk_append.mpr ⟨h.useIssues hd, h.value⟩
            · rename_i h6
              refine allOk_cons.mpr ⟨⟨?_, h.dir⟩, allOk_nil⟩
              simp only [List.mem_cons, List.not_mem_nil, or_false, not_or] at h2 ⊢
              exact ⟨h2.1, h2.2, h4, h5, h6, h3, h1⟩

theorem DirOk.onSlot : AllOk lp e0 ts0 (Attr.directive d).issuesOnSlot := by
  simp only [Attr.issuesOnSlot]
  split
  · rename_i hd; exact h.cloneIssues hd
  · rename_i hd; exact allOk_cons.mpr ⟨⟨hd, h.dir⟩, allOk_nil⟩

end

/-! ### attributes -/

/-- The parts of an attribute are where they should be. -/
def AttrOk (lp : PathParser σ pp) (e0 : σ) (ts0 : Toks σ) (a : Attr σ) : Prop :=
  (∀ k, AllOk lp e0 ts0 (a.issuesOnElement k)) ∧ AllOk lp e0 ts0 a.issuesOnComponent ∧ AllOk lp e0 ts0 a.issuesOnSlot

theorem kv_ok {a : KvAttr σ} (h : AllOk lp e0 ts0 a.value.issues) : AttrOk lp e0 ts0 (.kv a) := by
  have hc : AllOk lp e0 ts0 a.issuesOnComponent := allOk_append.mpr ⟨nameIssues_ok _, h⟩
  refine ⟨fun k => allOk_append.mpr ⟨?_, h⟩, hc, hc⟩
  split
  · exact allOk_nil
  · exact nameIssues_ok _

theorem dir_ok {d : Directive σ} (h : DirOk lp e0 ts0 d) : AttrOk lp e0 ts0 (.directive d) :=
  ⟨fun _ => h.onElement, h.onComponent, h.onSlot⟩

theorem spread_ok {s : Spread σ} {c r : Toks σ} (h : Has e0 ts0 (.group .brace c s.braces :: r)) (hc : IsSpread (eraseToks c)) :
    AttrOk lp e0 ts0 (.spread s) :=
  ⟨fun _ => allOk_nil, allOk_nil, allOk_cons.mpr ⟨⟨c, s.braces, r, h, hc, rfl⟩, allOk_nil⟩⟩

theorem attrs_cons {a : Attr σ} {as : List (Attr σ)} (h : AttrOk lp e0 ts0 a) (hs : ∀ a ∈ as, AttrOk lp e0 ts0 a) :
    ∀ b ∈ a :: as, AttrOk lp e0 ts0 b := by
  intro b hb
  cases hb with
  | head => exact h
  | tail _ hb => exact hs b hb

theorem key_ok {is : List (Issue σ)} {key : KebabOrStr σ} {rest : Toks σ} (h : ReadsKey ts is key rest) (hf : From e0 ts0 e ts) :
    AllOk lp e0 ts0 is ∧ From e0 ts0 e rest := by
  cases h with
  | str => exact ⟨allOk_nil, hf.next⟩
  | name hn => exact ⟨hn.raw hf, hn.from hf⟩

theorem attrs_ok {is : List (Issue σ)} {as : List (Attr σ)} {left : Toks σ} (h : ReadsAttrs e ts is as left)
    (hf : From e0 ts0 e ts) :
    AllOk lp e0 ts0 is ∧ (∀ a ∈ as, AttrOk lp e0 ts0 a) ∧ From e0 ts0 e left := by
  induction h with
  | short hn _ ih =>
    obtain ⟨h1, h2, h3⟩ := ih hf.next
    exact ⟨allOk_append.mpr ⟨hn.raw hf.inside, allOk_append.mpr ⟨nameIssues_ok _, h1⟩⟩, attrs_cons (kv_ok allOk_nil) h2, h3⟩
  | spread _ ih =>
    obtain ⟨h1, h2, h3⟩ := ih hf.next
    exact ⟨h1, attrs_cons (spread_ok hf.has ⟨_, _, by simp only [eraseToks, TT.erase]; rfl⟩) h2, h3⟩
  | kv hn _ hv _ ih =>
    obtain ⟨g1, g2, -, g4⟩ := readsEq_ok (lp := lp) hv (hn.from hf)
    obtain ⟨h1, h2, h3⟩ := ih g4
    refine ⟨allOk_append.mpr ⟨hn.raw hf, allOk_append.mpr ⟨g1, h1⟩⟩, attrs_cons (kv_ok ?_) h2, h3⟩
    rename_i v _ _ _ _ _ _
    cases v with
    | none => exact allOk_nil
    | some v => exact g2
  | dirShort hn hm _ ih =>
    obtain ⟨g1, g2⟩ := modifier_ok hm hf.next.next.next
    obtain ⟨h1, h2, h3⟩ := ih g2
    refine ⟨allOk_append.mpr ⟨hn.raw hf.next.next.inside, allOk_append.mpr ⟨nameIssues_ok _, h1⟩⟩,
      attrs_cons (dir_ok ⟨⟨_, _, _, hf.has⟩, fun x hx => (nomatch hx), g1, allOk_nil, fun hd v hv => ?_⟩) h2, h3⟩
    cases hv
    exact .inr ⟨_, _, _, _, _, _, _, hf.has, hd, rfl⟩
  | dir hk hm hv _ ih =>
    rename_i key _ _ _ _ _ _ _ _ _ _
    have hkey := key_ok (lp := lp) hk hf.next.next
    obtain ⟨g1, g2⟩ := modifier_ok hm hkey.2
    obtain ⟨v1, v2, v3, v4⟩ := readsEq_ok (lp := lp) hv g2
    obtain ⟨h1, h2, h3⟩ := ih v4
    refine ⟨allOk_append.mpr ⟨hkey.1, allOk_append.mpr ⟨v1, h1⟩⟩,
      attrs_cons (dir_ok ⟨⟨_, _, _, hf.has⟩, fun x hx => ?_, g1, v2, fun _ => v3⟩) h2, h3⟩
    cases hk with
    | str => cases hx; exact ⟨_, _, _, hf.has⟩
    | name hn => cases hx
  | dirMore hn =>
    refine ⟨allOk_append.mpr ⟨hn.raw hf.next.next.inside, allOk_cons.mpr ⟨?_, allOk_nil⟩⟩, by simp, hf.nil⟩
    exact ⟨_, _, _, _, _, _, _, _, _, _, _, hf, hn, rfl⟩
  | dirNoName hn => exact ⟨allOk_cons.mpr ⟨⟨_, _, hf.next.next.inside, hn, rfl⟩, allOk_nil⟩, by simp, hf.nil⟩
  | dirNoKey hn _ _ => exact ⟨allOk_cons.mpr ⟨⟨_, _, hf.next.next, hn, rfl⟩, allOk_nil⟩, by simp, hf.nil⟩
  | dirShortNoModifier hn hm =>
    refine ⟨allOk_append.mpr ⟨hn.raw hf.next.next.inside, allOk_append.mpr ⟨nameIssues_ok _, allOk_cons.mpr ⟨?_, allOk_nil⟩⟩⟩,
      by simp, hf.nil⟩
    exact ⟨_, _, _, _, hf.next.next.next, rfl, hm⟩
  | dirNoModifier hk hm =>
    have hkey := key_ok (lp := lp) hk hf.next.next
    exact ⟨allOk_append.mpr ⟨hkey.1, allOk_cons.mpr ⟨⟨_, _, _, _, hkey.2, rfl, hm⟩, allOk_nil⟩⟩, by simp, hf.nil⟩
  | brace hn => exact ⟨hn.raw hf.inside, by simp, hf⟩
  | done _ _ => exact ⟨allOk_nil, by simp, hf⟩

/-! ### tags -/

theorem path_about {r rest : Toks σ} {p : Path σ} (hf : From e0 ts0 e r) (h : lp.run e r = .path p rest) :
    AllOk lp e0 ts0 p.issues := by
  intro i hi
  simp only [Path.issues, List.mem_flatMap] at hi
  obtain ⟨seg, hseg, hi⟩ := hi
  split at hi
  · rename_i inner sp hs
    simp only [List.mem_cons, List.not_mem_nil, or_false] at hi
    subst hi
    exact ⟨e, r, p, rest, seg, inner, hf, h, hseg, hs⟩
  · cases hi

/-- The parts of a tag are where they should be. -/
structure TagOk (lp : PathParser σ pp) (e0 : σ) (ts0 : Toks σ) (e : σ) (r : Toks σ) (tag : Tag σ) : Prop where
  at' : NameAt lp e r tag.place
  path : ∀ p, tag = .component p → AllOk lp e0 ts0 p.issues
  slot : ∀ p, tag = .component p → (∀ i x, p ≠ ⟨none, [⟨i, .none, x⟩]⟩) → ∃ rest, lp.run e r = .path p rest

theorem tagOf_place {k : KebabIdent σ} {tag : Tag σ} (h : tagOf k = some tag) : tag.place = k.place := by
  unfold tagOf at h
  split at h
  · obtain ⟨i, -, rfl⟩ := Option.map_eq_some_iff.mp h
    exact joinOr_self _
  · obtain ⟨i, -, rfl⟩ := Option.map_eq_some_iff.mp h; rfl
  · cases h; rfl
  · obtain ⟨i, -, rfl⟩ := Option.map_eq_some_iff.mp h; rfl
  · obtain ⟨i, -, rfl⟩ := Option.map_eq_some_iff.mp h; rfl

theorem tagOf_component {k : KebabIdent σ} {p : Path σ} (h : tagOf k = some (.component p)) :
    ∃ i, p = .ofIdent i := by
  unfold tagOf at h
  split at h
  · obtain ⟨i, -, h⟩ := Option.map_eq_some_iff.mp h
    cases h
    exact ⟨_, rfl⟩
  · obtain ⟨i, -, h⟩ := Option.map_eq_some_iff.mp h; cases h
  · cases h
  · obtain ⟨i, -, h⟩ := Option.map_eq_some_iff.mp h; cases h
  · obtain ⟨i, -, h⟩ := Option.map_eq_some_iff.mp h; cases h

theorem tag_ok (hc : lp.Consumes) {ti : List (Issue σ)} {tag : Tag σ} {rest : Toks σ} (h : ReadsTag lp e ts ti tag rest)
    (hf : From e0 ts0 e ts) :
    AllOk lp e0 ts0 ti ∧ (Goes ti → TagOk lp e0 ts0 e ts tag ∧ From e0 ts0 e rest) := by
  cases h with
  | path hp hr =>
    refine ⟨allOk_nil, fun _ => ⟨⟨.inr ⟨_, _, hr, rfl⟩, fun p hp => ?_, fun p hp _ => ?_⟩, ?_⟩⟩
    · cases hp; exact path_about hf hr
    · cases hp; exact ⟨_, hr⟩
    · have := hc e ts
      rw [hr] at this
      exact hf.suffix this
  | name hp hn ht =>
    refine ⟨hn.raw hf, fun _ => ⟨⟨.inl ⟨_, _, hn, ?_⟩, fun p hp => ?_, fun p hp hne => ?_⟩, hn.from hf⟩⟩
    · exact tagOf_place ht
    · subst hp
      obtain ⟨i, rfl⟩ := tagOf_component ht
      exact allOk_nil
    · subst hp
      obtain ⟨i, rfl⟩ := tagOf_component ht
      exact absurd rfl (hne _ _)
  | crash hp hn ht =>
    refine ⟨allOk_append.mpr ⟨hn.raw hf, allOk_cons.mpr ⟨trivial, allOk_nil⟩⟩, fun hg => ?_⟩
    exact absurd (goes_append.mp hg).2 goes_crash

/-! ### children -/

/-- The parts of a tree are where they should be. -/
structure TreeOk (lp : PathParser σ pp) (e0 : σ) (ts0 : Toks σ) (cs : List (Child σ)) : Prop where
  nodes : AllOk lp e0 ts0 (nodesIssues cs)
  slots : AllOk lp e0 ts0 (slotsIssues cs)
  words : ∀ p el, .slot p el ∈ cs → ∃ s q r, Has e0 ts0 (.ident (plain c!"slot") p :: .punct ':' s q :: r)
  tags : ∀ t ∈ slotTags cs, ∃ e r, SlotAt e0 ts0 e r ∧ NameAt lp e r t.place

theorem treeOk_nil : TreeOk lp e0 ts0 [] where
  nodes := allOk_nil
  slots := allOk_nil
  words := by intro p el h; cases h
  tags := by intro t h; cases h

theorem TreeOk.value {v : Value σ} {cs : List (Child σ)} (hv : AllOk lp e0 ts0 v.issues) (h : TreeOk lp e0 ts0 cs) :
    TreeOk lp e0 ts0 (.value v :: cs) where
  nodes := by rw [nodesIssues]; exact allOk_append.mpr ⟨hv, h.nodes⟩
  slots := by rw [slotsIssues]; exact h.slots
  words := by
    intro p el hm
    cases hm with
    | tail _ hm => exact h.words p el hm
  tags := h.tags

theorem flat_ok {f : Attr σ → List (Issue σ)} {as : List (Attr σ)} (h : ∀ a ∈ as, AllOk lp e0 ts0 (f a)) :
    AllOk lp e0 ts0 (as.flatMap f) := by
  intro i hi
  obtain ⟨a, ha, hi⟩ := List.mem_flatMap.mp hi
  exact h a ha i hi

theorem method_ok {cs : List (Child σ)} : AllOk lp e0 ts0 (methodIssues cs) := by
  unfold methodIssues
  split
  · exact allOk_nil
  · exact allOk_cons.mpr ⟨trivial, allOk_nil⟩

theorem element_ok {r : Toks σ} {tag : Tag σ} {sels : List (Selector σ)} {attrs : List (Attr σ)} {args : Option (Toks σ)}
    {block : Option (List (Child σ))} (ht : TagOk lp e0 ts0 e r tag) (hs : AllOk lp e0 ts0 (selectorIssues sels))
    (ha : ∀ a ∈ attrs, AttrOk lp e0 ts0 a) (hb : ∀ cs, block = some cs → TreeOk lp e0 ts0 cs) (asSlot : Bool) :
    AllOk lp e0 ts0 ((Element.mk tag sels attrs args block).issues asSlot) := by
  have h1 : AllOk lp e0 ts0 (attrs.flatMap Attr.issuesOnComponent) := flat_ok fun a h => (ha a h).2.1
  have h2 : AllOk lp e0 ts0 (attrs.flatMap Attr.issuesOnSlot) := flat_ok fun a h => (ha a h).2.2
  have h3 : ∀ k, AllOk lp e0 ts0 (attrs.flatMap (Attr.issuesOnElement k)) := fun k => flat_ok fun a h => (ha a h).1 k
  have hcrash : AllOk lp e0 ts0 [.crash] := allOk_cons.mpr ⟨trivial, allOk_nil⟩
  have hm : ∀ cs, AllOk lp e0 ts0 (methodIssues cs) := fun _ => method_ok
  have hp := ht.path
  cases block with
  | none =>
    cases asSlot <;> cases tag <;> simp only [Element.issues, allOk_append] <;> simp [h1, h2, h3, hs, hcrash, hp]
  | some cs =>
    have hb := hb cs rfl
    have hn := hb.nodes
    have hsl := hb.slots
    cases asSlot <;> cases tag <;> simp only [Element.issues, allOk_append] <;> simp [h1, h2, h3, hs, hcrash, hp, hn, hsl, hm]

omit [Spans σ] in
theorem slotName_none {p : Path σ} {sels : List (Selector σ)} {attrs : List (Attr σ)} {args : Option (Toks σ)}
    {block : Option (List (Child σ))} (h : ¬ (Element.mk (.component p) sels attrs args block).slotName.isSome) :
    ∀ i x, p ≠ ⟨none, [⟨i, .none, x⟩]⟩ := by
  rintro i x rfl
  exact h rfl

theorem TreeOk.elem {r0 : Toks σ} {slot : Option σ} {tag : Tag σ} {sels : List (Selector σ)} {attrs : List (Attr σ)}
    {args : Option (Toks σ)} {block : Option (List (Child σ))} {cs : List (Child σ)} (hst : ElemStart ts slot r0)
    (hf : From e0 ts0 e ts) (ht : TagOk lp e0 ts0 e r0 tag) (hs : AllOk lp e0 ts0 (selectorIssues sels))
    (ha : ∀ a ∈ attrs, AttrOk lp e0 ts0 a) (hb : ∀ cs, block = some cs → TreeOk lp e0 ts0 cs) (h : TreeOk lp e0 ts0 cs) :
    TreeOk lp e0 ts0 (asChild slot (.mk tag sels attrs args block) :: cs) := by
  have he := element_ok (args := args) ht hs ha hb
  cases hst with
  | elem _ _ => exact {
      nodes := by simp only [asChild]; rw [nodesIssues]; exact allOk_append.mpr ⟨he false, h.nodes⟩
      slots := by simp only [asChild]; rw [slotsIssues]; exact h.slots
      words := by
        intro p el hm
        cases hm with
        | tail _ hm => exact h.words p el hm
      tags := h.tags }
  | slot _ => exact {
      nodes := by simp only [asChild]; rw [nodesIssues]; exact h.nodes
      slots := by
        simp only [asChild]; rw [slotsIssues]
        refine allOk_append.mpr ⟨?_, h.slots⟩
        cases tag with
        | component p =>
          simp only [Element.tag]
          split
          · exact he true
          · rename_i hn
            have hne := slotName_none hn
            obtain ⟨rest, hr⟩ := ht.slot p rfl hne
            exact allOk_cons.mpr ⟨⟨e, r0, p, rest, ⟨_, _, _, hf⟩, hr, rfl, hne⟩, allOk_nil⟩
        | _ => exact allOk_cons.mpr ⟨trivial, allOk_nil⟩
      words := by
        intro p el hm
        cases hm with
        | head => exact ⟨_, _, _, hf.has⟩
        | tail _ hm => exact h.words p el hm
      tags := by
        intro t hm
        cases hm with
        | head => exact ⟨e, r0, ⟨_, _, _, hf⟩, ht.at'⟩
        | tail _ hm => exact h.tags t hm }

omit [Spans σ] in
theorem ElemStart.from {slot : Option σ} {r : Toks σ} (h : ElemStart ts slot r) (hf : From e0 ts0 e ts) : From e0 ts0 e r := by
  cases h with
  | slot _ => exact hf.next.next
  | elem _ _ => exact hf

theorem NoTag.about (hc : lp.Consumes) {x : Err} {p : σ} {rest : Toks σ} (h : NoTag lp e ts x p rest) (hf : From e0 ts0 e ts) :
    From e0 ts0 e rest ∧ About lp e0 ts0 p (.synError x) ∧
      ∀ s q r, rest = .punct ';' s q :: r → About lp e0 ts0 p .extraSemicolon := by
  cases h with
  | path hp hr =>
    refine ⟨?_, ⟨e, ts, rest, hf, hr⟩, fun _ _ _ _ => .inr ⟨e, ts, rest, hf, hr⟩⟩
    have := hc e ts
    rw [hr] at this
    exact hf.suffix this
  | name _ hn =>
    refine ⟨hf, ⟨e, ts, hf, hn, rfl⟩, ?_⟩
    rintro s q r rfl
    exact .inl ⟨s, r, hf.has⟩

mutual
theorem end_ok (hc : lp.Consumes) {e tp : σ} {ts : Toks σ} {is : List (Issue σ)} {args : Option (Toks σ)}
    {block : Option (List (Child σ))} {rest : Toks σ} (h : ReadsEnd lp e tp ts is args block rest) (hf : From e0 ts0 e ts)
    (ht : TagAt lp e0 ts0 tp) :
    Until lp e0 ts0 is ∧ (Goes is → (∀ cs, block = some cs → TreeOk lp e0 ts0 cs) ∧ From e0 ts0 e rest) :=
  match h with
  | .semi => ⟨trivial, fun _ => ⟨fun _ h => (nomatch h), hf.next⟩⟩
  | .block _ hr =>
    have ih := children_ok hc hr hf.inside
    ⟨ih.1, fun hg => ⟨fun cs h => by cases h; exact ih.2 hg, hf.next⟩⟩
  | .closure _ _ hr =>
    have ih := children_ok hc hr hf.next.append.next.inside
    ⟨ih.1, fun hg => ⟨fun cs h => by cases h; exact ih.2 hg, hf.next.append.next.next⟩⟩
  | .nothing => ⟨⟨ht, trivial⟩, fun _ => ⟨fun _ h => (nomatch h), hf⟩⟩
  | .noBlock hn hr => ⟨⟨⟨e, _, _, _, _, _, _, hf, hn, rfl, hr⟩, trivial⟩, fun _ => ⟨fun _ h => (nomatch h), hf.next.append.next⟩⟩
  | .other h1 h2 h3 =>
    ⟨⟨⟨e, _, _, hf, rfl, h1, h2, h3⟩, ⟨tp, e, _, _, ht, hf, rfl, h1, h2, h3⟩, trivial⟩, fun _ => ⟨fun _ h => (nomatch h), hf⟩⟩

theorem children_ok (hc : lp.Consumes) {e : σ} {ts : Toks σ} {is : List (Issue σ)} {cs : List (Child σ)}
    (h : ReadsChildren lp e ts is cs) (hf : From e0 ts0 e ts) :
    Until lp e0 ts0 is ∧ (Goes is → TreeOk lp e0 ts0 cs) :=
  match h with
  | .nil => ⟨trivial, fun _ => treeOk_nil⟩
  | .value hv _ hr =>
    have hok := value_ok (lp := lp) hv hf
    have ih := children_ok hc hr hok.2
    ⟨ih.1, fun hg => (ih.2 hg).value hok.1⟩
  | .literal hv hl hr =>
    have hok := value_ok (lp := lp) hv hf
    have ih := children_ok hc hr hok.2
    ⟨⟨⟨_, _, _, hf.has, hv, hl⟩, ih.1⟩, fun hg => (ih.2 (goes_cons.mp hg)).value allOk_nil⟩
  | .elem hst htag hsel hattr hend hr => by
    obtain ⟨t1, t2⟩ := tag_ok hc htag (hst.from hf)
    constructor
    · refine t1.until.append fun g1 => ?_
      obtain ⟨tok, f1⟩ := t2 g1
      obtain ⟨s1, s2, f2⟩ := sels_ok (lp := lp) hsel f1
      obtain ⟨a1, a2, f3⟩ := attrs_ok (lp := lp) hattr f2
      obtain ⟨e1, e2⟩ := end_ok hc hend f3 ⟨_, _, hst.from hf, tok.at'⟩
      exact s1.until.append fun _ => a1.until.append fun _ => e1.append fun g => (children_ok hc hr (e2 g).2).1
    · intro hg
      rw [goes_append, goes_append, goes_append, goes_append] at hg
      obtain ⟨tok, f1⟩ := t2 hg.1
      obtain ⟨s1, s2, f2⟩ := sels_ok (lp := lp) hsel f1
      obtain ⟨a1, a2, f3⟩ := attrs_ok (lp := lp) hattr f2
      obtain ⟨e1, e2⟩ := end_ok hc hend f3 ⟨_, _, hst.from hf, tok.at'⟩
      obtain ⟨b, f4⟩ := e2 hg.2.2.2.1
      exact ((children_ok hc hr f4).2 hg.2.2.2.2).elem hst hf tok s2 a2 b
  | .unclosed hst htag hsel hattr hn => by
    obtain ⟨t1, t2⟩ := tag_ok hc htag (hst.from hf)
    constructor
    · refine t1.until.append fun g1 => ?_
      obtain ⟨tok, f1⟩ := t2 g1
      obtain ⟨s1, s2, f2⟩ := sels_ok (lp := lp) hsel f1
      obtain ⟨a1, a2, f3⟩ := attrs_ok (lp := lp) hattr f2
      exact s1.until.append fun _ => a1.until.append fun _ => ⟨⟨_, _, f3.has, hn⟩, trivial⟩
    · exact fun _ => treeOk_nil
  | .noTagSemi hst hno hr =>
    have hn := hno.about hc (hst.from hf)
    have ih := children_ok hc hr hn.1.next
    ⟨⟨hn.2.2 _ _ _ rfl, ih.1⟩, fun hg => ih.2 (goes_cons.mp hg)⟩
  | .noTag hst hno _ => ⟨⟨(hno.about hc (hst.from hf)).2.1, trivial⟩, fun _ => treeOk_nil⟩
  | .semi hr =>
    have ih := children_ok hc hr hf.next
    ⟨⟨.inl ⟨_, _, hf.has⟩, ih.1⟩, fun hg => ih.2 (goes_cons.mp hg)⟩
  | .other h1 h2 h3 => ⟨⟨⟨e, _, _, hf, rfl, h1, h2, h3⟩, trivial⟩, fun _ => treeOk_nil⟩
end

theorem root_ok {cs : List (Child σ)} (h : TreeOk lp e0 ts0 cs) : AllOk lp e0 ts0 (rootIssues cs) := by
  unfold rootIssues
  split
  · exact allOk_cons.mpr ⟨.inl (h.words _ _ (.head _)), allOk_nil⟩
  · rename_i ht
    exact allOk_cons.mpr ⟨.inr (h.tags _ (ht ▸ .head _)), allOk_nil⟩
  · exact h.nodes

/-- The errors of the verdict. -/
theorem verdict_ok {is : List (Issue σ)} (h : Until lp e0 ts0 is) :
    (∀ ds, verdict is = .errors ds → ∀ d ∈ ds, About lp e0 ts0 d.sp d.diag) ∧
    (∀ ds, verdict is = .stopped ds → ∀ d ∈ ds, About lp e0 ts0 d.sp d.diag) := by
  induction is with
  | nil => exact ⟨fun ds hd => (by cases hd; simp), fun ds hd => (by cases hd)⟩
  | cons i is ih =>
    cases i with
    | report d p =>
      obtain ⟨h1, h2⟩ := ih h.2
      simp only [verdict]
      cases hv : verdict is with
      | errors es =>
        refine ⟨fun ds hd => ?_, fun ds hd => by cases hd⟩
        cases hd
        intro d' hd'
        cases hd' with
        | head => exact h.1
        | tail _ hd' => exact h1 es hv d' hd'
      | stopped es =>
        refine ⟨fun ds hd => (by cases hd), fun ds hd => ?_⟩
        cases hd
        intro d' hd'
        cases hd' with
        | head => exact h.1
        | tail _ hd' => exact h2 es hv d' hd'
      | crashed => exact ⟨fun ds hd => (by cases hd), fun ds hd => (by cases hd)⟩
    | stop d p =>
      refine ⟨fun ds hd => (by cases hd), fun ds hd => ?_⟩
      cases hd
      intro d' hd'
      cases hd' with
      | head => exact h
      | tail _ hd' => cases hd'
    | crash => exact ⟨fun ds hd => (by cases hd), fun ds hd => (by cases hd)⟩

end Mview.Loc
