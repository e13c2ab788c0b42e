import Verif.Lemmas.AdviceEnds
import Verif.Props.Reads
/-
Which errors are not about the tree, and where reported errors come from.
-/

namespace Mview
open Lex

variable {pp : PathParser}

/-- not about the error `D`, unless that is about a modifier, which is reported but does not stop the macro -/
def Apart (D : Diag) (is : List Issue) : Prop :=
  ∀ i ∈ is, (i = .report D → ∃ m, D = .unknownModifier m) ∧ i ≠ .stop D

theorem Apart.nil {D : Diag} : Apart D [] := by simp [Apart]

theorem Apart.append {D : Diag} {a b : List Issue} (ha : Apart D a) (hb : Apart D b) : Apart D (a ++ b) := by
  intro i hi
  rcases List.mem_append.mp hi with h | h
  · exact ha i h
  · exact hb i h

theorem Apart.ite {D : Diag} {c : Prop} [Decidable c] {a b : List Issue} (ha : Apart D a) (hb : Apart D b) :
    Apart D (if c then a else b) := by split <;> assumption

theorem Apart.flatMap {α : Type} {D : Diag} {f : α → List Issue} {l : List α} (h : ∀ a, Apart D (f a)) :
    Apart D (l.flatMap f) := by
  intro i hi
  obtain ⟨a, -, ha⟩ := List.mem_flatMap.mp hi
  exact h a i ha

theorem Apart.report {D d : Diag} (h : D ≠ d) : Apart D [.report d] := by
  intro i hi
  simp only [List.mem_singleton] at hi
  subst hi
  exact ⟨fun he => absurd (Issue.report.inj he).symm h, by simp⟩

theorem Apart.modifier {D : Diag} {m : Ident} : Apart D [.report (.unknownModifier m)] := by
  intro i hi
  simp only [List.mem_singleton] at hi
  subst hi
  exact ⟨fun he => ⟨m, (Issue.report.inj he).symm⟩, by simp⟩

theorem Apart.stop {D d : Diag} (h : D ≠ d) : Apart D [.stop d] := by
  intro i hi
  simp only [List.mem_singleton] at hi
  subst hi
  exact ⟨by simp, fun he => h (Issue.stop.inj he).symm⟩

theorem Apart.crash {D : Diag} : Apart D [.crash] := by
  intro i hi
  simp only [List.mem_singleton] at hi
  subst hi
  simp

section
variable {D : Diag} (hD : D.Late)

theorem not_name (n : Str) : Apart D (nameIssues n) := .ite .nil .crash

include hD

theorem not_value (v : Value) : Apart D v.issues := by
  unfold Value.issues
  split
  · exact .ite .nil (.report (by rintro rfl; exact hD))
  · exact .nil

theorem not_opt (v : Option Value) : Apart D (optIssues v) := by
  cases v
  · exact .nil
  · exact not_value hD _

theorem not_modifier (m : Option Ident) : Apart D (modifierIssues m) := by
  cases m
  · exact .nil
  · exact .report (by rintro rfl; exact hD)

theorem not_key (k : KebabOrStr) : Apart D k.issues := by
  cases k
  · exact not_name _
  · exact .report (by rintro rfl; exact hD)

theorem not_event (d : Directive) : Apart D d.eventIssues := by
  unfold Directive.eventIssues
  refine .append ?_ ?_
  · split
    · exact not_name _
    · exact .report (by rintro rfl; exact hD)
  · split
    · exact .ite .nil .modifier
    · exact .nil

theorem not_use (d : Directive) : Apart D d.useIssues := .append (not_key hD _) (not_modifier hD _)

theorem not_clone (d : Directive) : Apart D d.cloneIssues :=
  .append (.append (.append (not_modifier hD _) (not_key hD _)) (not_modifier hD _))
    (.ite (.report (by rintro rfl; exact hD)) .nil)

theorem not_onElement (k : TagKind) (a : Attr) : Apart D (a.issuesOnElement k) := by
  cases a with
  | kv a => exact .append (.ite .nil (not_name _)) (not_value hD _)
  | directive d =>
    refine .ite (.append (not_modifier hD _) (not_opt hD _)) (.ite (.append (not_event hD _) (not_opt hD _))
      (.ite (.append (not_use hD _) (not_opt hD _)) (.ite (.report ?_) (.report ?_)))) <;> (rintro rfl; exact hD)
  | spread => exact .nil

theorem not_onComponent (a : Attr) : Apart D a.issuesOnComponent := by
  cases a with
  | kv a => exact .append (not_name _) (not_value hD _)
  | directive d =>
    refine .ite (not_clone hD _) (.ite (not_opt hD _) (.ite (.append (.ite .nil (not_key hD _)) (not_opt hD _))
      (.ite (.append (not_key hD _) (not_opt hD _)) (.ite (.append (not_event hD _) (not_opt hD _))
      (.ite (.append (not_use hD _) (not_opt hD _)) (.report ?_))))))
    rintro rfl; exact hD
  | spread => exact .nil

theorem not_onSlot (a : Attr) : Apart D a.issuesOnSlot := by
  cases a with
  | kv a => exact .append (not_name _) (not_value hD _)
  | directive d =>
    refine .ite (not_clone hD _) (.report ?_)
    rintro rfl; exact hD
  | spread => exact .report (by rintro rfl; exact hD)

theorem not_path (p : Path) : Apart D p.issues := by
  refine .flatMap fun seg => ?_
  split
  · exact .stop (by rintro rfl; exact hD)
  · exact .nil

theorem not_method (cs : List Child) : Apart D (methodIssues cs) := .ite .nil .crash

theorem not_selector (sels : List Selector) :
    Apart D (if sels.isEmpty then [] else [.report .selectorOnSlot]) := by
  refine .ite .nil (.report ?_)
  rintro rfl
  exact hD

mutual
theorem not_element (b : Bool) : ∀ e : Element, Apart D (e.issues b)
  | .mk tag sels attrs _ none => by
    unfold Element.issues
    split
    · exact .append (not_path hD _) (.flatMap (not_onComponent hD))
    · exact .append (.append (not_path hD _) (not_selector hD _)) (.flatMap (not_onSlot hD))
    · exact .flatMap (not_onElement hD _)
    · exact .crash
  | .mk tag sels attrs _ (some cs) => by
    unfold Element.issues
    split
    · exact .append (.append (.append (.append (not_path hD _) (.flatMap (not_onComponent hD))) (not_nodes cs))
        (not_slots cs)) (not_method hD _)
    · exact .append (.append (.append (.append (.append (not_path hD _) (not_selector hD _))
        (.flatMap (not_onSlot hD))) (not_nodes cs)) (not_slots cs)) (not_method hD _)
    · exact .append (.flatMap (not_onElement hD _)) (not_nodes cs)
    · exact .crash
theorem not_nodes : ∀ cs : List Child, Apart D (nodesIssues cs)
  | [] => by unfold nodesIssues; exact .nil
  | .value v :: cs => by unfold nodesIssues; exact .append (not_value hD v) (not_nodes cs)
  | .elem e :: cs => by unfold nodesIssues; exact .append (not_element false e) (not_nodes cs)
  | .slot _ :: cs => by unfold nodesIssues; exact not_nodes cs
theorem not_slots : ∀ cs : List Child, Apart D (slotsIssues cs)
  | [] => by unfold slotsIssues; exact .nil
  | .value v :: cs => by unfold slotsIssues; exact not_slots cs
  | .elem e :: cs => by unfold slotsIssues; exact not_slots cs
  | .slot e :: cs => by
    unfold slotsIssues
    refine .append (.ite (.ite (not_element true e) (.report ?_)) .crash) (not_slots cs)
    rintro rfl
    exact hD
end

theorem not_root (cs : List Child) : Apart D (rootIssues cs) := by
  refine .ite (.stop ?_) (not_nodes hD cs)
  rintro rfl
  exact hD

end

/-! ### nothing of the kind stops the macro -/

/-- not stopped by the error `D` -/
def Passes (D : Diag) (is : List Issue) : Prop := Issue.stop D ∉ is

section
variable {D : Diag} (hD : D.Late)
include hD

theorem not_passes {is : List Issue} (h : Apart D is) : Passes D is := fun hm => (h _ hm).2 rfl

omit hD in
theorem Passes.append {a b : List Issue} (ha : Passes D a) (hb : Passes D b) : Passes D (a ++ b) := by
  intro h
  rcases List.mem_append.mp h with h | h
  · exact ha h
  · exact hb h

omit hD in
theorem raw_passes {run : Toks} : Passes D (rawIssues run) := by simp [Passes, rawIssues]

theorem stop_passes {d : Err} : Passes D [.stop (.synAbort d)] := by
  intro h
  simp only [List.mem_singleton, Issue.stop.injEq] at h
  subst h
  exact hD

omit hD in
theorem report_passes {d : Diag} : Passes D [.report d] := by simp [Passes]

omit hD in
theorem eq_passes {ts rest : Toks} {is : List Issue} {v : Option Value} (h : ReadsEq ts is v rest) : Passes D is := by
  cases h with
  | none => simp [Passes]
  | some h => cases h <;> simp [Passes]

omit hD in
theorem key_passes {ts rest : Toks} {is : List Issue} {k : KebabOrStr} (h : ReadsKey ts is k rest) : Passes D is := by
  cases h with
  | str => simp [Passes]
  | name => exact raw_passes

omit hD in
theorem name_passes {n : Str} : Passes D (nameIssues n) := by unfold nameIssues Passes; split <;> simp

theorem attrs_passes {ts rest : Toks} {is : List Issue} {as : List Attr} (h : ReadsAttrs ts is as rest) :
    Passes D is := by
  induction h with
  | short _ _ ih => exact raw_passes.append (name_passes.append ih)
  | spread _ ih => exact ih
  | kv _ _ he _ ih => exact raw_passes.append ((eq_passes he).append ih)
  | dirShort _ _ _ ih => exact raw_passes.append (name_passes.append ih)
  | dir hk _ he _ ih => exact (key_passes hk).append ((eq_passes he).append ih)
  | dirMore => exact raw_passes.append (stop_passes hD)
  | dirNoName => exact stop_passes hD
  | dirNoKey => exact stop_passes hD
  | dirShortNoModifier => exact raw_passes.append (name_passes.append (stop_passes hD))
  | dirNoModifier hk => exact (key_passes hk).append (stop_passes hD)
  | brace => exact raw_passes
  | done => simp [Passes]

omit hD in
theorem sels_passes {ts rest : Toks} {is : List Issue} {sels : List Selector} (h : ReadsSels ts is sels rest) :
    Passes D is := by
  induction h with
  | cls _ _ ih | id _ _ ih => exact raw_passes.append ih
  | done => simp [Passes]

omit hD in
theorem tag_passes {ts rest : Toks} {is : List Issue} {tag : Tag} (h : ReadsTag pp ts is tag rest) : Passes D is := by
  cases h with
  | path => simp [Passes]
  | name => exact raw_passes
  | crash => exact raw_passes.append (by simp [Passes])

theorem children_passes {ts : Toks} {is : List Issue} {cs : List Child} (h : ReadsChildren pp ts is cs) :
    Passes D is := by
  refine ReadsChildren.rec (motive_1 := fun _ ei _ _ _ _ => Passes D ei)
    (motive_2 := fun _ is _ _ => Passes D is) ?_ ?_ ?_ ?_ ?_ ?_ ?_ ?_ ?_ ?_ ?_ ?_ ?_ ?_ ?_ h
  · intros; simp [Passes]
  · intro _ _ _ _ _ _ _ ih; exact ih
  · intro _ _ _ _ _ _ _ _ _ _ _ ih; exact ih
  · exact report_passes
  · intros; exact report_passes
  · intros; simp [Passes]
  · simp [Passes]
  · intro _ _ _ _ _ _ _ ih; exact ih
  · intro _ _ _ _ _ _ _ ih; exact report_passes.append ih
  · intro _ _ _ _ _ _ _ _ _ _ _ _ _ _ _ _ _ _ _ ht hs ha _ _ ih1 ih2
    exact (tag_passes ht).append ((sels_passes hs).append ((attrs_passes hD ha).append (ih1.append ih2)))
  · intro _ _ _ _ _ _ _ _ _ _ _ _ _ _ ht hs ha _
    exact (tag_passes ht).append ((sels_passes hs).append ((attrs_passes hD ha).append report_passes))
  · intro _ _ _ _ _ _ _ _ _ _ _ ih; exact report_passes.append ih
  · intros; exact report_passes
  · intro _ _ _ _ _ ih; exact report_passes.append ih
  · intros; exact report_passes

end

/-! ### reported errors -/

/-- the errors of a verdict -/
def Verdict.list : Verdict → Option (List Diag)
  | .errors ds => some ds
  | .stopped ds => some ds
  | .crashed => none

theorem is_reported {r : MacroResult} {v : Verdict} (h : r.Is v) : r.reported = v.list := by
  cases r <;> cases v <;> simp_all [MacroResult.Is, MacroResult.reported, Verdict.list]
  all_goals (rename_i a b; cases b <;> simp_all [MacroResult.Is])

theorem add_list {d : Diag} {v : Verdict} : (v.add d).list = v.list.map (d :: ·) := by cases v <;> rfl

theorem verdict_list {ds : List Diag} {is : List Issue} :
    (verdict (ds.map .report ++ is)).list = (verdict is).list.map (ds ++ ·) := by
  induction ds with
  | nil => simp
  | cons d ds ih =>
    simp only [List.map_cons, List.cons_append, verdict, add_list, ih, Option.map_map]
    rfl

theorem verdict_split {D : Diag} {B : List Diag} : ∀ {A : List Diag} {is : List Issue},
    (verdict is).list = some (A ++ D :: B) →
    (∃ R, is = A.map .report ++ .report D :: R) ∨ ∃ R, is = A.map .report ++ .stop D :: R
  | A, [], h => by simp [verdict, Verdict.list] at h
  | A, .crash :: is, h => by simp [verdict, Verdict.list] at h
  | [], .stop d :: is, h => by
    simp only [verdict, Verdict.list, List.nil_append, Option.some.injEq, List.cons.injEq] at h
    exact .inr ⟨is, by rw [h.1]; rfl⟩
  | a :: A, .stop d :: is, h => by
    simp [verdict, Verdict.list] at h
  | [], .report d :: is, h => by
    simp only [verdict, add_list] at h
    cases hv : (verdict is).list with
    | none => rw [hv] at h; cases h
    | some l =>
      rw [hv] at h
      simp only [Option.map_some, List.nil_append, Option.some.injEq, List.cons.injEq] at h
      exact .inl ⟨is, by rw [h.1]; rfl⟩
  | a :: A, .report d :: is, h => by
    simp only [verdict, add_list] at h
    cases hv : (verdict is).list with
    | none => rw [hv] at h; cases h
    | some l =>
      rw [hv] at h
      simp only [Option.map_some, List.cons_append, Option.some.injEq, List.cons.injEq] at h
      rw [h.2] at hv
      rcases verdict_split hv with ⟨R, rfl⟩ | ⟨R, rfl⟩
      · exact .inl ⟨R, by rw [h.1]; rfl⟩
      · exact .inr ⟨R, by rw [h.1]; rfl⟩

theorem semi_lexical {D : Diag} {ds : List Issue} {ts ts' : Toks} (h : Somewhere (SemiAt D ds) ts ts')
    (hl : LexicalToks ts) : LexicalToks ts' := by
  induction h with
  | here h =>
    obtain ⟨pre, post, -, rfl, rfl⟩ := h
    obtain ⟨h1, h2⟩ := lexical_append.mp hl
    refine lexical_append.mpr ⟨h1, ?_⟩
    exact lexical_append (a := [.punct ';' .alone]).mpr ⟨lexical_of rfl, h2⟩
  | inside pre post hd _ ih =>
    obtain ⟨h1, h2⟩ := lexical_append.mp hl
    obtain ⟨h3, h4⟩ := (lexical_group hd).mp h2
    exact lexical_append.mpr ⟨h1, (lexical_group hd).mpr ⟨ih h3, h4⟩⟩

theorem semi_fix (hpp : pp.Starts) (hloc : pp.Local) (hfl : pp.FailsLocally) {D : Diag} {ds : List Diag} (hD : D.Late)
    (hM : ∀ m, D ≠ .unknownModifier m)
    (hU : ∀ {x}, Unended D [] x ∨ Unended D [.report .childrenNotFound] x → Unended D (ds.map .report) x)
    {s : Sched} {ts : Toks} (hl : LexicalToks ts) (hg : PathsEnd pp D (ds.map .report) ts) {A R : List Diag}
    (h : (mview pp s ts).reported = some (A ++ D :: R)) :
    ∃ B ts', R = ds ++ B ∧ Somewhere (SemiAt D (ds.map .report)) ts ts' ∧ (mview pp s ts').reported = some (A ++ B) := by
  obtain ⟨is, cs, hr⟩ := reading_exists (pp := pp) hl
  have hv := h
  rw [is_reported (reading_exact (s := s) hl hr)] at hv
  have hn := not_root hD cs
  rcases verdict_split hv with ⟨X, hX⟩ | ⟨X, hX⟩
  · rcases split_either hX with ⟨X', rfl, rfl⟩ | ⟨A', -, hA'⟩
    · obtain ⟨B, ts', rfl, hr', -, hs⟩ := children_fix hpp hloc hfl hD hU hr hg (by
        intro i hi; obtain ⟨d, -, rfl⟩ := List.mem_map.mp hi; exact ⟨d, rfl⟩) rfl
      have hv' := is_reported (reading_exact (s := s) (semi_lexical hs hl) hr')
      rw [List.append_assoc, verdict_list] at hv'
      rw [hX, verdict_list] at hv
      simp only [verdict, add_list] at hv
      rw [List.append_assoc, verdict_list] at hv
      cases hq : (verdict (B ++ rootIssues cs)).list with
      | none => rw [hq] at hv; cases hv
      | some l =>
        rw [hq] at hv hv'
        simp only [Option.map_some, Option.some.injEq] at hv hv'
        have := List.append_cancel_left hv
        simp only [List.cons.injEq, true_and] at this
        exact ⟨l, ts', this.symm, hs, hv'⟩
    · obtain ⟨m, hm⟩ := (hn (.report D) (by rw [hA']; simp)).1 rfl
      exact absurd hm (hM m)
  · exfalso
    have : Issue.stop D ∈ is ++ rootIssues cs := by rw [hX]; simp
    rcases List.mem_append.mp this with hm | hm
    · exact children_passes hD hr hm
    · exact (hn _ hm).2 rfl

end Mview
