import Verif.Lemmas.SynPath
import Verif.Lemmas.FewErrors
/-
C62: the example grammar of generic arguments; fuel; function generics are never reported.
-/

namespace Mview
open Lex

/-! ### the example grammar -/

theorem argBody_local {t : TT} {after after' : Toks} : ∀ (used : Toks) (d : Nat),
    argBody d (used ++ t :: after) = (used, t :: after) → argBody d (used ++ t :: after') = (used, t :: after')
  | [], d, h => by
    simp only [List.nil_append] at h ⊢
    unfold argBody at h ⊢
    split at h <;> simp_all
  | x :: used, d, h => by
    have ih := argBody_local (t := t) (after := after) (after' := after') used
    simp only [List.cons_append] at h ⊢
    unfold argBody at h ⊢
    split at h <;> simp_all
    all_goals
      first
      | done
      | (obtain ⟨h1, h2⟩ := h
         have := ih _ (Prod.ext h1 h2)
         simp_all)

theorem simpleArg_some {ts a rest : Toks} (h : simpleArg.run ts = (some a, rest)) : ts = a ++ rest ∧ a ≠ [] ∧
    argBody 0 ts = (a, rest) := by
  have h' := argBody_append 0 ts
  simp only [simpleArg] at h
  split at h
  · simp at h
  · rename_i t a' b hb
    simp only [Prod.mk.injEq, Option.some.injEq] at h
    obtain ⟨rfl, rfl⟩ := h
    rw [hb] at h'
    exact ⟨h', by simp, hb⟩

theorem simpleArg_of {ts a rest : Toks} (h : argBody 0 ts = (a, rest)) (ha : a ≠ []) :
    simpleArg.run ts = (some a, rest) := by
  simp only [simpleArg, h]
  split
  · rename_i he
    simp only [Prod.mk.injEq] at he
    exact absurd he.1 ha
  · rename_i he
    simp only [Prod.mk.injEq] at he
    rw [he.1, he.2]

theorem simpleArg_local : simpleArg.Local := by
  intro used t a after after' _ h
  obtain ⟨h1, h2, h3⟩ := simpleArg_some h
  have := List.append_cancel_right h1
  subst this
  exact simpleArg_of (argBody_local _ _ h3) h2

theorem simpleArg_failsLocally : simpleArg.FailsLocally := by
  intro used s rest rest' h
  simp only [simpleArg] at h
  split at h
  · simp only [Prod.mk.injEq, true_and] at h
    have := List.append_left_eq_self.mp h
    subst this
    rfl
  · simp at h

theorem simpleArg_verbatim : simpleArg.Verbatim := by
  intro ts a rest h i hi
  rw [(simpleArg_some h).1, idents_append, List.mem_append]
  exact .inl hi

theorem simpleArg_sparing : simpleArg.Sparing := by
  intro ts a rest h
  rw [(simpleArg_some h).1, toksLen_append]
  omega

/-! ### fuel -/

variable {ga : ArgParser}

theorem suffix_length {a u b : Toks} (h : a = u ++ b) (hn : u ≠ []) : b.length < a.length := by
  rw [h, List.length_append]
  have := List.length_pos_iff.mpr hn
  omega

theorem synArgs_fuel : ∀ {n m : Nat} {ts : Toks}, ts.length < n → ts.length < m →
    synArgs ga n ts = synArgs ga m ts
  | 0, _, _, h, _ => absurd h (by omega)
  | _ + 1, 0, _, _, h => absurd h (by omega)
  | n + 1, m + 1, ts, h, h' => by
    unfold synArgs
    split
    · rfl
    · split
      · rfl
      · rename_i lt a r ha
        obtain ⟨u, hu, hn⟩ := synArg_suffix ha
        have := suffix_length hu (hn (by simp))
        split
        · rfl
        · split
          · rw [synArgs_fuel (n := n) (m := m) (ts := r.drop 1)] <;> (rw [List.length_drop]; omega)
          · rfl

theorem synSegs_fuel : ∀ {n m : Nat} {ts : Toks}, ts.length < n → ts.length < m →
    synSegs ga n ts = synSegs ga m ts
  | 0, _, _, h, _ => absurd h (by omega)
  | _ + 1, 0, _, _, h => absurd h (by omega)
  | n + 1, m + 1, ts, h, h' => by
    unfold synSegs
    split
    · rfl
    · rename_i seg r ha
      obtain ⟨u, hu, hn⟩ := synSeg_suffix ha
      have := suffix_length hu (hn (by simp))
      split
      · rw [synSegs_fuel (n := n) (m := m) (ts := r.drop 2)] <;> (rw [List.length_drop]; omega)
      · rfl

/-! ### function generics -/

theorem synSeg_plain {ts r : Toks} {seg : PathSeg} (h : synSeg ga ts = (some seg, r)) :
    ∀ inner, seg.args ≠ .paren inner := by
  have ha : ∀ {b ts a}, (synAngle ga b ts).1 = some a → ∀ inner, a ≠ PathArgs.paren inner := by
    intro b ts a h inner
    unfold synAngle at h
    split at h
    · simp at h
    · simp only [Option.some.injEq] at h
      rw [← h]; simp
  unfold synSeg at h
  split at h
  · split at h
    · simp only [Prod.mk.injEq, Option.some.injEq] at h
      rw [← h.1]; simp
    · split at h
      · split at h
        · simp only [Prod.mk.injEq, Option.map_eq_some_iff] at h
          obtain ⟨⟨a, h1, rfl⟩, _⟩ := h
          exact ha h1
        · split at h
          · simp only [Prod.mk.injEq, Option.map_eq_some_iff] at h
            obtain ⟨⟨a, h1, rfl⟩, _⟩ := h
            exact ha h1
          · simp only [Prod.mk.injEq, Option.some.injEq] at h
            rw [← h.1]; simp
      · simp at h
  · simp at h

theorem synSegs_plain : ∀ {n : Nat} {ts r : Toks} {segs : List PathSeg}, synSegs ga n ts = (some segs, r) →
    ∀ seg ∈ segs, ∀ inner, seg.args ≠ .paren inner
  | 0, _, _, _, h => by simp [synSegs] at h
  | n + 1, ts, r, segs, h => by
    unfold synSegs at h
    split at h
    · simp at h
    · rename_i seg r0 ha
      have h1 := synSeg_plain ha
      split at h
      · simp only [Prod.mk.injEq, Option.map_eq_some_iff] at h
        obtain ⟨⟨segs', hs, rfl⟩, _⟩ := h
        have h2 := synSegs_plain (Prod.ext hs rfl)
        intro x hx
        rcases List.mem_cons.mp hx with rfl | hx
        · exact h1
        · exact h2 x hx
      · simp only [Prod.mk.injEq, Option.some.injEq] at h
        rw [← h.1]
        simpa using h1

theorem synPaths_plain : (synPaths ga).NoFunctions := by
  intro ts p rest h
  have h : synRun ga ts = (some p, rest) := h
  unfold synRun at h
  simp only [Prod.mk.injEq, Option.map_eq_some_iff] at h
  obtain ⟨⟨segs, hs, rfl⟩, _⟩ := h
  exact synSegs_plain (Prod.ext hs rfl)

section
variable {pp : PathParser}

/-- Nothing about function generics. -/
def Quiet (is : List Issue) : Prop := Apart .functionGenerics is

theorem raw_quiet {run : Toks} : Quiet (rawIssues run) := by
  intro i hi
  obtain ⟨d, -, rfl⟩ := List.mem_map.mp hi
  simp

theorem reading_name_quiet {n : Str} : Quiet (nameIssues n) := not_name n

theorem eq_quiet {ts rest : Toks} {is : List Issue} {v : Option Value} (h : ReadsEq ts is v rest) : Quiet is := by
  cases h with
  | none => exact .nil
  | some h =>
    cases h
    · exact .nil
    · exact .report (by simp)

theorem key_quiet {ts rest : Toks} {is : List Issue} {k : KebabOrStr} (h : ReadsKey ts is k rest) : Quiet is := by
  cases h with
  | str => exact .nil
  | name => exact raw_quiet

theorem attrs_quiet {ts rest : Toks} {is : List Issue} {as : List Attr} (h : ReadsAttrs ts is as rest) :
    Quiet is := by
  induction h with
  | short _ _ ih => exact .append raw_quiet (.append reading_name_quiet ih)
  | spread _ ih => exact ih
  | kv _ _ he _ ih => exact .append raw_quiet (.append (eq_quiet he) ih)
  | dirShort _ _ _ ih => exact .append raw_quiet (.append reading_name_quiet ih)
  | dir hk _ he _ ih => exact .append (key_quiet hk) (.append (eq_quiet he) ih)
  | dirMore => exact .append raw_quiet (.stop (by simp))
  | dirNoName => exact .stop (by simp)
  | dirNoKey => exact .stop (by simp)
  | dirShortNoModifier => exact .append raw_quiet (.append reading_name_quiet (.stop (by simp)))
  | dirNoModifier hk => exact .append (key_quiet hk) (.stop (by simp))
  | brace => exact raw_quiet
  | done => exact .nil

theorem sels_quiet {ts rest : Toks} {is : List Issue} {sels : List Selector} (h : ReadsSels ts is sels rest) :
    Quiet is := by
  induction h with
  | cls _ _ ih | id _ _ ih => exact .append raw_quiet ih
  | done => exact .nil

theorem tag_quiet {ts rest : Toks} {is : List Issue} {tag : Tag} (h : ReadsTag pp ts is tag rest) : Quiet is := by
  cases h with
  | path => exact .nil
  | name => exact raw_quiet
  | crash => exact .append raw_quiet .crash

theorem children_quiet {ts : Toks} {is : List Issue} {cs : List Child} (h : ReadsChildren pp ts is cs) :
    Quiet is := by
  refine ReadsChildren.rec (motive_1 := fun _ ei _ _ _ _ => Quiet ei)
    (motive_2 := fun _ is _ _ => Quiet is) ?_ ?_ ?_ ?_ ?_ ?_ ?_ ?_ ?_ ?_ ?_ ?_ ?_ ?_ ?_ h
  · intros; exact .nil
  · intro _ _ _ _ _ _ _ ih; exact ih
  · intro _ _ _ _ _ _ _ _ _ _ _ ih; exact ih
  · exact .report (by simp)
  · intros; exact .report (by simp)
  · intros; exact .append (a := [_]) (.report (by simp)) (.report (by simp))
  · exact .nil
  · intro _ _ _ _ _ _ _ ih; exact ih
  · intro _ _ _ _ _ _ _ ih; exact .append (a := [_]) (.report (by simp)) ih
  · intro _ _ _ _ _ _ _ _ _ _ _ _ _ _ _ _ _ _ _ ht hs ha _ _ ih1 ih2
    exact .append (tag_quiet ht) (.append (sels_quiet hs) (.append (attrs_quiet ha) (.append ih1 ih2)))
  · intro _ _ _ _ _ _ _ _ _ _ _ _ _ _ ht hs ha _
    exact .append (tag_quiet ht) (.append (sels_quiet hs) (.append (attrs_quiet ha) (.report (by simp))))
  · intro _ _ _ _ _ _ _ _ _ _ _ ih; exact .append (a := [_]) (.report (by simp)) ih
  · intros; exact .report (by simp)
  · intro _ _ _ _ _ ih; exact .append (a := [_]) (.report (by simp)) ih
  · intros; exact .report (by simp)

/-! the tree -/

/-- The path of a component. -/
def Tag.NoFunctions : Tag → Prop
  | .component p => p.Accepted
  | _ => True

mutual
/-- No path in an element has function generics. -/
def Element.NoFunctions : Element → Prop
  | .mk tag _ _ _ none => tag.NoFunctions
  | .mk tag _ _ _ (some cs) => tag.NoFunctions ∧ childrenNoFunctions cs
/-- No path in children has function generics. -/
def childrenNoFunctions : List Child → Prop
  | [] => True
  | .value _ :: cs => childrenNoFunctions cs
  | .elem e :: cs => e.NoFunctions ∧ childrenNoFunctions cs
  | .slot e :: cs => e.NoFunctions ∧ childrenNoFunctions cs
end

theorem tag_noFunctions (hpp : pp.NoFunctions) {ts rest : Toks} {is : List Issue} {tag : Tag}
    (h : ReadsTag pp ts is tag rest) (hg : Goes is) : tag.NoFunctions := by
  cases h with
  | path _ hr => exact hpp hr
  | name _ _ ht =>
    unfold tagOf at ht
    split at ht
    case h_3 => cases ht; trivial
    all_goals
      rw [Option.map_eq_some_iff] at ht
      obtain ⟨j, _, rfl⟩ := ht
      simp [Tag.NoFunctions, Path.Accepted]
  | crash => simp only [goes_append] at hg; exact absurd (by simp) hg.2.noCrash

theorem children_noFunctions (hpp : pp.NoFunctions) {ts : Toks} {is : List Issue} {cs : List Child}
    (h : ReadsChildren pp ts is cs) : Goes is → childrenNoFunctions cs := by
  refine ReadsChildren.rec (motive_1 := fun _ ei _ b _ _ => Goes ei → ∀ cs, b = some cs → childrenNoFunctions cs)
    (motive_2 := fun _ is cs _ => Goes is → childrenNoFunctions cs) ?_ ?_ ?_ ?_ ?_ ?_ ?_ ?_ ?_ ?_ ?_ ?_ ?_ ?_ ?_ h
  · simp
  · intro _ _ _ _ _ _ _ ih hg cs h; cases h; exact ih hg
  · intro _ _ _ _ _ _ _ _ _ _ _ ih hg cs h; cases h; exact ih hg
  · simp
  · simp
  · simp
  · simp [childrenNoFunctions]
  · intro _ _ _ _ _ _ _ ih hg; simpa [childrenNoFunctions] using ih hg
  · intro _ _ _ _ _ _ _ ih hg; simpa [childrenNoFunctions] using ih hg.tail
  · intro _ b _ _ _ _ _ _ _ _ _ _ _ _ block _ _ _ _ ht hs ha _ _ ih1 ih2 hg
    simp only [goes_append] at hg
    have h1 := tag_noFunctions hpp ht hg.1
    have h2 := ih1 hg.2.2.2.1
    have h3 := ih2 hg.2.2.2.2
    cases b <;> cases block <;> simp [asChild, childrenNoFunctions, Element.NoFunctions, h1, h3]
    · exact h2 _ rfl
    · exact h2 _ rfl
  · simp [childrenNoFunctions]
  · intro _ _ _ _ _ _ _ _ _ _ _ ih hg; exact ih hg.tail
  · simp [childrenNoFunctions]
  · intro _ _ _ _ _ ih hg; exact ih hg.tail
  · simp [childrenNoFunctions]

theorem value_quiet (v : Value) : Quiet v.issues := by
  unfold Value.issues
  split
  · exact .ite .nil (.report (by simp))
  · exact .nil

theorem opt_quiet (v : Option Value) : Quiet (optIssues v) := by
  cases v
  · exact .nil
  · exact value_quiet _

theorem modifier_quiet (m : Option Ident) : Quiet (modifierIssues m) := by
  cases m
  · exact .nil
  · exact .report (by simp)

theorem keyword_quiet (k : KebabOrStr) : Quiet k.issues := by
  cases k
  · exact reading_name_quiet
  · exact .report (by simp)

theorem event_quiet (d : Directive) : Quiet d.eventIssues := by
  unfold Directive.eventIssues
  refine .append ?_ ?_
  · split
    · exact reading_name_quiet
    · exact .report (by simp)
  · split
    · exact .ite .nil .modifier
    · exact .nil

theorem use_quiet (d : Directive) : Quiet d.useIssues := .append (keyword_quiet _) (modifier_quiet _)

theorem clone_quiet (d : Directive) : Quiet d.cloneIssues :=
  .append (.append (.append (modifier_quiet _) (keyword_quiet _)) (modifier_quiet _))
    (.ite (.report (by simp)) .nil)

theorem onElement_quiet (k : TagKind) (a : Attr) : Quiet (a.issuesOnElement k) := by
  cases a with
  | kv a => exact .append (.ite .nil reading_name_quiet) (value_quiet _)
  | directive d =>
    refine .ite (.append (modifier_quiet _) (opt_quiet _)) (.ite (.append (event_quiet _) (opt_quiet _))
      (.ite (.append (use_quiet _) (opt_quiet _)) (.ite (.report ?_) (.report ?_)))) <;> simp
  | spread => exact .nil

theorem onComponent_quiet (a : Attr) : Quiet a.issuesOnComponent := by
  cases a with
  | kv a => exact .append reading_name_quiet (value_quiet _)
  | directive d =>
    refine .ite (clone_quiet _) (.ite (opt_quiet _) (.ite (.append (.ite .nil (keyword_quiet _)) (opt_quiet _))
      (.ite (.append (keyword_quiet _) (opt_quiet _)) (.ite (.append (event_quiet _) (opt_quiet _))
      (.ite (.append (use_quiet _) (opt_quiet _)) (.report ?_))))))
    simp
  | spread => exact .nil

theorem onSlot_quiet (a : Attr) : Quiet a.issuesOnSlot := by
  cases a with
  | kv a => exact .append reading_name_quiet (value_quiet _)
  | directive d => exact .ite (clone_quiet _) (.report (by simp))
  | spread => exact .report (by simp)

theorem path_quiet {p : Path} (h : p.Accepted) : Quiet p.issues := by
  intro i hi
  obtain ⟨seg, hs, hi⟩ := List.mem_flatMap.mp hi
  split at hi
  · rename_i inner ha
    exact absurd ha (h seg hs inner)
  · simp at hi

theorem method_quiet (cs : List Child) : Quiet (methodIssues cs) := .ite .nil .crash

theorem selector_quiet (sels : List Selector) : Quiet (if sels.isEmpty then [] else [.report .selectorOnSlot]) :=
  .ite .nil (.report (by simp))

mutual
theorem element_quiet (b : Bool) : ∀ e : Element, e.NoFunctions → Quiet (e.issues b)
  | .mk tag sels attrs _ none, h => by
    unfold Element.issues
    unfold Element.NoFunctions at h
    split
    · exact .append (path_quiet h) (.flatMap onComponent_quiet)
    · exact .append (.append (path_quiet h) (selector_quiet _)) (.flatMap onSlot_quiet)
    · exact .flatMap (onElement_quiet _)
    · exact .crash
  | .mk tag sels attrs _ (some cs), h => by
    unfold Element.issues
    unfold Element.NoFunctions at h
    split
    · exact .append (.append (.append (.append (path_quiet h.1) (.flatMap onComponent_quiet)) (nodes_quiet cs h.2))
        (slots_quiet cs h.2)) (method_quiet _)
    · exact .append (.append (.append (.append (.append (path_quiet h.1) (selector_quiet _))
        (.flatMap onSlot_quiet)) (nodes_quiet cs h.2)) (slots_quiet cs h.2)) (method_quiet _)
    · exact .append (.flatMap (onElement_quiet _)) (nodes_quiet cs h.2)
    · exact .crash
theorem nodes_quiet : ∀ cs : List Child, childrenNoFunctions cs → Quiet (nodesIssues cs)
  | [], _ => by unfold nodesIssues; exact .nil
  | .value v :: cs, h => by
    unfold nodesIssues; unfold childrenNoFunctions at h
    exact .append (value_quiet v) (nodes_quiet cs h)
  | .elem e :: cs, h => by
    unfold nodesIssues; unfold childrenNoFunctions at h
    exact .append (element_quiet false e h.1) (nodes_quiet cs h.2)
  | .slot _ :: cs, h => by
    unfold nodesIssues; unfold childrenNoFunctions at h
    exact nodes_quiet cs h.2
theorem slots_quiet : ∀ cs : List Child, childrenNoFunctions cs → Quiet (slotsIssues cs)
  | [], _ => by unfold slotsIssues; exact .nil
  | .value v :: cs, h => by
    unfold slotsIssues; unfold childrenNoFunctions at h
    exact slots_quiet cs h
  | .elem e :: cs, h => by
    unfold slotsIssues; unfold childrenNoFunctions at h
    exact slots_quiet cs h.2
  | .slot e :: cs, h => by
    unfold slotsIssues; unfold childrenNoFunctions at h
    exact .append (.ite (.ite (element_quiet true e h.1) (.report (by simp))) .crash) (slots_quiet cs h.2)
end

theorem root_quiet {cs : List Child} (h : childrenNoFunctions cs) : Quiet (rootIssues cs) :=
  .ite (.stop (by simp)) (nodes_quiet cs h)

/-- What comes after a stop or crash does not matter. -/
theorem verdict_goes : ∀ (a b : List Issue), Goes a ∨ verdict (a ++ b) = verdict a
  | [], _ => .inl (by simp [Goes])
  | .report d :: a, b => by
    rcases verdict_goes a b with h | h
    · exact .inl fun i hi => (List.mem_cons.mp hi).elim (fun h => ⟨d, h⟩) (h i)
    · exact .inr (by simp [verdict, h])
  | .stop d :: a, b => .inr rfl
  | .crash :: a, b => .inr rfl

theorem quiet_verdict {is : List Issue} {ds : List Diag} (h : Quiet is) (hv : (verdict is).list = some ds) :
    .functionGenerics ∉ ds := by
  intro hm
  obtain ⟨A, B, rfl⟩ := List.append_of_mem hm
  rcases verdict_split hv with ⟨R, rfl⟩ | ⟨R, rfl⟩
  · obtain ⟨h1, _⟩ := h (.report .functionGenerics) (by simp)
    obtain ⟨m, hm⟩ := h1 rfl
    cases hm
  · exact (h (.stop .functionGenerics) (by simp)).2 rfl

theorem never_function_generics (hpp : pp.NoFunctions) {s : Sched} {ts : Toks} (hl : LexicalToks ts) {ds : List Diag}
    (h : (mview pp s ts).reported = some ds) : .functionGenerics ∉ ds := by
  obtain ⟨is, cs, hr⟩ := reading_exists (pp := pp) hl
  rw [is_reported (reading_exact (s := s) hl hr)] at h
  have h1 := children_quiet hr
  rcases verdict_goes is (rootIssues cs) with hg | hv
  · exact quiet_verdict (.append h1 (root_quiet (children_noFunctions hpp hr hg))) h
  · rw [hv] at h
    exact quiet_verdict h1 h

end

end Mview
