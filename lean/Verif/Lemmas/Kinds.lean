import Verif.Spec.Kinds
import Verif.Lemmas.BlockIssues
import Verif.Lemmas.SynPathMore
/-
C65: nothing but the errors of `Diag.Occurs`.
-/

namespace Mview
open Lex

variable {pp : PathParser}

/-- All errors among the issues are of these kinds (or about function generics). -/
def AllOccur (is : List Issue) : Prop :=
  ∀ d, .report d ∈ is ∨ .stop d ∈ is → d.Occurs ∨ d = .functionGenerics

namespace AllOccur

theorem nil : AllOccur [] := by simp [AllOccur]
theorem crash : AllOccur [.crash] := by simp [AllOccur]

theorem report {d : Diag} (h : d.Occurs) : AllOccur [.report d] := by
  intro d' hm
  simp only [List.mem_singleton, Issue.report.injEq, reduceCtorEq, or_false] at hm
  exact .inl (hm ▸ h)

theorem stop {d : Diag} (h : d.Occurs ∨ d = .functionGenerics) : AllOccur [.stop d] := by
  intro d' hm
  simp only [List.mem_singleton, Issue.stop.injEq, reduceCtorEq, false_or] at hm
  exact hm ▸ h

theorem append {a b : List Issue} (ha : AllOccur a) (hb : AllOccur b) : AllOccur (a ++ b) := by
  intro d h
  simp only [List.mem_append] at h
  rcases h with (h | h) | h | h
  · exact ha d (.inl h)
  · exact hb d (.inl h)
  · exact ha d (.inr h)
  · exact hb d (.inr h)

theorem ite {c : Prop} [Decidable c] {a b : List Issue} (ha : c → AllOccur a) (hb : ¬ c → AllOccur b) :
    AllOccur (if c then a else b) := by split <;> simp_all

theorem flatMap {α : Type} {f : α → List Issue} {l : List α} (h : ∀ a, AllOccur (f a)) : AllOccur (l.flatMap f) := by
  intro d hd
  simp only [List.mem_flatMap] at hd
  rcases hd with ⟨a, -, ha⟩ | ⟨a, -, ha⟩
  · exact h a d (.inl ha)
  · exact h a d (.inr ha)

theorem name (n : Str) : AllOccur (nameIssues n) := .ite (fun _ => .nil) fun _ => .crash

theorem value (v : Value) : AllOccur v.issues := by
  unfold Value.issues
  split
  · exact .ite (fun _ => .nil) fun h => .report h
  · exact .nil

theorem opt (v : Option Value) : AllOccur (optIssues v) := by
  cases v
  · exact .nil
  · exact value _

theorem modifier (m : Option Ident) : AllOccur (modifierIssues m) := by
  cases m
  · exact .nil
  · exact .report trivial

theorem key (k : KebabOrStr) : AllOccur k.issues := by
  cases k
  · exact name _
  · exact .report trivial

theorem event (d : Directive) : AllOccur d.eventIssues := by
  unfold Directive.eventIssues
  refine .append ?_ ?_
  · split
    · exact name _
    · exact .report trivial
  · split
    · exact .ite (fun _ => .nil) fun h => .report h
    · exact .nil

theorem use (d : Directive) : AllOccur d.useIssues := .append (key _) (modifier _)

theorem clone (d : Directive) : AllOccur d.cloneIssues :=
  .append (.append (.append (modifier _) (key _)) (modifier _)) (.ite (fun _ => .report trivial) fun _ => .nil)

theorem onElement (k : TagKind) (a : Attr) : AllOccur (a.issuesOnElement k) := by
  cases a with
  | kv a => exact .append (.ite (fun _ => .nil) fun _ => name _) (value _)
  | directive d =>
    exact .ite (fun _ => .append (modifier _) (opt _)) fun h1 => .ite (fun _ => .append (event _) (opt _)) fun h2 =>
      .ite (fun _ => .append (use _) (opt _)) fun h3 => .ite (fun h => .report h) fun h4 =>
      .report (by simp_all [Diag.Occurs, sevenDirectives])
  | spread => exact .nil

theorem onComponent (a : Attr) : AllOccur a.issuesOnComponent := by
  cases a with
  | kv a => exact .append (name _) (value _)
  | directive d =>
    exact .ite (fun _ => clone _) fun h1 => .ite (fun _ => opt _) fun h2 =>
      .ite (fun _ => .append (.ite (fun _ => .nil) fun _ => key _) (opt _)) fun h3 =>
      .ite (fun _ => .append (key _) (opt _)) fun h4 => .ite (fun _ => .append (event _) (opt _)) fun h5 =>
      .ite (fun _ => .append (use _) (opt _)) fun h6 => .report (by simp_all [Diag.Occurs, sevenDirectives])
  | spread => exact .nil

theorem onSlot (a : Attr) : AllOccur a.issuesOnSlot := by
  cases a with
  | kv a => exact .append (name _) (value _)
  | directive d => exact .ite (fun _ => clone _) fun h => .report h
  | spread => exact .report trivial

theorem path (p : Path) : AllOccur p.issues := by
  refine .flatMap fun seg => ?_
  split
  · exact .stop (.inr rfl)
  · exact .nil

theorem method (cs : List Child) : AllOccur (methodIssues cs) := .ite (fun _ => .nil) fun _ => .crash

theorem sels {l : List Selector} : AllOccur (if l.isEmpty then [] else [.report .selectorOnSlot]) :=
  .ite (fun _ => .nil) fun _ => .report trivial

mutual
theorem element (b : Bool) : ∀ e : Element, AllOccur (e.issues b)
  | .mk tag ss attrs _ none => by
    unfold Element.issues
    split
    · exact .append (path _) (.flatMap onComponent)
    · exact .append (.append (path _) sels) (.flatMap onSlot)
    · exact .flatMap (onElement _)
    · exact .crash
  | .mk tag ss attrs _ (some cs) => by
    unfold Element.issues
    split
    · exact .append (.append (.append (.append (path _) (.flatMap onComponent)) (nodes cs)) (slots cs)) (method _)
    · exact .append (.append (.append (.append (.append (path _) sels) (.flatMap onSlot)) (nodes cs))
        (slots cs)) (method _)
    · exact .append (.flatMap (onElement _)) (nodes cs)
    · exact .crash
theorem nodes : ∀ cs : List Child, AllOccur (nodesIssues cs)
  | [] => by unfold nodesIssues; exact .nil
  | .value v :: cs => by unfold nodesIssues; exact .append (value v) (nodes cs)
  | .elem e :: cs => by unfold nodesIssues; exact .append (element false e) (nodes cs)
  | .slot _ :: cs => by unfold nodesIssues; exact nodes cs
theorem slots : ∀ cs : List Child, AllOccur (slotsIssues cs)
  | [] => by unfold slotsIssues; exact .nil
  | .value v :: cs => by unfold slotsIssues; exact slots cs
  | .elem e :: cs => by unfold slotsIssues; exact slots cs
  | .slot e :: cs => by
    have h1 := element true e
    have h2 := slots cs
    unfold slotsIssues
    exact .append (.ite (fun _ => .ite (fun _ => h1) fun _ => .report trivial) fun _ => .crash) h2
end

theorem root (cs : List Child) : AllOccur (rootIssues cs) :=
  .ite (fun _ => .stop (.inl trivial)) fun _ => nodes cs

/-! ### reading -/

theorem raw {run : Toks} : AllOccur (rawIssues run) := by
  intro d h
  simp only [rawIssues, List.mem_map, Issue.report.injEq, reduceCtorEq, and_false, exists_false, or_false] at h
  obtain ⟨i, hi, rfl⟩ := h
  cases run with
  | nil => simp [kebabRaws] at hi
  | cons t run =>
    simp only [kebabRaws, List.mem_filterMap] at hi
    obtain ⟨t, -, ht⟩ := hi
    cases t <;> simp at ht
    exact .inl (by simp [Diag.Occurs, ← ht.2, ht.1])

theorem abort {e : Err} (h : (Diag.synAbort e).Occurs) : AllOccur [.stop (.synAbort e)] := .stop (.inl h)

theorem readsEq {ts rest : Toks} {is : List Issue} {v : Option Value} (h : ReadsEq ts is v rest) : AllOccur is := by
  cases h with
  | none => exact .nil
  | some h =>
    cases h
    · exact .nil
    · exact .report trivial

theorem readsKey {ts rest : Toks} {is : List Issue} {k : KebabOrStr} (h : ReadsKey ts is k rest) : AllOccur is := by
  cases h with
  | str => exact .nil
  | name => exact raw

theorem readsAttrs {ts rest : Toks} {is : List Issue} {as : List Attr} (h : ReadsAttrs ts is as rest) :
    AllOccur is := by
  induction h with
  | short _ _ ih => exact raw.append ((name _).append ih)
  | spread _ ih => exact ih
  | kv _ _ he _ ih => exact raw.append ((readsEq he).append ih)
  | dirShort _ _ _ ih => exact raw.append ((name _).append ih)
  | dir hk _ he _ ih => exact (readsKey hk).append ((readsEq he).append ih)
  | dirMore => exact raw.append (abort (by simp [Diag.Occurs]))
  | dirNoName => exact abort (by simp [Diag.Occurs])
  | dirNoKey => exact abort (by simp [Diag.Occurs])
  | dirShortNoModifier => exact raw.append ((name _).append (abort (by simp [Diag.Occurs])))
  | dirNoModifier hk => exact (readsKey hk).append (abort (by simp [Diag.Occurs]))
  | brace => exact raw
  | done => exact .nil

theorem readsSels {ts rest : Toks} {is : List Issue} {sels : List Selector} (h : ReadsSels ts is sels rest) :
    AllOccur is := by
  induction h with
  | cls _ _ ih | id _ _ ih => exact raw.append ih
  | done => exact .nil

theorem readsTag {ts rest : Toks} {is : List Issue} {tag : Tag} (h : ReadsTag pp ts is tag rest) : AllOccur is := by
  cases h with
  | path => exact .nil
  | name => exact raw
  | crash => exact raw.append .crash

theorem noTag {ts rest : Toks} {e : Err} (h : NoTag pp ts e rest) : (Diag.synError e).Occurs := by
  cases h <;> simp [Diag.Occurs]

theorem readsChildren {ts : Toks} {is : List Issue} {cs : List Child} (h : ReadsChildren pp ts is cs) :
    AllOccur is := by
  refine ReadsChildren.rec (motive_1 := fun _ ei _ _ _ _ => AllOccur ei)
    (motive_2 := fun _ is _ _ => AllOccur is) ?_ ?_ ?_ ?_ ?_ ?_ ?_ ?_ ?_ ?_ ?_ ?_ ?_ ?_ ?_ h
  · intros; exact .nil
  · intro _ _ _ _ _ _ _ ih; exact ih
  · intro _ _ _ _ _ _ _ _ _ _ _ ih; exact ih
  · exact .report trivial
  · intros; exact .report trivial
  · intros; exact .append (a := [_]) (.report trivial) (.report trivial)
  · exact .nil
  · intro _ _ _ _ _ _ _ ih; exact ih
  · intro _ _ _ _ _ _ _ ih; exact .append (a := [_]) (.report trivial) ih
  · intro _ _ _ _ _ _ _ _ _ _ _ _ _ _ _ _ _ _ _ ht hs ha _ _ ih1 ih2
    exact (readsTag ht).append ((readsSels hs).append ((readsAttrs ha).append (ih1.append ih2)))
  · intro _ _ _ _ _ _ _ _ _ _ _ _ _ _ ht hs ha _
    exact (readsTag ht).append ((readsSels hs).append ((readsAttrs ha).append (.report (by simp [Diag.Occurs]))))
  · intro _ _ _ _ _ _ _ _ _ _ _ ih; exact .append (a := [_]) (.report trivial) ih
  · intro _ _ _ _ _ _ ht _; exact .report (noTag ht)
  · intro _ _ _ _ _ ih; exact .append (a := [_]) (.report trivial) ih
  · intros; exact .report (by simp [Diag.Occurs])

end AllOccur

/-- The errors of a verdict are among the issues. -/
theorem verdict_mem {d : Diag} : ∀ {is : List Issue} {ds : List Diag}, (verdict is).list = some ds → d ∈ ds →
    .report d ∈ is ∨ .stop d ∈ is
  | [], ds, h, hd => by simp only [verdict, Verdict.list, Option.some.injEq] at h; subst h; simp at hd
  | .crash :: is, ds, h, _ => by simp [verdict, Verdict.list] at h
  | .stop e :: is, ds, h, hd => by
    simp only [verdict, Verdict.list, Option.some.injEq] at h
    subst h
    simp only [List.mem_singleton] at hd
    subst hd
    exact .inr (by simp)
  | .report e :: is, ds, h, hd => by
    simp only [verdict, add_list] at h
    cases hv : (verdict is).list with
    | none => rw [hv] at h; cases h
    | some l =>
      rw [hv] at h
      simp only [Option.map_some, Option.some.injEq] at h
      subst h
      rcases List.mem_cons.mp hd with rfl | hd
      · exact .inl (by simp)
      · rcases verdict_mem hv hd with h | h
        · exact .inl (List.mem_cons_of_mem _ h)
        · exact .inr (List.mem_cons_of_mem _ h)

end Mview
