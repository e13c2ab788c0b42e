import Verif.Lemmas.Block
import Verif.Lemmas.AdviceIssues
import Verif.Lemmas.Pieces
/-
C64: errors inside and outside of a block.
-/

namespace Mview
open Lex

variable {pp : PathParser}

/-! ### what stops the macro -/

/-- Only fatal errors stop the macro. -/
def StopsFatal (is : List Issue) : Prop := ∀ d, .stop d ∈ is → d.Fatal

namespace StopsFatal

theorem nil : StopsFatal [] := by simp [StopsFatal]
theorem report {d : Diag} : StopsFatal [.report d] := by simp [StopsFatal]
theorem crash : StopsFatal [.crash] := by simp [StopsFatal]

theorem stop {d : Diag} (h : d.Fatal) : StopsFatal [.stop d] := by
  intro d' hm
  simp only [List.mem_singleton, Issue.stop.injEq] at hm
  exact hm ▸ h

theorem append {a b : List Issue} (ha : StopsFatal a) (hb : StopsFatal b) : StopsFatal (a ++ b) := by
  intro d h
  rcases List.mem_append.mp h with h | h
  · exact ha d h
  · exact hb d h

theorem ite {c : Prop} [Decidable c] {a b : List Issue} (ha : StopsFatal a) (hb : StopsFatal b) :
    StopsFatal (if c then a else b) := by split <;> assumption

theorem flatMap {α : Type} {f : α → List Issue} {l : List α} (h : ∀ a, StopsFatal (f a)) : StopsFatal (l.flatMap f) := by
  intro d hd
  obtain ⟨a, -, ha⟩ := List.mem_flatMap.mp hd
  exact h a d ha

theorem name (n : Str) : StopsFatal (nameIssues n) := .ite .nil .crash

theorem value (v : Value) : StopsFatal v.issues := by
  unfold Value.issues
  split
  · exact .ite .nil .report
  · exact .nil

theorem opt (v : Option Value) : StopsFatal (optIssues v) := by
  cases v
  · exact .nil
  · exact value _

theorem modifier (m : Option Ident) : StopsFatal (modifierIssues m) := by
  cases m
  · exact .nil
  · exact .report

theorem key (k : KebabOrStr) : StopsFatal k.issues := by
  cases k
  · exact name _
  · exact .report

theorem event (d : Directive) : StopsFatal d.eventIssues := by
  unfold Directive.eventIssues
  refine .append ?_ ?_
  · split
    · exact name _
    · exact .report
  · split
    · exact .ite .nil .report
    · exact .nil

theorem use (d : Directive) : StopsFatal d.useIssues := .append (key _) (modifier _)

theorem clone (d : Directive) : StopsFatal d.cloneIssues :=
  .append (.append (.append (modifier _) (key _)) (modifier _)) (.ite .report .nil)

theorem onElement (k : TagKind) (a : Attr) : StopsFatal (a.issuesOnElement k) := by
  cases a with
  | kv a => exact .append (.ite .nil (name _)) (value _)
  | directive d =>
    exact .ite (.append (modifier _) (opt _)) (.ite (.append (event _) (opt _))
      (.ite (.append (use _) (opt _)) (.ite .report .report)))
  | spread => exact .nil

theorem onComponent (a : Attr) : StopsFatal a.issuesOnComponent := by
  cases a with
  | kv a => exact .append (name _) (value _)
  | directive d =>
    exact .ite (clone _) (.ite (opt _) (.ite (.append (.ite .nil (key _)) (opt _))
      (.ite (.append (key _) (opt _)) (.ite (.append (event _) (opt _)) (.ite (.append (use _) (opt _)) .report)))))
  | spread => exact .nil

theorem onSlot (a : Attr) : StopsFatal a.issuesOnSlot := by
  cases a with
  | kv a => exact .append (name _) (value _)
  | directive d => exact .ite (clone _) .report
  | spread => exact .report

theorem path (p : Path) : StopsFatal p.issues := by
  refine .flatMap fun seg => ?_
  split
  · exact .stop (.inr (.inl rfl))
  · exact .nil

theorem method (cs : List Child) : StopsFatal (methodIssues cs) := .ite .nil .crash

mutual
theorem element (b : Bool) : ∀ e : Element, StopsFatal (e.issues b)
  | .mk tag sels attrs _ none => by
    unfold Element.issues
    split
    · exact .append (path _) (.flatMap onComponent)
    · exact .append (.append (path _) (.ite .nil .report)) (.flatMap onSlot)
    · exact .flatMap (onElement _)
    · exact .crash
  | .mk tag sels attrs _ (some cs) => by
    unfold Element.issues
    split
    · exact .append (.append (.append (.append (path _) (.flatMap onComponent)) (nodes cs)) (slots cs)) (method _)
    · exact .append (.append (.append (.append (.append (path _) (.ite .nil .report)) (.flatMap onSlot)) (nodes cs))
        (slots cs)) (method _)
    · exact .append (.flatMap (onElement _)) (nodes cs)
    · exact .crash
theorem nodes : ∀ cs : List Child, StopsFatal (nodesIssues cs)
  | [] => by unfold nodesIssues; exact .nil
  | .value v :: cs => by unfold nodesIssues; exact .append (value v) (nodes cs)
  | .elem e :: cs => by unfold nodesIssues; exact .append (element false e) (nodes cs)
  | .slot _ :: cs => by unfold nodesIssues; exact nodes cs
theorem slots : ∀ cs : List Child, StopsFatal (slotsIssues cs)
  | [] => by unfold slotsIssues; exact .nil
  | .value v :: cs => by unfold slotsIssues; exact slots cs
  | .elem e :: cs => by unfold slotsIssues; exact slots cs
  | .slot e :: cs => by
    unfold slotsIssues
    exact .append (.ite (.ite (element true e) .report) .crash) (slots cs)
end

theorem root (cs : List Child) : StopsFatal (rootIssues cs) := .ite (.stop (.inr (.inr rfl))) (nodes cs)

/-! ### reading -/

theorem raw {run : Toks} : StopsFatal (rawIssues run) := by simp [StopsFatal, rawIssues]

theorem abort {e : Err} : StopsFatal [.stop (.synAbort e)] := .stop (.inl ⟨e, rfl⟩)

theorem readsEq {ts rest : Toks} {is : List Issue} {v : Option Value} (h : ReadsEq ts is v rest) : StopsFatal is := by
  cases h with
  | none => exact .nil
  | some h => cases h <;> simp [StopsFatal]

theorem readsKey {ts rest : Toks} {is : List Issue} {k : KebabOrStr} (h : ReadsKey ts is k rest) : StopsFatal is := by
  cases h with
  | str => exact .nil
  | name => exact raw

theorem readsAttrs {ts rest : Toks} {is : List Issue} {as : List Attr} (h : ReadsAttrs ts is as rest) :
    StopsFatal is := by
  induction h with
  | short _ _ ih => exact raw.append ((name _).append ih)
  | spread _ ih => exact ih
  | kv _ _ he _ ih => exact raw.append ((readsEq he).append ih)
  | dirShort _ _ _ ih => exact raw.append ((name _).append ih)
  | dir hk _ he _ ih => exact (readsKey hk).append ((readsEq he).append ih)
  | dirMore => exact raw.append abort
  | dirNoName => exact abort
  | dirNoKey => exact abort
  | dirShortNoModifier => exact raw.append ((name _).append abort)
  | dirNoModifier hk => exact (readsKey hk).append abort
  | brace => exact raw
  | done => exact .nil

theorem readsSels {ts rest : Toks} {is : List Issue} {sels : List Selector} (h : ReadsSels ts is sels rest) :
    StopsFatal is := by
  induction h with
  | cls _ _ ih | id _ _ ih => exact raw.append ih
  | done => exact .nil

theorem readsTag {ts rest : Toks} {is : List Issue} {tag : Tag} (h : ReadsTag pp ts is tag rest) : StopsFatal is := by
  cases h with
  | path => exact .nil
  | name => exact raw
  | crash => exact raw.append .crash

theorem readsChildren {ts : Toks} {is : List Issue} {cs : List Child} (h : ReadsChildren pp ts is cs) :
    StopsFatal is := by
  refine ReadsChildren.rec (motive_1 := fun _ ei _ _ _ _ => StopsFatal ei)
    (motive_2 := fun _ is _ _ => StopsFatal is) ?_ ?_ ?_ ?_ ?_ ?_ ?_ ?_ ?_ ?_ ?_ ?_ ?_ ?_ ?_ h
  · intros; exact .nil
  · intro _ _ _ _ _ _ _ ih; exact ih
  · intro _ _ _ _ _ _ _ _ _ _ _ ih; exact ih
  · exact .report
  · intros; exact .report
  · intros; exact .append (a := [_]) .report .report
  · exact .nil
  · intro _ _ _ _ _ _ _ ih; exact ih
  · intro _ _ _ _ _ _ _ ih; exact .append (a := [_]) .report ih
  · intro _ _ _ _ _ _ _ _ _ _ _ _ _ _ _ _ _ _ _ ht hs ha _ _ ih1 ih2
    exact (readsTag ht).append ((readsSels hs).append ((readsAttrs ha).append (ih1.append ih2)))
  · intro _ _ _ _ _ _ _ _ _ _ _ _ _ _ ht hs ha _
    exact (readsTag ht).append ((readsSels hs).append ((readsAttrs ha).append .report))
  · intro _ _ _ _ _ _ _ _ _ _ _ ih; exact .append (a := [_]) .report ih
  · intros; exact .report
  · intro _ _ _ _ _ ih; exact .append (a := [_]) .report ih
  · intros; exact .report

end StopsFatal

/-- If no error is fatal, all issues are errors that are reported. -/
theorem all_reported : ∀ {is : List Issue} {ds : List Diag}, StopsFatal is → (verdict is).list = some ds →
    (∀ d ∈ ds, ¬ d.Fatal) → is = ds.map .report
  | [], ds, _, h, _ => by simp only [verdict, Verdict.list, Option.some.injEq] at h; subst h; rfl
  | .crash :: is, ds, _, h, _ => by simp [verdict, Verdict.list] at h
  | .stop d :: is, ds, hs, h, hd => by
    simp only [verdict, Verdict.list, Option.some.injEq] at h
    subst h
    exact absurd (hs d (by simp)) (hd d (by simp))
  | .report d :: is, ds, hs, h, hd => by
    simp only [verdict, add_list] at h
    cases hv : (verdict is).list with
    | none => rw [hv] at h; cases h
    | some l =>
      rw [hv] at h
      simp only [Option.map_some, Option.some.injEq] at h
      subst h
      rw [all_reported (fun e he => hs e (List.mem_cons_of_mem _ he)) hv
        fun e he => hd e (List.mem_cons_of_mem _ he)]
      rfl

/-! ### errors in a tree with a gap -/

theorem element_role (asSlot : Bool) (tag : Tag) (sels : List Selector) (attrs : List Attr) (args : Option Toks) :
    ∃ A r, ∀ cs, (Element.mk tag sels attrs args (some cs)).issues asSlot = A ++ Role.issues cs r := by
  cases tag with
  | component p =>
    cases asSlot with
    | false =>
      refine ⟨p.issues ++ attrs.flatMap Attr.issuesOnComponent, .component, fun cs => ?_⟩
      simp [Element.issues, Role.issues]
    | true =>
      refine ⟨p.issues ++ (if sels.isEmpty then [] else [.report .selectorOnSlot]) ++ attrs.flatMap Attr.issuesOnSlot,
        .component, fun cs => ?_⟩
      simp [Element.issues, Role.issues]
  | _ =>
    cases asSlot with
    | false => exact ⟨_, .nodes, fun cs => by simp [Element.issues, Role.issues]; rfl⟩
    | true => exact ⟨[.crash], .ignored, fun cs => by simp [Element.issues, Role.issues]⟩

theorem slotsIssues_append : ∀ (a b : List Child), slotsIssues (a ++ b) = slotsIssues a ++ slotsIssues b
  | [], b => by simp [slotsIssues]
  | .value v :: a, b => by simp [slotsIssues, slotsIssues_append a b]
  | .elem e :: a, b => by simp [slotsIssues, slotsIssues_append a b]
  | .slot e :: a, b => by simp [slotsIssues, slotsIssues_append a b]

theorem methodIssues_gap (before after : List Child) (isSlot : Bool) (tag : Tag) (sels : List Selector)
    (attrs : List Attr) (args : Option Toks) (cs cs' : List Child) :
    methodIssues (before ++ asChild isSlot (.mk tag sels attrs args (some cs)) :: after) =
      methodIssues (before ++ asChild isSlot (.mk tag sels attrs args (some cs')) :: after) := by
  have : slotNames (before ++ asChild isSlot (.mk tag sels attrs args (some cs)) :: after) =
      slotNames (before ++ asChild isSlot (.mk tag sels attrs args (some cs')) :: after) := by
    cases isSlot
    · simp [slotNames, asChild]
    · have hn : (Element.mk tag sels attrs args (some cs)).slotName =
          (Element.mk tag sels attrs args (some cs')).slotName := rfl
      simp only [slotNames, asChild, if_true, List.filterMap_append, List.filterMap_cons, hn]
  simp only [methodIssues, this]

/-- The errors of a tree are those of the children in the gap between errors that do not depend on them. -/
theorem gap_role : ∀ (T : TreeGap) (ρ : Role), ∃ A r B, ∀ cs, ρ.issues (T.fill cs) = A ++ (Role.issues cs r ++ B)
  | .here, ρ => ⟨[], ρ, [], fun cs => by simp [TreeGap.fill]⟩
  | .elem before isSlot tag sels attrs args T after, .ignored => ⟨[], .ignored, [], fun cs => by simp [Role.issues]⟩
  | .elem before true tag sels attrs args T after, .nodes =>
    ⟨nodesIssues before ++ nodesIssues after, .ignored, [], fun cs => by
      simp [Role.issues, TreeGap.fill, asChild, nodesIssues_append, nodesIssues]⟩
  | .elem before false tag sels attrs args T after, .nodes => by
    obtain ⟨A, r, h⟩ := element_role false tag sels attrs args
    obtain ⟨A', r', B', h'⟩ := gap_role T r
    refine ⟨nodesIssues before ++ (A ++ A'), r', B' ++ nodesIssues after, fun cs => ?_⟩
    have h1 := h (T.fill cs)
    rw [h' cs] at h1
    simp [Role.issues, TreeGap.fill, asChild, nodesIssues_append, nodesIssues, h1]
  | .elem before false tag sels attrs args T after, .component => by
    obtain ⟨A, r, h⟩ := element_role false tag sels attrs args
    obtain ⟨A', r', B', h'⟩ := gap_role T r
    refine ⟨nodesIssues before ++ (A ++ A'), r', B' ++ (nodesIssues after ++ (slotsIssues before ++ (slotsIssues after ++
      methodIssues (before ++ asChild false (.mk tag sels attrs args (some [])) :: after)))), fun cs => ?_⟩
    have h1 := h (T.fill cs)
    rw [h' cs] at h1
    have h2 := methodIssues_gap before after false tag sels attrs args (T.fill cs) []
    simp only [asChild, Bool.false_eq_true, if_false] at h2
    simp [Role.issues, TreeGap.fill, asChild, nodesIssues_append, nodesIssues, slotsIssues_append, slotsIssues, h1, h2]
  | .elem before true tag sels attrs args T after, .component => by
    have h2 := fun cs => methodIssues_gap before after true tag sels attrs args (T.fill cs) []
    simp only [asChild, if_true] at h2
    obtain ⟨A, r, h⟩ := element_role true tag sels attrs args
    obtain ⟨A', r', B', h'⟩ := gap_role T r
    have h1 : ∀ cs, (Element.mk tag sels attrs args (some (T.fill cs))).issues true =
        A ++ (A' ++ (Role.issues cs r' ++ B')) := fun cs => by rw [h, h']
    by_cases hp : tag.isPath = true
    · by_cases hn : (Element.mk tag sels attrs args (some [])).slotName.isSome = true
      · refine ⟨nodesIssues before ++ (nodesIssues after ++ (slotsIssues before ++ (A ++ A'))), r',
          B' ++ (slotsIssues after ++
          methodIssues (before ++ asChild true (.mk tag sels attrs args (some [])) :: after)), fun cs => ?_⟩
        have hn' : (Element.mk tag sels attrs args (some (T.fill cs))).slotName.isSome = true := hn
        simp [Role.issues, TreeGap.fill, asChild, nodesIssues_append, nodesIssues, slotsIssues_append, slotsIssues,
          Element.tag, hp, hn', h1, h2]
      · refine ⟨nodesIssues before ++ (nodesIssues after ++ (slotsIssues before ++ ([.report .slotNameIsPath] ++
          (slotsIssues after ++ methodIssues (before ++ asChild true (.mk tag sels attrs args (some [])) :: after))))),
          .ignored, [], fun cs => ?_⟩
        have hn' : ¬ (Element.mk tag sels attrs args (some (T.fill cs))).slotName.isSome = true := hn
        simp [Role.issues, TreeGap.fill, asChild, nodesIssues_append, nodesIssues, slotsIssues_append, slotsIssues,
          Element.tag, hp, hn', h2]
    · refine ⟨nodesIssues before ++ (nodesIssues after ++ (slotsIssues before ++ ([.crash] ++
          (slotsIssues after ++ methodIssues (before ++ asChild true (.mk tag sels attrs args (some [])) :: after))))),
          .ignored, [], fun cs => ?_⟩
      simp [Role.issues, TreeGap.fill, asChild, nodesIssues_append, nodesIssues, slotsIssues_append, slotsIssues,
          Element.tag, hp, h2]

theorem gap_root {T : TreeGap} (hT : T ≠ .here) :
    ∃ A r B, ∀ cs, rootIssues (T.fill cs) = A ++ (Role.issues cs r ++ B) := by
  cases T with
  | here => exact absurd rfl hT
  | elem before isSlot tag sels attrs args T after =>
    have hs : ∀ cs, ((TreeGap.elem before isSlot tag sels attrs args T after).fill cs).any Child.isSlot =
        (before.any Child.isSlot || (isSlot || after.any Child.isSlot)) := by
      intro cs
      cases isSlot <;> simp [TreeGap.fill, asChild, Child.isSlot]
    by_cases hb : (before.any Child.isSlot || (isSlot || after.any Child.isSlot)) = true
    · exact ⟨[.stop .slotAtTopLevel], .ignored, [], fun cs => by simp only [rootIssues, hs cs, hb]; simp [Role.issues]⟩
    · obtain ⟨A, r, B, h⟩ := gap_role (.elem before isSlot tag sels attrs args T after) .nodes
      refine ⟨A, r, B, fun cs => ?_⟩
      have := h cs
      simp only [Role.issues] at this
      simp only [rootIssues, hs cs, hb]
      exact this

/-! ### lexical inputs -/

theorem BlockAt.lexical {K : BlockGap} {b : Bool} {x : Toks} {P Q : List Issue} {T : TreeGap}
    (h : BlockAt pp K b x P Q T) (hl : LexicalToks (K.fill x)) :
    LexicalToks x ∧ ∀ {y}, LexicalToks y → LexicalToks (K.fill y) := by
  have hafter : ∀ {K : BlockGap} {x : Toks} {p : Toks}, K ≠ .here → LexicalToks ((K.after p).fill x) →
      (LexicalToks (K.fill x) → LexicalToks x ∧ ∀ {y}, LexicalToks y → LexicalToks (K.fill y)) →
      LexicalToks x ∧ ∀ {y}, LexicalToks y → LexicalToks ((K.after p).fill y) := by
    intro K x p hK hl ih
    rw [BlockGap.fill_after hK] at hl
    obtain ⟨h1, h2⟩ := lexical_append.mp hl
    obtain ⟨h3, h4⟩ := ih h2
    exact ⟨h3, fun hy => by rw [BlockGap.fill_after hK]; exact lexical_append.mpr ⟨h1, h4 hy⟩⟩
  induction h with
  | block _ _ _ _ _ hd _ _ =>
    obtain ⟨h1, h2⟩ := lexical_append.mp hl
    obtain ⟨h3, h4⟩ := (lexical_group hd).mp h2
    exact ⟨h3, fun hy => lexical_append.mpr ⟨h1, (lexical_group hd).mpr ⟨hy, h4⟩⟩⟩
  | inside _ _ _ _ _ hd _ _ ih =>
    obtain ⟨h1, h2⟩ := lexical_append.mp hl
    obtain ⟨h3, h4⟩ := (lexical_group hd).mp h2
    obtain ⟨h5, h6⟩ := ih h3
    exact ⟨h5, fun hy => lexical_append.mpr ⟨h1, (lexical_group hd).mpr ⟨h6 hy, h4⟩⟩⟩
  | value _ _ h ih => exact hafter h.shape.1 hl ih
  | literal _ _ h ih => exact hafter h.shape.1 hl ih
  | elem _ _ _ _ _ h ih => exact hafter h.shape.1 hl ih
  | noTagSemi _ _ h ih => exact hafter h.shape.1 hl ih
  | semi h ih => exact hafter h.shape.1 hl ih

end Mview
