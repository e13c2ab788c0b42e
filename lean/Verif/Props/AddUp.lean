import Verif.Spec.AddUp
import Verif.Lemmas.BlockIssues
import Verif.Props.Block
import Verif.Props.Mend
import Verif.Props.EditAnyway
/-
C89: the errors of the parts of an input add up.
-/

namespace Mview
open Lex

variable {pp : PathParser}

theorem noSlots_issues {cs : List Child} : (∀ c ∈ cs, c.isSlot = false) → slotsIssues cs = [] ∧ slotNames cs = [] := by
  induction cs with
  | nil => intro _; simp [slotsIssues, slotNames]
  | cons c cs ih =>
    intro h
    obtain ⟨h1, h2⟩ := ih fun c hc => h c (by simp [hc])
    have := h c (by simp)
    cases c with
    | slot e => simp [Child.isSlot] at this
    | value v => exact ⟨h1, h2⟩
    | elem e => exact ⟨h1, h2⟩

/-- What is wrong with children where slots can or cannot be. -/
abbrev roleOf (slots : Bool) : Role := if slots then .component else .nodes

theorem isName_slotName (tag : Tag) (sels : List Selector) (attrs : List Attr) (args : Option Toks)
    (cs : Option (List Child)) : (Element.mk tag sels attrs args cs).slotName.isSome = tag.isName := by
  unfold Element.slotName Tag.isName
  simp only [Element.tag]
  split <;> rename_i h
  · rfl
  · split
    · rename_i n; exact absurd rfl (h n)
    · rfl

theorem isName_isPath {tag : Tag} (h : tag.isName = true) : ∃ p, tag = .component p := by
  unfold Tag.isName at h
  split at h
  · exact ⟨_, rfl⟩
  · cases h

theorem element_expanded (asSlot : Bool) (tag : Tag) (sels : List Selector) (attrs : List Attr) (args : Option Toks)
    (h : asSlot = true → tag.isName = true) :
    ∃ A, ∀ cs, (Element.mk tag sels attrs args (some cs)).issues asSlot = A ++ (roleOf tag.isPath).issues cs := by
  cases tag with
  | component p =>
    cases asSlot with
    | false =>
      refine ⟨p.issues ++ attrs.flatMap Attr.issuesOnComponent, fun cs => ?_⟩
      simp [Element.issues, Role.issues, roleOf, Tag.isPath]
    | true =>
      refine ⟨p.issues ++ (if sels.isEmpty then [] else [.report .selectorOnSlot]) ++ attrs.flatMap Attr.issuesOnSlot,
        fun cs => ?_⟩
      simp [Element.issues, Role.issues, roleOf, Tag.isPath]
  | _ =>
    cases asSlot with
    | false => exact ⟨_, fun cs => by simp [Element.issues, Role.issues, roleOf, Tag.isPath]; rfl⟩
    | true => exact absurd (h rfl) (by simp [Tag.isName])

/-- The errors of a tree are those of further children between those that there are without these. -/
theorem gap_adds (before after : List Child) : ∀ (T : TreeGap) (slots : Bool), ∃ A B, ∀ cs, (∀ c ∈ cs, c.isSlot = false) →
    (roleOf slots).issues (T.fill (before ++ (cs ++ after))) =
      A ++ ((if T.expandedIn slots then nodesIssues cs else []) ++ B)
  | .here, slots => by
    cases slots with
    | false =>
      exact ⟨nodesIssues before, nodesIssues after, fun cs _ => by
        simp [roleOf, Role.issues, TreeGap.fill, nodesIssues_append, TreeGap.expandedIn]⟩
    | true =>
      refine ⟨nodesIssues before, nodesIssues after ++ (slotsIssues before ++ (slotsIssues after ++
        methodIssues (before ++ after))), fun cs h => ?_⟩
      obtain ⟨h1, h2⟩ := noSlots_issues h
      have h3 : methodIssues (before ++ (cs ++ after)) = methodIssues (before ++ after) := by
        have : slotNames (before ++ (cs ++ after)) = slotNames (before ++ after) := by
          unfold slotNames at h2 ⊢
          rw [List.filterMap_append, List.filterMap_append, List.filterMap_append, h2, List.nil_append]
        simp only [methodIssues, this]
      simp [roleOf, Role.issues, TreeGap.fill, nodesIssues_append, slotsIssues_append, TreeGap.expandedIn, h1, h3]
  | .elem bf false tag sels attrs args T af, slots => by
    obtain ⟨A, h⟩ := element_expanded false tag sels attrs args (by simp)
    obtain ⟨A', B', h'⟩ := gap_adds before after T tag.isPath
    have h2 := fun cs => methodIssues_gap bf af false tag sels attrs args (T.fill cs) []
    simp only [asChild, Bool.false_eq_true, if_false] at h2
    have hx : (TreeGap.elem bf false tag sels attrs args T af).expandedIn slots = T.expandedIn tag.isPath := by
      simp [TreeGap.expandedIn]
    cases slots with
    | false =>
      refine ⟨nodesIssues bf ++ (A ++ A'), B' ++ nodesIssues af, fun cs hc => ?_⟩
      have h1 := h (T.fill (before ++ (cs ++ after)))
      rw [h' cs hc] at h1
      rw [hx]
      simp [roleOf, Role.issues, TreeGap.fill, asChild, nodesIssues_append, nodesIssues, h1]
    | true =>
      refine ⟨nodesIssues bf ++ (A ++ A'), B' ++ (nodesIssues af ++ (slotsIssues bf ++ (slotsIssues af ++
        methodIssues (bf ++ asChild false (.mk tag sels attrs args (some [])) :: af)))), fun cs hc => ?_⟩
      have h1 := h (T.fill (before ++ (cs ++ after)))
      rw [h' cs hc] at h1
      rw [hx]
      simp [roleOf, Role.issues, TreeGap.fill, asChild, nodesIssues_append, nodesIssues, slotsIssues_append, slotsIssues,
        h1, h2]
  | .elem bf true tag sels attrs args T af, false =>
    ⟨nodesIssues bf ++ nodesIssues af, [], fun cs _ => by
      simp [roleOf, Role.issues, TreeGap.fill, asChild, nodesIssues_append, nodesIssues, TreeGap.expandedIn]⟩
  | .elem bf true tag sels attrs args T af, true => by
    have h2 := fun cs => methodIssues_gap bf af true tag sels attrs args (T.fill cs) []
    simp only [asChild, if_true] at h2
    have hn := fun cs => isName_slotName tag sels attrs args (some (T.fill cs))
    by_cases hs : tag.isName = true
    · obtain ⟨A, h⟩ := element_expanded true tag sels attrs args fun _ => hs
      obtain ⟨A', B', h'⟩ := gap_adds before after T tag.isPath
      have hp : tag.isPath = true := by
        obtain ⟨p, rfl⟩ := isName_isPath hs
        rfl
      refine ⟨nodesIssues bf ++ (nodesIssues af ++ (slotsIssues bf ++ (A ++ A'))), B' ++ (slotsIssues af ++
        methodIssues (bf ++ asChild true (.mk tag sels attrs args (some [])) :: af)), fun cs hc => ?_⟩
      have h1 := h (T.fill (before ++ (cs ++ after)))
      rw [h' cs hc] at h1
      have hx : (TreeGap.elem bf true tag sels attrs args T af).expandedIn true = T.expandedIn tag.isPath := by
        simp [TreeGap.expandedIn, hs]
      rw [hx]
      simp [roleOf, Role.issues, TreeGap.fill, asChild, nodesIssues_append, nodesIssues, slotsIssues_append, slotsIssues,
        Element.tag, hp, hn, hs, h1, h2]
    · have hx : (TreeGap.elem bf true tag sels attrs args T af).expandedIn true = false := by
        simp [TreeGap.expandedIn, hs]
      refine ⟨nodesIssues bf ++ (nodesIssues af ++ (slotsIssues bf ++ ((if tag.isPath then [.report .slotNameIsPath] else
        [.crash]) ++ (slotsIssues af ++ methodIssues (bf ++ asChild true (.mk tag sels attrs args (some [])) :: af))))),
        [], fun cs hc => ?_⟩
      rw [hx]
      simp [roleOf, Role.issues, TreeGap.fill, asChild, nodesIssues_append, nodesIssues, slotsIssues_append, slotsIssues,
        Element.tag, hn, hs, h2]

/-- The same for a whole input. -/
theorem root_adds {T : TreeGap} {before after : List Child}
    (ht : ∀ c ∈ T.fill (before ++ after), c.isSlot = false) :
    ∃ A B, ∀ cs, (∀ c ∈ cs, c.isSlot = false) →
      rootIssues (T.fill (before ++ (cs ++ after))) = A ++ ((if T.expanded then nodesIssues cs else []) ++ B) := by
  obtain ⟨A, B, h⟩ := gap_adds before after T false
  refine ⟨A, B, fun cs hc => ?_⟩
  have h := h cs hc
  simp only [roleOf, Role.issues, Bool.false_eq_true, if_false] at h
  rw [TreeGap.expanded, ← h]
  have : ∀ c ∈ T.fill (before ++ (cs ++ after)), c.isSlot = false := by
    cases T with
    | here =>
      intro c hm
      simp only [TreeGap.fill, List.mem_append] at hm ht
      rcases hm with hm | hm | hm
      · exact ht c (Or.inl hm)
      · exact hc c hm
      · exact ht c (Or.inr hm)
    | elem bf isSlot tag sels attrs args T af =>
      intro c hm
      simp only [TreeGap.fill, List.mem_append, List.mem_cons] at hm ht
      rcases hm with hm | rfl | hm
      · exact ht c (Or.inl hm)
      · have := ht _ (Or.inr (Or.inl rfl))
        cases isSlot
        · rfl
        · simp [asChild, Child.isSlot] at this
      · exact ht c (Or.inr (Or.inr hm))
  unfold rootIssues
  rw [if_neg (by simpa using this)]

/-- C89.  Children added anywhere to an input without fatal errors add exactly the errors that they have as an input of
their own, all in one place between the others; unless they are in a slot that cannot be there, which is ignored.
(`is` are the mistakes in the syntax, which there may be in the rest of the input.) -/
theorem errors_add_up {T : TreeGap} {before cs after : List Child} {ts0 ts ts' : Toks} {is : List Issue}
    (hl0 : LexicalToks ts0) (hl : LexicalToks ts) (hl' : LexicalToks ts') (hp : Parses pp ts0 cs)
    (hr : ReadsChildren pp ts is (T.fill (before ++ (cs ++ after))))
    (hr' : ReadsChildren pp ts' is (T.fill (before ++ after))) {s0 s s' : Sched} {ds0 ds' : List Diag}
    (h0 : (mview pp s0 ts0).reported = some ds0) (hd0 : ∀ d ∈ ds0, ¬ d.Fatal)
    (h' : (mview pp s' ts').reported = some ds') (hd' : ∀ d ∈ ds', ¬ d.Fatal) :
    ∃ A B, ds' = A ++ B ∧ (mview pp s ts).reported = some (A ++ ((if T.expanded then ds0 else []) ++ B)) := by
  have e0 : rootIssues cs = ds0.map .report := by
    simpa using reading_nonfatal hl0 h0 hd0 ((reading_parses hl0).mpr hp)
  have e' := reading_nonfatal hl' h' hd' hr'
  have hn0 : ∀ c ∈ cs, c.isSlot = false := noSlot_of_issues fun i hi => by
    rw [e0] at hi
    obtain ⟨d, -, rfl⟩ := List.mem_map.mp hi
    exact ⟨d, rfl⟩
  have hn : ∀ c ∈ T.fill (before ++ after), c.isSlot = false := noSlot_of_issues fun i hi => by
    have : i ∈ is ++ rootIssues (T.fill (before ++ after)) := List.mem_append_right _ hi
    rw [e'] at this
    obtain ⟨d, -, rfl⟩ := List.mem_map.mp this
    exact ⟨d, rfl⟩
  obtain ⟨A, B, h⟩ := root_adds hn
  have h2 := h [] (by simp)
  simp only [List.nil_append, nodesIssues, ite_self] at h2
  rw [h2, ← List.append_assoc] at e'
  obtain ⟨da, db, rfl, ha, hb⟩ := map_report_append e'
  have hall := h cs hn0
  rw [rootIssues_noSlot hn0] at e0
  have hx := is_reported (reading_exact (s := s) hl hr)
  refine ⟨da, db, rfl, ?_⟩
  rw [hx, hall, ← List.append_assoc, ha, hb, e0]
  have : (if T.expanded then ds0.map Issue.report else []) = (if T.expanded then ds0 else []).map .report := by
    split <;> rfl
  rw [this, ← List.map_append, ← List.map_append, verdict_reports]
  rfl

/-- C89.  So something that is accepted on its own adds no errors. -/
theorem correct_adds_none {T : TreeGap} {before cs after : List Child} {ts0 ts ts' : Toks} {is : List Issue}
    (hl0 : LexicalToks ts0) (hl : LexicalToks ts) (hl' : LexicalToks ts') (hp : Parses pp ts0 cs)
    (hr : ReadsChildren pp ts is (T.fill (before ++ (cs ++ after))))
    (hr' : ReadsChildren pp ts' is (T.fill (before ++ after))) {s0 s s' : Sched} {ds' : List Diag} {out : Toks}
    (h0 : mview pp s0 ts0 = .tokens out) (h' : (mview pp s' ts').reported = some ds') (hd' : ∀ d ∈ ds', ¬ d.Fatal) :
    (mview pp s ts).reported = some ds' := by
  obtain ⟨A, B, rfl, h⟩ := errors_add_up (ds0 := []) (s := s) hl0 hl hl' hp hr hr' (by rw [h0]; rfl) (by simp) h' hd'
  simpa using h

/-- C89.  And the errors of something that has errors on its own are never lost. -/
theorem mistakes_heard {T : TreeGap} {before cs after : List Child} {ts0 ts ts' : Toks} {is : List Issue}
    (hl0 : LexicalToks ts0) (hl : LexicalToks ts) (hl' : LexicalToks ts') (hp : Parses pp ts0 cs)
    (hr : ReadsChildren pp ts is (T.fill (before ++ (cs ++ after))))
    (hr' : ReadsChildren pp ts' is (T.fill (before ++ after))) (hx : T.expanded = true) {s0 s s' : Sched}
    {ds0 ds' : List Diag} (h0 : (mview pp s0 ts0).reported = some ds0) (hd0 : ∀ d ∈ ds0, ¬ d.Fatal)
    (h' : (mview pp s' ts').reported = some ds') (hd' : ∀ d ∈ ds', ¬ d.Fatal) :
    ∃ ds, (mview pp s ts).reported = some ds ∧ ds0 <:+: ds ∧ ds'.Sublist ds ∧ ds.length = ds0.length + ds'.length := by
  obtain ⟨A, B, rfl, h⟩ := errors_add_up (s := s) hl0 hl hl' hp hr hr' h0 hd0 h' hd'
  rw [if_pos hx] at h
  refine ⟨_, h, ⟨A, B, by simp⟩, ?_, by simp; omega⟩
  exact (List.Sublist.refl A).append (List.sublist_append_right ds0 B)

/-- C89.  The same if what is added has mistakes in the syntax, `is`, too, and is read in the same way where it is added:
each of its two kinds of errors is in one place, as all mistakes in the syntax are reported before the others. -/
theorem all_errors_add_up {T : TreeGap} {before cs after : List Child} {ts0 ts ts' : Toks} {I is J : List Issue}
    (hl0 : LexicalToks ts0) (hl : LexicalToks ts) (hl' : LexicalToks ts') (hr0 : ReadsChildren pp ts0 is cs)
    (hr : ReadsChildren pp ts (I ++ (is ++ J)) (T.fill (before ++ (cs ++ after))))
    (hr' : ReadsChildren pp ts' (I ++ J) (T.fill (before ++ after))) {s0 s s' : Sched} {ds0 ds' : List Diag}
    (h0 : (mview pp s0 ts0).reported = some ds0) (hd0 : ∀ d ∈ ds0, ¬ d.Fatal)
    (h' : (mview pp s' ts').reported = some ds') (hd' : ∀ d ∈ ds', ¬ d.Fatal) :
    ∃ P A B syn tree, is = syn.map .report ∧ ds0 = syn ++ tree ∧ ds' = P ++ (A ++ B) ∧
      (mview pp s ts).reported = some (P ++ (syn ++ (A ++ ((if T.expanded then tree else []) ++ B)))) := by
  obtain ⟨syn, tree, rfl, hsyn, e0⟩ := map_report_append (reading_nonfatal hl0 h0 hd0 hr0)
  have e' := reading_nonfatal hl' h' hd' hr'
  have hn0 : ∀ c ∈ cs, c.isSlot = false := noSlot_of_issues fun i hi => by
    rw [e0] at hi
    obtain ⟨d, -, rfl⟩ := List.mem_map.mp hi
    exact ⟨d, rfl⟩
  have hn : ∀ c ∈ T.fill (before ++ after), c.isSlot = false := noSlot_of_issues fun i hi => by
    have : i ∈ I ++ J ++ rootIssues (T.fill (before ++ after)) := List.mem_append_right _ hi
    rw [e'] at this
    obtain ⟨d, -, rfl⟩ := List.mem_map.mp this
    exact ⟨d, rfl⟩
  obtain ⟨A, B, h⟩ := root_adds hn
  have h2 := h [] (by simp)
  simp only [List.nil_append, nodesIssues, ite_self] at h2
  rw [h2, List.append_assoc, ← List.append_assoc J] at e'
  obtain ⟨dp, dab, rfl, hI, hab⟩ := map_report_append e'
  obtain ⟨da, db, rfl, ha, hb⟩ := map_report_append hab
  have hall := h cs hn0
  rw [rootIssues_noSlot hn0] at e0
  have hx := is_reported (reading_exact (s := s) hl hr)
  refine ⟨dp, da, db, syn, tree, hsyn, rfl, rfl, ?_⟩
  have : (if T.expanded then tree.map Issue.report else []) = (if T.expanded then tree else []).map .report := by
    split <;> rfl
  have e : I ++ (is ++ J) ++ (A ++ ((if T.expanded then nodesIssues cs else []) ++ B)) =
      (dp ++ (syn ++ (da ++ ((if T.expanded then tree else []) ++ db)))).map .report := by
    simp only [List.map_append, ← hI, ← hsyn, ← ha, ← hb, ← this, ← e0, List.append_assoc]
  rw [hx, hall, e, verdict_reports]
  rfl

/-- C89.  So, up to their order, the errors are those of both. -/
theorem errors_together {T : TreeGap} {before cs after : List Child} {ts0 ts ts' : Toks} {I is J : List Issue}
    (hl0 : LexicalToks ts0) (hl : LexicalToks ts) (hl' : LexicalToks ts') (hr0 : ReadsChildren pp ts0 is cs)
    (hr : ReadsChildren pp ts (I ++ (is ++ J)) (T.fill (before ++ (cs ++ after))))
    (hr' : ReadsChildren pp ts' (I ++ J) (T.fill (before ++ after))) (hx : T.expanded = true) {s0 s s' : Sched}
    {ds0 ds' : List Diag} (h0 : (mview pp s0 ts0).reported = some ds0) (hd0 : ∀ d ∈ ds0, ¬ d.Fatal)
    (h' : (mview pp s' ts').reported = some ds') (hd' : ∀ d ∈ ds', ¬ d.Fatal) :
    ∃ ds, (mview pp s ts).reported = some ds ∧ ds.Perm (ds0 ++ ds') := by
  obtain ⟨P, A, B, syn, tree, -, rfl, rfl, h⟩ := all_errors_add_up (s := s) hl0 hl hl' hr0 hr hr' h0 hd0 h' hd'
  rw [if_pos hx] at h
  refine ⟨_, h, ?_⟩
  rw [List.perm_iff_count]
  intro d
  simp only [List.count_append]
  omega

/-! ### examples -/

/-- `q x:y={z};` in the `div` of `"a" div b:c={d} { \"e\" p f:g={h}; }`: its error is between the others. -/
example :
    (mview simplePaths (fun _ => []) t!"q x:y={z};").reported = some [.unknownDirective (plain c!"x")] ∧
    (mview simplePaths (fun _ => []) t!"\"a\" div b:c={d} { \"e\" p f:g={h}; }").reported =
      some [.unknownDirective (plain c!"b"), .unknownDirective (plain c!"f")] ∧
    (mview simplePaths (fun _ => []) t!"\"a\" div b:c={d} { \"e\" q x:y={z}; p f:g={h}; }").reported =
      some [.unknownDirective (plain c!"b"), .unknownDirective (plain c!"x"), .unknownDirective (plain c!"f")] :=
  ⟨rfl, rfl, rfl⟩

/-- With mistakes in the syntax: those come first. -/
example :
    (mview simplePaths (fun _ => []) t!"4 q x:y={z};").reported = some [.nonStringChild, .unknownDirective (plain c!"x")] ∧
    (mview simplePaths (fun _ => []) t!"p f:g={h}; ; div { }").reported =
      some [.extraSemicolon, .unknownDirective (plain c!"f")] ∧
    (mview simplePaths (fun _ => []) t!"p f:g={h}; ; div { 4 q x:y={z}; }").reported =
      some [.extraSemicolon, .nonStringChild, .unknownDirective (plain c!"f"), .unknownDirective (plain c!"x")] :=
  ⟨rfl, rfl, rfl⟩

/-- In a slot of an element it is ignored; in a slot of a component it is not. -/
example :
    (mview simplePaths (fun _ => []) t!"div { slot:Foo { q x:y={z}; } }").reported = some [] ∧
    (mview simplePaths (fun _ => []) t!"Bar { slot:Foo { q x:y={z}; } }").reported =
      some [.unknownDirective (plain c!"x")] ∧
    (TreeGap.elem [] false (.html ⟨true, c!"div"⟩) [] [] none
      (.elem [] true (.component ⟨false, [⟨plain c!"Foo", .none⟩]⟩) [] [] none .here []) []).expanded = false ∧
    (TreeGap.elem [] false (.component ⟨false, [⟨plain c!"Bar", .none⟩]⟩) [] [] none
      (.elem [] true (.component ⟨false, [⟨plain c!"Foo", .none⟩]⟩) [] [] none .here []) []).expanded = true :=
  ⟨rfl, rfl, rfl, rfl⟩

/-- Whatever input is read as that `div` after something wrong: with `q;` in it, it has the same errors. -/
example {ts ts' : Toks} (hl : LexicalToks ts) (hl' : LexicalToks ts') {is : List Issue} {cs before after : List Child}
    {attrs : List Attr}
    (hr : ReadsChildren simplePaths ts is (before ++ .elem (.mk (.html ⟨true, c!"div"⟩) [] attrs none
      (some (cs ++ [.elem (.mk (.html ⟨true, c!"q"⟩) [] [] none none)]))) :: after))
    (hr' : ReadsChildren simplePaths ts' is (before ++ .elem (.mk (.html ⟨true, c!"div"⟩) [] attrs none
      (some cs)) :: after))
    {s s' : Sched} {ds : List Diag} (h : (mview simplePaths s' ts').reported = some ds) (hd : ∀ d ∈ ds, ¬ d.Fatal) :
    (mview simplePaths s ts).reported = some ds :=
  correct_adds_none (pp := simplePaths) (T := .elem before false (.html ⟨true, c!"div"⟩) [] attrs none .here after)
    (before := cs) (after := []) (ts0 := t!"q;") (cs := [.elem (.mk (.html ⟨true, c!"q"⟩) [] [] none none)])
    (s0 := fun _ => []) (lexical_of rfl) hl hl' rfl (by simpa [TreeGap.fill, asChild] using hr)
    (by simpa [TreeGap.fill, asChild] using hr') rfl h hd

end Mview
