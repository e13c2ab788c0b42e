import Verif.Spec.SelAnyway
import Verif.Lemmas.AttrAnyway
import Verif.Lemmas.EditSel
/-
C87: the code for selectors, closure arguments and the tag, in spite of errors.
-/

set_option linter.unusedVariables false

namespace Mview
open Lex

variable {tag : Tag} {sels : List Selector} {attrs : List Attr} {args : Option Toks} {cs : Option (List Child)} {t : Toks}

theorem element_sel_element_anyway (hc : ∀ p, tag ≠ .component p) (k : SelKind) (s1 s2 : List Selector) (attrs : List Attr)
    (args : Option Toks) (cs : Option (List Child)) :
    OnePlace (fun names t => k.Code false tag s1 s2 names t)
      fun names t => (Element.mk tag (s1 ++ (names.map k.sel ++ s2)) attrs args cs).Becomes false t := by
  cases k with
  | cls =>
    refine .out (ι := List Toks × Toks × List Call × List (List Call)) (P := fun i => NodesAnyway cs i.1 ∧
        tag.head = some i.2.1 ∧ (kvs attrs).mapM (KvAttr.onElementAnyway tag.kind) = some i.2.2.1 ∧
        (directives attrs).mapM Directive.onElementAnyway = some i.2.2.2)
      (F := fun i x => i.2.1 ++ (chain (i.2.2.1 ++ i.2.2.2.flatten ++ (classes s1).map classCall) ++ (x ++
        chain ((classes s2).map classCall ++ (ids s1 ++ ids s2).map idCall ++ (spreads attrs).map spreadCall ++ i.1.map childCall))))
      OnePlace.code (fun i _ => by gap) fun m t => ?_
    have hC : ∀ t, SelKind.Code false tag s1 s2 m t .cls ↔ t = chain (m.map classCall) := by
      intro t
      cases tag <;> first | exact absurd rfl (hc _) | simp [SelKind.Code]
    simp only [element_inner_anyway hc, xmlAnyway_some, hC, classes_append, ids_append, classes_sel, ids_sel, List.nil_append, List.map_append]
    constructor
    · rintro ⟨nodes, hn, head, as, ds, h1, h2, h3, rfl⟩
      exact ⟨⟨nodes, head, as, ds⟩, _, ⟨hn, h1, h2, h3⟩, rfl, by simp only [chain_append, List.append_assoc]⟩
    · rintro ⟨⟨nodes, head, as, ds⟩, _, ⟨hn, h1, h2, h3⟩, rfl, rfl⟩
      exact ⟨nodes, hn, head, as, ds, h1, h2, h3, by simp only [chain_append, List.append_assoc]⟩
  | id =>
    refine .out (ι := List Toks × Toks × List Call × List (List Call)) (P := fun i => NodesAnyway cs i.1 ∧
        tag.head = some i.2.1 ∧ (kvs attrs).mapM (KvAttr.onElementAnyway tag.kind) = some i.2.2.1 ∧
        (directives attrs).mapM Directive.onElementAnyway = some i.2.2.2)
      (F := fun i x => i.2.1 ++ (chain (i.2.2.1 ++ i.2.2.2.flatten ++ (classes s1 ++ classes s2).map classCall ++ (ids s1).map idCall) ++
        (x ++ chain ((ids s2).map idCall ++ (spreads attrs).map spreadCall ++ i.1.map childCall))))
      OnePlace.code (fun i _ => by gap) fun m t => ?_
    have hC : ∀ t, SelKind.Code false tag s1 s2 m t .id ↔ t = chain (m.map idCall) := by
      intro t
      cases tag <;> first | exact absurd rfl (hc _) | simp [SelKind.Code]
    simp only [element_inner_anyway hc, xmlAnyway_some, hC, classes_append, ids_append, classes_sel, ids_sel, List.nil_append, List.map_append]
    constructor
    · rintro ⟨nodes, hn, head, as, ds, h1, h2, h3, rfl⟩
      exact ⟨⟨nodes, head, as, ds⟩, _, ⟨hn, h1, h2, h3⟩, rfl, by simp only [chain_append, List.append_assoc]⟩
    · rintro ⟨⟨nodes, head, as, ds⟩, _, ⟨hn, h1, h2, h3⟩, rfl, rfl⟩
      exact ⟨nodes, hn, head, as, ds, h1, h2, h3, by simp only [chain_append, List.append_assoc]⟩

theorem element_sel_component_anyway (p : Path) (k : SelKind) (s1 s2 : List Selector) (attrs : List Attr)
    (args : Option Toks) (cs : Option (List Child)) :
    OnePlace (fun names t => k.Code false (.component p) s1 s2 names t)
      fun names t => (Element.mk (.component p) (s1 ++ (names.map k.sel ++ s2)) attrs args cs).Becomes false t := by
  cases k with
  | cls =>
    refine .out (ι := List Toks × List Call × Toks × List Call × List (List Toks) × List Toks)
      (P := fun ⟨nodes, calls, pt, as, es, cl⟩ => ChildrenAnyway cs nodes calls ∧ p.means = some pt ∧
        (kvs attrs).mapM KvAttr.onComponentAnyway = some as ∧ (entries attrs).mapM Attr.entryAnyway = some es ∧
        (clones attrs).mapM Directive.cloneAnyway = some cl)
      (F := fun ⟨nodes, calls, pt, as, es, cl⟩ c => componentCode pt (chain as ++
          (chain (childrenCall args cl.flatten nodes) ++ (chain calls ++ chain [⟨plain c!"build", []⟩])))
        (commaAfter ((classes s1).map classEntry) ++ (c ++ (commaAfter ((classes s2).map classEntry) ++
          (commaAfter (idEntry (ids s1 ++ ids s2)) ++ commaAfter es.flatten)))))
      OnePlace.code (fun ⟨nodes, calls, pt, as, es, cl⟩ _ => gap_componentEntries _ _ (by gap)) fun m t => ?_
    simp only [component_inner_anyway, componentAnyway_code, SelKind.Code, classes_append, ids_append, classes_sel, ids_sel,
      List.nil_append, List.map_append, Bool.false_eq_true, false_imp_iff, true_and]
    constructor
    · rintro ⟨nodes, calls, hn, pt, as, es, cl, h1, h2, h3, h4, rfl⟩
      exact ⟨⟨nodes, calls, pt, as, es, cl⟩, _, ⟨hn, h1, h2, h3, h4⟩, rfl, by simp only [commaAfter_append, List.append_assoc]⟩
    · rintro ⟨⟨nodes, calls, pt, as, es, cl⟩, _, ⟨hn, h1, h2, h3, h4⟩, rfl, rfl⟩
      exact ⟨nodes, calls, hn, pt, as, es, cl, h1, h2, h3, h4, by simp only [commaAfter_append, List.append_assoc]⟩
  | id =>
    refine .out (ι := List Toks × List Call × Toks × List Call × List (List Toks) × List Toks)
      (P := fun ⟨nodes, calls, pt, as, es, cl⟩ => ChildrenAnyway cs nodes calls ∧ p.means = some pt ∧
        (kvs attrs).mapM KvAttr.onComponentAnyway = some as ∧ (entries attrs).mapM Attr.entryAnyway = some es ∧
        (clones attrs).mapM Directive.cloneAnyway = some cl)
      (F := fun ⟨nodes, calls, pt, as, es, cl⟩ c => componentCode pt (chain as ++
          (chain (childrenCall args cl.flatten nodes) ++ (chain calls ++ chain [⟨plain c!"build", []⟩])))
        (commaAfter ((classes s1 ++ classes s2).map classEntry) ++ (c ++ commaAfter es.flatten)))
      OnePlace.code (fun ⟨nodes, calls, pt, as, es, cl⟩ _ => gap_componentEntries _ _ (by gap)) fun m t => ?_
    simp only [component_inner_anyway, componentAnyway_code, SelKind.Code, classes_append, ids_append, classes_sel, ids_sel,
      List.nil_append, List.map_append, Bool.false_eq_true, false_imp_iff, true_and]
    constructor
    · rintro ⟨nodes, calls, hn, pt, as, es, cl, h1, h2, h3, h4, rfl⟩
      exact ⟨⟨nodes, calls, pt, as, es, cl⟩, _, ⟨hn, h1, h2, h3, h4⟩, rfl, by simp only [commaAfter_append, List.append_assoc]⟩
    · rintro ⟨⟨nodes, calls, pt, as, es, cl⟩, _, ⟨hn, h1, h2, h3, h4⟩, rfl, rfl⟩
      exact ⟨nodes, calls, hn, pt, as, es, cl, h1, h2, h3, h4, by simp only [commaAfter_append, List.append_assoc]⟩

/-- The code for an element with selectors of one kind in the middle. -/
theorem element_sel_anyway (asSlot : Bool) (tag : Tag) (k : SelKind) (s1 s2 : List Selector) (attrs : List Attr)
    (args : Option Toks) (cs : Option (List Child)) :
    OnePlace (fun names t => k.CodeAnyway asSlot tag s1 s2 names t)
      fun names t => (Element.mk tag (s1 ++ (names.map k.sel ++ s2)) attrs args cs).Becomes asSlot t := by
  by_cases hc : ∃ p, tag = .component p
  · obtain ⟨p, rfl⟩ := hc
    cases asSlot with
    | false => exact element_sel_component_anyway p k s1 s2 attrs args cs
    | true =>
      refine .ignored (C := fun _ _ => True) (P := fun t => (Element.mk (.component p) [] attrs args cs).Becomes true t) fun m t => ?_
      simp only [slot_inner_anyway]
  · have hc : ∀ p, tag ≠ .component p := fun p h => hc ⟨p, h⟩
    cases asSlot with
    | false => exact element_sel_element_anyway hc k s1 s2 attrs args cs
    | true => exact .never fun m t => element_not_slot_anyway hc

/-- The code for an element with closure arguments. -/
theorem element_args_anyway (asSlot : Bool) (tag : Tag) (sels : List Selector) (attrs : List Attr) (cs : Option (List Child)) :
    OnePlace (fun a t => (argsUse tag cs).Code (fun a t => t = a) a t)
      fun a t => (Element.mk tag sels attrs (some a) cs).Becomes asSlot t := by
  by_cases hc : ∃ p, tag = .component p
  · obtain ⟨p, rfl⟩ := hc
    by_cases hs : (cs.getD []).all Child.isSlot = true
    · simp only [argsUse, if_pos hs]
      refine .ignored (P := fun t => (Element.mk (.component p) sels attrs none cs).Becomes asSlot t) fun a t => ?_
      cases asSlot with
      | false =>
        simp only [component_inner_anyway, componentAnyway_code]
        constructor
        · rintro ⟨nodes, calls, hn, h⟩
          obtain rfl := (inner_nodes_anyway hn).mpr hs
          exact ⟨[], calls, hn, h⟩
        · rintro ⟨nodes, calls, hn, h⟩
          obtain rfl := (inner_nodes_anyway hn).mpr hs
          exact ⟨[], calls, hn, h⟩
      | true =>
        simp only [slot_inner_anyway, slotAnyway_code]
        constructor
        · rintro ⟨nodes, calls, hn, h⟩
          obtain rfl := (inner_nodes_anyway hn).mpr hs
          exact ⟨[], calls, hn, h⟩
        · rintro ⟨nodes, calls, hn, h⟩
          obtain rfl := (inner_nodes_anyway hn).mpr hs
          exact ⟨[], calls, hn, h⟩
    · simp only [argsUse, if_neg hs]
      cases asSlot with
      | false =>
        refine .out (ι := List Toks × List Call × Toks × List Call × List (List Toks) × List Toks)
          (P := fun ⟨nodes, calls, pt, as, es, cl⟩ => ChildrenAnyway cs nodes calls ∧ p.means = some pt ∧
            (kvs attrs).mapM KvAttr.onComponentAnyway = some as ∧ (entries attrs).mapM Attr.entryAnyway = some es ∧
            (clones attrs).mapM Directive.cloneAnyway = some cl)
          (F := fun ⟨nodes, calls, pt, as, es, cl⟩ c => componentCode pt (chain as ++
              (chain (childrenCall (some c) cl.flatten nodes) ++ (chain calls ++ chain [⟨plain c!"build", []⟩])))
            (commaAfter ((classes sels).map classEntry ++ idEntry (ids sels)) ++ commaAfter es.flatten))
          OnePlace.code (fun ⟨nodes, calls, pt, as, es, cl⟩ hi => gap_componentCalls _ _ ?_) fun m t => ?_
        · have := gap_args cl.flatten (nodes := nodes) fun h => hs ((inner_nodes_anyway hi.1).mp h)
          gap
        simp only [component_inner_anyway, componentAnyway_code, Use.Code]
        constructor
        · rintro ⟨nodes, calls, hn, pt, as, es, cl, h1, h2, h3, h4, rfl⟩
          exact ⟨⟨nodes, calls, pt, as, es, cl⟩, _, ⟨hn, h1, h2, h3, h4⟩, rfl, rfl⟩
        · rintro ⟨⟨nodes, calls, pt, as, es, cl⟩, _, ⟨hn, h1, h2, h3, h4⟩, rfl, rfl⟩
          exact ⟨nodes, calls, hn, pt, as, es, cl, h1, h2, h3, h4, rfl⟩
      | true =>
        refine .out (ι := List Toks × List Call × Toks × List Call × List Toks)
          (P := fun ⟨nodes, calls, pt, as, cl⟩ => ChildrenAnyway cs nodes calls ∧
            p.means = some pt ∧ (kvs attrs).mapM KvAttr.onComponentAnyway = some as ∧
            (clones attrs).mapM Directive.cloneAnyway = some cl)
          (F := fun ⟨nodes, calls, pt, as, cl⟩ c => slotCode pt (chain as ++
              (chain (childrenCall (some c) cl.flatten nodes) ++ chain [⟨plain c!"build", []⟩])))
          OnePlace.code (fun ⟨nodes, calls, pt, as, cl⟩ hi => gap_slotCode _ ?_) fun m t => ?_
        · have := gap_args cl.flatten (nodes := nodes) fun h => hs ((inner_nodes_anyway hi.1).mp h)
          gap
        simp only [slot_inner_anyway, slotAnyway_code, Use.Code]
        constructor
        · rintro ⟨nodes, calls, hn, pt, as, cl, h1, h2, h4, rfl⟩
          exact ⟨⟨nodes, calls, pt, as, cl⟩, _, ⟨hn, h1, h2, h4⟩, rfl, rfl⟩
        · rintro ⟨⟨nodes, calls, pt, as, cl⟩, _, ⟨hn, h1, h2, h4⟩, rfl, rfl⟩
          exact ⟨nodes, calls, hn, pt, as, cl, h1, h2, h4, rfl⟩
  · have hc : ∀ p, tag ≠ .component p := fun p h => hc ⟨p, h⟩
    have hu : argsUse tag cs = .ignored := by
      cases tag <;> first | rfl | exact absurd rfl (hc _)
    rw [hu]
    refine .ignored (P := fun t => (Element.mk tag sels attrs none cs).Becomes asSlot t) fun a t => ?_
    cases asSlot with
    | false => simp only [element_inner_anyway hc]
    | true => simp only [element_not_slot_anyway hc]

/-- The code for an element with any tag. -/
theorem element_tag_anyway (asSlot : Bool) (kind : TagKind) (sels : List Selector) (attrs : List Attr) (args : Option Toks)
    (cs : Option (List Child)) :
    OnePlace (α := TagAt kind) (fun tag t => tag.1.head = some t)
      fun tag t => (Element.mk tag.1 sels attrs args cs).Becomes asSlot t := by
  cases asSlot with
  | true => exact .never fun m t => element_not_slot_anyway m.2.2
  | false =>
    refine .out (ι := List Toks × List Call × List (List Call)) (P := fun i => NodesAnyway cs i.1 ∧
        (kvs attrs).mapM (KvAttr.onElementAnyway kind) = some i.2.1 ∧ (directives attrs).mapM Directive.onElementAnyway = some i.2.2)
      (F := fun i x => x ++ chain (i.2.1 ++ i.2.2.flatten ++ (classes sels).map classCall ++ (ids sels).map idCall ++
        (spreads attrs).map spreadCall ++ i.1.map childCall))
      OnePlace.code (fun i _ => by gap) fun m t => ?_
    simp only [element_inner_anyway m.2.2, xmlAnyway_some, m.2.1]
    constructor
    · rintro ⟨nodes, hn, head, as, ds, h1, h2, h3, rfl⟩
      exact ⟨⟨nodes, as, ds⟩, _, ⟨hn, h2, h3⟩, h1, rfl⟩
    · rintro ⟨⟨nodes, as, ds⟩, _, ⟨hn, h2, h3⟩, h1, rfl⟩
      exact ⟨nodes, hn, _, as, ds, h1, h2, h3, rfl⟩

end Mview
