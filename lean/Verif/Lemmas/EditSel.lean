import Verif.Spec.EditSel
import Verif.Lemmas.EditAttr
/-
C69: the code for selectors, closure arguments and the tag.
-/

set_option linter.unusedVariables false

namespace Mview
open Lex

variable {tag : Tag} {sels : List Selector} {attrs : List Attr} {args : Option Toks} {cs : Option (List Child)} {t : Toks}

theorem classes_append (a b : List Selector) : classes (a ++ b) = classes a ++ classes b := by simp [classes]
theorem ids_append (a b : List Selector) : ids (a ++ b) = ids a ++ ids b := by simp [ids]

theorem classes_sel (k : SelKind) (names : List KebabIdent) :
    classes (names.map k.sel) = match k with | .cls => names | .id => [] := by
  induction names with
  | nil => cases k <;> rfl
  | cons n names ih => cases k <;> simp_all [classes, SelKind.sel]

theorem ids_sel (k : SelKind) (names : List KebabIdent) :
    ids (names.map k.sel) = match k with | .id => names | .cls => [] := by
  induction names with
  | nil => cases k <;> rfl
  | cons n names ih => cases k <;> simp_all [ids, SelKind.sel]

theorem element_sel_element (hc : ∀ p, tag ≠ .component p) (k : SelKind) (s1 s2 : List Selector) (attrs : List Attr)
    (args : Option Toks) (cs : Option (List Child)) :
    OnePlace (fun names t => k.Code false tag s1 s2 names t)
      fun names t => (Element.mk tag (s1 ++ (names.map k.sel ++ s2)) attrs args cs).Means false t := by
  cases k with
  | cls =>
    refine .out (ι := List Toks × Toks × List Call × List Call) (P := fun i => NodesCode cs i.1 ∧
        tag.head = some i.2.1 ∧ (kvs attrs).mapM (KvAttr.onElement tag.kind) = some i.2.2.1 ∧
        (directives attrs).mapM Directive.onElement = some i.2.2.2)
      (F := fun i x => i.2.1 ++ (chain (i.2.2.1 ++ i.2.2.2 ++ (classes s1).map classCall) ++ (x ++
        chain ((classes s2).map classCall ++ (ids s1 ++ ids s2).map idCall ++ (spreads attrs).map spreadCall ++ i.1.map childCall))))
      OnePlace.code (fun i _ => by gap) fun m t => ?_
    have hC : ∀ t, SelKind.Code false tag s1 s2 m t .cls ↔ t = chain (m.map classCall) := by
      intro t
      cases tag <;> first | exact absurd rfl (hc _) | simp [SelKind.Code]
    simp only [element_inner hc, xmlMeans_some, hC, classes_append, ids_append, classes_sel, ids_sel, List.nil_append, List.map_append]
    constructor
    · rintro ⟨nodes, hn, head, as, ds, h1, h2, h3, rfl⟩
      exact ⟨⟨nodes, head, as, ds⟩, _, ⟨hn, h1, h2, h3⟩, rfl, by simp only [chain_append, List.append_assoc]⟩
    · rintro ⟨⟨nodes, head, as, ds⟩, _, ⟨hn, h1, h2, h3⟩, rfl, rfl⟩
      exact ⟨nodes, hn, head, as, ds, h1, h2, h3, by simp only [chain_append, List.append_assoc]⟩
  | id =>
    refine .out (ι := List Toks × Toks × List Call × List Call) (P := fun i => NodesCode cs i.1 ∧
        tag.head = some i.2.1 ∧ (kvs attrs).mapM (KvAttr.onElement tag.kind) = some i.2.2.1 ∧
        (directives attrs).mapM Directive.onElement = some i.2.2.2)
      (F := fun i x => i.2.1 ++ (chain (i.2.2.1 ++ i.2.2.2 ++ (classes s1 ++ classes s2).map classCall ++ (ids s1).map idCall) ++
        (x ++ chain ((ids s2).map idCall ++ (spreads attrs).map spreadCall ++ i.1.map childCall))))
      OnePlace.code (fun i _ => by gap) fun m t => ?_
    have hC : ∀ t, SelKind.Code false tag s1 s2 m t .id ↔ t = chain (m.map idCall) := by
      intro t
      cases tag <;> first | exact absurd rfl (hc _) | simp [SelKind.Code]
    simp only [element_inner hc, xmlMeans_some, hC, classes_append, ids_append, classes_sel, ids_sel, List.nil_append, List.map_append]
    constructor
    · rintro ⟨nodes, hn, head, as, ds, h1, h2, h3, rfl⟩
      exact ⟨⟨nodes, head, as, ds⟩, _, ⟨hn, h1, h2, h3⟩, rfl, by simp only [chain_append, List.append_assoc]⟩
    · rintro ⟨⟨nodes, head, as, ds⟩, _, ⟨hn, h1, h2, h3⟩, rfl, rfl⟩
      exact ⟨nodes, hn, head, as, ds, h1, h2, h3, by simp only [chain_append, List.append_assoc]⟩

theorem element_sel_component (p : Path) (k : SelKind) (s1 s2 : List Selector) (attrs : List Attr)
    (args : Option Toks) (cs : Option (List Child)) :
    OnePlace (fun names t => k.Code false (.component p) s1 s2 names t)
      fun names t => (Element.mk (.component p) (s1 ++ (names.map k.sel ++ s2)) attrs args cs).Means false t := by
  cases k with
  | cls =>
    refine .out (ι := List Toks × List Call × Toks × List Call × List Toks × List Toks)
      (P := fun ⟨nodes, calls, pt, as, es, cl⟩ => ChildrenCode cs nodes calls ∧ p.means = some pt ∧
        (kvs attrs).mapM KvAttr.onComponent = some as ∧ (entries attrs).mapM Attr.entry = some es ∧
        (clones attrs).mapM Directive.cloneStmt = some cl)
      (F := fun ⟨nodes, calls, pt, as, es, cl⟩ c => componentCode pt (chain as ++
          (chain (childrenCall args cl.flatten nodes) ++ (chain calls ++ chain [⟨plain c!"build", []⟩])))
        (commaAfter ((classes s1).map classEntry) ++ (c ++ (commaAfter ((classes s2).map classEntry) ++
          (commaAfter (idEntry (ids s1 ++ ids s2)) ++ commaAfter es)))))
      OnePlace.code (fun ⟨nodes, calls, pt, as, es, cl⟩ _ => gap_componentEntries _ _ (by gap)) fun m t => ?_
    simp only [component_inner, componentMeans_code, SelKind.Code, classes_append, ids_append, classes_sel, ids_sel,
      List.nil_append, List.map_append, Bool.false_eq_true, false_imp_iff, true_and]
    constructor
    · rintro ⟨nodes, calls, hn, pt, as, es, cl, h1, h2, h3, h4, rfl⟩
      exact ⟨⟨nodes, calls, pt, as, es, cl⟩, _, ⟨hn, h1, h2, h3, h4⟩, rfl, by simp only [commaAfter_append, List.append_assoc]⟩
    · rintro ⟨⟨nodes, calls, pt, as, es, cl⟩, _, ⟨hn, h1, h2, h3, h4⟩, rfl, rfl⟩
      exact ⟨nodes, calls, hn, pt, as, es, cl, h1, h2, h3, h4, by simp only [commaAfter_append, List.append_assoc]⟩
  | id =>
    refine .out (ι := List Toks × List Call × Toks × List Call × List Toks × List Toks)
      (P := fun ⟨nodes, calls, pt, as, es, cl⟩ => ChildrenCode cs nodes calls ∧ p.means = some pt ∧
        (kvs attrs).mapM KvAttr.onComponent = some as ∧ (entries attrs).mapM Attr.entry = some es ∧
        (clones attrs).mapM Directive.cloneStmt = some cl)
      (F := fun ⟨nodes, calls, pt, as, es, cl⟩ c => componentCode pt (chain as ++
          (chain (childrenCall args cl.flatten nodes) ++ (chain calls ++ chain [⟨plain c!"build", []⟩])))
        (commaAfter ((classes s1 ++ classes s2).map classEntry) ++ (c ++ commaAfter es)))
      OnePlace.code (fun ⟨nodes, calls, pt, as, es, cl⟩ _ => gap_componentEntries _ _ (by gap)) fun m t => ?_
    simp only [component_inner, componentMeans_code, SelKind.Code, classes_append, ids_append, classes_sel, ids_sel,
      List.nil_append, List.map_append, Bool.false_eq_true, false_imp_iff, true_and]
    constructor
    · rintro ⟨nodes, calls, hn, pt, as, es, cl, h1, h2, h3, h4, rfl⟩
      exact ⟨⟨nodes, calls, pt, as, es, cl⟩, _, ⟨hn, h1, h2, h3, h4⟩, rfl, by simp only [commaAfter_append, List.append_assoc]⟩
    · rintro ⟨⟨nodes, calls, pt, as, es, cl⟩, _, ⟨hn, h1, h2, h3, h4⟩, rfl, rfl⟩
      exact ⟨nodes, calls, hn, pt, as, es, cl, h1, h2, h3, h4, by simp only [commaAfter_append, List.append_assoc]⟩

/-- The code for an element with selectors of one kind in the middle. -/
theorem element_sel (asSlot : Bool) (tag : Tag) (k : SelKind) (s1 s2 : List Selector) (attrs : List Attr)
    (args : Option Toks) (cs : Option (List Child)) :
    OnePlace (fun names t => k.Code asSlot tag s1 s2 names t)
      fun names t => (Element.mk tag (s1 ++ (names.map k.sel ++ s2)) attrs args cs).Means asSlot t := by
  by_cases hc : ∃ p, tag = .component p
  · obtain ⟨p, rfl⟩ := hc
    cases asSlot with
    | false => exact element_sel_component p k s1 s2 attrs args cs
    | true =>
      refine .empty (E := fun names => names = []) (P := fun t => (Element.mk (.component p) (s1 ++ s2) attrs args cs).Means true t)
        (fun m t => by simp [SelKind.Code]) fun m t => ?_
      cases m with
      | nil => simp
      | cons n m =>
        simp only [slot_inner, slotMeans_code]
        simp
  · have hc : ∀ p, tag ≠ .component p := fun p h => hc ⟨p, h⟩
    cases asSlot with
    | false => exact element_sel_element hc k s1 s2 attrs args cs
    | true => exact .never fun m t => element_not_slot hc

theorem gap_args (cl : Toks) {nodes : List Toks} (hn : nodes ≠ []) :
    IsGap fun x => chain (childrenCall (some x) cl nodes) := by
  have : ∃ n, ∃ g : Toks → Toks, IsGap g ∧ ∀ x, childrenCall (some x) cl nodes = [⟨n, g x⟩] := by
    refine ⟨_, _, ?_, fun x => by simp only [childrenCall, if_neg hn]; rfl⟩
    gap
  obtain ⟨n, g, hg, he⟩ := this
  exact .of_eq (fun x => by rw [he]; rfl) (gap_chain [] n [] hg)

/-- The code for an element with closure arguments. -/
theorem element_args (asSlot : Bool) (tag : Tag) (sels : List Selector) (attrs : List Attr) (cs : Option (List Child)) :
    OnePlace (fun a t => (argsUse tag cs).Code (fun a t => t = a) a t)
      fun a t => (Element.mk tag sels attrs (some a) cs).Means asSlot t := by
  by_cases hc : ∃ p, tag = .component p
  · obtain ⟨p, rfl⟩ := hc
    by_cases hs : (cs.getD []).all Child.isSlot = true
    · simp only [argsUse, if_pos hs]
      refine .ignored (P := fun t => (Element.mk (.component p) sels attrs none cs).Means asSlot t) fun a t => ?_
      cases asSlot with
      | false =>
        simp only [component_inner, componentMeans_code]
        constructor
        · rintro ⟨nodes, calls, hn, h⟩
          obtain rfl := (inner_nodes hn).mpr hs
          exact ⟨[], calls, hn, h⟩
        · rintro ⟨nodes, calls, hn, h⟩
          obtain rfl := (inner_nodes hn).mpr hs
          exact ⟨[], calls, hn, h⟩
      | true =>
        simp only [slot_inner, slotMeans_code]
        constructor
        · rintro ⟨nodes, calls, hn, h⟩
          obtain rfl := (inner_nodes hn).mpr hs
          exact ⟨[], calls, hn, h⟩
        · rintro ⟨nodes, calls, hn, h⟩
          obtain rfl := (inner_nodes hn).mpr hs
          exact ⟨[], calls, hn, h⟩
    · simp only [argsUse, if_neg hs]
      cases asSlot with
      | false =>
        refine .out (ι := List Toks × List Call × Toks × List Call × List Toks × List Toks)
          (P := fun ⟨nodes, calls, pt, as, es, cl⟩ => ChildrenCode cs nodes calls ∧ p.means = some pt ∧
            (kvs attrs).mapM KvAttr.onComponent = some as ∧ (entries attrs).mapM Attr.entry = some es ∧
            (clones attrs).mapM Directive.cloneStmt = some cl)
          (F := fun ⟨nodes, calls, pt, as, es, cl⟩ c => componentCode pt (chain as ++
              (chain (childrenCall (some c) cl.flatten nodes) ++ (chain calls ++ chain [⟨plain c!"build", []⟩])))
            (commaAfter ((classes sels).map classEntry ++ idEntry (ids sels)) ++ commaAfter es))
          OnePlace.code (fun ⟨nodes, calls, pt, as, es, cl⟩ hi => gap_componentCalls _ _ ?_) fun m t => ?_
        · have := gap_args cl.flatten (nodes := nodes) fun h => hs ((inner_nodes hi.1).mp h)
          gap
        simp only [component_inner, componentMeans_code, Use.Code]
        constructor
        · rintro ⟨nodes, calls, hn, pt, as, es, cl, h1, h2, h3, h4, rfl⟩
          exact ⟨⟨nodes, calls, pt, as, es, cl⟩, _, ⟨hn, h1, h2, h3, h4⟩, rfl, rfl⟩
        · rintro ⟨⟨nodes, calls, pt, as, es, cl⟩, _, ⟨hn, h1, h2, h3, h4⟩, rfl, rfl⟩
          exact ⟨nodes, calls, hn, pt, as, es, cl, h1, h2, h3, h4, rfl⟩
      | true =>
        refine .out (ι := List Toks × List Call × Toks × List Call × List Toks)
          (P := fun ⟨nodes, calls, pt, as, cl⟩ => sels = [] ∧ entries attrs = [] ∧ ChildrenCode cs nodes calls ∧
            p.means = some pt ∧ (kvs attrs).mapM KvAttr.onComponent = some as ∧
            (clones attrs).mapM Directive.cloneStmt = some cl)
          (F := fun ⟨nodes, calls, pt, as, cl⟩ c => slotCode pt (chain as ++
              (chain (childrenCall (some c) cl.flatten nodes) ++ chain [⟨plain c!"build", []⟩])))
          OnePlace.code (fun ⟨nodes, calls, pt, as, cl⟩ hi => gap_slotCode _ ?_) fun m t => ?_
        · have := gap_args cl.flatten (nodes := nodes) fun h => hs ((inner_nodes hi.2.2.1).mp h)
          gap
        simp only [slot_inner, slotMeans_code, Use.Code]
        constructor
        · rintro ⟨nodes, calls, hn, g1, g2, pt, as, cl, h1, h2, h4, rfl⟩
          exact ⟨⟨nodes, calls, pt, as, cl⟩, _, ⟨g1, g2, hn, h1, h2, h4⟩, rfl, rfl⟩
        · rintro ⟨⟨nodes, calls, pt, as, cl⟩, _, ⟨g1, g2, hn, h1, h2, h4⟩, rfl, rfl⟩
          exact ⟨nodes, calls, hn, g1, g2, pt, as, cl, h1, h2, h4, rfl⟩
  · have hc : ∀ p, tag ≠ .component p := fun p h => hc ⟨p, h⟩
    have hu : argsUse tag cs = .ignored := by
      cases tag <;> first | rfl | exact absurd rfl (hc _)
    rw [hu]
    refine .ignored (P := fun t => (Element.mk tag sels attrs none cs).Means asSlot t) fun a t => ?_
    cases asSlot with
    | false => simp only [element_inner hc]
    | true => simp only [element_not_slot hc]

/-- Tags of elements of one kind. -/
abbrev TagAt (kind : TagKind) : Type := {tag : Tag // tag.kind = kind ∧ ∀ p, tag ≠ .component p}

/-- The code for an element with any tag. -/
theorem element_tag (asSlot : Bool) (kind : TagKind) (sels : List Selector) (attrs : List Attr) (args : Option Toks)
    (cs : Option (List Child)) :
    OnePlace (α := TagAt kind) (fun tag t => tag.1.head = some t)
      fun tag t => (Element.mk tag.1 sels attrs args cs).Means asSlot t := by
  cases asSlot with
  | true => exact .never fun m t => element_not_slot m.2.2
  | false =>
    refine .out (ι := List Toks × List Call × List Call) (P := fun i => NodesCode cs i.1 ∧
        (kvs attrs).mapM (KvAttr.onElement kind) = some i.2.1 ∧ (directives attrs).mapM Directive.onElement = some i.2.2)
      (F := fun i x => x ++ chain (i.2.1 ++ i.2.2 ++ (classes sels).map classCall ++ (ids sels).map idCall ++
        (spreads attrs).map spreadCall ++ i.1.map childCall))
      OnePlace.code (fun i _ => by gap) fun m t => ?_
    simp only [element_inner m.2.2, xmlMeans_some, m.2.1]
    constructor
    · rintro ⟨nodes, hn, head, as, ds, h1, h2, h3, rfl⟩
      exact ⟨⟨nodes, as, ds⟩, _, ⟨hn, h2, h3⟩, h1, rfl⟩
    · rintro ⟨⟨nodes, as, ds⟩, _, ⟨hn, h2, h3⟩, h1, rfl⟩
      exact ⟨nodes, hn, _, as, ds, h1, h2, h3, rfl⟩

end Mview
