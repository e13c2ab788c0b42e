import Verif.Spec.AttrAnyway
import Verif.Lemmas.EditAnyway
import Verif.Lemmas.EditAttr
/-
C86: the code for attributes, in spite of errors.
-/

set_option linter.unusedVariables false

namespace Mview
open Lex

variable {tag : Tag} {m : List Attr}

/-! ### the parts of the code -/

theorem calls_code_anyway {p : Path} (hc : tag = .component p) (h : ∀ a ∈ m, a.place tag = .calls) {t : Toks} :
    AttrsAnyway tag m t ↔ ∃ r, (kvs m).mapM KvAttr.onComponentAnyway = some r ∧ t = chain r := by
  subst hc
  refine code_list rfl (fun x xs => chain_append [x] xs) rfl fun a ha => ?_
  have := h a ha
  cases a with
  | kv a => exact ⟨a, fun as => rfl, rfl⟩
  | directive d => simp only [Attr.place] at this; split at this <;> cases this
  | spread e => simp [Attr.place] at this

theorem elementCalls_code_anyway (hc : ∀ p, tag ≠ .component p) (h : ∀ a ∈ m, a.place tag = .calls) {t : Toks} :
    AttrsAnyway tag m t ↔ ∃ r, (kvs m).mapM (KvAttr.onElementAnyway tag.kind) = some r ∧ t = chain r := by
  refine code_list rfl (fun x xs => chain_append [x] xs) rfl fun a ha => ?_
  have := h a ha
  cases a with
  | kv a => exact ⟨a, fun as => rfl, by cases tag <;> first | rfl | exact absurd rfl (hc _)⟩
  | directive d => cases tag <;> simp_all [Attr.place]
  | spread e => cases tag <;> simp_all [Attr.place]

theorem directives_code_anyway (hc : ∀ p, tag ≠ .component p) (h : ∀ a ∈ m, a.place tag = .directives) {t : Toks} :
    AttrsAnyway tag m t ↔ ∃ r, (directives m).mapM Directive.onElementAnyway = some r ∧ t = chain r.flatten := by
  refine code_list (w := fun r => chain r.flatten) rfl (fun x xs => by simp [chain_append]) rfl fun a ha => ?_
  have := h a ha
  cases a with
  | directive d => exact ⟨d, fun as => rfl, by cases tag <;> first | exact absurd rfl (hc _) | simp [Attr.anywayOn]⟩
  | kv d => cases this
  | spread e => cases tag <;> simp_all [Attr.place]

theorem spreads_code_anyway (hc : ∀ p, tag ≠ .component p) (h : ∀ a ∈ m, a.place tag = .spreads) {t : Toks} :
    AttrsAnyway tag m t ↔ t = chain ((spreads m).map spreadCall) := by
  have := code_list (f := Attr.anywayOn tag) (g := fun e => some (spreadCall e)) (w := chain) (S := spreads) rfl
    (fun x xs => chain_append [x] xs) rfl (mid := m) (t := t) fun a ha => ?_
  · refine this.trans ?_
    have hm : (spreads m).mapM (fun e => some (spreadCall e)) = some ((spreads m).map spreadCall) := by
      generalize spreads m = l
      induction l with
      | nil => rfl
      | cons x l ih => simp [List.mapM_cons, ih]
    rw [hm]
    simp
  · have := h a ha
    cases a with
    | spread e => exact ⟨e, fun as => rfl, by cases tag <;> first | rfl | exact absurd rfl (hc _)⟩
    | kv d => cases this
    | directive d => cases tag <;> simp_all [Attr.place]

theorem entries_code_anyway {p : Path} (hc : tag = .component p) (h : ∀ a ∈ m, a.place tag = .entries) {t : Toks} :
    AttrsAnyway tag m t ↔ ∃ r, (entries m).mapM Attr.entryAnyway = some r ∧ t = commaAfter r.flatten := by
  subst hc
  refine code_list (w := fun r => commaAfter r.flatten) rfl (fun x xs => by simp [commaAfter_append]) rfl fun a ha => ?_
  have := h a ha
  cases a with
  | kv a => cases this
  | directive d =>
    simp only [Attr.place] at this
    split at this
    · cases this
    · rename_i hd
      exact ⟨.directive d, fun as => by simp [entries, hd], by simp [Attr.anywayOn, if_neg hd, Attr.entryAnyway]⟩
  | spread e => exact ⟨.spread e, fun as => by simp [entries], rfl⟩

theorem clones_code_anyway {p : Path} (hc : tag = .component p) (h : ∀ a ∈ m, a.place tag = .clones) {t : Toks} :
    AttrsAnyway tag m t ↔ ∃ r, (clones m).mapM Directive.cloneAnyway = some r ∧ t = r.flatten := by
  subst hc
  refine code_list rfl (fun x xs => by simp) rfl fun a ha => ?_
  have := h a ha
  cases a with
  | kv a => cases this
  | directive d =>
    simp only [Attr.place] at this
    split at this
    · rename_i hd
      exact ⟨d, fun as => by simp [clones, directives, hd], by simp [Attr.anywayOn, hd]⟩
    · cases this
  | spread e => simp [Attr.place] at this

/-! ### inside an element -/

/-- The code for the children, if any. -/
def ChildrenAnyway (cs : Option (List Child)) (nodes : List Toks) (calls : List Call) : Prop :=
  match cs with
  | none => nodes = [] ∧ calls = []
  | some cs => ∃ slots, NodesBecome cs nodes ∧ SlotsBecome cs slots ∧ SlotCalls slots calls

/-- Those that are not slots. -/
def NodesAnyway (cs : Option (List Child)) (nodes : List Toks) : Prop :=
  match cs with
  | none => nodes = []
  | some cs => NodesBecome cs nodes

variable {sels : List Selector} {attrs : List Attr} {args : Option Toks} {cs : Option (List Child)} {t : Toks}

theorem component_inner_anyway {p : Path} : (Element.mk (.component p) sels attrs args cs).Becomes false t ↔
    ∃ nodes calls, ChildrenAnyway cs nodes calls ∧ componentAnyway p sels attrs args nodes calls = some t := by
  cases cs with
  | none =>
    rw [Element.Becomes]
    constructor
    · intro h; exact ⟨[], [], ⟨rfl, rfl⟩, h⟩
    · rintro ⟨_, _, ⟨rfl, rfl⟩, h⟩; exact h
  | some cs =>
    rw [Element.Becomes]
    constructor
    · rintro ⟨n, s, c, h1, h2, h3, h⟩; exact ⟨n, c, ⟨s, h1, h2, h3⟩, h⟩
    · rintro ⟨n, c, ⟨s, h1, h2, h3⟩, h⟩; exact ⟨n, s, c, h1, h2, h3, h⟩

theorem element_inner_anyway (hc : ∀ p, tag ≠ .component p) : (Element.mk tag sels attrs args cs).Becomes false t ↔
    ∃ nodes, NodesAnyway cs nodes ∧ xmlAnyway tag sels attrs nodes = some t := by
  cases cs with
  | none =>
    have : (Element.mk tag sels attrs args none).Becomes false t ↔ xmlAnyway tag sels attrs [] = some t := by
      cases tag with
      | component p => exact absurd rfl (hc p)
      | _ => rw [Element.Becomes]; intro p h; cases h
    rw [this]
    constructor
    · intro h; exact ⟨[], rfl, h⟩
    · rintro ⟨_, rfl, h⟩; exact h
  | some cs =>
    cases tag with
    | component p => exact absurd rfl (hc p)
    | _ => rw [Element.Becomes]; · exact Iff.rfl
           · intro p h; cases h

theorem nodesBecome_nil {cs : List Child} {nodes : List Toks} (h : NodesBecome cs nodes) :
    nodes = [] ↔ cs.all Child.isSlot = true := by
  induction cs generalizing nodes with
  | nil => rw [NodesBecome] at h; simp [h]
  | cons c cs ih =>
    cases c with
    | value v => rw [NodesBecome] at h; obtain ⟨_, -, rfl⟩ := h; simp [Child.isSlot]
    | elem e => rw [NodesBecome] at h; obtain ⟨_, _, -, -, rfl⟩ := h; simp [Child.isSlot]
    | slot e => rw [NodesBecome] at h; rw [ih h]; simp [Child.isSlot]

/-- There is code for nodes exactly if there are children that are not slots. -/
theorem inner_nodes_anyway {nodes : List Toks} {calls : List Call} (h : ChildrenAnyway cs nodes calls) :
    nodes = [] ↔ (cs.getD []).all Child.isSlot = true := by
  cases cs with
  | none => simp [h.1]
  | some cs =>
    obtain ⟨slots, h, -, -⟩ := h
    exact nodesBecome_nil h

theorem attrsAnyway_nil : AttrsAnyway tag [] t ↔ t = [] := by
  simp [AttrsAnyway]

/-- Nothing can be at this place. -/
theorem attr_nowhere_anyway {k : AttrPlace} {u : Use} (hu : u ≠ .ignored) (hk : ∀ a : Attr, a.place tag ≠ k)
    (R : List Attr → Toks → Prop) :
    OnePlace (α := AttrsAt tag k) (fun m t => u.Code (fun m t => AttrsAnyway tag m.1 t) m t) fun m t => R m.1 t := by
  have hm : ∀ m : AttrsAt tag k, m.1 = [] := fun m => by
    cases h : m.1 with
    | nil => rfl
    | cons a as => exact absurd (m.2 a (h ▸ .head _)) (hk a)
  refine .empty (E := fun _ => True) (P := R []) (fun m t => ?_) fun m t => by rw [hm m]; simp
  cases u with
  | ignored => exact absurd rfl hu
  | used => simp only [Use.Code, hm m, attrsAnyway_nil, true_and]
  | unused => simp only [Use.Code, hm m, attrsAnyway_nil, true_and, exists_eq]

theorem element_attr_element_anyway (hc : ∀ p, tag ≠ .component p) (k : AttrPlace) (sels : List Selector) (a1 a2 : List Attr)
    (args : Option Toks) (cs : Option (List Child)) :
    OnePlace (α := AttrsAt tag k) (fun m t => (k.useAnyway false cs).Code (fun m t => AttrsAnyway tag m.1 t) m t)
      fun m t => (Element.mk tag sels (a1 ++ m.1 ++ a2) args cs).Becomes false t := by
  have hother : ∀ {k k' : AttrPlace}, k ≠ k' → ∀ m : AttrsAt tag k, ∀ a ∈ m.1, a.place tag ≠ k' :=
    fun hk m a ha h => hk ((m.2 a ha).symm.trans h)
  have happ : ∀ m : List Attr, kvs (a1 ++ m ++ a2) = kvs a1 ++ (kvs m ++ kvs a2) ∧
      directives (a1 ++ m ++ a2) = directives a1 ++ (directives m ++ directives a2) ∧
      spreads (a1 ++ m ++ a2) = spreads a1 ++ (spreads m ++ spreads a2) :=
    fun m => ⟨sel_append kvs_append a1 m a2, sel_append directives_append a1 m a2, sel_append spreads_append a1 m a2⟩
  cases k with
  | entries =>
    refine attr_nowhere_anyway (u := .used) (by simp) (fun a => by cases tag <;> cases a <;> simp_all [Attr.place]) fun m t =>
      (Element.mk tag sels (a1 ++ m ++ a2) args cs).Becomes false t
  | clones =>
    refine attr_nowhere_anyway (by simp only [AttrPlace.useAnyway]; split <;> simp) (fun a => by cases tag <;> cases a <;> simp_all [Attr.place]) fun m t =>
      (Element.mk tag sels (a1 ++ m ++ a2) args cs).Becomes false t
  | calls =>
    refine .out (ι := List Toks × Toks × List Call × List Call × List (List Call)) (P := fun i => NodesAnyway cs i.1 ∧
        tag.head = some i.2.1 ∧ (kvs a1).mapM (KvAttr.onElementAnyway tag.kind) = some i.2.2.1 ∧
        (kvs a2).mapM (KvAttr.onElementAnyway tag.kind) = some i.2.2.2.1 ∧
        (directives a1 ++ directives a2).mapM Directive.onElementAnyway = some i.2.2.2.2)
      (F := fun i x => i.2.1 ++ (chain i.2.2.1 ++ (x ++ chain (i.2.2.2.1 ++ i.2.2.2.2.flatten ++ (classes sels).map classCall ++
        (ids sels).map idCall ++ (spreads a1 ++ spreads a2).map spreadCall ++ i.1.map childCall))))
      OnePlace.code (fun i _ => by gap) fun m t => ?_
    simp only [element_inner_anyway hc, xmlAnyway_some, AttrPlace.useAnyway, Bool.false_eq_true, if_false, Use.Code, elementCalls_code_anyway hc m.2, happ,
      directives_other hc (hother (by decide) m), spreads_other hc (hother (by decide) m), List.nil_append, mapM_append_some]
    constructor
    · rintro ⟨nodes, hn, head, _, ds, h1, ⟨x, _, h2, ⟨r, y, h3, h4, rfl⟩, rfl⟩, h5, rfl⟩
      exact ⟨⟨nodes, head, x, y, ds⟩, _, ⟨hn, h1, h2, h4, h5⟩, ⟨r, h3, rfl⟩, by simp only [chain_append, List.append_assoc]⟩
    · rintro ⟨⟨nodes, head, x, y, ds⟩, _, ⟨hn, h1, h2, h4, h5⟩, ⟨r, h3, rfl⟩, rfl⟩
      exact ⟨nodes, hn, head, _, ds, h1, ⟨x, _, h2, ⟨r, y, h3, h4, rfl⟩, rfl⟩, h5, by simp only [chain_append, List.append_assoc]⟩
  | directives =>
    refine .out (ι := List Toks × Toks × List Call × List (List Call) × List (List Call)) (P := fun i => NodesAnyway cs i.1 ∧
        tag.head = some i.2.1 ∧ (kvs a1 ++ kvs a2).mapM (KvAttr.onElementAnyway tag.kind) = some i.2.2.1 ∧
        (directives a1).mapM Directive.onElementAnyway = some i.2.2.2.1 ∧
        (directives a2).mapM Directive.onElementAnyway = some i.2.2.2.2)
      (F := fun i x => i.2.1 ++ (chain (i.2.2.1 ++ i.2.2.2.1.flatten) ++ (x ++ chain (i.2.2.2.2.flatten ++ (classes sels).map classCall ++
        (ids sels).map idCall ++ (spreads a1 ++ spreads a2).map spreadCall ++ i.1.map childCall))))
      OnePlace.code (fun i _ => by gap) fun m t => ?_
    simp only [element_inner_anyway hc, xmlAnyway_some, AttrPlace.useAnyway, Bool.false_eq_true, if_false, Use.Code, directives_code_anyway hc m.2, happ,
      kvs_other (hother (by decide) m), spreads_other hc (hother (by decide) m), List.nil_append, mapM_append_some (f := Directive.onElementAnyway)]
    constructor
    · rintro ⟨nodes, hn, head, as, _, h1, h5, ⟨x, _, h2, ⟨r, y, h3, h4, rfl⟩, rfl⟩, rfl⟩
      exact ⟨⟨nodes, head, as, x, y⟩, _, ⟨hn, h1, h5, h2, h4⟩, ⟨r, h3, rfl⟩, by simp only [chain_append, List.flatten_append, List.append_assoc]⟩
    · rintro ⟨⟨nodes, head, as, x, y⟩, _, ⟨hn, h1, h5, h2, h4⟩, ⟨r, h3, rfl⟩, rfl⟩
      exact ⟨nodes, hn, head, as, _, h1, h5, ⟨x, _, h2, ⟨r, y, h3, h4, rfl⟩, rfl⟩, by simp only [chain_append, List.flatten_append, List.append_assoc]⟩
  | spreads =>
    refine .out (ι := List Toks × Toks × List Call × List (List Call)) (P := fun i => NodesAnyway cs i.1 ∧
        tag.head = some i.2.1 ∧ (kvs a1 ++ kvs a2).mapM (KvAttr.onElementAnyway tag.kind) = some i.2.2.1 ∧
        (directives a1 ++ directives a2).mapM Directive.onElementAnyway = some i.2.2.2)
      (F := fun i x => i.2.1 ++ (chain (i.2.2.1 ++ i.2.2.2.flatten ++ (classes sels).map classCall ++
        (ids sels).map idCall ++ (spreads a1).map spreadCall) ++ (x ++ chain ((spreads a2).map spreadCall ++ i.1.map childCall))))
      OnePlace.code (fun i _ => by gap) fun m t => ?_
    simp only [element_inner_anyway hc, xmlAnyway_some, AttrPlace.useAnyway, Bool.false_eq_true, if_false, Use.Code, spreads_code_anyway hc m.2, happ,
      kvs_other (hother (by decide) m), directives_other hc (hother (by decide) m), List.nil_append, List.map_append]
    constructor
    · rintro ⟨nodes, hn, head, as, ds, h1, h2, h3, rfl⟩
      exact ⟨⟨nodes, head, as, ds⟩, _, ⟨hn, h1, h2, h3⟩, rfl, by simp only [chain_append, List.append_assoc]⟩
    · rintro ⟨⟨nodes, head, as, ds⟩, _, ⟨hn, h1, h2, h3⟩, rfl, rfl⟩
      exact ⟨nodes, hn, head, as, ds, h1, h2, h3, by simp only [chain_append, List.append_assoc]⟩

theorem componentAnyway_code {path : Path} {nodes : List Toks} {calls : List Call} :
    componentAnyway path sels attrs args nodes calls = some t ↔
    ∃ p as es cl, path.means = some p ∧ (kvs attrs).mapM KvAttr.onComponentAnyway = some as ∧
      (entries attrs).mapM Attr.entryAnyway = some es ∧ (clones attrs).mapM Directive.cloneAnyway = some cl ∧
      t = componentCode p (chain as ++ (chain (childrenCall args cl.flatten nodes) ++ (chain calls ++ chain [⟨plain c!"build", []⟩])))
        (commaAfter ((classes sels).map classEntry ++ idEntry (ids sels)) ++ commaAfter es.flatten) := by
  simp only [componentAnyway_some, exists_eq_left, componentCode, chain_append, commaAfter_append, List.append_assoc]

theorem element_attr_component_anyway {p : Path} (hc : tag = .component p) (k : AttrPlace) (sels : List Selector)
    (a1 a2 : List Attr) (args : Option Toks) (cs : Option (List Child)) :
    OnePlace (α := AttrsAt tag k) (fun m t => (k.useAnyway false cs).Code (fun m t => AttrsAnyway tag m.1 t) m t)
      fun m t => (Element.mk tag sels (a1 ++ m.1 ++ a2) args cs).Becomes false t := by
  have hother : ∀ {k k' : AttrPlace}, k ≠ k' → ∀ m : AttrsAt tag k, ∀ a ∈ m.1, a.place tag ≠ k' :=
    fun hk m a ha h => hk ((m.2 a ha).symm.trans h)
  have happ : ∀ m : List Attr, kvs (a1 ++ m ++ a2) = kvs a1 ++ (kvs m ++ kvs a2) ∧
      entries (a1 ++ m ++ a2) = entries a1 ++ (entries m ++ entries a2) ∧
      clones (a1 ++ m ++ a2) = clones a1 ++ (clones m ++ clones a2) :=
    fun m => ⟨sel_append kvs_append a1 m a2, sel_append entries_append a1 m a2, sel_append clones_append a1 m a2⟩
  have hmeans : ∀ (attrs : List Attr) (t : Toks), (Element.mk tag sels attrs args cs).Becomes false t ↔
      ∃ nodes calls, ChildrenAnyway cs nodes calls ∧ componentAnyway p sels attrs args nodes calls = some t := by
    subst hc
    exact fun attrs t => component_inner_anyway
  have hno : ∀ a : Attr, a.place tag ≠ .directives ∧ a.place tag ≠ .spreads := by
    subst hc
    intro a
    cases a <;> simp only [Attr.place] <;> (try split) <;> simp
  cases k with
  | directives =>
    exact attr_nowhere_anyway (u := .used) (by simp) (fun a => (hno a).1) fun m t =>
      (Element.mk tag sels (a1 ++ m ++ a2) args cs).Becomes false t
  | spreads =>
    exact attr_nowhere_anyway (u := .used) (by simp) (fun a => (hno a).2) fun m t =>
      (Element.mk tag sels (a1 ++ m ++ a2) args cs).Becomes false t
  | calls =>
    refine .out (ι := List Toks × List Call × Toks × List Call × List Call × List (List Toks) × List Toks)
      (P := fun ⟨nodes, calls, pt, x, y, es, cl⟩ => ChildrenAnyway cs nodes calls ∧ p.means = some pt ∧
        (kvs a1).mapM KvAttr.onComponentAnyway = some x ∧ (kvs a2).mapM KvAttr.onComponentAnyway = some y ∧
        (entries a1 ++ entries a2).mapM Attr.entryAnyway = some es ∧
        (clones a1 ++ clones a2).mapM Directive.cloneAnyway = some cl)
      (F := fun ⟨nodes, calls, pt, x, y, es, cl⟩ c => componentCode pt (chain x ++ (c ++ (chain y ++
          (chain (childrenCall args cl.flatten nodes) ++ (chain calls ++ chain [⟨plain c!"build", []⟩])))))
        (commaAfter ((classes sels).map classEntry ++ idEntry (ids sels)) ++ commaAfter es.flatten))
      OnePlace.code (fun ⟨nodes, calls, pt, x, y, es, cl⟩ _ => gap_componentCalls _ _ (by gap)) fun m t => ?_
    simp only [hmeans, componentAnyway_code, AttrPlace.useAnyway, Bool.false_eq_true, if_false, Use.Code, calls_code_anyway hc m.2, happ,
      entries_other hc (hother (by decide) m), clones_other hc (hother (by decide) m), List.nil_append,
      mapM_append_some (f := KvAttr.onComponentAnyway)]
    constructor
    · rintro ⟨nodes, calls, hn, pt, _, es, cl, h1, ⟨x, _, h2, ⟨r, y, h3, h4, rfl⟩, rfl⟩, h5, h6, rfl⟩
      exact ⟨⟨nodes, calls, pt, x, y, es, cl⟩, _, ⟨hn, h1, h2, h4, h5, h6⟩, ⟨r, h3, rfl⟩,
        by simp only [chain_append, List.append_assoc]⟩
    · rintro ⟨⟨nodes, calls, pt, x, y, es, cl⟩, _, ⟨hn, h1, h2, h4, h5, h6⟩, ⟨r, h3, rfl⟩, rfl⟩
      exact ⟨nodes, calls, hn, pt, _, es, cl, h1, ⟨x, _, h2, ⟨r, y, h3, h4, rfl⟩, rfl⟩, h5, h6,
        by simp only [chain_append, List.append_assoc]⟩
  | entries =>
    refine .out (ι := List Toks × List Call × Toks × List Call × List (List Toks) × List (List Toks) × List Toks)
      (P := fun ⟨nodes, calls, pt, as, x, y, cl⟩ => ChildrenAnyway cs nodes calls ∧ p.means = some pt ∧
        (kvs a1 ++ kvs a2).mapM KvAttr.onComponentAnyway = some as ∧ (entries a1).mapM Attr.entryAnyway = some x ∧
        (entries a2).mapM Attr.entryAnyway = some y ∧
        (clones a1 ++ clones a2).mapM Directive.cloneAnyway = some cl)
      (F := fun ⟨nodes, calls, pt, as, x, y, cl⟩ c => componentCode pt (chain as ++
          (chain (childrenCall args cl.flatten nodes) ++ (chain calls ++ chain [⟨plain c!"build", []⟩])))
        (commaAfter ((classes sels).map classEntry ++ idEntry (ids sels)) ++ (commaAfter x.flatten ++ (c ++ commaAfter y.flatten))))
      OnePlace.code (fun ⟨nodes, calls, pt, as, x, y, cl⟩ _ => gap_componentEntries _ _ (by gap)) fun m t => ?_
    simp only [hmeans, componentAnyway_code, AttrPlace.useAnyway, Bool.false_eq_true, if_false, Use.Code, entries_code_anyway hc m.2, happ,
      kvs_other (hother (by decide) m), clones_other hc (hother (by decide) m), List.nil_append,
      mapM_append_some (f := Attr.entryAnyway)]
    constructor
    · rintro ⟨nodes, calls, hn, pt, as, _, cl, h1, h5, ⟨x, _, h2, ⟨r, y, h3, h4, rfl⟩, rfl⟩, h6, rfl⟩
      exact ⟨⟨nodes, calls, pt, as, x, y, cl⟩, _, ⟨hn, h1, h5, h2, h4, h6⟩, ⟨r, h3, rfl⟩,
        by simp only [commaAfter_append, List.flatten_append, List.append_assoc]⟩
    · rintro ⟨⟨nodes, calls, pt, as, x, y, cl⟩, _, ⟨hn, h1, h5, h2, h4, h6⟩, ⟨r, h3, rfl⟩, rfl⟩
      exact ⟨nodes, calls, hn, pt, as, _, cl, h1, h5, ⟨x, _, h2, ⟨r, y, h3, h4, rfl⟩, rfl⟩, h6,
        by simp only [commaAfter_append, List.flatten_append, List.append_assoc]⟩
  | clones =>
    by_cases hs : (cs.getD []).all Child.isSlot = true
    · simp only [AttrPlace.useAnyway, Bool.false_eq_true, if_false, if_pos hs]
      refine .unused (P := fun t => ∃ calls pt as es x y, ChildrenAnyway cs [] calls ∧ p.means = some pt ∧
        (kvs a1 ++ kvs a2).mapM KvAttr.onComponentAnyway = some as ∧ (entries a1 ++ entries a2).mapM Attr.entryAnyway = some es ∧
        (clones a1).mapM Directive.cloneAnyway = some x ∧ (clones a2).mapM Directive.cloneAnyway = some y ∧
        t = componentCode pt (chain as ++ (chain calls ++ chain [⟨plain c!"build", []⟩]))
          (commaAfter ((classes sels).map classEntry ++ idEntry (ids sels)) ++ commaAfter es.flatten)) OnePlace.code fun m t => ?_
      simp only [hmeans, componentAnyway_code, clones_code_anyway hc m.2, happ, kvs_other (hother (by decide) m),
        entries_other hc (hother (by decide) m), List.nil_append, mapM_append_some (f := Directive.cloneAnyway)]
      constructor
      · rintro ⟨nodes, calls, hn, pt, as, es, _, h1, h2, h3, ⟨x, _, h4, ⟨r, y, h5, h6, rfl⟩, rfl⟩, rfl⟩
        obtain rfl := (inner_nodes_anyway hn).mpr hs
        exact ⟨⟨_, r, h5, rfl⟩, calls, pt, as, es, x, y, hn, h1, h2, h3, h4, h6, rfl⟩
      · rintro ⟨⟨_, r, h5, rfl⟩, calls, pt, as, es, x, y, hn, h1, h2, h3, h4, h6, rfl⟩
        exact ⟨[], calls, hn, pt, as, es, _, h1, h2, h3, ⟨x, _, h4, ⟨r, y, h5, h6, rfl⟩, rfl⟩, rfl⟩
    · simp only [AttrPlace.useAnyway, Bool.false_eq_true, if_false, if_neg hs]
      refine .out (ι := List Toks × List Call × Toks × List Call × List (List Toks) × List Toks × List Toks)
        (P := fun ⟨nodes, calls, pt, as, es, x, y⟩ => ChildrenAnyway cs nodes calls ∧ p.means = some pt ∧
          (kvs a1 ++ kvs a2).mapM KvAttr.onComponentAnyway = some as ∧ (entries a1 ++ entries a2).mapM Attr.entryAnyway = some es ∧
          (clones a1).mapM Directive.cloneAnyway = some x ∧ (clones a2).mapM Directive.cloneAnyway = some y)
        (F := fun ⟨nodes, calls, pt, as, es, x, y⟩ c => componentCode pt (chain as ++
            (chain (childrenCall args (x.flatten ++ (c ++ y.flatten)) nodes) ++ (chain calls ++ chain [⟨plain c!"build", []⟩])))
          (commaAfter ((classes sels).map classEntry ++ idEntry (ids sels)) ++ commaAfter es.flatten))
        OnePlace.code (fun ⟨nodes, calls, pt, as, es, x, y⟩ hi => gap_componentCalls _ _ ?_) fun m t => ?_
      · have := gap_childrenClones args x.flatten y.flatten nodes fun h => hs ((inner_nodes_anyway hi.1).mp h)
        gap
      simp only [hmeans, componentAnyway_code, Use.Code, clones_code_anyway hc m.2, happ, kvs_other (hother (by decide) m),
        entries_other hc (hother (by decide) m), List.nil_append, mapM_append_some (f := Directive.cloneAnyway)]
      constructor
      · rintro ⟨nodes, calls, hn, pt, as, es, _, h1, h2, h3, ⟨x, _, h4, ⟨r, y, h5, h6, rfl⟩, rfl⟩, rfl⟩
        exact ⟨⟨nodes, calls, pt, as, es, x, y⟩, _, ⟨hn, h1, h2, h3, h4, h6⟩, ⟨r, h5, rfl⟩, by simp only [List.flatten_append]⟩
      · rintro ⟨⟨nodes, calls, pt, as, es, x, y⟩, _, ⟨hn, h1, h2, h3, h4, h6⟩, ⟨r, h5, rfl⟩, rfl⟩
        exact ⟨nodes, calls, hn, pt, as, es, _, h1, h2, h3, ⟨x, _, h4, ⟨r, y, h5, h6, rfl⟩, rfl⟩, by simp only [List.flatten_append]⟩

theorem slot_inner_anyway {p : Path} : (Element.mk (.component p) sels attrs args cs).Becomes true t ↔
    ∃ nodes calls, ChildrenAnyway cs nodes calls ∧ slotAnyway p attrs args nodes = some t := by
  cases cs with
  | none =>
    rw [Element.Becomes]
    constructor
    · intro h; exact ⟨[], [], ⟨rfl, rfl⟩, h⟩
    · rintro ⟨_, _, ⟨rfl, rfl⟩, h⟩; exact h
  | some cs =>
    rw [Element.Becomes]
    constructor
    · rintro ⟨n, s, c, h1, h2, h3, h⟩; exact ⟨n, c, ⟨s, h1, h2, h3⟩, h⟩
    · rintro ⟨n, c, ⟨s, h1, h2, h3⟩, h⟩; exact ⟨n, s, c, h1, h2, h3, h⟩

theorem element_not_slot_anyway (hc : ∀ p, tag ≠ .component p) : ¬ (Element.mk tag sels attrs args cs).Becomes true t := by
  cases tag with
  | component p => exact absurd rfl (hc p)
  | _ =>
    cases cs <;> rw [Element.Becomes]
    all_goals first | exact id | (intro p h; cases h)

theorem slotAnyway_code {path : Path} {nodes : List Toks} :
    slotAnyway path attrs args nodes = some t ↔
    ∃ p as cl, path.means = some p ∧ (kvs attrs).mapM KvAttr.onComponentAnyway = some as ∧
      (clones attrs).mapM Directive.cloneAnyway = some cl ∧
      t = slotCode p (chain as ++ (chain (childrenCall args cl.flatten nodes) ++ chain [⟨plain c!"build", []⟩])) := by
  simp only [slotAnyway_some, exists_eq_left, slotCode, chain_append, List.append_assoc]

theorem element_attr_slot_anyway {p : Path} (hc : tag = .component p) (k : AttrPlace) (sels : List Selector)
    (a1 a2 : List Attr) (args : Option Toks) (cs : Option (List Child)) :
    OnePlace (α := AttrsAt tag k) (fun m t => (k.useAnyway true cs).Code (fun m t => AttrsAnyway tag m.1 t) m t)
      fun m t => (Element.mk tag sels (a1 ++ m.1 ++ a2) args cs).Becomes true t := by
  have hother : ∀ {k k' : AttrPlace}, k ≠ k' → ∀ m : AttrsAt tag k, ∀ a ∈ m.1, a.place tag ≠ k' :=
    fun hk m a ha h => hk ((m.2 a ha).symm.trans h)
  have happ : ∀ m : List Attr, kvs (a1 ++ m ++ a2) = kvs a1 ++ (kvs m ++ kvs a2) ∧
      entries (a1 ++ m ++ a2) = entries a1 ++ (entries m ++ entries a2) ∧
      clones (a1 ++ m ++ a2) = clones a1 ++ (clones m ++ clones a2) :=
    fun m => ⟨sel_append kvs_append a1 m a2, sel_append entries_append a1 m a2, sel_append clones_append a1 m a2⟩
  have hmeans : ∀ (attrs : List Attr) (t : Toks), (Element.mk tag sels attrs args cs).Becomes true t ↔
      ∃ nodes calls, ChildrenAnyway cs nodes calls ∧ slotAnyway p attrs args nodes = some t := by
    subst hc
    exact fun attrs t => slot_inner_anyway
  have hno : ∀ a : Attr, a.place tag ≠ .directives ∧ a.place tag ≠ .spreads := by
    subst hc
    intro a
    cases a <;> simp only [Attr.place] <;> (try split) <;> simp
  cases k with
  | directives =>
    exact attr_nowhere_anyway (u := .used) (by simp) (fun a => (hno a).1) fun m t =>
      (Element.mk tag sels (a1 ++ m ++ a2) args cs).Becomes true t
  | spreads =>
    exact attr_nowhere_anyway (u := .used) (by simp) (fun a => (hno a).2) fun m t =>
      (Element.mk tag sels (a1 ++ m ++ a2) args cs).Becomes true t
  | calls =>
    refine .out (ι := List Toks × List Call × Toks × List Call × List Call × List Toks)
      (P := fun ⟨nodes, calls, pt, x, y, cl⟩ => ChildrenAnyway cs nodes calls ∧
        p.means = some pt ∧ (kvs a1).mapM KvAttr.onComponentAnyway = some x ∧ (kvs a2).mapM KvAttr.onComponentAnyway = some y ∧
        (clones a1 ++ clones a2).mapM Directive.cloneAnyway = some cl)
      (F := fun ⟨nodes, calls, pt, x, y, cl⟩ c => slotCode pt (chain x ++ (c ++ (chain y ++
          (chain (childrenCall args cl.flatten nodes) ++ chain [⟨plain c!"build", []⟩])))))
      OnePlace.code (fun ⟨nodes, calls, pt, x, y, cl⟩ _ => gap_slotCode _ (by gap)) fun m t => ?_
    simp only [hmeans, slotAnyway_code, AttrPlace.useAnyway, Use.Code, calls_code_anyway hc m.2, happ, clones_other hc (hother (by decide) m), List.nil_append,
      mapM_append_some (f := KvAttr.onComponentAnyway)]
    constructor
    · rintro ⟨nodes, calls, hn, pt, _, cl, h1, ⟨x, _, h2, ⟨r, y, h3, h4, rfl⟩, rfl⟩, h6, rfl⟩
      exact ⟨⟨nodes, calls, pt, x, y, cl⟩, _, ⟨hn, h1, h2, h4, h6⟩, ⟨r, h3, rfl⟩,
        by simp only [chain_append, List.append_assoc]⟩
    · rintro ⟨⟨nodes, calls, pt, x, y, cl⟩, _, ⟨hn, h1, h2, h4, h6⟩, ⟨r, h3, rfl⟩, rfl⟩
      exact ⟨nodes, calls, hn, pt, _, cl, h1, ⟨x, _, h2, ⟨r, y, h3, h4, rfl⟩, rfl⟩, h6,
        by simp only [chain_append, List.append_assoc]⟩
  | entries =>
    refine .ignored (P := fun t => (Element.mk tag sels (a1 ++ a2) args cs).Becomes true t) fun m t => ?_
    simp only [hmeans, slotAnyway_code, happ, kvs_other (hother (by decide) m), clones_other hc (hother (by decide) m),
      List.nil_append, kvs_append, clones_append]
  | clones =>
    by_cases hs : (cs.getD []).all Child.isSlot = true
    · simp only [AttrPlace.useAnyway, if_pos hs]
      refine .unused (P := fun t => ∃ calls pt as x y, ChildrenAnyway cs [] calls ∧
        p.means = some pt ∧ (kvs a1 ++ kvs a2).mapM KvAttr.onComponentAnyway = some as ∧
        (clones a1).mapM Directive.cloneAnyway = some x ∧ (clones a2).mapM Directive.cloneAnyway = some y ∧
        t = slotCode pt (chain as ++ chain [⟨plain c!"build", []⟩])) OnePlace.code fun m t => ?_
      simp only [hmeans, slotAnyway_code, clones_code_anyway hc m.2, happ, kvs_other (hother (by decide) m), List.nil_append, mapM_append_some (f := Directive.cloneAnyway)]
      constructor
      · rintro ⟨nodes, calls, hn, pt, as, _, h1, h2, ⟨x, _, h4, ⟨r, y, h5, h6, rfl⟩, rfl⟩, rfl⟩
        obtain rfl := (inner_nodes_anyway hn).mpr hs
        exact ⟨⟨_, r, h5, rfl⟩, calls, pt, as, x, y, hn, h1, h2, h4, h6, rfl⟩
      · rintro ⟨⟨_, r, h5, rfl⟩, calls, pt, as, x, y, hn, h1, h2, h4, h6, rfl⟩
        exact ⟨[], calls, hn, pt, as, _, h1, h2, ⟨x, _, h4, ⟨r, y, h5, h6, rfl⟩, rfl⟩, rfl⟩
    · simp only [AttrPlace.useAnyway, if_neg hs]
      refine .out (ι := List Toks × List Call × Toks × List Call × List Toks × List Toks)
        (P := fun ⟨nodes, calls, pt, as, x, y⟩ => ChildrenAnyway cs nodes calls ∧
          p.means = some pt ∧ (kvs a1 ++ kvs a2).mapM KvAttr.onComponentAnyway = some as ∧
          (clones a1).mapM Directive.cloneAnyway = some x ∧ (clones a2).mapM Directive.cloneAnyway = some y)
        (F := fun ⟨nodes, calls, pt, as, x, y⟩ c => slotCode pt (chain as ++
            (chain (childrenCall args (x.flatten ++ (c ++ y.flatten)) nodes) ++ chain [⟨plain c!"build", []⟩])))
        OnePlace.code (fun ⟨nodes, calls, pt, as, x, y⟩ hi => gap_slotCode _ ?_) fun m t => ?_
      · have := gap_childrenClones args x.flatten y.flatten nodes fun h => hs ((inner_nodes_anyway hi.1).mp h)
        gap
      simp only [hmeans, slotAnyway_code, Use.Code, clones_code_anyway hc m.2, happ, kvs_other (hother (by decide) m), List.nil_append, mapM_append_some (f := Directive.cloneAnyway)]
      constructor
      · rintro ⟨nodes, calls, hn, pt, as, _, h1, h2, ⟨x, _, h4, ⟨r, y, h5, h6, rfl⟩, rfl⟩, rfl⟩
        exact ⟨⟨nodes, calls, pt, as, x, y⟩, _, ⟨hn, h1, h2, h4, h6⟩, ⟨r, h5, rfl⟩, by simp only [List.flatten_append]⟩
      · rintro ⟨⟨nodes, calls, pt, as, x, y⟩, _, ⟨hn, h1, h2, h4, h6⟩, ⟨r, h5, rfl⟩, rfl⟩
        exact ⟨nodes, calls, hn, pt, as, _, h1, h2, ⟨x, _, h4, ⟨r, y, h5, h6, rfl⟩, rfl⟩, by simp only [List.flatten_append]⟩

/-- The code for an element with attributes of one kind in the middle. -/
theorem element_attr_anyway (asSlot : Bool) (tag : Tag) (k : AttrPlace) (sels : List Selector) (a1 a2 : List Attr)
    (args : Option Toks) (cs : Option (List Child)) :
    OnePlace (α := AttrsAt tag k) (fun m t => (k.useAnyway asSlot cs).Code (fun m t => AttrsAnyway tag m.1 t) m t)
      fun m t => (Element.mk tag sels (a1 ++ m.1 ++ a2) args cs).Becomes asSlot t := by
  by_cases hc : ∃ p, tag = .component p
  · obtain ⟨p, hc⟩ := hc
    cases asSlot with
    | false => exact element_attr_component_anyway hc k sels a1 a2 args cs
    | true => exact element_attr_slot_anyway hc k sels a1 a2 args cs
  · have hc : ∀ p, tag ≠ .component p := fun p h => hc ⟨p, h⟩
    cases asSlot with
    | false => exact element_attr_element_anyway hc k sels a1 a2 args cs
    | true => exact .never fun m t => element_not_slot_anyway hc

/-! ### anywhere -/

/-- The code for children, one of which is an element with something open. -/
theorem child_block_anyway {α : Type} {C : α → Toks → Prop} (kind : BlockKind) (before : List Child) (isSlot : Bool)
    {tag : Tag} {el : α → Element} (after : List Child) (tagOf : ∀ a, isSlot = true → (el a).tag = tag)
    (h : OnePlace C fun a t => (el a).Becomes isSlot t) :
    OnePlace (fun a t => (kind.useAnyway (slotNamed isSlot tag)).Code C a t) fun a t =>
      kind.CodeAnyway (before ++ asChild isSlot (el a) :: after) t := by
  have htag : (∃ n, tag = .component ⟨false, [⟨n, .none⟩]⟩) ∨ (∃ p, tag = .component p ∧ tag.isName = false) ∨
      ∀ p, tag ≠ .component p := by
    by_cases hn : tag.isName = true
    · unfold Tag.isName at hn
      split at hn
      · rename_i n; exact .inl ⟨n, rfl⟩
      · cases hn
    · cases tag with
      | component p => exact .inr (.inl ⟨p, rfl, by simpa using hn⟩)
      | _ => exact .inr (.inr fun p hp => by cases hp)
  induction kind with
  | ignored => exact .ignored (P := fun t => t = []) fun cs t => Iff.rfl
  | unused k ih =>
    have hu : (BlockKind.unused k).useAnyway (slotNamed isSlot tag) = match k.useAnyway (slotNamed isSlot tag) with
        | .ignored => .ignored
        | _ => .unused := rfl
    obtain ⟨around, ih⟩ := ih
    cases hk : k.useAnyway (slotNamed isSlot tag) with
    | ignored =>
      rw [hk] at hu ih
      rw [hu]
      refine .ignored (P := fun t => (∃ G, around G) ∧ t = []) fun cs t => ?_
      show (∃ t', _) ∧ t = [] ↔ _
      simp only [ih]
      constructor
      · rintro ⟨⟨_, G, code, hG, -, -⟩, rfl⟩; exact ⟨⟨G, hG⟩, rfl⟩
      · rintro ⟨⟨G, hG⟩, rfl⟩; exact ⟨⟨_, G, [], hG, rfl, rfl⟩, rfl⟩
    | used =>
      rw [hk] at hu ih
      rw [hu]
      exact .unused (P := fun t => t = []) ⟨around, ih⟩ fun cs t => Iff.rfl
    | unused =>
      rw [hk] at hu ih
      rw [hu]
      refine ⟨fun G => (∃ G0, around G0) ∧ G = .here [] [], fun cs t => ?_⟩
      show (∃ t', _) ∧ t = [] ↔ _
      simp only [ih]
      constructor
      · rintro ⟨⟨_, G, code, hG, ⟨hc, -⟩, -⟩, rfl⟩
        exact ⟨_, [], ⟨⟨G, hG⟩, rfl⟩, ⟨hc, rfl⟩, rfl⟩
      · rintro ⟨_, _, ⟨⟨G, hG⟩, rfl⟩, ⟨hc, rfl⟩, rfl⟩
        exact ⟨⟨_, G, [], hG, ⟨hc, rfl⟩, rfl⟩, rfl⟩
  | element =>
    cases isSlot with
    | false =>
      refine .out (ι := List Toks × List Toks) (P := fun i => NodesBecome before i.1 ∧ NodesBecome after i.2)
        (F := fun i x => chain ((i.1 ++ rendered x :: i.2).map childCall)) h (fun i _ => ?_) fun cs t => ?_
      · simp only [List.map_append, List.map_cons]
        exact gap_chain _ _ _ (gap_rendered .id)
      · simp only [BlockKind.CodeAnyway, asChild, Bool.false_eq_true, if_false, nodesBecome_around]
        constructor
        · rintro ⟨_, ⟨b, a, t, hb, ha, ht, rfl⟩, rfl⟩
          exact ⟨⟨b, a⟩, t, ⟨hb, ha⟩, ht, rfl⟩
        · rintro ⟨⟨b, a⟩, t, ⟨hb, ha⟩, ht, rfl⟩
          exact ⟨_, ⟨b, a, t, hb, ha, ht, rfl⟩, rfl⟩
    | true =>
      refine .ignored (P := fun t => ∃ nodes, NodesBecome (before ++ after) nodes ∧ t = chain (nodes.map childCall))
        fun cs t => ?_
      simp only [BlockKind.CodeAnyway, asChild, if_true, nodesBecome_around_slot]
  | component as cl =>
    cases isSlot with
    | false =>
      refine .out (ι := List Toks × List Toks × List Call)
        (P := fun i => NodesBecome before i.1 ∧ NodesBecome after i.2.1 ∧
          ∃ slots, SlotsBecome (before ++ after) slots ∧ SlotCalls slots i.2.2)
        (F := fun i x => chain (childrenCall as cl (i.1 ++ rendered x :: i.2.1) ++ i.2.2)) h (fun i _ => ?_)
        fun cs t => ?_
      · obtain ⟨n, g, hg, he⟩ := gap_childrenCall as cl i.1 i.2.1 (gap_rendered .id)
        refine .of_eq (fun x => by rw [he]) (g := fun x => chain ([⟨n, g x⟩] ++ i.2.2)) ?_
        exact gap_chain [] _ _ hg
      · simp only [BlockKind.CodeAnyway, asChild, Bool.false_eq_true, if_false, nodesBecome_around,
          slotsBecome_around_elem]
        constructor
        · rintro ⟨_, slots, calls, ⟨b, a, t, hb, ha, ht, rfl⟩, hs, hc, rfl⟩
          exact ⟨⟨b, a, calls⟩, t, ⟨hb, ha, slots, hs, hc⟩, ht, rfl⟩
        · rintro ⟨⟨b, a, calls⟩, t, ⟨hb, ha, slots, hs, hc⟩, ht, rfl⟩
          exact ⟨_, slots, calls, ⟨b, a, t, hb, ha, ht, rfl⟩, hs, hc, rfl⟩
    | true =>
      rcases htag with ⟨n, rfl⟩ | ⟨p, hp, hn⟩ | hp
      · let D := fun b a => Classical.choose (slotCalls_around b n a)
        have hD : ∀ b a t calls, SlotCalls (b ++ (n, t) :: a) calls ↔
            ∃ c1 m l r c2, D b a c1 m l r c2 ∧ calls = c1 ++ ⟨m, slotArg (l ++ t :: r)⟩ :: c2 :=
          fun b a => Classical.choose_spec (slotCalls_around b n a)
        refine .out (ι := List Toks × List Call × Ident × List Toks × List Toks × List Call)
          (P := fun i => NodesBecome (before ++ after) i.1 ∧ ∃ b a, SlotsBecome before b ∧ SlotsBecome after a ∧
            D b a i.2.1 i.2.2.1 i.2.2.2.1 i.2.2.2.2.1 i.2.2.2.2.2)
          (F := fun i x => chain (childrenCall as cl i.1 ++
            (i.2.1 ++ ⟨i.2.2.1, slotArg (i.2.2.2.1 ++ x :: i.2.2.2.2.1)⟩ :: i.2.2.2.2.2))) h (fun i _ => ?_)
          fun cs t => ?_
        · simp only [← List.append_assoc]
          exact gap_chain _ _ _ (gap_slotArg _ _ .id)
        · simp only [BlockKind.CodeAnyway, asChild, if_true, nodesBecome_around_slot,
            slotsBecome_around_slot (tagOf cs rfl)]
          constructor
          · rintro ⟨nodes, _, calls, hn, ⟨b, a, t, hb, ha, ht, rfl⟩, hc, rfl⟩
            obtain ⟨c1, m, l, r, c2, hd, rfl⟩ := (hD _ _ _ _).mp hc
            exact ⟨⟨nodes, c1, m, l, r, c2⟩, t, ⟨hn, b, a, hb, ha, hd⟩, ht, rfl⟩
          · rintro ⟨⟨nodes, c1, m, l, r, c2⟩, t, ⟨hn, b, a, hb, ha, hd⟩, ht, rfl⟩
            exact ⟨nodes, _, _, hn, ⟨b, a, t, hb, ha, ht, rfl⟩, (hD _ _ _ _).mpr ⟨c1, m, l, r, c2, hd, rfl⟩, rfl⟩
      · have hk : slotNamed true tag = some false := by simp [slotNamed, hn]
        rw [hk]
        refine .ignored (P := fun t => (BlockKind.component as cl).CodeAnyway (before ++ after) t) fun cs t => ?_
        simp only [BlockKind.CodeAnyway, asChild, if_true, nodesBecome_around_slot,
          slotsBecome_around_path ((tagOf cs rfl).trans hp) ((congrArg _ (tagOf cs rfl)).trans hn)]
      · refine .never fun cs t => ?_
        rintro ⟨_, _, _, _, hs, _⟩
        exact slotsBecome_around_other (fun p h => hp p ((tagOf cs rfl).symm.trans h)) hs
  | slot as cl =>
    cases isSlot with
    | false =>
      refine .out (ι := List Toks × List Toks)
        (P := fun i => NodesBecome before i.1 ∧ NodesBecome after i.2 ∧
          ∃ slots calls, SlotsBecome (before ++ after) slots ∧ SlotCalls slots calls)
        (F := fun i x => chain (childrenCall as cl (i.1 ++ rendered x :: i.2))) h (fun i _ => ?_) fun cs t => ?_
      · obtain ⟨n, g, hg, he⟩ := gap_childrenCall as cl i.1 i.2 (gap_rendered .id)
        exact .of_eq (fun x => by rw [he]) (g := fun x => chain [⟨n, g x⟩]) (gap_chain [] _ [] hg)
      · simp only [BlockKind.CodeAnyway, asChild, Bool.false_eq_true, if_false, nodesBecome_around,
          slotsBecome_around_elem]
        constructor
        · rintro ⟨_, slots, calls, ⟨b, a, t, hb, ha, ht, rfl⟩, hs, hc, rfl⟩
          exact ⟨⟨b, a⟩, t, ⟨hb, ha, slots, calls, hs, hc⟩, ht, rfl⟩
        · rintro ⟨⟨b, a⟩, t, ⟨hb, ha, slots, calls, hs, hc⟩, ht, rfl⟩
          exact ⟨_, slots, calls, ⟨b, a, t, hb, ha, ht, rfl⟩, hs, hc, rfl⟩
    | true =>
      rcases htag with ⟨n, rfl⟩ | ⟨p, hp, hn⟩ | hp
      · have hD : ∀ b a t calls, SlotCalls (b ++ (n, t) :: a) calls →
            ∀ t', ∃ calls', SlotCalls (b ++ (n, t') :: a) calls' := by
          intro b a t calls hc t'
          obtain ⟨D, hD⟩ := slotCalls_around b n a
          obtain ⟨c1, m, l, r, c2, hd, -⟩ := (hD _ _).mp hc
          exact ⟨_, (hD _ _).mpr ⟨c1, m, l, r, c2, hd, rfl⟩⟩
        refine .unused (P := fun t => ∃ nodes, NodesBecome (before ++ after) nodes ∧
          (∃ b a calls, SlotsBecome before b ∧ SlotsBecome after a ∧ SlotCalls (b ++ (n, []) :: a) calls) ∧
            t = chain (childrenCall as cl nodes)) h fun cs t => ?_
        simp only [BlockKind.CodeAnyway, asChild, if_true, nodesBecome_around_slot,
          slotsBecome_around_slot (tagOf cs rfl)]
        constructor
        · rintro ⟨nodes, _, calls, hn, ⟨b, a, t, hb, ha, ht, rfl⟩, hc, rfl⟩
          obtain ⟨calls', hc'⟩ := hD _ _ _ _ hc []
          exact ⟨⟨t, ht⟩, nodes, hn, ⟨b, a, calls', hb, ha, hc'⟩, rfl⟩
        · rintro ⟨⟨t, ht⟩, nodes, hn, ⟨b, a, calls', hb, ha, hc'⟩, rfl⟩
          obtain ⟨calls, hc⟩ := hD _ _ _ _ hc' t
          exact ⟨nodes, _, calls, hn, ⟨b, a, t, hb, ha, ht, rfl⟩, hc, rfl⟩
      · have hk : slotNamed true tag = some false := by simp [slotNamed, hn]
        rw [hk]
        refine .ignored (P := fun t => (BlockKind.slot as cl).CodeAnyway (before ++ after) t) fun cs t => ?_
        simp only [BlockKind.CodeAnyway, asChild, if_true, nodesBecome_around_slot,
          slotsBecome_around_path ((tagOf cs rfl).trans hp) ((congrArg _ (tagOf cs rfl)).trans hn)]
      · refine .never fun cs t => ?_
        rintro ⟨_, _, _, _, hs, _⟩
        exact slotsBecome_around_other (fun p h => hp p ((tagOf cs rfl).symm.trans h)) hs

/-- The code for an input with an element with something open at the top. -/
theorem root_child_anyway {α : Type} {C : α → Toks → Prop} (before : List Child) {el : α → Element} (after : List Child)
    (h : OnePlace C fun a t => (el a).Becomes false t) :
    OnePlace C fun a t => RootBecomes (before ++ asChild false (el a) :: after) t := by
  refine .out (ι := List Toks × List Toks)
    (P := fun i => (∀ c ∈ before ++ after, c.isSlot = false) ∧ NodesBecome before i.1 ∧ NodesBecome after i.2)
    (F := fun i x =>
      let v := oneOrView (i.1 ++ rendered x :: i.2)
      q!"{ #[allow(unused_braces)] #v }") h (fun i _ => ?_) fun cs t => ?_
  · have hr : IsGap fun x => rendered x := gap_rendered .id
    have hv := gap_view i.1 i.2 hr
    obtain ⟨b, a⟩ := i
    cases b with
    | nil =>
      cases a with
      | nil => simp only [List.nil_append, oneOrView] at hv ⊢; gap
      | cons y a => simp only [List.nil_append, oneOrView] at hv ⊢; gap
    | cons z b =>
      cases b with
      | nil => simp only [List.cons_append, List.nil_append, oneOrView] at hv ⊢; gap
      | cons y b => simp only [List.cons_append, oneOrView] at hv ⊢; gap
  · have hs : (∀ c ∈ before ++ asChild false (el cs) :: after,
        c.isSlot = false) ↔ ∀ c ∈ before ++ after, c.isSlot = false := by
      simp only [List.mem_append, List.mem_cons, asChild]
      constructor
      · rintro h c (hc | hc)
        · exact h c (.inl hc)
        · exact h c (.inr (.inr hc))
      · rintro h c (hc | rfl | hc)
        · exact h c (.inl hc)
        · rfl
        · exact h c (.inr hc)
    simp only [RootBecomes, hs]
    simp only [asChild, Bool.false_eq_true, if_false, nodesBecome_around]
    constructor
    · rintro ⟨hns, _, ⟨b, a, t0, hb, ha, ht, rfl⟩, hm⟩
      refine ⟨⟨b, a⟩, t0, ⟨hns, hb, ha⟩, ht, ?_⟩
      split at hm
      · rename_i heq; simp only [heq, oneOrView]; exact hm
      · rename_i hne
        have : oneOrView (b ++ rendered t0 :: a) = viewOf (b ++ rendered t0 :: a) := by
          unfold oneOrView
          split
          · rename_i heq; exact absurd heq (hne _)
          · rfl
        simp only [this]
        exact hm
    · rintro ⟨⟨b, a⟩, t0, ⟨hns, hb, ha⟩, ht, rfl⟩
      refine ⟨hns, _, ⟨b, a, t0, hb, ha, ht, rfl⟩, ?_⟩
      split
      · rename_i heq; simp only [heq, oneOrView]
      · rename_i hne
        have : oneOrView (b ++ rendered t0 :: a) = viewOf (b ++ rendered t0 :: a) := by
          unfold oneOrView
          split
          · rename_i heq; exact absurd heq (hne _)
          · rfl
        simp only [this]

/-- The code for an input with an element with something open. -/
theorem root_element_anyway {α : Type} {C : α → Toks → Prop} (T : TreeGap) (before : List Child) (isSlot : Bool)
    {tag : Tag} {el : α → Element} (after : List Child) (tagOf : ∀ a, isSlot = true → (el a).tag = tag)
    (h : OnePlace C fun a t => (el a).Becomes isSlot t) :
    OnePlace (fun a t => (T.useAnyway (slotNamed isSlot tag)).Code C a t) fun a t =>
      RootBecomes (T.fill (before ++ asChild isSlot (el a) :: after)) t := by
  cases T with
  | here =>
    cases isSlot with
    | false => exact root_child_anyway before after h
    | true =>
      refine .never fun a t => ?_
      rintro ⟨h, -⟩
      have := h (.slot (el a)) (by simp [TreeGap.fill, asChild])
      cases this
  | elem b s tag' sels attrs args inner a =>
    obtain ⟨around, h0⟩ := root_blockAnyway (T := .elem b s tag' sels attrs args inner a) (by simp)
    exact .out (ι := CodeGap) (P := around) (F := fun G x => G.fill x)
      (child_block_anyway _ before isSlot after tagOf h) (fun G _ => ⟨G, fun x => rfl⟩) fun a t => h0 _ t

end Mview
