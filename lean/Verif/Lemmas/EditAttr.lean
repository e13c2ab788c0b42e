import Verif.Spec.EditAttr
import Verif.Lemmas.Edit
import Verif.Lemmas.Siblings
/-
C68: the code for attributes.
-/

set_option linter.unusedVariables false

namespace Mview
open Lex

/-! ### lists -/

theorem mapM_append_some {α β : Type} {f : α → Option β} {xs ys : List α} {r : List β} :
    (xs ++ ys).mapM f = some r ↔ ∃ a b, xs.mapM f = some a ∧ ys.mapM f = some b ∧ r = a ++ b := by
  rw [List.mapM_append]
  simp only [Option.bind_eq_bind, Option.bind_eq_some_iff, Option.pure_def, Option.some.injEq]
  constructor
  · rintro ⟨a, ha, b, hb, rfl⟩; exact ⟨a, b, ha, hb, rfl⟩
  · rintro ⟨a, b, ha, hb, rfl⟩; exact ⟨a, ha, b, hb, rfl⟩

/-- The code for attributes of one kind. -/
theorem code_list {β γ : Type} {f : Attr → Option Toks} {g : β → Option γ} {w : List γ → Toks} {S : List Attr → List β}
    (hw0 : w [] = []) (hw : ∀ x xs, w (x :: xs) = w [x] ++ w xs) (hS0 : S [] = []) {mid : List Attr}
    (h : ∀ a ∈ mid, ∃ b, (∀ as, S (a :: as) = b :: S as) ∧ f a = (g b).map fun c => w [c]) {t : Toks} :
    (∃ codes, mid.mapM f = some codes ∧ t = codes.flatten) ↔ ∃ m, (S mid).mapM g = some m ∧ t = w m := by
  induction mid generalizing t with
  | nil => simp [hS0, hw0]
  | cons a mid ih =>
    obtain ⟨b, hb, hf⟩ := h a (.head _)
    have ih := fun t => @ih (fun a ha => h a (.tail _ ha)) t
    rw [hb mid]
    simp only [List.mapM_cons, hf, Option.bind_eq_bind, Option.bind_eq_some_iff, Option.pure_def, Option.some.injEq,
      Option.map_eq_some_iff]
    constructor
    · rintro ⟨_, ⟨_, ⟨c, hc, rfl⟩, codes, hcs, rfl⟩, rfl⟩
      obtain ⟨m, hm, he⟩ := (ih _).mp ⟨codes, hcs, rfl⟩
      exact ⟨_, ⟨c, hc, m, hm, rfl⟩, by rw [hw c m, List.flatten_cons, he]⟩
    · rintro ⟨_, ⟨c, hc, m, hm, rfl⟩, rfl⟩
      obtain ⟨codes, hcs, he⟩ := (ih _).mpr ⟨m, hm, rfl⟩
      exact ⟨_, ⟨_, ⟨c, hc, rfl⟩, codes, hcs, rfl⟩, by rw [hw c m, List.flatten_cons, ← he]⟩

theorem sel_append {β : Type} {S : List Attr → List β} (h : ∀ a b, S (a ++ b) = S a ++ S b) (a m b : List Attr) :
    S (a ++ m ++ b) = S a ++ (S m ++ S b) := by rw [h, h, List.append_assoc]

theorem kvs_append (a b : List Attr) : kvs (a ++ b) = kvs a ++ kvs b := by simp [kvs]
theorem directives_append (a b : List Attr) : directives (a ++ b) = directives a ++ directives b := by simp [directives]
theorem spreads_append (a b : List Attr) : spreads (a ++ b) = spreads a ++ spreads b := by simp [spreads]
theorem clones_append (a b : List Attr) : clones (a ++ b) = clones a ++ clones b := by simp [clones, directives]
theorem entries_append (a b : List Attr) : entries (a ++ b) = entries a ++ entries b := by simp [entries]

variable {tag : Tag} {m : List Attr}

theorem kvs_other (h : ∀ a ∈ m, a.place tag ≠ .calls) : kvs m = [] := by
  simp only [kvs, List.filterMap_eq_nil_iff]
  intro a ha
  cases a with
  | kv a => exact absurd rfl (h _ ha)
  | _ => rfl

theorem directives_other (hc : ∀ p, tag ≠ .component p) (h : ∀ a ∈ m, a.place tag ≠ .directives) :
    directives m = [] := by
  simp only [directives, List.filterMap_eq_nil_iff]
  intro a ha
  cases a with
  | directive d =>
    have := h _ ha
    cases tag <;> simp_all [Attr.place]
  | _ => rfl

theorem spreads_other (hc : ∀ p, tag ≠ .component p) (h : ∀ a ∈ m, a.place tag ≠ .spreads) : spreads m = [] := by
  simp only [spreads, List.filterMap_eq_nil_iff]
  intro a ha
  cases a with
  | spread e =>
    have := h _ ha
    cases tag <;> simp_all [Attr.place]
  | _ => rfl

theorem clones_other {p : Path} (hc : tag = .component p) (h : ∀ a ∈ m, a.place tag ≠ .clones) : clones m = [] := by
  subst hc
  simp only [clones, List.filter_eq_nil_iff, directives, List.mem_filterMap]
  rintro d ⟨a, ha, hd⟩
  cases a with
  | directive d' =>
    cases hd
    have := h _ ha
    simp only [Attr.place] at this
    intro hd
    simp only [decide_eq_true_eq] at hd
    simp [hd] at this
  | _ => cases hd

theorem entries_other {p : Path} (hc : tag = .component p) (h : ∀ a ∈ m, a.place tag ≠ .entries) : entries m = [] := by
  subst hc
  simp only [entries, List.filter_eq_nil_iff]
  intro a ha
  have := h _ ha
  cases a with
  | kv a => simp
  | directive d => simp only [Attr.place] at this; split at this <;> simp_all
  | spread e => simp [Attr.place] at this

/-! ### the parts of the code -/

theorem calls_code {asSlot : Bool} {p : Path} (hc : tag = .component p) (h : ∀ a ∈ m, a.place tag = .calls) {t : Toks} :
    AttrsCode asSlot tag m t ↔ ∃ r, (kvs m).mapM KvAttr.onComponent = some r ∧ t = chain r := by
  subst hc
  refine code_list rfl (fun x xs => chain_append [x] xs) rfl fun a ha => ?_
  have := h a ha
  cases a with
  | kv a => exact ⟨a, fun as => rfl, rfl⟩
  | directive d => simp only [Attr.place] at this; split at this <;> cases this
  | spread e => simp [Attr.place] at this

theorem elementCalls_code {asSlot : Bool} (hc : ∀ p, tag ≠ .component p) (h : ∀ a ∈ m, a.place tag = .calls) {t : Toks} :
    AttrsCode asSlot tag m t ↔ ∃ r, (kvs m).mapM (KvAttr.onElement tag.kind) = some r ∧ t = chain r := by
  refine code_list rfl (fun x xs => chain_append [x] xs) rfl fun a ha => ?_
  have := h a ha
  cases a with
  | kv a => exact ⟨a, fun as => rfl, by cases tag <;> first | rfl | exact absurd rfl (hc _)⟩
  | directive d => cases tag <;> simp_all [Attr.place]
  | spread e => cases tag <;> simp_all [Attr.place]

theorem directives_code {asSlot : Bool} (hc : ∀ p, tag ≠ .component p) (h : ∀ a ∈ m, a.place tag = .directives) {t : Toks} :
    AttrsCode asSlot tag m t ↔ ∃ r, (directives m).mapM Directive.onElement = some r ∧ t = chain r := by
  refine code_list rfl (fun x xs => chain_append [x] xs) rfl fun a ha => ?_
  have := h a ha
  cases a with
  | directive d => exact ⟨d, fun as => rfl, by cases tag <;> first | rfl | exact absurd rfl (hc _)⟩
  | kv d => cases this
  | spread e => cases tag <;> simp_all [Attr.place]

theorem spreads_code {asSlot : Bool} (hc : ∀ p, tag ≠ .component p) (h : ∀ a ∈ m, a.place tag = .spreads) {t : Toks} :
    AttrsCode asSlot tag m t ↔ t = chain ((spreads m).map spreadCall) := by
  have := code_list (f := Attr.codeOn asSlot tag) (g := fun e => some (spreadCall e)) (w := chain) (S := spreads) rfl
    (fun x xs => chain_append [x] xs) rfl (mid := m) (t := t) fun a ha => ?_
  · refine this.trans ?_
    have hm : (spreads m).mapM (fun e => some (spreadCall e)) = some ((spreads m).map spreadCall) := by
      generalize spreads m = l
      induction l with
      | nil => rfl
      | cons x l ih => simp [List.mapM_cons, ih]
    rw [hm]
    simp
  · have := h a ha
    cases a with
    | spread e => exact ⟨e, fun as => rfl, by cases tag <;> first | rfl | exact absurd rfl (hc _)⟩
    | kv d => cases this
    | directive d => cases tag <;> simp_all [Attr.place]

theorem entries_code {p : Path} (hc : tag = .component p) (h : ∀ a ∈ m, a.place tag = .entries) {t : Toks} :
    AttrsCode false tag m t ↔ ∃ r, (entries m).mapM Attr.entry = some r ∧ t = commaAfter r := by
  subst hc
  refine code_list rfl (fun x xs => commaAfter_append [x] xs) rfl fun a ha => ?_
  have := h a ha
  cases a with
  | kv a => cases this
  | directive d =>
    simp only [Attr.place] at this
    split at this
    · cases this
    · rename_i hd
      exact ⟨.directive d, fun as => by simp [entries, hd], by simp only [Attr.codeOn, if_neg hd]; rfl⟩
  | spread e => exact ⟨.spread e, fun as => by simp [entries], rfl⟩

theorem clones_code {asSlot : Bool} {p : Path} (hc : tag = .component p) (h : ∀ a ∈ m, a.place tag = .clones) {t : Toks} :
    AttrsCode asSlot tag m t ↔ ∃ r, (clones m).mapM Directive.cloneStmt = some r ∧ t = r.flatten := by
  subst hc
  refine code_list rfl (fun x xs => by simp) rfl fun a ha => ?_
  have := h a ha
  cases a with
  | kv a => cases this
  | directive d =>
    simp only [Attr.place] at this
    split at this
    · rename_i hd
      exact ⟨d, fun as => by simp [clones, directives, hd], by simp [Attr.codeOn, hd]⟩
    · cases this
  | spread e => simp [Attr.place] at this

/-! ### inside an element -/

/-- The code for the children, if any. -/
def ChildrenCode (cs : Option (List Child)) (nodes : List Toks) (calls : List Call) : Prop :=
  match cs with
  | none => nodes = [] ∧ calls = []
  | some cs => ∃ slots, NodesMean cs nodes ∧ SlotsMean cs slots ∧ SlotCalls slots calls

/-- Those that are not slots. -/
def NodesCode (cs : Option (List Child)) (nodes : List Toks) : Prop :=
  match cs with
  | none => nodes = []
  | some cs => NodesMean cs nodes

variable {sels : List Selector} {attrs : List Attr} {args : Option Toks} {cs : Option (List Child)} {t : Toks}

theorem component_inner {p : Path} : (Element.mk (.component p) sels attrs args cs).Means false t ↔
    ∃ nodes calls, ChildrenCode cs nodes calls ∧ componentMeans p sels attrs args nodes calls = some t := by
  cases cs with
  | none =>
    rw [Element.Means]
    constructor
    · intro h; exact ⟨[], [], ⟨rfl, rfl⟩, h⟩
    · rintro ⟨_, _, ⟨rfl, rfl⟩, h⟩; exact h
  | some cs =>
    rw [Element.Means]
    constructor
    · rintro ⟨n, s, c, h1, h2, h3, h⟩; exact ⟨n, c, ⟨s, h1, h2, h3⟩, h⟩
    · rintro ⟨n, c, ⟨s, h1, h2, h3⟩, h⟩; exact ⟨n, s, c, h1, h2, h3, h⟩

theorem slot_inner {p : Path} : (Element.mk (.component p) sels attrs args cs).Means true t ↔
    ∃ nodes calls, ChildrenCode cs nodes calls ∧ slotMeans p sels attrs args nodes = some t := by
  cases cs with
  | none =>
    rw [Element.Means]
    constructor
    · intro h; exact ⟨[], [], ⟨rfl, rfl⟩, h⟩
    · rintro ⟨_, _, ⟨rfl, rfl⟩, h⟩; exact h
  | some cs =>
    rw [Element.Means]
    constructor
    · rintro ⟨n, s, c, h1, h2, h3, h⟩; exact ⟨n, c, ⟨s, h1, h2, h3⟩, h⟩
    · rintro ⟨n, c, ⟨s, h1, h2, h3⟩, h⟩; exact ⟨n, s, c, h1, h2, h3, h⟩

theorem element_inner (hc : ∀ p, tag ≠ .component p) : (Element.mk tag sels attrs args cs).Means false t ↔
    ∃ nodes, NodesCode cs nodes ∧ xmlMeans tag sels attrs nodes = some t := by
  cases cs with
  | none =>
    have : (Element.mk tag sels attrs args none).Means false t ↔ xmlMeans tag sels attrs [] = some t := by
      cases tag with
      | component p => exact absurd rfl (hc p)
      | _ => rw [Element.Means]; intro p h; cases h
    rw [this]
    constructor
    · intro h; exact ⟨[], rfl, h⟩
    · rintro ⟨_, rfl, h⟩; exact h
  | some cs =>
    cases tag with
    | component p => exact absurd rfl (hc p)
    | _ => rw [Element.Means]; · exact Iff.rfl
           · intro p h; cases h

theorem element_not_slot (hc : ∀ p, tag ≠ .component p) : ¬ (Element.mk tag sels attrs args cs).Means true t := by
  cases tag with
  | component p => exact absurd rfl (hc p)
  | _ =>
    cases cs <;> rw [Element.Means]
    all_goals first | exact id | (intro p h; cases h)

/-- There is code for nodes exactly if there are children that are not slots. -/
theorem inner_nodes {nodes : List Toks} {calls : List Call} (h : ChildrenCode cs nodes calls) :
    nodes = [] ↔ (cs.getD []).all Child.isSlot = true := by
  cases cs with
  | none => simp [h.1]
  | some cs =>
    obtain ⟨slots, h, -, -⟩ := h
    rw [nodesMean_iff] at h
    have hl := h.length_eq
    rw [← List.length_eq_zero_iff, ← hl, List.length_eq_zero_iff, List.filter_eq_nil_iff]
    simp

/-- A call of a component, given the calls for its properties and the additional attributes. -/
def componentCode (p calls en : Toks) : Toks :=
  q!"#[allow(unreachable_code)] ::leptos::prelude::View::new(
    ::leptos::component::component_view(& #p,
      ::leptos::component::component_props_builder(& #p) #calls
    ).add_any_attr((#en)))"

/-- A slot, given the calls for its properties. -/
def slotCode (p calls : Toks) : Toks := q!"::std::convert::Into::into(#p ::builder() #calls)"

variable {f : Toks → Toks}

theorem gap_componentCalls (p en : Toks) (hf : IsGap f) : IsGap fun x => componentCode p (f x) en := by
  unfold componentCode; gap

theorem gap_componentEntries (p calls : Toks) (hf : IsGap f) : IsGap fun x => componentCode p calls (f x) := by
  unfold componentCode; gap

theorem gap_slotCode (p : Toks) (hf : IsGap f) : IsGap fun x => slotCode p (f x) := by
  unfold slotCode; gap

theorem gap_clones (args : Option Toks) (a b : Toks) {nodes : List Toks} (hn : nodes ≠ []) :
    ∃ n, ∃ g : Toks → Toks, IsGap g ∧ ∀ x, childrenCall args (a ++ (x ++ b)) nodes = [⟨n, g x⟩] := by
  cases args with
  | some args =>
    refine ⟨_, _, ?_, fun x => by simp only [childrenCall, if_neg hn]; rfl⟩
    gap
  | none =>
    refine ⟨_, _, ?_, fun x => by simp only [childrenCall, if_neg hn]; rfl⟩
    gap

theorem childrenCall_nil (args : Option Toks) (cl : Toks) : childrenCall args cl [] = [] := rfl

theorem OnePlace.empty {α : Type} {E : α → Prop} {P : Toks → Prop} {C R : α → Toks → Prop}
    (hC : ∀ a t, C a t ↔ E a ∧ t = []) (hR : ∀ a t, R a t ↔ E a ∧ P t) : OnePlace C R := by
  refine ⟨fun G => ∃ t, P t ∧ G = .here t [], fun a t => ?_⟩
  rw [hR]
  constructor
  · rintro ⟨he, ht⟩
    exact ⟨_, [], ⟨t, ht, rfl⟩, (hC _ _).mpr ⟨he, rfl⟩, by simp [CodeGap.fill]⟩
  · rintro ⟨_, code, ⟨t, ht, rfl⟩, hc, rfl⟩
    obtain ⟨he, rfl⟩ := (hC _ _).mp hc
    exact ⟨he, by simpa [CodeGap.fill] using ht⟩

theorem attrsCode_nil {asSlot : Bool} : AttrsCode asSlot tag [] t ↔ t = [] := by
  simp [AttrsCode]

/-- Attributes for one place. -/
abbrev AttrsAt (tag : Tag) (k : AttrPlace) : Type := {m : List Attr // ∀ a ∈ m, a.place tag = k}

/-- Nothing can be at this place. -/
theorem attr_nowhere {asSlot : Bool} {k : AttrPlace} {u : Use} (hu : u ≠ .ignored) (hk : ∀ a : Attr, a.place tag ≠ k)
    (R : List Attr → Toks → Prop) :
    OnePlace (α := AttrsAt tag k) (fun m t => u.Code (fun m t => AttrsCode asSlot tag m.1 t) m t) fun m t => R m.1 t := by
  have hm : ∀ m : AttrsAt tag k, m.1 = [] := fun m => by
    cases h : m.1 with
    | nil => rfl
    | cons a as => exact absurd (m.2 a (h ▸ .head _)) (hk a)
  refine .empty (E := fun _ => True) (P := R []) (fun m t => ?_) fun m t => by rw [hm m]; simp
  cases u with
  | ignored => exact absurd rfl hu
  | used => simp only [Use.Code, hm m, attrsCode_nil, true_and]
  | unused => simp only [Use.Code, hm m, attrsCode_nil, true_and, exists_eq]

theorem element_attr_element (hc : ∀ p, tag ≠ .component p) (k : AttrPlace) (sels : List Selector) (a1 a2 : List Attr)
    (args : Option Toks) (cs : Option (List Child)) :
    OnePlace (α := AttrsAt tag k) (fun m t => (k.use cs).Code (fun m t => AttrsCode false tag m.1 t) m t)
      fun m t => (Element.mk tag sels (a1 ++ m.1 ++ a2) args cs).Means false t := by
  have hother : ∀ {k k' : AttrPlace}, k ≠ k' → ∀ m : AttrsAt tag k, ∀ a ∈ m.1, a.place tag ≠ k' :=
    fun hk m a ha h => hk ((m.2 a ha).symm.trans h)
  have happ : ∀ m : List Attr, kvs (a1 ++ m ++ a2) = kvs a1 ++ (kvs m ++ kvs a2) ∧
      directives (a1 ++ m ++ a2) = directives a1 ++ (directives m ++ directives a2) ∧
      spreads (a1 ++ m ++ a2) = spreads a1 ++ (spreads m ++ spreads a2) :=
    fun m => ⟨sel_append kvs_append a1 m a2, sel_append directives_append a1 m a2, sel_append spreads_append a1 m a2⟩
  cases k with
  | entries =>
    refine attr_nowhere (u := .used) (by simp) (fun a => by cases tag <;> cases a <;> simp_all [Attr.place]) fun m t =>
      (Element.mk tag sels (a1 ++ m ++ a2) args cs).Means false t
  | clones =>
    refine attr_nowhere (by simp only [AttrPlace.use]; split <;> simp) (fun a => by cases tag <;> cases a <;> simp_all [Attr.place]) fun m t =>
      (Element.mk tag sels (a1 ++ m ++ a2) args cs).Means false t
  | calls =>
    refine .out (ι := List Toks × Toks × List Call × List Call × List Call) (P := fun i => NodesCode cs i.1 ∧
        tag.head = some i.2.1 ∧ (kvs a1).mapM (KvAttr.onElement tag.kind) = some i.2.2.1 ∧
        (kvs a2).mapM (KvAttr.onElement tag.kind) = some i.2.2.2.1 ∧
        (directives a1 ++ directives a2).mapM Directive.onElement = some i.2.2.2.2)
      (F := fun i x => i.2.1 ++ (chain i.2.2.1 ++ (x ++ chain (i.2.2.2.1 ++ i.2.2.2.2 ++ (classes sels).map classCall ++
        (ids sels).map idCall ++ (spreads a1 ++ spreads a2).map spreadCall ++ i.1.map childCall))))
      OnePlace.code (fun i _ => by gap) fun m t => ?_
    simp only [element_inner hc, xmlMeans_some, AttrPlace.use, Use.Code, elementCalls_code hc m.2, happ,
      directives_other hc (hother (by decide) m), spreads_other hc (hother (by decide) m), List.nil_append, mapM_append_some]
    constructor
    · rintro ⟨nodes, hn, head, _, ds, h1, ⟨x, _, h2, ⟨r, y, h3, h4, rfl⟩, rfl⟩, h5, rfl⟩
      exact ⟨⟨nodes, head, x, y, ds⟩, _, ⟨hn, h1, h2, h4, h5⟩, ⟨r, h3, rfl⟩, by simp only [chain_append, List.append_assoc]⟩
    · rintro ⟨⟨nodes, head, x, y, ds⟩, _, ⟨hn, h1, h2, h4, h5⟩, ⟨r, h3, rfl⟩, rfl⟩
      exact ⟨nodes, hn, head, _, ds, h1, ⟨x, _, h2, ⟨r, y, h3, h4, rfl⟩, rfl⟩, h5, by simp only [chain_append, List.append_assoc]⟩
  | directives =>
    refine .out (ι := List Toks × Toks × List Call × List Call × List Call) (P := fun i => NodesCode cs i.1 ∧
        tag.head = some i.2.1 ∧ (kvs a1 ++ kvs a2).mapM (KvAttr.onElement tag.kind) = some i.2.2.1 ∧
        (directives a1).mapM Directive.onElement = some i.2.2.2.1 ∧
        (directives a2).mapM Directive.onElement = some i.2.2.2.2)
      (F := fun i x => i.2.1 ++ (chain (i.2.2.1 ++ i.2.2.2.1) ++ (x ++ chain (i.2.2.2.2 ++ (classes sels).map classCall ++
        (ids sels).map idCall ++ (spreads a1 ++ spreads a2).map spreadCall ++ i.1.map childCall))))
      OnePlace.code (fun i _ => by gap) fun m t => ?_
    simp only [element_inner hc, xmlMeans_some, AttrPlace.use, Use.Code, directives_code hc m.2, happ,
      kvs_other (hother (by decide) m), spreads_other hc (hother (by decide) m), List.nil_append, mapM_append_some (f := Directive.onElement)]
    constructor
    · rintro ⟨nodes, hn, head, as, _, h1, h5, ⟨x, _, h2, ⟨r, y, h3, h4, rfl⟩, rfl⟩, rfl⟩
      exact ⟨⟨nodes, head, as, x, y⟩, _, ⟨hn, h1, h5, h2, h4⟩, ⟨r, h3, rfl⟩, by simp only [chain_append, List.append_assoc]⟩
    · rintro ⟨⟨nodes, head, as, x, y⟩, _, ⟨hn, h1, h5, h2, h4⟩, ⟨r, h3, rfl⟩, rfl⟩
      exact ⟨nodes, hn, head, as, _, h1, h5, ⟨x, _, h2, ⟨r, y, h3, h4, rfl⟩, rfl⟩, by simp only [chain_append, List.append_assoc]⟩
  | spreads =>
    refine .out (ι := List Toks × Toks × List Call × List Call) (P := fun i => NodesCode cs i.1 ∧
        tag.head = some i.2.1 ∧ (kvs a1 ++ kvs a2).mapM (KvAttr.onElement tag.kind) = some i.2.2.1 ∧
        (directives a1 ++ directives a2).mapM Directive.onElement = some i.2.2.2)
      (F := fun i x => i.2.1 ++ (chain (i.2.2.1 ++ i.2.2.2 ++ (classes sels).map classCall ++
        (ids sels).map idCall ++ (spreads a1).map spreadCall) ++ (x ++ chain ((spreads a2).map spreadCall ++ i.1.map childCall))))
      OnePlace.code (fun i _ => by gap) fun m t => ?_
    simp only [element_inner hc, xmlMeans_some, AttrPlace.use, Use.Code, spreads_code hc m.2, happ,
      kvs_other (hother (by decide) m), directives_other hc (hother (by decide) m), List.nil_append, List.map_append]
    constructor
    · rintro ⟨nodes, hn, head, as, ds, h1, h2, h3, rfl⟩
      exact ⟨⟨nodes, head, as, ds⟩, _, ⟨hn, h1, h2, h3⟩, rfl, by simp only [chain_append, List.append_assoc]⟩
    · rintro ⟨⟨nodes, head, as, ds⟩, _, ⟨hn, h1, h2, h3⟩, rfl, rfl⟩
      exact ⟨nodes, hn, head, as, ds, h1, h2, h3, by simp only [chain_append, List.append_assoc]⟩

theorem componentMeans_code {path : Path} {nodes : List Toks} {calls : List Call} :
    componentMeans path sels attrs args nodes calls = some t ↔
    ∃ p as es cl, path.means = some p ∧ (kvs attrs).mapM KvAttr.onComponent = some as ∧
      (entries attrs).mapM Attr.entry = some es ∧ (clones attrs).mapM Directive.cloneStmt = some cl ∧
      t = componentCode p (chain as ++ (chain (childrenCall args cl.flatten nodes) ++ (chain calls ++ chain [⟨plain c!"build", []⟩])))
        (commaAfter ((classes sels).map classEntry ++ idEntry (ids sels)) ++ commaAfter es) := by
  simp only [componentMeans_some, exists_eq_left, componentCode, chain_append, commaAfter_append, List.append_assoc]

theorem slotMeans_code {path : Path} {nodes : List Toks} :
    slotMeans path sels attrs args nodes = some t ↔
    sels = [] ∧ entries attrs = [] ∧ ∃ p as cl, path.means = some p ∧ (kvs attrs).mapM KvAttr.onComponent = some as ∧
      (clones attrs).mapM Directive.cloneStmt = some cl ∧
      t = slotCode p (chain as ++ (chain (childrenCall args cl.flatten nodes) ++ chain [⟨plain c!"build", []⟩])) := by
  simp only [slotMeans_some, exists_eq_left, slotCode, chain_append, List.append_assoc]

theorem gap_childrenClones (args : Option Toks) (a b : Toks) (nodes : List Toks) (hn : nodes ≠ []) :
    IsGap fun x => chain (childrenCall args (a ++ (x ++ b)) nodes) := by
  obtain ⟨n, g, hg, he⟩ := gap_clones args a b hn
  exact .of_eq (fun x => by rw [he]; rfl) (gap_chain [] n [] hg)

theorem element_attr_component {p : Path} (hc : tag = .component p) (k : AttrPlace) (sels : List Selector)
    (a1 a2 : List Attr) (args : Option Toks) (cs : Option (List Child)) :
    OnePlace (α := AttrsAt tag k) (fun m t => (k.use cs).Code (fun m t => AttrsCode false tag m.1 t) m t)
      fun m t => (Element.mk tag sels (a1 ++ m.1 ++ a2) args cs).Means false t := by
  have hother : ∀ {k k' : AttrPlace}, k ≠ k' → ∀ m : AttrsAt tag k, ∀ a ∈ m.1, a.place tag ≠ k' :=
    fun hk m a ha h => hk ((m.2 a ha).symm.trans h)
  have happ : ∀ m : List Attr, kvs (a1 ++ m ++ a2) = kvs a1 ++ (kvs m ++ kvs a2) ∧
      entries (a1 ++ m ++ a2) = entries a1 ++ (entries m ++ entries a2) ∧
      clones (a1 ++ m ++ a2) = clones a1 ++ (clones m ++ clones a2) :=
    fun m => ⟨sel_append kvs_append a1 m a2, sel_append entries_append a1 m a2, sel_append clones_append a1 m a2⟩
  have hmeans : ∀ (attrs : List Attr) (t : Toks), (Element.mk tag sels attrs args cs).Means false t ↔
      ∃ nodes calls, ChildrenCode cs nodes calls ∧ componentMeans p sels attrs args nodes calls = some t := by
    subst hc
    exact fun attrs t => component_inner
  have hno : ∀ a : Attr, a.place tag ≠ .directives ∧ a.place tag ≠ .spreads := by
    subst hc
    intro a
    cases a <;> simp only [Attr.place] <;> (try split) <;> simp
  cases k with
  | directives =>
    exact attr_nowhere (u := .used) (by simp) (fun a => (hno a).1) fun m t =>
      (Element.mk tag sels (a1 ++ m ++ a2) args cs).Means false t
  | spreads =>
    exact attr_nowhere (u := .used) (by simp) (fun a => (hno a).2) fun m t =>
      (Element.mk tag sels (a1 ++ m ++ a2) args cs).Means false t
  | calls =>
    refine .out (ι := List Toks × List Call × Toks × List Call × List Call × List Toks × List Toks)
      (P := fun ⟨nodes, calls, pt, x, y, es, cl⟩ => ChildrenCode cs nodes calls ∧ p.means = some pt ∧
        (kvs a1).mapM KvAttr.onComponent = some x ∧ (kvs a2).mapM KvAttr.onComponent = some y ∧
        (entries a1 ++ entries a2).mapM Attr.entry = some es ∧
        (clones a1 ++ clones a2).mapM Directive.cloneStmt = some cl)
      (F := fun ⟨nodes, calls, pt, x, y, es, cl⟩ c => componentCode pt (chain x ++ (c ++ (chain y ++
          (chain (childrenCall args cl.flatten nodes) ++ (chain calls ++ chain [⟨plain c!"build", []⟩])))))
        (commaAfter ((classes sels).map classEntry ++ idEntry (ids sels)) ++ commaAfter es))
      OnePlace.code (fun ⟨nodes, calls, pt, x, y, es, cl⟩ _ => gap_componentCalls _ _ (by gap)) fun m t => ?_
    simp only [hmeans, componentMeans_code, AttrPlace.use, Use.Code, calls_code hc m.2, happ,
      entries_other hc (hother (by decide) m), clones_other hc (hother (by decide) m), List.nil_append,
      mapM_append_some (f := KvAttr.onComponent)]
    constructor
    · rintro ⟨nodes, calls, hn, pt, _, es, cl, h1, ⟨x, _, h2, ⟨r, y, h3, h4, rfl⟩, rfl⟩, h5, h6, rfl⟩
      exact ⟨⟨nodes, calls, pt, x, y, es, cl⟩, _, ⟨hn, h1, h2, h4, h5, h6⟩, ⟨r, h3, rfl⟩,
        by simp only [chain_append, List.append_assoc]⟩
    · rintro ⟨⟨nodes, calls, pt, x, y, es, cl⟩, _, ⟨hn, h1, h2, h4, h5, h6⟩, ⟨r, h3, rfl⟩, rfl⟩
      exact ⟨nodes, calls, hn, pt, _, es, cl, h1, ⟨x, _, h2, ⟨r, y, h3, h4, rfl⟩, rfl⟩, h5, h6,
        by simp only [chain_append, List.append_assoc]⟩
  | entries =>
    refine .out (ι := List Toks × List Call × Toks × List Call × List Toks × List Toks × List Toks)
      (P := fun ⟨nodes, calls, pt, as, x, y, cl⟩ => ChildrenCode cs nodes calls ∧ p.means = some pt ∧
        (kvs a1 ++ kvs a2).mapM KvAttr.onComponent = some as ∧ (entries a1).mapM Attr.entry = some x ∧
        (entries a2).mapM Attr.entry = some y ∧
        (clones a1 ++ clones a2).mapM Directive.cloneStmt = some cl)
      (F := fun ⟨nodes, calls, pt, as, x, y, cl⟩ c => componentCode pt (chain as ++
          (chain (childrenCall args cl.flatten nodes) ++ (chain calls ++ chain [⟨plain c!"build", []⟩])))
        (commaAfter ((classes sels).map classEntry ++ idEntry (ids sels)) ++ (commaAfter x ++ (c ++ commaAfter y))))
      OnePlace.code (fun ⟨nodes, calls, pt, as, x, y, cl⟩ _ => gap_componentEntries _ _ (by gap)) fun m t => ?_
    simp only [hmeans, componentMeans_code, AttrPlace.use, Use.Code, entries_code hc m.2, happ,
      kvs_other (hother (by decide) m), clones_other hc (hother (by decide) m), List.nil_append,
      mapM_append_some (f := Attr.entry)]
    constructor
    · rintro ⟨nodes, calls, hn, pt, as, _, cl, h1, h5, ⟨x, _, h2, ⟨r, y, h3, h4, rfl⟩, rfl⟩, h6, rfl⟩
      exact ⟨⟨nodes, calls, pt, as, x, y, cl⟩, _, ⟨hn, h1, h5, h2, h4, h6⟩, ⟨r, h3, rfl⟩,
        by simp only [commaAfter_append, List.append_assoc]⟩
    · rintro ⟨⟨nodes, calls, pt, as, x, y, cl⟩, _, ⟨hn, h1, h5, h2, h4, h6⟩, ⟨r, h3, rfl⟩, rfl⟩
      exact ⟨nodes, calls, hn, pt, as, _, cl, h1, h5, ⟨x, _, h2, ⟨r, y, h3, h4, rfl⟩, rfl⟩, h6,
        by simp only [commaAfter_append, List.append_assoc]⟩
  | clones =>
    by_cases hs : (cs.getD []).all Child.isSlot = true
    · simp only [AttrPlace.use, if_pos hs]
      refine .unused (P := fun t => ∃ calls pt as es x y, ChildrenCode cs [] calls ∧ p.means = some pt ∧
        (kvs a1 ++ kvs a2).mapM KvAttr.onComponent = some as ∧ (entries a1 ++ entries a2).mapM Attr.entry = some es ∧
        (clones a1).mapM Directive.cloneStmt = some x ∧ (clones a2).mapM Directive.cloneStmt = some y ∧
        t = componentCode pt (chain as ++ (chain calls ++ chain [⟨plain c!"build", []⟩]))
          (commaAfter ((classes sels).map classEntry ++ idEntry (ids sels)) ++ commaAfter es)) OnePlace.code fun m t => ?_
      simp only [hmeans, componentMeans_code, clones_code hc m.2, happ, kvs_other (hother (by decide) m),
        entries_other hc (hother (by decide) m), List.nil_append, mapM_append_some (f := Directive.cloneStmt)]
      constructor
      · rintro ⟨nodes, calls, hn, pt, as, es, _, h1, h2, h3, ⟨x, _, h4, ⟨r, y, h5, h6, rfl⟩, rfl⟩, rfl⟩
        obtain rfl := (inner_nodes hn).mpr hs
        exact ⟨⟨_, r, h5, rfl⟩, calls, pt, as, es, x, y, hn, h1, h2, h3, h4, h6, rfl⟩
      · rintro ⟨⟨_, r, h5, rfl⟩, calls, pt, as, es, x, y, hn, h1, h2, h3, h4, h6, rfl⟩
        exact ⟨[], calls, hn, pt, as, es, _, h1, h2, h3, ⟨x, _, h4, ⟨r, y, h5, h6, rfl⟩, rfl⟩, rfl⟩
    · simp only [AttrPlace.use, if_neg hs]
      refine .out (ι := List Toks × List Call × Toks × List Call × List Toks × List Toks × List Toks)
        (P := fun ⟨nodes, calls, pt, as, es, x, y⟩ => ChildrenCode cs nodes calls ∧ p.means = some pt ∧
          (kvs a1 ++ kvs a2).mapM KvAttr.onComponent = some as ∧ (entries a1 ++ entries a2).mapM Attr.entry = some es ∧
          (clones a1).mapM Directive.cloneStmt = some x ∧ (clones a2).mapM Directive.cloneStmt = some y)
        (F := fun ⟨nodes, calls, pt, as, es, x, y⟩ c => componentCode pt (chain as ++
            (chain (childrenCall args (x.flatten ++ (c ++ y.flatten)) nodes) ++ (chain calls ++ chain [⟨plain c!"build", []⟩])))
          (commaAfter ((classes sels).map classEntry ++ idEntry (ids sels)) ++ commaAfter es))
        OnePlace.code (fun ⟨nodes, calls, pt, as, es, x, y⟩ hi => gap_componentCalls _ _ ?_) fun m t => ?_
      · have := gap_childrenClones args x.flatten y.flatten nodes fun h => hs ((inner_nodes hi.1).mp h)
        gap
      simp only [hmeans, componentMeans_code, Use.Code, clones_code hc m.2, happ, kvs_other (hother (by decide) m),
        entries_other hc (hother (by decide) m), List.nil_append, mapM_append_some (f := Directive.cloneStmt)]
      constructor
      · rintro ⟨nodes, calls, hn, pt, as, es, _, h1, h2, h3, ⟨x, _, h4, ⟨r, y, h5, h6, rfl⟩, rfl⟩, rfl⟩
        exact ⟨⟨nodes, calls, pt, as, es, x, y⟩, _, ⟨hn, h1, h2, h3, h4, h6⟩, ⟨r, h5, rfl⟩, by simp only [List.flatten_append]⟩
      · rintro ⟨⟨nodes, calls, pt, as, es, x, y⟩, _, ⟨hn, h1, h2, h3, h4, h6⟩, ⟨r, h5, rfl⟩, rfl⟩
        exact ⟨nodes, calls, hn, pt, as, es, _, h1, h2, h3, ⟨x, _, h4, ⟨r, y, h5, h6, rfl⟩, rfl⟩, by simp only [List.flatten_append]⟩

theorem element_attr_slot {p : Path} (hc : tag = .component p) (k : AttrPlace) (sels : List Selector)
    (a1 a2 : List Attr) (args : Option Toks) (cs : Option (List Child)) :
    OnePlace (α := AttrsAt tag k) (fun m t => (k.use cs).Code (fun m t => AttrsCode true tag m.1 t) m t)
      fun m t => (Element.mk tag sels (a1 ++ m.1 ++ a2) args cs).Means true t := by
  have hother : ∀ {k k' : AttrPlace}, k ≠ k' → ∀ m : AttrsAt tag k, ∀ a ∈ m.1, a.place tag ≠ k' :=
    fun hk m a ha h => hk ((m.2 a ha).symm.trans h)
  have happ : ∀ m : List Attr, kvs (a1 ++ m ++ a2) = kvs a1 ++ (kvs m ++ kvs a2) ∧
      entries (a1 ++ m ++ a2) = entries a1 ++ (entries m ++ entries a2) ∧
      clones (a1 ++ m ++ a2) = clones a1 ++ (clones m ++ clones a2) :=
    fun m => ⟨sel_append kvs_append a1 m a2, sel_append entries_append a1 m a2, sel_append clones_append a1 m a2⟩
  have hmeans : ∀ (attrs : List Attr) (t : Toks), (Element.mk tag sels attrs args cs).Means true t ↔
      ∃ nodes calls, ChildrenCode cs nodes calls ∧ slotMeans p sels attrs args nodes = some t := by
    subst hc
    exact fun attrs t => slot_inner
  have hno : ∀ a : Attr, a.place tag ≠ .directives ∧ a.place tag ≠ .spreads := by
    subst hc
    intro a
    cases a <;> simp only [Attr.place] <;> (try split) <;> simp
  cases k with
  | directives =>
    exact attr_nowhere (u := .used) (by simp) (fun a => (hno a).1) fun m t =>
      (Element.mk tag sels (a1 ++ m ++ a2) args cs).Means true t
  | spreads =>
    exact attr_nowhere (u := .used) (by simp) (fun a => (hno a).2) fun m t =>
      (Element.mk tag sels (a1 ++ m ++ a2) args cs).Means true t
  | calls =>
    refine .out (ι := List Toks × List Call × Toks × List Call × List Call × List Toks)
      (P := fun ⟨nodes, calls, pt, x, y, cl⟩ => sels = [] ∧ entries a1 ++ entries a2 = [] ∧ ChildrenCode cs nodes calls ∧
        p.means = some pt ∧ (kvs a1).mapM KvAttr.onComponent = some x ∧ (kvs a2).mapM KvAttr.onComponent = some y ∧
        (clones a1 ++ clones a2).mapM Directive.cloneStmt = some cl)
      (F := fun ⟨nodes, calls, pt, x, y, cl⟩ c => slotCode pt (chain x ++ (c ++ (chain y ++
          (chain (childrenCall args cl.flatten nodes) ++ chain [⟨plain c!"build", []⟩])))))
      OnePlace.code (fun ⟨nodes, calls, pt, x, y, cl⟩ _ => gap_slotCode _ (by gap)) fun m t => ?_
    simp only [hmeans, slotMeans_code, AttrPlace.use, Use.Code, calls_code hc m.2, happ,
      entries_other hc (hother (by decide) m), clones_other hc (hother (by decide) m), List.nil_append,
      mapM_append_some (f := KvAttr.onComponent)]
    constructor
    · rintro ⟨nodes, calls, hn, g1, g2, pt, _, cl, h1, ⟨x, _, h2, ⟨r, y, h3, h4, rfl⟩, rfl⟩, h6, rfl⟩
      exact ⟨⟨nodes, calls, pt, x, y, cl⟩, _, ⟨g1, g2, hn, h1, h2, h4, h6⟩, ⟨r, h3, rfl⟩,
        by simp only [chain_append, List.append_assoc]⟩
    · rintro ⟨⟨nodes, calls, pt, x, y, cl⟩, _, ⟨g1, g2, hn, h1, h2, h4, h6⟩, ⟨r, h3, rfl⟩, rfl⟩
      exact ⟨nodes, calls, hn, g1, g2, pt, _, cl, h1, ⟨x, _, h2, ⟨r, y, h3, h4, rfl⟩, rfl⟩, h6,
        by simp only [chain_append, List.append_assoc]⟩
  | entries =>
    refine .empty (E := fun m => m.1 = []) (P := fun t => (Element.mk tag sels (a1 ++ a2) args cs).Means true t) (fun m t => ?_)
      fun m t => ?_
    · simp only [AttrPlace.use, Use.Code]
      obtain ⟨m, hm⟩ := m
      cases m with
      | nil => simp [attrsCode_nil]
      | cons a as =>
        have hn : Attr.codeOn true tag a = none := by
          have := hm a (.head _)
          subst hc
          cases a with
          | kv a => cases this
          | directive d =>
            simp only [Attr.place] at this
            split at this
            · cases this
            · rename_i hd; simp [Attr.codeOn, hd]
          | spread e => rfl
        simp [AttrsCode, List.mapM_cons, hn]
    · obtain ⟨m, hm⟩ := m
      cases m with
      | nil => simp
      | cons a as =>
        have he : entries (a :: as) ≠ [] := by
          have := hm a (.head _)
          subst hc
          cases a with
          | kv a => cases this
          | directive d =>
            simp only [Attr.place] at this
            split at this
            · cases this
            · rename_i hd; simp [entries, hd]
          | spread e => simp [entries]
        constructor
        · intro h
          rw [hmeans] at h
          obtain ⟨nodes, calls, -, h⟩ := h
          have := (slotMeans_code.mp h).2.1
          rw [(happ _).2.1] at this
          simp only [List.append_eq_nil_iff] at this
          exact absurd this.2.1 he
        · rintro ⟨h, -⟩; cases h
  | clones =>
    by_cases hs : (cs.getD []).all Child.isSlot = true
    · simp only [AttrPlace.use, if_pos hs]
      refine .unused (P := fun t => ∃ calls pt as x y, sels = [] ∧ entries a1 ++ entries a2 = [] ∧ ChildrenCode cs [] calls ∧
        p.means = some pt ∧ (kvs a1 ++ kvs a2).mapM KvAttr.onComponent = some as ∧
        (clones a1).mapM Directive.cloneStmt = some x ∧ (clones a2).mapM Directive.cloneStmt = some y ∧
        t = slotCode pt (chain as ++ chain [⟨plain c!"build", []⟩])) OnePlace.code fun m t => ?_
      simp only [hmeans, slotMeans_code, clones_code hc m.2, happ, kvs_other (hother (by decide) m),
        entries_other hc (hother (by decide) m), List.nil_append, mapM_append_some (f := Directive.cloneStmt)]
      constructor
      · rintro ⟨nodes, calls, hn, g1, g2, pt, as, _, h1, h2, ⟨x, _, h4, ⟨r, y, h5, h6, rfl⟩, rfl⟩, rfl⟩
        obtain rfl := (inner_nodes hn).mpr hs
        exact ⟨⟨_, r, h5, rfl⟩, calls, pt, as, x, y, g1, g2, hn, h1, h2, h4, h6, rfl⟩
      · rintro ⟨⟨_, r, h5, rfl⟩, calls, pt, as, x, y, g1, g2, hn, h1, h2, h4, h6, rfl⟩
        exact ⟨[], calls, hn, g1, g2, pt, as, _, h1, h2, ⟨x, _, h4, ⟨r, y, h5, h6, rfl⟩, rfl⟩, rfl⟩
    · simp only [AttrPlace.use, if_neg hs]
      refine .out (ι := List Toks × List Call × Toks × List Call × List Toks × List Toks)
        (P := fun ⟨nodes, calls, pt, as, x, y⟩ => sels = [] ∧ entries a1 ++ entries a2 = [] ∧ ChildrenCode cs nodes calls ∧
          p.means = some pt ∧ (kvs a1 ++ kvs a2).mapM KvAttr.onComponent = some as ∧
          (clones a1).mapM Directive.cloneStmt = some x ∧ (clones a2).mapM Directive.cloneStmt = some y)
        (F := fun ⟨nodes, calls, pt, as, x, y⟩ c => slotCode pt (chain as ++
            (chain (childrenCall args (x.flatten ++ (c ++ y.flatten)) nodes) ++ chain [⟨plain c!"build", []⟩])))
        OnePlace.code (fun ⟨nodes, calls, pt, as, x, y⟩ hi => gap_slotCode _ ?_) fun m t => ?_
      · have := gap_childrenClones args x.flatten y.flatten nodes fun h => hs ((inner_nodes hi.2.2.1).mp h)
        gap
      simp only [hmeans, slotMeans_code, Use.Code, clones_code hc m.2, happ, kvs_other (hother (by decide) m),
        entries_other hc (hother (by decide) m), List.nil_append, mapM_append_some (f := Directive.cloneStmt)]
      constructor
      · rintro ⟨nodes, calls, hn, g1, g2, pt, as, _, h1, h2, ⟨x, _, h4, ⟨r, y, h5, h6, rfl⟩, rfl⟩, rfl⟩
        exact ⟨⟨nodes, calls, pt, as, x, y⟩, _, ⟨g1, g2, hn, h1, h2, h4, h6⟩, ⟨r, h5, rfl⟩, by simp only [List.flatten_append]⟩
      · rintro ⟨⟨nodes, calls, pt, as, x, y⟩, _, ⟨g1, g2, hn, h1, h2, h4, h6⟩, ⟨r, h5, rfl⟩, rfl⟩
        exact ⟨nodes, calls, hn, g1, g2, pt, as, _, h1, h2, ⟨x, _, h4, ⟨r, y, h5, h6, rfl⟩, rfl⟩, by simp only [List.flatten_append]⟩

/-- The code for an element with attributes of one kind in the middle. -/
theorem element_attr (asSlot : Bool) (tag : Tag) (k : AttrPlace) (sels : List Selector) (a1 a2 : List Attr)
    (args : Option Toks) (cs : Option (List Child)) :
    OnePlace (α := AttrsAt tag k) (fun m t => (k.use cs).Code (fun m t => AttrsCode asSlot tag m.1 t) m t)
      fun m t => (Element.mk tag sels (a1 ++ m.1 ++ a2) args cs).Means asSlot t := by
  by_cases hc : ∃ p, tag = .component p
  · obtain ⟨p, hc⟩ := hc
    cases asSlot with
    | false => exact element_attr_component hc k sels a1 a2 args cs
    | true => exact element_attr_slot hc k sels a1 a2 args cs
  · have hc : ∀ p, tag ≠ .component p := fun p h => hc ⟨p, h⟩
    cases asSlot with
    | false => exact element_attr_element hc k sels a1 a2 args cs
    | true => exact .never fun m t => element_not_slot hc

/-! ### anywhere -/

/-- The code for an input with an element with something open. -/
theorem root_element {α : Type} {C : α → Toks → Prop} (T : TreeGap) (before : List Child) (isSlot : Bool)
    {el : α → Element} (after : List Child) {name : Option Ident} (hname : ∀ a, (el a).slotName = name)
    (h : OnePlace C fun a t => (el a).Means isSlot t) :
    OnePlace (fun a t => (T.use isSlot).Code C a t) fun a t =>
      RootMeans (T.fill (before ++ asChild isSlot (el a) :: after)) t := by
  cases T with
  | here =>
    cases isSlot with
    | false => exact root_child before after h
    | true => exact .never fun a t => root_slot
  | elem b s tag sels attrs args inner a =>
    have h0 := root_block (T := .elem b s tag sels attrs args inner a) (by simp)
    obtain ⟨around, h0⟩ := h0
    exact .out (ι := CodeGap) (P := around) (F := fun G x => G.fill x)
      (child_block _ before isSlot after hname h) (fun G _ => ⟨G, fun x => rfl⟩) fun a t => h0 _ t

end Mview
