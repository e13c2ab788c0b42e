import Mathlib.Data.List.Forall2
import Verif.Spec.Places
import Verif.Lemmas.MeaningRoot
import Verif.Props.Safety
/-
Whole-macro statements: an accepted input is its meaning, and every part of the tree
can be found in the output.
-/

namespace Mview
open Lex

theorem Occurs.refl (x : Toks) : Occurs x x := by simpa using Occurs.here (x := x) [] []

theorem Occurs.append_left {x a : Toks} (h : Occurs x a) (b : Toks) : Occurs x (a ++ b) := by
  cases h with
  | here pre post => simpa using Occurs.here pre (post ++ b)
  | inside pre d post h => simpa using Occurs.inside pre d (post ++ b) h

theorem Occurs.append_right {x b : Toks} (a : Toks) (h : Occurs x b) : Occurs x (a ++ b) := by
  cases h with
  | here pre post => simpa using Occurs.here (a ++ pre) post
  | inside pre d post h => simpa using Occurs.inside (a ++ pre) d post h

theorem Occurs.cons {x b : Toks} (t : TT) (h : Occurs x b) : Occurs x (t :: b) :=
  h.append_right [t]

theorem Occurs.group {x b : Toks} (d : Delim) (post : Toks) (h : Occurs x b) :
    Occurs x (.group d b :: post) := Occurs.inside [] d post h

theorem Occurs.trans {x y z : Toks} (h : Occurs x y) (h' : Occurs y z) : Occurs x z := by
  induction h' with
  | here pre post => simpa using (h.append_right pre).append_left post
  | inside pre d post _ ih => exact .inside pre d post ih

theorem Occurs.prefix {a b z : Toks} (h : Occurs (a ++ b) z) : Occurs a z :=
  ((Occurs.refl a).append_left b).trans h

theorem occurs_chain {c : Call} {cs : List Call} (h : c ∈ cs) :
    Occurs (chain [c]) (chain cs) := by
  induction cs with
  | nil => simp at h
  | cons c' cs ih =>
    rcases List.mem_cons.mp h with rfl | h
    · have : chain [c] ++ chain cs = chain (c :: cs) := by rw [← chain_append]; rfl
      rw [← this]; exact (Occurs.refl _).append_left _
    · have : chain [c'] ++ chain cs = chain (c' :: cs) := by rw [← chain_append]; rfl
      rw [← this]; exact (ih h).append_right _

theorem chain_singleton (c : Call) :
    chain [c] = [.punct '.' .alone, .ident c.name, .group .paren c.args] := by
  simp [chain]

theorem occurs_call_args (c : Call) : Occurs c.args (chain [c]) := by
  rw [chain_singleton]
  exact (((Occurs.refl _).group _ _).cons _).cons _

theorem occurs_commaAfter {x : Toks} {xs : List Toks} (h : x ∈ xs) :
    Occurs x (commaAfter xs) := by
  induction xs with
  | nil => simp at h
  | cons y ys ih =>
    simp only [commaAfter, splice_toks]
    rcases List.mem_cons.mp h with rfl | h
    · exact (Occurs.refl _).append_left _
    · exact ((ih h).append_right _).append_right _

theorem occurs_commaBetween {x : Toks} {xs : List Toks} (h : x ∈ xs) :
    Occurs x (commaBetween xs) := by
  induction xs with
  | nil => simp at h
  | cons y ys ih =>
    cases ys with
    | nil => simp at h; subst h; exact Occurs.refl _
    | cons z ys =>
      simp only [commaBetween, splice_toks]
      rcases List.mem_cons.mp h with rfl | h
      · exact (Occurs.refl _).append_left _
      · exact ((ih h).append_right _).append_right _

theorem occurs_viewOf {x : Toks} {xs : List Toks} (h : x ∈ xs) : Occurs x (viewOf xs) := by
  simp only [viewOf, splice_toks]
  exact Occurs.inside [_, _, _, _, _, _, _, _, _, _, _, _] _ []
    (Occurs.inside [] _ [] (occurs_commaAfter h))

theorem occurs_rendered (t : Toks) : Occurs t (rendered t) := by
  simp only [rendered, splice_toks]
  exact Occurs.inside [_, _, _, _, _, _, _, _, _, _, _, _] _ [] (Occurs.refl t)

theorem occurs_slotArg {x : Toks} {xs : List Toks} (h : x ∈ xs) : Occurs x (slotArg xs) := by
  unfold slotArg
  split
  · simp at h; subst h; exact Occurs.refl _
  · simp only [splice_toks]
    refine Occurs.inside [_, _, _, _, _, _] _ [] (Occurs.inside [_, _, _, _, _, _, _, _, _, _, _, _] _ [] ?_)
    exact Occurs.inside [] _ [] (occurs_commaBetween h)

/-! ### nodes and slots of a tree -/

theorem child_means_value {v : Value} {t : Toks} :
    (Child.value v).Means t ↔ ∃ x, v.means = some x ∧ t = rendered x := Iff.rfl

theorem child_means_elem {e : Element} {t : Toks} :
    (Child.elem e).Means t ↔ ∃ x, e.Means false x ∧ t = rendered x := Iff.rfl

/-- `NodesMean` is pointwise. -/
theorem nodesMean_iff {cs : List Child} {ts : List Toks} :
    NodesMean cs ts ↔ List.Forall₂ Child.Means (cs.filter fun c => !c.isSlot) ts := by
  induction cs generalizing ts with
  | nil => rw [NodesMean]; simp
  | cons c cs ih =>
    cases c with
    | value v =>
      rw [NodesMean]
      simp only [Child.isSlot, Bool.not_false, List.filter_cons_of_pos, List.forall₂_cons_left_iff, ih,
        child_means_value]
      constructor
      · rintro ⟨t, ts', h1, h2, rfl⟩; exact ⟨_, _, ⟨t, h1, rfl⟩, h2, rfl⟩
      · rintro ⟨_, ts', ⟨t, h1, rfl⟩, h2, rfl⟩; exact ⟨t, ts', h1, h2, rfl⟩
    | elem e =>
      rw [NodesMean]
      simp only [Child.isSlot, Bool.not_false, List.filter_cons_of_pos, List.forall₂_cons_left_iff, ih,
        child_means_elem]
      constructor
      · rintro ⟨t, ts', h1, h2, rfl⟩; exact ⟨_, _, ⟨t, h1, rfl⟩, h2, rfl⟩
      · rintro ⟨_, ts', ⟨t, h1, rfl⟩, h2, rfl⟩; exact ⟨t, ts', h1, h2, rfl⟩
    | slot e =>
      rw [NodesMean]
      simp only [Child.isSlot, Bool.not_true, Bool.false_eq_true, not_false_iff,
        List.filter_cons_of_neg, ih]

/-- `SlotsMean` is pointwise. -/
theorem slotsMean_iff {cs : List Child} {ts : List (Ident × Toks)} :
    SlotsMean cs ts ↔ List.Forall₂ (fun e p => e.slotName = some p.1 ∧ e.Means true p.2)
      (cs.filterMap fun | .slot e => some e | _ => none) ts := by
  induction cs generalizing ts with
  | nil => rw [SlotsMean]; simp
  | cons c cs ih =>
    cases c with
    | value v => rw [SlotsMean, ih]; simp
    | elem e => rw [SlotsMean, ih]; simp
    | slot e =>
      rw [slotsMean_slot, List.filterMap_cons_some (a := Child.slot e) (b := e) rfl,
        List.forall₂_cons_left_iff]
      simp only [ih]
      constructor
      · rintro ⟨n, hn, t, ts', h1, h2, rfl⟩
        exact ⟨(n, t), ts', ⟨by simp [Element.slotName, hn], h1⟩, h2, rfl⟩
      · rintro ⟨⟨n, t⟩, ts', ⟨hn, h1⟩, h2, rfl⟩
        refine ⟨n, ?_, t, ts', h1, h2, rfl⟩
        unfold Element.slotName at hn
        split at hn
        · rename_i n' he; rw [he]; simp at hn; rw [hn]
        · simp at hn

theorem forall₂_left {α β : Type} {R : α → β → Prop} {l : List α} {l' : List β}
    (h : List.Forall₂ R l l') {a : α} (ha : a ∈ l) : ∃ b ∈ l', R a b := by
  induction h with
  | nil => simp at ha
  | cons h1 _ ih =>
    rcases List.mem_cons.mp ha with rfl | ha
    · exact ⟨_, by simp, h1⟩
    · obtain ⟨b, hb, hr⟩ := ih ha; exact ⟨b, by simp [hb], hr⟩

theorem nodesMean_mem {cs : List Child} {ts : List Toks} (h : NodesMean cs ts) {c : Child}
    (hc : c ∈ cs) (hs : c.isSlot = false) : ∃ t ∈ ts, c.Means t :=
  forall₂_left (nodesMean_iff.mp h) (List.mem_filter.mpr ⟨hc, by simp [hs]⟩)

theorem slotsMean_mem {cs : List Child} {ts : List (Ident × Toks)} (h : SlotsMean cs ts)
    {e : Element} (hc : .slot e ∈ cs) :
    ∃ p ∈ ts, e.slotName = some p.1 ∧ e.Means true p.2 :=
  forall₂_left (slotsMean_iff.mp h) (List.mem_filterMap.mpr ⟨_, hc, rfl⟩)

/-! ### parts of an element occur in its code -/

theorem bind_guard {α : Type} {p : Prop} [Decidable p] {f : Option α} {a : α}
    (h : (guard p >>= fun _ => f) = some a) : p ∧ f = some a := by
  by_cases hp : p
  · exact ⟨hp, by simpa [guard, hp] using h⟩
  · simp [guard, hp] at h

theorem xmlMeans_some {tag : Tag} {sels : List Selector} {attrs : List Attr} {nodes : List Toks}
    {t : Toks} : xmlMeans tag sels attrs nodes = some t ↔
    ∃ head as ds, tag.head = some head ∧ (kvs attrs).mapM (KvAttr.onElement tag.kind) = some as ∧
      (directives attrs).mapM Directive.onElement = some ds ∧
      t = head ++ chain (as ++ ds ++ (classes sels).map classCall ++ (ids sels).map idCall ++
        (spreads attrs).map spreadCall ++ nodes.map childCall) := by
  unfold xmlMeans
  simp only [Option.bind_eq_bind, Option.bind_eq_some_iff, Option.pure_def, Option.some.injEq,
    splice_toks]
  constructor
  · rintro ⟨head, h1, as, h2, ds, h3, rfl⟩; exact ⟨head, as, ds, h1, h2, h3, rfl⟩
  · rintro ⟨head, as, ds, h1, h2, h3, rfl⟩; exact ⟨head, h1, as, h2, ds, h3, rfl⟩

theorem componentMeans_some {path : Path} {sels : List Selector} {attrs : List Attr}
    {args : Option Toks} {nodes : List Toks} {calls : List Call} {t : Toks} :
    componentMeans path sels attrs args nodes calls = some t ↔
    ∃ p as es cl, path.means = some p ∧ (kvs attrs).mapM KvAttr.onComponent = some as ∧
      (entries attrs).mapM Attr.entry = some es ∧
      (clones attrs).mapM Directive.cloneStmt = some cl ∧
      ∃ cs, cs = chain (as ++ childrenCall args cl.flatten nodes ++ calls ++
          [⟨plain c!"build", []⟩]) ∧
      ∃ en, en = commaAfter ((classes sels).map classEntry ++ idEntry (ids sels) ++ es) ∧
      t = q!"#[allow(unreachable_code)] ::leptos::prelude::View::new(
        ::leptos::component::component_view(& #p,
          ::leptos::component::component_props_builder(& #p) #cs
        ).add_any_attr((#en)))" := by
  unfold componentMeans
  simp only [Option.bind_eq_bind, Option.bind_eq_some_iff, Option.pure_def, Option.some.injEq,
    splice_toks]
  constructor
  · rintro ⟨p, h1, as, h2, es, h3, cl, h4, rfl⟩
    exact ⟨p, as, es, cl, h1, h2, h3, h4, _, rfl, _, rfl, rfl⟩
  · rintro ⟨p, as, es, cl, h1, h2, h3, h4, _, rfl, _, rfl, rfl⟩
    exact ⟨p, h1, as, h2, es, h3, cl, h4, rfl⟩

theorem slotMeans_some {path : Path} {sels : List Selector} {attrs : List Attr}
    {args : Option Toks} {nodes : List Toks} {t : Toks} :
    slotMeans path sels attrs args nodes = some t ↔
    sels = [] ∧ entries attrs = [] ∧
    ∃ p as cl, path.means = some p ∧ (kvs attrs).mapM KvAttr.onComponent = some as ∧
      (clones attrs).mapM Directive.cloneStmt = some cl ∧
      ∃ cs, cs = chain (as ++ childrenCall args cl.flatten nodes ++ [⟨plain c!"build", []⟩]) ∧
      t = q!"::std::convert::Into::into(#p ::builder() #cs)" := by
  unfold slotMeans
  by_cases hg : sels = [] ∧ entries attrs = []
  · obtain ⟨rfl, he⟩ := hg
    simp only [he, and_self, guard_true', Option.bind_eq_bind, Option.bind_some,
      Option.bind_eq_some_iff, Option.pure_def, Option.some.injEq, splice_toks, true_and]
    constructor
    · rintro ⟨p, h1, as, h2, cl, h4, rfl⟩
      exact ⟨p, as, cl, h1, h2, h4, _, rfl, rfl⟩
    · rintro ⟨p, as, cl, h1, h2, h4, _, rfl, rfl⟩
      exact ⟨p, h1, as, h2, cl, h4, rfl⟩
  · simp only [hg, guard_false']
    constructor
    · intro h; simp at h
    · rintro ⟨h1, h2, _⟩; exact absurd ⟨h1, h2⟩ hg

theorem chain_occurs_xml {tag : Tag} {sels : List Selector} {attrs : List Attr} {nodes : List Toks}
    {t : Toks} (h : xmlMeans tag sels attrs nodes = some t) {x : Toks} (hx : x ∈ nodes) :
    Occurs x t := by
  obtain ⟨head, as, ds, _, _, _, rfl⟩ := xmlMeans_some.mp h
  refine Occurs.append_right _ (Occurs.trans (occurs_call_args (childCall x)) (occurs_chain ?_))
  simp only [List.mem_append, List.mem_map]
  exact Or.inr ⟨x, hx, rfl⟩

theorem occurs_childrenCall {args : Option Toks} {cl : Toks} {nodes : List Toks} {x : Toks}
    (hx : x ∈ nodes) : ∃ c, childrenCall args cl nodes = [c] ∧ Occurs (viewOf nodes) c.args := by
  unfold childrenCall
  have hne : nodes ≠ [] := by rintro rfl; simp at hx
  simp only [if_neg hne]
  cases args with
  | some a =>
    refine ⟨_, rfl, ?_⟩
    simp only [splice_toks]
    refine Occurs.inside [] _ [] (Occurs.append_right _ ?_)
    exact Occurs.append_right [_] (Occurs.append_right _ (Occurs.refl _))
  | none =>
    refine ⟨_, rfl, ?_⟩
    simp only [splice_toks]
    refine Occurs.inside [] _ [] (Occurs.append_right _ ?_)
    exact Occurs.inside [_, _, _, _, _, _, _, _, _, _, _, _] _ []
      (Occurs.append_right [_, _, _] (Occurs.refl _))

theorem call_occurs_component {path : Path} {sels : List Selector} {attrs : List Attr}
    {args : Option Toks} {nodes : List Toks} {calls : List Call} {t : Toks}
    (h : componentMeans path sels attrs args nodes calls = some t) :
    ∃ as cl, (kvs attrs).mapM KvAttr.onComponent = some as ∧
      (clones attrs).mapM Directive.cloneStmt = some cl ∧
      Occurs (chain (as ++ childrenCall args cl.flatten nodes ++ calls ++
          [⟨plain c!"build", []⟩])) t := by
  obtain ⟨p, as, es, cl, _, h2, _, h4, cs, rfl, en, rfl, rfl⟩ := componentMeans_some.mp h
  refine ⟨as, cl, h2, h4, ?_⟩
  simp only [splice_toks]
  refine Occurs.inside [_, _, _, _, _, _, _, _, _, _, _, _, _, _] _ [] ?_
  refine Occurs.inside [_, _, _, _, _, _, _, _, _] _ _ ?_
  refine Occurs.append_right [_] (Occurs.append_right _ ?_)
  exact Occurs.append_right [_, _, _, _, _, _, _, _, _, _, _] (Occurs.refl _)

theorem node_occurs_component {path : Path} {sels : List Selector} {attrs : List Attr}
    {args : Option Toks} {nodes : List Toks} {calls : List Call} {t : Toks}
    (h : componentMeans path sels attrs args nodes calls = some t) {x : Toks} (hx : x ∈ nodes) :
    Occurs x t := by
  obtain ⟨as, cl, _, _, ho⟩ := call_occurs_component h
  obtain ⟨c, hc, hv⟩ := occurs_childrenCall (args := args) (cl := cl.flatten) hx
  refine Occurs.trans (Occurs.trans (occurs_viewOf hx) hv) ?_
  refine Occurs.trans (occurs_call_args c) (Occurs.trans (occurs_chain ?_) ho)
  simp [hc]

theorem slotcall_occurs_component {path : Path} {sels : List Selector} {attrs : List Attr}
    {args : Option Toks} {nodes : List Toks} {calls : List Call} {t : Toks}
    (h : componentMeans path sels attrs args nodes calls = some t) {c : Call} (hc : c ∈ calls) :
    Occurs (chain [c]) t := by
  obtain ⟨as, cl, _, _, ho⟩ := call_occurs_component h
  refine Occurs.trans (occurs_chain ?_) ho
  simp [hc]

theorem chain_occurs_slot {path : Path} {sels : List Selector} {attrs : List Attr}
    {args : Option Toks} {nodes : List Toks} {t : Toks}
    (h : slotMeans path sels attrs args nodes = some t) :
    ∃ as cl, (kvs attrs).mapM KvAttr.onComponent = some as ∧
      (clones attrs).mapM Directive.cloneStmt = some cl ∧
      Occurs (chain (as ++ childrenCall args cl.flatten nodes ++ [⟨plain c!"build", []⟩])) t := by
  obtain ⟨_, _, p, as, cl, _, h2, h4, cs, rfl, rfl⟩ := slotMeans_some.mp h
  refine ⟨as, cl, h2, h4, ?_⟩
  simp only [splice_toks]
  refine Occurs.inside [_, _, _, _, _, _, _, _, _, _, _, _] _ [] ?_
  exact Occurs.append_right _ (Occurs.append_right [_, _, _, _] (Occurs.refl _))

theorem node_occurs_slot {path : Path} {sels : List Selector} {attrs : List Attr}
    {args : Option Toks} {nodes : List Toks} {t : Toks}
    (h : slotMeans path sels attrs args nodes = some t) {x : Toks} (hx : x ∈ nodes) :
    Occurs x t := by
  obtain ⟨as, cl, _, _, ho⟩ := chain_occurs_slot h
  obtain ⟨c, hc, hv⟩ := occurs_childrenCall (args := args) (cl := cl.flatten) hx
  refine Occurs.trans (Occurs.trans (occurs_viewOf hx) hv) ?_
  refine Occurs.trans (occurs_call_args c) (Occurs.trans (occurs_chain ?_) ho)
  simp [hc]

/-! ### every part of the tree -/

theorem means_some_xml {tag : Tag} {sels : List Selector} {attrs : List Attr}
    {args : Option Toks} {cs : Option (List Child)} {t : Toks} (hk : ∀ p, tag ≠ .component p)
    (h : (Element.mk tag sels attrs args cs).Means false t) :
    ∃ nodes, NodesMean (cs.getD []) nodes ∧ xmlMeans tag sels attrs nodes = some t := by
  cases cs with
  | none =>
    unfold Element.Means at h
    refine ⟨[], by rw [Option.getD_none, NodesMean], ?_⟩
    cases tag with
    | component p => exact absurd rfl (hk p)
    | _ => exact h
  | some cs =>
    unfold Element.Means at h
    cases tag with
    | component p => exact absurd rfl (hk p)
    | _ => exact h

theorem means_some_component {p : Path} {sels : List Selector} {attrs : List Attr}
    {args : Option Toks} {cs : Option (List Child)} {t : Toks}
    (h : (Element.mk (.component p) sels attrs args cs).Means false t) :
    ∃ nodes slots calls, NodesMean (cs.getD []) nodes ∧ SlotsMean (cs.getD []) slots ∧
      SlotCalls slots calls ∧ componentMeans p sels attrs args nodes calls = some t := by
  cases cs with
  | none =>
    unfold Element.Means at h
    refine ⟨[], [], [], by rw [Option.getD_none, NodesMean], by rw [Option.getD_none, SlotsMean],
      ⟨[], by simp, by simp, rfl⟩, h⟩
  | some cs =>
    unfold Element.Means at h
    exact h

theorem means_some_slot {tag : Tag} {sels : List Selector} {attrs : List Attr}
    {args : Option Toks} {cs : Option (List Child)} {t : Toks}
    (h : (Element.mk tag sels attrs args cs).Means true t) :
    ∃ p, tag = .component p ∧ ∃ nodes slots calls, NodesMean (cs.getD []) nodes ∧
      SlotsMean (cs.getD []) slots ∧
      SlotCalls slots calls ∧ slotMeans p sels attrs args nodes = some t := by
  cases cs with
  | none =>
    unfold Element.Means at h
    cases tag with
    | component p =>
      refine ⟨p, rfl, [], [], [], by rw [Option.getD_none, NodesMean],
        by rw [Option.getD_none, SlotsMean], ⟨[], by simp, by simp, rfl⟩, h⟩
    | _ => exact h.elim
  | some cs =>
    unfold Element.Means at h
    cases tag with
    | component p => exact ⟨p, rfl, h⟩
    | _ => exact h.elim

/-- the children of an element that means something mean something, and occur in it -/
theorem means_nodes {b : Bool} {tag : Tag} {sels : List Selector} {attrs : List Attr}
    {args : Option Toks} {cs : Option (List Child)} {t : Toks}
    (h : (Element.mk tag sels attrs args cs).Means b t) :
    ∃ nodes, NodesMean (cs.getD []) nodes ∧ ∀ x ∈ nodes, Occurs x t := by
  cases b with
  | true =>
    obtain ⟨p, rfl, nodes, _, _, h1, _, _, h4⟩ := means_some_slot h
    exact ⟨nodes, h1, fun x hx => node_occurs_slot h4 hx⟩
  | false =>
    by_cases hk : ∀ p, tag ≠ .component p
    · obtain ⟨nodes, h1, h2⟩ := means_some_xml hk h
      exact ⟨nodes, h1, fun x hx => chain_occurs_xml h2 hx⟩
    · simp only [not_forall, not_not] at hk
      obtain ⟨p, rfl⟩ := hk
      obtain ⟨nodes, _, _, h1, _, _, h4⟩ := means_some_component h
      exact ⟨nodes, h1, fun x hx => node_occurs_component h4 hx⟩

theorem mapM_some_mem {α β : Type} {f : α → Option β} {l : List α} {l' : List β}
    (h : l.mapM f = some l') {a : α} (ha : a ∈ l) : ∃ b ∈ l', f a = some b := by
  induction l generalizing l' with
  | nil => simp at ha
  | cons x xs ih =>
    rw [List.mapM_cons] at h
    simp only [Option.bind_eq_bind, Option.bind_eq_some_iff, Option.pure_def,
      Option.some.injEq] at h
    obtain ⟨b, hb, bs, hbs, rfl⟩ := h
    rcases List.mem_cons.mp ha with rfl | ha
    · exact ⟨b, by simp, hb⟩
    · obtain ⟨b', h1, h2⟩ := ih hbs ha; exact ⟨b', by simp [h1], h2⟩

theorem mapM_some_forall₂ {α β : Type} {f : α → Option β} {l : List α} {l' : List β} :
    l.mapM f = some l' ↔ List.Forall₂ (fun a b => f a = some b) l l' := by
  induction l generalizing l' with
  | nil => simp [eq_comm]
  | cons x xs ih =>
    rw [List.mapM_cons, List.forall₂_cons_left_iff]
    simp only [Option.bind_eq_bind, Option.bind_eq_some_iff, Option.pure_def,
      Option.some.injEq, ih]
    constructor
    · rintro ⟨b, hb, bs, hbs, rfl⟩; exact ⟨b, bs, hb, hbs, rfl⟩
    · rintro ⟨b, bs, hb, hbs, rfl⟩; exact ⟨b, hb, bs, hbs, rfl⟩

/-- every slot given to `SlotCalls` occurs in one of the calls -/
theorem slotCalls_occurs {slots : List (Ident × Toks)} {calls : List Call}
    (h : SlotCalls slots calls) {p : Ident × Toks} (hp : p ∈ slots) :
    ∃ c ∈ calls, Occurs p.2 c.args := by
  obtain ⟨names, _, hmem, hm⟩ := h
  obtain ⟨c, hc, he⟩ := mapM_some_mem hm ((hmem p.1).mpr (List.mem_map_of_mem hp))
  simp only [Option.bind_eq_bind, Option.bind_eq_some_iff, Option.pure_def,
    Option.some.injEq] at he
  obtain ⟨m, _, rfl⟩ := he
  refine ⟨_, hc, occurs_slotArg ?_⟩
  exact List.mem_map_of_mem (List.mem_filter.mpr ⟨hp, by simp⟩)

/-- the nodes of the root occur in the output -/
theorem rootMeans_nodes {root : List Child} {out : Toks} (h : RootMeans root out) :
    ∃ nodes, NodesMean root nodes ∧ ∀ x ∈ nodes, Occurs x out := by
  obtain ⟨_, nodes, hn, hm⟩ := h
  refine ⟨nodes, hn, ?_⟩
  intro x hx
  split at hm
  · simp only [splice_toks] at hm
    simp only [List.mem_singleton] at hx
    subst hm hx
    exact Occurs.inside [] _ [] (Occurs.append_right _ (Occurs.refl _))
  · simp only [splice_toks] at hm
    subst hm
    exact Occurs.inside [] _ [] (Occurs.append_right _ (occurs_viewOf hx))

/-- Every element and slot the macro looks at has a meaning. -/
theorem reached_means {root : List Child} {out : Toks} (h : RootMeans root out) {b : Bool}
    {e : Element} (hr : Reached root b e) : ∃ t, e.Means b t := by
  induction hr with
  | root he =>
    obtain ⟨nodes, hn, _⟩ := rootMeans_nodes h
    obtain ⟨t, _, x, hx, _⟩ := nodesMean_mem hn he rfl
    exact ⟨x, hx⟩
  | child _ he ih =>
    obtain ⟨t, ht⟩ := ih
    obtain ⟨nodes, hn, _⟩ := means_nodes ht
    obtain ⟨t, _, x, hx, _⟩ := nodesMean_mem hn he rfl
    exact ⟨x, hx⟩
  | @slot b _ _ _ _ _ _ _ he _ ih =>
    obtain ⟨t, ht⟩ := ih
    cases b with
    | true =>
      obtain ⟨p, _, _, slots, _, _, hs, _⟩ := means_some_slot ht
      obtain ⟨q, _, _, hm⟩ := slotsMean_mem hs he
      exact ⟨_, hm⟩
    | false =>
      obtain ⟨_, slots, _, _, hs, _⟩ := means_some_component ht
      obtain ⟨q, _, _, hm⟩ := slotsMean_mem hs he
      exact ⟨_, hm⟩

/-- Every element and slot that takes part in the output is there. -/
theorem placed_means {root : List Child} {out : Toks} (h : RootMeans root out) {b : Bool}
    {e : Element} (hp : Placed root b e) : ∃ t, e.Means b t ∧ Occurs t out := by
  induction hp with
  | root he =>
    obtain ⟨nodes, hn, ho⟩ := rootMeans_nodes h
    obtain ⟨t, ht, x, hx, rfl⟩ := nodesMean_mem hn he rfl
    exact ⟨x, hx, (occurs_rendered x).trans (ho _ ht)⟩
  | child _ he ih =>
    obtain ⟨t', ht', ho'⟩ := ih
    obtain ⟨nodes, hn, ho⟩ := means_nodes ht'
    obtain ⟨t, ht, x, hx, rfl⟩ := nodesMean_mem hn he rfl
    exact ⟨x, hx, ((occurs_rendered x).trans (ho _ ht)).trans ho'⟩
  | slot _ he ih =>
    obtain ⟨t', ht', ho'⟩ := ih
    obtain ⟨nodes, slots, calls, _, hs, hc, hm⟩ := means_some_component ht'
    obtain ⟨q, hq, _, hme⟩ := slotsMean_mem hs he
    obtain ⟨c, hc, hoc⟩ := slotCalls_occurs hc hq
    exact ⟨_, hme, ((hoc.trans (occurs_call_args c)).trans
      (slotcall_occurs_component hm hc)).trans ho'⟩

/-! ### the macro -/

theorem mview_tokens_iff {pp : PathParser} {s : Sched} {ts out : Toks} :
    mview pp s ts = .tokens out ↔
      ∃ root, Parses pp ts root ∧ expandRoot s root = .ret [] out := by
  have ht := parse_total pp ts
  unfold mview mviewImpl Parses
  constructor
  · intro h
    split at h <;> simp at h
    subst h
    rename_i out h
    rcases ht with ⟨ds, cs, he⟩ | ⟨ds, he⟩ | ⟨p, he⟩
    · rw [he, Out.monad_bind] at h
      simp only [Out.bind] at h
      have : ∃ o, expandRoot s cs = o := ⟨_, rfl⟩
      obtain ⟨o, ho⟩ := this
      rw [ho] at h
      cases o <;> simp [Out.tell] at h
      obtain ⟨⟨rfl, rfl⟩, rfl⟩ := h
      exact ⟨cs, he, ho⟩
    · rw [he, Out.monad_bind] at h
      simp [Out.bind] at h
    · rw [he, Out.monad_bind] at h
      simp [Out.bind] at h
  · rintro ⟨root, h1, h2⟩
    rw [h1, Out.monad_bind]
    simp [Out.bind, h2, Out.tell]

theorem parses_ok {pp : PathParser} {ts : Toks} {root : List Child} (h : Parses pp ts root) :
    childrenOk (anyInput pp) root := by
  have := parseChildren_wp (I := anyInput pp) (ts := ts) trivial
  unfold Parses at h
  rw [h] at this
  exact this.1

theorem Parses.unique {pp : PathParser} {ts : Toks} {r r' : List Child} (h : Parses pp ts r)
    (h' : Parses pp ts r') : r = r' := by
  unfold Parses at h h'
  rw [h] at h'
  simpa using h'

end Mview
