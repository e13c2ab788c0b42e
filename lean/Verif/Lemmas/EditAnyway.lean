import Verif.Spec.EditAnyway
import Verif.Lemmas.Edit
import Verif.Lemmas.NightlyTree
/-
C67: the code for the children of an element, in spite of errors.
-/

set_option linter.unusedVariables false

namespace Mview
open Lex

/-- The children only matter for the code in one place. -/
abbrev InOnePlaceAnyway (kind : BlockKind) (R : List Child → Toks → Prop) : Prop :=
  OnePlace (fun cs t => kind.CodeAnyway cs t) R

/-! ### an element among others -/

theorem nodesBecome_append {a b : List Child} {ns : List Toks} :
    NodesBecome (a ++ b) ns ↔ ∃ x y, NodesBecome a x ∧ NodesBecome b y ∧ ns = x ++ y := by
  induction a generalizing ns with
  | nil =>
    constructor
    · intro h; exact ⟨[], ns, by rw [NodesBecome], h, rfl⟩
    · rintro ⟨x, y, hx, hy, rfl⟩
      rw [NodesBecome] at hx
      subst hx
      exact hy
  | cons c a ih =>
    cases c with
    | value v =>
      simp only [List.cons_append]
      rw [NodesBecome]
      constructor
      · rintro ⟨xs, h2, rfl⟩
        obtain ⟨x, y, hx, hy, rfl⟩ := ih.mp h2
        exact ⟨rendered v.anyway :: x, y, by rw [NodesBecome]; exact ⟨x, hx, rfl⟩, hy, rfl⟩
      · rintro ⟨x, y, hx, hy, rfl⟩
        rw [NodesBecome] at hx
        obtain ⟨x, hx, rfl⟩ := hx
        exact ⟨_, ih.mpr ⟨x, y, hx, hy, rfl⟩, rfl⟩
    | elem e =>
      simp only [List.cons_append]
      rw [NodesBecome]
      constructor
      · rintro ⟨t, xs, h1, h2, rfl⟩
        obtain ⟨x, y, hx, hy, rfl⟩ := ih.mp h2
        exact ⟨rendered t :: x, y, by rw [NodesBecome]; exact ⟨t, x, h1, hx, rfl⟩, hy, rfl⟩
      · rintro ⟨x, y, hx, hy, rfl⟩
        rw [NodesBecome] at hx
        obtain ⟨t, x, h1, hx, rfl⟩ := hx
        exact ⟨t, _, h1, ih.mpr ⟨x, y, hx, hy, rfl⟩, rfl⟩
    | slot e =>
      simp only [List.cons_append]
      rw [NodesBecome, ih]
      constructor
      · rintro ⟨x, y, hx, hy, rfl⟩
        exact ⟨x, y, by rw [NodesBecome]; exact hx, hy, rfl⟩
      · rintro ⟨x, y, hx, hy, rfl⟩
        rw [NodesBecome] at hx
        exact ⟨x, y, hx, hy, rfl⟩

theorem slotsBecome_append {a b : List Child} {ss : List (Ident × Toks)} :
    SlotsBecome (a ++ b) ss ↔ ∃ x y, SlotsBecome a x ∧ SlotsBecome b y ∧ ss = x ++ y := by
  induction a generalizing ss with
  | nil =>
    constructor
    · intro h; exact ⟨[], ss, by rw [SlotsBecome], h, rfl⟩
    · rintro ⟨x, y, hx, hy, rfl⟩
      rw [SlotsBecome] at hx
      subst hx
      exact hy
  | cons c a ih =>
    have skip : ∀ {c : Child}, (∀ cs ss, SlotsBecome (c :: cs) ss ↔ SlotsBecome cs ss) →
        (SlotsBecome (c :: a ++ b) ss ↔ ∃ x y, SlotsBecome (c :: a) x ∧ SlotsBecome b y ∧ ss = x ++ y) := by
      intro c hc
      rw [List.cons_append, hc, ih]
      simp only [hc]
    cases c with
    | value v => exact skip fun cs ss => by rw [SlotsBecome]
    | elem e => exact skip fun cs ss => by rw [SlotsBecome]
    | slot e =>
      cases ht : e.tag with
      | component p =>
        cases hp : p.getIdent with
        | none =>
          refine skip fun cs ss => ?_
          rw [slotsBecome_slot, ht]
          simp [hp]
        | some n =>
          have eq : ∀ cs ss, SlotsBecome (.slot e :: cs) ss ↔
              ∃ t ts', e.Becomes true t ∧ SlotsBecome cs ts' ∧ ss = (n, t) :: ts' := by
            intro cs ss
            rw [slotsBecome_slot, ht]
            simp [hp]
          rw [List.cons_append, eq]
          constructor
          · rintro ⟨t, xs, h1, h2, rfl⟩
            obtain ⟨x, y, hx, hy, rfl⟩ := ih.mp h2
            exact ⟨(n, t) :: x, y, (eq _ _).mpr ⟨t, x, h1, hx, rfl⟩, hy, rfl⟩
          · rintro ⟨x, y, hx, hy, rfl⟩
            obtain ⟨t, x, h1, hx', rfl⟩ := (eq _ _).mp hx
            exact ⟨t, _, h1, ih.mpr ⟨x, y, hx', hy, rfl⟩, rfl⟩
      | _ =>
        have eq : ∀ cs ss, ¬ SlotsBecome (.slot e :: cs) ss := by
          intro cs ss
          rw [slotsBecome_slot, ht]
          rintro ⟨p, h, -⟩
          cases h
        constructor
        · intro h; exact absurd h (eq _ _)
        · rintro ⟨x, y, hx, -⟩; exact absurd hx (eq _ _)

theorem nodesBecome_around {before after : List Child} {e : Element} {ns : List Toks} :
    NodesBecome (before ++ .elem e :: after) ns ↔
      ∃ b a t, NodesBecome before b ∧ NodesBecome after a ∧ e.Becomes false t ∧ ns = b ++ rendered t :: a := by
  rw [nodesBecome_append]
  constructor
  · rintro ⟨x, y, hx, hy, rfl⟩
    rw [NodesBecome] at hy
    obtain ⟨t, a, ht, ha, rfl⟩ := hy
    exact ⟨x, a, t, hx, ha, ht, rfl⟩
  · rintro ⟨b, a, t, hb, ha, ht, rfl⟩
    exact ⟨b, _, hb, by rw [NodesBecome]; exact ⟨t, a, ht, ha, rfl⟩, rfl⟩

theorem nodesBecome_around_slot {before after : List Child} {e : Element} {ns : List Toks} :
    NodesBecome (before ++ .slot e :: after) ns ↔ NodesBecome (before ++ after) ns := by
  rw [nodesBecome_append, nodesBecome_append]
  have : ∀ y, NodesBecome (.slot e :: after) y ↔ NodesBecome after y := fun y => by rw [NodesBecome]
  simp only [this]

theorem slotsBecome_around_elem {before after : List Child} {e : Element} {ss : List (Ident × Toks)} :
    SlotsBecome (before ++ .elem e :: after) ss ↔ SlotsBecome (before ++ after) ss := by
  rw [slotsBecome_append, slotsBecome_append]
  have : ∀ y, SlotsBecome (.elem e :: after) y ↔ SlotsBecome after y := fun y => by rw [SlotsBecome]
  simp only [this]

theorem slotsBecome_around_slot {before after : List Child} {e : Element} {ss : List (Ident × Toks)} {n : Ident}
    (hn : e.tag = .component ⟨false, [⟨n, .none⟩]⟩) :
    SlotsBecome (before ++ .slot e :: after) ss ↔
      ∃ b a t, SlotsBecome before b ∧ SlotsBecome after a ∧ e.Becomes true t ∧ ss = b ++ (n, t) :: a := by
  rw [slotsBecome_append]
  have : ∀ y, SlotsBecome (.slot e :: after) y ↔
      ∃ t a, e.Becomes true t ∧ SlotsBecome after a ∧ y = (n, t) :: a := fun y => by rw [SlotsBecome, hn]
  simp only [this]
  constructor
  · rintro ⟨x, _, hx, ⟨t, a, ht, ha, rfl⟩, rfl⟩
    exact ⟨x, a, t, hx, ha, ht, rfl⟩
  · rintro ⟨b, a, t, hb, ha, ht, rfl⟩
    exact ⟨b, _, hb, ⟨t, a, ht, ha, rfl⟩, rfl⟩

theorem slotsBecome_around_path {before after : List Child} {e : Element} {ss : List (Ident × Toks)} {p : Path}
    (hp : e.tag = .component p) (hn : e.tag.isName = false) :
    SlotsBecome (before ++ .slot e :: after) ss ↔ SlotsBecome (before ++ after) ss := by
  rw [slotsBecome_append, slotsBecome_append]
  have : ∀ y, SlotsBecome (.slot e :: after) y ↔ SlotsBecome after y := by
    intro y
    rw [SlotsBecome]
    split
    · rename_i h; rw [h] at hn; cases hn
    · rfl
    · rename_i h; exact absurd hp (h p)
  simp only [this]

theorem slotsBecome_around_other {before after : List Child} {e : Element} {ss : List (Ident × Toks)}
    (hp : ∀ p, e.tag ≠ .component p) : ¬ SlotsBecome (before ++ .slot e :: after) ss := by
  rw [slotsBecome_append]
  rintro ⟨x, y, -, hy, -⟩
  rw [slotsBecome_slot] at hy
  obtain ⟨p, h, -⟩ := hy
  exact hp p h

/-! ### the templates -/

theorem xmlAnyway_some {tag : Tag} {sels : List Selector} {attrs : List Attr} {nodes : List Toks}
    {t : Toks} : xmlAnyway tag sels attrs nodes = some t ↔
    ∃ head as ds, tag.head = some head ∧ (kvs attrs).mapM (KvAttr.onElementAnyway tag.kind) = some as ∧
      (directives attrs).mapM Directive.onElementAnyway = some ds ∧
      t = head ++ chain (as ++ ds.flatten ++ (classes sels).map classCall ++ (ids sels).map idCall ++
        (spreads attrs).map spreadCall ++ nodes.map childCall) := by
  unfold xmlAnyway
  simp only [Option.bind_eq_bind, Option.bind_eq_some_iff, Option.pure_def, Option.some.injEq,
    splice_toks]
  constructor
  · rintro ⟨head, h1, as, h2, ds, h3, rfl⟩; exact ⟨head, as, ds, h1, h2, h3, rfl⟩
  · rintro ⟨head, as, ds, h1, h2, h3, rfl⟩; exact ⟨head, h1, as, h2, ds, h3, rfl⟩

theorem componentAnyway_some {path : Path} {sels : List Selector} {attrs : List Attr}
    {args : Option Toks} {nodes : List Toks} {calls : List Call} {t : Toks} :
    componentAnyway path sels attrs args nodes calls = some t ↔
    ∃ p as es cl, path.means = some p ∧ (kvs attrs).mapM KvAttr.onComponentAnyway = some as ∧
      (entries attrs).mapM Attr.entryAnyway = some es ∧
      (clones attrs).mapM Directive.cloneAnyway = some cl ∧
      ∃ cs, cs = chain (as ++ childrenCall args cl.flatten nodes ++ calls ++
          [⟨plain c!"build", []⟩]) ∧
      ∃ en, en = commaAfter ((classes sels).map classEntry ++ idEntry (ids sels) ++ es.flatten) ∧
      t = q!"#[allow(unreachable_code)] ::leptos::prelude::View::new(
        ::leptos::component::component_view(& #p,
          ::leptos::component::component_props_builder(& #p) #cs
        ).add_any_attr((#en)))" := by
  unfold componentAnyway
  simp only [Option.bind_eq_bind, Option.bind_eq_some_iff, Option.pure_def, Option.some.injEq,
    splice_toks]
  constructor
  · rintro ⟨p, h1, as, h2, es, h3, cl, h4, rfl⟩
    exact ⟨p, as, es, cl, h1, h2, h3, h4, _, rfl, _, rfl, rfl⟩
  · rintro ⟨p, as, es, cl, h1, h2, h3, h4, _, rfl, _, rfl, rfl⟩
    exact ⟨p, h1, as, h2, es, h3, cl, h4, rfl⟩

theorem slotAnyway_some {path : Path} {attrs : List Attr} {args : Option Toks} {nodes : List Toks} {t : Toks} :
    slotAnyway path attrs args nodes = some t ↔
    ∃ p as cl, path.means = some p ∧ (kvs attrs).mapM KvAttr.onComponentAnyway = some as ∧
      (clones attrs).mapM Directive.cloneAnyway = some cl ∧
      ∃ cs, cs = chain (as ++ childrenCall args cl.flatten nodes ++ [⟨plain c!"build", []⟩]) ∧
      t = q!"::std::convert::Into::into(#p ::builder() #cs)" := by
  unfold slotAnyway
  simp only [Option.bind_eq_bind, Option.bind_eq_some_iff, Option.pure_def, Option.some.injEq, splice_toks]
  constructor
  · rintro ⟨p, h1, as, h2, cl, h4, rfl⟩
    exact ⟨p, as, cl, h1, h2, h4, _, rfl, rfl⟩
  · rintro ⟨p, as, cl, h1, h2, h4, _, rfl, rfl⟩
    exact ⟨p, h1, as, h2, cl, h4, rfl⟩

/-! ### inside an element -/

/-- The code for an element, given the code for its children. -/
theorem element_blockAnyway (asSlot : Bool) (tag : Tag) (sels : List Selector) (attrs : List Attr) (args : Option Toks) :
    InOnePlaceAnyway (blockKindAnyway asSlot tag attrs args) fun cs t => (Element.mk tag sels attrs args (some cs)).Becomes asSlot t := by
  cases asSlot with
  | false =>
    have hxml : (∀ p, tag ≠ .component p) →
        InOnePlaceAnyway .element fun cs t => (Element.mk tag sels attrs args (some cs)).Becomes false t := by
      intro hp
      refine .out (ι := Toks × List Call × List (List Call)) (P := fun i => tag.head = some i.1 ∧
          (kvs attrs).mapM (KvAttr.onElementAnyway tag.kind) = some i.2.1 ∧
          (directives attrs).mapM Directive.onElementAnyway = some i.2.2)
        (F := fun i x => i.1 ++ (chain (i.2.1 ++ i.2.2.flatten ++ (classes sels).map classCall ++ (ids sels).map idCall ++
          (spreads attrs).map spreadCall) ++ x)) (OnePlace.code : InOnePlaceAnyway .element _) (fun i _ => by gap) fun cs t => ?_
      have : (Element.mk tag sels attrs args (some cs)).Becomes false t ↔
          ∃ nodes, NodesBecome cs nodes ∧ xmlAnyway tag sels attrs nodes = some t := by
        cases tag with
        | component p => exact absurd rfl (hp p)
        | _ =>
          rw [Element.Becomes]
          intro p h; cases h
      rw [this]
      simp only [xmlAnyway_some]
      constructor
      · rintro ⟨nodes, hn, head, as, ds, h1, h2, h3, rfl⟩
        exact ⟨⟨head, as, ds⟩, _, ⟨h1, h2, h3⟩, ⟨nodes, hn, rfl⟩, by simp only [chain_append, List.append_assoc]⟩
      · rintro ⟨⟨head, as, ds⟩, _, ⟨h1, h2, h3⟩, ⟨nodes, hn, rfl⟩, rfl⟩
        exact ⟨nodes, hn, head, as, ds, h1, h2, h3, by simp only [chain_append, List.append_assoc]⟩
    cases tag with
    | component p =>
      cases hcl : (clones attrs).mapM Directive.cloneAnyway with
      | none =>
        refine .never fun cs t => ?_
        rw [Element.Becomes]
        simp [componentAnyway_some, hcl]
      | some cl =>
        simp only [blockKindAnyway, hcl, Option.getD_some]
        refine .out (ι := Toks × List Call × List (List Toks)) (P := fun i => p.means = some i.1 ∧
            (kvs attrs).mapM KvAttr.onComponentAnyway = some i.2.1 ∧ (entries attrs).mapM Attr.entryAnyway = some i.2.2)
          (F := fun i x =>
            let p := i.1
            let a := chain i.2.1
            let b := chain [⟨plain c!"build", []⟩]
            let en := commaAfter ((classes sels).map classEntry ++ idEntry (ids sels) ++ i.2.2.flatten)
            q!"#[allow(unreachable_code)] ::leptos::prelude::View::new(
              ::leptos::component::component_view(& #p,
                ::leptos::component::component_props_builder(& #p) #a #x #b
              ).add_any_attr((#en)))") (OnePlace.code : InOnePlaceAnyway (.component args cl.flatten) _) (fun i _ => by gap) fun cs t => ?_
        rw [Element.Becomes]
        simp only [componentAnyway_some, hcl]
        constructor
        · rintro ⟨nodes, slots, calls, hn, hs, hc, pt, as, es, _, h1, h2, h3, ⟨⟩, _, rfl, _, rfl, rfl⟩
          exact ⟨⟨pt, as, es⟩, _, ⟨h1, h2, h3⟩, ⟨nodes, slots, calls, hn, hs, hc, rfl⟩,
            by simp only [chain_append, List.append_assoc, splice_toks]⟩
        · rintro ⟨⟨pt, as, es⟩, _, ⟨h1, h2, h3⟩, ⟨nodes, slots, calls, hn, hs, hc, rfl⟩, rfl⟩
          exact ⟨nodes, slots, calls, hn, hs, hc, pt, as, es, _, h1, h2, h3, rfl, _, rfl, _, rfl,
            by simp only [chain_append, List.append_assoc, splice_toks]⟩
    | _ => exact hxml (fun p h => by cases h)
  | true =>
    cases tag with
    | component p =>
      cases hcl : (clones attrs).mapM Directive.cloneAnyway with
      | none =>
        refine .never fun cs t => ?_
        rw [Element.Becomes]
        simp [slotAnyway_some, hcl]
      | some cl =>
        simp only [blockKindAnyway, hcl, Option.getD_some]
        refine .out (ι := Toks × List Call) (P := fun i => p.means = some i.1 ∧
            (kvs attrs).mapM KvAttr.onComponentAnyway = some i.2)
          (F := fun i x =>
            let p := i.1
            let a := chain i.2
            let b := chain [⟨plain c!"build", []⟩]
            q!"::std::convert::Into::into(#p ::builder() #a #x #b)")
          (OnePlace.code : InOnePlaceAnyway (.slot args cl.flatten) _) (fun i _ => by gap) fun cs t => ?_
        rw [Element.Becomes]
        simp only [slotAnyway_some, hcl]
        constructor
        · rintro ⟨nodes, slots, calls, hn, hs, hc, pt, as, _, h3, h4, ⟨⟩, _, rfl, rfl⟩
          exact ⟨⟨pt, as⟩, _, ⟨h3, h4⟩, ⟨nodes, slots, calls, hn, hs, hc, rfl⟩,
            by simp only [chain_append, List.append_assoc, splice_toks]⟩
        · rintro ⟨⟨pt, as⟩, _, ⟨h3, h4⟩, ⟨nodes, slots, calls, hn, hs, hc, rfl⟩, rfl⟩
          exact ⟨nodes, slots, calls, hn, hs, hc, pt, as, _, h3, h4, rfl, _, rfl,
            by simp only [chain_append, List.append_assoc, splice_toks]⟩
    | _ =>
      refine .never fun cs t => ?_
      rw [Element.Becomes]
      · exact id
      · intro p h; cases h


/-- The code for children, one of which has a block of children. -/
theorem block_blockAnyway (kind : BlockKind) (before : List Child) (isSlot : Bool) (tag : Tag) (sels : List Selector)
    (attrs : List Attr) (args : Option Toks) (inner : List Child → List Child) (after : List Child)
    {ki : BlockKind}
    (h : InOnePlaceAnyway ki fun cs t => (Element.mk tag sels attrs args (some (inner cs))).Becomes isSlot t) :
    InOnePlaceAnyway (kind.insideAnyway (slotNamed isSlot tag) ki) fun cs t =>
      kind.CodeAnyway (before ++ asChild isSlot (.mk tag sels attrs args (some (inner cs))) :: after) t := by
  have tagOf : ∀ cs, (Element.mk tag sels attrs args (some (inner cs))).tag = tag := fun cs => rfl
  have htag : (∃ n, tag = .component ⟨false, [⟨n, .none⟩]⟩) ∨ (∃ p, tag = .component p ∧ tag.isName = false) ∨
      ∀ p, tag ≠ .component p := by
    by_cases hn : tag.isName = true
    · unfold Tag.isName at hn
      split at hn
      · rename_i n; exact .inl ⟨n, rfl⟩
      · cases hn
    · cases tag with
      | component p => exact .inr (.inl ⟨p, rfl, by simpa using hn⟩)
      | _ => exact .inr (.inr fun p hp => by cases hp)
  induction kind with
  | ignored => exact .ignored (C := fun _ _ => True) (P := fun t => t = []) fun cs t => Iff.rfl
  | unused k ih => exact .unused (P := fun t => t = []) ih fun cs t => Iff.rfl
  | element =>
    cases isSlot with
    | false =>
      refine .out (ι := List Toks × List Toks) (P := fun i => NodesBecome before i.1 ∧ NodesBecome after i.2)
        (F := fun i x => chain ((i.1 ++ rendered x :: i.2).map childCall)) h (fun i _ => ?_) fun cs t => ?_
      · simp only [List.map_append, List.map_cons]
        exact gap_chain _ _ _ (gap_rendered .id)
      · simp only [BlockKind.CodeAnyway, asChild, Bool.false_eq_true, if_false, nodesBecome_around]
        constructor
        · rintro ⟨_, ⟨b, a, t, hb, ha, ht, rfl⟩, rfl⟩
          exact ⟨⟨b, a⟩, t, ⟨hb, ha⟩, ht, rfl⟩
        · rintro ⟨⟨b, a⟩, t, ⟨hb, ha⟩, ht, rfl⟩
          exact ⟨_, ⟨b, a, t, hb, ha, ht, rfl⟩, rfl⟩
    | true =>
      refine .ignored (C := fun _ _ => True) (P := fun t => ∃ nodes, NodesBecome (before ++ after) nodes ∧ t = chain (nodes.map childCall))
        fun cs t => ?_
      simp only [BlockKind.CodeAnyway, asChild, if_true, nodesBecome_around_slot]
  | component as cl =>
    cases isSlot with
    | false =>
      refine .out (ι := List Toks × List Toks × List Call)
        (P := fun i => NodesBecome before i.1 ∧ NodesBecome after i.2.1 ∧
          ∃ slots, SlotsBecome (before ++ after) slots ∧ SlotCalls slots i.2.2)
        (F := fun i x => chain (childrenCall as cl (i.1 ++ rendered x :: i.2.1) ++ i.2.2)) h (fun i _ => ?_)
        fun cs t => ?_
      · obtain ⟨n, g, hg, he⟩ := gap_childrenCall as cl i.1 i.2.1 (gap_rendered .id)
        refine .of_eq (fun x => by rw [he]) (g := fun x => chain ([⟨n, g x⟩] ++ i.2.2)) ?_
        exact gap_chain [] _ _ hg
      · simp only [BlockKind.CodeAnyway, asChild, Bool.false_eq_true, if_false, nodesBecome_around,
          slotsBecome_around_elem]
        constructor
        · rintro ⟨_, slots, calls, ⟨b, a, t, hb, ha, ht, rfl⟩, hs, hc, rfl⟩
          exact ⟨⟨b, a, calls⟩, t, ⟨hb, ha, slots, hs, hc⟩, ht, rfl⟩
        · rintro ⟨⟨b, a, calls⟩, t, ⟨hb, ha, slots, hs, hc⟩, ht, rfl⟩
          exact ⟨_, slots, calls, ⟨b, a, t, hb, ha, ht, rfl⟩, hs, hc, rfl⟩
    | true =>
      rcases htag with ⟨n, rfl⟩ | ⟨p, hp, hn⟩ | hp
      · let D := fun b a => Classical.choose (slotCalls_around b n a)
        have hD : ∀ b a t calls, SlotCalls (b ++ (n, t) :: a) calls ↔
            ∃ c1 m l r c2, D b a c1 m l r c2 ∧ calls = c1 ++ ⟨m, slotArg (l ++ t :: r)⟩ :: c2 :=
          fun b a => Classical.choose_spec (slotCalls_around b n a)
        refine .out (ι := List Toks × List Call × Ident × List Toks × List Toks × List Call)
          (P := fun i => NodesBecome (before ++ after) i.1 ∧ ∃ b a, SlotsBecome before b ∧ SlotsBecome after a ∧
            D b a i.2.1 i.2.2.1 i.2.2.2.1 i.2.2.2.2.1 i.2.2.2.2.2)
          (F := fun i x => chain (childrenCall as cl i.1 ++
            (i.2.1 ++ ⟨i.2.2.1, slotArg (i.2.2.2.1 ++ x :: i.2.2.2.2.1)⟩ :: i.2.2.2.2.2))) h (fun i _ => ?_)
          fun cs t => ?_
        · simp only [← List.append_assoc]
          exact gap_chain _ _ _ (gap_slotArg _ _ .id)
        · simp only [BlockKind.CodeAnyway, asChild, if_true, nodesBecome_around_slot,
            slotsBecome_around_slot (tagOf cs)]
          constructor
          · rintro ⟨nodes, _, calls, hn, ⟨b, a, t, hb, ha, ht, rfl⟩, hc, rfl⟩
            obtain ⟨c1, m, l, r, c2, hd, rfl⟩ := (hD _ _ _ _).mp hc
            exact ⟨⟨nodes, c1, m, l, r, c2⟩, t, ⟨hn, b, a, hb, ha, hd⟩, ht, rfl⟩
          · rintro ⟨⟨nodes, c1, m, l, r, c2⟩, t, ⟨hn, b, a, hb, ha, hd⟩, ht, rfl⟩
            exact ⟨nodes, _, _, hn, ⟨b, a, t, hb, ha, ht, rfl⟩, (hD _ _ _ _).mpr ⟨c1, m, l, r, c2, hd, rfl⟩, rfl⟩
      · have hk : slotNamed true tag = some false := by simp [slotNamed, hn]
        rw [hk]
        refine .ignored (C := fun _ _ => True) (P := fun t => (BlockKind.component as cl).CodeAnyway (before ++ after) t) fun cs t => ?_
        simp only [BlockKind.CodeAnyway, asChild, if_true, nodesBecome_around_slot,
          slotsBecome_around_path ((tagOf cs).trans hp) ((congrArg _ (tagOf cs)).trans hn)]
      · refine .never fun cs t => ?_
        rintro ⟨_, _, _, _, hs, _⟩
        exact slotsBecome_around_other (e := .mk tag sels attrs args (some (inner cs))) (fun p h => hp p h) hs
  | slot as cl =>
    cases isSlot with
    | false =>
      refine .out (ι := List Toks × List Toks)
        (P := fun i => NodesBecome before i.1 ∧ NodesBecome after i.2 ∧
          ∃ slots calls, SlotsBecome (before ++ after) slots ∧ SlotCalls slots calls)
        (F := fun i x => chain (childrenCall as cl (i.1 ++ rendered x :: i.2))) h (fun i _ => ?_) fun cs t => ?_
      · obtain ⟨n, g, hg, he⟩ := gap_childrenCall as cl i.1 i.2 (gap_rendered .id)
        exact .of_eq (fun x => by rw [he]) (g := fun x => chain [⟨n, g x⟩]) (gap_chain [] _ [] hg)
      · simp only [BlockKind.CodeAnyway, asChild, Bool.false_eq_true, if_false, nodesBecome_around,
          slotsBecome_around_elem]
        constructor
        · rintro ⟨_, slots, calls, ⟨b, a, t, hb, ha, ht, rfl⟩, hs, hc, rfl⟩
          exact ⟨⟨b, a⟩, t, ⟨hb, ha, slots, calls, hs, hc⟩, ht, rfl⟩
        · rintro ⟨⟨b, a⟩, t, ⟨hb, ha, slots, calls, hs, hc⟩, ht, rfl⟩
          exact ⟨_, slots, calls, ⟨b, a, t, hb, ha, ht, rfl⟩, hs, hc, rfl⟩
    | true =>
      rcases htag with ⟨n, rfl⟩ | ⟨p, hp, hn⟩ | hp
      · have hD : ∀ b a t calls, SlotCalls (b ++ (n, t) :: a) calls →
            ∀ t', ∃ calls', SlotCalls (b ++ (n, t') :: a) calls' := by
          intro b a t calls hc t'
          obtain ⟨D, hD⟩ := slotCalls_around b n a
          obtain ⟨c1, m, l, r, c2, hd, -⟩ := (hD _ _).mp hc
          exact ⟨_, (hD _ _).mpr ⟨c1, m, l, r, c2, hd, rfl⟩⟩
        refine .unused (P := fun t => ∃ nodes, NodesBecome (before ++ after) nodes ∧
          (∃ b a calls, SlotsBecome before b ∧ SlotsBecome after a ∧ SlotCalls (b ++ (n, []) :: a) calls) ∧
            t = chain (childrenCall as cl nodes)) h fun cs t => ?_
        simp only [BlockKind.CodeAnyway, asChild, if_true, nodesBecome_around_slot,
          slotsBecome_around_slot (tagOf cs)]
        constructor
        · rintro ⟨nodes, _, calls, hn, ⟨b, a, t, hb, ha, ht, rfl⟩, hc, rfl⟩
          obtain ⟨calls', hc'⟩ := hD _ _ _ _ hc []
          exact ⟨⟨t, ht⟩, nodes, hn, ⟨b, a, calls', hb, ha, hc'⟩, rfl⟩
        · rintro ⟨⟨t, ht⟩, nodes, hn, ⟨b, a, calls', hb, ha, hc'⟩, rfl⟩
          obtain ⟨calls, hc⟩ := hD _ _ _ _ hc' t
          exact ⟨nodes, _, calls, hn, ⟨b, a, t, hb, ha, ht, rfl⟩, hc, rfl⟩
      · have hk : slotNamed true tag = some false := by simp [slotNamed, hn]
        rw [hk]
        refine .ignored (C := fun _ _ => True) (P := fun t => (BlockKind.slot as cl).CodeAnyway (before ++ after) t) fun cs t => ?_
        simp only [BlockKind.CodeAnyway, asChild, if_true, nodesBecome_around_slot,
          slotsBecome_around_path ((tagOf cs).trans hp) ((congrArg _ (tagOf cs)).trans hn)]
      · refine .never fun cs t => ?_
        rintro ⟨_, _, _, _, hs, _⟩
        exact slotsBecome_around_other (e := .mk tag sels attrs args (some (inner cs))) (fun p h => hp p h) hs

/-- The code for an element with a block of children at any depth. -/
theorem tree_blockAnyway (T : TreeGap) (isSlot : Bool) (tag : Tag) (sels : List Selector) (attrs : List Attr)
    (args : Option Toks) :
    InOnePlaceAnyway (T.kindInAnyway (blockKindAnyway isSlot tag attrs args)) fun cs t =>
      (Element.mk tag sels attrs args (some (T.fill cs))).Becomes isSlot t := by
  induction T generalizing isSlot tag sels attrs args with
  | here => exact element_blockAnyway isSlot tag sels attrs args
  | elem before isSlot' tag' sels' attrs' args' inner after ih =>
    obtain ⟨around, h⟩ := element_blockAnyway isSlot tag sels attrs args
    have hin := block_blockAnyway (blockKindAnyway isSlot tag attrs args) before isSlot' tag' sels' attrs' args' _ after
      (ih isSlot' tag' sels' attrs' args')
    refine .out (ι := CodeGap) (P := around) (F := fun G x => G.fill x) hin (fun G _ => ⟨G, fun x => rfl⟩) fun cs t => ?_
    exact h _ t

/-- The code for an input with a block of children at any depth. -/
theorem root_blockAnyway {T : TreeGap} (hT : T ≠ .here) : InOnePlaceAnyway T.kindAnyway fun cs t => RootBecomes (T.fill cs) t := by
  cases T with
  | here => exact absurd rfl hT
  | elem before isSlot tag sels attrs args inner after =>
    cases isSlot with
    | true =>
      refine .never fun cs t => ?_
      rintro ⟨h, -⟩
      have := h (.slot (.mk tag sels attrs args (some (inner.fill cs)))) (by simp [TreeGap.fill, asChild])
      cases this
    | false =>
      refine .out (ι := List Toks × List Toks)
        (P := fun i => (∀ c ∈ before ++ after, c.isSlot = false) ∧ NodesBecome before i.1 ∧ NodesBecome after i.2)
        (F := fun i x =>
          let v := oneOrView (i.1 ++ rendered x :: i.2)
          q!"{ #[allow(unused_braces)] #v }") (tree_blockAnyway inner false tag sels attrs args) (fun i _ => ?_) fun cs t => ?_
      · have hr : IsGap fun x => rendered x := gap_rendered .id
        have hv := gap_view i.1 i.2 hr
        obtain ⟨b, a⟩ := i
        cases b with
        | nil =>
          cases a with
          | nil => simp only [List.nil_append, oneOrView] at hv ⊢; gap
          | cons y a => simp only [List.nil_append, oneOrView] at hv ⊢; gap
        | cons z b =>
          cases b with
          | nil => simp only [List.cons_append, List.nil_append, oneOrView] at hv ⊢; gap
          | cons y b => simp only [List.cons_append, oneOrView] at hv ⊢; gap
      · have hs : (∀ c ∈ before ++ asChild false (.mk tag sels attrs args (some (inner.fill cs))) :: after,
            c.isSlot = false) ↔ ∀ c ∈ before ++ after, c.isSlot = false := by
          simp only [List.mem_append, List.mem_cons, asChild]
          constructor
          · rintro h c (hc | hc)
            · exact h c (.inl hc)
            · exact h c (.inr (.inr hc))
          · rintro h c (hc | rfl | hc)
            · exact h c (.inl hc)
            · rfl
            · exact h c (.inr hc)
        simp only [RootBecomes, TreeGap.fill, hs]
        simp only [asChild, Bool.false_eq_true, if_false, nodesBecome_around]
        constructor
        · rintro ⟨hns, _, ⟨b, a, t0, hb, ha, ht, rfl⟩, hm⟩
          refine ⟨⟨b, a⟩, t0, ⟨hns, hb, ha⟩, ht, ?_⟩
          split at hm
          · rename_i heq; simp only [heq, oneOrView]; exact hm
          · rename_i hne
            have : oneOrView (b ++ rendered t0 :: a) = viewOf (b ++ rendered t0 :: a) := by
              unfold oneOrView
              split
              · rename_i heq; exact absurd heq (hne _)
              · rfl
            simp only [this]
            exact hm
        · rintro ⟨⟨b, a⟩, t0, ⟨hns, hb, ha⟩, ht, rfl⟩
          refine ⟨hns, _, ⟨b, a, t0, hb, ha, ht, rfl⟩, ?_⟩
          split
          · rename_i heq; simp only [heq, oneOrView]
          · rename_i hne
            have : oneOrView (b ++ rendered t0 :: a) = viewOf (b ++ rendered t0 :: a) := by
              unfold oneOrView
              split
              · rename_i heq; exact absurd heq (hne _)
              · rfl
            simp only [this]

end Mview
