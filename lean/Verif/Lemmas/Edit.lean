import Verif.Spec.Edit
import Verif.Lemmas.Places
/-
C66: code with a gap.
-/

set_option linter.unusedVariables false

namespace Mview
open Lex

/-! ### code with a gap -/

/-- More code around. -/
def CodeGap.within (outer : CodeGap) (inner : CodeGap) : CodeGap :=
  match outer with
  | .here pre post =>
    match inner with
    | .here p q => .here (pre ++ p) (q ++ post)
    | .group p d i q => .group (pre ++ p) d i (q ++ post)
  | .group pre d o post => .group pre d (o.within inner) post

theorem CodeGap.fill_within (o i : CodeGap) (x : Toks) : (o.within i).fill x = o.fill (i.fill x) := by
  induction o with
  | here pre post => cases i <;> simp [CodeGap.within, CodeGap.fill]
  | group pre d o post ih => simp [CodeGap.within, CodeGap.fill, ih]

/-- The function puts code in a gap. -/
def IsGap (f : Toks → Toks) : Prop := ∃ G : CodeGap, ∀ x, f x = G.fill x

namespace IsGap

variable {f g : Toks → Toks}

theorem id : IsGap fun x => x := ⟨.here [] [], fun x => by simp [CodeGap.fill]⟩

theorem comp (hf : IsGap f) (hg : IsGap g) : IsGap fun x => f (g x) := by
  obtain ⟨F, hF⟩ := hf
  obtain ⟨G, hG⟩ := hg
  exact ⟨F.within G, fun x => by simp only [CodeGap.fill_within, hF, hG]⟩

theorem left (c : Toks) (hf : IsGap f) : IsGap fun x => c ++ f x :=
  comp (f := fun x => c ++ x) ⟨.here c [], fun x => by simp [CodeGap.fill]⟩ hf

theorem right (c : Toks) (hf : IsGap f) : IsGap fun x => f x ++ c :=
  comp (f := fun x => x ++ c) ⟨.here [] c, fun x => by simp [CodeGap.fill]⟩ hf

theorem cons (t : TT) (hf : IsGap f) : IsGap fun x => t :: f x := left [t] hf

theorem group (d : Delim) (c : Toks) (hf : IsGap f) : IsGap fun x => .group d (f x) :: c :=
  comp (f := fun x => .group d x :: c) ⟨.group [] d (.here [] []) c, fun x => by simp [CodeGap.fill]⟩ hf

theorem of_eq (h : ∀ x, f x = g x) (hg : IsGap g) : IsGap f := by
  obtain ⟨G, hG⟩ := hg
  exact ⟨G, fun x => by rw [h, hG]⟩

end IsGap

/-- Finds the gap in a template. -/
syntax "gap_in" : tactic
macro_rules
  | `(tactic| gap_in) => `(tactic| first
    | assumption
    | with_reducible exact IsGap.id
    | (with_reducible apply IsGap.group; gap_in)
    | (with_reducible apply IsGap.cons; gap_in)
    | (with_reducible apply IsGap.left; gap_in)
    | (with_reducible apply IsGap.right; gap_in))

/-- Finds the gap in a template with splices. -/
macro "gap" : tactic => `(tactic| ((try simp only [Splice.splice, id_eq, List.cons_append, List.nil_append, List.append_assoc]); gap_in))

variable {f : Toks → Toks}

theorem gap_commaAfter (a b : List Toks) (hf : IsGap f) : IsGap fun x => commaAfter (a ++ f x :: b) := by
  induction a with
  | nil => simp only [List.nil_append, commaAfter]; gap
  | cons y a ih => simp only [List.cons_append, commaAfter]; gap

theorem gap_commaBetween (a b : List Toks) (hf : IsGap f) : IsGap fun x => commaBetween (a ++ f x :: b) := by
  induction a with
  | nil =>
    cases b with
    | nil => simp only [List.nil_append, commaBetween]; gap
    | cons z b => simp only [List.nil_append, commaBetween]; gap
  | cons y a ih =>
    cases a with
    | nil => simp only [List.cons_append, List.nil_append, commaBetween] at ih ⊢; gap
    | cons z a => simp only [List.cons_append, commaBetween] at ih ⊢; gap

theorem gap_slotArg (a b : List Toks) (hf : IsGap f) : IsGap fun x => slotArg (a ++ f x :: b) := by
  have h := gap_commaBetween a b hf
  cases a with
  | nil =>
    cases b with
    | nil => exact hf
    | cons z b => simp only [List.nil_append, slotArg] at h ⊢; gap
  | cons y a =>
    cases a with
    | nil => simp only [List.cons_append, List.nil_append, slotArg] at h ⊢; gap
    | cons z a => simp only [List.cons_append, slotArg] at h ⊢; gap

theorem gap_chain (a : List Call) (n : Ident) (b : List Call) (hf : IsGap f) :
    IsGap fun x => chain (a ++ ⟨n, f x⟩ :: b) := by
  induction a with
  | nil => simp only [List.nil_append, chain]; gap
  | cons c a ih => cases c; simp only [List.cons_append, chain]; gap

theorem gap_rendered (hf : IsGap f) : IsGap fun x => rendered (f x) := by
  unfold rendered; gap

theorem gap_view (a b : List Toks) (hf : IsGap f) : IsGap fun x => viewOf (a ++ f x :: b) := by
  have h := gap_commaAfter a b hf
  unfold viewOf; gap


theorem gap_childrenCall (args : Option Toks) (cl : Toks) (a b : List Toks) (hf : IsGap f) :
    ∃ n, ∃ g : Toks → Toks, IsGap g ∧ ∀ x, childrenCall args cl (a ++ f x :: b) = [⟨n, g x⟩] := by
  have h := gap_view a b hf
  have hne : ∀ x, a ++ f x :: b ≠ [] := fun x => by simp
  cases args with
  | some args =>
    refine ⟨_, _, ?_, fun x => by simp only [childrenCall, if_neg (hne x)]; rfl⟩
    gap
  | none =>
    refine ⟨_, _, ?_, fun x => by simp only [childrenCall, if_neg (hne x)]; rfl⟩
    gap

/-! ### code in one place -/

/-- What is described by `C` is in one place of what is described by `R`. -/
def OnePlace {α : Type} (C R : α → Toks → Prop) : Prop :=
  ∃ around : CodeGap → Prop, ∀ a t, R a t ↔ ∃ G code, around G ∧ C a code ∧ t = G.fill code

namespace OnePlace

variable {α : Type} {C R R' : α → Toks → Prop}

theorem code : OnePlace C C := ⟨fun G => G = .here [] [], fun cs t => by simp [CodeGap.fill]⟩

theorem of_iff (hR : OnePlace C R) (h : ∀ a t, R' a t ↔ R a t) : OnePlace C R' := by
  obtain ⟨around, hR⟩ := hR
  exact ⟨around, fun a t => (h a t).trans (hR a t)⟩

theorem out {ι : Type} {P : ι → Prop} {F : ι → Toks → Toks} (hR : OnePlace C R) (hF : ∀ i, P i → IsGap (F i))
    (h : ∀ cs t, R' cs t ↔ ∃ i t0, P i ∧ R cs t0 ∧ t = F i t0) : OnePlace C R' := by
  obtain ⟨around, hR⟩ := hR
  refine ⟨fun G => ∃ (i : ι) (F' G0 : CodeGap), P i ∧ around G0 ∧ (∀ x, F i x = F'.fill x) ∧ G = F'.within G0, fun cs t => ?_⟩
  rw [h]
  constructor
  · rintro ⟨i, t0, hi, h0, rfl⟩
    obtain ⟨G, code, hG, hc, rfl⟩ := (hR _ _).mp h0
    obtain ⟨F', hF'⟩ := hF i hi
    exact ⟨_, code, ⟨i, F', G, hi, hG, hF', rfl⟩, hc, by rw [CodeGap.fill_within, hF']⟩
  · rintro ⟨_, code, ⟨i, F', G, hi, hG, hF', rfl⟩, hc, rfl⟩
    exact ⟨i, G.fill code, hi, (hR _ _).mpr ⟨G, code, hG, hc, rfl⟩, by rw [CodeGap.fill_within, hF']⟩

theorem unused {P : Toks → Prop} (hR : OnePlace C R) (h : ∀ cs t, R' cs t ↔ (∃ t0, R cs t0) ∧ P t) :
    OnePlace (fun a t => Use.unused.Code C a t) R' := by
  obtain ⟨around, hR⟩ := hR
  refine ⟨fun G => (∃ G0, around G0) ∧ ∃ t, P t ∧ G = .here t [], fun cs t => ?_⟩
  rw [h]
  constructor
  · rintro ⟨⟨t0, h0⟩, ht⟩
    obtain ⟨G, code, hG, hc, rfl⟩ := (hR _ _).mp h0
    exact ⟨_, [], ⟨⟨G, hG⟩, t, ht, rfl⟩, ⟨⟨code, hc⟩, rfl⟩, by simp [CodeGap.fill]⟩
  · rintro ⟨_, _, ⟨⟨G, hG⟩, t, ht, rfl⟩, ⟨⟨code, hc⟩, rfl⟩, rfl⟩
    exact ⟨⟨_, (hR _ _).mpr ⟨G, code, hG, hc, rfl⟩⟩, by simpa [CodeGap.fill] using ht⟩

theorem ignored {P : Toks → Prop} (h : ∀ cs t, R' cs t ↔ P t) : OnePlace (fun a t => Use.ignored.Code C a t) R' := by
  refine ⟨fun G => ∃ t, P t ∧ G = .here t [], fun cs t => ?_⟩
  rw [h]
  constructor
  · intro ht
    exact ⟨_, [], ⟨t, ht, rfl⟩, rfl, by simp [CodeGap.fill]⟩
  · rintro ⟨_, _, ⟨t, ht, rfl⟩, rfl, rfl⟩
    simpa [CodeGap.fill] using ht

theorem never (h : ∀ cs t, ¬ R' cs t) : OnePlace C R' :=
  ⟨fun _ => False, fun cs t => ⟨fun ht => (h cs t ht).elim, fun ⟨_, _, ht, _⟩ => ht.elim⟩⟩

end OnePlace

/-- The children only matter for the code in one place. -/
abbrev InOnePlace (kind : BlockKind) (R : List Child → Toks → Prop) : Prop := OnePlace (fun cs t => kind.Code cs t) R

/-! ### an element among others -/

theorem forall₂_split {α β : Type} {r : α → β → Prop} {a b : List α} {l : List β} :
    List.Forall₂ r (a ++ b) l ↔ ∃ u v, List.Forall₂ r a u ∧ List.Forall₂ r b v ∧ l = u ++ v := by
  induction a generalizing l with
  | nil =>
    constructor
    · intro h; exact ⟨[], l, .nil, h, rfl⟩
    · rintro ⟨u, v, hu, hv, rfl⟩; cases hu; exact hv
  | cons x a ih =>
    simp only [List.cons_append, List.forall₂_cons_left_iff, ih]
    constructor
    · rintro ⟨y, _, hy, ⟨u, v, hu, hv, rfl⟩, rfl⟩
      exact ⟨y :: u, v, ⟨y, u, hy, hu, rfl⟩, hv, rfl⟩
    · rintro ⟨_, v, ⟨y, u, hy, hu, rfl⟩, hv, rfl⟩
      exact ⟨y, _, hy, ⟨u, v, hu, hv, rfl⟩, rfl⟩

theorem nodes_around_elem {before after : List Child} {e : Element} {ns : List Toks} :
    NodesMean (before ++ .elem e :: after) ns ↔
      ∃ b a t, NodesMean before b ∧ NodesMean after a ∧ e.Means false t ∧ ns = b ++ rendered t :: a := by
  induction before generalizing ns with
  | nil =>
    simp only [List.nil_append]
    rw [NodesMean]
    constructor
    · rintro ⟨t, a, h1, h2, rfl⟩; exact ⟨[], a, t, by rw [NodesMean], h2, h1, rfl⟩
    · rintro ⟨b, a, t, hb, h2, h1, rfl⟩
      rw [NodesMean] at hb
      subst hb
      exact ⟨t, a, h1, h2, rfl⟩
  | cons c before ih =>
    cases c with
    | value v =>
      simp only [List.cons_append]
      rw [NodesMean]
      constructor
      · rintro ⟨x, xs, h1, h2, rfl⟩
        obtain ⟨b, a, t, hb, ha, ht, rfl⟩ := ih.mp h2
        exact ⟨rendered x :: b, a, t, by rw [NodesMean]; exact ⟨x, b, h1, hb, rfl⟩, ha, ht, rfl⟩
      · rintro ⟨b, a, t, hb, ha, ht, rfl⟩
        rw [NodesMean] at hb
        obtain ⟨x, b, h1, hb, rfl⟩ := hb
        exact ⟨x, _, h1, ih.mpr ⟨b, a, t, hb, ha, ht, rfl⟩, rfl⟩
    | elem e' =>
      simp only [List.cons_append]
      rw [NodesMean]
      constructor
      · rintro ⟨x, xs, h1, h2, rfl⟩
        obtain ⟨b, a, t, hb, ha, ht, rfl⟩ := ih.mp h2
        exact ⟨rendered x :: b, a, t, by rw [NodesMean]; exact ⟨x, b, h1, hb, rfl⟩, ha, ht, rfl⟩
      · rintro ⟨b, a, t, hb, ha, ht, rfl⟩
        rw [NodesMean] at hb
        obtain ⟨x, b, h1, hb, rfl⟩ := hb
        exact ⟨x, _, h1, ih.mpr ⟨b, a, t, hb, ha, ht, rfl⟩, rfl⟩
    | slot e' =>
      simp only [List.cons_append]
      rw [NodesMean, ih]
      constructor
      · rintro ⟨b, a, t, hb, ha, ht, rfl⟩
        exact ⟨b, a, t, by rw [NodesMean]; exact hb, ha, ht, rfl⟩
      · rintro ⟨b, a, t, hb, ha, ht, rfl⟩
        rw [NodesMean] at hb
        exact ⟨b, a, t, hb, ha, ht, rfl⟩

theorem nodes_around_slot {before after : List Child} {e : Element} {ns : List Toks} :
    NodesMean (before ++ .slot e :: after) ns ↔ NodesMean (before ++ after) ns := by
  rw [nodesMean_iff, nodesMean_iff]
  simp [Child.isSlot]

theorem slots_around_elem {before after : List Child} {e : Element} {ss : List (Ident × Toks)} :
    SlotsMean (before ++ .elem e :: after) ss ↔ SlotsMean (before ++ after) ss := by
  rw [slotsMean_iff, slotsMean_iff]
  simp

theorem slots_around_slot {before after : List Child} {e : Element} {ss : List (Ident × Toks)} :
    SlotsMean (before ++ .slot e :: after) ss ↔
      ∃ b n a t, SlotsMean before b ∧ e.slotName = some n ∧ SlotsMean after a ∧ e.Means true t ∧
        ss = b ++ (n, t) :: a := by
  simp only [slotsMean_iff, List.filterMap_append, List.filterMap_cons]
  constructor
  · intro h
    obtain ⟨b, r, hb, hr, rfl⟩ := forall₂_split.mp h
    obtain ⟨⟨n, t⟩, a, ⟨hn, ht⟩, ha, rfl⟩ := List.forall₂_cons_left_iff.mp hr
    exact ⟨b, n, a, t, hb, hn, ha, ht, rfl⟩
  · rintro ⟨b, n, a, t, hb, hn, ha, ht, rfl⟩
    exact forall₂_split.mpr ⟨b, _, hb, .cons ⟨hn, ht⟩ ha, rfl⟩

/-- The calls for the slots, when one of the slots has an open place. -/
theorem slotCalls_around (b : List (Ident × Toks)) (n : Ident) (a : List (Ident × Toks)) :
    ∃ D : List Call → Ident → List Toks → List Toks → List Call → Prop, ∀ t calls,
      SlotCalls (b ++ (n, t) :: a) calls ↔
        ∃ c1 m l r c2, D c1 m l r c2 ∧ calls = c1 ++ ⟨m, slotArg (l ++ t :: r)⟩ :: c2 := by
  let others : List (Ident × Toks) := b ++ a
  let f : Ident → Option Call := fun k => do
    return (⟨← slotMethodName k, slotArg ((others.filter (·.1 = k)).map Prod.snd)⟩ : Call)
  refine ⟨fun c1 m l r c2 => ∃ n1 n2, (n1 ++ n :: n2).Nodup ∧
    (∀ k, k ∈ n1 ++ n :: n2 ↔ k ∈ b.map Prod.fst ∨ k = n ∨ k ∈ a.map Prod.fst) ∧ n1.mapM f = some c1 ∧
    slotMethodName n = some m ∧ n2.mapM f = some c2 ∧ l = (b.filter (·.1 = n)).map Prod.snd ∧
    r = (a.filter (·.1 = n)).map Prod.snd, fun t calls => ?_⟩
  let g : Ident → Option Call := fun k => do
    return (⟨← slotMethodName k, slotArg (((b ++ (n, t) :: a).filter (·.1 = k)).map Prod.snd)⟩ : Call)
  have hg : ∀ k, k ≠ n → g k = f k := by
    intro k hk
    simp only [g, f, others, List.filter_append, List.filter_cons, decide_eq_true_eq, if_neg (Ne.symm hk)]
  have hgs : ∀ ks : List Ident, n ∉ ks → ks.mapM g = ks.mapM f := by
    intro ks
    induction ks with
    | nil => intro _; rfl
    | cons k ks ih =>
      intro h
      have := ih (fun hh => h (.tail _ hh))
      rw [List.mapM_cons, List.mapM_cons, hg k (fun hh => h (hh ▸ .head _)), this]
  have hgn : ∀ m, slotMethodName n = some m → g n = some ⟨m, slotArg ((b.filter (·.1 = n)).map Prod.snd ++
      t :: (a.filter (·.1 = n)).map Prod.snd)⟩ := by
    intro m hm
    simp [g, hm]
  constructor
  · rintro ⟨names, hnd, hmem, hm⟩
    have hn : n ∈ names := (hmem n).mpr (by simp)
    obtain ⟨n1, n2, rfl⟩ := List.append_of_mem hn
    have hd := List.nodup_append.mp hnd
    have hn1 : n ∉ n1 := fun hh => hd.2.2 n hh n (by simp) rfl
    have hn2 : n ∉ n2 := (List.nodup_cons.mp hd.2.1).1
    change (n1 ++ n :: n2).mapM g = some calls at hm
    rw [List.mapM_append, List.mapM_cons, hgs n1 hn1, hgs n2 hn2] at hm
    simp only [Option.bind_eq_bind, Option.bind_eq_some_iff, Option.pure_def, Option.some.injEq] at hm
    obtain ⟨c1, h1, _, ⟨c, hc, c2, h2, rfl⟩, rfl⟩ := hm
    have : ∃ m, slotMethodName n = some m := by
      simp only [g, Option.bind_eq_bind, Option.bind_eq_some_iff] at hc
      obtain ⟨m, hm, -⟩ := hc
      exact ⟨m, hm⟩
    obtain ⟨m, hm⟩ := this
    rw [hgn m hm, Option.some.injEq] at hc
    subst hc
    refine ⟨c1, m, _, _, c2, ⟨n1, n2, hnd, fun k => ?_, h1, hm, h2, rfl, rfl⟩, rfl⟩
    rw [hmem k]
    simp only [List.map_append, List.map_cons, List.mem_append, List.mem_cons]
  · rintro ⟨c1, m, l, r, c2, ⟨n1, n2, hnd, hmem, h1, hm, h2, rfl, rfl⟩, rfl⟩
    refine ⟨n1 ++ n :: n2, hnd, fun k => ?_, ?_⟩
    · rw [hmem k]
      simp only [List.map_append, List.map_cons, List.mem_append, List.mem_cons]
    · have hd := List.nodup_append.mp hnd
      have hn1 : n ∉ n1 := fun hh => hd.2.2 n hh n (by simp) rfl
      have hn2 : n ∉ n2 := (List.nodup_cons.mp hd.2.1).1
      change (n1 ++ n :: n2).mapM g = _
      rw [List.mapM_append, List.mapM_cons, hgs n1 hn1, hgs n2 hn2, h1, h2, hgn m hm]
      rfl

/-! ### inside an element -/

/-- The code for an element, given the code for its children. -/
theorem element_block (asSlot : Bool) (tag : Tag) (sels : List Selector) (attrs : List Attr) (args : Option Toks) :
    InOnePlace (blockKind asSlot tag attrs args) fun cs t => (Element.mk tag sels attrs args (some cs)).Means asSlot t := by
  cases asSlot with
  | false =>
    have hxml : (∀ p, tag ≠ .component p) →
        InOnePlace .element fun cs t => (Element.mk tag sels attrs args (some cs)).Means false t := by
      intro hp
      refine .out (ι := Toks × List Call × List Call) (P := fun i => tag.head = some i.1 ∧
          (kvs attrs).mapM (KvAttr.onElement tag.kind) = some i.2.1 ∧
          (directives attrs).mapM Directive.onElement = some i.2.2)
        (F := fun i x => i.1 ++ (chain (i.2.1 ++ i.2.2 ++ (classes sels).map classCall ++ (ids sels).map idCall ++
          (spreads attrs).map spreadCall) ++ x)) (OnePlace.code : InOnePlace .element _) (fun i _ => by gap) fun cs t => ?_
      have : (Element.mk tag sels attrs args (some cs)).Means false t ↔
          ∃ nodes, NodesMean cs nodes ∧ xmlMeans tag sels attrs nodes = some t := by
        cases tag with
        | component p => exact absurd rfl (hp p)
        | _ =>
          rw [Element.Means]
          intro p h; cases h
      rw [this]
      simp only [xmlMeans_some]
      constructor
      · rintro ⟨nodes, hn, head, as, ds, h1, h2, h3, rfl⟩
        exact ⟨⟨head, as, ds⟩, _, ⟨h1, h2, h3⟩, ⟨nodes, hn, rfl⟩, by simp only [chain_append, List.append_assoc]⟩
      · rintro ⟨⟨head, as, ds⟩, _, ⟨h1, h2, h3⟩, ⟨nodes, hn, rfl⟩, rfl⟩
        exact ⟨nodes, hn, head, as, ds, h1, h2, h3, by simp only [chain_append, List.append_assoc]⟩
    cases tag with
    | component p =>
      cases hcl : (clones attrs).mapM Directive.cloneStmt with
      | none =>
        refine .never fun cs t => ?_
        rw [Element.Means]
        simp [componentMeans_some, hcl]
      | some cl =>
        simp only [blockKind, hcl, Option.getD_some]
        refine .out (ι := Toks × List Call × List Toks) (P := fun i => p.means = some i.1 ∧
            (kvs attrs).mapM KvAttr.onComponent = some i.2.1 ∧ (entries attrs).mapM Attr.entry = some i.2.2)
          (F := fun i x =>
            let p := i.1
            let a := chain i.2.1
            let b := chain [⟨plain c!"build", []⟩]
            let en := commaAfter ((classes sels).map classEntry ++ idEntry (ids sels) ++ i.2.2)
            q!"#[allow(unreachable_code)] ::leptos::prelude::View::new(
              ::leptos::component::component_view(& #p,
                ::leptos::component::component_props_builder(& #p) #a #x #b
              ).add_any_attr((#en)))") (OnePlace.code : InOnePlace (.component args cl.flatten) _) (fun i _ => by gap) fun cs t => ?_
        rw [Element.Means]
        simp only [componentMeans_some, hcl]
        constructor
        · rintro ⟨nodes, slots, calls, hn, hs, hc, pt, as, es, _, h1, h2, h3, ⟨⟩, _, rfl, _, rfl, rfl⟩
          exact ⟨⟨pt, as, es⟩, _, ⟨h1, h2, h3⟩, ⟨nodes, slots, calls, hn, hs, hc, rfl⟩,
            by simp only [chain_append, List.append_assoc, splice_toks]⟩
        · rintro ⟨⟨pt, as, es⟩, _, ⟨h1, h2, h3⟩, ⟨nodes, slots, calls, hn, hs, hc, rfl⟩, rfl⟩
          exact ⟨nodes, slots, calls, hn, hs, hc, pt, as, es, _, h1, h2, h3, rfl, _, rfl, _, rfl,
            by simp only [chain_append, List.append_assoc, splice_toks]⟩
    | _ => exact hxml (fun p h => by cases h)
  | true =>
    cases tag with
    | component p =>
      cases hcl : (clones attrs).mapM Directive.cloneStmt with
      | none =>
        refine .never fun cs t => ?_
        rw [Element.Means]
        simp [slotMeans_some, hcl]
      | some cl =>
        simp only [blockKind, hcl, Option.getD_some]
        refine .out (ι := Toks × List Call) (P := fun i => sels = [] ∧ entries attrs = [] ∧ p.means = some i.1 ∧
            (kvs attrs).mapM KvAttr.onComponent = some i.2)
          (F := fun i x =>
            let p := i.1
            let a := chain i.2
            let b := chain [⟨plain c!"build", []⟩]
            q!"::std::convert::Into::into(#p ::builder() #a #x #b)")
          (OnePlace.code : InOnePlace (.slot args cl.flatten) _) (fun i _ => by gap) fun cs t => ?_
        rw [Element.Means]
        simp only [slotMeans_some, hcl]
        constructor
        · rintro ⟨nodes, slots, calls, hn, hs, hc, h1, h2, pt, as, _, h3, h4, ⟨⟩, _, rfl, rfl⟩
          exact ⟨⟨pt, as⟩, _, ⟨h1, h2, h3, h4⟩, ⟨nodes, slots, calls, hn, hs, hc, rfl⟩,
            by simp only [chain_append, List.append_assoc, splice_toks]⟩
        · rintro ⟨⟨pt, as⟩, _, ⟨h1, h2, h3, h4⟩, ⟨nodes, slots, calls, hn, hs, hc, rfl⟩, rfl⟩
          exact ⟨nodes, slots, calls, hn, hs, hc, h1, h2, pt, as, _, h3, h4, rfl, _, rfl,
            by simp only [chain_append, List.append_assoc, splice_toks]⟩
    | _ =>
      refine .never fun cs t => ?_
      rw [Element.Means]
      · exact id
      · intro p h; cases h

/-- The code for children, one of which is an element with something open. -/
theorem child_block {α : Type} {C : α → Toks → Prop} (kind : BlockKind) (before : List Child) (isSlot : Bool)
    {el : α → Element} (after : List Child) {name : Option Ident} (hname : ∀ a, (el a).slotName = name)
    (h : OnePlace C fun a t => (el a).Means isSlot t) :
    OnePlace (fun a t => (kind.use isSlot).Code C a t) fun a t =>
      kind.Code (before ++ asChild isSlot (el a) :: after) t := by
  induction kind with
  | ignored => exact .ignored (P := fun t => t = []) fun cs t => Iff.rfl
  | unused k ih =>
    have hu : (BlockKind.unused k).use isSlot = match k.use isSlot with
        | .ignored => .ignored
        | _ => .unused := rfl
    obtain ⟨around, ih⟩ := ih
    cases hk : k.use isSlot with
    | ignored =>
      rw [hk] at hu ih
      rw [hu]
      refine .ignored (P := fun t => (∃ G, around G) ∧ t = []) fun cs t => ?_
      show (∃ t', _) ∧ t = [] ↔ _
      simp only [ih]
      constructor
      · rintro ⟨⟨_, G, code, hG, -, -⟩, rfl⟩; exact ⟨⟨G, hG⟩, rfl⟩
      · rintro ⟨⟨G, hG⟩, rfl⟩; exact ⟨⟨_, G, [], hG, rfl, rfl⟩, rfl⟩
    | used =>
      rw [hk] at hu ih
      rw [hu]
      exact .unused (P := fun t => t = []) ⟨around, ih⟩ fun cs t => Iff.rfl
    | unused =>
      rw [hk] at hu ih
      rw [hu]
      refine ⟨fun G => (∃ G0, around G0) ∧ G = .here [] [], fun cs t => ?_⟩
      show (∃ t', _) ∧ t = [] ↔ _
      simp only [ih]
      constructor
      · rintro ⟨⟨_, G, code, hG, ⟨hc, -⟩, -⟩, rfl⟩
        exact ⟨_, [], ⟨⟨G, hG⟩, rfl⟩, ⟨hc, rfl⟩, rfl⟩
      · rintro ⟨_, _, ⟨⟨G, hG⟩, rfl⟩, ⟨hc, rfl⟩, rfl⟩
        exact ⟨⟨_, G, [], hG, ⟨hc, rfl⟩, rfl⟩, rfl⟩
  | element =>
    cases isSlot with
    | false =>
      refine .out (ι := List Toks × List Toks) (P := fun i => NodesMean before i.1 ∧ NodesMean after i.2)
        (F := fun i x => chain ((i.1 ++ rendered x :: i.2).map childCall)) h (fun i _ => ?_) fun cs t => ?_
      · simp only [List.map_append, List.map_cons]
        exact gap_chain _ _ _ (gap_rendered .id)
      · simp only [BlockKind.Code, asChild, Bool.false_eq_true, if_false, nodes_around_elem]
        constructor
        · rintro ⟨_, ⟨b, a, t, hb, ha, ht, rfl⟩, rfl⟩
          exact ⟨⟨b, a⟩, t, ⟨hb, ha⟩, ht, rfl⟩
        · rintro ⟨⟨b, a⟩, t, ⟨hb, ha⟩, ht, rfl⟩
          exact ⟨_, ⟨b, a, t, hb, ha, ht, rfl⟩, rfl⟩
    | true =>
      refine .ignored (P := fun t => ∃ nodes, NodesMean (before ++ after) nodes ∧ t = chain (nodes.map childCall))
        fun cs t => ?_
      simp only [BlockKind.Code, asChild, if_true, nodes_around_slot]
  | component as cl =>
    cases isSlot with
    | false =>
      refine .out (ι := List Toks × List Toks × List Call)
        (P := fun i => NodesMean before i.1 ∧ NodesMean after i.2.1 ∧
          ∃ slots, SlotsMean (before ++ after) slots ∧ SlotCalls slots i.2.2)
        (F := fun i x => chain (childrenCall as cl (i.1 ++ rendered x :: i.2.1) ++ i.2.2)) h (fun i _ => ?_)
        fun cs t => ?_
      · obtain ⟨n, g, hg, he⟩ := gap_childrenCall as cl i.1 i.2.1 (gap_rendered .id)
        refine .of_eq (fun x => by rw [he]) (g := fun x => chain ([⟨n, g x⟩] ++ i.2.2)) ?_
        exact gap_chain [] _ _ hg
      · simp only [BlockKind.Code, asChild, Bool.false_eq_true, if_false, nodes_around_elem, slots_around_elem]
        constructor
        · rintro ⟨_, slots, calls, ⟨b, a, t, hb, ha, ht, rfl⟩, hs, hc, rfl⟩
          exact ⟨⟨b, a, calls⟩, t, ⟨hb, ha, slots, hs, hc⟩, ht, rfl⟩
        · rintro ⟨⟨b, a, calls⟩, t, ⟨hb, ha, slots, hs, hc⟩, ht, rfl⟩
          exact ⟨_, slots, calls, ⟨b, a, t, hb, ha, ht, rfl⟩, hs, hc, rfl⟩
    | true =>
      let D := fun b n a => Classical.choose (slotCalls_around b n a)
      have hD : ∀ b n a t calls, SlotCalls (b ++ (n, t) :: a) calls ↔
          ∃ c1 m l r c2, D b n a c1 m l r c2 ∧ calls = c1 ++ ⟨m, slotArg (l ++ t :: r)⟩ :: c2 :=
        fun b n a => Classical.choose_spec (slotCalls_around b n a)
      refine .out (ι := List Toks × List Call × Ident × List Toks × List Toks × List Call)
        (P := fun i => NodesMean (before ++ after) i.1 ∧ ∃ b n a, SlotsMean before b ∧
          name = some n ∧ SlotsMean after a ∧
          D b n a i.2.1 i.2.2.1 i.2.2.2.1 i.2.2.2.2.1 i.2.2.2.2.2)
        (F := fun i x => chain (childrenCall as cl i.1 ++
          (i.2.1 ++ ⟨i.2.2.1, slotArg (i.2.2.2.1 ++ x :: i.2.2.2.2.1)⟩ :: i.2.2.2.2.2))) h (fun i _ => ?_)
        fun cs t => ?_
      · simp only [← List.append_assoc]
        exact gap_chain _ _ _ (gap_slotArg _ _ .id)
      · simp only [BlockKind.Code, asChild, if_true, nodes_around_slot, slots_around_slot, hname]
        constructor
        · rintro ⟨nodes, _, calls, hn, ⟨b, n, a, t, hb, hna, ha, ht, rfl⟩, hc, rfl⟩
          obtain ⟨c1, m, l, r, c2, hd, rfl⟩ := (hD _ _ _ _ _).mp hc
          exact ⟨⟨nodes, c1, m, l, r, c2⟩, t, ⟨hn, b, n, a, hb, hna, ha, hd⟩, ht, rfl⟩
        · rintro ⟨⟨nodes, c1, m, l, r, c2⟩, t, ⟨hn, b, n, a, hb, hna, ha, hd⟩, ht, rfl⟩
          exact ⟨nodes, _, _, hn, ⟨b, n, a, t, hb, hna, ha, ht, rfl⟩, (hD _ _ _ _ _).mpr ⟨c1, m, l, r, c2, hd, rfl⟩, rfl⟩
  | slot as cl =>
    cases isSlot with
    | false =>
      refine .out (ι := List Toks × List Toks)
        (P := fun i => NodesMean before i.1 ∧ NodesMean after i.2 ∧
          ∃ slots calls, SlotsMean (before ++ after) slots ∧ SlotCalls slots calls)
        (F := fun i x => chain (childrenCall as cl (i.1 ++ rendered x :: i.2))) h (fun i _ => ?_) fun cs t => ?_
      · obtain ⟨n, g, hg, he⟩ := gap_childrenCall as cl i.1 i.2 (gap_rendered .id)
        exact .of_eq (fun x => by rw [he]) (g := fun x => chain [⟨n, g x⟩]) (gap_chain [] _ [] hg)
      · simp only [BlockKind.Code, asChild, Bool.false_eq_true, if_false, nodes_around_elem, slots_around_elem]
        constructor
        · rintro ⟨_, slots, calls, ⟨b, a, t, hb, ha, ht, rfl⟩, hs, hc, rfl⟩
          exact ⟨⟨b, a⟩, t, ⟨hb, ha, slots, calls, hs, hc⟩, ht, rfl⟩
        · rintro ⟨⟨b, a⟩, t, ⟨hb, ha, slots, calls, hs, hc⟩, ht, rfl⟩
          exact ⟨_, slots, calls, ⟨b, a, t, hb, ha, ht, rfl⟩, hs, hc, rfl⟩
    | true =>
      have hD : ∀ b n a t calls, SlotCalls (b ++ (n, t) :: a) calls →
          ∀ t', ∃ calls', SlotCalls (b ++ (n, t') :: a) calls' := by
        intro b n a t calls hc t'
        obtain ⟨D, hD⟩ := slotCalls_around b n a
        obtain ⟨c1, m, l, r, c2, hd, -⟩ := (hD _ _).mp hc
        exact ⟨_, (hD _ _).mpr ⟨c1, m, l, r, c2, hd, rfl⟩⟩
      refine .unused (P := fun t => ∃ nodes, NodesMean (before ++ after) nodes ∧
        (∃ b n a calls, SlotsMean before b ∧ name = some n ∧
          SlotsMean after a ∧ SlotCalls (b ++ (n, []) :: a) calls) ∧ t = chain (childrenCall as cl nodes)) h fun cs t => ?_
      simp only [BlockKind.Code, asChild, if_true, nodes_around_slot, slots_around_slot, hname]
      constructor
      · rintro ⟨nodes, _, calls, hn, ⟨b, n, a, t, hb, hna, ha, ht, rfl⟩, hc, rfl⟩
        obtain ⟨calls', hc'⟩ := hD _ _ _ _ _ hc []
        exact ⟨⟨t, ht⟩, nodes, hn, ⟨b, n, a, calls', hb, hna, ha, hc'⟩, rfl⟩
      · rintro ⟨⟨t, ht⟩, nodes, hn, ⟨b, n, a, calls', hb, hna, ha, hc'⟩, rfl⟩
        obtain ⟨calls, hc⟩ := hD _ _ _ _ _ hc' t
        exact ⟨nodes, _, calls, hn, ⟨b, n, a, t, hb, hna, ha, ht, rfl⟩, hc, rfl⟩

/-- The code for children, one of which has a block of children. -/
theorem block_block (kind : BlockKind) (before : List Child) (isSlot : Bool) (tag : Tag) (sels : List Selector)
    (attrs : List Attr) (args : Option Toks) (inner : List Child → List Child) (after : List Child)
    {ki : BlockKind} (h : InOnePlace ki fun cs t => (Element.mk tag sels attrs args (some (inner cs))).Means isSlot t) :
    InOnePlace (kind.inside isSlot ki) fun cs t =>
      kind.Code (before ++ asChild isSlot (.mk tag sels attrs args (some (inner cs))) :: after) t := by
  have := child_block kind before isSlot (el := fun cs => .mk tag sels attrs args (some (inner cs))) after
    (name := (Element.mk tag sels attrs args none).slotName) (fun a => rfl) h
  unfold BlockKind.inside
  cases hu : kind.use isSlot <;> rw [hu] at this <;> exact this

/-- The code for an element with a block of children at any depth. -/
theorem tree_block (T : TreeGap) (isSlot : Bool) (tag : Tag) (sels : List Selector) (attrs : List Attr)
    (args : Option Toks) :
    InOnePlace (T.kindIn (blockKind isSlot tag attrs args)) fun cs t =>
      (Element.mk tag sels attrs args (some (T.fill cs))).Means isSlot t := by
  induction T generalizing isSlot tag sels attrs args with
  | here => exact element_block isSlot tag sels attrs args
  | elem before isSlot' tag' sels' attrs' args' inner after ih =>
    obtain ⟨around, h⟩ := element_block isSlot tag sels attrs args
    have hin := block_block (blockKind isSlot tag attrs args) before isSlot' tag' sels' attrs' args' _ after (ih isSlot' tag' sels' attrs' args')
    refine .out (ι := CodeGap) (P := around) (F := fun G x => G.fill x) hin (fun G _ => ⟨G, fun x => rfl⟩) fun cs t => ?_
    exact h _ t

/-- What the input stands for, without the braces around. -/
def oneOrView : List Toks → Toks
  | [y] => y
  | xs => viewOf xs

/-- The code for an input with an element with something open at the top. -/
theorem root_child {α : Type} {C : α → Toks → Prop} (before : List Child) {el : α → Element} (after : List Child)
    (h : OnePlace C fun a t => (el a).Means false t) :
    OnePlace C fun a t => RootMeans (before ++ asChild false (el a) :: after) t := by
  refine .out (ι := List Toks × List Toks)
    (P := fun i => (∀ c ∈ before ++ after, c.isSlot = false) ∧ NodesMean before i.1 ∧ NodesMean after i.2)
    (F := fun i x =>
      let v := oneOrView (i.1 ++ rendered x :: i.2)
      q!"{ #[allow(unused_braces)] #v }") h (fun i _ => ?_) fun cs t => ?_
  · have hr : IsGap fun x => rendered x := gap_rendered .id
    have hv := gap_view i.1 i.2 hr
    obtain ⟨b, a⟩ := i
    cases b with
    | nil =>
      cases a with
      | nil => simp only [List.nil_append, oneOrView] at hv ⊢; gap
      | cons y a => simp only [List.nil_append, oneOrView] at hv ⊢; gap
    | cons z b =>
      cases b with
      | nil => simp only [List.cons_append, List.nil_append, oneOrView] at hv ⊢; gap
      | cons y b => simp only [List.cons_append, oneOrView] at hv ⊢; gap
  · have hs : (∀ c ∈ before ++ asChild false (el cs) :: after,
        c.isSlot = false) ↔ ∀ c ∈ before ++ after, c.isSlot = false := by
      simp only [List.mem_append, List.mem_cons, asChild]
      constructor
      · rintro h c (hc | hc)
        · exact h c (.inl hc)
        · exact h c (.inr (.inr hc))
      · rintro h c (hc | rfl | hc)
        · exact h c (.inl hc)
        · rfl
        · exact h c (.inr hc)
    simp only [RootMeans, hs]
    simp only [asChild, Bool.false_eq_true, if_false, nodes_around_elem]
    constructor
    · rintro ⟨hns, _, ⟨b, a, t0, hb, ha, ht, rfl⟩, hm⟩
      refine ⟨⟨b, a⟩, t0, ⟨hns, hb, ha⟩, ht, ?_⟩
      split at hm
      · rename_i heq; simp only [heq, oneOrView]; exact hm
      · rename_i hne
        have : oneOrView (b ++ rendered t0 :: a) = viewOf (b ++ rendered t0 :: a) := by
          unfold oneOrView
          split
          · rename_i heq; exact absurd heq (hne _)
          · rfl
        simp only [this]
        exact hm
    · rintro ⟨⟨b, a⟩, t0, ⟨hns, hb, ha⟩, ht, rfl⟩
      refine ⟨hns, _, ⟨b, a, t0, hb, ha, ht, rfl⟩, ?_⟩
      split
      · rename_i heq; simp only [heq, oneOrView]
      · rename_i hne
        have : oneOrView (b ++ rendered t0 :: a) = viewOf (b ++ rendered t0 :: a) := by
          unfold oneOrView
          split
          · rename_i heq; exact absurd heq (hne _)
          · rfl
        simp only [this]

/-- There are no slots at the top. -/
theorem root_slot {before after : List Child} {e : Element} {t : Toks} :
    ¬ RootMeans (before ++ asChild true e :: after) t := by
  rintro ⟨h, -⟩
  have := h (.slot e) (by simp [asChild])
  cases this

/-- The code for an input with a block of children at any depth. -/
theorem root_block {T : TreeGap} (hT : T ≠ .here) : InOnePlace T.kind fun cs t => RootMeans (T.fill cs) t := by
  cases T with
  | here => exact absurd rfl hT
  | elem before isSlot tag sels attrs args inner after =>
    cases isSlot with
    | true => exact .never fun cs t => root_slot
    | false => exact root_child before after (tree_block inner false tag sels attrs args)

end Mview
