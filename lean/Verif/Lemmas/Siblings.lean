import Verif.Lemmas.Accept
import Verif.Lemmas.Places
import Verif.Lemmas.Says
import Verif.Spec.Siblings
/-
Children are expanded one after the other.
-/

namespace Mview
open Lex

variable {pp : PathParser} {I : Inv pp}

/-- the schedule of what comes after `n` children -/
def Sched.later (s : Sched) : Nat → Sched
  | 0 => s
  | n + 1 => s.r.later n

theorem expandNodes_append (a b : List Child) : ∀ s : Sched, expandNodes s (a ++ b) =
    (expandNodes s a).bind fun x => (expandNodes (s.later a.length) b).bind fun y => .ret [] (x ++ y) := by
  induction a with
  | nil =>
    intro s
    simp only [List.nil_append, expandNodes, Out.monad_pure, Out.bind_ret, Out.tell_nil, List.length_nil,
      Sched.later]
    cases expandNodes s b <;> simp [Out.bind, Out.tell]
  | cons c a ih =>
    intro s
    cases c with
    | value v =>
      simp only [List.cons_append, expandNodes, ih, Out.monad_bind, Out.monad_pure, Out.bind_assoc,
        Out.bind_ret, Out.tell_nil, List.length_cons, Sched.later]
    | elem e =>
      simp only [List.cons_append, expandNodes, ih, Out.monad_bind, Out.monad_pure, Out.bind_assoc,
        Out.bind_ret, Out.tell_nil, List.length_cons, Sched.later]
    | slot e =>
      simp only [List.cons_append, expandNodes, ih, List.length_cons, Sched.later]

theorem childrenOk_append {a b : List Child} (h : childrenOk I (a ++ b)) :
    childrenOk I a ∧ childrenOk I b := by
  induction a with
  | nil => exact ⟨trivial, h⟩
  | cons c a ih =>
    simp only [List.cons_append, childrenOk] at h
    obtain ⟨h1, h2⟩ := ih h.2
    exact ⟨⟨h.1, h1⟩, h2⟩

/-! ### gaps in the output -/

/-- `f` puts its argument into a gap -/
def Hole (f : Toks → Toks) : Prop := ∃ K : TokGap, ∀ x, f x = K.fill x

theorem Hole.id : Hole fun x => x := ⟨.here [] [], fun x => by simp [TokGap.fill]⟩

theorem Hole.pre {f : Toks → Toks} (h : Hole f) (a : Toks) : Hole fun x => a ++ f x := by
  obtain ⟨K, hK⟩ := h
  cases K with
  | here b c => exact ⟨.here (a ++ b) c, fun x => by simp [hK, TokGap.fill]⟩
  | inside b d i c => exact ⟨.inside (a ++ b) d i c, fun x => by simp [hK, TokGap.fill]⟩

theorem Hole.post {f : Toks → Toks} (h : Hole f) (a : Toks) : Hole fun x => f x ++ a := by
  obtain ⟨K, hK⟩ := h
  cases K with
  | here b c => exact ⟨.here b (c ++ a), fun x => by simp [hK, TokGap.fill]⟩
  | inside b d i c => exact ⟨.inside b d i (c ++ a), fun x => by simp [hK, TokGap.fill]⟩

theorem Hole.cons {f : Toks → Toks} (h : Hole f) (t : TT) : Hole fun x => t :: f x := h.pre [t]

theorem Hole.group {f : Toks → Toks} (h : Hole f) (d : Delim) (r : Toks) :
    Hole fun x => .group d (f x) :: r := by
  obtain ⟨K, hK⟩ := h
  exact ⟨.inside [] d K r, fun x => by simp [hK, TokGap.fill]⟩

theorem Hole.comp {f g : Toks → Toks} (hf : Hole f) (hg : Hole g) : Hole fun x => f (g x) := by
  obtain ⟨K, hK⟩ := hf
  have : ∀ K : TokGap, Hole fun x => K.fill (g x) := by
    intro K
    induction K with
    | here b c => exact (hg.pre b).post c
    | inside b d i c ih => exact (ih.group d c).pre b
  simp only [hK]
  exact this K

theorem Hole.congr {f g : Toks → Toks} (h : Hole f) (hg : ∀ x, g x = f x) : Hole g := by
  obtain ⟨K, hK⟩ := h
  exact ⟨K, fun x => by rw [hg, hK]⟩

theorem commaAfter_append (a b : List Toks) : commaAfter (a ++ b) = commaAfter a ++ commaAfter b := by
  induction a with
  | nil => rfl
  | cons x a ih => simp [commaAfter, ih]

theorem hole_viewOf (a b : List Toks) : Hole fun x => viewOf (a ++ x :: b) := by
  have : Hole fun x => commaAfter (a ++ x :: b) := by
    refine ((Hole.id.post (TT.punct ',' .alone :: commaAfter b)).pre (commaAfter a)).congr fun x => ?_
    rw [commaAfter_append]
    simp [commaAfter]
  refine ((((this.group .paren []).group .paren []).pre
    (tAbs [c!"leptos", c!"prelude", c!"View", c!"new"])).congr fun x => ?_)
  simp [viewOf, tAbs, tColon2, tId]

theorem hole_children (args : Option Toks) (cl : Toks) (a b : List Toks) :
    Hole fun x => chain (childrenCall args cl (a ++ x :: b)) := by
  have hne : ∀ x : Toks, ¬ (a ++ x :: b = []) := by simp
  cases args with
  | some args =>
    refine ((((((hole_viewOf a b).pre (cl ++ ([tId c!"move"] ++ args)))).group .brace []).group .paren []).pre
      [tP '.', tId c!"children"]).congr fun x => ?_
    simp [childrenCall, chain, tP, tId]
  | none =>
    refine (((((((hole_viewOf a b).pre ([tId c!"move"] ++ tOrOr)).group .paren []).pre
      (cl ++ tAbs [c!"leptos", c!"children", c!"ToChildren", c!"to_children"])).group .brace []).group
        .paren []).pre [tP '.', tId c!"children"]).congr fun x => ?_
    simp [childrenCall, chain, tP, tId, tAbs, tColon2, tOrOr]

theorem hole_component {p : Path} {sels : List Selector} {attrs : List Attr} {args : Option Toks}
    {calls : List Call} {a b : List Toks} {y t : Toks}
    (h : componentMeans p sels attrs args (a ++ y :: b) calls = some t) :
    ∃ f, Hole f ∧ ∀ x, componentMeans p sels attrs args (a ++ x :: b) calls = some (f x) := by
  unfold componentMeans at h ⊢
  cases hp : p.means with
  | none => simp [hp] at h
  | some path =>
  cases ha : (kvs attrs).mapM KvAttr.onComponent with
  | none => simp [hp, ha] at h
  | some as =>
  cases he : (entries attrs).mapM Attr.entry with
  | none => simp [hp, ha, he] at h
  | some es =>
  cases hc : (clones attrs).mapM Directive.cloneStmt with
  | none => simp [hp, ha, he, hc] at h
  | some cl =>
  refine ⟨_, ?_, fun x => rfl⟩
  have hch : Hole fun x => chain (as ++ childrenCall args cl.flatten (a ++ x :: b) ++ calls ++
      [⟨plain c!"build", []⟩]) := by
    refine ((hole_children args cl.flatten a b).pre (chain as)).post
      (chain calls ++ chain [⟨plain c!"build", []⟩]) |>.congr fun x => ?_
    simp only [chain_append, List.append_assoc]
  simp only [Lex.splice_toks, List.singleton_append, List.cons_append, List.nil_append]
  repeat first
    | exact hch
    | refine Hole.group ?_ _ _
    | refine Hole.cons ?_ _
    | refine Hole.pre ?_ _
    | refine Hole.post ?_ _


theorem hole_xml {tag : Tag} {sels : List Selector} {attrs : List Attr} {a b : List Toks} {y t : Toks}
    (h : xmlMeans tag sels attrs (a ++ y :: b) = some t) :
    ∃ f, Hole f ∧ ∀ x, xmlMeans tag sels attrs (a ++ x :: b) = some (f x) := by
  unfold xmlMeans at h ⊢
  cases hp : tag.head with
  | none => simp [hp] at h
  | some head =>
  cases ha : (kvs attrs).mapM (KvAttr.onElement tag.kind) with
  | none => simp [hp, ha] at h
  | some as =>
  cases he : (directives attrs).mapM Directive.onElement with
  | none => simp [hp, ha, he] at h
  | some ds =>
  refine ⟨_, ?_, fun x => rfl⟩
  have hch : Hole fun x => chain ((a ++ x :: b).map childCall) := by
    refine (((Hole.id.group .paren []).pre (chain (a.map childCall) ++ [tP '.', tId c!"child"])).post
      (chain (b.map childCall))).congr fun x => ?_
    rw [List.map_append, chain_append, List.map_cons, chain_cons]
    simp [childCall, chain, tP, tId]
  simp only [Lex.splice_toks]
  refine Hole.pre ?_ _
  refine (hch.pre (chain (as ++ ds ++ (classes sels).map classCall ++ (ids sels).map idCall ++
    (spreads attrs).map spreadCall))).congr fun x => ?_
  rw [← chain_append]

theorem hole_rendered : Hole rendered := by
  refine ((Hole.id.group .paren []).pre
    (tAbs [c!"leptos", c!"prelude", c!"IntoRender", c!"into_render"])).congr fun x => ?_
  simp [rendered, tAbs, tColon2, tId]

/-- the slots do not see what is in the gap -/
theorem expandSlots_gap {c c' : Child} (hc : c.isSlot = false) (hc' : c'.isSlot = false) (G : Gap) :
    ∀ s : Sched, expandSlots s (G.fill c) = expandSlots s (G.fill c') := by
  have key : ∀ (a b : List Child) (x y : Child), x.isSlot = false → y.isSlot = false →
      ∀ s : Sched, expandSlots s (a ++ x :: b) = expandSlots s (a ++ y :: b) := by
    intro a b x y hx hy
    induction a with
    | nil =>
      intro s
      cases x <;> cases y <;> simp [Child.isSlot] at hx hy <;> simp [expandSlots]
    | cons z a ih =>
      intro s
      cases z with
      | value v => simp only [List.cons_append, expandSlots, ih]
      | elem v => simp only [List.cons_append, expandSlots, ih]
      | slot v => simp only [List.cons_append, expandSlots, ih]
  cases G with
  | here a b => exact key a b c c' hc hc'
  | inside a b _ _ _ _ _ => exact key a b _ _ rfl rfl

theorem ok_append {s : Sched} {a b : List Child} {ns : List Toks} :
    (expandNodes s (a ++ b)).ok = some ns ↔ ∃ x y, (expandNodes s a).ok = some x ∧
      (expandNodes (s.later a.length) b).ok = some y ∧ ns = x ++ y := by
  rw [expandNodes_append]
  simp only [Out.ok_bind, Option.bind_eq_some_iff, Out.ok_ret, Option.some.injEq, @eq_comm _ _ ns]
  constructor
  · rintro ⟨x, h1, y, h2, h3⟩; exact ⟨x, y, h1, h2, h3⟩
  · rintro ⟨x, y, h1, h2, h3⟩; exact ⟨x, h1, y, h2, h3⟩

/-- the meaning of an element with a block, from the expansion of its parts -/
theorem element_parts {s : Sched} {tag : Tag} {sels : List Selector} {attrs : List Attr}
    {args : Option Toks} {cs : List Child} (h : (Element.mk tag sels attrs args (some cs)).Ok I) {t : Toks} :
    (expandElement false s (.mk tag sels attrs args (some cs))).ok = some t ↔
      ∃ ns, (expandNodes s.l cs).ok = some ns ∧
        ((∃ p calls, tag = .component p ∧
            (slotsToTokens s.here (expandSlots s.r cs)).ok = some (chain calls) ∧
            componentMeans p sels attrs args ns calls = some t) ∨
          (∀ p, tag ≠ .component p) ∧ xmlMeans tag sels attrs ns = some t) := by
  simp only [Element.Ok] at h
  have hattrs : ∀ a ∈ attrs, a.Spanned := fun a ha => (h.2.1 a ha).spanned
  have htag : ∀ k, tag = .webComponent k → 0 < k.spans := by rintro k rfl; exact h.1
  unfold expandElement
  simp only [Bool.false_eq_true, if_false]
  rcases xml_ok sels (some (expandNodes s.l cs)) htag hattrs with ⟨hx, p, rfl⟩ | ⟨o, hx, hk, hok⟩
  · simp only [hx]
    constructor
    · intro ht
      have hst : ∃ st, optSlots (some (slotsToTokens s.here (expandSlots s.r cs))) = some st := by
        split at ht
        · rename_i o ho; exact slots_of_ok ho ht
        · simp at ht
      obtain ⟨st, hst⟩ := hst
      obtain ⟨ss, calls, hss, hc, rfl⟩ := slots_sound (slots := expandSlots s.r cs) hst
      obtain ⟨o, ho, hok⟩ := component_ok (path := p) sels args (some (expandNodes s.l cs)) _ calls hattrs hst
      simp only [ho, hok, optNodes, Option.bind_eq_some_iff] at ht
      obtain ⟨ns, hns, ht⟩ := ht
      exact ⟨ns, hns, .inl ⟨p, calls, rfl, hst, ht⟩⟩
    · rintro ⟨ns, hns, ⟨p', calls, hp, hst, ht⟩ | ⟨hp, _⟩⟩
      swap
      · exact absurd rfl (hp p)
      cases hp
      obtain ⟨o, ho, hok⟩ := component_ok (path := p) sels args (some (expandNodes s.l cs))
        (some (slotsToTokens s.here (expandSlots s.r cs))) calls hattrs hst
      simp only [ho, hok, optNodes, hns, Option.bind_some, ht]
  · simp only [hx, hok, optNodes, Option.bind_eq_some_iff]
    constructor
    · rintro ⟨ns, hns, ht⟩
      exact ⟨ns, hns, .inr ⟨by rintro p rfl; exact hk rfl, ht⟩⟩
    · rintro ⟨ns, hns, ⟨p, _, rfl, _⟩ | ⟨_, ht⟩⟩
      · exact absurd rfl hk
      · exact ⟨ns, hns, ht⟩

/-- Only what is in the gap changes. -/
theorem expandNodes_gap {c c' : Child} (hc : c.isSlot = false) (hc' : c'.isSlot = false) (G : Gap) :
    ∀ (s : Sched) (ns ns' : List Toks), childrenOk I (G.fill c) → childrenOk I (G.fill c') →
      (expandNodes s (G.fill c)).ok = some ns → (expandNodes s (G.fill c')).ok = some ns' →
      ∃ a b f x x', Hole f ∧ c.Means x ∧ c'.Means x' ∧ ns = a ++ f x :: b ∧ ns' = a ++ f x' :: b := by
  have single : ∀ (c : Child) (s : Sched) (ns : List Toks), c.isSlot = false → childrenOk I [c] →
      (expandNodes s [c]).ok = some ns → ∃ x, c.Means x ∧ ns = [x] := by
    intro c s ns hc hok h
    have := expandNodes_sound s [c] hok ns h
    rw [nodesMean_iff] at this
    simp only [List.filter_cons, hc, Bool.not_false, if_true, List.filter_nil,
      List.forall₂_cons_left_iff, List.forall₂_nil_left_iff] at this
    obtain ⟨x, _, h1, rfl, rfl⟩ := this
    exact ⟨x, h1, rfl⟩
  induction G with
  | here a b =>
    intro s ns ns' hok hok' h h'
    have e : ∀ c, Gap.fill c (.here a b) = a ++ ([c] ++ b) := fun c => by simp [Gap.fill]
    rw [e] at hok h
    rw [e] at hok' h'
    rw [ok_append] at h h'
    obtain ⟨x, y, h1, h2, rfl⟩ := h
    obtain ⟨x', y', h1', h2', rfl⟩ := h'
    rw [h1] at h1'
    cases h1'
    rw [ok_append] at h2 h2'
    obtain ⟨z, w, h3, h4, rfl⟩ := h2
    obtain ⟨z', w', h3', h4', rfl⟩ := h2'
    simp only [List.length_singleton] at h4 h4'
    rw [h4] at h4'
    cases h4'
    have ho := (childrenOk_append (childrenOk_append hok).2).1
    have ho' := (childrenOk_append (childrenOk_append hok').2).1
    obtain ⟨t, ht, rfl⟩ := single _ _ _ hc ho h3
    obtain ⟨t', ht', rfl⟩ := single _ _ _ hc' ho' h3'
    exact ⟨x, w, _, t, t', Hole.id, ht, ht', by simp, by simp⟩
  | inside a b tag sels attrs args inner ih =>
    intro s ns ns' hok hok' h h'
    have e : ∀ c, Gap.fill c (.inside a b tag sels attrs args inner) =
        a ++ ([.elem (.mk tag sels attrs args (some (inner.fill c)))] ++ b) := fun c => by simp [Gap.fill]
    rw [e] at hok h
    rw [e] at hok' h'
    rw [ok_append] at h h'
    obtain ⟨x, y, h1, h2, rfl⟩ := h
    obtain ⟨x', y', h1', h2', rfl⟩ := h'
    rw [h1] at h1'
    cases h1'
    rw [ok_append] at h2 h2'
    obtain ⟨z, w, h3, h4, rfl⟩ := h2
    obtain ⟨z', w', h3', h4', rfl⟩ := h2'
    simp only [List.length_singleton] at h4 h4'
    rw [h4] at h4'
    cases h4'
    have ho := (childrenOk_append (childrenOk_append hok).2).1
    have ho' := (childrenOk_append (childrenOk_append hok').2).1
    simp only [childrenOk, Child.Ok, and_true] at ho ho'
    simp only [expandNodes, Out.monad_bind, Out.ok_bind, Option.bind_eq_some_iff, Out.monad_pure,
      Out.ok_ret, Option.some.injEq, rendered_eq] at h3 h3'
    obtain ⟨t, ht, _, rfl, rfl⟩ := h3
    obtain ⟨t', ht', _, rfl, rfl⟩ := h3'
    rw [element_parts ho] at ht
    rw [element_parts ho'] at ht'
    obtain ⟨ms, hms, ht⟩ := ht
    obtain ⟨ms', hms', ht'⟩ := ht'
    have hcs : childrenOk I (inner.fill c) := by simp only [Element.Ok] at ho; exact ho.2.2
    have hcs' : childrenOk I (inner.fill c') := by simp only [Element.Ok] at ho'; exact ho'.2.2
    obtain ⟨p, q, f, u, u', hf, hu, hu', rfl, rfl⟩ := ih _ _ _ hcs hcs' hms hms'
    have fin : ∀ g : Toks → Toks, Hole g → t = g (f u) → t' = g (f u') →
        ∃ a b f x_1 x', Hole f ∧ c.Means x_1 ∧ c'.Means x' ∧ x ++ ([rendered t] ++ w) = a ++ f x_1 :: b ∧
          x ++ ([rendered t'] ++ w) = a ++ f x' :: b := by
      intro g hg h1 h2
      exact ⟨x, w, fun x => rendered (g (f x)), u, u', hole_rendered.comp (hg.comp hf), hu, hu',
        by simp [h1], by simp [h2]⟩
    rcases ht with ⟨path, calls, rfl, hsl, ht⟩ | ⟨hne, ht⟩
    · rcases ht' with ⟨path', calls', hp, hsl', ht'⟩ | ⟨hne, _⟩
      swap
      · exact absurd rfl (hne path)
      cases hp
      rw [expandSlots_gap hc hc' inner, hsl'] at hsl
      simp only [Option.some.injEq] at hsl
      obtain ⟨g, hg, hgx⟩ := hole_component ht
      have hgx' : ∀ x, componentMeans path sels attrs args (p ++ x :: q) calls' = some (g x) := by
        intro x
        rw [← hgx x]
        unfold componentMeans
        simp only [chain_append, hsl]
      rw [hgx] at ht
      rw [hgx'] at ht'
      simp only [Option.some.injEq] at ht ht'
      exact fin g hg ht.symm ht'.symm
    · rcases ht' with ⟨path', _, hp, _⟩ | ⟨_, ht'⟩
      · exact absurd hp (hne path')
      obtain ⟨g, hg, hgx⟩ := hole_xml ht
      rw [hgx] at ht ht'
      simp only [Option.some.injEq] at ht ht'
      exact fin g hg ht.symm ht'.symm

end Mview
