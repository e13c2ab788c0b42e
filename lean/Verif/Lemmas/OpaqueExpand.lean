import Verif.Spec.Loose
/-
Expanding trees that differ in code only.
-/

namespace Mview
variable {R : Toks → Toks → Prop}

/-! ### tokens -/

theorem Alike.refl : (ts : Toks) → Alike R ts ts
  | [] => .nil
  | t :: ts => .tok t (Alike.refl ts)

theorem Alike.append {a a' b b' : Toks} (h : Alike R a a') (h' : Alike R b b') :
    Alike R (a ++ b) (a' ++ b') := by
  induction h with
  | nil => exact h'
  | tok t _ ih => exact .tok t ih
  | group d h _ _ ih => exact .group d h ih
  | code h _ ih => rw [List.append_assoc, List.append_assoc]; exact .code h ih

theorem Alike.ofCode {a a' : Toks} (h : R a a') : Alike R a a' := by
  have := Alike.code h (Alike.nil (R := R))
  rwa [List.append_nil, List.append_nil] at this

/-- Templates with pieces that are alike. -/
macro "alike" : tactic => `(tactic| repeat' first
  | assumption
  | exact Alike.refl _
  | refine Alike.append ?_ ?_
  | refine Alike.group _ ?_ ?_
  | refine Alike.tok _ ?_)

theorem Alike.flatMap {α β : Type} {Q : α → β → Prop} {f : α → Toks} {g : β → Toks}
    (hf : ∀ a b, Q a b → Alike R (f a) (g b)) {xs : List α} {ys : List β}
    (h : List.Forall₂ Q xs ys) : Alike R (xs.flatMap f) (ys.flatMap g) := by
  induction h with
  | nil => exact .nil
  | cons h _ ih => exact Alike.append (hf _ _ h) ih

theorem Alike.terminated {xs ys : List Toks} (h : List.Forall₂ (Alike R) xs ys) :
    Alike R (tTerminated xs) (tTerminated ys) :=
  Alike.flatMap (fun _ _ h => h.append (.refl _)) h

theorem Alike.separated {xs ys : List Toks} (h : List.Forall₂ (Alike R) xs ys) :
    Alike R (tSeparated xs) (tSeparated ys) := by
  induction h with
  | nil => exact .nil
  | cons h h' ih =>
    cases h' with
    | nil => exact h
    | cons _ _ =>
      simp only [tSeparated] at ih ⊢
      exact Alike.append (h.append (.refl _)) ih

theorem Alike.flatten {xs ys : List Toks} (h : List.Forall₂ (Alike R) xs ys) :
    Alike R xs.flatten ys.flatten := by
  induction h with
  | nil => exact .nil
  | cons h _ ih => exact h.append ih

theorem forall2_refl {α : Type} {Q : α → α → Prop} (hq : ∀ a, Q a a) :
    (xs : List α) → List.Forall₂ Q xs xs
  | [] => .nil
  | x :: xs => .cons (hq x) (forall2_refl hq xs)

theorem forall2_append {α β : Type} {Q : α → β → Prop} {xs xs' : List α} {ys ys' : List β}
    (h : List.Forall₂ Q xs ys) (h' : List.Forall₂ Q xs' ys') :
    List.Forall₂ Q (xs ++ xs') (ys ++ ys') := by
  induction h with
  | nil => exact h'
  | cons h _ ih => exact .cons h ih

/-! ### outcomes -/

/-- The same outcome, with related values. -/
inductive OutAlike {α β : Type} (Q : α → β → Prop) : Out α → Out β → Prop
  | ret (ds : List Diag) {a : α} {b : β} (h : Q a b) : OutAlike Q (.ret ds a) (.ret ds b)
  | abort (ds : List Diag) : OutAlike Q (.abort ds) (.abort ds)
  | panic (p : PanicSite) : OutAlike Q (.panic p) (.panic p)
  | diverge : OutAlike Q .diverge .diverge

theorem OutAlike.pure {α β : Type} {Q : α → β → Prop} {a : α} {b : β} (h : Q a b) :
    OutAlike Q (Pure.pure a) (Pure.pure b) := .ret [] h

theorem OutAlike.bind {α β γ δ : Type} {Q : α → β → Prop} {P : γ → δ → Prop} {x : Out α} {y : Out β}
    {f : α → Out γ} {g : β → Out δ} (h : OutAlike Q x y) (hf : ∀ a b, Q a b → OutAlike P (f a) (g b)) :
    OutAlike P (x >>= f) (y >>= g) := by
  cases h with
  | ret ds h =>
    show OutAlike P ((f _).tell ds) ((g _).tell ds)
    generalize hx : f _ = x, hy : g _ = y
    have h' := hf _ _ h
    rw [hx, hy] at h'
    cases h' with
    | ret es h => exact .ret _ h
    | abort es => exact .abort _
    | panic p => exact .panic p
    | diverge => exact .diverge
  | abort ds => exact .abort ds
  | panic p => exact .panic p
  | diverge => exact .diverge

theorem OutAlike.refl {α : Type} {Q : α → α → Prop} (hq : ∀ a, Q a a) (x : Out α) : OutAlike Q x x := by
  cases x with
  | ret ds a => exact .ret ds (hq a)
  | abort ds => exact .abort ds
  | panic p => exact .panic p
  | diverge => exact .diverge

theorem OutAlike.same {α : Type} (x : Out α) : OutAlike Eq x x := .refl (fun _ => rfl) x

/-- Do the same first. -/
theorem OutAlike.andThen {α γ δ : Type} {P : γ → δ → Prop} (x : Out α)
    {f : α → Out γ} {g : α → Out δ} (hf : ∀ a, OutAlike P (f a) (g a)) :
    OutAlike P (x >>= f) (x >>= g) :=
  .bind (.same x) (by rintro a _ rfl; exact hf a)

theorem OutAlike.ite {α β : Type} {Q : α → β → Prop} {c : Prop} [Decidable c] {x x' : Out α}
    {y y' : Out β} (h : OutAlike Q x y) (h' : OutAlike Q x' y') :
    OutAlike Q (if c then x else x') (if c then y else y') := by
  split
  · exact h
  · exact h'

/-! ### trees -/

variable (R) in
/-- The same but for code. -/
inductive Value.Alike : Value → Value → Prop
  | refl (v : Value) : Alike v v
  | lit {l l' : Lit} (h : R [.lit l] [.lit l']) : Alike (.lit (.tok l)) (.lit (.tok l'))
  | block {a a' : Toks} (h : R a a') : Alike (.block a) (.block a')
  | bracket (pfx : Option Ident) {a a' : Toks} (h : R a a') : Alike (.bracket pfx a) (.bracket pfx a')

variable (R) in
/-- The same but for code. -/
inductive OptAlike : Option Value → Option Value → Prop
  | none : OptAlike none none
  | some {v v' : Value} (h : v.Alike R v') : OptAlike (some v) (some v')

variable (R) in
/-- The same but for code. -/
inductive Attr.Alike : Attr → Attr → Prop
  | kv (k : KebabIdent) {v v' : Value} (h : v.Alike R v') : Alike (.kv ⟨k, v⟩) (.kv ⟨k, v'⟩)
  | directive (d : Ident) (k : KebabOrStr) (m : Option Ident) {v v' : Option Value}
    (h : OptAlike R v v') : Alike (.directive ⟨d, k, m, v⟩) (.directive ⟨d, k, m, v'⟩)
  | spread {e e' : Toks} (h : Mview.Alike R e e') : Alike (.spread e) (.spread e')

variable (R) in
/-- The same but for code. -/
inductive TArgsAlike : Option Toks → Option Toks → Prop
  | none : TArgsAlike none none
  | some {a a' : Toks} (h : Alike R a a') : TArgsAlike (some a) (some a')

variable (R) in
/-- The same but for code. -/
inductive Tag.Alike : Tag → Tag → Prop
  | refl (tag : Tag) : Alike tag tag
  | component {p p' : Path} (h : p.Alike R p') : Alike (.component p) (.component p')

variable (R) in
mutual
/-- The same but for code. -/
def Element.Alike : Element → Element → Prop
  | .mk tag sels attrs args none, .mk tag' sels' attrs' args' none =>
    tag.Alike R tag' ∧ sels = sels' ∧ List.Forall₂ (Attr.Alike R) attrs attrs' ∧ TArgsAlike R args args'
  | .mk tag sels attrs args (some cs), .mk tag' sels' attrs' args' (some cs') =>
    tag.Alike R tag' ∧ sels = sels' ∧ List.Forall₂ (Attr.Alike R) attrs attrs' ∧ TArgsAlike R args args' ∧
      treesAlike cs cs'
  | _, _ => False
/-- The same but for code. -/
def treesAlike : List Child → List Child → Prop
  | [], [] => True
  | .value v :: cs, .value v' :: cs' => v.Alike R v' ∧ treesAlike cs cs'
  | .elem e :: cs, .elem e' :: cs' => e.Alike e' ∧ treesAlike cs cs'
  | .slot e :: cs, .slot e' :: cs' => e.Alike e' ∧ treesAlike cs cs'
  | _, _ => False
end

/-! ### values and attributes -/

theorem value_alike {v v' : Value} (h : v.Alike R v') : OutAlike (Alike R) v.toToks v'.toToks := by
  cases h with
  | refl v => exact .refl Alike.refl _
  | lit h => exact .pure (.ofCode h)
  | block h => exact .pure (.group _ (.ofCode h) .nil)
  | bracket pfx h =>
    have h := Alike.ofCode h
    cases pfx with
    | none => exact .pure (by alike)
    | some p =>
      simp only [Value.toToks]
      exact .ite (.pure (by alike)) (.andThen _ fun _ => .pure .nil)

theorem optValue_alike {v v' : Option Value} (h : OptAlike R v v') :
    OutAlike (Alike R) (optValueToks v) (optValueToks v') := by
  cases h with
  | none => exact .pure .nil
  | some h => exact value_alike h

theorem valueOrTrue_alike {v v' : Option Value} (h : OptAlike R v v') :
    OutAlike (Alike R) (valueOrTrue v).toToks (valueOrTrue v').toToks := by
  cases h with
  | none => exact .refl Alike.refl _
  | some h => exact value_alike h

theorem useDirective_alike {d : Ident} {k : KebabOrStr} {m : Option Ident} {v v' : Option Value}
    (h : OptAlike R v v') : OutAlike (fun a b => a.1 = b.1 ∧ Alike R a.2 b.2)
      (useDirectiveFnValue ⟨d, k, m, v⟩) (useDirectiveFnValue ⟨d, k, m, v'⟩) := by
  simp only [useDirectiveFnValue]
  have hm : ∀ fn : Ident, OutAlike (fun a b : Ident × Toks => a.1 = b.1 ∧ Alike R a.2 b.2)
      (match (generalizing := false) v with
        | none => pure (fn, [tParen [], tP '.', tId c!"into", tParen []])
        | some v => do
          let t ← v.toToks
          pure (fn, tAbs [c!"std", c!"convert", c!"Into", c!"into"] ++ [tParen t]))
      (match (generalizing := false) v' with
        | none => pure (fn, [tParen [], tP '.', tId c!"into", tParen []])
        | some v => do
          let t ← v.toToks
          pure (fn, tAbs [c!"std", c!"convert", c!"Into", c!"into"] ++ [tParen t])) := by
    intro fn
    cases h with
    | none => exact .pure ⟨rfl, .refl _⟩
    | some h =>
      exact .bind (value_alike h) fun t t' h => .pure ⟨rfl, by dsimp only; alike⟩
  exact .ite (.andThen _ fun _ => .andThen _ fun fn => .andThen _ fun _ => hm fn)
    (.andThen _ fun fn => .andThen _ fun _ => hm fn)

theorem xmlKv_alike {k : KebabIdent} {v v' : Value} (kind : TagKind) (h : v.Alike R v') :
    OutAlike (Alike R) (xmlKvAttributeTokens ⟨k, v⟩ kind) (xmlKvAttributeTokens ⟨k, v'⟩ kind) := by
  simp only [xmlKvAttributeTokens]
  refine .ite (.andThen _ fun _ => .bind (value_alike h) fun t t' h => .pure (by alike)) (.ite ?_ ?_)
  · exact .bind (value_alike h) fun t t' h => .pure (by alike)
  · exact .andThen _ fun _ => .bind (value_alike h) fun t t' h => .pure (by alike)

theorem componentKv_alike {k : KebabIdent} {v v' : Value} (h : v.Alike R v') :
    OutAlike (Alike R) (componentKvAttributeTokens ⟨k, v⟩) (componentKvAttributeTokens ⟨k, v'⟩) := by
  simp only [componentKvAttributeTokens]
  exact .andThen _ fun _ => .bind (value_alike h) fun t t' h => .pure (by alike)

theorem eventPath_alike (d : Ident) (k : KebabOrStr) (m : Option Ident) (v v' : Option Value) :
    eventListenerEventPath ⟨d, k, m, v⟩ = eventListenerEventPath ⟨d, k, m, v'⟩ := rfl

theorem xmlDirective_alike {d : Ident} {k : KebabOrStr} {m : Option Ident} {v v' : Option Value}
    (h : OptAlike R v v') :
    OutAlike (Alike R) (xmlDirectiveTokens ⟨d, k, m, v⟩) (xmlDirectiveTokens ⟨d, k, m, v'⟩) := by
  simp only [xmlDirectiveTokens, eventPath_alike d k m v v']
  have hv := optValue_alike h
  refine .ite (.andThen _ fun _ => .andThen _ fun _ => .bind hv fun t t' h => .pure (by alike))
    (.ite (.andThen _ fun _ => .andThen _ fun _ => .bind hv fun t t' h => .pure (by alike))
    (.ite (.andThen _ fun _ => .bind hv fun t t' h => .pure (by alike))
    (.ite (.bind (useDirective_alike h) ?_)
    (.ite (.refl Alike.refl _) (.refl Alike.refl _)))))
  rintro ⟨f, t⟩ ⟨f', t'⟩ ⟨rfl, h⟩
  have h : Alike R t t' := h
  exact .pure (by alike)

theorem anyAttr_alike {d : Ident} {k : KebabOrStr} {m : Option Ident} {v v' : Option Value}
    (h : OptAlike R v v') :
    OutAlike (Option.Rel (Alike R)) (directiveToAnyAttrPath ⟨d, k, m, v⟩)
      (directiveToAnyAttrPath ⟨d, k, m, v'⟩) := by
  have hv := optValue_alike h
  have ht := valueOrTrue_alike h
  simp only [directiveToAnyAttrPath, eventPath_alike d k m v v']
  refine .ite (.bind ht fun t t' h => .pure (.some (by alike)))
    (.ite (.andThen _ fun key => ?_)
    (.ite (.andThen _ fun _ => .bind ht fun t t' h => .pure (.some (by alike)))
    (.ite (.andThen _ fun _ => .bind hv fun t t' h => .pure (.some (by alike)))
    (.ite (.bind (useDirective_alike h) ?_) (.pure .none)))))
  · cases AttributeKind.ofStr key with
    | custom => exact .bind ht fun t t' h => .pure (.some (by alike))
    | _ => exact .andThen _ fun _ => .bind ht fun t t' h => .pure (.some (by alike))
  · rintro ⟨f, t⟩ ⟨f', t'⟩ ⟨rfl, h⟩
    have h : Alike R t t' := h
    exact .pure (.some (by alike))

theorem clone_alike {d : Ident} {k : KebabOrStr} {m : Option Ident} {v v' : Option Value}
    (h : OptAlike R v v') :
    componentCloneTokens ⟨d, k, m, v⟩ = componentCloneTokens ⟨d, k, m, v'⟩ := by
  cases h <;> rfl

/-! ### elements -/

/-- The same but for code. -/
def XmlBufs.Alike (R : Toks → Toks → Prop) (b b' : XmlBufs) : Prop :=
  Mview.Alike R b.attrs b'.attrs ∧ Mview.Alike R b.spreadAttrs b'.spreadAttrs ∧
    Mview.Alike R b.directives b'.directives

theorem xmlLoop_alike (kind : TagKind) {as as' : List Attr} (h : List.Forall₂ (Attr.Alike R) as as') :
    ∀ {b b' : XmlBufs}, b.Alike R b' → OutAlike (XmlBufs.Alike R) (xmlAttrsLoop kind b as)
      (xmlAttrsLoop kind b' as') := by
  induction h with
  | nil => exact fun h => .pure h
  | cons h _ ih =>
    rintro b b' ⟨h1, h2, h3⟩
    cases h with
    | kv k h =>
      exact .bind (xmlKv_alike kind h) fun t t' h => ih ⟨h1.append h, h2, h3⟩
    | directive d k m h =>
      exact .bind (xmlDirective_alike h) fun t t' h => ih ⟨h1, h2, h3.append h⟩
    | spread h => exact ih ⟨h1, h2.append (by simp only [xmlSpreadTokens]; alike), h3⟩

theorem optOut_alike {α β : Type} {Q : α → β → Prop} {x : Option (Out α)} {y : Option (Out β)}
    (h : Option.Rel (OutAlike Q) x y) : OutAlike (Option.Rel Q) (optOut x) (optOut y) := by
  cases h with
  | none => exact .pure .none
  | some h => exact .bind h fun a b h => .pure (.some h)

theorem xmlTagPath_alike {tag tag' : Tag} (h : tag.Alike R tag') :
    xmlTagPath tag = xmlTagPath tag' ∧ tag.kind = tag'.kind := by
  cases h with
  | refl => exact ⟨rfl, rfl⟩
  | component h => exact ⟨rfl, rfl⟩

theorem xml_alike {tag tag' : Tag} (ht : tag.Alike R tag') (sels : List Selector) {as as' : List Attr}
    {nodes nodes' : Option (Out (List Toks))} (ha : List.Forall₂ (Attr.Alike R) as as')
    (hn : Option.Rel (OutAlike (List.Forall₂ (Alike R))) nodes nodes') :
    Option.Rel (OutAlike (Alike R)) (xmlToTokens tag sels as nodes) (xmlToTokens tag' sels as' nodes') := by
  unfold xmlToTokens
  rw [(xmlTagPath_alike ht).1, (xmlTagPath_alike ht).2]
  cases xmlTagPath tag' with
  | none => exact .none
  | some p =>
    refine .some (.andThen _ fun path => .bind (xmlLoop_alike _ ha ⟨.nil, .nil, .nil⟩) ?_)
    rintro b b' ⟨h1, h2, h3⟩
    refine .bind (optOut_alike hn) fun c c' h => .pure ?_
    have hc : Alike R (match (generalizing := false) c with | none => [] | some cs => xmlChildMethodsTokens cs)
        (match (generalizing := false) c' with | none => [] | some cs => xmlChildMethodsTokens cs) := by
      cases h with
      | none => exact .nil
      | some h => exact Alike.flatMap (fun _ _ h => by alike) h
    alike

/-- The same but for code. -/
def CompBufs.Alike (R : Toks → Toks → Prop) (b b' : CompBufs) : Prop :=
  Mview.Alike R b.attrs b'.attrs ∧ List.Forall₂ (Mview.Alike R) b.directivePaths b'.directivePaths ∧
    b.clones = b'.clones

theorem componentLoop_alike (isSlot : Bool) {as as' : List Attr}
    (h : List.Forall₂ (Attr.Alike R) as as') :
    ∀ {b b' : CompBufs}, b.Alike R b' → OutAlike (CompBufs.Alike R) (componentAttrsLoop isSlot b as)
      (componentAttrsLoop isSlot b' as') := by
  induction h with
  | nil => exact fun h => .pure h
  | cons h _ ih =>
    rintro b b' ⟨h1, h2, h3⟩
    cases h with
    | kv k h =>
      exact .bind (componentKv_alike h) fun t t' h => ih ⟨h1.append h, h2, h3⟩
    | spread h =>
      exact .ite (.andThen _ fun _ => ih ⟨h1, h2, h3⟩)
        (ih ⟨h1, forall2_append h2 (.cons h .nil), h3⟩)
    | directive d k m h =>
      simp only [componentAttrsLoop]
      refine .ite (.andThen _ fun _ => ?_) (.ite (.andThen _ fun _ => ih ⟨h1, h2, h3⟩) ?_)
      · rw [clone_alike h]
        exact .andThen _ fun t => ih ⟨h1, h2, by simp only [h3]⟩
      · refine .bind (anyAttr_alike h) fun p p' h => ?_
        cases h with
        | none => exact .andThen _ fun _ => ih ⟨h1, h2, h3⟩
        | some h => exact ih ⟨h1, forall2_append h2 (.cons h .nil), h3⟩

theorem componentChildren_alike {cs cs' : List Toks} {args args' : Option Toks} (clones : Toks)
    (hc : List.Forall₂ (Alike R) cs cs') (ha : TArgsAlike R args args') :
    Alike R (componentChildrenTokens cs args clones) (componentChildrenTokens cs' args' clones) := by
  have h : Alike R (childrenFragmentTokens cs) (childrenFragmentTokens cs') := by
    have := Alike.terminated hc
    simp only [childrenFragmentTokens]; alike
  cases ha with
  | none => simp only [componentChildrenTokens]; alike
  | some ha => simp only [componentChildrenTokens]; alike

theorem segs_alike {ss ss' : List PathSeg}
    (h : List.Forall₂ (fun s s' : PathSeg => Alike R s.toToks s'.toToks) ss ss') :
    Alike R (segsToks ss) (segsToks ss') := by
  induction h with
  | nil => exact .nil
  | cons h h' ih =>
    cases h' with
    | nil => exact h
    | cons _ _ =>
      simp only [segsToks] at ih ⊢
      exact (h.append (.refl _)).append ih

theorem turbofishSegs_alike {ss ss' : List PathSeg} (h : List.Forall₂ (PathSeg.Alike R) ss ss') :
    OutAlike (List.Forall₂ fun s s' : PathSeg => Alike R s.toToks s'.toToks) (turbofishSegs ss)
      (turbofishSegs ss') := by
  induction h with
  | nil => exact .pure .nil
  | cons h _ ih =>
    refine .bind (Q := fun s s' : PathSeg => Alike R s.toToks s'.toToks) ?_
      fun s s' h => .bind ih fun ss ss' h' => .pure (.cons h h')
    cases h with
    | mk i h =>
      cases h with
      | none => exact .pure (.refl _)
      | angle t h =>
        refine .pure ?_
        simp only [PathSeg.toToks, PathArgs.toToks]
        alike
      | paren a a' => exact .abort _

theorem turbofishify_alike {p p' : Path} (h : p.Alike R p') :
    OutAlike (fun p p' : Path => Alike R p.toToks p'.toToks) (turbofishify p) (turbofishify p') := by
  cases h with
  | mk l h =>
    refine .bind (turbofishSegs_alike h) fun ss ss' h => .pure ?_
    simp only [Path.toToks]
    exact (Alike.refl _).append (segs_alike h)

theorem pathArgs_refl (a : PathArgs) : a.Alike R a := by
  cases a with
  | none => exact .none
  | angle t a => exact .angle t (.refl _)
  | paren a => exact .paren a a

theorem path_refl (p : Path) : p.Alike R p := .mk _ (forall2_refl (fun s => .mk _ (pathArgs_refl _)) _)

theorem component_alike (isSlot : Bool) {tag tag' : Tag} (ht : tag.Alike R tag') (sels : List Selector) {as as' : List Attr}
    {args args' : Option Toks} {nodes nodes' : Option (Out (List Toks))} {slots slots' : Option (Out Toks)}
    (ha : List.Forall₂ (Attr.Alike R) as as') (hargs : TArgsAlike R args args')
    (hn : Option.Rel (OutAlike (List.Forall₂ (Alike R))) nodes nodes')
    (hs : Option.Rel (OutAlike (Alike R)) slots slots') :
    Option.Rel (OutAlike (Alike R)) (componentToTokens isSlot tag sels as args nodes slots)
      (componentToTokens isSlot tag' sels as' args' nodes' slots') := by
  have hcomp : ∀ {p p' : Path}, p.Alike R p' →
      Option.Rel (OutAlike (Alike R)) (componentToTokens isSlot (.component p) sels as args nodes slots)
        (componentToTokens isSlot (.component p') sels as' args' nodes' slots') := by
    intro p p' hp
    refine .some (.bind (turbofishify_alike hp) fun path path' hpath => .andThen _ fun paths =>
      .bind (componentLoop_alike isSlot ha ⟨.nil, forall2_refl Alike.refl _, rfl⟩) ?_)
    rintro ⟨b1, b2, b3⟩ ⟨b1', b2', b3'⟩ ⟨h1, h2, h3⟩
    dsimp only at h1 h2 h3
    subst h3
    refine .bind (optOut_alike hn) fun c c' h => .bind (optOut_alike hs) fun sc sc' hs => ?_
    have hc : Alike R
        (match (generalizing := false) c with | some (c :: cs) => componentChildrenTokens (c :: cs) args b3 | _ => [])
        (match (generalizing := false) c' with | some (c :: cs) => componentChildrenTokens (c :: cs) args' b3 | _ => []) := by
      cases h with
      | none => exact .nil
      | some h =>
        cases h with
        | nil => exact .nil
        | cons h h' => exact componentChildren_alike b3 (.cons h h') hargs
    have hs : Alike R (match (generalizing := false) sc with | some t => t | none => []) (match (generalizing := false) sc' with | some t => t | none => []) := by
      cases hs with
      | none => exact .nil
      | some h => exact h
    have h2 := Alike.terminated h2
    exact .ite (.pure (by dsimp only; alike)) (.pure (by dsimp only; alike))
  cases ht with
  | refl tag =>
    cases tag with
    | component p => exact hcomp (path_refl p)
    | _ => exact .none
  | component h => exact hcomp h

/-! ### slots -/

/-- The same names, the same but for code. -/
abbrev SlotAlike (R : Toks → Toks → Prop) (a b : Ident × Toks) : Prop := a.1 = b.1 ∧ Alike R a.2 b.2
/-- The same names, the same but for code. -/
abbrev EntryAlike (R : Toks → Toks → Prop) (a b : Ident × List Toks) : Prop :=
  a.1 = b.1 ∧ List.Forall₂ (Alike R) a.2 b.2

theorem pushSlot_alike {n : Ident} {t t' : Toks} (h : Alike R t t') {m m' : List (Ident × List Toks)}
    (hm : List.Forall₂ (EntryAlike R) m m') :
    List.Forall₂ (EntryAlike R) (pushSlot n t m) (pushSlot n t' m') := by
  induction hm with
  | nil => exact .cons ⟨rfl, .cons h .nil⟩ .nil
  | @cons a b l l' hab hl ih =>
    obtain ⟨a1, a2⟩ := a
    obtain ⟨b1, b2⟩ := b
    obtain ⟨h1, h2⟩ := hab
    dsimp only at h1 h2
    subst h1
    simp only [pushSlot]
    split
    · exact .cons ⟨rfl, forall2_append h2 (.cons h .nil)⟩ hl
    · exact .cons ⟨rfl, h2⟩ ih

theorem groupSlots_alike {ss ss' : List (Ident × Toks)} (h : List.Forall₂ (SlotAlike R) ss ss') :
    ∀ {m m' : List (Ident × List Toks)}, List.Forall₂ (EntryAlike R) m m' →
      List.Forall₂ (EntryAlike R) (groupSlots ss m) (groupSlots ss' m') := by
  induction h with
  | nil => exact fun h => h
  | @cons a b l l' hab hl ih =>
    intro m m' hm
    obtain ⟨a1, a2⟩ := a
    obtain ⟨b1, b2⟩ := b
    obtain ⟨h1, h2⟩ := hab
    dsimp only at h1 h2
    subst h1
    exact ih (pushSlot_alike h2 hm)

theorem insertAt_forall2 {α β : Type} {Q : α → β → Prop} {a : α} {b : β} (h : Q a b) :
    ∀ (n : Nat) {xs : List α} {ys : List β}, List.Forall₂ Q xs ys →
      List.Forall₂ Q (insertAt a n xs) (insertAt b n ys)
  | 0, _, _, hx => .cons h hx
  | _ + 1, _, _, .nil => .cons h .nil
  | n + 1, _, _, .cons hx hxs => .cons hx (insertAt_forall2 h n hxs)

theorem permute_forall2 {α β : Type} {Q : α → β → Prop} :
    ∀ (ns : List Nat) {xs : List α} {ys : List β}, List.Forall₂ Q xs ys →
      List.Forall₂ Q (permute ns xs) (permute ns ys)
  | [], _, _, .nil => .nil
  | _ :: _, _, _, .nil => .nil
  | [], _, _, .cons h h' => .cons h h'
  | n :: ns, _, _, .cons h h' => insertAt_forall2 h n (permute_forall2 ns h')

theorem slotMethod_alike {e e' : Ident × List Toks} (h : EntryAlike R e e') :
    OutAlike (Alike R) (slotMethod e) (slotMethod e') := by
  obtain ⟨a1, a2⟩ := e
  obtain ⟨b1, b2⟩ := e'
  obtain ⟨h1, h2⟩ := h
  dsimp only at h1 h2
  subst h1
  refine .andThen _ fun m => ?_
  have hs := Alike.separated h2
  cases h2 with
  | nil => exact .pure (.refl _)
  | cons h h' =>
    cases h' with
    | nil => exact .pure (by alike)
    | cons h' h'' => exact .pure (by alike)

theorem slotMethods_alike {es es' : List (Ident × List Toks)} (h : List.Forall₂ (EntryAlike R) es es') :
    OutAlike (Alike R) (slotMethods es) (slotMethods es') := by
  induction h with
  | nil => exact .pure .nil
  | cons h _ ih => exact .bind (slotMethod_alike h) fun t t' h => .bind ih fun ts ts' h' => .pure (h.append h')

theorem slotsToTokens_alike (order : List Nat) {ss ss' : Out (List (Ident × Toks))}
    (h : OutAlike (List.Forall₂ (SlotAlike R)) ss ss') :
    OutAlike (Alike R) (slotsToTokens order ss) (slotsToTokens order ss') :=
  .bind h fun _ _ h => slotMethods_alike (permute_forall2 order (groupSlots_alike h .nil))

/-! ### the tree -/

theorem elementOut_alike {x y : Option (Out Toks)} (site : PanicSite)
    (h : Option.Rel (OutAlike (Alike R)) x y) :
    OutAlike (Alike R) (match (generalizing := false) x with | some o => o | none => .panic site)
      (match (generalizing := false) y with | some o => o | none => .panic site) := by
  cases h with
  | none => exact .panic _
  | some h => exact h

theorem orElse_alike {x y x' y' : Option (Out Toks)} (h : Option.Rel (OutAlike (Alike R)) x y)
    (h' : Option.Rel (OutAlike (Alike R)) x' y') :
    Option.Rel (OutAlike (Alike R)) (match (generalizing := false) x with | some o => some o | none => x')
      (match (generalizing := false) y with | some o => some o | none => y') := by
  cases h with
  | none => exact h'
  | some h => exact .some h

theorem Element.Alike.tag {e e' : Element} (h : e.Alike R e') : e.tag.Alike R e'.tag := by
  rcases e with ⟨tag, sels, attrs, args, _ | cs⟩ <;> rcases e' with ⟨tag', sels', attrs', args', _ | cs'⟩ <;>
    rw [Element.Alike] at h <;> first | exact h.1 | exact h.elim

mutual
theorem element_alike (asSlot : Bool) (s : Sched) : (e e' : Element) → e.Alike R e' →
    OutAlike (Alike R) (expandElement asSlot s e) (expandElement asSlot s e')
  | .mk tag sels attrs args none, .mk tag' sels' attrs' args' none, h => by
    rw [Element.Alike] at h
    obtain ⟨ht, rfl, ha, hg⟩ := h
    rw [expandElement, expandElement]
    refine elementOut_alike _ ?_
    split
    · exact component_alike true ht sels ha hg .none .none
    · exact orElse_alike (xml_alike ht sels ha .none) (component_alike false ht sels ha hg .none .none)
  | .mk tag sels attrs args (some cs), .mk tag' sels' attrs' args' (some cs'), h => by
    rw [Element.Alike] at h
    obtain ⟨ht, rfl, ha, hg, hc⟩ := h
    have h1 := nodes_alike s.l cs cs' hc
    have h2 := slotsToTokens_alike s.here (slots_alike s.r cs cs' hc)
    rw [expandElement, expandElement]
    refine elementOut_alike _ ?_
    split
    · exact component_alike true ht sels ha hg (.some h1) (.some h2)
    · exact orElse_alike (xml_alike ht sels ha (.some h1))
        (component_alike false ht sels ha hg (.some h1) (.some h2))
  | .mk _ _ _ _ none, .mk _ _ _ _ (some _), h => by simp [Element.Alike] at h
  | .mk _ _ _ _ (some _), .mk _ _ _ _ none, h => by simp [Element.Alike] at h
theorem nodes_alike (s : Sched) : (cs cs' : List Child) → treesAlike R cs cs' →
    OutAlike (List.Forall₂ (Alike R)) (expandNodes s cs) (expandNodes s cs')
  | [], [], _ => by rw [expandNodes]; exact .pure .nil
  | .value v :: cs, .value v' :: cs', h => by
    rw [treesAlike] at h
    rw [expandNodes, expandNodes]
    exact .bind (value_alike h.1) fun t t' h1 => .bind (nodes_alike s.r cs cs' h.2) fun ts ts' h2 =>
      .pure (.cons (by simp only [intoRender]; alike) h2)
  | .elem e :: cs, .elem e' :: cs', h => by
    rw [treesAlike] at h
    rw [expandNodes, expandNodes]
    exact .bind (element_alike false s.l e e' h.1) fun t t' h1 =>
      .bind (nodes_alike s.r cs cs' h.2) fun ts ts' h2 =>
        .pure (.cons (by simp only [intoRender]; alike) h2)
  | .slot e :: cs, .slot e' :: cs', h => by
    rw [treesAlike] at h
    rw [expandNodes, expandNodes]
    exact nodes_alike s.r cs cs' h.2
  | [], _ :: _, h => by simp [treesAlike] at h
  | c :: _, [], h => by cases c <;> simp [treesAlike] at h
  | .value _ :: _, .elem _ :: _, h => by simp [treesAlike] at h
  | .value _ :: _, .slot _ :: _, h => by simp [treesAlike] at h
  | .elem _ :: _, .value _ :: _, h => by simp [treesAlike] at h
  | .elem _ :: _, .slot _ :: _, h => by simp [treesAlike] at h
  | .slot _ :: _, .value _ :: _, h => by simp [treesAlike] at h
  | .slot _ :: _, .elem _ :: _, h => by simp [treesAlike] at h
theorem slots_alike (s : Sched) : (cs cs' : List Child) → treesAlike R cs cs' →
    OutAlike (List.Forall₂ (SlotAlike R)) (expandSlots s cs) (expandSlots s cs')
  | [], [], _ => by rw [expandSlots]; exact .pure .nil
  | .value v :: cs, .value v' :: cs', h => by
    rw [treesAlike] at h
    rw [expandSlots, expandSlots]
    exact slots_alike s.r cs cs' h.2
  | .elem e :: cs, .elem e' :: cs', h => by
    rw [treesAlike] at h
    rw [expandSlots, expandSlots]
    exact slots_alike s.r cs cs' h.2
  | .slot e :: cs, .slot e' :: cs', h => by
    rw [treesAlike] at h
    rw [expandSlots, expandSlots]
    have h1 := element_alike true s.l e e' h.1
    have h2 := slots_alike s.r cs cs' h.2
    have ht := h.1.tag
    generalize e.tag = tag, e'.tag = tag' at ht
    have hg : ∀ {p p' : Path}, p.Alike R p' → p.getIdent = p'.getIdent := by
      rintro _ _ ⟨_ | _, _ | ⟨⟨i, _ | _⟩, _ | _⟩⟩ <;> rfl
    cases ht with
    | component hp =>
      dsimp only
      rw [hg hp]
      split
      · exact .bind h1 fun t t' h1 => .bind h2 fun ts ts' h2 => .pure (.cons ⟨rfl, h1⟩ h2)
      · exact .andThen _ fun _ => h2
    | refl =>
    split
    · split
      · exact .bind h1 fun t t' h1 => .bind h2 fun ts ts' h2 => .pure (.cons ⟨rfl, h1⟩ h2)
      · exact .andThen _ fun _ => h2
    · exact .panic _
  | [], _ :: _, h => by simp [treesAlike] at h
  | c :: _, [], h => by cases c <;> simp [treesAlike] at h
  | .value _ :: _, .elem _ :: _, h => by simp [treesAlike] at h
  | .value _ :: _, .slot _ :: _, h => by simp [treesAlike] at h
  | .elem _ :: _, .value _ :: _, h => by simp [treesAlike] at h
  | .elem _ :: _, .slot _ :: _, h => by simp [treesAlike] at h
  | .slot _ :: _, .value _ :: _, h => by simp [treesAlike] at h
  | .slot _ :: _, .elem _ :: _, h => by simp [treesAlike] at h
end

theorem anySlot_alike : (cs cs' : List Child) → treesAlike R cs cs' →
    cs.any Child.isSlot = cs'.any Child.isSlot ∧ cs.length = cs'.length
  | [], [], _ => ⟨rfl, rfl⟩
  | .value v :: cs, .value v' :: cs', h => by
    rw [treesAlike] at h
    have := anySlot_alike cs cs' h.2
    simp [Child.isSlot, this]
  | .elem v :: cs, .elem v' :: cs', h => by
    rw [treesAlike] at h
    have := anySlot_alike cs cs' h.2
    simp [Child.isSlot, this]
  | .slot v :: cs, .slot v' :: cs', h => by
    rw [treesAlike] at h
    have := anySlot_alike cs cs' h.2
    simp [Child.isSlot, this]
  | [], _ :: _, h => by simp [treesAlike] at h
  | c :: _, [], h => by cases c <;> simp [treesAlike] at h
  | .value _ :: _, .elem _ :: _, h => by simp [treesAlike] at h
  | .value _ :: _, .slot _ :: _, h => by simp [treesAlike] at h
  | .elem _ :: _, .value _ :: _, h => by simp [treesAlike] at h
  | .elem _ :: _, .slot _ :: _, h => by simp [treesAlike] at h
  | .slot _ :: _, .value _ :: _, h => by simp [treesAlike] at h
  | .slot _ :: _, .elem _ :: _, h => by simp [treesAlike] at h

theorem root_alike (s : Sched) {cs cs' : List Child} (h : treesAlike R cs cs') :
    OutAlike (Alike R) (expandRoot s cs) (expandRoot s cs') := by
  have hn := nodes_alike s cs cs' h
  obtain ⟨ha, hl⟩ := anySlot_alike cs cs' h
  have hone : OutAlike (Alike R) (do let ns ← expandNodes s cs; pure (rootBlock ns.flatten))
      (do let ns ← expandNodes s cs'; pure (rootBlock ns.flatten)) :=
    .bind hn fun ns ns' h => .pure (by
      have := Alike.flatten h
      simp only [rootBlock]; alike)
  have hmany : OutAlike (Alike R)
      (if cs.any Child.isSlot then abortWith .slotAtTopLevel
        else do let ns ← expandNodes s cs; pure (rootBlock (childrenFragmentTokens ns)))
      (if cs'.any Child.isSlot then abortWith .slotAtTopLevel
        else do let ns ← expandNodes s cs'; pure (rootBlock (childrenFragmentTokens ns))) := by
    rw [← ha]
    exact .ite (.abort _) (.bind hn fun ns ns' h => .pure (by
      have := Alike.terminated h
      simp only [rootBlock, childrenFragmentTokens]; alike))
  match cs, cs', h, hl with
  | [], [], _, _ => exact hmany
  | [.value _], [.value _], _, _ => exact hone
  | [.elem _], [.elem _], _, _ => exact hone
  | [.slot _], [.slot _], _, _ => exact .abort _
  | c :: _ :: _, c' :: _ :: _, _, _ => cases c <;> cases c' <;> exact hmany
  | [.value _], [.elem _], h, _ => simp [treesAlike] at h
  | [.value _], [.slot _], h, _ => simp [treesAlike] at h
  | [.elem _], [.value _], h, _ => simp [treesAlike] at h
  | [.elem _], [.slot _], h, _ => simp [treesAlike] at h
  | [.slot _], [.value _], h, _ => simp [treesAlike] at h
  | [.slot _], [.elem _], h, _ => simp [treesAlike] at h

end Mview
