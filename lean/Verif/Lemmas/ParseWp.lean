import Verif.Lemmas.Kebab
/-
An invariant of all parsers: they terminate, consume from the front, panic only
where `Inv.A` allows, and produce trees satisfying `Ok`.
-/

namespace Mview

/-! ### sizes and suffixes -/

theorem TT.size_pos (t : TT) : 0 < t.size := by cases t <;> simp [TT.size]

@[simp] theorem toksSize_nil : toksSize [] = 0 := rfl
@[simp] theorem toksSize_cons (t : TT) (ts : Toks) : toksSize (t :: ts) = t.size + toksSize ts := by
  simp [toksSize]
theorem toksSize_append (a b : Toks) : toksSize (a ++ b) = toksSize a + toksSize b := by
  induction a with
  | nil => simp
  | cons t a ih => simp [ih]; omega
theorem length_le_toksSize (a : Toks) : a.length ≤ toksSize a := by
  induction a with
  | nil => simp
  | cons t a ih => have := t.size_pos; simp; omega

/-- `rest` is what is left of `ts` after consuming something or nothing. -/
def Sub (rest ts : Toks) : Prop := ∃ u, ts = u ++ rest
/-- `rest` is what is left of `ts` after consuming something. -/
def SSub (rest ts : Toks) : Prop := ∃ t u, ts = t :: u ++ rest

theorem Sub.refl (ts : Toks) : Sub ts ts := ⟨[], rfl⟩
theorem Sub.trans {a b c : Toks} (h : Sub a b) (h' : Sub b c) : Sub a c := by
  obtain ⟨u, rfl⟩ := h; obtain ⟨v, rfl⟩ := h'; exact ⟨v ++ u, by simp⟩
theorem SSub.sub {a b : Toks} (h : SSub a b) : Sub a b := by
  obtain ⟨t, u, rfl⟩ := h; exact ⟨t :: u, rfl⟩
theorem Sub.ssub {a b c : Toks} (h : Sub a b) (h' : SSub b c) : SSub a c := by
  obtain ⟨u, rfl⟩ := h; obtain ⟨t, v, rfl⟩ := h'; exact ⟨t, v ++ u, by simp⟩
theorem SSub.of_sub {a b c : Toks} (h : SSub a b) (h' : Sub b c) : SSub a c := by
  obtain ⟨t, u, rfl⟩ := h; obtain ⟨v, rfl⟩ := h'
  cases v with
  | nil => exact ⟨t, u, by simp⟩
  | cons x v => exact ⟨x, v ++ t :: u, by simp⟩
theorem SSub.cons (t : TT) (ts : Toks) : SSub ts (t :: ts) := ⟨t, [], rfl⟩
theorem Sub.size {a b : Toks} (h : Sub a b) : toksSize a ≤ toksSize b := by
  obtain ⟨u, rfl⟩ := h; rw [toksSize_append]; omega
theorem SSub.size {a b : Toks} (h : SSub a b) : toksSize a < toksSize b := by
  obtain ⟨t, u, rfl⟩ := h
  have := t.size_pos
  rw [List.cons_append, toksSize_cons, toksSize_append]; omega
theorem Sub.length {a b : Toks} (h : Sub a b) : a.length ≤ b.length := by
  obtain ⟨u, rfl⟩ := h; simp
theorem SSub.length {a b : Toks} (h : SSub a b) : a.length < b.length := by
  obtain ⟨t, u, rfl⟩ := h; simp; omega

/-! ### the invariant -/

/-- A name can become an identifier, or `A` allows the panic. -/
def RawOk (A : PanicSite → Prop) (name : Str) : Prop := name ∈ notRaw → A (.rawIdent name)

/-- What is assumed of the input (`T`, inherited by suffixes and groups) so that only
panics in `A` happen. -/
structure Inv (pp : PathParser) where
  A : PanicSite → Prop
  T : Toks → Prop
  tail : ∀ {t ts}, T (t :: ts) → T ts
  group : ∀ {d inner ts}, d ≠ .bracket → T (.group d inner :: ts) → T inner
  /-- names -/
  kebab : ∀ {ts run rest}, T ts → kebabSplit ts = some (run, rest) →
    RawOk A (dashToUnderscore (kebabText run))
  /-- slot method names -/
  slotName : ∀ {ts run rest}, T ts → kebabSplit ts = some (run, rest) →
    RawOk A (upperCamelToSnake (dashToUnderscore (kebabText run)))
  slotPath : ∀ {ts p rest i}, T ts → pp.run ts = (some p, rest) → p.getIdent = some i →
    RawOk A (upperCamelToSnake i.name)
  /-- tags of slots -/
  slotTag : ∀ {s ts run rest}, T (.ident ⟨false, c!"slot"⟩ :: .punct ':' s :: ts) →
    kebabSplit ts = some (run, rest) → isComponent (kebabText run) = true ∨ A .slotNotComponent

section
variable {pp : PathParser} (I : Inv pp)

theorem Inv.sub {a b : Toks} (h : Sub a b) (hT : I.T b) : I.T a := by
  obtain ⟨u, rfl⟩ := h
  induction u with
  | nil => exact hT
  | cons t u ih => exact ih (I.tail hT)

theorem Inv.ssub {a b : Toks} (h : SSub a b) (hT : I.T b) : I.T a := I.sub h.sub hT

def KebabIdent.Ok (k : KebabIdent) : Prop := 0 < k.spans ∧ RawOk I.A (dashToUnderscore k.repr)

def KebabOrStr.Ok : KebabOrStr → Prop
  | .kebab k => k.Ok I
  | .str _ => True

def Tag.Ok : Tag → Prop
  | .component p => ∀ i, p.getIdent = some i → RawOk I.A (upperCamelToSnake i.name)
  | .webComponent k => 0 < k.spans
  | _ => True

def Attr.Ok : Attr → Prop
  | .kv a => a.key.Ok I
  | .directive d => d.key.Ok I
  | .spread _ => True

mutual
def Element.Ok : Element → Prop
  | .mk tag _ attrs _ none => tag.Ok I ∧ ∀ a ∈ attrs, a.Ok I
  | .mk tag _ attrs _ (some cs) => tag.Ok I ∧ (∀ a ∈ attrs, a.Ok I) ∧ childrenOk cs
def Child.Ok : Child → Prop
  | .value _ => True
  | .elem e => e.Ok
  | .slot e => e.Ok ∧ (I.A .slotNotComponent ∨ ∃ p, e.tag = .component p)
def childrenOk : List Child → Prop
  | [] => True
  | c :: cs => c.Ok ∧ childrenOk cs
end

theorem Element.Ok.tag {e : Element} (h : e.Ok I) : e.tag.Ok I := by
  cases e with
  | mk t s a args c => cases c <;> simp [Element.Ok] at h <;> exact h.1

theorem newRaw_wp {name : Str} (h : RawOk I.A name) :
    Out.wp I.A (fun i => i = ⟨true, name⟩) (newRaw name) := by
  unfold newRaw
  split
  · rename_i hn; exact h hn
  · simp

theorem toSnakeIdent_wp {k : KebabIdent} (h : k.Ok I) :
    Out.wp I.A (fun i => i = ⟨true, dashToUnderscore k.repr⟩) k.toSnakeIdent := by
  unfold KebabIdent.toSnakeIdent KebabIdent.checkSpan
  have : k.spans ≠ 0 := by have := h.1; omega
  simp only [this, if_false, Out.monad_bind, Out.monad_pure, Out.bind_ret, Out.tell_nil]
  exact newRaw_wp I h.2

/-! ### parsers -/

variable {I} {ts : Toks}

theorem parseIdentAny_wp : PWp I.A parseIdentAny ts (fun _ r => SSub r ts) (fun r => Sub r ts) := by
  unfold PWp parseIdentAny
  split
  · exact SSub.cons _ _
  · exact Sub.refl _

theorem parsePunct_wp (c : Char) :
    PWp I.A (parsePunct c) ts (fun _ r => SSub r ts) (fun r => Sub r ts) := by
  unfold PWp parsePunct
  split
  · split
    · exact SSub.cons _ _
    · exact Sub.refl _
  · exact Sub.refl _

theorem parseTT_wp : PWp I.A parseTT ts (fun _ r => SSub r ts) (fun r => Sub r ts) := by
  unfold PWp parseTT
  split
  · exact SSub.cons _ _
  · exact Sub.refl _

theorem parseLit_wp : PWp I.A parseLit ts (fun _ r => SSub r ts) (fun r => Sub r ts) := by
  unfold PWp parseLit
  split
  · exact SSub.cons _ _
  · split
    · exact SSub.cons _ _
    · split
      · exact SSub.cons _ _
      · exact Sub.refl _
  · exact ⟨_, [_], rfl⟩
  · exact ⟨_, [_], rfl⟩
  · exact Sub.refl _

theorem parseLitStr_wp : PWp I.A parseLitStr ts (fun _ r => SSub r ts) (fun r => Sub r ts) := by
  unfold parseLitStr
  refine PWp.bind (parseLit_wp.mono ?_ (fun _ h => h))
  intro l r h
  split
  · exact PWp.pure h
  · exact PWp.fail h.sub

theorem extractGroup_wp (d : Delim) : PWp I.A (extractGroup d) ts
    (fun _ r => SSub r ts) (fun r => Sub r ts) := by
  unfold PWp extractGroup
  split
  · split
    · exact SSub.cons _ _
    · exact Sub.refl _
  · exact Sub.refl _

theorem extractGroup_of_peek {d : Delim} (h : peekGroup d ts = true) :
    ∃ inner r, ts = .group d inner :: r ∧ extractGroup d ts = .ret [] (.ok inner r) := by
  unfold peekGroup at h
  split at h
  · rename_i d' inner r
    simp at h; subst h
    exact ⟨inner, r, rfl, by simp [extractGroup]⟩
  · simp at h

/-- unwrapping a group after peeking it does not panic -/
theorem unwrap_group_wp {site} {d : Delim} (h : peekGroup d ts = true) :
    PWp I.A (unwrapP site (extractGroup d)) ts
    (fun _ r => SSub r ts) (fun r => Sub r ts) := by
  obtain ⟨inner, r, rfl, he⟩ := extractGroup_of_peek h
  unfold PWp
  simp only [unwrapP_apply, he, Out.bind_ret, Out.tell_nil, Out.wp_ret, PR.post_ok]
  exact SSub.cons _ _

theorem inGroup_wp {α : Type} {p : P α} {d : Delim} {Q : α → Prop} (hd : d ≠ .bracket)
    (hT : I.T ts) (h : ∀ inner, I.T inner → toksSize inner < toksSize ts →
      PWp I.A p inner (fun a _ => Q a) (fun _ => True)) :
    PWp I.A (inGroup d p) ts (fun a r => Q a ∧ SSub r ts) (fun r => r = ts) := by
  unfold PWp inGroup
  by_cases hp : peekGroup d ts = true
  · obtain ⟨inner, r, rfl, he⟩ := extractGroup_of_peek hp
    simp only [hp, if_true, unwrapP_apply, he, Out.bind_ret, Out.tell_nil, Out.wp_bind]
    refine Out.wp_mono ?_ (h inner (I.group hd hT) (by simp [TT.size]; omega))
    intro q hq
    cases q with
    | ok a left =>
      simp only
      split
      · exact ⟨hq, SSub.cons _ _⟩
      · rfl
    | err e _ => rfl
  · simp [hp]

theorem kebabSplit_ssub {run rest : Toks} (h : kebabSplit ts = some (run, rest)) :
    SSub rest ts ∧ ts = run ++ rest ∧ run ≠ [] := by
  unfold kebabSplit at h
  split at h
  · simp at h; obtain ⟨rfl, rfl⟩ := h
    exact ⟨⟨_, _, by rw [List.cons_append, munch_append]⟩, by rw [List.cons_append, munch_append],
      by simp⟩
  · simp at h; obtain ⟨rfl, rfl⟩ := h
    exact ⟨⟨_, _, by rw [List.cons_append, munch_append]⟩, by rw [List.cons_append, munch_append],
      by simp⟩
  · simp at h

theorem kebabOf_spans {run : Toks} (h : run ≠ []) : 0 < (kebabOf run).spans := by
  cases run with
  | nil => exact absurd rfl h
  | cons t a => simp only [kebabOf, kebabSections]; omega

theorem parseKebab_split : PWp I.A parseKebab ts
    (fun k r => ∃ run, kebabSplit ts = some (run, r) ∧ k = kebabOf run) (fun r => r = ts) := by
  unfold PWp
  rw [parseKebab_eq]
  split
  · rename_i run rest h; exact ⟨run, h, rfl⟩
  · rfl

theorem parseKebab_wp (hT : I.T ts) : PWp I.A parseKebab ts
    (fun k r => k.Ok I ∧ SSub r ts) (fun r => r = ts) := by
  refine parseKebab_split.mono ?_ (fun _ h => h)
  rintro k r ⟨run, h, rfl⟩
  have := kebabSplit_ssub h
  exact ⟨⟨kebabOf_spans this.2.2, I.kebab hT h⟩, this.1⟩

theorem parseKebabOrStr_wp (hT : I.T ts) : PWp I.A parseKebabOrStr ts
    (fun k r => k.Ok I ∧ SSub r ts) (fun r => Sub r ts) := by
  unfold parseKebabOrStr
  refine PWp.bind (PWp.rollback (parseLitStr_wp.mono ?_ ?_))
  · intro s r h; exact PWp.pure ⟨trivial, h⟩
  · intro _ _
    refine PWp.bind ((parseKebab_wp hT).mono ?_ ?_)
    · intro k r h; exact PWp.pure h
    · rintro r rfl; exact Sub.refl _

theorem parseBracedKebab_wp (hT : I.T ts) : PWp I.A parseBracedKebab ts
    (fun k r => k.Ok I ∧ SSub r ts) (fun r => r = ts) := by
  refine inGroup_wp (by simp) hT ?_
  intro inner hi _
  exact (parseKebab_wp hi).mono (fun _ _ h => h.1) (fun _ _ => trivial)

theorem intoBlockValue_wp {k : KebabIdent} (h : k.Ok I) :
    Out.wp I.A (fun v => v = .block [.ident ⟨true, dashToUnderscore k.repr⟩])
      (intoBlockValue k) := by
  unfold intoBlockValue
  simp only [Out.monad_bind, Out.wp_bind]
  refine Out.wp_mono ?_ (toSnakeIdent_wp I h)
  rintro i rfl; simp

theorem parseValue_wp : PWp I.A parseValue ts
    (fun _ r => SSub r ts) (fun r => Sub r ts) := by
  unfold parseValue
  refine PWp.bind (PWp.inp ?_)
  split
  · rename_i h
    exact PWp.bind ((unwrap_group_wp h).mono (fun _ _ h => PWp.pure h) (fun _ h => h))
  · split
    · rename_i h
      simp only [Bool.and_eq_true] at h
      cases ts with
      | nil => simp [peekIdentAny] at h
      | cons t ts =>
        cases t with
        | ident i =>
          have hs : skip (.ident i :: ts) = ts := rfl
          rw [hs] at h
          refine PWp.bind ?_
          refine PWp.bind ((unwrap_group_wp h.2).mono ?_ ?_)
          · intro g r hr; exact PWp.pure (hr.of_sub (SSub.cons _ _).sub)
          · intro r hr; exact hr.trans (SSub.cons _ _).sub
        | _ => simp [peekIdentAny] at h
    · split
      · rename_i h
        exact PWp.bind ((unwrap_group_wp h).mono (fun _ _ h => PWp.pure h) (fun _ h => h))
      · split
        · rename_i h
          refine PWp.bind ?_
          refine PWp.mono (Q := fun _ r => SSub r ts) (E := fun _ => False) ?_
            (fun _ _ h => PWp.pure h) (fun _ h => h.elim)
          have h1 : PWp I.A parseLit ts (fun _ r => SSub r ts) (fun r => Sub r ts) := parseLit_wp
          unfold peekLit at h
          unfold PWp at *
          simp only [unwrapP_apply]
          split at h
          · rename_i ds a rest he
            rw [he] at h1 ⊢
            simpa using h1
          · simp at h
        · exact PWp.fail (Sub.refl _)

theorem parseValueOrEmit_wp : PWp I.A parseValueOrEmit ts
    (fun _ r => Sub r ts) (fun _ => False) := by
  unfold parseValueOrEmit
  refine PWp.bind (PWp.rollback (parseValue_wp.mono ?_ ?_))
  · intro v r h; exact PWp.pure h.sub
  · intro _ _
    exact PWp.bind (PWp.inp (PWp.bind (PWp.emitP (PWp.pure (Sub.refl _)))))

theorem parseKv_wp (hT : I.T ts) : PWp I.A parseKv ts
    (fun a r => a.key.Ok I ∧ SSub r ts) (fun r => r = ts) := by
  unfold parseKv
  refine PWp.bind (PWp.inp ?_)
  split
  · refine PWp.bind ((parseBracedKebab_wp hT).mono ?_ (fun _ h => h))
    rintro k r ⟨hk, hr⟩
    refine PWp.bind (PWp.liftOut (Out.wp_mono ?_ (intoBlockValue_wp hk)))
    intro v _
    exact PWp.pure ⟨hk, hr⟩
  · refine PWp.bind ((parseKebab_wp hT).mono ?_ (fun _ h => h))
    rintro k r ⟨hk, hr⟩
    refine PWp.bind (PWp.rollback ((parsePunct_wp '=').mono ?_ ?_))
    · intro _ r' hr'
      have hs := hr'.of_sub hr.sub
      refine PWp.bind (parseValueOrEmit_wp.mono ?_ (fun _ h => h.elim))
      intro v r'' h''
      exact PWp.pure ⟨hk, h''.ssub hs⟩
    · intro _ _; exact PWp.pure ⟨hk, hr⟩

theorem parseModifier_wp : PWp I.A parseModifier ts
    (fun _ r => Sub r ts) (fun r => Sub r ts) := by
  unfold parseModifier
  refine PWp.bind (PWp.rollback ((parsePunct_wp ':').mono ?_ ?_))
  · intro _ r hr
    exact PWp.bind (parseIdentAny_wp.mono (fun _ _ h => PWp.pure (h.sub.trans hr.sub))
      (fun _ h => h.trans hr.sub))
  · intro _ _; exact PWp.pure (Sub.refl _)

theorem parseDirective_wp (hT : I.T ts) : PWp I.A parseDirective ts
    (fun d r => d.key.Ok I ∧ SSub r ts) (fun r => Sub r ts) := by
  unfold parseDirective
  refine PWp.bind (parseIdentAny_wp.mono ?_ (fun _ h => h))
  intro name r1 h1
  refine PWp.bind ((parsePunct_wp ':').mono ?_ (fun _ h => h.trans h1.sub))
  intro _ r2 h2
  have h2 := h2.of_sub h1.sub
  have hT2 := I.ssub h2 hT
  refine PWp.bind (PWp.inp ?_)
  split
  · refine PWp.bind ((parseBracedKebab_wp hT2).mono ?_ ?_)
    · rintro k r3 ⟨hk, h3⟩
      refine PWp.bind (PWp.liftOut (Out.wp_mono ?_ (intoBlockValue_wp hk)))
      intro v _
      have h3 := h3.of_sub h2.sub
      exact PWp.bind (parseModifier_wp.mono (fun _ _ h => PWp.pure ⟨hk, h.ssub h3⟩)
        (fun _ h => h.trans h3.sub))
    · rintro _ rfl; exact h2.sub
  · refine PWp.bind ((parseKebabOrStr_wp hT2).mono ?_ (fun _ h => h.trans h2.sub))
    rintro k r3 ⟨hk, h3⟩
    have h3 := h3.of_sub h2.sub
    refine PWp.bind (parseModifier_wp.mono ?_ (fun _ h => h.trans h3.sub))
    intro m r4 h4
    have h4 := h4.ssub h3
    refine PWp.bind (PWp.rollback ((parsePunct_wp '=').mono ?_ ?_))
    · intro _ r5 h5
      have h5 := h5.of_sub h4.sub
      exact PWp.bind (parseValueOrEmit_wp.mono
        (fun _ _ h => PWp.pure ⟨hk, h.ssub h5⟩) (fun _ h => h.elim))
    · intro _ _; exact PWp.pure ⟨hk, h4⟩

theorem parseSpread_wp : PWp I.A parseSpread ts
    (fun _ r => SSub r ts) (fun r => Sub r ts) := by
  unfold parseSpread
  refine PWp.bind ((extractGroup_wp _).mono ?_ (fun _ h => h))
  intro inner r h
  split
  · exact PWp.pure h
  · exact PWp.fail h.sub

theorem parseAttr_wp (hT : I.T ts) : PWp I.A parseAttr ts
    (fun a r => a.Ok I ∧ SSub r ts) (fun r => Sub r ts) := by
  unfold parseAttr
  refine PWp.bind (PWp.inp ?_)
  split
  · exact PWp.bind (PWp.unwrapOrAbort ((parseDirective_wp hT).mono (fun _ _ h => PWp.pure h)
      (fun _ _ => trivial)))
  · split
    · exact PWp.bind ((parseKv_wp hT).mono (fun _ _ h => PWp.pure h) (fun _ h => h ▸ Sub.refl _))
    · refine PWp.bind (PWp.rollback ((parseKv_wp hT).mono (fun _ _ h => PWp.pure h) ?_))
      intro _ _
      refine PWp.bind (PWp.rollback (parseSpread_wp.mono
        (fun _ _ h => PWp.pure ⟨trivial, h⟩) ?_))
      intro _ _
      exact PWp.fail (Sub.refl _)

theorem attrsLoop_wp : ∀ (fuel : Nat) (vec : List Attr) (ts : Toks), ts.length < fuel → I.T ts →
    (∀ a ∈ vec, a.Ok I) →
    PWp I.A (attrsLoop fuel vec) ts (fun as r => (∀ a ∈ as, a.Ok I) ∧ Sub r ts) (fun _ => False) := by
  intro fuel
  induction fuel with
  | zero => intro vec ts h; omega
  | succ fuel ih =>
    intro vec ts hf hT hv
    unfold attrsLoop
    refine PWp.bind (PWp.rollback ((parseAttr_wp hT).mono ?_ ?_))
    · rintro a r ⟨ha, hr⟩
      refine (ih (vec ++ [a]) r (by have := hr.length; omega) (I.ssub hr hT) ?_).mono ?_ (fun _ h => h)
      · intro x hx; simp at hx; rcases hx with hx | rfl
        · exact hv x hx
        · exact ha
      · intro as r' h; exact ⟨h.1, h.2.trans hr.sub⟩
    · intro _ _; exact PWp.pure ⟨hv, Sub.refl _⟩

theorem parseAttrs_wp (hT : I.T ts) : PWp I.A parseAttrs ts
    (fun as r => (∀ a ∈ as, a.Ok I) ∧ Sub r ts) (fun _ => False) := by
  unfold parseAttrs
  exact PWp.bind (PWp.inp (attrsLoop_wp _ _ _ (by omega) hT (by simp)))

theorem parseSelector_wp : PWp I.A parseSelector ts
    (fun _ r => SSub r ts) (fun r => Sub r ts) := by
  unfold parseSelector
  refine PWp.bind (PWp.rollback ((parsePunct_wp '.').mono ?_ ?_))
  · intro _ r h
    refine PWp.bind (parseKebab_split.mono ?_ (fun _ h' => h' ▸ h.sub))
    rintro k r' ⟨run, hs, _⟩
    exact PWp.pure ((kebabSplit_ssub hs).1.of_sub h.sub)
  · intro _ _
    refine PWp.bind (PWp.rollback ((parsePunct_wp '#').mono ?_ ?_))
    · intro _ r h
      refine PWp.bind (parseKebab_split.mono ?_ (fun _ h' => h' ▸ h.sub))
      rintro k r' ⟨run, hs, _⟩
      exact PWp.pure ((kebabSplit_ssub hs).1.of_sub h.sub)
    · intro _ _; exact PWp.fail (Sub.refl _)

theorem selectorsLoop_wp : ∀ (fuel : Nat) (vec : List Selector) (ts : Toks), ts.length < fuel →
    PWp I.A (selectorsLoop fuel vec) ts (fun _ r => Sub r ts) (fun _ => False) := by
  intro fuel
  induction fuel with
  | zero => intro vec ts h; omega
  | succ fuel ih =>
    intro vec ts hf
    unfold selectorsLoop
    refine PWp.bind (PWp.rollback (parseSelector_wp.mono ?_ ?_))
    · rintro a r hr
      refine (ih (vec ++ [a]) r (by have := hr.length; omega)).mono ?_ (fun _ h => h)
      intro as r' h; exact h.trans hr.sub
    · intro _ _; exact PWp.pure (Sub.refl _)

theorem parseSelectors_wp : PWp I.A parseSelectors ts
    (fun _ r => Sub r ts) (fun _ => False) := by
  unfold parseSelectors
  exact PWp.bind (PWp.inp (selectorsLoop_wp _ _ _ (by omega)))

theorem parsePath_wp : PWp I.A (parsePath pp) ts
    (fun p r => pp.run ts = (some p, r) ∧ SSub r ts) (fun r => Sub r ts) := by
  unfold PWp parsePath
  split
  · rename_i p rest h
    obtain ⟨u, hu, he⟩ := pp.progress _ _ _ h
    refine ⟨h, ?_⟩
    cases u with
    | nil => exact absurd rfl hu
    | cons t u => exact ⟨t, u, he⟩
  · rename_i rest h; exact pp.suffix _ _ h

/-- The tag is a component or comes from a name that is not one. -/
theorem parseTag_wp (hT : I.T ts) : PWp I.A (parseTag pp) ts
    (fun t r => t.Ok I ∧ SSub r ts ∧ ((∃ p, t = .component p) ∨
      ∃ run, kebabSplit ts = some (run, r) ∧ isComponent (kebabText run) = false))
    (fun r => Sub r ts) := by
  unfold parseTag
  refine PWp.bind (PWp.inp ?_)
  split
  · refine PWp.bind (parsePath_wp.mono ?_ (fun _ h => h))
    rintro p r ⟨hp, hr⟩
    exact PWp.pure ⟨fun i hi => I.slotPath hT hp hi, hr, Or.inl ⟨p, rfl⟩⟩
  · refine PWp.bind ((parseKebab_split.and (parseKebab_wp hT)).mono ?_ (fun _ h => h.1 ▸ Sub.refl _))
    rintro k r ⟨⟨run, hs, hk⟩, ⟨hok, hr⟩⟩
    have snake := toSnakeIdent_wp I hok
    have comp : TagKind.ofStr k.repr ≠ .component → isComponent (kebabText run) = false := by
      intro h
      rw [hk] at h
      cases hc : isComponent (kebabText run)
      · rfl
      · exact absurd (by simp [TagKind.ofStr, kebabOf, hc]) h
    split
    · rename_i hkind
      refine PWp.bind (PWp.liftOut (Out.wp_mono ?_ snake))
      rintro i rfl
      exact PWp.pure ⟨trivial, hr, Or.inr ⟨run, hs, comp (by simp [hkind])⟩⟩
    · refine PWp.bind (PWp.liftOut (Out.wp_mono ?_ snake))
      rintro i rfl
      refine PWp.pure ⟨?_, hr, Or.inl ⟨_, rfl⟩⟩
      intro i hi
      simp [Path.getIdent, Path.ofIdent] at hi
      subst hi
      rw [hk]
      exact I.slotName hT hs
    · rename_i hkind
      refine PWp.bind (PWp.liftOut (Out.wp_mono ?_ snake))
      rintro i rfl
      exact PWp.pure ⟨trivial, hr, Or.inr ⟨run, hs, comp (by simp [hkind])⟩⟩
    · rename_i hkind
      refine PWp.bind (PWp.liftOut (Out.wp_mono ?_ snake))
      rintro i rfl
      exact PWp.pure ⟨trivial, hr, Or.inr ⟨run, hs, comp (by simp [hkind])⟩⟩
    · rename_i hkind
      exact PWp.pure ⟨hok.1, hr, Or.inr ⟨run, hs, comp (by simp [hkind])⟩⟩

theorem closureArgsLoop_wp : ∀ (fuel : Nat) (tokens ts : Toks), ts.length < fuel →
    PWp I.A (closureArgsLoop fuel tokens) ts (fun _ r => Sub r ts) (fun r => Sub r ts) := by
  intro fuel
  induction fuel with
  | zero => intro vec ts h; omega
  | succ fuel ih =>
    intro tokens ts hf
    unfold closureArgsLoop
    refine PWp.bind (PWp.rollback ((parsePunct_wp '|').mono ?_ ?_))
    · rintro _ r hr; exact PWp.pure hr.sub
    · intro _ _
      refine PWp.bind (PWp.rollback (parseTT_wp.mono ?_ ?_))
      · intro tt r hr
        exact (ih _ r (by have := hr.length; omega)).mono (fun _ _ h => h.trans hr.sub)
          (fun _ h => h.trans hr.sub)
      · intro _ _; exact PWp.fail (Sub.refl _)

theorem parseClosureArgs_wp : PWp I.A parseClosureArgs ts
    (fun _ r => Sub r ts) (fun r => Sub r ts) := by
  unfold parseClosureArgs
  refine PWp.bind ((parsePunct_wp '|').mono ?_ (fun _ h => h))
  intro _ r hr
  refine PWp.bind (PWp.inp ?_)
  exact (closureArgsLoop_wp _ _ r (by omega)).mono (fun _ _ h => h.trans hr.sub)
    (fun _ h => h.trans hr.sub)

end

/-! ### the recursive descent -/

section
variable {pp : PathParser} {I : Inv pp}

/-- What is known of an element parsed from `ts`. -/
def ElemPost (I : Inv pp) (ts : Toks) (e : Element) (r : Toks) : Prop :=
  e.Ok I ∧ SSub r ts ∧ ((∃ p, e.tag = .component p) ∨
    ∃ run rest, kebabSplit ts = some (run, rest) ∧ isComponent (kebabText run) = false)

theorem descent_wp : ∀ (fuel : Nat),
    (∀ ts, I.T ts → 3 * toksSize ts + 1 ≤ fuel → PWp I.A (elementF pp fuel) ts
      (ElemPost I ts) (fun r => Sub r ts)) ∧
    (∀ ts, I.T ts → 3 * toksSize ts + 2 ≤ fuel → PWp I.A (childF pp fuel) ts
      (fun c r => c.Ok I ∧ SSub r ts) (fun r => Sub r ts)) ∧
    (∀ ts, I.T ts → 3 * toksSize ts + 3 ≤ fuel → PWp I.A (childrenF pp fuel) ts
      (fun cs r => childrenOk I cs ∧ r = []) (fun _ => False)) := by
  intro fuel
  induction fuel with
  | zero =>
    refine ⟨?_, ?_, ?_⟩
    all_goals intro ts _ h; omega
  | succ fuel ih =>
    obtain ⟨ihE, ihC, ihL⟩ := ih
    refine ⟨?_, ?_, ?_⟩
    · -- elements
      intro ts hT hf
      unfold elementF
      refine PWp.bind ((parseTag_wp hT).mono ?_ (fun _ h => h))
      rintro tag r1 ⟨htag, h1, hkind⟩
      have hkind' : (∃ p, tag = .component p) ∨
          ∃ run rest, kebabSplit ts = some (run, rest) ∧ isComponent (kebabText run) = false := by
        rcases hkind with h | ⟨run, h⟩
        · exact Or.inl h
        · exact Or.inr ⟨run, r1, h⟩
      refine PWp.bind (parseSelectors_wp.mono ?_ (fun _ h => h.elim))
      intro sels r2 h2
      have h2 := h2.ssub h1
      refine PWp.bind ((parseAttrs_wp (I.ssub h2 hT)).mono ?_ (fun _ h => h.elim))
      rintro attrs r3 ⟨hattrs, h3⟩
      have h3 := h3.ssub h2
      have hT3 := I.ssub h3 hT
      -- how an element without children ends
      have fin : ∀ (args : Option Toks) (r : Toks), SSub r ts →
          ElemPost I ts (.mk tag sels attrs args none) r :=
        fun args r hr => ⟨⟨htag, hattrs⟩, hr, hkind'⟩
      have finC : ∀ (args : Option Toks) (cs : List Child) (r : Toks), childrenOk I cs →
          SSub r ts → ElemPost I ts (.mk tag sels attrs args (some cs)) r :=
        fun args cs r hc hr => ⟨⟨htag, hattrs, hc⟩, hr, hkind'⟩
      -- children blocks
      have block : ∀ (d : Delim) (r : Toks), d ≠ .bracket → SSub r ts →
          PWp I.A (inGroup d (childrenF pp fuel)) r (fun cs r' => childrenOk I cs ∧ SSub r' r)
            (fun r' => r' = r) := by
        intro d r hd hr
        refine inGroup_wp hd (I.ssub hr hT) ?_
        intro inner hi hsz
        refine (ihL inner hi ?_).mono (fun _ _ h => h.1) (fun _ _ => trivial)
        have := hr.size
        omega
      refine PWp.bind (PWp.rollback ((parsePunct_wp ';').mono ?_ ?_))
      · intro _ r4 h4
        exact PWp.pure (fin none r4 (h4.of_sub h3.sub))
      · intro _ _
        refine PWp.bind (PWp.inp ?_)
        split
        · exact PWp.bind (PWp.emitP (PWp.pure (fin none _ h3)))
        · split
          · extract_lets
            split
            · exact PWp.bind ((block .brace r3 (by simp) h3).mono
                (fun cs r h => PWp.pure (finC none cs r h.1 (h.2.of_sub h3.sub)))
                (fun r h => h ▸ h3.sub))
            · exact PWp.bind ((block .paren r3 (by simp) h3).mono
                (fun cs r h => PWp.pure (finC none cs r h.1 (h.2.of_sub h3.sub)))
                (fun r h => h ▸ h3.sub))
          · split
            · refine PWp.bind (parseClosureArgs_wp.mono ?_ (fun _ h => h.trans h3.sub))
              intro args r4 h4
              have h4 := h4.ssub h3
              refine PWp.bind (PWp.inp ?_)
              split
              · exact PWp.bind ((block .brace r4 (by simp) h4).mono
                  (fun cs r h => PWp.pure (finC _ cs r h.1 (h.2.of_sub h4.sub)))
                  (fun r h => h ▸ h4.sub))
              · split
                · exact PWp.bind ((block .paren r4 (by simp) h4).mono
                    (fun cs r h => PWp.pure (finC _ cs r h.1 (h.2.of_sub h4.sub)))
                    (fun r h => h ▸ h4.sub))
                · exact PWp.bind (PWp.emitP (PWp.pure (fin _ _ h4)))
            · exact PWp.bind (PWp.emitP (PWp.bind (PWp.emitP (PWp.pure (fin none _ h3)))))
    · -- a child
      intro ts hT hf
      unfold childF
      refine PWp.bind (PWp.rollback (parseValue_wp.mono ?_ ?_))
      · intro v r h
        have fin : ∀ v, (Child.value v).Ok I ∧ SSub r ts := fun v => ⟨by simp [Child.Ok], h⟩
        dsimp only
        split
        · split
          · exact PWp.pure (fin _)
          · exact PWp.bind (PWp.emitP (PWp.pure (fin _)))
        · exact PWp.pure (fin _)
      · intro _ _
        refine PWp.bind (PWp.inp ?_)
        split
        · rename_i h
          simp only [Bool.and_eq_true] at h
          obtain ⟨⟨hk, hp⟩, _⟩ := h
          -- the tokens `slot` and `:`
          have : ∃ s r, ts = .ident ⟨false, c!"slot"⟩ :: .punct ':' s :: r := by
            cases ts with
            | nil => simp [peekKw] at hk
            | cons t ts =>
              cases t with
              | ident i =>
                simp [peekKw] at hk
                have hs : skip (.ident i :: ts) = ts := rfl
                rw [hs] at hp
                cases ts with
                | nil => simp [peekPunct] at hp
                | cons t' ts =>
                  cases t' with
                  | punct c s => simp [peekPunct] at hp; exact ⟨s, ts, by rw [hk, hp]⟩
                  | _ => simp [peekPunct] at hp
              | _ => simp [peekKw] at hk
          obtain ⟨s, r, rfl⟩ := this
          have hr : SSub r (.ident ⟨false, c!"slot"⟩ :: .punct ':' s :: r) := ⟨_, [_], rfl⟩
          have e1 : unwrapP .slotUnwrap (parseKw c!"slot")
              (.ident ⟨false, c!"slot"⟩ :: .punct ':' s :: r) =
              .ret [] (.ok () (.punct ':' s :: r)) := by
            simp [parseKw, peekKw]
          have e2 : unwrapP .slotUnwrap (parsePunct ':') (.punct ':' s :: r) =
              .ret [] (.ok () r) := by
            simp [parsePunct]
          refine PWp.bind ?_
          unfold PWp
          rw [e1]
          refine PWp.bind ?_
          unfold PWp
          rw [e2]
          refine PWp.bind ((ihE r (I.ssub hr hT) ?_).mono ?_ (fun _ h => h.trans hr.sub))
          · simp [TT.size] at hf; omega
          · rintro e r' ⟨he, hr', hkind⟩
            refine PWp.pure ⟨⟨he, ?_⟩, hr'.of_sub hr.sub⟩
            rcases hkind with h | ⟨run, rest, hs, hc⟩
            · exact Or.inr h
            · rcases I.slotTag hT hs with h | h
              · rw [h] at hc; simp at hc
              · exact Or.inl h
        · split
          · refine PWp.bind ((ihE ts hT (by omega)).mono ?_ (fun _ h => h))
            rintro e r ⟨he, hr, _⟩
            exact PWp.pure ⟨he, hr⟩
          · exact PWp.fail (Sub.refl _)
    · -- children
      intro ts hT hf
      unfold PWp childrenF
      split
      · rename_i h
        cases ts with
        | nil => exact ⟨trivial, rfl⟩
        | cons t ts => simp [isEmpty] at h
      · rename_i h
        have hne : 0 < toksSize ts := by
          cases ts with
          | nil => simp [isEmpty] at h
          | cons t ts => have := t.size_pos; simp; omega
        rw [Out.wp_bind]
        refine Out.wp_mono ?_ (ihC ts hT (by omega))
        intro q hq
        cases q with
        | ok c rest =>
          obtain ⟨hc, hr⟩ := hq
          simp only [Out.wp_bind]
          refine Out.wp_mono ?_ (ihL rest (I.ssub hr hT) (by have := hr.size; omega))
          intro q' hq'
          cases q' with
          | ok cs rest' => exact ⟨⟨hc, hq'.1⟩, hq'.2⟩
          | err e rest' => exact hq'.elim
        | err e rest =>
          simp only
          split
          · rename_i hsemi
            have : ∃ s r, rest = .punct ';' s :: r := by
              cases rest with
              | nil => simp [peekPunct] at hsemi
              | cons t rest =>
                cases t with
                | punct c s => simp [peekPunct] at hsemi; exact ⟨s, rest, by rw [hsemi]⟩
                | _ => simp [peekPunct] at hsemi
            obtain ⟨s, r, rfl⟩ := this
            simp only [emit_def, Out.bind_ret, unwrapP_apply, parsePunct, if_true, Out.tell_nil,
              Out.wp_tell]
            have hs : SSub r ts := (SSub.cons _ _).of_sub hq
            exact ihL r (I.ssub hs hT) (by have := hs.size; omega)
          · simp only [emit_def, Out.bind_ret, Out.wp_tell]
            refine ihL [] (I.sub ⟨ts, by simp⟩ hT) (by simp; omega)

/-- The whole parser: terminates, consumes everything, never returns `Err`. -/
theorem parseChildren_wp {ts : Toks} (hT : I.T ts) :
    Out.wp I.A (PR.post (fun cs r => childrenOk I cs ∧ r = []) (fun _ => False))
      (parseChildren pp ts) :=
  (descent_wp _).2.2 ts hT (by simp [fuelFor])

end

end Mview
