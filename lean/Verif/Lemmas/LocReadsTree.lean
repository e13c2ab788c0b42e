import Verif.Lemmas.LocReads
/-
Proofs for C42: elements and children.
-/

namespace Mview.Loc
open Lex

variable {σ : Type} [Spans σ] {pp : Mview.PathParser} {lp : PathParser σ pp}

/-! ### the end of an element -/

/-- `Element::parse` after the attributes. -/
def elemTail (lp : PathParser σ pp) (fuel : Nat) (tag : Tag σ) (selectors : List (Selector σ))
    (attrs : List (Attr σ)) : P σ (Element σ) := do
  let semi ← rollback (parsePunct ';')
  match semi with
  | some _ => pure (.mk tag selectors attrs none none)
  | none => do
    let ts ← inp
    if isEmpty ts then
      emitP .unterminated tag.span
      pure (.mk tag selectors attrs none none)
    else if peekGroup .brace ts || peekGroup .paren ts then
      let children ←
        if peekGroup .brace ts then inGroup .brace (childrenF lp fuel)
        else inGroup .paren (childrenF lp fuel)
      pure (.mk tag selectors attrs none (some children.2))
    else if peekPunct '|' ts then
      let args ← parseClosureArgs
      let ts ← inp
      if peekGroup .brace ts then
        let children ← inGroup .brace (childrenF lp fuel)
        pure (.mk tag selectors attrs (some args) (some children.2))
      else if peekGroup .paren ts then
        let children ← inGroup .paren (childrenF lp fuel)
        pure (.mk tag selectors attrs (some args) (some children.2))
      else
        let here ← inpSpan
        emitP .expectedChildrenBlock here
        pure (.mk tag selectors attrs (some args) none)
    else
      let here ← inpSpan
      emitP .unknownAttribute here
      emitP .childrenNotFound (joinOr tag.span here)
      pure (.mk tag selectors attrs none none)

theorem elementF_eq (lp : PathParser σ pp) (fuel : Nat) :
    elementF lp (fuel + 1) = parseTag lp >>= fun tag => parseSelectors >>= fun sels =>
      parseAttrs >>= fun attrs => elemTail lp fuel tag sels attrs := by
  rw [elementF]
  rfl

theorem childrenF_ne {fuel : Nat} {sc : σ} {ts : Toks σ} (h : ts ≠ []) :
    childrenF lp (fuel + 1) sc ts =
      Out.bind (childF lp fuel sc ts) fun r =>
        match r with
        | .ok c rest =>
          Out.bind (childrenF lp fuel sc rest) fun q =>
            match q with
            | .ok cs rest' => .ret [] (.ok (c :: cs) rest')
            | .err e rest' => .ret [] (.err e rest')
        | .err e rest =>
          if peekPunct ';' rest then
            Out.bind (emit .extraSemicolon e.sp) fun _ =>
            Out.bind (unwrapP .semiUnwrap (parsePunct ';') sc rest) fun q =>
              match q with
              | .ok _ rest' => childrenF lp fuel sc rest'
              | .err e rest' => .ret [] (.err e rest')
          else
            Out.bind (emit (.synError e.err) e.sp) fun _ => childrenF lp fuel sc [] := by
  rw [childrenF]
  cases ts with
  | nil => exact absurd rfl h
  | cons => rfl

/-- `Element::parse` goes on -/
theorem elemTail_start {fuel : Nat} {tag : Tag σ} {sels : List (Selector σ)} {sc : σ}
    {attrs : List (Attr σ)} {t : TT σ} {r : Toks σ} (h : ∀ s p, t ≠ .punct ';' s p) :
    elemTail lp fuel tag sels attrs sc (t :: r) =
      (if peekGroup .brace (t :: r) || peekGroup .paren (t :: r) then do
        let children ←
          if peekGroup .brace (t :: r) then inGroup .brace (childrenF lp fuel)
          else inGroup .paren (childrenF lp fuel)
        pure (.mk tag sels attrs none (some children.2))
      else if peekPunct '|' (t :: r) then do
        let args ← parseClosureArgs
        let ts ← inp
        if peekGroup .brace ts then do
          let children ← inGroup .brace (childrenF lp fuel)
          pure (.mk tag sels attrs (some args) (some children.2))
        else if peekGroup .paren ts then do
          let children ← inGroup .paren (childrenF lp fuel)
          pure (.mk tag sels attrs (some args) (some children.2))
        else do
          let here ← inpSpan
          emitP .expectedChildrenBlock here
          pure (.mk tag sels attrs (some args) none)
      else do
        let here ← inpSpan
        emitP .unknownAttribute here
        emitP .childrenNotFound (joinOr tag.span here)
        pure (.mk tag sels attrs none none) : P σ (Element σ)) sc (t :: r) := by
  unfold elemTail
  rw [(punct_none (by
    rintro s p r' he; simp only [List.cons.injEq] at he; exact h s p he.1)).bind_eq]
  dsimp only
  rw [inp_bind, if_neg (by simp [isEmpty])]

omit [Spans σ] in
theorem noPipe_head {t : TT σ} {args rest : Toks σ} (h : NoPipe (t :: args)) (s : Spacing) (p : σ) (r : Toks σ) :
    t :: (args ++ rest) ≠ .punct '|' s p :: r := by
  intro he
  simp only [List.cons.injEq] at he
  exact h t (by simp) s p he.1

theorem tt_some {sc : σ} {t : TT σ} {r : Toks σ} : Yields (rollback parseTT) sc (t :: r) (some t) r :=
  Yields.some (a := t) (show parseTT sc (t :: r) = _ from rfl)

theorem closureLoop_closed : ∀ (args : Toks σ) (fuel : Nat) (first sc : σ) (tokens rest : Toks σ) (s : Spacing)
    (p : σ), NoPipe args → args.length < fuel →
    Yields (closureArgsLoop first fuel tokens) sc (args ++ .punct '|' s p :: rest)
      (tokens ++ args ++ [pipeTok p]) rest := by
  intro args
  induction args with
  | nil =>
    intro fuel first sc tokens rest s p _ hlen
    obtain ⟨f, rfl⟩ : ∃ f, fuel = f + 1 := ⟨fuel - 1, by simp at hlen; omega⟩
    unfold Yields
    rw [closureArgsLoop, List.nil_append, punct_some.bind_eq, List.append_nil]
    rfl
  | cons t args ih =>
    intro fuel first sc tokens rest s p hp hlen
    obtain ⟨f, rfl⟩ : ∃ f, fuel = f + 1 := ⟨fuel - 1, by simp at hlen; omega⟩
    have := ih f first sc (tokens ++ [t]) rest s p (fun x hx => hp x (by simp [hx])) (by simp at hlen; omega)
    unfold Yields at *
    rw [closureArgsLoop, List.cons_append, (punct_none (noPipe_head hp)).bind_eq]
    dsimp only
    rw [Yields.bind_eq (p := rollback parseTT) (a := some t) (r := args ++ .punct '|' s p :: rest)
      tt_some]
    dsimp only
    rw [this]
    simp

theorem closureLoop_open : ∀ (args : Toks σ) (fuel : Nat) (first sc : σ) (tokens : Toks σ),
    NoPipe args → args.length < fuel →
    closureArgsLoop first fuel tokens sc args = .ret [] (.err ⟨.closureNotClosed, first⟩ []) := by
  intro args
  induction args with
  | nil =>
    intro fuel first sc tokens _ hlen
    obtain ⟨f, rfl⟩ : ∃ f, fuel = f + 1 := ⟨fuel - 1, by simp at hlen; omega⟩
    rw [closureArgsLoop, (punct_none (by simp)).bind_eq]
    rfl
  | cons t args ih =>
    intro fuel first sc tokens hp hlen
    obtain ⟨f, rfl⟩ : ∃ f, fuel = f + 1 := ⟨fuel - 1, by simp at hlen; omega⟩
    have hn := noPipe_head (rest := []) hp
    rw [List.append_nil] at hn
    rw [closureArgsLoop, (punct_none hn).bind_eq]
    dsimp only
    rw [Yields.bind_eq (p := rollback parseTT) (a := some t) (r := args) tt_some]
    exact ih f first sc _ (fun x hx => hp x (by simp [hx])) (by simp at hlen; omega)

/-- closure arguments -/
theorem elemTail_args {fuel : Nat} {tag : Tag σ} {sels : List (Selector σ)} {sc : σ}
    {attrs : List (Attr σ)} {s s' : Spacing} {p p' : σ} {args r : Toks σ} (h : NoPipe args) :
    elemTail lp fuel tag sels attrs sc (.punct '|' s p :: (args ++ .punct '|' s' p' :: r)) =
      (if peekGroup .brace r then do
        let children ← inGroup .brace (childrenF lp fuel)
        pure (.mk tag sels attrs (some (piped p args p')) (some children.2))
      else if peekGroup .paren r then do
        let children ← inGroup .paren (childrenF lp fuel)
        pure (.mk tag sels attrs (some (piped p args p')) (some children.2))
      else do
        let here ← inpSpan
        emitP .expectedChildrenBlock here
        pure (.mk tag sels attrs (some (piped p args p')) none) : P σ (Element σ)) sc r := by
  rw [elemTail_start (by simp), if_neg (by simp [peekGroup]), if_pos (by simp [peekPunct])]
  have : Yields parseClosureArgs sc (.punct '|' s p :: (args ++ .punct '|' s' p' :: r)) (piped p args p') r := by
    unfold parseClosureArgs Yields
    rw [punct_yields.bind_eq, inp_bind]
    exact closureLoop_closed args _ p sc [pipeTok p] r s' p' h (by simp; omega)
  rw [this.bind_eq, inp_bind]

/-- closure arguments that are not closed -/
theorem elemTail_unclosed {fuel : Nat} {tag : Tag σ} {sels : List (Selector σ)} {sc : σ}
    {attrs : List (Attr σ)} {s : Spacing} {p : σ} {args : Toks σ} (h : NoPipe args) :
    elemTail lp fuel tag sels attrs sc (.punct '|' s p :: args) =
      .ret [] (.err ⟨.closureNotClosed, p⟩ []) := by
  rw [elemTail_start (by simp), if_neg (by simp [peekGroup]), if_pos (by simp [peekPunct])]
  have : parseClosureArgs sc (.punct '|' s p :: args) = .ret [] (.err ⟨.closureNotClosed, p⟩ []) := by
    unfold parseClosureArgs
    rw [punct_yields.bind_eq, inp_bind]
    exact closureLoop_open _ _ _ _ _ h (by omega)
  rw [P.bind_apply, this]
  rfl

theorem ReadsEnd.left {sc tp : σ} {ts : Toks σ} {is : List (Issue σ)} {args : Option (Toks σ)}
    {block : Option (List (Child σ))} {rest : Toks σ} (h : ReadsEnd lp sc tp ts is args block rest) :
    Left ts rest := by
  cases h with
  | semi => exact .cons _ (.refl _)
  | block => exact .cons _ (.refl _)
  | @closure _ _ s p args s' p' d c b =>
    refine .of_eq (used := .punct '|' s p :: (args ++ [.punct '|' s' p', .group d c b])) (by simp)
  | nothing => exact .refl _
  | @noBlock _ _ s p args s' p' =>
    exact .of_eq (used := .punct '|' s p :: (args ++ [.punct '|' s' p'])) (by simp)
  | other => exact .refl _

/-! ### children -/

omit [Spans σ] in
theorem ElemStart.left {ts r0 : Toks σ} {b : Option σ} (h : ElemStart ts b r0) : Left ts r0 := by
  cases h with
  | slot => exact .cons _ (.cons _ (.refl _))
  | elem => exact .refl _

omit [Spans σ] in
theorem ElemStart.ne {ts r0 : Toks σ} {b : Option σ} (h : ElemStart ts b r0) : ts ≠ [] := by
  cases h <;> simp

theorem ValueNext.ne {ts : Toks σ} {v : Value σ} {rest : Toks σ} (h : ValueNext ts v rest) : ts ≠ [] := by
  cases h with
  | mk h => cases h <;> simp

theorem value_fails_erased {sc : σ} {ts : Toks σ} (h : NoValue (eraseToks ts)) : Fails parseValue sc ts :=
  fails_of_erase parseValue_erase (value_fails_of h)

omit [Spans σ] in
theorem slotStart_erased {ts : Toks σ} :
    (peekKw c!"slot" ts && peekPunct ':' (skip ts) && !(peekPunct2 ':' ':' (skip ts))) = true ↔
      SlotStart (eraseToks ts) := by
  rw [← slotStart_iff, skip_erase, peekPunct2_erase, peekPunct_erase, peekKw_erase]

/-- `Child::parse` of an element or slot -/
theorem childF_start {fuel : Nat} {sc : σ} {ts r0 : Toks σ} {b : Option σ} (h : ElemStart ts b r0) :
    childF lp (fuel + 1) sc ts = (elementF lp fuel >>= fun e => pure (asChild b e)) sc r0 := by
  rw [childF]
  cases h with
  | @slot p s q _ hs =>
    rw [(value_fails_erased (ts := .ident (plain c!"slot") p :: .punct ':' s q :: r0) noValue_slot).none.bind_eq]
    dsimp only
    rw [inp_bind, if_pos (slotStart_erased.mpr ⟨s, _, rfl, hs⟩),
      Yields.bind_eq (p := unwrapP .slotUnwrap (parseKw c!"slot")) (a := p) (r := .punct ':' s q :: r0)
        (Yields.unwrap (by simp [Yields, parseKw, plain])),
      Yields.bind_eq (p := unwrapP .slotUnwrap (parsePunct ':')) punct_yields.unwrap]
    rfl
  | @elem i p r hv hs =>
    rw [(value_fails_erased (ts := .ident i p :: r) hv).none.bind_eq]
    dsimp only
    rw [inp_bind, if_neg (by rw [slotStart_erased]; exact hs), if_pos (by simp [peekIdentAny])]
    rfl

theorem childF_nothing {fuel : Nat} {sc : σ} {ts : Toks σ} (hv : NoValue (eraseToks ts))
    (hi : ∀ i p r, ts ≠ .ident i p :: r) :
    childF lp (fuel + 1) sc ts = .ret [] (.err ⟨.invalidChild, nextPlace sc ts⟩ ts) := by
  have hid : peekIdentAny ts = false := by
    unfold peekIdentAny
    split
    · exact absurd rfl (hi _ _ _)
    · rfl
  have hkw : peekKw c!"slot" ts = false := by
    unfold peekKw
    split
    · exact absurd rfl (hi _ _ _)
    · rfl
  rw [childF, (value_fails_erased hv).none.bind_eq]
  dsimp only
  rw [inp_bind, hkw, if_neg (by simp), hid, if_neg (by simp), ← spanAt_eq]
  rfl

/-- the loop goes on -/
theorem children_step {f : Nat} {sc : σ} {ts rest : Toks σ} {is js : List (Issue σ)} {c : Child σ}
    {cs : List (Child σ)} (hne : ts ≠ []) (h : Gives (childF lp f sc ts) is (.ok c rest))
    (ih : Gives (childrenF lp f sc rest) js (.ok cs [])) :
    Gives (childrenF lp (f + 1) sc ts) (is ++ js) (.ok (c :: cs) []) := by
  rw [childrenF_ne hne]
  exact h.bind (ih.map rfl)

/-- the loop goes on after a semicolon -/
theorem children_semi {f : Nat} {sc : σ} {ts rest : Toks σ} {is : List (Issue σ)} {e : LErr σ}
    {s : Spacing} {q : σ} {cs : List (Child σ)} (hne : ts ≠ [])
    (h : Gives (childF lp f sc ts) [] (.err e (.punct ';' s q :: rest)))
    (ih : Gives (childrenF lp f sc rest) is (.ok cs [])) :
    Gives (childrenF lp (f + 1) sc ts) (.report .extraSemicolon e.sp :: is) (.ok cs []) := by
  rw [childrenF_ne hne]
  refine h.then ?_
  dsimp only
  rw [if_pos (by simp [peekPunct])]
  refine (Gives.emit _ _).bind ?_
  refine Gives.then (a := .ok q rest) (Yields.gives punct_yields.unwrap) ?_
  exact ih

/-- the loop ends -/
theorem children_stop {f : Nat} {sc : σ} {ts rest : Toks σ} {is : List (Issue σ)} {e : LErr σ}
    (hne : ts ≠ []) (h : Gives (childF lp (f + 1) sc ts) is (.err e rest))
    (hs : ∀ s p r, rest ≠ .punct ';' s p :: r) :
    Gives (childrenF lp (f + 2) sc ts) (is ++ [.report (.synError e.err) e.sp]) (.ok [] []) := by
  rw [childrenF_ne hne]
  refine h.bind ?_
  dsimp only
  rw [if_neg (by
    unfold peekPunct
    split
    · rename_i c s p r
      simp only [decide_eq_true_eq]
      rintro rfl
      exact hs _ _ _ rfl
    · simp)]
  refine (Gives.emit _ _).bind (js := []) ?_
  rw [childrenF]
  exact .ret _

/-- the head of an element -/
theorem element_gives {f : Nat} {sc : σ} {r0 r1 r2 r3 : Toks σ} {ti si ai ei : List (Issue σ)}
    {tag : Tag σ} {sels : List (Selector σ)} {attrs : List (Attr σ)} {q : PR σ (Element σ)}
    (hl : LexicalToks (eraseToks r0))
    (ht : ReadsTag lp sc r0 ti tag r1) (hs : ReadsSels r1 si sels r2) (ha : ReadsAttrs sc r2 ai attrs r3)
    (he : Gives (elemTail lp f tag sels attrs sc r3) ei q) :
    Gives (elementF lp (f + 1) sc r0) (ti ++ (si ++ (ai ++ ei))) q := by
  have hl1 := ht.left.lexical hl
  have hl2 := hs.left.lexical hl1
  rw [elementF_eq]
  refine (tag_gives ht hl).pbind ?_
  refine Gives.pbind (a := sels) (r := r2) ?_ ?_
  · unfold parseSelectors
    rw [inp_bind]
    exact selectors_give hs hl1 _ [] (Nat.lt_succ_self _)
  refine Gives.pbind (a := attrs) (r := r3) ?_ he
  unfold parseAttrs
  rw [inp_bind]
  exact attrs_give ha hl2 _ [] (Nat.lt_succ_self _)

/-- what the end of an element gives -/
def EndGives (lp : PathParser σ pp) (sc tp : σ) (ts : Toks σ) (is : List (Issue σ)) (args : Option (Toks σ))
    (block : Option (List (Child σ))) (rest : Toks σ) : Prop :=
  LexicalToks (eraseToks ts) → ∃ N, ∀ fuel, N ≤ fuel → ∀ tag : Tag σ, tag.place = tp → ∀ sels attrs,
    Gives (elemTail lp fuel tag sels attrs sc ts) is (.ok (.mk tag sels attrs args block) rest)

/-- what children give -/
def ChildrenGive (lp : PathParser σ pp) (sc : σ) (ts : Toks σ) (is : List (Issue σ)) (cs : List (Child σ)) : Prop :=
  LexicalToks (eraseToks ts) → ∃ N, ∀ fuel, N ≤ fuel → Gives (childrenF lp fuel sc ts) is (.ok cs [])

omit [Spans σ] in
theorem noGroup {d : Delim} {ts : Toks σ} (hd : d ≠ .bracket)
    (h : ∀ d c b r, ts = .group d c b :: r → d = .bracket) : ¬ peekGroup d ts = true := by
  unfold peekGroup
  split
  · rename_i d' c b r
    simp only [decide_eq_true_eq]
    rintro rfl
    exact hd (h _ _ _ _ rfl)
  · simp

theorem children_give {sc : σ} {ts : Toks σ} {is : List (Issue σ)} {cs : List (Child σ)}
    (h : ReadsChildren lp sc ts is cs) : ChildrenGive lp sc ts is cs := by
  refine ReadsChildren.rec
    (motive_1 := fun sc tp ts is args block rest _ => EndGives lp sc tp ts is args block rest)
    (motive_2 := fun sc ts is cs _ => ChildrenGive lp sc ts is cs)
    ?_ ?_ ?_ ?_ ?_ ?_ ?_ ?_ ?_ ?_ ?_ ?_ ?_ ?_ ?_ h
  · -- `;`
    intro sc tp s p rest _
    refine ⟨0, fun fuel _ tag htp sels attrs => ?_⟩
    unfold elemTail
    exact .pthen punct_some (.ret _)
  · -- a block
    intro sc tp d c b rest is cs hd _ ih hl
    obtain ⟨N, hN⟩ := ih (lexical_group hd hl)
    refine ⟨N, fun fuel hf tag htp sels attrs => ?_⟩
    rw [elemTail_start (by simp)]
    cases d with
    | bracket => exact absurd rfl hd
    | brace =>
      rw [if_pos (by rfl), if_pos (by rfl)]
      exact (hN fuel hf).inGroup.pmap (g := fun children => Element.mk tag sels attrs none (some children.2))
    | paren =>
      rw [if_pos (by rfl), if_neg (by simp [peekGroup])]
      exact (hN fuel hf).inGroup.pmap (g := fun children => Element.mk tag sels attrs none (some children.2))
  · -- closure arguments and a block
    intro sc tp s p args s' p' d c b rest is cs hp hd _ ih hl
    have hl' : LexicalToks (eraseToks (.group d c b :: rest)) :=
      (Left.of_eq (used := .punct '|' s p :: (args ++ [.punct '|' s' p'])) (by simp)).lexical hl
    obtain ⟨N, hN⟩ := ih (lexical_group hd hl')
    refine ⟨N, fun fuel hf tag htp sels attrs => ?_⟩
    rw [elemTail_args hp]
    cases d with
    | bracket => exact absurd rfl hd
    | brace =>
      rw [if_pos (by rfl)]
      exact (hN fuel hf).inGroup.pmap
        (g := fun children => Element.mk tag sels attrs (some (piped p args p')) (some children.2))
    | paren =>
      rw [if_neg (by simp [peekGroup]), if_pos (by rfl)]
      exact (hN fuel hf).inGroup.pmap
        (g := fun children => Element.mk tag sels attrs (some (piped p args p')) (some children.2))
  · -- nothing
    intro sc tp _
    refine ⟨0, fun fuel _ tag htp sels attrs => ?_⟩
    unfold elemTail
    refine .pthen (punct_none (by simp)) ?_
    dsimp only
    rw [inp_bind, if_pos (by rfl), tag_place, htp]
    exact (Gives.lift (Gives.emit _ _)).pbind (js := []) (.ret _)
  · -- no block
    intro sc tp s p args s' p' rest hp hr hl
    refine ⟨0, fun fuel hf tag htp sels attrs => ?_⟩
    rw [elemTail_args hp, if_neg (noGroup (by decide) hr), if_neg (noGroup (by decide) hr), inpSpan_bind, spanAt_eq]
    exact (Gives.lift (Gives.emit _ _)).pbind (js := []) (.ret _)
  · -- anything else
    intro sc tp t r h1 h2 h3 hl
    refine ⟨0, fun fuel hf tag htp sels attrs => ?_⟩
    have hg : ∀ d c b r', t :: r = .group d c b :: r' → d = .bracket := by
      intro d c b r' h
      simp only [List.cons.injEq] at h
      exact h3 _ _ _ h.1
    rw [elemTail_start h1, if_neg (by
        simp [noGroup (d := .brace) (by decide) hg, noGroup (d := .paren) (by decide) hg]),
      if_neg (by
        unfold peekPunct
        split
        · rename_i c s p r' heq
          simp only [decide_eq_true_eq]
          rintro rfl
          simp only [List.cons.injEq] at heq
          exact h2 _ _ heq.1
        · simp), inpSpan_bind, spanAt_eq, tag_place, htp]
    refine (Gives.lift (Gives.emit _ _)).pbind (is := [.report .unknownAttribute _]) ?_
    exact (Gives.lift (Gives.emit _ _)).pbind (js := []) (.ret _)
  · -- no children
    intro sc _
    refine ⟨1, fun fuel hf => ?_⟩
    obtain ⟨f, rfl⟩ : ∃ f, fuel = f + 1 := ⟨fuel - 1, by omega⟩
    rw [childrenF]
    exact .ret _
  · -- a value
    intro sc ts v rest is cs hv hw _ ih hl
    obtain ⟨N, hN⟩ := ih (hv.left.lexical hl)
    refine ⟨N + 2, fun fuel hf => ?_⟩
    obtain ⟨f, rfl⟩ : ∃ f, fuel = f + 2 := ⟨fuel - 2, by omega⟩
    refine children_step (is := []) hv.ne ?_ (hN _ (by omega))
    rw [childF]
    refine .pthen (value_yields hv).some ?_
    cases v with
    | lit l =>
      obtain ⟨l, p⟩ := l
      obtain ⟨x, rfl⟩ := hw l p rfl
      exact .ret _
    | block c b => exact .ret _
    | bracket p c b => exact .ret _
  · -- a literal that is not a string
    intro sc ts l p rest is cs hv hw _ ih hl
    obtain ⟨N, hN⟩ := ih (hv.left.lexical hl)
    refine ⟨N + 2, fun fuel hf => ?_⟩
    obtain ⟨f, rfl⟩ : ∃ f, fuel = f + 2 := ⟨fuel - 2, by omega⟩
    refine children_step (is := [.report .nonStringChild p]) hv.ne ?_ (hN _ (by omega))
    rw [childF]
    refine .pthen (value_yields hv).some ?_
    have key : ∀ {x : Child σ}, Gives ((emitP .nonStringChild p >>= fun _ => pure x : P σ (Child σ)) sc rest)
        [.report .nonStringChild p] (.ok x rest) := fun {x} =>
      (Gives.lift (Gives.emit _ _)).pbind (js := []) (.ret _)
    cases l with
    | bool b => exact key
    | tok l => cases l <;> first | exact key | exact absurd rfl (hw _)
  · -- an element
    intro sc ts b r0 ti tag r1 si sels r2 ai attrs r3 ei args block r4 is cs h0 ht hs ha he _ ihe ih hl
    have hl0 := h0.left.lexical hl
    have hl3 := ha.left.lexical (hs.left.lexical (ht.left.lexical hl0))
    obtain ⟨M, hM⟩ := ihe hl3
    obtain ⟨N, hN⟩ := ih (he.left.lexical hl3)
    refine ⟨M + N + 3, fun fuel hf => ?_⟩
    obtain ⟨f, rfl⟩ : ∃ f, fuel = f + 3 := ⟨fuel - 3, by omega⟩
    have := children_step (lp := lp) (f := f + 2) (c := asChild b (.mk tag sels attrs args block)) h0.ne
      (by rw [childF_start h0]
          exact (element_gives (f := f) hl0 ht hs ha (hM f (by omega) tag rfl sels attrs)).pmap)
      (hN _ (by omega))
    simpa only [List.append_assoc] using this
  · -- closure arguments not closed
    intro sc ts b r0 ti tag r1 si sels r2 ai attrs s p args h0 ht hs ha hp hl
    have hl0 := h0.left.lexical hl
    refine ⟨3, fun fuel hf => ?_⟩
    obtain ⟨f, rfl⟩ : ∃ f, fuel = f + 3 := ⟨fuel - 3, by omega⟩
    have := children_stop (lp := lp) (f := f + 1) (e := ⟨.closureNotClosed, p⟩) (rest := []) h0.ne
      (by rw [childF_start h0]
          exact (element_gives (f := f) hl0 ht hs ha (.of_eq (elemTail_unclosed hp))).perr) (by simp)
    simpa only [List.append_assoc, List.append_nil, List.nil_append] using this
  · -- no tag before a semicolon
    intro sc ts b r0 e p s q rest is cs h0 hn _ ih hl
    have hl0 := h0.left.lexical hl
    obtain ⟨N, hN⟩ := ih (lexical_tail (hn.left.lexical hl0))
    refine ⟨N + 3, fun fuel hf => ?_⟩
    obtain ⟨f, rfl⟩ : ∃ f, fuel = f + 3 := ⟨fuel - 3, by omega⟩
    refine children_semi h0.ne (e := ⟨e, p⟩) (s := s) (q := q) ?_ (hN _ (by omega))
    rw [childF_start h0, elementF_eq]
    exact Gives.perr (Gives.perr (.of_eq (noTag_eq hn)))
  · -- no tag
    intro sc ts b r0 e p rest h0 hn hs hl
    refine ⟨3, fun fuel hf => ?_⟩
    obtain ⟨f, rfl⟩ : ∃ f, fuel = f + 3 := ⟨fuel - 3, by omega⟩
    refine children_stop (is := []) (e := ⟨e, p⟩) h0.ne (rest := rest) ?_ hs
    rw [childF_start h0, elementF_eq]
    exact Gives.perr (Gives.perr (.of_eq (noTag_eq hn)))
  · -- a semicolon
    intro sc s p rest is cs _ ih hl
    obtain ⟨N, hN⟩ := ih (lexical_tail hl)
    refine ⟨N + 2, fun fuel hf => ?_⟩
    obtain ⟨f, rfl⟩ : ∃ f, fuel = f + 2 := ⟨fuel - 2, by omega⟩
    refine children_semi (by simp) (e := ⟨.invalidChild, p⟩) (s := s) (q := p) (.of_eq ?_) (hN _ (by omega))
    exact childF_nothing (by
      intro v r
      rw [eraseToks_cons]
      cases v <;> simp [CVal.toks, TT.erase]
      rename_i p c; cases p <;> simp) (by simp)
  · -- anything else
    intro sc t r hv hi hs hl
    refine ⟨2, fun fuel hf => ?_⟩
    obtain ⟨f, rfl⟩ : ∃ f, fuel = f + 2 := ⟨fuel - 2, by omega⟩
    refine children_stop (is := []) (e := ⟨.invalidChild, nextPlace sc (t :: r)⟩) (by simp) (rest := t :: r)
      (.of_eq (childF_nothing hv ?_)) ?_
    · rintro i p r' h
      simp only [List.cons.injEq] at h
      rw [h.1] at hi
      simp [TT.erase, Mview.TT.isIdent] at hi
    · rintro s p r' h
      simp only [List.cons.injEq] at h
      exact hs s p h.1

end Mview.Loc
