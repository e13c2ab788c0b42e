import Verif.Lemmas.GrammarTree
import Verif.Lemmas.Fuel
import Verif.Props.Safety
import Verif.Spec.Context
/-
What the parser does around a place in the input.
-/

namespace Mview

mutual
/-- A computable version of `LexicalToks`. -/
def TT.lexical : TT → Bool
  | .ident i => decide (i.name ≠ [] ∧ '-' ∉ i.name)
  | .group _ ts => toksLexical ts
  | _ => true
def toksLexical : List TT → Bool
  | [] => true
  | t :: ts => t.lexical && toksLexical ts
end

theorem lexical_of {ts : Toks} (h : toksLexical ts = true) : LexicalToks ts := by
  intro i r hw
  have : ∀ {pos ts : Toks}, Within pos ts → toksLexical ts = true → toksLexical pos = true := by
    intro pos ts hw
    induction hw with
    | here => exact id
    | tail _ ih =>
      intro h
      simp only [toksLexical, Bool.and_eq_true] at h
      exact ih h.2
    | group _ _ ih =>
      intro h
      simp only [toksLexical, TT.lexical, Bool.and_eq_true] at h
      exact ih h.1
  have := this hw h
  simp only [toksLexical, TT.lexical, Bool.and_eq_true, decide_eq_true_eq] at this
  exact this.1

/-- Put children before those parsed. -/
def prepend (cs : List Child) (o : Out (PR (List Child))) : Out (PR (List Child)) :=
  o.bind fun q =>
    match q with
    | .ok cs' r => .ret [] (.ok (cs ++ cs') r)
    | .err e r => .ret [] (.err e r)

theorem prepend_nil (o : Out (PR (List Child))) : prepend [] o = o := by
  unfold prepend
  cases o with
  | ret ds q => cases q <;> simp
  | _ => rfl

theorem prepend_prepend (cs cs' : List Child) (o : Out (PR (List Child))) :
    prepend cs (prepend cs' o) = prepend (cs ++ cs') o := by
  unfold prepend
  rw [Out.bind_assoc]
  congr
  funext q
  cases q <;> simp

theorem prepend_tell (cs : List Child) (ds : List Diag) (o : Out (PR (List Child))) :
    prepend cs (o.tell ds) = (prepend cs o).tell ds := Out.tell_bind _ _ _

/-- `Element::parse` after the attributes. -/
def elemTail (pp : PathParser) (fuel : Nat) (tag : Tag) (selectors : List Selector)
    (attrs : List Attr) : P Element := do
  let semi ← rollback (parsePunct ';')
  match semi with
  | some _ => pure (.mk tag selectors attrs none none)
  | none => do
    let ts ← inp
    if isEmpty ts then
      emitP .unterminated
      pure (.mk tag selectors attrs none none)
    else if peekGroup .brace ts || peekGroup .paren ts then
      let children ←
        if peekGroup .brace ts then inGroup .brace (childrenF pp fuel)
        else inGroup .paren (childrenF pp fuel)
      pure (.mk tag selectors attrs none (some children))
    else if peekPunct '|' ts then
      let args ← parseClosureArgs
      let ts ← inp
      if peekGroup .brace ts then
        let children ← inGroup .brace (childrenF pp fuel)
        pure (.mk tag selectors attrs (some args) (some children))
      else if peekGroup .paren ts then
        let children ← inGroup .paren (childrenF pp fuel)
        pure (.mk tag selectors attrs (some args) (some children))
      else
        emitP .expectedChildrenBlock
        pure (.mk tag selectors attrs (some args) none)
    else
      emitP .unknownAttribute
      emitP .childrenNotFound
      pure (.mk tag selectors attrs none none)

theorem elementF_eq (pp : PathParser) (fuel : Nat) :
    elementF pp (fuel + 1) = parseTag pp >>= fun tag => parseSelectors >>= fun sels =>
      parseAttrs >>= fun attrs => elemTail pp fuel tag sels attrs := by
  rw [elementF]
  rfl

theorem Yields.bind_eq {α β : Type} {p : P α} {f : α → P β} {ts rest : Toks} {a : α}
    (h : Yields p ts a rest) : (p >>= f) ts = f a rest := by
  rw [P.bind_apply, h]; simp

theorem rollback_fails {α : Type} {p : P α} {ts : Toks} (h : Fails p ts) :
    Yields (rollback p) ts none ts := yields_rollback_none.mpr ⟨h, rfl⟩

/-- After the first word of a head comes `::`, or anything but `:` and a bracket. -/
theorem head_second {pp : PathParser} {h : CHead} {after : Toks} (hw : h.Wf pp after)
    (hf : Follows after) {i : Ident} {r : Toks}
    (he : h.tag.toks ++ (h.sels.flatMap CSel.toks ++ (h.attrs.flatMap CAttr.toks ++ after)) =
      .ident i :: r) :
    StartsColons r ∨ ∃ t r', r = t :: r' ∧ (∀ s, t ≠ .punct ':' s) ∧ ∀ g, t ≠ .group .bracket g := by
  obtain ⟨h1, h2, h3, _⟩ := hw
  obtain ⟨t, r', hf, ht⟩ := sels_followsTag (cs := h.sels) (attrs_follows h3 hf)
  rw [hf] at h1 he
  cases htag : h.tag with
  | name run =>
    rw [htag] at h1 he
    obtain ⟨y, ys, h, ha, _, hb⟩ := name_second h1.1 ht he (rest := [])
    exact .inr ⟨y, ys, h, ha, hb⟩
  | path used p =>
    rw [htag] at h1 he
    have := h1.1
    rw [show (CTag.path used p).toks = used from rfl] at he
    rw [he] at this
    rcases this with ⟨_, _, h⟩ | ⟨_, _, h, hc | hc⟩
    · simp at h
    · simp only [List.cons.injEq] at h; exact .inl (h.2 ▸ hc)
    · simp only [List.cons.injEq] at h
      obtain ⟨s, x, hc⟩ := hc
      exact .inr ⟨_, _, h.2.trans hc, by simp, by simp⟩

/-- An element whose head is well-formed up to the attributes. -/
theorem elementF_head {pp : PathParser} (hpp : pp.Starts) {h : CHead} {after : Toks} (fuel : Nat)
    (hl : LexicalToks (h.tag.toks ++ (h.sels.flatMap CSel.toks ++ (h.attrs.flatMap CAttr.toks ++ after))))
    (hw : h.Wf pp after) (hf : Follows after) :
    elementF pp (fuel + 1)
      (h.tag.toks ++ (h.sels.flatMap CSel.toks ++ (h.attrs.flatMap CAttr.toks ++ after))) =
    (parseAttrs >>= elemTail pp fuel h.tag.ast (h.sels.map CSel.ast))
      (h.attrs.flatMap CAttr.toks ++ after) := by
  have haf := attrs_follows hw.2.2.1 hf
  rw [elementF_eq, (tag_complete hpp hl hw.1 (sels_followsTag haf)).bind_eq,
    (selectors_complete hl.append hw.2.1 haf).bind_eq]

/-- A child whose head is well-formed up to the attributes. -/
theorem childF_head {pp : PathParser} (hpp : pp.Starts) {h : CHead} {after : Toks} (fuel : Nat)
    (hl : LexicalToks (h.toks ++ after)) (hw : h.Wf pp after) (hf : Follows after) :
    childF pp (fuel + 2) (h.toks ++ after) =
    (parseAttrs >>= fun attrs => elemTail pp fuel h.tag.ast (h.sels.map CSel.ast) attrs >>= fun e =>
      pure (h.wrap e)) (h.attrs.flatMap CAttr.toks ++ after) := by
  have htoks : h.toks ++ after = slotToks h.slot ++
      (h.tag.toks ++ (h.sels.flatMap CSel.toks ++ (h.attrs.flatMap CAttr.toks ++ after))) := by
    simp [CHead.toks]
  rw [htoks] at hl ⊢
  have hel := elementF_head hpp fuel hl.append hw hf
  have assoc : (parseAttrs >>= fun attrs => elemTail pp fuel h.tag.ast (h.sels.map CSel.ast) attrs >>=
      fun e => pure (h.wrap e)) (h.attrs.flatMap CAttr.toks ++ after) =
      ((parseAttrs >>= elemTail pp fuel h.tag.ast (h.sels.map CSel.ast))
        (h.attrs.flatMap CAttr.toks ++ after)).bind fun q =>
          match q with
          | .ok e r => .ret [] (.ok (h.wrap e) r)
          | .err e r => .ret [] (.err e r) := by
    simp only [P.bind_apply, Out.bind_assoc]
    congr
    funext q
    cases q with
    | ok a r =>
      dsimp only
      congr 1
      funext q
      cases q <;> rfl
    | err e r => simp
  rw [assoc, ← hel]
  have hsec := fun i r => head_second hw hf (i := i) (r := r)
  have hend := hw.2.2.2
  rw [childF]
  cases hs : h.slot with
  | none =>
    rw [hs] at hend
    obtain ⟨i, r, he, h1, h2⟩ := hend
    rw [he] at hsec ⊢
    have hsec := hsec i (r ++ (h.sels.flatMap CSel.toks ++ (h.attrs.flatMap CAttr.toks ++ after))) rfl
    simp only [slotToks, List.nil_append]
    have hv : Fails parseValue (TT.ident i :: r ++
        (h.sels.flatMap CSel.toks ++ (h.attrs.flatMap CAttr.toks ++ after))) := by
      rw [fails_value]
      intro c rest' hc _
      cases c with
      | lit l => simp [CVal.toks] at hc
      | bool b =>
        simp only [CVal.toks, List.cons_append, List.nil_append, List.cons.injEq, TT.ident.injEq] at hc
        cases b
        · exact h2 (by simpa using hc.1)
        · exact h1 (by simpa using hc.1)
      | neg s f x => simp [CVal.toks] at hc
      | block x => simp [CVal.toks] at hc
      | bracket pfx x =>
        cases pfx with
        | none => simp [CVal.toks] at hc
        | some j =>
          simp only [CVal.toks, List.cons_append, List.nil_append, List.cons.injEq, TT.ident.injEq] at hc
          rw [hc.2] at hsec
          rcases hsec with ⟨s, r', h⟩ | ⟨t, r', h, _, hb⟩
          · simp at h
          · simp only [List.cons.injEq] at h
            exact hb _ h.1.symm
    rw [(rollback_fails hv).bind_eq]
    simp only
    rw [inp_bind, if_neg, if_pos (by simp [peekIdentAny])]
    · simp only [P.bind_apply, CHead.wrap, hs]
      congr 1
      funext q
      cases q <;> rfl
    · simp only [List.cons_append, skip_ident, Bool.and_eq_true, Bool.not_eq_true', not_and,
        Bool.not_eq_false, and_imp]
      intro _ hp
      rcases hsec with hsec | ⟨t, r', he, hne, _⟩
      · exact peekPunct2_colons.mpr hsec
      · obtain ⟨s, x, hx⟩ := peekPunct_iff.mp hp
        rw [he, List.cons.injEq] at hx
        exact absurd hx.1 (hne s)
  | some s =>
    rw [hs] at hend
    obtain ⟨t, r, he⟩ := CTag.toks_ne_nil hpp hw.1
    simp only [slotToks, List.cons_append, List.nil_append]
    have hv : Fails parseValue (TT.ident (plain c!"slot") :: .punct ':' s :: (h.tag.toks ++
        (h.sels.flatMap CSel.toks ++ (h.attrs.flatMap CAttr.toks ++ after)))) := by
      rw [fails_value]
      intro c rest' hc _
      cases c with
      | lit l => simp [CVal.toks] at hc
      | bool b => cases b <;> simp [CVal.toks, plain] at hc
      | neg s f x => simp [CVal.toks] at hc
      | block x => simp [CVal.toks] at hc
      | bracket pfx x => cases pfx <;> simp [CVal.toks] at hc
    rw [(rollback_fails hv).bind_eq]
    simp only
    rw [inp_bind, if_pos]
    · rw [(unwrap_kw.mpr rfl : Yields (unwrapP _ (parseKw c!"slot")) _ () _).bind_eq,
        (yields_unwrapP.mpr (yields_punct.mpr ⟨s, rfl⟩) : Yields (unwrapP _ (parsePunct ':')) _ () _).bind_eq]
      simp only [P.bind_apply, CHead.wrap, hs]
      congr 1
      funext q
      cases q <;> rfl
    · simp only [skip_ident, Bool.and_eq_true, Bool.not_eq_true']
      refine ⟨⟨by simp [peekKw, plain], by simp [peekPunct]⟩, ?_⟩
      rw [← Bool.not_eq_true, peekPunct2_colons]
      rintro ⟨s', r', h⟩
      rw [he] at h
      simp only [List.cons_append, List.cons.injEq, TT.punct.injEq, true_and] at h
      exact hend ⟨h.1, s', r, by rw [he, h.2.1]⟩

/-- A block of children, or closure arguments before one, is not an attribute. -/
theorem block_not_attr {args : Option (Spacing × Toks × Spacing)} {d : Braces} {content after : Toks}
    (hl : LexicalToks content) (hn : args = none → d = .brace → NotAttr content) :
    Fails parseAttr (argsToks args ++ (.group d.delim content :: after)) := by
  cases args with
  | some a =>
    exact attr_fails (by simp [argsToks, TT.isIdent, TT.isDash]) (by simp [argsToks])
  | none =>
    simp only [argsToks, List.nil_append]
    refine attr_fails (by simp [TT.isIdent, TT.isDash]) ?_
    intro x r h
    cases d with
    | paren => simp [Braces.delim] at h
    | brace =>
      obtain ⟨h1, h2⟩ := hn rfl rfl
      refine ⟨fails_inGroup.mpr (.inr ⟨_, _, rfl, ?_⟩), fails_spread.mpr ?_⟩
      · rcases h1 with h | ⟨run, t, r, h, hn⟩
        · exact .inl (fails_kebab.mpr h)
        · exact .inr ⟨_, t :: r, by simp, (yields_kebab hl.head).mpr ⟨run, h, hn, rfl⟩⟩
      · rintro s e r' he
        simp only [List.cons.injEq, TT.group.injEq, Braces.delim, true_and] at he
        exact h2 _ _ he.1

/-- The block of an element, after its attributes. -/
theorem elemTail_block {pp : PathParser} {fuel : Nat} {tag : Tag} {sels : List Selector}
    {attrs : List Attr} {args : Option (Spacing × Toks × Spacing)} {d : Braces} {content after : Toks}
    (ha : argsWf args) :
    elemTail pp fuel tag sels attrs (argsToks args ++ (.group d.delim content :: after)) =
    (inGroup d.delim (childrenF pp fuel) >>= fun cs =>
      pure (.mk tag sels attrs (argsAst args) (some cs))) (.group d.delim content :: after) := by
  unfold elemTail
  cases args with
  | none =>
    simp only [argsToks, List.nil_append]
    rw [(rollback_fails (fails_punct.mpr (by simp))).bind_eq]
    simp only
    rw [inp_bind, if_neg (by simp [isEmpty])]
    cases d with
    | brace => rw [if_pos (by rfl), if_pos (by rfl)]; rfl
    | paren => rw [if_pos (by rfl), if_neg (by simp [peekGroup, Braces.delim])]; rfl
  | some a =>
    rw [(rollback_fails (fails_punct.mpr (by simp [argsToks]))).bind_eq]
    simp only
    rw [inp_bind, if_neg (by simp [isEmpty, argsToks]), if_neg (by simp [argsToks, peekGroup]),
      if_pos (by rfl), (closure_complete ha).bind_eq, inp_bind]
    cases d with
    | brace => rw [if_pos (by rfl)]; rfl
    | paren => rw [if_neg (by simp [peekGroup, Braces.delim]), if_pos (by rfl)]; rfl

/-- One iteration of `Children::parse`. -/
theorem childrenF_ne {pp : PathParser} {fuel : Nat} {ts : Toks} (h : ts ≠ []) :
    childrenF pp (fuel + 1) ts = (childF pp fuel ts).bind fun r =>
      match r with
      | .ok c rest => prepend [c] (childrenF pp fuel rest)
      | .err e rest =>
        if peekPunct ';' rest then
          Out.bind (emit .extraSemicolon) fun _ =>
          Out.bind (unwrapP .semiUnwrap (parsePunct ';') rest) fun q =>
            match q with
            | .ok _ rest' => childrenF pp fuel rest'
            | .err e rest' => .ret [] (.err e rest')
        else
          Out.bind (emit (.synError e)) fun _ => childrenF pp fuel [] := by
  rw [childrenF]
  dsimp only
  rw [if_neg (by simpa [isEmpty] using h)]
  congr 1

/-- Well-formed children first. -/
theorem parse_append {pp : PathParser} (hpp : pp.Starts) : ∀ (before : List CChild) (rest : Toks),
    LexicalToks (childrenToks before ++ rest) → childrenWf pp before rest →
    parseChildren pp (childrenToks before ++ rest) =
      prepend (childrenAst before) (parseChildren pp rest) := by
  intro before
  induction before with
  | nil => intro rest _ _; simp [childrenToks, childrenAst, prepend_nil]
  | cons c cs ih =>
    intro rest hl hw
    rw [childrenWf] at hw
    have e : childrenToks (c :: cs) ++ rest = c.toks ++ (childrenToks cs ++ rest) := by
      simp [childrenToks]
    rw [e] at hl ⊢
    obtain ⟨N, hN⟩ := child_complete hpp c
    have ih := ih rest hl.append hw.2
    refine parseChildren_eq (N := N + fuelFor (childrenToks cs ++ rest) + 1) fun fuel hf => ?_
    obtain ⟨f, rfl⟩ : ∃ f, fuel = f + 1 := ⟨fuel - 1, by omega⟩
    obtain ⟨hne, hy⟩ := hN _ hl hw.1 f (by omega)
    have hlarge := childrenF_of_large pp (childrenToks cs ++ rest) (fuel := f) (by omega)
    rw [childrenF_ne hne, show childF pp f _ = _ from hy]
    simp only [Out.bind_ret, Out.tell_nil]
    rw [hlarge, ih]
    rw [show childrenAst (c :: cs) = [c.ast] ++ childrenAst cs by simp [childrenAst],
      ← prepend_prepend]

/-- Inside a block. -/
theorem parse_inside {pp : PathParser} (hpp : pp.Starts) {h : CHead}
    {args : Option (Spacing × Toks × Spacing)} {d : Braces} {content after : Toks}
    (hl : LexicalToks (h.toks ++ (argsToks args ++ (.group d.delim content :: after))))
    (hw : h.Wf pp (argsToks args ++ (.group d.delim content :: after))) (ha : argsWf args)
    (hn : args = none → d = .brace → NotAttr content) :
    parseChildren pp (h.toks ++ (argsToks args ++ (.group d.delim content :: after))) =
    (parseChildren pp content).bind fun q =>
      match q with
      | .ok cs _ => prepend [h.wrap (.mk h.tag.ast (h.sels.map CSel.ast) (h.attrs.map CAttr.ast)
          (argsAst args) (some cs))] (parseChildren pp after)
      | .err e r => .ret [] (.err e r) := by
  have hlc : LexicalToks content := hl.append.append.group (by cases d <;> simp [Braces.delim])
  have hff : Follows (argsToks args ++ (.group d.delim content :: after)) :=
    args_follows args ⟨_, _, rfl, by cases d <;> rfl⟩
  have hla : LexicalToks (h.attrs.flatMap CAttr.toks ++
      (argsToks args ++ (.group d.delim content :: after))) := by
    have : h.toks ++ (argsToks args ++ (.group d.delim content :: after)) = slotToks h.slot ++
      (h.tag.toks ++ (h.sels.flatMap CSel.toks ++ (h.attrs.flatMap CAttr.toks ++
        (argsToks args ++ (.group d.delim content :: after))))) := by simp [CHead.toks]
    rw [this] at hl
    exact hl.append.append.append
  refine parseChildren_eq (N := fuelFor content + fuelFor after + 3) fun fuel hf => ?_
  obtain ⟨f, rfl⟩ : ∃ f, fuel = f + 3 := ⟨fuel - 3, by omega⟩
  have hc := childrenF_of_large pp content (fuel := f) (by omega)
  have hr := childrenF_of_large pp after (fuel := f + 2) (by omega)
  rw [childrenF_ne (by cases args <;> simp [argsToks]), childF_head hpp f hl hw hff,
    (attrs_complete hla hff hw.2.2.1 (block_not_attr hlc hn)).bind_eq, P.bind_apply, elemTail_block ha,
    P.bind_apply]
  rcases parse_total pp content with ⟨ds, cs, hp⟩ | ⟨ds, hp⟩ | ⟨p, hp⟩
  · have : inGroup d.delim (childrenF pp f) (.group d.delim content :: after) =
        .ret ds (.ok cs after) := by
      unfold inGroup
      simp [extractGroup, peekGroup, isEmpty, hc, hp]
    rw [this, hp]
    simp [hr, prepend]
  · have : inGroup d.delim (childrenF pp f) (.group d.delim content :: after) = .abort ds := by
      unfold inGroup
      simp [extractGroup, peekGroup, isEmpty, hc, hp]
    rw [this, hp]
    rfl
  · have : inGroup d.delim (childrenF pp f) (.group d.delim content :: after) = .panic p := by
      unfold inGroup
      simp [extractGroup, peekGroup, isEmpty, hc, hp]
    rw [this, hp]
    rfl

/-- What becomes of the children parsed at a place. -/
def Place.around (pp : PathParser) (cs : List Child) : Place → Out (PR (List Child))
  | .here before => .ret [] (.ok (childrenAst before ++ cs) [])
  | .inside before head args _ inner after =>
    (inner.around pp cs).bind fun q =>
      match q with
      | .ok cs' _ => prepend (childrenAst before ++ [head.wrap (.mk head.tag.ast
          (head.sels.map CSel.ast) (head.attrs.map CAttr.ast) (argsAst args) (some cs'))])
          (parseChildren pp after)
      | .err e r => .ret [] (.err e r)

/-- Parsing at a place. -/
theorem parse_place {pp : PathParser} (hpp : pp.Starts) {x : Toks} : ∀ (K : Place),
    LexicalToks (K.fill x) → K.Wf pp x →
    parseChildren pp (K.fill x) = (parseChildren pp x).bind fun q =>
      match q with
      | .ok cs _ => K.around pp cs
      | .err e r => .ret [] (.err e r) := by
  intro K
  induction K with
  | here before =>
    intro hl hw
    rw [Place.fill] at hl ⊢
    rw [parse_append hpp before x hl hw]
    rcases parse_total pp x with ⟨ds, cs, hp⟩ | ⟨ds, hp⟩ | ⟨p, hp⟩ <;>
      simp [hp, prepend, Place.around]
  | inside before head args d inner after ih =>
    intro hl hw
    rw [Place.fill] at hl ⊢
    rw [Place.Wf] at hw
    obtain ⟨hw1, hw2, hw3, hw4, hw5⟩ := hw
    have hli : LexicalToks (inner.fill x) :=
      hl.append.append.append.group (by cases d <;> simp [Braces.delim])
    rw [parse_append hpp before _ hl hw1, parse_inside hpp hl.append hw2 hw3 hw4, ih hli hw5]
    rcases parse_total pp x with ⟨ds, cs, hp⟩ | ⟨ds, hp⟩ | ⟨p, hp⟩
    · simp only [hp, Out.bind_ret, Out.tell_bind, prepend_tell]
      congr 1
      rw [Place.around]
      cases inner.around pp cs with
      | ret ds q => cases q <;> simp [prepend_tell, ← prepend_prepend] <;> simp [prepend]
      | _ => rfl
    · simp [hp, prepend]
    · simp [hp, prepend]

/-! ### diagnostics -/

/-- If the outcome is a result, `d` was emitted. -/
def Out.Tells {α : Type} (d : Diag) : Out α → Prop
  | .ret ds _ => d ∈ ds
  | .abort ds => d ∈ ds
  | .panic _ => True
  | .diverge => True

theorem Out.Tells.tell {α : Type} {d : Diag} {o : Out α} (h : o.Tells d) (ds : List Diag) :
    (o.tell ds).Tells d := by
  cases o <;> simp_all [Out.Tells]

theorem Out.tells_of_mem {α : Type} {d : Diag} {ds : List Diag} (h : d ∈ ds) (o : Out α) :
    (o.tell ds).Tells d := by
  cases o <;> simp_all [Out.Tells]

theorem Out.Tells.bind {α β : Type} {d : Diag} {o : Out α} (h : o.Tells d) (f : α → Out β) :
    (o.bind f).Tells d := by
  cases o with
  | ret ds a => exact Out.tells_of_mem h _
  | _ => exact h

/-- A diagnostic of what is at a place is one of the whole input. -/
theorem tells_place {pp : PathParser} (hpp : pp.Starts) {x : Toks} {K : Place} {d : Diag}
    (hl : LexicalToks (K.fill x)) (hw : K.Wf pp x) (h : (parseChildren pp x).Tells d) :
    (parseChildren pp (K.fill x)).Tells d := by
  rw [parse_place hpp K hl hw]
  exact h.bind _

/-- Diagnostics of the first child. -/
theorem tells_first {pp : PathParser} {ts : Toks} {d : Diag} {N : Nat} (hne : ts ≠ [])
    (h : ∀ fuel, N ≤ fuel → (childF pp fuel ts).Tells d) : (parseChildren pp ts).Tells d := by
  have h1 := childrenF_of_large pp ts (fuel := max (fuelFor ts) N + 1) (by omega)
  rw [← h1, childrenF_ne hne]
  exact (h _ (by omega)).bind _

end Mview
