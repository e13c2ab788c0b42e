import Verif.Lemmas.GrammarAttrs
/-
The parser and the grammar agree: tags, closure arguments, elements, children.
-/

namespace Mview

/-! ### tags -/

/-- A word before a token that does not continue it. -/
theorem nameEnds_single {i : Ident} {t : TT} {r : Toks} (hl : LexicalToks (.ident i :: t :: r))
    (ht : t.isDash = false) : NameEnds [.ident i] (t :: r) := by
  have hs : kebabSplit (.ident i :: t :: r) = some ([.ident i], t :: r) := by
    rw [kebabSplit_eq hl.head (.inl rfl)]
    rw [show TT.isWord (.ident i) = true from rfl, munch_eq_nil_iff.mpr (by simp [Stops, ht])]
  exact ⟨kebabSplit_longest hl.head hs, rfl⟩

theorem pathLike_iff {ts : Toks} (hs : StartsColons ts ∨ (∃ i r, ts = .ident i :: r)) :
    (peekPunct2 ':' ':' (skip ts) || peekPunct2 ':' ':' ts || peekPunct '<' (skip ts)) = true ↔
      PathLike ts := by
  simp only [Bool.or_eq_true, peekPunct2_colons, peekPunct_angle]
  unfold PathLike
  rcases hs with h | ⟨i, r, rfl⟩
  · simp [h]
  · rw [skip_ident]
    have : ¬ StartsColons (.ident i :: r) := by rintro ⟨_, _, h⟩; simp at h
    simp only [this, false_or, or_false, List.cons.injEq, TT.ident.injEq]
    constructor
    · intro h; exact ⟨i, r, ⟨rfl, rfl⟩, h⟩
    · rintro ⟨_, _, ⟨rfl, rfl⟩, h⟩; exact h

theorem yields_path {pp : PathParser} {ts rest : Toks} {p : Path} :
    Yields (parsePath pp) ts p rest ↔ pp.run ts = (some p, rest) := by
  unfold Yields parsePath
  split
  · rename_i q r h; rw [h]; simp
  · rename_i r h; rw [h]; simp

theorem tagKind_iff {k : KebabIdent} (hk : 0 < k.spans) {ts rest : Toks} {tag : Tag} :
    Yields (match TagKind.ofStr k.repr with
      | .html => do
        let i ← liftOut k.toSnakeIdent
        pure (.html i)
      | .component => do
        let i ← liftOut k.toSnakeIdent
        pure (.component (Path.ofIdent ⟨false, i.name⟩))
      | .svg => do
        let i ← liftOut k.toSnakeIdent
        pure (.svg i)
      | .math => do
        let i ← liftOut k.toSnakeIdent
        pure (.math i)
      | .webComponent => pure (.webComponent k)) ts tag rest ↔ tagOf k = some tag ∧ rest = ts := by
  have hsn : ∀ i, k.toSnakeIdent = .ret [] i ↔ rawIdentOf k.repr = some i := by
    intro i
    have hraw : rawIdentOf k.repr = if (k.repr.map fun c =>
      if c = '-' then '_' else c) ∈ [c!"_", c!"self", c!"Self", c!"super", c!"crate"] then none
      else some ⟨true, k.repr.map fun c => if c = '-' then '_' else c⟩ := rfl
    rw [snake_ident k hk, hraw]
    simp only
    split
    · simp
    · simp
  have hgen : ∀ {γ : Type} (f : Ident → Tag),
      Yields (do let i ← liftOut k.toSnakeIdent; pure (f i)) ts tag rest ↔
        (rawIdentOf k.repr).map f = some tag ∧ rest = ts := by
    intro _ f
    rw [yields_bind]
    simp only [yields_liftOut, yields_pure, hsn, Option.map_eq_some_iff]
    constructor
    · rintro ⟨i, r, ⟨h1, rfl⟩, rfl, rfl⟩; exact ⟨⟨i, h1, rfl⟩, rfl⟩
    · rintro ⟨⟨i, h1, rfl⟩, rfl⟩; exact ⟨i, _, ⟨h1, rfl⟩, rfl, rfl⟩
  rw [tag_kind]
  unfold tagOf
  cases kindOf k.repr with
  | html => exact hgen (γ := Unit) .html
  | component => exact hgen (γ := Unit) fun i => .component (Path.ofIdent ⟨false, i.name⟩)
  | svg => exact hgen (γ := Unit) .svg
  | math => exact hgen (γ := Unit) .math
  | webComponent => simp [eq_comm]

theorem tag_sound {pp : PathParser} (hpp : pp.Starts) {ts rest : Toks} {tag : Tag}
    (hl : LexicalToks ts) (h : Yields (parseTag pp) ts tag rest) :
    ∃ c : CTag, ts = c.toks ++ rest ∧ c.ast = tag ∧ c.Wf pp rest := by
  unfold parseTag at h
  rw [yields_inp_bind] at h
  split at h
  · rename_i hc
    obtain ⟨p, r, h1, h2⟩ := yields_bind.mp h
    rw [yields_path] at h1
    rw [yields_pure] at h2
    obtain ⟨rfl, rfl⟩ := h2
    obtain ⟨used, hu, rfl⟩ := pp.progress _ _ _ h1
    exact ⟨.path used p, rfl, rfl, (pathLike_iff (hpp h1)).mp hc, h1⟩
  · obtain ⟨k, r, h1, h2⟩ := yields_bind.mp h
    obtain ⟨run, rfl, hn, rfl⟩ := (yields_kebab hl.head).mp h1
    obtain ⟨t, ru, he, _⟩ := hn.starts
    replace h2 := (tagKind_iff (kebabOf_spans (run := run) (by simp [he]))).mp h2
    obtain ⟨h2, rfl⟩ := h2
    refine ⟨.name run, rfl, ?_, hn, by simp [h2]⟩
    simp [CTag.ast, h2]

/-- A token that can follow a tag name. -/
def TT.followsTag : TT → Bool
  | .ident _ => true
  | .punct c _ => c = '-' || c = ';' || c = '|' || c = '.' || c = '#'
  | .group .bracket _ => false
  | .group _ _ => true
  | .lit _ => false

theorem followsTag_of_follows {t : TT} (h : t.follows = true) : t.followsTag = true := by
  cases t with
  | punct c s =>
    simp only [TT.follows, Bool.or_eq_true, decide_eq_true_eq] at h
    simp only [TT.followsTag, Bool.or_eq_true, decide_eq_true_eq]
    rcases h with (h | h) | h <;> simp [h]
  | ident i => rfl
  | group d x => cases d <;> simp_all [TT.follows, TT.followsTag]
  | lit l => simp [TT.follows] at h

theorem sels_followsTag {cs : List CSel} {rest : Toks} (hf : Follows rest) :
    ∃ t r, cs.flatMap CSel.toks ++ rest = t :: r ∧ t.followsTag = true := by
  cases cs with
  | nil =>
    obtain ⟨t, r, rfl, ht⟩ := hf
    exact ⟨t, r, rfl, followsTag_of_follows ht⟩
  | cons c cs => cases c <;> exact ⟨_, _, rfl, rfl⟩

/-- The token after the first one of a name tag. -/
theorem name_second {run rest : Toks} {t : TT} {r : Toks} (hn : NameEnds run (t :: r))
    (ht : t.followsTag = true) {x : TT} {xs : Toks} (he : run ++ t :: r = x :: xs) :
    ∃ y ys, xs = y :: ys ∧ (∀ s, y ≠ .punct ':' s) ∧ (∀ s, y ≠ .punct '<' s) ∧
      ∀ g, y ≠ .group .bracket g := by
  cases run with
  | nil => exact absurd rfl hn.1.kebab.nonempty
  | cons a run =>
    simp only [List.cons_append, List.cons.injEq] at he
    obtain ⟨rfl, rfl⟩ := he
    cases run with
    | nil =>
      refine ⟨t, r, rfl, ?_, ?_, ?_⟩ <;> (rintro s rfl; simp [TT.followsTag] at ht)
    | cons b run =>
      have := hn.1.kebab.tokens b (by simp)
      refine ⟨b, _, rfl, ?_, ?_, ?_⟩ <;> (rintro s rfl; simp [TT.isWord, TT.isDash] at this)

theorem tag_complete {pp : PathParser} {c : CTag} {rest : Toks}
    (hpp : pp.Starts) (hl : LexicalToks (c.toks ++ rest)) (hw : c.Wf pp rest)
    (hf : ∃ t r, rest = t :: r ∧ t.followsTag = true) :
    Yields (parseTag pp) (c.toks ++ rest) c.ast rest := by
  unfold parseTag
  rw [yields_inp_bind]
  cases c with
  | path used p =>
    obtain ⟨h1, h2⟩ := hw
    have := (pathLike_iff (hpp h2)).mpr h1
    rw [show (CTag.path used p).toks = used from rfl, if_pos this]
    exact yields_bind.mpr ⟨_, _, yields_path.mpr h2, yields_pure.mpr ⟨rfl, rfl⟩⟩
  | name run =>
    obtain ⟨hn, ht⟩ := hw
    obtain ⟨t, r, rfl, hft⟩ := hf
    obtain ⟨a, ru, rfl, ha⟩ := hn.starts
    have hsk : skip ((CTag.name (a :: ru)).toks ++ t :: r) = ru ++ t :: r := by
      rcases ha with ha | ha
      · cases a <;> simp [TT.isIdent] at ha; rfl
      · obtain ⟨s, rfl⟩ := isDash_eq ha; rfl
    obtain ⟨y, ys, he, h1, h2, _⟩ := name_second hn hft (x := a) (xs := ru ++ t :: r) rfl (rest := [])
    rw [if_neg]
    · refine yields_bind.mpr ⟨_, _, (yields_kebab hl.head).mpr ⟨a :: ru, rfl, hn, rfl⟩, ?_⟩
      refine (tagKind_iff (kebabOf_spans (run := a :: ru) (by simp))).mpr ⟨?_, rfl⟩
      cases hq : tagOf (kebabOf (a :: ru)) with
      | none => exact absurd hq ht
      | some tag => simp [CTag.ast, hq]
    · rw [hsk, he]
      simp only [Bool.or_eq_true, peekPunct2_colons, peekPunct_angle]
      rintro ((⟨s, r', h⟩ | ⟨s, r', h⟩) | ⟨s, r', h⟩)
      · simp only [List.cons.injEq] at h; exact h1 _ h.1
      · simp only [CTag.toks, List.cons_append, List.cons.injEq] at h
        rw [h.1] at ha
        simp [TT.isIdent, TT.isDash] at ha
      · simp only [List.cons.injEq] at h; exact h2 _ h.1

/-! ### closure arguments -/

theorem isPipe_eq {t : TT} (h : t.isPipe = true) : ∃ s, t = .punct '|' s := by
  unfold TT.isPipe at h; split at h <;> simp_all

theorem yields_tt {ts rest : Toks} {t : TT} : Yields parseTT ts t rest ↔ ts = t :: rest := by
  unfold Yields parseTT
  split <;> simp

theorem closureLoop_sound : ∀ (fuel : Nat) (tokens a ts rest : Toks),
    Yields (closureArgsLoop fuel tokens) ts a rest →
    ∃ args s, ts = args ++ .punct '|' s :: rest ∧ a = tokens ++ args ++ [pipeTok] ∧
      ∀ t ∈ args, t.isPipe = false := by
  intro fuel
  induction fuel with
  | zero => intro tokens a ts rest h; simp [Yields, closureArgsLoop] at h
  | succ fuel ih =>
    intro tokens a ts rest h
    rw [closureArgsLoop] at h
    obtain ⟨o, r, h1, h2⟩ := yields_bind.mp h
    cases o with
    | some u =>
      rw [yields_rollback_some, yields_punct] at h1
      obtain ⟨s, rfl⟩ := h1
      rw [yields_pure] at h2
      obtain ⟨rfl, rfl⟩ := h2
      exact ⟨[], s, rfl, by simp, by simp⟩
    | none =>
      rw [yields_rollback_none, fails_punct] at h1
      obtain ⟨hp, rfl⟩ := h1
      obtain ⟨o, r', h3, h4⟩ := yields_bind.mp h2
      cases o with
      | none => exact absurd h4 yields_fail
      | some tt =>
        rw [yields_rollback_some] at h3
        rw [yields_tt] at h3
        subst h3
        obtain ⟨args, s, rfl, rfl, hargs⟩ := ih _ _ _ _ h4
        refine ⟨tt :: args, s, rfl, by simp, ?_⟩
        intro t ht
        rcases List.mem_cons.mp ht with rfl | ht
        · cases hq : t.isPipe
          · rfl
          · obtain ⟨s', rfl⟩ := isPipe_eq hq
            exact absurd rfl (hp _ _)
        · exact hargs t ht

theorem closureLoop_complete : ∀ (args : Toks) (fuel : Nat) (tokens rest : Toks) (s : Spacing),
    (∀ t ∈ args, t.isPipe = false) → args.length < fuel →
    Yields (closureArgsLoop fuel tokens) (args ++ .punct '|' s :: rest)
      (tokens ++ args ++ [pipeTok]) rest := by
  intro args
  induction args with
  | nil =>
    intro fuel tokens rest s _ hlen
    obtain ⟨f, rfl⟩ : ∃ f, fuel = f + 1 := ⟨fuel - 1, by simp at hlen; omega⟩
    rw [closureArgsLoop]
    exact yields_bind.mpr ⟨some (), rest, yields_rollback_some.mpr (yields_punct.mpr ⟨s, rfl⟩),
      yields_pure.mpr ⟨by simp, rfl⟩⟩
  | cons t args ih =>
    intro fuel tokens rest s hp hlen
    obtain ⟨f, rfl⟩ : ∃ f, fuel = f + 1 := ⟨fuel - 1, by simp at hlen; omega⟩
    rw [closureArgsLoop]
    have ht := hp t (by simp)
    refine yields_bind.mpr ⟨none, _, yields_rollback_none.mpr ⟨fails_punct.mpr ?_, rfl⟩,
      yields_bind.mpr ⟨some t, args ++ .punct '|' s :: rest, yields_rollback_some.mpr rfl, ?_⟩⟩
    · rintro s r h
      simp only [List.cons_append, List.cons.injEq] at h
      rw [h.1] at ht
      simp [TT.isPipe] at ht
    · have := ih f (tokens ++ [t]) rest s (fun x hx => hp x (by simp [hx])) (by simp at hlen; omega)
      simpa using this

theorem closure_sound {ts rest a : Toks} (h : Yields parseClosureArgs ts a rest) :
    ∃ c, ts = argsToks (some c) ++ rest ∧ argsAst (some c) = some a ∧ argsWf (some c) := by
  unfold parseClosureArgs at h
  obtain ⟨_, r, h1, h2⟩ := yields_bind.mp h
  rw [yields_punct] at h1
  obtain ⟨s, rfl⟩ := h1
  rw [yields_inp_bind] at h2
  obtain ⟨args, s', rfl, rfl, hp⟩ := closureLoop_sound _ _ _ _ _ h2
  refine ⟨(s, args, s'), by simp [argsToks], by simp [argsAst, pipeTok], ?_⟩
  intro _ _ _ he
  simp only [Option.some.injEq, Prod.mk.injEq] at he
  rw [← he.2.1]; exact hp

theorem closure_complete {c : Spacing × Toks × Spacing} {rest : Toks} (hw : argsWf (some c)) :
    Yields parseClosureArgs (argsToks (some c) ++ rest)
      (.punct '|' .alone :: (c.2.1 ++ [.punct '|' .alone])) rest := by
  obtain ⟨s, args, s'⟩ := c
  unfold parseClosureArgs
  refine yields_bind.mpr ⟨(), args ++ .punct '|' s' :: rest, yields_punct.mpr ⟨s, by simp [argsToks]⟩,
    yields_inp_bind.mpr ?_⟩
  have := closureLoop_complete args ((args ++ .punct '|' s' :: rest).length + 1) [pipeTok] rest s'
    (hw s args s' rfl) (by simp; omega)
  simpa [pipeTok] using this

/-! ### elements and children: the parser accepts only the grammar -/

theorem yields_children {pp : PathParser} {fuel : Nat} {ts rest : Toks} {cs : List Child} :
    Yields (childrenF pp (fuel + 1)) ts cs rest ↔
      (ts = [] ∧ cs = [] ∧ rest = []) ∨
      (ts ≠ [] ∧ ∃ c r cs', Yields (childF pp fuel) ts c r ∧
        Yields (childrenF pp fuel) r cs' rest ∧ cs = c :: cs') := by
  unfold Yields
  rw [childrenF]
  cases ts with
  | nil => simp [isEmpty, eq_comm]
  | cons t ts =>
    simp only [isEmpty, List.isEmpty_cons, Bool.false_eq_true, if_false, Out.bind_eq_ret_nil]
    constructor
    · rintro ⟨q, h1, h2⟩
      refine .inr ⟨by simp, ?_⟩
      cases q with
      | ok c r =>
        simp only [Out.bind_eq_ret_nil] at h2
        obtain ⟨q', h3, h4⟩ := h2
        cases q' with
        | ok cs' r' => simp at h4; exact ⟨c, r, cs', h1, by rw [h3, h4.2], h4.1.symm⟩
        | err => simp at h4
      | err e r =>
        simp only at h2
        split at h2 <;> (rw [Out.bind_eq_ret_nil] at h2; simp [emit] at h2)
    · rintro (⟨h, _⟩ | ⟨_, c, r, cs', h1, h2, rfl⟩)
      · simp at h
      · exact ⟨_, h1, by simp [h2]⟩

theorem unwrap_kw {kw : Str} {ts rest : Toks} {u : Unit} {site : PanicSite} :
    Yields (unwrapP site (parseKw kw)) ts u rest ↔ ts = .ident (plain kw) :: rest := by
  rw [yields_unwrapP]
  unfold Yields parseKw
  split
  · rename_i h
    unfold peekKw at h
    split at h
    · simp only [decide_eq_true_eq] at h; subst h; simp [plain]
    · simp at h
  · rename_i h
    simp only [Out.ret.injEq, true_and, reduceCtorEq, false_iff]
    rintro rfl
    simp [peekKw, plain] at h

theorem CTag.toks_ne_nil {pp : PathParser} {c : CTag} {rest : Toks} (hpp : pp.Starts)
    (h : c.Wf pp rest) : ∃ t r, c.toks = t :: r := by
  cases c with
  | name run => obtain ⟨t, r, h, _⟩ := h.1.starts; exact ⟨t, r, h⟩
  | path used p =>
    obtain ⟨u, hu, he⟩ := pp.progress _ _ _ h.2
    have := List.append_cancel_right he
    subst this
    cases used with
    | nil => exact absurd rfl hu
    | cons t r => exact ⟨t, r, rfl⟩

theorem CElem.toks_ne_nil {pp : PathParser} {e : CElem} {rest : Toks} (hpp : pp.Starts)
    (h : e.Wf pp rest) : ∃ t r, e.toks = t :: r := by
  cases e with
  | mk tag sels attrs fin =>
    rw [CElem.Wf] at h
    obtain ⟨t, r, he⟩ := CTag.toks_ne_nil hpp h.1
    exact ⟨t, _, by simp [CElem.toks, he]; rfl⟩

theorem brace_sound {pp : PathParser} {fuel : Nat} {d : Braces}
    (ih : ∀ ts cs rest, LexicalToks ts → Yields (childrenF pp fuel) ts cs rest →
      ∃ c, ts = childrenToks c ∧ childrenAst c = cs ∧ childrenWf pp c [] ∧ rest = [])
    {ts rest : Toks} {cs : List Child} (hl : LexicalToks ts)
    (h : Yields (inGroup d.delim (childrenF pp fuel)) ts cs rest) :
    ∃ c, ts = .group d.delim (childrenToks c) :: rest ∧ childrenAst c = cs ∧ childrenWf pp c [] := by
  rw [yields_inGroup] at h
  obtain ⟨inner, rfl, h⟩ := h
  obtain ⟨c, rfl, h2, h3, _⟩ := ih _ _ _ (hl.group (by cases d <;> simp [Braces.delim])) h
  exact ⟨c, rfl, h2, h3⟩

theorem tree_sound {pp : PathParser} (hpp : pp.Starts) : ∀ (fuel : Nat),
    (∀ ts e rest, LexicalToks ts → Yields (elementF pp fuel) ts e rest →
      ∃ c : CElem, ts = c.toks ++ rest ∧ c.ast = e ∧ c.Wf pp rest) ∧
    (∀ ts a rest, LexicalToks ts → Yields (childF pp fuel) ts a rest →
      ∃ c : CChild, ts = c.toks ++ rest ∧ c.ast = a ∧ c.Wf pp rest) ∧
    (∀ ts cs rest, LexicalToks ts → Yields (childrenF pp fuel) ts cs rest →
      ∃ c, ts = childrenToks c ∧ childrenAst c = cs ∧ childrenWf pp c [] ∧ rest = []) := by
  intro fuel
  induction fuel with
  | zero =>
    refine ⟨?_, ?_, ?_⟩ <;> (intro ts a rest _ h; simp [Yields, elementF, childF, childrenF] at h)
  | succ fuel ih =>
    obtain ⟨ihe, ihc, ihcs⟩ := ih
    refine ⟨?_, ?_, ?_⟩
    · intro ts e rest hl h
      rw [elementF] at h
      obtain ⟨tag, r1, h1, h⟩ := yields_bind.mp h
      obtain ⟨ctag, rfl, rfl, hw1⟩ := tag_sound hpp hl h1
      obtain ⟨sels, r2, h2, h3⟩ := yields_bind.mp h
      clear h
      obtain ⟨csels, rfl, rfl, hw2⟩ := selectors_sound hl.append h2
      obtain ⟨attrs, r3, h4, h⟩ := yields_bind.mp h3
      clear h3
      obtain ⟨cattrs, rfl, rfl, hw3⟩ := attrs_sound hl.append.append h4
      have hl := hl.append.append.append
      -- it remains to parse the end
      suffices ∃ fin : CEnd, r3 = fin.toks ++ rest ∧
          Element.mk ctag.ast (csels.map CSel.ast) (cattrs.map CAttr.ast) fin.args fin.children = e ∧
          fin.Wf pp by
        obtain ⟨fin, rfl, he, hw4⟩ := this
        refine ⟨.mk ctag csels cattrs fin, by simp [CElem.toks], by simpa [CElem.ast] using he, ?_⟩
        rw [CElem.Wf]
        exact ⟨hw1, hw2, hw3, hw4⟩
      clear hw1 hw2 hw3 h1 h2 h4
      obtain ⟨o, r4, h1, h2⟩ := yields_bind.mp h
      clear h
      cases o with
      | some u =>
        rw [yields_rollback_some, yields_punct] at h1
        obtain ⟨s, rfl⟩ := h1
        rw [yields_pure] at h2
        obtain ⟨rfl, rfl⟩ := h2
        exact ⟨.semi s, by simp [CEnd.toks], by simp [CEnd.args, CEnd.children], by simp [CEnd.Wf]⟩
      | none =>
        rw [yields_rollback_none] at h1
        obtain ⟨_, rfl⟩ := h1
        simp only at h2
        rw [yields_inp_bind] at h2
        split at h2
        · obtain ⟨_, _, h2, _⟩ := yields_bind.mp h2
          exact absurd h2 yields_emitP
        · split at h2
          · split at h2
            · obtain ⟨cs, r, h3, h4⟩ := yields_bind.mp h2
              rw [yields_pure] at h4
              obtain ⟨rfl, rfl⟩ := h4
              obtain ⟨c, rfl, rfl, hw⟩ := brace_sound (d := .brace) ihcs hl h3
              exact ⟨.block none .brace c, by simp [CEnd.toks, argsToks],
                by simp [CEnd.args, CEnd.children, argsAst],
                by rw [CEnd.Wf]; exact ⟨by intro _ _ _ h; simp at h, hw⟩⟩
            · obtain ⟨cs, r, h3, h4⟩ := yields_bind.mp h2
              rw [yields_pure] at h4
              obtain ⟨rfl, rfl⟩ := h4
              obtain ⟨c, rfl, rfl, hw⟩ := brace_sound (d := .paren) ihcs hl h3
              exact ⟨.block none .paren c, by simp [CEnd.toks, argsToks],
                by simp [CEnd.args, CEnd.children, argsAst],
                by rw [CEnd.Wf]; exact ⟨by intro _ _ _ h; simp at h, hw⟩⟩
          · split at h2
            · obtain ⟨args, r, h3, h4⟩ := yields_bind.mp h2
              clear h2
              obtain ⟨cargs, rfl, hargs, hwargs⟩ := closure_sound h3
              rw [yields_inp_bind] at h4
              split at h4
              · obtain ⟨cs, r', h5, h6⟩ := yields_bind.mp h4
                rw [yields_pure] at h6
                obtain ⟨rfl, rfl⟩ := h6
                obtain ⟨c, rfl, rfl, hw⟩ := brace_sound (d := .brace) ihcs hl.append h5
                exact ⟨.block (some cargs) .brace c, by simp [CEnd.toks],
                  by simp [CEnd.args, CEnd.children, hargs], by rw [CEnd.Wf]; exact ⟨hwargs, hw⟩⟩
              · split at h4
                · obtain ⟨cs, r', h5, h6⟩ := yields_bind.mp h4
                  rw [yields_pure] at h6
                  obtain ⟨rfl, rfl⟩ := h6
                  obtain ⟨c, rfl, rfl, hw⟩ := brace_sound (d := .paren) ihcs hl.append h5
                  exact ⟨.block (some cargs) .paren c, by simp [CEnd.toks],
                    by simp [CEnd.args, CEnd.children, hargs], by rw [CEnd.Wf]; exact ⟨hwargs, hw⟩⟩
                · obtain ⟨_, _, h, _⟩ := yields_bind.mp h4
                  exact absurd h yields_emitP
            · obtain ⟨_, _, h, _⟩ := yields_bind.mp h2
              exact absurd h yields_emitP
    · intro ts a rest hl h
      rw [childF] at h
      obtain ⟨o, r, h1, h2⟩ := yields_bind.mp h
      clear h
      cases o with
      | some v =>
        rw [yields_rollback_some, yields_value] at h1
        obtain ⟨cv, rfl, rfl, hend⟩ := h1
        have hn : ∀ {p : P Child}, ¬ Yields (do emitP .nonStringChild; p) r a rest := by
          intro p h
          obtain ⟨_, _, h, _⟩ := yields_bind.mp h
          exact yields_emitP h
        cases cv with
        | lit l =>
          cases l with
          | str s =>
            simp only [CVal.ast] at h2
            rw [yields_pure] at h2
            obtain ⟨rfl, rfl⟩ := h2
            exact ⟨.value (.lit (.str s)), by simp [CChild.toks], by simp [CChild.ast, CVal.ast],
              by simp [CChild.Wf, CVal.ChildWf]⟩
          | _ => exact absurd h2 hn
        | bool b => exact absurd h2 hn
        | neg s f x => cases f <;> exact absurd h2 hn
        | block x =>
          simp only [CVal.ast] at h2
          rw [yields_pure] at h2
          obtain ⟨rfl, rfl⟩ := h2
          exact ⟨.value (.block x), by simp [CChild.toks], by simp [CChild.ast, CVal.ast],
            by simp [CChild.Wf, CVal.ChildWf]⟩
        | bracket pfx x =>
          simp only [CVal.ast] at h2
          rw [yields_pure] at h2
          obtain ⟨rfl, rfl⟩ := h2
          exact ⟨.value (.bracket pfx x), by simp [CChild.toks], by simp [CChild.ast, CVal.ast],
            by simp [CChild.Wf, CVal.ChildWf]⟩
      | none =>
        rw [yields_rollback_none] at h1
        obtain ⟨hv, rfl⟩ := h1
        simp only at h2
        rw [yields_inp_bind] at h2
        split at h2
        · rename_i hc
          simp only [Bool.and_eq_true, Bool.not_eq_true', ] at hc
          obtain ⟨_, r1, h3, h4⟩ := yields_bind.mp h2
          obtain ⟨_, r2, h5, h6⟩ := yields_bind.mp h4
          obtain ⟨e, r3, h7, h8⟩ := yields_bind.mp h6
          clear h2 h4 h6
          rw [unwrap_kw] at h3
          rw [yields_unwrapP, yields_punct] at h5
          obtain ⟨s, rfl⟩ := h5
          subst h3
          rw [yields_pure] at h8
          obtain ⟨rfl, rfl⟩ := h8
          obtain ⟨c, rfl, rfl, hw⟩ := ihe _ _ _ hl.tail.tail h7
          refine ⟨.slot s c, by simp [CChild.toks], by simp [CChild.ast], ?_⟩
          rw [CChild.Wf]
          refine ⟨hw, ?_⟩
          rintro ⟨rfl, s', r', he⟩
          have := hc.2
          rw [skip_ident, he] at this
          simp [peekPunct2] at this
        · split at h2
          · rename_i hi
            obtain ⟨e, r1, h3, h4⟩ := yields_bind.mp h2
            clear h2
            rw [yields_pure] at h4
            obtain ⟨rfl, rfl⟩ := h4
            obtain ⟨c, rfl, rfl, hw⟩ := ihe _ _ _ hl h3
            refine ⟨.elem c, by simp [CChild.toks], by simp [CChild.ast], ?_⟩
            rw [CChild.Wf]
            refine ⟨hw, ?_⟩
            obtain ⟨t, tr, he⟩ := CElem.toks_ne_nil hpp hw
            obtain ⟨i, r', he'⟩ := peekIdentAny_iff.mp hi
            rw [he, List.cons_append, List.cons.injEq] at he'
            obtain ⟨rfl, rfl⟩ := he'
            refine ⟨i, tr, he, ?_⟩
            rw [fails_value] at hv
            have key : ∀ b : Bool, i ≠ plain (if b then c!"true" else c!"false") := by
              intro b hb
              by_cases hbr : ∃ x r', tr ++ rest = .group .bracket x :: r'
              · obtain ⟨x, r', hbr⟩ := hbr
                exact hv (.bracket (some i) x) r' (by simp [he, hbr, CVal.toks]) (by rintro b ⟨⟩)
              · refine hv (.bool b) (tr ++ rest) (by simp [he, hb, CVal.toks]) ?_
                intro b' _ x r' h
                exact hbr ⟨x, r', h⟩
            exact ⟨key true, key false⟩
          · exact absurd h2 yields_fail
    · intro ts cs rest hl h
      rw [yields_children] at h
      rcases h with ⟨rfl, rfl, rfl⟩ | ⟨hne, c, r, cs', h1, h2, rfl⟩
      · exact ⟨[], by simp [childrenToks], by simp [childrenAst], by simp [childrenWf], rfl⟩
      · obtain ⟨cc, rfl, rfl, hw⟩ := ihc _ _ _ hl h1
        obtain ⟨ccs, rfl, rfl, hws, hr⟩ := ihcs _ _ _ hl.append h2
        exact ⟨cc :: ccs, by simp [childrenToks], by simp [childrenAst],
          by simp [childrenWf, hw, hws], hr⟩

/-! ### the parser accepts all of the grammar -/

/-- What follows the first word of an element: `::`, or anything but `:` and a bracket. -/
theorem elem_second {pp : PathParser} {e : CElem} {rest : Toks} (hw : e.Wf pp rest)
    {i : Ident} {r : Toks} (he : e.toks ++ rest = .ident i :: r) (hfin : ∀ fin : CEnd,
      Follows (fin.toks ++ rest)) :
    StartsColons r ∨ ∃ t r', r = t :: r' ∧ (∀ s, t ≠ .punct ':' s) ∧ ∀ g, t ≠ .group .bracket g := by
  cases e with
  | mk tag sels attrs fin =>
    rw [CElem.Wf] at hw
    obtain ⟨h1, h2, h3, _⟩ := hw
    have e' : (CElem.mk tag sels attrs fin).toks ++ rest = tag.toks ++
        (sels.flatMap CSel.toks ++ (attrs.flatMap CAttr.toks ++ (fin.toks ++ rest))) := by
      simp [CElem.toks]
    rw [e'] at he
    obtain ⟨t, r', hf, ht⟩ := sels_followsTag (cs := sels) (attrs_follows h3 (hfin fin))
    rw [hf] at h1 he
    cases tag with
    | name run =>
      obtain ⟨y, ys, h, ha, _, hb⟩ := name_second h1.1 ht he (rest := [])
      exact .inr ⟨y, ys, h, ha, hb⟩
    | path used p =>
      have := h1.1
      rw [show (CTag.path used p).toks = used from rfl] at he
      rw [he] at this
      rcases this with ⟨_, _, h⟩ | ⟨_, _, h, hc | hc⟩
      · simp at h
      · simp only [List.cons.injEq] at h; exact .inl (h.2 ▸ hc)
      · simp only [List.cons.injEq] at h
        obtain ⟨s, x, hc⟩ := hc
        exact .inr ⟨_, _, h.2.trans hc, by simp, by simp⟩

theorem args_follows (args : Option (Spacing × Toks × Spacing)) {r : Toks} (h : Follows r) :
    Follows (argsToks args ++ r) := by
  cases args with
  | none => exact h
  | some a => exact ⟨_, _, rfl, rfl⟩

theorem fin_follows (fin : CEnd) (rest : Toks) : Follows (fin.toks ++ rest) := by
  cases fin with
  | semi s => exact ⟨_, _, by simp [CEnd.toks]; exact ⟨rfl, rfl⟩, rfl⟩
  | block args d cs =>
    have : (CEnd.block args d cs).toks ++ rest =
        argsToks args ++ (.group d.delim (childrenToks cs) :: rest) := by simp [CEnd.toks]
    rw [this]
    exact args_follows args ⟨_, _, rfl, by cases d <;> rfl⟩

theorem elem_first {pp : PathParser} {e : CElem} {rest : Toks} (hpp : pp.Starts)
    (hw : e.Wf pp rest) : ∃ t r, e.toks = t :: r := CElem.toks_ne_nil hpp hw

/-- The tokens of children are neither a name nor a spread. -/
theorem children_not_attr {pp : PathParser} (hpp : pp.Starts) {cs : List CChild}
    (hl : LexicalToks (childrenToks cs)) (hw : childrenWf pp cs []) {r : Toks} :
    Fails parseBracedKebab (.group .brace (childrenToks cs) :: r) ∧
    Fails parseSpread (.group .brace (childrenToks cs) :: r) := by
  -- either no name starts here, or one does, and there is more
  suffices h : ((∀ t, (childrenToks cs).head? = some t → t.isIdent = false ∧ t.isDash = false) ∨
      ∃ run t r, childrenToks cs = run ++ t :: r ∧ NameEnds run (t :: r)) ∧
      ∀ s r, childrenToks cs ≠ .punct '.' s :: r by
    refine ⟨fails_inGroup.mpr (.inr ⟨_, _, rfl, ?_⟩), fails_spread.mpr ?_⟩
    · rcases h.1 with h | ⟨run, t, r, h, hn⟩
      · exact .inl (fails_kebab.mpr h)
      · exact .inr ⟨_, t :: r, by simp, (yields_kebab hl.head).mpr ⟨run, h, hn, rfl⟩⟩
    · rintro s e r' he
      simp only [List.cons.injEq, TT.group.injEq, true_and] at he
      exact h.2 _ _ he.1
  cases cs with
  | nil => simp [childrenToks]
  | cons c cs =>
    rw [childrenWf] at hw
    obtain ⟨hw, -⟩ := hw
    rw [List.append_nil] at hw
    rw [childrenToks] at hl ⊢
    cases c with
    | value v =>
      rw [CChild.Wf] at hw
      rw [CChild.toks] at hl ⊢
      cases v with
      | lit l => simp [CVal.toks, TT.isIdent, TT.isDash]
      | bool b => simp [CVal.ChildWf] at hw
      | neg s f x => simp [CVal.ChildWf] at hw
      | block x => simp [CVal.toks, TT.isIdent, TT.isDash]
      | bracket pfx x =>
        cases pfx with
        | none => simp [CVal.toks, TT.isIdent, TT.isDash]
        | some i =>
          exact ⟨.inr ⟨[.ident i], .group .bracket x, childrenToks cs, rfl,
            nameEnds_single hl rfl⟩, by simp [CVal.toks]⟩
    | slot s e =>
      rw [CChild.toks] at hl ⊢
      exact ⟨.inr ⟨[.ident (plain c!"slot")], .punct ':' s, _, rfl, nameEnds_single hl rfl⟩, by simp⟩
    | elem e =>
      rw [CChild.Wf] at hw
      rw [CChild.toks] at hl ⊢
      obtain ⟨hw, i, r', hi, _⟩ := hw
      refine ⟨.inr ?_, by simp [hi]⟩
      cases e with
      | mk tag sels attrs fin =>
        rw [CElem.Wf] at hw
        have e' : (CElem.mk tag sels attrs fin).toks ++ childrenToks cs = tag.toks ++
          (sels.flatMap CSel.toks ++ (attrs.flatMap CAttr.toks ++ (fin.toks ++ childrenToks cs))) := by
          simp [CElem.toks]
        obtain ⟨t, r'', hf, ht⟩ := sels_followsTag (cs := sels)
          (attrs_follows hw.2.2.1 (fin_follows fin (childrenToks cs)))
        have hw1 := hw.1
        rw [hf] at hw1 e'
        rw [e'] at hl ⊢
        cases tag with
        | name run => exact ⟨run, t, r'', rfl, hw1.1⟩
        | path used p =>
          have hi' : used ++ t :: r'' = .ident i :: (r' ++ childrenToks cs) := by
            have := e'
            rw [hi] at this
            exact this.symm
          rw [show (CTag.path used p).toks = used from rfl, hi'] at hl ⊢
          have hp := hw1.1
          rw [hi'] at hp
          rcases hp with ⟨_, _, h⟩ | ⟨_, _, h, ⟨s, x, hc⟩ | ⟨s, x, hc⟩⟩
          · simp at h
          · simp only [List.cons.injEq] at h
            rw [h.2, hc] at hl ⊢
            exact ⟨[.ident i], _, _, rfl, nameEnds_single hl rfl⟩
          · simp only [List.cons.injEq] at h
            rw [h.2, hc] at hl ⊢
            exact ⟨[.ident i], _, _, rfl, nameEnds_single hl rfl⟩

theorem fin_not_attr {pp : PathParser} (hpp : pp.Starts) {fin : CEnd} {rest : Toks}
    (hl : LexicalToks (fin.toks ++ rest)) (hw : fin.Wf pp) : Fails parseAttr (fin.toks ++ rest) := by
  cases fin with
  | semi s => exact attr_fails (by simp [CEnd.toks, TT.isIdent, TT.isDash]) (by simp [CEnd.toks])
  | block args d cs =>
    rw [CEnd.Wf] at hw
    cases args with
    | some a =>
      exact attr_fails (by simp [CEnd.toks, argsToks, TT.isIdent, TT.isDash])
        (by simp [CEnd.toks, argsToks])
    | none =>
      have : (CEnd.block none d cs).toks ++ rest = .group d.delim (childrenToks cs) :: rest := by
        simp [CEnd.toks, argsToks]
      rw [this] at hl ⊢
      refine attr_fails (by simp [TT.isIdent, TT.isDash]) ?_
      intro x r h
      cases d with
      | paren => simp [Braces.delim] at h
      | brace => exact children_not_attr hpp (hl.group (by simp [Braces.delim])) hw.2

theorem elem_not_value {pp : PathParser} {e : CElem} {rest : Toks} (hw : e.Wf pp rest)
    (hi : ∃ i r, e.toks = .ident i :: r ∧ i ≠ plain c!"true" ∧ i ≠ plain c!"false") :
    Fails parseValue (e.toks ++ rest) := by
  obtain ⟨i, r, he, h1, h2⟩ := hi
  rw [fails_value]
  intro c rest' hc _
  have hsec := elem_second hw (i := i) (r := r ++ rest) (by simp [he]) fun fin => fin_follows fin rest
  rw [he] at hc
  cases c with
  | lit l => simp [CVal.toks] at hc
  | bool b =>
    simp only [CVal.toks, List.cons_append, List.nil_append, List.cons.injEq, TT.ident.injEq] at hc
    cases b
    · exact h2 (by simpa using hc.1)
    · exact h1 (by simpa using hc.1)
  | neg s f x => simp [CVal.toks] at hc
  | block x => simp [CVal.toks] at hc
  | bracket pfx x =>
    cases pfx with
    | none => simp [CVal.toks] at hc
    | some j =>
      simp only [CVal.toks, List.cons_append, List.nil_append, List.cons.injEq, TT.ident.injEq] at hc
      rw [hc.2] at hsec
      rcases hsec with ⟨s, r', h⟩ | ⟨t, r', h, _, hb⟩
      · simp at h
      · simp only [List.cons.injEq] at h
        exact hb _ h.1.symm

theorem yields_braces {pp : PathParser} {fuel : Nat} {d : Braces} {cs : List CChild} {rest : Toks}
    (h : Yields (childrenF pp fuel) (childrenToks cs) (childrenAst cs) []) :
    Yields (inGroup d.delim (childrenF pp fuel)) (.group d.delim (childrenToks cs) :: rest)
      (childrenAst cs) rest :=
  yields_inGroup.mpr ⟨_, rfl, h⟩

/-- An end that is a block, given that the children are parsed. -/
theorem elem_of_fin {pp : PathParser} (hpp : pp.Starts) {fuel : Nat} {tag : CTag} {sels : List CSel}
    {attrs : List CAttr} {fin : CEnd} {rest : Toks}
    (hl : LexicalToks ((CElem.mk tag sels attrs fin).toks ++ rest))
    (hw : (CElem.mk tag sels attrs fin).Wf pp rest)
    (hc : ∀ args d cs, fin = .block args d cs →
      Yields (childrenF pp fuel) (childrenToks cs) (childrenAst cs) []) :
    Yields (elementF pp (fuel + 1)) ((CElem.mk tag sels attrs fin).toks ++ rest)
      (CElem.mk tag sels attrs fin).ast rest := by
  have e' : (CElem.mk tag sels attrs fin).toks ++ rest = tag.toks ++
      (sels.flatMap CSel.toks ++ (attrs.flatMap CAttr.toks ++ (fin.toks ++ rest))) := by
    simp [CElem.toks]
  rw [CElem.Wf] at hw
  obtain ⟨hw1, hw2, hw3, hw4⟩ := hw
  rw [e'] at hl ⊢
  have hff := fin_follows fin rest
  have haf := attrs_follows hw3 hff
  rw [elementF]
  refine yields_bind.mpr ⟨_, _, tag_complete hpp hl hw1 (sels_followsTag haf),
    yields_bind.mpr ⟨_, _, selectors_complete hl.append hw2 haf,
    yields_bind.mpr ⟨_, _, attrs_complete hl.append.append hff hw3
      (fin_not_attr hpp hl.append.append.append hw4), ?_⟩⟩⟩
  rw [CElem.ast]
  cases fin with
  | semi s =>
    exact yields_bind.mpr ⟨some (), rest, yields_rollback_some.mpr
      (yields_punct.mpr ⟨s, by simp [CEnd.toks]⟩), yields_pure.mpr ⟨by simp [CEnd.args, CEnd.children], rfl⟩⟩
  | block args d cs =>
    have hch := hc args d cs rfl
    rw [CEnd.Wf] at hw4
    cases args with
    | none =>
      have : (CEnd.block none d cs).toks ++ rest = .group d.delim (childrenToks cs) :: rest := by
        simp [CEnd.toks, argsToks]
      rw [this]
      refine yields_bind.mpr ⟨none, _, yields_rollback_none.mpr ⟨fails_punct.mpr (by simp), rfl⟩,
        yields_inp_bind.mpr ?_⟩
      rw [if_neg (by simp [isEmpty])]
      have hb := yields_braces (pp := pp) (d := d) (rest := rest) hch
      cases d with
      | brace =>
        rw [if_pos (by rfl), if_pos (by rfl)]
        exact yields_bind.mpr ⟨_, _, hb, yields_pure.mpr ⟨by simp [CEnd.args, CEnd.children, argsAst], rfl⟩⟩
      | paren =>
        rw [if_pos (by rfl), if_neg (by simp [peekGroup, Braces.delim])]
        exact yields_bind.mpr ⟨_, _, hb, yields_pure.mpr ⟨by simp [CEnd.args, CEnd.children, argsAst], rfl⟩⟩
    | some a =>
      have : (CEnd.block (some a) d cs).toks ++ rest =
          argsToks (some a) ++ .group d.delim (childrenToks cs) :: rest := by
        simp [CEnd.toks]
      rw [this]
      refine yields_bind.mpr ⟨none, _, yields_rollback_none.mpr
        ⟨fails_punct.mpr (by simp [argsToks]), rfl⟩, yields_inp_bind.mpr ?_⟩
      rw [if_neg (by simp [isEmpty, argsToks]), if_neg (by simp [argsToks, peekGroup]),
        if_pos (by rfl)]
      refine yields_bind.mpr ⟨_, _, closure_complete hw4.1, yields_inp_bind.mpr ?_⟩
      have hb := yields_braces (pp := pp) (d := d) (rest := rest) hch
      cases d with
      | brace =>
        rw [if_pos (by rfl)]
        exact yields_bind.mpr ⟨_, _, hb, yields_pure.mpr ⟨by simp [CEnd.args, CEnd.children, argsAst], rfl⟩⟩
      | paren =>
        rw [if_neg (by simp [peekGroup, Braces.delim]), if_pos (by rfl)]
        exact yields_bind.mpr ⟨_, _, hb, yields_pure.mpr ⟨by simp [CEnd.args, CEnd.children, argsAst], rfl⟩⟩

mutual
theorem elem_complete {pp : PathParser} (hpp : pp.Starts) : (e : CElem) → ∃ N, ∀ rest,
    LexicalToks (e.toks ++ rest) → e.Wf pp rest → ∀ fuel, N ≤ fuel →
    Yields (elementF pp fuel) (e.toks ++ rest) e.ast rest
  | .mk tag sels attrs fin => by
    obtain ⟨N, hN⟩ := fin_complete hpp fin
    refine ⟨N + 1, fun rest hl hw fuel hf => ?_⟩
    obtain ⟨f, rfl⟩ : ∃ f, fuel = f + 1 := ⟨fuel - 1, by omega⟩
    refine elem_of_fin hpp hl hw fun args d cs he => ?_
    rw [CElem.Wf] at hw
    have hl' : LexicalToks (fin.toks ++ rest) := by
      rw [show (CElem.mk tag sels attrs fin).toks ++ rest = tag.toks ++
        (sels.flatMap CSel.toks ++ (attrs.flatMap CAttr.toks ++ (fin.toks ++ rest))) by
          simp [CElem.toks]] at hl
      exact hl.append.append.append
    refine hN args d cs he ?_ hw.2.2.2 f (by omega)
    subst he
    rw [show (CEnd.block args d cs).toks ++ rest =
      argsToks args ++ .group d.delim (childrenToks cs) :: rest by simp [CEnd.toks]] at hl'
    exact hl'.append.group (by cases d <;> simp [Braces.delim])
theorem fin_complete {pp : PathParser} (hpp : pp.Starts) : (fin : CEnd) → ∃ N,
    ∀ args d cs, fin = .block args d cs → LexicalToks (childrenToks cs) → fin.Wf pp →
    ∀ fuel, N ≤ fuel → Yields (childrenF pp fuel) (childrenToks cs) (childrenAst cs) []
  | .semi s => ⟨0, by intro _ _ _ h; cases h⟩
  | .block args d cs => by
    obtain ⟨N, hN⟩ := children_complete hpp cs
    refine ⟨N, fun _ _ _ he hl hw => ?_⟩
    cases he
    rw [CEnd.Wf] at hw
    exact hN hl hw.2
theorem child_complete {pp : PathParser} (hpp : pp.Starts) : (c : CChild) → ∃ N, ∀ rest,
    LexicalToks (c.toks ++ rest) → c.Wf pp rest → ∀ fuel, N ≤ fuel →
    c.toks ++ rest ≠ [] ∧ Yields (childF pp fuel) (c.toks ++ rest) c.ast rest
  | .value v => by
    refine ⟨1, fun rest hl hw fuel hf => ?_⟩
    obtain ⟨f, rfl⟩ : ∃ f, fuel = f + 1 := ⟨fuel - 1, by omega⟩
    rw [CChild.Wf] at hw
    rw [CChild.toks, CChild.ast, childF]
    cases v with
    | lit l =>
      cases l with
      | str s =>
        exact ⟨by simp [CVal.toks], yields_bind.mpr ⟨some _, rest, yields_rollback_some.mpr
          (yields_value.mpr ⟨.lit (.str s), rfl, rfl, by rintro b ⟨⟩⟩), yields_pure.mpr ⟨rfl, rfl⟩⟩⟩
      | _ => simp [CVal.ChildWf] at hw
    | bool b => simp [CVal.ChildWf] at hw
    | neg s f x => simp [CVal.ChildWf] at hw
    | block x =>
      exact ⟨by simp [CVal.toks], yields_bind.mpr ⟨some _, rest, yields_rollback_some.mpr
        (yields_value.mpr ⟨.block x, rfl, rfl, by rintro b ⟨⟩⟩), yields_pure.mpr ⟨rfl, rfl⟩⟩⟩
    | bracket pfx x =>
      exact ⟨by cases pfx <;> simp [CVal.toks], yields_bind.mpr ⟨some _, rest, yields_rollback_some.mpr
        (yields_value.mpr ⟨.bracket pfx x, rfl, rfl, by rintro b ⟨⟩⟩), yields_pure.mpr ⟨rfl, rfl⟩⟩⟩
  | .elem e => by
    obtain ⟨N, hN⟩ := elem_complete hpp e
    refine ⟨N + 1, fun rest hl hw fuel hf => ?_⟩
    obtain ⟨f, rfl⟩ : ∃ f, fuel = f + 1 := ⟨fuel - 1, by omega⟩
    rw [CChild.Wf] at hw
    rw [CChild.toks] at hl ⊢
    rw [CChild.ast, childF]
    obtain ⟨hw, hi⟩ := hw
    have hv := elem_not_value hw hi
    have hy := hN rest hl hw f (by omega)
    obtain ⟨i, r, hi, _⟩ := hi
    have hsec := elem_second hw (i := i) (r := r ++ rest) (by simp [hi]) fun fin => fin_follows fin rest
    refine ⟨by simp [hi], yields_bind.mpr ⟨none, _, yields_rollback_none.mpr ⟨hv, rfl⟩,
      yields_inp_bind.mpr ?_⟩⟩
    rw [if_neg, if_pos (by simp [hi, peekIdentAny])]
    · exact yields_bind.mpr ⟨_, _, hy, yields_pure.mpr ⟨rfl, rfl⟩⟩
    · rw [hi, List.cons_append, skip_ident]
      simp only [Bool.and_eq_true, Bool.not_eq_true', not_and, Bool.not_eq_false, and_imp]
      intro _ hp
      rcases hsec with hs | ⟨t, r', he, hne, _⟩
      · exact peekPunct2_colons.mpr hs
      · obtain ⟨s, x, hx⟩ := peekPunct_iff.mp hp
        rw [he, List.cons.injEq] at hx
        exact absurd hx.1 (hne s)
  | .slot s e => by
    obtain ⟨N, hN⟩ := elem_complete hpp e
    refine ⟨N + 1, fun rest hl hw fuel hf => ?_⟩
    obtain ⟨f, rfl⟩ : ∃ f, fuel = f + 1 := ⟨fuel - 1, by omega⟩
    rw [CChild.Wf] at hw
    rw [CChild.toks] at hl ⊢
    rw [CChild.ast, childF]
    obtain ⟨hw, hns⟩ := hw
    obtain ⟨t, r, he⟩ := elem_first hpp hw
    have hy := hN rest hl.tail.tail hw f (by omega)
    refine ⟨by simp, yields_bind.mpr ⟨none, _, yields_rollback_none.mpr ⟨fails_value.mpr ?_, rfl⟩,
      yields_inp_bind.mpr ?_⟩⟩
    · intro c rest' hc _
      cases c with
      | lit l => simp [CVal.toks] at hc
      | bool b => cases b <;> simp [CVal.toks, plain] at hc
      | neg s f x => simp [CVal.toks] at hc
      | block x => simp [CVal.toks] at hc
      | bracket pfx x => cases pfx <;> simp [CVal.toks] at hc
    · rw [if_pos]
      · exact yields_bind.mpr ⟨(), _, unwrap_kw.mpr rfl, yields_bind.mpr ⟨(), _,
          yields_unwrapP.mpr (yields_punct.mpr ⟨s, rfl⟩), yields_bind.mpr ⟨_, _, hy,
            yields_pure.mpr ⟨rfl, rfl⟩⟩⟩⟩
      · simp only [List.cons_append, skip_ident, Bool.and_eq_true, Bool.not_eq_true']
        refine ⟨⟨by simp [peekKw, plain], by simp [peekPunct]⟩, ?_⟩
        rw [← Bool.not_eq_true, peekPunct2_colons]
        rintro ⟨s', r', h⟩
        rw [he] at h
        simp only [List.cons_append, List.cons.injEq, TT.punct.injEq, true_and] at h
        exact hns ⟨h.1, s', r, by rw [he, h.2.1]⟩
theorem children_complete {pp : PathParser} (hpp : pp.Starts) : (cs : List CChild) → ∃ N,
    LexicalToks (childrenToks cs) → childrenWf pp cs [] → ∀ fuel, N ≤ fuel →
    Yields (childrenF pp fuel) (childrenToks cs) (childrenAst cs) []
  | [] => by
    refine ⟨1, fun _ _ fuel hf => ?_⟩
    obtain ⟨f, rfl⟩ : ∃ f, fuel = f + 1 := ⟨fuel - 1, by omega⟩
    exact yields_children.mpr (.inl ⟨by simp [childrenToks], by simp [childrenAst], rfl⟩)
  | c :: cs => by
    obtain ⟨N, hN⟩ := child_complete hpp c
    obtain ⟨M, hM⟩ := children_complete hpp cs
    refine ⟨N + M + 1, fun hl hw fuel hf => ?_⟩
    obtain ⟨f, rfl⟩ : ∃ f, fuel = f + 1 := ⟨fuel - 1, by omega⟩
    rw [childrenWf, List.append_nil] at hw
    rw [childrenToks] at hl ⊢
    obtain ⟨hne, hy⟩ := hN _ hl hw.1 f (by omega)
    exact yields_children.mpr (.inr ⟨hne, _, _, _, hy, hM hl.append hw.2 f (by omega),
      by simp [childrenAst]⟩)
end

end Mview
