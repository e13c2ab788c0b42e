import Verif.Lemmas.LocMeaning
/-
The expanders compute the located meaning: attribute loops, paths, elements, components and slots
(see `Lemmas/MeaningTree.lean`).
-/

namespace Mview.Loc

variable {σ : Type} [Spans σ]

/-! ### attributes, selectors and paths -/

theorem xmlAttrsLoop_ok {kind : TagKind} (hk : kind ≠ .component) (attrs : List (Attr σ))
    (h : ∀ a ∈ attrs, a.erase.Spanned) : ∀ b : XmlBufs σ, (xmlAttrsLoop kind b attrs).ok =
      (do
        let as ← (kvs attrs).mapM (KvAttr.onElement kind)
        let ds ← (directives attrs).mapM Directive.onElement
        return ⟨b.attrs ++ chain as, b.spreadAttrs ++ chain ((spreads attrs).map spreadCall),
          b.directives ++ chain ds⟩) := by
  induction attrs with
  | nil => intro b; simp [xmlAttrsLoop, kvs, directives, spreads, chain]
  | cons a attrs ih =>
    intro b
    have ha := h a (by simp)
    have ih := ih fun a h' => h a (by simp [h'])
    cases a with
    | kv a =>
      have h1 : kvs (.kv a :: attrs) = a :: kvs attrs := rfl
      have h2 : directives (.kv a :: attrs) = directives attrs := rfl
      have h3 : spreads (.kv a :: attrs) = spreads attrs := rfl
      simp only [xmlAttrsLoop, Out.monad_bind, Out.ok_bind, xmlKv_ok hk ha, ih, h1, h2, h3,
        List.mapM_cons]
      cases a.onElement kind with
      | none => rfl
      | some c =>
        cases (kvs attrs).mapM (KvAttr.onElement kind) with
        | none => rfl
        | some cs =>
          cases (directives attrs).mapM Directive.onElement with
          | none => rfl
          | some ds => simp [chain_cons c cs]
    | directive d =>
      have h1 : kvs (.directive d :: attrs) = kvs attrs := rfl
      have h2 : directives (.directive d :: attrs) = d :: directives attrs := rfl
      have h3 : spreads (.directive d :: attrs) = spreads attrs := rfl
      simp only [xmlAttrsLoop, Out.monad_bind, Out.ok_bind, xmlDirective_ok ha, ih, h1, h2, h3,
        List.mapM_cons]
      cases d.onElement with
      | none => cases (kvs attrs).mapM (KvAttr.onElement kind) <;> rfl
      | some c =>
        cases (kvs attrs).mapM (KvAttr.onElement kind) with
        | none => rfl
        | some cs =>
          cases (directives attrs).mapM Directive.onElement with
          | none => rfl
          | some ds => simp [chain_cons c ds]
    | spread e =>
      have h1 : kvs (.spread e :: attrs) = kvs attrs := rfl
      have h2 : directives (.spread e :: attrs) = directives attrs := rfl
      have h3 : spreads (.spread e :: attrs) = e :: spreads attrs := rfl
      simp only [xmlAttrsLoop, ih, h1, h2, h3, List.map_cons]
      rw [chain_cons (spreadCall e)]
      simp [xmlSpreadTokens, tCall_eq, spreadCall, mkIdent]

theorem colorAll_eq (ss : List σ) : colorAll ss = colours ss := by
  induction ss with
  | nil => rfl
  | cons s ss ih =>
    have : colorAll (s :: ss) = [tId callSite c!"let", tId s c!"__x", tP callSite '=',
      tParen callSite [], tP callSite ';'] ++ colorAll ss := by simp [colorAll]
    rw [this, ih]
    simp [colours, tId, tP, tParen]

theorem toStrColored_eq (k : KebabIdent σ) : k.toStrColored = k.coloured := by
  simp [KebabIdent.toStrColored, KebabIdent.coloured, colorAll_eq, tBrace, tStr]

omit [Spans σ] in
theorem partition_isClass (sels : List (Selector σ)) : sels.partition Selector.isClass =
    ((classes sels).map fun k => .cls k.1 k.2, (ids sels).map fun k => .id k.1 k.2) := by
  rw [List.partition_eq_filter_filter]
  induction sels with
  | nil => rfl
  | cons s sels ih =>
    simp only [Prod.mk.injEq] at ih ⊢
    cases s with
    | id p k =>
      have h1 : classes (.id p k :: sels) = classes sels := rfl
      have h2 : ids (.id p k :: sels) = (p, k) :: ids sels := rfl
      simp [Selector.isClass, h1, h2, ← ih.1, ← ih.2]
    | cls p k =>
      have h1 : classes (.cls p k :: sels) = (p, k) :: classes sels := rfl
      have h2 : ids (.cls p k :: sels) = ids sels := rfl
      simp [List.filter_cons, Selector.isClass, h1, h2, ← ih.1, ← ih.2]

omit [Spans σ] in
theorem flatMap_tCall {α : Type} (f : α → Call σ) (xs : List α) :
    (xs.flatMap fun x => tCall (f x).sp (f x).name (f x).args) = chain (xs.map f) := by
  induction xs with
  | nil => rfl
  | cons x xs ih => rw [List.map_cons, chain_cons, ← ih]; simp [tCall_eq]

theorem xmlSelectors_eq (sels : List (Selector σ)) : xmlSelectorsTokens sels =
    chain ((classes sels).map classCall ++ (ids sels).map idCall) := by
  unfold xmlSelectorsTokens
  rw [partition_isClass, chain_append, ← flatMap_tCall, ← flatMap_tCall]
  simp only [List.flatMap_map, Selector.ident, toStrColored_eq]
  congr 2

theorem pathArgs_ok (s : PathSeg σ) : ((turbofishSeg s).ok.map PathSeg.toToks) = s.means := by
  obtain ⟨i, a, sep⟩ := s
  cases a with
  | none => simp [turbofishSeg, PathSeg.means, PathArgs.means, PathSeg.toToks, PathArgs.toToks]
  | angle c lt inner gt =>
    cases c <;>
      simp [turbofishSeg, PathSeg.means, PathArgs.means, PathSeg.toToks, PathArgs.toToks, tColon2]
  | paren inner sp => simp [turbofishSeg, PathSeg.means, PathArgs.means, abortWith]

theorem turbofishSeg_same {s t : PathSeg σ} (h : (turbofishSeg s).ok = some t) :
    t.sep = s.sep ∧ t.ident.sp = s.ident.sp ∧
      t.args.theEnd t.ident.sp = s.args.theEnd s.ident.sp := by
  obtain ⟨i, a, sep⟩ := s
  cases a with
  | none => simp [turbofishSeg] at h; subst h; simp
  | angle c lt inner gt => simp [turbofishSeg] at h; subst h; simp [PathArgs.theEnd]
  | paren inner sp => simp [turbofishSeg, abortWith] at h

theorem turbofishSegs_same {ss ts : List (PathSeg σ)} (h : (turbofishSegs ss).ok = some ts) :
    ts.map (·.sep) = ss.map (·.sep) ∧ ts.map (·.ident.sp) = ss.map (·.ident.sp) ∧
      ts.map (fun s => s.args.theEnd s.ident.sp) = ss.map fun s => s.args.theEnd s.ident.sp := by
  induction ss generalizing ts with
  | nil => simp [turbofishSegs] at h; subst h; simp
  | cons s ss ih =>
    simp only [turbofishSegs, Out.monad_bind, Out.ok_bind, Option.bind_eq_some_iff, Out.monad_pure,
      Out.ok_ret, Option.some.injEq] at h
    obtain ⟨s', h1, ss', h2, rfl⟩ := h
    have a := turbofishSeg_same h1
    have b := ih h2
    simp only [List.map_cons, a.1, b.1, b.2.1, b.2.2, a.2.2, true_and, and_true]
    simp [a.2.1]

omit [Spans σ] in
theorem segsToks_eq (ss : List (PathSeg σ)) :
    segsToks ss = joinColons ((ss.map PathSeg.toToks).zip (ss.map (·.sep))) := by
  induction ss with
  | nil => rfl
  | cons s ss ih =>
    cases ss with
    | nil => rfl
    | cons s' ss => simp [segsToks, joinColons, ih, tColon2]

theorem segs_ok (ss : List (PathSeg σ)) :
    ((turbofishSegs ss).ok.map fun ss => ss.map PathSeg.toToks) = ss.mapM PathSeg.means := by
  induction ss with
  | nil => rfl
  | cons s ss ih =>
    simp only [turbofishSegs, Out.monad_bind, Out.ok_bind, List.mapM_cons, ← pathArgs_ok, ← ih]
    cases (turbofishSeg s).ok with
    | none => rfl
    | some x => cases (turbofishSegs ss).ok <;> rfl

theorem path_ok (p : Path σ) : ((turbofishify p).ok.map Path.toToks) = p.means := by
  unfold turbofishify Path.means
  simp only [Out.monad_bind, Out.ok_bind, ← segs_ok]
  cases h : (turbofishSegs p.segs).ok with
  | none => rfl
  | some x =>
    rw [← (turbofishSegs_same h).1]
    cases hl : p.leading <;> simp [Path.toToks, segsToks_eq, tColon2]

theorem turbofish_span {p q : Path σ} (h : (turbofishify p).ok = some q) : q.span = p.place := by
  rw [path_place]
  unfold turbofishify at h
  simp only [Out.monad_bind, Out.ok_bind, Option.bind_eq_some_iff, Out.monad_pure,
    Out.ok_ret, Option.some.injEq] at h
  obtain ⟨segs, h, rfl⟩ := h
  obtain ⟨_, h2, h3⟩ := turbofishSegs_same h
  have hd : ∀ l : List (PathSeg σ), l.head?.map (·.ident.sp) = (l.map (·.ident.sp)).head? := by simp
  have hl : ∀ l : List (PathSeg σ), l.getLast?.map (fun s => s.args.theEnd s.ident.sp) =
      (l.map fun s => s.args.theEnd s.ident.sp).getLast? := by simp
  have hs : (⟨p.leading, segs⟩ : Path σ).theStart = p.theStart := by
    have := (hd segs).trans ((congrArg List.head? h2).trans (hd p.segs).symm)
    unfold Path.theStart
    cases p.leading with
    | some c => cases segs <;> cases p.segs <;> rfl
    | none => cases segs <;> cases hp : p.segs <;> simp_all
  have he : (⟨p.leading, segs⟩ : Path σ).theEnd = p.theEnd := by
    have := (hl segs).trans ((congrArg List.getLast? h3).trans (hl p.segs).symm)
    unfold Path.theEnd
    dsimp only
    cases ha : segs.getLast? <;> cases hb : p.segs.getLast? <;> rw [ha, hb] at this <;>
      simp at this <;> simp [this]
  unfold Path.place
  rw [hs, he]

/-! ### elements -/

omit [Spans σ] in
/-- the places and codes of node children -/
def pairs (ns : List (Node σ)) : List (σ × Toks σ) := ns.map fun n => (n.sp, n.toks)

omit [Spans σ] in
/-- what the children yield, nothing if there is no block -/
def optNodes (nodes : Option (Out σ (List (Node σ)))) : Option (List (σ × Toks σ)) :=
  match nodes with
  | none => some []
  | some n => n.ok.map pairs

theorem tagPath_ok {tag : Tag σ} (hs : ∀ k, tag = .webComponent k → 0 < k.spans.length) :
    (xmlTagPath tag = none ∧ ∃ p, tag = .component p) ∨
    ∃ o head, xmlTagPath tag = some o ∧ o.ok = some head ∧ tag.head = some head ∧
      tag.kind ≠ .component := by
  cases tag with
  | component p => exact Or.inl ⟨rfl, p, rfl⟩
  | webComponent k =>
    refine Or.inr ⟨_, _, rfl, by simp [checkSpan_eq (hs k rfl)]; rfl, ?_, by simp [Tag.kind]⟩
    simp [Tag.head, tAbs, tColons, tColon2, tId, tParen, tStr, kebab_place]
  | html i =>
    exact Or.inr ⟨_, _, rfl, rfl, by simp [Tag.head, tAbs, tColons, tColon2, tId, tParen, tIdent],
      by simp [Tag.kind]⟩
  | svg i =>
    exact Or.inr ⟨_, _, rfl, rfl, by simp [Tag.head, tAbs, tColons, tColon2, tId, tParen, tIdent],
      by simp [Tag.kind]⟩
  | math i =>
    exact Or.inr ⟨_, _, rfl, rfl, by simp [Tag.head, tAbs, tColons, tColon2, tId, tParen, tIdent],
      by simp [Tag.kind]⟩

theorem childMethods_eq (cs : List (Node σ)) :
    xmlChildMethodsTokens cs = chain ((pairs cs).map childCall) := by
  rw [← flatMap_tCall, pairs, List.flatMap_map]; rfl

theorem xml_ok {tag : Tag σ} {attrs : List (Attr σ)} (sels : List (Selector σ))
    (nodes : Option (Out σ (List (Node σ))))
    (hs : ∀ k, tag = .webComponent k → 0 < k.spans.length)
    (hattrs : ∀ a ∈ attrs, a.erase.Spanned) :
    (xmlToTokens tag sels attrs nodes = none ∧ ∃ p, tag = .component p) ∨
    ∃ o, xmlToTokens tag sels attrs nodes = some o ∧ tag.kind ≠ .component ∧
      o.ok = (optNodes nodes).bind fun ns => xmlMeans tag sels attrs ns := by
  unfold xmlToTokens
  rcases tagPath_ok hs with ⟨h, hp⟩ | ⟨o, head, h, ho, hh, hk⟩
  · rw [h]; exact Or.inl ⟨rfl, hp⟩
  · rw [h]
    refine Or.inr ⟨_, rfl, hk, ?_⟩
    simp only [Out.monad_bind, Out.ok_bind, ho, xmlAttrsLoop_ok hk attrs hattrs, xmlMeans, hh]
    cases (kvs attrs).mapM (KvAttr.onElement tag.kind) with
    | none => cases optNodes nodes <;> rfl
    | some as =>
      cases (directives attrs).mapM Directive.onElement with
      | none => cases optNodes nodes <;> rfl
      | some ds =>
        cases nodes with
        | none => simp [optOut, optNodes, chain_append, xmlSelectors_eq, chain_nil]
        | some n =>
          cases hn : n.ok <;>
            simp [optOut, optNodes, hn, chain_append, xmlSelectors_eq, childMethods_eq]

/-! ### components and slots -/

theorem selectorsToPaths_eq (sels : List (Selector σ)) :
    ∀ (is : List (σ × KebabIdent σ)) (ps : List (Toks σ)), selectorsToPaths is ps sels =
      .ret [] (is ++ ids sels, ps ++ (classes sels).map classEntry) := by
  induction sels with
  | nil => intro is ps; simp [selectorsToPaths, ids, classes]
  | cons s sels ih =>
    intro is ps
    cases s with
    | id p k =>
      have h1 : classes (.id p k :: sels) = classes sels := rfl
      have h2 : ids (.id p k :: sels) = (p, k) :: ids sels := rfl
      simp [selectorsToPaths, ih, h1, h2]
    | cls p k =>
      have h1 : classes (.cls p k :: sels) = (p, k) :: classes sels := rfl
      have h2 : ids (.cls p k :: sels) = ids sels := rfl
      simp [selectorsToPaths, ih, h1, h2, directiveToAnyAttrPath, valueOrTrue, Value.newTrue,
        Value.toToks, SLit.toToks, expectSome, classEntry, tAbs, tColons, tColon2, tId, tP, tParen,
        tStr, KebabOrStr.toUnspannedString, mkIdent, tIdent]

theorem componentSelectors_eq (sels : List (Selector σ)) : componentSelectors false sels =
    .ret [] ((classes sels).map classEntry ++ idEntry (ids sels)) := by
  simp only [componentSelectors, Bool.false_eq_true, if_false, Out.monad_bind,
    selectorsToPaths_eq, Out.bind_ret, Out.tell_nil, List.nil_append]
  cases ids sels with
  | nil => simp [idEntry]
  | cons k ks =>
    obtain ⟨s, k⟩ := k
    simp [idEntry, directiveToAnyAttrPath, KebabOrStr.toLitStr, KebabIdent.checkSpan,
      AttributeKind.ofStr, KebabOrStr.toIdentOrEmit, KebabIdent.toSnakeIdent, newRaw, notRaw,
      dashToUnderscore, valueOrTrue, Value.toToks, SLit.toToks, expectSome, mkIdent, tIdent,
      tAbs, tColons, tColon2, tId, tParen, joinSpace_eq, KebabIdent.span, joinOr_self]

theorem componentSelectors_slot (sels : List (Selector σ)) : (componentSelectors true sels).ok =
    if sels.isEmpty then some [] else none := by
  cases sels <;> simp [componentSelectors]

theorem componentAttrs_ok (attrs : List (Attr σ))
    (h : ∀ a ∈ attrs, a.erase.Spanned) : ∀ b : CompBufs σ, (componentAttrsLoop false b attrs).ok =
      (do
        let as ← (kvs attrs).mapM KvAttr.onComponent
        let es ← (entries attrs).mapM Attr.entry
        let cl ← (clones attrs).mapM Directive.cloneStmt
        return ⟨b.attrs ++ chain as, b.directivePaths ++ es, b.clones ++ cl.flatten⟩) := by
  induction attrs with
  | nil => intro b; simp [componentAttrsLoop, kvs, entries, clones, directives, chain]
  | cons a attrs ih =>
    intro b
    have ha := h a (by simp)
    have ih := ih fun a h' => h a (by simp [h'])
    cases a with
    | kv a =>
      have h1 : kvs (.kv a :: attrs) = a :: kvs attrs := rfl
      have h2 : entries (.kv a :: attrs) = entries attrs := rfl
      have h3 : clones (.kv a :: attrs) = clones attrs := rfl
      simp only [componentAttrsLoop, Out.monad_bind, Out.ok_bind, componentKv_ok ha, ih, h1, h2, h3,
        List.mapM_cons]
      cases a.onComponent with
      | none => rfl
      | some c =>
        cases (kvs attrs).mapM KvAttr.onComponent with
        | none => rfl
        | some cs =>
          cases (entries attrs).mapM Attr.entry with
          | none => rfl
          | some es =>
            cases (clones attrs).mapM Directive.cloneStmt with
            | none => rfl
            | some cl => simp [chain_cons c cs]
    | directive d =>
      have h1 : kvs (.directive d :: attrs) = kvs attrs := rfl
      by_cases hd : d.dir.id = ⟨false, c!"clone"⟩
      · have h2 : entries (.directive d :: attrs) = entries attrs := by simp [entries, hd]
        have h3 : clones (.directive d :: attrs) = d :: clones attrs := by
          simp [clones, directives, hd]
        simp only [componentAttrsLoop, if_pos hd, Out.monad_bind, Out.ok_bind, clone_ok ha, ih, h1,
          h2, h3, List.mapM_cons, emitIfModifier_ok]
        cases hm : d.modifier with
        | some m =>
          have : d.cloneStmt = none := by simp [Directive.cloneStmt, hm]
          rw [this]
          cases (kvs attrs).mapM KvAttr.onComponent <;>
            cases (entries attrs).mapM Attr.entry <;> rfl
        | none =>
        cases d.cloneStmt with
        | none =>
          cases (kvs attrs).mapM KvAttr.onComponent <;>
            cases (entries attrs).mapM Attr.entry <;> rfl
        | some c =>
          cases (kvs attrs).mapM KvAttr.onComponent with
          | none => rfl
          | some cs =>
            cases (entries attrs).mapM Attr.entry with
            | none => rfl
            | some es =>
              cases (clones attrs).mapM Directive.cloneStmt with
              | none => rfl
              | some cl => simp
      · have h2 : entries (.directive d :: attrs) = .directive d :: entries attrs := by
          simp [entries, hd]
        have h3 : clones (.directive d :: attrs) = clones attrs := by
          simp [clones, directives, hd]
        simp only [componentAttrsLoop, if_neg hd, Out.monad_bind, Out.ok_bind, h1,
          h2, h3, List.mapM_cons, Attr.entry, ← anyAttr_ok ha, Bool.false_eq_true, if_false]
        rcases (directiveToAnyAttrPath d).ok with _ | _ | e
        · cases (kvs attrs).mapM KvAttr.onComponent <;> rfl
        · cases (kvs attrs).mapM KvAttr.onComponent <;> simp
        · simp only [Option.bind_some, ih]
          cases (kvs attrs).mapM KvAttr.onComponent with
          | none => rfl
          | some cs =>
            cases (entries attrs).mapM Attr.entry with
            | none => rfl
            | some es =>
              cases (clones attrs).mapM Directive.cloneStmt with
              | none => rfl
              | some cl => simp
    | spread e =>
      have h1 : kvs (.spread e :: attrs) = kvs attrs := rfl
      have h2 : entries (.spread e :: attrs) = .spread e :: entries attrs := rfl
      have h3 : clones (.spread e :: attrs) = clones attrs := rfl
      simp only [componentAttrsLoop, ih, h1, h2, h3, List.mapM_cons, Attr.entry,
        Bool.false_eq_true, if_false]
      cases (kvs attrs).mapM KvAttr.onComponent with
      | none => rfl
      | some cs =>
        cases (entries attrs).mapM Attr.entry with
        | none => rfl
        | some es =>
          cases (clones attrs).mapM Directive.cloneStmt with
          | none => rfl
          | some cl => simp [componentSpreadTokens]

theorem slotAttrs_ok (attrs : List (Attr σ))
    (h : ∀ a ∈ attrs, a.erase.Spanned) : ∀ b : CompBufs σ, (componentAttrsLoop true b attrs).ok =
      if (entries attrs).isEmpty then (do
        let as ← (kvs attrs).mapM KvAttr.onComponent
        let cl ← (clones attrs).mapM Directive.cloneStmt
        return ⟨b.attrs ++ chain as, b.directivePaths, b.clones ++ cl.flatten⟩) else none := by
  induction attrs with
  | nil => intro b; simp [componentAttrsLoop, kvs, entries, clones, directives, chain]
  | cons a attrs ih =>
    intro b
    have ha := h a (by simp)
    have ih := ih fun a h' => h a (by simp [h'])
    cases a with
    | kv a =>
      have h1 : kvs (.kv a :: attrs) = a :: kvs attrs := rfl
      have h2 : entries (.kv a :: attrs) = entries attrs := rfl
      have h3 : clones (.kv a :: attrs) = clones attrs := rfl
      simp only [componentAttrsLoop, Out.monad_bind, Out.ok_bind, componentKv_ok ha, ih, h1, h2, h3,
        List.mapM_cons]
      split
      · cases a.onComponent with
        | none => rfl
        | some c =>
          cases (kvs attrs).mapM KvAttr.onComponent with
          | none => rfl
          | some cs =>
            cases (clones attrs).mapM Directive.cloneStmt with
            | none => rfl
            | some cl => simp [chain_cons c cs]
      · simp
    | directive d =>
      have h1 : kvs (.directive d :: attrs) = kvs attrs := rfl
      by_cases hd : d.dir.id = ⟨false, c!"clone"⟩
      · have h2 : entries (.directive d :: attrs) = entries attrs := by simp [entries, hd]
        have h3 : clones (.directive d :: attrs) = d :: clones attrs := by
          simp [clones, directives, hd]
        simp only [componentAttrsLoop, if_pos hd, Out.monad_bind, Out.ok_bind, clone_ok ha, ih, h1,
          h2, h3, List.mapM_cons, emitIfModifier_ok]
        split
        · cases hm : d.modifier with
          | some m =>
            have : d.cloneStmt = none := by simp [Directive.cloneStmt, hm]
            rw [this]
            cases (kvs attrs).mapM KvAttr.onComponent <;> rfl
          | none =>
          cases d.cloneStmt with
          | none => cases (kvs attrs).mapM KvAttr.onComponent <;> rfl
          | some c =>
            cases (kvs attrs).mapM KvAttr.onComponent with
            | none => rfl
            | some cs =>
              cases (clones attrs).mapM Directive.cloneStmt with
              | none => rfl
              | some cl => simp
        · simp
      · have h2 : entries (.directive d :: attrs) = .directive d :: entries attrs := by
          simp [entries, hd]
        simp [componentAttrsLoop, if_neg hd, h2]
    | spread e =>
      have h2 : entries (.spread e :: attrs) = .spread e :: entries attrs := rfl
      simp [componentAttrsLoop, h2]

omit [Spans σ] in
theorem tTerminated_eq (sp : σ) (xs : List (Toks σ)) : tTerminated sp xs = commaAfter sp xs := by
  induction xs with
  | nil => rfl
  | cons x xs ih =>
    have : tTerminated sp (x :: xs) = x ++ [tP sp ','] ++ tTerminated sp xs := by simp [tTerminated]
    rw [this, ih]
    simp [commaAfter, tP]

omit [Spans σ] in
theorem tSeparated_eq (sp : σ) (xs : List (Toks σ)) : tSeparated sp xs = commaBetween sp xs := by
  induction xs with
  | nil => rfl
  | cons x xs ih =>
    cases xs with
    | nil => rfl
    | cons y xs =>
      rw [tSeparated, ih]
      · simp [commaBetween, tP]
      · simp

omit [Spans σ] in
theorem fragment_eq (ns : List (Node σ)) (sp : σ) :
    childrenFragmentTokens ns sp = viewOf sp ((pairs ns).map Prod.snd) := by
  simp [childrenFragmentTokens, viewOf, tTerminated_eq, tAbs, tColons, tColon2, tId, tParen, pairs,
    Function.comp_def]

theorem args_place (args : Toks σ) : (placeOf args).getD callSite = toksSpan args := by
  rw [placeOf_eq]
  cases args <;> rfl

theorem children_eq (ns : List (Node σ)) (args : Option (Toks σ)) (clones : Toks σ) :
    (match ns with
      | c :: cs => componentChildrenTokens c.sp (c :: cs) args clones
      | [] => []) = chain (childrenCall args clones (pairs ns)) := by
  cases ns with
  | nil => rfl
  | cons c cs =>
    have : pairs (c :: cs) = (c.sp, c.toks) :: pairs cs := rfl
    rw [this]
    cases args <;>
      simp [componentChildrenTokens, childrenCall, fragment_eq, tCall_eq, tId, tOrOr, tAbs, tColons,
        tColon2, tParen, tBrace, this, args_place, mkIdent]

omit [Spans σ] in
/-- what the slots yield, nothing if there is no block -/
def optSlots (slots : Option (Out σ (Toks σ))) : Option (Toks σ) :=
  match slots with
  | none => some []
  | some n => n.ok

theorem component_ok {path : Path σ} {attrs : List (Attr σ)} (sels : List (Selector σ))
    (args : Option (Toks σ)) (nodes : Option (Out σ (List (Node σ))))
    (slots : Option (Out σ (Toks σ)))
    (calls : List (Call σ)) (hattrs : ∀ a ∈ attrs, a.erase.Spanned)
    (hcalls : optSlots slots = some (chain calls)) :
    ∃ o, componentToTokens false (.component path) sels attrs args nodes slots = some o ∧
      o.ok = (optNodes nodes).bind fun ns => componentMeans path sels attrs args ns calls := by
  unfold componentToTokens
  refine ⟨_, rfl, ?_⟩
  simp only [Out.monad_bind, Out.ok_bind, componentSelectors_eq, componentAttrs_ok attrs hattrs,
    componentMeans, ← path_ok, Out.ok_ret, Option.bind_some]
  cases hpath : (turbofishify path).ok with
  | none => cases optNodes nodes <;> rfl
  | some p =>
  have hplace := turbofish_span hpath
  cases (kvs attrs).mapM KvAttr.onComponent with
  | none => cases optNodes nodes <;> rfl
  | some as =>
  cases (entries attrs).mapM Attr.entry with
  | none => cases optNodes nodes <;> rfl
  | some es =>
  cases (clones attrs).mapM Directive.cloneStmt with
  | none => cases optNodes nodes <;> rfl
  | some cl =>
  have hslots : ((optOut slots).ok.map fun s => match s with | some t => t | none => []) =
      some (chain calls) := by
    rw [← hcalls]
    cases slots with
    | none => rfl
    | some s => cases hs : s.ok <;> simp [optOut, optSlots, hs]
  cases hso : (optOut slots).ok with
  | none => simp [hso] at hslots
  | some so =>
  simp only [hso, Option.map_some, Option.some.injEq] at hslots
  have hnodes : ((optOut nodes).ok.map fun s => match s with
      | some (c :: cs) => componentChildrenTokens c.sp (c :: cs) args cl.flatten
      | _ => []) = (optNodes nodes).map fun ns => chain (childrenCall args cl.flatten ns) := by
    cases nodes with
    | none => rfl
    | some n =>
      cases hn : n.ok with
      | none => simp [optOut, optNodes, hn]
      | some ns =>
        simp [optOut, optNodes, hn]
        rw [← children_eq]
        cases ns <;> rfl
  cases hno : (optOut nodes).ok with
  | none =>
    cases hn : optNodes nodes with
    | none => rfl
    | some ns => simp [hno, hn] at hnodes
  | some no =>
    cases hn : optNodes nodes with
    | none => simp [hno, hn] at hnodes
    | some ns =>
      simp only [hno, hn, Option.map_some, Option.some.injEq] at hnodes
      simp only [Option.bind_some, Option.bind_eq_bind, Option.pure_def, List.nil_append,
        Bool.false_eq_true, if_false, Option.map_some, Out.monad_pure, Out.ok_ret, Option.some.injEq]
      rcases no with _ | _ | ⟨c, cs⟩ <;> cases so <;> simp only at hnodes hslots ⊢ <;>
      simp [← hnodes, ← hslots, chain_append, tTerminated_eq, tBuild, tCall_eq, chain, tId, tAbs,
        tColons, tColon2, tParen, tP, tBracket, hplace, buildCall, mkIdent]

theorem slot_ok {path : Path σ} {attrs : List (Attr σ)} (sels : List (Selector σ))
    (args : Option (Toks σ)) (nodes : Option (Out σ (List (Node σ))))
    (slots : Option (Out σ (Toks σ)))
    (hattrs : ∀ a ∈ attrs, a.erase.Spanned) (hslots : ∃ st, optSlots slots = some st) :
    ∃ o, componentToTokens true (.component path) sels attrs args nodes slots = some o ∧
      o.ok = (optNodes nodes).bind fun ns => slotMeans path sels attrs args ns := by
  unfold componentToTokens
  refine ⟨_, rfl, ?_⟩
  simp only [Out.monad_bind, Out.ok_bind, componentSelectors_slot, slotAttrs_ok attrs hattrs,
    slotMeans, ← path_ok]
  cases hpath : (turbofishify path).ok with
  | none => cases optNodes nodes <;> simp
  | some p =>
  have hplace := turbofish_span hpath
  by_cases hsel : sels.isEmpty = true
  case neg => simp [hsel]
  by_cases hent : (entries attrs).isEmpty = true
  case neg => simp [hsel, hent]
  simp only [hsel, hent]
  cases (kvs attrs).mapM KvAttr.onComponent with
  | none => cases optNodes nodes <;> rfl
  | some as =>
  cases (clones attrs).mapM Directive.cloneStmt with
  | none => cases optNodes nodes <;> rfl
  | some cl =>
  have hslots : ∃ so, (optOut slots).ok = some so := by
    obtain ⟨st, h⟩ := hslots
    cases slots with
    | none => exact ⟨_, rfl⟩
    | some s => exact ⟨some st, by simp [optSlots] at h; simp [optOut, h]⟩
  obtain ⟨so, hso⟩ := hslots
  have hnodes : ((optOut nodes).ok.map fun s => match s with
      | some (c :: cs) => componentChildrenTokens c.sp (c :: cs) args cl.flatten
      | _ => []) = (optNodes nodes).map fun ns => chain (childrenCall args cl.flatten ns) := by
    cases nodes with
    | none => rfl
    | some n =>
      cases hn : n.ok with
      | none => simp [optOut, optNodes, hn]
      | some ns =>
        simp [optOut, optNodes, hn]
        rw [← children_eq]
        cases ns <;> rfl
  cases hno : (optOut nodes).ok with
  | none =>
    cases hn : optNodes nodes with
    | none => rfl
    | some ns => simp [hno, hn] at hnodes
  | some no =>
    cases hn : optNodes nodes with
    | none => simp [hno, hn] at hnodes
    | some ns =>
      simp only [hno, hn, Option.map_some, Option.some.injEq] at hnodes
      simp only [Option.bind_some, Option.bind_eq_bind, Option.pure_def, List.nil_append,
        if_true, Option.map_some, Out.monad_pure, Out.ok_ret, and_self, guard_true', hso]
      rcases no with _ | _ | ⟨c, cs⟩ <;> simp only at hnodes ⊢ <;>
      simp [← hnodes, chain_append, tBuild, tCall_eq, chain, tId, tAbs, tColons, tColon2, tParen,
        hplace, buildCall, mkIdent]

theorem slots_of_ok {isSlot : Bool} {path : Path σ} {attrs : List (Attr σ)}
    {sels : List (Selector σ)} {args : Option (Toks σ)} {nodes : Option (Out σ (List (Node σ)))}
    {slots : Option (Out σ (Toks σ))} {o : Out σ (Toks σ)} {t : Toks σ}
    (ho : componentToTokens isSlot (.component path) sels attrs args nodes slots = some o)
    (h : o.ok = some t) : ∃ st, optSlots slots = some st := by
  cases slots with
  | none => exact ⟨_, rfl⟩
  | some s =>
    cases hs : s.ok with
    | some st => exact ⟨st, hs⟩
    | none =>
      exfalso
      simp only [componentToTokens, Option.some.injEq] at ho
      subst ho
      simp only [Out.monad_bind, Out.ok_bind, optOut, hs] at h
      simp at h

/-! ### grouping slots -/

omit [Spans σ] in
/-- all slots called `n` -/
def slotsNamed (ss : List (SIdent σ × Toks σ)) (n : Ident) : List (SIdent σ × Toks σ) :=
  ss.filter (·.1.id = n)

theorem slotMethod_ok (n : SIdent σ) (ts : List (Toks σ)) : (slotMethod (n, ts)).ok =
    (slotMethodName n.id).map fun m => chain [⟨callSite, ⟨m, n.sp⟩, slotArg ts⟩] := by
  unfold slotMethod slotMethodName
  simp only [Out.monad_bind, Out.ok_bind, newRaw_ok, snakeCase_eq]
  have : rawIdent (snakeCase n.id.name) =
    if snakeCase n.id.name ∈ notRaw then none else some ⟨true, snakeCase n.id.name⟩ := rfl
  rw [this]
  split
  · rfl
  · rcases ts with _ | ⟨t, _ | ⟨t', ts⟩⟩ <;>
      simp [tCall_eq, slotArg, tSeparated_eq, tP, tBracket, tId, tColons, tColon2, tParen, tAbs]

/-- the calls for the given entries -/
def entryCalls (es : List (SIdent σ × List (Toks σ))) : Option (List (Call σ)) :=
  es.mapM fun e => do return ⟨callSite, ⟨← slotMethodName e.1.id, e.1.sp⟩, slotArg e.2⟩

theorem slotMethods_ok (es : List (SIdent σ × List (Toks σ))) :
    (slotMethods es).ok = (entryCalls es).map chain := by
  induction es with
  | nil => rfl
  | cons e es ih =>
    obtain ⟨n, ts⟩ := e
    have : entryCalls ((n, ts) :: es) = do
        let c ← (do return ⟨callSite, ⟨← slotMethodName n.id, n.sp⟩, slotArg ts⟩ : Option (Call σ))
        return c :: (← entryCalls es) := by simp [entryCalls]
    simp only [slotMethods, Out.monad_bind, Out.ok_bind, slotMethod_ok, ih, this]
    cases slotMethodName n.id with
    | none => rfl
    | some m =>
      cases entryCalls es with
      | none => rfl
      | some cs => simp [chain_cons _ cs]

omit [Spans σ]

/-- Entries with different names, each with all slots of its name and named like the first. -/
structure Grouped (ss : List (SIdent σ × Toks σ)) (m : List (SIdent σ × List (Toks σ))) : Prop where
  nodup : (m.map (·.1.id)).Nodup
  names : ∀ n, n ∈ m.map (·.1.id) ↔ n ∈ ss.map (·.1.id)
  entry : ∀ e ∈ m, e.2 = (slotsNamed ss e.1.id).map Prod.snd ∧
    (slotsNamed ss e.1.id).head?.map Prod.fst = some e.1

theorem pushSlot_map (name : SIdent σ) (t : Toks σ) (m : List (SIdent σ × List (Toks σ))) :
    (pushSlot name t m).map (·.1.id) =
      if name.id ∈ m.map (·.1.id) then m.map (·.1.id) else m.map (·.1.id) ++ [name.id] := by
  induction m with
  | nil => simp [pushSlot]
  | cons e m ih =>
    obtain ⟨n, ts⟩ := e
    unfold pushSlot
    by_cases hn : n.id = name.id
    · simp [hn]
    · have hn' : ¬ name.id = n.id := fun h => hn h.symm
      rw [if_neg hn]
      simp only [List.map_cons, ih, List.mem_cons, hn', false_or]
      split <;> simp

theorem pushSlot_mem {name : SIdent σ} {t : Toks σ} {m : List (SIdent σ × List (Toks σ))}
    (hnd : (m.map (·.1.id)).Nodup) {e : SIdent σ × List (Toks σ)} (he : e ∈ pushSlot name t m) :
    (e.1.id ≠ name.id ∧ e ∈ m) ∨ (e.1.id = name.id ∧
      ((∃ ts, (e.1, ts) ∈ m ∧ e.2 = ts ++ [t]) ∨
        (name.id ∉ m.map (·.1.id) ∧ e = (name, [t])))) := by
  induction m with
  | nil => simp [pushSlot] at he; subst he; simp
  | cons e' m ih =>
    obtain ⟨n, ts⟩ := e'
    simp only [List.map_cons, List.nodup_cons] at hnd
    unfold pushSlot at he
    by_cases hn : n.id = name.id
    · rw [if_pos hn] at he
      simp only [List.mem_cons] at he
      rcases he with rfl | he
      · exact Or.inr ⟨hn, Or.inl ⟨ts, by simp, rfl⟩⟩
      · refine Or.inl ⟨?_, by simp [he]⟩
        intro h
        exact hnd.1 (List.mem_map.mpr ⟨e, he, h.trans hn.symm⟩)
    · rw [if_neg hn] at he
      simp only [List.mem_cons] at he
      rcases he with rfl | he
      · exact Or.inl ⟨hn, by simp⟩
      · have hn' : ¬ name.id = n.id := fun h => hn h.symm
        rcases ih hnd.2 he with ⟨h1, h2⟩ | ⟨h1, ⟨ts', h2, h3⟩ | ⟨h2, h3⟩⟩
        · exact Or.inl ⟨h1, by simp [h2]⟩
        · exact Or.inr ⟨h1, Or.inl ⟨ts', by simp [h2], h3⟩⟩
        · exact Or.inr ⟨h1, Or.inr ⟨by
            simp only [List.map_cons, List.mem_cons, hn', false_or]; exact h2, h3⟩⟩

theorem Grouped.push {ss : List (SIdent σ × Toks σ)} {m : List (SIdent σ × List (Toks σ))}
    (g : Grouped ss m) (n : SIdent σ) (t : Toks σ) :
    Grouped (ss ++ [(n, t)]) (pushSlot n t m) where
  nodup := by
    rw [pushSlot_map]
    split
    · exact g.nodup
    · rename_i h
      rw [List.nodup_append]
      refine ⟨g.nodup, by simp, ?_⟩
      intro a ha b hb
      simp only [List.mem_singleton] at hb
      subst hb
      intro hab
      exact h (hab ▸ ha)
  names := by
    intro n'
    rw [pushSlot_map]
    have := g.names n'
    split
    · rename_i h
      rw [List.map_append, List.mem_append, this]
      simp only [List.map_cons, List.map_nil, List.mem_singleton]
      constructor
      · exact Or.inl
      · rintro (h' | rfl)
        · exact h'
        · rwa [g.names] at h
    · rw [List.mem_append, List.map_append, List.mem_append, this]
      simp
  entry := by
    intro e he
    have hsplit : ∀ n', slotsNamed (ss ++ [(n, t)]) n' =
        slotsNamed ss n' ++ if n.id = n' then [(n, t)] else [] := by
      intro n'
      simp only [slotsNamed, List.filter_append]
      by_cases h : n.id = n' <;> simp [h]
    rw [hsplit]
    rcases pushSlot_mem g.nodup he with ⟨h1, h2⟩ | ⟨h1, ⟨ts, h2, h3⟩ | ⟨h2, rfl⟩⟩
    · rw [if_neg (fun h => h1 h.symm), List.append_nil]
      exact g.entry e h2
    · obtain ⟨ha, hb⟩ := g.entry _ h2
      simp only at ha hb
      rw [if_pos h1.symm, h3, List.map_append, ← ha]
      refine ⟨rfl, ?_⟩
      cases hn : slotsNamed ss e.1.id with
      | nil => rw [hn] at hb; simp at hb
      | cons x xs => rw [hn] at hb; simpa using hb
    · rw [if_pos rfl]
      have : slotsNamed ss n.id = [] := by
        simp only [slotsNamed, List.filter_eq_nil_iff, decide_eq_true_eq]
        intro a ha h
        exact h2 ((g.names _).mpr (List.mem_map.mpr ⟨a, ha, h⟩))
      rw [this]
      simp

theorem groupSlots_grouped (ss : List (SIdent σ × Toks σ)) : ∀ (ss' : List (SIdent σ × Toks σ))
    (m : List (SIdent σ × List (Toks σ))), Grouped ss' m → Grouped (ss' ++ ss) (groupSlots ss m) := by
  induction ss with
  | nil => intro ss' m g; simpa [groupSlots] using g
  | cons s ss ih =>
    intro ss' m g
    obtain ⟨n, t⟩ := s
    have := ih _ _ (g.push n t)
    simpa [groupSlots] using this

theorem grouped_nil : Grouped ([] : List (SIdent σ × Toks σ)) [] := ⟨by simp, by simp, by simp⟩

/-- an order of the images is the image of an order -/
theorem perm_map_inv {α β : Type} {f : α → β} {l : List β} {m : List α} (h : l.Perm (m.map f)) :
    ∃ m' : List α, m'.Perm m ∧ m'.map f = l := by
  generalize hk : m.map f = k at h
  induction h generalizing m with
  | nil => exact ⟨[], by simp [List.map_eq_nil_iff.mp hk], rfl⟩
  | cons x _ ih =>
    obtain ⟨a, m, rfl, rfl, h⟩ := List.map_eq_cons_iff.mp hk
    obtain ⟨m', h1, h2⟩ := ih h
    exact ⟨a :: m', h1.cons a, by simp [h2]⟩
  | swap x y l =>
    obtain ⟨a, m, rfl, rfl, h⟩ := List.map_eq_cons_iff.mp hk
    obtain ⟨b, m, rfl, rfl, h⟩ := List.map_eq_cons_iff.mp h
    exact ⟨b :: a :: m, .swap a b m, by simpa using h⟩
  | trans _ _ ih1 ih2 =>
    obtain ⟨m2, h1, h2⟩ := ih2 hk
    obtain ⟨m1, h3, h4⟩ := ih1 h2
    exact ⟨m1, h3.trans h1, h4⟩

variable [Spans σ]

/-! ### slots -/

theorem entryCalls_eq {ss : List (SIdent σ × Toks σ)} {m : List (SIdent σ × List (Toks σ))}
    (h : ∀ e ∈ m, e.2 = (slotsNamed ss e.1.id).map Prod.snd ∧
      (slotsNamed ss e.1.id).head?.map Prod.fst = some e.1) :
    entryCalls m = (m.map (·.1.id)).mapM fun n => do
      let same := ss.filter (·.1.id = n)
      let first ← same.head?
      return (⟨callSite, ⟨← slotMethodName n, first.1.sp⟩, slotArg (same.map Prod.snd)⟩ : Call σ) := by
  rw [List.mapM_map]
  refine mapM_congr_mem fun e he => ?_
  obtain ⟨h1, h2⟩ := h e he
  have hf : ss.filter (fun x => decide (x.1.id = e.1.id)) = slotsNamed ss e.1.id := rfl
  simp only [Function.comp, hf, ← h1]
  cases hh : (slotsNamed ss e.1.id).head? with
  | none => rw [hh] at h2; simp at h2
  | some x =>
    rw [hh] at h2
    simp only [Option.map_some, Option.some.injEq] at h2
    rw [← h2]
    rfl

theorem slots_sound {order : List Nat} {slots : Out σ (List (SIdent σ × Toks σ))} {st : Toks σ}
    (h : (slotsToTokens order slots).ok = some st) :
    ∃ ss calls, slots.ok = some ss ∧ SlotCalls ss calls ∧ st = chain calls := by
  simp only [slotsToTokens, Out.monad_bind, Out.ok_bind, Option.bind_eq_some_iff, slotMethods_ok,
    Option.map_eq_some_iff] at h
  obtain ⟨ss, hss, calls, hc, rfl⟩ := h
  refine ⟨ss, calls, hss, ?_, rfl⟩
  have g := groupSlots_grouped ss [] [] grouped_nil
  rw [List.nil_append] at g
  have hp := permute_perm order (groupSlots ss [])
  refine ⟨(permute order (groupSlots ss [])).map (·.1.id), ?_, ?_, ?_⟩
  · exact (hp.map (·.1.id)).nodup_iff.mpr g.nodup
  · intro n
    rw [(hp.map (·.1.id)).mem_iff, g.names n]
    simp
  · rw [← hc, entryCalls_eq fun e he => g.entry e (hp.mem_iff.mp he)]

theorem slots_complete {slots : Out σ (List (SIdent σ × Toks σ))} {ss : List (SIdent σ × Toks σ)}
    {calls : List (Call σ)} (h : slots.ok = some ss) (hc : SlotCalls ss calls) :
    ∃ order, (slotsToTokens order slots).ok = some (chain calls) := by
  obtain ⟨names, hnd, hmem, hcalls⟩ := hc
  have g := groupSlots_grouped ss [] [] grouped_nil
  rw [List.nil_append] at g
  have hp : names.Perm ((groupSlots ss []).map (·.1.id)) := by
    rw [List.perm_ext_iff_of_nodup hnd g.nodup]
    intro n
    rw [hmem, g.names]
    simp
  obtain ⟨m, hm, rfl⟩ := perm_map_inv hp
  obtain ⟨order, ho⟩ := permute_all _ _ hm
  refine ⟨order, ?_⟩
  simp only [slotsToTokens, Out.monad_bind, Out.ok_bind, h, Option.bind_some, ho, slotMethods_ok]
  rw [entryCalls_eq (ss := ss) fun e he => g.entry e (hm.mem_iff.mp he), hcalls]
  rfl

end Mview.Loc
