import Verif.Lemmas.Meaning
import Verif.Lemmas.Names
/-
The expanders compute the meaning: attribute loops, paths, elements, components,
slots and the whole tree.
-/

namespace Mview
open Lex

/-! ### attributes, selectors and paths -/

/-- kebab names have at least one section -/
def Attr.Spanned : Attr → Prop
  | .kv a => 0 < a.key.spans
  | .directive d => d.key.Spanned
  | .spread _ => True

theorem KebabOrStr.Ok.spanned {pp : PathParser} {I : Inv pp} {k : KebabOrStr} (h : k.Ok I) :
    k.Spanned := by
  cases k with
  | kebab k => exact h.1
  | str s => trivial

theorem Attr.Ok.spanned {pp : PathParser} {I : Inv pp} {a : Attr} (h : a.Ok I) : a.Spanned := by
  cases a with
  | kv a => exact h.1
  | directive d => exact KebabOrStr.Ok.spanned h
  | spread e => trivial

theorem xmlAttrsLoop_ok {kind : TagKind} (hk : kind ≠ .component) (attrs : List Attr)
    (h : ∀ a ∈ attrs, a.Spanned) : ∀ b : XmlBufs, (xmlAttrsLoop kind b attrs).ok =
      (do
        let as ← (kvs attrs).mapM (KvAttr.onElement kind)
        let ds ← (directives attrs).mapM Directive.onElement
        return ⟨b.attrs ++ chain as, b.spreadAttrs ++ chain ((spreads attrs).map spreadCall),
          b.directives ++ chain ds⟩) := by
  induction attrs with
  | nil => intro b; simp [xmlAttrsLoop, kvs, directives, spreads, chain]
  | cons a attrs ih =>
    intro b
    have ha := h a (by simp)
    have ih := ih fun a h' => h a (by simp [h'])
    cases a with
    | kv a =>
      have h1 : kvs (.kv a :: attrs) = a :: kvs attrs := rfl
      have h2 : directives (.kv a :: attrs) = directives attrs := rfl
      have h3 : spreads (.kv a :: attrs) = spreads attrs := rfl
      simp only [xmlAttrsLoop, Out.monad_bind, Out.ok_bind, xmlKv_ok hk ha, ih, h1, h2, h3,
        List.mapM_cons]
      cases a.onElement kind with
      | none => rfl
      | some c =>
        cases (kvs attrs).mapM (KvAttr.onElement kind) with
        | none => rfl
        | some cs =>
          cases (directives attrs).mapM Directive.onElement with
          | none => rfl
          | some ds => simp [chain_cons c cs]
    | directive d =>
      have h1 : kvs (.directive d :: attrs) = kvs attrs := rfl
      have h2 : directives (.directive d :: attrs) = d :: directives attrs := rfl
      have h3 : spreads (.directive d :: attrs) = spreads attrs := rfl
      simp only [xmlAttrsLoop, Out.monad_bind, Out.ok_bind, xmlDirective_ok ha, ih, h1, h2, h3,
        List.mapM_cons]
      cases d.onElement with
      | none => cases (kvs attrs).mapM (KvAttr.onElement kind) <;> rfl
      | some c =>
        cases (kvs attrs).mapM (KvAttr.onElement kind) with
        | none => rfl
        | some cs =>
          cases (directives attrs).mapM Directive.onElement with
          | none => rfl
          | some ds => simp [chain_cons c ds]
    | spread e =>
      have h1 : kvs (.spread e :: attrs) = kvs attrs := rfl
      have h2 : directives (.spread e :: attrs) = directives attrs := rfl
      have h3 : spreads (.spread e :: attrs) = e :: spreads attrs := rfl
      simp only [xmlAttrsLoop, ih, h1, h2, h3, List.map_cons]
      rw [chain_cons (spreadCall e)]
      simp [xmlSpreadTokens, tCall_eq, spreadCall]

theorem colorAll_eq (n : Nat) : colorAll n = colours n := by
  induction n with
  | zero => rfl
  | succ n ih =>
    have : colorAll (n + 1) = [tId c!"let", tId c!"__x", tP '=', tParen [], tP ';'] ++ colorAll n := by
      simp [colorAll, List.replicate_succ]
    rw [this, ih]
    simp [colours, tId, tP, tParen]

theorem toStrColored_eq (k : KebabIdent) : k.toStrColored = k.coloured := by
  simp [KebabIdent.toStrColored, KebabIdent.coloured, colorAll_eq, tBrace, tStr]

theorem partition_isClass (sels : List Selector) : sels.partition Selector.isClass =
    ((classes sels).map .cls, (ids sels).map .id) := by
  rw [List.partition_eq_filter_filter]
  induction sels with
  | nil => rfl
  | cons s sels ih =>
    simp only [Prod.mk.injEq] at ih ⊢
    cases s with
    | id k =>
      have h1 : classes (.id k :: sels) = classes sels := rfl
      have h2 : ids (.id k :: sels) = k :: ids sels := rfl
      simp [Selector.isClass, h1, h2, ← ih.1, ← ih.2]
    | cls k =>
      have h1 : classes (.cls k :: sels) = k :: classes sels := rfl
      have h2 : ids (.cls k :: sels) = ids sels := rfl
      simp [List.filter_cons, Selector.isClass, h1, h2, ← ih.1, ← ih.2]

theorem flatMap_tCall {α : Type} (f : α → Call) (xs : List α) :
    (xs.flatMap fun x => tCall (f x).name (f x).args) = chain (xs.map f) := by
  induction xs with
  | nil => rfl
  | cons x xs ih => rw [List.map_cons, chain_cons, ← ih]; simp [tCall_eq]

theorem xmlSelectors_eq (sels : List Selector) : xmlSelectorsTokens sels =
    chain ((classes sels).map classCall ++ (ids sels).map idCall) := by
  unfold xmlSelectorsTokens
  rw [partition_isClass, chain_append, ← flatMap_tCall, ← flatMap_tCall]
  simp only [List.flatMap_map, Selector.ident, toStrColored_eq]
  congr 2

theorem pathArgs_ok (s : PathSeg) : ((turbofishSeg s).ok.map PathSeg.toToks) = s.means := by
  obtain ⟨i, a⟩ := s
  cases a with
  | none => simp [turbofishSeg, PathSeg.means, PathArgs.means, PathSeg.toToks, PathArgs.toToks]
  | angle c inner =>
    simp [turbofishSeg, PathSeg.means, PathArgs.means, PathSeg.toToks, PathArgs.toToks, tColon2, tP]
  | paren inner => simp [turbofishSeg, PathSeg.means, PathArgs.means]

theorem segsToks_eq (ss : List PathSeg) : segsToks ss = joinColons (ss.map PathSeg.toToks) := by
  induction ss with
  | nil => rfl
  | cons s ss ih =>
    cases ss with
    | nil => rfl
    | cons s' ss => simp [segsToks, joinColons, ih, tColon2]

theorem segs_ok (ss : List PathSeg) :
    ((turbofishSegs ss).ok.map fun ss => ss.map PathSeg.toToks) = ss.mapM PathSeg.means := by
  induction ss with
  | nil => rfl
  | cons s ss ih =>
    simp only [turbofishSegs, Out.monad_bind, Out.ok_bind, List.mapM_cons, ← pathArgs_ok, ← ih]
    cases (turbofishSeg s).ok with
    | none => rfl
    | some x => cases (turbofishSegs ss).ok <;> rfl

theorem path_ok (p : Path) : ((turbofishify p).ok.map Path.toToks) = p.means := by
  unfold turbofishify Path.means
  simp only [Out.monad_bind, Out.ok_bind, ← segs_ok]
  cases (turbofishSegs p.segs).ok with
  | none => rfl
  | some x => simp [Path.toToks, segsToks_eq, tColon2]

/-! ### elements -/

/-- what the children yield, nothing if there is no block -/
def optNodes (nodes : Option (Out (List Toks))) : Option (List Toks) :=
  match nodes with
  | none => some []
  | some n => n.ok

theorem tagPath_ok {tag : Tag} (hs : ∀ k, tag = .webComponent k → 0 < k.spans) :
    (xmlTagPath tag = none ∧ ∃ p, tag = .component p) ∨
    ∃ o head, xmlTagPath tag = some o ∧ o.ok = some head ∧ tag.head = some head ∧
      tag.kind ≠ .component := by
  cases tag with
  | component p => exact Or.inl ⟨rfl, p, rfl⟩
  | webComponent k =>
    refine Or.inr ⟨_, _, rfl, by simp [checkSpan_eq (hs k rfl)]; rfl, ?_, by simp [Tag.kind]⟩
    simp [Tag.head, tAbs, tColon2, tId, tParen, tStr]
  | html i =>
    exact Or.inr ⟨_, _, rfl, rfl, by simp [Tag.head, tAbs, tColon2, tId, tParen], by simp [Tag.kind]⟩
  | svg i =>
    exact Or.inr ⟨_, _, rfl, rfl, by simp [Tag.head, tAbs, tColon2, tId, tParen], by simp [Tag.kind]⟩
  | math i =>
    exact Or.inr ⟨_, _, rfl, rfl, by simp [Tag.head, tAbs, tColon2, tId, tParen], by simp [Tag.kind]⟩

theorem childMethods_eq (cs : List Toks) : xmlChildMethodsTokens cs = chain (cs.map childCall) := by
  rw [← flatMap_tCall]; rfl

theorem xml_ok {tag : Tag} {attrs : List Attr} (sels : List Selector)
    (nodes : Option (Out (List Toks)))
    (hs : ∀ k, tag = .webComponent k → 0 < k.spans) (hattrs : ∀ a ∈ attrs, a.Spanned) :
    (xmlToTokens tag sels attrs nodes = none ∧ ∃ p, tag = .component p) ∨
    ∃ o, xmlToTokens tag sels attrs nodes = some o ∧ tag.kind ≠ .component ∧
      o.ok = (optNodes nodes).bind fun ns => xmlMeans tag sels attrs ns := by
  unfold xmlToTokens
  rcases tagPath_ok hs with ⟨h, hp⟩ | ⟨o, head, h, ho, hh, hk⟩
  · rw [h]; exact Or.inl ⟨rfl, hp⟩
  · rw [h]
    refine Or.inr ⟨_, rfl, hk, ?_⟩
    simp only [Out.monad_bind, Out.ok_bind, ho, xmlAttrsLoop_ok hk attrs hattrs, xmlMeans, hh]
    cases (kvs attrs).mapM (KvAttr.onElement tag.kind) with
    | none => cases optNodes nodes <;> rfl
    | some as =>
      cases (directives attrs).mapM Directive.onElement with
      | none => cases optNodes nodes <;> rfl
      | some ds =>
        cases nodes with
        | none => simp [optOut, optNodes, chain_append, xmlSelectors_eq, chain_nil]
        | some n =>
          cases hn : n.ok <;>
            simp [optOut, optNodes, hn, chain_append, xmlSelectors_eq, childMethods_eq]

/-! ### components and slots -/

theorem joinSpace_eq (ss : List Str) : joinSpace ss = [' '].intercalate ss := by
  induction ss with
  | nil => rfl
  | cons s ss ih =>
    cases ss with
    | nil => simp [joinSpace, List.intercalate]
    | cons s' ss =>
      rw [joinSpace, ih]
      · simp [List.intercalate]
      · simp

theorem selectorsToPaths_eq (sels : List Selector) : ∀ (is : List KebabIdent) (ps : List Toks),
    selectorsToPaths is ps sels =
      .ret [] (is ++ ids sels, ps ++ (classes sels).map classEntry) := by
  induction sels with
  | nil => intro is ps; simp [selectorsToPaths, ids, classes]
  | cons s sels ih =>
    intro is ps
    cases s with
    | id k =>
      have h1 : classes (.id k :: sels) = classes sels := rfl
      have h2 : ids (.id k :: sels) = k :: ids sels := rfl
      simp [selectorsToPaths, ih, h1, h2]
    | cls k =>
      have h1 : classes (.cls k :: sels) = k :: classes sels := rfl
      have h2 : ids (.cls k :: sels) = ids sels := rfl
      simp [selectorsToPaths, ih, h1, h2, directiveToAnyAttrPath, valueOrTrue, Value.newTrue,
        Value.toToks, SynLit.toToks, expectSome, classEntry, tAbs, tColon2, tId, tP, tParen, tStr,
        KebabOrStr.toUnspannedString]

theorem componentSelectors_eq (sels : List Selector) : componentSelectors false sels =
    .ret [] ((classes sels).map classEntry ++ idEntry (ids sels)) := by
  simp only [componentSelectors, Bool.false_eq_true, if_false, Out.monad_bind,
    selectorsToPaths_eq, Out.bind_ret, Out.tell_nil, List.nil_append]
  cases ids sels with
  | nil => simp [idEntry]
  | cons k ks =>
    simp [idEntry, directiveToAnyAttrPath, KebabOrStr.toLitStr, KebabIdent.checkSpan,
      AttributeKind.ofStr, KebabOrStr.toIdentOrEmit, KebabIdent.toSnakeIdent, newRaw, notRaw,
      dashToUnderscore, valueOrTrue, Value.toToks, SynLit.toToks, expectSome,
      tAbs, tColon2, tId, tParen, joinSpace_eq]

theorem componentSelectors_slot (sels : List Selector) : (componentSelectors true sels).ok =
    if sels = [] then some [] else none := by
  cases sels <;> simp [componentSelectors]

theorem componentAttrs_ok (attrs : List Attr)
    (h : ∀ a ∈ attrs, a.Spanned) : ∀ b : CompBufs, (componentAttrsLoop false b attrs).ok =
      (do
        let as ← (kvs attrs).mapM KvAttr.onComponent
        let es ← (entries attrs).mapM Attr.entry
        let cl ← (clones attrs).mapM Directive.cloneStmt
        return ⟨b.attrs ++ chain as, b.directivePaths ++ es, b.clones ++ cl.flatten⟩) := by
  induction attrs with
  | nil => intro b; simp [componentAttrsLoop, kvs, entries, clones, directives, chain]
  | cons a attrs ih =>
    intro b
    have ha := h a (by simp)
    have ih := ih fun a h' => h a (by simp [h'])
    cases a with
    | kv a =>
      have h1 : kvs (.kv a :: attrs) = a :: kvs attrs := rfl
      have h2 : entries (.kv a :: attrs) = entries attrs := rfl
      have h3 : clones (.kv a :: attrs) = clones attrs := rfl
      simp only [componentAttrsLoop, Out.monad_bind, Out.ok_bind, componentKv_ok ha, ih, h1, h2, h3,
        List.mapM_cons]
      cases a.onComponent with
      | none => rfl
      | some c =>
        cases (kvs attrs).mapM KvAttr.onComponent with
        | none => rfl
        | some cs =>
          cases (entries attrs).mapM Attr.entry with
          | none => rfl
          | some es =>
            cases (clones attrs).mapM Directive.cloneStmt with
            | none => rfl
            | some cl => simp [chain_cons c cs]
    | directive d =>
      have h1 : kvs (.directive d :: attrs) = kvs attrs := rfl
      by_cases hd : d.dir = ⟨false, c!"clone"⟩
      · have h2 : entries (.directive d :: attrs) = entries attrs := by simp [entries, hd]
        have h3 : clones (.directive d :: attrs) = d :: clones attrs := by
          simp [clones, directives, hd]
        simp only [componentAttrsLoop, if_pos hd, Out.monad_bind, Out.ok_bind, clone_ok ha, ih, h1,
          h2, h3, List.mapM_cons, emitIfModifier_ok]
        cases hm : d.modifier with
        | some m =>
          have : d.cloneStmt = none := by simp [Directive.cloneStmt, hm]
          rw [this]
          cases (kvs attrs).mapM KvAttr.onComponent <;>
            cases (entries attrs).mapM Attr.entry <;> rfl
        | none =>
        cases d.cloneStmt with
        | none =>
          cases (kvs attrs).mapM KvAttr.onComponent <;>
            cases (entries attrs).mapM Attr.entry <;> rfl
        | some c =>
          cases (kvs attrs).mapM KvAttr.onComponent with
          | none => rfl
          | some cs =>
            cases (entries attrs).mapM Attr.entry with
            | none => rfl
            | some es =>
              cases (clones attrs).mapM Directive.cloneStmt with
              | none => rfl
              | some cl => simp
      · have h2 : entries (.directive d :: attrs) = .directive d :: entries attrs := by
          simp [entries, hd]
        have h3 : clones (.directive d :: attrs) = clones attrs := by
          simp [clones, directives, hd]
        simp only [componentAttrsLoop, if_neg hd, Out.monad_bind, Out.ok_bind, h1,
          h2, h3, List.mapM_cons, Attr.entry, ← anyAttr_ok ha, Bool.false_eq_true, if_false]
        rcases (directiveToAnyAttrPath d).ok with _ | _ | e
        · cases (kvs attrs).mapM KvAttr.onComponent <;> rfl
        · cases (kvs attrs).mapM KvAttr.onComponent <;> simp
        · simp only [Option.bind_some, ih]
          cases (kvs attrs).mapM KvAttr.onComponent with
          | none => rfl
          | some cs =>
            cases (entries attrs).mapM Attr.entry with
            | none => rfl
            | some es =>
              cases (clones attrs).mapM Directive.cloneStmt with
              | none => rfl
              | some cl => simp
    | spread e =>
      have h1 : kvs (.spread e :: attrs) = kvs attrs := rfl
      have h2 : entries (.spread e :: attrs) = .spread e :: entries attrs := rfl
      have h3 : clones (.spread e :: attrs) = clones attrs := rfl
      simp only [componentAttrsLoop, ih, h1, h2, h3, List.mapM_cons, Attr.entry,
        Bool.false_eq_true, if_false]
      cases (kvs attrs).mapM KvAttr.onComponent with
      | none => rfl
      | some cs =>
        cases (entries attrs).mapM Attr.entry with
        | none => rfl
        | some es =>
          cases (clones attrs).mapM Directive.cloneStmt with
          | none => rfl
          | some cl => simp [componentSpreadTokens]

theorem slotAttrs_ok (attrs : List Attr)
    (h : ∀ a ∈ attrs, a.Spanned) : ∀ b : CompBufs, (componentAttrsLoop true b attrs).ok =
      if entries attrs = [] then (do
        let as ← (kvs attrs).mapM KvAttr.onComponent
        let cl ← (clones attrs).mapM Directive.cloneStmt
        return ⟨b.attrs ++ chain as, b.directivePaths, b.clones ++ cl.flatten⟩) else none := by
  induction attrs with
  | nil => intro b; simp [componentAttrsLoop, kvs, entries, clones, directives, chain]
  | cons a attrs ih =>
    intro b
    have ha := h a (by simp)
    have ih := ih fun a h' => h a (by simp [h'])
    cases a with
    | kv a =>
      have h1 : kvs (.kv a :: attrs) = a :: kvs attrs := rfl
      have h2 : entries (.kv a :: attrs) = entries attrs := rfl
      have h3 : clones (.kv a :: attrs) = clones attrs := rfl
      simp only [componentAttrsLoop, Out.monad_bind, Out.ok_bind, componentKv_ok ha, ih, h1, h2, h3,
        List.mapM_cons]
      split
      · cases a.onComponent with
        | none => rfl
        | some c =>
          cases (kvs attrs).mapM KvAttr.onComponent with
          | none => rfl
          | some cs =>
            cases (clones attrs).mapM Directive.cloneStmt with
            | none => rfl
            | some cl => simp [chain_cons c cs]
      · simp
    | directive d =>
      have h1 : kvs (.directive d :: attrs) = kvs attrs := rfl
      by_cases hd : d.dir = ⟨false, c!"clone"⟩
      · have h2 : entries (.directive d :: attrs) = entries attrs := by simp [entries, hd]
        have h3 : clones (.directive d :: attrs) = d :: clones attrs := by
          simp [clones, directives, hd]
        simp only [componentAttrsLoop, if_pos hd, Out.monad_bind, Out.ok_bind, clone_ok ha, ih, h1,
          h2, h3, List.mapM_cons, emitIfModifier_ok]
        split
        · cases hm : d.modifier with
          | some m =>
            have : d.cloneStmt = none := by simp [Directive.cloneStmt, hm]
            rw [this]
            cases (kvs attrs).mapM KvAttr.onComponent <;> rfl
          | none =>
          cases d.cloneStmt with
          | none => cases (kvs attrs).mapM KvAttr.onComponent <;> rfl
          | some c =>
            cases (kvs attrs).mapM KvAttr.onComponent with
            | none => rfl
            | some cs =>
              cases (clones attrs).mapM Directive.cloneStmt with
              | none => rfl
              | some cl => simp
        · simp
      · have h2 : entries (.directive d :: attrs) = .directive d :: entries attrs := by
          simp [entries, hd]
        simp [componentAttrsLoop, if_neg hd, h2]
    | spread e =>
      have h2 : entries (.spread e :: attrs) = .spread e :: entries attrs := rfl
      simp [componentAttrsLoop, h2]

theorem tTerminated_eq (xs : List Toks) : tTerminated xs = commaAfter xs := by
  induction xs with
  | nil => rfl
  | cons x xs ih =>
    have : tTerminated (x :: xs) = x ++ [tP ','] ++ tTerminated xs := by simp [tTerminated]
    rw [this, ih]
    simp [commaAfter, tP]

theorem tSeparated_eq (xs : List Toks) : tSeparated xs = commaBetween xs := by
  induction xs with
  | nil => rfl
  | cons x xs ih =>
    cases xs with
    | nil => rfl
    | cons y xs =>
      rw [tSeparated, ih]
      · simp [commaBetween, tP]
      · simp

theorem fragment_eq (ns : List Toks) : childrenFragmentTokens ns = viewOf ns := by
  simp [childrenFragmentTokens, viewOf, tTerminated_eq, tAbs, tColon2, tId, tParen]

theorem children_eq (ns : List Toks) (args : Option Toks) (clones : Toks) :
    (match ns with
      | c :: cs => componentChildrenTokens (c :: cs) args clones
      | [] => []) = chain (childrenCall args clones ns) := by
  cases ns with
  | nil => rfl
  | cons c cs =>
    cases args <;>
      simp [componentChildrenTokens, childrenCall, fragment_eq, tCall_eq, tId, tOrOr, tAbs, tColon2,
        tParen, tBrace]

/-- what the slots yield, nothing if there is no block -/
def optSlots (slots : Option (Out Toks)) : Option Toks :=
  match slots with
  | none => some []
  | some n => n.ok

theorem component_ok {path : Path} {attrs : List Attr} (sels : List Selector)
    (args : Option Toks) (nodes : Option (Out (List Toks))) (slots : Option (Out Toks))
    (calls : List Call) (hattrs : ∀ a ∈ attrs, a.Spanned)
    (hcalls : optSlots slots = some (chain calls)) :
    ∃ o, componentToTokens false (.component path) sels attrs args nodes slots = some o ∧
      o.ok = (optNodes nodes).bind fun ns => componentMeans path sels attrs args ns calls := by
  unfold componentToTokens
  refine ⟨_, rfl, ?_⟩
  simp only [Out.monad_bind, Out.ok_bind, componentSelectors_eq, componentAttrs_ok attrs hattrs,
    componentMeans, ← path_ok, Out.ok_ret, Option.bind_some]
  cases (turbofishify path).ok with
  | none => cases optNodes nodes <;> rfl
  | some path =>
  cases (kvs attrs).mapM KvAttr.onComponent with
  | none => cases optNodes nodes <;> rfl
  | some as =>
  cases (entries attrs).mapM Attr.entry with
  | none => cases optNodes nodes <;> rfl
  | some es =>
  cases (clones attrs).mapM Directive.cloneStmt with
  | none => cases optNodes nodes <;> rfl
  | some cl =>
  have hslots : ((optOut slots).ok.map fun s => match s with | some t => t | none => []) =
      some (chain calls) := by
    rw [← hcalls]
    cases slots with
    | none => rfl
    | some s => cases hs : s.ok <;> simp [optOut, optSlots, hs]
  cases hso : (optOut slots).ok with
  | none => simp [hso] at hslots
  | some so =>
  simp only [hso, Option.map_some, Option.some.injEq] at hslots
  have hnodes : ((optOut nodes).ok.map fun s => match s with
      | some (c :: cs) => componentChildrenTokens (c :: cs) args cl.flatten
      | _ => []) = (optNodes nodes).map fun ns => chain (childrenCall args cl.flatten ns) := by
    cases nodes with
    | none => rfl
    | some n =>
      cases hn : n.ok with
      | none => simp [optOut, optNodes, hn]
      | some ns => 
        simp [optOut, optNodes, hn]
        rw [← children_eq]
        cases ns <;> rfl
  cases hno : (optOut nodes).ok with
  | none =>
    cases hn : optNodes nodes with
    | none => rfl
    | some ns => simp [hno, hn] at hnodes
  | some no =>
    cases hn : optNodes nodes with
    | none => simp [hno, hn] at hnodes
    | some ns =>
      simp only [hno, hn, Option.map_some, Option.some.injEq] at hnodes
      simp only [Option.bind_some, Option.bind_eq_bind, Option.pure_def, List.nil_append,
        Bool.false_eq_true, if_false, Option.map_some, Out.monad_pure, Out.ok_ret, Option.some.injEq]
      rcases no with _ | _ | ⟨c, cs⟩ <;> cases so <;> simp only at hnodes hslots ⊢ <;>
      simp [← hnodes, ← hslots, chain_append, tTerminated_eq, tBuild, tCall_eq, chain, tId, tAbs, tColon2, tParen, tP, tBracket]

theorem slot_ok {path : Path} {attrs : List Attr} (sels : List Selector)
    (args : Option Toks) (nodes : Option (Out (List Toks))) (slots : Option (Out Toks))
    (hattrs : ∀ a ∈ attrs, a.Spanned) (hslots : ∃ st, optSlots slots = some st) :
    ∃ o, componentToTokens true (.component path) sels attrs args nodes slots = some o ∧
      o.ok = (optNodes nodes).bind fun ns => slotMeans path sels attrs args ns := by
  unfold componentToTokens
  refine ⟨_, rfl, ?_⟩
  simp only [Out.monad_bind, Out.ok_bind, componentSelectors_slot, slotAttrs_ok attrs hattrs,
    slotMeans, ← path_ok]
  cases (turbofishify path).ok with
  | none => cases optNodes nodes <;> simp
  | some path =>
  by_cases hsel : sels = []
  case neg => simp [hsel]
  by_cases hent : entries attrs = []
  case neg => simp [hsel, hent]
  simp only [hsel, hent]
  cases (kvs attrs).mapM KvAttr.onComponent with
  | none => cases optNodes nodes <;> rfl
  | some as =>
  cases (clones attrs).mapM Directive.cloneStmt with
  | none => cases optNodes nodes <;> rfl
  | some cl =>
  have hslots : ∃ so, (optOut slots).ok = some so := by
    obtain ⟨st, h⟩ := hslots
    cases slots with
    | none => exact ⟨_, rfl⟩
    | some s => exact ⟨some st, by simp [optSlots] at h; simp [optOut, h]⟩
  obtain ⟨so, hso⟩ := hslots
  have hnodes : ((optOut nodes).ok.map fun s => match s with
      | some (c :: cs) => componentChildrenTokens (c :: cs) args cl.flatten
      | _ => []) = (optNodes nodes).map fun ns => chain (childrenCall args cl.flatten ns) := by
    cases nodes with
    | none => rfl
    | some n =>
      cases hn : n.ok with
      | none => simp [optOut, optNodes, hn]
      | some ns => 
        simp [optOut, optNodes, hn]
        rw [← children_eq]
        cases ns <;> rfl
  cases hno : (optOut nodes).ok with
  | none =>
    cases hn : optNodes nodes with
    | none => rfl
    | some ns => simp [hno, hn] at hnodes
  | some no =>
    cases hn : optNodes nodes with
    | none => simp [hno, hn] at hnodes
    | some ns =>
      simp only [hno, hn, Option.map_some, Option.some.injEq] at hnodes
      simp only [Option.bind_some, Option.bind_eq_bind, Option.pure_def, List.nil_append,
        if_true, Option.map_some, Out.monad_pure, Out.ok_ret, and_self, guard_true', hso]
      rcases no with _ | _ | ⟨c, cs⟩ <;> simp only at hnodes ⊢ <;>
      simp [← hnodes, chain_append, tBuild, tCall_eq, chain, tId, tAbs, tColon2, tParen]

theorem slots_of_ok {isSlot : Bool} {path : Path} {attrs : List Attr} {sels : List Selector}
    {args : Option Toks} {nodes : Option (Out (List Toks))} {slots : Option (Out Toks)}
    {o : Out Toks} {t : Toks}
    (ho : componentToTokens isSlot (.component path) sels attrs args nodes slots = some o)
    (h : o.ok = some t) : ∃ st, optSlots slots = some st := by
  cases slots with
  | none => exact ⟨_, rfl⟩
  | some s =>
    cases hs : s.ok with
    | some st => exact ⟨st, hs⟩
    | none =>
      exfalso
      simp only [componentToTokens, Option.some.injEq] at ho
      subst ho
      simp only [Out.monad_bind, Out.ok_bind, optOut, hs] at h
      simp at h

/-! ### grouping slots -/

theorem isUpper_eq (c : Char) : isAsciiUpper c = c.isUpper := by
  have : ∀ a b : Char, decide (a.toNat ≤ b.toNat) = decide (a.val ≤ b.val) := fun a b => rfl
  simp only [isAsciiUpper, Char.isUpper, this, Bool.decide_and, ge_iff_le]

theorem lower_eq (c : Char) : asciiLower c = c.toLower := by
  cases h : isAsciiUpper c with
  | false =>
    rw [asciiLower_of_not_upper h, Char.toLower, dif_neg]
    rw [isUpper_eq] at h
    simpa [Char.isUpper] using h
  | true =>
    obtain ⟨k, rfl⟩ := upper_eq h
    clear h
    revert k
    decide

theorem snakeCase_eq (s : Str) : upperCamelToSnake s = snakeCase s := by
  cases s with
  | nil => rfl
  | cons c cs =>
    rw [upperCamelToSnake_cons, snakeCase, lower_eq]
    congr 2
    funext c
    rw [snakeChar, isUpper_eq, lower_eq]
    split
    · rfl
    · rename_i h
      rw [Char.toLower, dif_neg]
      simpa [Char.isUpper] using h

/-- all slots called `n` -/
def slotsNamed (ss : List (Ident × Toks)) (n : Ident) : List Toks :=
  (ss.filter (·.1 = n)).map Prod.snd

theorem slotMethod_ok (n : Ident) (ts : List Toks) : (slotMethod (n, ts)).ok =
    (slotMethodName n).map fun m => chain [⟨m, slotArg ts⟩] := by
  unfold slotMethod slotMethodName
  simp only [Out.monad_bind, Out.ok_bind, newRaw_ok, snakeCase_eq]
  have : rawIdent (snakeCase n.name) =
    if snakeCase n.name ∈ notRaw then none else some ⟨true, snakeCase n.name⟩ := rfl
  rw [this]
  split
  · rfl
  · rcases ts with _ | ⟨t, _ | ⟨t', ts⟩⟩ <;>
      simp [tCall_eq, slotArg, tSeparated_eq, tP, tBracket, tId, tColon2, tParen, tAbs]

/-- the calls for the given entries -/
def entryCalls (es : List (Ident × List Toks)) : Option (List Call) :=
  es.mapM fun e => do return ⟨← slotMethodName e.1, slotArg e.2⟩

theorem slotMethods_ok (es : List (Ident × List Toks)) :
    (slotMethods es).ok = (entryCalls es).map chain := by
  induction es with
  | nil => rfl
  | cons e es ih =>
    obtain ⟨n, ts⟩ := e
    have : entryCalls ((n, ts) :: es) = do
        let c ← (do return ⟨← slotMethodName n, slotArg ts⟩ : Option Call)
        return c :: (← entryCalls es) := by simp [entryCalls]
    simp only [slotMethods, Out.monad_bind, Out.ok_bind, slotMethod_ok, ih, this]
    cases slotMethodName n with
    | none => rfl
    | some m =>
      cases entryCalls es with
      | none => rfl
      | some cs => simp [chain_cons _ cs]

/-- Entries with different names, each with all slots of its name. -/
structure Grouped (ss : List (Ident × Toks)) (m : List (Ident × List Toks)) : Prop where
  nodup : (m.map Prod.fst).Nodup
  names : ∀ n, n ∈ m.map Prod.fst ↔ n ∈ ss.map Prod.fst
  entry : ∀ e ∈ m, e.2 = slotsNamed ss e.1

theorem pushSlot_map (name : Ident) (t : Toks) (m : List (Ident × List Toks)) :
    (pushSlot name t m).map Prod.fst =
      if name ∈ m.map Prod.fst then m.map Prod.fst else m.map Prod.fst ++ [name] := by
  induction m with
  | nil => simp [pushSlot]
  | cons e m ih =>
    obtain ⟨n, ts⟩ := e
    unfold pushSlot
    by_cases hn : n = name
    · simp [hn]
    · have hn' : ¬ name = n := fun h => hn h.symm
      rw [if_neg hn]
      simp only [List.map_cons, ih, List.mem_cons, hn', false_or]
      split <;> simp

theorem pushSlot_mem {name : Ident} {t : Toks} {m : List (Ident × List Toks)}
    (hnd : (m.map Prod.fst).Nodup) {e : Ident × List Toks} (he : e ∈ pushSlot name t m) :
    (e.1 ≠ name ∧ e ∈ m) ∨ (e.1 = name ∧
      ((∃ ts, (name, ts) ∈ m ∧ e.2 = ts ++ [t]) ∨ (name ∉ m.map Prod.fst ∧ e.2 = [t]))) := by
  induction m with
  | nil => simp [pushSlot] at he; subst he; simp
  | cons e' m ih =>
    obtain ⟨n, ts⟩ := e'
    simp only [List.map_cons, List.nodup_cons] at hnd
    unfold pushSlot at he
    by_cases hn : n = name
    · subst hn
      rw [if_pos rfl] at he
      simp only [List.mem_cons] at he
      rcases he with rfl | he
      · exact Or.inr ⟨rfl, Or.inl ⟨ts, by simp, rfl⟩⟩
      · refine Or.inl ⟨?_, by simp [he]⟩
        rintro rfl
        exact hnd.1 (List.mem_map_of_mem he)
    · rw [if_neg hn] at he
      simp only [List.mem_cons] at he
      rcases he with rfl | he
      · exact Or.inl ⟨hn, by simp⟩
      · have hn' : ¬ name = n := fun h => hn h.symm
        rcases ih hnd.2 he with ⟨h1, h2⟩ | ⟨h1, ⟨ts', h2, h3⟩ | ⟨h2, h3⟩⟩
        · exact Or.inl ⟨h1, by simp [h2]⟩
        · exact Or.inr ⟨h1, Or.inl ⟨ts', by simp [h2], h3⟩⟩
        · exact Or.inr ⟨h1, Or.inr ⟨by simp only [List.map_cons, List.mem_cons, hn', false_or]; exact h2, h3⟩⟩

theorem Grouped.push {ss : List (Ident × Toks)} {m : List (Ident × List Toks)} (g : Grouped ss m)
    (n : Ident) (t : Toks) : Grouped (ss ++ [(n, t)]) (pushSlot n t m) where
  nodup := by
    rw [pushSlot_map]
    split
    · exact g.nodup
    · rename_i h
      rw [List.nodup_append]
      refine ⟨g.nodup, by simp, ?_⟩
      intro a ha b hb
      simp at hb
      subst hb
      rintro rfl
      exact h ha
  names := by
    intro n'
    rw [pushSlot_map]
    have := g.names n'
    split
    · rename_i h
      rw [List.map_append, List.mem_append, this]
      simp only [List.map_cons, List.map_nil, List.mem_singleton]
      constructor
      · exact Or.inl
      · rintro (h' | rfl)
        · exact h'
        · rwa [g.names] at h
    · rw [List.mem_append, List.map_append, List.mem_append, this]
      simp
  entry := by
    intro e he
    have hsplit : ∀ n', slotsNamed (ss ++ [(n, t)]) n' =
        slotsNamed ss n' ++ if n = n' then [t] else [] := by
      intro n'
      simp only [slotsNamed, List.filter_append, List.map_append]
      by_cases h : n = n' <;> simp [h]
    rw [hsplit]
    rcases pushSlot_mem g.nodup he with ⟨h1, h2⟩ | ⟨h1, ⟨ts, h2, h3⟩ | ⟨h2, h3⟩⟩
    · rw [if_neg (fun h => h1 h.symm), List.append_nil]
      exact g.entry e h2
    · rw [if_pos h1.symm, h3, h1, ← g.entry (n, ts) h2]
    · rw [if_pos h1.symm, h3, h1]
      have : slotsNamed ss n = [] := by
        simp only [slotsNamed, List.map_eq_nil_iff, List.filter_eq_nil_iff, decide_eq_true_eq]
        intro a ha h
        subst h
        exact h2 ((g.names _).mpr (List.mem_map_of_mem ha))
      rw [this]
      rfl

theorem groupSlots_grouped (ss : List (Ident × Toks)) : ∀ (ss' : List (Ident × Toks))
    (m : List (Ident × List Toks)), Grouped ss' m → Grouped (ss' ++ ss) (groupSlots ss m) := by
  induction ss with
  | nil => intro ss' m g; simpa [groupSlots] using g
  | cons s ss ih =>
    intro ss' m g
    obtain ⟨n, t⟩ := s
    have := ih _ _ (g.push n t)
    simpa [groupSlots] using this

theorem grouped_nil : Grouped [] [] := ⟨by simp, by simp, by simp⟩

/-! ### rearranging -/

theorem insertAt_perm {α : Type} (a : α) (n : Nat) (xs : List α) :
    (insertAt a n xs).Perm (a :: xs) := by
  induction xs generalizing n with
  | nil => cases n <;> simp [insertAt]
  | cons x xs ih =>
    cases n with
    | zero => simp [insertAt]
    | succ n => exact ((ih n).cons x).trans (.swap a x xs)

/-- C33: whatever the numbers, nothing is lost, added or repeated. -/
theorem permute_perm {α : Type} (ns : List Nat) (xs : List α) : (permute ns xs).Perm xs := by
  induction xs generalizing ns with
  | nil => cases ns <;> simp [permute]
  | cons x xs ih =>
    cases ns with
    | nil => simp [permute]
    | cons n ns => exact (insertAt_perm x n _).trans ((ih ns).cons x)

theorem insertAt_append {α : Type} (a : α) (xs ys : List α) :
    insertAt a xs.length (xs ++ ys) = xs ++ a :: ys := by
  induction xs with
  | nil => cases ys <;> simp [insertAt]
  | cons x xs ih => simp [insertAt, ih]

/-- every order can happen -/
theorem permute_all {α : Type} (xs : List α) : ∀ ys : List α, ys.Perm xs →
    ∃ ns, permute ns xs = ys := by
  induction xs with
  | nil => intro ys h; exact ⟨[], by simp [permute, h.eq_nil]⟩
  | cons x xs ih =>
    intro ys h
    have hx : x ∈ ys := h.mem_iff.mpr (by simp)
    obtain ⟨a, b, rfl⟩ := List.append_of_mem hx
    obtain ⟨ns, hns⟩ := ih (a ++ b) (by
      have := (List.perm_middle (a := x) (l₁ := a) (l₂ := b)).symm.trans h
      exact this.cons_inv)
    exact ⟨a.length :: ns, by simp [permute, hns, insertAt_append]⟩

/-! ### slots -/

theorem mapM_congr_mem {α β : Type} {f g : α → Option β} {xs : List α}
    (h : ∀ x ∈ xs, f x = g x) : xs.mapM f = xs.mapM g := by
  induction xs with
  | nil => rfl
  | cons x xs ih =>
    rw [List.mapM_cons, List.mapM_cons, h x (by simp), ih fun y hy => h y (by simp [hy])]

theorem entryCalls_eq {ss : List (Ident × Toks)} {m : List (Ident × List Toks)}
    (h : ∀ e ∈ m, e.2 = slotsNamed ss e.1) : entryCalls m = (m.map Prod.fst).mapM fun n => do
      return ⟨← slotMethodName n, slotArg (slotsNamed ss n)⟩ := by
  rw [List.mapM_map]
  exact mapM_congr_mem fun e he => by simp [← h e he]

theorem slots_sound {order : List Nat} {slots : Out (List (Ident × Toks))} {st : Toks}
    (h : (slotsToTokens order slots).ok = some st) :
    ∃ ss calls, slots.ok = some ss ∧ SlotCalls ss calls ∧ st = chain calls := by
  simp only [slotsToTokens, Out.monad_bind, Out.ok_bind, Option.bind_eq_some_iff, slotMethods_ok,
    Option.map_eq_some_iff] at h
  obtain ⟨ss, hss, calls, hc, rfl⟩ := h
  refine ⟨ss, calls, hss, ?_, rfl⟩
  have g := groupSlots_grouped ss [] [] grouped_nil
  rw [List.nil_append] at g
  have hp := permute_perm order (groupSlots ss [])
  refine ⟨(permute order (groupSlots ss [])).map Prod.fst, ?_, ?_, ?_⟩
  · exact (hp.map Prod.fst).nodup_iff.mpr g.nodup
  · intro n
    rw [(hp.map Prod.fst).mem_iff]
    exact g.names n
  · rw [← hc, entryCalls_eq fun e he => g.entry e (hp.mem_iff.mp he)]
    rfl

theorem slots_complete {slots : Out (List (Ident × Toks))} {ss : List (Ident × Toks)}
    {calls : List Call} (h : slots.ok = some ss) (hc : SlotCalls ss calls) :
    ∃ order, (slotsToTokens order slots).ok = some (chain calls) := by
  obtain ⟨names, hnd, hmem, hcalls⟩ := hc
  have g := groupSlots_grouped ss [] [] grouped_nil
  rw [List.nil_append] at g
  have hp : names.Perm ((groupSlots ss []).map Prod.fst) := by
    rw [List.perm_ext_iff_of_nodup hnd g.nodup]
    intro n
    rw [hmem, g.names]
  have hm : (names.map fun n => (n, slotsNamed ss n)).Perm (groupSlots ss []) := by
    have := hp.map fun n => (n, slotsNamed ss n)
    refine this.trans (.of_eq ?_)
    rw [List.map_map]
    conv => rhs; rw [← List.map_id (groupSlots ss [])]
    refine List.map_congr_left fun e he => ?_
    obtain ⟨n, ts⟩ := e
    simp [← g.entry _ he]
  obtain ⟨order, ho⟩ := permute_all _ _ hm
  refine ⟨order, ?_⟩
  simp only [slotsToTokens, Out.monad_bind, Out.ok_bind, h, Option.bind_some, ho, slotMethods_ok]
  rw [entryCalls_eq (ss := ss)]
  · simp only [List.map_map, Function.comp_def, List.map_id']
    have : (names.mapM fun n => do
      return (⟨← slotMethodName n, slotArg (slotsNamed ss n)⟩ : Call)) = some calls := hcalls
    rw [this]
    rfl
  · intro e he
    simp only [List.mem_map] at he
    obtain ⟨n, _, rfl⟩ := he
    rfl

end Mview
