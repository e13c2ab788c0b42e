import Verif.Loc.Parse
/-
The expansion functions with spans; see `Model/Expand.lean`.

`quote!` gives the tokens written in its template the span of the call site, `quote_spanned!` the
given one; interpolated tokens keep theirs.
-/

namespace Mview.Loc
variable {σ : Type}

/-! ### tokens `quote!` and `quote_spanned!` write; `c` is the span -/

/-- an identifier written in a template -/
def tId (c : σ) (name : Str) : TT σ := .ident ⟨false, name⟩ c
/-- an interpolated identifier -/
def tIdent (i : SIdent σ) : TT σ := .ident i.id i.sp
/-- one-character punctuation -/
def tP (c : σ) (p : Char) : TT σ := .punct p .alone c
/-- `::` -/
def tColons (c : σ) : Toks σ := tColon2 (c, c)
/-- `||` -/
def tOrOr (c : σ) : Toks σ := [.punct '|' .joint c, .punct '|' .alone c]
/-- a string literal -/
def tStr (c : σ) (s : Str) : TT σ := .lit (.str s) c
/-- `( .. )` -/
def tParen (c : σ) (ts : Toks σ) : TT σ := .group .paren ts (.single c)
/-- `{ .. }` -/
def tBrace (c : σ) (ts : Toks σ) : TT σ := .group .brace ts (.single c)
/-- `[ .. ]` -/
def tBracket (c : σ) (ts : Toks σ) : TT σ := .group .bracket ts (.single c)
/-- `::a::b::c` -/
def tAbs (c : σ) (segs : List Str) : Toks σ := segs.flatMap fun s => tColons c ++ [tId c s]
/-- `.method(args)` -/
def tCall (c : σ) (method : SIdent σ) (args : Toks σ) : Toks σ :=
  [tP c '.', tIdent method, tParen c args]
/-- `#( #xs, )*` -/
def tTerminated (c : σ) (xs : List (Toks σ)) : Toks σ := xs.flatMap fun x => x ++ [tP c ',']
/-- `#( #xs ),*` -/
def tSeparated (c : σ) : List (Toks σ) → Toks σ
  | [] => []
  | [x] => x
  | x :: xs => x ++ [tP c ','] ++ tSeparated c xs

/-- an identifier made by `syn::Ident::new` -/
def mkIdent (name : Str) (sp : σ) : SIdent σ := ⟨⟨false, name⟩, sp⟩

/-! ### src/expand/utils.rs -/

/-- src/expand/utils.rs:22-29 `emit_error_if_modifier` -/
def emitIfModifier : Option (SIdent σ) → Out σ Unit
  | some m => emit (.modifierNotAllowed m.id) m.sp
  | none => pure ()

variable [Spans σ]

/-- src/expand/utils.rs:36-45: one segment of `turbofishify`; the added `::` has the span of the
call site (`parse_quote!`) -/
def turbofishSeg (s : PathSeg σ) : Out σ (PathSeg σ) :=
  match s.args with
  | .none => pure s
  | .angle t lt inner gt =>
    pure ⟨s.ident, .angle (some (t.getD (callSite, callSite))) lt inner gt, s.sep⟩
  | .paren _ sp => abortWith .functionGenerics sp

/-- src/expand/utils.rs:33-47: the loop of `turbofishify` -/
def turbofishSegs : List (PathSeg σ) → Out σ (List (PathSeg σ))
  | [] => pure []
  | s :: ss => do
    let s' ← turbofishSeg s
    let ss' ← turbofishSegs ss
    pure (s' :: ss')

/-- src/expand/utils.rs:33-47 `turbofishify` -/
def turbofishify (p : Path σ) : Out σ (Path σ) := do
  let segs ← turbofishSegs p.segs
  pure ⟨p.leading, segs⟩

/-! ### src/span.rs, src/ast/ident.rs -/

/-- src/span.rs:18-23 `color_all`: the name in `let __x = ();` has the span to be coloured -/
def colorAll (spans : List σ) : Toks σ :=
  (spans.map fun s =>
    [tId callSite c!"let", tId s c!"__x", tP callSite '=', tParen callSite [], tP callSite ';']).flatten

/-- src/ast/ident.rs:83-89 `KebabIdent::to_str_colored` -/
def KebabIdent.toStrColored (k : KebabIdent σ) : Toks σ :=
  [tBrace callSite (colorAll k.spans ++ [tStr callSite k.repr])]

/-! ### src/ast/value.rs -/

omit [Spans σ] in
/-- `syn::Lit::to_tokens` -/
def SLit.toToks (l : SLit σ) : Toks σ :=
  match l.lit with
  | .tok t => [.lit t l.sp]
  | .bool true => [tId l.sp c!"true"]
  | .bool false => [tId l.sp c!"false"]

/-- src/ast/value.rs:74-108 `Value::to_tokens` -/
def Value.toToks : Value σ → Out σ (Toks σ)
  | .lit l => pure l.toToks
  | .block tokens braces =>
    let sp := if tokens.isEmpty then braces.whole else toksSpan tokens
    pure [tBrace sp tokens]
  | .bracket (some pfx) tokens b =>
    if pfx.id = ⟨false, c!"f"⟩ then
      pure ([tId b.whole c!"move"] ++ tOrOr b.whole ++ tAbs b.whole [c!"std"] ++ tColons b.whole ++
        [tId pfx.sp c!"format", tP pfx.sp '!', tParen b.whole tokens])
    else do
      emit (.unsupportedPrefix pfx.id) pfx.sp
      pure []
  | .bracket none tokens b =>
    pure ([tId b.whole c!"move"] ++ tOrOr b.whole ++ [tBrace b.whole tokens])

/-- `#value` where `value : Option<Value>` -/
def optValueToks : Option (Value σ) → Out σ (Toks σ)
  | none => pure []
  | some v => v.toToks

/-! ### src/expand/subroutines.rs: shared -/

/-- src/expand/subroutines.rs:31-47 `use_directive_fn_value` -/
def useDirectiveFnValue (u : Directive σ) : Out σ (SIdent σ × Toks σ) := do
  if u.dir.id ≠ ⟨false, c!"use"⟩ then .panic .assertUse
  let fn ← u.key.toIdentOrEmit
  emitIfModifier u.modifier
  match u.value with
  | none => pure (fn, [tParen fn.sp [], tP fn.sp '.', tId fn.sp c!"into", tParen fn.sp []])
  | some v => do
    let t ← v.toToks
    pure (fn, tAbs callSite [c!"std", c!"convert", c!"Into", c!"into"] ++ [tParen callSite t])

/-- `::leptos::tachys::html::event` -/
def eventMod : Toks σ := tAbs callSite [c!"leptos", c!"tachys", c!"html", c!"event"]

/-- src/expand/subroutines.rs:49-83 `event_listener_event_path` -/
def eventListenerEventPath (d : Directive σ) : Out σ (Toks σ) := do
  if d.dir.id ≠ ⟨false, c!"on"⟩ then .panic .assertOn
  let ev ← match d.key with
    | .kebab k => k.toSnakeIdent
    | .str s => do
      emit (.eventNotIdent s.str) s.sp
      pure (mkIdent c!"invalid_event" s.sp)
  let path := eventMod ++ tColons callSite ++ [tIdent ev]
  match d.modifier with
  | some m =>
    if m.id = ⟨false, c!"undelegated"⟩ then
      pure (eventMod ++ tColons callSite ++ [tIdent m, tParen callSite path])
    else do
      emit (.unknownModifier m.id) m.sp
      pure path
  | none => pure path

/-! ### src/expand/subroutines.rs: html/xml only -/

omit [Spans σ] in
/-- src/ast/attribute/selector.rs:36-41 `SelectorShorthand::ident` -/
def Selector.ident : Selector σ → KebabIdent σ
  | .id _ k => k
  | .cls _ k => k

omit [Spans σ] in
/-- src/ast/attribute/selector.rs:43-51 `SelectorShorthand::prefix`, its span -/
def Selector.pfx : Selector σ → σ
  | .id s _ => s
  | .cls s _ => s

omit [Spans σ] in
/-- the `matches!` of src/expand/subroutines.rs:128 -/
def Selector.isClass : Selector σ → Bool
  | .cls _ _ => true
  | .id _ _ => false

/-- src/expand/subroutines.rs:125-143 `xml_selectors_tokens` -/
def xmlSelectorsTokens (selectors : List (Selector σ)) : Toks σ :=
  let (classes, ids) := selectors.partition Selector.isClass
  classes.flatMap (fun c =>
      tCall callSite (mkIdent c!"class" c.pfx)
        [tParen callSite (c.ident.toStrColored ++ [tP callSite ',', tId callSite c!"true"])]) ++
    ids.flatMap (fun i => tCall callSite (mkIdent c!"id" i.pfx) i.ident.toStrColored)

/-- src/expand/subroutines.rs:145-173 `xml_kv_attribute_tokens` -/
def xmlKvAttributeTokens (attr : KvAttr σ) (elementTag : TagKind) : Out σ (Toks σ) :=
  if attr.key.repr = c!"ref" then do
    attr.key.checkSpan
    let v ← attr.value.toToks
    pure (tCall callSite (mkIdent c!"node_ref" attr.key.span) v)
  else
    let attrKind := AttributeKind.ofStr attr.key.repr
    let isWebOrSvg : Bool := elementTag = .svg || elementTag = .webComponent
    if (isWebOrSvg || attrKind.isCustom) && !attrKind.isClassOrStyle then do
      let v ← attr.value.toToks
      pure (tCall callSite (mkIdent c!"attr" callSite)
        ([tStr callSite attr.key.repr, tP callSite ','] ++
          tAbs callSite [c!"leptos", c!"prelude", c!"IntoAttributeValue", c!"into_attribute_value"] ++
          [tParen callSite v]))
    else do
      let key ← attr.key.toSnakeIdent
      let v ← attr.value.toToks
      pure (tCall callSite key v)

/-- src/expand/subroutines.rs:175-214 `xml_directive_tokens` -/
def xmlDirectiveTokens (d : Directive σ) : Out σ (Toks σ) :=
  if d.dir.id = ⟨false, c!"class"⟩ ∨ d.dir.id = ⟨false, c!"style"⟩ then do
    let key ← d.key.toLitStr
    emitIfModifier d.modifier
    let v ← optValueToks d.value
    pure (tCall callSite d.dir [tParen callSite ([tStr key.sp key.str, tP callSite ','] ++ v)])
  else if d.dir.id = ⟨false, c!"prop"⟩ then do
    let key ← d.key.toLitStr
    emitIfModifier d.modifier
    let v ← optValueToks d.value
    pure (tCall callSite d.dir ([tStr key.sp key.str, tP callSite ','] ++ v))
  else if d.dir.id = ⟨false, c!"on"⟩ then do
    let path ← eventListenerEventPath d
    let v ← optValueToks d.value
    pure (tCall callSite d.dir (path ++ [tP callSite ','] ++ v))
  else if d.dir.id = ⟨false, c!"use"⟩ then do
    let (fn, v) ← useDirectiveFnValue d
    pure (tCall callSite (mkIdent c!"directive" d.dir.sp) ([tIdent fn, tP callSite ','] ++ v))
  else if d.dir.id = ⟨false, c!"attr"⟩ ∨ d.dir.id = ⟨false, c!"clone"⟩ then do
    emit (.directiveOnElement d.dir.id) d.dir.sp
    pure []
  else do
    emit (.unknownDirective d.dir.id) d.dir.sp
    pure []

/-- src/expand/subroutines.rs:216-222 `xml_spread_tokens` -/
def xmlSpreadTokens (s : Spread σ) : Toks σ :=
  tCall callSite (mkIdent c!"add_any_attr" (joinOr s.dotdot.1 s.dotdot.2)) s.expr

/-- A node child's span (src/ast/children.rs:39-44) and expansion. -/
structure Node (σ : Type) where
  sp : σ
  toks : Toks σ

/-- src/expand/subroutines.rs:234-245 `xml_child_methods_tokens` -/
def xmlChildMethodsTokens (children : List (Node σ)) : Toks σ :=
  children.flatMap fun c => tCall callSite (mkIdent c!"child" c.sp) c.toks

/-! ### src/expand/subroutines.rs: component only -/

/-- src/ast/attribute/kv.rs:38 `KvAttr::span` -/
def KvAttr.span (a : KvAttr σ) : σ := joinOr a.key.span a.value.span

/-- src/expand/subroutines.rs:251-254 `component_kv_attribute_tokens` -/
def componentKvAttributeTokens (attr : KvAttr σ) : Out σ (Toks σ) := do
  let key ← attr.key.toSnakeIdent
  let v ← attr.value.toToks
  pure (tCall attr.span key v)

/-- src/expand/subroutines.rs:257-265 `component_clone_tokens` -/
def componentCloneTokens (d : Directive σ) : Out σ (Toks σ) := do
  let toClone ← d.key.toIdentOrEmit
  emitIfModifier d.modifier
  match d.value with
  | some v => emit .cloneValue v.span
  | none => pure ()
  pure [tId callSite c!"let", tIdent toClone, tP callSite '=', tIdent toClone, tP callSite '.',
    tId callSite c!"clone", tParen callSite [], tP callSite ';']

omit [Spans σ] in
/-- src/expand.rs:46-55 `children_fragment_tokens` -/
def childrenFragmentTokens (children : List (Node σ)) (sp : σ) : Toks σ :=
  tAbs sp [c!"leptos", c!"prelude", c!"View", c!"new"] ++
    [tParen sp [tParen sp (tTerminated sp (children.map Node.toks))]]

/-- src/expand/subroutines.rs:302-341 `component_children_tokens`; `childSpan` is the span of the
first child -/
def componentChildrenTokens (childSpan : σ) (children : List (Node σ)) (args : Option (Toks σ))
    (clones : Toks σ) : Toks σ :=
  let fragment := childrenFragmentTokens children
    (match args with | some a => toksSpan a | none => callSite)
  let wrapped := match args with
    | some args => [tId (toksSpan args) c!"move"] ++ args ++ fragment
    | none =>
      tAbs callSite [c!"leptos", c!"children", c!"ToChildren", c!"to_children"] ++
        [tParen callSite ([tId childSpan c!"move"] ++ tOrOr childSpan ++ fragment)]
  tCall callSite (mkIdent c!"children" childSpan) [tBrace callSite (clones ++ wrapped)]

/-- `directive.value.clone().unwrap_or_else(Value::new_true)` -/
def valueOrTrue : Option (Value σ) → Value σ
  | some v => v
  | none => Value.newTrue

/-- src/expand/subroutines.rs:371-441 `directive_to_any_attr_path` -/
def directiveToAnyAttrPath (d : Directive σ) : Out σ (Option (Toks σ)) :=
  let html : List Str := [c!"leptos", c!"tachys", c!"html"]
  let c : σ := callSite
  if d.dir.id = ⟨false, c!"class"⟩ ∨ d.dir.id = ⟨false, c!"style"⟩ then do
    let v ← (valueOrTrue d.value).toToks
    pure (some (tAbs c html ++ tColons c ++ [.ident d.dir.id c] ++ tColons c ++
      [tIdent d.dir, tParen c [tParen c ([tStr c d.key.toUnspannedString, tP c ','] ++ v)]]))
  else if d.dir.id = ⟨false, c!"attr"⟩ then do
    let key ← d.key.toLitStr
    match AttributeKind.ofStr key.str with
    | .cls | .style => do
      let i ← d.key.toIdentOrEmit
      let v ← (valueOrTrue d.value).toToks
      pure (some (tAbs c html ++ tColons c ++ [tId c i.id.name] ++ tColons c ++
        [tIdent i, tParen c v]))
    | .custom => do
      let v ← (valueOrTrue d.value).toToks
      pure (some (tAbs c (html ++ [c!"attribute", c!"custom", c!"custom_attribute"]) ++
        [tParen c ([tStr c d.key.toUnspannedString, tP c ','] ++ v)]))
    | .otherChecked => do
      let i ← d.key.toIdentOrEmit
      let v ← (valueOrTrue d.value).toToks
      pure (some (tAbs c (html ++ [c!"attribute"]) ++ tColons c ++ [tIdent i, tParen c v]))
  else if d.dir.id = ⟨false, c!"prop"⟩ then do
    let i ← d.key.toIdentOrEmit
    let v ← (valueOrTrue d.value).toToks
    pure (some (tAbs c (html ++ [c!"property"]) ++ tColons c ++ [tIdent i, tParen c v]))
  else if d.dir.id = ⟨false, c!"on"⟩ then do
    let path ← eventListenerEventPath d
    let v ← optValueToks d.value
    pure (some (tAbs c (html ++ [c!"event", c!"on"]) ++ [tParen c (path ++ [tP c ','] ++ v)]))
  else if d.dir.id = ⟨false, c!"use"⟩ then do
    let (fn, v) ← useDirectiveFnValue d
    pure (some (tAbs c (html ++ [c!"directive"]) ++ tColons c ++ [tId d.dir.sp c!"directive",
      tParen c ([tIdent fn, tP c ','] ++ v)]))
  else pure none

omit [Spans σ] in
/-- src/expand/subroutines.rs:446 `component_spread_tokens` -/
def componentSpreadTokens (s : Spread σ) : Toks σ := s.expr

/-! ### src/expand.rs -/

/-- The three buffers of `xml_to_tokens` (src/expand.rs:102-106). -/
structure XmlBufs (σ : Type) where
  attrs : Toks σ
  spreadAttrs : Toks σ
  directives : Toks σ

/-- src/expand.rs:108-114: the loop over the attributes in `xml_to_tokens` -/
def xmlAttrsLoop (kind : TagKind) (b : XmlBufs σ) : List (Attr σ) → Out σ (XmlBufs σ)
  | [] => pure b
  | .kv a :: as => do
    let t ← xmlKvAttributeTokens a kind
    xmlAttrsLoop kind { b with attrs := b.attrs ++ t } as
  | .directive d :: as => do
    let t ← xmlDirectiveTokens d
    xmlAttrsLoop kind { b with directives := b.directives ++ t } as
  | .spread e :: as =>
    xmlAttrsLoop kind { b with spreadAttrs := b.spreadAttrs ++ xmlSpreadTokens e } as

/-- src/expand.rs:86-96: the `tag_path` of `xml_to_tokens` -/
def xmlTagPath : Tag σ → Option (Out σ (Toks σ))
  | .component _ => none
  | .html i => some (pure (tAbs callSite [c!"leptos", c!"tachys", c!"html", c!"element"] ++
      tColons callSite ++ [tIdent i, tParen callSite []]))
  | .svg i => some (pure (tAbs callSite [c!"leptos", c!"tachys", c!"svg", c!"element"] ++
      tColons callSite ++ [tIdent i, tParen callSite []]))
  | .math i => some (pure (tAbs callSite [c!"leptos", c!"tachys", c!"math", c!"element"] ++
      tColons callSite ++ [tIdent i, tParen callSite []]))
  | .webComponent k => some do
      k.checkSpan
      pure (tAbs callSite [c!"leptos", c!"tachys", c!"html", c!"element"] ++ tColons callSite ++
        [tId k.span c!"custom", tParen callSite [tStr k.span k.repr]])

omit [Spans σ] in
/-- Expand the children, if there is a children block. -/
def optOut {α : Type} : Option (Out σ α) → Out σ (Option α)
  | none => pure none
  | some x => do
    let a ← x
    pure (some a)

/-- src/expand.rs:85-128 `xml_to_tokens` -/
def xmlToTokens (tag : Tag σ) (selectors : List (Selector σ)) (attrs : List (Attr σ))
    (nodes : Option (Out σ (List (Node σ)))) : Option (Out σ (Toks σ)) :=
  match xmlTagPath tag with
  | none => none
  | some tagPath => some do
    let tagPath ← tagPath
    let b ← xmlAttrsLoop tag.kind ⟨[], [], []⟩ attrs
    let children ← optOut nodes
    pure (tagPath ++ b.attrs ++ b.directives ++ xmlSelectorsTokens selectors ++ b.spreadAttrs ++
      (match children with
        | none => []
        | some cs => xmlChildMethodsTokens cs))

omit [Spans σ] in
/-- `.expect(..)` on an `Option` computed with effects -/
def expectSome {α : Type} (site : PanicSite) : Option α → Out σ α
  | some a => pure a
  | none => .panic site

/-- src/expand.rs:189-208: the loop over the selectors of a component; an id comes with the span
of its `#` -/
def selectorsToPaths (ids : List (σ × KebabIdent σ)) (paths : List (Toks σ)) :
    List (Selector σ) → Out σ (List (σ × KebabIdent σ) × List (Toks σ))
  | [] => pure (ids, paths)
  | .id s k :: ss => selectorsToPaths (ids ++ [(s, k)]) paths ss
  | .cls s k :: ss => do
    let r ← directiveToAnyAttrPath ⟨mkIdent c!"class" s, .kebab k, none, none⟩
    let p ← expectSome .directiveKnown r
    selectorsToPaths ids (paths ++ [p]) ss

/-- src/expand.rs:177-227: the selectors of a component or slot, as directive paths -/
def componentSelectors (isSlot : Bool) (selectors : List (Selector σ)) : Out σ (List (Toks σ)) :=
  if isSlot then
    match selectors with
    | s :: _ => do
      emit .selectorOnSlot s.pfx
      pure []
    | [] => pure []
  else do
    let (ids, paths) ← selectorsToPaths [] [] selectors
    match ids with
    | [] => pure paths
    | (s, k) :: rest => do
      let r ← directiveToAnyAttrPath ⟨mkIdent c!"attr" callSite, .kebab ⟨c!"id", [s]⟩, none,
        some (.lit ⟨.tok (.str (joinSpace (((s, k) :: rest).map (·.2.repr)))), callSite⟩)⟩
      let p ← expectSome .directiveKnown r
      pure (paths ++ [p])

/-- The buffers of `component_to_tokens` (src/expand.rs:170-174). -/
structure CompBufs (σ : Type) where
  attrs : Toks σ
  directivePaths : List (Toks σ)
  clones : Toks σ

/-- src/expand.rs:229-256: the loop over the attributes in `component_to_tokens` -/
def componentAttrsLoop (isSlot : Bool) (b : CompBufs σ) : List (Attr σ) → Out σ (CompBufs σ)
  | [] => pure b
  | .kv a :: as => do
    let t ← componentKvAttributeTokens a
    componentAttrsLoop isSlot { b with attrs := b.attrs ++ t } as
  | .spread e :: as =>
    if isSlot then do
      emit .spreadOnSlot e.braces.whole
      componentAttrsLoop isSlot b as
    else
      componentAttrsLoop isSlot
        { b with directivePaths := b.directivePaths ++ [componentSpreadTokens e] } as
  | .directive d :: as =>
    if d.dir.id = ⟨false, c!"clone"⟩ then do
      emitIfModifier d.modifier
      let t ← componentCloneTokens d
      componentAttrsLoop isSlot { b with clones := b.clones ++ t } as
    else if isSlot then do
      emit (.directiveOnSlot d.dir.id) d.dir.sp
      componentAttrsLoop isSlot b as
    else do
      let r ← directiveToAnyAttrPath d
      match r with
      | some p =>
        componentAttrsLoop isSlot { b with directivePaths := b.directivePaths ++ [p] } as
      | none => do
        emit (.unknownDirective d.dir.id) d.dir.sp
        componentAttrsLoop isSlot b as

omit [Spans σ] in
/-- `.build()` (src/expand.rs:275) -/
def tBuild (sp : σ) : Toks σ := tCall sp (mkIdent c!"build" sp) []

/-- src/expand.rs:161-313 `component_to_tokens::<IS_SLOT>` -/
def componentToTokens (isSlot : Bool) (tag : Tag σ) (selectors : List (Selector σ))
    (attrs : List (Attr σ)) (args : Option (Toks σ)) (nodes : Option (Out σ (List (Node σ))))
    (slots : Option (Out σ (Toks σ))) : Option (Out σ (Toks σ)) :=
  let c : σ := callSite
  match tag with
  | .component path => some do
    let path ← turbofishify path
    let paths ← componentSelectors isSlot selectors
    let b ← componentAttrsLoop isSlot ⟨[], paths, []⟩ attrs
    let children ← optOut nodes
    let childrenToks := match children with
      | some (n :: ns) => componentChildrenTokens n.sp (n :: ns) args b.clones
      | _ => []
    let slotChildren ← optOut slots
    let slotToks := match slotChildren with
      | some t => t
      | none => []
    if isSlot then
      pure (tAbs c [c!"std", c!"convert", c!"Into", c!"into"] ++
        [tParen c (path.toToks ++ tColons c ++ [tId c c!"builder", tParen c []] ++ b.attrs ++
          childrenToks ++ tBuild path.span)])
    else
      pure ([tP c '#', tBracket c [tId c c!"allow", tParen c [tId c c!"unreachable_code"]]] ++
        tAbs c [c!"leptos", c!"prelude", c!"View", c!"new"] ++
        [tParen c (tAbs c [c!"leptos", c!"component", c!"component_view"] ++
          [tParen c ([tP c '&'] ++ path.toToks ++ [tP c ','] ++
            tAbs path.span [c!"leptos", c!"component", c!"component_props_builder"] ++
            [tParen path.span ([tP path.span '&'] ++ path.toToks)] ++ b.attrs ++ childrenToks ++
            slotToks ++ tBuild path.span)] ++
          tCall c (mkIdent c!"add_any_attr" c) [tParen c (tTerminated c b.directivePaths)])])
  | _ => none

/-! ### slots: src/expand.rs:339-387 -/

omit [Spans σ] in
/-- `slot_children.entry(name).or_default().push(t)`; names are compared without their spans, and
the one inserted first stays -/
def pushSlot (name : SIdent σ) (t : Toks σ) :
    List (SIdent σ × List (Toks σ)) → List (SIdent σ × List (Toks σ))
  | [] => [(name, [t])]
  | (n, ts) :: es =>
    if n.id = name.id then (n, ts ++ [t]) :: es else (n, ts) :: pushSlot name t es

omit [Spans σ] in
/-- the `HashMap` of src/expand.rs:344-362 -/
def groupSlots : List (SIdent σ × Toks σ) → List (SIdent σ × List (Toks σ)) →
    List (SIdent σ × List (Toks σ))
  | [], m => m
  | (n, t) :: ss, m => groupSlots ss (pushSlot n t m)

/-- src/expand.rs:367-385: one entry of the map -/
def slotMethod (e : SIdent σ × List (Toks σ)) : Out σ (Toks σ) := do
  let c : σ := callSite
  let method ← newRaw (upperCamelToSnake e.1.id.name) e.1.sp
  match e.2 with
  | [t] => pure (tCall c method t)
  | ts =>
    pure (tCall c method
      ([tP c '<', tBracket c [tId c c!"_"], tP c '>'] ++ tColons c ++ [tId c c!"into_vec",
        tParen c (tAbs c [c!"std", c!"boxed", c!"Box", c!"new"] ++
          [tParen c [tBracket c (tSeparated c ts)]])]))

/-- src/expand.rs:365-386: all entries, in iteration order -/
def slotMethods : List (SIdent σ × List (Toks σ)) → Out σ (Toks σ)
  | [] => pure []
  | e :: es => do
    let t ← slotMethod e
    let ts ← slotMethods es
    pure (t ++ ts)

/-- src/expand.rs:339-387 `slots_to_tokens` -/
def slotsToTokens (order : List Nat) (slots : Out σ (List (SIdent σ × Toks σ))) : Out σ (Toks σ) := do
  let ss ← slots
  slotMethods (permute order (groupSlots ss []))

/-! ### the recursion over the tree -/

/-- src/ast/children.rs:32-34 `NodeChild::to_tokens` -/
def intoRender (t : Toks σ) : Toks σ :=
  tAbs callSite [c!"leptos", c!"prelude", c!"IntoRender", c!"into_render"] ++ [tParen callSite t]

mutual
/-- src/expand.rs:356-357 (`asSlot`) and src/ast/element.rs:109-115 `Element::to_tokens` -/
def expandElement (asSlot : Bool) (s : Sched) : Element σ → Out σ (Toks σ)
  | .mk tag selectors attrs args none =>
    match (if asSlot then componentToTokens true tag selectors attrs args none none
      else match xmlToTokens tag selectors attrs none with
        | some o => some o
        | none => componentToTokens false tag selectors attrs args none none) with
    | some o => o
    | none => .panic (if asSlot then .slotChecked else .elementNotComponent)
  | .mk tag selectors attrs args (some children) =>
    let nodes := expandNodes s.l children
    let slots := slotsToTokens s.here (expandSlots s.r children)
    match (if asSlot then componentToTokens true tag selectors attrs args (some nodes) (some slots)
      else match xmlToTokens tag selectors attrs (some nodes) with
        | some o => some o
        | none => componentToTokens false tag selectors attrs args (some nodes) (some slots)) with
    | some o => o
    | none => .panic (if asSlot then .slotChecked else .elementNotComponent)

/-- the node children (`element_children`), each with its span (src/ast/children.rs:39-44) -/
def expandNodes (s : Sched) : List (Child σ) → Out σ (List (Node σ))
  | [] => pure []
  | .value v :: cs => do
    let t ← v.toToks
    let ts ← expandNodes s.r cs
    pure (⟨v.span, intoRender t⟩ :: ts)
  | .elem e :: cs => do
    let t ← expandElement false s.l e
    let ts ← expandNodes s.r cs
    pure (⟨e.tag.span, intoRender t⟩ :: ts)
  | .slot _ _ :: cs => expandNodes s.r cs

/-- the slot children (`slot_children`): each slot's name and expansion -/
def expandSlots (s : Sched) : List (Child σ) → Out σ (List (SIdent σ × Toks σ))
  | [] => pure []
  | .value _ :: cs => expandSlots s.r cs
  | .elem _ :: cs => expandSlots s.r cs
  | .slot _ e :: cs =>
    match e.tag with
    | .component path =>
      match path.getIdent with
      | some name => do
        let t ← expandElement true s.l e
        let ts ← expandSlots s.r cs
        pure ((name, t) :: ts)
      | none => do
        emit .slotNameIsPath path.span
        expandSlots s.r cs
    | _ => .panic .slotNotComponent
end

/-! ### src/lib.rs -/

/-- `{ #[allow(unused_braces)] .. }` -/
def rootBlock (inner : Toks σ) : Toks σ :=
  let c : σ := callSite
  [tBrace c ([tP c '#', tBracket c [tId c c!"allow", tParen c [tId c c!"unused_braces"]]] ++ inner)]

omit [Spans σ] in
/-- the first slot among the children (src/lib.rs:50) -/
def firstSlot : List (Child σ) → Option (Element σ)
  | [] => none
  | .slot _ e :: _ => some e
  | _ :: cs => firstSlot cs

/-- src/lib.rs:34-64: expand the parsed children -/
def expandRoot (s : Sched) (children : List (Child σ)) : Out σ (Toks σ) :=
  match children with
  | [.slot kw _] => abortWith .slotAtTopLevel kw
  | [c] => do
    let ns ← expandNodes s [c]
    pure (rootBlock (ns.map Node.toks).flatten)
  | cs =>
    match firstSlot cs with
    | some e => abortWith .slotAtTopLevel e.tag.span
    | none => do
      let ns ← expandNodes s cs
      pure (rootBlock (childrenFragmentTokens ns callSite))

variable {pp : Mview.PathParser}

/-- src/lib.rs:24-65 `mview_impl` -/
def mviewImpl (lp : PathParser σ pp) (s : Sched) (ts : Toks σ) : Out σ (Toks σ) := do
  let r ← parseChildren lp ts
  match r with
  | .ok children _ => expandRoot s children
  | .err _ _ => pure []

/-- What the compiler sees of one macro invocation, with spans. -/
inductive MacroResult (σ : Type) where
  /-- the expansion -/
  | tokens (ts : Toks σ)
  /-- one `compile_error!` per diagnostic at its span, followed by the dummy expansion -/
  | errors (ds : List (LDiag σ)) (dummy : Toks σ)
  /-- "proc macro panicked" -/
  | panicked (p : PanicSite)
  /-- does not terminate -/
  | hangs

/-- leptos-mview-macro/src/lib.rs:4-9 `mview` -/
def mview (lp : PathParser σ pp) (s : Sched) (ts : Toks σ) : MacroResult σ :=
  match mviewImpl lp s ts with
  | .ret [] out => .tokens out
  | .ret ds _ => .errors ds [tParen callSite []]
  | .abort ds => .errors ds [tParen callSite []]
  | .panic p => .panicked p
  | .diverge => .hangs

end Mview.Loc
