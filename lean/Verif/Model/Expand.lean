import Verif.Model.Parse
/-
The expansion functions of leptos-mview-core/src/expand and the `ToTokens`
implementations of leptos-mview-core/src/ast.

`quote!` templates are ported token by token.  Evaluation order matters for the
diagnostics and is kept: `quote!` interpolates left to right, iterators are
consumed where the template mentions them.
-/

namespace Mview

/-! ### tokens `quote!` writes -/

/-- an identifier written in a template -/
def tId (name : Str) : TT := .ident ⟨false, name⟩
/-- one-character punctuation written in a template -/
def tP (c : Char) : TT := .punct c .alone
/-- `::` -/
def tColon2 : Toks := [.punct ':' .joint, .punct ':' .alone]
/-- `||` -/
def tOrOr : Toks := [.punct '|' .joint, .punct '|' .alone]
/-- a string literal from a Rust `&str` or `LitStr` -/
def tStr (s : Str) : TT := .lit (.str s)
/-- `( .. )` -/
def tParen (ts : Toks) : TT := .group .paren ts
/-- `{ .. }` -/
def tBrace (ts : Toks) : TT := .group .brace ts
/-- `[ .. ]` -/
def tBracket (ts : Toks) : TT := .group .bracket ts
/-- `::a::b::c` -/
def tAbs (segs : List Str) : Toks := segs.flatMap fun s => tColon2 ++ [tId s]
/-- `.method(args)` -/
def tCall (method : Ident) (args : Toks) : Toks := [tP '.', .ident method, tParen args]
/-- `#( #xs, )*` -/
def tTerminated (xs : List Toks) : Toks := xs.flatMap fun x => x ++ [tP ',']
/-- `#( #xs ),*` -/
def tSeparated : List Toks → Toks
  | [] => []
  | [x] => x
  | x :: xs => x ++ [tP ','] ++ tSeparated xs

/-! ### src/span.rs, src/ast/ident.rs -/

/-- src/span.rs:18-23 `color_all`: one `let __x = ();` per span -/
def colorAll (n : Nat) : Toks :=
  (List.replicate n [tId c!"let", tId c!"__x", tP '=', tParen [], tP ';']).flatten

/-- src/ast/ident.rs:83-89 `KebabIdent::to_str_colored` -/
def KebabIdent.toStrColored (k : KebabIdent) : Toks :=
  [tBrace (colorAll k.spans ++ [tStr k.repr])]

/-! ### src/ast/value.rs -/

/-- `syn::Lit::to_tokens` -/
def SynLit.toToks : SynLit → Toks
  | .tok l => [.lit l]
  | .bool true => [tId c!"true"]
  | .bool false => [tId c!"false"]

/-- src/ast/value.rs:74-108 `Value::to_tokens` -/
def Value.toToks : Value → Out Toks
  | .lit l => pure l.toToks
  | .block tokens => pure [tBrace tokens]
  | .bracket (some pfx) tokens =>
    if pfx = ⟨false, c!"f"⟩ then
      pure ([tId c!"move"] ++ tOrOr ++ tAbs [c!"std"] ++ tColon2 ++
        [tId c!"format", tP '!', tParen tokens])
    else do
      emit (.unsupportedPrefix pfx)
      pure []
  | .bracket none tokens => pure ([tId c!"move"] ++ tOrOr ++ [tBrace tokens])

/-- `#value` where `value : Option<Value>`: nothing if `None`. -/
def optValueToks : Option Value → Out Toks
  | none => pure []
  | some v => v.toToks

/-! ### src/expand/utils.rs -/

/-- `char::to_ascii_lowercase` -/
def asciiLower (c : Char) : Char := if isAsciiUpper c then Char.ofNat (c.toNat + 32) else c

/-- src/expand/utils.rs:8-20 `upper_camel_to_snake_case`: the loop, `new` the text
built so far -/
def snakeLoop (new : Str) : Str → Str
  | [] => new
  | c :: cs =>
    let new := if isAsciiUpper c && !new.isEmpty then new ++ ['_'] else new
    snakeLoop (new ++ [asciiLower c]) cs

/-- src/expand/utils.rs:8-20 `upper_camel_to_snake_case` -/
def upperCamelToSnake (ident : Str) : Str := snakeLoop [] ident

/-- src/expand/utils.rs:22-29 `emit_error_if_modifier` -/
def emitIfModifier : Option Ident → Out Unit
  | some m => emit (.modifierNotAllowed m)
  | none => pure ()

/-- src/expand/utils.rs:36-45: one segment of `turbofishify` -/
def turbofishSeg (s : PathSeg) : Out PathSeg :=
  match s.args with
  | .none => pure s
  | .angle _ inner => pure ⟨s.ident, .angle true inner⟩
  | .paren _ => abortWith .functionGenerics

/-- src/expand/utils.rs:33-47: the loop of `turbofishify` -/
def turbofishSegs : List PathSeg → Out (List PathSeg)
  | [] => pure []
  | s :: ss => do
    let s' ← turbofishSeg s
    let ss' ← turbofishSegs ss
    pure (s' :: ss')

/-- src/expand/utils.rs:33-47 `turbofishify` -/
def turbofishify (p : Path) : Out Path := do
  let segs ← turbofishSegs p.segs
  pure ⟨p.leading, segs⟩

/-- `syn::PathArguments::to_tokens` (the parenthesized form is never printed, see
`turbofishify`; its inputs and output are not modelled separately) -/
def PathArgs.toToks : PathArgs → Toks
  | .none => []
  | .angle true inner => tColon2 ++ [tP '<'] ++ inner ++ [tP '>']
  | .angle false inner => [tP '<'] ++ inner ++ [tP '>']
  | .paren inner => [tParen inner]

/-- `syn::PathSegment::to_tokens` -/
def PathSeg.toToks (s : PathSeg) : Toks := .ident s.ident :: s.args.toToks

/-- the segments of a path, separated by `::` -/
def segsToks : List PathSeg → Toks
  | [] => []
  | [s] => s.toToks
  | s :: ss => s.toToks ++ tColon2 ++ segsToks ss

/-- `syn::Path::to_tokens` -/
def Path.toToks (p : Path) : Toks := (if p.leading then tColon2 else []) ++ segsToks p.segs

/-! ### src/expand/subroutines.rs: shared -/

/-- src/expand/subroutines.rs:31-47 `use_directive_fn_value` -/
def useDirectiveFnValue (u : Directive) : Out (Ident × Toks) := do
  if u.dir ≠ ⟨false, c!"use"⟩ then .panic .assertUse
  let fn ← u.key.toIdentOrEmit
  emitIfModifier u.modifier
  match u.value with
  | none => pure (fn, [tParen [], tP '.', tId c!"into", tParen []])
  | some v => do
    let t ← v.toToks
    pure (fn, tAbs [c!"std", c!"convert", c!"Into", c!"into"] ++ [tParen t])

/-- `::leptos::tachys::html::event` -/
def eventMod : Toks := tAbs [c!"leptos", c!"tachys", c!"html", c!"event"]

/-- src/expand/subroutines.rs:49-83 `event_listener_event_path` -/
def eventListenerEventPath (d : Directive) : Out Toks := do
  if d.dir ≠ ⟨false, c!"on"⟩ then .panic .assertOn
  let ev ← match d.key with
    | .kebab k => k.toSnakeIdent
    | .str s => do
      emit (.eventNotIdent s)
      pure ⟨false, c!"invalid_event"⟩
  let path := eventMod ++ tColon2 ++ [.ident ev]
  match d.modifier with
  | some m =>
    if m = ⟨false, c!"undelegated"⟩ then
      pure (eventMod ++ tColon2 ++ [.ident m, tParen path])
    else do
      emit (.unknownModifier m)
      pure path
  | none => pure path

/-- src/expand/subroutines.rs:85-97 `AttributeKind` -/
inductive AttributeKind where
  | cls | style | custom | otherChecked
  deriving DecidableEq, Repr

/-- src/expand/subroutines.rs:105-117 `AttributeKind::from(&str)` -/
def AttributeKind.ofStr (value : Str) : AttributeKind :=
  if value = c!"class" then .cls
  else if value = c!"style" then .style
  else if value.contains '-' && !(c!"aria-".isPrefixOf value) then .custom
  else .otherChecked

/-- src/expand/subroutines.rs:100 `AttributeKind::is_custom` -/
def AttributeKind.isCustom (k : AttributeKind) : Bool := k = .custom

/-- src/expand/subroutines.rs:102 `AttributeKind::is_class_or_style` -/
def AttributeKind.isClassOrStyle (k : AttributeKind) : Bool := k = .cls || k = .style

/-! ### src/expand/subroutines.rs: html/xml only -/

/-- src/ast/attribute/selector.rs:36-41 `SelectorShorthand::ident` -/
def Selector.ident : Selector → KebabIdent
  | .id k => k
  | .cls k => k

/-- the `matches!` of src/expand/subroutines.rs:128 -/
def Selector.isClass : Selector → Bool
  | .cls _ => true
  | .id _ => false

/-- src/expand/subroutines.rs:125-143 `xml_selectors_tokens` -/
def xmlSelectorsTokens (selectors : List Selector) : Toks :=
  let (classes, ids) := selectors.partition Selector.isClass
  classes.flatMap (fun c =>
      tCall ⟨false, c!"class"⟩ [tParen (c.ident.toStrColored ++ [tP ',', tId c!"true"])]) ++
    ids.flatMap (fun i => tCall ⟨false, c!"id"⟩ i.ident.toStrColored)

/-- src/expand/subroutines.rs:145-173 `xml_kv_attribute_tokens` -/
def xmlKvAttributeTokens (attr : KvAttr) (elementTag : TagKind) : Out Toks :=
  if attr.key.repr = c!"ref" then do
    attr.key.checkSpan
    let v ← attr.value.toToks
    pure (tCall ⟨false, c!"node_ref"⟩ v)
  else
    let attrKind := AttributeKind.ofStr attr.key.repr
    let isWebOrSvg : Bool := elementTag = .svg || elementTag = .webComponent
    if (isWebOrSvg || attrKind.isCustom) && !attrKind.isClassOrStyle then do
      let v ← attr.value.toToks
      pure (tCall ⟨false, c!"attr"⟩
        ([tStr attr.key.repr, tP ','] ++
          tAbs [c!"leptos", c!"prelude", c!"IntoAttributeValue", c!"into_attribute_value"] ++
          [tParen v]))
    else do
      let key ← attr.key.toSnakeIdent
      let v ← attr.value.toToks
      pure (tCall key v)

/-- src/expand/subroutines.rs:175-214 `xml_directive_tokens` -/
def xmlDirectiveTokens (d : Directive) : Out Toks :=
  if d.dir = ⟨false, c!"class"⟩ ∨ d.dir = ⟨false, c!"style"⟩ then do
    let key ← d.key.toLitStr
    emitIfModifier d.modifier
    let v ← optValueToks d.value
    pure (tCall d.dir [tParen ([tStr key, tP ','] ++ v)])
  else if d.dir = ⟨false, c!"prop"⟩ then do
    let key ← d.key.toLitStr
    emitIfModifier d.modifier
    let v ← optValueToks d.value
    pure (tCall d.dir ([tStr key, tP ','] ++ v))
  else if d.dir = ⟨false, c!"on"⟩ then do
    let path ← eventListenerEventPath d
    let v ← optValueToks d.value
    pure (tCall d.dir (path ++ [tP ','] ++ v))
  else if d.dir = ⟨false, c!"use"⟩ then do
    let (fn, v) ← useDirectiveFnValue d
    pure (tCall ⟨false, c!"directive"⟩ ([.ident fn, tP ','] ++ v))
  else if d.dir = ⟨false, c!"attr"⟩ ∨ d.dir = ⟨false, c!"clone"⟩ then do
    emit (.directiveOnElement d.dir)
    pure []
  else do
    emit (.unknownDirective d.dir)
    pure []

/-- src/expand/subroutines.rs:216-222 `xml_spread_tokens` -/
def xmlSpreadTokens (expr : Toks) : Toks := tCall ⟨false, c!"add_any_attr"⟩ expr

/-- src/expand/subroutines.rs:234-245 `xml_child_methods_tokens`; `children` are the
node children's expansions -/
def xmlChildMethodsTokens (children : List Toks) : Toks :=
  children.flatMap fun c => tCall ⟨false, c!"child"⟩ c

/-! ### src/expand/subroutines.rs: component only -/

/-- src/expand/subroutines.rs:251-254 `component_kv_attribute_tokens` -/
def componentKvAttributeTokens (attr : KvAttr) : Out Toks := do
  let key ← attr.key.toSnakeIdent
  let v ← attr.value.toToks
  pure (tCall key v)

/-- src/expand/subroutines.rs:257-265 `component_clone_tokens` -/
def componentCloneTokens (d : Directive) : Out Toks := do
  let toClone ← d.key.toIdentOrEmit
  emitIfModifier d.modifier
  if d.value.isSome then emit .cloneValue
  pure [tId c!"let", .ident toClone, tP '=', .ident toClone, tP '.', tId c!"clone", tParen [],
    tP ';']

/-- src/expand.rs:46-55 `children_fragment_tokens`; `children` are the node
children's expansions -/
def childrenFragmentTokens (children : List Toks) : Toks :=
  tAbs [c!"leptos", c!"prelude", c!"View", c!"new"] ++ [tParen [tParen (tTerminated children)]]

/-- src/expand/subroutines.rs:302-341 `component_children_tokens` -/
def componentChildrenTokens (children : List Toks) (args : Option Toks) (clones : Toks) : Toks :=
  let fragment := childrenFragmentTokens children
  let wrapped := match args with
    | some args => [tId c!"move"] ++ args ++ fragment
    | none =>
      tAbs [c!"leptos", c!"children", c!"ToChildren", c!"to_children"] ++
        [tParen ([tId c!"move"] ++ tOrOr ++ fragment)]
  tCall ⟨false, c!"children"⟩ [tBrace (clones ++ wrapped)]

/-- `directive.value.clone().unwrap_or_else(Value::new_true)` -/
def valueOrTrue : Option Value → Value
  | some v => v
  | none => Value.newTrue

/-- src/expand/subroutines.rs:371-441 `directive_to_any_attr_path` -/
def directiveToAnyAttrPath (d : Directive) : Out (Option Toks) :=
  let html : List Str := [c!"leptos", c!"tachys", c!"html"]
  if d.dir = ⟨false, c!"class"⟩ ∨ d.dir = ⟨false, c!"style"⟩ then do
    let v ← (valueOrTrue d.value).toToks
    pure (some (tAbs html ++ tColon2 ++ [.ident d.dir] ++ tColon2 ++
      [.ident d.dir, tParen [tParen ([tStr d.key.toUnspannedString, tP ','] ++ v)]]))
  else if d.dir = ⟨false, c!"attr"⟩ then do
    let key ← d.key.toLitStr
    match AttributeKind.ofStr key with
    | .cls | .style => do
      let i ← d.key.toIdentOrEmit
      let v ← (valueOrTrue d.value).toToks
      pure (some (tAbs html ++ tColon2 ++ [tId i.name] ++ tColon2 ++ [.ident i, tParen v]))
    | .custom => do
      let v ← (valueOrTrue d.value).toToks
      pure (some (tAbs (html ++ [c!"attribute", c!"custom", c!"custom_attribute"]) ++
        [tParen ([tStr d.key.toUnspannedString, tP ','] ++ v)]))
    | .otherChecked => do
      let i ← d.key.toIdentOrEmit
      let v ← (valueOrTrue d.value).toToks
      pure (some (tAbs (html ++ [c!"attribute"]) ++ tColon2 ++ [.ident i, tParen v]))
  else if d.dir = ⟨false, c!"prop"⟩ then do
    let i ← d.key.toIdentOrEmit
    let v ← (valueOrTrue d.value).toToks
    pure (some (tAbs (html ++ [c!"property"]) ++ tColon2 ++ [.ident i, tParen v]))
  else if d.dir = ⟨false, c!"on"⟩ then do
    let path ← eventListenerEventPath d
    let v ← optValueToks d.value
    pure (some (tAbs (html ++ [c!"event", c!"on"]) ++ [tParen (path ++ [tP ','] ++ v)]))
  else if d.dir = ⟨false, c!"use"⟩ then do
    let (fn, v) ← useDirectiveFnValue d
    pure (some (tAbs (html ++ [c!"directive", c!"directive"]) ++
      [tParen ([.ident fn, tP ','] ++ v)]))
  else pure none

/-- src/expand/subroutines.rs:446 `component_spread_tokens` -/
def componentSpreadTokens (expr : Toks) : Toks := expr

/-! ### src/expand.rs -/

/-- The three buffers of `xml_to_tokens` (src/expand.rs:102-106). -/
structure XmlBufs where
  attrs : Toks
  spreadAttrs : Toks
  directives : Toks

/-- src/expand.rs:108-114: the loop over the attributes in `xml_to_tokens` -/
def xmlAttrsLoop (kind : TagKind) (b : XmlBufs) : List Attr → Out XmlBufs
  | [] => pure b
  | .kv a :: as => do
    let t ← xmlKvAttributeTokens a kind
    xmlAttrsLoop kind { b with attrs := b.attrs ++ t } as
  | .directive d :: as => do
    let t ← xmlDirectiveTokens d
    xmlAttrsLoop kind { b with directives := b.directives ++ t } as
  | .spread e :: as =>
    xmlAttrsLoop kind { b with spreadAttrs := b.spreadAttrs ++ xmlSpreadTokens e } as

/-- src/expand.rs:86-96: the `tag_path` of `xml_to_tokens`; `none` for components -/
def xmlTagPath : Tag → Option (Out Toks)
  | .component _ => none
  | .html i => some (pure (tAbs [c!"leptos", c!"tachys", c!"html", c!"element"] ++ tColon2 ++
      [.ident i, tParen []]))
  | .svg i => some (pure (tAbs [c!"leptos", c!"tachys", c!"svg", c!"element"] ++ tColon2 ++
      [.ident i, tParen []]))
  | .math i => some (pure (tAbs [c!"leptos", c!"tachys", c!"math", c!"element"] ++ tColon2 ++
      [.ident i, tParen []]))
  | .webComponent k => some do
      k.checkSpan
      pure (tAbs [c!"leptos", c!"tachys", c!"html", c!"element", c!"custom"] ++
        [tParen [tStr k.repr]])

/-- Expand the children, if there is a children block. -/
def optOut {α : Type} : Option (Out α) → Out (Option α)
  | none => pure none
  | some x => do
    let a ← x
    pure (some a)

/-- src/expand.rs:85-128 `xml_to_tokens`; `nodes` expands the non-slot children of
the children block, if there is one -/
def xmlToTokens (tag : Tag) (selectors : List Selector) (attrs : List Attr)
    (nodes : Option (Out (List Toks))) : Option (Out Toks) :=
  match xmlTagPath tag with
  | none => none
  | some tagPath => some do
    let tagPath ← tagPath
    let b ← xmlAttrsLoop tag.kind ⟨[], [], []⟩ attrs
    let children ← optOut nodes
    pure (tagPath ++ b.attrs ++ b.directives ++ xmlSelectorsTokens selectors ++ b.spreadAttrs ++
      (match children with
        | none => []
        | some cs => xmlChildMethodsTokens cs))

/-- `.join(" ")` -/
def joinSpace : List Str → Str
  | [] => []
  | [s] => s
  | s :: ss => s ++ [' '] ++ joinSpace ss

/-- `.expect(..)` on an `Option` computed with effects -/
def expectSome {α : Type} (site : PanicSite) : Option α → Out α
  | some a => pure a
  | none => .panic site

/-- src/expand.rs:189-208: the loop over the selectors of a component; `ids` the
ids and `paths` the directive paths collected so far -/
def selectorsToPaths (ids : List KebabIdent) (paths : List Toks) :
    List Selector → Out (List KebabIdent × List Toks)
  | [] => pure (ids, paths)
  | .id k :: ss => selectorsToPaths (ids ++ [k]) paths ss
  | .cls k :: ss => do
    let r ← directiveToAnyAttrPath ⟨⟨false, c!"class"⟩, .kebab k, none, none⟩
    let p ← expectSome .directiveKnown r
    selectorsToPaths ids (paths ++ [p]) ss

/-- src/expand.rs:177-227: the selectors of a component or slot, as directive
paths -/
def componentSelectors (isSlot : Bool) (selectors : List Selector) : Out (List Toks) :=
  if isSlot then
    match selectors with
    | _ :: _ => do
      emit .selectorOnSlot
      pure []
    | [] => pure []
  else do
    let (ids, paths) ← selectorsToPaths [] [] selectors
    match ids with
    | [] => pure paths
    | _ :: _ => do
      let r ← directiveToAnyAttrPath ⟨⟨false, c!"attr"⟩, .kebab ⟨c!"id", 1⟩, none,
        some (.lit (.tok (.str (joinSpace (ids.map (·.repr))))))⟩
      let p ← expectSome .directiveKnown r
      pure (paths ++ [p])

/-- The buffers of `component_to_tokens` (src/expand.rs:170-174). -/
structure CompBufs where
  attrs : Toks
  directivePaths : List Toks
  clones : Toks

/-- src/expand.rs:229-256: the loop over the attributes in `component_to_tokens` -/
def componentAttrsLoop (isSlot : Bool) (b : CompBufs) : List Attr → Out CompBufs
  | [] => pure b
  | .kv a :: as => do
    let t ← componentKvAttributeTokens a
    componentAttrsLoop isSlot { b with attrs := b.attrs ++ t } as
  | .spread e :: as =>
    if isSlot then do
      emit .spreadOnSlot
      componentAttrsLoop isSlot b as
    else
      componentAttrsLoop isSlot
        { b with directivePaths := b.directivePaths ++ [componentSpreadTokens e] } as
  | .directive d :: as =>
    if d.dir = ⟨false, c!"clone"⟩ then do
      emitIfModifier d.modifier
      let t ← componentCloneTokens d
      componentAttrsLoop isSlot { b with clones := b.clones ++ t } as
    else if isSlot then do
      emit (.directiveOnSlot d.dir)
      componentAttrsLoop isSlot b as
    else do
      let r ← directiveToAnyAttrPath d
      match r with
      | some p =>
        componentAttrsLoop isSlot { b with directivePaths := b.directivePaths ++ [p] } as
      | none => do
        emit (.unknownDirective d.dir)
        componentAttrsLoop isSlot b as

/-- `.build()` -/
def tBuild : Toks := tCall ⟨false, c!"build"⟩ []

/-- src/expand.rs:161-313 `component_to_tokens::<IS_SLOT>`; `nodes` expands the
non-slot children and `slots` the slot children of the children block, if there is
one -/
def componentToTokens (isSlot : Bool) (tag : Tag) (selectors : List Selector)
    (attrs : List Attr) (args : Option Toks) (nodes : Option (Out (List Toks)))
    (slots : Option (Out Toks)) : Option (Out Toks) :=
  match tag with
  | .component path => some do
    let path ← turbofishify path
    let paths ← componentSelectors isSlot selectors
    let b ← componentAttrsLoop isSlot ⟨[], paths, []⟩ attrs
    let children ← optOut nodes
    let childrenToks := match children with
      | some (c :: cs) => componentChildrenTokens (c :: cs) args b.clones
      | _ => []
    let slotChildren ← optOut slots
    let slotToks := match slotChildren with
      | some t => t
      | none => []
    if isSlot then
      pure (tAbs [c!"std", c!"convert", c!"Into", c!"into"] ++
        [tParen (path.toToks ++ tColon2 ++ [tId c!"builder", tParen []] ++ b.attrs ++
          childrenToks ++ tBuild)])
    else
      pure ([tP '#', tBracket [tId c!"allow", tParen [tId c!"unreachable_code"]]] ++
        tAbs [c!"leptos", c!"prelude", c!"View", c!"new"] ++
        [tParen (tAbs [c!"leptos", c!"component", c!"component_view"] ++
          [tParen ([tP '&'] ++ path.toToks ++ [tP ','] ++
            tAbs [c!"leptos", c!"component", c!"component_props_builder"] ++
            [tParen ([tP '&'] ++ path.toToks)] ++ b.attrs ++ childrenToks ++ slotToks ++
            tBuild)] ++
          tCall ⟨false, c!"add_any_attr"⟩ [tParen (tTerminated b.directivePaths)])])
  | _ => none

/-! ### slots: src/expand.rs:339-387 -/

/-- A schedule for the iteration order of the `HashMap`s of one macro run: at each
place in the tree of elements, a list of numbers saying how the entries come out
(`permute`).  Rust promises nothing about that order, so theorems quantify over
all schedules. -/
def Sched : Type := List Bool → List Nat

/-- The order at this place. -/
def Sched.here (s : Sched) : List Nat := s []
/-- The schedule for the first part of the tree below. -/
def Sched.l (s : Sched) : Sched := fun p => s (false :: p)
/-- The schedule for the rest of the tree below. -/
def Sched.r (s : Sched) : Sched := fun p => s (true :: p)

/-- Insert `a` at position `n` (at the end if there are fewer elements). -/
def insertAt {α : Type} (a : α) : Nat → List α → List α
  | 0, xs => a :: xs
  | _ + 1, [] => [a]
  | n + 1, x :: xs => x :: insertAt a n xs

/-- A rearrangement of a list chosen by the numbers: every list of numbers gives a
permutation, and every permutation is given by some list of numbers
(`Props/Slots.lean`). -/
def permute {α : Type} : List Nat → List α → List α
  | _, [] => []
  | [], x :: xs => x :: xs
  | n :: ns, x :: xs => insertAt x n (permute ns xs)

/-- `slot_children.entry(name).or_default().push(t)` on the entries in order of
first insertion (src/expand.rs:358-361) -/
def pushSlot (name : Ident) (t : Toks) : List (Ident × List Toks) → List (Ident × List Toks)
  | [] => [(name, [t])]
  | (n, ts) :: es => if n = name then (n, ts ++ [t]) :: es else (n, ts) :: pushSlot name t es

/-- the `HashMap` of src/expand.rs:344-362 -/
def groupSlots : List (Ident × Toks) → List (Ident × List Toks) → List (Ident × List Toks)
  | [], m => m
  | (n, t) :: ss, m => groupSlots ss (pushSlot n t m)

/-- src/expand.rs:367-385: one entry of the map -/
def slotMethod (e : Ident × List Toks) : Out Toks := do
  let method ← newRaw (upperCamelToSnake e.1.name)
  match e.2 with
  | [t] => pure (tCall method t)
  | ts =>
    pure (tCall method
      ([tP '<', tBracket [tId c!"_"], tP '>'] ++ tColon2 ++ [tId c!"into_vec",
        tParen (tAbs [c!"std", c!"boxed", c!"Box", c!"new"] ++
          [tParen [tBracket (tSeparated ts)]])]))

/-- src/expand.rs:365-386: all entries, in iteration order -/
def slotMethods : List (Ident × List Toks) → Out Toks
  | [] => pure []
  | e :: es => do
    let t ← slotMethod e
    let ts ← slotMethods es
    pure (t ++ ts)

/-- src/expand.rs:339-387 `slots_to_tokens`, given the slots' names and
expansions -/
def slotsToTokens (order : List Nat) (slots : Out (List (Ident × Toks))) : Out Toks := do
  let ss ← slots
  slotMethods (permute order (groupSlots ss []))

/-! ### the recursion over the tree -/

/-- src/ast/children.rs:32-34 `NodeChild::to_tokens`, given the inner tokens -/
def intoRender (t : Toks) : Toks :=
  tAbs [c!"leptos", c!"prelude", c!"IntoRender", c!"into_render"] ++ [tParen t]

mutual
/-- With `asSlot`, `component_to_tokens::<true>(el).expect(..)` as called in
src/expand.rs:356-357; without, src/ast/element.rs:109-115 `Element::to_tokens`. -/
def expandElement (asSlot : Bool) (s : Sched) : Element → Out Toks
  | .mk tag selectors attrs args none =>
    match (if asSlot then componentToTokens true tag selectors attrs args none none
      else match xmlToTokens tag selectors attrs none with
        | some o => some o
        | none => componentToTokens false tag selectors attrs args none none) with
    | some o => o
    | none => .panic (if asSlot then .slotChecked else .elementNotComponent)
  | .mk tag selectors attrs args (some children) =>
    let nodes := expandNodes s.l children
    let slots := slotsToTokens s.here (expandSlots s.r children)
    match (if asSlot then componentToTokens true tag selectors attrs args (some nodes) (some slots)
      else match xmlToTokens tag selectors attrs (some nodes) with
        | some o => some o
        | none => componentToTokens false tag selectors attrs args (some nodes) (some slots)) with
    | some o => o
    | none => .panic (if asSlot then .slotChecked else .elementNotComponent)

/-- Expand the node children (`element_children`, src/ast/children.rs:135-140), in
order; src/ast/children.rs:26-36 `NodeChild::to_tokens` for each. -/
def expandNodes (s : Sched) : List Child → Out (List Toks)
  | [] => pure []
  | .value v :: cs => do
    let t ← v.toToks
    let ts ← expandNodes s.r cs
    pure (intoRender t :: ts)
  | .elem e :: cs => do
    let t ← expandElement false s.l e
    let ts ← expandNodes s.r cs
    pure (intoRender t :: ts)
  | .slot _ :: cs => expandNodes s.r cs

/-- Expand the slot children (`slot_children`, src/ast/children.rs:143-148), in
order: the loop of src/expand.rs:345-362, returning each slot's name and
expansion. -/
def expandSlots (s : Sched) : List Child → Out (List (Ident × Toks))
  | [] => pure []
  | .value _ :: cs => expandSlots s.r cs
  | .elem _ :: cs => expandSlots s.r cs
  | .slot e :: cs =>
    match e.tag with
    | .component path =>
      match path.getIdent with
      | some name => do
        let t ← expandElement true s.l e
        let ts ← expandSlots s.r cs
        pure ((name, t) :: ts)
      | none => do
        emit .slotNameIsPath
        expandSlots s.r cs
    | _ => .panic .slotNotComponent
end

end Mview
