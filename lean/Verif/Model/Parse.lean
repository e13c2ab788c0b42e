import Verif.Model.Ast
/-
The parsers of leptos-mview-core/src/ast.

Loops take a number of iterations they are allowed (`fuel`); running out is the
outcome `diverge`, which `Props/Termination.lean` shows never happens with the
budget the entry points give.
-/

namespace Mview

/-! ### src/ast/ident.rs -/

/-- src/ast/ident.rs:133-159: the loop of `KebabIdent::parse`. -/
def kebabLoop : Nat → Bool → KebabIdent → P KebabIdent
  | 0, _, _ => fun _ => .diverge
  | fuel + 1, isSecond, k => do
    let dash ← rollback (parsePunct '-')
    if dash.isSome || (isSecond && k.repr = c!"-") then
      let k := if dash.isSome then { k with repr := k.repr ++ c!"-" } else k
      let ident ← rollback parseIdentAny
      match ident with
      | some i =>
        if i.raw then emitP (.rawInKebab i)
        kebabLoop fuel false ⟨k.repr ++ i.name, k.spans + 1⟩
      | none =>
        let int ← rollback parseLitInt
        match int with
        | some s => kebabLoop fuel false ⟨k.repr ++ s, k.spans + 1⟩
        | none => kebabLoop fuel false k
    else pure k

/-- src/ast/ident.rs:109-164 `KebabIdent::parse` -/
def parseKebab : P KebabIdent := do
  let ident ← rollback parseIdentAny
  match ident with
  | some i =>
    let ts ← inp
    kebabLoop (ts.length + 2) true ⟨i.name, 1⟩
  | none =>
    let dash ← rollback (parsePunct '-')
    match dash with
    | some _ =>
      let ts ← inp
      kebabLoop (ts.length + 2) true ⟨c!"-", 1⟩
    | none => fail .expectedKebab

/-- src/ast/ident.rs:218-226 `KebabIdentOrStr::parse` -/
def parseKebabOrStr : P KebabOrStr := do
  let s ← rollback parseLitStr
  match s with
  | some s => pure (.str s)
  | none => do
    let k ← parseKebab
    pure (.kebab k)

/-- src/ast/ident.rs:255-260 `BracedKebabIdent::parse` -/
def parseBracedKebab : P KebabIdent := inGroup .brace parseKebab

/-- src/ast/ident.rs:247-252 `BracedKebabIdent::into_block_value` -/
def intoBlockValue (k : KebabIdent) : Out Value := do
  let i ← k.toSnakeIdent
  pure (.block [.ident i])

/-! ### src/ast/value.rs -/

/-- src/ast/value.rs:44-72 `Value::parse` -/
def parseValue : P Value := do
  let ts ← inp
  if peekGroup .bracket ts then
    let tokens ← unwrapP .valueUnwrap (groupTokens .bracket)
    pure (.bracket none tokens)
  else if peekIdentAny ts && peekGroup .bracket (skip ts) then
    let pfx ← unwrapP .valueUnwrap parseIdentAny
    let tokens ← unwrapP .valueUnwrap (groupTokens .bracket)
    pure (.bracket (some pfx) tokens)
  else if peekGroup .brace ts then
    let tokens ← unwrapP .valueUnwrap (groupTokens .brace)
    pure (.block tokens)
  else if peekLit ts then
    let l ← unwrapP .valueUnwrap parseLit
    pure (.lit l)
  else fail .invalidValue

/-- The path `::leptos_mview::MissingValueAfterEq` (src/ast/value.rs:147). -/
def missingValueAfterEq : Toks :=
  [.punct ':' .joint, .punct ':' .alone, .ident ⟨false, c!"leptos_mview"⟩,
   .punct ':' .joint, .punct ':' .alone, .ident ⟨false, c!"MissingValueAfterEq"⟩]

/-- src/ast/value.rs:124-151 `Value::parse_or_emit_err` -/
def parseValueOrEmit : P Value := do
  let v ← rollback parseValue
  match v with
  | some v => pure v
  | none => do
    let ts ← inp
    emitP (.missingValue (peekIdent ts))
    pure (.block missingValueAfterEq)

/-! ### src/ast/attribute -/

/-- src/ast/attribute/kv.rs:41-62 `KvAttr::parse` -/
def parseKv : P KvAttr := do
  let ts ← inp
  if peekGroup .brace ts then
    let k ← parseBracedKebab
    let v ← liftOut (intoBlockValue k)
    pure ⟨k, v⟩
  else
    let k ← parseKebab
    let eq ← rollback (parsePunct '=')
    match eq with
    | some _ => do
      let v ← parseValueOrEmit
      pure ⟨k, v⟩
    | none => pure ⟨k, Value.newTrue⟩

/-- src/ast/attribute/directive.rs:44-49 the `try_parse_modifier` closure -/
def parseModifier : P (Option Ident) := do
  let colon ← rollback (parsePunct ':')
  match colon with
  | some _ => do
    let i ← parseIdentAny
    pure (some i)
  | none => pure none

/-- src/ast/attribute/directive.rs:39-76 `Directive::parse` -/
def parseDirective : P Directive := do
  let name ← parseIdentAny
  parsePunct ':'
  let ts ← inp
  if peekGroup .brace ts then
    let k ← parseBracedKebab
    let v ← liftOut (intoBlockValue k)
    let m ← parseModifier
    pure ⟨name, .kebab k, m, some v⟩
  else
    let key ← parseKebabOrStr
    let m ← parseModifier
    let eq ← rollback (parsePunct '=')
    match eq with
    | some _ => do
      let v ← parseValueOrEmit
      pure ⟨name, key, m, some v⟩
    | none => pure ⟨name, key, m, none⟩

/-- src/ast/attribute/spread_attrs.rs:19-36 `SpreadAttr::parse`: `..` and then
everything up to the closing brace. -/
def parseSpread : P Toks := do
  let stream ← extractGroup .brace
  if peekPunct2 '.' '.' stream then pure (stream.drop 2)
  else fail .invalidSpread

/-- src/error_ext.rs:16-25 `unwrap_or_abort` -/
def unwrapOrAbort {α : Type} (p : P α) : P α := fun ts =>
  Out.bind (p ts) fun r =>
    match r with
    | .ok a rest => .ret [] (.ok a rest)
    | .err e _ => .abort [.synAbort e]

/-- src/ast/attribute.rs:22-44 `Attr::parse` -/
def parseAttr : P Attr := do
  let ts ← inp
  if peekIdentAny ts && peekPunct ':' (skip ts) then
    let d ← unwrapOrAbort parseDirective
    pure (.directive d)
  else if peekIdent ts then
    let kv ← parseKv
    pure (.kv kv)
  else
    let kv ← rollback parseKv
    match kv with
    | some kv => pure (.kv kv)
    | none => do
      let sp ← rollback parseSpread
      match sp with
      | some e => pure (.spread e)
      | none => fail .noAttribute

/-- src/ast/attribute.rs:55-63 `Attrs::parse`: the loop -/
def attrsLoop : Nat → List Attr → P (List Attr)
  | 0, _ => fun _ => .diverge
  | fuel + 1, vec => do
    let a ← rollback parseAttr
    match a with
    | some a => attrsLoop fuel (vec ++ [a])
    | none => pure vec

/-- src/ast/attribute.rs:55-63 `Attrs::parse` -/
def parseAttrs : P (List Attr) := do
  let ts ← inp
  attrsLoop (ts.length + 1) []

/-- src/ast/attribute/selector.rs:57-75 `SelectorShorthand::parse` -/
def parseSelector : P Selector := do
  let dot ← rollback (parsePunct '.')
  match dot with
  | some _ => do
    let k ← parseKebab
    pure (.cls k)
  | none => do
    let pound ← rollback (parsePunct '#')
    match pound with
    | some _ => do
      let k ← parseKebab
      pure (.id k)
    | none => fail .noSelector

/-- src/ast/attribute/selector.rs:84-93 `SelectorShorthands::parse`: the loop -/
def selectorsLoop : Nat → List Selector → P (List Selector)
  | 0, _ => fun _ => .diverge
  | fuel + 1, vec => do
    let s ← rollback parseSelector
    match s with
    | some s => selectorsLoop fuel (vec ++ [s])
    | none => pure vec

/-- src/ast/attribute/selector.rs:84-93 `SelectorShorthands::parse` -/
def parseSelectors : P (List Selector) := do
  let ts ← inp
  selectorsLoop (ts.length + 1) []

/-! ### src/ast/tag.rs -/

/-- src/ast/tag.rs:62-83 `Tag::parse` -/
def parseTag (pp : PathParser) : P Tag := do
  let ts ← inp
  if peekPunct2 ':' ':' (skip ts) || peekPunct2 ':' ':' ts || peekPunct '<' (skip ts) then
    let p ← parsePath pp
    pure (.component p)
  else
    let k ← parseKebab
    match TagKind.ofStr k.repr with
    | .html => do
      let i ← liftOut k.toSnakeIdent
      pure (.html i)
    | .component => do
      let i ← liftOut k.toSnakeIdent
      pure (.component (Path.ofIdent ⟨false, i.name⟩))
    | .svg => do
      let i ← liftOut k.toSnakeIdent
      pure (.svg i)
    | .math => do
      let i ← liftOut k.toSnakeIdent
      pure (.math i)
    | .webComponent => pure (.webComponent k)

/-! ### src/ast/element.rs, src/ast/children.rs -/

/-- A `|` as `Token![|]` prints it. -/
def pipeTok : TT := .punct '|' .alone

/-- src/ast/element.rs:164-177: the loop of `parse_closure_args`; `tokens` are the
tokens collected so far, pipes included. -/
def closureArgsLoop : Nat → Toks → P Toks
  | 0, _ => fun _ => .diverge
  | fuel + 1, tokens => do
    let pipe ← rollback (parsePunct '|')
    match pipe with
    | some _ => pure (tokens ++ [pipeTok])
    | none => do
      let tt ← rollback parseTT
      match tt with
      | some tt => closureArgsLoop fuel (tokens ++ [tt])
      | none => fail .closureNotClosed

/-- src/ast/element.rs:158-178 `parse_closure_args` -/
def parseClosureArgs : P Toks := do
  parsePunct '|'
  let rest ← inp
  closureArgsLoop (rest.length + 1) [pipeTok]

mutual
/-- src/ast/element.rs:53-107 `Element::parse` -/
def elementF (pp : PathParser) : Nat → P Element
  | 0 => fun _ => .diverge
  | fuel + 1 => do
    let tag ← parseTag pp
    let selectors ← parseSelectors
    let attrs ← parseAttrs
    let semi ← rollback (parsePunct ';')
    match semi with
    | some _ => pure (.mk tag selectors attrs none none)
    | none => do
      let ts ← inp
      if isEmpty ts then
        emitP .unterminated
        pure (.mk tag selectors attrs none none)
      else if peekGroup .brace ts || peekGroup .paren ts then
        let children ←
          if peekGroup .brace ts then inGroup .brace (childrenF pp fuel)
          else inGroup .paren (childrenF pp fuel)
        pure (.mk tag selectors attrs none (some children))
      else if peekPunct '|' ts then
        let args ← parseClosureArgs
        let ts ← inp
        if peekGroup .brace ts then
          let children ← inGroup .brace (childrenF pp fuel)
          pure (.mk tag selectors attrs (some args) (some children))
        else if peekGroup .paren ts then
          let children ← inGroup .paren (childrenF pp fuel)
          pure (.mk tag selectors attrs (some args) (some children))
        else
          emitP .expectedChildrenBlock
          pure (.mk tag selectors attrs (some args) none)
      else
        emitP .unknownAttribute
        emitP .childrenNotFound
        pure (.mk tag selectors attrs none none)

/-- src/ast/children.rs:59-86 `Child::parse` -/
def childF (pp : PathParser) : Nat → P Child
  | 0 => fun _ => .diverge
  | fuel + 1 => do
    let v ← rollback parseValue
    match v with
    | some v =>
      match v with
      | .lit l =>
        match l with
        | .tok (.str _) => pure (.value v)
        | _ => do
          emitP .nonStringChild
          pure (.value (.lit (.tok (.str []))))
      | _ => pure (.value v)
    | none => do
      let ts ← inp
      if peekKw c!"slot" ts && peekPunct ':' (skip ts) && !(peekPunct2 ':' ':' (skip ts)) then
        unwrapP .slotUnwrap (parseKw c!"slot")
        unwrapP .slotUnwrap (parsePunct ':')
        let e ← elementF pp fuel
        pure (.slot e)
      else if peekIdentAny ts then
        let e ← elementF pp fuel
        pure (.elem e)
      else fail .invalidChild

/-- src/ast/children.rs:99-129 `Children::parse`: the loop; `vec` is accumulated
by prepending to the result of the remaining iterations. -/
def childrenF (pp : PathParser) : Nat → P (List Child)
  | 0 => fun _ => .diverge
  | fuel + 1 => fun ts =>
    if isEmpty ts then .ret [] (.ok [] ts)
    else
      Out.bind (childF pp fuel ts) fun r =>
        match r with
        | .ok c rest =>
          Out.bind (childrenF pp fuel rest) fun q =>
            match q with
            | .ok cs rest' => .ret [] (.ok (c :: cs) rest')
            | .err e rest' => .ret [] (.err e rest')
        | .err e rest =>
          if peekPunct ';' rest then
            Out.bind (emit .extraSemicolon) fun _ =>
            Out.bind (unwrapP .semiUnwrap (parsePunct ';') rest) fun q =>
              match q with
              | .ok _ rest' => childrenF pp fuel rest'
              | .err e rest' => .ret [] (.err e rest')
          else
            Out.bind (emit (.synError e)) fun _ => childrenF pp fuel []
end

/-- Iterations sufficient for parsing `ts` (see `Props/Termination.lean`). -/
def fuelFor (ts : Toks) : Nat := 3 * toksSize ts + 3

/-- `syn::parse2::<Children>(input)` (src/lib.rs:29): parse everything. -/
def parseChildren (pp : PathParser) (ts : Toks) : Out (PR (List Child)) :=
  childrenF pp (fuelFor ts) ts

end Mview
