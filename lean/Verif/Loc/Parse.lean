import Verif.Loc.Ast
/-
The parsers of leptos-mview-core/src/ast with spans; see `Model/Parse.lean`.
-/

namespace Mview.Loc
variable {σ : Type} [Spans σ]

/-! ### src/ast/ident.rs -/

/-- src/ast/ident.rs:133-159: the loop of `KebabIdent::parse`; dashes get no span of their own -/
def kebabLoop : Nat → Bool → KebabIdent σ → P σ (KebabIdent σ)
  | 0, _, _ => fun _ _ => .diverge
  | fuel + 1, isSecond, k => do
    let dash ← rollback (parsePunct '-')
    if dash.isSome || (isSecond && k.repr = c!"-") then
      let k := if dash.isSome then { k with repr := k.repr ++ c!"-" } else k
      let ident ← rollback parseIdentAny
      match ident with
      | some i =>
        if i.id.raw then emitP (.rawInKebab i.id) i.sp
        kebabLoop fuel false ⟨k.repr ++ i.id.name, k.spans ++ [i.sp]⟩
      | none =>
        let int ← rollback parseLitInt
        match int with
        | some s => kebabLoop fuel false ⟨k.repr ++ s.str, k.spans ++ [s.sp]⟩
        | none => kebabLoop fuel false k
    else pure k

/-- src/ast/ident.rs:109-164 `KebabIdent::parse` -/
def parseKebab : P σ (KebabIdent σ) := do
  let ident ← rollback parseIdentAny
  match ident with
  | some i =>
    let ts ← inp
    kebabLoop (ts.length + 2) true ⟨i.id.name, [i.sp]⟩
  | none =>
    let dash ← rollback (parsePunct '-')
    match dash with
    | some s =>
      let ts ← inp
      kebabLoop (ts.length + 2) true ⟨c!"-", [s]⟩
    | none => fail .expectedKebab

/-- src/ast/ident.rs:218-226 `KebabIdentOrStr::parse` -/
def parseKebabOrStr : P σ (KebabOrStr σ) := do
  let s ← rollback parseLitStr
  match s with
  | some s => pure (.str s)
  | none => do
    let k ← parseKebab
    pure (.kebab k)

/-- src/ast/ident.rs:255-260 `BracedKebabIdent::parse` -/
def parseBracedKebab : P σ (DelimSpan σ × KebabIdent σ) := inGroup .brace parseKebab

/-- src/ast/ident.rs:247-252 `BracedKebabIdent::into_block_value` -/
def intoBlockValue (b : DelimSpan σ × KebabIdent σ) : Out σ (Value σ) := do
  let i ← b.2.toSnakeIdent
  pure (.block [.ident i.id i.sp] b.1)

/-! ### src/ast/value.rs -/

/-- src/ast/value.rs:44-72 `Value::parse` -/
def parseValue : P σ (Value σ) := do
  let ts ← inp
  if peekGroup .bracket ts then
    let g ← unwrapP .valueUnwrap (extractGroup .bracket)
    pure (.bracket none g.toks g.sp)
  else if peekIdentAny ts && peekGroup .bracket (skip ts) then
    let pfx ← unwrapP .valueUnwrap parseIdentAny
    let g ← unwrapP .valueUnwrap (extractGroup .bracket)
    pure (.bracket (some pfx) g.toks g.sp)
  else if peekGroup .brace ts then
    let g ← unwrapP .valueUnwrap (extractGroup .brace)
    pure (.block g.toks g.sp)
  else if peekLit ts then
    let l ← unwrapP .valueUnwrap parseLit
    pure (.lit l)
  else fail .invalidValue

/-- `::leptos_mview::MissingValueAfterEq`, all at one place (src/ast/value.rs:147) -/
def missingValueAfterEq (sp : σ) : Toks σ :=
  tColon2 (sp, sp) ++ [.ident ⟨false, c!"leptos_mview"⟩ sp] ++
  tColon2 (sp, sp) ++ [.ident ⟨false, c!"MissingValueAfterEq"⟩ sp]

/-- src/ast/value.rs:124-151 `Value::parse_or_emit_err`; `fallback` is the span of the `=` -/
def parseValueOrEmit (fallback : σ) : P σ (Value σ) := do
  let v ← rollback parseValue
  match v with
  | some v => pure v
  | none => do
    let ts ← inp
    let here ← inpSpan
    let sp := if isEmpty ts then fallback else here
    emitP (.missingValue (peekIdent ts)) sp
    pure (.block (missingValueAfterEq sp) (.single sp))

/-! ### src/ast/attribute -/

/-- src/ast/attribute/kv.rs:41-62 `KvAttr::parse` -/
def parseKv : P σ (KvAttr σ) := do
  let ts ← inp
  if peekGroup .brace ts then
    let b ← parseBracedKebab
    let v ← liftOut (intoBlockValue b)
    pure ⟨b.2, v⟩
  else
    let k ← parseKebab
    let eq ← rollback (parsePunct '=')
    match eq with
    | some s => do
      let v ← parseValueOrEmit s
      pure ⟨k, v⟩
    | none => pure ⟨k, Value.newTrue⟩

/-- src/ast/attribute/directive.rs:44-49 the `try_parse_modifier` closure -/
def parseModifier : P σ (Option (SIdent σ)) := do
  let colon ← rollback (parsePunct ':')
  match colon with
  | some _ => do
    let i ← parseIdentAny
    pure (some i)
  | none => pure none

/-- src/ast/attribute/directive.rs:39-76 `Directive::parse` -/
def parseDirective : P σ (Directive σ) := do
  let name ← parseIdentAny
  let _ ← parsePunct ':'
  let ts ← inp
  if peekGroup .brace ts then
    let b ← parseBracedKebab
    let v ← liftOut (intoBlockValue b)
    let m ← parseModifier
    pure ⟨name, .kebab b.2, m, some v⟩
  else
    let key ← parseKebabOrStr
    let m ← parseModifier
    let eq ← rollback (parsePunct '=')
    match eq with
    | some s => do
      let v ← parseValueOrEmit s
      pure ⟨name, key, m, some v⟩
    | none => pure ⟨name, key, m, none⟩

/-- the `..` and the tokens after it -/
def spreadParts : Toks σ → Option ((σ × σ) × Toks σ)
  | .punct '.' .joint a :: .punct '.' _ b :: r => some ((a, b), r)
  | _ => none

/-- src/ast/attribute/spread_attrs.rs:19-36 `SpreadAttr::parse` -/
def parseSpread : P σ (Spread σ) := do
  let g ← extractGroup .brace
  match spreadParts g.toks with
  | some (d, e) => pure ⟨g.sp, d, e⟩
  | none => fail .invalidSpread

/-- src/error_ext.rs:16-25 `unwrap_or_abort`: reported where the error is -/
def unwrapOrAbort {α : Type} (p : P σ α) : P σ α := fun sc ts =>
  Out.bind (p sc ts) fun r =>
    match r with
    | .ok a rest => .ret [] (.ok a rest)
    | .err e _ => .abort [⟨.synAbort e.err, e.sp⟩]

/-- src/ast/attribute.rs:22-44 `Attr::parse` -/
def parseAttr : P σ (Attr σ) := do
  let ts ← inp
  if peekIdentAny ts && peekPunct ':' (skip ts) then
    let d ← unwrapOrAbort parseDirective
    pure (.directive d)
  else if peekIdent ts then
    let kv ← parseKv
    pure (.kv kv)
  else
    let kv ← rollback parseKv
    match kv with
    | some kv => pure (.kv kv)
    | none => do
      let sp ← rollback parseSpread
      match sp with
      | some e => pure (.spread e)
      | none => fail .noAttribute

/-- src/ast/attribute.rs:55-63 `Attrs::parse`: the loop -/
def attrsLoop : Nat → List (Attr σ) → P σ (List (Attr σ))
  | 0, _ => fun _ _ => .diverge
  | fuel + 1, vec => do
    let a ← rollback parseAttr
    match a with
    | some a => attrsLoop fuel (vec ++ [a])
    | none => pure vec

/-- src/ast/attribute.rs:55-63 `Attrs::parse` -/
def parseAttrs : P σ (List (Attr σ)) := do
  let ts ← inp
  attrsLoop (ts.length + 1) []

/-- src/ast/attribute/selector.rs:57-75 `SelectorShorthand::parse` -/
def parseSelector : P σ (Selector σ) := do
  let dot ← rollback (parsePunct '.')
  match dot with
  | some s => do
    let k ← parseKebab
    pure (.cls s k)
  | none => do
    let pound ← rollback (parsePunct '#')
    match pound with
    | some s => do
      let k ← parseKebab
      pure (.id s k)
    | none => fail .noSelector

/-- src/ast/attribute/selector.rs:84-93 `SelectorShorthands::parse`: the loop -/
def selectorsLoop : Nat → List (Selector σ) → P σ (List (Selector σ))
  | 0, _ => fun _ _ => .diverge
  | fuel + 1, vec => do
    let s ← rollback parseSelector
    match s with
    | some s => selectorsLoop fuel (vec ++ [s])
    | none => pure vec

/-- src/ast/attribute/selector.rs:84-93 `SelectorShorthands::parse` -/
def parseSelectors : P σ (List (Selector σ)) := do
  let ts ← inp
  selectorsLoop (ts.length + 1) []

/-! ### src/ast/tag.rs -/

variable {pp : Mview.PathParser}

/-- src/ast/tag.rs:62-83 `Tag::parse` -/
def parseTag (lp : PathParser σ pp) : P σ (Tag σ) := do
  let ts ← inp
  if peekPunct2 ':' ':' (skip ts) || peekPunct2 ':' ':' ts || peekPunct '<' (skip ts) then
    let p ← parsePath lp
    pure (.component p)
  else
    let k ← parseKebab
    match TagKind.ofStr k.repr with
    | .html => do
      let i ← liftOut k.toSnakeIdent
      pure (.html i)
    | .component => do
      let i ← liftOut k.toSnakeIdent
      pure (.component (Path.ofIdent ⟨⟨false, i.id.name⟩, i.sp⟩))
    | .svg => do
      let i ← liftOut k.toSnakeIdent
      pure (.svg i)
    | .math => do
      let i ← liftOut k.toSnakeIdent
      pure (.math i)
    | .webComponent => pure (.webComponent k)

/-! ### src/ast/element.rs, src/ast/children.rs -/

/-- A `|` as `Token![|]` prints it. -/
def pipeTok (sp : σ) : TT σ := .punct '|' .alone sp

/-- src/ast/element.rs:164-177: the loop of `parse_closure_args`; `first` is the span of the
first pipe, where the error is reported -/
def closureArgsLoop (first : σ) : Nat → Toks σ → P σ (Toks σ)
  | 0, _ => fun _ _ => .diverge
  | fuel + 1, tokens => do
    let pipe ← rollback (parsePunct '|')
    match pipe with
    | some s => pure (tokens ++ [pipeTok s])
    | none => do
      let tt ← rollback parseTT
      match tt with
      | some tt => closureArgsLoop first fuel (tokens ++ [tt])
      | none => failAt .closureNotClosed first

/-- src/ast/element.rs:158-178 `parse_closure_args` -/
def parseClosureArgs : P σ (Toks σ) := do
  let s ← parsePunct '|'
  let rest ← inp
  closureArgsLoop s (rest.length + 1) [pipeTok s]

mutual
/-- src/ast/element.rs:53-107 `Element::parse` -/
def elementF (lp : PathParser σ pp) : Nat → P σ (Element σ)
  | 0 => fun _ _ => .diverge
  | fuel + 1 => do
    let tag ← parseTag lp
    let selectors ← parseSelectors
    let attrs ← parseAttrs
    let semi ← rollback (parsePunct ';')
    match semi with
    | some _ => pure (.mk tag selectors attrs none none)
    | none => do
      let ts ← inp
      if isEmpty ts then
        emitP .unterminated tag.span
        pure (.mk tag selectors attrs none none)
      else if peekGroup .brace ts || peekGroup .paren ts then
        let children ←
          if peekGroup .brace ts then inGroup .brace (childrenF lp fuel)
          else inGroup .paren (childrenF lp fuel)
        pure (.mk tag selectors attrs none (some children.2))
      else if peekPunct '|' ts then
        let args ← parseClosureArgs
        let ts ← inp
        if peekGroup .brace ts then
          let children ← inGroup .brace (childrenF lp fuel)
          pure (.mk tag selectors attrs (some args) (some children.2))
        else if peekGroup .paren ts then
          let children ← inGroup .paren (childrenF lp fuel)
          pure (.mk tag selectors attrs (some args) (some children.2))
        else
          let here ← inpSpan
          emitP .expectedChildrenBlock here
          pure (.mk tag selectors attrs (some args) none)
      else
        let here ← inpSpan
        emitP .unknownAttribute here
        emitP .childrenNotFound (joinOr tag.span here)
        pure (.mk tag selectors attrs none none)

/-- src/ast/children.rs:59-86 `Child::parse` -/
def childF (lp : PathParser σ pp) : Nat → P σ (Child σ)
  | 0 => fun _ _ => .diverge
  | fuel + 1 => do
    let v ← rollback parseValue
    match v with
    | some v =>
      match v with
      | .lit l =>
        match l.lit with
        | .tok (.str _) => pure (.value v)
        | _ => do
          emitP .nonStringChild l.sp
          pure (.value (.lit ⟨.tok (.str []), callSite⟩))
      | _ => pure (.value v)
    | none => do
      let ts ← inp
      if peekKw c!"slot" ts && peekPunct ':' (skip ts) && !(peekPunct2 ':' ':' (skip ts)) then
        let s ← unwrapP .slotUnwrap (parseKw c!"slot")
        let _ ← unwrapP .slotUnwrap (parsePunct ':')
        let e ← elementF lp fuel
        pure (.slot s e)
      else if peekIdentAny ts then
        let e ← elementF lp fuel
        pure (.elem e)
      else fail .invalidChild

/-- src/ast/children.rs:99-129 `Children::parse`: the loop -/
def childrenF (lp : PathParser σ pp) : Nat → P σ (List (Child σ))
  | 0 => fun _ _ => .diverge
  | fuel + 1 => fun sc ts =>
    if isEmpty ts then .ret [] (.ok [] ts)
    else
      Out.bind (childF lp fuel sc ts) fun r =>
        match r with
        | .ok c rest =>
          Out.bind (childrenF lp fuel sc rest) fun q =>
            match q with
            | .ok cs rest' => .ret [] (.ok (c :: cs) rest')
            | .err e rest' => .ret [] (.err e rest')
        | .err e rest =>
          if peekPunct ';' rest then
            Out.bind (emit .extraSemicolon e.sp) fun _ =>
            Out.bind (unwrapP .semiUnwrap (parsePunct ';') sc rest) fun q =>
              match q with
              | .ok _ rest' => childrenF lp fuel sc rest'
              | .err e rest' => .ret [] (.err e rest')
          else
            Out.bind (emit (.synError e.err) e.sp) fun _ => childrenF lp fuel sc []
end

/-- `syn::parse2::<Children>(input)` (src/lib.rs:29); errors about the end of the input are
reported at the call site -/
def parseChildren (lp : PathParser σ pp) (ts : Toks σ) : Out σ (PR σ (List (Child σ))) :=
  childrenF lp (fuelFor (eraseToks ts)) callSite ts

end Mview.Loc
