import Verif.Model.Mview
/-
The parsers once more, counting what they do.

A step is one call of `syn` — a `peek`, a `fork` (with its `advance_to`), a token parsed or not
found — or one token copied into a `TokenStream` of its own.  Where a function looks at the
stream in several ways before it decides (`if input.peek(..) { .. } else if input.peek(..) { .. }`),
all of these count, also those not reached.  `syn::Path::parse` is outside: one step, and one for
each token it moves over.

`Verif/Lemmas/StepsErase.lean` shows that apart from the counting these are the parsers of
`Model/Parse.lean`.
-/

namespace Mview.Steps

/-- A parser that counts its steps. -/
def C (α : Type) : Type := Toks → Nat × Out (PR α)

/-- Sequencing with `?`; the steps add up. -/
def C.bind {α β : Type} (p : C α) (f : α → C β) : C β := fun ts =>
  match p ts with
  | (n, .ret ds (.ok a rest)) => (n + (f a rest).1, (f a rest).2.tell ds)
  | (n, .ret ds (.err e rest)) => (n, .ret ds (.err e rest))
  | (n, .abort ds) => (n, .abort ds)
  | (n, .panic q) => (n, .panic q)
  | (n, .diverge) => (n, .diverge)

instance : Monad C where
  pure a := fun ts => (0, .ret [] (.ok a ts))
  bind := C.bind

/-- One step of `syn`. -/
def step {α : Type} (p : P α) : C α := fun ts => (1, p ts)

/-- Nothing of `syn`. -/
def free {α : Type} (p : P α) : C α := fun ts => (0, p ts)

/-- Looking at the stream in `n` ways. -/
def look (n : Nat) : C Toks := fun ts => (n, .ret [] (.ok ts ts))

/-- src/parse.rs:79-91 `rollback_err`: what was done in vain was done nevertheless. -/
def rollback {α : Type} (p : C α) : C (Option α) := fun ts =>
  match p ts with
  | (n, .ret ds (.ok a rest)) => (n + 1, .ret ds (.ok (some a) rest))
  | (n, .ret ds (.err _ _)) => (n + 1, .ret ds (.ok none ts))
  | (n, .abort ds) => (n + 1, .abort ds)
  | (n, .panic q) => (n + 1, .panic q)
  | (n, .diverge) => (n + 1, .diverge)

/-- `.unwrap()` / `.expect(..)` -/
def unwrapP {α : Type} (site : PanicSite) (p : C α) : C α := fun ts =>
  match p ts with
  | (n, .ret ds (.ok a rest)) => (n, .ret ds (.ok a rest))
  | (n, .ret _ (.err _ _)) => (n, .panic site)
  | (n, .abort ds) => (n, .abort ds)
  | (n, .panic q) => (n, .panic q)
  | (n, .diverge) => (n, .diverge)

/-- src/error_ext.rs:16-25 `unwrap_or_abort` -/
def unwrapOrAbort {α : Type} (p : C α) : C α := fun ts =>
  match p ts with
  | (n, .ret ds (.ok a rest)) => (n, .ret ds (.ok a rest))
  | (n, .ret ds (.err e _)) => (n, .abort (ds ++ [.synAbort e]))
  | (n, .abort ds) => (n, .abort ds)
  | (n, .panic q) => (n, .panic q)
  | (n, .diverge) => (n, .diverge)

/-- `match p(input) { Ok(..) => .., Err(..) => .. }`: the stream stays where `p` left it. -/
def caught {α : Type} (p : C α) : C (Except Err α) := fun ts =>
  match p ts with
  | (n, .ret ds (.ok a rest)) => (n, .ret ds (.ok (.ok a) rest))
  | (n, .ret ds (.err e rest)) => (n, .ret ds (.ok (.error e) rest))
  | (n, .abort ds) => (n, .abort ds)
  | (n, .panic q) => (n, .panic q)
  | (n, .diverge) => (n, .diverge)

/-- src/parse.rs:24-34 `bracketed_tokens`, `braced_tokens`: enter the group and copy what is in it. -/
def groupTokens (d : Delim) : C Toks := fun ts =>
  match Mview.extractGroup d ts with
  | .ret ds (.ok inner rest) => (1 + toksSize inner, .ret ds (.ok inner rest))
  | o => (1, o)

/-- src/parse.rs:94-96 `take_rest`: copy all that is left. -/
def takeRest : C Unit := fun ts => (1 + toksSize ts, .ret [] (.ok () []))

/-- src/parse.rs:43-57, 63-77 `braced::<T>` and `parenthesized::<T>`: a fork, a peek, entering the
group, what `T` takes, and looking whether anything is left. -/
def inGroup {α : Type} (d : Delim) (p : C α) : C α := fun ts =>
  match ts with
  | .group d' inner :: rest =>
    if d' = d then
      match p inner with
      | (n, .ret ds (.ok a left)) =>
        if isEmpty left then (n + 4, .ret ds (.ok a rest))
        else (n + 4, .ret ds (.err (.extraTokens d) ts))
      | (n, .ret ds (.err e _)) => (n + 3, .ret ds (.err e ts))
      | (n, .abort ds) => (n + 3, .abort ds)
      | (n, .panic q) => (n + 3, .panic q)
      | (n, .diverge) => (n + 3, .diverge)
    else (2, .ret [] (.err (.noGroup d) ts))
  | ts => (2, .ret [] (.err (.noGroup d) ts))

/-- `syn::Path::parse` -/
def parsePath (pp : PathParser) : C Path := fun ts =>
  (1 + (ts.length - (pp.run ts).2.length), Mview.parsePath pp ts)

/-! ### src/ast/ident.rs -/

/-- src/ast/ident.rs:133-159: the loop of `KebabIdent::parse`. -/
def kebabLoop : Nat → Bool → KebabIdent → C KebabIdent
  | 0, _, _ => fun _ => (0, .diverge)
  | fuel + 1, isSecond, k => do
    let dash ← rollback (step (parsePunct '-'))
    if dash.isSome || (isSecond && k.repr = c!"-") then
      let k := if dash.isSome then { k with repr := k.repr ++ c!"-" } else k
      let ident ← rollback (step parseIdentAny)
      match ident with
      | some i =>
        if i.raw then free (emitP (.rawInKebab i))
        kebabLoop fuel false ⟨k.repr ++ i.name, k.spans + 1⟩
      | none =>
        let int ← rollback (step parseLitInt)
        match int with
        | some s => kebabLoop fuel false ⟨k.repr ++ s, k.spans + 1⟩
        | none => kebabLoop fuel false k
    else pure k

/-- src/ast/ident.rs:109-164 `KebabIdent::parse` -/
def parseKebab : C KebabIdent := do
  let ident ← rollback (step parseIdentAny)
  match ident with
  | some i =>
    let ts ← look 0
    kebabLoop (ts.length + 2) true ⟨i.name, 1⟩
  | none =>
    let dash ← rollback (step (parsePunct '-'))
    match dash with
    | some _ =>
      let ts ← look 0
      kebabLoop (ts.length + 2) true ⟨c!"-", 1⟩
    | none => free (fail .expectedKebab)

/-- src/ast/ident.rs:218-226 `KebabIdentOrStr::parse` -/
def parseKebabOrStr : C KebabOrStr := do
  let s ← rollback (step parseLitStr)
  match s with
  | some s => pure (.str s)
  | none => do
    let k ← parseKebab
    pure (.kebab k)

/-- src/ast/ident.rs:255-260 `BracedKebabIdent::parse` -/
def parseBracedKebab : C KebabIdent := inGroup .brace parseKebab

/-! ### src/ast/value.rs -/

/-- src/ast/value.rs:44-72 `Value::parse` -/
def parseValue : C Value := do
  let ts ← look 5
  if peekGroup .bracket ts then
    let tokens ← unwrapP .valueUnwrap (groupTokens .bracket)
    pure (.bracket none tokens)
  else if peekIdentAny ts && peekGroup .bracket (skip ts) then
    let pfx ← unwrapP .valueUnwrap (step parseIdentAny)
    let tokens ← unwrapP .valueUnwrap (groupTokens .bracket)
    pure (.bracket (some pfx) tokens)
  else if peekGroup .brace ts then
    let tokens ← unwrapP .valueUnwrap (groupTokens .brace)
    pure (.block tokens)
  else if peekLit ts then
    let l ← unwrapP .valueUnwrap (step parseLit)
    pure (.lit l)
  else free (fail .invalidValue)

/-- src/ast/value.rs:124-151 `Value::parse_or_emit_err` -/
def parseValueOrEmit : C Value := do
  let v ← rollback parseValue
  match v with
  | some v => pure v
  | none => do
    let ts ← look 2
    free (emitP (.missingValue (peekIdent ts)))
    pure (.block missingValueAfterEq)

/-! ### src/ast/attribute -/

/-- src/ast/attribute/kv.rs:41-62 `KvAttr::parse` -/
def parseKv : C KvAttr := do
  let ts ← look 1
  if peekGroup .brace ts then
    let k ← parseBracedKebab
    let v ← free (liftOut (intoBlockValue k))
    pure ⟨k, v⟩
  else
    let k ← parseKebab
    let eq ← rollback (step (parsePunct '='))
    match eq with
    | some _ => do
      let v ← parseValueOrEmit
      pure ⟨k, v⟩
    | none => pure ⟨k, Value.newTrue⟩

/-- src/ast/attribute/directive.rs:44-49 the `try_parse_modifier` closure -/
def parseModifier : C (Option Ident) := do
  let colon ← rollback (step (parsePunct ':'))
  match colon with
  | some _ => do
    let i ← step parseIdentAny
    pure (some i)
  | none => pure none

/-- src/ast/attribute/directive.rs:39-76 `Directive::parse` -/
def parseDirective : C Directive := do
  let name ← step parseIdentAny
  step (parsePunct ':')
  let ts ← look 1
  if peekGroup .brace ts then
    let k ← parseBracedKebab
    let v ← free (liftOut (intoBlockValue k))
    let m ← parseModifier
    pure ⟨name, .kebab k, m, some v⟩
  else
    let key ← parseKebabOrStr
    let m ← parseModifier
    let eq ← rollback (step (parsePunct '='))
    match eq with
    | some _ => do
      let v ← parseValueOrEmit
      pure ⟨name, key, m, some v⟩
    | none => pure ⟨name, key, m, none⟩

/-- src/ast/attribute/spread_attrs.rs:19-36 `SpreadAttr::parse`: entering the group, a fork, `..`,
and copying the rest. -/
def parseSpread : C Toks := do
  let stream ← step (extractGroup .brace)
  let _ ← look 2
  if peekPunct2 '.' '.' stream then
    let _ ← look (1 + toksSize (stream.drop 2))
    pure (stream.drop 2)
  else free (fail .invalidSpread)

/-- src/ast/attribute.rs:22-44 `Attr::parse` -/
def parseAttr : C Attr := do
  let ts ← look 3
  if peekIdentAny ts && peekPunct ':' (skip ts) then
    let d ← unwrapOrAbort parseDirective
    pure (.directive d)
  else if peekIdent ts then
    let kv ← parseKv
    pure (.kv kv)
  else
    let kv ← rollback parseKv
    match kv with
    | some kv => pure (.kv kv)
    | none => do
      let sp ← rollback parseSpread
      match sp with
      | some e => pure (.spread e)
      | none => free (fail .noAttribute)

/-- src/ast/attribute.rs:55-63 `Attrs::parse`: the loop -/
def attrsLoop : Nat → List Attr → C (List Attr)
  | 0, _ => fun _ => (0, .diverge)
  | fuel + 1, vec => do
    let a ← rollback parseAttr
    match a with
    | some a => attrsLoop fuel (vec ++ [a])
    | none => pure vec

/-- src/ast/attribute.rs:55-63 `Attrs::parse` -/
def parseAttrs : C (List Attr) := do
  let ts ← look 0
  attrsLoop (ts.length + 1) []

/-- src/ast/attribute/selector.rs:57-75 `SelectorShorthand::parse` -/
def parseSelector : C Selector := do
  let dot ← rollback (step (parsePunct '.'))
  match dot with
  | some _ => do
    let k ← parseKebab
    pure (.cls k)
  | none => do
    let pound ← rollback (step (parsePunct '#'))
    match pound with
    | some _ => do
      let k ← parseKebab
      pure (.id k)
    | none => free (fail .noSelector)

/-- src/ast/attribute/selector.rs:84-93 `SelectorShorthands::parse`: the loop -/
def selectorsLoop : Nat → List Selector → C (List Selector)
  | 0, _ => fun _ => (0, .diverge)
  | fuel + 1, vec => do
    let s ← rollback parseSelector
    match s with
    | some s => selectorsLoop fuel (vec ++ [s])
    | none => pure vec

/-- src/ast/attribute/selector.rs:84-93 `SelectorShorthands::parse` -/
def parseSelectors : C (List Selector) := do
  let ts ← look 0
  selectorsLoop (ts.length + 1) []

/-! ### src/ast/tag.rs -/

/-- src/ast/tag.rs:62-83 `Tag::parse` -/
def parseTag (pp : PathParser) : C Tag := do
  let ts ← look 3
  if peekPunct2 ':' ':' (skip ts) || peekPunct2 ':' ':' ts || peekPunct '<' (skip ts) then
    let p ← parsePath pp
    pure (.component p)
  else
    let k ← parseKebab
    match TagKind.ofStr k.repr with
    | .html => do
      let i ← free (liftOut k.toSnakeIdent)
      pure (.html i)
    | .component => do
      let i ← free (liftOut k.toSnakeIdent)
      pure (.component (Path.ofIdent ⟨false, i.name⟩))
    | .svg => do
      let i ← free (liftOut k.toSnakeIdent)
      pure (.svg i)
    | .math => do
      let i ← free (liftOut k.toSnakeIdent)
      pure (.math i)
    | .webComponent => pure (.webComponent k)

/-! ### src/ast/element.rs, src/ast/children.rs -/

/-- src/ast/element.rs:164-177: the loop of `parse_closure_args` -/
def closureArgsLoop : Nat → Toks → C Toks
  | 0, _ => fun _ => (0, .diverge)
  | fuel + 1, tokens => do
    let pipe ← rollback (step (parsePunct '|'))
    match pipe with
    | some _ => pure (tokens ++ [pipeTok])
    | none => do
      let tt ← rollback (step parseTT)
      match tt with
      | some tt => do
        let _ ← look tt.size
        closureArgsLoop fuel (tokens ++ [tt])
      | none => free (fail .closureNotClosed)

/-- src/ast/element.rs:158-178 `parse_closure_args` -/
def parseClosureArgs : C Toks := do
  step (parsePunct '|')
  let rest ← look 0
  closureArgsLoop (rest.length + 1) [pipeTok]

mutual
/-- src/ast/element.rs:53-107 `Element::parse` -/
def elementF (pp : PathParser) : Nat → C Element
  | 0 => fun _ => (0, .diverge)
  | fuel + 1 => do
    let tag ← parseTag pp
    let selectors ← parseSelectors
    let attrs ← parseAttrs
    let semi ← rollback (step (parsePunct ';'))
    match semi with
    | some _ => pure (.mk tag selectors attrs none none)
    | none => do
      let ts ← look 5
      if isEmpty ts then
        free (emitP .unterminated)
        pure (.mk tag selectors attrs none none)
      else if peekGroup .brace ts || peekGroup .paren ts then
        let children ←
          if peekGroup .brace ts then inGroup .brace (childrenF pp fuel)
          else inGroup .paren (childrenF pp fuel)
        pure (.mk tag selectors attrs none (some children))
      else if peekPunct '|' ts then
        let args ← parseClosureArgs
        let ts ← look 2
        if peekGroup .brace ts then
          let children ← inGroup .brace (childrenF pp fuel)
          pure (.mk tag selectors attrs (some args) (some children))
        else if peekGroup .paren ts then
          let children ← inGroup .paren (childrenF pp fuel)
          pure (.mk tag selectors attrs (some args) (some children))
        else
          free (emitP .expectedChildrenBlock)
          pure (.mk tag selectors attrs (some args) none)
      else
        free (emitP .unknownAttribute)
        free (emitP .childrenNotFound)
        pure (.mk tag selectors attrs none none)

/-- src/ast/children.rs:59-86 `Child::parse` -/
def childF (pp : PathParser) : Nat → C Child
  | 0 => fun _ => (0, .diverge)
  | fuel + 1 => do
    let v ← rollback parseValue
    match v with
    | some v =>
      match v with
      | .lit l =>
        match l with
        | .tok (.str _) => pure (.value v)
        | _ => do
          free (emitP .nonStringChild)
          pure (.value (.lit (.tok (.str []))))
      | _ => pure (.value v)
    | none => do
      let ts ← look 4
      if peekKw c!"slot" ts && peekPunct ':' (skip ts) && !(peekPunct2 ':' ':' (skip ts)) then
        unwrapP .slotUnwrap (step (parseKw c!"slot"))
        unwrapP .slotUnwrap (step (parsePunct ':'))
        let e ← elementF pp fuel
        pure (.slot e)
      else if peekIdentAny ts then
        let e ← elementF pp fuel
        pure (.elem e)
      else free (fail .invalidChild)

/-- src/ast/children.rs:99-129 `Children::parse` -/
def childrenF (pp : PathParser) : Nat → C (List Child)
  | 0 => fun _ => (0, .diverge)
  | fuel + 1 => do
    let ts ← look 1
    if isEmpty ts then pure []
    else
      let r ← caught (childF pp fuel)
      match r with
      | .ok c => do
        let cs ← childrenF pp fuel
        pure (c :: cs)
      | .error e => do
        let rest ← look 1
        if peekPunct ';' rest then
          free (emitP .extraSemicolon)
          unwrapP .semiUnwrap (step (parsePunct ';'))
          childrenF pp fuel
        else
          free (emitP (.synError e))
          takeRest
          childrenF pp fuel
end

/-- `syn::parse2::<Children>(input)` (src/lib.rs:29), after the input was copied into a buffer. -/
def parseChildren (pp : PathParser) : C (List Child) := fun ts =>
  childrenF pp (fuelFor ts) ts

/-- The number of steps that parsing takes. -/
def steps (pp : PathParser) (ts : Toks) : Nat := (parseChildren pp ts).1

end Mview.Steps
