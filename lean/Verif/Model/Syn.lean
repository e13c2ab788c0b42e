import Verif.Model.Out
/-
The slice of `syn` 2 that leptos-mview's parsers use (`ParseStream`, `peek`,
`peek2`, token parsers, `Lit`, `Path`), and leptos-mview-core/src/parse.rs.

A `ParseStream` is the list of tokens not yet consumed.  A parser either succeeds
(value, remaining tokens) or returns an `Err` together with the position at which
the stream was left (leptos-mview does look at the stream after an error,
src/ast/children.rs:110).
-/

namespace Mview

/-- `syn::Result` plus the stream position afterwards. -/
inductive PR (α : Type) where
  | ok (a : α) (rest : Toks)
  | err (e : Err) (rest : Toks)

/-- A parser: `fn(ParseStream) -> syn::Result<α>`. -/
@[implicit_reducible] def P (α : Type) : Type := Toks → Out (PR α)

/-- Sequencing with `?`. -/
def P.bind {α β : Type} (p : P α) (f : α → P β) : P β := fun ts =>
  Out.bind (p ts) fun r =>
    match r with
    | .ok a rest => f a rest
    | .err e rest => .ret [] (.err e rest)

instance : Monad P where
  pure a := fun ts => .ret [] (.ok a ts)
  bind := P.bind

/-- The stream as it is now (for `peek`s). -/
def inp : P Toks := fun ts => .ret [] (.ok ts ts)

/-- `Err(input.error(..))`. -/
def fail {α : Type} (e : Err) : P α := fun ts => .ret [] (.err e ts)

/-- Run an effect that does not touch the stream. -/
def liftOut {α : Type} (o : Out α) : P α := fun ts => o.bind fun a => .ret [] (.ok a ts)

/-- `emit_error!` inside a parser. -/
def emitP (d : Diag) : P Unit := liftOut (emit d)

/-- `.unwrap()` / `.expect(..)` on a parser's result. -/
def unwrapP {α : Type} (site : PanicSite) (p : P α) : P α := fun ts =>
  Out.bind (p ts) fun r =>
    match r with
    | .ok a rest => .ret [] (.ok a rest)
    | .err _ _ => .panic site

/-! ### peeking -/

/-- `input.is_empty()` -/
def isEmpty : Toks → Bool
  | [] => true
  | _ => false

/-- `cursor.skip()`, what `peek2` looks at: one token tree further, a lifetime
(`'` joined to an identifier) counting as one. -/
def skip : Toks → Toks
  | .punct '\'' .joint :: .ident _ :: r => r
  | _ :: r => r
  | [] => []

/-- `input.peek(syn::Ident::peek_any)`: any identifier, keywords included. -/
def peekIdentAny : Toks → Bool
  | .ident _ :: _ => true
  | _ => false

/-- syn's `accept_as_ident`: the words `syn::Ident` refuses. -/
def reserved : List Str :=
  [c!"_", c!"abstract", c!"as", c!"async", c!"await", c!"become", c!"box", c!"break",
   c!"const", c!"continue", c!"crate", c!"do", c!"dyn", c!"else", c!"enum", c!"extern",
   c!"false", c!"final", c!"fn", c!"for", c!"if", c!"impl", c!"in", c!"let", c!"loop",
   c!"macro", c!"match", c!"mod", c!"move", c!"mut", c!"override", c!"priv", c!"pub",
   c!"ref", c!"return", c!"Self", c!"self", c!"static", c!"struct", c!"super",
   c!"trait", c!"true", c!"try", c!"type", c!"typeof", c!"unsafe", c!"unsized",
   c!"use", c!"virtual", c!"where", c!"while", c!"yield"]

/-- `input.peek(syn::Ident)`: an identifier that is not a reserved word. -/
def peekIdent : Toks → Bool
  | .ident i :: _ => i.raw || !(reserved.contains i.name)
  | _ => false

/-- `input.peek(kw::x)` for a `syn::custom_keyword!` (src/kw.rs:1-7). -/
def peekKw (kw : Str) : Toks → Bool
  | .ident i :: _ => i = ⟨false, kw⟩
  | _ => false

/-- `input.peek(Token![c])` for one-character punctuation; the spacing is not
looked at, so it also accepts the first character of a longer operator. -/
def peekPunct (c : Char) : Toks → Bool
  | .punct c' _ :: _ => c' = c
  | _ => false

/-- `input.peek(Token![ab])` for two-character punctuation. -/
def peekPunct2 (a b : Char) : Toks → Bool
  | .punct a' .joint :: .punct b' _ :: _ => a' = a && b' = b
  | _ => false

/-- `input.peek(syn::token::Brace)` and friends. -/
def peekGroup (d : Delim) : Toks → Bool
  | .group d' _ :: _ => d' = d
  | _ => false

/-! ### token parsers -/

/-- `syn::Ident::parse_any` -/
def parseIdentAny : P Ident
  | .ident i :: r => .ret [] (.ok i r)
  | ts => .ret [] (.err .expectedIdent ts)

/-- `<Token![c]>::parse` for one-character punctuation. -/
def parsePunct (c : Char) : P Unit
  | .punct c' s :: r =>
    if c' = c then .ret [] (.ok () r) else .ret [] (.err (.expectedPunct c) (.punct c' s :: r))
  | ts => .ret [] (.err (.expectedPunct c) ts)

/-- `kw::x::parse` -/
def parseKw (kw : Str) : P Unit := fun ts =>
  if peekKw kw ts then .ret [] (.ok () (ts.drop 1))
  else .ret [] (.err .expectedIdent ts)

/-- `proc_macro2::TokenTree::parse` -/
def parseTT : P TT
  | t :: r => .ret [] (.ok t r)
  | [] => .ret [] (.err .noAttribute [])

/-- `syn::Lit`: a literal token or a boolean word.  A negative number is one
literal whose text starts with `-`. -/
inductive SynLit where
  | tok (l : Lit)
  | bool (b : Bool)
  deriving DecidableEq, Repr

/-- `syn::Lit::parse`: a literal token, `true`/`false`, or `-` followed by a
number. -/
def parseLit : P SynLit
  | .lit l :: r => .ret [] (.ok (.tok l) r)
  | .ident i :: r =>
    if i = ⟨false, c!"true"⟩ then .ret [] (.ok (.bool true) r)
    else if i = ⟨false, c!"false"⟩ then .ret [] (.ok (.bool false) r)
    else .ret [] (.err .expectedLit (.ident i :: r))
  | .punct '-' _ :: .lit (.int s) :: r => .ret [] (.ok (.tok (.int ('-' :: s))) r)
  | .punct '-' _ :: .lit (.float s) :: r => .ret [] (.ok (.tok (.float ('-' :: s))) r)
  | ts => .ret [] (.err .expectedLit ts)

/-- `input.peek(syn::Lit)`: whether `syn::Lit::parse` would succeed. -/
def peekLit (ts : Toks) : Bool :=
  match parseLit ts with
  | .ret _ (.ok _ _) => true
  | _ => false

/-- `syn::LitInt::parse`, returning the literal's text.  On failure the stream
position is irrelevant (only used under `rollback_err`, src/ast/ident.rs:155). -/
def parseLitInt : P Str := do
  let l ← parseLit
  match l with
  | .tok (.int s) => pure s
  | _ => fail .expectedLit

/-- `syn::LitStr::parse`, returning the literal's value (only used under
`rollback_err`, src/ast/ident.rs:220). -/
def parseLitStr : P Str := do
  let l ← parseLit
  match l with
  | .tok (.str s) => pure s
  | _ => fail .expectedLit

/-! ### leptos-mview-core/src/parse.rs -/

/-- src/parse.rs:6-22 `extract_parenthesized`, `extract_bracketed`,
`extract_braced`: enter the next group. -/
def extractGroup (d : Delim) : P Toks
  | .group d' inner :: r =>
    if d' = d then .ret [] (.ok inner r)
    else .ret [] (.err (.expectedGroup d) (.group d' inner :: r))
  | ts => .ret [] (.err (.expectedGroup d) ts)

/-- src/parse.rs:24-34 `bracketed_tokens`, `braced_tokens`: the content of the
next group, all of it (`take_rest`, src/parse.rs:94-96, never fails). -/
def groupTokens (d : Delim) : P Toks := extractGroup d

/-- src/parse.rs:43-57, 63-77 `braced::<T>` and `parenthesized::<T>`: parse the
whole content of the next group as `T`; the stream does not advance unless that
succeeds. -/
def inGroup {α : Type} (d : Delim) (p : P α) : P α := fun ts =>
  if peekGroup d ts then
    Out.bind (unwrapP .peekedGroup (extractGroup d) ts) fun r =>
      match r with
      | .ok inner rest =>
        Out.bind (p inner) fun q =>
          match q with
          | .ok a left =>
            if isEmpty left then .ret [] (.ok a rest)
            else .ret [] (.err (.extraTokens d) ts)
          | .err e _ => .ret [] (.err e ts)
      | .err e _ => .ret [] (.err e ts)
  else .ret [] (.err (.noGroup d) ts)

/-- src/parse.rs:79-91 `rollback_err`: try a parser on a fork, advance only if it
succeeds.  Diagnostics the parser emitted stay emitted either way (they go to a
global list). -/
def rollback {α : Type} (p : P α) : P (Option α) := fun ts =>
  Out.bind (p ts) fun r =>
    match r with
    | .ok a rest => .ret [] (.ok (some a) rest)
    | .err _ _ => .ret [] (.ok none ts)

/-! ### `syn::Path` -/

/-- `syn::PathArguments`.  Generic arguments are kept as the tokens they print
to. -/
inductive PathArgs where
  | none
  /-- `<inner>`, or `::<inner>` when `turbofish` -/
  | angle (turbofish : Bool) (inner : Toks)
  /-- `(A, B) -> C` function sugar -/
  | paren (inner : Toks)

/-- `syn::PathSegment` -/
structure PathSeg where
  ident : Ident
  args : PathArgs

/-- `syn::Path` -/
structure Path where
  leading : Bool
  segs : List PathSeg

/-- `syn::Path::from(ident)` -/
def Path.ofIdent (i : Ident) : Path := ⟨false, [⟨i, .none⟩]⟩

/-- `syn::Path::get_ident`: the path is one identifier without arguments. -/
def Path.getIdent : Path → Option Ident
  | ⟨false, [⟨i, .none⟩]⟩ => some i
  | _ => none

/-- `syn::Path::parse` is external: Rust's type grammar lives in `syn`.  All the
model assumes is that it consumes input from the front — at least one token when
it succeeds — and depends on nothing but the tokens. Every theorem holds for
every such parser. -/
structure PathParser where
  /-- `none` with the position reached on failure -/
  run : Toks → Option Path × Toks
  progress : ∀ ts p rest, run ts = (some p, rest) → ∃ used, used ≠ [] ∧ ts = used ++ rest
  suffix : ∀ ts rest, run ts = (none, rest) → ∃ used, ts = used ++ rest

/-- `syn::Path::parse` as a parser. -/
def parsePath (pp : PathParser) : P Path := fun ts =>
  match pp.run ts with
  | (some p, rest) => .ret [] (.ok p rest)
  | (none, rest) => .ret [] (.err .badPath rest)

end Mview
