import Verif.Loc.Tok
/-
The slice of `syn` 2 used by the parsers, with spans; see `Model/Syn.lean`.

A `ParseStream` is the list of tokens not yet consumed, and the span at which errors about its
end are reported (`scope` in syn: `Span::call_site()` for the input of the macro, the closing
delimiter for the content of a group).
-/

namespace Mview.Loc
variable {σ : Type}

/-- `syn::Result` plus the stream position afterwards. -/
inductive PR (σ α : Type) where
  | ok (a : α) (rest : Toks σ)
  | err (e : LErr σ) (rest : Toks σ)

/-- A parser: `fn(ParseStream) -> syn::Result<α>`. -/
@[implicit_reducible] def P (σ α : Type) : Type := σ → Toks σ → Out σ (PR σ α)

/-- Sequencing with `?`. -/
def P.bind {α β : Type} (p : P σ α) (f : α → P σ β) : P σ β := fun sc ts =>
  Out.bind (p sc ts) fun r =>
    match r with
    | .ok a rest => f a sc rest
    | .err e rest => .ret [] (.err e rest)

instance : Monad (P σ) where
  pure a := fun _ ts => .ret [] (.ok a ts)
  bind := P.bind

/-- The stream as it is now. -/
def inp : P σ (Toks σ) := fun _ ts => .ret [] (.ok ts ts)

/-- `input.span()`: the next token (of a group, its opening delimiter), or the end -/
def spanAt (sc : σ) : Toks σ → σ
  | [] => sc
  | t :: _ => t.openSpan

/-- `input.span()` -/
def inpSpan : P σ σ := fun sc ts => .ret [] (.ok (spanAt sc ts) ts)

/-- `Err(input.error(..))` and the errors of token parsers: at the next token -/
def fail {α : Type} (e : Err) : P σ α := fun sc ts => .ret [] (.err ⟨e, spanAt sc ts⟩ ts)

/-- `Err(syn::Error::new(span, ..))` -/
def failAt {α : Type} (e : Err) (sp : σ) : P σ α := fun _ ts => .ret [] (.err ⟨e, sp⟩ ts)

/-- Run an effect that does not touch the stream. -/
def liftOut {α : Type} (o : Out σ α) : P σ α := fun _ ts => o.bind fun a => .ret [] (.ok a ts)

/-- `emit_error!` inside a parser. -/
def emitP (d : Diag) (sp : σ) : P σ Unit := liftOut (emit d sp)

/-- `.unwrap()` / `.expect(..)` on a parser's result. -/
def unwrapP {α : Type} (site : PanicSite) (p : P σ α) : P σ α := fun sc ts =>
  Out.bind (p sc ts) fun r =>
    match r with
    | .ok a rest => .ret [] (.ok a rest)
    | .err _ _ => .panic site

/-! ### peeking: does not depend on spans -/

/-- `input.is_empty()` -/
def isEmpty : Toks σ → Bool
  | [] => true
  | _ => false

/-- what `peek2` looks at -/
def skip : Toks σ → Toks σ
  | .punct '\'' .joint _ :: .ident _ _ :: r => r
  | _ :: r => r
  | [] => []

/-- `input.peek(syn::Ident::peek_any)` -/
def peekIdentAny : Toks σ → Bool
  | .ident _ _ :: _ => true
  | _ => false

/-- `input.peek(syn::Ident)` -/
def peekIdent : Toks σ → Bool
  | .ident i _ :: _ => i.raw || !(reserved.contains i.name)
  | _ => false

/-- `input.peek(kw::x)` -/
def peekKw (kw : Str) : Toks σ → Bool
  | .ident i _ :: _ => i = ⟨false, kw⟩
  | _ => false

/-- `input.peek(Token![c])` -/
def peekPunct (c : Char) : Toks σ → Bool
  | .punct c' _ _ :: _ => c' = c
  | _ => false

/-- `input.peek(Token![ab])` -/
def peekPunct2 (a b : Char) : Toks σ → Bool
  | .punct a' .joint _ :: .punct b' _ _ :: _ => a' = a && b' = b
  | _ => false

/-- `input.peek(syn::token::Brace)` and friends -/
def peekGroup (d : Delim) : Toks σ → Bool
  | .group d' _ _ :: _ => d' = d
  | _ => false

/-! ### token parsers -/

/-- `syn::Ident::parse_any` -/
def parseIdentAny : P σ (SIdent σ)
  | _, .ident i s :: r => .ret [] (.ok ⟨i, s⟩ r)
  | sc, ts => .ret [] (.err ⟨.expectedIdent, spanAt sc ts⟩ ts)

/-- `<Token![c]>::parse`: the token's span -/
def parsePunct (c : Char) : P σ σ
  | sc, .punct c' s sp :: r =>
    if c' = c then .ret [] (.ok sp r)
    else .ret [] (.err ⟨.expectedPunct c, spanAt sc (.punct c' s sp :: r)⟩ (.punct c' s sp :: r))
  | sc, ts => .ret [] (.err ⟨.expectedPunct c, spanAt sc ts⟩ ts)

/-- `kw::x::parse`: the token's span -/
def parseKw (kw : Str) : P σ σ
  | sc, .ident i s :: r =>
    if i = ⟨false, kw⟩ then .ret [] (.ok s r)
    else .ret [] (.err ⟨.expectedIdent, spanAt sc (.ident i s :: r)⟩ (.ident i s :: r))
  | sc, ts => .ret [] (.err ⟨.expectedIdent, spanAt sc ts⟩ ts)

/-- `proc_macro2::TokenTree::parse` -/
def parseTT : P σ (TT σ)
  | _, t :: r => .ret [] (.ok t r)
  | sc, [] => .ret [] (.err ⟨.noAttribute, sc⟩ [])

/-- A literal and where it is. -/
structure SLit (σ : Type) where
  lit : SynLit
  sp : σ

variable [Spans σ]

/-- `syn::Lit::parse` -/
def parseLit : P σ (SLit σ)
  | _, .lit l s :: r => .ret [] (.ok ⟨.tok l, s⟩ r)
  | sc, .ident i s :: r =>
    if i = ⟨false, c!"true"⟩ then .ret [] (.ok ⟨.bool true, s⟩ r)
    else if i = ⟨false, c!"false"⟩ then .ret [] (.ok ⟨.bool false, s⟩ r)
    else .ret [] (.err ⟨.expectedLit, spanAt sc (.ident i s :: r)⟩ (.ident i s :: r))
  | _, .punct '-' _ s :: .lit (.int x) s' :: r =>
    .ret [] (.ok ⟨.tok (.int ('-' :: x)), joinOr s s'⟩ r)
  | _, .punct '-' _ s :: .lit (.float x) s' :: r =>
    .ret [] (.ok ⟨.tok (.float ('-' :: x)), joinOr s s'⟩ r)
  | sc, ts => .ret [] (.err ⟨.expectedLit, spanAt sc ts⟩ ts)

/-- `input.peek(syn::Lit)` -/
def peekLit (ts : Toks σ) : Bool :=
  match parseLit callSite ts with
  | .ret _ (.ok _ _) => true
  | _ => false

/-- A string with a span (an integer literal's text or a string literal's value). -/
structure SStr (σ : Type) where
  str : Str
  sp : σ

/-- `syn::LitInt::parse` -/
def parseLitInt : P σ (SStr σ) := do
  let l ← parseLit
  match l.lit with
  | .tok (.int s) => pure ⟨s, l.sp⟩
  | _ => fail .expectedLit

/-- `syn::LitStr::parse` -/
def parseLitStr : P σ (SStr σ) := do
  let l ← parseLit
  match l.lit with
  | .tok (.str s) => pure ⟨s, l.sp⟩
  | _ => fail .expectedLit

/-! ### src/parse.rs -/

/-- The content of a group and its delimiters. -/
structure Inner (σ : Type) where
  toks : Toks σ
  sp : DelimSpan σ

omit [Spans σ] in
/-- src/parse.rs:6-34 `extract_braced` etc. and `braced_tokens` etc. -/
def extractGroup (d : Delim) : P σ (Inner σ)
  | sc, .group d' inner s :: r =>
    if d' = d then .ret [] (.ok ⟨inner, s⟩ r)
    else .ret [] (.err ⟨.expectedGroup d, spanAt sc (.group d' inner s :: r)⟩ (.group d' inner s :: r))
  | sc, ts => .ret [] (.err ⟨.expectedGroup d, spanAt sc ts⟩ ts)

omit [Spans σ] in
/-- src/parse.rs:43-77 `braced::<T>` and `parenthesized::<T>`, returning the delimiter too -/
def inGroup {α : Type} (d : Delim) (p : P σ α) : P σ (DelimSpan σ × α) := fun sc ts =>
  if peekGroup d ts then
    Out.bind (unwrapP .peekedGroup (extractGroup d) sc ts) fun r =>
      match r with
      | .ok inner rest =>
        Out.bind (p inner.sp.closing inner.toks) fun q =>
          match q with
          | .ok a left =>
            if isEmpty left then .ret [] (.ok (inner.sp, a) rest)
            else .ret [] (.err ⟨.extraTokens d, spanAt inner.sp.closing left⟩ ts)
          | .err e _ => .ret [] (.err e ts)
      | .err e _ => .ret [] (.err e ts)
  else .ret [] (.err ⟨.noGroup d, spanAt sc ts⟩ ts)

omit [Spans σ] in
/-- src/parse.rs:79-91 `rollback_err` -/
def rollback {α : Type} (p : P σ α) : P σ (Option α) := fun sc ts =>
  Out.bind (p sc ts) fun r =>
    match r with
    | .ok a rest => .ret [] (.ok (some a) rest)
    | .err _ _ => .ret [] (.ok none ts)

/-! ### `syn::Path` -/

/-- `syn::PathArguments` -/
inductive PathArgs (σ : Type) where
  | none
  /-- `<inner>`, or `::<inner>` with the spans of the colons -/
  | angle (turbofish : Option (σ × σ)) (lt : σ) (inner : Toks σ) (gt : σ)
  /-- function sugar; `sp` is the span of all of it -/
  | paren (inner : Toks σ) (sp : σ)

/-- `syn::PathSegment`, with the spans of the `::` after it (if it is not the last) -/
structure PathSeg (σ : Type) where
  ident : SIdent σ
  args : PathArgs σ
  sep : σ × σ

/-- `syn::Path` -/
structure Path (σ : Type) where
  leading : Option (σ × σ)
  segs : List (PathSeg σ)

omit [Spans σ] in
/-- `syn::Path::from(ident)` -/
def Path.ofIdent (i : SIdent σ) : Path σ := ⟨Option.none, [⟨i, .none, (i.sp, i.sp)⟩]⟩

omit [Spans σ] in
/-- `syn::Path::get_ident` -/
def Path.getIdent : Path σ → Option (SIdent σ)
  | ⟨.none, [⟨i, .none, _⟩]⟩ => some i
  | _ => Option.none

/-- Forget the spans. -/
def PathArgs.erase : PathArgs σ → Mview.PathArgs
  | .none => .none
  | .angle t _ inner _ => .angle t.isSome (eraseToks inner)
  | .paren inner _ => .paren (eraseToks inner)

/-- Forget the spans. -/
def PathSeg.erase (s : PathSeg σ) : Mview.PathSeg := ⟨s.ident.id, s.args.erase⟩

/-- Forget the spans. -/
def Path.erase (p : Path σ) : Mview.Path := ⟨p.leading.isSome, p.segs.map PathSeg.erase⟩

/-- Result of `syn::Path::parse`: the path or the span of the error, and the position after it. -/
inductive PathRun (σ : Type) where
  | path (p : Path σ) (rest : Toks σ)
  | error (sp : σ) (rest : Toks σ)

/-- Forget the spans. -/
def PathRun.erase : PathRun σ → Option Mview.Path × Mview.Toks
  | .path p rest => (some p.erase, eraseToks rest)
  | .error _ rest => (Option.none, eraseToks rest)

/-- `syn::Path::parse` with spans; `pp` is what it does when spans are forgotten. -/
structure PathParser (σ : Type) (pp : Mview.PathParser) where
  run : σ → Toks σ → PathRun σ
  erases : ∀ sc ts, (run sc ts).erase = pp.run (eraseToks ts)

omit [Spans σ] in
/-- `syn::Path::parse` as a parser. -/
def parsePath {pp : Mview.PathParser} (lp : PathParser σ pp) : P σ (Path σ) := fun sc ts =>
  match lp.run sc ts with
  | .path p rest => .ret [] (.ok p rest)
  | .error sp rest => .ret [] (.err ⟨.badPath, sp⟩ rest)

end Mview.Loc
