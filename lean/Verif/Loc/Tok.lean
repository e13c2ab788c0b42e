import Verif.Model.Mview
/-
The model with source spans: where every token and every error is attributed to.

`Verif/Model` says what the macro does with tokens regardless of where they are.  The files
`Verif/Loc` model the same functions again with the spans that the code passes around; that
forgetting the spans gives back the first model is proved in `Loc/Erase.lean`.

Here: spans, tokens with spans, outcomes with located diagnostics.
-/

namespace Mview.Loc

/-- What the code does with `proc_macro2::Span`s: it takes those of tokens, it uses
`Span::call_site()`, and it joins two (src/span.rs:11).  On stable Rust joining gives nothing. -/
class Spans (σ : Type) where
  /-- `Span::call_site()` -/
  callSite : σ
  /-- `Span::join` -/
  join : σ → σ → Option σ
  /-- joining a span with itself, if possible, changes nothing -/
  join_self : ∀ a, (join a a).getD a = a

export Spans (callSite)

/-- src/span.rs:11 `join`: the first if they cannot be joined -/
def joinOr {σ : Type} [Spans σ] (a b : σ) : σ := (Spans.join a b).getD a

/-- `proc_macro2::extra::DelimSpan` -/
structure DelimSpan (σ : Type) where
  opening : σ
  closing : σ
  /-- `DelimSpan::join()`, the whole group -/
  whole : σ

/-- `Group::set_span` -/
def DelimSpan.single {σ : Type} (s : σ) : DelimSpan σ := ⟨s, s, s⟩

/-- An identifier and where it is. -/
structure SIdent (σ : Type) where
  id : Ident
  sp : σ

/-- `proc_macro2::TokenTree` with spans -/
inductive TT (σ : Type) where
  | ident (i : Ident) (sp : σ)
  | punct (c : Char) (s : Spacing) (sp : σ)
  | lit (l : Lit) (sp : σ)
  | group (d : Delim) (ts : List (TT σ)) (sp : DelimSpan σ)

/-- A token stream with spans. -/
abbrev Toks (σ : Type) := List (TT σ)

/-- `TokenTree::span` -/
def TT.span {σ : Type} : TT σ → σ
  | .ident _ s => s
  | .punct _ _ s => s
  | .lit _ s => s
  | .group _ _ s => s.whole

/-- syn's `open_span_of_group`: of a group, its opening delimiter -/
def TT.openSpan {σ : Type} : TT σ → σ
  | .group _ _ s => s.opening
  | t => t.span

/-- `Spanned::span` of printed tokens (`join_spans` in quote): from the first to the last -/
def toksSpan {σ : Type} [Spans σ] : Toks σ → σ
  | [] => callSite
  | [t] => t.span
  | t :: u :: ts => joinOr t.span ((u :: ts).getLast (by simp)).span

mutual
/-- Forget the spans. -/
def TT.erase {σ : Type} : TT σ → Mview.TT
  | .ident i _ => .ident i
  | .punct c s _ => .punct c s
  | .lit l _ => .lit l
  | .group d ts _ => .group d (eraseToks ts)
/-- Forget the spans. -/
def eraseToks {σ : Type} : List (TT σ) → Mview.Toks
  | [] => []
  | t :: ts => t.erase :: eraseToks ts
end

/-- A diagnostic and where it is reported. -/
structure LDiag (σ : Type) where
  diag : Diag
  sp : σ

/-- A `syn::Error`: its message and `Error::span()`. -/
structure LErr (σ : Type) where
  err : Err
  sp : σ

/-- Result of running a piece of the macro, see `Mview.Out`. -/
inductive Out (σ α : Type) where
  | ret (ds : List (LDiag σ)) (a : α)
  | abort (ds : List (LDiag σ))
  | panic (p : PanicSite)
  | diverge

/-- Prepend diagnostics emitted earlier. -/
def Out.tell {σ α : Type} (ds : List (LDiag σ)) : Out σ α → Out σ α
  | .ret es a => .ret (ds ++ es) a
  | .abort es => .abort (ds ++ es)
  | .panic p => .panic p
  | .diverge => .diverge

/-- Sequencing. -/
def Out.bind {σ α β : Type} (x : Out σ α) (f : α → Out σ β) : Out σ β :=
  match x with
  | .ret ds a => (f a).tell ds
  | .abort ds => .abort ds
  | .panic p => .panic p
  | .diverge => .diverge

instance {σ : Type} : Monad (Out σ) where
  pure a := .ret [] a
  bind := Out.bind

/-- `emit_error!(span, ..)` -/
def emit {σ : Type} (d : Diag) (sp : σ) : Out σ Unit := .ret [⟨d, sp⟩] ()

/-- `abort!(span, ..)` -/
def abortWith {σ α : Type} (d : Diag) (sp : σ) : Out σ α := .abort [⟨d, sp⟩]

end Mview.Loc
