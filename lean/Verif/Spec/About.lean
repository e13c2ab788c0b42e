import Verif.Spec.LocReads
/-
C70: what an error is about, in terms of the tokens of the input.
-/

namespace Mview.Loc
open Lex

variable {σ : Type}

/-- `From e0 ts e r`: `r` is all that is left somewhere in the input `ts`, up to its end or that of the group it is in.
`e` is the place of that end: the closing delimiter, or `e0`. -/
inductive From (e0 : σ) (ts : Toks σ) : σ → Toks σ → Prop
  | start : From e0 ts e0 ts
  | next {e t r} : From e0 ts e (t :: r) → From e0 ts e r
  | inside {e d c b r} : From e0 ts e (.group d c b :: r) → From e0 ts b.closing c

/-- Of `syn::Path::parse`: what is left is a part of what was given. -/
def PathParser.Consumes {pp : Mview.PathParser} (lp : PathParser σ pp) : Prop :=
  ∀ sc ts, match lp.run sc ts with
    | .path _ rest => rest <:+ ts
    | .error _ rest => rest <:+ ts

/-- Somewhere in the input there is this. -/
def Has (e0 : σ) (ts : Toks σ) (r : Toks σ) : Prop := ∃ e, From e0 ts e r

variable [Spans σ] {pp : Mview.PathParser}

/-- There is a name or path at the beginning of `r`, and `p` is its place.  (`e` is the place of the end of `r`.) -/
def NameAt (lp : PathParser σ pp) (e : σ) (r : Toks σ) (p : σ) : Prop :=
  (∃ run rest, LongName r run rest ∧ p = (kebabOf run).place) ∨ (∃ path rest, lp.run e r = .path path rest ∧ p = path.place)

/-- This is the place of a name or path in the input. -/
def TagAt (lp : PathParser σ pp) (e0 : σ) (ts : Toks σ) (p : σ) : Prop := ∃ e r, From e0 ts e r ∧ NameAt lp e r p

omit [Spans σ] in
/-- There is `slot:` in the input, and `r` follows. -/
def SlotAt (e0 : σ) (ts : Toks σ) (e : σ) (r : Toks σ) : Prop :=
  ∃ q s q', From e0 ts e (.ident (plain c!"slot") q :: .punct ':' s q' :: r)

omit [Spans σ] in
/-- This can neither be part of an attribute nor end an element. -/
def NoEnd (t : TT σ) : Prop :=
  (∀ s q, t ≠ .punct ';' s q) ∧ (∀ s q, t ≠ .punct '|' s q) ∧ (∀ d c b, t = .group d c b → d = .bracket)

omit [Spans σ] in
/-- `syn::Path::parse` gives an error about this place. -/
def BadPath (lp : PathParser σ pp) (e0 : σ) (ts : Toks σ) (p : σ) : Prop :=
  ∃ e r rest, From e0 ts e r ∧ lp.run e r = .error p rest

omit [Spans σ] in
/-- The place of a value, or, if there is none, that of what comes next (`eq` is that of the `=` before it). -/
def ValuePlace (eq : σ) (r : Toks σ) (p : σ) : Prop :=
  (∃ v rest, ValueNext r v rest ∧ p = v.place) ∨ (NoValue (eraseToks r) ∧ p = nextPlace eq r)

/-- What an error at `p` is about.  `e0` is the place of the end of the input. -/
def About (lp : PathParser σ pp) (e0 : σ) (ts : Toks σ) (p : σ) : Diag → Prop
  -- a part of a name that is written `r#..`
  | .rawInKebab i => i.raw = true ∧ ∃ r, Has e0 ts (.ident i p :: r)
  -- a string after `attr:`, `prop:`, `use:` or `clone:`
  | .expectedIdentifier x => ∃ d q s q' r, d ∈ [plain c!"attr", plain c!"prop", plain c!"use", plain c!"clone"] ∧
      Has e0 ts (.ident d q :: .punct ':' s q' :: .lit (.str x) p :: r)
  -- a string after `on:`
  | .eventNotIdent x => ∃ q s q' r, Has e0 ts (.ident (plain c!"on") q :: .punct ':' s q' :: .lit (.str x) p :: r)
  -- a word other than `f` before a bracket
  | .unsupportedPrefix i => i ≠ plain c!"f" ∧ ∃ c b r, Has e0 ts (.ident i p :: .group .bracket c b :: r)
  -- what there is after `=` instead of a value
  | .missingValue help => ∃ s q r, Has e0 ts (.punct '=' s q :: r) ∧ NoValue (eraseToks r) ∧ p = nextPlace q r ∧
      (help = true ↔ WordNext (eraseToks r))
  -- a tag that is not followed by enough
  | .unterminated => TagAt lp e0 ts p
  -- what there is after `|..|` instead of a block
  | .expectedChildrenBlock => ∃ e s q args s' q' r, From e0 ts e (.punct '|' s q :: (args ++ .punct '|' s' q' :: r)) ∧
      NoPipe args ∧ p = nextPlace e r ∧ ∀ d c b r', r = .group d c b :: r' → d = .bracket
  -- something that is neither an attribute nor the end of an element
  | .unknownAttribute => ∃ e t r, From e0 ts e (t :: r) ∧ p = nextPlace e (t :: r) ∧ NoEnd t
  -- everything from a tag up to there
  | .childrenNotFound => ∃ q e t r, TagAt lp e0 ts q ∧ From e0 ts e (t :: r) ∧ p = joinOr q (nextPlace e (t :: r)) ∧ NoEnd t
  -- a literal that is not a string
  | .nonStringChild => ∃ r l rest, Has e0 ts r ∧ ValueNext r (.lit ⟨l, p⟩) rest ∧ ∀ x, l ≠ .tok (.str x)
  -- a semicolon, or what is wrong with a path before one
  | .extraSemicolon => (∃ s r, Has e0 ts (.punct ';' s p :: r)) ∨ BadPath lp e0 ts p
  -- what there is instead of a name
  | .synError .expectedKebab | .synAbort .expectedKebab => ∃ e r, From e0 ts e r ∧ ¬ NameStart (eraseToks r) ∧ p = nextPlace e r
  -- a pipe without another one after it
  | .synError .closureNotClosed => ∃ s r, Has e0 ts (.punct '|' s p :: r) ∧ NoPipe r
  -- what there is instead of a child
  | .synError .invalidChild => ∃ e t r, From e0 ts e (t :: r) ∧ p = nextPlace e (t :: r) ∧ NoValue (eraseToks (t :: r)) ∧
      t.erase.isIdent = false ∧ ∀ s q, t ≠ .punct ';' s q
  | .synError .badPath => BadPath lp e0 ts p
  -- what there is after `:` instead of a modifier
  | .synAbort .expectedIdent => ∃ e s q r, From e0 ts e (.punct ':' s q :: r) ∧ p = nextPlace e r ∧ ∀ i p' r', r ≠ .ident i p' :: r'
  -- what there is after a name in braces
  | .synAbort (.extraTokens .brace) => ∃ e d q s q' c b r run t r', From e0 ts e (.ident d q :: .punct ':' s q' :: .group .brace c b :: r) ∧
      LongName c run (t :: r') ∧ p = nextPlace b.closing (t :: r')
  | .synError _ | .synAbort _ => False
  -- the `.` or `#` of a selector
  | .selectorOnSlot => ∃ c s r, Has e0 ts (.punct c s p :: r) ∧ (c = '.' ∨ c = '#') ∧ NameStart (eraseToks r)
  -- the braces of a spread
  | .spreadOnSlot => ∃ c b r, Has e0 ts (.group .brace c b :: r) ∧ IsSpread (eraseToks c) ∧ p = b.whole
  -- the word before the colon
  | .directiveOnSlot d => d ≠ plain c!"clone" ∧ ∃ s q r, Has e0 ts (.ident d p :: .punct ':' s q :: r)
  | .unknownDirective d => d ∉ [plain c!"class", plain c!"style", plain c!"prop", plain c!"on", plain c!"use", plain c!"attr",
        plain c!"clone"] ∧ ∃ s q r, Has e0 ts (.ident d p :: .punct ':' s q :: r)
  | .directiveOnElement d => d ∈ [plain c!"attr", plain c!"clone"] ∧ ∃ s q r, Has e0 ts (.ident d p :: .punct ':' s q :: r)
  -- the word after the second colon
  | .modifierNotAllowed m => ∃ s q r, Has e0 ts (.punct ':' s q :: .ident m p :: r)
  | .unknownModifier m => m ≠ plain c!"undelegated" ∧ ∃ s q r, Has e0 ts (.punct ':' s q :: .ident m p :: r)
  -- the value after `=`, or the name in braces
  | .cloneValue => (∃ s q r, Has e0 ts (.punct '=' s q :: r) ∧ ValuePlace q r p) ∨
      ∃ d q s q' c b r, Has e0 ts (.ident d q :: .punct ':' s q' :: .group .brace c b :: r) ∧ d = plain c!"clone" ∧ p = b.whole
  -- a path after `slot:` that is more than a name
  | .slotNameIsPath => ∃ e r path rest, SlotAt e0 ts e r ∧ lp.run e r = .path path rest ∧ p = path.place ∧
      ∀ i x, path ≠ ⟨none, [⟨i, .none, x⟩]⟩
  -- the arguments
  | .functionGenerics => ∃ e r path rest seg inner, From e0 ts e r ∧ lp.run e r = .path path rest ∧ seg ∈ path.segs ∧
      seg.args = .paren inner p
  -- the word `slot`, or the name after it
  | .slotAtTopLevel => (∃ s q r, Has e0 ts (.ident (plain c!"slot") p :: .punct ':' s q :: r)) ∨
      ∃ e r, SlotAt e0 ts e r ∧ NameAt lp e r p

end Mview.Loc
