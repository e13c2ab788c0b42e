import Verif.Spec.About
import Verif.Spec.Kinds
import Verif.Loc.Messages
/-
C72: what errors say.
-/

namespace Mview

/-- All that is ever said, other than about a directive on a slot and by syn about paths. -/
def catalogue : List Message := [
  -- names
  ⟨c!"expected a kebab-cased ident", none⟩,
  ⟨c!"unexpected end of input, expected a kebab-cased ident", none⟩,
  ⟨c!"invalid raw identifier within kebab-ident", none⟩,
  -- values
  ⟨c!"expected value after =", none⟩,
  ⟨c!"expected value after =", some c!"you may have meant to wrap this in braces"⟩,
  ⟨c!"unsupported prefix: only `f` is supported.", none⟩,
  -- elements
  ⟨c!"unterminated element", some c!"add a `;` to terminate the element with no children"⟩,
  ⟨c!"unknown attribute", none⟩,
  ⟨c!"child elements not found", some c!"add a `;` at the end to terminate the element"⟩,
  ⟨c!"closure arguments not closed", none⟩,
  ⟨c!"expected children block after closure arguments", none⟩,
  -- children
  ⟨c!"invalid child: expected literal, block, bracket or element", none⟩,
  ⟨c!"only string literals are allowed in children", none⟩,
  ⟨c!"extra semi-colon found", some c!"remove this semi-colon"⟩,
  -- directives
  ⟨c!"unknown directive", none⟩,
  ⟨c!"`attr:` is not supported on elements", none⟩,
  ⟨c!"`clone:` is not supported on elements", none⟩,
  ⟨c!"`clone:` does not take any values", none⟩,
  ⟨c!"expected identifier", none⟩,
  ⟨c!"event type must be an identifier", none⟩,
  ⟨c!"expected ident", none⟩,
  ⟨c!"unexpected end of input, expected ident", none⟩,
  ⟨c!"found extra tokens trying to parse braced expression", none⟩,
  ⟨c!"unknown modifier: modifiers are only supported on `on:` directives", none⟩,
  ⟨c!"unknown modifier", some c!":undelegated is the only known modifier"⟩,
  -- slots
  ⟨c!"slot name must be a single ident, not a path", none⟩,
  ⟨c!"slots should be inside a parent that supports slots", none⟩,
  ⟨c!"selector shorthands are not supported on slots", none⟩,
  ⟨c!"spread syntax is not supported on slots", none⟩]

/-- What is said about a directive on a slot. -/
def notOnSlots (name : Str) : Message := ⟨c!"`" ++ name ++ c!":` is not supported on slots", none⟩

/-- What went wrong, regardless of what it is about, and of whether it could be recovered from.  The name of a
directive that is not supported is part of it. -/
def Diag.mistake : Diag → Diag
  | .rawInKebab _ => .rawInKebab (plain [])
  | .expectedIdentifier _ => .expectedIdentifier []
  | .unsupportedPrefix _ => .unsupportedPrefix (plain [])
  | .synAbort e => .synError e
  | .directiveOnSlot d => .directiveOnSlot (plain d.display)
  | .unknownDirective _ => .unknownDirective (plain [])
  | .modifierNotAllowed _ => .modifierNotAllowed (plain [])
  | .unknownModifier _ => .unknownModifier (plain [])
  | .eventNotIdent _ => .eventNotIdent []
  | d => d

/-- How Rust reads errors at the beginning of tokens: the texts of the invocations of `::core::compile_error!`, and what
follows them. -/
def readErrors : Toks → List Str × Toks
  | .punct ':' a :: .punct ':' b :: .ident i :: .punct ':' c :: .punct ':' d :: .ident j :: .punct '!' e ::
      .group .brace [.lit (.str x)] :: rest =>
    if i = plain c!"core" ∧ j = plain c!"compile_error" then (x :: (readErrors rest).1, (readErrors rest).2)
    else ([], .punct ':' a :: .punct ':' b :: .ident i :: .punct ':' c :: .punct ':' d :: .ident j :: .punct '!' e ::
      .group .brace [.lit (.str x)] :: rest)
  | ts => ([], ts)

end Mview

namespace Mview.Loc
variable {σ : Type}

/-- The ends are marked: the closing delimiters and the call site, and nothing else. -/
structure Marked [Spans σ] [Ends σ] (ts : Toks σ) : Prop where
  ends : ∀ {e r}, From callSite ts e r → Ends.isEnd e = true
  tokens : ∀ {e t r}, From callSite ts e (t :: r) → Ends.isEnd t.openSpan = false

/-- These errors say whether there is something else instead of what is expected, or nothing. -/
def saysEnd : List Diag := [.synError .expectedKebab, .synAbort .expectedKebab, .synAbort .expectedIdent]

end Mview.Loc
