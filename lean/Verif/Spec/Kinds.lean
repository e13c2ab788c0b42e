import Verif.Spec.Meaning
import Verif.Model.Mview
/-
C65: which errors there are.
-/

namespace Mview

/-- The seven directives. -/
def sevenDirectives : List Ident :=
  [plain c!"class", plain c!"style", plain c!"attr", plain c!"prop", plain c!"on", plain c!"use", plain c!"clone"]

/-- The error can occur.  Those of the parsers that cannot are dead code. -/
def Diag.Occurs : Diag → Prop
  /- `.a-r#b` -/
  | .rawInKebab i => i.raw = true
  /- `use:"a"` -/
  | .expectedIdentifier _ => True
  /- `g["a"]` -/
  | .unsupportedPrefix i => i ≠ plain c!"f"
  /- `a=;`, `a=b` -/
  | .missingValue _ => True
  | .unterminated => True
  | .expectedChildrenBlock => True
  | .unknownAttribute => True
  | .childrenNotFound => True
  | .nonStringChild => True
  | .extraSemicolon => True
  /- `Foo |a`, `+`, `slot:5`, `a::5` -/
  | .synError e => e ∈ [.closureNotClosed, .invalidChild, .expectedKebab, .badPath]
  /- `on:5`, `class:{a b}`, `on:a:5` -/
  | .synAbort e => e ∈ [.expectedKebab, .extraTokens .brace, .expectedIdent]
  | .selectorOnSlot => True
  | .spreadOnSlot => True
  | .directiveOnSlot d => d ≠ plain c!"clone"
  | .unknownDirective d => d ∉ sevenDirectives
  | .directiveOnElement d => d ∈ [plain c!"attr", plain c!"clone"]
  | .modifierNotAllowed _ => True
  | .unknownModifier m => m ≠ plain c!"undelegated"
  | .eventNotIdent _ => True
  | .cloneValue => True
  | .slotNameIsPath => True
  | .functionGenerics => False
  | .slotAtTopLevel => True

/-- The identifier the error is about, if it is about one. -/
def Diag.about : Diag → Option Ident
  | .rawInKebab i => some i
  | .unsupportedPrefix i => some i
  | .directiveOnSlot d => some d
  | .unknownDirective d => some d
  | .directiveOnElement d => some d
  | .modifierNotAllowed m => some m
  | .unknownModifier m => some m
  | _ => none

end Mview
