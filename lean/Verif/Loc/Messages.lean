import Verif.Loc.Nightly
/-
What errors say: the texts of the messages, and what `proc_macro_error2` makes of them on stable Rust.

Everywhere else an error is a constructor of `Diag`.  Here are the texts of the code for each of them.

Two details are not in this repository but in its dependencies.
`proc_macro_error2::Diagnostic::to_tokens` writes an error as `::core::compile_error! { "text" }`, with the help
in the text.  `syn::parse::ParseBuffer::error` adds a prefix to its message if there are no tokens left in the group
(or the input).  The model reads that off the place of the error, which is then the closing delimiter (or the call
site): `Ends`.
-/

namespace Mview

/-- `Display for proc_macro2::Ident` -/
def Ident.display (i : Ident) : Str := if i.raw then c!"r#" ++ i.name else i.name

/-- A `proc_macro_error2::Diagnostic` without its place.  (The code never adds more than one help, and no notes.) -/
structure Message where
  text : Str
  help : Option Str
  deriving DecidableEq, Repr

/-- A delimiter, in the messages of src/parse.rs:52, 55, 72, 75 -/
def Delim.word : Delim → Str
  | .brace => c!"brace"
  | .paren => c!"paren"
  | .bracket => c!"bracket"

/-- The same, in those of syn -/
def Delim.words : Delim → Str
  | .brace => c!"curly braces"
  | .paren => c!"parentheses"
  | .bracket => c!"square brackets"

/-- `input.error(msg)` of syn: at the end of a group or the input there is a prefix. -/
def inputError (atEnd : Bool) (msg : Str) : Str :=
  if atEnd then c!"unexpected end of input, " ++ msg else msg

/-- The message of a `syn::Error`.  `path` is that of an error of `syn::Path::parse`.  (Simplification: syn says which kind
of literal it expected.  The errors about that are never reported, see C65.) -/
def Err.message (path : Str) (atEnd : Bool) : Err → Str
  | .expectedIdent => inputError atEnd c!"expected ident"
  | .expectedPunct c => inputError atEnd (c!"expected `" ++ [c] ++ c!"`")
  | .expectedLit => inputError atEnd c!"expected literal"
  | .expectedGroup d => inputError atEnd (c!"expected " ++ d.words)
  | .noGroup d => inputError atEnd (c!"no " ++ d.word ++ c!" found")
  | .extraTokens .paren => inputError atEnd c!"found extra tokens trying to parse parenthesized expression"
  | .extraTokens _ => inputError atEnd c!"found extra tokens trying to parse braced expression"
  | .expectedKebab => inputError atEnd c!"expected a kebab-cased ident"
  | .invalidValue => inputError atEnd c!"invalid value: expected bracket, block or literal"
  | .invalidSpread => inputError atEnd c!"invalid spread attribute"
  | .noAttribute => inputError atEnd c!"no attribute found"
  | .noSelector => inputError atEnd c!"no class or id shorthand found"
  -- `syn::Error::new_spanned`
  | .closureNotClosed => c!"closure arguments not closed"
  | .invalidChild => inputError atEnd c!"invalid child: expected literal, block, bracket or element"
  | .badPath => path

/-- What each of the errors says; the lines are those at the constructors of `Diag`. -/
def Diag.message (path : Str) (atEnd : Bool) : Diag → Message
  | .rawInKebab _ => ⟨c!"invalid raw identifier within kebab-ident", none⟩
  | .expectedIdentifier _ => ⟨c!"expected identifier", none⟩
  | .unsupportedPrefix _ => ⟨c!"unsupported prefix: only `f` is supported.", none⟩
  | .missingValue help =>
    ⟨c!"expected value after =", if help then some c!"you may have meant to wrap this in braces" else none⟩
  | .unterminated => ⟨c!"unterminated element", some c!"add a `;` to terminate the element with no children"⟩
  | .expectedChildrenBlock => ⟨c!"expected children block after closure arguments", none⟩
  | .unknownAttribute => ⟨c!"unknown attribute", none⟩
  | .childrenNotFound => ⟨c!"child elements not found", some c!"add a `;` at the end to terminate the element"⟩
  | .nonStringChild => ⟨c!"only string literals are allowed in children", none⟩
  | .extraSemicolon => ⟨c!"extra semi-colon found", some c!"remove this semi-colon"⟩
  | .synError e => ⟨e.message path atEnd, none⟩
  | .synAbort e => ⟨e.message path atEnd, none⟩
  | .selectorOnSlot => ⟨c!"selector shorthands are not supported on slots", none⟩
  | .spreadOnSlot => ⟨c!"spread syntax is not supported on slots", none⟩
  | .directiveOnSlot d => ⟨c!"`" ++ d.display ++ c!":` is not supported on slots", none⟩
  | .unknownDirective _ => ⟨c!"unknown directive", none⟩
  | .directiveOnElement d => ⟨c!"`" ++ d.display ++ c!":` is not supported on elements", none⟩
  | .modifierNotAllowed _ => ⟨c!"unknown modifier: modifiers are only supported on `on:` directives", none⟩
  | .unknownModifier _ => ⟨c!"unknown modifier", some c!":undelegated is the only known modifier"⟩
  | .eventNotIdent _ => ⟨c!"event type must be an identifier", none⟩
  | .cloneValue => ⟨c!"`clone:` does not take any values", none⟩
  | .slotNameIsPath => ⟨c!"slot name must be a single ident, not a path", none⟩
  | .functionGenerics => ⟨c!"function generics are not allowed", none⟩
  | .slotAtTopLevel => ⟨c!"slots should be inside a parent that supports slots", none⟩

/-- `proc_macro_error2::Diagnostic::to_tokens`: the text -/
def Message.literal (m : Message) : Str :=
  match m.help with
  | none => m.text
  | some h => m.text ++ c!"\n\n  = help: " ++ h ++ c!"\n\n"

/-- `proc_macro_error2::Diagnostic::to_tokens` -/
def Message.compileError (m : Message) : Toks :=
  tAbs [c!"core", c!"compile_error"] ++ [tP '!', tBrace [tStr m.literal]]

end Mview

namespace Mview.Loc
variable {σ : Type}

/-- Which places are the end of a group or of the input. -/
class Ends (σ : Type) where
  isEnd : σ → Bool

/-- What an error says.  `path` gives the messages of `syn::Path::parse`. -/
def LDiag.message [Ends σ] (path : σ → Str) (d : LDiag σ) : Message := d.diag.message (path d.sp) (Ends.isEnd d.sp)

/-- leptos-mview-macro/src/lib.rs:4-9 `mview`: the tokens it returns, if it does return.  `#[proc_macro_error]` on stable
Rust returns `quote! { #(#errors)* #dummy }` if there are errors. -/
def macroOutput [Spans σ] [Ends σ] {pp : Mview.PathParser} (path : σ → Str) (lp : PathParser σ pp) (s : Sched) (ts : Toks σ) :
    Option Mview.Toks :=
  match mview lp s ts with
  | .tokens out => some (eraseToks out)
  | .errors ds dummy => some (ds.flatMap (fun d => (d.message path).compileError) ++ eraseToks dummy)
  | .panicked _ => none
  | .hangs => none

/-- The places of an input as far as they matter here. -/
inductive Mark where
  | token
  | fin
  deriving DecidableEq, Repr

instance : Spans Mark where
  callSite := .fin
  join _ _ := none
  join_self _ := rfl

instance : Ends Mark where
  isEnd m := m = .fin

mutual
/-- The token with marks: the closing delimiters are the ends. -/
def markTT : Mview.TT → TT Mark
  | .ident i => .ident i .token
  | .punct c s => .punct c s .token
  | .lit l => .lit l .token
  | .group d ts => .group d (mark ts) ⟨.token, .fin, .token⟩
/-- The tokens with marks. -/
def mark : Mview.Toks → Toks Mark
  | [] => []
  | t :: ts => markTT t :: mark ts
end

/-- What the macro says about these tokens; nothing if it crashes. -/
def saidOf {pp : Mview.PathParser} (path : Mark → Str) (lp : PathParser Mark pp) (s : Sched) (ts : Mview.Toks) :
    Option (List Message) :=
  match mview lp s (mark ts) with
  | .tokens _ => some []
  | .errors ds _ => some (ds.map (LDiag.message path))
  | .panicked _ => none
  | .hangs => none

end Mview.Loc
