import Verif.Model.Tok
/-
Outcomes of running (a part of) the macro: the value, the diagnostics emitted so
far, and the three ways of not producing a value.

Models `proc_macro_error2` as used by the macro: `emit_error!` appends to a
global list that survives parser rollbacks; `abort!` stops the macro keeping the
list; a Rust panic (`unwrap`, `expect`, `panic!`, `assert!`, `Ident::new_raw`)
crashes it.
-/

namespace Mview

/-- `syn::Error`s the parsers can return, one constructor per message. -/
inductive Err where
  /-- "expected ident" from `syn::Ident::parse_any` -/
  | expectedIdent
  /-- "expected `c`" from `<Token![c]>::parse` -/
  | expectedPunct (c : Char)
  /-- "expected literal / integer literal / string literal" from syn -/
  | expectedLit
  /-- "expected square brackets / curly braces / parentheses" from syn -/
  | expectedGroup (d : Delim)
  /-- src/parse.rs:55, 75 "no brace found" / "no paren found" -/
  | noGroup (d : Delim)
  /-- src/parse.rs:52, 72 "found extra tokens trying to parse … expression" -/
  | extraTokens (d : Delim)
  /-- src/ast/ident.rs:124 "expected a kebab-cased ident" -/
  | expectedKebab
  /-- src/ast/value.rs:69 "invalid value: expected bracket, block or literal" -/
  | invalidValue
  /-- src/ast/attribute/spread_attrs.rs:33 "invalid spread attribute" -/
  | invalidSpread
  /-- src/ast/attribute.rs:41 "no attribute found" -/
  | noAttribute
  /-- src/ast/attribute/selector.rs:72 "no class or id shorthand found" -/
  | noSelector
  /-- src/ast/element.rs:172-175 "closure arguments not closed" -/
  | closureNotClosed
  /-- src/ast/children.rs:83 "invalid child: expected literal, block, bracket or element" -/
  | invalidChild
  /-- any error of `syn::Path::parse` (src/ast/tag.rs:69) -/
  | badPath
  deriving DecidableEq, Repr

/-- Diagnostics, one constructor per `emit_error!`/`abort!` site.  The payload is
the thing the message is attached to. -/
inductive Diag where
  /-- src/ast/ident.rs:151 "invalid raw identifier within kebab-ident" -/
  | rawInKebab (i : Ident)
  /-- src/ast/ident.rs:204 "expected identifier" -/
  | expectedIdentifier (s : Str)
  /-- src/ast/value.rs:96-99 "unsupported prefix: only `f` is supported." -/
  | unsupportedPrefix (i : Ident)
  /-- src/ast/value.rs:132-143 "expected value after =", `help` when an ident follows -/
  | missingValue (help : Bool)
  /-- src/ast/element.rs:67-70 "unterminated element" -/
  | unterminated
  /-- src/ast/element.rs:89-92 "expected children block after closure arguments" -/
  | expectedChildrenBlock
  /-- src/ast/element.rs:99 "unknown attribute" -/
  | unknownAttribute
  /-- src/ast/element.rs:100-103 "child elements not found" -/
  | childrenNotFound
  /-- src/ast/children.rs:67 "only string literals are allowed in children" -/
  | nonStringChild
  /-- src/ast/children.rs:112-115 "extra semi-colon found" -/
  | extraSemicolon
  /-- src/ast/children.rs:118 a `syn::Error` emitted as is -/
  | synError (e : Err)
  /-- src/error_ext.rs:22 a `syn::Error` aborting the macro -/
  | synAbort (e : Err)
  /-- src/expand.rs:179-182 "selector shorthands are not supported on slots" -/
  | selectorOnSlot
  /-- src/expand.rs:233 "spread syntax is not supported on slots" -/
  | spreadOnSlot
  /-- src/expand.rs:246 "`{}:` is not supported on slots" -/
  | directiveOnSlot (dir : Ident)
  /-- src/expand.rs:252, src/expand/subroutines.rs:210 "unknown directive" -/
  | unknownDirective (dir : Ident)
  /-- src/expand/subroutines.rs:206 "`{}:` is not supported on elements" -/
  | directiveOnElement (dir : Ident)
  /-- src/expand/utils.rs:24-27 "unknown modifier: modifiers are only supported on `on:` directives" -/
  | modifierNotAllowed (m : Ident)
  /-- src/expand/subroutines.rs:74-77 "unknown modifier" (on `on:`) -/
  | unknownModifier (m : Ident)
  /-- src/expand/subroutines.rs:61 "event type must be an identifier" -/
  | eventNotIdent (s : Str)
  /-- src/expand/subroutines.rs:261 "`clone:` does not take any values" -/
  | cloneValue
  /-- src/expand.rs:352 "slot name must be a single ident, not a path" -/
  | slotNameIsPath
  /-- src/expand/utils.rs:43 "function generics are not allowed" (abort) -/
  | functionGenerics
  /-- src/lib.rs:43-46, 51-54 "slots should be inside a parent that supports slots" (abort) -/
  | slotAtTopLevel
  deriving DecidableEq, Repr

/-- Panic sites: every `unwrap`, `expect`, `panic!`, `assert_eq!` in the macro and
the panicking constructor `syn::Ident::new_raw`. -/
inductive PanicSite where
  /-- src/ast/ident.rs:105 and src/expand.rs:368: `Ident::new_raw(name)` with a
  name that cannot be a raw identifier -/
  | rawIdent (name : Str)
  /-- src/expand.rs:347 "called `slots_to_tokens` on non-slot element" -/
  | slotNotComponent
  /-- src/ast/value.rs:47, 55, 56, 63, 66 `unwrap`s after a successful peek -/
  | valueUnwrap
  /-- src/parse.rs:46, 66 "peeked brace" / "peeked paren" -/
  | peekedGroup
  /-- src/ast/ident.rs:59-60 indexing / "kebab ident should not be empty" -/
  | emptyKebab
  /-- src/ast/attribute/spread_attrs.rs:25, src/parse.rs:95 parsing the rest as a `TokenStream` -/
  | takeRest
  /-- src/ast/children.rs:75-76 `slot` and `:` after peeking them -/
  | slotUnwrap
  /-- src/ast/children.rs:116 `;` after peeking it -/
  | semiUnwrap
  /-- src/ast/element.rs:112 "element should be a component" -/
  | elementNotComponent
  /-- src/expand.rs:204, 224 "class directive is known" / "attr directive is known" -/
  | directiveKnown
  /-- src/expand.rs:357 "checked that element is a component" -/
  | slotChecked
  /-- src/expand/subroutines.rs:38 `assert_eq!(use_token, "use")` -/
  | assertUse
  /-- src/expand/subroutines.rs:56 `assert_eq!(dir, "on")` -/
  | assertOn
  deriving DecidableEq, Repr

/-- Result of running a piece of the macro. -/
inductive Out (α : Type) where
  /-- finished with a value after emitting `ds` -/
  | ret (ds : List Diag) (a : α)
  /-- `abort!`: stopped, `ds` (ending with the aborting one) reported -/
  | abort (ds : List Diag)
  /-- the macro panicked -/
  | panic (p : PanicSite)
  /-- a loop of the model ran out of its iteration budget (shown impossible in
  `Props`: the loops of the code terminate) -/
  | diverge

/-- Prepend diagnostics emitted earlier. -/
def Out.tell {α : Type} (ds : List Diag) : Out α → Out α
  | .ret es a => .ret (ds ++ es) a
  | .abort es => .abort (ds ++ es)
  | .panic p => .panic p
  | .diverge => .diverge

/-- Sequencing. -/
def Out.bind {α β : Type} (x : Out α) (f : α → Out β) : Out β :=
  match x with
  | .ret ds a => (f a).tell ds
  | .abort ds => .abort ds
  | .panic p => .panic p
  | .diverge => .diverge

instance : Monad Out where
  pure a := .ret [] a
  bind := Out.bind

/-- `emit_error!`: record a diagnostic and carry on. -/
def emit (d : Diag) : Out Unit := .ret [d] ()

/-- `abort!`: record a diagnostic and stop. -/
def abortWith {α : Type} (d : Diag) : Out α := .abort [d]

end Mview
