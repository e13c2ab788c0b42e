/-
Token trees: the macro's input and output alphabet.

Models the part of `proc_macro2` that leptos-mview touches.  `proc_macro2` is a
dependency, not part of /repo; the uses that fix what has to be represented are
cited at each definition.
-/

namespace Mview

/-- Text.  Identifier and string text is a list of characters (Rust `char`s);
Rust's `str` comparison is byte-wise on UTF-8, which is the order of the code
points, see `strCmp` in `Ast.lean`. -/
abbrev Str := List Char

/-- `c!"abc"` is the literal `['a', 'b', 'c']`. -/
macro:max "c!" s:str : term => do
  let cs ← s.getString.toList.toArray.mapM fun c => `($(Lean.Syntax.mkCharLit c))
  `(([$cs,*] : List Char))

/-- Group delimiters.
Simplification: the invisible delimiter (`Delimiter::None`, which only appears
when the macro is given fragments captured by another `macro_rules!` macro) is
not modelled. -/
inductive Delim where
  | paren | brace | bracket
  deriving DecidableEq, Repr

/-- Whether a punctuation character is immediately followed by another one
(`proc_macro2::Spacing`). -/
inductive Spacing where
  | alone | joint
  deriving DecidableEq, Repr

/-- An identifier: `raw` for the `r#name` form, `name` without the `r#`.
Keywords, `_`, `true` and `false` are identifiers too at the token level
(used through `syn::Ident::parse_any`, leptos-mview-core/src/ast/ident.rs:115). -/
structure Ident where
  raw : Bool
  name : Str
  deriving DecidableEq, Repr

/-- Literal tokens.  Simplification: a string literal is represented by its
value (spelling — raw or escaped — and suffix are not distinguished); numbers by
their text; `other` stands for every other literal (char, byte, byte string, C
string), by its text. -/
inductive Lit where
  | str (value : Str)
  | int (text : Str)
  | float (text : Str)
  | other (text : Str)
  deriving DecidableEq, Repr

/-- `proc_macro2::TokenTree`.  Simplification: source spans are not modelled, so
a token is what it is, not where it is. -/
inductive TT where
  | ident (i : Ident)
  | punct (c : Char) (s : Spacing)
  | lit (l : Lit)
  | group (d : Delim) (ts : List TT)
  deriving Repr

/-- A token stream. -/
abbrev Toks := List TT

mutual
/-- Number of tokens in a token tree, at every nesting depth. -/
def TT.size : TT → Nat
  | .group _ ts => toksSize ts + 1
  | _ => 1
/-- Number of tokens in a token stream, at every nesting depth. -/
def toksSize : List TT → Nat
  | [] => 0
  | t :: ts => t.size + toksSize ts
end

end Mview
