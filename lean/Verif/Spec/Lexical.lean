import Verif.Spec.Hygiene
import Verif.Spec.Kebab
/-
C61: which texts are identifiers, up to what Unicode says about characters outside ASCII.
-/

namespace Mview
open Lex

/-- The characters identifiers start with and continue with (`XID_Start` and `_`, and `XID_Continue`).  Assumed
is what they are in ASCII, nothing else. -/
structure Letters where
  start : Char → Prop
  cont : Char → Prop
  /-- what can be first can also come later -/
  later : ∀ c, start c → cont c
  alpha : ∀ c : Char, c.isAlpha = true → start c
  under : start '_'
  digit : ∀ c : Char, c.isDigit = true → cont c
  dash : ¬ cont '-'

variable (L : Letters)

/-- The text of an identifier. -/
def Word (n : Str) : Prop := ∃ c cs, n = c :: cs ∧ L.start c ∧ ∀ d ∈ cs, L.cont d

/-- An identifier as the compiler has them: `r#` is not allowed before a few of them. -/
def Valid (i : Ident) : Prop :=
  Word L i.name ∧ (i.raw = true → i.name ∉ [c!"_", c!"self", c!"Self", c!"super", c!"crate"])

mutual
/-- The tokens as a lexer makes them: valid identifiers, and integers (with prefix and suffix) consist of
characters of identifiers. -/
def TT.Lexed : TT → Prop
  | .ident i => Valid L i
  | .lit (.int t) => ∀ c ∈ t, L.cont c
  | .group _ t => Lexed t
  | _ => True
/-- All tokens, at any depth. -/
def Lexed : Toks → Prop
  | [] => True
  | x :: r => x.Lexed ∧ Lexed r
end

/-- The name in snake_case: what `to_snake_ident` makes an identifier of. -/
def underscored (n : Str) : Str := n.map fun c => if c = '-' then '_' else c

end Mview
