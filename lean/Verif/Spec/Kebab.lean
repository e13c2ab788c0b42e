import Verif.Model.Ast
/-
What a kebab-cased name is, at the level of tokens.
-/

namespace Mview

/-- a `-` (the space after it is irrelevant) -/
def TT.isDash : TT → Bool
  | .punct '-' _ => true
  | _ => false

/-- an identifier or keyword -/
def TT.isIdent : TT → Bool
  | .ident _ => true
  | _ => false

/-- an identifier or integer: the words between the dashes -/
def TT.isWord : TT → Bool
  | .ident _ => true
  | .lit (.int _) => true
  | _ => false

/-- A run of tokens that is a kebab-cased name: starts with an identifier or dash,
consists of dashes, identifiers and integers, no two words next to each other. -/
structure IsKebab (run : Toks) : Prop where
  nonempty : run ≠ []
  start : ∀ t, run.head? = some t → t.isIdent ∨ t.isDash
  tokens : ∀ t ∈ run, t.isWord ∨ t.isDash
  alternate : ∀ pre a b post, run = pre ++ a :: b :: post → ¬ (a.isWord ∧ b.isWord)

/-- The characters a token contributes to a name. -/
def TT.text : TT → Str
  | .ident i => i.name
  | .lit (.int s) => s
  | .punct c _ => [c]
  | _ => []

/-- The text of a name: that of its tokens, without the spaces between. -/
def kebabText (run : Toks) : Str := run.flatMap TT.text

/-- The identifiers written `r#..` after the first token, which are not allowed. -/
def kebabRaws : Toks → List Ident
  | [] => []
  | _ :: run => run.filterMap fun
    | .ident i => if i.raw then some i else none
    | _ => none

/-- The number of sections that are coloured: the first token and each later
word. -/
def kebabSections : Toks → Nat
  | [] => 0
  | _ :: run => 1 + run.countP TT.isWord

/-- The name a run of tokens stands for. -/
def kebabOf (run : Toks) : KebabIdent := ⟨kebabText run, kebabSections run⟩

/-- Rust identifiers do not contain dashes and are not empty. -/
def Ident.Lexical (i : Ident) : Prop := i.name ≠ [] ∧ '-' ∉ i.name

end Mview

namespace Mview

/-- `run` is the longest prefix of `ts` that is a kebab-cased name, `rest` what
follows. -/
structure LongestKebab (ts run rest : Toks) : Prop where
  split : ts = run ++ rest
  kebab : IsKebab run
  longest : ∀ run' rest', ts = run' ++ rest' → IsKebab run' → run'.length ≤ run.length

end Mview
