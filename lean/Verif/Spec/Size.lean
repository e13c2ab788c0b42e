import Verif.Model.Syn
/-
C51: how long a piece of code is.
-/

namespace Mview

/-- The length of an identifier. -/
def Ident.len (i : Ident) : Nat := i.name.length + if i.raw then 2 else 0

/-- The length of a literal. -/
def Lit.len : Lit → Nat
  | .str s => s.length + 2
  | .int s => s.length
  | .float s => s.length
  | .other s => s.length

mutual
/-- The length of a token tree, with a space after each token. -/
def TT.len : TT → Nat
  | .ident i => i.len + 1
  | .punct _ _ => 2
  | .lit l => l.len + 1
  | .group _ ts => toksLen ts + 4
/-- The length of some tokens, with a space after each. -/
def toksLen : Toks → Nat
  | [] => 0
  | t :: ts => t.len + toksLen ts
end

/-- The length of the arguments of a path segment, without punctuation. -/
def PathArgs.len : PathArgs → Nat
  | .none => 0
  | .angle _ inner => toksLen inner
  | .paren inner => toksLen inner

/-- The length of a path, without punctuation. -/
def Path.len (p : Path) : Nat := (p.segs.map fun seg => seg.ident.len + 1 + seg.args.len).sum

/-- Of `syn::Path::parse`: what is in a path was written there. -/
def PathParser.Sparing (pp : PathParser) : Prop :=
  ∀ {ts p rest}, pp.run ts = (some p, rest) → p.len + toksLen rest ≤ toksLen ts

end Mview
