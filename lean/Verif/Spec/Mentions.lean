import Verif.Spec.Hygiene
import Verif.Spec.Reads
/-
C53: which names are mentioned in an input.
-/

namespace Mview
open Lex

/-- `Mentions ts n`: somewhere in `ts`, at any depth, `n` is written: as an identifier, or as a name in
kebab-case whose dashes are replaced by underscores. -/
inductive Mentions : Toks → Str → Prop
  | ident {i : Ident} {r : Toks} : Mentions (.ident i :: r) i.name
  | name {run r : Toks} : IsKebab run →
      Mentions (run ++ r) ((kebabText run).map fun c => if c = '-' then '_' else c)
  | within {d : Delim} {t r : Toks} {n : Str} : Mentions t n → Mentions (.group d t :: r) n
  | later {x : TT} {r : Toks} {n : Str} : Mentions r n → Mentions (x :: r) n

/-- The identifiers in generic arguments. -/
def PathArgs.idents : PathArgs → List Ident
  | .none => []
  | .angle _ inner => Mview.idents inner
  | .paren inner => Mview.idents inner

/-- The identifiers in a path. -/
def Path.idents (p : Path) : List Ident := p.segs.flatMap fun s => s.ident :: s.args.idents

/-- Of `syn::Path::parse`: the identifiers in the path are in the tokens. -/
def PathParser.Verbatim (pp : PathParser) : Prop :=
  ∀ {ts p rest}, pp.run ts = (some p, rest) → ∀ i ∈ p.idents, i ∈ idents ts

end Mview
