import Verif.Spec.Advice
/-
C57: how many tokens there are.
-/

namespace Mview

mutual
/-- The number of tokens of a token tree; delimiters count as one token. -/
def TT.many : TT → Nat
  | .ident _ => 1
  | .punct _ _ => 1
  | .lit _ => 1
  | .group _ ts => toksMany ts + 1
/-- The number of tokens, at every depth. -/
def toksMany : Toks → Nat
  | [] => 0
  | t :: ts => t.many + toksMany ts
end

end Mview
