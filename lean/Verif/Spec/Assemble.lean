import Verif.Spec.Leave
import Verif.Spec.Grammar
/-
C77: closure arguments that can be written.  Threads do not have any.
-/

namespace Mview

/-- Closure arguments are between pipes and have none among them; and there are none without children. -/
def ArgsFit (args : Option Toks) (hasBlock : Bool) : Prop :=
  args = none ∨ hasBlock = true ∧ ∃ a, args = some (.punct '|' .alone :: (a ++ [.punct '|' .alone])) ∧
    (∀ t ∈ a, t.isPipe = false) ∧ LexicalToks a

mutual
/-- Those of an element, at any depth. -/
def Element.ArgsFit : Element → Prop
  | .mk _ _ _ args none => Mview.ArgsFit args false
  | .mk _ _ _ args (some cs) => Mview.ArgsFit args true ∧ allArgsFit cs
def Child.ArgsFit : Child → Prop
  | .value _ => True
  | .elem e => e.ArgsFit
  | .slot e => e.ArgsFit
def allArgsFit : List Child → Prop
  | [] => True
  | c :: cs => c.ArgsFit ∧ allArgsFit cs
end

end Mview
