import Verif.Spec.Places
/-
C33: trees in which the iteration order of hash maps has nothing to order.
-/

namespace Mview

/-- No two slots among the children have different names. -/
def OneSlotName (cs : List Child) : Prop :=
  ∀ e e' n n', Child.slot e ∈ cs → Child.slot e' ∈ cs →
    e.tag = .component ⟨false, [⟨n, .none⟩]⟩ → e'.tag = .component ⟨false, [⟨n', .none⟩]⟩ → n = n'

mutual
/-- No component or slot in the element has slots of two names. -/
def Element.Uniform : Element → Prop
  | .mk _ _ _ _ none => True
  | .mk tag _ _ _ (some cs) => ((∃ p, tag = .component p) → OneSlotName cs) ∧ childrenUniform cs
/-- The same for a list of children. -/
def childrenUniform : List Child → Prop
  | [] => True
  | .value _ :: cs => childrenUniform cs
  | .elem e :: cs => e.Uniform ∧ childrenUniform cs
  | .slot e :: cs => e.Uniform ∧ childrenUniform cs
end

end Mview
