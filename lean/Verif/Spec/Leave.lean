import Verif.Spec.Threads
/-
C75: names that do not grow when they are moved together.

`-x` after `div` would become `div-x`, and `x-` before `y` would become `x-y`.
-/

namespace Mview

/-- The name neither starts nor ends with a dash. -/
def KebabIdent.Firm (k : KebabIdent) : Prop := ∀ r, k.repr ≠ '-' :: r ∧ k.repr ≠ r ++ ['-']

/-- The name of a custom element does not end with a dash, nor that of a component with `_`, which is what `-` is
read as there.  Other elements have no dashes. -/
def Tag.Firm : Tag → Prop
  | .webComponent k => ∀ r, k.repr ≠ r ++ ['-']
  | .component p => ∀ i r, p = ⟨false, [⟨i, .none⟩]⟩ → i.name ≠ r ++ ['_']
  | _ => True

def Selector.Firm : Selector → Prop
  | .cls k => k.Firm
  | .id k => k.Firm

def Attr.Firm : Attr → Prop
  | .kv a => a.key.Firm
  | .directive d => ∀ k, d.key = .kebab k → k.Firm
  | .spread _ => True

mutual
/-- All names in an element, at any depth. -/
def Element.Firm : Element → Prop
  | .mk tag sels attrs _ none => tag.Firm ∧ (∀ s ∈ sels, s.Firm) ∧ ∀ a ∈ attrs, a.Firm
  | .mk tag sels attrs _ (some cs) => (tag.Firm ∧ (∀ s ∈ sels, s.Firm) ∧ ∀ a ∈ attrs, a.Firm) ∧ allFirm cs
/-- All names in a child. -/
def Child.Firm : Child → Prop
  | .value _ => True
  | .elem e => e.Firm
  | .slot e => e.Firm
/-- All names in children. -/
def allFirm : List Child → Prop
  | [] => True
  | c :: cs => c.Firm ∧ allFirm cs
end

end Mview
