import Verif.Spec.Edit
/-
C80: whether what is in a block of children can be seen on the page.
-/

namespace Mview

/-- The block is part of the page, when it is among children of which the slots are used, or not: all blocks are, except
for those of slots that are not directly in a component, and those inside them. -/
def TreeGap.Seen (slots : Bool) : TreeGap → Prop
  | .here => True
  | .elem _ isSlot tag _ _ _ inner _ => match isSlot, tag with
    | true, _ => slots = true ∧ inner.Seen false
    | false, .component _ => inner.Seen true
    | false, _ => inner.Seen false

end Mview
