import Verif.Spec.EditAnyway
/-
C89: where the children of an element are expanded, so that their errors are reported.
-/

namespace Mview

/-- Children in the gap are expanded; `slots`: slots are expanded at the top of the tree.  They are in components and
slots, if their name is not a path; what is in slots of elements is never looked at. -/
def TreeGap.expandedIn (slots : Bool) : TreeGap → Bool
  | .here => true
  | .elem _ isSlot tag _ _ _ inner _ =>
    (!isSlot || (slots && tag.isName)) && inner.expandedIn tag.isPath

/-- In a whole input. -/
def TreeGap.expanded (T : TreeGap) : Bool := T.expandedIn false

end Mview
