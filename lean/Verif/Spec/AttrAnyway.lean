import Verif.Spec.EditAttr
import Verif.Spec.EditAnyway
/-
C86: what is generated for attributes in spite of errors.
-/

namespace Mview
open Lex

/-- What is generated for one attribute of an element, component or slot, in spite of errors. -/
def Attr.anywayOn (tag : Tag) : Attr → Option Toks
  | .kv a =>
    match tag with
    | .component _ => a.onComponentAnyway.map fun c => chain [c]
    | _ => (a.onElementAnyway tag.kind).map fun c => chain [c]
  | .directive d =>
    match tag with
    | .component _ => if d.dir = plain c!"clone" then d.cloneAnyway else d.onComponentAnyway.map commaAfter
    | _ => d.onElementAnyway.map chain
  | .spread e =>
    match tag with
    | .component _ => some (commaAfter [e])
    | _ => some (chain [spreadCall e])

/-- That for some attributes: one after the other. -/
def AttrsAnyway (tag : Tag) (as : List Attr) (t : Toks) : Prop :=
  ∃ codes, as.mapM (Attr.anywayOn tag) = some codes ∧ t = codes.flatten

/-- `clone:` statements are not used if there are no children other than slots.  Spreads and other directives of slots
are left out. -/
def AttrPlace.useAnyway (asSlot : Bool) (cs : Option (List Child)) : AttrPlace → Use
  | .clones => if (cs.getD []).all Child.isSlot then .unused else .used
  | .entries => if asSlot then .ignored else .used
  | _ => .used

/-- What becomes of the code for a child (`none`) or slot (`some named`), among children of this kind.  Slots without a
proper name are ignored. -/
def BlockKind.useAnyway (slot : Option Bool) : BlockKind → Use
  | .element => if slot = none then .used else .ignored
  | .component _ _ => if slot = some false then .ignored else .used
  | .slot _ _ => if slot = none then .used else if slot = some false then .ignored else .unused
  | .unused kind => match kind.useAnyway slot with
    | .ignored => .ignored
    | _ => .unused
  | .ignored => .ignored

/-- What becomes of the code for an element or slot among the children in the gap, in spite of errors. -/
def TreeGap.useAnyway (slot : Option Bool) : TreeGap → Use
  | .here => .used
  | T => T.kindAnyway.useAnyway slot

end Mview
