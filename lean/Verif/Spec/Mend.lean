import Verif.Spec.Count
import Verif.Spec.Places
import Verif.Model.Out
/-
C79: a view without what was written too much, and the errors about that.
-/

namespace Mview

/-- Something was written that has no place there: the rest makes sense without it. -/
def Diag.isExtra : Diag → Bool
  | .selectorOnSlot | .spreadOnSlot | .directiveOnSlot _ | .unknownDirective _ | .directiveOnElement _
  | .modifierNotAllowed _ | .unknownModifier _ | .cloneValue | .slotNameIsPath => true
  | _ => false

/-- The modifier of an event, if it is one. -/
def mendEvent (m : Option Ident) : Option Ident := if m = some (plain c!"undelegated") then m else none

/-- A directive of an element: those that there are, with modifiers only for events. -/
def Directive.mendOnElement (d : Directive) : Option Directive :=
  if d.dir = plain c!"on" then some ⟨d.dir, d.key, mendEvent d.modifier, d.value⟩
  else if d.dir ∈ [plain c!"class", plain c!"style", plain c!"prop", plain c!"use"] then
    some ⟨d.dir, d.key, none, d.value⟩
  else none

/-- A directive of a component: `clone:` has no value either.  (Other modifiers are not an error.) -/
def Directive.mendOnComponent (d : Directive) : Option Directive :=
  if d.dir = plain c!"on" then some ⟨d.dir, d.key, mendEvent d.modifier, d.value⟩
  else if d.dir = plain c!"use" then some ⟨d.dir, d.key, none, d.value⟩
  else if d.dir = plain c!"clone" then some ⟨d.dir, d.key, none, none⟩
  else if d.dir ∈ [plain c!"class", plain c!"style", plain c!"attr", plain c!"prop"] then some d
  else none

/-- An attribute of an element. -/
def Attr.mendOnElement : Attr → Option Attr
  | .directive d => d.mendOnElement.map .directive
  | a => some a

/-- An attribute of a component. -/
def Attr.mendOnComponent : Attr → Option Attr
  | .directive d => d.mendOnComponent.map .directive
  | a => some a

/-- An attribute of a slot: plain ones and `clone:`. -/
def Attr.mendOnSlot : Attr → Option Attr
  | .kv a => some (.kv a)
  | .directive d => if d.dir = plain c!"clone" then some (.directive ⟨d.dir, d.key, none, none⟩) else none
  | .spread _ => none

/-- Attributes of a slot, component or element. -/
def mendAttrs (asSlot isComponent : Bool) (attrs : List Attr) : List Attr :=
  attrs.filterMap (if asSlot then Attr.mendOnSlot else if isComponent then Attr.mendOnComponent else Attr.mendOnElement)

mutual
/-- An element (a slot if `asSlot`); slots have no selectors. -/
def Element.mend (asSlot : Bool) : Element → Element
  | .mk tag sels attrs args none => .mk tag (if asSlot then [] else sels) (mendAttrs asSlot tag.isPath attrs) args none
  | .mk tag sels attrs args (some cs) =>
    .mk tag (if asSlot then [] else sels) (mendAttrs asSlot tag.isPath attrs) args (some (mend cs))
/-- Children: slots whose name is a path are left out. -/
def mend : List Child → List Child
  | [] => []
  | .value v :: cs => .value v :: mend cs
  | .elem e :: cs => .elem (e.mend false) :: mend cs
  | .slot e :: cs => if e.tag.isPath ∧ e.slotName = none then mend cs else .slot (e.mend true) :: mend cs
end

end Mview
