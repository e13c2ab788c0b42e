import Verif.Spec.Count
/-
C50: what in a tree makes no difference, and the tree without it.
-/

namespace Mview

/-- A value that may be left out, written out. -/
def orTrue (v : Option Value) : Option Value := some (v.getD (.lit (.bool true)))

/-- A directive of a component: the modifier is ignored unless it is `on:`, `use:` or `clone:`, no value
means `true`, and where the key is only used as text it may as well be a string. -/
def Directive.trimOnComponent (d : Directive) : Directive :=
  if d.dir = plain c!"class" ∨ d.dir = plain c!"style" then
    ⟨d.dir, .str d.key.text, none, orTrue d.value⟩
  else if d.dir = plain c!"attr" then
    ⟨d.dir, if '-' ∈ d.key.text ∧ ¬ c!"aria-" <+: d.key.text then .str d.key.text else d.key, none,
      orTrue d.value⟩
  else if d.dir = plain c!"prop" then ⟨d.dir, d.key, none, orTrue d.value⟩
  else d

/-- A directive of an element: the keys of `class:`, `style:` and `prop:` may as well be strings. -/
def Directive.trimOnElement (d : Directive) : Directive :=
  if d.dir = plain c!"class" ∨ d.dir = plain c!"style" ∨ d.dir = plain c!"prop" then
    ⟨d.dir, .str d.key.text, d.modifier, d.value⟩
  else d

/-- An attribute on a component (if `comp`) or element. -/
def Attr.trim (comp : Bool) : Attr → Attr
  | .kv a => .kv a
  | .directive d => .directive (if comp then d.trimOnComponent else d.trimOnElement)
  | .spread e => .spread e

/-- No block instead of an empty one. -/
def blockOf : List Child → Option (List Child)
  | [] => none
  | cs => some cs

mutual
/-- An element without what makes no difference: closure arguments on anything but a component or slot
with children other than slots; slots in elements; empty blocks; and details of directives.  With `deep`
also slots directly inside slots, which make a difference only if there is an error in them. -/
def Element.trim (deep asSlot : Bool) : Element → Element
  | .mk tag sels attrs _ none => .mk tag sels (attrs.map (Attr.trim tag.isPath)) none none
  | .mk tag sels attrs args (some cs) =>
    .mk tag sels (attrs.map (Attr.trim tag.isPath))
      (if tag.isPath ∧ ∃ c ∈ cs, c.isSlot = false then args else none)
      (blockOf (childrenTrim deep (tag.isPath && !(deep && asSlot)) cs))
/-- The same for children; `slots`: slots are of interest. -/
def childrenTrim (deep slots : Bool) : List Child → List Child
  | [] => []
  | .value v :: cs => .value v :: childrenTrim deep slots cs
  | .elem e :: cs => .elem (e.trim deep false) :: childrenTrim deep slots cs
  | .slot e :: cs =>
    if slots then .slot (e.trim deep true) :: childrenTrim deep slots cs else childrenTrim deep slots cs
end

/-- The two trees differ only in what makes no difference. -/
def Equivalent (root root' : List Child) : Prop := childrenTrim false true root = childrenTrim false true root'

end Mview
