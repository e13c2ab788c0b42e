import Verif.Spec.Edit
import Verif.Spec.Places
import Verif.Spec.Recovery
/-
C67: what is generated for the children of an element in spite of errors.
-/

namespace Mview

/-- The code for children, in spite of errors in them. -/
def BlockKind.CodeAnyway (cs : List Child) (t : Toks) : BlockKind → Prop
  | .element => ∃ nodes, NodesBecome cs nodes ∧ t = chain (nodes.map childCall)
  | .component args clones => ∃ nodes slots calls, NodesBecome cs nodes ∧ SlotsBecome cs slots ∧ SlotCalls slots calls ∧
      t = chain (childrenCall args clones nodes ++ calls)
  | .slot args clones => ∃ nodes slots calls, NodesBecome cs nodes ∧ SlotsBecome cs slots ∧ SlotCalls slots calls ∧
      t = chain (childrenCall args clones nodes)
  | .unused kind => (∃ t', kind.CodeAnyway cs t') ∧ t = []
  | .ignored => t = []

/-- The kind of the children of an element, in spite of errors in its attributes. -/
def blockKindAnyway (asSlot : Bool) (tag : Tag) (attrs : List Attr) (args : Option Toks) : BlockKind :=
  let cl := (((clones attrs).mapM Directive.cloneAnyway).getD []).flatten
  match asSlot, tag with
  | false, .component _ => .component args cl
  | true, _ => .slot args cl
  | false, _ => .element

/-- Whether a slot has a proper name, not a path. -/
def Tag.isName : Tag → Bool
  | .component ⟨false, [⟨_, .none⟩]⟩ => true
  | _ => false

/-- The kind of the children of a child (`none`) or slot (`some named`), in an element with children of the first
kind.  Slots without a proper name are ignored. -/
def BlockKind.insideAnyway (outer : BlockKind) (slot : Option Bool) (inner : BlockKind) : BlockKind :=
  match outer with
  | .element => if slot = none then inner else .ignored
  | .component _ _ => if slot = some false then .ignored else inner
  | .slot _ _ => if slot = none then inner else if slot = some false then .ignored else .unused inner
  | .unused kind => .unused (kind.insideAnyway slot inner)
  | .ignored => .ignored

/-- Whether it is a slot, and then whether it has a proper name. -/
def slotNamed (isSlot : Bool) (tag : Tag) : Option Bool := if isSlot then some tag.isName else none

/-- The kind of the children in the gap, when the tree is that of the children of an element. -/
def TreeGap.kindInAnyway (outer : BlockKind) : TreeGap → BlockKind
  | .here => outer
  | .elem _ isSlot tag _ attrs args inner _ =>
    outer.insideAnyway (slotNamed isSlot tag) (inner.kindInAnyway (blockKindAnyway isSlot tag attrs args))

/-- The kind of the children in the gap. -/
def TreeGap.kindAnyway : TreeGap → BlockKind
  | .here => .ignored
  | .elem _ isSlot tag _ attrs args inner _ => inner.kindInAnyway (blockKindAnyway isSlot tag attrs args)

end Mview
