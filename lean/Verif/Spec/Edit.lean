import Verif.Spec.Block
import Verif.Spec.Meaning
/-
C66: code with a gap, and what is generated for the children of an element.
-/

namespace Mview

/-- Code with a gap, at any depth. -/
inductive CodeGap where
  | here (pre post : Toks)
  | group (pre : Toks) (d : Delim) (inner : CodeGap) (post : Toks)

/-- The code, with something in the gap. -/
def CodeGap.fill (x : Toks) : CodeGap → Toks
  | .here pre post => pre ++ (x ++ post)
  | .group pre d inner post => pre ++ .group d (inner.fill x) :: post

/-- What children can be those of. -/
inductive BlockKind where
  /-- an HTML, SVG, MathML or custom element -/
  | element
  /-- a component with these closure arguments and `clone:` statements -/
  | component (args : Option Toks) (clones : Toks)
  /-- a slot with these closure arguments and `clone:` statements -/
  | slot (args : Option Toks) (clones : Toks)
  /-- something in a slot in a slot: these children must have a meaning, but it is not used -/
  | unused (kind : BlockKind)
  /-- something in a slot in an element: these are ignored -/
  | ignored

/-- The code for children: the calls `.child(..)` of an element; `.children(..)` and the calls for the slots of a
component; only `.children(..)` for a slot. -/
def BlockKind.Code (cs : List Child) (t : Toks) : BlockKind → Prop
  | .element => ∃ nodes, NodesMean cs nodes ∧ t = chain (nodes.map childCall)
  | .component args clones => ∃ nodes slots calls, NodesMean cs nodes ∧ SlotsMean cs slots ∧ SlotCalls slots calls ∧
      t = chain (childrenCall args clones nodes ++ calls)
  | .slot args clones => ∃ nodes slots calls, NodesMean cs nodes ∧ SlotsMean cs slots ∧ SlotCalls slots calls ∧
      t = chain (childrenCall args clones nodes)
  | .unused kind => (∃ t', kind.Code cs t') ∧ t = []
  | .ignored => t = []

/-- The kind of the children of an element. -/
def blockKind (asSlot : Bool) (tag : Tag) (attrs : List Attr) (args : Option Toks) : BlockKind :=
  let cl := (((clones attrs).mapM Directive.cloneStmt).getD []).flatten
  match asSlot, tag with
  | false, .component _ => .component args cl
  | true, _ => .slot args cl
  | false, _ => .element

/-- What becomes of the code for a child. -/
inductive Use where
  /-- it is part of the code -/
  | used
  /-- there has to be some, but it is not used -/
  | unused
  /-- there does not even have to be some -/
  | ignored

/-- What is there instead of the code, which is described by `C`. -/
def Use.Code {α : Type} (C : α → Toks → Prop) (a : α) (t : Toks) : Use → Prop
  | .used => C a t
  | .unused => (∃ t', C a t') ∧ t = []
  | .ignored => t = []

/-- What becomes of the code for a child or slot, among children of this kind: slots in elements are ignored, and
those in slots are not used. -/
def BlockKind.use (isSlot : Bool) : BlockKind → Use
  | .element => if isSlot then .ignored else .used
  | .component _ _ => .used
  | .slot _ _ => if isSlot then .unused else .used
  | .unused kind => match kind.use isSlot with
    | .ignored => .ignored
    | _ => .unused
  | .ignored => .ignored

/-- The kind of the children of a child or slot, in an element with children of the first kind. -/
def BlockKind.inside (outer : BlockKind) (isSlot : Bool) (inner : BlockKind) : BlockKind :=
  match outer.use isSlot with
  | .used => inner
  | .unused => .unused inner
  | .ignored => .ignored

/-- The kind of the children in the gap, when the tree is that of the children of an element. -/
def TreeGap.kindIn (outer : BlockKind) : TreeGap → BlockKind
  | .here => outer
  | .elem _ isSlot tag _ attrs args inner _ => outer.inside isSlot (inner.kindIn (blockKind isSlot tag attrs args))

/-- The kind of the children in the gap. -/
def TreeGap.kind : TreeGap → BlockKind
  | .here => .ignored
  | .elem _ isSlot tag _ attrs args inner _ => inner.kindIn (blockKind isSlot tag attrs args)

end Mview
