import Verif.Spec.Edit
/-
C68: where the code for an attribute is, and what it is.
-/

namespace Mview
open Lex

/-- The places for attributes in the code of an element, component or slot. -/
inductive AttrPlace where
  /-- the calls for plain attributes -/
  | calls
  /-- the calls for directives, on elements -/
  | directives
  /-- the calls for spreads, on elements -/
  | spreads
  /-- the arguments of `.add_any_attr((..))`, on components: directives and spreads -/
  | entries
  /-- the statements before the children, on components and slots -/
  | clones
  deriving DecidableEq

/-- Where the code for an attribute is. -/
def Attr.place (tag : Tag) : Attr → AttrPlace
  | .kv _ => .calls
  | .directive d =>
    match tag with
    | .component _ => if d.dir = plain c!"clone" then .clones else .entries
    | _ => .directives
  | .spread _ =>
    match tag with
    | .component _ => .entries
    | _ => .spreads

/-- The code for one attribute. -/
def Attr.codeOn (asSlot : Bool) (tag : Tag) : Attr → Option Toks
  | .kv a =>
    match tag with
    | .component _ => a.onComponent.map fun c => chain [c]
    | _ => (a.onElement tag.kind).map fun c => chain [c]
  | .directive d =>
    match tag with
    | .component _ =>
      if d.dir = plain c!"clone" then d.cloneStmt else if asSlot then none else d.onComponent.map fun e => commaAfter [e]
    | _ => d.onElement.map fun c => chain [c]
  | .spread e =>
    match tag with
    | .component _ => if asSlot then none else some (commaAfter [e])
    | _ => some (chain [spreadCall e])

/-- The code for some attributes: that for each of them, one after the other. -/
def AttrsCode (asSlot : Bool) (tag : Tag) (as : List Attr) (t : Toks) : Prop :=
  ∃ codes, as.mapM (Attr.codeOn asSlot tag) = some codes ∧ t = codes.flatten

/-- `clone:` statements are not used if there are no children other than slots. -/
def AttrPlace.use (cs : Option (List Child)) : AttrPlace → Use
  | .clones => if (cs.getD []).all Child.isSlot then .unused else .used
  | _ => .used

/-- What becomes of the code for an element or slot among the children in the gap. -/
def TreeGap.use (isSlot : Bool) : TreeGap → Use
  | .here => .used
  | T => T.kind.use isSlot

end Mview
