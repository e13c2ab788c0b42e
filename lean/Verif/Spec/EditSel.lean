import Verif.Spec.EditAttr
/-
C69: the code for selectors, closure arguments and the tag.
-/

namespace Mview
open Lex

/-- The two kinds of selectors. -/
inductive SelKind where
  | cls
  | id

/-- A selector with this name. -/
def SelKind.sel (name : KebabIdent) : SelKind → Selector
  | .cls => .cls name
  | .id => .id name

/-- The code for selectors of one kind with these names, between some others: on elements one call for each, on
components an entry for each class, and one for all ids together.  There are none on slots. -/
def SelKind.Code (asSlot : Bool) (tag : Tag) (s1 s2 : List Selector) (names : List KebabIdent) (t : Toks) (k : SelKind) : Prop :=
  (asSlot = true → names = []) ∧
  t = match asSlot, tag, k with
    | true, _, _ => []
    | false, .component _, .cls => commaAfter (names.map classEntry)
    | false, .component _, .id => commaAfter (idEntry (ids s1 ++ (names ++ ids s2)))
    | false, _, .cls => chain (names.map classCall)
    | false, _, .id => chain (names.map idCall)

/-- Closure arguments only matter for components and slots with children other than slots. -/
def argsUse (tag : Tag) (cs : Option (List Child)) : Use :=
  match tag with
  | .component _ => if (cs.getD []).all Child.isSlot then .ignored else .used
  | _ => .ignored

end Mview
