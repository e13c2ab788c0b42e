import Verif.Spec.EditSel
import Verif.Spec.AttrAnyway
/-
C87: what is generated for selectors in spite of errors.
-/

namespace Mview

/-- What is generated for selectors of one kind with these names, between some others: as for correct inputs, only that
those of slots are left out. -/
def SelKind.CodeAnyway (asSlot : Bool) (tag : Tag) (s1 s2 : List Selector) (names : List KebabIdent) (t : Toks)
    (k : SelKind) : Prop :=
  match asSlot with
  | true => t = []
  | false => k.Code false tag s1 s2 names t

end Mview
