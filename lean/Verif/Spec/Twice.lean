import Verif.Spec.Count
/-
C10: the generic arguments that reach the expansion.
-/

namespace Mview

mutual
/-- The generic arguments in an element that are written: those of components, but not those inside
slots that are not directly inside a component. -/
def Element.kept (asSlot : Bool) : Element → Toks
  | .mk tag _ _ _ none => tag.generics
  | .mk tag _ _ _ (some cs) => tag.generics ++ childrenKept (tag.isPath && !asSlot) cs
/-- The generic arguments in some children that are written; `inside`: directly inside a component. -/
def childrenKept (inside : Bool) : List Child → Toks
  | [] => []
  | .value _ :: cs => childrenKept inside cs
  | .elem e :: cs => e.kept false ++ childrenKept inside cs
  | .slot e :: cs => (if inside then e.kept true else []) ++ childrenKept inside cs
end

/-- The tokens of a tag that is a path. -/
def CTag.pathToks : CTag → Toks
  | .path used _ => used
  | .name _ => []

mutual
/-- The tokens of all paths in an element, as written. -/
def CElem.pathToks : CElem → Toks
  | .mk tag _ _ (.semi _) => tag.pathToks
  | .mk tag _ _ (.block _ _ cs) => tag.pathToks ++ childrenPathToks cs
/-- The tokens of all paths in some children, as written. -/
def childrenPathToks : List CChild → Toks
  | [] => []
  | .value _ :: cs => childrenPathToks cs
  | .elem e :: cs => e.pathToks ++ childrenPathToks cs
  | .slot _ e :: cs => e.pathToks ++ childrenPathToks cs
end

end Mview
