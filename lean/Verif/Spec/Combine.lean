import Verif.Spec.Places
import Verif.Spec.Kebab
import Verif.Model.Lex
/-
C73: the parts of an element, each written on its own.

A tag is tried as `tag ;`; the other parts as those of `div`.
-/

namespace Mview
open Lex

/-- How the tag of `div` is read. -/
def divTag : Tag := .html ⟨true, c!"div"⟩

/-- `t ;` is an element with this tag and nothing else. -/
def TagAlone (pp : PathParser) (t : Toks) (tag : Tag) : Prop :=
  Parses pp (t ++ t!";") [.elem (.mk tag [] [] none none)]

/-- `div s ;` is a `div` with these selectors and nothing else. -/
def SelsAlone (pp : PathParser) (s : Toks) (sels : List Selector) : Prop :=
  Parses pp (t!"div" ++ (s ++ t!";")) [.elem (.mk divTag sels [] none none)]

/-- `div a ;` is a `div` with these attributes and nothing else. -/
def AttrsAlone (pp : PathParser) (a : Toks) (attrs : List Attr) : Prop :=
  Parses pp (t!"div" ++ (a ++ t!";")) [.elem (.mk divTag [] attrs none none)]

/-- `div e` is a `div` with these closure arguments and children and nothing else. -/
def EndAlone (pp : PathParser) (e : Toks) (args : Option Toks) (children : Option (List Child)) : Prop :=
  Parses pp (t!"div" ++ e) [.elem (.mk divTag [] [] args children)]

/-- A dash before a word: `x- y` is the name `x-y`. -/
def Merges (x y : Toks) : Prop := ∃ u s i v, x = u ++ [.punct '-' s] ∧ y = .ident i :: v

/-- It does not start with a dash. -/
def NoDash (x : Toks) : Prop := ∀ s r, x ≠ .punct '-' s :: r

end Mview
