import Verif.Spec.PageGap
/-
C85: what a shorthand adds to a page, and where.
-/

namespace Mview.Run

variable {V : Type}

/-- The class a shorthand adds. -/
def Selector.addsClass : Selector → List Str
  | .cls k => [k.repr]
  | .id _ => []

/-- The id a shorthand adds. -/
def Selector.addsId : Selector → List Str
  | .cls _ => []
  | .id k => [k.repr]

/-- A class that is always there. -/
def classOn (R : Rust V) (k : Str) : Look V := .clsIf (R.lit (.str k)) (R.bool true)

/-- An id. -/
def idOf (R : Rust V) (k : Str) : Look V := .attr c!"id" (R.lit (.str k))

/-- An element or component on the page, with a gap for classes and one for ids. -/
inductive SelGap (V : Type) where
  | elem (space : Space) (name : Str) (front : List (Look V)) (cls1 cls2 ids1 ids2 : List Str) (back : List (Look V))
      (children : List (Dom V))
  | comp (function builder : Toks) (parts : List (Part V)) (cls1 cls2 ids1 ids2 : List Str) (back : List (Look V))

/-- With classes and ids in the gaps: every id of an element is set, but on a component there is one attribute for all. -/
def SelGap.fill (R : Rust V) (classes ids : List Str) : SelGap V → Dom V
  | .elem space name front c1 c2 i1 i2 back ds =>
    .elem space name (front ++ (c1 ++ classes ++ c2).map (classOn R) ++ (i1 ++ ids ++ i2).map (idOf R) ++ back) ds
  | .comp f g parts c1 c2 i1 i2 back =>
    .comp f g parts ((c1 ++ classes ++ c2).map (classOn R) ++
      (match i1 ++ ids ++ i2 with
        | [] => []
        | i :: r => [idOf R (i ++ r.flatMap (' ' :: ·))]) ++ back)

/-- An element or component on the page, with a gap for its name. -/
inductive TagGap (V : Type) where
  | elem (looks : List (Look V)) (children : List (Dom V))
  | comp (parts : List (Part V)) (looks : List (Look V))

/-- With the name of a tag of the same sort: all that is not a component is. -/
def TagGap.Filled : TagGap V → Tag → Dom V → Prop
  | .elem ls ds, tag, d => ∃ space name, shape tag = some (space, name) ∧ d = .elem space name ls ds
  | .comp parts ls, tag, d => ∃ p path, tag = .component p ∧ pathCode p = some path ∧ d = .comp path path parts ls

/-- An element or component on the page, with a gap for closure parameters: elements do not have any, and components do
only if they have children. -/
inductive ArgsGap (V : Type) where
  | without (d : Dom V)
  | comp (function builder : Toks) (front : List (Part V)) (clones : List Str) (child : Dom V) (children : List (Dom V))
      (back : List (Part V)) (looks : List (Look V))

/-- With closure parameters in the gap. -/
def ArgsGap.fill (args : Option Toks) : ArgsGap V → Dom V
  | .without d => d
  | .comp f g front clones d ds back ls => .comp f g (front ++ .children args clones (d :: ds) :: back) ls

end Mview.Run
