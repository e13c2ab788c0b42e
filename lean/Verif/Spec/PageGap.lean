import Verif.Spec.Seen
import Verif.Spec.Run
/-
C82: pages with a gap.
-/

namespace Mview.Run

/-- A page with a gap: in an element, in the children of a component, or in those of a slot of a component, inside
others. -/
inductive PageGap (V : Type) where
  | here
  | elem (before : List (Dom V)) (space : Space) (name : Str) (looks : List (Look V)) (inner : PageGap V)
      (after : List (Dom V))
  | comp (before : List (Dom V)) (function builder : Toks) (front : List (Part V)) (args : Option Toks)
      (clones : List Str) (inner : PageGap V) (back : List (Part V)) (looks : List (Look V)) (after : List (Dom V))
  | slot (before : List (Dom V)) (function builder : Toks) (front : List (Part V)) (name : Str)
      (slotsBefore : List (Dom V)) (type : Toks) (slotFront : List (Part V)) (args : Option Toks) (clones : List Str)
      (inner : PageGap V) (slotsAfter : List (Dom V)) (back : List (Part V)) (looks : List (Look V))
      (after : List (Dom V))

variable {V : Type}

/-- Children are passed if there are any. -/
def passed (args : Option Toks) (clones : List Str) (ds : List (Dom V)) : List (Part V) :=
  match ds with
  | [] => []
  | d :: ds => [.children args clones (d :: ds)]

/-- The page with something in the gap. -/
def PageGap.fill (x : List (Dom V)) : PageGap V → List (Dom V)
  | .here => x
  | .elem before space name looks inner after => before ++ .elem space name looks (inner.fill x) :: after
  | .comp before f b front args clones inner back looks after =>
    before ++ .comp f b (front ++ passed args clones (inner.fill x) ++ back) looks :: after
  | .slot before f b front name slotsBefore type slotFront args clones inner slotsAfter back looks after =>
    before ++ .comp f b (front ++ .slots name (slotsBefore ++
      .slot type (slotFront ++ passed args clones (inner.fill x)) :: slotsAfter) :: back) looks :: after

end Mview.Run
