import Verif.Spec.Places
/-
C31: a place for a child in a tree, and a place in the output.
-/

namespace Mview

/-- A list of children with a gap for one that is not a slot: among them, or inside the block
of an element among them. -/
inductive Gap where
  | here (before after : List Child)
  | inside (before after : List Child) (tag : Tag) (sels : List Selector) (attrs : List Attr)
      (args : Option Toks) (inner : Gap)

/-- Put a child into the gap. -/
def Gap.fill (c : Child) : Gap → List Child
  | .here before after => before ++ c :: after
  | .inside before after tag sels attrs args inner =>
    before ++ .elem (.mk tag sels attrs args (some (inner.fill c))) :: after

/-- Tokens with a gap. -/
inductive TokGap where
  | here (before after : Toks)
  | inside (before : Toks) (d : Delim) (inner : TokGap) (after : Toks)

/-- Put tokens into the gap. -/
def TokGap.fill (x : Toks) : TokGap → Toks
  | .here before after => before ++ x ++ after
  | .inside before d inner after => before ++ .group d (inner.fill x) :: after

end Mview
