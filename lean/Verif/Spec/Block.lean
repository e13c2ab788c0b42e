import Verif.Spec.Reads
import Verif.Spec.Advice
/-
C64: a block of children somewhere in an input, valid or not.
-/

namespace Mview
open Lex

/-- An input with a gap: the content of a block, at any depth. -/
inductive BlockGap where
  /-- all of the input -/
  | here
  /-- in a pair of parentheses or braces, with tokens on both sides -/
  | block (pre : Toks) (d : Delim) (inner : BlockGap) (post : Toks)

/-- The input, with something in the gap. -/
def BlockGap.fill (x : Toks) : BlockGap → Toks
  | .here => x
  | .block pre d inner post => pre ++ .group d (inner.fill x) :: post

/-- More tokens in front. -/
def BlockGap.after (p : Toks) : BlockGap → BlockGap
  | .here => .here
  | .block pre d inner post => .block (p ++ pre) d inner post

/-- A tree with a gap: the children of an element, at any depth. -/
inductive TreeGap where
  | here
  | elem (before : List Child) (isSlot : Bool) (tag : Tag) (sels : List Selector) (attrs : List Attr)
      (args : Option Toks) (inner : TreeGap) (after : List Child)

/-- The tree, with children in the gap. -/
def TreeGap.fill (x : List Child) : TreeGap → List Child
  | .here => x
  | .elem before isSlot tag sels attrs args inner after =>
    before ++ asChild isSlot (.mk tag sels attrs args (some (inner.fill x))) :: after

/-- More children in front. -/
def TreeGap.after (p : List Child) : TreeGap → TreeGap
  | .here => .here
  | .elem before isSlot tag sels attrs args inner after => .elem (p ++ before) isSlot tag sels attrs args inner after

/-- What can be between the attributes and the block: nothing, or closure arguments. -/
inductive Lead : Toks → Option Toks → Prop
  | none : Lead [] none
  | args {s args s'} : NoPipe args → Lead (.punct '|' s :: (args ++ [.punct '|' s'])) (some (piped args))

/-- Braces directly after the attributes could be another attribute. -/
def direct (lead : Toks) (d : Delim) : Bool := lead.isEmpty && decide (d = .brace)

/-- The content of the block is not that of an attribute, and what is reported when finding that out: a block
that starts with a name is looked at twice. -/
inductive Looked : Bool → Toks → List Issue → Prop
  | no {x} : Looked false x []
  | name {x run t r} : LongestKebab x run (t :: r) → Looked true x (rawIssues run)
  | other {x} : ¬ NameStart x → ¬ IsSpread x → Looked true x []

/-- `BlockAt pp K b x P Q T`: in the input `K.fill x` the gap is read as the children of an element.
`P` is reported before and `Q` after reading it, and `T` is the rest of the tree.  `b` tells whether the block could
be an attribute. -/
inductive BlockAt (pp : PathParser) : BlockGap → Bool → Toks → List Issue → List Issue → TreeGap → Prop
  /-- the children of the first element -/
  | block {pre lead d post x isSlot r0 ti tag r1 si sels r2 ai j attrs args is cs} :
      ElemStart (pre ++ (lead ++ .group d x :: post)) isSlot r0 → ReadsTag pp r0 ti tag r1 → ReadsSels r1 si sels r2 →
      ReadsAttrs r2 (ai ++ j) attrs (lead ++ .group d x :: post) → Lead lead args → d ≠ .bracket →
      Looked (direct lead d) x j → ReadsChildren pp post is cs →
      BlockAt pp (.block (pre ++ lead) d .here post) (direct lead d) x (ti ++ (si ++ ai)) is
        (.elem [] isSlot tag sels attrs args .here cs)
  /-- further inside the first element -/
  | inside {pre lead d K post b x P Q T isSlot r0 ti tag r1 si sels r2 ai attrs args is cs} :
      ElemStart (pre ++ (lead ++ .group d (K.fill x) :: post)) isSlot r0 → ReadsTag pp r0 ti tag r1 →
      ReadsSels r1 si sels r2 → ReadsAttrs r2 ai attrs (lead ++ .group d (K.fill x) :: post) → Lead lead args →
      d ≠ .bracket → BlockAt pp K b x P Q T → ReadsChildren pp post is cs →
      BlockAt pp (.block (pre ++ lead) d K post) b x (ti ++ (si ++ (ai ++ P))) (Q ++ is)
        (.elem [] isSlot tag sels attrs args T cs)
  /-- after a value -/
  | value {v : CVal} {K b x P Q T} : (∀ u, v = .bool u → ∀ c r, K.fill x ≠ .group .bracket c :: r) → v.ChildWf →
      BlockAt pp K b x P Q T → BlockAt pp (K.after v.toks) b x P Q (T.after [.value v.ast])
  /-- after a literal that is not a string -/
  | literal {v : CVal} {K b x P Q T} : (∀ u, v = .bool u → ∀ c r, K.fill x ≠ .group .bracket c :: r) → ¬ v.ChildWf →
      BlockAt pp K b x P Q T →
      BlockAt pp (K.after v.toks) b x (.report .nonStringChild :: P) Q (T.after [.value (.lit (.tok (.str [])))])
  /-- after an element or slot -/
  | elem {p K b x P Q T isSlot r0 ti tag r1 si sels r2 ai attrs r3 ei args block} :
      ElemStart (p ++ K.fill x) isSlot r0 → ReadsTag pp r0 ti tag r1 → ReadsSels r1 si sels r2 →
      ReadsAttrs r2 ai attrs r3 → ReadsEnd pp r3 ei args block (K.fill x) → BlockAt pp K b x P Q T →
      BlockAt pp (K.after p) b x (ti ++ (si ++ (ai ++ (ei ++ P)))) Q
        (T.after [asChild isSlot (.mk tag sels attrs args block)])
  /-- after something that is not a tag, and a semicolon -/
  | noTagSemi {p K b x P Q T isSlot r0 e s} :
      ElemStart (p ++ K.fill x) isSlot r0 → NoTag pp r0 e (.punct ';' s :: K.fill x) → BlockAt pp K b x P Q T →
      BlockAt pp (K.after p) b x (.report .extraSemicolon :: P) Q T
  /-- after a stray semicolon -/
  | semi {s K b x P Q T} : BlockAt pp K b x P Q T →
      BlockAt pp (K.after [.punct ';' s]) b x (.report .extraSemicolon :: P) Q T

/-! ### errors in the tree -/

/-- What becomes of the children in a block: ordinary children of an element, or those of a component or slot,
where slots are possible; or nothing, as they are in a slot where there cannot be any. -/
inductive Role where
  | nodes
  | component
  | ignored

/-- What is wrong with the children. -/
def Role.issues (cs : List Child) : Role → List Issue
  | .nodes => nodesIssues cs
  | .component => nodesIssues cs ++ (slotsIssues cs ++ methodIssues cs)
  | .ignored => []

/-- Errors that stop the macro. -/
def Diag.Fatal (d : Diag) : Prop := (∃ e, d = .synAbort e) ∨ d = .functionGenerics ∨ d = .slotAtTopLevel

end Mview
