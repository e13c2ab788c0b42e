import Verif.Spec.Places
/-
C32: trees that differ only in how attributes of different kinds are interleaved.
-/

namespace Mview

/-- The same class shorthands and the same ids, in the same order among themselves. -/
def SameSelectors (sels sels' : List Selector) : Prop :=
  classes sels = classes sels' ∧ ids sels = ids sels'

/-- The same attributes up to interleaving of different kinds.  On components these are plain
attributes, `clone:` directives, and the rest; on other elements plain attributes, directives
and spreads. -/
def SameAttrs (tag : Tag) (attrs attrs' : List Attr) : Prop :=
  match tag with
  | .component _ => kvs attrs = kvs attrs' ∧ clones attrs = clones attrs' ∧ entries attrs = entries attrs'
  | _ => kvs attrs = kvs attrs' ∧ directives attrs = directives attrs' ∧ spreads attrs = spreads attrs'

mutual
/-- The same element up to interleaving, everywhere inside. -/
def Element.Reordered : Element → Element → Prop
  | .mk tag sels attrs args none, .mk tag' sels' attrs' args' none =>
    tag = tag' ∧ SameSelectors sels sels' ∧ SameAttrs tag attrs attrs' ∧ args = args'
  | .mk tag sels attrs args (some cs), .mk tag' sels' attrs' args' (some cs') =>
    tag = tag' ∧ SameSelectors sels sels' ∧ SameAttrs tag attrs attrs' ∧ args = args' ∧
      childrenReordered cs cs'
  | _, _ => False
/-- The same children up to interleaving of attributes inside. -/
def childrenReordered : List Child → List Child → Prop
  | [], [] => True
  | .value v :: cs, .value v' :: cs' => v = v' ∧ childrenReordered cs cs'
  | .elem e :: cs, .elem e' :: cs' => e.Reordered e' ∧ childrenReordered cs cs'
  | .slot e :: cs, .slot e' :: cs' => e.Reordered e' ∧ childrenReordered cs cs'
  | _, _ => False
end

end Mview
