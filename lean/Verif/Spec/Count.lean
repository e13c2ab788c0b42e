import Verif.Spec.Meaning
import Verif.Spec.Grammar
/-
C10: the code written by the user inside a tree, which of it is dropped, the tree without it,
and how often a token occurs.
-/

namespace Mview

/-- A token that is not a group. -/
inductive Leaf where
  | ident (i : Ident)
  | punct (c : Char) (s : Spacing)
  | lit (l : Lit)
  deriving DecidableEq

mutual
/-- The total weight of a token and everything inside it. -/
def TT.weight (w : Leaf → Nat) : TT → Nat
  | .ident i => w (.ident i)
  | .punct c s => w (.punct c s)
  | .lit l => w (.lit l)
  | .group _ ts => weigh w ts
/-- The total weight of tokens, at every depth. -/
def weigh (w : Leaf → Nat) : Toks → Nat
  | [] => 0
  | t :: ts => t.weight w + weigh w ts
end

/-- How often a token occurs, at any depth. -/
def occ (m : Leaf) (ts : Toks) : Nat := weigh (fun l => if l = m then 1 else 0) ts

/-! ### the code in a tree -/

/-- The code in a value: what is between the delimiters, or the literal. -/
def Value.code : Value → Toks
  | .lit (.tok l) => [.lit l]
  | .lit (.bool b) => [.ident (plain (if b then c!"true" else c!"false"))]
  | .block code => code
  | .bracket _ code => code

/-- The code in an attribute. -/
def Attr.code : Attr → Toks
  | .kv a => a.value.code
  | .directive d => (d.value.map Value.code).getD []
  | .spread e => e

mutual
/-- All code in an element: in its attributes, its closure arguments and its children. -/
def Element.code : Element → Toks
  | .mk _ _ attrs args none => attrs.flatMap Attr.code ++ args.getD []
  | .mk _ _ attrs args (some cs) => attrs.flatMap Attr.code ++ (args.getD [] ++ childrenCode cs)
/-- All code in some children. -/
def childrenCode : List Child → Toks
  | [] => []
  | .value v :: cs => v.code ++ childrenCode cs
  | .elem e :: cs => e.code ++ childrenCode cs
  | .slot e :: cs => e.code ++ childrenCode cs
end

/-- The element is a component. -/
def Tag.isPath : Tag → Bool
  | .component _ => true
  | _ => false

mutual
/-- The code in an element that the macro drops:
closure arguments on anything but a component or slot, or of a block without children other than
slots; everything in slots that are not directly inside a component. -/
def Element.dropped (asSlot : Bool) : Element → Toks
  | .mk _ _ _ args none => args.getD []
  | .mk tag _ _ args (some cs) =>
    (if tag.isPath ∧ ∃ c ∈ cs, c.isSlot = false then [] else args.getD []) ++
      childrenDropped (tag.isPath && !asSlot) cs
/-- The code in some children that the macro drops; `inside`: directly inside a component. -/
def childrenDropped (inside : Bool) : List Child → Toks
  | [] => []
  | .value _ :: cs => childrenDropped inside cs
  | .elem e :: cs => e.dropped false ++ childrenDropped inside cs
  | .slot e :: cs => (if inside then e.dropped true else e.code) ++ childrenDropped inside cs
end

/-! ### the tree without code -/

/-- A value without its code. -/
def Value.blank : Value → Value
  | .lit _ => .block []
  | .block _ => .block []
  | .bracket pfx _ => .bracket pfx []

/-- An attribute without its code. -/
def Attr.blank : Attr → Attr
  | .kv a => .kv { a with value := a.value.blank }
  | .directive d => .directive { d with value := d.value.map Value.blank }
  | .spread _ => .spread []

mutual
/-- An element without any code in it. -/
def Element.blank : Element → Element
  | .mk tag sels attrs args none => .mk tag sels (attrs.map Attr.blank) (args.map fun _ => []) none
  | .mk tag sels attrs args (some cs) =>
    .mk tag sels (attrs.map Attr.blank) (args.map fun _ => []) (some (childrenBlank cs))
/-- Children without any code in them. -/
def childrenBlank : List Child → List Child
  | [] => []
  | .value v :: cs => .value v.blank :: childrenBlank cs
  | .elem e :: cs => .elem e.blank :: childrenBlank cs
  | .slot e :: cs => .slot e.blank :: childrenBlank cs
end

/-! ### the paths in a tree -/

/-- The generic arguments in a path. -/
def Path.generics (p : Path) : Toks :=
  p.segs.flatMap fun s => match s.args with
    | .angle _ inner => inner
    | _ => []

/-- The generic arguments of a component's tag. -/
def Tag.generics : Tag → Toks
  | .component p => p.generics
  | _ => []

mutual
/-- All generic arguments in an element. -/
def Element.generics : Element → Toks
  | .mk tag _ _ _ none => tag.generics
  | .mk tag _ _ _ (some cs) => tag.generics ++ childrenGenerics cs
/-- All generic arguments in some children. -/
def childrenGenerics : List Child → Toks
  | [] => []
  | .value _ :: cs => childrenGenerics cs
  | .elem e :: cs => e.generics ++ childrenGenerics cs
  | .slot e :: cs => e.generics ++ childrenGenerics cs
end

/-- The tokens of a tag that is a path. -/
def CTag.paths : CTag → Toks
  | .path used p => used ++ p.generics
  | _ => []

mutual
/-- All paths in an element. -/
def CElem.paths : CElem → Toks
  | .mk tag _ _ fin => tag.paths ++ fin.paths
/-- All paths in the block of an element. -/
def CEnd.paths : CEnd → Toks
  | .semi _ => []
  | .block _ _ cs => childrenPaths cs
/-- All paths in a child. -/
def CChild.paths : CChild → Toks
  | .value _ => []
  | .elem e => e.paths
  | .slot _ e => e.paths
/-- All paths in some children. -/
def childrenPaths : List CChild → Toks
  | [] => []
  | c :: cs => c.paths ++ childrenPaths cs
end

/-- A literal other than a string or number, such as `'c'` or `b"xyz"`. -/
def Lit.Special : Lit → Prop
  | .other _ => True
  | _ => False

end Mview
