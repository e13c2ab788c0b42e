import Verif.Spec.Lexical
import Verif.Spec.Places
/-
C63: what an accepted input says, without the ways to say it: two inputs are the same view if this is the same.
-/

namespace Mview

/-- An attribute of an element. -/
inductive ViewAttr where
  /-- `ref` -/
  | ref (v : Value)
  /-- one that is only known by its text -/
  | text (name : Str) (v : Value)
  /-- one that leptos has a method for -/
  | typed (name : Str) (v : Value)

/-- A directive of an element. -/
inductive ViewDirective where
  /-- `class:`, `style:` and `prop:` -/
  | text (dir : Ident) (key : Str) (v : Option Value)
  | on (event : Str) (undelegated : Bool) (v : Option Value)
  | use (fn : Str) (v : Option Value)

/-- A directive, selector or spread of a component. -/
inductive ViewEntry where
  /-- `class:` and `style:` -/
  | text (dir : Ident) (key : Str) (v : Value)
  /-- an `attr:` that is only known by its text -/
  | custom (name : Str) (v : Value)
  /-- an `attr:` that leptos has a function for -/
  | typed (name : Str) (v : Value)
  | prop (name : Str) (v : Value)
  | on (event : Str) (undelegated : Bool) (v : Option Value)
  | use (fn : Str) (v : Option Value)
  | spread (e : Toks)

/-- What is seen of a child. -/
inductive View where
  | value (v : Value)
  | element (tag : Tag) (attrs : List ViewAttr) (dirs : List ViewDirective) (classes ids : List KebabIdent)
      (spreads : List Toks) (children : List View)
  /-- `slots`: those of each name -/
  | component (path : Path) (props : List (Str × Value)) (clones : List Str) (args : Option Toks)
      (children : List View) (slots : Ident → List View) (entries : List ViewEntry)
  | slot (path : Path) (props : List (Str × Value)) (clones : List Str) (args : Option Toks)
      (children : List View)

/-- An attribute of an element.  Where there is a method, `-` and `_` are the same. -/
def KvAttr.view (kind : TagKind) (a : KvAttr) : ViewAttr :=
  if a.key.repr = c!"ref" then .ref a.value
  else if Unchecked kind a.key.repr then .text a.key.repr a.value
  else .typed (underscored a.key.repr) a.value

/-- A property of a component. -/
def KvAttr.prop (a : KvAttr) : Str × Value := (underscored a.key.repr, a.value)

/-- A directive of an element (that is accepted). -/
def Directive.view (d : Directive) : ViewDirective :=
  if d.dir = plain c!"on" then .on (underscored d.key.text) d.modifier.isSome d.value
  else if d.dir = plain c!"use" then .use (underscored d.key.text) d.value
  else .text d.dir d.key.text d.value

/-- A directive of a component (that is accepted, other than `clone:`). -/
def Directive.viewEntry (d : Directive) : ViewEntry :=
  if d.dir = plain c!"on" then .on (underscored d.key.text) d.modifier.isSome d.value
  else if d.dir = plain c!"use" then .use (underscored d.key.text) d.value
  else
    let v := d.value.getD (.lit (.bool true))
    if d.dir = plain c!"prop" then .prop (underscored d.key.text) v
    else if d.dir = plain c!"attr" then
      if '-' ∈ d.key.text ∧ ¬ c!"aria-" <+: d.key.text then .custom d.key.text v
      else .typed (underscored d.key.text) v
    else .text d.dir d.key.text v

/-- The directives and spreads of a component, without `clone:`. -/
def Attr.viewEntry : Attr → ViewEntry
  | .directive d => d.viewEntry
  | .spread e => .spread e
  | .kv _ => .spread []

/-- On a component, `.a` is `class:a`, and the ids are together one `attr:id`. -/
def viewEntries (sels : List Selector) (attrs : List Attr) : List ViewEntry :=
  (classes sels).map (fun k => .text (plain c!"class") k.repr (.lit (.bool true))) ++
  (if ids sels = [] then []
    else [.typed c!"id" (.lit (.tok (.str ([' '].intercalate ((ids sels).map (·.repr))))))]) ++
  (entries attrs).map Attr.viewEntry

/-- The tag of an element; of a custom element just its name. -/
def Tag.view : Tag → Tag
  | .webComponent k => .webComponent ⟨k.repr, 0⟩
  | t => t

/-- Generics, whether written `::<..>` or `<..>`. -/
def PathArgs.view : PathArgs → PathArgs
  | .angle _ inner => .angle true inner
  | a => a

/-- A path, whether or not with `::` in front of `<`. -/
def Path.view (p : Path) : Path := ⟨p.leading, p.segs.map fun s => ⟨s.ident, s.args.view⟩⟩

/-- An element, given its children and its slots.  Without children, `clone:` and closure arguments are not
seen. -/
def viewElement (asSlot : Bool) (tag : Tag) (sels : List Selector) (attrs : List Attr) (args : Option Toks)
    (nodes : List View) (slots : List (Ident × View)) : View :=
  match tag with
  | .component p =>
    let props := (kvs attrs).map KvAttr.prop
    let clones := if nodes.isEmpty then [] else (clones attrs).map fun d => underscored d.key.text
    let args := if nodes.isEmpty then none else args
    if asSlot then .slot p.view props clones args nodes
    else .component p.view props clones args nodes
      (fun n => (slots.filter fun s => s.1 = n).map Prod.snd) (viewEntries sels attrs)
  | tag => .element tag.view ((kvs attrs).map (KvAttr.view tag.kind)) ((directives attrs).map Directive.view)
      (classes sels) (ids sels) (spreads attrs) nodes

mutual
/-- What is seen of an element. -/
def Element.view (asSlot : Bool) : Element → View
  | .mk tag sels attrs args none => viewElement asSlot tag sels attrs args [] []
  | .mk tag sels attrs args (some cs) => viewElement asSlot tag sels attrs args (nodeViews cs) (slotViews cs)
/-- The children that are not slots. -/
def nodeViews : List Child → List View
  | [] => []
  | .value v :: cs => .value v :: nodeViews cs
  | .elem e :: cs => e.view false :: nodeViews cs
  | .slot _ :: cs => nodeViews cs
/-- The slots and their names. -/
def slotViews : List Child → List (Ident × View)
  | [] => []
  | .value _ :: cs => slotViews cs
  | .elem _ :: cs => slotViews cs
  | .slot e :: cs => (e.slotName.getD (plain []), e.view true) :: slotViews cs
end

/-- Two accepted inputs are the same view. -/
def SameView (root root' : List Child) : Prop := nodeViews root = nodeViews root'

/-- A spread that is one item of a tuple and no path from the root, so nothing the macro could write itself. -/
def plainSpread (e : Toks) : Prop := (∀ s, TT.punct ',' s ∉ e) ∧ ∀ s r, e ≠ .punct ':' s :: r

/-- Every `>` in these tokens closes a `<`, or is part of `->`.  (Tokens in groups do not matter.) -/
inductive Angles : Toks → Prop
  | nil : Angles []
  | arrow {s : Spacing} {r : Toks} : Angles r → Angles (.punct '-' .joint :: .punct '>' s :: r)
  | nested {s s' : Spacing} {a r : Toks} : Angles a → Angles r → Angles (.punct '<' s :: (a ++ .punct '>' s' :: r))
  | other {x : TT} {r : Toks} : (∀ c s, x = .punct c s → c ≠ '<' ∧ c ≠ '>') → x ≠ .punct '-' .joint → Angles r →
      Angles (x :: r)

/-- The generics of a path end where they seem to. -/
def Path.plain (p : Path) : Prop := ∀ s ∈ p.segs, ∀ t inner, s.args = .angle t inner → Angles inner

/-- The spreads and the generics of a component are such. -/
def plainTag (tag : Tag) (attrs : List Attr) : Prop :=
  ∀ p, tag = .component p → p.plain ∧ ∀ e ∈ spreads attrs, plainSpread e

mutual
/-- The spreads and generics of all components are such. -/
def Element.plainParts : Element → Prop
  | .mk tag _ attrs _ none => plainTag tag attrs
  | .mk tag _ attrs _ (some cs) => plainTag tag attrs ∧ PlainParts cs
/-- The same for children. -/
def PlainParts : List Child → Prop
  | [] => True
  | .value _ :: cs => PlainParts cs
  | .elem e :: cs => e.plainParts ∧ PlainParts cs
  | .slot e :: cs => e.plainParts ∧ PlainParts cs
end

end Mview
