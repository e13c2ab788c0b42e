import Verif.Spec.Run
import Verif.Spec.Count
/-
C83: what a page is made of, and what is written in a view to be used on the page.
-/

namespace Mview.Run

variable {V W : Type}

/-- Something of the user that is used on a page. -/
inductive Ingredient (V : Type) where
  /-- a value: of an attribute, directive or property, or to be rendered -/
  | value (v : V)
  /-- `{..code}` -/
  | spread (code : Toks)
  /-- the parameters of children -/
  | args (code : Toks)
  /-- a variable that is cloned for the children -/
  | clone (name : Str)

/-- The same with other values. -/
def Ingredient.map (f : V → W) : Ingredient V → Ingredient W
  | .value v => .value (f v)
  | .spread code => .spread code
  | .args code => .args code
  | .clone name => .clone name

/-! ### on a page -/

def Look.ingredients : Look V → List (Ingredient V)
  | .attr _ v => [.value v]
  | .cls v => [.value v]
  | .clsIf name v => [.value name, .value v]
  | .style v => [.value v]
  | .styleOf name v => [.value name, .value v]
  | .prop name v => [.value name, .value v]
  | .on _ _ v => [.value v]
  | .use _ v => v.toList.map .value
  | .ref v => [.value v]
  | .spread code => [.spread code]

mutual
/-- All that a part of a page is made of. -/
def Dom.ingredients : Dom V → List (Ingredient V)
  | .value v => [.value v]
  | .elem _ _ looks ds => looks.flatMap Look.ingredients ++ domsIngredients ds
  | .comp _ _ parts looks => partsIngredients parts ++ looks.flatMap Look.ingredients
  | .slot _ parts => partsIngredients parts
def Part.ingredients : Part V → List (Ingredient V)
  | .prop _ v => [.value v]
  | .children args clones ds => args.toList.map .args ++ clones.map .clone ++ domsIngredients ds
  | .slots _ ds => domsIngredients ds
def domsIngredients : List (Dom V) → List (Ingredient V)
  | [] => []
  | d :: ds => d.ingredients ++ domsIngredients ds
def partsIngredients : List (Part V) → List (Ingredient V)
  | [] => []
  | p :: ps => p.ingredients ++ partsIngredients ps
end

/-! ### in a view -/

/-- What is written in an attribute. -/
def attrGives : Attr → List (Ingredient Value)
  | .kv a => [.value a.value]
  | .directive d => d.value.toList.map .value
  | .spread code => [.spread code]

/-- `clone:x`. -/
def attrClones : Attr → List (Ingredient Value)
  | .directive d => if d.dir = plain c!"clone" then [.clone (rustName d.key)] else []
  | _ => []

/-- Parameters and clones are for the children of components and slots, if there are any. -/
def forChildren (tag : Tag) (attrs : List Attr) (args : Option Toks) (cs : List Child) : List (Ingredient Value) :=
  if tag.isPath ∧ ∃ c ∈ cs, c.isSlot = false then args.toList.map .args ++ attrs.flatMap attrClones else []

mutual
/-- What is written in an element. -/
def elementGives (asSlot : Bool) : Element → List (Ingredient Value)
  | .mk _ _ attrs _ none => attrs.flatMap attrGives
  | .mk tag _ attrs args (some cs) =>
    attrs.flatMap attrGives ++ forChildren tag attrs args cs ++ childrenGive (tag.isPath && !asSlot) cs
/-- What is written in children; slots are only used directly inside a component. -/
def childrenGive (inside : Bool) : List Child → List (Ingredient Value)
  | [] => []
  | .value v :: cs => .value v :: childrenGive inside cs
  | .elem e :: cs => elementGives false e ++ childrenGive inside cs
  | .slot e :: cs => (if inside then elementGives true e else []) ++ childrenGive inside cs
end

end Mview.Run
