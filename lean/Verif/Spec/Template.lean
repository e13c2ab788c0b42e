import Verif.Spec.Run
/-
C81: what is left of a page when the code of the user is not run: it is written where its value would be.
-/

namespace Mview.Run

variable {V W : Type}

/-- The same page with other values. -/
def Look.map (f : V → W) : Look V → Look W
  | .attr name v => .attr name (f v)
  | .cls v => .cls (f v)
  | .clsIf name v => .clsIf (f name) (f v)
  | .style v => .style (f v)
  | .styleOf name v => .styleOf (f name) (f v)
  | .prop name v => .prop (f name) (f v)
  | .on event undelegated v => .on event undelegated (f v)
  | .use g v => .use g (v.map f)
  | .ref v => .ref (f v)
  | .spread code => .spread code

mutual
def Dom.map (f : V → W) : Dom V → Dom W
  | .value v => .value (f v)
  | .elem space name looks ds => .elem space name (looks.map (Look.map f)) (domsMap f ds)
  | .comp g b parts looks => .comp g b (partsMap f parts) (looks.map (Look.map f))
  | .slot type parts => .slot type (partsMap f parts)
def Part.map (f : V → W) : Part V → Part W
  | .prop name v => .prop name (f v)
  | .children args clones ds => .children args clones (domsMap f ds)
  | .slots name ds => .slots name (domsMap f ds)
def domsMap (f : V → W) : List (Dom V) → List (Dom W)
  | [] => []
  | d :: ds => d.map f :: domsMap f ds
def partsMap (f : V → W) : List (Part V) → List (Part W)
  | [] => []
  | p :: ps => p.map f :: partsMap f ps
end

/-- An expression of the user, or a name. -/
inductive Code where
  | lit (l : Lit)
  | bool (b : Bool)
  /-- `{ code }` -/
  | block (code : Toks)
  /-- `move || { code }` -/
  | lazy (code : Toks)
  /-- `move || format!(code)` -/
  | format (code : Toks)

/-- What it evaluates to. -/
def Code.eval (R : Rust V) : Code → V
  | .lit l => R.lit l
  | .bool b => R.bool b
  | .block code => R.block code
  | .lazy code => R.lazy code
  | .format code => R.format code

/-- The name, if the code is `let __x = (); .. "name"`. -/
def nameIn : Toks → Option Str
  | [.lit (.str name)] => some name
  | .ident a :: .ident x :: .punct '=' .alone :: .group .paren [] :: .punct ';' .alone :: r =>
    if a = plain c!"let" ∧ x = plain c!"__x" then nameIn r else none
  | _ => none

/-- Nothing is evaluated, but that `{ let __x = (); .. "name" }` is `"name"` is known. -/
def written : Rust Code where
  lit := .lit
  bool := .bool
  block code := match nameIn code with
    | some name => .lit (.str name)
    | none => .block code
  lazy := .lazy
  format := .format

/-- The values on an element. -/
def Look.values : Look V → List V
  | .attr _ v => [v]
  | .cls v => [v]
  | .clsIf name v => [name, v]
  | .style v => [v]
  | .styleOf name v => [name, v]
  | .prop name v => [name, v]
  | .on _ _ v => [v]
  | .use _ v => v.toList
  | .ref v => [v]
  | .spread _ => []

mutual
/-- The values on a page, in order. -/
def Dom.values : Dom V → List V
  | .value v => [v]
  | .elem _ _ looks ds => looks.flatMap Look.values ++ domsValues ds
  | .comp _ _ parts looks => partsValues parts ++ looks.flatMap Look.values
  | .slot _ parts => partsValues parts
def Part.values : Part V → List V
  | .prop _ v => [v]
  | .children _ _ ds => domsValues ds
  | .slots _ ds => domsValues ds
def domsValues : List (Dom V) → List V
  | [] => []
  | d :: ds => d.values ++ domsValues ds
def partsValues : List (Part V) → List V
  | [] => []
  | p :: ps => p.values ++ partsValues ps
end

end Mview.Run
