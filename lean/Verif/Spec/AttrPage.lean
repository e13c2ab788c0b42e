import Verif.Spec.PageGap
/-
C84: what an attribute adds to a page, and where.
-/

namespace Mview.Run

variable {V : Type}

/-- What attributes add, on elements and on components. -/
structure Added (V : Type) where
  /-- on elements: plain attributes -/
  attrs : List (Look V) := []
  /-- on elements: directives -/
  dirs : List (Look V) := []
  /-- on elements: spreads -/
  spreads : List (Look V) := []
  /-- properties of components -/
  props : List (Part V) := []
  /-- variables cloned for the children of components -/
  clones : List Str := []
  /-- on the elements of components: directives and spreads -/
  entries : List (Look V) := []

/-- One after the other, of every sort. -/
def Added.and (x y : Added V) : Added V :=
  ⟨x.attrs ++ y.attrs, x.dirs ++ y.dirs, x.spreads ++ y.spreads, x.props ++ y.props, x.clones ++ y.clones,
    x.entries ++ y.entries⟩

/-- What one attribute adds. -/
def adds (R : Rust V) (tag : Tag) : Attr → Option (Added V)
  | .kv a => match tag with
    | .component _ => some { props := [.prop (rustName (.kebab a.key)) (valueOf R a.value)] }
    | _ => some { attrs := [attrLook R a] }
  | .directive d => match tag with
    | .component _ => if d.dir = plain c!"clone" then some { clones := [rustName d.key] }
      else (directiveEntry R d).map fun l => { entries := [l] }
    | _ => (directiveLook R d).map fun l => { dirs := [l] }
  | .spread e => match tag with
    | .component _ => some { entries := [.spread e] }
    | _ => some { spreads := [.spread e] }

/-- What several add. -/
def addAll (R : Rust V) (tag : Tag) : List Attr → Option (Added V)
  | [] => some {}
  | a :: r => do return (← adds R tag a).and (← addAll R tag r)

/-- An element or component on the page, with a gap for what attributes add: somewhere among the plain attributes,
somewhere among the directives and so on. -/
inductive NodeGap (V : Type) where
  | elem (space : Space) (name : Str) (before : Added V) (after : Added V) (shorthands : List (Look V)) (children : List (Dom V))
  | comp (function builder : Toks) (before : Added V) (after : Added V) (shorthands : List (Look V)) (args : Option Toks)
      (children : List (Dom V)) (slots : List (Part V))

/-- With something in the gap. -/
def NodeGap.fill (x : Added V) : NodeGap V → Dom V
  | .elem space name a b sh ds =>
    .elem space name ((a.attrs ++ x.attrs ++ b.attrs) ++ (a.dirs ++ x.dirs ++ b.dirs) ++ sh ++
      (a.spreads ++ x.spreads ++ b.spreads)) ds
  | .comp f g a b sh args ds slots =>
    .comp f g ((a.props ++ x.props ++ b.props) ++ passed args (a.clones ++ x.clones ++ b.clones) ds ++ slots)
      (sh ++ (a.entries ++ x.entries ++ b.entries))

/-- What one attribute of a slot adds: a property or a cloned variable. -/
def addsSlot (R : Rust V) : Attr → List (Part V) × List Str
  | .kv a => ([.prop (rustName (.kebab a.key)) (valueOf R a.value)], [])
  | .directive d => ([], if d.dir = plain c!"clone" then [rustName d.key] else [])
  | .spread _ => ([], [])

/-- A component with a slot with a gap for what attributes add. -/
structure SlotGap (V : Type) where
  (function builder : Toks)
  (front : List (Part V))
  (name : Str)
  (slotsBefore : List (Dom V))
  (type : Toks)
  (propsBefore propsAfter : List (Part V))
  (args : Option Toks)
  (clonesBefore clonesAfter : List Str)
  (children : List (Dom V))
  (slotsAfter : List (Dom V))
  (back : List (Part V))
  (looks : List (Look V))

/-- With properties and cloned variables in the gap. -/
def SlotGap.fill (N : SlotGap V) (x : List (List (Part V) × List Str)) : Dom V :=
  .comp N.function N.builder (N.front ++ .slots N.name (N.slotsBefore ++
    .slot N.type (N.propsBefore ++ (x.map Prod.fst).flatten ++ N.propsAfter ++
      passed N.args (N.clonesBefore ++ (x.map Prod.snd).flatten ++ N.clonesAfter) N.children) :: N.slotsAfter) :: N.back)
    N.looks

end Mview.Run
