import Verif.Spec.Places
/-
C36: which trees the expansion accepts, as an explicit recursive condition.
-/

namespace Mview

/-- The name can be made an identifier: with underscores for dashes it is not one of the five
words that cannot be raw identifiers. -/
def Str.Identlike (name : Str) : Prop :=
  name.map (fun c => if c = '-' then '_' else c) ∉
    [c!"_", c!"self", c!"Self", c!"super", c!"crate"]

/-- The only prefix before a bracket is `f`. -/
def Value.Accepted : Value → Prop
  | .bracket (some pfx) _ => pfx = plain c!"f"
  | _ => True

/-- A value that may be left out. -/
def optAccepted (v : Option Value) : Prop := ∀ x, v = some x → x.Accepted

/-- An attribute of an HTML, SVG, MathML or custom element: names passed as strings are
arbitrary. -/
def KvAttr.AcceptedOnElement (kind : TagKind) (a : KvAttr) : Prop :=
  a.value.Accepted ∧
    (a.key.repr = c!"ref" ∨ Unchecked kind a.key.repr ∨ Str.Identlike a.key.repr)

/-- An attribute of a component or slot. -/
def KvAttr.AcceptedOnComponent (a : KvAttr) : Prop :=
  a.value.Accepted ∧ Str.Identlike a.key.repr

/-- The key is an identifier. -/
def KebabOrStr.IdentKey : KebabOrStr → Prop
  | .kebab k => Str.Identlike k.repr
  | .str _ => False

/-- A directive of an element. -/
def Directive.AcceptedOnElement (d : Directive) : Prop :=
  optAccepted d.value ∧
    ((d.dir ∈ [plain c!"class", plain c!"style", plain c!"prop"] ∧ d.modifier = none) ∨
     (d.dir = plain c!"on" ∧ d.key.IdentKey ∧
       (d.modifier = none ∨ d.modifier = some (plain c!"undelegated"))) ∨
     (d.dir = plain c!"use" ∧ d.key.IdentKey ∧ d.modifier = none))

/-- A directive of a component. -/
def Directive.AcceptedOnComponent (d : Directive) : Prop :=
  (d.dir = plain c!"clone" ∧ d.key.IdentKey ∧ d.modifier = none ∧ d.value = none) ∨
  (optAccepted d.value ∧
    (d.dir ∈ [plain c!"class", plain c!"style"] ∨
     (d.dir = plain c!"attr" ∧ (('-' ∈ d.key.text ∧ ¬ c!"aria-" <+: d.key.text) ∨ d.key.IdentKey)) ∨
     (d.dir = plain c!"prop" ∧ d.key.IdentKey) ∨
     (d.dir = plain c!"on" ∧ d.key.IdentKey ∧
       (d.modifier = none ∨ d.modifier = some (plain c!"undelegated"))) ∨
     (d.dir = plain c!"use" ∧ d.key.IdentKey ∧ d.modifier = none)))

/-- A directive of a slot: only `clone:`. -/
def Directive.AcceptedOnSlot (d : Directive) : Prop :=
  d.dir = plain c!"clone" ∧ d.key.IdentKey ∧ d.modifier = none ∧ d.value = none

/-- An attribute of whatever kind on an HTML, SVG, MathML or custom element. -/
def Attr.AcceptedOnElement (kind : TagKind) : Attr → Prop
  | .kv a => a.AcceptedOnElement kind
  | .directive d => d.AcceptedOnElement
  | .spread _ => True

/-- An attribute of whatever kind on a component. -/
def Attr.AcceptedOnComponent : Attr → Prop
  | .kv a => a.AcceptedOnComponent
  | .directive d => d.AcceptedOnComponent
  | .spread _ => True

/-- An attribute of whatever kind on a slot. -/
def Attr.AcceptedOnSlot : Attr → Prop
  | .kv a => a.AcceptedOnComponent
  | .directive d => d.AcceptedOnSlot
  | .spread _ => False

/-- No `Fn(..)`-like generics. -/
def Path.Accepted (p : Path) : Prop := ∀ seg ∈ p.segs, ∀ inner, seg.args ≠ .paren inner

mutual
/-- The element (a slot if `asSlot`) is accepted, with everything inside it that is expanded. -/
def Element.Accepted (asSlot : Bool) : Element → Prop
  | .mk tag sels attrs _ none =>
    match asSlot, tag with
    | false, .component p => p.Accepted ∧ ∀ a ∈ attrs, a.AcceptedOnComponent
    | true, .component p => p.Accepted ∧ sels = [] ∧ ∀ a ∈ attrs, a.AcceptedOnSlot
    | false, _ => ∀ a ∈ attrs, a.AcceptedOnElement tag.kind
    | true, _ => False
  | .mk tag sels attrs _ (some cs) =>
    match asSlot, tag with
    | false, .component p => p.Accepted ∧ (∀ a ∈ attrs, a.AcceptedOnComponent) ∧
        nodesAccepted cs ∧ slotsAccepted cs
    | true, .component p => p.Accepted ∧ sels = [] ∧ (∀ a ∈ attrs, a.AcceptedOnSlot) ∧
        nodesAccepted cs ∧ slotsAccepted cs
    | false, _ => (∀ a ∈ attrs, a.AcceptedOnElement tag.kind) ∧ nodesAccepted cs
    | true, _ => False
/-- All children that are not slots are accepted. -/
def nodesAccepted : List Child → Prop
  | [] => True
  | .value v :: cs => v.Accepted ∧ nodesAccepted cs
  | .elem e :: cs => e.Accepted false ∧ nodesAccepted cs
  | .slot _ :: cs => nodesAccepted cs
/-- All slots are accepted: their tag is a single name that has a method. -/
def slotsAccepted : List Child → Prop
  | [] => True
  | .value _ :: cs => slotsAccepted cs
  | .elem _ :: cs => slotsAccepted cs
  | .slot e :: cs =>
    (∃ name, e.slotName = some name ∧
      snakeCase name.name ∉ [c!"_", c!"self", c!"Self", c!"super", c!"crate"]) ∧
    e.Accepted true ∧ slotsAccepted cs
end

/-- The whole input: no slot at the top. -/
def rootAccepted (cs : List Child) : Prop := (∀ c ∈ cs, c.isSlot = false) ∧ nodesAccepted cs

end Mview
