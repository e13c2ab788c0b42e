import Verif.Spec.Accept
import Verif.Spec.Count
import Verif.Model.Mview
/-
C38: the errors of the expansion, exactly and in order.
-/

namespace Mview

/-- Something wrong with a tree. -/
inductive Issue where
  /-- an error is reported, and the macro carries on -/
  | report (d : Diag)
  /-- an error is reported, and the macro stops -/
  | stop (d : Diag)
  /-- the macro crashes -/
  | crash

/-- What the issues of a tree, in order, amount to. -/
inductive Verdict where
  /-- these errors (perhaps none) -/
  | errors (ds : List Diag)
  /-- these errors, the last of which stopped the macro -/
  | stopped (ds : List Diag)
  | crashed

/-- One more error, in front. -/
def Verdict.add (d : Diag) : Verdict → Verdict
  | .errors ds => .errors (d :: ds)
  | .stopped ds => .stopped (d :: ds)
  | .crashed => .crashed

/-- The macro goes through the issues in order. -/
def verdict : List Issue → Verdict
  | [] => .errors []
  | .report d :: is => (verdict is).add d
  | .stop d :: _ => .stopped [d]
  | .crash :: _ => .crashed

/-- What the compiler sees: the expansion, or the errors in order and `()`, or a crash. -/
def MacroResult.Is : MacroResult → Verdict → Prop
  | .tokens _, .errors [] => True
  | .errors ds out, .errors (e :: es) => ds = e :: es ∧ out = [.group .paren []]
  | .errors ds out, .stopped es => ds = es ∧ out = [.group .paren []]
  | .panicked _, .crashed => True
  | _, _ => False

instance (n : Str) : Decidable (Str.Identlike n) := by unfold Str.Identlike; infer_instance

/-- A name has to be an identifier. -/
def nameIssues (n : Str) : List Issue := if Str.Identlike n then [] else [.crash]

/-- The only prefix is `f`. -/
def Value.issues : Value → List Issue
  | .bracket (some pfx) _ => if pfx = plain c!"f" then [] else [.report (.unsupportedPrefix pfx)]
  | _ => []

/-- A value that may be left out. -/
def optIssues : Option Value → List Issue
  | some v => v.issues
  | none => []

/-- There may be no modifier. -/
def modifierIssues : Option Ident → List Issue
  | some m => [.report (.modifierNotAllowed m)]
  | none => []

/-- A key that has to be an identifier. -/
def KebabOrStr.issues : KebabOrStr → List Issue
  | .kebab k => nameIssues k.repr
  | .str s => [.report (.expectedIdentifier s)]

/-- An event: an identifier with the modifier `undelegated` or none. -/
def Directive.eventIssues (d : Directive) : List Issue :=
  (match d.key with
    | .kebab k => nameIssues k.repr
    | .str s => [.report (.eventNotIdent s)]) ++
  (match d.modifier with
    | some m => if m = plain c!"undelegated" then [] else [.report (.unknownModifier m)]
    | none => [])

/-- A function in `use:`. -/
def Directive.useIssues (d : Directive) : List Issue := d.key.issues ++ modifierIssues d.modifier

/-- An attribute of an element that is not a component. -/
def KvAttr.issuesOnElement (kind : TagKind) (a : KvAttr) : List Issue :=
  (if a.key.repr = c!"ref" ∨ Unchecked kind a.key.repr then [] else nameIssues a.key.repr) ++
    a.value.issues

/-- An attribute of a component or slot. -/
def KvAttr.issuesOnComponent (a : KvAttr) : List Issue := nameIssues a.key.repr ++ a.value.issues

/-- A directive of an element that is not a component. -/
def Directive.issuesOnElement (d : Directive) : List Issue :=
  if d.dir ∈ [plain c!"class", plain c!"style", plain c!"prop"] then
    modifierIssues d.modifier ++ optIssues d.value
  else if d.dir = plain c!"on" then d.eventIssues ++ optIssues d.value
  else if d.dir = plain c!"use" then d.useIssues ++ optIssues d.value
  else if d.dir ∈ [plain c!"attr", plain c!"clone"] then [.report (.directiveOnElement d.dir)]
  else [.report (.unknownDirective d.dir)]

/-- `clone:` on a component or slot.  (A modifier is reported twice.) -/
def Directive.cloneIssues (d : Directive) : List Issue :=
  modifierIssues d.modifier ++ d.key.issues ++ modifierIssues d.modifier ++
    if d.value.isSome then [.report .cloneValue] else []

/-- A directive of a component.  (Modifiers of `class:`, `style:`, `attr:` and `prop:` are not
reported.) -/
def Directive.issuesOnComponent (d : Directive) : List Issue :=
  if d.dir = plain c!"clone" then d.cloneIssues
  else if d.dir ∈ [plain c!"class", plain c!"style"] then optIssues d.value
  else if d.dir = plain c!"attr" then
    (if '-' ∈ d.key.text ∧ ¬ c!"aria-" <+: d.key.text then [] else d.key.issues) ++ optIssues d.value
  else if d.dir = plain c!"prop" then d.key.issues ++ optIssues d.value
  else if d.dir = plain c!"on" then d.eventIssues ++ optIssues d.value
  else if d.dir = plain c!"use" then d.useIssues ++ optIssues d.value
  else [.report (.unknownDirective d.dir)]

/-- An attribute of whatever kind on an element that is not a component. -/
def Attr.issuesOnElement (kind : TagKind) : Attr → List Issue
  | .kv a => a.issuesOnElement kind
  | .directive d => d.issuesOnElement
  | .spread _ => []

/-- An attribute of whatever kind on a component. -/
def Attr.issuesOnComponent : Attr → List Issue
  | .kv a => a.issuesOnComponent
  | .directive d => d.issuesOnComponent
  | .spread _ => []

/-- An attribute of whatever kind on a slot. -/
def Attr.issuesOnSlot : Attr → List Issue
  | .kv a => a.issuesOnComponent
  | .directive d =>
    if d.dir = plain c!"clone" then d.cloneIssues else [.report (.directiveOnSlot d.dir)]
  | .spread _ => [.report .spreadOnSlot]

/-- `Fn(..)`-like generics. -/
def Path.issues (p : Path) : List Issue :=
  p.segs.flatMap fun seg => match seg.args with
    | .paren _ => [.stop .functionGenerics]
    | _ => []

/-- The names of the slots directly inside an element. -/
def slotNames (cs : List Child) : List Ident := cs.filterMap fun
  | .slot e => e.slotName
  | _ => none

/-- The methods for slots need a name that can be an identifier. -/
def methodIssues (cs : List Child) : List Issue :=
  if ∀ n ∈ slotNames cs, snakeCase n.name ∉ [c!"_", c!"self", c!"Self", c!"super", c!"crate"]
  then [] else [.crash]

mutual
/-- The issues of an element (a slot if `asSlot`). -/
def Element.issues (asSlot : Bool) : Element → List Issue
  | .mk tag sels attrs _ none =>
    match asSlot, tag with
    | false, .component p => p.issues ++ attrs.flatMap Attr.issuesOnComponent
    | true, .component p => p.issues ++ (if sels.isEmpty then [] else [.report .selectorOnSlot]) ++
        attrs.flatMap Attr.issuesOnSlot
    | false, _ => attrs.flatMap (Attr.issuesOnElement tag.kind)
    | true, _ => [.crash]
  | .mk tag sels attrs _ (some cs) =>
    match asSlot, tag with
    | false, .component p => p.issues ++ attrs.flatMap Attr.issuesOnComponent ++
        nodesIssues cs ++ slotsIssues cs ++ methodIssues cs
    | true, .component p => p.issues ++ (if sels.isEmpty then [] else [.report .selectorOnSlot]) ++
        attrs.flatMap Attr.issuesOnSlot ++ nodesIssues cs ++ slotsIssues cs ++ methodIssues cs
    | false, _ => attrs.flatMap (Attr.issuesOnElement tag.kind) ++ nodesIssues cs
    | true, _ => [.crash]
/-- The issues of the children that are not slots. -/
def nodesIssues : List Child → List Issue
  | [] => []
  | .value v :: cs => v.issues ++ nodesIssues cs
  | .elem e :: cs => e.issues false ++ nodesIssues cs
  | .slot _ :: cs => nodesIssues cs
/-- The issues of the slots: a slot is a component, and its name is not a path. -/
def slotsIssues : List Child → List Issue
  | [] => []
  | .value _ :: cs => slotsIssues cs
  | .elem _ :: cs => slotsIssues cs
  | .slot e :: cs =>
    (if e.tag.isPath then
      if e.slotName.isSome then e.issues true else [.report .slotNameIsPath]
    else [.crash]) ++ slotsIssues cs
end

/-- The issues of the whole tree: there is no slot at the top. -/
def rootIssues (cs : List Child) : List Issue :=
  if cs.any Child.isSlot then [.stop .slotAtTopLevel] else nodesIssues cs

end Mview
