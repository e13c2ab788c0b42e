import Verif.Spec.Issues
import Verif.Loc.Expand
/-
C41: where the errors of the expansion are reported.

`Spec/Issues.lean` again, with the place of every error.
-/

namespace Mview.Loc
variable {σ : Type}

/-- Something wrong with a tree, and where. -/
inductive Issue (σ : Type) where
  /-- an error is reported, and the macro carries on -/
  | report (d : Diag) (place : σ)
  /-- an error is reported, and the macro stops -/
  | stop (d : Diag) (place : σ)
  /-- the macro crashes -/
  | crash

/-- What the issues of a tree, in order, amount to. -/
inductive Verdict (σ : Type) where
  /-- these errors (perhaps none) -/
  | errors (ds : List (LDiag σ))
  /-- these errors, the last of which stopped the macro -/
  | stopped (ds : List (LDiag σ))
  | crashed

/-- One more error, in front. -/
def Verdict.add (d : LDiag σ) : Verdict σ → Verdict σ
  | .errors ds => .errors (d :: ds)
  | .stopped ds => .stopped (d :: ds)
  | .crashed => .crashed

/-- The macro goes through the issues in order. -/
def verdict : List (Issue σ) → Verdict σ
  | [] => .errors []
  | .report d p :: is => (verdict is).add ⟨d, p⟩
  | .stop d p :: _ => .stopped [⟨d, p⟩]
  | .crash :: _ => .crashed

/-- What the compiler sees: the expansion, or the errors in order at their places and `()` at the
call site, or a crash. -/
def MacroResult.Is [Spans σ] : MacroResult σ → Verdict σ → Prop
  | .tokens _, .errors [] => True
  | .errors ds out, .errors (e :: es) => ds = e :: es ∧ out = [.group .paren [] (.single callSite)]
  | .errors ds out, .stopped es => ds = es ∧ out = [.group .paren [] (.single callSite)]
  | .panicked _, .crashed => True
  | _, _ => False

/-! ### places -/

/-- Where the arguments of the last segment of a path end; `i` is the segment's name. -/
def PathArgs.theEnd (i : σ) : PathArgs σ → σ
  | .none => i
  | .angle _ _ _ gt => gt
  | .paren _ sp => sp

/-- Where a token is; a group with its delimiters. -/
def TT.place : TT σ → σ
  | .ident _ p => p
  | .punct _ _ p => p
  | .lit _ p => p
  | .group _ _ p => p.whole

/-- Where a value is: a literal, or the whole of the braces or brackets, without a prefix. -/
def Value.place : Value σ → σ
  | .lit l => l.sp
  | .block _ b => b.whole
  | .bracket _ _ b => b.whole

/-- Where a selector is: at its `#` or `.`. -/
def Selector.place : Selector σ → σ
  | .id s _ => s
  | .cls s _ => s

variable [Spans σ]

/-- Where a path begins. -/
def Path.theStart (p : Path σ) : σ :=
  match p.leading, p.segs with
  | some c, _ => c.1
  | none, s :: _ => s.ident.sp
  | none, [] => callSite

/-- Where a path ends. -/
def Path.theEnd (p : Path σ) : σ :=
  match p.segs.getLast?, p.leading with
  | some s, _ => s.args.theEnd s.ident.sp
  | none, some c => c.2
  | none, none => callSite

/-- Where a path is: from its first to its last token. -/
def Path.place (p : Path σ) : σ := joinOr p.theStart p.theEnd

/-- Where a name is: from its first to its last section. -/
def KebabIdent.place (k : KebabIdent σ) : σ :=
  joinOr (k.spans.head?.getD callSite) (k.spans.getLast?.getD callSite)

/-- Where a tag is. -/
def Tag.place : Tag σ → σ
  | .html i => i.sp
  | .svg i => i.sp
  | .math i => i.sp
  | .webComponent k => k.place
  | .component p => p.place

/-! ### issues -/

omit [Spans σ]

/-- A name has to be an identifier. -/
def nameIssues (n : Str) : List (Issue σ) := if Str.Identlike n then [] else [.crash]

/-- The only prefix is `f`. -/
def Value.issues : Value σ → List (Issue σ)
  | .bracket (some pfx) _ _ =>
    if pfx.id = plain c!"f" then [] else [.report (.unsupportedPrefix pfx.id) pfx.sp]
  | _ => []

/-- A value that may be left out. -/
def optIssues : Option (Value σ) → List (Issue σ)
  | some v => v.issues
  | none => []

/-- There may be no modifier. -/
def modifierIssues : Option (SIdent σ) → List (Issue σ)
  | some m => [.report (.modifierNotAllowed m.id) m.sp]
  | none => []

/-- A key that has to be an identifier. -/
def KebabOrStr.issues : KebabOrStr σ → List (Issue σ)
  | .kebab k => nameIssues k.repr
  | .str s => [.report (.expectedIdentifier s.str) s.sp]

/-- The characters of a key. -/
def KebabOrStr.text : KebabOrStr σ → Str
  | .kebab k => k.repr
  | .str s => s.str

/-- An event: an identifier with the modifier `undelegated` or none. -/
def Directive.eventIssues (d : Directive σ) : List (Issue σ) :=
  (match d.key with
    | .kebab k => nameIssues k.repr
    | .str s => [.report (.eventNotIdent s.str) s.sp]) ++
  (match d.modifier with
    | some m => if m.id = plain c!"undelegated" then [] else [.report (.unknownModifier m.id) m.sp]
    | none => [])

/-- A function in `use:`. -/
def Directive.useIssues (d : Directive σ) : List (Issue σ) :=
  d.key.issues ++ modifierIssues d.modifier

/-- An attribute of an element that is not a component. -/
def KvAttr.issuesOnElement (kind : TagKind) (a : KvAttr σ) : List (Issue σ) :=
  (if a.key.repr = c!"ref" ∨ Unchecked kind a.key.repr then [] else nameIssues a.key.repr) ++
    a.value.issues

/-- An attribute of a component or slot. -/
def KvAttr.issuesOnComponent (a : KvAttr σ) : List (Issue σ) :=
  nameIssues a.key.repr ++ a.value.issues

/-- A directive of an element that is not a component: what is wrong with the directive itself is
reported at the word before the colon. -/
def Directive.issuesOnElement (d : Directive σ) : List (Issue σ) :=
  if d.dir.id ∈ [plain c!"class", plain c!"style", plain c!"prop"] then
    modifierIssues d.modifier ++ optIssues d.value
  else if d.dir.id = plain c!"on" then d.eventIssues ++ optIssues d.value
  else if d.dir.id = plain c!"use" then d.useIssues ++ optIssues d.value
  else if d.dir.id ∈ [plain c!"attr", plain c!"clone"] then
    [.report (.directiveOnElement d.dir.id) d.dir.sp]
  else [.report (.unknownDirective d.dir.id) d.dir.sp]

/-- `clone:` on a component or slot.  (A modifier is reported twice.) -/
def Directive.cloneIssues (d : Directive σ) : List (Issue σ) :=
  modifierIssues d.modifier ++ d.key.issues ++ modifierIssues d.modifier ++
    match d.value with
    | some v => [.report .cloneValue v.place]
    | none => []

/-- A directive of a component.  (Modifiers of `class:`, `style:`, `attr:` and `prop:` are not
reported.) -/
def Directive.issuesOnComponent (d : Directive σ) : List (Issue σ) :=
  if d.dir.id = plain c!"clone" then d.cloneIssues
  else if d.dir.id ∈ [plain c!"class", plain c!"style"] then optIssues d.value
  else if d.dir.id = plain c!"attr" then
    (if '-' ∈ d.key.text ∧ ¬ c!"aria-" <+: d.key.text then [] else d.key.issues) ++ optIssues d.value
  else if d.dir.id = plain c!"prop" then d.key.issues ++ optIssues d.value
  else if d.dir.id = plain c!"on" then d.eventIssues ++ optIssues d.value
  else if d.dir.id = plain c!"use" then d.useIssues ++ optIssues d.value
  else [.report (.unknownDirective d.dir.id) d.dir.sp]

/-- An attribute of whatever kind on an element that is not a component. -/
def Attr.issuesOnElement (kind : TagKind) : Attr σ → List (Issue σ)
  | .kv a => a.issuesOnElement kind
  | .directive d => d.issuesOnElement
  | .spread _ => []

/-- An attribute of whatever kind on a component. -/
def Attr.issuesOnComponent : Attr σ → List (Issue σ)
  | .kv a => a.issuesOnComponent
  | .directive d => d.issuesOnComponent
  | .spread _ => []

/-- An attribute of whatever kind on a slot: a spread attribute is reported at its braces. -/
def Attr.issuesOnSlot : Attr σ → List (Issue σ)
  | .kv a => a.issuesOnComponent
  | .directive d =>
    if d.dir.id = plain c!"clone" then d.cloneIssues
    else [.report (.directiveOnSlot d.dir.id) d.dir.sp]
  | .spread s => [.report .spreadOnSlot s.braces.whole]

/-- The first selector of a slot. -/
def selectorIssues : List (Selector σ) → List (Issue σ)
  | s :: _ => [.report .selectorOnSlot s.place]
  | [] => []

/-- `Fn(..)`-like generics. -/
def Path.issues (p : Path σ) : List (Issue σ) :=
  p.segs.flatMap fun seg => match seg.args with
    | .paren _ sp => [.stop .functionGenerics sp]
    | _ => []

/-- The name of a slot, if it is just a name. -/
def Element.slotName (e : Element σ) : Option Ident :=
  match e.tag with
  | .component ⟨none, [⟨i, .none, _⟩]⟩ => some i.id
  | _ => none

/-- The names of the slots directly inside an element. -/
def slotNames (cs : List (Child σ)) : List Ident := cs.filterMap fun
  | .slot _ e => e.slotName
  | _ => none

/-- The methods for slots need a name that can be an identifier. -/
def methodIssues (cs : List (Child σ)) : List (Issue σ) :=
  if ∀ n ∈ slotNames cs, snakeCase n.name ∉ [c!"_", c!"self", c!"Self", c!"super", c!"crate"]
  then [] else [.crash]

variable [Spans σ]

mutual
/-- The issues of an element (a slot if `asSlot`). -/
def Element.issues (asSlot : Bool) : Element σ → List (Issue σ)
  | .mk tag sels attrs _ none =>
    match asSlot, tag with
    | false, .component p => p.issues ++ attrs.flatMap Attr.issuesOnComponent
    | true, .component p => p.issues ++ selectorIssues sels ++ attrs.flatMap Attr.issuesOnSlot
    | false, _ => attrs.flatMap (Attr.issuesOnElement tag.kind)
    | true, _ => [.crash]
  | .mk tag sels attrs _ (some cs) =>
    match asSlot, tag with
    | false, .component p => p.issues ++ attrs.flatMap Attr.issuesOnComponent ++
        nodesIssues cs ++ slotsIssues cs ++ methodIssues cs
    | true, .component p => p.issues ++ selectorIssues sels ++
        attrs.flatMap Attr.issuesOnSlot ++ nodesIssues cs ++ slotsIssues cs ++ methodIssues cs
    | false, _ => attrs.flatMap (Attr.issuesOnElement tag.kind) ++ nodesIssues cs
    | true, _ => [.crash]
/-- The issues of the children that are not slots. -/
def nodesIssues : List (Child σ) → List (Issue σ)
  | [] => []
  | .value v :: cs => v.issues ++ nodesIssues cs
  | .elem e :: cs => e.issues false ++ nodesIssues cs
  | .slot _ _ :: cs => nodesIssues cs
/-- The issues of the slots: a slot is a component, and its name is not a path. -/
def slotsIssues : List (Child σ) → List (Issue σ)
  | [] => []
  | .value _ :: cs => slotsIssues cs
  | .elem _ :: cs => slotsIssues cs
  | .slot _ e :: cs =>
    (match e.tag with
      | .component p =>
        if e.slotName.isSome then e.issues true else [.report .slotNameIsPath p.place]
      | _ => [.crash]) ++ slotsIssues cs
end

omit [Spans σ] in
/-- The tags of the slots among the children. -/
def slotTags (cs : List (Child σ)) : List (Tag σ) := cs.filterMap fun
  | .slot _ e => some e.tag
  | _ => none

/-- The issues of the whole tree: there is no slot at the top.  If the slot is everything there is,
the error is at the word `slot`, otherwise at the name of the first slot. -/
def rootIssues (cs : List (Child σ)) : List (Issue σ) :=
  match cs, slotTags cs with
  | [.slot kw _], _ => [.stop .slotAtTopLevel kw]
  | _, t :: _ => [.stop .slotAtTopLevel t.place]
  | _, [] => nodesIssues cs

omit [Spans σ] in
/-- The issues that are errors of the parser. -/
def reports (ds : List (LDiag σ)) : List (Issue σ) := ds.map fun d => .report d.diag d.sp

end Mview.Loc
