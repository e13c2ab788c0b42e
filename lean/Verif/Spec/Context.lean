import Verif.Spec.Grammar
import Verif.Spec.Places
/-
Places in the input of `mview!`: well-formed children, then, possibly inside blocks of
children, a point at which anything may follow.
-/

namespace Mview

/-- The head of an element: everything before its `;`, closure arguments or block. -/
structure CHead where
  /-- the colon of `slot:`, if the element is a slot -/
  slot : Option Spacing
  tag : CTag
  sels : List CSel
  attrs : List CAttr

/-- `slot:` -/
def slotToks : Option Spacing → Toks
  | none => []
  | some s => [.ident (plain c!"slot"), .punct ':' s]

/-- The tokens of a head. -/
def CHead.toks (h : CHead) : Toks :=
  slotToks h.slot ++ (h.tag.toks ++ (h.sels.flatMap CSel.toks ++ h.attrs.flatMap CAttr.toks))

/-- The head is well-formed if `after` follows. -/
def CHead.Wf (pp : PathParser) (h : CHead) (after : Toks) : Prop :=
  h.tag.Wf pp (h.sels.flatMap CSel.toks ++ (h.attrs.flatMap CAttr.toks ++ after)) ∧
  listWf CSel.toks CSel.Wf h.sels (h.attrs.flatMap CAttr.toks ++ after) ∧
  listWf CAttr.toks CAttr.Wf h.attrs after ∧
  match h.slot with
  | none => ∃ i r, h.tag.toks = .ident i :: r ∧ i ≠ plain c!"true" ∧ i ≠ plain c!"false"
  | some s => ¬ (s = .joint ∧ ∃ s' r, h.tag.toks = .punct ':' s' :: r)

/-- The child an element with this head is. -/
def CHead.wrap (h : CHead) (e : Element) : Child :=
  match h.slot with
  | none => .elem e
  | some _ => .slot e

/-- Braces with this content are not an attribute: the content is not a name, and it does not
start with `..`. -/
def NotAttr (content : Toks) : Prop :=
  ((∀ t, content.head? = some t → t.isIdent = false ∧ t.isDash = false) ∨
    ∃ run t r, content = run ++ t :: r ∧ NameEnds run (t :: r)) ∧
  ∀ s r, content ≠ .punct '.' .joint :: .punct '.' s :: r

/-- A place for further children. -/
inductive Place where
  /-- after some children -/
  | here (before : List CChild)
  /-- after some children, in the block of an element; `after` follows the block -/
  | inside (before : List CChild) (head : CHead) (args : Option (Spacing × Toks × Spacing))
      (d : Braces) (inner : Place) (after : Toks)

/-- The input with `x` at this place. -/
def Place.fill (x : Toks) : Place → Toks
  | .here before => childrenToks before ++ x
  | .inside before head args d inner after =>
    childrenToks before ++
      (head.toks ++ (argsToks args ++ (.group d.delim (inner.fill x) :: after)))

/-- What is before the place is well-formed, given that `x` is at the place. -/
def Place.Wf (pp : PathParser) (x : Toks) : Place → Prop
  | .here before => childrenWf pp before x
  | .inside before head args d inner after =>
    childrenWf pp before
      (head.toks ++ (argsToks args ++ (.group d.delim (inner.fill x) :: after))) ∧
    head.Wf pp (argsToks args ++ (.group d.delim (inner.fill x) :: after)) ∧
    argsWf args ∧
    (args = none → d = .brace → NotAttr (inner.fill x)) ∧
    inner.Wf pp x

/-- What is before the place and what is after it are accepted, and together with the children
`cs` at the place stand for `root`. -/
inductive Place.Tree (pp : PathParser) : Place → List Child → List Child → Prop where
  | here (before : List CChild) (cs : List Child) :
      Place.Tree pp (.here before) cs (childrenAst before ++ cs)
  | inside {before : List CChild} {head : CHead} {args : Option (Spacing × Toks × Spacing)}
      {d : Braces} {inner : Place} {after : Toks} {cs cs' cs'' : List Child} :
      Place.Tree pp inner cs cs' → Parses pp after cs'' →
      Place.Tree pp (.inside before head args d inner after) cs
        (childrenAst before ++ head.wrap (.mk head.tag.ast (head.sels.map CSel.ast)
          (head.attrs.map CAttr.ast) (argsAst args) (some cs')) :: cs'')

/-- A child that starts like this is a slot: with the word `slot` and a colon that is not the
first of `::`. -/
def SlotStart (ts : Toks) : Prop :=
  ∃ s r, ts = .ident ⟨false, c!"slot"⟩ :: .punct ':' s :: r ∧ ¬ StartsColons (.punct ':' s :: r)

/-- What a name or directive with a value starts with, up to the `=`. -/
inductive CEq where
  | kv (name : Toks)
  | dir (dir : Ident) (s : Spacing) (key : CKey) (m : Option (Spacing × Ident))

def CEq.toks : CEq → Toks
  | .kv name => name
  | .dir d s key m => .ident d :: .punct ':' s :: (key.toks ++ modifierToks m)

def CEq.Wf : CEq → Toks → Prop
  | .kv name, after => NameEnds name after
  | .dir _ _ key m, after => key.Wf (modifierToks m ++ after)

/-- No value starts here. -/
def NoValue (ts : Toks) : Prop := ∀ (v : CVal) (r : Toks), ts ≠ v.toks ++ r

/-- The result with further errors reported first. -/
def MacroResult.withErrors (ds : List Diag) : MacroResult → MacroResult
  | .tokens _ => .errors ds dummy
  | .errors es x => .errors (ds ++ es) x
  | .panicked p => .panicked p
  | .hangs => .hangs

/-- The macro does not accept the input; unless it crashed, `d` is among the errors. -/
def Flagged (pp : PathParser) (s : Sched) (ts : Toks) (d : Diag) : Prop :=
  (∃ ds, mview pp s ts = .errors ds dummy ∧ d ∈ ds) ∨ ∃ p, mview pp s ts = .panicked p

end Mview
