import Verif.Spec.Tags
import Verif.Spec.Kebab
import Verif.Spec.Tame
/-
The documented syntax of `mview!`: syntax trees with all their details (which shorthand,
which delimiter), the tokens they are written as and the AST they stand for.

A name is the list of its tokens.  Spacing of punctuation is part of the syntax tree but
irrelevant, except where `::` is meant.
-/

namespace Mview

/-! ### values -/

/-- A value. -/
inductive CVal where
  /-- a literal token -/
  | lit (l : Lit)
  /-- `true` or `false` -/
  | bool (b : Bool)
  /-- a negative number -/
  | neg (s : Spacing) (isFloat : Bool) (text : Str)
  /-- `{code}` -/
  | block (code : Toks)
  /-- `[code]` or `f[code]` -/
  | bracket (pfx : Option Ident) (code : Toks)

/-- The tokens of a value. -/
def CVal.toks : CVal → Toks
  | .lit l => [.lit l]
  | .bool b => [.ident (plain (if b then c!"true" else c!"false"))]
  | .neg s isFloat text => [.punct '-' s, .lit (if isFloat then .float text else .int text)]
  | .block code => [.group .brace code]
  | .bracket none code => [.group .bracket code]
  | .bracket (some pfx) code => [.ident pfx, .group .bracket code]

/-- The value meant. -/
def CVal.ast : CVal → Value
  | .lit l => .lit (.tok l)
  | .bool b => .lit (.bool b)
  | .neg _ isFloat text => .lit (.tok (if isFloat then .float ('-' :: text) else .int ('-' :: text)))
  | .block code => .block code
  | .bracket pfx code => .bracket pfx code

/-! ### attributes -/

/-- The key of a directive. -/
inductive CKey where
  | name (run : Toks)
  | str (s : Str)

/-- An attribute. -/
inductive CAttr where
  /-- `name` -/
  | bare (name : Toks)
  /-- `{name}` -/
  | short (name : Toks)
  /-- `name=value` -/
  | full (name : Toks) (s : Spacing) (v : CVal)
  /-- `dir:{name}` or `dir:{name}:modifier` -/
  | dirShort (dir : Ident) (s : Spacing) (name : Toks) (m : Option (Spacing × Ident))
  /-- `dir:name` or `dir:"name"`, then optionally `:modifier`, then optionally `=value` -/
  | dir (dir : Ident) (s : Spacing) (key : CKey) (m : Option (Spacing × Ident))
      (v : Option (Spacing × CVal))
  /-- `{..expr}` -/
  | spread (s : Spacing) (expr : Toks)

/-- The tokens of a key. -/
def CKey.toks : CKey → Toks
  | .name run => run
  | .str s => [.lit (.str s)]

/-- The key meant. -/
def CKey.ast : CKey → KebabOrStr
  | .name run => .kebab (kebabOf run)
  | .str s => .str s

/-- `:modifier` -/
def modifierToks : Option (Spacing × Ident) → Toks
  | none => []
  | some (s, m) => [.punct ':' s, .ident m]

/-- `=value` -/
def eqToks : Option (Spacing × CVal) → Toks
  | none => []
  | some (s, v) => .punct '=' s :: v.toks

/-- The tokens of an attribute. -/
def CAttr.toks : CAttr → Toks
  | .bare name => name
  | .short name => [.group .brace name]
  | .full name s v => name ++ .punct '=' s :: v.toks
  | .dirShort d s name m => .ident d :: .punct ':' s :: .group .brace name :: modifierToks m
  | .dir d s key m v => .ident d :: .punct ':' s :: (key.toks ++ modifierToks m ++ eqToks v)
  | .spread s expr => [.group .brace (.punct '.' .joint :: .punct '.' s :: expr)]

/-- The identifier a name becomes (if it can be one, see `Wf`). -/
def identOf (name : Toks) : Ident := (rawIdentOf (kebabText name)).getD ⟨false, []⟩

/-- The attribute meant. -/
def CAttr.ast : CAttr → Attr
  | .bare name => .kv ⟨kebabOf name, .lit (.bool true)⟩
  | .short name => .kv ⟨kebabOf name, .block [.ident (identOf name)]⟩
  | .full name _ v => .kv ⟨kebabOf name, v.ast⟩
  | .dirShort d _ name m =>
    .directive ⟨d, .kebab (kebabOf name), m.map Prod.snd, some (.block [.ident (identOf name)])⟩
  | .dir d _ key m v => .directive ⟨d, key.ast, m.map Prod.snd, v.map (·.2.ast)⟩
  | .spread _ expr => .spread expr

/-- A class or id shorthand. -/
inductive CSel where
  /-- `.name` -/
  | cls (s : Spacing) (name : Toks)
  /-- `#name` -/
  | id (s : Spacing) (name : Toks)

/-- The tokens of a shorthand. -/
def CSel.toks : CSel → Toks
  | .cls s name => .punct '.' s :: name
  | .id s name => .punct '#' s :: name

/-- The selector meant. -/
def CSel.ast : CSel → Selector
  | .cls _ name => .cls (kebabOf name)
  | .id _ name => .id (kebabOf name)

/-! ### elements -/

/-- A tag. -/
inductive CTag where
  /-- `div`, `my-element`, `Component` -/
  | name (run : Toks)
  /-- `path::to::Component`, `Component<T>`, written as `used` -/
  | path (used : Toks) (p : Path)

/-- The tokens of a tag. -/
def CTag.toks : CTag → Toks
  | .name run => run
  | .path used _ => used

/-- The tag meant. -/
def CTag.ast : CTag → Tag
  | .name run => (tagOf (kebabOf run)).getD (.html ⟨false, []⟩)
  | .path _ p => .component p

/-- Delimiters of children. -/
inductive Braces where
  | paren | brace

def Braces.delim : Braces → Delim
  | .paren => .paren
  | .brace => .brace

mutual
/-- An element. -/
inductive CElem where
  | mk (tag : CTag) (sels : List CSel) (attrs : List CAttr) (fin : CEnd)
/-- What an element ends with. -/
inductive CEnd where
  /-- `;` -/
  | semi (s : Spacing)
  /-- `{ .. }` or `( .. )`, optionally after `|args|` -/
  | block (args : Option (Spacing × Toks × Spacing)) (d : Braces) (cs : List CChild)
/-- A child. -/
inductive CChild where
  | value (v : CVal)
  | elem (e : CElem)
  /-- `slot:Name ..` -/
  | slot (s : Spacing) (e : CElem)
end

/-- `|args|` -/
def argsToks : Option (Spacing × Toks × Spacing) → Toks
  | none => []
  | some (s, args, s') => .punct '|' s :: (args ++ [.punct '|' s'])

/-- The arguments meant, with their pipes. -/
def argsAst (args : Option (Spacing × Toks × Spacing)) : Option Toks :=
  args.map fun a => .punct '|' .alone :: (a.2.1 ++ [.punct '|' .alone])

mutual
/-- The tokens of an element. -/
def CElem.toks : CElem → Toks
  | .mk tag sels attrs fin =>
    tag.toks ++ (sels.flatMap CSel.toks ++ (attrs.flatMap CAttr.toks ++ fin.toks))
/-- The tokens an element ends with. -/
def CEnd.toks : CEnd → Toks
  | .semi s => [.punct ';' s]
  | .block args d cs => argsToks args ++ [.group d.delim (childrenToks cs)]
/-- The tokens of a child. -/
def CChild.toks : CChild → Toks
  | .value v => v.toks
  | .elem e => e.toks
  | .slot s e => .ident (plain c!"slot") :: .punct ':' s :: e.toks
/-- The tokens of children: one after the other. -/
def childrenToks : List CChild → Toks
  | [] => []
  | c :: cs => c.toks ++ childrenToks cs
end

mutual
/-- The element meant. -/
def CElem.ast : CElem → Element
  | .mk tag sels attrs fin =>
    .mk tag.ast (sels.map CSel.ast) (attrs.map CAttr.ast) fin.args fin.children
/-- The closure arguments meant. -/
def CEnd.args : CEnd → Option Toks
  | .semi _ => none
  | .block args _ _ => argsAst args
/-- The children meant. -/
def CEnd.children : CEnd → Option (List Child)
  | .semi _ => none
  | .block _ _ cs => some (childrenAst cs)
/-- The child meant. -/
def CChild.ast : CChild → Child
  | .value v => .value v.ast
  | .elem e => .elem e.ast
  | .slot _ e => .slot e.ast
/-- The children meant. -/
def childrenAst : List CChild → List Child
  | [] => []
  | c :: cs => c.ast :: childrenAst cs
end

/-! ### well-formedness

`after` is what follows in the input. -/

/-- The name `run` is complete: what follows does not continue it; and no part of it but the
first is written `r#..`. -/
def NameEnds (run after : Toks) : Prop :=
  LongestKebab (run ++ after) run after ∧ kebabRaws run = []

/-- The name has an identifier. -/
def HasIdent (name : Toks) : Prop := rawIdentOf (kebabText name) ≠ none

def CKey.Wf : CKey → Toks → Prop
  | .name run, after => NameEnds run after
  | .str _, _ => True

def CAttr.Wf : CAttr → Toks → Prop
  | .bare name, after => NameEnds name after
  | .short name, _ => NameEnds name [] ∧ HasIdent name
  | .full name s v, after => NameEnds name (.punct '=' s :: v.toks ++ after)
  | .dirShort _ _ name _, _ => NameEnds name [] ∧ HasIdent name
  | .dir _ _ key m v, after => key.Wf (modifierToks m ++ eqToks v ++ after)
  | .spread _ _, _ => True

def CSel.Wf : CSel → Toks → Prop
  | .cls _ name, after => NameEnds name after
  | .id _ name, after => NameEnds name after

/-- Each member with what follows it. -/
def listWf {α : Type} (toks : α → Toks) (wf : α → Toks → Prop) : List α → Toks → Prop
  | [], _ => True
  | x :: xs, after => wf x (xs.flatMap toks ++ after) ∧ listWf toks wf xs after

/-- The tag is a path rather than a name: it starts with `::`, or `::` or `<` comes second. -/
def PathLike (ts : Toks) : Prop :=
  StartsColons ts ∨ ∃ i r, ts = .ident i :: r ∧ (StartsColons r ∨ StartsAngle r)

def CTag.Wf (pp : PathParser) : CTag → Toks → Prop
  | .name run, after => NameEnds run after ∧ tagOf (kebabOf run) ≠ none
  | .path used p, after => PathLike (used ++ after) ∧ pp.run (used ++ after) = (some p, after)

/-- A `|` -/
def TT.isPipe : TT → Bool
  | .punct '|' _ => true
  | _ => false

/-- There is no pipe among the arguments. -/
def argsWf (args : Option (Spacing × Toks × Spacing)) : Prop :=
  ∀ s a s', args = some (s, a, s') → ∀ t ∈ a, t.isPipe = false

/-- Only strings are literal children. -/
def CVal.ChildWf : CVal → Prop
  | .lit (.str _) => True
  | .block _ => True
  | .bracket _ _ => True
  | _ => False

mutual
def CElem.Wf (pp : PathParser) : CElem → Toks → Prop
  | .mk tag sels attrs fin, after =>
    tag.Wf pp (sels.flatMap CSel.toks ++ (attrs.flatMap CAttr.toks ++ (fin.toks ++ after))) ∧
    listWf CSel.toks CSel.Wf sels (attrs.flatMap CAttr.toks ++ (fin.toks ++ after)) ∧
    listWf CAttr.toks CAttr.Wf attrs (fin.toks ++ after) ∧
    fin.Wf pp
def CEnd.Wf (pp : PathParser) : CEnd → Prop
  | .semi _ => True
  | .block args _ cs => argsWf args ∧ childrenWf pp cs []
/-- Elements among children start with a word other than `true` or `false`; after `slot:`
the colon must not be part of `::`. -/
def CChild.Wf (pp : PathParser) : CChild → Toks → Prop
  | .value v, _ => v.ChildWf
  | .elem e, after => e.Wf pp after ∧
    ∃ i r, e.toks = .ident i :: r ∧ i ≠ plain c!"true" ∧ i ≠ plain c!"false"
  | .slot s e, after => e.Wf pp after ∧
    ¬ (s = .joint ∧ ∃ s' r, e.toks = .punct ':' s' :: r)
def childrenWf (pp : PathParser) : List CChild → Toks → Prop
  | [], _ => True
  | c :: cs, after => c.Wf pp (childrenToks cs ++ after) ∧ childrenWf pp cs after
end

/-- Of `syn::Path::parse`: a path starts with an identifier or `::`. -/
def PathParser.Starts (pp : PathParser) : Prop :=
  ∀ {ts p rest}, pp.run ts = (some p, rest) → StartsColons ts ∨ ∃ i r, ts = .ident i :: r

/-- No identifier contains a dash, at any depth. -/
def LexicalToks (ts : Toks) : Prop := ∀ i r, Within (.ident i :: r) ts → i.Lexical

end Mview
