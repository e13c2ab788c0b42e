import Verif.Model.Ast
import Verif.Spec.Quote
/-
What each piece of syntax stands for in Rust: the translation a user of `mview!` has
in mind.  `none` (or no related output) means that the piece is rejected.

The templates are written as Rust text.  Only the AST types are used from the
model, none of its functions.
-/

-- the linter does not see variables used inside `q!"..."`
set_option linter.unusedVariables false

namespace Mview
open Lex

/-- A method call `.name(args)`. -/
structure Call where
  name : Ident
  args : Toks

/-- A plain (not raw) identifier. -/
abbrev plain (s : Str) : Ident := ⟨false, s⟩

/-- The text of a chain of method calls. -/
def chain : List Call → Toks
  | [] => []
  | ⟨n, a⟩ :: cs =>
    let rest := chain cs
    q!".#n(#a) #rest"

/-- Entries each followed by a comma: `a, b, c,` -/
def commaAfter : List Toks → Toks
  | [] => []
  | x :: xs =>
    let rest := commaAfter xs
    q!"#x, #rest"

/-- Entries with commas between: `a, b, c` -/
def commaBetween : List Toks → Toks
  | [] => []
  | [x] => x
  | x :: y :: xs =>
    let rest := commaBetween (y :: xs)
    q!"#x, #rest"

/-! ### names -/

/-- The raw identifier `r#name`; a few names have none. -/
def rawIdent (name : Str) : Option Ident :=
  if name ∈ [c!"_", c!"self", c!"Self", c!"super", c!"crate"] then none else some ⟨true, name⟩

/-- The raw identifier a kebab-cased name becomes, if there is one. -/
def rawIdentOf (name : Str) : Option Ident :=
  rawIdent (name.map fun c => if c = '-' then '_' else c)

/-- The snake_case of an UpperCamelCase name: every capital after the first character
gets a `_`, everything becomes lowercase (ASCII). -/
def snakeCase : Str → Str
  | [] => []
  | c :: cs => c.toLower :: cs.flatMap fun c => if c.isUpper then ['_', c.toLower] else [c]

/-! ### values -/

/-- C09 -/
def Value.means : Value → Option Toks
  | .lit (.tok l) => some [.lit l]
  | .lit (.bool true) => some q!"true"
  | .lit (.bool false) => some q!"false"
  | .block code => some q!"{ #code }"
  | .bracket none code => some q!"move || { #code }"
  | .bracket (some pfx) code =>
    if pfx = plain c!"f" then some q!"move || ::std::format!(#code)" else none

/-- A value that may be left out: then nothing is written in its place. -/
def optMeans : Option Value → Option Toks
  | none => some []
  | some v => v.means

/-- A value that may be left out: then `true`. -/
def trueMeans : Option Value → Option Toks
  | none => some q!"true"
  | some v => v.means

/-! ### attributes -/

/-- C15: whether an attribute is passed by name as a string. -/
def Unchecked (kind : TagKind) (name : Str) : Prop :=
  match kind with
  | .svg | .webComponent => name ≠ c!"class" ∧ name ≠ c!"style"
  | _ => '-' ∈ name ∧ ¬ c!"aria-" <+: name

instance (kind : TagKind) (name : Str) : Decidable (Unchecked kind name) := by
  unfold Unchecked; split <;> infer_instance

/-- An attribute of an element. -/
def KvAttr.onElement (kind : TagKind) (a : KvAttr) : Option Call := do
  let v ← a.value.means
  let name := a.key.repr
  if name = c!"ref" then return ⟨plain c!"node_ref", v⟩
  else if Unchecked kind name then
    return ⟨plain c!"attr",
      q!"#name, ::leptos::prelude::IntoAttributeValue::into_attribute_value(#v)"⟩
  else return ⟨← rawIdentOf name, v⟩

/-- An attribute of a component or slot. -/
def KvAttr.onComponent (a : KvAttr) : Option Call := do
  return ⟨← rawIdentOf a.key.repr, ← a.value.means⟩

/-! ### directives -/

/-- The text of a directive's key. -/
def KebabOrStr.text : KebabOrStr → Str
  | .kebab k => k.repr
  | .str s => s

/-- The key as an identifier; string keys are not. -/
def KebabOrStr.asIdent : KebabOrStr → Option Ident
  | .kebab k => rawIdentOf k.repr
  | .str _ => none

/-- The event of an `on:` directive. -/
def Directive.event (d : Directive) : Option Toks := do
  let name ← d.key.asIdent
  match d.modifier with
  | none => return q!"::leptos::tachys::html::event::#name"
  | some m =>
    if m = plain c!"undelegated" then
      return q!"::leptos::tachys::html::event::undelegated(::leptos::tachys::html::event::#name)"
    else none

/-- The function and its parameter of a `use:` directive. -/
def Directive.useArgs (d : Directive) : Option Toks := do
  guard d.modifier.isNone
  let fn ← d.key.asIdent
  match d.value with
  | none => return q!"#fn, ().into()"
  | some v =>
    let v ← v.means
    return q!"#fn, ::std::convert::Into::into(#v)"

/-- C16: a directive of an element. -/
def Directive.onElement (d : Directive) : Option Call := do
  let key := d.key.text
  if d.dir = plain c!"class" ∨ d.dir = plain c!"style" then
    guard d.modifier.isNone
    let v ← optMeans d.value
    return ⟨d.dir, q!"(#key, #v)"⟩
  else if d.dir = plain c!"prop" then
    guard d.modifier.isNone
    let v ← optMeans d.value
    return ⟨d.dir, q!"#key, #v"⟩
  else if d.dir = plain c!"on" then
    let ev ← d.event
    let v ← optMeans d.value
    return ⟨d.dir, q!"#ev, #v"⟩
  else if d.dir = plain c!"use" then
    return ⟨plain c!"directive", ← d.useArgs⟩
  else none

/-- C17: a directive of a component other than `clone:`, as an entry of
`.add_any_attr((..))`.  (Modifiers of `class:`, `style:`, `attr:`, `prop:` are
ignored, see C18.) -/
def Directive.onComponent (d : Directive) : Option Toks := do
  let key := d.key.text
  if d.dir = plain c!"class" ∨ d.dir = plain c!"style" then
    let dir := d.dir
    let v ← trueMeans d.value
    return q!"::leptos::tachys::html::#dir::#dir((#key, #v))"
  else if d.dir = plain c!"attr" then
    if key = c!"class" ∨ key = c!"style" then
      let f ← d.key.asIdent
      let v ← trueMeans d.value
      let m := plain key
      return q!"::leptos::tachys::html::#m::#f(#v)"
    else if '-' ∈ key ∧ ¬ c!"aria-" <+: key then
      let v ← trueMeans d.value
      return q!"::leptos::tachys::html::attribute::custom::custom_attribute(#key, #v)"
    else
      let f ← d.key.asIdent
      let v ← trueMeans d.value
      return q!"::leptos::tachys::html::attribute::#f(#v)"
  else if d.dir = plain c!"prop" then
    let f ← d.key.asIdent
    let v ← trueMeans d.value
    return q!"::leptos::tachys::html::property::#f(#v)"
  else if d.dir = plain c!"on" then
    let ev ← d.event
    let v ← optMeans d.value
    return q!"::leptos::tachys::html::event::on(#ev, #v)"
  else if d.dir = plain c!"use" then
    let a ← d.useArgs
    return q!"::leptos::tachys::html::directive::directive(#a)"
  else none

/-- The statement of a `clone:` directive. -/
def Directive.cloneStmt (d : Directive) : Option Toks := do
  guard (d.modifier.isNone ∧ d.value.isNone)
  let x ← d.key.asIdent
  return q!"let #x = #x.clone();"

/-! ### picking attributes by kind, in source order -/

/-- the plain attributes -/
def kvs (attrs : List Attr) : List KvAttr :=
  attrs.filterMap fun | .kv a => some a | _ => none
/-- the directives -/
def directives (attrs : List Attr) : List Directive :=
  attrs.filterMap fun | .directive d => some d | _ => none
/-- the spread expressions -/
def spreads (attrs : List Attr) : List Toks :=
  attrs.filterMap fun | .spread e => some e | _ => none
/-- the `clone:` directives -/
def clones (attrs : List Attr) : List Directive :=
  (directives attrs).filter fun d => d.dir = plain c!"clone"
/-- everything but plain attributes and `clone:` -/
def entries (attrs : List Attr) : List Attr :=
  attrs.filter fun
    | .kv _ => false
    | .directive d => d.dir ≠ plain c!"clone"
    | .spread _ => true
/-- the names of the class shorthands -/
def classes (sels : List Selector) : List KebabIdent :=
  sels.filterMap fun | .cls k => some k | .id _ => none
/-- the names of the id shorthands -/
def ids (sels : List Selector) : List KebabIdent :=
  sels.filterMap fun | .id k => some k | .cls _ => none

/-! ### selectors -/

/-- `let __x = ();` as often as the name has coloured sections -/
def colours : Nat → Toks
  | 0 => []
  | n + 1 =>
    let rest := colours n
    q!"let __x = (); #rest"

/-- the name of a selector on an element: its text, in a block that only serves IDEs -/
def KebabIdent.coloured (k : KebabIdent) : Toks :=
  let x := colours k.spans
  let name := k.repr
  q!"{ #x #name }"

/-- C12 -/
def classCall (k : KebabIdent) : Call :=
  let name := k.coloured
  ⟨plain c!"class", q!"(#name, true)"⟩
/-- C12 -/
def idCall (k : KebabIdent) : Call := ⟨plain c!"id", k.coloured⟩

/-- C13: the classes of a component as entries -/
def classEntry (k : KebabIdent) : Toks :=
  let name := k.repr
  q!"::leptos::tachys::html::class::class((#name, true))"

/-- C13: all ids of a component as one entry, or none -/
def idEntry (ks : List KebabIdent) : List Toks :=
  if ks = [] then [] else
    let names := [' '].intercalate (ks.map (·.repr))
    [q!"::leptos::tachys::html::attribute::r#id(#names)"]

/-! ### component paths -/

/-- the arguments of a path segment, always with the turbofish -/
def PathArgs.means : PathArgs → Option Toks
  | .none => some []
  | .angle _ inner => some q!":: < #inner >"
  | .paren _ => Option.none

/-- a path segment -/
def PathSeg.means (s : PathSeg) : Option Toks := do
  let i := s.ident
  let a ← s.args.means
  return q!"#i #a"

/-- segments joined by `::` -/
def joinColons : List Toks → Toks
  | [] => []
  | [x] => x
  | x :: y :: xs =>
    let rest := joinColons (y :: xs)
    q!"#x :: #rest"

/-- C27: a component's path -/
def Path.means (p : Path) : Option Toks := do
  let segs ← p.segs.mapM PathSeg.means
  return (if p.leading then t!"::" else []) ++ joinColons segs

/-! ### elements -/

/-- The expression an element starts with. -/
def Tag.head : Tag → Option Toks
  | .html i => some q!"::leptos::tachys::html::element::#i()"
  | .svg i => some q!"::leptos::tachys::svg::element::#i()"
  | .math i => some q!"::leptos::tachys::math::element::#i()"
  | .webComponent k =>
    let name := k.repr
    some q!"::leptos::tachys::html::element::custom(#name)"
  | .component _ => none

/-- A child of an element. -/
def childCall (t : Toks) : Call := ⟨plain c!"child", t⟩

/-- A spread on an element. -/
def spreadCall (e : Toks) : Call := ⟨plain c!"add_any_attr", e⟩

/-- C11: an HTML, SVG, MathML or custom element, given its children. -/
def xmlMeans (tag : Tag) (sels : List Selector) (attrs : List Attr) (nodes : List Toks) :
    Option Toks := do
  let head ← tag.head
  let as ← (kvs attrs).mapM (KvAttr.onElement tag.kind)
  let ds ← (directives attrs).mapM Directive.onElement
  let calls := chain (as ++ ds ++ (classes sels).map classCall ++ (ids sels).map idCall ++
    (spreads attrs).map spreadCall ++ nodes.map childCall)
  return q!"#head #calls"

/-- The view made of several children. -/
def viewOf (nodes : List Toks) : Toks :=
  let xs := commaAfter nodes
  q!"::leptos::prelude::View::new((#xs))"

/-- C23: the `.children(..)` call of a component or slot, if any. -/
def childrenCall (args : Option Toks) (cloneStmts : Toks) (nodes : List Toks) : List Call :=
  let view := viewOf nodes
  if nodes = [] then [] else
    match args with
    | some args => [⟨plain c!"children", q!"{ #cloneStmts move #args #view }"⟩]
    | none => [⟨plain c!"children",
        q!"{ #cloneStmts ::leptos::children::ToChildren::to_children(move || #view) }"⟩]

/-- An entry of `.add_any_attr((..))`. -/
def Attr.entry : Attr → Option Toks
  | .directive d => d.onComponent
  | .spread e => some e
  | .kv _ => none

/-- C13, C17, C23, C29: a component, given its children and the calls for its slots. -/
def componentMeans (path : Path) (sels : List Selector) (attrs : List Attr)
    (args : Option Toks) (nodes : List Toks) (slotCalls : List Call) : Option Toks := do
  let path ← path.means
  let as ← (kvs attrs).mapM KvAttr.onComponent
  let es ← (entries attrs).mapM Attr.entry
  let cl ← (clones attrs).mapM Directive.cloneStmt
  let calls := chain (as ++ childrenCall args cl.flatten nodes ++ slotCalls ++
    [⟨plain c!"build", []⟩])
  let es := commaAfter ((classes sels).map classEntry ++ idEntry (ids sels) ++ es)
  return q!"#[allow(unreachable_code)] ::leptos::prelude::View::new(
    ::leptos::component::component_view(& #path,
      ::leptos::component::component_props_builder(& #path) #calls
    ).add_any_attr((#es)))"

/-- C22, C23: a slot, given its children. -/
def slotMeans (path : Path) (sels : List Selector) (attrs : List Attr)
    (args : Option Toks) (nodes : List Toks) : Option Toks := do
  guard (sels = [] ∧ entries attrs = [])
  let path ← path.means
  let as ← (kvs attrs).mapM KvAttr.onComponent
  let cl ← (clones attrs).mapM Directive.cloneStmt
  let calls := chain (as ++ childrenCall args cl.flatten nodes ++ [⟨plain c!"build", []⟩])
  return q!"::std::convert::Into::into(#path ::builder() #calls)"

/-! ### slots -/

/-- The method a slot is passed to. -/
def slotMethodName (name : Ident) : Option Ident := rawIdent (snakeCase name.name)

/-- The argument of that method: the slot, or a vector if there are several. -/
def slotArg : List Toks → Toks
  | [t] => t
  | ts =>
    let xs := commaBetween ts
    q!"<[_]> ::into_vec(::std::boxed::Box::new([#xs]))"

/-- C19: `calls` is one call for each name among `slots`, in whatever order, with all
slots of that name in source order. -/
def SlotCalls (slots : List (Ident × Toks)) (calls : List Call) : Prop :=
  ∃ names : List Ident, names.Nodup ∧ (∀ n, n ∈ names ↔ n ∈ slots.map Prod.fst) ∧
    names.mapM (fun n => do
      return (⟨← slotMethodName n, slotArg ((slots.filter (·.1 = n)).map Prod.snd)⟩ : Call))
      = some calls

/-! ### the whole tree -/

/-- A child is wrapped so that anything renderable can be a child. -/
def rendered (t : Toks) : Toks := q!"::leptos::prelude::IntoRender::into_render(#t)"

mutual
/-- `e.Means asSlot t`: the element (a slot if `asSlot`) stands for the code `t`. -/
def Element.Means (asSlot : Bool) : Element → Toks → Prop
  | .mk tag sels attrs args none, t =>
    match asSlot, tag with
    | false, .component p => componentMeans p sels attrs args [] [] = some t
    | true, .component p => slotMeans p sels attrs args [] = some t
    | false, _ => xmlMeans tag sels attrs [] = some t
    | true, _ => False
  | .mk tag sels attrs args (some cs), t =>
    match asSlot, tag with
    | false, .component p => ∃ nodes slots calls, NodesMean cs nodes ∧ SlotsMean cs slots ∧
        SlotCalls slots calls ∧ componentMeans p sels attrs args nodes calls = some t
    | true, .component p => ∃ nodes slots calls, NodesMean cs nodes ∧ SlotsMean cs slots ∧
        SlotCalls slots calls ∧ slotMeans p sels attrs args nodes = some t
    | false, _ => ∃ nodes, NodesMean cs nodes ∧ xmlMeans tag sels attrs nodes = some t
    | true, _ => False

/-- The children that are not slots, in source order, and their code. -/
def NodesMean : List Child → List Toks → Prop
  | [], ts => ts = []
  | .value v :: cs, ts => ∃ t ts', v.means = some t ∧ NodesMean cs ts' ∧ ts = rendered t :: ts'
  | .elem e :: cs, ts => ∃ t ts', e.Means false t ∧ NodesMean cs ts' ∧ ts = rendered t :: ts'
  | .slot _ :: cs, ts => NodesMean cs ts

/-- The slots, in source order, with their names and code. -/
def SlotsMean : List Child → List (Ident × Toks) → Prop
  | [], ts => ts = []
  | .value _ :: cs, ts => SlotsMean cs ts
  | .elem _ :: cs, ts => SlotsMean cs ts
  | .slot e :: cs, ts =>
    match e.tag with
    | .component ⟨false, [⟨name, .none⟩]⟩ =>
      ∃ t ts', e.Means true t ∧ SlotsMean cs ts' ∧ ts = (name, t) :: ts'
    | _ => False
end

/-- C24: the whole input. -/
def RootMeans (cs : List Child) (t : Toks) : Prop :=
  (∀ c ∈ cs, c.isSlot = false) ∧ ∃ nodes, NodesMean cs nodes ∧
    match nodes with
    | [x] => t = q!"{ #[allow(unused_braces)] #x }"
    | xs =>
      let view := viewOf xs
      t = q!"{ #[allow(unused_braces)] #view }"

end Mview
