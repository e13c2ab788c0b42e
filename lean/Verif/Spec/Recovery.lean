import Verif.Spec.Meaning
/-
C47: what is generated for a tree in spite of errors in it.  Everything without errors stands for the same
as in `Spec/Meaning.lean`, and something that is wrong is left out or replaced as described here.

`none` (or no related output) means that there is no expansion: the macro stops or crashes.
-/

-- the linter does not see variables used inside `q!"..."`
set_option linter.unusedVariables false

namespace Mview
open Lex

/-! ### values and names -/

/-- A value with an unknown prefix is left out. -/
def Value.anyway (v : Value) : Toks := v.means.getD []

/-- A value that may be left out: then nothing is written in its place. -/
def optAnyway : Option Value → Toks
  | none => []
  | some v => v.anyway

/-- A value that may be left out: then `true`. -/
def trueAnyway : Option Value → Toks
  | none => q!"true"
  | some v => v.anyway

/-- A string that should be an identifier is replaced by one. -/
def KebabOrStr.identAnyway : KebabOrStr → Option Ident
  | .kebab k => rawIdentOf k.repr
  | .str _ => some (plain c!"__invalid_identifier_found_str")

/-! ### attributes -/

/-- An attribute of an element. -/
def KvAttr.onElementAnyway (kind : TagKind) (a : KvAttr) : Option Call :=
  let v := a.value.anyway
  let name := a.key.repr
  if name = c!"ref" then some ⟨plain c!"node_ref", v⟩
  else if Unchecked kind name then
    some ⟨plain c!"attr",
      q!"#name, ::leptos::prelude::IntoAttributeValue::into_attribute_value(#v)"⟩
  else (rawIdentOf name).map fun f => ⟨f, v⟩

/-- An attribute of a component or slot. -/
def KvAttr.onComponentAnyway (a : KvAttr) : Option Call :=
  (rawIdentOf a.key.repr).map fun f => ⟨f, a.value.anyway⟩

/-! ### directives -/

/-- The event of an `on:` directive.  Unknown modifiers are left out. -/
def Directive.eventAnyway (d : Directive) : Option Toks := do
  let name ← match d.key with
    | .kebab k => rawIdentOf k.repr
    | .str _ => some (plain c!"invalid_event")
  if d.modifier = some (plain c!"undelegated") then
    return q!"::leptos::tachys::html::event::undelegated(::leptos::tachys::html::event::#name)"
  else return q!"::leptos::tachys::html::event::#name"

/-- The function and its parameter of a `use:` directive.  Modifiers are left out. -/
def Directive.useArgsAnyway (d : Directive) : Option Toks := do
  let fn ← d.key.identAnyway
  match d.value with
  | none => return q!"#fn, ().into()"
  | some v =>
    let v := v.anyway
    return q!"#fn, ::std::convert::Into::into(#v)"

/-- A directive of an element.  Modifiers are left out, and so are directives that are unknown or not for
elements. -/
def Directive.onElementAnyway (d : Directive) : Option (List Call) :=
  let key := d.key.text
  let v := optAnyway d.value
  if d.dir = plain c!"class" ∨ d.dir = plain c!"style" then some [⟨d.dir, q!"(#key, #v)"⟩]
  else if d.dir = plain c!"prop" then some [⟨d.dir, q!"#key, #v"⟩]
  else if d.dir = plain c!"on" then d.eventAnyway.map fun ev => [⟨d.dir, q!"#ev, #v"⟩]
  else if d.dir = plain c!"use" then d.useArgsAnyway.map fun a => [⟨plain c!"directive", a⟩]
  else some []

/-- A directive of a component other than `clone:`, as an entry of `.add_any_attr((..))`.  Unknown directives
are left out. -/
def Directive.onComponentAnyway (d : Directive) : Option (List Toks) :=
  let key := d.key.text
  let v := trueAnyway d.value
  if d.dir = plain c!"class" ∨ d.dir = plain c!"style" then
    let dir := d.dir
    some [q!"::leptos::tachys::html::#dir::#dir((#key, #v))"]
  else if d.dir = plain c!"attr" then
    if key = c!"class" ∨ key = c!"style" then
      d.key.identAnyway.map fun f =>
        let m := plain f.name
        [q!"::leptos::tachys::html::#m::#f(#v)"]
    else if '-' ∈ key ∧ ¬ c!"aria-" <+: key then
      some [q!"::leptos::tachys::html::attribute::custom::custom_attribute(#key, #v)"]
    else d.key.identAnyway.map fun f => [q!"::leptos::tachys::html::attribute::#f(#v)"]
  else if d.dir = plain c!"prop" then
    d.key.identAnyway.map fun f => [q!"::leptos::tachys::html::property::#f(#v)"]
  else if d.dir = plain c!"on" then
    let v := optAnyway d.value
    d.eventAnyway.map fun ev => [q!"::leptos::tachys::html::event::on(#ev, #v)"]
  else if d.dir = plain c!"use" then
    d.useArgsAnyway.map fun a => [q!"::leptos::tachys::html::directive::directive(#a)"]
  else some []

/-- The statement of a `clone:` directive.  Modifiers and values are left out. -/
def Directive.cloneAnyway (d : Directive) : Option Toks :=
  d.key.identAnyway.map fun x => q!"let #x = #x.clone();"

/-! ### elements -/

/-- An HTML, SVG, MathML or custom element, given its children. -/
def xmlAnyway (tag : Tag) (sels : List Selector) (attrs : List Attr) (nodes : List Toks) :
    Option Toks := do
  let head ← tag.head
  let as ← (kvs attrs).mapM (KvAttr.onElementAnyway tag.kind)
  let ds ← (directives attrs).mapM Directive.onElementAnyway
  let calls := chain (as ++ ds.flatten ++ (classes sels).map classCall ++ (ids sels).map idCall ++
    (spreads attrs).map spreadCall ++ nodes.map childCall)
  return q!"#head #calls"

/-- An entry of `.add_any_attr((..))`, if it is not left out. -/
def Attr.entryAnyway : Attr → Option (List Toks)
  | .directive d => d.onComponentAnyway
  | .spread e => some [e]
  | .kv _ => some []

/-- A component, given its children and the calls for its slots. -/
def componentAnyway (path : Path) (sels : List Selector) (attrs : List Attr)
    (args : Option Toks) (nodes : List Toks) (slotCalls : List Call) : Option Toks := do
  let path ← path.means
  let as ← (kvs attrs).mapM KvAttr.onComponentAnyway
  let es ← (entries attrs).mapM Attr.entryAnyway
  let cl ← (clones attrs).mapM Directive.cloneAnyway
  let calls := chain (as ++ childrenCall args cl.flatten nodes ++ slotCalls ++
    [⟨plain c!"build", []⟩])
  let es := commaAfter ((classes sels).map classEntry ++ idEntry (ids sels) ++ es.flatten)
  return q!"#[allow(unreachable_code)] ::leptos::prelude::View::new(
    ::leptos::component::component_view(& #path,
      ::leptos::component::component_props_builder(& #path) #calls
    ).add_any_attr((#es)))"

/-- A slot, given its children.  Selectors, spreads and directives other than `clone:` are left out. -/
def slotAnyway (path : Path) (attrs : List Attr) (args : Option Toks) (nodes : List Toks) :
    Option Toks := do
  let path ← path.means
  let as ← (kvs attrs).mapM KvAttr.onComponentAnyway
  let cl ← (clones attrs).mapM Directive.cloneAnyway
  let calls := chain (as ++ childrenCall args cl.flatten nodes ++ [⟨plain c!"build", []⟩])
  return q!"::std::convert::Into::into(#path ::builder() #calls)"

/-! ### the whole tree -/

mutual
/-- `e.Becomes asSlot t`: the code `t` is generated for the element (a slot if `asSlot`). -/
def Element.Becomes (asSlot : Bool) : Element → Toks → Prop
  | .mk tag sels attrs args none, t =>
    match asSlot, tag with
    | false, .component p => componentAnyway p sels attrs args [] [] = some t
    | true, .component p => slotAnyway p attrs args [] = some t
    | false, _ => xmlAnyway tag sels attrs [] = some t
    | true, _ => False
  | .mk tag sels attrs args (some cs), t =>
    match asSlot, tag with
    | false, .component p => ∃ nodes slots calls, NodesBecome cs nodes ∧ SlotsBecome cs slots ∧
        SlotCalls slots calls ∧ componentAnyway p sels attrs args nodes calls = some t
    | true, .component p => ∃ nodes slots calls, NodesBecome cs nodes ∧ SlotsBecome cs slots ∧
        SlotCalls slots calls ∧ slotAnyway p attrs args nodes = some t
    | false, _ => ∃ nodes, NodesBecome cs nodes ∧ xmlAnyway tag sels attrs nodes = some t
    | true, _ => False

/-- The children that are not slots, in source order, and their code. -/
def NodesBecome : List Child → List Toks → Prop
  | [], ts => ts = []
  | .value v :: cs, ts => ∃ ts', NodesBecome cs ts' ∧ ts = rendered v.anyway :: ts'
  | .elem e :: cs, ts => ∃ t ts', e.Becomes false t ∧ NodesBecome cs ts' ∧ ts = rendered t :: ts'
  | .slot _ :: cs, ts => NodesBecome cs ts

/-- The slots, in source order, with their names and code.  Those whose name is a path are left out. -/
def SlotsBecome : List Child → List (Ident × Toks) → Prop
  | [], ts => ts = []
  | .value _ :: cs, ts => SlotsBecome cs ts
  | .elem _ :: cs, ts => SlotsBecome cs ts
  | .slot e :: cs, ts =>
    match e.tag with
    | .component ⟨false, [⟨name, .none⟩]⟩ =>
      ∃ t ts', e.Becomes true t ∧ SlotsBecome cs ts' ∧ ts = (name, t) :: ts'
    | .component _ => SlotsBecome cs ts
    | _ => False
end

/-- The whole input. -/
def RootBecomes (cs : List Child) (t : Toks) : Prop :=
  (∀ c ∈ cs, c.isSlot = false) ∧ ∃ nodes, NodesBecome cs nodes ∧
    match nodes with
    | [x] => t = q!"{ #[allow(unused_braces)] #x }"
    | xs =>
      let view := viewOf xs
      t = q!"{ #[allow(unused_braces)] #view }"

end Mview
