import Verif.Spec.LocMeaning
/-
C52: what is generated for a tree in spite of errors in it, and where every token of that is placed.

`Spec/Recovery.lean` again, with places; see `Spec/LocMeaning.lean`.
-/

-- the linter does not see variables used inside `qs!` and `qc!`
set_option linter.unusedVariables false

namespace Mview.Loc

variable {σ : Type} [Spans σ]

/-! ### values and names -/

/-- A value with an unknown prefix is left out. -/
def Value.anyway (v : Value σ) : Toks σ := v.means.getD []

/-- A value that may be left out: then nothing is written in its place. -/
def optAnyway : Option (Value σ) → Toks σ
  | none => []
  | some v => v.anyway

/-- A value that may be left out: then `true`. -/
def trueAnyway : Option (Value σ) → Toks σ
  | none => qc!"true"
  | some v => v.anyway

/-- A string that should be an identifier is replaced by one at its place. -/
def KebabOrStr.identAnyway : KebabOrStr σ → Option (SIdent σ)
  | .kebab k => rawIdentAt k.repr k.place
  | .str s => some (word c!"__invalid_identifier_found_str" s.sp)

/-! ### attributes -/

/-- An attribute of an element. -/
def KvAttr.onElementAnyway (kind : TagKind) (a : KvAttr σ) : Option (Call σ) :=
  let v := a.value.anyway
  let name := a.key.repr
  if name = c!"ref" then some ⟨callSite, word c!"node_ref" a.key.place, v⟩
  else if Unchecked kind name then
    let name : SStr σ := ⟨name, callSite⟩
    some ⟨callSite, word c!"attr" callSite,
      qc!"#name, ::leptos::prelude::IntoAttributeValue::into_attribute_value(#v)"⟩
  else (rawIdentAt name a.key.place).map fun f => ⟨callSite, f, v⟩

/-- An attribute of a component or slot. -/
def KvAttr.onComponentAnyway (a : KvAttr σ) : Option (Call σ) :=
  (rawIdentAt a.key.repr a.key.place).map fun f =>
    ⟨joinOr a.key.place a.value.place, f, a.value.anyway⟩

/-! ### directives -/

/-- The event of an `on:` directive.  Unknown modifiers are left out. -/
def Directive.eventAnyway (d : Directive σ) : Option (Toks σ) := do
  let name ← match d.key with
    | .kebab k => rawIdentAt k.repr k.place
    | .str s => some (word c!"invalid_event" s.sp)
  match d.modifier with
  | none => return qc!"::leptos::tachys::html::event::#name"
  | some m =>
    if m.id = plain c!"undelegated" then
      return qc!"::leptos::tachys::html::event::#m(::leptos::tachys::html::event::#name)"
    else return qc!"::leptos::tachys::html::event::#name"

/-- The function and its parameter of a `use:` directive.  Modifiers are left out. -/
def Directive.useArgsAnyway (d : Directive σ) : Option (Toks σ) := do
  let fn ← d.key.identAnyway
  match d.value with
  | none =>
    let sp := fn.sp
    let unit := qs! sp "().into()"
    return qc!"#fn, #unit"
  | some v =>
    let v := v.anyway
    return qc!"#fn, ::std::convert::Into::into(#v)"

/-- A directive of an element.  Modifiers are left out, and so are directives that are unknown or not for
elements. -/
def Directive.onElementAnyway (d : Directive σ) : Option (List (Call σ)) :=
  let key : SStr σ := ⟨d.key.text, d.key.place⟩
  let v := optAnyway d.value
  if d.dir.id = plain c!"class" ∨ d.dir.id = plain c!"style" then
    some [⟨callSite, d.dir, qc!"(#key, #v)"⟩]
  else if d.dir.id = plain c!"prop" then some [⟨callSite, d.dir, qc!"#key, #v"⟩]
  else if d.dir.id = plain c!"on" then
    d.eventAnyway.map fun ev => [⟨callSite, d.dir, qc!"#ev, #v"⟩]
  else if d.dir.id = plain c!"use" then
    d.useArgsAnyway.map fun a => [⟨callSite, word c!"directive" d.dir.sp, a⟩]
  else some []

/-- A directive of a component other than `clone:`, as an entry of `.add_any_attr((..))`.  Unknown directives
are left out. -/
def Directive.onComponentAnyway (d : Directive σ) : Option (List (Toks σ)) :=
  let key : SStr σ := ⟨d.key.text, callSite⟩
  let v := trueAnyway d.value
  if d.dir.id = plain c!"class" ∨ d.dir.id = plain c!"style" then
    let module : SIdent σ := ⟨d.dir.id, callSite⟩
    let dir := d.dir
    some [qc!"::leptos::tachys::html::#module::#dir((#key, #v))"]
  else if d.dir.id = plain c!"attr" then
    if key.str = c!"class" ∨ key.str = c!"style" then
      d.key.identAnyway.map fun f =>
        let module := word f.id.name callSite
        [qc!"::leptos::tachys::html::#module::#f(#v)"]
    else if '-' ∈ key.str ∧ ¬ c!"aria-" <+: key.str then
      some [qc!"::leptos::tachys::html::attribute::custom::custom_attribute(#key, #v)"]
    else d.key.identAnyway.map fun f => [qc!"::leptos::tachys::html::attribute::#f(#v)"]
  else if d.dir.id = plain c!"prop" then
    d.key.identAnyway.map fun f => [qc!"::leptos::tachys::html::property::#f(#v)"]
  else if d.dir.id = plain c!"on" then
    let v := optAnyway d.value
    d.eventAnyway.map fun ev => [qc!"::leptos::tachys::html::event::on(#ev, #v)"]
  else if d.dir.id = plain c!"use" then
    let directive := word c!"directive" d.dir.sp
    d.useArgsAnyway.map fun a => [qc!"::leptos::tachys::html::directive::#directive(#a)"]
  else some []

/-- The statement of a `clone:` directive.  Modifiers and values are left out. -/
def Directive.cloneAnyway (d : Directive σ) : Option (Toks σ) :=
  d.key.identAnyway.map fun x => qc!"let #x = #x.clone();"

/-! ### elements -/

/-- An HTML, SVG, MathML or custom element, given its children and where they are. -/
def xmlAnyway (tag : Tag σ) (sels : List (Selector σ)) (attrs : List (Attr σ))
    (nodes : List (σ × Toks σ)) : Option (Toks σ) := do
  let head ← tag.head
  let as ← (kvs attrs).mapM (KvAttr.onElementAnyway tag.kind)
  let ds ← (directives attrs).mapM Directive.onElementAnyway
  let calls := chain (as ++ ds.flatten ++ (classes sels).map classCall ++ (ids sels).map idCall ++
    (spreads attrs).map spreadCall ++ nodes.map childCall)
  return qc!"#head #calls"

/-- An entry of `.add_any_attr((..))`, if it is not left out. -/
def Attr.entryAnyway : Attr σ → Option (List (Toks σ))
  | .directive d => d.onComponentAnyway
  | .spread s => some [s.expr]
  | .kv _ => some []

/-- A component, given its children and the calls for its slots. -/
def componentAnyway (path : Path σ) (sels : List (Selector σ)) (attrs : List (Attr σ))
    (args : Option (Toks σ)) (nodes : List (σ × Toks σ)) (slotCalls : List (Call σ)) :
    Option (Toks σ) := do
  let p ← path.means
  let as ← (kvs attrs).mapM KvAttr.onComponentAnyway
  let es ← (entries attrs).mapM Attr.entryAnyway
  let cl ← (clones attrs).mapM Directive.cloneAnyway
  let calls := chain (as ++ childrenCall args cl.flatten nodes ++ slotCalls ++ [buildCall path])
  let es := commaAfter callSite ((classes sels).map classEntry ++ idEntry (ids sels) ++ es.flatten)
  let sp := path.place
  let builder := qs! sp "::leptos::component::component_props_builder(& #p)"
  return qc!"#[allow(unreachable_code)] ::leptos::prelude::View::new(
    ::leptos::component::component_view(& #p, #builder #calls).add_any_attr((#es)))"

/-- A slot, given its children.  Selectors, spreads and directives other than `clone:` are left out. -/
def slotAnyway (path : Path σ) (attrs : List (Attr σ)) (args : Option (Toks σ))
    (nodes : List (σ × Toks σ)) : Option (Toks σ) := do
  let p ← path.means
  let as ← (kvs attrs).mapM KvAttr.onComponentAnyway
  let cl ← (clones attrs).mapM Directive.cloneAnyway
  let calls := chain (as ++ childrenCall args cl.flatten nodes ++ [buildCall path])
  return qc!"::std::convert::Into::into(#p ::builder() #calls)"

/-! ### the whole tree -/

mutual
/-- `e.Becomes asSlot t`: the located code `t` is generated for the element (a slot if `asSlot`). -/
def Element.Becomes (asSlot : Bool) : Element σ → Toks σ → Prop
  | .mk tag sels attrs args none, t =>
    match asSlot, tag with
    | false, .component p => componentAnyway p sels attrs args [] [] = some t
    | true, .component p => slotAnyway p attrs args [] = some t
    | false, _ => xmlAnyway tag sels attrs [] = some t
    | true, _ => False
  | .mk tag sels attrs args (some cs), t =>
    match asSlot, tag with
    | false, .component p => ∃ nodes slots calls, NodesBecome cs nodes ∧ SlotsBecome cs slots ∧
        SlotCalls slots calls ∧ componentAnyway p sels attrs args nodes calls = some t
    | true, .component p => ∃ nodes slots calls, NodesBecome cs nodes ∧ SlotsBecome cs slots ∧
        SlotCalls slots calls ∧ slotAnyway p attrs args nodes = some t
    | false, _ => ∃ nodes, NodesBecome cs nodes ∧ xmlAnyway tag sels attrs nodes = some t
    | true, _ => False

/-- The children that are not slots, in source order: where they are (of an element, its tag) and
their code. -/
def NodesBecome : List (Child σ) → List (σ × Toks σ) → Prop
  | [], ts => ts = []
  | .value v :: cs, ts => ∃ ts', NodesBecome cs ts' ∧ ts = (v.place, rendered v.anyway) :: ts'
  | .elem e :: cs, ts => ∃ t ts', e.Becomes false t ∧ NodesBecome cs ts' ∧
      ts = (e.tag.place, rendered t) :: ts'
  | .slot _ _ :: cs, ts => NodesBecome cs ts

/-- The slots, in source order, with their names and code.  Those whose name is a path are left out. -/
def SlotsBecome : List (Child σ) → List (SIdent σ × Toks σ) → Prop
  | [], ts => ts = []
  | .value _ :: cs, ts => SlotsBecome cs ts
  | .elem _ :: cs, ts => SlotsBecome cs ts
  | .slot _ e :: cs, ts =>
    match e.tag with
    | .component ⟨none, [⟨name, .none, _⟩]⟩ =>
      ∃ t ts', e.Becomes true t ∧ SlotsBecome cs ts' ∧ ts = (name, t) :: ts'
    | .component _ => SlotsBecome cs ts
    | _ => False
end

/-- The whole input. -/
def RootBecomes (cs : List (Child σ)) (t : Toks σ) : Prop :=
  (∀ c ∈ cs, c.isSlot = false) ∧ ∃ nodes, NodesBecome cs nodes ∧
    match nodes with
    | [(_, x)] => t = qc!"{ #[allow(unused_braces)] #x }"
    | xs =>
      let view := viewOf callSite (xs.map Prod.snd)
      t = qc!"{ #[allow(unused_braces)] #view }"

end Mview.Loc
