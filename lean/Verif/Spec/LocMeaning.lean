import Verif.Spec.Meaning
import Verif.Spec.LocIssues
import Verif.Spec.LocQuote
/-
C43: what each piece of syntax stands for in Rust, and where every token of that code is placed.

`Spec/Meaning.lean` again, with places.  In `qs! p "..."` the tokens written out are at `p`, in
`qc!"..."` at the call site; what is spliced in keeps its place.
-/

-- the linter does not see variables used inside `qs!` and `qc!`
set_option linter.unusedVariables false

namespace Mview.Loc

/-- A method call `.name(args)`; the dot and the parentheses are at `sp`. -/
structure Call (σ : Type) where
  sp : σ
  name : SIdent σ
  args : Toks σ

variable {σ : Type}

/-- A plain (not raw) identifier at a place. -/
abbrev word (s : Str) (sp : σ) : SIdent σ := ⟨plain s, sp⟩

/-- The text of a chain of method calls. -/
def chain : List (Call σ) → Toks σ
  | [] => []
  | ⟨sp, n, a⟩ :: cs =>
    let rest := chain cs
    qs! sp ".#n(#a) #rest"

/-- Entries each followed by a comma: `a, b, c,` -/
def commaAfter (sp : σ) : List (Toks σ) → Toks σ
  | [] => []
  | x :: xs =>
    let rest := commaAfter sp xs
    qs! sp "#x, #rest"

/-- Entries with commas between: `a, b, c` -/
def commaBetween (sp : σ) : List (Toks σ) → Toks σ
  | [] => []
  | [x] => x
  | x :: y :: xs =>
    let rest := commaBetween sp (y :: xs)
    qs! sp "#x, #rest"

/-- The raw identifier a kebab-cased name becomes, at a place. -/
def rawIdentAt (name : Str) (sp : σ) : Option (SIdent σ) := do
  return ⟨← rawIdentOf name, sp⟩

variable [Spans σ]

/-! ### places -/

/-- From the first to the last of some tokens; `none` if there are none. -/
def placeOf (ts : Toks σ) : Option σ := do
  let a ← ts.head?
  let b ← ts.getLast?
  return joinOr a.place b.place

/-- Where the key of a directive is. -/
def KebabOrStr.place : KebabOrStr σ → σ
  | .kebab k => k.place
  | .str s => s.sp

/-! ### values -/

/-- The braces of a block are where the code in them is. -/
def Value.means : Value σ → Option (Toks σ)
  | .lit ⟨.tok l, sp⟩ => some [.lit l sp]
  | .lit ⟨.bool true, sp⟩ => some (qs! sp "true")
  | .lit ⟨.bool false, sp⟩ => some (qs! sp "false")
  | .block code b =>
    let sp := (placeOf code).getD b.whole
    some (qs! sp "{ #code }")
  | .bracket none code b =>
    let sp := b.whole
    some (qs! sp "move || { #code }")
  | .bracket (some pfx) code b =>
    let sp := b.whole
    let f := pfx.sp
    let format := qs! f "format!"
    if pfx.id = plain c!"f" then some (qs! sp "move || ::std:: #format (#code)") else none

/-- A value that may be left out: then nothing is written in its place. -/
def optMeans : Option (Value σ) → Option (Toks σ)
  | none => some []
  | some v => v.means

/-- A value that may be left out: then `true`. -/
def trueMeans : Option (Value σ) → Option (Toks σ)
  | none => some qc!"true"
  | some v => v.means

/-! ### attributes -/

/-- An attribute of an element: the method is where the key is. -/
def KvAttr.onElement (kind : TagKind) (a : KvAttr σ) : Option (Call σ) := do
  let v ← a.value.means
  let name := a.key.repr
  if name = c!"ref" then return ⟨callSite, word c!"node_ref" a.key.place, v⟩
  else if Unchecked kind name then
    let name : SStr σ := ⟨name, callSite⟩
    return ⟨callSite, word c!"attr" callSite,
      qc!"#name, ::leptos::prelude::IntoAttributeValue::into_attribute_value(#v)"⟩
  else return ⟨callSite, ← rawIdentAt name a.key.place, v⟩

/-- An attribute of a component or slot: the call is where the whole attribute is, the method
where the key is. -/
def KvAttr.onComponent (a : KvAttr σ) : Option (Call σ) := do
  return ⟨joinOr a.key.place a.value.place, ← rawIdentAt a.key.repr a.key.place, ← a.value.means⟩

/-! ### directives -/

/-- The key as an identifier, where the key is; string keys are not. -/
def KebabOrStr.asIdent : KebabOrStr σ → Option (SIdent σ)
  | .kebab k => rawIdentAt k.repr k.place
  | .str _ => none

/-- The event of an `on:` directive. -/
def Directive.event (d : Directive σ) : Option (Toks σ) := do
  let name ← d.key.asIdent
  match d.modifier with
  | none => return qc!"::leptos::tachys::html::event::#name"
  | some m =>
    if m.id = plain c!"undelegated" then
      return qc!"::leptos::tachys::html::event::#m(::leptos::tachys::html::event::#name)"
    else none

/-- The function and its parameter of a `use:` directive. -/
def Directive.useArgs (d : Directive σ) : Option (Toks σ) := do
  guard d.modifier.isNone
  let fn ← d.key.asIdent
  match d.value with
  | none =>
    let sp := fn.sp
    let unit := qs! sp "().into()"
    return qc!"#fn, #unit"
  | some v =>
    let v ← v.means
    return qc!"#fn, ::std::convert::Into::into(#v)"

/-- A directive of an element: the method is where the word before the colon is. -/
def Directive.onElement (d : Directive σ) : Option (Call σ) := do
  let key : SStr σ := ⟨d.key.text, d.key.place⟩
  if d.dir.id = plain c!"class" ∨ d.dir.id = plain c!"style" then
    guard d.modifier.isNone
    let v ← optMeans d.value
    return ⟨callSite, d.dir, qc!"(#key, #v)"⟩
  else if d.dir.id = plain c!"prop" then
    guard d.modifier.isNone
    let v ← optMeans d.value
    return ⟨callSite, d.dir, qc!"#key, #v"⟩
  else if d.dir.id = plain c!"on" then
    let ev ← d.event
    let v ← optMeans d.value
    return ⟨callSite, d.dir, qc!"#ev, #v"⟩
  else if d.dir.id = plain c!"use" then
    return ⟨callSite, word c!"directive" d.dir.sp, ← d.useArgs⟩
  else none

/-- A directive of a component other than `clone:`, as an entry of `.add_any_attr((..))`. -/
def Directive.onComponent (d : Directive σ) : Option (Toks σ) := do
  let key : SStr σ := ⟨d.key.text, callSite⟩
  if d.dir.id = plain c!"class" ∨ d.dir.id = plain c!"style" then
    let module : SIdent σ := ⟨d.dir.id, callSite⟩
    let dir := d.dir
    let v ← trueMeans d.value
    return qc!"::leptos::tachys::html::#module::#dir((#key, #v))"
  else if d.dir.id = plain c!"attr" then
    if key.str = c!"class" ∨ key.str = c!"style" then
      let f ← d.key.asIdent
      let v ← trueMeans d.value
      let module := word key.str callSite
      return qc!"::leptos::tachys::html::#module::#f(#v)"
    else if '-' ∈ key.str ∧ ¬ c!"aria-" <+: key.str then
      let v ← trueMeans d.value
      return qc!"::leptos::tachys::html::attribute::custom::custom_attribute(#key, #v)"
    else
      let f ← d.key.asIdent
      let v ← trueMeans d.value
      return qc!"::leptos::tachys::html::attribute::#f(#v)"
  else if d.dir.id = plain c!"prop" then
    let f ← d.key.asIdent
    let v ← trueMeans d.value
    return qc!"::leptos::tachys::html::property::#f(#v)"
  else if d.dir.id = plain c!"on" then
    let ev ← d.event
    let v ← optMeans d.value
    return qc!"::leptos::tachys::html::event::on(#ev, #v)"
  else if d.dir.id = plain c!"use" then
    let a ← d.useArgs
    let directive := word c!"directive" d.dir.sp
    return qc!"::leptos::tachys::html::directive::#directive(#a)"
  else none

/-- The statement of a `clone:` directive. -/
def Directive.cloneStmt (d : Directive σ) : Option (Toks σ) := do
  guard (d.modifier.isNone ∧ d.value.isNone)
  let x ← d.key.asIdent
  return qc!"let #x = #x.clone();"

/-! ### picking attributes by kind, in source order -/

omit [Spans σ]

/-- the plain attributes -/
def kvs (attrs : List (Attr σ)) : List (KvAttr σ) :=
  attrs.filterMap fun | .kv a => some a | _ => none
/-- the directives -/
def directives (attrs : List (Attr σ)) : List (Directive σ) :=
  attrs.filterMap fun | .directive d => some d | _ => none
/-- the spread attributes -/
def spreads (attrs : List (Attr σ)) : List (Spread σ) :=
  attrs.filterMap fun | .spread e => some e | _ => none
/-- the `clone:` directives -/
def clones (attrs : List (Attr σ)) : List (Directive σ) :=
  (directives attrs).filter fun d => d.dir.id = plain c!"clone"
/-- everything but plain attributes and `clone:` -/
def entries (attrs : List (Attr σ)) : List (Attr σ) :=
  attrs.filter fun
    | .kv _ => false
    | .directive d => d.dir.id ≠ plain c!"clone"
    | .spread _ => true
/-- the class shorthands: where the `.` is, and the name -/
def classes (sels : List (Selector σ)) : List (σ × KebabIdent σ) :=
  sels.filterMap fun | .cls s k => some (s, k) | .id _ _ => none
/-- the id shorthands: where the `#` is, and the name -/
def ids (sels : List (Selector σ)) : List (σ × KebabIdent σ) :=
  sels.filterMap fun | .id s k => some (s, k) | .cls _ _ => none

variable [Spans σ]

/-! ### selectors -/

/-- `let __x = ();` for every section of a name, the variable being where the section is -/
def colours : List σ → Toks σ
  | [] => []
  | s :: ss =>
    let x := word c!"__x" s
    let rest := colours ss
    qc!"let #x = (); #rest"

/-- the name of a selector on an element: its text, in a block that only serves IDEs -/
def KebabIdent.coloured (k : KebabIdent σ) : Toks σ :=
  let x := colours k.spans
  let name : SStr σ := ⟨k.repr, callSite⟩
  qc!"{ #x #name }"

/-- The method is where the `.` is. -/
def classCall (k : σ × KebabIdent σ) : Call σ :=
  let name := k.2.coloured
  ⟨callSite, word c!"class" k.1, qc!"(#name, true)"⟩
/-- The method is where the `#` is. -/
def idCall (k : σ × KebabIdent σ) : Call σ := ⟨callSite, word c!"id" k.1, k.2.coloured⟩

/-- the classes of a component as entries -/
def classEntry (k : σ × KebabIdent σ) : Toks σ :=
  let name : SStr σ := ⟨k.2.repr, callSite⟩
  let dot := word c!"class" k.1
  qc!"::leptos::tachys::html::class::#dot((#name, true))"

/-- all ids of a component as one entry, or none; the function is where the first `#` is -/
def idEntry : List (σ × KebabIdent σ) → List (Toks σ)
  | [] => []
  | (s, k) :: ks =>
    let names : SStr σ := ⟨[' '].intercalate (((s, k) :: ks).map (·.2.repr)), callSite⟩
    let pound : SIdent σ := ⟨⟨true, c!"id"⟩, s⟩
    [qc!"::leptos::tachys::html::attribute::#pound(#names)"]

/-! ### component paths -/

/-- the arguments of a path segment; a turbofish that was not written is at the call site -/
def PathArgs.means : PathArgs σ → Option (Toks σ)
  | .none => some []
  | .angle turbofish lt inner gt =>
    let colons : Toks σ := match turbofish with
      | some (a, b) => [.punct ':' .joint a, .punct ':' .alone b]
      | Option.none => qc!"::"
    let open_ := qs! lt "<"
    let close := qs! gt ">"
    some (qc!"#colons #open_ #inner #close")
  | .paren _ _ => Option.none

/-- a path segment -/
def PathSeg.means (s : PathSeg σ) : Option (Toks σ) := do
  let i := s.ident
  let a ← s.args.means
  return qc!"#i #a"

omit [Spans σ] in
/-- segments joined by `::`; each comes with the `::` after it -/
def joinColons : List (Toks σ × (σ × σ)) → Toks σ
  | [] => []
  | [x] => x.1
  | x :: y :: xs => x.1 ++ .punct ':' .joint x.2.1 :: .punct ':' .alone x.2.2 :: joinColons (y :: xs)

/-- a component's path -/
def Path.means (p : Path σ) : Option (Toks σ) := do
  let segs ← p.segs.mapM PathSeg.means
  return (match p.leading with
    | some (a, b) => [.punct ':' .joint a, .punct ':' .alone b]
    | none => []) ++ joinColons (segs.zip (p.segs.map (·.sep)))

/-! ### elements -/

/-- The expression an element starts with. -/
def Tag.head : Tag σ → Option (Toks σ)
  | .html i => some qc!"::leptos::tachys::html::element::#i()"
  | .svg i => some qc!"::leptos::tachys::svg::element::#i()"
  | .math i => some qc!"::leptos::tachys::math::element::#i()"
  | .webComponent k =>
    let custom := word c!"custom" k.place
    let name : SStr σ := ⟨k.repr, k.place⟩
    some qc!"::leptos::tachys::html::element::#custom(#name)"
  | .component _ => none

/-- A child of an element: the method is where the child is. -/
def childCall (c : σ × Toks σ) : Call σ := ⟨callSite, word c!"child" c.1, c.2⟩

/-- A spread on an element: the method is where the `..` is. -/
def spreadCall (s : Spread σ) : Call σ :=
  ⟨callSite, word c!"add_any_attr" (joinOr s.dotdot.1 s.dotdot.2), s.expr⟩

/-- An HTML, SVG, MathML or custom element, given its children and where they are. -/
def xmlMeans (tag : Tag σ) (sels : List (Selector σ)) (attrs : List (Attr σ))
    (nodes : List (σ × Toks σ)) : Option (Toks σ) := do
  let head ← tag.head
  let as ← (kvs attrs).mapM (KvAttr.onElement tag.kind)
  let ds ← (directives attrs).mapM Directive.onElement
  let calls := chain (as ++ ds ++ (classes sels).map classCall ++ (ids sels).map idCall ++
    (spreads attrs).map spreadCall ++ nodes.map childCall)
  return qc!"#head #calls"

omit [Spans σ] in
/-- The view made of several children. -/
def viewOf (sp : σ) (nodes : List (Toks σ)) : Toks σ :=
  let xs := commaAfter sp nodes
  qs! sp "::leptos::prelude::View::new((#xs))"

/-- The `.children(..)` call of a component or slot, if any: the method is where the first child
is.  The closure is there as well, or if it has arguments where these are. -/
def childrenCall (args : Option (Toks σ)) (cloneStmts : Toks σ) :
    List (σ × Toks σ) → List (Call σ)
  | [] => []
  | (sp, t) :: nodes =>
    let codes := ((sp, t) :: nodes).map Prod.snd
    match args with
    | some args =>
      let a := (placeOf args).getD callSite
      let view := viewOf a codes
      let closure := qs! a "move #args #view"
      [⟨callSite, word c!"children" sp, qc!"{ #cloneStmts #closure }"⟩]
    | none =>
      let view := viewOf callSite codes
      let closure := qs! sp "move || #view"
      [⟨callSite, word c!"children" sp,
        qc!"{ #cloneStmts ::leptos::children::ToChildren::to_children(#closure) }"⟩]

/-- `.build()`, where the path is -/
def buildCall (p : Path σ) : Call σ := ⟨p.place, word c!"build" p.place, []⟩

/-- An entry of `.add_any_attr((..))`. -/
def Attr.entry : Attr σ → Option (Toks σ)
  | .directive d => d.onComponent
  | .spread s => some s.expr
  | .kv _ => none

/-- A component, given its children and the calls for its slots. -/
def componentMeans (path : Path σ) (sels : List (Selector σ)) (attrs : List (Attr σ))
    (args : Option (Toks σ)) (nodes : List (σ × Toks σ)) (slotCalls : List (Call σ)) :
    Option (Toks σ) := do
  let p ← path.means
  let as ← (kvs attrs).mapM KvAttr.onComponent
  let es ← (entries attrs).mapM Attr.entry
  let cl ← (clones attrs).mapM Directive.cloneStmt
  let calls := chain (as ++ childrenCall args cl.flatten nodes ++ slotCalls ++ [buildCall path])
  let es := commaAfter callSite ((classes sels).map classEntry ++ idEntry (ids sels) ++ es)
  let sp := path.place
  let builder := qs! sp "::leptos::component::component_props_builder(& #p)"
  return qc!"#[allow(unreachable_code)] ::leptos::prelude::View::new(
    ::leptos::component::component_view(& #p, #builder #calls).add_any_attr((#es)))"

/-- A slot, given its children. -/
def slotMeans (path : Path σ) (sels : List (Selector σ)) (attrs : List (Attr σ))
    (args : Option (Toks σ)) (nodes : List (σ × Toks σ)) : Option (Toks σ) := do
  guard (sels.isEmpty ∧ (entries attrs).isEmpty)
  let p ← path.means
  let as ← (kvs attrs).mapM KvAttr.onComponent
  let cl ← (clones attrs).mapM Directive.cloneStmt
  let calls := chain (as ++ childrenCall args cl.flatten nodes ++ [buildCall path])
  return qc!"::std::convert::Into::into(#p ::builder() #calls)"

/-! ### slots -/

/-- The argument of a slot's method: the slot, or a vector if there are several. -/
def slotArg : List (Toks σ) → Toks σ
  | [t] => t
  | ts =>
    let xs := commaBetween callSite ts
    qc!"<[_]> ::into_vec(::std::boxed::Box::new([#xs]))"

/-- `calls` is one call for each name among `slots`, in whatever order, with all slots of that name
in source order; the method is where the first of them has its name. -/
def SlotCalls (slots : List (SIdent σ × Toks σ)) (calls : List (Call σ)) : Prop :=
  ∃ names : List Ident, names.Nodup ∧ (∀ n, n ∈ names ↔ ∃ x ∈ slots, x.1.id = n) ∧
    names.mapM (fun n => do
      let same := slots.filter (·.1.id = n)
      let first ← same.head?
      return (⟨callSite, ⟨← slotMethodName n, first.1.sp⟩, slotArg (same.map Prod.snd)⟩ : Call σ))
      = some calls

/-! ### the whole tree -/

/-- A child is wrapped so that anything renderable can be a child. -/
def rendered (t : Toks σ) : Toks σ := qc!"::leptos::prelude::IntoRender::into_render(#t)"

mutual
/-- `e.Means asSlot t`: the element (a slot if `asSlot`) stands for the located code `t`. -/
def Element.Means (asSlot : Bool) : Element σ → Toks σ → Prop
  | .mk tag sels attrs args none, t =>
    match asSlot, tag with
    | false, .component p => componentMeans p sels attrs args [] [] = some t
    | true, .component p => slotMeans p sels attrs args [] = some t
    | false, _ => xmlMeans tag sels attrs [] = some t
    | true, _ => False
  | .mk tag sels attrs args (some cs), t =>
    match asSlot, tag with
    | false, .component p => ∃ nodes slots calls, NodesMean cs nodes ∧ SlotsMean cs slots ∧
        SlotCalls slots calls ∧ componentMeans p sels attrs args nodes calls = some t
    | true, .component p => ∃ nodes slots calls, NodesMean cs nodes ∧ SlotsMean cs slots ∧
        SlotCalls slots calls ∧ slotMeans p sels attrs args nodes = some t
    | false, _ => ∃ nodes, NodesMean cs nodes ∧ xmlMeans tag sels attrs nodes = some t
    | true, _ => False

/-- The children that are not slots, in source order: where they are (of an element, its tag) and
their code. -/
def NodesMean : List (Child σ) → List (σ × Toks σ) → Prop
  | [], ts => ts = []
  | .value v :: cs, ts => ∃ t ts', v.means = some t ∧ NodesMean cs ts' ∧
      ts = (v.place, rendered t) :: ts'
  | .elem e :: cs, ts => ∃ t ts', e.Means false t ∧ NodesMean cs ts' ∧
      ts = (e.tag.place, rendered t) :: ts'
  | .slot _ _ :: cs, ts => NodesMean cs ts

/-- The slots, in source order, with their names and code. -/
def SlotsMean : List (Child σ) → List (SIdent σ × Toks σ) → Prop
  | [], ts => ts = []
  | .value _ :: cs, ts => SlotsMean cs ts
  | .elem _ :: cs, ts => SlotsMean cs ts
  | .slot _ e :: cs, ts =>
    match e.tag with
    | .component ⟨none, [⟨name, .none, _⟩]⟩ =>
      ∃ t ts', e.Means true t ∧ SlotsMean cs ts' ∧ ts = (name, t) :: ts'
    | _ => False
end

/-- The whole input. -/
def RootMeans (cs : List (Child σ)) (t : Toks σ) : Prop :=
  (∀ c ∈ cs, c.isSlot = false) ∧ ∃ nodes, NodesMean cs nodes ∧
    match nodes with
    | [(_, x)] => t = qc!"{ #[allow(unused_braces)] #x }"
    | xs =>
      let view := viewOf callSite (xs.map Prod.snd)
      t = qc!"{ #[allow(unused_braces)] #view }"

end Mview.Loc
