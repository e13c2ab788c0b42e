import Verif.Spec.Meaning
/-
C58: what the generated code does when it is run.

First, what is known of Rust and of the builders of `leptos`: an interpreter for generated code.  It reads tokens and
knows nothing about the macro.  Then, what a view should look like, in terms of its tree and not of code.

The code of the user is not interpreted: what it evaluates to is given by a `Rust`, with values of any type.  What
a component does with what is passed to it is its own affair.
-/

-- the linter does not see variables used inside `q!"..."`
set_option linter.unusedVariables false

namespace Mview.Run
open Lex

/-- What Rust expressions evaluate to. -/
structure Rust (V : Type) where
  /-- a literal -/
  lit : Lit → V
  /-- `true` or `false` -/
  bool : Bool → V
  /-- `{ code }` -/
  block : Toks → V
  /-- `move || { code }` -/
  lazy : Toks → V
  /-- `move || format!(code)` -/
  format : Toks → V

/-- `{ let __x = (); .. "name" }` is `"name"`. -/
def Rust.Names {V : Type} (R : Rust V) : Prop :=
  ∀ n name, R.block (colours n ++ [.lit (.str name)]) = R.lit (.str name)

/-- What kind of element there is. -/
inductive Space where
  | html
  | svg
  | math
  /-- a custom element -/
  | custom
  deriving DecidableEq, Repr

/-- What is set on an element. -/
inductive Look (V : Type) where
  | attr (name : Str) (v : V)
  /-- all classes -/
  | cls (v : V)
  /-- one class, if the value is true -/
  | clsIf (name v : V)
  /-- all styles -/
  | style (v : V)
  /-- one style -/
  | styleOf (name v : V)
  | prop (name v : V)
  | on (event : Str) (undelegated : Bool) (handler : V)
  | use (function : Str) (v : Option V)
  | ref (v : V)
  | spread (code : Toks)
  deriving Repr

mutual
/-- What is seen of a view. -/
inductive Dom (V : Type) where
  /-- a value that can be rendered -/
  | value (v : V)
  | elem (space : Space) (name : Str) (looks : List (Look V)) (children : List (Dom V))
  /-- a component: the function, that whose properties are built, what is passed, and what is set on its elements -/
  | comp (function builder : Toks) (parts : List (Part V)) (looks : List (Look V))
  | slot (type : Toks) (parts : List (Part V))
/-- What is passed to a component or slot. -/
inductive Part (V : Type) where
  | prop (name : Str) (v : V)
  /-- children, which may have parameters; these variables are cloned for them -/
  | children (args : Option Toks) (clones : List Str) (children : List (Dom V))
  | slots (name : Str) (slots : List (Dom V))
end

/-! ### Rust -/

/-- The path `::a::b` at the beginning and what follows; `r#a` is `a`. -/
def absPath : Toks → List Str × Toks
  | .punct ':' _ :: .punct ':' _ :: .ident i :: r => (i.name :: (absPath r).1, (absPath r).2)
  | r => ([], r)

/-- The call `::a::b(args)` and what follows. -/
def call (ts : Toks) : Option (List Str × Toks × Toks) :=
  match absPath ts with
  | (p, .group .paren args :: r) => some (p, args, r)
  | _ => none

/-- The method calls `.a(args)`, and nothing else. -/
def methods : Toks → Option (List (Str × Toks))
  | [] => some []
  | .punct '.' _ :: .ident i :: .group .paren args :: r => (methods r).map ((i.name, args) :: ·)
  | _ => none

/-- A comma. -/
def comma : TT → Bool
  | .punct c _ => c = ','
  | _ => false

/-- What is between commas. -/
def commaSplit : Toks → List Toks
  | [] => [[]]
  | t :: r =>
    if comma t then [] :: commaSplit r
    else match commaSplit r with
      | x :: xs => (t :: x) :: xs
      | [] => [[t]]

/-- `a, b` -/
def pair (ts : Toks) : Option (Toks × Toks) :=
  match commaSplit ts with
  | [a, b] => some (a, b)
  | _ => none

/-- `a, b` where only `a` may have commas -/
def lastComma : Toks → Option (Toks × Toks)
  | [] => none
  | t :: r =>
    match lastComma r with
    | some (a, b) => some (t :: a, b)
    | none => if comma t then some ([], r) else none

/-- The statements `let x = x.clone();` at the beginning, and what follows. -/
def clonesIn : Toks → List Str × Toks
  | .ident a :: .ident x :: .punct '=' s :: .ident y :: .punct '.' s' :: .ident c :: .group .paren [] :: .punct ';' s'' :: r =>
    if a = plain c!"let" ∧ x = y ∧ c = plain c!"clone" then (x.name :: (clonesIn r).1, (clonesIn r).2)
    else ([], .ident a :: .ident x :: .punct '=' s :: .ident y :: .punct '.' s' :: .ident c :: .group .paren [] :: .punct ';' s'' :: r)
  | r => ([], r)

/-- `a, b, c,` -/
def tuple (ts : Toks) : Option (List Toks) :=
  match (commaSplit ts).getLast? with
  | some [] => some (commaSplit ts).dropLast
  | _ => none

variable {V : Type} (R : Rust V)

/-- An expression that is code of the user. -/
def val : Toks → Option V
  | [.lit l] => some (R.lit l)
  | [.ident i] => if i = plain c!"true" then some (R.bool true) else if i = plain c!"false" then some (R.bool false) else none
  | [.group .brace code] => some (R.block code)
  | .ident i :: .punct '|' _ :: .punct '|' _ :: r =>
    if i = plain c!"move" then
      match r with
      | [.group .brace code] => some (R.lazy code)
      | _ => match absPath r with
        | (p, [.punct '!' _, .group .paren code]) => if p = [c!"std", c!"format"] then some (R.format code) else none
        | _ => none
    else none
  | _ => none

/-! ### leptos -/

/-- Methods of elements that are not attributes. -/
def builderMethods : List Str :=
  [c!"child", c!"attr", c!"class", c!"style", c!"prop", c!"on", c!"directive", c!"node_ref", c!"add_any_attr",
   c!"inner_html", c!"build", c!"into_any", c!"into_view", c!"into_render", c!"to_html"]

/-- The attribute of a method. -/
def attrName (method : Str) : Str :=
  if c!"aria_" <+: method then method.map fun c => if c = '_' then '-' else c else method

/-- `event` or `undelegated(event)` -/
def event (ts : Toks) : Option (Str × Bool) :=
  match absPath ts with
  | ([c1, c2, c3, c4, name], []) =>
    if [c1, c2, c3, c4] = [c!"leptos", c!"tachys", c!"html", c!"event"] then some (name, false) else none
  | (p, [.group .paren e]) =>
    if p = [c!"leptos", c!"tachys", c!"html", c!"event", c!"undelegated"] then
      match absPath e with
      | ([c1, c2, c3, c4, name], []) =>
        if [c1, c2, c3, c4] = [c!"leptos", c!"tachys", c!"html", c!"event"] then some (name, true) else none
      | _ => none
    else none
  | _ => none

/-- A method of an element other than `child`. -/
def look (method : Str) (args : Toks) : Option (Look V) :=
  if method = c!"class" then
    match args with
    | [.group .paren inner] => do
      let (k, v) ← pair inner
      return .clsIf (← val R k) (← val R v)
    | _ => do return .cls (← val R args)
  else if method = c!"style" then
    match args with
    | [.group .paren inner] => do
      let (k, v) ← pair inner
      return .styleOf (← val R k) (← val R v)
    | _ => do return .style (← val R args)
  else if method = c!"attr" then do
    let (k, v) ← pair args
    match k, call v with
    | [.lit (.str name)], some (p, v, []) =>
      if p = [c!"leptos", c!"prelude", c!"IntoAttributeValue", c!"into_attribute_value"] then
        return .attr name (← val R v)
      else none
    | _, _ => none
  else if method = c!"prop" then do
    let (k, v) ← pair args
    return .prop (← val R k) (← val R v)
  else if method = c!"on" then do
    let (e, v) ← pair args
    let (name, undelegated) ← event e
    return .on name undelegated (← val R v)
  else if method = c!"directive" then do
    let (f, v) ← pair args
    match f, v with
    | [.ident f], [.group .paren [], .punct '.' _, .ident into, .group .paren []] =>
      if into = plain c!"into" then return .use f.name none else none
    | [.ident f], _ =>
      match call v with
      | some (p, v, []) =>
        if p = [c!"std", c!"convert", c!"Into", c!"into"] then return .use f.name (some (← val R v)) else none
      | _ => none
    | _, _ => none
  else if method = c!"node_ref" then do return .ref (← val R args)
  else if method = c!"add_any_attr" then return .spread args
  else if method ∈ builderMethods then none
  else do return .attr (attrName method) (← val R args)

/-- The element at the beginning, and the method calls after it. -/
def element (ts : Toks) : Option (Space × Str × Toks) := do
  let (p, args, r) ← call ts
  match p with
  | [c1, c2, space, c3, name] =>
    if c1 = c!"leptos" ∧ c2 = c!"tachys" ∧ c3 = c!"element" then
      if name = c!"custom" ∧ space = c!"html" then
        match args with
        | [.lit (.str name)] => return (.custom, name, r)
        | _ => none
      else if args ≠ [] then none
      else if space = c!"html" then return (.html, name, r)
      else if space = c!"svg" then return (.svg, name, r)
      else if space = c!"math" then return (.math, name, r)
      else none
    else none
  | _ => none

/-- An attribute passed to a component: anything else is an expression of the user. -/
def entry (ts : Toks) : Option (Look V) :=
  match call ts with
  | some (c1 :: c2 :: c3 :: p, args, []) =>
    if [c1, c2, c3] = [c!"leptos", c!"tachys", c!"html"] then
      if p = [c!"class", c!"class"] then look R c!"class" args
      else if p = [c!"style", c!"style"] then look R c!"style" args
      else if p = [c!"event", c!"on"] then look R c!"on" args
      else if p = [c!"directive", c!"directive"] then look R c!"directive" args
      else if p = [c!"attribute", c!"custom", c!"custom_attribute"] then do
        let (k, v) ← pair args
        match k with
        | [.lit (.str name)] => return .attr name (← val R v)
        | _ => none
      else match p with
        | [c1, name] =>
          if c1 = c!"attribute" then do return .attr (attrName name) (← val R args)
          else if c1 = c!"property" then do return .prop (R.lit (.str name)) (← val R args)
          else none
        | _ => none
    else some (.spread ts)
  | _ => some (.spread ts)

variable (child : Toks → Option (Dom V))

/-- `View::new((a, b,))` -/
def view (ts : Toks) : Option (List (Dom V)) := do
  match call ts with
  | some (p, [.group .paren inner], []) =>
    if p = [c!"leptos", c!"prelude", c!"View", c!"new"] then (← tuple inner).mapM child else none
  | _ => none

/-- What is passed as children: a closure `move args View::new(..)` in a block, or one without parameters. -/
def childrenPart (code : Toks) : Option (Part V) :=
  let (clones, r) := clonesIn code
  match r with
  | .ident m :: r => do
    -- the call of `View::new` is the last 13 tokens
    let ds ← view child (r.drop (r.length - 13))
    if m = plain c!"move" then return .children (some (r.take (r.length - 13))) clones ds else none
  | r => do
    let (p, args, r) ← call r
    if p = [c!"leptos", c!"children", c!"ToChildren", c!"to_children"] ∧ r = [] then
      match args with
      | .ident m :: .punct '|' _ :: .punct '|' _ :: r => do
        let ds ← view child r
        if m = plain c!"move" then return .children none clones ds else none
      | _ => none
    else none

/-- A method of the builder of a component or slot; `slots` reads the arguments with slots. -/
def part (slots : Toks → Option (List (Dom V))) (m : Str × Toks) : Option (Part V) :=
  if m.1 = c!"build" then none
  else if m.1 = c!"children" then
    match m.2 with
    | [.group .brace code] => childrenPart child code
    | _ => none
  else match val R m.2 with
    | some v => some (.prop m.1 v)
    | none => (slots m.2).map (.slots m.1)

/-- The methods of a builder, the last of which is `.build()`. -/
def parts (slots : Toks → Option (List (Dom V))) (ms : List (Str × Toks)) : Option (List (Part V)) :=
  match ms.getLast? with
  | some (build, []) => if build = c!"build" then ms.dropLast.mapM (part R child slots) else none
  | _ => none

/-- `Type::builder()..build()`, converted; slots have no slots. -/
def slot (ts : Toks) : Option (Dom V) := do
  let (p, inner, r) ← call ts
  if p = [c!"std", c!"convert", c!"Into", c!"into"] ∧ r = [] then
    match inner with
    | .ident i :: r => do
      let (p, args, r) ← call r
      if p = [c!"builder"] ∧ args = [] then
        return .slot [.ident i] (← parts R child (fun _ => none) (← methods r))
      else none
    | _ => none
  else none

/-- A slot, or a vector of slots. -/
def slotArgs : Toks → Option (List (Dom V))
  | .punct '<' _ :: .group .bracket [.ident _] :: .punct '>' _ :: r => do
    let (p, inner, r) ← call r
    let (p', inner, r') ← call inner
    if p = [c!"into_vec"] ∧ r = [] ∧ p' = [c!"std", c!"boxed", c!"Box", c!"new"] ∧ r' = [] then
      match inner with
      | [.group .bracket xs] => (commaSplit xs).mapM (slot R child)
      | _ => none
    else none
  | ts => do return [← slot R child ts]

/-- `component_view(&F, component_props_builder(&F)..build()).add_any_attr((..))` in a view. -/
def component (ts : Toks) : Option (Dom V) := do
  let (p, inner, r) ← call ts
  let (p', args, r') ← call inner
  if p = [c!"leptos", c!"prelude", c!"View", c!"new"] ∧ r = [] ∧
      p' = [c!"leptos", c!"component", c!"component_view"] then
    match ← methods r', ← lastComma args with
    | [(m, [.group .paren es])], (.punct '&' _ :: function, b) => do
      let (p, args, r) ← call b
      match args with
      | .punct '&' _ :: builder =>
        if m = c!"add_any_attr" ∧ p = [c!"leptos", c!"component", c!"component_props_builder"] then
          return .comp function builder (← parts R child (slotArgs R child) (← methods r)) (← (← tuple es).mapM (entry R))
        else none
      | _ => none
    | _, _ => none
  else none

/-- Something that can be rendered, given how to run the children of elements. -/
def built (ts : Toks) : Option (Dom V) :=
  match val R ts with
  | some v => some (.value v)
  | none =>
    match ts with
    | .punct '#' _ :: .group .bracket _ :: r => component R child r
    | _ => do
      let (space, name, r) ← element ts
      let ms ← methods r
      let looks ← (ms.filter (·.1 ≠ c!"child")).mapM fun m => look R m.1 m.2
      let children ← (ms.filter (·.1 = c!"child")).mapM fun m => child m.2
      return .elem space name looks children

/-- A child of an element or view: what is to be rendered.  (At most `n` elements deep.) -/
def node : Nat → Toks → Option (Dom V)
  | 0, _ => none
  | n + 1, ts => do
    let (p, inner, r) ← call ts
    if p = [c!"leptos", c!"prelude", c!"IntoRender", c!"into_render"] ∧ r = [] then built R (node n) inner else none

/-- Runs the expansion of `mview!`: `{ #[..] x }`, where `x` is to be rendered, or several of these in a view. -/
def run (n : Nat) : Toks → Option (List (Dom V))
  | [.group .brace (.punct '#' _ :: .group .bracket _ :: body)] => do
    let (p, _, _) ← call body
    if p = [c!"leptos", c!"prelude", c!"View", c!"new"] then view (node R n) body else return [← node R n body]
  | _ => none

/-! ### what is meant -/

/-- The value of a value. -/
def valueOf : Value → V
  | .lit (.tok l) => R.lit l
  | .lit (.bool b) => R.bool b
  | .block code => R.block code
  | .bracket none code => R.lazy code
  | .bracket (some _) code => R.format code

/-- An attribute: what it is called, and its value. -/
def attrLook (a : KvAttr) : Look V :=
  let v := valueOf R a.value
  if a.key.repr = c!"ref" then .ref v
  else if a.key.repr = c!"class" then .cls v
  else if a.key.repr = c!"style" then .style v
  else .attr a.key.repr v

/-- The name of a function or event: `-` are written `_` in Rust. -/
def rustName (k : KebabOrStr) : Str := k.text.map fun c => if c = '-' then '_' else c

/-- A directive with a value (which `use:` does not need). -/
def directiveLook (d : Directive) : Option (Look V) :=
  let key := R.lit (.str d.key.text)
  if d.dir = plain c!"use" then some (.use (rustName d.key) (d.value.map (valueOf R)))
  else d.value.bind fun v =>
    let v := valueOf R v
    if d.dir = plain c!"class" then some (.clsIf key v)
    else if d.dir = plain c!"style" then some (.styleOf key v)
    else if d.dir = plain c!"prop" then some (.prop key v)
    else if d.dir = plain c!"on" then some (.on (rustName d.key) d.modifier.isSome v)
    else none

/-- The shorthands `.a`. -/
def dots : List Selector → List Str
  | [] => []
  | .cls k :: r => k.repr :: dots r
  | .id _ :: r => dots r

/-- The shorthands `#a`. -/
def hashes : List Selector → List Str
  | [] => []
  | .id k :: r => k.repr :: hashes r
  | .cls _ :: r => hashes r

/-- The attributes that have no prefix. -/
def unprefixed : List Attr → List KvAttr
  | [] => []
  | .kv a :: r => a :: unprefixed r
  | .directive _ :: r => unprefixed r
  | .spread _ :: r => unprefixed r

/-- Those with a prefix. -/
def prefixed : List Attr → List Directive
  | [] => []
  | .kv _ :: r => prefixed r
  | .directive d :: r => d :: prefixed r
  | .spread _ :: r => prefixed r

/-- `{..e}`. -/
def spreadOnto : List Attr → List Toks
  | [] => []
  | .kv _ :: r => spreadOnto r
  | .directive _ :: r => spreadOnto r
  | .spread e :: r => e :: spreadOnto r

/-- All attributes, then all directives, then the classes, the ids and the spreads. -/
def looks (sels : List Selector) (attrs : List Attr) : Option (List (Look V)) := do
  let ds ← (prefixed attrs).mapM (directiveLook R)
  return (unprefixed attrs).map (attrLook R) ++ ds ++
    (dots sels).map (fun k => .clsIf (R.lit (.str k)) (R.bool true)) ++
    (hashes sels).map (fun k => .attr c!"id" (R.lit (.str k))) ++
    (spreadOnto attrs).map .spread

/-- What element it is. -/
def shape : Tag → Option (Space × Str)
  | .html i => some (.html, i.name)
  | .svg i => some (.svg, i.name)
  | .math i => some (.math, i.name)
  | .webComponent k => some (.custom, k.repr)
  | .component _ => none

/-- A value that may be left out: then it is `true`. -/
def orTrue : Option Value → V
  | some v => valueOf R v
  | none => R.bool true

/-- A directive of a component; without a value it is `true`. -/
def directiveEntry (d : Directive) : Option (Look V) :=
  let key := d.key.text
  let v := orTrue R d.value
  if d.dir = plain c!"class" then some (.clsIf (R.lit (.str key)) v)
  else if d.dir = plain c!"style" then some (.styleOf (R.lit (.str key)) v)
  else if d.dir = plain c!"attr" then
    some (if key = c!"class" then .cls v else if key = c!"style" then .style v else .attr key v)
  else if d.dir = plain c!"prop" then some (.prop (R.lit (.str (rustName d.key))) v)
  else if d.dir = plain c!"on" then d.value.map fun _ => .on (rustName d.key) d.modifier.isSome v
  else if d.dir = plain c!"use" then some (.use (rustName d.key) (d.value.map (valueOf R)))
  else none

/-- The directives (except `clone:`) and spreads of a component. -/
def attrEntries : List Attr → Option (List (Look V))
  | [] => some []
  | .kv _ :: r => attrEntries r
  | .spread e :: r => do return .spread e :: (← attrEntries r)
  | .directive d :: r => if d.dir = plain c!"clone" then attrEntries r else do return (← directiveEntry R d) :: (← attrEntries r)

/-- What is given with `clone:`. -/
def cloned : List Attr → List Str
  | [] => []
  | .directive d :: r => if d.dir = plain c!"clone" then rustName d.key :: cloned r else cloned r
  | .kv _ :: r => cloned r
  | .spread _ :: r => cloned r

/-- What is set on the elements of a component: classes, all ids as one, then directives and spreads as written. -/
def entryLooks (sels : List Selector) (attrs : List Attr) : Option (List (Look V)) := do
  let es ← attrEntries R attrs
  return (dots sels).map (fun k => .clsIf (R.lit (.str k)) (R.bool true)) ++
    (if hashes sels = [] then [] else [.attr c!"id" (R.lit (.str ([' '].intercalate (hashes sels))))]) ++ es

/-- The properties of a component, under their names in Rust. -/
def props (attrs : List Attr) : List (Part V) :=
  (unprefixed attrs).map fun a => .prop (rustName (.kebab a.key)) (valueOf R a.value)

/-- The children of a component, if it has any. -/
def body (attrs : List Attr) (args : Option Toks) (ds : List (Dom V)) : List (Part V) :=
  if ds.isEmpty then [] else [.children args (cloned attrs) ds]

/-- Part of a path; type arguments are always written `::<..>`, and there are none in parentheses. -/
def segCode : PathSeg → Option Toks
  | ⟨i, .none⟩ => some [.ident i]
  | ⟨i, .angle _ inner⟩ => some (.ident i :: t!":: <" ++ inner ++ t!">")
  | ⟨_, .paren _⟩ => none

def segsCode : List PathSeg → Option Toks
  | [] => some []
  | [x] => segCode x
  | x :: y :: r => do return (← segCode x) ++ t!"::" ++ (← segsCode (y :: r))

/-- A path. -/
def pathCode (p : Path) : Option Toks := do
  return (if p.leading then t!"::" else []) ++ (← segsCode p.segs)

/-- The slots of each name together, in the order they are written; the names are in any order. -/
def Grouped (slots : List (Ident × Dom V)) (gs : List (Part V)) : Prop :=
  ∃ names : List Ident, names.Nodup ∧ (∀ n, n ∈ names ↔ n ∈ slots.map Prod.fst) ∧
    gs = names.map fun n => .slots (snakeCase n.name) ((slots.filter (·.1 = n)).map Prod.snd)

mutual
/-- What an element or component looks like. -/
def Shows : Element → Dom V → Prop
  | .mk tag sels attrs args block, d =>
    match tag with
    | .component p => ∃ path ls ds slots gs, pathCode p = some path ∧ entryLooks R sels attrs = some ls ∧
        BlockShows block ds ∧ BlockSlots block slots ∧ Grouped slots gs ∧
        d = .comp path path (props R attrs ++ body attrs args ds ++ gs) ls
    | tag => ∃ space name ls ds, shape tag = some (space, name) ∧ looks R sels attrs = some ls ∧ BlockShows block ds ∧
        d = .elem space name ls ds
/-- A slot. -/
def SlotShows : Element → Ident → Dom V → Prop
  | .mk _ _ attrs args block, name, d => ∃ ds, BlockShows block ds ∧
      d = .slot [.ident name] (props R attrs ++ body attrs args ds)
/-- What its children look like. -/
def BlockShows : Option (List Child) → List (Dom V) → Prop
  | none, ds => ds = []
  | some cs, ds => AllShow cs ds
/-- Its slots. -/
def BlockSlots : Option (List Child) → List (Ident × Dom V) → Prop
  | none, ds => ds = []
  | some cs, ds => SlotsShow cs ds
/-- What children look like. -/
def AllShow : List Child → List (Dom V) → Prop
  | [], ds => ds = []
  | .value v :: cs, ds => ∃ ds', AllShow cs ds' ∧ ds = .value (valueOf R v) :: ds'
  | .elem e :: cs, ds => ∃ d ds', Shows e d ∧ AllShow cs ds' ∧ ds = d :: ds'
  | .slot _ :: cs, ds => AllShow cs ds
/-- The slots among children, with their names. -/
def SlotsShow : List Child → List (Ident × Dom V) → Prop
  | [], ds => ds = []
  | .value _ :: cs, ds => SlotsShow cs ds
  | .elem _ :: cs, ds => SlotsShow cs ds
  | .slot e :: cs, ds => ∃ name d ds', e.tag = .component ⟨false, [⟨name, .none⟩]⟩ ∧ SlotShows e name d ∧ SlotsShow cs ds' ∧
      ds = (name, d) :: ds'
end

/-! ### names and values that exist -/

/-- The attribute is not called like another method, and contains no `_`. -/
def attrUsual (kind : TagKind) (a : KvAttr) : Prop :=
  a.key.repr = c!"ref" ∨ a.key.repr = c!"class" ∨ a.key.repr = c!"style" ∨ Unchecked kind a.key.repr ∨
    a.key.repr ∉ builderMethods ∧ '_' ∉ a.key.repr

/-- The directive has a value, unless it is `use:`. -/
def directiveUsual (d : Directive) : Prop := d.dir = plain c!"use" ∨ d.value.isSome

/-- There is no element `<custom>`. -/
def tagUsual : Tag → Prop
  | .html i => i.name ≠ c!"custom"
  | _ => True

/-- A property of a component that is not called like a method of all builders. -/
def propUsual (a : KvAttr) : Prop := rustName (.kebab a.key) ≠ c!"children" ∧ rustName (.kebab a.key) ≠ c!"build"

/-- On components, `attr:` has no `_` in names and `on:` a value; spreads have no commas that are not in brackets, and
are not themselves functions of leptos. -/
def entryUsual : Attr → Prop
  | .directive d => (d.dir = plain c!"attr" → '_' ∉ d.key.text) ∧ (d.dir = plain c!"on" → d.value.isSome)
  | .spread e => (∀ s, TT.punct ',' s ∉ e) ∧ (absPath e).1.head? ≠ some c!"leptos"
  | .kv _ => True

/-- A slot that is not called like a method of all builders. -/
def slotUsual (e : Element) : Prop :=
  ∀ name, e.tag = .component ⟨false, [⟨name, .none⟩]⟩ → snakeCase name.name ≠ c!"children" ∧ snakeCase name.name ≠ c!"build"

mutual
def Usual : Element → Prop
  | .mk tag _ attrs _ block => BlockUsual block ∧
    match tag with
    | .component _ => (∀ a, .kv a ∈ attrs → propUsual a) ∧ ∀ a ∈ attrs, entryUsual a
    | tag => tagUsual tag ∧ (∀ a, .kv a ∈ attrs → attrUsual tag.kind a) ∧ ∀ d, .directive d ∈ attrs → directiveUsual d
def BlockUsual : Option (List Child) → Prop
  | none => True
  | some cs => AllUsual cs
def AllUsual : List Child → Prop
  | [] => True
  | .value _ :: cs => AllUsual cs
  | .elem e :: cs => Usual e ∧ AllUsual cs
  | .slot e :: cs => slotUsual e ∧ Usual e ∧ AllUsual cs
end

end Mview.Run
