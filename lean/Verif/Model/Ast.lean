import Verif.Model.Syn
/-
The ASTs of leptos-mview-core/src/ast, with the small functions defined on them.
-/

namespace Mview

/-! ### src/ast/ident.rs -/

/-- src/ast/ident.rs:40-44 `KebabIdent`: its text and how many of its sections
carry a span (`spans.len()`; the spans themselves are not modelled). -/
structure KebabIdent where
  repr : Str
  spans : Nat
  deriving DecidableEq, Repr

/-- src/ast/ident.rs:186-190 `KebabIdentOrStr` -/
inductive KebabOrStr where
  | kebab (k : KebabIdent)
  | str (s : Str)
  deriving DecidableEq, Repr

/-- The names `syn::Ident::new_raw` panics on: `_` and the path-segment keywords
(`Symbol::can_be_raw` in rustc, `validate_ident_raw` in proc-macro2). -/
def notRaw : List Str := [c!"_", c!"self", c!"Self", c!"super", c!"crate"]

/-- `syn::Ident::new_raw(name, _)` -/
def newRaw (name : Str) : Out Ident :=
  if name ∈ notRaw then .panic (.rawIdent name) else pure ⟨true, name⟩

/-- `str::replace('-', "_")` -/
def dashToUnderscore (s : Str) : Str := s.map fun c => if c = '-' then '_' else c

/-- src/ast/ident.rs:57-62 `KebabIdent::span`: indexes the first span and unwraps
the last, so panics if there is none. (Only the panic is modelled.) -/
def KebabIdent.checkSpan (k : KebabIdent) : Out Unit :=
  if k.spans = 0 then .panic .emptyKebab else pure ()

/-- src/ast/ident.rs:99-106 `KebabIdent::to_snake_ident` -/
def KebabIdent.toSnakeIdent (k : KebabIdent) : Out Ident := do
  k.checkSpan
  newRaw (dashToUnderscore k.repr)

/-- src/ast/ident.rs:72, 193-198 `to_lit_str` (as the literal's value) -/
def KebabOrStr.toLitStr : KebabOrStr → Out Str
  | .kebab k => do k.checkSpan; pure k.repr
  | .str s => pure s

/-- src/ast/ident.rs:200-208 `to_ident_or_emit` -/
def KebabOrStr.toIdentOrEmit : KebabOrStr → Out Ident
  | .kebab k => k.toSnakeIdent
  | .str s => do
    emit (.expectedIdentifier s)
    pure ⟨false, c!"__invalid_identifier_found_str"⟩

/-- src/ast/ident.rs:210-215 `to_unspanned_string` -/
def KebabOrStr.toUnspannedString : KebabOrStr → Str
  | .kebab k => k.repr
  | .str s => s

/-! ### src/ast/value.rs -/

/-- src/ast/value.rs:28-42 `Value` -/
inductive Value where
  | lit (l : SynLit)
  | block (tokens : Toks)
  | bracket (pfx : Option Ident) (tokens : Toks)

/-- src/ast/value.rs:154 `Value::new_true` -/
def Value.newTrue : Value := .lit (.bool true)

/-! ### src/ast/tag.rs -/

/-- src/ast/tag.rs:29-36 `Tag` -/
inductive Tag where
  | html (i : Ident)
  | component (p : Path)
  | svg (i : Ident)
  | math (i : Ident)
  | webComponent (k : KebabIdent)

/-- src/ast/tag.rs:87-93 `TagKind` -/
inductive TagKind where
  | html | component | svg | math | webComponent
  deriving DecidableEq, Repr

/-- src/ast/tag.rs:51-59 `Tag::kind` -/
def Tag.kind : Tag → TagKind
  | .html _ => .html
  | .component _ => .component
  | .svg _ => .svg
  | .math _ => .math
  | .webComponent _ => .webComponent

/-- `char::is_ascii_uppercase` -/
def isAsciiUpper (c : Char) : Bool := 'A'.toNat ≤ c.toNat && c.toNat ≤ 'Z'.toNat

/-- src/ast/tag.rs:122-124 `is_component` -/
def isComponent (tag : Str) : Bool :=
  match tag with
  | c :: _ => isAsciiUpper c
  | [] => false

/-- `str`'s `Ord::cmp(a, b)`: byte-wise on UTF-8, i.e. lexicographic on code
points. -/
def strCmp : Str → Str → Ordering
  | [], [] => .eq
  | [], _ :: _ => .lt
  | _ :: _, [] => .gt
  | a :: as, b :: bs =>
    if a.toNat < b.toNat then .lt
    else if b.toNat < a.toNat then .gt
    else strCmp as bs

/-- Rust core `slice::binary_search_by`, the loop: `size` is the size of the
window starting at `base`. (`fuel` bounds the iterations; `size` itself is always
enough, as `size` shrinks each time.) -/
def binarySearchLoop (table : List Str) (x : Str) : Nat → Nat → Nat → Nat
  | 0, base, _ => base
  | fuel + 1, base, size =>
    if size > 1 then
      let half := size / 2
      let mid := base + half
      let base' := if strCmp (table.getD mid []) x = .gt then base else mid
      binarySearchLoop table x fuel base' (size - half)
    else base

/-- Rust core `slice::binary_search(..).is_ok()` -/
def binarySearchOk (table : List Str) (x : Str) : Bool :=
  if table.length = 0 then false
  else
    let base := binarySearchLoop table x table.length 0 table.length
    strCmp (table.getD base []) x = .eq

/-- src/ast/tag.rs:130-194 the SVG element table -/
def svgTable : List Str :=
  [c!"animate", c!"animateMotion", c!"animateTransform", c!"circle", c!"clipPath",
   c!"defs", c!"desc", c!"discard", c!"ellipse", c!"feBlend", c!"feColorMatrix",
   c!"feComponentTransfer", c!"feComposite", c!"feConvolveMatrix",
   c!"feDiffuseLighting", c!"feDisplacementMap", c!"feDistantLight",
   c!"feDropShadow", c!"feFlood", c!"feFuncA", c!"feFuncB", c!"feFuncG", c!"feFuncR",
   c!"feGaussianBlur", c!"feImage", c!"feMerge", c!"feMergeNode", c!"feMorphology",
   c!"feOffset", c!"fePointLight", c!"feSpecularLighting", c!"feSpotLight",
   c!"feTile", c!"feTurbulence", c!"filter", c!"foreignObject", c!"g", c!"hatch",
   c!"hatchpath", c!"image", c!"line", c!"linearGradient", c!"marker", c!"mask",
   c!"metadata", c!"mpath", c!"path", c!"pattern", c!"polygon", c!"polyline",
   c!"radialGradient", c!"rect", c!"set", c!"stop", c!"svg", c!"switch", c!"symbol",
   c!"text", c!"textPath", c!"tspan", c!"use", c!"use_", c!"view"]

/-- src/ast/tag.rs:203-235 the MathML element table -/
def mathTable : List Str :=
  [c!"annotation", c!"maction", c!"math", c!"menclose", c!"merror", c!"mfenced",
   c!"mfrac", c!"mi", c!"mmultiscripts", c!"mn", c!"mo", c!"mover", c!"mpadded",
   c!"mphantom", c!"mprescripts", c!"mroot", c!"mrow", c!"ms", c!"mspace", c!"msqrt",
   c!"mstyle", c!"msub", c!"msubsup", c!"msup", c!"mtable", c!"mtd", c!"mtext",
   c!"mtr", c!"munder", c!"munderover", c!"semantics"]

/-- src/ast/tag.rs:129-197 `is_svg_element` -/
def isSvgElement (tag : Str) : Bool := binarySearchOk svgTable tag

/-- src/ast/tag.rs:202-238 `is_math_ml_element` -/
def isMathMlElement (tag : Str) : Bool := binarySearchOk mathTable tag

/-- src/ast/tag.rs:247 `is_web_component` -/
def isWebComponent (tag : Str) : Bool := tag.contains '-'

/-- src/ast/tag.rs:95-113 `TagKind::from(&str)` -/
def TagKind.ofStr (value : Str) : TagKind :=
  if isComponent value then .component
  else if isSvgElement value then .svg
  else if isWebComponent value then .webComponent
  else if isMathMlElement value then .math
  else .html

/-! ### src/ast/attribute -/

/-- src/ast/attribute/selector.rs:24-33 `SelectorShorthand` -/
inductive Selector where
  | id (k : KebabIdent)
  | cls (k : KebabIdent)

/-- src/ast/attribute/kv.rs:26-29 `KvAttr` -/
structure KvAttr where
  key : KebabIdent
  value : Value

/-- src/ast/attribute/directive.rs:32-37 `Directive` -/
structure Directive where
  dir : Ident
  key : KebabOrStr
  modifier : Option Ident
  value : Option Value

/-- src/ast/attribute.rs:16-20 `Attr`; the spread's payload is the expression
after the `..` (src/ast/attribute/spread_attrs.rs:13-17) -/
inductive Attr where
  | kv (a : KvAttr)
  | directive (d : Directive)
  | spread (expr : Toks)

/-! ### src/ast/element.rs and src/ast/children.rs -/

mutual
/-- src/ast/element.rs:45-51 `Element` -/
inductive Element where
  | mk (tag : Tag) (selectors : List Selector) (attrs : List Attr)
      (childrenArgs : Option Toks) (children : Option (List Child))
/-- src/ast/children.rs:21-24, 54-57 `NodeChild` and `Child`, flattened:
`Child::Node(NodeChild::Value v)`, `Child::Node(NodeChild::Element e)`,
`Child::Slot(_, e)` -/
inductive Child where
  | value (v : Value)
  | elem (e : Element)
  | slot (e : Element)
end

/-- src/ast/element.rs:134 `Element::tag` -/
def Element.tag : Element → Tag
  | .mk t _ _ _ _ => t
/-- src/ast/element.rs:136 `Element::selectors` -/
def Element.selectors : Element → List Selector
  | .mk _ s _ _ _ => s
/-- src/ast/element.rs:138 `Element::attrs` -/
def Element.attrs : Element → List Attr
  | .mk _ _ a _ _ => a
/-- src/ast/element.rs:140 `Element::children_args` -/
def Element.childrenArgs : Element → Option Toks
  | .mk _ _ _ a _ => a
/-- src/ast/element.rs:142 `Element::children` -/
def Element.children : Element → Option (List Child)
  | .mk _ _ _ _ c => c

/-- src/ast/children.rs:143-148: whether a child is a slot -/
def Child.isSlot : Child → Bool
  | .slot _ => true
  | _ => false

end Mview
