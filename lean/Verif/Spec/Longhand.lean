import Verif.Spec.Run
/-
C59: what the documentation (`/repo/src/lib.rs`) calls the same as something else, written out in full.
-/

-- the linter does not see variables used inside `q!"..."`
set_option linter.unusedVariables false

namespace Mview.Run
open Lex

/-- The words that are not identifiers without `r#`. -/
def keywords : List Str :=
  [c!"as", c!"break", c!"const", c!"continue", c!"crate", c!"else", c!"enum", c!"extern", c!"false", c!"fn", c!"for",
   c!"if", c!"impl", c!"in", c!"let", c!"loop", c!"match", c!"mod", c!"move", c!"mut", c!"pub", c!"ref", c!"return",
   c!"self", c!"Self", c!"static", c!"struct", c!"super", c!"trait", c!"true", c!"type", c!"unsafe", c!"use",
   c!"where", c!"while", c!"async", c!"await", c!"dyn", c!"abstract", c!"become", c!"box", c!"do", c!"final",
   c!"macro", c!"override", c!"priv", c!"typeof", c!"unsized", c!"virtual", c!"yield", c!"try", c!"gen"]

/-- What values in full evaluate to. -/
structure Rust.Plain {V : Type} (R : Rust V) : Prop where
  /-- `{"a"}` is `"a"`. -/
  lit : ∀ l, R.block [.lit l] = R.lit l
  /-- `{true}` is `true`. -/
  bool : ∀ b, R.block [.ident (plain (if b then c!"true" else c!"false"))] = R.bool b
  /-- `{move || code}` is a closure. -/
  lazy : ∀ code, R.block (t!"move ||" ++ code) = R.lazy code
  /-- `{move || format!(code)}` is one that formats. -/
  format : ∀ code, R.block (t!"move || format!" ++ [.group .paren code]) = R.format code
  /-- `{r#a}` is `{a}`. -/
  raw : ∀ a, a ∉ keywords → R.block [.ident ⟨true, a⟩] = R.block [.ident ⟨false, a⟩]

/-- A negative number (which is two tokens). -/
def Lit.negative : Lit → Bool
  | .int ('-' :: _) => true
  | .float ('-' :: _) => true
  | _ => false

/-- A variable is written without `r#` if possible. -/
def longBlockCode : Toks → Toks
  | [.ident ⟨true, a⟩] => if a ∈ keywords then [.ident ⟨true, a⟩] else [.ident ⟨false, a⟩]
  | code => code

/-- Every value is a block: `[code]` is `{move || code}`, `f[code]` is `{move || format!(code)}`, `"a"` is `{"a"}`. -/
def longValue : Value → Value
  | .lit (.tok l) => if Lit.negative l then .lit (.tok l) else .block [.lit l]
  | .lit (.bool b) => .block [.ident (plain (if b then c!"true" else c!"false"))]
  | .block code => .block (longBlockCode code)
  | .bracket none code => .block (t!"move ||" ++ code)
  | .bracket (some p) code =>
    if p = plain c!"f" then .block (t!"move || format!" ++ [.group .paren code]) else .bracket (some p) code

/-- With underscores. -/
def underscored (k : KebabIdent) : KebabIdent := ⟨k.repr.map fun c => if c = '-' then '_' else c, 0⟩

/-- A key with underscores. -/
def longKey : KebabOrStr → KebabOrStr
  | .kebab k => .kebab (underscored k)
  | .str s => .str s

/-- On elements, events and functions have underscores. -/
def longOnElement : Attr → Attr
  | .kv a => .kv ⟨a.key, longValue a.value⟩
  | .directive d =>
    .directive ⟨d.dir, if d.dir = plain c!"on" ∨ d.dir = plain c!"use" then longKey d.key else d.key, d.modifier,
      d.value.map longValue⟩
  | .spread e => .spread e

/-- On components, also properties have underscores; a directive without a value is `=true`. -/
def longOnComponent : Attr → Attr
  | .kv a => .kv ⟨underscored a.key, longValue a.value⟩
  | .directive d =>
    if d.dir = plain c!"class" ∨ d.dir = plain c!"style" ∨ d.dir = plain c!"attr" then
      .directive ⟨d.dir, d.key, d.modifier, some (longValue (d.value.getD (.lit (.bool true))))⟩
    else if d.dir = plain c!"prop" then
      .directive ⟨d.dir, longKey d.key, d.modifier, some (longValue (d.value.getD (.lit (.bool true))))⟩
    else .directive ⟨d.dir, longKey d.key, d.modifier, d.value.map longValue⟩
  | .spread e => .spread e

/-- The attributes of an element or component. -/
def longAttrs : Tag → List Attr → List Attr
  | .component _, attrs => attrs.map longOnComponent
  | _, attrs => attrs.map longOnElement

mutual
/-- An element in full. -/
def longElement : Element → Element
  | .mk tag sels attrs args block => .mk tag sels (longAttrs tag attrs) args (longBlock block)
def longBlock : Option (List Child) → Option (List Child)
  | none => none
  | some cs => some (longhand cs)
/-- Everything in full. -/
def longhand : List Child → List Child
  | [] => []
  | .value v :: cs => .value (longValue v) :: longhand cs
  | .elem e :: cs => .elem (longElement e) :: longhand cs
  | .slot e :: cs => .slot (longElement e) :: longhand cs
end

end Mview.Run
