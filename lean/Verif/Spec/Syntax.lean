import Verif.Spec.Count
/-
C45: a fragment of the syntax of Rust expressions (The Rust Reference, "Expressions" and "Paths"),
on token trees, into which code of the user can be embedded; and which pieces of a tree are embedded.

Everything accepted here is an expression of Rust.  Outer attributes are accepted on arguments of calls
and the last expression of a block only ("Expression attributes").
-/

namespace Mview
open Lex

/-- The words that are no identifiers of Rust (unless raw): strict and reserved keywords of any edition,
and `_`. -/
def rustKeywords : List Str :=
  [c!"as", c!"break", c!"const", c!"continue", c!"crate", c!"else", c!"enum", c!"extern", c!"false",
   c!"fn", c!"for", c!"if", c!"impl", c!"in", c!"let", c!"loop", c!"match", c!"mod", c!"move", c!"mut",
   c!"pub", c!"ref", c!"return", c!"self", c!"Self", c!"static", c!"struct", c!"super", c!"trait",
   c!"true", c!"type", c!"unsafe", c!"use", c!"where", c!"while", c!"async", c!"await", c!"dyn",
   c!"abstract", c!"become", c!"box", c!"do", c!"final", c!"macro", c!"override", c!"priv",
   c!"typeof", c!"unsized", c!"virtual", c!"yield", c!"try", c!"gen", c!"_"]

/-- The words that start a path although they are keywords.  They cannot be raw identifiers. -/
def pathKeywords : List Str := [c!"self", c!"Self", c!"super", c!"crate"]

/-- An identifier rather than a keyword. -/
def Ident.IsName (i : Ident) : Prop :=
  if i.raw then i.name ≠ c!"_" ∧ i.name ∉ pathKeywords else i.name ∉ rustKeywords

/-- What counts as valid code of the user. -/
structure UserCode where
  /-- expressions -/
  expr : Toks → Prop
  /-- the inside of a block -/
  body : Toks → Prop
  /-- parameters of a closure, with their pipes -/
  params : Toks → Prop
  /-- generic arguments, without `<` and `>` -/
  generics : Toks → Prop

/-- No code of the user other than what the fragment covers. -/
def UserCode.none : UserCode := ⟨fun _ => False, fun _ => False, fun _ => False, fun _ => False⟩

/-- Generic arguments: any the user can write, in particular a single name. -/
inductive Generics (U : UserCode) : Toks → Prop
  | user {g : Toks} : U.generics g → Generics U g
  | name {i : Ident} : i.IsName → Generics U [.ident i]

/-- What follows the first name of a path; `args`: generic arguments may follow. -/
inductive PathRest (U : UserCode) : (args : Bool) → Toks → Prop
  | nil {a : Bool} : PathRest U a []
  /-- `::name` -/
  | seg {a : Bool} {s : Spacing} {i : Ident} {r : Toks} : i.IsName ∨ i = plain c!"super" →
      PathRest U true r → PathRest U a (.punct ':' .joint :: .punct ':' s :: .ident i :: r)
  /-- `::<arguments>` -/
  | args {s₁ s₂ s₃ : Spacing} {g r : Toks} : Generics U g → PathRest U false r →
      PathRest U true (.punct ':' .joint :: .punct ':' s₁ :: .punct '<' s₂ :: (g ++ .punct '>' s₃ :: r))

/-- A path in an expression. -/
inductive IsPath (U : UserCode) : Toks → Prop
  /-- `a::b` -/
  | rel {i : Ident} {r : Toks} : i.IsName ∨ i.raw = false ∧ i.name ∈ pathKeywords → PathRest U true r →
      IsPath U (.ident i :: r)
  /-- `::a::b` -/
  | abs {s : Spacing} {i : Ident} {r : Toks} : i.IsName → PathRest U true r →
      IsPath U (.punct ':' .joint :: .punct ':' s :: .ident i :: r)
  /-- `<[_]>::a` -/
  | slice {s₁ s₂ s₃ : Spacing} {i : Ident} {r : Toks} : i.IsName → PathRest U true r →
      IsPath U (.punct '<' s₁ :: .group .bracket [.ident (plain c!"_")] :: .punct '>' s₂ ::
        .punct ':' .joint :: .punct ':' s₃ :: .ident i :: r)

/-- Names separated by commas. -/
inductive NameList : Toks → Prop
  | nil : NameList []
  | one {i : Ident} : i.IsName → NameList [.ident i]
  | cons {i : Ident} {s : Spacing} {r : Toks} : i.IsName → NameList r →
      NameList (.ident i :: .punct ',' s :: r)

/-- Parameters of a closure: any the user can write, in particular names. -/
inductive Params (U : UserCode) : Toks → Prop
  | user {p : Toks} : U.params p → Params U p
  | names {s s' : Spacing} {p : Toks} : NameList p → Params U (.punct '|' s :: (p ++ [.punct '|' s']))

/-- An attribute `#[name(..)]`. -/
inductive IsAttribute : Toks → Prop
  | mk {s : Spacing} {i : Ident} {t : Toks} : i.IsName →
      IsAttribute [.punct '#' s, .group .bracket [.ident i, .group .paren t]]

/-- As a statement, these tokens end with the first block. -/
def blockLike : Toks → Bool
  | .group .brace _ :: _ => true
  | .punct '\'' _ :: _ => true
  | .ident ⟨false, k⟩ :: _ =>
    k ∈ [c!"if", c!"match", c!"loop", c!"while", c!"for", c!"unsafe", c!"async", c!"const"]
  | _ => false

/-- Kinds of syntax. -/
inductive Cat where
  /-- what a method can be called on -/
  | postfix
  /-- an expression -/
  | expr
  /-- an expression, possibly with attributes -/
  | arg (attrs : Bool)
  /-- expressions separated by commas, possibly with attributes -/
  | list (attrs : Bool)
  /-- the inside of a block -/
  | body

/-- `Rust U k t`: the tokens are syntax of Rust of the given kind. -/
inductive Rust (U : UserCode) : Cat → Toks → Prop
  | path {p : Toks} : IsPath U p → Rust U .postfix p
  /-- `{..}` -/
  | block {b : Toks} : Rust U .body b → Rust U .postfix [.group .brace b]
  /-- `()` -/
  | unit : Rust U .postfix [.group .paren []]
  /-- `(a)` -/
  | paren {e : Toks} : Rust U .expr e → Rust U .postfix [.group .paren e]
  /-- `(a, ..)` -/
  | tuple {e es : Toks} {s : Spacing} : Rust U .expr e → Rust U (.list false) es →
      Rust U .postfix [.group .paren (e ++ .punct ',' s :: es)]
  /-- `[..]` -/
  | array {es : Toks} : Rust U (.list false) es → Rust U .postfix [.group .bracket es]
  /-- `f(..)` -/
  | call {f a : Toks} : Rust U .postfix f → Rust U (.list true) a → Rust U .postfix (f ++ [.group .paren a])
  /-- `e.name(..)` -/
  | method {e a : Toks} {s : Spacing} {i : Ident} : Rust U .postfix e → i.IsName → Rust U (.list false) a →
      Rust U .postfix (e ++ [.punct '.' s, .ident i, .group .paren a])
  /-- `name!(..)` -/
  | mac {p t : Toks} {s : Spacing} {d : Delim} : IsPath U p →
      Rust U .postfix (p ++ [.punct '!' s, .group d t])
  | expr {e : Toks} : Rust U .postfix e → Rust U .expr e
  /-- a literal; possibly a negative number -/
  | lit {l : Lit} : Rust U .expr [.lit l]
  | trueLit : Rust U .expr [.ident (plain c!"true")]
  | falseLit : Rust U .expr [.ident (plain c!"false")]
  /-- `&e` -/
  | ref {s : Spacing} {e : Toks} : Rust U .postfix e → Rust U .expr (.punct '&' s :: e)
  /-- `move |..| e` -/
  | closure {p e : Toks} : Params U p → Rust U .expr e → Rust U .expr (.ident (plain c!"move") :: (p ++ e))
  | userExpr {e : Toks} : U.expr e → Rust U .expr e
  | bare {b : Bool} {e : Toks} : Rust U .expr e → Rust U (.arg b) e
  | attribute {a e : Toks} : IsAttribute a → Rust U (.arg true) e → Rust U (.arg true) (a ++ e)
  | nil {b : Bool} : Rust U (.list b) []
  | one {b : Bool} {e : Toks} : Rust U (.arg b) e → Rust U (.list b) e
  | cons {b : Bool} {e es : Toks} {s : Spacing} : Rust U (.arg b) e → Rust U (.list b) es →
      Rust U (.list b) (e ++ .punct ',' s :: es)
  /-- nothing -/
  | empty : Rust U .body []
  /-- the last expression -/
  | last {e : Toks} : Rust U .expr e → blockLike e = false → Rust U .body e
  /-- the last expression, after an attribute -/
  | lastAttribute {a e : Toks} : IsAttribute a → Rust U .expr e → blockLike e = false →
      Rust U .body (a ++ e)
  /-- `let x = e;` -/
  | let {i : Ident} {s s' : Spacing} {e b : Toks} : i.IsName → Rust U .expr e → Rust U .body b →
      Rust U .body (.ident (plain c!"let") :: .ident i :: .punct '=' s :: (e ++ .punct ';' s' :: b))
  | userBody {b : Toks} : U.body b → Rust U .body b

/-! ### what is embedded -/

/-- The value is valid. -/
def Value.Sound (U : UserCode) : Value → Prop
  | .lit _ => True
  | .block code => Rust U .body code
  | .bracket none code => Rust U .body code
  | .bracket (some _) _ => True

/-- The code in an attribute is valid. -/
def Attr.Sound (U : UserCode) : Attr → Prop
  | .kv a => a.value.Sound U
  | .directive d => ∀ v, d.value = some v → v.Sound U
  | .spread e => Rust U .expr e

/-- The generic arguments are valid. -/
def PathArgs.Sound (U : UserCode) : PathArgs → Prop
  | .angle _ inner => Generics U inner
  | _ => True

/-- The path is valid (as a type, i.e. without turbofish). -/
def Path.Sound (U : UserCode) (p : Path) : Prop :=
  ∃ i a rest, p.segs = ⟨i, a⟩ :: rest ∧ a.Sound U ∧
    (i.IsName ∨ p.leading = false ∧ i.raw = false ∧ i.name ∈ pathKeywords) ∧
    ∀ s ∈ rest, (s.ident.IsName ∨ s.ident = plain c!"super") ∧ s.args.Sound U

mutual
/-- The paths and the code in an element that end up in the expansion are valid. -/
def Element.Sound (U : UserCode) (asSlot : Bool) : Element → Prop
  | .mk tag _ attrs _ none => (∀ p, tag = .component p → p.Sound U) ∧ ∀ a ∈ attrs, a.Sound U
  | .mk tag _ attrs args (some cs) =>
    (∀ p, tag = .component p → p.Sound U) ∧ (∀ a ∈ attrs, a.Sound U) ∧
    (tag.isPath = true → (∃ c ∈ cs, c.isSlot = false) → ∀ a, args = some a → Params U a) ∧
    childrenSound U (tag.isPath && !asSlot) cs
/-- The paths and the code in some children that end up in the expansion are valid; `inside`: directly inside a
component. -/
def childrenSound (U : UserCode) (inside : Bool) : List Child → Prop
  | [] => True
  | .value v :: cs => v.Sound U ∧ childrenSound U inside cs
  | .elem e :: cs => e.Sound U false ∧ childrenSound U inside cs
  | .slot e :: cs => (inside = true → e.Sound U true) ∧ childrenSound U inside cs
end

end Mview
