import Verif.Spec.Context
import Verif.Spec.Issues
import Verif.Model.Lex
/-
C39: how any input is read, valid or not: which tree it is taken for and which errors are
reported on the way.

`ReadsX ts is x rest`: at the beginning of `ts` there is an `x`, with issues `is`, and `rest` is
what follows.  After an issue that stops the macro `rest` is `[]`, without significance.
-/

namespace Mview
open Lex

/-! ### names -/

/-- Parts of a name must not be written `r#..`. -/
def rawIssues (run : Toks) : List Issue := (kebabRaws run).map fun i => .report (.rawInKebab i)

/-- A name starts here. -/
def NameStart (ts : Toks) : Prop := ∃ t r, ts = t :: r ∧ (t.isIdent = true ∨ t.isDash = true)

/-! ### selectors -/

/-- Shorthands for classes and ids: as many as there are. -/
inductive ReadsSels : Toks → List Issue → List Selector → Toks → Prop
  | cls {s ts run rest is sels left} : LongestKebab ts run rest → ReadsSels rest is sels left →
      ReadsSels (.punct '.' s :: ts) (rawIssues run ++ is) (.cls (kebabOf run) :: sels) left
  | id {s ts run rest is sels left} : LongestKebab ts run rest → ReadsSels rest is sels left →
      ReadsSels (.punct '#' s :: ts) (rawIssues run ++ is) (.id (kebabOf run) :: sels) left
  | done {ts} : (∀ c s r, ts = .punct c s :: r → c = '.' ∨ c = '#' → ¬ NameStart r) →
      ReadsSels ts [] [] ts

/-! ### attributes -/

/-- The strict keywords of Rust, up to edition 2021 (The Rust Reference, "Keywords"). -/
def strictKeywords : List Str :=
  [c!"as", c!"break", c!"const", c!"continue", c!"crate", c!"else", c!"enum", c!"extern", c!"false",
   c!"fn", c!"for", c!"if", c!"impl", c!"in", c!"let", c!"loop", c!"match", c!"mod", c!"move", c!"mut",
   c!"pub", c!"ref", c!"return", c!"self", c!"Self", c!"static", c!"struct", c!"super", c!"trait",
   c!"true", c!"type", c!"unsafe", c!"use", c!"where", c!"while", c!"async", c!"await", c!"dyn"]

/-- The reserved keywords of Rust, up to edition 2021. -/
def reservedKeywords : List Str :=
  [c!"abstract", c!"become", c!"box", c!"do", c!"final", c!"macro", c!"override", c!"priv", c!"try",
   c!"typeof", c!"unsized", c!"virtual", c!"yield"]

/-- The next token is an identifier, neither a keyword nor `_`. -/
def WordNext (ts : Toks) : Prop :=
  ∃ i r, ts = .ident i :: r ∧
    (i.raw = true ∨ i.name ∉ strictKeywords ∧ i.name ∉ reservedKeywords ∧ i.name ≠ c!"_")

/-- What follows an `=`: a value, or nothing that is one, which is reported and read as a
placeholder. -/
inductive ReadsValue : Toks → List Issue → Value → Toks → Prop
  | value {v : CVal} {rest} : (∀ b, v = .bool b → ∀ c r, rest ≠ .group .bracket c :: r) →
      ReadsValue (v.toks ++ rest) [] v.ast rest
  | missing {ts help} : NoValue ts → (help = true ↔ WordNext ts) →
      ReadsValue ts [.report (.missingValue help)] (.block t!"::leptos_mview::MissingValueAfterEq") ts

/-- Perhaps `=value`. -/
inductive ReadsEq : Toks → List Issue → Option Value → Toks → Prop
  | some {s ts is v rest} : ReadsValue ts is v rest → ReadsEq (.punct '=' s :: ts) is (some v) rest
  | none {ts} : (∀ s r, ts ≠ .punct '=' s :: r) → ReadsEq ts [] none ts

/-- Perhaps `:modifier`. -/
inductive ReadsModifier : Toks → Option Ident → Toks → Prop
  | some {s m rest} : ReadsModifier (.punct ':' s :: .ident m :: rest) (some m) rest
  | none {ts} : (∀ s r, ts ≠ .punct ':' s :: r) → ReadsModifier ts none ts

/-- The key of a directive. -/
inductive ReadsKey : Toks → List Issue → KebabOrStr → Toks → Prop
  | str {s rest} : ReadsKey (.lit (.str s) :: rest) [] (.str s) rest
  | name {ts run rest} : LongestKebab ts run rest → ReadsKey ts (rawIssues run) (.kebab (kebabOf run)) rest

/-- The braces contain a name and nothing else. -/
def AllName (c : Toks) : Prop := LongestKebab c c []

/-- The value in `{name}`. -/
def shortValue (c : Toks) : Value := .block [.ident (identOf c)]

/-- The braces contain `..` and something. -/
def IsSpread (c : Toks) : Prop := ∃ s e, c = .punct '.' .joint :: .punct '.' s :: e

/-- Attributes: as many as there are. -/
inductive ReadsAttrs : Toks → List Issue → List Attr → Toks → Prop
  /-- `{name}` -/
  | short {c rest is as left} : AllName c → ReadsAttrs rest is as left →
      ReadsAttrs (.group .brace c :: rest) (rawIssues c ++ (nameIssues (kebabText c) ++ is))
        (.kv ⟨kebabOf c, shortValue c⟩ :: as) left
  /-- `{..expr}` -/
  | spread {s e rest is as left} : ReadsAttrs rest is as left →
      ReadsAttrs (.group .brace (.punct '.' .joint :: .punct '.' s :: e) :: rest) is (.spread e :: as) left
  /-- `name` or `name=value` -/
  | kv {ts run rest js v rest' is as left} : LongestKebab ts run rest →
      (∀ d s r, ts ≠ .ident d :: .punct ':' s :: r) → ReadsEq rest js v rest' →
      ReadsAttrs rest' is as left →
      ReadsAttrs ts (rawIssues run ++ (js ++ is))
        (.kv ⟨kebabOf run, v.getD (.lit (.bool true))⟩ :: as) left
  /-- `directive:{name}` -/
  | dirShort {d s c rest m rest' is as left} : AllName c → ReadsModifier rest m rest' →
      ReadsAttrs rest' is as left →
      ReadsAttrs (.ident d :: .punct ':' s :: .group .brace c :: rest)
        (rawIssues c ++ (nameIssues (kebabText c) ++ is))
        (.directive ⟨d, .kebab (kebabOf c), m, some (shortValue c)⟩ :: as) left
  /-- `directive:key` or `directive:key=value` -/
  | dir {d s ts ks key r1 m r2 js v r3 is as left} : ReadsKey ts ks key r1 → ReadsModifier r1 m r2 →
      ReadsEq r2 js v r3 → ReadsAttrs r3 is as left →
      ReadsAttrs (.ident d :: .punct ':' s :: ts) (ks ++ (js ++ is))
        (.directive ⟨d, key, m, v⟩ :: as) left
  /-- `directive:{name ..}`: the macro stops -/
  | dirMore {d s c run t r rest} : LongestKebab c run (t :: r) →
      ReadsAttrs (.ident d :: .punct ':' s :: .group .brace c :: rest)
        (rawIssues run ++ [.stop (.synAbort (.extraTokens .brace))]) [] []
  /-- `directive:{..}` otherwise: the macro stops -/
  | dirNoName {d s c rest} : ¬ NameStart c →
      ReadsAttrs (.ident d :: .punct ':' s :: .group .brace c :: rest)
        [.stop (.synAbort .expectedKebab)] [] []
  /-- `directive:` without a key: the macro stops -/
  | dirNoKey {d s ts} : ¬ NameStart ts → (∀ x r, ts ≠ .lit (.str x) :: r) →
      (∀ c r, ts ≠ .group .brace c :: r) →
      ReadsAttrs (.ident d :: .punct ':' s :: ts) [.stop (.synAbort .expectedKebab)] [] []
  /-- `directive:{name}:` without a modifier: the macro stops -/
  | dirShortNoModifier {d s c s' rest} : AllName c → (∀ i r, rest ≠ .ident i :: r) →
      ReadsAttrs (.ident d :: .punct ':' s :: .group .brace c :: .punct ':' s' :: rest)
        (rawIssues c ++ (nameIssues (kebabText c) ++ [.stop (.synAbort .expectedIdent)])) [] []
  /-- `directive:key:` without a modifier: the macro stops -/
  | dirNoModifier {d s ts ks key s' rest} : ReadsKey ts ks key (.punct ':' s' :: rest) →
      (∀ i r, rest ≠ .ident i :: r) →
      ReadsAttrs (.ident d :: .punct ':' s :: ts) (ks ++ [.stop (.synAbort .expectedIdent)]) [] []
  /-- other braces that start with a name: the name is looked at in vain -/
  | brace {c run t r rest} : LongestKebab c run (t :: r) →
      ReadsAttrs (.group .brace c :: rest) (rawIssues run) [] (.group .brace c :: rest)
  /-- anything else -/
  | done {ts} : ¬ NameStart ts → (∀ c r, ts = .group .brace c :: r → ¬ NameStart c ∧ ¬ IsSpread c) →
      ReadsAttrs ts [] [] ts

/-! ### tags -/

/-- The stream after its first token; a lifetime counts as one. -/
def afterFirst : Toks → Toks
  | .punct '\'' .joint :: .ident _ :: r => r
  | _ :: r => r
  | [] => []

/-- The tag is taken for a path. -/
def PathStart (ts : Toks) : Prop :=
  StartsColons ts ∨ StartsColons (afterFirst ts) ∨ StartsAngle (afterFirst ts)

/-- A tag. -/
inductive ReadsTag (pp : PathParser) : Toks → List Issue → Tag → Toks → Prop
  | path {ts p rest} : PathStart ts → pp.run ts = (some p, rest) → ReadsTag pp ts [] (.component p) rest
  | name {ts run rest tag} : ¬ PathStart ts → LongestKebab ts run rest → tagOf (kebabOf run) = some tag →
      ReadsTag pp ts (rawIssues run) tag rest
  /-- the name cannot be an identifier -/
  | crash {ts run rest tag} : ¬ PathStart ts → LongestKebab ts run rest → tagOf (kebabOf run) = none →
      ReadsTag pp ts (rawIssues run ++ [.crash]) tag []

/-- No tag: the error, and where it is noticed. -/
inductive NoTag (pp : PathParser) : Toks → Err → Toks → Prop
  | path {ts rest} : PathStart ts → pp.run ts = (none, rest) → NoTag pp ts .badPath rest
  | name {ts} : ¬ PathStart ts → ¬ NameStart ts → NoTag pp ts .expectedKebab ts

/-! ### children -/

/-- An element (`false`) or slot (`true`) starts here; the tag comes next. -/
inductive ElemStart : Toks → Bool → Toks → Prop
  | slot {s r} : ¬ StartsColons (.punct ':' s :: r) →
      ElemStart (.ident (plain c!"slot") :: .punct ':' s :: r) true r
  | elem {i r} : NoValue (.ident i :: r) → ¬ SlotStart (.ident i :: r) →
      ElemStart (.ident i :: r) false (.ident i :: r)

/-- The child. -/
def asChild (isSlot : Bool) (e : Element) : Child := if isSlot then .slot e else .elem e

/-- There is no pipe among these tokens. -/
def NoPipe (ts : Toks) : Prop := ∀ t ∈ ts, ∀ s, t ≠ .punct '|' s

/-- Closure arguments are kept with their pipes. -/
def piped (args : Toks) : Toks := .punct '|' .alone :: (args ++ [.punct '|' .alone])

mutual
/-- The end of an element: closure arguments and children. -/
inductive ReadsEnd (pp : PathParser) :
    Toks → List Issue → Option Toks → Option (List Child) → Toks → Prop
  | semi {s rest} : ReadsEnd pp (.punct ';' s :: rest) [] none none rest
  | block {d c rest is cs} : d ≠ .bracket → ReadsChildren pp c is cs →
      ReadsEnd pp (.group d c :: rest) is none (some cs) rest
  | closure {s args s' d c rest is cs} : NoPipe args → d ≠ .bracket → ReadsChildren pp c is cs →
      ReadsEnd pp (.punct '|' s :: (args ++ .punct '|' s' :: .group d c :: rest)) is
        (some (piped args)) (some cs) rest
  /-- the input is over -/
  | nothing : ReadsEnd pp [] [.report .unterminated] none none []
  /-- no block after the arguments -/
  | noBlock {s args s' rest} : NoPipe args → (∀ d c r, rest = .group d c :: r → d = .bracket) →
      ReadsEnd pp (.punct '|' s :: (args ++ .punct '|' s' :: rest)) [.report .expectedChildrenBlock]
        (some (piped args)) none rest
  /-- anything else -/
  | other {t r} : (∀ s, t ≠ .punct ';' s) → (∀ s, t ≠ .punct '|' s) →
      (∀ d c, t = .group d c → d = .bracket) →
      ReadsEnd pp (t :: r) [.report .unknownAttribute, .report .childrenNotFound] none none (t :: r)

/-- All children. -/
inductive ReadsChildren (pp : PathParser) : Toks → List Issue → List Child → Prop
  | nil : ReadsChildren pp [] [] []
  | value {v : CVal} {rest is cs} : (∀ b, v = .bool b → ∀ c r, rest ≠ .group .bracket c :: r) →
      v.ChildWf → ReadsChildren pp rest is cs →
      ReadsChildren pp (v.toks ++ rest) is (.value v.ast :: cs)
  /-- a literal that is not a string is reported and read as an empty one -/
  | literal {v : CVal} {rest is cs} : (∀ b, v = .bool b → ∀ c r, rest ≠ .group .bracket c :: r) →
      ¬ v.ChildWf → ReadsChildren pp rest is cs →
      ReadsChildren pp (v.toks ++ rest) (.report .nonStringChild :: is)
        (.value (.lit (.tok (.str []))) :: cs)
  /-- an element or slot -/
  | elem {ts isSlot r0 ti tag r1 si sels r2 ai attrs r3 ei args block r4 is cs} :
      ElemStart ts isSlot r0 → ReadsTag pp r0 ti tag r1 → ReadsSels r1 si sels r2 →
      ReadsAttrs r2 ai attrs r3 → ReadsEnd pp r3 ei args block r4 → ReadsChildren pp r4 is cs →
      ReadsChildren pp ts (ti ++ (si ++ (ai ++ (ei ++ is))))
        (asChild isSlot (.mk tag sels attrs args block) :: cs)
  /-- closure arguments that are not closed: the rest is not read -/
  | unclosed {ts isSlot r0 ti tag r1 si sels r2 ai attrs s args} :
      ElemStart ts isSlot r0 → ReadsTag pp r0 ti tag r1 → ReadsSels r1 si sels r2 →
      ReadsAttrs r2 ai attrs (.punct '|' s :: args) → NoPipe args →
      ReadsChildren pp ts (ti ++ (si ++ (ai ++ [.report (.synError .closureNotClosed)]))) []
  /-- no tag, before a semicolon: only that is reported -/
  | noTagSemi {ts isSlot r0 e s rest is cs} :
      ElemStart ts isSlot r0 → NoTag pp r0 e (.punct ';' s :: rest) → ReadsChildren pp rest is cs →
      ReadsChildren pp ts (.report .extraSemicolon :: is) cs
  /-- no tag otherwise: the rest is not read -/
  | noTag {ts isSlot r0 e rest} :
      ElemStart ts isSlot r0 → NoTag pp r0 e rest → (∀ s r, rest ≠ .punct ';' s :: r) →
      ReadsChildren pp ts [.report (.synError e)] []
  /-- a stray semicolon -/
  | semi {s rest is cs} : ReadsChildren pp rest is cs →
      ReadsChildren pp (.punct ';' s :: rest) (.report .extraSemicolon :: is) cs
  /-- anything else: the rest is not read -/
  | other {t r} : NoValue (t :: r) → t.isIdent = false → (∀ s, t ≠ .punct ';' s) →
      ReadsChildren pp (t :: r) [.report (.synError .invalidChild)] []
end

end Mview
