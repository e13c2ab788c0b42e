import Verif.Spec.Count
/-
C37: what generated code may refer to.
-/

namespace Mview
open Lex

/-- Keywords and the like. -/
def keywords : List Str := [c!"move", c!"let", c!"true", c!"false"]

/-- The lints that are switched off. -/
def lints : List Str := [c!"unused_braces", c!"unreachable_code"]

/-- `Hygienic U inPath ts`: the tokens consist of pieces written by the user (`U`) and of generated code
that only refers to paths starting with `::leptos` or `::std`, methods and keywords.
`inPath`: the tokens come directly after such a path. -/
inductive Hygienic (U : Toks → Prop) : Bool → Toks → Prop where
  | nil : Hygienic U false []
  /-- code or a name written by the user -/
  | user {u r : Toks} : U u → Hygienic U false r → Hygienic U false (u ++ r)
  /-- `::leptos` or `::std`, starting a path -/
  | root {i : Ident} {s : Spacing} {r : Toks} : i = plain c!"leptos" ∨ i = plain c!"std" →
      Hygienic U true r → Hygienic U false (.punct ':' .joint :: .punct ':' s :: .ident i :: r)
  /-- a further segment of a path -/
  | seg {i : Ident} {s : Spacing} {r : Toks} : Hygienic U true r →
      Hygienic U true (.punct ':' .joint :: .punct ':' s :: .ident i :: r)
  /-- the end of a path -/
  | fin {r : Toks} : Hygienic U false r → Hygienic U true r
  /-- a method -/
  | method {i : Ident} {s : Spacing} {r : Toks} : Hygienic U false r →
      Hygienic U false (.punct '.' s :: .ident i :: r)
  | keyword {k : Str} {r : Toks} : k ∈ keywords → Hygienic U false r →
      Hygienic U false (.ident (plain k) :: r)
  /-- a string -/
  | str {t : Str} {r : Toks} : Hygienic U false r → Hygienic U false (.lit (.str t) :: r)
  /-- punctuation -/
  | punct {c : Char} {s : Spacing} {r : Toks} : Hygienic U false r → Hygienic U false (.punct c s :: r)
  /-- a group -/
  | group {d : Delim} {t r : Toks} : Hygienic U false t → Hygienic U false r →
      Hygienic U false (.group d t :: r)
  /-- `#[allow(..)]` -/
  | lint {l : Str} {s : Spacing} {r : Toks} : l ∈ lints → Hygienic U false r → Hygienic U false
      (.punct '#' s :: .group .bracket [.ident (plain c!"allow"),
        .group .paren [.ident (plain l)]] :: r)
  /-- `let __x = ();`, a variable not used afterwards -/
  | unused {s s' : Spacing} {r : Toks} : Hygienic U false r → Hygienic U false
      (.ident (plain c!"let") :: .ident (plain c!"__x") :: .punct '=' s :: .group .paren [] ::
        .punct ';' s' :: r)
  /-- `::builder`, a function of a slot's type, after the type as written by the user -/
  | builder {u r : Toks} {s : Spacing} : U u → Hygienic U false r → Hygienic U false
      (u ++ (.punct ':' .joint :: .punct ':' s :: .ident (plain c!"builder") :: r))
  /-- `<[_]>::into_vec`, a method of slices -/
  | intoVec {s₁ s₂ s₃ : Spacing} {r : Toks} : Hygienic U false r → Hygienic U false
      (.punct '<' s₁ :: .group .bracket [.ident (plain c!"_")] :: .punct '>' s₂ ::
        .punct ':' .joint :: .punct ':' s₃ :: .ident (plain c!"into_vec") :: r)

/-! ### names that can be captured -/

/-- How far a token before an identifier makes it a segment of a path or a method: nothing,
one colon, two colons, a dot. -/
inductive Before where
  | none | colon | colons | dot

def Before.next : Before → Char → Before
  | _, '.' => .dot
  | .colon, ':' => .colons
  | .colons, ':' => .colons
  | _, ':' => .colon
  | _, _ => .none

mutual
/-- The identifiers in a token tree not directly after `::` or `.`. -/
def TT.loose (b : Before) : TT → List Ident
  | .ident i => match b with
    | .colons => []
    | .dot => []
    | _ => [i]
  | .group _ t => loose .none t
  | _ => []
/-- The identifiers, at any depth, that are not directly after `::` or `.`: what could be captured by
a definition of the user. -/
def loose : Before → Toks → List Ident
  | _, [] => []
  | b, .punct c s :: r => TT.loose b (.punct c s) ++ loose (b.next c) r
  | b, .ident i :: r => TT.loose b (.ident i) ++ loose .none r
  | b, .lit l :: r => TT.loose b (.lit l) ++ loose .none r
  | b, .group d t :: r => TT.loose b (.group d t) ++ loose .none r
end

mutual
/-- All identifiers in a token tree. -/
def TT.idents : TT → List Ident
  | .ident i => [i]
  | .group _ t => idents t
  | _ => []
/-- All identifiers, at any depth. -/
def idents : Toks → List Ident
  | [] => []
  | x :: r => x.idents ++ idents r
end

/-- The identifiers of generated code that are neither methods nor in a path. -/
def ownNames : List Str := keywords ++ lints ++ [c!"allow", c!"__x", c!"_"]

/-! ### what the user wrote -/

/-- The names of functions and variables in a directive: `use:function`, `clone:variable`. -/
def Directive.names (d : Directive) : List Toks :=
  if d.dir = plain c!"use" ∨ d.dir = plain c!"clone" then
    match d.key.asIdent with
    | some i => [[.ident i]]
    | none => []
  else []

/-- The code and names in an attribute. -/
def Attr.pieces : Attr → List Toks
  | .kv a => [a.value.code]
  | .directive d => (d.value.map Value.code).toList ++ d.names
  | .spread e => [e]

/-- The path of a component (with the turbofish). -/
def Tag.pieces : Tag → List Toks
  | .component p => p.means.toList
  | _ => []

mutual
/-- The code and names in an element. -/
def Element.pieces : Element → List Toks
  | .mk tag _ attrs args none => tag.pieces ++ attrs.flatMap Attr.pieces ++ args.toList
  | .mk tag _ attrs args (some cs) =>
    tag.pieces ++ attrs.flatMap Attr.pieces ++ args.toList ++ childrenPieces cs
/-- The code and names in some children. -/
def childrenPieces : List Child → List Toks
  | [] => []
  | .value v :: cs => v.code :: childrenPieces cs
  | .elem e :: cs => e.pieces ++ childrenPieces cs
  | .slot e :: cs => e.pieces ++ childrenPieces cs
end

end Mview
