import Verif.Spec.Kebab
/-
Inputs that contain none of the things that crash the macro.
-/

namespace Mview

/-- Names that cannot become identifiers (or, for the last two, slot methods). -/
def badNames : List Str :=
  [c!"-", c!"_", c!"self", c!"super", c!"crate", c!"Self", c!"Super", c!"Crate"]

/-- `pos` is what follows some place of `ts`, at any nesting depth outside of square
brackets (which only contain Rust code). -/
inductive Within : Toks → Toks → Prop where
  | here (ts : Toks) : Within ts ts
  | tail {pos : Toks} {t : TT} {ts : Toks} : Within pos ts → Within pos (t :: ts)
  | group {pos inner : Toks} {d : Delim} {ts : Toks} :
    d ≠ .bracket → Within pos inner → Within pos (.group d inner :: ts)

/-- Outside of square brackets there is no identifier or kebab-cased name among
`badNames`, and every `slot:` is followed by a name starting with a capital. -/
structure Tame (ts : Toks) : Prop where
  lexical : ∀ {i r}, Within (.ident i :: r) ts → i.Lexical
  idents : ∀ {i r}, Within (.ident i :: r) ts → i.name ∉ badNames
  names : ∀ {pos run rest}, Within pos ts → LongestKebab pos run rest → kebabText run ∉ badNames
  slots : ∀ {pos s run rest}, Within (.ident ⟨false, c!"slot"⟩ :: .punct ':' s :: pos) ts →
    LongestKebab pos run rest →
      ∃ c cs, kebabText run = c :: cs ∧ 'A'.toNat ≤ c.toNat ∧ c.toNat ≤ 'Z'.toNat

/-- Of `syn::Path::parse`: a path that is a single identifier was written as that
identifier. -/
def PathParser.Honest (pp : PathParser) : Prop :=
  ∀ {ts p rest i}, pp.run ts = (some p, rest) → p.getIdent = some i → ∃ r, ts = .ident i :: r

end Mview
