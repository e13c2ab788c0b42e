import Verif.Spec.Reads
import Verif.Spec.Rewrites
/-
C56: what the help attached to error messages tells the user to do.
-/

namespace Mview
open Lex

/-- The input is edited by `E` in one place: at the top, or in a block at any depth. -/
inductive Somewhere (E : Toks → Toks → Prop) : Toks → Toks → Prop
  | here {ts ts' : Toks} : E ts ts' → Somewhere E ts ts'
  | inside {d : Delim} {c c' : Toks} (pre post : Toks) : d ≠ .bracket → Somewhere E c c' →
      Somewhere E (pre ++ .group d c :: post) (pre ++ .group d c' :: post)

/-- "add a `;` to terminate the element with no children": at the end of the block. -/
def SemiAtEnd (ts ts' : Toks) : Prop := ts' = ts ++ [.punct ';' .alone]

/-- "add a `;` at the end to terminate the element": in front of what was not expected. -/
def SemiBefore (ts ts' : Toks) : Prop :=
  ∃ pre t post, ts = pre ++ t :: post ∧ ts' = pre ++ .punct ';' .alone :: t :: post

/-- "`:undelegated` is the only known modifier": written instead of the modifier `m`. -/
def Undelegated (m : Ident) (ts ts' : Toks) : Prop :=
  ∃ pre s post, ts = pre ++ .punct ':' s :: .ident m :: post ∧
    ts' = pre ++ .punct ':' s :: .ident (plain c!"undelegated") :: post

/-- The input is edited in as many places. -/
inductive Edits (E : Toks → Toks → Prop) : Nat → Toks → Toks → Prop
  | none {ts : Toks} : Edits E 0 ts ts
  | more {n : Nat} {a b c : Toks} : Somewhere E a b → Edits E n b c → Edits E (n + 1) a c

/-- The errors that are reported; none if the macro crashes. -/
def MacroResult.reported : MacroResult → Option (List Diag)
  | .tokens _ => some []
  | .errors ds _ => some ds
  | .panicked _ => none
  | .hangs => none

/-- Of `syn::Path::parse`: what comes after a `;` does not matter to a path that fails in front of it. -/
def PathParser.FailsLocally (pp : PathParser) : Prop :=
  ∀ {used s rest rest'}, pp.run (used ++ .punct ';' s :: rest) = (none, .punct ';' s :: rest) →
    pp.run (used ++ .punct ';' s :: rest') = (none, .punct ';' s :: rest')

/-- Of `syn::Path::parse` and an input: no path in it is followed by `:` or `<`. -/
def PathParser.Greedy (pp : PathParser) (ts : Toks) : Prop :=
  ∀ {x p rest}, Within x ts → PathStart x → pp.run x = (some p, rest) →
    (∀ s r, rest ≠ .punct ':' s :: r) ∧ ∀ s r, rest ≠ .punct '<' s :: r

end Mview
