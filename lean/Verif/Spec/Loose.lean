import Verif.Spec.Opaque
import Verif.Spec.Reads
import Verif.Model.Nightly
/-
C55: what the macro does not look at, whether the input is valid or not.
-/

namespace Mview
variable (R : Toks → Toks → Prop)

/-! ### results -/

/-- Punctuation whose spacing matters: `::`, `..` and `'lifetime` are told from `: :`, `. .` and `' lifetime`. -/
def together : List Char := [':', '.', '\'']

/-- Pieces of code related by `R`, or punctuation with different spacing. -/
inductive Loose : Toks → Toks → Prop
  | code {a a' : Toks} (h : R a a') : Loose a a'
  | space {c : Char} (hc : c ∉ together) (s s' : Spacing) : Loose [.punct c s] [.punct c s']

/-- With the feature `nightly`: the same errors, and expansions that are alike. -/
inductive NightlyResult.Alike : NightlyResult → NightlyResult → Prop
  | done (ds : List Diag) {out out' : Toks} (h : Mview.Alike R out out') : Alike (.done ds out) (.done ds out')
  | panicked (p : PanicSite) : Alike (.panicked p) (.panicked p)

/-! ### inputs -/

/-- The same tokens at every depth, but for
* the spacing of punctuation (other than `:`, `.` and `'`),
* what is in brackets,
* literals such as `'a'`,
* blocks and literals after an `=`, and
* what comes after the `..` in `{..expr}`. -/
inductive Like : Toks → Toks → Prop
  | nil : Like [] []
  | tok (t : TT) {b b' : Toks} (h : Like b b') : Like (t :: b) (t :: b')
  | space {c : Char} (hc : c ∉ together) (s s' : Spacing) {b b' : Toks} (h : Like b b') :
    Like (.punct c s :: b) (.punct c s' :: b')
  | group (d : Delim) {a a' b b' : Toks} (h : Like a a') (h' : Like b b') :
    Like (.group d a :: b) (.group d a' :: b')
  | bracket {a a' b b' : Toks} (h : R a a') (h' : Like b b') :
    Like (.group .bracket a :: b) (.group .bracket a' :: b')
  | other {x x' : Str} (h : R [.lit (.other x)] [.lit (.other x')]) {b b' : Toks} (h' : Like b b') :
    Like (.lit (.other x) :: b) (.lit (.other x') :: b')
  | block (s s' : Spacing) {a a' b b' : Toks} (h : R a a') (h' : Like b b') :
    Like (.punct '=' s :: .group .brace a :: b) (.punct '=' s' :: .group .brace a' :: b')
  | lit (s s' : Spacing) {l l' : Lit} (h : R [.lit l] [.lit l']) {b b' : Toks} (h' : Like b b') :
    Like (.punct '=' s :: .lit l :: b) (.punct '=' s' :: .lit l' :: b')
  | spread (s : Spacing) {a a' b b' : Toks} (h : R a a') (h' : Like b b') :
    Like (.group .brace (.punct '.' .joint :: .punct '.' s :: a) :: b)
      (.group .brace (.punct '.' .joint :: .punct '.' s :: a') :: b')

/-! ### paths -/

/-- The same generics. -/
inductive PathArgs.Alike : PathArgs → PathArgs → Prop
  | none : Alike .none .none
  | angle (turbofish : Bool) {a a' : Toks} (h : Mview.Alike R a a') : Alike (.angle turbofish a) (.angle turbofish a')
  | paren (a a' : Toks) : Alike (.paren a) (.paren a')

/-- The same name, and the same generics. -/
inductive PathSeg.Alike : PathSeg → PathSeg → Prop
  | mk (i : Ident) {a a' : PathArgs} (h : a.Alike R a') : Alike ⟨i, a⟩ ⟨i, a'⟩

/-- The same path, but for code in the generics. -/
inductive Path.Alike : Path → Path → Prop
  | mk (leading : Bool) {ss ss' : List PathSeg} (h : List.Forall₂ (PathSeg.Alike R) ss ss') :
    Alike ⟨leading, ss⟩ ⟨leading, ss'⟩

/-- The same path is found, or none. -/
inductive PathsAlike : Option Path × Toks → Option Path × Toks → Prop
  | path {p p' : Path} {r r' : Toks} (h : p.Alike (Loose R) p') (hr : Like R r r') :
    PathsAlike (some p, r) (some p', r')
  | error {r r' : Toks} (hr : Like R r r') : PathsAlike (none, r) (none, r')

/-- `a` and `a'` are what follows at the same place in `ts` and `ts'`, in groups or not. -/
inductive SamePlace (ts ts' : Toks) : Toks → Toks → Prop
  | here : SamePlace ts ts' ts ts'
  | next {t t' : TT} {a a' : Toks} : SamePlace ts ts' (t :: a) (t' :: a') → SamePlace ts ts' a a'
  | into {d d' : Delim} {g g' a a' : Toks} :
    SamePlace ts ts' (.group d g :: a) (.group d' g' :: a') → SamePlace ts ts' g g'

/-- Wherever there may be a path in `ts`, `syn` finds the same in `ts'`. -/
def PathParser.SameIn (pp : PathParser) (ts ts' : Toks) : Prop :=
  ∀ a a', SamePlace ts ts' a a' → Like R a a' → PathStart a → PathsAlike R (pp.run a) (pp.run a')

end Mview
