import Verif.Spec.Count
import Verif.Model.Mview
import Mathlib.Data.List.Forall2
/-
C46: the macro does not look at the user's code.  Two inputs that differ in pieces of code only, and
two results that differ in these only.
-/

namespace Mview
variable (R : Toks → Toks → Prop)

/-- The same tokens, but for pieces of code related by `R`, at any depth. -/
inductive Alike : Toks → Toks → Prop
  | nil : Alike [] []
  | tok (t : TT) {b b' : Toks} (h : Alike b b') : Alike (t :: b) (t :: b')
  | group (d : Delim) {a a' b b' : Toks} (h : Alike a a') (h' : Alike b b') :
    Alike (.group d a :: b) (.group d a' :: b')
  | code {a a' b b' : Toks} (h : R a a') (h' : Alike b b') : Alike (a ++ b) (a' ++ b')

/-- The results are of the same kind, errors are the same, expansions are alike. -/
inductive MacroResult.Alike : MacroResult → MacroResult → Prop
  | tokens {out out' : Toks} (h : Mview.Alike R out out') : Alike (.tokens out) (.tokens out')
  | errors (ds : List Diag) (dummy : Toks) : Alike (.errors ds dummy) (.errors ds dummy)
  | panicked (p : PanicSite) : Alike (.panicked p) (.panicked p)

/-! ### inputs -/

/-- The literal is a string. -/
def Lit.isStr : Lit → Bool
  | .str _ => true
  | _ => false

/-- The values have the same form but different code. -/
inductive CVal.Alike : CVal → CVal → Prop
  | refl (v : CVal) : Alike v v
  | lit {l l' : Lit} (hs : l.isStr = l'.isStr) (h : R [.lit l] [.lit l']) : Alike (.lit l) (.lit l')
  | block {a a' : Toks} (h : R a a') : Alike (.block a) (.block a')
  | bracket (pfx : Option Ident) {a a' : Toks} (h : R a a') : Alike (.bracket pfx a) (.bracket pfx a')

/-- The attributes have the same form but different code. -/
inductive CAttr.Alike : CAttr → CAttr → Prop
  | refl (a : CAttr) : Alike a a
  | full (name : Toks) (s : Spacing) {v v' : CVal} (h : v.Alike R v') :
    Alike (.full name s v) (.full name s v')
  | dir (d : Ident) (s : Spacing) (key : CKey) (m : Option (Spacing × Ident)) (s' : Spacing)
    {v v' : CVal} (h : v.Alike R v') : Alike (.dir d s key m (some (s', v))) (.dir d s key m (some (s', v')))
  | spread (s : Spacing) {e e' : Toks} (h : R e e') : Alike (.spread s e) (.spread s e')

/-- Closure arguments; those put in their place must not contain a `|` either. -/
inductive ArgsAlike : Option (Spacing × Toks × Spacing) → Option (Spacing × Toks × Spacing) → Prop
  | refl (args : Option (Spacing × Toks × Spacing)) : ArgsAlike args args
  | code (s s' : Spacing) {a a' : Toks} (h : R a a') (hp : ∀ t ∈ a', t.isPipe = false) :
    ArgsAlike (some (s, a, s')) (some (s, a', s'))

mutual
/-- The elements are the same but for the code in them. -/
def CElem.Alike : CElem → CElem → Prop
  | .mk tag sels attrs fin, .mk tag' sels' attrs' fin' =>
    tag = tag' ∧ sels = sels' ∧ List.Forall₂ (CAttr.Alike R) attrs attrs' ∧ fin.Alike fin'
/-- The same but for code. -/
def CEnd.Alike : CEnd → CEnd → Prop
  | .semi s, .semi s' => s = s'
  | .block args d cs, .block args' d' cs' => ArgsAlike R args args' ∧ d = d' ∧ childrenAlike cs cs'
  | _, _ => False
/-- The same but for code. -/
def CChild.Alike : CChild → CChild → Prop
  | .value v, .value v' => v.Alike R v'
  | .elem e, .elem e' => e.Alike e'
  | .slot s e, .slot s' e' => s = s' ∧ e.Alike e'
  | _, _ => False
/-- The same but for code. -/
def childrenAlike : List CChild → List CChild → Prop
  | [], [] => True
  | c :: cs, c' :: cs' => c.Alike c' ∧ childrenAlike cs cs'
  | _, _ => False
end

/-! ### gaps

Literals like `'1'` mark places where code is to be put in: `f c!"'1'"`. -/

mutual
/-- Put code in the places of the marks. -/
def TT.fill (f : Str → Option Toks) : TT → Toks
  | .ident i => [.ident i]
  | .punct c s => [.punct c s]
  | .lit (.other x) => (f x).getD [.lit (.other x)]
  | .lit l => [.lit l]
  | .group d ts => [.group d (fill f ts)]
/-- Put code in the places of the marks. -/
def fill (f : Str → Option Toks) : Toks → Toks
  | [] => []
  | t :: ts => t.fill f ++ fill f ts
end

/-- The mark, and what is put in its place. -/
def GapFor (f : Str → Option Toks) (a a' : Toks) : Prop := ∃ x, a = [.lit (.other x)] ∧ f x = some a'

/-- There are no marks. -/
def NoMarks (f : Str → Option Toks) (ts : Toks) : Prop :=
  ∀ x, f x ≠ none → occ (.lit (.other x)) ts = 0

end Mview
