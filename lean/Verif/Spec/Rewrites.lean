import Verif.Spec.Grammar
import Mathlib.Data.List.Forall2
/-
Different ways to write the same tree.
-/

namespace Mview

/-- `name` and `name=true` -/
inductive BoolLong : CAttr → CAttr → Prop
  | refl (a : CAttr) : BoolLong a a
  | bare (name : Toks) (s : Spacing) : BoolLong (.bare name) (.full name s (.bool true))

/-- `{name}` and `name={r#name}`, `dir:{name}` and `dir:name={r#name}`; the second `r#name`
is an identifier, with underscores for dashes. -/
inductive BraceLong : CAttr → CAttr → Prop
  | refl (a : CAttr) : BraceLong a a
  | attr (name : Toks) (s : Spacing) :
    BraceLong (.short name) (.full name s (.block [.ident (identOf name)]))
  | dir (d : Ident) (s : Spacing) (name : Toks) (m : Option (Spacing × Ident)) (s' : Spacing) :
    BraceLong (.dirShort d s name m)
      (.dir d s (.name name) m (some (s', .block [.ident (identOf name)])))

section
variable (R : CAttr → CAttr → Prop) (D : Braces → Braces → Prop)

mutual
/-- Two elements are the same but for attributes related by `R` and delimiters of children
related by `D`, anywhere inside. -/
def CElem.Same : CElem → CElem → Prop
  | .mk tag sels attrs fin, .mk tag' sels' attrs' fin' =>
    tag = tag' ∧ sels = sels' ∧ List.Forall₂ R attrs attrs' ∧ fin.Same fin'
def CEnd.Same : CEnd → CEnd → Prop
  | .semi s, .semi s' => s = s'
  | .block args d cs, .block args' d' cs' => args = args' ∧ D d d' ∧ childrenSame cs cs'
  | _, _ => False
def CChild.Same : CChild → CChild → Prop
  | .value v, .value v' => v = v'
  | .elem e, .elem e' => e.Same e'
  | .slot s e, .slot s' e' => s = s' ∧ e.Same e'
  | _, _ => False
def childrenSame : List CChild → List CChild → Prop
  | [], [] => True
  | c :: cs, c' :: cs' => c.Same c' ∧ childrenSame cs cs'
  | _, _ => False
end
end

/-- C06: some of the bare attributes are written `name=true` instead. -/
def BoolsWritten : List CChild → List CChild → Prop := childrenSame BoolLong Eq

/-- C07: some of the shorthands are written out. -/
def ShorthandsWritten : List CChild → List CChild → Prop := childrenSame BraceLong Eq

/-- C08: some of the children blocks have the other delimiters. -/
def BlocksExchanged : List CChild → List CChild → Prop := childrenSame Eq fun _ _ => True

/-- Of `syn::Path::parse`: what follows the path does not matter, as long as it does not
start with `:` or `<`. -/
def PathParser.Local (pp : PathParser) : Prop :=
  ∀ {used p after after'}, pp.run (used ++ after) = (some p, after) →
    (∀ s r, after ≠ .punct ':' s :: r) → (∀ s r, after ≠ .punct '<' s :: r) →
    (∀ s r, after' ≠ .punct ':' s :: r) → (∀ s r, after' ≠ .punct '<' s :: r) →
    pp.run (used ++ after') = (some p, after')

end Mview
