import Verif.Model.SynPath
import Verif.Spec.Advice
import Verif.Spec.Mentions
import Verif.Spec.Rewrites
import Verif.Spec.Size
import Verif.Spec.Tame
/-
C62: what is assumed of the grammar of generic arguments; a simple such grammar for the examples.
-/

namespace Mview

/-- These tokens come after a generic argument, or after an incomplete one. -/
def TT.EndsArg (t : TT) : Prop := ∃ c s, t = .punct c s ∧ (c = ',' ∨ c = '>' ∨ c = ';')

/-- Of `syn::GenericArgument::parse`: it does not look at what comes after the end of the argument. -/
def ArgParser.Local (ga : ArgParser) : Prop :=
  ∀ {used t a after after'}, t.EndsArg → ga.run (used ++ t :: after) = (some a, t :: after) →
    ga.run (used ++ t :: after') = (some a, t :: after')

/-- Of `syn::GenericArgument::parse`: what comes after a `;` does not matter if it fails in front of it. -/
def ArgParser.FailsLocally (ga : ArgParser) : Prop :=
  ∀ {used s rest rest'}, ga.run (used ++ .punct ';' s :: rest) = (none, .punct ';' s :: rest) →
    ga.run (used ++ .punct ';' s :: rest') = (none, .punct ';' s :: rest')

/-- Of `syn::GenericArgument::parse`: the identifiers of the argument are in the tokens. -/
def ArgParser.Verbatim (ga : ArgParser) : Prop :=
  ∀ {ts a rest}, ga.run ts = (some a, rest) → ∀ i ∈ idents a, i ∈ idents ts

/-- Of `syn::GenericArgument::parse`: what is in the argument was written there. -/
def ArgParser.Sparing (ga : ArgParser) : Prop :=
  ∀ {ts a rest}, ga.run ts = (some a, rest) → toksLen a + toksLen rest ≤ toksLen ts

/-- No path has generics like `Fn(..)`. -/
def PathParser.NoFunctions (pp : PathParser) : Prop :=
  ∀ {ts p rest}, pp.run ts = (some p, rest) → ∀ seg ∈ p.segs, ∀ inner, seg.args ≠ .paren inner

/-! ### an example -/

/-- Tokens up to a comma or `>` that is not in angle brackets, or `;`; the rest. -/
def argBody : Nat → Toks → Toks × Toks
  | _, [] => ([], [])
  | d, .punct '<' s :: ts => let (a, b) := argBody (d + 1) ts; (.punct '<' s :: a, b)
  | 0, .punct '>' s :: ts => ([], .punct '>' s :: ts)
  | d + 1, .punct '>' s :: ts => let (a, b) := argBody d ts; (.punct '>' s :: a, b)
  | 0, .punct ',' s :: ts => ([], .punct ',' s :: ts)
  | _, .punct ';' s :: ts => ([], .punct ';' s :: ts)
  | d, t :: ts => let (a, b) := argBody d ts; (t :: a, b)

theorem argBody_append : ∀ (d : Nat) (ts : Toks), ts = (argBody d ts).1 ++ (argBody d ts).2 := by
  intro d ts
  fun_induction argBody d ts
  all_goals first
    | rfl
    | (rename_i a b h ih; rw [h] at ih; exact congrArg (_ :: ·) ih)

/-- A simple grammar of generic arguments: anything with balanced angle brackets. -/
def simpleArg : ArgParser where
  run ts := match argBody 0 ts with
    | ([], _) => (none, ts)
    | (t :: a, b) => (some (t :: a), b)
  progress := by
    intro ts a rest h
    split at h
    · simp at h
    · rename_i t a' b hb
      have := argBody_append 0 ts
      rw [hb] at this
      simp only [Prod.mk.injEq] at h
      exact ⟨t :: a', by simp, by rw [← h.2]; exact this⟩
  suffix := by
    intro ts rest h
    split at h
    · simp only [Prod.mk.injEq] at h; exact ⟨[], by simp [h.2]⟩
    · simp at h

end Mview
