import Verif.Lemmas.StepsLower
import Verif.Spec.FewErrors
import Verif.Model.Lex
/-
C60: parsing takes a number of steps proportional to the number of tokens.
-/

namespace Mview.Steps
open Lex

variable {pp : PathParser} {ts : Toks}

mutual
theorem TT.size_many : (t : TT) → t.size = t.many
  | .group _ ts => by simp only [TT.size, TT.many, toksSize_many ts]
  | .ident _ => rfl
  | .punct _ _ => rfl
  | .lit _ => rfl
theorem toksSize_many : (ts : Toks) → toksSize ts = toksMany ts
  | [] => rfl
  | t :: ts => by simp only [toksSize, toksMany, TT.size_many t, toksSize_many ts]
end

/-- The parser that counts its steps is the parser of the macro. -/
theorem counted_parser (pp : PathParser) (ts : Toks) :
    (parseChildren pp ts).2 = Mview.parseChildren pp ts := parse_erase pp ts

/-- At most 76 steps for a token, whatever the tokens are and however they are nested. -/
theorem linear_steps (pp : PathParser) (ts : Toks) : steps pp ts ≤ 76 * toksMany ts + 40 := by
  have h1 := steps_weighs pp ts
  have h2 := weighs_le ts
  rw [toksSize_many] at h2
  omega

/-- The count is not of nothing: every two tokens, groups being one, take at least a step. -/
theorem counted_all {ds : List Diag} {r : PR (List Child)} (h : Mview.parseChildren pp ts = .ret ds r) :
    ts.length ≤ 2 * steps pp ts := steps_lower pp ts h

/-! ### examples -/

set_option maxRecDepth 20000

example : steps simplePaths [] = 1 := rfl
example : steps simplePaths t!"p;" = 38 := rfl
example : toksMany t!"div.a-b-c { p class=\"x\" on:click={f(1)} { \"hi\" } }" = 22 := rfl
example : steps simplePaths t!"div.a-b-c { p class=\"x\" on:click={f(1)} { \"hi\" } }" = 174 := rfl

-- everything that is read or copied counts
example : steps simplePaths t!"A::B<C> {..d(e, f)} ;" = 65 := rfl
example : steps simplePaths t!"For each=[a] |(x, y)| { slot:S { \"b\" } };" = 155 := rfl
example : steps simplePaths t!"input.a #b data-x {c} on:{d}:undelegated prop:e=-1 class:\"f\" style:g=;" = 163 := rfl
example : steps simplePaths t!"Self :: ; (a b c)" = 26 := rfl

-- a block is looked into for a name before it is taken for children, the blocks in it are not
example : steps simplePaths t!"p { p { } }" = 2 * 53 := rfl
example : steps simplePaths t!"p { p { p { p { } } } }" = 4 * 53 := rfl
example : steps simplePaths t!"p { p { p { p { p { p { p { p { } } } } } } } }" = 8 * 53 := rfl

-- what is wrong takes no longer: the rest is skipped
example : steps simplePaths t!"= = = =" = 18 := rfl
example : steps simplePaths t!"p p p p" = 4 * 11 + 32 := rfl

-- names are read again and again, but only those that come first
example : steps simplePaths t!"p { - - - - a = 1 }" = 92 := rfl

end Mview.Steps
