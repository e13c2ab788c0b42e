import Verif.Lemmas.Made
import Verif.Props.Located
/-
C44: places are only passed on.
-/

namespace Mview.Loc
open Lexer
variable {σ τ : Type} [Spans σ] [Spans τ] {pp : Mview.PathParser}

/-- C44: the macro treats all places alike.  If those in the input are changed in any way that
respects the call site and joining (they may also be identified), those in the result change in the
same way, and nothing else does. -/
theorem places_move (m : σ → τ) [Move m] {lp : PathParser σ pp} {lp' : PathParser τ pp}
    (hl : lp.MovesTo m lp') (s : Sched) (ts : Toks σ) :
    mview lp' s (moveToks m ts) = (mview lp s ts).move m :=
  mview_move_eq hl s ts

/-- C44: no places are made up.  Each place in the result, be it of a token or of an error, is the call
site, or one in the input, or several of these joined. -/
theorem places_made {lp : PathParser σ pp} (h : lp.Honest) (s : Sched) (ts : Toks σ) (p : σ)
    (hp : p ∈ (mview lp s ts).spans) : Made (toksSpans ts) p :=
  mview_made h s ts hp

/-- C44: so where nothing can be joined, as on stable Rust, each place in the result is the call site or
that of a token of the input. -/
theorem places_given (hj : ∀ a b : σ, Spans.join a b = none) {lp : PathParser σ pp} (h : lp.Honest)
    (s : Sched) (ts : Toks σ) (p : σ) (hp : p ∈ (mview lp s ts).spans) :
    p = callSite ∨ p ∈ toksSpans ts := by
  cases mview_made h s ts hp with
  | callSite => exact .inl rfl
  | given hp => exact .inr hp
  | join _ _ e => rw [hj] at e; cases e

/-- C44: and where places are ranges of a text, each range in the result begins where a range of the
input begins and ends where one ends. -/
theorem ranges_given {lp : PathParser Rng pp} (h : lp.Honest) (s : Sched) (ts : Toks Rng) (lo hi : Nat)
    (hp : .range lo hi ∈ (mview lp s ts).spans) :
    (∃ hi', .range lo hi' ∈ toksSpans ts) ∧ ∃ lo', .range lo' hi ∈ toksSpans ts := by
  have key : ∀ p : Rng, Made (toksSpans ts) p → ∀ lo hi, p = .range lo hi →
      (∃ hi', .range lo hi' ∈ toksSpans ts) ∧ ∃ lo', .range lo' hi ∈ toksSpans ts := by
    intro p hp
    induction hp with
    | callSite => intro lo hi e; cases e
    | given hp => intro lo hi e; subst e; exact ⟨⟨hi, hp⟩, lo, hp⟩
    | @join a b c _ _ e iha ihb =>
      intro lo hi e'
      subst e'
      rcases a with _ | ⟨a, a'⟩ <;> rcases b with _ | ⟨b, b'⟩ <;> try cases e
      refine ⟨?_, ?_⟩
      · by_cases hab : a ≤ b
        · rw [Nat.min_eq_left hab]; exact (iha _ _ rfl).1
        · rw [Nat.min_eq_right (by omega)]; exact (ihb _ _ rfl).1
      · by_cases hab : a' ≤ b'
        · rw [Nat.max_eq_right hab]; exact (ihb _ _ rfl).2
        · rw [Nat.max_eq_left (by omega)]; exact (iha _ _ rfl).2
  exact key _ (mview_made h s ts hp) lo hi rfl

/-- The same place with `n` more characters before it. -/
def Rng.shift (n : Nat) : Rng → Rng
  | .callSite => .callSite
  | .range lo hi => .range (n + lo) (n + hi)

instance (n : Nat) : Move (Rng.shift n) where
  callSite := rfl
  joinOr a b := by
    rcases a with _ | ⟨a, a'⟩ <;> rcases b with _ | ⟨b, b'⟩ <;> try rfl
    show Rng.range (min (n + a) (n + b)) (max (n + a') (n + b')) = Rng.range (n + min a b) (n + max a' b')
    rw [Nat.add_min_add_left, Nat.add_max_add_left]

/-- C44: in particular it does not matter where in the file the macro is used. -/
theorem places_shift (n : Nat) {lp : PathParser Rng pp} (hl : lp.MovesTo (Rng.shift n) lp) (s : Sched)
    (ts : Toks Rng) : mview lp s (moveToks (Rng.shift n) ts) = (mview lp s ts).move (Rng.shift n) :=
  mview_move_eq hl s ts

/-- Two texts, one with more space at the beginning. -/
example : src!"    ab \"x\" Abc { {y} }".run = src!"ab \"x\" Abc { {y} }".run.move (Rng.shift 4) :=
  places_shift 4 (simplePaths_moves _) (fun _ => []) src!"ab \"x\" Abc { {y} }".toks

/-- The error about the element that is not finished covers it; none of the tokens is there. -/
example : .range 0 6 ∈ src!"ab \"x\"".run.spans ∧ .range 0 6 ∉ toksSpans src!"ab \"x\"".toks := by
  decide

example : Made (toksSpans src!"ab \"x\"".toks) (.range 0 6) :=
  places_made simplePaths_honest (fun _ => []) src!"ab \"x\"".toks _ (by decide)

example (lo hi : Nat) (s : Sched) (h : .range lo hi ∈ (mview simplePaths s src!"ab \"x\"".toks).spans) :
    lo ∈ [0, 3] ∧ hi ∈ [2, 6] := by
  have := ranges_given simplePaths_honest s _ _ _ h
  obtain ⟨⟨a, ha⟩, b, hb⟩ := this
  simp [toksSpans, TT.spans] at ha hb ⊢
  omega

end Mview.Loc
