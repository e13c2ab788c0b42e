import Verif.Loc.Lex
import Verif.Props.RepoSpans
/-
C40: spans do not influence what is generated.
-/

namespace Mview.Loc
open Lexer

/-- C40: the model with spans generates the same code, reports the same errors in the same order
and panics in the same cases as the one without, which is given the tokens only.  So C01 to C39 hold
with spans too. -/
theorem located_agrees {σ : Type} [Spans σ] {pp : Mview.PathParser} (lp : PathParser σ pp)
    (s : Sched) (ts : Toks σ) : (mview lp s ts).erase = Mview.mview pp s (eraseToks ts) :=
  mview_erase lp s ts

/-- C40: two inputs with the same tokens, whatever their spans and whatever spans can be joined, give
the same result up to spans. -/
theorem spans_do_not_matter {σ τ : Type} [Spans σ] [Spans τ] {pp : Mview.PathParser}
    (lp : PathParser σ pp) (lp' : PathParser τ pp) (s : Sched) (ts : Toks σ) (us : Toks τ)
    (h : eraseToks ts = eraseToks us) : (mview lp s ts).erase = (mview lp' s us).erase := by
  rw [mview_erase, mview_erase, h]

/-- Spans as on stable Rust: nothing can be joined. -/
structure Stable where
  at_ : Rng

instance : Spans Stable where
  callSite := ⟨.callSite⟩
  join _ _ := none
  join_self _ := rfl

/-- An element that is not finished: on nightly the error covers the whole element, on stable only
its tag; otherwise the results agree. -/
example : let ts : Toks Stable := [.ident ⟨false, c!"abc"⟩ ⟨.range 0 3⟩, .lit (.str c!"x") ⟨.range 4 7⟩]
    mview simplePaths (fun _ => []) ts = .errors [⟨.unknownAttribute, ⟨.range 4 7⟩⟩,
      ⟨.childrenNotFound, ⟨.range 0 3⟩⟩] [tParen ⟨.callSite⟩ []] := rfl

example : src!"ab \"x\"".run = .errors [⟨.unknownAttribute, .range 3 6⟩,
      ⟨.childrenNotFound, .range 0 6⟩] [tParen .callSite []] := rfl

/-- The same tokens in other places: the results differ in spans only. -/
example : src!"div a = [1];".run ≠ src!"div a=[1];".run ∧
    src!"div a = [1];".run.erase = src!"div a=[1];".run.erase := by
  constructor
  · intro h
    have : src!"div a = [1];".marks (match src!"div a = [1];".run with | .tokens t => t | _ => []) =
      src!"div a = [1];".marks (match src!"div a=[1];".run with | .tokens t => t | _ => []) := by
      rw [h]
    have h1 := congrArg (fun l => (l.map (·.2))) this
    revert h1
    decide
  · exact spans_do_not_matter _ _ _ _ _ rfl

end Mview.Loc
