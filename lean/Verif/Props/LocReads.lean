import Verif.Lemmas.LocReadsTotal
import Verif.Lemmas.LocFuel
import Verif.Props.Places
import Verif.Props.Reads
/-
C42: how any input with source spans is read, and where each error is reported.
-/

namespace Mview.Loc
open Lex Lexer

variable {σ : Type} [Spans σ] {pp : Mview.PathParser} {lp : PathParser σ pp} {s : Sched} {ts : Toks σ}
  {is : List (Issue σ)} {cs : List (Child σ)}

/-- C42.  Every input can be read, however malformed. -/
theorem reading_exists (hl : LexicalToks (eraseToks ts)) : ∃ is cs, ReadsChildren lp callSite ts is cs :=
  children_total lp _ callSite ts (Nat.le_refl _) hl

/-- The parser goes through the issues of the reading and ends with its tree. -/
theorem reading_given (hl : LexicalToks (eraseToks ts)) (h : ReadsChildren lp callSite ts is cs) :
    Gives (parseChildren lp ts) is (.ok cs []) := by
  obtain ⟨N, hN⟩ := children_give h hl
  have h1 := (descent_mono lp (Nat.le_max_left (fuelFor (eraseToks ts)) N)).2.2 callSite ts
  rcases h1 with h1 | h1
  · refine absurd ?_ (parseChildren_ne_diverge pp (eraseToks ts))
    rw [← parseChildren_erase lp ts]
    unfold parseChildren
    rw [h1]
    rfl
  · unfold parseChildren
    rw [h1]
    exact hN _ (Nat.le_max_right _ _)

/-- C42.  Whatever the macro is given, its result is determined by a reading of it: first the issues of the
reading, then those of the tree it is read as, each in order and at its place, up to one that stops the
macro. -/
theorem reading_exact (hl : LexicalToks (eraseToks ts)) (h : ReadsChildren lp callSite ts is cs) :
    (mview lp s ts).Is (verdict (is ++ rootIssues cs)) := by
  have hg := reading_given hl h
  have : Shows (mviewImpl lp s ts) (is ++ rootIssues cs) := by
    unfold mviewImpl
    rw [Out.monad_bind]
    refine hg.1.bind' fun ds q hq => ?_
    obtain rfl := hg.2 ds q hq
    refine root_shows (I := noAssumption pp) s cs ?_
    have := parseChildren_wp (I := noAssumption pp) (ts := eraseToks ts) trivial
    rw [← parseChildren_erase lp ts, hq] at this
    exact this.1
  unfold mview
  unfold Shows at this
  generalize verdict _ = v at this
  generalize mviewImpl lp s ts = o at this
  cases o with
  | ret es out =>
    cases v <;> simp only [Out.Is] at this
    subst this
    cases es
    · trivial
    · exact ⟨rfl, rfl⟩
  | abort es =>
    cases v <;> simp only [Out.Is] at this
    subst this
    exact ⟨rfl, rfl⟩
  | panic p => cases v <;> simp only [Out.Is] at this; trivial
  | diverge => cases v <;> simp only [Out.Is] at this

/-! ### examples -/

/-- a name of `n` tokens in an example -/
theorem longRun {ts run rest : Toks σ} (hs : ts = run ++ rest) (hl : toksLexical (eraseToks ts) = true)
    (h : kebabSplit (eraseToks ts) = some (eraseToks run, eraseToks rest)) : LongName ts run rest :=
  ⟨hs, longName hl h⟩

/-- The places of four errors in `div a= ; 3; b |x`: a value is missing where the semicolon is, `3` is not a
string, the semicolon after it is superfluous, and the pipe is not closed. -/
example : let ts := src!"div a= ; 3; b |x".toks
    ReadsChildren simplePaths callSite ts
      [.report (.missingValue false) (.range 7 8), .report .nonStringChild (.range 9 10),
        .report .extraSemicolon (.range 10 11), .report (.synError .closureNotClosed) (.range 14 15)]
      [.elem (.mk (.html ⟨⟨true, c!"div"⟩, .range 0 3⟩) []
          [.kv ⟨⟨c!"a", [.range 4 5]⟩, .block (placeholder (.range 7 8)) (.single (.range 7 8))⟩] none none),
        .value (.lit ⟨.tok (.str []), callSite⟩)] ∧
    src!"div a= ; 3; b |x".complaints = [(.missingValue false, some c!";"), (.nonStringChild, some c!"3"),
      (.extraSemicolon, some c!";"), (.synError .closureNotClosed, some c!"|")] := by
  intro ts
  refine ⟨?_, rfl⟩
  refine .elem (slot := none) (r0 := ts) (ti := []) (r1 := ts.drop 1) (si := []) (r2 := ts.drop 1)
    (ai := [.report (.missingValue false) (.range 7 8)]) (r3 := ts.drop 3) (ei := []) (r4 := ts.drop 4)
    (.elem (noVal rfl) (noSlot rfl)) ?_ (.done (by simp [ts])) ?_ .semi ?_
  · exact .name (run := ts.take 1) (noPath rfl) (longRun rfl rfl rfl) rfl
  · exact .kv (run := (ts.drop 1).take 1) (rest := ts.drop 2)
      (js := [.report (.missingValue false) (.range 7 8)])
      (v := some (.block (placeholder (.range 7 8)) (.single (.range 7 8)))) (longRun rfl rfl rfl)
      (by simp [ts]) (.some (.missing (noVal rfl) (by simp [WordNext, TT.erase])))
      (.done (noStart (by simp [TT.erase, Mview.TT.isIdent, Mview.TT.isDash])) (by simp))
  · refine .literal (l := .tok (.int c!"3")) (p := .range 9 10) (rest := ts.drop 5)
      (.mk (used := [.lit (.int c!"3") (.range 9 10)]) .lit (by simp)) (by simp) (.semi ?_)
    refine .unclosed (slot := none) (r0 := ts.drop 6) (ti := [])
      (tag := .html ⟨⟨true, c!"b"⟩, .range 12 13⟩) (r1 := ts.drop 7) (si := [])
      (sels := []) (r2 := ts.drop 7) (ai := []) (attrs := []) (s := .alone) (p := .range 14 15)
      (args := ts.drop 8) (.elem (noVal rfl) (noSlot rfl)) ?_ (.done (by rintro _ _ _ _ h (rfl | rfl) <;> simp [ts] at h))
      (.done (noStart (by simp [ts, TT.erase, Mview.TT.isIdent, Mview.TT.isDash])) (by simp [ts]))
      (by simp [NoPipe, ts])
    exact .name (run := (ts.drop 6).take 1) (noPath rfl) (longRun rfl rfl rfl) rfl

/-- The end of the input is not a place: an error about it is at the closing brace of the children it is in, or
at the call site. -/
example : src!"div { slot: }".complaints = [(.synError .expectedKebab, some c!"}")] ∧
    src!"slot:".complaints = [(.synError .expectedKebab, none)] := ⟨rfl, rfl⟩

/-- Errors about braces are at the first token between them, or at the closing brace. -/
example : src!"div on:{a b}={c};".complaints = [(.synAbort (.extraTokens .brace), some c!"b")] ∧
    src!"div on:{1}={c};".complaints = [(.synAbort .expectedKebab, some c!"1")] ∧
    src!"div on:{}={c};".complaints = [(.synAbort .expectedKebab, some c!"}")] := ⟨rfl, rfl, rfl⟩

/-- Two errors for what is not an attribute: there, and from the tag up to there. -/
example : src!"div a \"x\" {b}".complaints =
    [(.unknownAttribute, some c!"\"x\""), (.childrenNotFound, some c!"div a \"x\"")] := rfl

/-- The place of a name is that of all of its words. -/
example : src!"{1} my-2x-elem".complaints = [(.unterminated, some c!"my-2x-elem")] := rfl

end Mview.Loc
