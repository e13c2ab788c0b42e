import Verif.Lemmas.SizeReads
import Verif.Props.Nightly
/-
C51: the expansion is at most linear in the input.
-/

namespace Mview
open Lex

variable {pp : PathParser} {s : Sched} {ts out : Toks}

/-! ### `simplePaths` satisfies the assumption -/

theorem angleBody_len (ts : Toks) : ∀ d a b, angleBody d ts = some (a, b) → toksLen a + toksLen b ≤ toksLen ts := by
  induction ts with
  | nil => intro d a b h; simp [angleBody] at h
  | cons t ts ih =>
    intro d a b h
    unfold angleBody at h
    split at h
    · cases d with
      | zero => simp at h; rw [h.1, ← h.2]; simp only [toksLen]; omega
      | succ d =>
        simp only [Option.map_eq_some_iff, Prod.exists, Prod.mk.injEq] at h
        obtain ⟨a', b', h1, rfl, rfl⟩ := h
        have := ih _ _ _ h1
        simp only [toksLen]; omega
    · simp only [Option.map_eq_some_iff, Prod.exists, Prod.mk.injEq] at h
      obtain ⟨a', b', h1, rfl, rfl⟩ := h
      have := ih _ _ _ h1
      simp only [toksLen]; omega
    · simp only [Option.map_eq_some_iff, Prod.exists, Prod.mk.injEq] at h
      obtain ⟨a', b', h1, rfl, rfl⟩ := h
      have := ih _ _ _ h1
      simp only [toksLen]; omega

theorem drop_len (n : Nat) (ts : Toks) : toksLen (ts.drop n) ≤ toksLen ts := by
  have := toksLen_append (ts.take n) (ts.drop n)
  rw [List.take_append_drop] at this
  omega

theorem simpleArgs_len {ts a b} (h : simpleArgs ts = some (a, b)) : a.len + toksLen b ≤ toksLen ts := by
  unfold simpleArgs at h
  split at h
  · simp only [Option.map_eq_some_iff, Prod.exists, Prod.mk.injEq] at h
    obtain ⟨a', b', h1, rfl, rfl⟩ := h
    have := angleBody_len _ _ _ _ h1
    have := drop_len 1 ts
    simp only [PathArgs.len]; omega
  · split at h
    · simp only [Option.map_eq_some_iff, Prod.exists, Prod.mk.injEq] at h
      obtain ⟨a', b', h1, rfl, rfl⟩ := h
      have := angleBody_len _ _ _ _ h1
      have := drop_len 3 ts
      simp only [PathArgs.len]; omega
    · simp at h; rw [← h.1, ← h.2]; simp only [PathArgs.len]; omega

theorem simpleSegs_len : ∀ n ts ss rest, simpleSegs n ts = some (ss, rest) →
    (ss.map fun seg => seg.ident.len + 1 + seg.args.len).sum + toksLen rest ≤ toksLen ts := by
  intro n
  induction n with
  | zero => intro ts ss rest h; simp [simpleSegs] at h
  | succ n ih =>
    intro ts ss rest h
    match ts, h with
    | .ident i :: ts, h =>
      simp only [simpleSegs] at h
      split at h
      · simp at h
      · rename_i a r ha
        have h1 := simpleArgs_len ha
        split at h
        · simp only [Option.map_eq_some_iff, Prod.exists, Prod.mk.injEq] at h
          obtain ⟨a', b', h2, rfl, rfl⟩ := h
          have := ih _ _ _ h2
          have := drop_len 2 r
          simp only [List.map_cons, List.sum_cons, toksLen, TT.len]
          omega
        · simp at h
          rw [← h.1, ← h.2]
          simp only [List.map_cons, List.map_nil, List.sum_cons, List.sum_nil, toksLen, TT.len]
          omega
    | [], h => simp [simpleSegs] at h
    | .punct _ _ :: _, h => simp [simpleSegs] at h
    | .lit _ :: _, h => simp [simpleSegs] at h
    | .group _ _ :: _, h => simp [simpleSegs] at h

theorem simplePaths_sparing : simplePaths.Sparing := by
  intro ts p rest h
  have h : simpleRun ts = (some p, rest) := h
  unfold simpleRun at h
  simp only at h
  split at h
  · rename_i ss r hs
    simp only [Prod.mk.injEq, Option.some.injEq] at h
    obtain ⟨rfl, rfl⟩ := h
    have := simpleSegs_len _ _ _ _ hs
    simp only [Path.len]
    split at this
    · have := drop_len 2 ts; omega
    · exact this
  · simp at h

/-! ### the theorems -/

theorem no_crash_errors {is : List Issue} {ds : List Diag} (h : verdict is = .errors ds) : Issue.crash ∉ is := by
  induction is generalizing ds with
  | nil => simp
  | cons i is ih =>
    cases i with
    | report d =>
      simp only [verdict] at h
      cases hv : verdict is with
      | errors es => have := ih hv; simpa using this
      | _ => rw [hv] at h; simp [Verdict.add] at h
    | _ => simp [verdict] at h

/-- C51.  With the feature `nightly`, whatever the macro is given, what it generates is at most a constant times
as long. -/
theorem nightly_linear {ds : List Diag} (hpp : pp.Sparing) (hl : LexicalToks ts)
    (h : mviewNightly pp s ts = .done ds out) : toksLen out ≤ 1000 * toksLen ts + 200 := by
  obtain ⟨is, cs, hr⟩ := reading_exists (pp := pp) hl
  cases hv : verdict (is ++ rootIssues cs) with
  | errors es =>
    obtain ⟨out', ho, hb⟩ := nightly_sound (s := s) hl hr hv
    rw [ho] at h
    cases h
    have h1 := root_len hb
    have h2 := children_len hpp hr fun hc => no_crash_errors hv (List.mem_append_left _ hc)
    omega
  | stopped es =>
    have := nightly_stopped (s := s) hl hr hv
    rw [this] at h
    cases h
    have : toksLen t!"()" = 4 := by decide
    omega
  | crashed =>
    obtain ⟨p, ho⟩ := nightly_crashed (s := s) hl hr hv
    rw [ho] at h
    cases h

/-- C51.  The expansion is at most a constant times as long as the input. -/
theorem expansion_linear (hpp : pp.Sparing) (hl : LexicalToks ts) (h : mview pp s ts = .tokens out) :
    toksLen out ≤ 1000 * toksLen ts + 200 :=
  nightly_linear hpp hl ((nightly_accepts hl).mpr h)

/-! ### examples -/

set_option maxRecDepth 20000 in
/-- Components inside each other: every level adds the same, although a path occurs twice in the expansion. -/
example : ∃ a b c,
    mview simplePaths (fun _ => []) t!"A;" = .tokens a ∧
    mview simplePaths (fun _ => []) t!"A { A; }" = .tokens b ∧
    mview simplePaths (fun _ => []) t!"A { A { A; } }" = .tokens c ∧
    toksLen t!"A;" = 4 ∧ toksLen t!"A { A; }" = 10 ∧ toksLen t!"A { A { A; } }" = 16 ∧
    toksLen a = 319 ∧ toksLen b - toksLen a = toksLen c - toksLen b :=
  ⟨_, _, _, rfl, rfl, rfl, rfl, rfl, rfl, rfl, rfl⟩

/-- A missing value is replaced by a placeholder that is longer than what was written. -/
example : ∃ ds out, mviewNightly simplePaths (fun _ => []) t!"a b=;" = .done ds out ∧
    toksLen t!"a b=;" = 8 ∧ toksLen out = 202 := ⟨_, _, rfl, rfl, rfl⟩

end Mview
