import Verif.Lemmas.FewErrors
import Verif.Lemmas.SimplePaths
/-
C57: there are at most three errors for every two tokens, however deeply they are nested.
-/

namespace Mview
open Lex

variable {pp : PathParser} {s : Sched} {ts : Toks} {ds : List Diag}

/-- At most three errors for two tokens, unless there are generics like `Fn(..)`. -/
theorem few_errors (hl : LexicalToks ts) (h : (mview pp s ts).reported = some ds) (hf : .functionGenerics ∉ ds) :
    2 * ds.length ≤ 3 * toksMany ts := by
  have := errors_bound hl h
  rwa [if_neg hf] at this

/-- With such generics there is at most one more error. -/
theorem few_errors_all (hl : LexicalToks ts) (h : (mview pp s ts).reported = some ds) :
    2 * ds.length ≤ 3 * toksMany ts + 2 := by
  have := errors_bound hl h
  split at this <;> omega

/-- There is nothing to be said about nothing. -/
theorem few_errors_nil : (mview pp s []).reported = some [] := rfl

/-! ### no better bound -/

/-- the shortest way to be wrong -/
def wrongs : Nat → Toks
  | 0 => []
  | n + 1 => t!"p 3" ++ wrongs n

def wrongErrors : Nat → List Diag
  | 0 => []
  | n + 1 => [.unknownAttribute, .childrenNotFound, .nonStringChild] ++ wrongErrors n

theorem wrongs_many (n : Nat) : toksMany (wrongs n) = 2 * n := by
  induction n with
  | zero => rfl
  | succ n ih =>
    rw [wrongs, many_append, ih, show toksMany t!"p 3" = 2 from rfl]
    omega

theorem wrongErrors_length (n : Nat) : (wrongErrors n).length = 3 * n := by
  induction n with
  | zero => rfl
  | succ n ih => simp only [wrongErrors, List.length_append, ih, List.length_cons, List.length_nil]; omega

theorem wrongErrors_kinds (n : Nat) : .functionGenerics ∉ wrongErrors n := by
  induction n with
  | zero => simp [wrongErrors]
  | succ n ih => simpa [wrongErrors] using ih

theorem wrongs_lexical (n : Nat) : LexicalToks (wrongs n) := by
  induction n with
  | zero => exact lexical_of rfl
  | succ n ih => exact lexical_append.mpr ⟨lexical_of rfl, ih⟩

theorem wrongs_read (n : Nat) : ∃ cs, ReadsChildren pp (wrongs n) ((wrongErrors n).map .report) cs ∧
    rootIssues cs = [] := by
  induction n with
  | zero => exact ⟨[], .nil, rfl⟩
  | succ n ih =>
    obtain ⟨cs, hr, hc⟩ := ih
    have hv : NoValue (.ident (plain c!"p") :: .lit (.int c!"3") :: wrongs n) := by
      intro v r
      cases v with
      | bool b => cases b <;> simp [CVal.toks, plain]
      | bracket p => cases p <;> simp [CVal.toks]
      | _ => simp [CVal.toks]
    have hk : LongestKebab (.ident (plain c!"p") :: .lit (.int c!"3") :: wrongs n) [.ident (plain c!"p")]
        (.lit (.int c!"3") :: wrongs n) := by
      refine longest_stops (r := []).mpr ⟨(isKebab_cons_iff _ _).mpr ⟨.inl rfl, rfl⟩, ?_⟩
      intro t h
      cases h
      exact ⟨rfl, fun _ => rfl⟩
    refine ⟨_, .elem (isSlot := false) (.elem hv ?_) (.name ?_ hk rfl) (.done ?_) (.done ?_ ?_)
        (.other ?_ ?_ ?_) (.literal (v := .lit (.int c!"3")) ?_ ?_ hr), ?_⟩
    · simp [SlotStart]
    · simp [PathStart, StartsColons, StartsAngle, afterFirst]
    · simp
    · rintro ⟨t, r, h, h'⟩
      cases h
      rcases h' with h' | h' <;> cases h'
    · simp
    · simp
    · simp
    · simp
    · simp
    · exact id
    · revert hc
      simp only [rootIssues, asChild]
      simp only [List.any_cons, Child.isSlot, Bool.false_or, Bool.false_eq_true, if_false]
      intro hc
      simp only [nodesIssues, Value.issues, List.nil_append]
      exact hc

/-- This many errors are possible. -/
theorem few_errors_sharp (n : Nat) : toksMany (wrongs n) = 2 * n ∧
    ∃ ds, (mview pp s (wrongs n)).reported = some ds ∧ .functionGenerics ∉ ds ∧ ds.length = 3 * n := by
  obtain ⟨cs, hr, hc⟩ := wrongs_read (pp := pp) n
  refine ⟨wrongs_many n, wrongErrors n, ?_, ?_, wrongErrors_length n⟩
  · rw [is_reported (reading_exact (s := s) (wrongs_lexical n) hr), hc, List.append_nil]
    have := verdict_list (ds := wrongErrors n) (is := [])
    simpa [verdict, Verdict.list] using this
  · exact wrongErrors_kinds n

/-! ### examples -/

/-- a name that is read twice, and an element that is not terminated -/
example : (mview simplePaths (fun _ => []) t!"div { p-r#b 3 }").reported =
    some [.rawInKebab ⟨true, c!"b"⟩, .rawInKebab ⟨true, c!"b"⟩, .unknownAttribute, .childrenNotFound, .nonStringChild] := by
  rfl

example : toksMany t!"div { p-r#b 3 }" = 6 := rfl

example : 2 * 5 ≤ 3 * toksMany t!"div { p-r#b 3 }" :=
  few_errors (pp := simplePaths) (s := fun _ => []) (ts := t!"div { p-r#b 3 }") (ds := [.rawInKebab ⟨true, c!"b"⟩,
    .rawInKebab ⟨true, c!"b"⟩, .unknownAttribute, .childrenNotFound, .nonStringChild]) (lexical_of rfl) rfl (by simp)

/-- a directive with four errors -/
example : (mview simplePaths (fun _ => []) t!"Foo clone:\"a\":m={x};").reported =
    some [.modifierNotAllowed (plain c!"m"), .expectedIdentifier c!"a", .modifierNotAllowed (plain c!"m"), .cloneValue] := by
  rfl

example : toksMany t!"Foo clone:\"a\":m={x};" = 10 := rfl

/-- code that is not looked at counts as well -/
example : toksMany t!"p { {a + (b)} }" = 7 := rfl

example : (wrongs 2, wrongErrors 2) = (t!"p 3 p 3", [.unknownAttribute, .childrenNotFound, .nonStringChild,
    .unknownAttribute, .childrenNotFound, .nonStringChild]) := rfl

end Mview
