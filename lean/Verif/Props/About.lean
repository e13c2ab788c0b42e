import Verif.Lemmas.About
import Verif.Props.LocReads
/-
C70: each error is reported at what it is about.
-/

namespace Mview.Loc
open Lex Lexer

variable {σ : Type} [Spans σ] {pp : Mview.PathParser} {lp : PathParser σ pp} {s : Sched} {ts : Toks σ}

/-- C70.  Whatever the macro is given and however many errors it reports, each of them is at the place of what it is
about: tokens of the input of which it is true. -/
theorem errors_about (hl : LexicalToks (eraseToks ts)) (hc : lp.Consumes) {ds : List (LDiag σ)} {out : Toks σ}
    (h : mview lp s ts = .errors ds out) : ∀ d ∈ ds, About lp callSite ts d.sp d.diag := by
  obtain ⟨is, cs, hr⟩ := reading_exists (lp := lp) hl
  have hx := reading_exact (s := s) hl hr
  have hok := children_ok hc hr .start
  obtain ⟨h1, h2⟩ := verdict_ok (hok.1.append fun hg => (root_ok (hok.2 hg)).until)
  rw [h] at hx
  generalize verdict _ = v at hx h1 h2
  cases v with
  | errors es =>
    cases es with
    | nil => cases hx
    | cons e es =>
      obtain ⟨rfl, -⟩ := hx
      exact h1 _ rfl
  | stopped es =>
    obtain ⟨rfl, -⟩ := hx
    exact h2 _ rfl
  | crashed => cases hx

/-! ### examples -/

omit [Spans σ] in
theorem angleBody_tail (ts : Toks σ) : ∀ d a b, angleBody d ts = some (a, b) → b <:+ ts := by
  induction ts with
  | nil => intro d a b h; cases d <;> cases h
  | cons t ts ih =>
    intro d a b h
    have key : ∀ d' (f : (Toks σ × σ) × Toks σ → (Toks σ × σ) × Toks σ), (∀ x, (f x).2 = x.2) →
        (angleBody d' ts).map f = some (a, b) → b <:+ t :: ts := by
      intro d' f hf h
      obtain ⟨⟨a', b'⟩, hx, hy⟩ := Option.map_eq_some_iff.mp h
      have : b' = b := (hf (a', b')).symm.trans (by rw [hy])
      subst this
      exact (ih d' a' b' hx).trans (List.suffix_cons _ _)
    cases t with
    | punct c s p =>
      simp only [angleBody] at h
      split at h
      · cases d with
        | zero => cases h; exact List.suffix_cons _ _
        | succ d => refine key d _ ?_ h; intro _; rfl
      · split at h
        · refine key _ _ ?_ h; intro _; rfl
        · refine key _ _ ?_ h; intro _; rfl
    | ident i p => refine key d _ ?_ h; intro _; rfl
    | lit l p => refine key d _ ?_ h; intro _; rfl
    | group dl c b => refine key d _ ?_ h; intro _; rfl

omit [Spans σ] in
theorem simpleArgs_tail (ts : Toks σ) {a : PathArgs σ} {b : Toks σ} (h : simpleArgs ts = some (a, b)) : b <:+ ts := by
  have key : ∀ (ts : Toks σ) (f : (Toks σ × σ) × Toks σ → PathArgs σ × Toks σ), (∀ x, (f x).2 = x.2) →
      (angleBody 0 ts).map f = some (a, b) → b <:+ ts := by
    intro ts f hf h
    obtain ⟨⟨a', b'⟩, hx, hy⟩ := Option.map_eq_some_iff.mp h
    have : b' = b := (hf (a', b')).symm.trans (by rw [hy])
    subst this
    exact angleBody_tail ts 0 a' b' hx
  unfold simpleArgs at h
  split at h
  · split at h
    · refine (key _ _ ?_ h).trans (List.suffix_cons _ _); intro _; rfl
    · split at h
      · split at h
        · refine (key _ _ ?_ h).trans
            (((List.suffix_cons _ _).trans (List.suffix_cons _ _)).trans (List.suffix_cons _ _)); intro _; rfl
        · cases h; exact List.suffix_refl _
      · cases h; exact List.suffix_refl _
  · cases h; exact List.suffix_refl _

omit [Spans σ] in
theorem colons_tail (ts : Toks σ) {c : σ × σ} {b : Toks σ} (h : colons ts = some (c, b)) : b <:+ ts := by
  unfold colons at h
  split at h
  · split at h
    · cases h; exact (List.suffix_cons _ _).trans (List.suffix_cons _ _)
    · cases h
  · cases h

omit [Spans σ] in
theorem simpleSegs_tail (n : Nat) : ∀ (ts : Toks σ) {a : List (PathSeg σ)} {b : Toks σ}, simpleSegs n ts = some (a, b) →
    b <:+ ts := by
  induction n with
  | zero => intro ts a b h; cases h
  | succ n ih =>
    intro ts a b h
    match ts with
    | [] => cases h
    | .punct .. :: _ => cases h
    | .lit .. :: _ => cases h
    | .group .. :: _ => cases h
    | .ident i sp :: ts =>
      simp only [simpleSegs] at h
      split at h
      · cases h
      · rename_i a' rest ha
        have h1 := (simpleArgs_tail ts ha).trans (List.suffix_cons (.ident i sp) ts)
        split at h
        · rename_i c rest' hc
          obtain ⟨⟨ss, r⟩, hx, hy⟩ := Option.map_eq_some_iff.mp h
          cases hy
          exact (ih _ hx).trans ((colons_tail _ hc).trans h1)
        · cases h; exact h1

omit [Spans σ] in
/-- The paths of the examples. -/
theorem simplePaths_consumes : (simplePaths (σ := σ)).Consumes := by
  intro sc ts
  show match simpleRun sc ts with | .path _ rest => rest <:+ ts | .error _ rest => rest <:+ ts
  unfold simpleRun
  cases h1 : colons ts with
  | some x =>
    obtain ⟨c, r⟩ := x
    cases h2 : simpleSegs (ts.length + 1) r with
    | some y =>
      obtain ⟨ss, rest⟩ := y
      simp only [h2]
      exact (simpleSegs_tail _ _ h2).trans (colons_tail _ h1)
    | none => simp only [h2]; exact List.suffix_refl _
  | none =>
    cases h2 : simpleSegs (ts.length + 1) ts with
    | some y =>
      obtain ⟨ss, rest⟩ := y
      simp only [h2]
      exact simpleSegs_tail _ _ h2
    | none => simp only [h2]; exact List.suffix_refl _

/-- Four errors; the theorem says of each of them which tokens it is about. -/
example : let ts := src!"div bad:x=1 on:click:once={f} { 3 } p".toks
    src!"div bad:x=1 on:click:once={f} { 3 } p".complaints =
      [(.nonStringChild, some c!"3"), (.unterminated, some c!"p"), (.unknownDirective (plain c!"bad"), some c!"bad"),
        (.unknownModifier (plain c!"once"), some c!"once")] ∧
    ∀ ds out, mview simplePaths (fun _ => []) ts = .errors ds out → ∀ d ∈ ds, About simplePaths callSite ts d.sp d.diag :=
  ⟨rfl, fun _ _ h => errors_about (lexical_of rfl) simplePaths_consumes h⟩

/-- The same word twice, of which one is a directive that does not exist: the error is not at the other. -/
example : src!"div bad={x} bad:y={z};".complaints = [(.unknownDirective (plain c!"bad"), some c!"bad")] ∧
    ¬ About (simplePaths (σ := Rng)) callSite src!"div bad={x} bad:y={z};".toks (.range 4 7) (.unknownDirective (plain c!"bad")) ∧
    About (simplePaths (σ := Rng)) callSite src!"div bad={x} bad:y={z};".toks (.range 12 15) (.unknownDirective (plain c!"bad")) := by
  refine ⟨rfl, ?_, ?_⟩
  · rintro ⟨-, s, q, r, e, h⟩
    have key : ∀ {e r}, From (σ := Rng) callSite src!"div bad={x} bad:y={z};".toks e r →
        r <:+ src!"div bad={x} bad:y={z};".toks ∨ r <:+ [.ident (plain c!"x") (.range 9 10)] ∨
          r <:+ [.ident (plain c!"z") (.range 19 20)] := by
      intro e r h
      induction h with
      | start => exact .inl (List.suffix_refl _)
      | next _ ih =>
        rcases ih with h | h | h
        · exact .inl ((List.suffix_cons _ _).trans h)
        · exact .inr (.inl ((List.suffix_cons _ _).trans h))
        · exact .inr (.inr ((List.suffix_cons _ _).trans h))
      | inside _ ih =>
        simp [List.suffix_cons_iff] at ih
        rcases ih with h | h
        · obtain ⟨⟨-, rfl, -⟩, -⟩ := h; exact .inr (.inl (by simp))
        · obtain ⟨⟨-, rfl, -⟩, -⟩ := h; exact .inr (.inr (by simp))
    have := key h
    simp [List.suffix_cons_iff] at this
  · refine ⟨by decide, _, _, _, _, From.next (From.next (From.next (From.next .start)))⟩

end Mview.Loc
