import Verif.Lemmas.ParseWp
import Verif.Spec.Grammar
/-
Runs of parsers without diagnostics, and that the iteration budget does not matter.
-/

namespace Mview

/-- `p` succeeds on `ts` without any diagnostic. -/
def Yields {α : Type} (p : P α) (ts : Toks) (a : α) (rest : Toks) : Prop :=
  p ts = .ret [] (.ok a rest)

/-- `p` returns an error on `ts`, without any diagnostic. -/
def Fails {α : Type} (p : P α) (ts : Toks) : Prop := ∃ e r, p ts = .ret [] (.err e r)

section
variable {α β : Type} {p : P α} {f : α → P β} {ts rest : Toks} {a : α} {b : β}

theorem yields_bind : Yields (p >>= f) ts b rest ↔ ∃ a r, Yields p ts a r ∧ Yields (f a) r b rest := by
  unfold Yields
  rw [P.bind_apply, Out.bind_eq_ret_nil]
  constructor
  · rintro ⟨q, h1, h2⟩
    cases q with
    | ok a r => exact ⟨a, r, h1, h2⟩
    | err e r => simp at h2
  · rintro ⟨a, r, h1, h2⟩
    exact ⟨_, h1, h2⟩

theorem fails_bind : Fails (p >>= f) ts ↔ Fails p ts ∨ ∃ a r, Yields p ts a r ∧ Fails (f a) r := by
  unfold Yields Fails
  simp only [P.bind_apply, Out.bind_eq_ret_nil]
  constructor
  · rintro ⟨e, r, q, h1, h2⟩
    cases q with
    | ok a r' => exact .inr ⟨a, r', h1, e, r, h2⟩
    | err e' r' => exact .inl ⟨e', r', h1⟩
  · rintro (⟨e, r, h⟩ | ⟨a, r', h1, e, r, h2⟩)
    · exact ⟨e, r, _, h, rfl⟩
    · exact ⟨e, r, _, h1, h2⟩

@[simp] theorem yields_pure {a b : α} : Yields (pure a : P α) ts b rest ↔ b = a ∧ rest = ts := by
  unfold Yields
  simp only [P.pure_apply, Out.ret.injEq, true_and, PR.ok.injEq]
  exact ⟨fun h => ⟨h.1.symm, h.2.symm⟩, fun h => ⟨h.1.symm, h.2.symm⟩⟩
@[simp] theorem fails_pure {a : α} : ¬ Fails (pure a : P α) ts := by
  rintro ⟨e, r, h⟩; simp at h
@[simp] theorem yields_inp {x : Toks} : Yields inp ts x rest ↔ x = ts ∧ rest = ts := by
  unfold Yields
  simp only [inp_apply, Out.ret.injEq, true_and, PR.ok.injEq]
  exact ⟨fun h => ⟨h.1.symm, h.2.symm⟩, fun h => ⟨h.1.symm, h.2.symm⟩⟩
@[simp] theorem fails_inp : ¬ Fails inp ts := by
  rintro ⟨e, r, h⟩; simp at h
@[simp] theorem yields_fail {e} : ¬ Yields (fail e : P α) ts a rest := by
  unfold Yields; simp
@[simp] theorem fails_fail {e} : Fails (fail e : P α) ts := ⟨e, ts, rfl⟩
@[simp] theorem yields_emitP {d} {u : Unit} : ¬ Yields (emitP d) ts u rest := by
  unfold Yields; simp
@[simp] theorem fails_emitP {d} : ¬ Fails (emitP d) ts := by
  rintro ⟨e, r, h⟩; simp at h

/-- Binding after `inp` is looking at the stream. -/
theorem inp_bind (f : Toks → P β) : (inp >>= f) ts = f ts ts := by simp

theorem yields_inp_bind {f : Toks → P β} : Yields (inp >>= f) ts b rest ↔ Yields (f ts) ts b rest := by
  unfold Yields; rw [inp_bind]
theorem fails_inp_bind {f : Toks → P β} : Fails (inp >>= f) ts ↔ Fails (f ts) ts := by
  unfold Fails; rw [inp_bind]

theorem yields_liftOut {o : Out α} : Yields (liftOut o) ts a rest ↔ o = .ret [] a ∧ rest = ts := by
  unfold Yields
  rw [liftOut_apply, Out.bind_eq_ret_nil]
  constructor
  · rintro ⟨x, h1, h2⟩
    simp only [Out.ret.injEq, true_and, PR.ok.injEq] at h2
    obtain ⟨rfl, rfl⟩ := h2
    exact ⟨h1, rfl⟩
  · rintro ⟨h1, rfl⟩
    exact ⟨_, h1, rfl⟩
@[simp] theorem fails_liftOut {o : Out α} : ¬ Fails (liftOut o) ts := by
  rintro ⟨e, r, h⟩
  rw [liftOut_apply, Out.bind_eq_ret_nil] at h
  obtain ⟨x, h1, h2⟩ := h
  simp at h2

theorem yields_rollback_some : Yields (rollback p) ts (some a) rest ↔ Yields p ts a rest := by
  unfold Yields
  rw [rollback_apply, Out.bind_eq_ret_nil]
  constructor
  · rintro ⟨q, h1, h2⟩
    cases q with
    | ok x r => simp at h2; obtain ⟨rfl, rfl⟩ := h2; exact h1
    | err e r => simp at h2
  · intro h
    exact ⟨_, h, rfl⟩

theorem yields_rollback_none : Yields (rollback p) ts none rest ↔ Fails p ts ∧ rest = ts := by
  unfold Yields Fails
  rw [rollback_apply, Out.bind_eq_ret_nil]
  constructor
  · rintro ⟨q, h1, h2⟩
    cases q with
    | ok x r => simp at h2
    | err e r => simp at h2; exact ⟨⟨e, r, h1⟩, h2.symm⟩
  · rintro ⟨⟨e, r, h⟩, rfl⟩
    exact ⟨_, h, rfl⟩

@[simp] theorem fails_rollback : ¬ Fails (rollback p) ts := by
  rintro ⟨e, r, h⟩
  rw [rollback_apply, Out.bind_eq_ret_nil] at h
  obtain ⟨x, h1, h2⟩ := h
  cases x <;> simp at h2

theorem yields_unwrapP {site} : Yields (unwrapP site p) ts a rest ↔ Yields p ts a rest := by
  unfold Yields
  rw [unwrapP_apply, Out.bind_eq_ret_nil]
  constructor
  · rintro ⟨q, h1, h2⟩
    cases q with
    | ok x r => simp at h2; obtain ⟨rfl, rfl⟩ := h2; exact h1
    | err e r => simp at h2
  · intro h
    exact ⟨_, h, rfl⟩
@[simp] theorem fails_unwrapP {site} : ¬ Fails (unwrapP site p) ts := by
  rintro ⟨e, r, h⟩
  rw [unwrapP_apply, Out.bind_eq_ret_nil] at h
  obtain ⟨x, h1, h2⟩ := h
  cases x <;> simp at h2

theorem yields_unwrapOrAbort : Yields (unwrapOrAbort p) ts a rest ↔ Yields p ts a rest := by
  unfold Yields
  rw [unwrapOrAbort_apply, Out.bind_eq_ret_nil]
  constructor
  · rintro ⟨q, h1, h2⟩
    cases q with
    | ok x r => simp at h2; obtain ⟨rfl, rfl⟩ := h2; exact h1
    | err e r => simp at h2
  · intro h
    exact ⟨_, h, rfl⟩
@[simp] theorem fails_unwrapOrAbort : ¬ Fails (unwrapOrAbort p) ts := by
  rintro ⟨e, r, h⟩
  rw [unwrapOrAbort_apply, Out.bind_eq_ret_nil] at h
  obtain ⟨x, h1, h2⟩ := h
  cases x <;> simp at h2

theorem Yields.unique {a' : α} {rest' : Toks} (h : Yields p ts a rest) (h' : Yields p ts a' rest') :
    a = a' ∧ rest = rest' := by
  unfold Yields at h h'
  rw [h] at h'
  simpa using h'

theorem Yields.not_fails (h : Yields p ts a rest) : ¬ Fails p ts := by
  rintro ⟨e, r, h'⟩
  unfold Yields at h
  rw [h] at h'
  simp at h'

end

/-! ### single tokens -/

theorem yields_identAny {ts rest : Toks} {i : Ident} :
    Yields parseIdentAny ts i rest ↔ ts = .ident i :: rest := by
  unfold Yields parseIdentAny
  split
  · simp [eq_comm]
  · rename_i h
    simp only [Out.ret.injEq, reduceCtorEq, and_false, false_iff]
    rintro rfl; exact h _ _ rfl

theorem fails_identAny {ts : Toks} : Fails parseIdentAny ts ↔ ∀ i r, ts ≠ .ident i :: r := by
  unfold Fails parseIdentAny
  split
  · simp
  · rename_i h
    simp
    exact h

theorem yields_punct {ts rest : Toks} {c : Char} {u : Unit} :
    Yields (parsePunct c) ts u rest ↔ ∃ s, ts = .punct c s :: rest := by
  unfold Yields parsePunct
  split
  · rename_i c' s r
    split
    · rename_i h; subst h
      simp only [Out.ret.injEq, true_and, PR.ok.injEq, List.cons.injEq, TT.punct.injEq]
      exact ⟨fun h => ⟨s, by simp, h⟩, fun ⟨_, _, h⟩ => h⟩
    · rename_i h
      simp [h]
  · rename_i h
    simp only [Out.ret.injEq, reduceCtorEq, and_false, false_iff, not_exists]
    rintro s rfl; exact h _ _ _ rfl

theorem fails_punct {ts : Toks} {c : Char} : Fails (parsePunct c) ts ↔ ∀ s r, ts ≠ .punct c s :: r := by
  unfold Fails parsePunct
  split
  · rename_i c' s r
    split
    · rename_i h; subst h
      simp
    · rename_i h
      simp [h]
  · rename_i h
    simp
    intro s r; exact h c s r

theorem yields_extract {ts rest inner : Toks} {d : Delim} :
    Yields (extractGroup d) ts inner rest ↔ ts = .group d inner :: rest := by
  unfold Yields extractGroup
  split
  · rename_i d' x r
    split
    · rename_i h; subst h
      simp [eq_comm]
    · rename_i h
      simp [h]
  · rename_i h
    simp only [Out.ret.injEq, reduceCtorEq, and_false, false_iff]
    rintro rfl; exact h _ _ _ rfl

theorem fails_extract {ts : Toks} {d : Delim} :
    Fails (extractGroup d) ts ↔ ∀ x r, ts ≠ .group d x :: r := by
  unfold Fails extractGroup
  split
  · rename_i d' x r
    split
    · rename_i h; subst h; simp
    · rename_i h; simp [h]
  · rename_i h
    simp
    exact h d

theorem peekGroup_iff {ts : Toks} {d : Delim} : peekGroup d ts = true ↔ ∃ x r, ts = .group d x :: r := by
  unfold peekGroup
  split
  · simp
  · rename_i h
    simp only [Bool.false_eq_true, false_iff, not_exists]
    rintro x r rfl; exact h _ _ _ rfl

theorem peekIdentAny_iff {ts : Toks} : peekIdentAny ts = true ↔ ∃ i r, ts = .ident i :: r := by
  unfold peekIdentAny
  split
  · simp
  · rename_i h
    simp only [Bool.false_eq_true, false_iff, not_exists]
    rintro i r rfl; exact h _ _ rfl

theorem peekPunct_iff {ts : Toks} {c : Char} : peekPunct c ts = true ↔ ∃ s r, ts = .punct c s :: r := by
  unfold peekPunct
  split
  · rename_i c' s r
    simp
  · rename_i h
    simp only [Bool.false_eq_true, false_iff, not_exists]
    rintro s r rfl; exact h _ _ _ rfl

theorem peekPunct2_iff {ts : Toks} {a b : Char} :
    peekPunct2 a b ts = true ↔ ∃ s r, ts = .punct a .joint :: .punct b s :: r := by
  unfold peekPunct2
  split
  · simp
  · rename_i h
    simp only [Bool.false_eq_true, false_iff, not_exists]
    rintro s r rfl; exact h _ _ _ _ rfl

theorem isEmpty_iff {ts : Toks} : isEmpty ts = true ↔ ts = [] := by
  cases ts <;> simp [isEmpty]

theorem yields_inGroup {α : Type} {p : P α} {d : Delim} {ts rest : Toks} {a : α} :
    Yields (inGroup d p) ts a rest ↔ ∃ inner, ts = .group d inner :: rest ∧ Yields p inner a [] := by
  by_cases hp : peekGroup d ts = true
  · obtain ⟨x, r, rfl⟩ := peekGroup_iff.mp hp
    unfold Yields inGroup
    simp only [hp, if_true, unwrapP_apply, extractGroup, Out.bind_ret, Out.tell_nil,
      Out.bind_eq_ret_nil]
    constructor
    · rintro ⟨q, h1, h2⟩
      cases q with
      | ok b left =>
        simp only at h2
        split at h2
        · rename_i hl
          simp at h2
          obtain ⟨rfl, rfl⟩ := h2
          rw [isEmpty_iff.mp hl] at h1
          exact ⟨x, rfl, h1⟩
        · simp at h2
      | err e left => simp at h2
    · rintro ⟨inner, h, h1⟩
      simp only [List.cons.injEq, TT.group.injEq, true_and] at h
      obtain ⟨rfl, rfl⟩ := h
      exact ⟨_, h1, rfl⟩
  · unfold Yields inGroup
    rw [if_neg hp]
    simp only [Out.ret.injEq, reduceCtorEq, and_false, false_iff, not_exists, not_and]
    rintro inner rfl
    exact absurd (peekGroup_iff.mpr ⟨_, _, rfl⟩) hp

theorem fails_inGroup {α : Type} {p : P α} {d : Delim} {ts : Toks} :
    Fails (inGroup d p) ts ↔ (∀ x r, ts ≠ .group d x :: r) ∨
      ∃ inner r, ts = .group d inner :: r ∧
        (Fails p inner ∨ ∃ a left, left ≠ [] ∧ Yields p inner a left) := by
  by_cases hp : peekGroup d ts = true
  · obtain ⟨x, r, rfl⟩ := peekGroup_iff.mp hp
    unfold Yields Fails inGroup
    simp only [hp, if_true, unwrapP_apply, extractGroup, Out.bind_ret, Out.tell_nil,
      Out.bind_eq_ret_nil]
    constructor
    · rintro ⟨e, r', q, h1, h2⟩
      refine .inr ⟨x, r, rfl, ?_⟩
      cases q with
      | ok b left =>
        simp only at h2
        split at h2
        · simp at h2
        · rename_i hl
          exact .inr ⟨b, left, fun hn => hl (isEmpty_iff.mpr hn), h1⟩
      | err e left => exact .inl ⟨_, _, h1⟩
    · rintro (h | ⟨inner, r', h, h1⟩)
      · exact absurd rfl (h x r)
      · simp only [List.cons.injEq, TT.group.injEq, true_and] at h
        obtain ⟨rfl, rfl⟩ := h
        rcases h1 with ⟨e, l, h1⟩ | ⟨b, left, hl, h1⟩
        · exact ⟨_, _, _, h1, rfl⟩
        · refine ⟨.extraTokens d, .group d x :: r, _, h1, ?_⟩
          simp only
          rw [if_neg (fun h => hl (isEmpty_iff.mp h))]
  · unfold Fails inGroup
    rw [if_neg hp]
    exact ⟨fun _ => .inl fun x r h => hp (peekGroup_iff.mpr ⟨_, _, h⟩), fun _ => ⟨_, _, rfl⟩⟩

end Mview
