import Verif.Lemmas.Clean
/-
The iteration budget of the recursive parsers does not matter once it is large enough.
-/

namespace Mview

/-- `y` is `x`, unless `x` ran out of budget. -/
def Leq {α : Type} (x y : Out α) : Prop := x = .diverge ∨ x = y

/-- The same for parsers. -/
def PLeq {α : Type} (p q : P α) : Prop := ∀ ts, Leq (p ts) (q ts)

section
variable {α β : Type}

theorem Leq.refl (x : Out α) : Leq x x := .inr rfl
theorem Leq.diverge (x : Out α) : Leq .diverge x := .inl rfl

theorem Leq.trans {x y z : Out α} (h : Leq x y) (h' : Leq y z) : Leq x z := by
  rcases h with rfl | rfl
  · exact .inl rfl
  · exact h'

theorem Leq.bind {x y : Out α} {f g : α → Out β} (h : Leq x y) (h' : ∀ a, Leq (f a) (g a)) :
    Leq (x.bind f) (y.bind g) := by
  rcases h with rfl | rfl
  · exact .inl rfl
  · cases x with
    | ret ds a =>
      rcases h' a with h | h
      · exact .inl (by simp [h])
      · exact .inr (by simp [h])
    | _ => exact .inr rfl

theorem PLeq.refl (p : P α) : PLeq p p := fun _ => .refl _
theorem PLeq.trans {p q r : P α} (h : PLeq p q) (h' : PLeq q r) : PLeq p r :=
  fun ts => (h ts).trans (h' ts)

theorem PLeq.bind {p q : P α} {f g : α → P β} (h : PLeq p q) (h' : ∀ a, PLeq (f a) (g a)) :
    PLeq (p >>= f) (q >>= g) := by
  intro ts
  simp only [P.bind_apply]
  refine (h ts).bind fun r => ?_
  cases r with
  | ok a rest => exact h' a rest
  | err e rest => exact .refl _

theorem PLeq.inGroup {p q : P α} (d : Delim) (h : PLeq p q) : PLeq (inGroup d p) (inGroup d q) := by
  intro ts
  unfold Mview.inGroup
  split
  · refine (Leq.refl _).bind fun r => ?_
    cases r with
    | ok inner rest => exact (h inner).bind fun q => .refl _
    | err e rest => exact .refl _
  · exact .refl _

theorem PLeq.ite {c : Prop} [Decidable c] {p p' q q' : P α} (h : PLeq p q) (h' : PLeq p' q') :
    PLeq (if c then p else p') (if c then q else q') := by
  split
  · exact h
  · exact h'
end

theorem descent_succ (pp : PathParser) (fuel : Nat) :
    PLeq (elementF pp fuel) (elementF pp (fuel + 1)) ∧
    PLeq (childF pp fuel) (childF pp (fuel + 1)) ∧
    PLeq (childrenF pp fuel) (childrenF pp (fuel + 1)) := by
  induction fuel with
  | zero => exact ⟨fun _ => .inl rfl, fun _ => .inl rfl, fun _ => .inl rfl⟩
  | succ fuel ih =>
    obtain ⟨ihE, ihC, ihL⟩ := ih
    refine ⟨?_, ?_, ?_⟩
    · rw [elementF, elementF]
      refine (PLeq.refl _).bind fun tag => (PLeq.refl _).bind fun sels => (PLeq.refl _).bind fun attrs =>
        (PLeq.refl _).bind fun semi => ?_
      cases semi with
      | some _ => exact .refl _
      | none =>
        refine (PLeq.refl _).bind fun ts => .ite (.refl _) (.ite ?_ (.ite ?_ (.refl _)))
        · refine .ite ?_ ?_ <;> exact (ihL.inGroup _).bind fun cs => .refl _
        · refine (PLeq.refl _).bind fun args => (PLeq.refl _).bind fun ts => .ite ?_ (.ite ?_ (.refl _))
          · exact (ihL.inGroup _).bind fun cs => .refl _
          · exact (ihL.inGroup _).bind fun cs => .refl _
    · rw [childF, childF]
      refine (PLeq.refl _).bind fun v => ?_
      cases v with
      | some v => exact .refl _
      | none =>
        refine (PLeq.refl _).bind fun ts => .ite ?_ (.ite ?_ (.refl _))
        · exact (PLeq.refl _).bind fun _ => (PLeq.refl _).bind fun _ => ihE.bind fun e => .refl _
        · exact ihE.bind fun e => .refl _
    · intro ts
      rw [childrenF, childrenF]
      simp only
      split
      · exact .refl _
      · refine (ihC ts).bind fun r => ?_
        cases r with
        | ok c rest => exact (ihL rest).bind fun q => .refl _
        | err e rest =>
          simp only
          split
          · refine (Leq.refl _).bind fun _ => (Leq.refl _).bind fun q => ?_
            cases q with
            | ok u rest' => exact ihL rest'
            | err e' rest' => exact .refl _
          · exact (Leq.refl _).bind fun _ => ihL _

theorem descent_mono (pp : PathParser) {fuel fuel' : Nat} (h : fuel ≤ fuel') :
    PLeq (elementF pp fuel) (elementF pp fuel') ∧
    PLeq (childF pp fuel) (childF pp fuel') ∧
    PLeq (childrenF pp fuel) (childrenF pp fuel') := by
  induction h with
  | refl => exact ⟨.refl _, .refl _, .refl _⟩
  | step _ ih =>
    have := descent_succ pp ‹_›
    exact ⟨ih.1.trans this.1, ih.2.1.trans this.2.1, ih.2.2.trans this.2.2⟩

/-- No assumption at all. -/
def noAssumption (pp : PathParser) : Inv pp where
  A _ := True
  T _ := True
  tail _ := trivial
  group _ _ := trivial
  kebab _ _ _ := trivial
  slotName _ _ _ := trivial
  slotPath _ _ _ _ := trivial
  slotTag _ _ := .inr trivial

theorem parseChildren_ne_diverge (pp : PathParser) (ts : Toks) : parseChildren pp ts ≠ .diverge := by
  intro h
  have := parseChildren_wp (I := noAssumption pp) (ts := ts) trivial
  rw [h] at this
  exact this

/-- What a large budget gives is what the macro computes. -/
theorem parseChildren_eq {pp : PathParser} {ts : Toks} {o : Out (PR (List Child))} {N : Nat}
    (h : ∀ fuel, N ≤ fuel → childrenF pp fuel ts = o) : parseChildren pp ts = o := by
  have h1 := (descent_mono pp (Nat.le_max_left (fuelFor ts) N)).2.2 ts
  rcases h1 with h1 | h1
  · exact absurd h1 (parseChildren_ne_diverge pp ts)
  · exact h1.trans (h _ (Nat.le_max_right _ _))

theorem childrenF_of_large (pp : PathParser) (ts : Toks) {fuel : Nat} (h : fuelFor ts ≤ fuel) :
    childrenF pp fuel ts = parseChildren pp ts := by
  have h1 := (descent_mono pp h).2.2 ts
  rcases h1 with h1 | h1
  · exact absurd h1 (parseChildren_ne_diverge pp ts)
  · exact h1.symm

end Mview
