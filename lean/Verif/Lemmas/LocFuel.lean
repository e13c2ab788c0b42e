import Verif.Lemmas.Fuel
import Verif.Loc.Parse
/-
The iteration budget of the recursive parsers with spans does not matter once it is large enough;
see `Lemmas/Fuel.lean`.
-/

namespace Mview.Loc

/-- `y` is `x`, unless `x` ran out of budget. -/
def Leq {σ α : Type} (x y : Out σ α) : Prop := x = .diverge ∨ x = y

/-- The same for parsers. -/
def PLeq {σ α : Type} (p q : P σ α) : Prop := ∀ sc ts, Leq (p sc ts) (q sc ts)

section
variable {σ α β : Type}

theorem Leq.refl (x : Out σ α) : Leq x x := .inr rfl

theorem Leq.trans {x y z : Out σ α} (h : Leq x y) (h' : Leq y z) : Leq x z := by
  rcases h with rfl | rfl
  · exact .inl rfl
  · exact h'

theorem Leq.bind {x y : Out σ α} {f g : α → Out σ β} (h : Leq x y) (h' : ∀ a, Leq (f a) (g a)) :
    Leq (x.bind f) (y.bind g) := by
  rcases h with rfl | rfl
  · exact .inl rfl
  · cases x with
    | ret ds a =>
      rcases h' a with h | h
      · exact .inl (by simp [Out.bind, Out.tell, h])
      · exact .inr (by simp only [Out.bind, h])
    | _ => exact .inr rfl

theorem PLeq.refl (p : P σ α) : PLeq p p := fun _ _ => .refl _
theorem PLeq.trans {p q r : P σ α} (h : PLeq p q) (h' : PLeq q r) : PLeq p r :=
  fun sc ts => (h sc ts).trans (h' sc ts)

theorem PLeq.bind {p q : P σ α} {f g : α → P σ β} (h : PLeq p q) (h' : ∀ a, PLeq (f a) (g a)) :
    PLeq (p >>= f) (q >>= g) := by
  intro sc ts
  refine Leq.bind (h sc ts) fun r => ?_
  cases r with
  | ok a rest => exact h' a sc rest
  | err e rest => exact .refl _

theorem PLeq.inGroup {p q : P σ α} (d : Delim) (h : PLeq p q) : PLeq (inGroup d p) (inGroup d q) := by
  intro sc ts
  unfold Loc.inGroup
  split
  · refine (Leq.refl _).bind fun r => ?_
    cases r with
    | ok inner rest => exact (h _ _).bind fun q => .refl _
    | err e rest => exact .refl _
  · exact .refl _

theorem PLeq.ite {c : Prop} [Decidable c] {p p' q q' : P σ α} (h : PLeq p q) (h' : PLeq p' q') :
    PLeq (if c then p else p') (if c then q else q') := by
  split
  · exact h
  · exact h'
end

variable {σ : Type} [Spans σ] {pp : Mview.PathParser}

theorem descent_succ (lp : PathParser σ pp) (fuel : Nat) :
    PLeq (elementF lp fuel) (elementF lp (fuel + 1)) ∧
    PLeq (childF lp fuel) (childF lp (fuel + 1)) ∧
    PLeq (childrenF lp fuel) (childrenF lp (fuel + 1)) := by
  induction fuel with
  | zero =>
    refine ⟨?_, ?_, ?_⟩
    · intro sc ts; rw [elementF]; exact .inl rfl
    · intro sc ts; rw [childF]; exact .inl rfl
    · intro sc ts; rw [childrenF]; exact .inl rfl
  | succ fuel ih =>
    obtain ⟨ihE, ihC, ihL⟩ := ih
    refine ⟨?_, ?_, ?_⟩
    · rw [elementF, elementF]
      refine (PLeq.refl _).bind fun tag => (PLeq.refl _).bind fun sels => (PLeq.refl _).bind fun attrs =>
        (PLeq.refl _).bind fun semi => ?_
      cases semi with
      | some _ => exact .refl _
      | none =>
        refine (PLeq.refl _).bind fun ts => .ite (.refl _) (.ite ?_ (.ite ?_ (.refl _)))
        · refine .ite ?_ ?_ <;> exact (ihL.inGroup _).bind fun cs => .refl _
        · refine (PLeq.refl _).bind fun args => (PLeq.refl _).bind fun ts => .ite ?_ (.ite ?_ (.refl _))
          · exact (ihL.inGroup _).bind fun cs => .refl _
          · exact (ihL.inGroup _).bind fun cs => .refl _
    · rw [childF, childF]
      refine (PLeq.refl _).bind fun v => ?_
      cases v with
      | some v => exact .refl _
      | none =>
        refine (PLeq.refl _).bind fun ts => .ite ?_ (.ite ?_ (.refl _))
        · exact (PLeq.refl _).bind fun _ => (PLeq.refl _).bind fun _ => ihE.bind fun e => .refl _
        · exact ihE.bind fun e => .refl _
    · intro sc ts
      rw [childrenF, childrenF]
      simp only
      split
      · exact .refl _
      · refine (ihC sc ts).bind fun r => ?_
        cases r with
        | ok c rest => exact (ihL sc rest).bind fun q => .refl _
        | err e rest =>
          simp only
          split
          · refine (Leq.refl _).bind fun _ => (Leq.refl _).bind fun q => ?_
            cases q with
            | ok u rest' => exact ihL sc rest'
            | err e' rest' => exact .refl _
          · exact (Leq.refl _).bind fun _ => ihL _ _

theorem descent_mono (lp : PathParser σ pp) {fuel fuel' : Nat} (h : fuel ≤ fuel') :
    PLeq (elementF lp fuel) (elementF lp fuel') ∧
    PLeq (childF lp fuel) (childF lp fuel') ∧
    PLeq (childrenF lp fuel) (childrenF lp fuel') := by
  induction h with
  | refl => exact ⟨.refl _, .refl _, .refl _⟩
  | step _ ih =>
    have := descent_succ lp ‹_›
    exact ⟨ih.1.trans this.1, ih.2.1.trans this.2.1, ih.2.2.trans this.2.2⟩

end Mview.Loc
