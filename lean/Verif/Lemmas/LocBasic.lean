import Verif.Loc.EraseExpand
/-
Sequencing located outcomes.
-/

namespace Mview.Loc

variable {σ : Type}

@[simp] theorem Out.monad_bind {α β : Type} (x : Out σ α) (f : α → Out σ β) : (x >>= f) = x.bind f := rfl
@[simp] theorem Out.monad_pure {α : Type} (a : α) : (pure a : Out σ α) = .ret [] a := rfl

@[simp] theorem Out.tell_nil {α : Type} (x : Out σ α) : x.tell [] = x := by cases x <;> simp [Out.tell]

@[simp] theorem Out.tell_tell {α : Type} (ds es : List (LDiag σ)) (x : Out σ α) :
    (x.tell es).tell ds = x.tell (ds ++ es) := by cases x <;> simp [Out.tell]

theorem Out.bind_tell {α β : Type} (ds : List (LDiag σ)) (x : Out σ α) (f : α → Out σ β) :
    (x.tell ds).bind f = (x.bind f).tell ds := by
  cases x with
  | ret es a => simp only [Out.bind]; exact (Out.tell_tell _ _ _).symm
  | _ => rfl

@[simp] theorem Out.bind_ret {α β : Type} (ds : List (LDiag σ)) (a : α) (f : α → Out σ β) :
    (Out.ret ds a).bind f = (f a).tell ds := rfl

theorem Out.bind_assoc {α β γ : Type} (x : Out σ α) (f : α → Out σ β) (g : β → Out σ γ) :
    (x.bind f).bind g = x.bind fun a => (f a).bind g := by
  cases x with
  | ret ds a => simp only [Out.bind_ret, Out.bind_tell]
  | _ => rfl

@[simp] theorem Out.tell_ret {α : Type} (ds es : List (LDiag σ)) (a : α) :
    (Out.ret es a).tell ds = .ret (ds ++ es) a := rfl

end Mview.Loc
