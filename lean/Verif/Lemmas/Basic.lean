import Verif.Model.Mview
/-
Facts about the outcome monad and a small calculus for invariants of outcomes.
-/

namespace Mview

namespace Out
variable {α β γ : Type}

@[simp] theorem tell_ret (ds es : List Diag) (a : α) : (ret es a).tell ds = ret (ds ++ es) a := rfl
@[simp] theorem tell_abort (ds es : List Diag) : (abort es : Out α).tell ds = abort (ds ++ es) := rfl
@[simp] theorem tell_panic (ds : List Diag) (p) : (panic p : Out α).tell ds = panic p := rfl
@[simp] theorem tell_diverge (ds : List Diag) : (diverge : Out α).tell ds = diverge := rfl
@[simp] theorem tell_nil (x : Out α) : x.tell [] = x := by cases x <;> rfl
theorem tell_tell (ds es : List Diag) (x : Out α) : (x.tell es).tell ds = x.tell (ds ++ es) := by
  cases x <;> simp
@[simp] theorem bind_ret (ds : List Diag) (a : α) (f : α → Out β) :
    (ret ds a).bind f = (f a).tell ds := rfl
@[simp] theorem bind_abort (ds : List Diag) (f : α → Out β) : (abort ds).bind f = abort ds := rfl
@[simp] theorem bind_panic (p) (f : α → Out β) : (panic p).bind f = panic p := rfl
@[simp] theorem bind_diverge (f : α → Out β) : diverge.bind f = diverge := rfl
@[simp] theorem monad_bind (x : Out α) (f : α → Out β) : (x >>= f) = x.bind f := rfl
@[simp] theorem monad_pure (a : α) : (pure a : Out α) = ret [] a := rfl

theorem tell_bind (ds : List Diag) (x : Out α) (f : α → Out β) :
    (x.tell ds).bind f = (x.bind f).tell ds := by
  cases x <;> simp [tell_tell]

theorem bind_assoc (x : Out α) (f : α → Out β) (g : β → Out γ) :
    (x.bind f).bind g = x.bind fun a => (f a).bind g := by
  cases x with
  | ret ds a => simp [tell_bind]
  | _ => rfl

theorem tell_eq_ret_nil {ds : List Diag} {x : Out α} {a : α} :
    x.tell ds = ret [] a ↔ ds = [] ∧ x = ret [] a := by
  cases x <;> simp
  exact and_assoc

theorem bind_eq_ret_nil {x : Out α} {f : α → Out β} {b : β} :
    x.bind f = ret [] b ↔ ∃ a, x = ret [] a ∧ f a = ret [] b := by
  cases x with
  | ret ds a =>
    simp only [bind_ret, tell_eq_ret_nil, ret.injEq]
    constructor
    · rintro ⟨rfl, h⟩; exact ⟨a, ⟨rfl, rfl⟩, h⟩
    · rintro ⟨_, ⟨rfl, rfl⟩, h⟩; exact ⟨rfl, h⟩
  | _ => simp

/-- The outcome is not divergence, any panic satisfies `A` and any value satisfies
`Q`. -/
def wp (A : PanicSite → Prop) (Q : α → Prop) : Out α → Prop
  | ret _ a => Q a
  | abort _ => True
  | panic p => A p
  | diverge => False

variable {A : PanicSite → Prop} {Q R : α → Prop}

@[simp] theorem wp_ret (ds : List Diag) (a : α) : wp A Q (ret ds a) ↔ Q a := Iff.rfl
@[simp] theorem wp_abort (ds : List Diag) : wp A Q (abort ds) := trivial
@[simp] theorem wp_panic (p) : wp A Q (panic p) ↔ A p := Iff.rfl
@[simp] theorem wp_diverge : wp A Q (diverge : Out α) ↔ False := Iff.rfl
@[simp] theorem wp_tell (ds : List Diag) (x : Out α) : wp A Q (x.tell ds) ↔ wp A Q x := by
  cases x <;> rfl
@[simp] theorem wp_bind (x : Out α) (f : α → Out β) (S : β → Prop) :
    wp A S (x.bind f) ↔ wp A (fun a => wp A S (f a)) x := by
  cases x <;> simp
theorem wp_mono {x : Out α} (h : ∀ a, Q a → R a) : wp A Q x → wp A R x := by
  cases x <;> simp [wp]
  exact h _
theorem wp_monoA {B : PanicSite → Prop} {x : Out α} (hp : ∀ p, A p → B p) :
    wp A Q x → wp B Q x := by
  cases x <;> simp [wp]
  exact hp _
theorem wp_and {x : Out α} (h1 : wp A Q x) (h2 : wp A R x) : wp A (fun a => Q a ∧ R a) x := by
  cases x <;> simp_all [wp]
end Out

@[simp] theorem emit_def (d : Diag) : emit d = .ret [d] () := rfl
@[simp] theorem abortWith_def {α : Type} (d : Diag) : (abortWith d : Out α) = .abort [d] := rfl

namespace P
variable {α β : Type}
@[simp] theorem bind_apply (p : P α) (f : α → P β) (ts : Toks) :
    (p >>= f) ts = (p ts).bind fun r =>
      match r with
      | .ok a rest => f a rest
      | .err e rest => .ret [] (.err e rest) := rfl
@[simp] theorem pure_apply (a : α) (ts : Toks) : (pure a : P α) ts = .ret [] (.ok a ts) := rfl
end P

@[simp] theorem inp_apply (ts : Toks) : inp ts = .ret [] (.ok ts ts) := rfl
@[simp] theorem fail_apply {α : Type} (e : Err) (ts : Toks) :
    (fail e : P α) ts = .ret [] (.err e ts) := rfl
@[simp] theorem liftOut_apply {α : Type} (o : Out α) (ts : Toks) :
    liftOut o ts = o.bind fun a => .ret [] (.ok a ts) := rfl
@[simp] theorem emitP_apply (d : Diag) (ts : Toks) : emitP d ts = .ret [d] (.ok () ts) := rfl
@[simp] theorem unwrapP_apply {α : Type} (site : PanicSite) (p : P α) (ts : Toks) :
    unwrapP site p ts = (p ts).bind fun r =>
      match r with
      | .ok a rest => .ret [] (.ok a rest)
      | .err _ _ => .panic site := rfl
@[simp] theorem rollback_apply {α : Type} (p : P α) (ts : Toks) :
    rollback p ts = (p ts).bind fun r =>
      match r with
      | .ok a rest => .ret [] (.ok (some a) rest)
      | .err _ _ => .ret [] (.ok none ts) := rfl
@[simp] theorem unwrapOrAbort_apply {α : Type} (p : P α) (ts : Toks) :
    unwrapOrAbort p ts = (p ts).bind fun r =>
      match r with
      | .ok a rest => .ret [] (.ok a rest)
      | .err e _ => .abort [.synAbort e] := rfl

/-- Postconditions of parser results. -/
def PR.post {α : Type} (Q : α → Toks → Prop) (E : Toks → Prop) : PR α → Prop
  | .ok a rest => Q a rest
  | .err _ rest => E rest

@[simp] theorem PR.post_ok {α : Type} (Q : α → Toks → Prop) (E a rest) :
    PR.post Q E (.ok a rest) ↔ Q a rest := Iff.rfl
@[simp] theorem PR.post_err {α : Type} (Q : α → Toks → Prop) (E : Toks → Prop) (e rest) :
    PR.post Q E (.err e rest) ↔ E rest := Iff.rfl
theorem PR.post_mono {α : Type} {Q Q' : α → Toks → Prop} {E E' : Toks → Prop} {r : PR α}
    (hQ : ∀ a t, Q a t → Q' a t) (hE : ∀ t, E t → E' t) : PR.post Q E r → PR.post Q' E' r := by
  cases r <;> simp [PR.post]
  · exact hQ _ _
  · exact hE _

/-- Total-correctness triple for a parser at `ts`: it does not diverge, panics only
within `A`, and its result satisfies `Q`, or `E` if it is an error. -/
def PWp {α : Type} (A : PanicSite → Prop) (p : P α) (ts : Toks) (Q : α → Toks → Prop)
    (E : Toks → Prop) : Prop :=
  Out.wp A (PR.post Q E) (p ts)

section
variable {α β : Type} {A : PanicSite → Prop} {Q Q' : α → Toks → Prop} {E E' : Toks → Prop}
  {ts : Toks}

theorem PWp.mono {p : P α} (h : PWp A p ts Q E) (hQ : ∀ a t, Q a t → Q' a t)
    (hE : ∀ t, E t → E' t) : PWp A p ts Q' E' :=
  Out.wp_mono (fun _ => PR.post_mono hQ hE) h

theorem PWp.and {p : P α} (h : PWp A p ts Q E) (h' : PWp A p ts Q' E') :
    PWp A p ts (fun a t => Q a t ∧ Q' a t) (fun t => E t ∧ E' t) := by
  refine Out.wp_mono ?_ (Out.wp_and h h')
  intro r hr; cases r <;> exact hr

theorem PWp.bind {p : P α} {f : α → P β} {S : β → Toks → Prop}
    (h : PWp A p ts (fun a t => PWp A (f a) t S E) E) : PWp A (p >>= f) ts S E := by
  unfold PWp at *
  rw [P.bind_apply, Out.wp_bind]
  refine Out.wp_mono ?_ h
  intro r hr
  cases r with
  | ok a rest => exact hr
  | err e rest => exact hr

theorem PWp.pure {a : α} (h : Q a ts) : PWp A (pure a : P α) ts Q E := h
theorem PWp.inp {Q : Toks → Toks → Prop} (h : Q ts ts) : PWp A inp ts Q E := h
theorem PWp.fail {e} (h : E ts) : PWp A (fail e : P α) ts Q E := h
theorem PWp.emitP {d} {Q : Unit → Toks → Prop} (h : Q () ts) : PWp A (emitP d) ts Q E := h
theorem PWp.liftOut {o : Out α} (h : Out.wp A (fun a => Q a ts) o) : PWp A (liftOut o) ts Q E := by
  unfold PWp; simp; exact h

theorem PWp.rollback {p : P α} {Q : Option α → Toks → Prop}
    (h : PWp A p ts (fun a t => Q (some a) t) (fun _ => Q none ts)) :
    PWp A (rollback p) ts Q E := by
  unfold PWp at *
  rw [rollback_apply, Out.wp_bind]
  refine Out.wp_mono ?_ h
  intro r hr
  cases r <;> exact hr

theorem PWp.unwrapP {p : P α} {site} (h : PWp A p ts Q (fun _ => A site)) :
    PWp A (unwrapP site p) ts Q E := by
  unfold PWp at *
  rw [unwrapP_apply, Out.wp_bind]
  refine Out.wp_mono ?_ h
  intro r hr
  cases r <;> exact hr

theorem PWp.unwrapOrAbort {p : P α} (h : PWp A p ts Q (fun _ => True)) :
    PWp A (unwrapOrAbort p) ts Q E := by
  unfold PWp at *
  rw [unwrapOrAbort_apply, Out.wp_bind]
  refine Out.wp_mono ?_ h
  intro r hr
  cases r with
  | ok a rest => exact hr
  | err e rest => trivial
end

end Mview
