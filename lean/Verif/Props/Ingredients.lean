import Verif.Lemmas.Ingredients
import Verif.Props.Template
import Verif.Props.Order
/-
C83: what is written in a view is used on the page exactly once.
-/

namespace Mview.Run
open Lex

variable {V : Type} {R : Rust V} {pp : PathParser} {s : Sched} {ts out : Toks} {root : List Child}

theorem countP_total {α : Type} (Q : α → Bool) (xs : List α) :
    xs.countP Q = total (fun x => if Q x then 1 else 0) xs := by
  induction xs with
  | nil => rfl
  | cons x xs ih => rw [List.countP_cons, total_cons, ih, Nat.add_comm]

/-- C83.  The values, spreads, parameters and cloned variables on the page are exactly those written in the view, each as
often as it is written, leaving aside values that names may have: strings, `true` and `false`. -/
theorem every_ingredient (hR : R.Names) (hp : Parses pp ts root) (h : mview pp s ts = .tokens out) (hu : AllUsual root)
    {page : List (Dom V)} (hb : Builds R out page) {Q : Ingredient V → Bool}
    (hs : ∀ x, Q (.value (R.lit (.str x))) = false) (ht : ∀ b, Q (.value (R.bool b)) = false) :
    ((domsIngredients page).filter Q).Perm (((childrenGive false root).map (Ingredient.map (valueOf R))).filter Q) := by
  classical
  obtain ⟨ds, hds, hrun⟩ := run_shows hR hp h hu
  have := hb.unique hrun
  subst this
  have ha : nodesAccepted root := ((accepted (s := s) hp).mp ⟨out, h⟩).2
  rw [List.perm_iff_count]
  intro x
  have key : ∀ w : Ingredient V → Nat, Nameless R w →
      total w (domsIngredients page) = total w ((childrenGive false root).map (Ingredient.map (valueOf R))) := by
    intro w hw
    have h1 := allShow_gives hw root page ha hds
    have h2 := childrenGive_split (R := R) (w := w) false root
    rw [total_map]
    simp only [Bool.false_eq_true, if_false, gives_nil, Nat.add_zero] at h2
    exact h1.trans h2.symm
  have h1 : ∀ xs : List (Ingredient V), (xs.filter Q).count x = total (fun y => if Q y ∧ y = x then 1 else 0) xs := by
    intro xs
    rw [List.count, List.countP_filter, countP_total]
    congr 1
    funext y
    by_cases hy : y = x <;> simp [hy]
  rw [h1, h1]
  exact key _ ⟨fun a => by simp [hs], fun b => by simp [ht]⟩

/-- A value that no name has. -/
def isOwn : Ingredient Code → Bool
  | .value (.lit (.str _)) => false
  | .value (.bool _) => false
  | _ => true

/-- C83.  Without running any code: the expressions on the page are exactly those written in the view. -/
theorem every_expression (hp : Parses pp ts root) (h : mview pp s ts = .tokens out) (hu : AllUsual root)
    {page : List (Dom Code)} (hb : Builds written out page) :
    ((domsIngredients page).filter isOwn).Perm
      (((childrenGive false root).map (Ingredient.map (valueOf written))).filter isOwn) :=
  every_ingredient written_names hp h hu hb (fun _ => rfl) (fun _ => rfl)

/-! ### an example -/

set_option maxRecDepth 100000

/-- A component with everything there is, and an element with a slot, which is dropped. -/
def exampleGiven : Toks :=
  t!"Foo.x a={b} clone:c on:e={f} {..g} |d| { slot:S b={h} clone:i { {j} \"k\" } slot:T |l| { } p class:m={n} q { [o] } }
     div r=f[\"s\"] use:t={u} |v| { slot:U w={x}; }"

/-- This is what is written in it. -/
example : ∃ root, Parses simplePaths exampleGiven root ∧
    childrenGive false root =
      [.value (.block t!"b"), .value (.block t!"f"), .spread t!"g", .args t!"|d|", .clone c!"c",
        .value (.block t!"h"), .clone c!"i", .value (.block t!"j"), .value (.lit (.tok (.str c!"k"))),
        .value (.block t!"n"), .value (.lit (.bool true)), .value (.bracket none t!"o"),
        .value (.bracket (some (plain c!"f")) t!"\"s\""), .value (.block t!"u")] := ⟨_, rfl, rfl⟩

/-- And this is on the page, in another order. -/
example : ∃ out page, mview simplePaths (fun _ => []) exampleGiven = .tokens out ∧ run written 10 out = some page ∧
    (domsIngredients page).filter isOwn =
      [.value (.block t!"b"), .args t!"|d|", .clone c!"c", .value (.block t!"n"), .value (.lazy t!"o"),
        .value (.block t!"h"), .clone c!"i", .value (.block t!"j"), .value (.block t!"f"), .spread t!"g",
        .value (.format t!"\"s\""), .value (.block t!"u")] := ⟨_, _, rfl, rfl, rfl⟩

end Mview.Run
