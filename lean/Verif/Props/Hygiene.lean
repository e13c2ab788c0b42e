import Verif.Lemmas.Hygiene
import Verif.Props.Grammar
import Verif.Lemmas.Context
/-
C37: generated code only uses absolute paths.
-/

namespace Mview
open Lex

variable {pp : PathParser} {s : Sched} {ts out : Toks} {root : List Child}

/-- C37.  Apart from code and names of the user, the expansion consists of paths starting with
`::leptos` or `::std`, methods, keywords, strings, punctuation and groups
(with the exceptions in `Hygienic`). -/
theorem absolute_paths (hp : Parses pp ts root) (h : mview pp s ts = .tokens out) :
    Hygienic (· ∈ childrenPieces root) false out :=
  root_hygienic (mview_means hp h)

/-- C37.  An identifier in the expansion that is not directly after `::` or `.` is either a keyword (or
one of `allow`, the lints, `__x` and `_`) or was written by the user. -/
theorem no_capture (hp : Parses pp ts root) (h : mview pp s ts = .tokens out) :
    ∀ i ∈ loose .none out,
      i ∈ ownNames.map plain ∨ ∃ u ∈ childrenPieces root, i ∈ idents u := fun i hi => by
  rcases (absolute_paths hp h).loose .none i hi with h | ⟨u, hu, h⟩
  · exact .inl h
  · exact .inr ⟨u, hu, h⟩

/-- C37.  A user who shadows a name they do not mention, e.g. `Into`, does not affect the expansion. -/
theorem shadowing_harmless {i : Ident} (hp : Parses pp ts root) (h : mview pp s ts = .tokens out)
    (hi : ∀ u ∈ childrenPieces root, i ∉ idents u) (ho : i ∉ ownNames.map plain) :
    i ∉ loose .none out := fun hl => by
  rcases no_capture hp h i hl with h | ⟨u, hu, h⟩
  · exact ho h
  · exact hi u hu h

/-! ### examples -/

/-- What is left open in a component with a slot, a directive and a closure.  `Tab`, `Bar`, `x`, `f` and
`c` are the user's. -/
example : ∃ out,
    mview simplePaths (fun _ => []) t!"Tab clone:x |c| { slot:Bar a={f(x)}; {c} }" = .tokens out ∧
    loose .none out = idents t!"allow unused_braces allow unreachable_code Tab Tab let r#x r#x move
      c c Bar f x" :=
  ⟨_, rfl, rfl⟩

/-- The code and names of the user in that example. -/
example : ∃ root,
    Parses simplePaths t!"Tab clone:x |c| { slot:Bar a={f(x)}; {c} }" root ∧
    childrenPieces root = [t!"Tab", t!"r#x", t!"|c|", t!"Bar", t!"f(x)", t!"c"] :=
  ⟨_, rfl, rfl⟩

/-- A trait that has to be in scope is not hygienic. -/
example : ¬ Hygienic (· ∈ [t!"x"]) false t!"Into::into(x)" := fun h => by
  rcases h.loose .none (plain c!"Into") (by simp [loose, TT.loose, plain]) with h | ⟨u, hu, h⟩
  · revert h; decide
  · simp only [List.mem_singleton] at hu
    subst hu
    revert h; decide

/-- A relative path is not hygienic. -/
example : ¬ Hygienic (· ∈ [t!"x"]) false t!"leptos::prelude::IntoRender::into_render(x)" := fun h => by
  rcases h.loose .none (plain c!"leptos") (by simp [loose, TT.loose, plain]) with h | ⟨u, hu, h⟩
  · revert h; decide
  · simp only [List.mem_singleton] at hu
    subst hu
    revert h; decide

/-- The path of another crate is not hygienic. -/
example : ¬ Hygienic (fun _ => False) false t!"::leptos_mview::helper()" := fun h => by
  have key : ∀ (b : Bool) (t : Toks), Hygienic (fun _ => False) b t → b = false →
      ∀ r, t ≠ .punct ':' .joint :: .punct ':' .alone :: .ident (plain c!"leptos_mview") :: r := by
    intro b t h
    cases h <;> intro hb r ht <;> simp [plain] at ht hb <;> try contradiction
    · simp_all [plain]
    · rename_i h
      obtain ⟨_, rfl⟩ := ht
      have := h.loose .dot (plain c!"leptos_mview") (by simp [loose, TT.loose, Before.next, plain])
      simp [ownNames, keywords, lints, plain] at this
  exact key _ _ h rfl _ rfl

end Mview
