import Verif.Lemmas.Syntax
import Verif.Props.Reads
/-
C45: the expansion is valid syntax.
-/

namespace Mview
open Lex

variable {pp : PathParser} {s : Sched} {ts out : Toks} {root : List Child} {U : UserCode}

/-- C45.  If the code and paths of the user that end up in the expansion are valid, then so is the
expansion: it is a block that can be used as an expression. -/
theorem expansion_block (hl : LexicalToks ts) (hp : Parses pp ts root) (hu : childrenSound U false root)
    (h : mview pp s ts = .tokens out) : ∃ b, out = [.group .brace b] ∧ Rust U .body b :=
  root_rust (mview_means hp h) hu (children_tags ((reading_parses hl).mpr hp) rfl)

/-- C45.  In particular the expansion can be used where an expression is expected. -/
theorem expansion_valid (hl : LexicalToks ts) (hp : Parses pp ts root) (hu : childrenSound U false root)
    (h : mview pp s ts = .tokens out) : Rust U .postfix out := by
  obtain ⟨b, rfl, hb⟩ := expansion_block hl hp hu h
  exact .block hb

/-- C45.  The same holds if there are errors. -/
theorem dummy_valid {ds : List Diag} (h : mview pp s ts = .errors ds out) : Rust U .postfix out := by
  unfold mview at h
  split at h <;> simp only [MacroResult.errors.injEq, reduceCtorEq] at h <;>
    (obtain ⟨_, rfl⟩ := h; exact .unit)

/-! ### examples -/

/-- A single name is a valid path. -/
theorem name_sound {i : Ident} (h : i.IsName) : Path.Sound U ⟨false, [⟨i, .none⟩]⟩ :=
  ⟨i, .none, [], rfl, trivial, .inl h, by simp⟩

/-- A variable. -/
theorem variable_rust {i : Ident} (h : i.IsName) : Rust U .expr [.ident i] :=
  .expr (.path (.rel (.inl h) .nil))

/-- A component with a generic argument, directives, a spread, closure arguments, children and two slots of
the same name; the code of the user is `y`, `z`, `f(x)` and `c`. -/
def sample : Toks :=
  t!"a::Tab<T> clone:x on:click={y} class:b {..z} |c| { slot:Bar a={f(x)}; {c} slot:Bar b=1; \"s\" div on:x; }"

theorem sample_sound : ∃ root, Parses simplePaths sample root ∧ childrenSound .none false root := by
  refine ⟨_, rfl, ⟨?_, ?_, ?_, ?_⟩, trivial⟩
  · rintro p ⟨⟩
    refine ⟨_, _, _, rfl, trivial, .inl (by decide), ?_⟩
    simp only [List.mem_singleton]
    rintro s rfl
    exact ⟨.inl (by decide), .name (by decide)⟩
  · intro a ha
    simp only [List.mem_append, List.mem_singleton, List.not_mem_nil, false_or] at ha
    rcases ha with ((rfl | rfl) | rfl) | rfl
    · intro v hv; cases hv
    · intro v hv; cases hv; exact .last (variable_rust (by decide)) rfl
    · intro v hv; cases hv
    · exact variable_rust (by decide)
  · intro _ _ a ha
    cases ha
    exact .names (.one (by decide))
  · refine ⟨fun _ => ⟨?_, ?_⟩, .last (variable_rust (by decide)) rfl, fun _ => ⟨?_, ?_⟩, trivial, ⟨?_, ?_⟩, trivial⟩
    · rintro p ⟨⟩; exact name_sound (by decide)
    · intro a ha
      cases List.mem_singleton.mp ha
      exact .last (.expr (.call (f := [.ident _]) (.path (.rel (.inl (by decide)) .nil))
        (.single (variable_rust (by decide))))) rfl
    · rintro p ⟨⟩; exact name_sound (by decide)
    · intro a ha
      cases List.mem_singleton.mp ha
      trivial
    · rintro p ⟨⟩
    · intro a ha
      cases List.mem_singleton.mp ha
      intro v hv; cases hv

/-- That is valid. -/
example : ∃ out, mview simplePaths (fun _ => []) sample = .tokens out ∧ Rust .none .postfix out := by
  obtain ⟨root, h, hs⟩ := sample_sound
  exact ⟨_, rfl, expansion_valid (lexical_of rfl) h hs (s := fun _ => []) rfl⟩

/-- Without the user's part in order, the expansion need not be: an empty spread on a component.
The entries are `(,)`. -/
example : ∃ out, mview simplePaths (fun _ => []) t!"Comp {..};" = .tokens out ∧ ¬ Rust .none .postfix out :=
  ⟨_, rfl, not_rust rfl _⟩

/-- Some things that are no expressions. -/
example : ∀ t ∈ [t!"f(a,, b)", t!"(,)", t!"f(\"a\" \"b\")", t!"f(a \"b\")", t!"{ let x = (\"a\" b); x }"],
    ¬ Rust .none .expr t := by
  intro t ht
  simp only [List.mem_cons, List.not_mem_nil, or_false] at ht
  rcases ht with rfl | rfl | rfl | rfl | rfl <;> exact not_rust rfl _

end Mview
