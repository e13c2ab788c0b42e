import Verif.Lemmas.NightlySyntax
import Verif.Props.Syntax
import Verif.Props.Nightly
/-
C48: what is generated in spite of errors is valid syntax, too.
-/

namespace Mview
open Lex

variable {pp : PathParser} {s : Sched} {ts : Toks} {is : List Issue} {cs : List Child} {U : UserCode}

/-- C48.  Whatever errors are reported: if the code and paths of the user that the tree consists of are valid,
then so is what is generated.  Unless the macro is stopped it is a block. -/
theorem nightly_block {ds : List Diag} (hl : LexicalToks ts) (h : ReadsChildren pp ts is cs)
    (hu : childrenSound U false cs) (hv : verdict (is ++ rootIssues cs) = .errors ds) :
    ∃ b, mviewNightly pp s ts = .done ds [.group .brace b] ∧ Rust U .body b := by
  obtain ⟨out, ho, hb⟩ := nightly_sound (s := s) hl h hv
  obtain ⟨b, rfl, hr⟩ := rootBecomes_rust hb hu (children_tags' h (verdict_onlyReports hv))
  exact ⟨b, ho, hr⟩

/-- C48.  In any case it is an expression. -/
theorem nightly_valid {ds : List Diag} {out : Toks} (hl : LexicalToks ts) (h : ReadsChildren pp ts is cs)
    (hu : childrenSound U false cs) (ho : mviewNightly pp s ts = .done ds out) : Rust U .postfix out := by
  cases hv : verdict (is ++ rootIssues cs) with
  | errors es =>
    obtain ⟨b, ho', hb⟩ := nightly_block (s := s) hl h hu hv
    rw [ho'] at ho
    cases ho
    exact .block hb
  | stopped es =>
    rw [nightly_stopped hl h hv] at ho
    cases ho
    exact .unit
  | crashed =>
    obtain ⟨p, hp⟩ := nightly_crashed (s := s) hl h hv
    rw [hp] at ho
    cases ho

/-! ### examples -/

/-- What is put in place of a missing value is valid. -/
theorem missing_sound : (Value.block t!"::leptos_mview::MissingValueAfterEq").Sound U :=
  .last (.expr (.path (absPath_isPath (plain c!"leptos_mview") [plain c!"MissingValueAfterEq"] (by decide)))) rfl

/-- Mistakes of many kinds: a missing value, an event that is a string, values with unknown prefixes, a slot whose
name is a path, a selector on a slot, a number as a child, an unknown modifier, a stray semicolon, an element
without an end, something that is no child.  The code of the user is `c`, `z` and `d`. -/
def messy : Toks :=
  t!"Foo a= on:\"click\"={c} attr:x=y[1] {..z} |d| { slot:a::B; slot:Bar.c x=3; 5 div on:x:y class:z=w[]; ; u[1] p % }"

/-- Thirteen errors are reported. -/
example : ∃ ds out, mviewNightly simplePaths (fun _ => []) messy = .done ds out ∧ ds.length = 13 :=
  ⟨_, _, rfl, rfl⟩

theorem messy_sound : ∃ is cs, ReadsChildren simplePaths messy is cs ∧ childrenSound .none false cs := by
  obtain ⟨is, cs, h⟩ := reading_exists (pp := simplePaths) (ts := messy) (lexical_of rfl)
  have hc := (reading_given (lexical_of rfl) h).2 _ _ rfl
  cases hc
  refine ⟨_, _, h, ⟨?_, ?_, ?_, ?_⟩, trivial⟩
  · rintro p ⟨⟩; exact name_sound (by decide)
  · intro a ha
    simp only [List.mem_append, List.mem_singleton, List.not_mem_nil, false_or] at ha
    rcases ha with ((rfl | rfl) | rfl) | rfl
    · exact missing_sound
    · intro v hv; cases hv; exact .last (variable_rust (by decide)) rfl
    · intro v hv; cases hv; trivial
    · exact variable_rust (by decide)
  · intro _ _ a ha
    cases ha
    exact .names (.one (by decide))
  · refine ⟨fun _ => ⟨?_, ?_⟩, fun _ => ⟨?_, ?_⟩, trivial, ⟨?_, ?_⟩, trivial, ⟨?_, ?_⟩, trivial⟩
    · rintro p ⟨⟩
      refine ⟨_, _, _, rfl, trivial, .inl (by decide), ?_⟩
      simp only [List.mem_singleton]
      rintro s rfl
      exact ⟨.inl (by decide), trivial⟩
    · intro a ha; cases ha
    · rintro p ⟨⟩; exact name_sound (by decide)
    · intro a ha
      cases List.mem_singleton.mp ha
      trivial
    · rintro p ⟨⟩
    · intro a ha
      simp only [List.mem_append, List.mem_singleton, List.not_mem_nil, false_or] at ha
      rcases ha with rfl | rfl <;> intro v hv <;> cases hv
      trivial
    · rintro p ⟨⟩
    · intro a ha; cases ha

/-- What is generated is valid. -/
example : ∃ ds out, mviewNightly simplePaths (fun _ => []) messy = .done ds out ∧ Rust .none .postfix out := by
  obtain ⟨is, cs, h, hs⟩ := messy_sound
  exact ⟨_, _, rfl, nightly_valid (lexical_of rfl) h hs (s := fun _ => []) rfl⟩

end Mview
