import Verif.Lemmas.Ignored
import Verif.Props.Nightly
import Verif.Props.Pieces
/-
C50: what makes no difference.
-/

namespace Mview
open Lex

variable {pp : PathParser} {s : Sched} {ts ts' out : Toks} {is : List Issue} {cs cs' root root' : List Child}

theorem Equivalent.issues (h : Equivalent cs cs') : rootIssues cs = rootIssues cs' := by
  rw [← rootIssues_trim cs, ← rootIssues_trim cs', h]

/-- C50.  Inputs that are read as trees that differ only in what makes no difference have the same errors. -/
theorem ignored_errors (hl : LexicalToks ts) (hl' : LexicalToks ts') (h : ReadsChildren pp ts is cs)
    (h' : ReadsChildren pp ts' is cs') (ha : Equivalent cs cs') :
    ((∃ t, mview pp s ts = .tokens t) ↔ ∃ t, mview pp s ts' = .tokens t) ∧
    (∀ ds r, mview pp s ts = .errors ds r ↔ mview pp s ts' = .errors ds r) ∧
    ((∃ p, mview pp s ts = .panicked p) ↔ ∃ p, mview pp s ts' = .panicked p) := by
  have h1 := reading_exact (s := s) hl h
  have h2 := reading_exact (s := s) hl' h'
  rw [ha.issues] at h1
  exact same_verdict h1 h2

/-- C50.  They have the same expansions, .. -/
theorem ignored_expansion (h : Parses pp ts root) (h' : Parses pp ts' root') (ha : Equivalent root root') :
    (∃ s, mview pp s ts = .tokens out) ↔ ∃ s, mview pp s ts' = .tokens out := by
  have key : ∀ {ts ts' : Toks} {root root' : List Child}, Parses pp ts root → Parses pp ts' root' →
      Equivalent root root' → (∃ s, mview pp s ts = .tokens out) → ∃ s, mview pp s ts' = .tokens out := by
    rintro ts ts' root root' h h' ha ⟨s, hs⟩
    refine mview_complete h' ?_
    rw [← rootMeans_trim, ← ha, rootMeans_trim]
    exact mview_means h hs
  exact ⟨key h h' ha, key h' h ha.symm⟩

/-- C50.  .. also those in spite of errors. -/
theorem ignored_nightly {ds : List Diag} (hl : LexicalToks ts) (hl' : LexicalToks ts')
    (h : ReadsChildren pp ts is cs) (h' : ReadsChildren pp ts' is cs') (ha : Equivalent cs cs')
    (hv : verdict (is ++ rootIssues cs) = .errors ds) :
    (∃ s, mviewNightly pp s ts = .done ds out) ↔ ∃ s, mviewNightly pp s ts' = .done ds out := by
  have key : ∀ {ts ts' : Toks} {cs cs' : List Child}, LexicalToks ts → LexicalToks ts' →
      ReadsChildren pp ts is cs → ReadsChildren pp ts' is cs' → Equivalent cs cs' →
      verdict (is ++ rootIssues cs) = .errors ds → (∃ s, mviewNightly pp s ts = .done ds out) →
      ∃ s, mviewNightly pp s ts' = .done ds out := by
    rintro ts ts' cs cs' hl hl' h h' ha hv ⟨s, hs⟩
    obtain ⟨o, h1, h2⟩ := nightly_sound (s := s) hl h hv
    rw [hs] at h1
    cases h1
    refine nightly_complete hl' h' (by rwa [← ha.issues]) ?_
    rw [← rootBecomes_trim, ← ha, rootBecomes_trim]
    exact h2
  exact ⟨key hl hl' h h' ha hv, key hl' hl h' h ha.symm (by rwa [← ha.issues])⟩

/-- C50.  Slots directly inside slots are only checked: if there is nothing wrong with them, the expansion is
that without them. -/
theorem slots_in_slots (h : Parses pp ts root) (h' : Parses pp ts' root')
    (ha : childrenTrim false true root' = childrenTrim true true root)
    (hs : mview pp s ts = .tokens out) : ∃ s, mview pp s ts' = .tokens out := by
  refine mview_complete h' ?_
  rw [← rootMeans_trim, ha]
  exact rootMeans_deep (mview_means h hs)

/-! ### examples -/

/-- An element with closure arguments and a slot in it; a component with closure arguments but only a
slot, modifiers, a missing value and a key as a name. -/
example : ∃ root root',
    Parses simplePaths t!"div class:a-b={x} |y| { slot:S { \"lost\" } }
      C class:a-b:c attr:x-y:z={1} |w| { slot:S |v| {} }" root ∧
    Parses simplePaths t!"div class:\"a-b\"={x}; C class:\"a-b\"=true attr:\"x-y\"={1} { slot:S; }" root' ∧
    Equivalent root root' :=
  ⟨_, _, rfl, rfl, rfl⟩

/-- What they expand to. -/
example (o : Toks) : (∃ s, mview simplePaths s t!"div |y| { slot:S { \"lost\" } }" = .tokens o) ↔
    ∃ s, mview simplePaths s t!"div;" = .tokens o :=
  ignored_expansion (root := [_]) (root' := [_]) rfl rfl rfl
example (s : Sched) : mview simplePaths s t!"div |y| { slot:S { \"lost\" } }" =
    .tokens t!"{ #[allow(unused_braces)]
      ::leptos::prelude::IntoRender::into_render(::leptos::tachys::html::element::r#div()) }" := rfl

/-- With errors. -/
example : (mview simplePaths (fun _ => []) t!"C class:a:b=g[x] foo:x |y| {}").diags =
      some [.unsupportedPrefix ⟨false, c!"g"⟩, .unknownDirective ⟨false, c!"foo"⟩] ∧
    (mview simplePaths (fun _ => []) t!"C class:\"a\"=g[x] foo:x;").diags =
      some [.unsupportedPrefix ⟨false, c!"g"⟩, .unknownDirective ⟨false, c!"foo"⟩] := ⟨rfl, rfl⟩

/-- Keys of `attr:` and `prop:` on components are names, not strings. -/
example : ∃ root root', Parses simplePaths t!"C prop:a=1;" root ∧ Parses simplePaths t!"C prop:\"a\"=1;" root' ∧
    ¬ Equivalent root root' := by
  refine ⟨_, _, rfl, rfl, ?_⟩
  intro h
  simp [Equivalent, childrenTrim, Element.trim, Attr.trim, Tag.isPath, Directive.trimOnComponent, plain] at h

/-- A slot in a slot. -/
example : mview simplePaths (fun _ => []) t!"C { slot:S { slot:T { {x} } \"a\" } }" =
    mview simplePaths (fun _ => []) t!"C { slot:S { \"a\" } }" := rfl
example : ∃ root root', Parses simplePaths t!"C { slot:S { slot:T { {x} } \"a\" } }" root ∧
    Parses simplePaths t!"C { slot:S { \"a\" } }" root' ∧
    childrenTrim false true root' = childrenTrim true true root :=
  ⟨_, _, rfl, rfl, rfl⟩

/-- It is still checked. -/
example : (mview simplePaths (fun _ => []) t!"C { slot:S { slot:T.x; \"a\" } }").diags = some [.selectorOnSlot] := rfl

end Mview
