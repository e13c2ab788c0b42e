import Verif.Lemmas.Used
import Verif.Lemmas.Says
import Verif.Lemmas.ParseAborts
/-
The macro as a whole: an accepted input expands to exactly what its tree stands for
(`Spec/Meaning.lean`), C24, C25, C31.
-/

-- the linter does not see variables used inside `q!"..."`
set_option linter.unusedVariables false

namespace Mview
open Lex

variable {pp : PathParser} {s : Sched} {ts out : Toks} {root : List Child}

/-- Whenever the macro returns tokens, the input was accepted by the parser without any
diagnostic and the tokens are what the tree it was read as stands for. -/
theorem mview_sound (h : mview pp s ts = .tokens out) :
    ∃ root, Parses pp ts root ∧ RootMeans root out := by
  obtain ⟨root, h1, h2⟩ := mview_tokens_iff.mp h
  exact ⟨root, h1, expandRoot_sound (parses_ok h1) h2⟩

/-- Conversely everything the tree of an accepted input stands for is the expansion, for
some iteration order of the hash maps. -/
theorem mview_complete (h : Parses pp ts root) (hm : RootMeans root out) :
    ∃ s, mview pp s ts = .tokens out := by
  obtain ⟨s, hs⟩ := expandRoot_complete (parses_ok h) hm
  exact ⟨s, mview_tokens_iff.mpr ⟨root, h, hs⟩⟩

/-- The tokens returned for an accepted input are what its tree stands for. -/
theorem mview_means (hp : Parses pp ts root) (h : mview pp s ts = .tokens out) :
    RootMeans root out := by
  obtain ⟨root', h1, h2⟩ := mview_sound h
  rwa [hp.unique h1]

/-- C24.  A successful expansion is a single braced block: of the only child, or of
`View::new((..,))` around all of them.  The children are in source order, each standing
for itself. -/
theorem expansion_shape (hp : Parses pp ts root) (h : mview pp s ts = .tokens out) :
    ∃ codes, List.Forall₂ Child.Means root codes ∧
      ((∃ x, codes = [x] ∧ out = q!"{ #[allow(unused_braces)] #x }") ∨
       (codes.length ≠ 1 ∧ ∃ xs, xs = (codes.flatMap fun x => q!"#x,") ∧
          out = q!"{ #[allow(unused_braces)] ::leptos::prelude::View::new((#xs)) }")) := by
  obtain ⟨hns, nodes, hn, hm⟩ := mview_means hp h
  rw [nodesMean_iff] at hn
  have hf : root.filter (fun c => !c.isSlot) = root :=
    List.filter_eq_self.mpr fun c hc => by simp [hns c hc]
  rw [hf] at hn
  refine ⟨nodes, hn, ?_⟩
  have hc : ∀ xs : List Toks, commaAfter xs = xs.flatMap fun x => q!"#x," := by
    intro xs
    induction xs with
    | nil => rfl
    | cons x xs ih => simp [commaAfter, ih]
  rcases nodes with _ | ⟨x, _ | ⟨y, ys⟩⟩
  · exact Or.inr ⟨by simp, _, rfl, by simpa [viewOf, commaAfter] using hm⟩
  · exact Or.inl ⟨x, rfl, hm⟩
  · exact Or.inr ⟨by simp, _, rfl, by simpa [viewOf, hc] using hm⟩

/-- Two children, one of them nested. -/
example (s : Sched) : mview simplePaths s t!"div { {x} } \"hi\"" = .tokens
    t!"{ #[allow(unused_braces)] ::leptos::prelude::View::new((
      ::leptos::prelude::IntoRender::into_render(::leptos::tachys::html::element::r#div()
        .child(::leptos::prelude::IntoRender::into_render({x}))),
      ::leptos::prelude::IntoRender::into_render(\"hi\"),
    )) }" := rfl

/-- No children. -/
example (s : Sched) : mview simplePaths s [] = .tokens
    t!"{ #[allow(unused_braces)] ::leptos::prelude::View::new(()) }" := rfl

/-- C25.  The errors of a run are those of the parser followed by those of the
expansion; if there are any, only they and `()` are returned. -/
theorem errors_all_or_nothing (pp : PathParser) (s : Sched) (ts : Toks) :
    (∀ ds root, parseChildren pp ts = .ret ds (.ok root []) →
      (∀ es x, expandRoot s root = .ret es x →
        mview pp s ts = if ds ++ es = [] then .tokens x else .errors (ds ++ es) t!"()") ∧
      (∀ es, expandRoot s root = .abort es → mview pp s ts = .errors (ds ++ es) t!"()")) ∧
    (∀ ds, parseChildren pp ts = .abort ds → mview pp s ts = .errors ds t!"()") := by
  refine ⟨?_, ?_⟩
  · intro ds root hp
    refine ⟨?_, ?_⟩
    · intro es x he
      unfold mview mviewImpl
      rw [hp, Out.monad_bind, Out.bind_ret]
      simp only [he, Out.tell_ret]
      cases ds ++ es <;> rfl
    · intro es he
      unfold mview mviewImpl
      rw [hp, Out.monad_bind, Out.bind_ret]
      simp only [he, Out.tell_abort]
      rfl
  · intro ds hp
    unfold mview mviewImpl
    rw [hp, Out.monad_bind, Out.bind_abort]
    rfl

/-- C25.  Errors never come without a message, and what follows them is `()`. -/
theorem errors_then_unit {ds : List Diag} {rest : Toks} (h : mview pp s ts = .errors ds rest) :
    ds ≠ [] ∧ rest = t!"()" := by
  unfold mview at h
  split at h <;> simp at h
  · rename_i hne _
    obtain ⟨rfl, rfl⟩ := h
    refine ⟨?_, rfl⟩
    rintro rfl
    exact hne rfl
  · rename_i ds' he
    obtain ⟨rfl, rfl⟩ := h
    refine ⟨?_, rfl⟩
    have ha : Aborts (fun _ => True) (mviewImpl pp s ts) := by
      unfold mviewImpl
      refine .bind ((childrenF_aborts pp _ ts).weaken) fun r => ?_
      cases r with
      | ok cs r => exact (expandRoot_aborts s cs).weaken
      | err e r => exact .ret _ _
    obtain ⟨d, hd, _⟩ := ha _ he
    rintro rfl
    simp at hd

/-- Errors of the parser and of the expansion, in different children. -/
example (s : Sched) : mview simplePaths s t!"div foo:bar { 1 } p[x] ; \"ok\"" =
    .errors [.nonStringChild, .extraSemicolon, .unknownDirective ⟨false, c!"foo"⟩,
      .unsupportedPrefix ⟨false, c!"p"⟩] t!"()" := rfl

end Mview
