import Verif.Lemmas.Mend
import Verif.Lemmas.MendWrite
import Verif.Lemmas.Threads
import Verif.Lemmas.BlockIssues
import Verif.Props.Run
/-
C79: what is generated in spite of something that is too much is the view without it (feature `nightly`).
-/

-- the linter does not see variables used inside `q!"..."`
set_option linter.unusedVariables false

namespace Mview
open Lex

variable {pp pp' : PathParser} {s : Sched} {ts ts' out : Toks} {is : List Issue} {cs : List Child} {ds : List Diag}

theorem noSlot_mend : (cs : List Child) → (∀ c ∈ cs, c.isSlot = false) → ∀ c ∈ mend cs, c.isSlot = false
  | [], _ => by simp [mend]
  | .value v :: cs, h => by
    rw [mend]
    intro c hc
    rcases List.mem_cons.mp hc with rfl | hc
    · rfl
    · exact noSlot_mend cs (fun c hc => h c (by simp [hc])) c hc
  | .elem v :: cs, h => by
    rw [mend]
    intro c hc
    rcases List.mem_cons.mp hc with rfl | hc
    · rfl
    · exact noSlot_mend cs (fun c hc => h c (by simp [hc])) c hc
  | .slot v :: cs, h => by
    have := h (.slot v) (by simp)
    simp [Child.isSlot] at this

theorem rootIssues_noSlot (h : ∀ c ∈ cs, c.isSlot = false) : rootIssues cs = nodesIssues cs := by
  unfold rootIssues
  rw [if_neg]
  simp only [List.any_eq_true, not_exists, not_and, Bool.not_eq_true]
  exact h

theorem noSlot_of_issues (h : ∀ i ∈ rootIssues cs, ∃ d, i = .report d) : ∀ c ∈ cs, c.isSlot = false := by
  intro c hc
  cases hs : c.isSlot with
  | false => rfl
  | true =>
    unfold rootIssues at h
    rw [if_pos (List.any_eq_true.mpr ⟨c, hc, hs⟩)] at h
    obtain ⟨d, hd⟩ := h (.stop .slotAtTopLevel) (by simp)
    cases hd

/-- Mending takes away exactly the errors about what is too much. -/
theorem rootIssues_mend (h : ∀ c ∈ cs, c.isSlot = false) :
    rootIssues (mend cs) = (rootIssues cs).filter Issue.stays := by
  rw [rootIssues_noSlot h, rootIssues_noSlot (noSlot_mend cs h), nodesIssues_mend]

/-- It does not change what is generated. -/
theorem rootBecomes_mend {t : Toks} (h : RootBecomes cs t) : RootBecomes (mend cs) t := by
  obtain ⟨h1, nodes, h2, h3⟩ := h
  exact ⟨noSlot_mend cs h1, nodes, (nodes_mend cs nodes).mpr h2, h3⟩

theorem verdict_mended {is : List Issue} (hs : StopsFatal is) :
    (∀ ds, verdict is = .errors ds → verdict (is.filter Issue.stays) = .errors (ds.filter fun d => !d.isExtra)) ∧
    (∀ ds, verdict is = .stopped ds → verdict (is.filter Issue.stays) = .stopped (ds.filter fun d => !d.isExtra)) ∧
    (verdict is = .crashed → verdict (is.filter Issue.stays) = .crashed) := by
  induction is with
  | nil => exact ⟨fun ds h => (by cases h; rfl), fun ds h => (by cases h), fun h => (by cases h)⟩
  | cons i is ih =>
    obtain ⟨h1, h2, h3⟩ := ih fun d hd => hs d (by simp [hd])
    cases i with
    | stop d =>
      have hd : d.isExtra = false := by
        rcases hs d (by simp) with ⟨e, rfl⟩ | rfl | rfl <;> rfl
      refine ⟨fun ds h => (by cases h), fun ds h => ?_, fun h => (by cases h)⟩
      cases h
      rw [List.filter_cons_of_pos (by rfl)]
      simp [verdict, hd]
    | crash => exact ⟨fun ds h => (by cases h), fun ds h => (by cases h), fun _ => rfl⟩
    | report d =>
      rw [verdict]
      cases hv : verdict is <;> simp only [Verdict.add] <;>
        refine ⟨fun ds h => ?_, fun ds h => ?_, fun h => ?_⟩ <;> cases h <;>
        cases hd : d.isExtra <;> simp [Issue.stays, hd, verdict, h1, h2, h3, hv, Verdict.add]

/-- C79.  Take a view without slots at the top, and the view without what is too much.  With the feature `nightly`
the first generates exactly what the second generates, and it has the same errors in the same order, in addition to
those about what is too much. -/
theorem mended_nightly (hl : LexicalToks ts) (hl' : LexicalToks ts') (hp : Parses pp ts cs)
    (hp' : Parses pp' ts' (mend cs)) (hn : ∀ c ∈ cs, c.isSlot = false) (h : mviewNightly pp s ts = .done ds out) :
    ∃ s', mviewNightly pp' s' ts' = .done (ds.filter fun d => !d.isExtra) out := by
  have hr := (reading_parses hl).mpr hp
  have hr' := (reading_parses hl').mpr hp'
  have hi := rootIssues_mend hn
  obtain ⟨h1, h2, h3⟩ := verdict_mended (StopsFatal.root cs)
  cases hv : verdict (rootIssues cs) with
  | errors es =>
    obtain ⟨out', ho, hb⟩ := nightly_sound (s := s) hl hr (by simpa using hv)
    rw [h] at ho
    cases ho
    exact nightly_complete hl' hr' (by simpa [hi] using h1 _ hv) (rootBecomes_mend hb)
  | stopped es =>
    have ho := nightly_stopped (s := s) hl hr (by simpa using hv)
    rw [h] at ho
    cases ho
    exact ⟨s, nightly_stopped hl' hr' (by simpa [hi] using h2 _ hv)⟩
  | crashed =>
    obtain ⟨p, ho⟩ := nightly_crashed (s := s) hl hr (by simpa using hv)
    rw [h] at ho
    cases ho

/-- C79.  So if there are no other errors, the expansion is exactly that of the view without what is too much. -/
theorem mended_code (hl : LexicalToks ts) (hl' : LexicalToks ts') (hp : Parses pp ts cs)
    (hp' : Parses pp' ts' (mend cs)) (h : mviewNightly pp s ts = .done ds out) (hx : ∀ d ∈ ds, d.isExtra = true) :
    ∃ s', mview pp' s' ts' = .tokens out := by
  have hn : ∀ c ∈ cs, c.isSlot = false := by
    have hr := (reading_parses hl).mpr hp
    cases hv : verdict (rootIssues cs) with
    | errors es => exact noSlot_of_issues (verdict_errors.mp ⟨es, hv⟩)
    | stopped es =>
      exfalso
      have ho := nightly_stopped (s := s) hl hr (by simpa using hv)
      rw [h, NightlyResult.done.injEq] at ho
      obtain ⟨rfl, -⟩ := ho
      obtain ⟨d, hd, hm⟩ : ∃ d, .stop d ∈ rootIssues cs ∧ d ∈ ds := by
        have : ∀ {is : List Issue} {es : List Diag}, verdict is = .stopped es → ∃ d, .stop d ∈ is ∧ d ∈ es := by
          intro is
          induction is with
          | nil => intro es h; cases h
          | cons i is ih =>
            intro es h
            cases i with
            | stop d => cases h; exact ⟨d, by simp, by simp⟩
            | crash => cases h
            | report d =>
              rw [verdict] at h
              cases hv : verdict is <;> rw [hv] at h <;> cases h
              obtain ⟨d', h1, h2⟩ := ih hv
              exact ⟨d', by simp [h1], by simp [h2]⟩
        exact this hv
      have := hx d hm
      rcases StopsFatal.root cs d hd with ⟨e, rfl⟩ | rfl | rfl <;> cases this
    | crashed =>
      exfalso
      obtain ⟨p, ho⟩ := nightly_crashed (s := s) hl hr (by simpa using hv)
      rw [h] at ho
      cases ho
  obtain ⟨s', h'⟩ := mended_nightly hl hl' hp hp' hn h
  have he : (ds.filter fun d => !d.isExtra) = [] := by simpa using hx
  rw [he] at h'
  exact ⟨s', (nightly_accepts hl').mp h'⟩

/-- C79.  There is such an input, if names do not begin or end with a dash. -/
theorem mended_written (hpp : pp.Starts) (hloc : pp.Local) (hl : LexicalToks ts) (hp : Parses pp ts cs)
    (hf : allFirm cs) (h : mviewNightly pp s ts = .done ds out) (hx : ∀ d ∈ ds, d.isExtra = true) :
    ∃ ts' s', LexicalToks ts' ∧ Parses pp ts' (mend cs) ∧ mview pp s' ts' = .tokens out := by
  obtain ⟨ts', hl', hp'⟩ := mend_written hpp hloc hl hp hf
  obtain ⟨s', h'⟩ := mended_code hl hl' hp hp' h hx
  exact ⟨ts', s', hl', hp', h'⟩

/-- C79.  Also if there are mistakes in the syntax: the expansion stands for the tree that is read, without what is
too much. -/
theorem mended_means (hl : LexicalToks ts) (hr : ReadsChildren pp ts is cs)
    (hv : verdict (is ++ rootIssues cs) = .errors ds) (hx : ∀ d, .report d ∈ rootIssues cs → d.isExtra = true) :
    ∃ out, mviewNightly pp s ts = .done ds out ∧ RootMeans (mend cs) out := by
  obtain ⟨out, ho, hb⟩ := nightly_sound (s := s) hl hr hv
  have hall := verdict_errors.mp ⟨ds, hv⟩
  have hn : ∀ c ∈ cs, c.isSlot = false := noSlot_of_issues fun i hi => hall i (by simp [hi])
  have hi : rootIssues (mend cs) = [] := by
    rw [rootIssues_mend hn, List.filter_eq_nil_iff]
    intro i hi
    obtain ⟨d, rfl⟩ := hall i (by simp [hi])
    simp [Issue.stays, hx d hi]
  rw [rootIssues_noSlot (noSlot_mend cs hn)] at hi
  obtain ⟨h1, nodes, h2, h3⟩ := rootBecomes_mend hb
  exact ⟨out, ho, h1, nodes, nodesMean_of_become _ nodes (fine_nodes _ hi) h2, h3⟩

/-- C79.  And running it shows the page of that tree. -/
theorem Run.mended_page {V : Type} {R : Rust V} (hR : R.Names) (hl : LexicalToks ts) (hr : ReadsChildren pp ts is cs)
    (hv : verdict (is ++ rootIssues cs) = .errors ds) (hx : ∀ d, .report d ∈ rootIssues cs → d.isExtra = true)
    (hu : Run.AllUsual (mend cs)) :
    ∃ out page, mviewNightly pp s ts = .done ds out ∧ Run.AllShow R (mend cs) page ∧
      ∃ N, ∀ n ≥ N, Run.run R n out = some page := by
  obtain ⟨out, ho, hm⟩ := mended_means (s := s) hl hr hv hx
  obtain ⟨page, h1, h2⟩ := Run.root_runs hR hm hu
  exact ⟨out, page, ho, h1, h2⟩

/-! ### examples -/

set_option maxRecDepth 100000

/-- On an element: a directive that is unknown, one that is for components, and two modifiers. -/
example : mviewNightly simplePaths (fun _ => [])
      t!"div.a foo:b={c} class:d:e={f} clone:g on:click:h={i} on:click:undelegated={j} { \"k\" }" =
    .done [.unknownDirective (plain c!"foo"), .modifierNotAllowed (plain c!"e"), .directiveOnElement (plain c!"clone"),
      .unknownModifier (plain c!"h")]
      (match mview simplePaths (fun _ => [])
        t!"div.a class:d={f} on:click={i} on:click:undelegated={j} { \"k\" }" with | .tokens out => out | _ => []) := rfl

/-- In a component: a slot whose name is a path, and everything that slots do not have. -/
example : mviewNightly simplePaths (fun _ => [])
      t!"Foo clone:a:b={c} { slot:d::E; slot:F.g h=1 {..i} on:j={k} clone:l { \"m\" } \"n\" }" =
    .done [.modifierNotAllowed (plain c!"b"), .modifierNotAllowed (plain c!"b"), .cloneValue, .slotNameIsPath,
      .selectorOnSlot, .spreadOnSlot, .directiveOnSlot (plain c!"on")]
      (match mview simplePaths (fun _ => [])
        t!"Foo clone:a { slot:F h=1 clone:l { \"m\" } \"n\" }" with | .tokens out => out | _ => []) := rfl

/-- These are the mended views. -/
example : ∃ cs, Parses simplePaths
      t!"Foo clone:a:b={c} { slot:d::E; slot:F.g h=1 {..i} on:j={k} clone:l { \"m\" } \"n\" }" cs ∧
    Parses simplePaths t!"Foo clone:a { slot:F h=1 clone:l { \"m\" } \"n\" }" (mend cs) := ⟨_, rfl, rfl⟩

/-- Other mistakes are something else: nothing that can be written generates `.r#a()`. -/
example : mviewNightly simplePaths (fun _ => []) t!"div a=x[b];" =
    .done [.unsupportedPrefix (plain c!"x")] t!"{ #[allow(unused_braces)] ::leptos::prelude::IntoRender::into_render(
      ::leptos::tachys::html::element::r#div().r#a()) }" := rfl

end Mview
