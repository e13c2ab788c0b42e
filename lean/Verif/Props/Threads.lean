import Verif.Lemmas.Threads
import Verif.Props.Grammar
/-
C74: every mistake is made at one single place.
-/

namespace Mview
open Lex

variable {pp : PathParser} {s s' : Sched} {ts : Toks} {root : List Child}

/-- the macro on a parsed input -/
theorem mview_tokens (h : Parses pp ts root) :
    (∃ out, mview pp s ts = .tokens out) ↔ ∃ out, expandRoot s root = .ret [] out := by
  have he : mviewImpl pp s ts = expandRoot s root := by
    simp only [mviewImpl, show parseChildren pp ts = _ from h, Out.monad_bind, Out.bind]
    cases expandRoot s root <;> rfl
  unfold mview
  rw [he]
  cases expandRoot s root with
  | ret ds out => cases ds <;> simp
  | _ => simp

/-- C74.  The expansion of a view goes to its end, with or without errors, if and only if that of each of its
threads does. -/
theorem ends_iff_threads (h : Parses pp ts root) : (∃ ds out, expandRoot s root = .ret ds out) ↔
    ∀ t, ThreadOf t root → ∃ ds out, expandRoot s' [t] = .ret ds out := by
  have ok := parses_ok h
  have key : ∀ {s : Sched} {cs : List Child}, childrenOk (anyInput pp) cs →
      ((∃ ds out, expandRoot s cs = .ret ds out) ↔ ∀ i ∈ rootIssues cs, ∃ d, i = .report d) := by
    intro s cs ok
    rw [← verdict_errors]
    constructor
    · rintro ⟨ds, h⟩; exact ⟨ds, (returns_verdict ok).mp h⟩
    · rintro ⟨ds, h⟩; exact ⟨ds, (returns_verdict ok).mpr h⟩
  rw [key ok, all_issues_threads _ (by rintro ⟨d, h⟩; cases h)]
  constructor
  · intro hall t ht; exact (key (thread_ok ok ht)).mpr (hall t ht)
  · intro hall t ht; exact (key (thread_ok ok ht)).mp (hall t ht)

/-- C74.  The errors reported for a view are those reported for its threads: no error needs two things that stand
next to each other, and none goes away because of something that stands next to it. -/
theorem errors_of_threads (h : Parses pp ts root) {ds : List Diag} {out : Toks}
    (he : expandRoot s root = .ret ds out) (d : Diag) :
    d ∈ ds ↔ ∃ t, ThreadOf t root ∧ ∃ ds' out', expandRoot s' [t] = .ret ds' out' ∧ d ∈ ds' := by
  have ok := parses_ok h
  have hv := (returns_verdict ok).mp ⟨out, he⟩
  have hall := (ends_iff_threads (s := s) (s' := s') h).mp ⟨ds, out, he⟩
  have hs : ∀ c ∈ root, c.isSlot = false := by
    intro c hc
    cases hc' : c.isSlot with
    | false => rfl
    | true => rw [slot_stops ⟨c, hc, hc'⟩] at hv; cases hv
  rw [errors_has_report hv, rootIssues_threads _ hs]
  constructor
  · rintro ⟨t, ht, hi⟩
    obtain ⟨ds', out', he'⟩ := hall t ht
    exact ⟨t, ht, ds', out', he', (errors_has_report ((returns_verdict (thread_ok ok ht)).mp ⟨out', he'⟩) d).mpr hi⟩
  · rintro ⟨t, ht, ds', out', he', hd⟩
    exact ⟨t, ht, (errors_has_report ((returns_verdict (thread_ok ok ht)).mp ⟨out', he'⟩) d).mp hd⟩

/-- C74.  A view is expanded without errors if and only if each of its threads is. -/
theorem accepted_iff_threads (h : Parses pp ts root) : (∃ out, expandRoot s root = .ret [] out) ↔
    ∀ t, ThreadOf t root → ∃ out, expandRoot s' [t] = .ret [] out := by
  constructor
  · rintro ⟨out, he⟩ t ht
    obtain ⟨ds, out', he'⟩ := (ends_iff_threads (s' := s') h).mp ⟨_, _, he⟩ t ht
    cases ds with
    | nil => exact ⟨_, he'⟩
    | cons d ds =>
      exact absurd ((errors_of_threads h he d).mpr ⟨t, ht, _, _, he', List.mem_cons_self⟩) (by simp)
  · intro hall
    obtain ⟨ds, out, he⟩ := (ends_iff_threads (s := s) (s' := s') h).mpr fun t ht => ⟨_, hall t ht⟩
    cases ds with
    | nil => exact ⟨_, he⟩
    | cons d ds =>
      obtain ⟨t, ht, ds', out', he', hd⟩ := (errors_of_threads (s' := s') h he d).mp List.mem_cons_self
      obtain ⟨o, ho⟩ := hall t ht
      rw [ho] at he'
      cases he'
      cases hd

/-- C74.  The same for what one writes: let each thread of a view be written in some way; then the macro takes the
view if and only if it takes all of them. -/
theorem mview_iff_threads (h : Parses pp ts root) (w : Child → Toks)
    (hw : ∀ t, ThreadOf t root → Parses pp (w t) [t]) : (∃ out, mview pp s ts = .tokens out) ↔
    ∀ t, ThreadOf t root → ∃ out, mview pp s' (w t) = .tokens out := by
  rw [mview_tokens h, accepted_iff_threads (s' := s') h]
  constructor
  · intro hall t ht; exact (mview_tokens (hw t ht)).mpr (hall t ht)
  · intro hall t ht; exact (mview_tokens (hw t ht)).mp (hall t ht)

/-- C74.  Leaving something out of a view that is accepted does not make it wrong. -/
theorem left_out_accepted {ts' : Toks} {root' : List Child} (h : Parses pp ts root) (h' : Parses pp ts' root')
    (hl : AllLeftOut root' root) (ha : ∃ out, mview pp s ts = .tokens out) :
    ∃ out, mview pp s' ts' = .tokens out := by
  rw [mview_tokens h, accepted_iff_threads (s' := s) h] at ha
  rw [mview_tokens h', accepted_iff_threads (s' := s) h']
  rintro t ⟨c, hc, ht⟩
  exact ha t (hl.threads c hc t ht)

/-- C74.  If only errors are reported for a view, nothing else is reported if something is left out. -/
theorem left_out_errors {ts' : Toks} {root' : List Child} (h : Parses pp ts root) (h' : Parses pp ts' root')
    (hl : AllLeftOut root' root) {ds : List Diag} {out : Toks} (he : expandRoot s root = .ret ds out) :
    ∃ ds' out', expandRoot s' root' = .ret ds' out' ∧ ∀ d ∈ ds', d ∈ ds := by
  have hall := (ends_iff_threads (s' := s) h).mp ⟨_, _, he⟩
  obtain ⟨ds', out', he'⟩ := (ends_iff_threads (s := s') (s' := s) h').mpr fun t ⟨c, hc, ht⟩ =>
    hall t (hl.threads c hc t ht)
  refine ⟨ds', out', he', fun d hd => ?_⟩
  obtain ⟨t, ⟨c, hc, ht⟩, x⟩ := (errors_of_threads (s' := s) h' he' d).mp hd
  exact (errors_of_threads (s' := s) h he d).mpr ⟨t, hl.threads c hc t ht, x⟩

/-! ### examples -/

/-- Two of the threads of a view are wrong, and their errors are those of the view. -/
example : ∃ root t₁ t₂ t₃, Parses simplePaths t!"div.x bar:y { Foo a={1} { \"z\" slot:A.b; } }" root ∧
    Parses simplePaths t!"div bar:y;" [t₁] ∧ ThreadOf t₁ root ∧
    Parses simplePaths t!"div { Foo { slot:A.b; } }" [t₂] ∧ ThreadOf t₂ root ∧
    Parses simplePaths t!"div { Foo a={1}; }" [t₃] ∧ ThreadOf t₃ root ∧
    (∃ out, expandRoot (fun _ => []) root =
      .ret [.unknownDirective (plain c!"bar"), .selectorOnSlot] out) ∧
    (∃ out, expandRoot (fun _ => []) [t₁] = .ret [.unknownDirective (plain c!"bar")] out) ∧
    (∃ out, expandRoot (fun _ => []) [t₂] = .ret [.selectorOnSlot] out) ∧
    (∃ out, expandRoot (fun _ => []) [t₃] = .ret [] out) :=
  ⟨_, _, _, _, rfl, rfl, ⟨_, .head _, .elem (.attr (.head _))⟩, rfl,
    ⟨_, .head _, .elem (.child (.head _) (.elem (.child (.tail _ (.head _)) (.slot (.sel (.head _))))))⟩, rfl,
    ⟨_, .head _, .elem (.child (.head _) (.elem (.attr (.head _))))⟩, ⟨_, rfl⟩, ⟨_, rfl⟩, ⟨_, rfl⟩, ⟨_, rfl⟩⟩

/-- Something left out at several places at once. -/
example : ∃ root root', Parses simplePaths t!"div.x class:y={z} { Foo a={1} |b| { \"c\" slot:A d=1; } \"e\" }" root ∧
    Parses simplePaths t!"div class:y={z} { Foo { slot:A; } }" root' ∧ AllLeftOut root' root ∧
    ∃ out, mview simplePaths (fun _ => []) t!"div class:y={z} { Foo { slot:A; } }" = .tokens out := by
  refine ⟨_, _, rfl, rfl, ?_, ?_⟩
  · refine .both (.elem (.block (List.nil_sublist _) (List.Sublist.refl _) (.inl rfl) (.both (.elem (.block
      (List.nil_sublist _) (List.nil_sublist _) (.inl rfl) (.without (.both (.slot (.void
      (List.nil_sublist _) (List.nil_sublist _))) .nil)))) (.without .nil)))) .nil
  · refine left_out_accepted (s := fun _ => [])
      (ts := t!"div.x class:y={z} { Foo a={1} |b| { \"c\" slot:A d=1; } \"e\" }") rfl rfl ?_ ⟨_, rfl⟩
    exact .both (.elem (.block (List.nil_sublist _) (List.Sublist.refl _) (.inl rfl) (.both (.elem (.block
      (List.nil_sublist _) (List.nil_sublist _) (.inl rfl) (.without (.both (.slot (.void
      (List.nil_sublist _) (List.nil_sublist _))) .nil)))) (.without .nil)))) .nil

/-- It is essential that what stands around a thing stays: a slot is fine in a component only. -/
example : (∃ out, mview simplePaths (fun _ => []) t!"Foo { slot:A; }" = .tokens out) ∧
    mview simplePaths (fun _ => []) t!"slot:A;" = .errors [.slotAtTopLevel] t!"()" := ⟨⟨_, rfl⟩, rfl⟩

end Mview
