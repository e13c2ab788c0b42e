import Verif.Lemmas.EditAnyway
import Verif.Props.Edit
import Verif.Props.Nightly
/-
C67: mistakes in the children of an element affect the code in one place (feature `nightly`).
-/

set_option linter.unusedVariables false

namespace Mview
open Lex

variable {pp : PathParser} {s : Sched} {K : BlockGap} {b : Bool} {x : Toks} {P Q : List Issue} {T : TreeGap}

/-- An input whose errors are not fatal has a reading with exactly these. -/
theorem reading_nonfatal {ts : Toks} {ds : List Diag} (hl : LexicalToks ts)
    (hr : (mview pp s ts).reported = some ds) (hd : ∀ d ∈ ds, ¬ d.Fatal) {is : List Issue} {cs : List Child}
    (h : ReadsChildren pp ts is cs) : is ++ rootIssues cs = ds.map .report := by
  have h1 := is_reported (reading_exact (s := s) hl h)
  rw [hr] at h1
  exact all_reported ((StopsFatal.readsChildren h).append (StopsFatal.root _)) h1.symm hd

/-- C67.  For each block of children, in an input whose errors are not fatal, there is code with a gap (several ones, if
the order of the iteration of a hash map matters), such that with any content of the block, if none of the errors are
fatal, what is generated in spite of them is the code for the content in that gap. -/
theorem mistakes_in_place (hpp : pp.Starts) (hloc : pp.Local) (hfl : pp.FailsLocally) (h : BlockAt pp K b x P Q T)
    (hl : LexicalToks (K.fill x)) {dx : List Diag} (hx : (mview pp s (K.fill x)).reported = some dx)
    (hdx : ∀ d ∈ dx, ¬ d.Fatal) :
    ∃ around : CodeGap → Prop, ∀ {y j is cs ds s'}, LexicalToks y → Looked b y j → ReadsChildren pp y is cs →
      (mview pp s' (K.fill y)).reported = some ds → (∀ d ∈ ds, ¬ d.Fatal) →
      ∀ out, (∃ s, mviewNightly pp s (K.fill y) = .done ds out) ↔
        ∃ G code, around G ∧ T.kindAnyway.CodeAnyway cs code ∧ out = G.fill code := by
  obtain ⟨around, hT⟩ := root_blockAnyway h.shape.2
  obtain ⟨jx, hjx, hrx⟩ := block_read h
  obtain ⟨ix, cx, hcx⟩ := reading_exists (pp := pp) (h.lexical hl).1
  have hall := reading_nonfatal hl hx hdx (hrx hcx)
  obtain ⟨d1, d2, rfl, h1, h2⟩ := map_report_append hall
  obtain ⟨p, d3, rfl, hp, -⟩ := map_report_append h1
  have hP : OnlyReports P := by
    rw [hp]
    intro i hi
    obtain ⟨d, -, rfl⟩ := List.mem_map.mp hi
    exact ⟨d, rfl⟩
  refine ⟨around, fun {y j is cs ds s'} hy hj hr hrep hd out => ?_⟩
  obtain ⟨h', -⟩ := block_swap hpp hloc hfl h hP hjx (looked_reports hjx) hj
  obtain ⟨j', hj', hry⟩ := block_read h'
  cases looked_unique hj hj'
  have hly := (h.lexical hl).2 hy
  have hread := hry hr
  have hi := reading_nonfatal hly hrep hd hread
  have hv : verdict (P ++ (j ++ (is ++ Q)) ++ rootIssues (T.fill cs)) = .errors ds := by rw [hi, verdict_reports]
  constructor
  · rintro ⟨s'', hs⟩
    obtain ⟨out', ho, hb⟩ := nightly_sound (s := s'') hly hread hv
    rw [hs] at ho
    cases ho
    exact (hT _ _).mp hb
  · intro hb
    exact nightly_complete hly hread hv ((hT _ _).mpr hb)

/-- C67.  So if the errors are not fatal, other children, with other mistakes, only change the code in one place: the
rest of what is generated is the same as before (in some order of iteration of the hash maps). -/
theorem mistakes_keep_rest (hpp : pp.Starts) (hloc : pp.Local) (hfl : pp.FailsLocally) (h : BlockAt pp K b x P Q T)
    (hl : LexicalToks (K.fill x)) {dx : List Diag} {o : Toks} (hx : mviewNightly pp s (K.fill x) = .done dx o)
    (hrx : (mview pp s (K.fill x)).reported = some dx) (hdx : ∀ d ∈ dx, ¬ d.Fatal)
    {y : Toks} {j : List Issue} (hy : LexicalToks y) (hj : Looked b y j) {s' : Sched} {ds : List Diag}
    (hry : (mview pp s' (K.fill y)).reported = some ds) (hds : ∀ d ∈ ds, ¬ d.Fatal) :
    ∃ (G : CodeGap) (is is' : List Issue) (cs cs' : List Child) (code code' : Toks),
      ReadsChildren pp x is cs ∧ T.kindAnyway.CodeAnyway cs code ∧ ReadsChildren pp y is' cs' ∧
      T.kindAnyway.CodeAnyway cs' code' ∧ o = G.fill code ∧
      ∃ s'', mviewNightly pp s'' (K.fill y) = .done ds (G.fill code') := by
  obtain ⟨around, H⟩ := mistakes_in_place hpp hloc hfl h hl hrx hdx
  obtain ⟨jx, hjx, -⟩ := block_read h
  obtain ⟨is, cs, hcs⟩ := reading_exists (pp := pp) (h.lexical hl).1
  obtain ⟨is', cs', hcs'⟩ := reading_exists (pp := pp) hy
  obtain ⟨G, code, hG, hc, rfl⟩ := (H (h.lexical hl).1 hjx hcs hrx hdx o).mp ⟨s, hx⟩
  -- something is generated for the other content
  have hly := (h.lexical hl).2 hy
  obtain ⟨iy, cy, hcy⟩ := reading_exists (pp := pp) hly
  have hv : verdict (iy ++ rootIssues cy) = .errors ds := by
    rw [reading_nonfatal hly hry hds hcy, verdict_reports]
  obtain ⟨oy, hoy, -⟩ := nightly_sound (s := s') hly hcy hv
  obtain ⟨-, code', -, hc', -⟩ := (H hy hj hcs' hry hds oy).mp ⟨s', hoy⟩
  exact ⟨G, is, is', cs, cs', code, code', hcs, hc, hcs', hc', rfl,
    (H hy hj hcs' hry hds _).mpr ⟨G, code', hG, hc', rfl⟩⟩

/-! ### examples -/

/-- What is generated for `3 p { .. } ;`: the `3` is replaced by an empty string. -/
def exampleAnywayAround : CodeGap :=
  .group [] .brace (.group t!"#[allow(unused_braces)] ::leptos::prelude::View::new" .paren
    (.group [] .paren
      (.group t!"::leptos::prelude::IntoRender::into_render(\"\"), ::leptos::prelude::IntoRender::into_render" .paren
        (.here t!"::leptos::tachys::html::element::r#p()" []) t!",") []) []) []

/-- The children `1 q`, none, and one with an unknown directive and a superfluous semicolon. -/
example :
    mviewNightly simplePaths (fun _ => []) t!"3 p { 1 q } ;" =
      .done [.nonStringChild, .nonStringChild, .unterminated, .extraSemicolon]
        (exampleAnywayAround.fill t!".child(::leptos::prelude::IntoRender::into_render(\"\"))
          .child(::leptos::prelude::IntoRender::into_render(::leptos::tachys::html::element::r#q()))") ∧
    mviewNightly simplePaths (fun _ => []) t!"3 p { } ;" =
      .done [.nonStringChild, .extraSemicolon] (exampleAnywayAround.fill []) ∧
    mviewNightly simplePaths (fun _ => []) t!"3 p { q a:b={c};; } ;" =
      .done [.nonStringChild, .extraSemicolon, .extraSemicolon, .unknownDirective (plain c!"a")]
        (exampleAnywayAround.fill
          t!".child(::leptos::prelude::IntoRender::into_render(::leptos::tachys::html::element::r#q()))") :=
  ⟨rfl, rfl, rfl⟩

/-- Whatever is there instead of `1 q`, the calls `.child(..)` for that are in the same place of the code. -/
example {y : Toks} {j : List Issue} {ds : List Diag} (hl : LexicalToks y) (hy : Looked true y j)
    (hr : (mview simplePaths (fun _ => []) ((BlockGap.block t!"3 p" .brace .here t!";").fill y)).reported = some ds)
    (hd : ∀ d ∈ ds, ¬ d.Fatal) :
    ∃ (G : CodeGap) (code : Toks) (is : List Issue) (cs : List Child) (nodes : List Toks) (s : Sched),
      ReadsChildren simplePaths y is cs ∧ NodesBecome cs nodes ∧
      mviewNightly simplePaths (fun _ => []) t!"3 p { 1 q } ;" =
        .done [.nonStringChild, .nonStringChild, .unterminated, .extraSemicolon] (G.fill code) ∧
      mviewNightly simplePaths s ((BlockGap.block t!"3 p" .brace .here t!";").fill y) =
        .done ds (G.fill (chain (nodes.map childCall))) := by
  obtain ⟨G, _, is, _, cs, code, _, -, -, h3, ⟨nodes, hn, rfl⟩, h5, s, h6⟩ :=
    mistakes_keep_rest (s := fun _ => []) simplePaths_starts simplePaths_local simplePaths_failsLocally exampleBlock
      (lexical_of rfl) rfl rfl (by simp [Diag.Fatal]) hl hy hr hd
  exact ⟨G, code, is, cs, nodes, s, h3, hn, by rw [← h5]; rfl, h6⟩

/-- A fatal error in the block is different: nothing else is generated. -/
example : mviewNightly simplePaths (fun _ => []) t!"3 p { q a:; } ;" =
    .done [.nonStringChild, .synAbort .expectedKebab] t!"()" := rfl

end Mview
