import Verif.Lemmas.Edit
import Verif.Props.Block
/-
C66: editing the children of an element changes the code in one place.
-/

set_option linter.unusedVariables false

namespace Mview
open Lex

variable {pp : PathParser} {s : Sched} {K : BlockGap} {b : Bool} {x : Toks} {P Q : List Issue} {T : TreeGap}

/-- Nothing is reported for an accepted input. -/
theorem accepted_issues {ts out : Toks} (hl : LexicalToks ts) (h : mview pp s ts = .tokens out) {is : List Issue}
    {cs : List Child} (hr : ReadsChildren pp ts is cs) : is = [] := by
  have h1 := is_reported (reading_exact (s := s) hl hr)
  rw [h] at h1
  have := all_reported (ds := []) ((StopsFatal.readsChildren hr).append (StopsFatal.root _)) h1.symm (by simp)
  simp only [List.map_nil, List.append_eq_nil_iff] at this
  exact this.1

/-- C66.  For each block of children in an accepted input there is code with a gap (several ones, if the order of the
iteration of a hash map matters), such that with any content of the block, what is generated is the code for the
content, as it is for an element, component or slot, in that gap. -/
theorem edit_in_place (hpp : pp.Starts) (hloc : pp.Local) (hfl : pp.FailsLocally) (h : BlockAt pp K b x P Q T)
    (hl : LexicalToks (K.fill x)) {o : Toks} (ho : mview pp s (K.fill x) = .tokens o) :
    ∃ around : CodeGap → Prop, ∀ {y out}, LexicalToks y → Looked b y [] →
      ((∃ s, mview pp s (K.fill y) = .tokens out) ↔
        ∃ cs G code, ReadsChildren pp y [] cs ∧ around G ∧ T.kind.Code cs code ∧ out = G.fill code) := by
  obtain ⟨around, hT⟩ := root_block h.shape.2
  obtain ⟨jx, hjx, hrx⟩ := block_read h
  obtain ⟨ix, cx, hx⟩ := reading_exists (pp := pp) (h.lexical hl).1
  have hnil := accepted_issues hl ho (hrx hx)
  simp only [List.append_eq_nil_iff] at hnil
  obtain ⟨rfl, rfl, rfl, rfl⟩ := hnil
  refine ⟨around, fun {y out} hy hj => ?_⟩
  obtain ⟨h', -⟩ := block_swap hpp hloc hfl h (fun i hi => by cases hi) hjx (fun i hi => by cases hi) hj
  obtain ⟨j', hj', hry⟩ := block_read h'
  cases looked_unique hj hj'
  have hly := (h.lexical hl).2 hy
  rw [expansion_iff hly]
  constructor
  · rintro ⟨root, h1, h2⟩
    obtain ⟨is, cs, hr⟩ := reading_exists (pp := pp) hy
    obtain ⟨s', hs'⟩ := (expansion_iff (out := out) hly).mpr ⟨root, h1, h2⟩
    have hi := accepted_issues hly hs' (hry hr)
    simp only [List.nil_append, List.append_nil] at hi
    subst hi
    have hr' := hry hr
    have e1 := (reading_parses hly).mp h1
    have e2 := (reading_parses hly).mp hr'
    have e3 := e1.symm.trans e2
    cases e3
    obtain ⟨G, code, hG, hc, rfl⟩ := (hT _ _).mp h2
    exact ⟨cs, G, code, hr, hG, hc, rfl⟩
  · rintro ⟨cs, G, code, hr, hG, hc, rfl⟩
    exact ⟨_, hry hr, (hT _ _).mpr ⟨G, code, hG, hc, rfl⟩⟩

/-- C66.  So with another content that is accepted, the code around is the same (in some order of iteration of the hash
maps), only that of the children is replaced. -/
theorem edit_keeps_rest (hpp : pp.Starts) (hloc : pp.Local) (hfl : pp.FailsLocally) (h : BlockAt pp K b x P Q T)
    (hl : LexicalToks (K.fill x)) {o : Toks} (ho : mview pp s (K.fill x) = .tokens o) {y : Toks} {j : List Issue}
    (hy : LexicalToks y) (hj : Looked b y j) {s' : Sched} {o' : Toks} (ho' : mview pp s' (K.fill y) = .tokens o') :
    ∃ (G : CodeGap) (cs : List Child) (code : Toks) (cs' : List Child) (code' : Toks),
      ReadsChildren pp x [] cs ∧ T.kind.Code cs code ∧ ReadsChildren pp y [] cs' ∧ T.kind.Code cs' code' ∧
      o = G.fill code ∧ ∃ s'', mview pp s'' (K.fill y) = .tokens (G.fill code') := by
  obtain ⟨jx, hjx, hrx⟩ := block_read h
  obtain ⟨ix, cx, hx⟩ := reading_exists (pp := pp) (h.lexical hl).1
  have hnil := accepted_issues hl ho (hrx hx)
  simp only [List.append_eq_nil_iff] at hnil
  obtain ⟨rfl, rfl, rfl, rfl⟩ := hnil
  obtain ⟨h', -⟩ := block_swap hpp hloc hfl h (fun i hi => by cases hi) hjx (fun i hi => by cases hi) hj
  obtain ⟨j', hj', hry⟩ := block_read h'
  cases looked_unique hj hj'
  obtain ⟨iy, cy, hcy⟩ := reading_exists (pp := pp) hy
  have hnil := accepted_issues ((h.lexical hl).2 hy) ho' (hry hcy)
  simp only [List.append_eq_nil_iff] at hnil
  obtain ⟨-, rfl, -, -⟩ := hnil
  obtain ⟨around, H⟩ := edit_in_place hpp hloc hfl h hl ho
  obtain ⟨cs, G, code, hr, hG, hc, rfl⟩ := (H (h.lexical hl).1 hjx).mp ⟨s, ho⟩
  obtain ⟨cs', G', code', hr', hG', hc', rfl⟩ := (H hy hj).mp ⟨s', ho'⟩
  exact ⟨G, cs, code, cs', code', hr, hc, hr', hc', rfl, (H hy hj).mpr ⟨cs', G, code', hr', hG, hc', rfl⟩⟩

/-! ### examples -/

/-- The block of `p { "a" } q;`. -/
theorem exampleEdit : BlockAt simplePaths (.block t!"p" .brace .here t!"q;") true t!"\"a\"" [] []
    (.elem [] false (.html ⟨true, c!"p"⟩) [] [] none .here [.elem (.mk (.html ⟨true, c!"q"⟩) [] [] none none)]) := by
  refine .block (pre := t!"p") (lead := []) (d := .brace) (x := t!"\"a\"") (isSlot := false) (r0 := t!"p { \"a\" } q;")
    (r1 := t!"{ \"a\" } q;") (r2 := t!"{ \"a\" } q;") (ti := []) (si := []) (ai := []) (j := []) (.elem (noVal rfl) (noSlot rfl)) ?_
    (.done (by simp)) ?_ .none (by simp) (.other ?_ ?_) ?_
  · exact .name (run := t!"p") (noPath rfl) (longName rfl rfl) rfl
  · exact .done (noStart (by simp [TT.isIdent, TT.isDash])) (by
      intro c r he
      cases he
      exact ⟨noStart (by simp [TT.isIdent, TT.isDash]), by simp [IsSpread]⟩)
  · exact noStart (by simp [TT.isIdent, TT.isDash])
  · simp [IsSpread]
  · exact (reading_parses (lexical_of rfl)).mpr rfl

/-- What is generated for `p { .. } q;` -/
def exampleAround : CodeGap :=
  .group [] .brace (.group t!"#[allow(unused_braces)] ::leptos::prelude::View::new" .paren
    (.group [] .paren
      (.group t!"::leptos::prelude::IntoRender::into_render" .paren
        (.here t!"::leptos::tachys::html::element::r#p()" [])
        t!", ::leptos::prelude::IntoRender::into_render(::leptos::tachys::html::element::r#q()),") []) []) []

example :
    mview simplePaths (fun _ => []) t!"p { \"a\" } q;" =
      .tokens (exampleAround.fill t!".child(::leptos::prelude::IntoRender::into_render(\"a\"))") ∧
    mview simplePaths (fun _ => []) t!"p { } q;" = .tokens (exampleAround.fill []) ∧
    mview simplePaths (fun _ => []) t!"p { b; {c} } q;" =
      .tokens (exampleAround.fill t!".child(::leptos::prelude::IntoRender::into_render(::leptos::tachys::html::element::r#b()))
        .child(::leptos::prelude::IntoRender::into_render({c}))") := ⟨rfl, rfl, rfl⟩

/-- Whatever is there instead of `"a"`, if it is accepted: there are the calls `.child(..)` for its children, and the
rest of the code is the same as with `"a"`. -/
example {y : Toks} {j : List Issue} (hy : LexicalToks y) (hj : Looked true y j) {s : Sched} {o : Toks}
    (h : mview simplePaths s ((BlockGap.block t!"p" .brace .here t!"q;").fill y) = .tokens o) :
    ∃ (G : CodeGap) (code : Toks) (cs : List Child) (nodes : List Toks) (s' : Sched),
      ReadsChildren simplePaths y [] cs ∧ NodesMean cs nodes ∧
      mview simplePaths (fun _ => []) t!"p { \"a\" } q;" = .tokens (G.fill code) ∧
      mview simplePaths s' ((BlockGap.block t!"p" .brace .here t!"q;").fill y) =
        .tokens (G.fill (chain (nodes.map childCall))) := by
  obtain ⟨G, _, code, cs', code', h1, h2, h3, ⟨nodes, hn, rfl⟩, h5, s', h6⟩ :=
    edit_keeps_rest (s := fun _ => []) simplePaths_starts simplePaths_local simplePaths_failsLocally exampleEdit
      (lexical_of rfl) rfl hy hj h
  exact ⟨G, code, cs', nodes, s', h3, hn, by rw [← h5]; rfl, h6⟩

/-- In a component, the slots among the children are part of the edited code. -/
example : (TreeGap.elem [] false (.component ⟨false, [⟨plain c!"Foo", .none⟩]⟩) [] [] none .here []).kind =
    .component none [] := rfl

/-- Slots in an element are ignored: their children do not matter at all. -/
example : ∀ x ∈ [t!"", t!"\"a\"", t!"p { \"b\" }"],
    mview simplePaths (fun _ => []) ((BlockGap.block t!"p" .brace (.block t!"slot:Foo" .brace .here []) []).fill x) =
      .tokens t!"{ #[allow(unused_braces)]
        ::leptos::prelude::IntoRender::into_render(::leptos::tachys::html::element::r#p()) }" := by
  intro x hx
  simp only [List.mem_cons, List.not_mem_nil, or_false] at hx
  rcases hx with rfl | rfl | rfl <;> rfl

end Mview
