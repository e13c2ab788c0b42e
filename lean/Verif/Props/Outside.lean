import Verif.Lemmas.Mend
import Verif.Props.EditAnyway
import Verif.Props.SelAnyway
/-
C88: mistakes elsewhere do not affect the code generated for a correct element (feature `nightly`).
-/

set_option linter.unusedVariables false

namespace Mview
open Lex

variable {pp : PathParser}

/-- What is generated for a correct element does not depend on whether there are mistakes elsewhere. -/
theorem correct_becomes {asSlot : Bool} {e : Element} (h : ∃ t, e.Means asSlot t) (t : Toks) :
    e.Becomes asSlot t ↔ e.Means asSlot t :=
  ⟨means_of_becomes asSlot e t ((accepted_iff asSlot e).mp h), becomes_of_means asSlot e t⟩

/-- C88.  For each place for an element (or slot with this tag) in a view there is code with a gap, such that with any
correct element there, if none of the errors of the input are fatal, what is generated in spite of them is the code
the element stands for in that gap.  (It may be that nothing there is used, as for slots in elements.) -/
theorem correct_in_mistaken (T : TreeGap) (before : List Child) (isSlot : Bool) (tag : Tag) (after : List Child) :
    ∃ around : CodeGap → Prop, ∀ {e ts is ds s' out}, (isSlot = true → e.tag = tag) → (∃ t, e.Means isSlot t) →
      LexicalToks ts → ReadsChildren pp ts is (T.fill (before ++ asChild isSlot e :: after)) →
      (mview pp s' ts).reported = some ds → (∀ d ∈ ds, ¬ d.Fatal) →
      ((∃ s, mviewNightly pp s ts = .done ds out) ↔
        ∃ G code, around G ∧ (T.useAnyway (slotNamed isSlot tag)).Code (fun e t => e.Means isSlot t) e code ∧
          out = G.fill code) := by
  obtain ⟨around, H⟩ := element_in_mistaken (pp := pp)
    (el := fun e : {e : Element // (isSlot = true → e.tag = tag) ∧ ∃ t, e.Means isSlot t} => e.1) T before isSlot
    (tag := tag) after (fun e h => e.2.1 h)
    (OnePlace.code.of_iff (C := fun e t => e.1.Means isSlot t) fun e t => correct_becomes e.2.2 t)
  refine ⟨around, fun {e ts is ds s' out} ht he hl hr hrep hd => ?_⟩
  have := H (a := ⟨e, ht, he⟩) (out := out) hl hr hrep hd
  rw [this]
  cases T.useAnyway (slotNamed isSlot tag) <;> exact Iff.rfl

/-- What is generated for an input that is only one element. -/
theorem alone_code {e : Element} {ts out : Toks} (hp : Parses pp ts [.elem e]) {s : Sched}
    (h : mview pp s ts = .tokens out) :
    ∃ code, e.Means false code ∧ out = (let x := rendered code; q!"{ #[allow(unused_braces)] #x }") := by
  obtain ⟨root, hp', -, nodes, hn, hm⟩ := mview_sound h
  cases hp.symm.trans hp'
  simp only [NodesMean] at hn
  obtain ⟨t, ts', ht, rfl, rfl⟩ := hn
  exact ⟨t, ht, hm⟩

/-- C88.  Thus if an element is accepted when it is the whole input, the code generated for it is there, unchanged, in
what is generated for any input without fatal errors that has it among its elements, whatever the other mistakes are. -/
theorem correct_stays {e : Element} {ts ts' out : Toks} {T : TreeGap} {before after : List Child} {is : List Issue}
    (hp : Parses pp ts [.elem e]) {s s' : Sched} (h : mview pp s ts = .tokens out) (hl : LexicalToks ts')
    (hr : ReadsChildren pp ts' is (T.fill (before ++ .elem e :: after))) (hu : T.useAnyway none = .used)
    {ds : List Diag} (hds : (mview pp s' ts').reported = some ds) (hd : ∀ d ∈ ds, ¬ d.Fatal) :
    ∃ (G : CodeGap) (code : Toks), out = (let x := rendered code; q!"{ #[allow(unused_braces)] #x }") ∧
      ∃ s'', mviewNightly pp s'' ts' = .done ds (G.fill code) := by
  obtain ⟨around, H⟩ := correct_in_mistaken (pp := pp) T before false (.html ⟨true, []⟩) after
  obtain ⟨code, hc, hout⟩ := alone_code hp h
  have he : ∃ t, e.Means false t := ⟨code, hc⟩
  have hv : verdict (is ++ rootIssues (T.fill (before ++ .elem e :: after))) = .errors ds := by
    rw [reading_nonfatal hl hds hd hr, verdict_reports]
  obtain ⟨o', ho', -⟩ := nightly_sound (s := s') hl hr hv
  have H' := fun out => H (e := e) (out := out) (by simp) he hl hr hds hd
  obtain ⟨G, code', hG, -, -⟩ := (H' o').mp ⟨s', ho'⟩
  refine ⟨G, code, hout, (H' _).mpr ⟨G, code, hG, ?_, rfl⟩⟩
  have : slotNamed false (.html ⟨true, []⟩) = none := rfl
  rw [this, hu]
  exact hc

/-- C88.  Conversely, in whatever is generated for such an input there is code that is generated for the element when it
is the whole input. -/
theorem correct_comes_from {e : Element} {ts ts' : Toks} {T : TreeGap} {before after : List Child} {is : List Issue}
    (hp : Parses pp ts [.elem e]) {s s' s'' : Sched} {out out' : Toks} (h : mview pp s ts = .tokens out)
    (hl : LexicalToks ts') (hr : ReadsChildren pp ts' is (T.fill (before ++ .elem e :: after)))
    (hu : T.useAnyway none = .used) {ds : List Diag} (hds : (mview pp s' ts').reported = some ds)
    (hd : ∀ d ∈ ds, ¬ d.Fatal) (ho : mviewNightly pp s'' ts' = .done ds out') :
    ∃ (G : CodeGap) (code : Toks), out' = G.fill code ∧
      ∃ s0, mview pp s0 ts = .tokens (let x := rendered code; q!"{ #[allow(unused_braces)] #x }") := by
  obtain ⟨around, H⟩ := correct_in_mistaken (pp := pp) T before false (.html ⟨true, []⟩) after
  obtain ⟨c0, hc0, -⟩ := alone_code hp h
  obtain ⟨G, code, -, hc, rfl⟩ := (H (e := e) (by simp) ⟨c0, hc0⟩ hl hr hds hd).mp ⟨s'', ho⟩
  have hn : slotNamed false (.html ⟨true, []⟩) = none := rfl
  rw [hn, hu] at hc
  have hc : e.Means false code := hc
  refine ⟨G, code, rfl, mview_complete hp ⟨by simp [Child.isSlot], [rendered code], ?_, rfl⟩⟩
  simp only [NodesMean]
  exact ⟨code, [], hc, rfl, rfl⟩

/-! ### whole blocks -/

/-- The same for children of any kind of element. -/
theorem correct_code {cs : List Child} (hn : nodesAccepted cs) (hs : slotsAccepted cs) : ∀ (kind : BlockKind) (t : Toks),
    kind.CodeAnyway cs t ↔ kind.Code cs t := by
  have h1 : ∀ ns, NodesBecome cs ns ↔ NodesMean cs ns := fun ns =>
    ⟨nodesMean_of_become cs ns hn, nodesBecome_of_mean cs ns⟩
  have h2 : ∀ ss, SlotsBecome cs ss ↔ SlotsMean cs ss := fun ss =>
    ⟨slotsMean_of_become cs ss hs, slotsBecome_of_mean cs ss⟩
  intro kind
  induction kind with
  | element => intro t; simp only [BlockKind.CodeAnyway, BlockKind.Code, h1]
  | component args cl => intro t; simp only [BlockKind.CodeAnyway, BlockKind.Code, h1, h2]
  | slot args cl => intro t; simp only [BlockKind.CodeAnyway, BlockKind.Code, h1, h2]
  | unused kind ih => intro t; simp only [BlockKind.CodeAnyway, BlockKind.Code, ih]
  | ignored => intro t; simp only [BlockKind.CodeAnyway, BlockKind.Code]

theorem noSlots_accepted : ∀ {cs : List Child}, (∀ c ∈ cs, c.isSlot = false) → slotsAccepted cs
  | [], _ => by simp [slotsAccepted]
  | .value v :: cs, h => by
    rw [slotsAccepted]; exact noSlots_accepted fun c hc => h c (by simp [hc])
  | .elem e :: cs, h => by
    rw [slotsAccepted]; exact noSlots_accepted fun c hc => h c (by simp [hc])
  | .slot e :: cs, h => by simpa [Child.isSlot] using h (.slot e) (by simp)

/-- C88.  The same for everything that is in a block: for each block of an input whose errors are not fatal there is code
with a gap, such that with any content that is accepted as an input of its own, and does not look like part of the
attributes in front of the block, what is generated is the code the content stands for there, in that gap. -/
theorem correct_block_in_mistaken {K : BlockGap} {b : Bool} {x : Toks} {P Q : List Issue} {T : TreeGap}
    (hpp : pp.Starts) (hloc : pp.Local) (hfl : pp.FailsLocally) (h : BlockAt pp K b x P Q T)
    (hl : LexicalToks (K.fill x)) {s : Sched} {dx : List Diag} (hx : (mview pp s (K.fill x)).reported = some dx)
    (hdx : ∀ d ∈ dx, ¬ d.Fatal) :
    ∃ around : CodeGap → Prop, ∀ {y code0 s0 j s' ds}, LexicalToks y → Looked b y j → mview pp s0 y = .tokens code0 →
      (mview pp s' (K.fill y)).reported = some ds → (∀ d ∈ ds, ¬ d.Fatal) →
      ∃ cs, Parses pp y cs ∧ RootMeans cs code0 ∧
        ∀ out, (∃ s, mviewNightly pp s (K.fill y) = .done ds out) ↔
          ∃ G code, around G ∧ T.kindAnyway.Code cs code ∧ out = G.fill code := by
  obtain ⟨around, H⟩ := mistakes_in_place hpp hloc hfl h hl hx hdx
  refine ⟨around, fun {y code0 s0 j s' ds} hy hj h0 hr hd => ?_⟩
  obtain ⟨cs, hp, hm⟩ := mview_sound h0
  refine ⟨cs, hp, hm, fun out => ?_⟩
  rw [H hy hj ((reading_parses hy).mpr hp) hr hd out]
  obtain ⟨hn, ns, hns, -⟩ := hm
  simp only [correct_code ((nodesAccepted_iff cs).mp ⟨ns, hns⟩) (noSlots_accepted hn)]

/-! ### examples -/

/-- What is generated for `p.x { "y" }`. -/
def exampleOutside : Toks := t!"::leptos::tachys::html::element::r#p().class(({ let __x = (); \"x\" }, true))
  .child(::leptos::prelude::IntoRender::into_render(\"y\"))"

/-- What is generated for `3 div a:b={c} { .. }`: the `3` is replaced by an empty string, and the directive is left out. -/
def exampleAroundCorrect : CodeGap :=
  .group [] .brace (.group t!"#[allow(unused_braces)] ::leptos::prelude::View::new" .paren
    (.group [] .paren
      (.group t!"::leptos::prelude::IntoRender::into_render(\"\"), ::leptos::prelude::IntoRender::into_render" .paren
        (.group t!"::leptos::tachys::html::element::r#div().child" .paren
          (.group t!"::leptos::prelude::IntoRender::into_render" .paren (.here [] []) []) []) t!",") []) []) []

/-- `p.x { "y" }` on its own, and inside of a `div` with a wrong directive, after a wrong child. -/
example :
    mview simplePaths (fun _ => []) t!"p.x { \"y\" }" =
      .tokens (let x := rendered exampleOutside; q!"{ #[allow(unused_braces)] #x }") ∧
    mviewNightly simplePaths (fun _ => []) t!"3 div a:b={c} { p.x { \"y\" } }" =
      .done [.nonStringChild, .unknownDirective (plain c!"a")] (exampleAroundCorrect.fill exampleOutside) := ⟨rfl, rfl⟩

/-- With any input that is read in this way. -/
example {ts : Toks} (hl : LexicalToks ts) {is : List Issue} {before after : List Child}
    (hr : ReadsChildren simplePaths ts is (before ++ .elem (.mk (.html ⟨true, c!"p"⟩) [.cls ⟨c!"x", 1⟩] [] none
      (some [.value (.lit (.tok (.str c!"y")))])) :: after))
    {s : Sched} {ds : List Diag} (hds : (mview simplePaths s ts).reported = some ds) (hd : ∀ d ∈ ds, ¬ d.Fatal) :
    ∃ (G : CodeGap) (s' : Sched), mviewNightly simplePaths s' ts = .done ds (G.fill exampleOutside) := by
  obtain ⟨G, code, h1, s', h2⟩ := correct_stays (pp := simplePaths) (T := .here) (ts := t!"p.x { \"y\" }")
    (out := let x := rendered exampleOutside; q!"{ #[allow(unused_braces)] #x }") (s := fun _ => []) rfl rfl hl hr rfl hds hd
  have : code = exampleOutside := by
    simpa [rendered, splice_toks] using h1.symm
  exact ⟨G, s', this ▸ h2⟩

/-- Whatever is accepted on its own is there as calls `.child(..)`, in place of `1 q` in `3 p { 1 q } ;`. -/
example {y code : Toks} {j : List Issue} {ds : List Diag} {s s' : Sched} (hl : LexicalToks y) (hy : Looked true y j)
    (h : mview simplePaths s y = .tokens code)
    (hr : (mview simplePaths s' ((BlockGap.block t!"3 p" .brace .here t!";").fill y)).reported = some ds)
    (hd : ∀ d ∈ ds, ¬ d.Fatal) {out : Toks} {s'' : Sched}
    (ho : mviewNightly simplePaths s'' ((BlockGap.block t!"3 p" .brace .here t!";").fill y) = .done ds out) :
    ∃ (G : CodeGap) (cs : List Child) (nodes : List Toks), Parses simplePaths y cs ∧ NodesMean cs nodes ∧
      out = G.fill (chain (nodes.map childCall)) := by
  obtain ⟨around, H⟩ := correct_block_in_mistaken (s := fun _ => []) simplePaths_starts simplePaths_local
    simplePaths_failsLocally exampleBlock (lexical_of rfl)
    (dx := [.nonStringChild, .nonStringChild, .unterminated, .extraSemicolon]) rfl (by simp [Diag.Fatal])
  obtain ⟨cs, hp, -, h2⟩ := H hl hy h hr hd
  obtain ⟨G, _, -, ⟨nodes, hn, rfl⟩, rfl⟩ := (h2 out).mp ⟨s'', ho⟩
  exact ⟨G, cs, nodes, hp, hn, rfl⟩

end Mview
