import Verif.Lemmas.AttrAnyway
import Verif.Props.EditAnyway
import Verif.Props.EditAttr
/-
C86: mistakes in attributes affect the code in one place (feature `nightly`).
-/

set_option linter.unusedVariables false

namespace Mview
open Lex

variable {pp : PathParser}

/-- C86.  For each element, component or slot anywhere in a view, and each place between its attributes, there is code
with a gap, such that with any attributes of one kind written there, if none of the errors of the input are fatal,
what is generated in spite of them is the code for these attributes, one after the other, in that gap. -/
theorem attr_mistakes_in_place (T : TreeGap) (before : List Child) (isSlot : Bool) (tag : Tag) (sels : List Selector)
    (a1 a2 : List Attr) (args : Option Toks) (cs : Option (List Child)) (after : List Child) (k : AttrPlace) :
    ∃ around : CodeGap → Prop, ∀ {m ts is ds s' out}, (∀ a ∈ m, a.place tag = k) → LexicalToks ts →
      ReadsChildren pp ts is (T.fill (before ++ asChild isSlot (.mk tag sels (a1 ++ m ++ a2) args cs) :: after)) →
      (mview pp s' ts).reported = some ds → (∀ d ∈ ds, ¬ d.Fatal) →
      ((∃ s, mviewNightly pp s ts = .done ds out) ↔
        ∃ G code, around G ∧
          (T.useAnyway (slotNamed isSlot tag)).Code ((k.useAnyway isSlot cs).Code (AttrsAnyway tag) · · ) m code ∧
          out = G.fill code) := by
  obtain ⟨around, h⟩ := root_element_anyway T before isSlot (tag := tag)
    (el := fun m : AttrsAt tag k => .mk tag sels (a1 ++ m.1 ++ a2) args cs) after (fun a _ => rfl)
    (element_attr_anyway isSlot tag k sels a1 a2 args cs)
  refine ⟨around, fun {m ts is ds s' out} hm hl hr hrep hd => ?_⟩
  have hcode : ∀ code,
      (T.useAnyway (slotNamed isSlot tag)).Code ((k.useAnyway isSlot cs).Code (AttrsAnyway tag) · · ) m code ↔
      (T.useAnyway (slotNamed isSlot tag)).Code
        (fun m t => (k.useAnyway isSlot cs).Code (fun (m : AttrsAt tag k) t => AttrsAnyway tag m.1 t) m t)
        ⟨m, hm⟩ code := by
    intro code
    cases T.useAnyway (slotNamed isSlot tag) <;> cases k.useAnyway isSlot cs <;> exact Iff.rfl
  have hv : verdict (is ++ rootIssues (T.fill (before ++ asChild isSlot (.mk tag sels (a1 ++ m ++ a2) args cs) :: after))) =
      .errors ds := by rw [reading_nonfatal hl hrep hd hr, verdict_reports]
  simp only [hcode, ← h]
  constructor
  · rintro ⟨s'', hs⟩
    obtain ⟨out', ho, hb⟩ := nightly_sound (s := s'') hl hr hv
    rw [hs] at ho
    cases ho
    exact hb
  · intro hb
    exact nightly_complete hl hr hv hb

/-- C86.  So of two inputs without fatal errors that only differ in attributes of one kind, the code around is the same
(in some order of iteration of the hash maps), only that of these attributes is replaced. -/
theorem attr_mistakes_keep_rest {T : TreeGap} {before : List Child} {isSlot : Bool} {tag : Tag} {sels : List Selector}
    {a1 a2 : List Attr} {args : Option Toks} {cs : Option (List Child)} {after : List Child} {k : AttrPlace}
    {m m' : List Attr} (hm : ∀ a ∈ m, a.place tag = k) (hm' : ∀ a ∈ m', a.place tag = k) {ts ts' : Toks}
    (hl : LexicalToks ts) (hl' : LexicalToks ts') {is is' : List Issue}
    (hr : ReadsChildren pp ts is (T.fill (before ++ asChild isSlot (.mk tag sels (a1 ++ m ++ a2) args cs) :: after)))
    (hr' : ReadsChildren pp ts' is' (T.fill (before ++ asChild isSlot (.mk tag sels (a1 ++ m' ++ a2) args cs) :: after)))
    {s s' : Sched} {ds ds' : List Diag} {o : Toks} (ho : mviewNightly pp s ts = .done ds o)
    (hds : (mview pp s ts).reported = some ds) (hd : ∀ d ∈ ds, ¬ d.Fatal)
    (hds' : (mview pp s' ts').reported = some ds') (hd' : ∀ d ∈ ds', ¬ d.Fatal) :
    ∃ (G : CodeGap) (code code' : Toks),
      (T.useAnyway (slotNamed isSlot tag)).Code ((k.useAnyway isSlot cs).Code (AttrsAnyway tag) · · ) m code ∧
      (T.useAnyway (slotNamed isSlot tag)).Code ((k.useAnyway isSlot cs).Code (AttrsAnyway tag) · · ) m' code' ∧
      o = G.fill code ∧ ∃ s'', mviewNightly pp s'' ts' = .done ds' (G.fill code') := by
  obtain ⟨around, H⟩ := attr_mistakes_in_place (pp := pp) T before isSlot tag sels a1 a2 args cs after k
  obtain ⟨G, code, hG, hc, rfl⟩ := (H hm hl hr hds hd).mp ⟨s, ho⟩
  have hv : verdict (is' ++ rootIssues (T.fill (before ++ asChild isSlot (.mk tag sels (a1 ++ m' ++ a2) args cs) :: after))) =
      .errors ds' := by rw [reading_nonfatal hl' hds' hd' hr', verdict_reports]
  obtain ⟨o', ho', -⟩ := nightly_sound (s := s') hl' hr' hv
  obtain ⟨-, code', -, hc', -⟩ := (H hm' hl' hr' hds' hd').mp ⟨s', ho'⟩
  exact ⟨G, code, code', hc, hc', rfl, (H hm' hl' hr' hds' hd').mpr ⟨G, code', hG, hc', rfl⟩⟩

/-! ### examples -/

/-- What is generated for `3 p class="a" .. hidden;`: the `3` is replaced by an empty string. -/
def exampleAttrsAnyway : CodeGap :=
  .group [] .brace (.group t!"#[allow(unused_braces)] ::leptos::prelude::View::new" .paren
    (.group [] .paren
      (.group t!"::leptos::prelude::IntoRender::into_render(\"\"), ::leptos::prelude::IntoRender::into_render" .paren
        (.here t!"::leptos::tachys::html::element::r#p().r#class(\"a\").r#hidden(true)" []) t!",") []) []) []

/-- An unknown directive is left out, and so is a modifier that does not exist; the rest is the same. -/
example :
    mviewNightly simplePaths (fun _ => []) t!"3 p class=\"a\" hidden;" =
      .done [.nonStringChild] (exampleAttrsAnyway.fill []) ∧
    mviewNightly simplePaths (fun _ => []) t!"3 p class=\"a\" a:b={c} on:click:x={f} hidden;" =
      .done [.nonStringChild, .unknownDirective (plain c!"a"), .unknownModifier (plain c!"x")] (exampleAttrsAnyway.fill
        t!".on(::leptos::tachys::html::event::r#click, {f})") := ⟨rfl, rfl⟩

/-- Whatever directives are written in an input that is read as `3 p class="a" ..;` with these, if the errors are not
fatal: there is the code for them, at the end of that for `p`. -/
example {m : List Attr} (hm : ∀ a ∈ m, a.place (.html ⟨true, c!"p"⟩) = .directives) {ts : Toks} (hl : LexicalToks ts)
    {is : List Issue}
    (hr : ReadsChildren simplePaths ts is
      [.value (.lit (.tok (.str []))), .elem (.mk (.html ⟨true, c!"p"⟩) [] (exampleP ++ m) none none)])
    {s : Sched} {ds : List Diag} (hds : (mview simplePaths s ts).reported = some ds) (hd : ∀ d ∈ ds, ¬ d.Fatal) :
    ∃ (G : CodeGap) (code : Toks), AttrsAnyway (.html ⟨true, c!"p"⟩) m code ∧
      mviewNightly simplePaths (fun _ => []) t!"3 p class=\"a\";" = .done [.nonStringChild] (G.fill []) ∧
      ∃ s', mviewNightly simplePaths s' ts = .done ds (G.fill code) := by
  have hp : ReadsChildren simplePaths t!"p class=\"a\";" [] [.elem (.mk (.html ⟨true, c!"p"⟩) [] exampleP none none)] :=
    (reading_parses (lexical_of rfl)).mpr rfl
  have h := attr_mistakes_keep_rest (pp := simplePaths) (T := .here) (before := [.value (.lit (.tok (.str [])))]) (after := [])
    (isSlot := false) (tag := .html ⟨true, c!"p"⟩) (sels := []) (a1 := exampleP) (a2 := []) (args := none) (cs := none)
    (k := .directives) (m := []) (by simp) hm (ts := t!"3 p class=\"a\";") (lexical_of rfl) hl
    (.literal (v := .lit (.int c!"3")) (by simp) (by simp [CVal.ChildWf]) hp)
    (by simpa [TreeGap.fill, asChild] using hr) (s := fun _ => []) rfl rfl
    (by simp [Diag.Fatal]) hds hd
  obtain ⟨G, _, code, h1, h2, h3, s', h4⟩ := h
  have h1 : AttrsAnyway (.html ⟨true, c!"p"⟩) [] _ := h1
  rw [attrsAnyway_nil] at h1
  subst h1
  exact ⟨G, code, h2, by rw [← h3]; rfl, s', h4⟩

/-- What is generated for `Foo { slot:Bar a=1 b=2; }`. -/
def exampleSlotAnyway : Toks := t!"{ #[allow(unused_braces)]
  ::leptos::prelude::IntoRender::into_render(#[allow(unreachable_code)] ::leptos::prelude::View::new(
    ::leptos::component::component_view(&Foo, ::leptos::component::component_props_builder(&Foo)
      .r#bar(::std::convert::Into::into(Bar::builder().r#a(1).r#b(2).build()))
      .build()).add_any_attr(()))) }"

/-- A directive other than `clone:` on a slot is left out, and the attributes around it are used. -/
example :
    mviewNightly simplePaths (fun _ => []) t!"Foo { slot:Bar a=1 b=2; }" = .done [] exampleSlotAnyway ∧
    mviewNightly simplePaths (fun _ => []) t!"Foo { slot:Bar a=1 class:red={x} b=2; }" =
      .done [.directiveOnSlot (plain c!"class")] exampleSlotAnyway := ⟨rfl, rfl⟩

/-- Among the children of an element, or without a proper name, a slot is left out, so all of its attributes are. -/
example : (BlockKind.element).useAnyway (slotNamed true (.component (.ofIdent (plain c!"Bar")))) = .ignored ∧
    (BlockKind.component none []).useAnyway (slotNamed true (.component (.ofIdent (plain c!"Bar")))) = .used ∧
    (BlockKind.component none []).useAnyway (slotNamed true (.component ⟨true, [⟨plain c!"Bar", .none⟩]⟩)) = .ignored :=
  ⟨rfl, rfl, rfl⟩

end Mview
