import Verif.Lemmas.SelAnyway
import Verif.Props.AttrAnyway
import Verif.Props.EditSel
/-
C87: editing selectors, closure arguments or the tag of an element in an input with mistakes changes the code in one
place (feature `nightly`).
-/

set_option linter.unusedVariables false

namespace Mview
open Lex

variable {pp : PathParser}

/-- An input with an element with something open. -/
theorem element_in_mistaken {α : Type} {C : α → Toks → Prop} (T : TreeGap) (before : List Child) (isSlot : Bool)
    {tag : Tag} {el : α → Element} (after : List Child) (tagOf : ∀ a, isSlot = true → (el a).tag = tag)
    (h : OnePlace C fun a t => (el a).Becomes isSlot t) :
    ∃ around : CodeGap → Prop, ∀ {a ts is ds s' out}, LexicalToks ts →
      ReadsChildren pp ts is (T.fill (before ++ asChild isSlot (el a) :: after)) →
      (mview pp s' ts).reported = some ds → (∀ d ∈ ds, ¬ d.Fatal) →
      ((∃ s, mviewNightly pp s ts = .done ds out) ↔
        ∃ G code, around G ∧ (T.useAnyway (slotNamed isSlot tag)).Code C a code ∧ out = G.fill code) := by
  obtain ⟨around, h⟩ := root_element_anyway T before isSlot after tagOf h
  refine ⟨around, fun {a ts is ds s' out} hl hr hrep hd => ?_⟩
  have hv : verdict (is ++ rootIssues (T.fill (before ++ asChild isSlot (el a) :: after))) = .errors ds := by
    rw [reading_nonfatal hl hrep hd hr, verdict_reports]
  rw [← h]
  constructor
  · rintro ⟨s'', hs⟩
    obtain ⟨out', ho, hb⟩ := nightly_sound (s := s'') hl hr hv
    rw [hs] at ho
    cases ho
    exact hb
  · intro hb
    exact nightly_complete hl hr hv hb

/-- C87.  For each element, component or slot anywhere in a view, and each place between its selectors, there is code
with a gap, such that with any classes (or any ids) written there, if none of the errors of the input are fatal, what
is generated in spite of them is the code for these in that gap.  Those of slots are left out. -/
theorem selector_mistakes_in_place (T : TreeGap) (before : List Child) (isSlot : Bool) (tag : Tag) (s1 s2 : List Selector)
    (attrs : List Attr) (args : Option Toks) (cs : Option (List Child)) (after : List Child) (k : SelKind) :
    ∃ around : CodeGap → Prop, ∀ {names : List KebabIdent} {ts is ds s' out}, LexicalToks ts →
      ReadsChildren pp ts is (T.fill (before ++
        asChild isSlot (.mk tag (s1 ++ (names.map k.sel ++ s2)) attrs args cs) :: after)) →
      (mview pp s' ts).reported = some ds → (∀ d ∈ ds, ¬ d.Fatal) →
      ((∃ s, mviewNightly pp s ts = .done ds out) ↔
        ∃ G code, around G ∧ (T.useAnyway (slotNamed isSlot tag)).Code (k.CodeAnyway isSlot tag s1 s2 · · ) names code ∧
          out = G.fill code) :=
  element_in_mistaken (el := fun names : List KebabIdent => .mk tag (s1 ++ (names.map k.sel ++ s2)) attrs args cs)
    T before isSlot after (fun a _ => rfl) (element_sel_anyway isSlot tag k s1 s2 attrs args cs)

/-- C87.  The same with the closure arguments: they are in the gap as they are written, if they are those of a component
or slot with children other than slots, and do not matter otherwise. -/
theorem arg_mistakes_in_place (T : TreeGap) (before : List Child) (isSlot : Bool) (tag : Tag) (sels : List Selector)
    (attrs : List Attr) (cs : Option (List Child)) (after : List Child) :
    ∃ around : CodeGap → Prop, ∀ {a ts is ds s' out}, LexicalToks ts →
      ReadsChildren pp ts is (T.fill (before ++ asChild isSlot (.mk tag sels attrs (some a) cs) :: after)) →
      (mview pp s' ts).reported = some ds → (∀ d ∈ ds, ¬ d.Fatal) →
      ((∃ s, mviewNightly pp s ts = .done ds out) ↔
        ∃ G code, around G ∧
          (T.useAnyway (slotNamed isSlot tag)).Code ((argsUse tag cs).Code (fun a t => t = a) · · ) a code ∧
          out = G.fill code) :=
  element_in_mistaken (el := fun a => .mk tag sels attrs (some a) cs) T before isSlot after (fun a _ => rfl)
    (element_args_anyway isSlot tag sels attrs cs)

/-- C87.  And the same with the tag, if it stays that of the same kind of element: only the expression that makes the
element changes. -/
theorem tag_mistakes_in_place (T : TreeGap) (before : List Child) {kind : TagKind} (hk : kind ≠ .component)
    (sels : List Selector) (attrs : List Attr) (args : Option Toks) (cs : Option (List Child)) (after : List Child) :
    ∃ around : CodeGap → Prop, ∀ {tag ts is ds s' out}, tag.kind = kind → LexicalToks ts →
      ReadsChildren pp ts is (T.fill (before ++ .elem (.mk tag sels attrs args cs) :: after)) →
      (mview pp s' ts).reported = some ds → (∀ d ∈ ds, ¬ d.Fatal) →
      ((∃ s, mviewNightly pp s ts = .done ds out) ↔
        ∃ G code, around G ∧ (T.useAnyway none).Code (fun tag t => tag.head = some t) tag code ∧ out = G.fill code) := by
  obtain ⟨around, H⟩ := element_in_mistaken (pp := pp) (el := fun tag : TagAt kind => .mk tag.1 sels attrs args cs) T before
    false (tag := .html ⟨true, []⟩) after (fun a h => by cases h) (element_tag_anyway false kind sels attrs args cs)
  refine ⟨around, fun {tag ts is ds s' out} ht hl hr hrep hd => ?_⟩
  have := H (a := ⟨tag, ht, fun p hp => by subst hp; exact hk ht.symm⟩) (out := out) hl hr hrep hd
  rw [this]
  show (∃ G code, around G ∧ (T.useAnyway none).Code _ _ code ∧ _) ↔ _
  cases T.useAnyway none <;> exact Iff.rfl

/-- C87.  So of two inputs without fatal errors that only differ in what can be edited in this way, the code around is
the same (in some order of iteration of the hash maps). -/
theorem element_mistaken_rest {α : Type} {C : α → Toks → Prop} {T : TreeGap} {before : List Child} {isSlot : Bool}
    {tag : Tag} {el : α → Element} {after : List Child} (tagOf : ∀ a, isSlot = true → (el a).tag = tag)
    (h : OnePlace C fun a t => (el a).Becomes isSlot t) {a a' : α} {ts ts' : Toks} (hl : LexicalToks ts)
    (hl' : LexicalToks ts') {is is' : List Issue}
    (hr : ReadsChildren pp ts is (T.fill (before ++ asChild isSlot (el a) :: after)))
    (hr' : ReadsChildren pp ts' is' (T.fill (before ++ asChild isSlot (el a') :: after)))
    {s s' : Sched} {ds ds' : List Diag} {o : Toks} (ho : mviewNightly pp s ts = .done ds o)
    (hds : (mview pp s ts).reported = some ds) (hd : ∀ d ∈ ds, ¬ d.Fatal)
    (hds' : (mview pp s' ts').reported = some ds') (hd' : ∀ d ∈ ds', ¬ d.Fatal) :
    ∃ (G : CodeGap) (code code' : Toks), (T.useAnyway (slotNamed isSlot tag)).Code C a code ∧
      (T.useAnyway (slotNamed isSlot tag)).Code C a' code' ∧
      o = G.fill code ∧ ∃ s'', mviewNightly pp s'' ts' = .done ds' (G.fill code') := by
  obtain ⟨around, H⟩ := element_in_mistaken (pp := pp) T before isSlot after tagOf h
  obtain ⟨G, code, hG, hc, rfl⟩ := (H hl hr hds hd).mp ⟨s, ho⟩
  have hv : verdict (is' ++ rootIssues (T.fill (before ++ asChild isSlot (el a') :: after))) = .errors ds' := by
    rw [reading_nonfatal hl' hds' hd' hr', verdict_reports]
  obtain ⟨o', ho', -⟩ := nightly_sound (s := s') hl' hr' hv
  obtain ⟨-, code', -, hc', -⟩ := (H hl' hr' hds' hd').mp ⟨s', ho'⟩
  exact ⟨G, code, code', hc, hc', rfl, (H hl' hr' hds' hd').mpr ⟨G, code', hG, hc', rfl⟩⟩

/-- C87.  For example only in the classes (or ids) of one element. -/
theorem selector_mistakes_keep_rest {T : TreeGap} {before : List Child} {isSlot : Bool} {tag : Tag}
    {s1 s2 : List Selector} {attrs : List Attr} {args : Option Toks} {cs : Option (List Child)} {after : List Child}
    {k : SelKind} {names names' : List KebabIdent} {ts ts' : Toks} (hl : LexicalToks ts) (hl' : LexicalToks ts')
    {is is' : List Issue}
    (hr : ReadsChildren pp ts is (T.fill (before ++
      asChild isSlot (.mk tag (s1 ++ (names.map k.sel ++ s2)) attrs args cs) :: after)))
    (hr' : ReadsChildren pp ts' is' (T.fill (before ++
      asChild isSlot (.mk tag (s1 ++ (names'.map k.sel ++ s2)) attrs args cs) :: after)))
    {s s' : Sched} {ds ds' : List Diag} {o : Toks} (ho : mviewNightly pp s ts = .done ds o)
    (hds : (mview pp s ts).reported = some ds) (hd : ∀ d ∈ ds, ¬ d.Fatal)
    (hds' : (mview pp s' ts').reported = some ds') (hd' : ∀ d ∈ ds', ¬ d.Fatal) :
    ∃ (G : CodeGap) (code code' : Toks),
      (T.useAnyway (slotNamed isSlot tag)).Code (k.CodeAnyway isSlot tag s1 s2 · · ) names code ∧
      (T.useAnyway (slotNamed isSlot tag)).Code (k.CodeAnyway isSlot tag s1 s2 · · ) names' code' ∧
      o = G.fill code ∧ ∃ s'', mviewNightly pp s'' ts' = .done ds' (G.fill code') :=
  element_mistaken_rest (el := fun names => .mk tag (s1 ++ (names.map k.sel ++ s2)) attrs args cs)
    (fun a _ => rfl) (element_sel_anyway isSlot tag k s1 s2 attrs args cs) hl hl' hr hr' ho hds hd hds' hd'

/-! ### examples -/

/-- What is generated for `3 p .. a:b={c};`: the `3` is replaced by an empty string, and the directive is left out. -/
def exampleSelAnyway : CodeGap :=
  .group [] .brace (.group t!"#[allow(unused_braces)] ::leptos::prelude::View::new" .paren
    (.group [] .paren
      (.group t!"::leptos::prelude::IntoRender::into_render(\"\"), ::leptos::prelude::IntoRender::into_render" .paren
        (.here t!"::leptos::tachys::html::element::r#p()" []) t!",") []) []) []

example :
    mviewNightly simplePaths (fun _ => []) t!"3 p a:b={c};" =
      .done [.nonStringChild, .unknownDirective (plain c!"a")] (exampleSelAnyway.fill []) ∧
    mviewNightly simplePaths (fun _ => []) t!"3 p.x.y a:b={c};" =
      .done [.nonStringChild, .unknownDirective (plain c!"a")] (exampleSelAnyway.fill
        t!".class(({ let __x = (); \"x\" }, true)).class(({ let __x = (); \"y\" }, true))") := ⟨rfl, rfl⟩

/-- Whatever classes are written in an input that is read as `3 p ..;` with these: their calls are in the same place. -/
example {names : List KebabIdent} {ts : Toks} (hl : LexicalToks ts) {is : List Issue}
    (hr : ReadsChildren simplePaths ts is [.value (.lit (.tok (.str []))),
      .elem (.mk (.html ⟨true, c!"p"⟩) (names.map SelKind.cls.sel) [] none none)])
    {s : Sched} {ds : List Diag} (hds : (mview simplePaths s ts).reported = some ds) (hd : ∀ d ∈ ds, ¬ d.Fatal) :
    ∃ G : CodeGap, mviewNightly simplePaths (fun _ => []) t!"3 p;" = .done [.nonStringChild] (G.fill []) ∧
      ∃ s', mviewNightly simplePaths s' ts = .done ds (G.fill (chain (names.map classCall))) := by
  have hp : ReadsChildren simplePaths t!"p;" [] [.elem (.mk (.html ⟨true, c!"p"⟩) [] [] none none)] :=
    (reading_parses (lexical_of rfl)).mpr rfl
  have h := selector_mistakes_keep_rest (pp := simplePaths) (T := .here) (before := [.value (.lit (.tok (.str [])))])
    (after := []) (isSlot := false) (tag := .html ⟨true, c!"p"⟩) (s1 := []) (s2 := []) (attrs := []) (args := none)
    (cs := none) (k := .cls) (names := []) (names' := names) (ts := t!"3 p;") (lexical_of rfl) hl
    (.literal (v := .lit (.int c!"3")) (by simp) (by simp [CVal.ChildWf]) hp)
    (by simpa [TreeGap.fill, asChild] using hr) (s := fun _ => []) rfl rfl (by simp [Diag.Fatal]) hds hd
  obtain ⟨G, code, code', ⟨-, h1⟩, ⟨-, h2⟩, h3, s', h4⟩ := h
  subst h1 h2
  have h3 : _ = G.fill [] := h3
  exact ⟨G, by rw [← h3]; rfl, s', h4⟩

/-- Other closure arguments and another tag. -/
example :
    mviewNightly simplePaths (fun _ => []) t!"3 q a:b={c};" =
      .done [.nonStringChild, .unknownDirective (plain c!"a")] t!"{ #[allow(unused_braces)]
        ::leptos::prelude::View::new((::leptos::prelude::IntoRender::into_render(\"\"),
          ::leptos::prelude::IntoRender::into_render(::leptos::tachys::html::element::r#q()),)) }" ∧
    (∀ o, mviewNightly simplePaths (fun _ => []) t!"3 p |x| { 4 }" = o →
      mviewNightly simplePaths (fun _ => []) t!"3 p |y| { 4 }" = o) := ⟨rfl, fun _ h => h⟩

/-- Selectors on a slot are left out, and its attributes are still there. -/
example : ∃ d, mviewNightly simplePaths (fun _ => []) t!"Foo { slot:Bar.x a=1 b=2; }" = .done [d] exampleSlotAnyway :=
  ⟨_, rfl⟩

end Mview
