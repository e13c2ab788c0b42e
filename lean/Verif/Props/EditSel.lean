import Verif.Lemmas.EditSel
import Verif.Props.EditAttr
/-
C69: editing selectors, closure arguments or the tag of an element changes the code in one place.
-/

set_option linter.unusedVariables false

namespace Mview
open Lex

variable {pp : PathParser}

/-- An input with an element with something open. -/
theorem element_in_input {α : Type} {C : α → Toks → Prop} (T : TreeGap) (before : List Child) (isSlot : Bool)
    {el : α → Element} (after : List Child) {name : Option Ident} (hname : ∀ a, (el a).slotName = name)
    (h : OnePlace C fun a t => (el a).Means isSlot t) :
    ∃ around : CodeGap → Prop, ∀ {a ts out}, LexicalToks ts →
      ReadsChildren pp ts [] (T.fill (before ++ asChild isSlot (el a) :: after)) →
      ((∃ s, mview pp s ts = .tokens out) ↔
        ∃ G code, around G ∧ (T.use isSlot).Code C a code ∧ out = G.fill code) := by
  obtain ⟨around, h⟩ := root_element T before isSlot after hname h
  refine ⟨around, fun {a ts out} hl hr => ?_⟩
  rw [expansion_iff hl, ← h]
  constructor
  · rintro ⟨root, h1, h2⟩
    have e := ((reading_parses hl).mp h1).symm.trans ((reading_parses hl).mp hr)
    cases e
    exact h2
  · intro h2
    exact ⟨_, hr, h2⟩

/-- Two inputs that only differ in what is open. -/
theorem element_keeps_rest {α : Type} {C : α → Toks → Prop} {T : TreeGap} {before : List Child} {isSlot : Bool}
    {el : α → Element} {after : List Child} {name : Option Ident} (hname : ∀ a, (el a).slotName = name)
    (h : OnePlace C fun a t => (el a).Means isSlot t) {a a' : α} {ts ts' : Toks} (hl : LexicalToks ts) (hl' : LexicalToks ts')
    (hr : ReadsChildren pp ts [] (T.fill (before ++ asChild isSlot (el a) :: after)))
    (hr' : ReadsChildren pp ts' [] (T.fill (before ++ asChild isSlot (el a') :: after)))
    {s s' : Sched} {o o' : Toks} (ho : mview pp s ts = .tokens o) (ho' : mview pp s' ts' = .tokens o') :
    ∃ (G : CodeGap) (code code' : Toks), (T.use isSlot).Code C a code ∧ (T.use isSlot).Code C a' code' ∧
      o = G.fill code ∧ ∃ s'', mview pp s'' ts' = .tokens (G.fill code') := by
  obtain ⟨around, H⟩ := element_in_input (pp := pp) T before isSlot after hname h
  obtain ⟨G, code, hG, hc, rfl⟩ := (H hl hr).mp ⟨s, ho⟩
  obtain ⟨G', code', hG', hc', rfl⟩ := (H hl' hr').mp ⟨s', ho'⟩
  exact ⟨G, code, code', hc, hc', rfl, (H hl' hr').mpr ⟨G, code', hG, hc', rfl⟩⟩

/-! ### selectors -/

/-- C69.  For each element, component or slot anywhere in a view, and each place between its selectors, there is code
with a gap, such that with any classes (or any ids) written there, what is generated is the code for these in that
gap. -/
theorem selectors_in_place (T : TreeGap) (before : List Child) (isSlot : Bool) (tag : Tag) (s1 s2 : List Selector)
    (attrs : List Attr) (args : Option Toks) (cs : Option (List Child)) (after : List Child) (k : SelKind) :
    ∃ around : CodeGap → Prop, ∀ {names : List KebabIdent} {ts out}, LexicalToks ts →
      ReadsChildren pp ts [] (T.fill (before ++
        asChild isSlot (.mk tag (s1 ++ (names.map k.sel ++ s2)) attrs args cs) :: after)) →
      ((∃ s, mview pp s ts = .tokens out) ↔
        ∃ G code, around G ∧ (T.use isSlot).Code (k.Code isSlot tag s1 s2 · · ) names code ∧ out = G.fill code) :=
  element_in_input (el := fun names : List KebabIdent => .mk tag (s1 ++ (names.map k.sel ++ s2)) attrs args cs) T before isSlot after
    (name := (Element.mk tag [] attrs args cs).slotName) (fun a => rfl) (element_sel isSlot tag k s1 s2 attrs args cs)

/-- C69.  So of two accepted inputs that only differ in classes (or only in ids) of one element, the code around is
the same (in some order of iteration of the hash maps). -/
theorem selectors_keep_rest {T : TreeGap} {before : List Child} {isSlot : Bool} {tag : Tag} {s1 s2 : List Selector}
    {attrs : List Attr} {args : Option Toks} {cs : Option (List Child)} {after : List Child} {k : SelKind}
    {names names' : List KebabIdent} {ts ts' : Toks} (hl : LexicalToks ts) (hl' : LexicalToks ts')
    (hr : ReadsChildren pp ts [] (T.fill (before ++
      asChild isSlot (.mk tag (s1 ++ (names.map k.sel ++ s2)) attrs args cs) :: after)))
    (hr' : ReadsChildren pp ts' [] (T.fill (before ++
      asChild isSlot (.mk tag (s1 ++ (names'.map k.sel ++ s2)) attrs args cs) :: after)))
    {s s' : Sched} {o o' : Toks} (ho : mview pp s ts = .tokens o) (ho' : mview pp s' ts' = .tokens o') :
    ∃ (G : CodeGap) (code code' : Toks), (T.use isSlot).Code (k.Code isSlot tag s1 s2 · · ) names code ∧
      (T.use isSlot).Code (k.Code isSlot tag s1 s2 · · ) names' code' ∧
      o = G.fill code ∧ ∃ s'', mview pp s'' ts' = .tokens (G.fill code') :=
  element_keeps_rest (el := fun names => .mk tag (s1 ++ (names.map k.sel ++ s2)) attrs args cs)
    (name := (Element.mk tag [] attrs args cs).slotName) (fun a => rfl) (element_sel isSlot tag k s1 s2 attrs args cs)
    hl hl' hr hr' ho ho'

/-! ### closure arguments -/

/-- C69.  The same with the closure arguments: they are in the gap as they are written, if they are those of a component
or slot with children other than slots, and do not matter otherwise. -/
theorem args_in_place (T : TreeGap) (before : List Child) (isSlot : Bool) (tag : Tag) (sels : List Selector)
    (attrs : List Attr) (cs : Option (List Child)) (after : List Child) :
    ∃ around : CodeGap → Prop, ∀ {a ts out}, LexicalToks ts →
      ReadsChildren pp ts [] (T.fill (before ++ asChild isSlot (.mk tag sels attrs (some a) cs) :: after)) →
      ((∃ s, mview pp s ts = .tokens out) ↔
        ∃ G code, around G ∧ (T.use isSlot).Code ((argsUse tag cs).Code (fun a t => t = a) · · ) a code ∧ out = G.fill code) :=
  element_in_input (el := fun a => .mk tag sels attrs (some a) cs) T before isSlot after
    (name := (Element.mk tag sels attrs none cs).slotName) (fun a => rfl) (element_args isSlot tag sels attrs cs)

/-- C69.  So of two accepted inputs that only differ in the closure arguments of one component, the code around is the
same. -/
theorem args_keep_rest {T : TreeGap} {before : List Child} {isSlot : Bool} {tag : Tag} {sels : List Selector}
    {attrs : List Attr} {cs : Option (List Child)} {after : List Child} {a a' ts ts' : Toks}
    (hl : LexicalToks ts) (hl' : LexicalToks ts')
    (hr : ReadsChildren pp ts [] (T.fill (before ++ asChild isSlot (.mk tag sels attrs (some a) cs) :: after)))
    (hr' : ReadsChildren pp ts' [] (T.fill (before ++ asChild isSlot (.mk tag sels attrs (some a') cs) :: after)))
    {s s' : Sched} {o o' : Toks} (ho : mview pp s ts = .tokens o) (ho' : mview pp s' ts' = .tokens o') :
    ∃ (G : CodeGap) (code code' : Toks), (T.use isSlot).Code ((argsUse tag cs).Code (fun a t => t = a) · · ) a code ∧
      (T.use isSlot).Code ((argsUse tag cs).Code (fun a t => t = a) · · ) a' code' ∧
      o = G.fill code ∧ ∃ s'', mview pp s'' ts' = .tokens (G.fill code') :=
  element_keeps_rest (el := fun a => .mk tag sels attrs (some a) cs)
    (name := (Element.mk tag sels attrs none cs).slotName) (fun a => rfl) (element_args isSlot tag sels attrs cs)
    hl hl' hr hr' ho ho'

/-! ### tags -/

/-- C69.  And the same with the tag, if it stays that of the same kind of element: only the expression that makes the
element changes. -/
theorem tag_in_place (T : TreeGap) (before : List Child) (isSlot : Bool) {kind : TagKind} (hk : kind ≠ .component)
    (sels : List Selector) (attrs : List Attr) (args : Option Toks) (cs : Option (List Child)) (after : List Child) :
    ∃ around : CodeGap → Prop, ∀ {tag ts out}, tag.kind = kind → LexicalToks ts →
      ReadsChildren pp ts [] (T.fill (before ++ asChild isSlot (.mk tag sels attrs args cs) :: after)) →
      ((∃ s, mview pp s ts = .tokens out) ↔
        ∃ G code, around G ∧ (T.use isSlot).Code (fun tag t => tag.head = some t) tag code ∧ out = G.fill code) := by
  obtain ⟨around, H⟩ := element_in_input (pp := pp) (el := fun tag : TagAt kind => .mk tag.1 sels attrs args cs) T before isSlot
    after (name := none) (fun ⟨tag, hk, h⟩ => by cases tag <;> first | rfl | exact absurd rfl (h _))
    (element_tag isSlot kind sels attrs args cs)
  refine ⟨around, fun {tag ts out} ht hl hr => ?_⟩
  have := H (a := ⟨tag, ht, fun p hp => by subst hp; exact hk ht.symm⟩) (out := out) hl hr
  rw [this]
  cases T.use isSlot <;> exact Iff.rfl

/-! ### examples -/

/-- What is generated for `p.a .. #b title="c";`. -/
def exampleClasses : CodeGap :=
  .group [] .brace (.group t!"#[allow(unused_braces)] ::leptos::prelude::IntoRender::into_render" .paren
    (.here t!"::leptos::tachys::html::element::r#p().r#title(\"c\").class(({ let __x = (); \"a\" }, true))"
      t!".id({ let __x = (); \"b\" })") []) []

example :
    mview simplePaths (fun _ => []) t!"p.a #b title=\"c\";" = .tokens (exampleClasses.fill []) ∧
    mview simplePaths (fun _ => []) t!"p.a.d.e-f #b title=\"c\";" =
      .tokens (exampleClasses.fill t!".class(({ let __x = (); \"d\" }, true)).class(({ let __x = (); let __x = (); \"e-f\" }, true))") :=
  ⟨rfl, rfl⟩

/-- Whatever classes are written in an input that is read as `p.a .. #b;` with these: the rest of the code is the same. -/
example {names : List KebabIdent} {ts : Toks} (hl : LexicalToks ts)
    (hr : ReadsChildren simplePaths ts [] [.elem (.mk (.html ⟨true, c!"p"⟩)
      ([.cls ⟨c!"a", 1⟩] ++ (names.map SelKind.cls.sel ++ [.id ⟨c!"b", 1⟩])) [] none none)])
    {s : Sched} {o : Toks} (ho : mview simplePaths s ts = .tokens o) :
    ∃ G : CodeGap, mview simplePaths (fun _ => []) t!"p.a #b;" = .tokens (G.fill []) ∧
      ∃ s', mview simplePaths s' ts = .tokens (G.fill (chain (names.map classCall))) := by
  have h := selectors_keep_rest (pp := simplePaths) (T := .here) (before := []) (after := []) (isSlot := false)
    (tag := .html ⟨true, c!"p"⟩) (s1 := [.cls ⟨c!"a", 1⟩]) (s2 := [.id ⟨c!"b", 1⟩]) (attrs := []) (args := none) (cs := none)
    (k := .cls) (names := []) (ts := t!"p.a #b;") (lexical_of rfl) hl
    ((reading_parses (lexical_of rfl)).mpr rfl) (by simpa [TreeGap.fill, asChild] using hr) (s := fun _ => []) rfl ho
  obtain ⟨G, c, c', ⟨-, h1⟩, ⟨-, h2⟩, h3, s', h4⟩ := h
  subst h1 h2
  have h3 : _ = G.fill [] := h3
  exact ⟨G, by rw [← h3]; rfl, s', h4⟩

/-- On a component, all ids are in one entry. -/
example (p : Path) (t : Toks) :
    SelKind.Code false (.component p) [.id ⟨c!"a", 1⟩] [.cls ⟨c!"b", 1⟩, .id ⟨c!"c", 1⟩] [⟨c!"x", 1⟩] t .id ↔
      t = t!"::leptos::tachys::html::attribute::r#id(\"a x c\")," := by
  simp [SelKind.Code]
  rfl

/-- What is generated for `Foo |..| { "x" }`. -/
def exampleArgs : CodeGap :=
  .group [] .brace (.group t!"#[allow(unused_braces)] ::leptos::prelude::IntoRender::into_render" .paren
    (.group t!"#[allow(unreachable_code)] ::leptos::prelude::View::new" .paren
      (.group t!"::leptos::component::component_view" .paren
        (.group t!"&Foo, ::leptos::component::component_props_builder(&Foo).children" .paren
          (.group [] .brace (.here t!"move" t!"::leptos::prelude::View::new((::leptos::prelude::IntoRender::into_render(\"x\"),))") [])
          t!".build()")
        t!".add_any_attr(())") []) []) []

example :
    mview simplePaths (fun _ => []) t!"Foo |a| { \"x\" }" = .tokens (exampleArgs.fill t!"|a|") ∧
    mview simplePaths (fun _ => []) t!"Foo |(b, c): (u8, u8), d| { \"x\" }" =
      .tokens (exampleArgs.fill t!"|(b, c): (u8, u8), d|") := ⟨rfl, rfl⟩

/-- Closure arguments of a component without children do not matter. -/
example : mview simplePaths (fun _ => []) t!"Foo |a| { }" = mview simplePaths (fun _ => []) t!"Foo |b| { }" := rfl

/-- What is generated for `.. class="a" { "x" }` with an HTML element. -/
def exampleTag : CodeGap :=
  .group [] .brace (.group t!"#[allow(unused_braces)] ::leptos::prelude::IntoRender::into_render" .paren
    (.here [] t!".r#class(\"a\").child(::leptos::prelude::IntoRender::into_render(\"x\"))") []) []

example :
    mview simplePaths (fun _ => []) t!"p class=\"a\" { \"x\" }" =
      .tokens (exampleTag.fill t!"::leptos::tachys::html::element::r#p()") ∧
    mview simplePaths (fun _ => []) t!"div class=\"a\" { \"x\" }" =
      .tokens (exampleTag.fill t!"::leptos::tachys::html::element::r#div()") := ⟨rfl, rfl⟩

end Mview
