import Verif.Lemmas.EditAttr
import Verif.Props.Edit
/-
C68: editing attributes changes the code in one place.
-/

set_option linter.unusedVariables false

namespace Mview
open Lex

variable {pp : PathParser}

/-- C68.  For each element, component or slot anywhere in a view, and each place between its attributes, there is code
with a gap, such that with any attributes of one kind written there, what is generated is the code for these
attributes, one after the other, in that gap. -/
theorem attrs_in_place (T : TreeGap) (before : List Child) (isSlot : Bool) (tag : Tag) (sels : List Selector)
    (a1 a2 : List Attr) (args : Option Toks) (cs : Option (List Child)) (after : List Child) (k : AttrPlace) :
    ∃ around : CodeGap → Prop, ∀ {m ts out}, (∀ a ∈ m, a.place tag = k) → LexicalToks ts →
      ReadsChildren pp ts [] (T.fill (before ++ asChild isSlot (.mk tag sels (a1 ++ m ++ a2) args cs) :: after)) →
      ((∃ s, mview pp s ts = .tokens out) ↔
        ∃ G code, around G ∧ (T.use isSlot).Code ((k.use cs).Code (AttrsCode isSlot tag) · · ) m code ∧ out = G.fill code) := by
  obtain ⟨around, h⟩ := root_element T before isSlot (el := fun m : AttrsAt tag k => .mk tag sels (a1 ++ m.1 ++ a2) args cs)
    after (name := (Element.mk tag sels [] args cs).slotName) (fun a => rfl) (element_attr isSlot tag k sels a1 a2 args cs)
  refine ⟨around, fun {m ts out} hm hl hr => ?_⟩
  have hcode : ∀ code, (T.use isSlot).Code ((k.use cs).Code (AttrsCode isSlot tag) · · ) m code ↔
      (T.use isSlot).Code (fun m t => (k.use cs).Code (fun (m : AttrsAt tag k) t => AttrsCode isSlot tag m.1 t) m t)
        ⟨m, hm⟩ code := by
    intro code
    cases T.use isSlot <;> cases k.use cs <;> exact Iff.rfl
  rw [expansion_iff hl]
  simp only [hcode, ← h]
  constructor
  · rintro ⟨root, h1, h2⟩
    have e := ((reading_parses hl).mp h1).symm.trans ((reading_parses hl).mp hr)
    cases e
    exact h2
  · intro h2
    exact ⟨_, hr, h2⟩

/-- C68.  So of two accepted inputs that only differ in attributes of one kind, the code around is the same (in some
order of iteration of the hash maps), only that of these attributes is replaced. -/
theorem attrs_keep_rest {T : TreeGap} {before : List Child} {isSlot : Bool} {tag : Tag} {sels : List Selector}
    {a1 a2 : List Attr} {args : Option Toks} {cs : Option (List Child)} {after : List Child} {k : AttrPlace}
    {m m' : List Attr} (hm : ∀ a ∈ m, a.place tag = k) (hm' : ∀ a ∈ m', a.place tag = k) {ts ts' : Toks}
    (hl : LexicalToks ts) (hl' : LexicalToks ts')
    (hr : ReadsChildren pp ts [] (T.fill (before ++ asChild isSlot (.mk tag sels (a1 ++ m ++ a2) args cs) :: after)))
    (hr' : ReadsChildren pp ts' [] (T.fill (before ++ asChild isSlot (.mk tag sels (a1 ++ m' ++ a2) args cs) :: after)))
    {s s' : Sched} {o o' : Toks} (ho : mview pp s ts = .tokens o) (ho' : mview pp s' ts' = .tokens o') :
    ∃ (G : CodeGap) (code code' : Toks),
      (T.use isSlot).Code ((k.use cs).Code (AttrsCode isSlot tag) · · ) m code ∧
      (T.use isSlot).Code ((k.use cs).Code (AttrsCode isSlot tag) · · ) m' code' ∧
      o = G.fill code ∧ ∃ s'', mview pp s'' ts' = .tokens (G.fill code') := by
  obtain ⟨around, H⟩ := attrs_in_place (pp := pp) T before isSlot tag sels a1 a2 args cs after k
  obtain ⟨G, code, hG, hc, rfl⟩ := (H hm hl hr).mp ⟨s, ho⟩
  obtain ⟨G', code', hG', hc', rfl⟩ := (H hm' hl' hr').mp ⟨s', ho'⟩
  exact ⟨G, code, code', hc, hc', rfl, (H hm' hl' hr').mpr ⟨G, code', hG, hc', rfl⟩⟩

/-! ### examples -/

/-- What is generated for `p class="a" .. hidden { q; }`. -/
def exampleAttrs : CodeGap :=
  .group [] .brace (.group t!"#[allow(unused_braces)] ::leptos::prelude::IntoRender::into_render" .paren
    (.here t!"::leptos::tachys::html::element::r#p().r#class(\"a\")" t!".r#hidden(true)
      .child(::leptos::prelude::IntoRender::into_render(::leptos::tachys::html::element::r#q()))") []) []

example :
    mview simplePaths (fun _ => []) t!"p class=\"a\" hidden { q; }" = .tokens (exampleAttrs.fill []) ∧
    mview simplePaths (fun _ => []) t!"p class=\"a\" data-x=1 title={t} hidden { q; }" =
      .tokens (exampleAttrs.fill t!".attr(\"data-x\", ::leptos::prelude::IntoAttributeValue::into_attribute_value(1)).r#title({t})") := ⟨rfl, rfl⟩

/-- The attribute `class="a"`. -/
def exampleP : List Attr := [.kv ⟨⟨c!"class", 1⟩, .lit (.tok (.str c!"a"))⟩]

/-- Whatever attributes are written in an input that is read as `p class="a" .. { }` with these attributes: there is the
code for them after that for `class`. -/
example {m : List Attr} (hm : ∀ a ∈ m, a.place (.html ⟨true, c!"p"⟩) = .calls) {ts : Toks} (hl : LexicalToks ts)
    (hr : ReadsChildren simplePaths ts [] [.elem (.mk (.html ⟨true, c!"p"⟩) [] (exampleP ++ m) none (some []))])
    {s : Sched} {o : Toks} (ho : mview simplePaths s ts = .tokens o) :
    ∃ (G : CodeGap) (code : Toks), AttrsCode false (.html ⟨true, c!"p"⟩) m code ∧
      mview simplePaths (fun _ => []) t!"p class=\"a\" { }" = .tokens (G.fill []) ∧
      ∃ s', mview simplePaths s' ts = .tokens (G.fill code) := by
  have h := attrs_keep_rest (pp := simplePaths) (T := .here) (before := []) (after := []) (isSlot := false)
    (tag := .html ⟨true, c!"p"⟩) (sels := []) (a1 := exampleP) (a2 := []) (args := none) (cs := some [])
    (k := .calls) (m := []) (by simp) hm (ts := t!"p class=\"a\" { }") (lexical_of rfl) hl
    ((reading_parses (lexical_of rfl)).mpr rfl) (by simpa [TreeGap.fill, asChild] using hr) (s := fun _ => []) rfl ho
  obtain ⟨G, _, code, h1, h2, h3, s', h4⟩ := h
  have h1 : AttrsCode false (.html ⟨true, c!"p"⟩) [] _ := h1
  rw [attrsCode_nil] at h1
  subst h1
  exact ⟨G, code, h2, by rw [← h3]; rfl, s', h4⟩

/-- On components, directives and spreads are in another place than plain attributes, and `clone:` in a third one. -/
example :
    mview simplePaths (fun _ => []) t!"Foo { \"x\" }" = .tokens t!"{ #[allow(unused_braces)]
      ::leptos::prelude::IntoRender::into_render(#[allow(unreachable_code)] ::leptos::prelude::View::new(
        ::leptos::component::component_view(&Foo, ::leptos::component::component_props_builder(&Foo)
          .children({ ::leptos::children::ToChildren::to_children(move || ::leptos::prelude::View::new((
            ::leptos::prelude::IntoRender::into_render(\"x\"),))) })
          .build()).add_any_attr(()))) }" ∧
    mview simplePaths (fun _ => []) t!"Foo a=1 class:red={b} clone:c { \"x\" }" = .tokens t!"{ #[allow(unused_braces)]
      ::leptos::prelude::IntoRender::into_render(#[allow(unreachable_code)] ::leptos::prelude::View::new(
        ::leptos::component::component_view(&Foo, ::leptos::component::component_props_builder(&Foo)
          .r#a(1)
          .children({ let r#c = r#c.clone(); ::leptos::children::ToChildren::to_children(move || ::leptos::prelude::View::new((
            ::leptos::prelude::IntoRender::into_render(\"x\"),))) })
          .build()).add_any_attr((::leptos::tachys::html::class::class((\"red\", {b})),)))) }" := ⟨rfl, rfl⟩

/-- Without children the clones are not used, but their form is still checked. -/
example : AttrPlace.use none .clones = .unused ∧ AttrPlace.use (some [.value (.lit (.tok (.str [])))]) .clones = .used :=
  ⟨rfl, rfl⟩

end Mview
