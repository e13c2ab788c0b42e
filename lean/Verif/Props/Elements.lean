import Verif.Props.Values
/-
HTML, SVG, MathML and custom elements: C11, C12, C15, C16, C29 and the part of C18 about
them.
-/

-- the linter does not see variables used inside `q!"..."`
set_option linter.unusedVariables false

namespace Mview
open Lex

variable {pp : PathParser} {s : Sched} {ts out : Toks} {root : List Child} {tag : Tag}
  {sels : List Selector} {attrs : List Attr} {args : Option Toks} {cs : Option (List Child)}

/-- C11.  An element is the call of its constructor followed by method calls: attributes,
directives, class shorthands, id shorthands, spreads and children, each in source order
whatever the order in which the kinds are mixed in the source. -/
theorem element_order (hp : Parses pp ts root) (h : mview pp s ts = .tokens out)
    (he : Placed root false (.mk tag sels attrs args cs)) (hk : ∀ p, tag ≠ .component p) :
    ∃ head as ds nodes, tag.head = some head ∧
      List.Forall₂ (fun a c => a.onElement tag.kind = some c) (kvs attrs) as ∧
      List.Forall₂ (fun d c => d.onElement = some c) (directives attrs) ds ∧
      List.Forall₂ Child.Means (nodeChildren cs) nodes ∧
      Occurs (head ++ chain (as ++ ds ++ (classes sels).map classCall ++ (ids sels).map idCall ++
        (spreads attrs).map spreadCall ++ nodes.map childCall)) out := by
  obtain ⟨t, hm, ho⟩ := placed_means (mview_means hp h) he
  obtain ⟨nodes, hn, hx⟩ := means_some_xml hk hm
  obtain ⟨head, as, ds, hh, ha, hd, rfl⟩ := xmlMeans_some.mp hx
  exact ⟨head, as, ds, nodes, hh, mapM_some_forall₂.mp ha, mapM_some_forall₂.mp hd,
    nodesMean_iff.mp hn, ho⟩

/-- Everything mixed up in the source. -/
example (s : Sched) : mview simplePaths s
    t!"input .a #b .c on:input={f} {..r} type=\"text\" class:big={x} value={v} { \"1\" \"2\" }" =
    .tokens t!"{ #[allow(unused_braces)] ::leptos::prelude::IntoRender::into_render(
      ::leptos::tachys::html::element::r#input()
        .r#type(\"text\") .r#value({v})
        .on(::leptos::tachys::html::event::r#input, {f}) .class((\"big\", {x}))
        .class(({ let __x = (); \"a\" }, true)) .class(({ let __x = (); \"c\" }, true))
        .id({ let __x = (); \"b\" })
        .add_any_attr(r)
        .child(::leptos::prelude::IntoRender::into_render(\"1\"))
        .child(::leptos::prelude::IntoRender::into_render(\"2\"))) }" := rfl

theorem placed_xml (hp : Parses pp ts root) (h : mview pp s ts = .tokens out)
    (he : Placed root false (.mk tag sels attrs args cs)) (hk : ∀ p, tag ≠ .component p) :
    ∃ nodes t, xmlMeans tag sels attrs nodes = some t ∧ Occurs t out := by
  obtain ⟨t, hm, ho⟩ := placed_means (mview_means hp h) he
  obtain ⟨nodes, hn, hx⟩ := means_some_xml hk hm
  exact ⟨nodes, t, hx, ho⟩

/-- C11.  The constructors: HTML, SVG and MathML elements by name, custom elements by
text. -/
theorem element_constructor (hp : Parses pp ts root) (h : mview pp s ts = .tokens out)
    (he : Placed root false (.mk tag sels attrs args cs)) :
    (∀ i, tag = .html i → Occurs q!"::leptos::tachys::html::element::#i()" out) ∧
    (∀ i, tag = .svg i → Occurs q!"::leptos::tachys::svg::element::#i()" out) ∧
    (∀ i, tag = .math i → Occurs q!"::leptos::tachys::math::element::#i()" out) ∧
    (∀ k, tag = .webComponent k → ∃ name, name = k.repr ∧
      Occurs q!"::leptos::tachys::html::element::custom(#name)" out) := by
  have key : (∀ p, tag ≠ .component p) → ∃ head, tag.head = some head ∧ Occurs head out := by
    intro hk
    obtain ⟨head, as, ds, nodes, hh, -, -, -, ho⟩ := element_order hp h he hk
    exact ⟨head, hh, ho.prefix⟩
  refine ⟨?_, ?_, ?_, ?_⟩
  · rintro i rfl
    obtain ⟨head, hh, ho⟩ := key (by simp)
    simp only [Tag.head, Option.some.injEq] at hh
    exact hh ▸ ho
  · rintro i rfl
    obtain ⟨head, hh, ho⟩ := key (by simp)
    simp only [Tag.head, Option.some.injEq] at hh
    exact hh ▸ ho
  · rintro i rfl
    obtain ⟨head, hh, ho⟩ := key (by simp)
    simp only [Tag.head, Option.some.injEq] at hh
    exact hh ▸ ho
  · rintro k rfl
    obtain ⟨head, hh, ho⟩ := key (by simp)
    simp only [Tag.head, Option.some.injEq] at hh
    exact ⟨_, rfl, hh ▸ ho⟩

/-- C12.  Each `.name` adds a `class` call and each `#name` an `id` call with the exact
text of the name (in a block, whose statements `colours` only serve IDEs). -/
theorem selectors_on_element (hp : Parses pp ts root) (h : mview pp s ts = .tokens out)
    (he : Placed root false (.mk tag sels attrs args cs)) (hk : ∀ p, tag ≠ .component p) :
    (∀ k, .cls k ∈ sels → ∃ x name, x = colours k.spans ∧ name = k.repr ∧
      Occurs q!".class(({ #x #name }, true))" out) ∧
    (∀ k, .id k ∈ sels → ∃ x name, x = colours k.spans ∧ name = k.repr ∧
      Occurs q!".id({ #x #name })" out) := by
  obtain ⟨nodes, t, hx, ho⟩ := placed_xml hp h he hk
  obtain ⟨-, -, -, hc, hi⟩ := calls_occur_xml hx
  exact ⟨fun k hm => ⟨_, _, rfl, rfl, (hc k hm).trans ho⟩,
    fun k hm => ⟨_, _, rfl, rfl, (hi k hm).trans ho⟩⟩

/-- A name with dashes and a repeated one. -/
example (s : Sched) : mview simplePaths s t!"br .a-1 .x .x #m--n;" =
    .tokens t!"{ #[allow(unused_braces)] ::leptos::prelude::IntoRender::into_render(
      ::leptos::tachys::html::element::r#br()
        .class(({ let __x = (); let __x = (); \"a-1\" }, true))
        .class(({ let __x = (); \"x\" }, true)) .class(({ let __x = (); \"x\" }, true))
        .id({ let __x = (); let __x = (); \"m--n\" })) }" := rfl

/-- C15.  An attribute of an element is one of three method calls. -/
theorem attribute_on_element (hp : Parses pp ts root) (h : mview pp s ts = .tokens out)
    (he : Placed root false (.mk tag sels attrs args cs)) (hk : ∀ p, tag ≠ .component p)
    {k : KebabIdent} {val : Value} (ha : .kv ⟨k, val⟩ ∈ attrs) :
    ∃ name v, name = k.repr ∧ val.means = some v ∧
      (name = c!"ref" → Occurs q!".node_ref(#v)" out) ∧
      (name ≠ c!"ref" → Unchecked tag.kind name →
        Occurs q!".attr(#name,
          ::leptos::prelude::IntoAttributeValue::into_attribute_value(#v))" out) ∧
      (name ≠ c!"ref" → ¬ Unchecked tag.kind name →
        ∃ method, rawIdentOf name = some method ∧ Occurs q!".#method(#v)" out) := by
  obtain ⟨nodes, t, hx, ho⟩ := placed_xml hp h he hk
  obtain ⟨hkv, -⟩ := calls_occur_xml hx
  obtain ⟨c, hc, hoc⟩ := hkv _ ha
  have hoc := hoc.trans ho
  unfold KvAttr.onElement at hc
  simp only [Option.bind_eq_bind, Option.bind_eq_some_iff] at hc
  obtain ⟨v, hv, hc⟩ := hc
  refine ⟨_, v, rfl, hv, ?_, ?_, ?_⟩
  · intro hr
    rw [if_pos hr] at hc
    cases hc
    exact hoc
  · intro hr hu
    rw [if_neg hr, if_pos hu] at hc
    cases hc
    exact hoc
  · intro hr hu
    rw [if_neg hr, if_neg hu] at hc
    simp only [Option.bind_eq_some_iff] at hc
    obtain ⟨m, hm, hc⟩ := hc
    cases hc
    exact ⟨m, hm, hoc⟩

/-- HTML, SVG, MathML and custom elements with similar attributes. -/
example (s : Sched) : mview simplePaths s
    t!"p ref={r} class=\"a\" data-x=1 aria-label=\"l\" title=\"t\"; " =
    .tokens t!"{ #[allow(unused_braces)] ::leptos::prelude::IntoRender::into_render(
      ::leptos::tachys::html::element::r#p()
        .node_ref({r}) .r#class(\"a\")
        .attr(\"data-x\", ::leptos::prelude::IntoAttributeValue::into_attribute_value(1))
        .r#aria_label(\"l\") .r#title(\"t\")) }" := rfl
example (s : Sched) : mview simplePaths s
    t!"svg ref={r} class=\"a\" data-x=1 aria-label=\"l\" title=\"t\"; " =
    .tokens t!"{ #[allow(unused_braces)] ::leptos::prelude::IntoRender::into_render(
      ::leptos::tachys::svg::element::r#svg()
        .node_ref({r}) .r#class(\"a\")
        .attr(\"data-x\", ::leptos::prelude::IntoAttributeValue::into_attribute_value(1))
        .attr(\"aria-label\", ::leptos::prelude::IntoAttributeValue::into_attribute_value(\"l\"))
        .attr(\"title\", ::leptos::prelude::IntoAttributeValue::into_attribute_value(\"t\"))) }" := rfl
example (s : Sched) : mview simplePaths s t!"math ref={r} class=\"a\" data-x=1 title=\"t\"; " =
    .tokens t!"{ #[allow(unused_braces)] ::leptos::prelude::IntoRender::into_render(
      ::leptos::tachys::math::element::r#math()
        .node_ref({r}) .r#class(\"a\")
        .attr(\"data-x\", ::leptos::prelude::IntoAttributeValue::into_attribute_value(1))
        .r#title(\"t\")) }" := rfl
example (s : Sched) : mview simplePaths s t!"my-el ref={r} style=\"a\" title=\"t\"; " =
    .tokens t!"{ #[allow(unused_braces)] ::leptos::prelude::IntoRender::into_render(
      ::leptos::tachys::html::element::custom(\"my-el\")
        .node_ref({r}) .r#style(\"a\")
        .attr(\"title\", ::leptos::prelude::IntoAttributeValue::into_attribute_value(\"t\"))) }" := rfl

/-- C29.  A spread on an element. -/
theorem spread_on_element (hp : Parses pp ts root) (h : mview pp s ts = .tokens out)
    (he : Placed root false (.mk tag sels attrs args cs)) (hk : ∀ p, tag ≠ .component p)
    {e : Toks} (ha : .spread e ∈ attrs) : Occurs q!".add_any_attr(#e)" out := by
  obtain ⟨nodes, t, hx, ho⟩ := placed_xml hp h he hk
  obtain ⟨-, -, hs, -⟩ := calls_occur_xml hx
  exact (hs e ha).trans ho

/-! ### directives -/

/-- The event an `on:` directive without or with `:undelegated` listens to. -/
def eventPath (name : Ident) : Bool → Toks
  | false => q!"::leptos::tachys::html::event::#name"
  | true => q!"::leptos::tachys::html::event::undelegated(::leptos::tachys::html::event::#name)"

theorem event_some {d : Directive} {ev : Toks} (h : d.event = some ev) :
    ∃ name b, d.key.asIdent = some name ∧ ev = eventPath name b ∧
      ((b = false ∧ d.modifier = none) ∨ (b = true ∧ d.modifier = some ⟨false, c!"undelegated"⟩)) := by
  unfold Directive.event at h
  simp only [Option.bind_eq_bind, Option.bind_eq_some_iff] at h
  obtain ⟨name, hn, h⟩ := h
  split at h
  · rename_i hm
    cases h
    exact ⟨name, false, hn, rfl, .inl ⟨rfl, hm⟩⟩
  · rename_i m hm
    split at h
    · rename_i hu
      subst hu
      cases h
      exact ⟨name, true, hn, rfl, .inr ⟨rfl, hm⟩⟩
    · cases h

/-- The arguments of a `use:` directive. -/
def useArgs (fn : Ident) : Option Toks → Toks
  | none => q!"#fn, ().into()"
  | some v => q!"#fn, ::std::convert::Into::into(#v)"

theorem useArgs_some {d : Directive} {a : Toks} (h : d.useArgs = some a) :
    d.modifier = none ∧ ∃ fn v, d.key.asIdent = some fn ∧ a = useArgs fn v ∧
      ((d.value = none ∧ v = none) ∨ ∃ val x, d.value = some val ∧ val.means = some x ∧ v = some x) := by
  unfold Directive.useArgs at h
  obtain ⟨hm, h⟩ := bind_guard h
  simp only [Option.bind_eq_bind, Option.bind_eq_some_iff] at h
  obtain ⟨fn, hn, h⟩ := h
  refine ⟨by simpa using hm, ?_⟩
  split at h
  · rename_i hv
    cases h
    exact ⟨fn, none, hn, rfl, .inl ⟨hv, rfl⟩⟩
  · rename_i val hv
    simp only [Option.bind_eq_some_iff] at h
    obtain ⟨x, hx, h⟩ := h
    cases h
    exact ⟨fn, some x, hn, rfl, .inr ⟨val, x, hv, hx, rfl⟩⟩

theorem onElement_occurs' (hp : Parses pp ts root) (h : mview pp s ts = .tokens out)
    (he : Placed root false (.mk tag sels attrs args cs)) (hk : ∀ p, tag ≠ .component p)
    {d : Directive} (ha : .directive d ∈ attrs) :
    ∃ c, d.onElement = some c ∧ Occurs (chain [c]) out := by
  obtain ⟨nodes, t, hx, ho⟩ := placed_xml hp h he hk
  obtain ⟨-, hd, -⟩ := calls_occur_xml hx
  obtain ⟨c, hc, hoc⟩ := hd d ha
  exact ⟨c, hc, hoc.trans ho⟩

/-- C16, C18.  A directive of an element in an accepted input is one of five, and gives
one method call.  Only `on:` has a modifier, and only `:undelegated`. -/
theorem directive_on_element (hp : Parses pp ts root) (h : mview pp s ts = .tokens out)
    (he : Placed root false (.mk tag sels attrs args cs)) (hk : ∀ p, tag ≠ .component p)
    {d : Directive} (ha : .directive d ∈ attrs) :
    ∃ key v, key = d.key.text ∧ optMeans d.value = some v ∧
      ((d.dir = ⟨false, c!"class"⟩ ∧ d.modifier = none ∧ Occurs q!".class((#key, #v))" out) ∨
       (d.dir = ⟨false, c!"style"⟩ ∧ d.modifier = none ∧ Occurs q!".style((#key, #v))" out) ∨
       (d.dir = ⟨false, c!"prop"⟩ ∧ d.modifier = none ∧ Occurs q!".prop(#key, #v)" out) ∨
       (d.dir = ⟨false, c!"on"⟩ ∧ ∃ name ev, d.key.asIdent = some name ∧
          Occurs q!".on(#ev, #v)" out ∧
          ((d.modifier = none ∧ ev = eventPath name false) ∨
           (d.modifier = some ⟨false, c!"undelegated"⟩ ∧ ev = eventPath name true))) ∨
       (d.dir = ⟨false, c!"use"⟩ ∧ d.modifier = none ∧ ∃ fn a, d.key.asIdent = some fn ∧
          a = useArgs fn (d.value.map fun _ => v) ∧ Occurs q!".directive(#a)" out)) := by
  obtain ⟨c, hc, hoc⟩ := onElement_occurs' hp h he hk ha
  unfold Directive.onElement at hc
  simp only at hc
  split at hc
  · rename_i hd
    obtain ⟨hm, hc⟩ := bind_guard hc
    simp only [Option.bind_eq_bind, Option.bind_eq_some_iff] at hc
    obtain ⟨v, hv, hc⟩ := hc
    refine ⟨_, v, rfl, hv, ?_⟩
    have hm : d.modifier = none := by simpa using hm
    rcases hd with hd | hd <;> rw [hd] at hc <;> cases hc
    · exact .inl ⟨hd, hm, hoc⟩
    · exact .inr (.inl ⟨hd, hm, hoc⟩)
  · split at hc
    · rename_i hd
      obtain ⟨hm, hc⟩ := bind_guard hc
      simp only [Option.bind_eq_bind, Option.bind_eq_some_iff] at hc
      obtain ⟨v, hv, hc⟩ := hc
      refine ⟨_, v, rfl, hv, ?_⟩
      have hm : d.modifier = none := by simpa using hm
      rw [hd] at hc
      cases hc
      exact .inr (.inr (.inl ⟨hd, hm, hoc⟩))
    · split at hc
      · rename_i hd
        simp only [Option.bind_eq_bind, Option.bind_eq_some_iff] at hc
        obtain ⟨ev, hev, v, hv, hc⟩ := hc
        refine ⟨_, v, rfl, hv, ?_⟩
        rw [hd] at hc
        cases hc
        obtain ⟨name, b, hn, rfl, hb⟩ := event_some hev
        refine .inr (.inr (.inr (.inl ⟨hd, name, _, hn, hoc, ?_⟩)))
        rcases hb with ⟨rfl, hm⟩ | ⟨rfl, hm⟩
        · exact .inl ⟨hm, rfl⟩
        · exact .inr ⟨hm, rfl⟩
      · split at hc
        · rename_i hd
          simp only [Option.bind_eq_bind, Option.bind_eq_some_iff] at hc
          obtain ⟨a, hu, hc⟩ := hc
          cases hc
          obtain ⟨hm, fn, v, hn, rfl, hv⟩ := useArgs_some hu
          rcases hv with ⟨hv, rfl⟩ | ⟨val, x, hv, hx, rfl⟩
          · exact ⟨_, [], rfl, by simp [hv, optMeans],
              .inr (.inr (.inr (.inr ⟨hd, hm, fn, _, hn, by rw [hv]; rfl, hoc⟩)))⟩
          · exact ⟨_, x, rfl, by simp [hv, optMeans, hx],
              .inr (.inr (.inr (.inr ⟨hd, hm, fn, _, hn, by rw [hv]; rfl, hoc⟩)))⟩
        · cases hc

/-- All directives of elements. -/
example (s : Sched) : mview simplePaths s
    t!"p class:a-b={x} style:\"c\"=\"d\" prop:value=[v] on:my-event:undelegated={f} use:g use:h={1};" =
    .tokens t!"{ #[allow(unused_braces)] ::leptos::prelude::IntoRender::into_render(
      ::leptos::tachys::html::element::r#p()
        .class((\"a-b\", {x})) .style((\"c\", \"d\")) .prop(\"value\", move || {v})
        .on(::leptos::tachys::html::event::undelegated(::leptos::tachys::html::event::r#my_event),
          {f})
        .directive(r#g, ().into()) .directive(r#h, ::std::convert::Into::into({1}))) }" := rfl

/-! ### errors -/

/-- reports a diagnostic of a directive of an element -/
theorem element_directive_reported (hr : Reads pp ts root)
    (he : Reached root false (.mk tag sels attrs args cs)) (hk : ∀ p, tag ≠ .component p)
    {d : Directive} (ha : .directive d ∈ attrs) {diag : Diag}
    (h : Says FG diag (xmlDirectiveTokens d)) : Reported pp s ts diag :=
  reported_of_reached hr he (element_says_attrs hk (xmlAttrsLoop_says_directive h ha)) s

/-- The directives elements know. -/
def elementDirectives : List Str := [c!"class", c!"style", c!"prop", c!"on", c!"use"]

/-- C16.  `attr:` and `clone:` on elements are always reported as not supported, and
directives with any other unknown name (`r#class` is not `class`) as unknown. -/
theorem directive_reported_on_element (hr : Reads pp ts root)
    (he : Reached root false (.mk tag sels attrs args cs)) (hk : ∀ p, tag ≠ .component p)
    {d : Directive} (ha : .directive d ∈ attrs)
    (hd : d.dir.raw = true ∨ d.dir.name ∉ elementDirectives) :
    Reported pp s ts
      (if d.dir.raw = false ∧ (d.dir.name = c!"attr" ∨ d.dir.name = c!"clone") then
        .directiveOnElement d.dir else .unknownDirective d.dir) := by
  refine element_directive_reported hr he hk ha ?_
  obtain ⟨⟨raw, name⟩, key, m, v⟩ := d
  have hn : ∀ n ∈ elementDirectives, (⟨raw, name⟩ : Ident) ≠ ⟨false, n⟩ := by
    rintro n hn ⟨⟩
    simp at hd
    exact hd hn
  simp only [elementDirectives, List.forall_mem_cons] at hn
  obtain ⟨h1, h2, h3, h4, h5, -⟩ := hn
  unfold xmlDirectiveTokens
  simp only [h1, h2, h3, h4, h5, or_self, if_false]
  by_cases hc : (⟨raw, name⟩ : Ident) = ⟨false, c!"attr"⟩ ∨ (⟨raw, name⟩ : Ident) = ⟨false, c!"clone"⟩
  · have hc' : raw = false ∧ (name = c!"attr" ∨ name = c!"clone") := by
      simpa [← and_or_left] using hc
    rw [if_pos hc, if_pos hc']
    exact Says.bind (x := emit _) (by simp [emit, Says]) _
  · have hc' : ¬ (raw = false ∧ (name = c!"attr" ∨ name = c!"clone")) := by
      simpa [← and_or_left] using hc
    rw [if_neg hc, if_neg hc']
    exact Says.bind (x := emit _) (by simp [emit, Says]) _

theorem emitIfModifier_says (m : Ident) : Says FG (.modifierNotAllowed m) (emitIfModifier (some m)) := by
  simp [emitIfModifier, emit, Says]

/-- C18.  On an element a modifier other than `:undelegated`, or `:undelegated` on
anything but `on:`, is reported. -/
theorem modifier_reported_on_element (hr : Reads pp ts root)
    (he : Reached root false (.mk tag sels attrs args cs)) (hk : ∀ p, tag ≠ .component p)
    {d : Directive} (ha : .directive d ∈ attrs) {m : Ident} (hm : d.modifier = some m) :
    (d.dir ∈ [⟨false, c!"class"⟩, ⟨false, c!"style"⟩, ⟨false, c!"prop"⟩, ⟨false, c!"use"⟩] →
      Reported pp s ts (.modifierNotAllowed m)) ∧
    (d.dir = ⟨false, c!"on"⟩ → m ≠ ⟨false, c!"undelegated"⟩ →
      Reported pp s ts (.unknownModifier m)) := by
  obtain ⟨dir, key, m', v⟩ := d
  obtain rfl : m' = some m := hm
  refine ⟨?_, ?_⟩
  · intro hd
    refine element_directive_reported hr he hk ha ?_
    simp only [List.mem_cons, List.not_mem_nil, or_false] at hd
    rcases hd with rfl | rfl | rfl | rfl
    · exact .after (toLitStr_aborts _) fun _ => .bind (emitIfModifier_says m) _
    · exact .after (toLitStr_aborts _) fun _ => .bind (emitIfModifier_says m) _
    · exact .after (toLitStr_aborts _) fun _ => .bind (emitIfModifier_says m) _
    · exact .bind (.after (toIdentOrEmit_aborts _) fun _ => .bind (emitIfModifier_says m) _) _
  · intro hd hu
    refine element_directive_reported hr he hk ha ?_
    obtain rfl : dir = ⟨false, c!"on"⟩ := hd
    refine .bind ?_ _
    unfold eventListenerEventPath
    simp only [ne_eq, not_true_eq_false, if_false, hu]
    split
    · exact .after (toSnakeIdent_aborts _) fun _ => .bind (x := emit _) (by simp [emit, Says]) _
    · exact .after (x := emit _) (.ret _ _) fun _ => .after (.ret _ _) fun _ =>
        .bind (x := emit _) (by simp [emit, Says]) _

/-- One error of each kind. -/
example (s : Sched) : mview simplePaths s
    t!"p attr:a clone:b foo:c class:d:e={1} on:x:once={2} use:y:z;" =
    .errors [.directiveOnElement ⟨false, c!"attr"⟩, .directiveOnElement ⟨false, c!"clone"⟩,
      .unknownDirective ⟨false, c!"foo"⟩, .modifierNotAllowed ⟨false, c!"e"⟩,
      .unknownModifier ⟨false, c!"once"⟩, .modifierNotAllowed ⟨false, c!"z"⟩] t!"()" := rfl

end Mview
