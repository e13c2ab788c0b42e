import Verif.Props.Elements
/-
Components: C13, C17, C23, C27, C29 and the part of C18 about them.
-/

-- the linter does not see variables used inside `q!"..."`
set_option linter.unusedVariables false

namespace Mview
open Lex

variable {pp : PathParser} {s : Sched} {ts out : Toks} {root : List Child} {path : Path}
  {sels : List Selector} {attrs : List Attr} {args : Option Toks} {cs : Option (List Child)}

/-- The whole of a component: its path with the turbofish, its attributes, children and
slots as calls on the builder, everything else in one tuple. -/
theorem component_shape (hp : Parses pp ts root) (h : mview pp s ts = .tokens out)
    (he : Placed root false (.mk (.component path) sels attrs args cs)) :
    ∃ p as es cl nodes slots scalls, path.means = some p ∧
      List.Forall₂ (fun a c => a.onComponent = some c) (kvs attrs) as ∧
      List.Forall₂ (fun a t => a.entry = some t) (entries attrs) es ∧
      List.Forall₂ (fun d t => d.cloneStmt = some t) (clones attrs) cl ∧
      List.Forall₂ Child.Means (nodeChildren cs) nodes ∧
      List.Forall₂ (fun e p => e.slotName = some p.1 ∧ e.Means true p.2) (slotChildren cs) slots ∧
      SlotCalls slots scalls ∧
      ∃ calls, calls = chain (as ++ childrenCall args cl.flatten nodes ++ scalls ++
        [⟨plain c!"build", []⟩]) ∧
      ∃ en, en = commaAfter ((classes sels).map classEntry ++ idEntry (ids sels) ++ es) ∧
      Occurs q!"#[allow(unreachable_code)] ::leptos::prelude::View::new(
        ::leptos::component::component_view(& #p,
          ::leptos::component::component_props_builder(& #p) #calls
        ).add_any_attr((#en)))" out := by
  obtain ⟨t, hm, ho⟩ := placed_means (mview_means hp h) he
  obtain ⟨nodes, slots, scalls, hn, hsl, hsc, hc⟩ := means_some_component hm
  obtain ⟨p, as, es, cl, h1, h2, h3, h4, calls, hcalls, en, hen, rfl⟩ := componentMeans_some.mp hc
  exact ⟨p, as, es, cl, nodes, slots, scalls, h1, mapM_some_forall₂.mp h2,
    mapM_some_forall₂.mp h3, mapM_some_forall₂.mp h4, nodesMean_iff.mp hn, slotsMean_iff.mp hsl,
    hsc, calls, hcalls, en, hen, ho⟩

/-- Everything at once. -/
example : mview simplePaths (fun _ => [])
    t!"a::B<u8> .x #y a={1} clone:k {..r} class:z c=true |d| { \"t\" slot:S; {e} }" =
    .tokens t!"{ #[allow(unused_braces)] ::leptos::prelude::IntoRender::into_render(
      #[allow(unreachable_code)] ::leptos::prelude::View::new(
        ::leptos::component::component_view(& a::B:: <u8> ,
          ::leptos::component::component_props_builder(& a::B:: <u8>)
            .r#a({1}) .r#c(true)
            .children({ let r#k = r#k.clone(); move |d| ::leptos::prelude::View::new((
              ::leptos::prelude::IntoRender::into_render(\"t\"),
              ::leptos::prelude::IntoRender::into_render({e}),)) })
            .r#s(::std::convert::Into::into(S::builder().build()))
            .build()
        ).add_any_attr((
          ::leptos::tachys::html::class::class((\"x\", true)),
          ::leptos::tachys::html::attribute::r#id(\"y\"),
          r,
          ::leptos::tachys::html::class::class((\"z\", true)),)))) }" := rfl

/-! ### C13 -/

/-- Text joined by single spaces. -/
def spaced : List Str → Str
  | [] => []
  | [x] => x
  | x :: y :: xs => x ++ c!" " ++ spaced (y :: xs)

theorem spaced_eq : ∀ xs : List Str, [' '].intercalate xs = spaced xs
  | [] => rfl
  | [x] => by simp [spaced]
  | x :: y :: xs => by
    rw [spaced, ← spaced_eq (y :: xs)]
    simp [List.intercalate]

/-- C13.  The attributes of a component start with one `class` per class shorthand, then
one `id` with all ids separated by spaces if there is any; after these come directives and
spreads. -/
theorem selectors_on_component (hp : Parses pp ts root) (h : mview pp s ts = .tokens out)
    (he : Placed root false (.mk (.component path) sels attrs args cs)) :
    ∃ cls id rest en,
      cls = (classes sels).map (fun k => let name := k.repr
        q!"::leptos::tachys::html::class::class((#name, true))") ∧
      (ids sels = [] → id = []) ∧
      (ids sels ≠ [] → ∃ names, names = spaced ((ids sels).map (·.repr)) ∧
        id = [q!"::leptos::tachys::html::attribute::r#id(#names)"]) ∧
      List.Forall₂ (fun a t => a.entry = some t) (entries attrs) rest ∧
      en = commaAfter (cls ++ id ++ rest) ∧ Occurs q!".add_any_attr((#en))" out := by
  obtain ⟨t, hm, ho⟩ := placed_means (mview_means hp h) he
  obtain ⟨nodes, slots, scalls, hn, hsl, hsc, hc⟩ := means_some_component hm
  obtain ⟨es, hes, en, hen, hoc⟩ := entries_occur_component hc
  refine ⟨_, idEntry (ids sels), es, en, rfl, ?_, ?_, mapM_some_forall₂.mp hes, hen, hoc.trans ho⟩
  · intro hi
    simp [idEntry, hi]
  · intro hi
    refine ⟨_, rfl, ?_⟩
    simp [idEntry, hi, spaced_eq]

/-- Classes and ids mixed, before a directive written with them. -/
example (s : Sched) : mview simplePaths s t!"A #i .a #j .b-c on:x={f};" =
    .tokens t!"{ #[allow(unused_braces)] ::leptos::prelude::IntoRender::into_render(
      #[allow(unreachable_code)] ::leptos::prelude::View::new(
        ::leptos::component::component_view(& A,
          ::leptos::component::component_props_builder(& A).build()
        ).add_any_attr((
          ::leptos::tachys::html::class::class((\"a\", true)),
          ::leptos::tachys::html::class::class((\"b-c\", true)),
          ::leptos::tachys::html::attribute::r#id(\"i j\"),
          ::leptos::tachys::html::event::on(::leptos::tachys::html::event::r#x, {f}),)))) }" := rfl

/-! ### C17, C29 -/

theorem entry_occurs {l : List Toks} {x : Toks} (hx : x ∈ l) :
    ∃ y, y = q!"#x," ∧ Occurs y (commaAfter l) := by
  refine ⟨_, rfl, ?_⟩
  induction l with
  | nil => simp at hx
  | cons a l ih =>
    simp only [commaAfter]
    rcases List.mem_cons.mp hx with rfl | hx'
    · simpa using Occurs.here (x := q!"#x,") [] (commaAfter l)
    · simpa using Occurs.append_right (q!"#a,") (ih hx')

/-- C17, C29.  Directives other than `clone:` and spreads are entries of the tuple given to
`.add_any_attr((..))`: there is exactly one entry for each of them, in source order, and a
spread's is its expression. -/
theorem entries_in_order (hp : Parses pp ts root) (h : mview pp s ts = .tokens out)
    (he : Placed root false (.mk (.component path) sels attrs args cs)) :
    ∃ pre es en, List.Forall₂ (fun a t => match a with
        | .directive d => d.onComponent = some t
        | .spread e => t = e
        | .kv _ => False) (attrs.filter fun
          | .kv _ => false
          | .directive d => d.dir ≠ ⟨false, c!"clone"⟩
          | .spread _ => true) es ∧
      pre.length = (classes sels).length + (if ids sels = [] then 0 else 1) ∧
      en = commaAfter (pre ++ es) ∧ Occurs q!".add_any_attr((#en))" out := by
  obtain ⟨cls, id, es, en, hcls, hid, hid', hes, hen, ho⟩ := selectors_on_component hp h he
  refine ⟨cls ++ id, es, en, ?_, ?_, hen, ho⟩
  · refine List.Forall₂.imp ?_ hes
    intro a t hat
    cases a with
    | kv a => simp [Attr.entry] at hat
    | directive d => exact hat
    | spread e => simpa [Attr.entry] using hat.symm
  · rw [List.length_append, hcls, List.length_map]
    by_cases hi : ids sels = []
    · simp [hid hi, hi]
    · obtain ⟨n, -, h'⟩ := hid' hi
      simp [h', hi]

theorem placed_onComponent (hp : Parses pp ts root) (h : mview pp s ts = .tokens out)
    (he : Placed root false (.mk (.component path) sels attrs args cs)) {d : Directive}
    (ha : .directive d ∈ attrs) (hd : d.dir ≠ ⟨false, c!"clone"⟩) :
    ∃ t, d.onComponent = some t ∧ ∃ y, y = q!"#t," ∧ Occurs y out := by
  obtain ⟨t, hm, ho⟩ := placed_means (mview_means hp h) he
  obtain ⟨nodes, slots, scalls, hn, hsl, hsc, hc⟩ := means_some_component hm
  obtain ⟨es, hes, en, hen, hoc⟩ := entries_occur_component hc
  obtain ⟨x, hx, hdx⟩ := mapM_some_mem hes (mem_entries_directive.mpr ⟨ha, hd⟩)
  obtain ⟨y, hy, hoy⟩ := entry_occurs (l := (classes sels).map classEntry ++ idEntry (ids sels) ++ es)
    (x := x) (by simp [hx])
  refine ⟨x, hdx, y, hy, ?_⟩
  have h2 : Occurs en q!".add_any_attr((#en))" := by
    simp only [splice_toks]
    exact .cons _ (.cons _ (.group _ _ (by
      simpa using Occurs.group .paren [] (Occurs.refl en))))
  subst hen
  exact ((hoy.trans h2).trans hoc).trans ho

/-- C17.  The entry of each directive of a component. -/
theorem directive_on_component (hp : Parses pp ts root) (h : mview pp s ts = .tokens out)
    (he : Placed root false (.mk (.component path) sels attrs args cs)) {d : Directive}
    (ha : .directive d ∈ attrs) (hd : d.dir ≠ ⟨false, c!"clone"⟩) :
    ∃ key, key = d.key.text ∧
      ((d.dir = ⟨false, c!"class"⟩ ∧ ∃ v, trueMeans d.value = some v ∧
          Occurs q!"::leptos::tachys::html::class::class((#key, #v))," out) ∨
       (d.dir = ⟨false, c!"style"⟩ ∧ ∃ v, trueMeans d.value = some v ∧
          Occurs q!"::leptos::tachys::html::style::style((#key, #v))," out) ∨
       (d.dir = ⟨false, c!"attr"⟩ ∧ ∃ v, trueMeans d.value = some v ∧
          ((key = c!"class" ∧ Occurs q!"::leptos::tachys::html::class::r#class(#v)," out) ∨
           (key = c!"style" ∧ Occurs q!"::leptos::tachys::html::style::r#style(#v)," out) ∨
           ('-' ∈ key ∧ ¬ c!"aria-" <+: key ∧
            Occurs q!"::leptos::tachys::html::attribute::custom::custom_attribute(#key, #v)," out) ∨
           (¬ ('-' ∈ key ∧ ¬ c!"aria-" <+: key) ∧ ∃ f, d.key.asIdent = some f ∧
            Occurs q!"::leptos::tachys::html::attribute::#f(#v)," out))) ∨
       (d.dir = ⟨false, c!"prop"⟩ ∧ ∃ f v, d.key.asIdent = some f ∧ trueMeans d.value = some v ∧
          Occurs q!"::leptos::tachys::html::property::#f(#v)," out) ∨
       (d.dir = ⟨false, c!"on"⟩ ∧ ∃ name ev v, d.key.asIdent = some name ∧
          optMeans d.value = some v ∧
          Occurs q!"::leptos::tachys::html::event::on(#ev, #v)," out ∧
          ((d.modifier = none ∧ ev = eventPath name false) ∨
           (d.modifier = some ⟨false, c!"undelegated"⟩ ∧ ev = eventPath name true))) ∨
       (d.dir = ⟨false, c!"use"⟩ ∧ d.modifier = none ∧ ∃ fn v a, d.key.asIdent = some fn ∧
          optMeans d.value = some v ∧ a = useArgs fn (d.value.map fun _ => v) ∧
          Occurs q!"::leptos::tachys::html::directive::directive(#a)," out)) := by
  obtain ⟨t, ht, y, rfl, ho⟩ := placed_onComponent hp h he ha hd
  refine ⟨_, rfl, ?_⟩
  unfold Directive.onComponent at ht
  simp only at ht
  split at ht
  · rename_i hdir
    simp only [Option.bind_eq_bind, Option.bind_eq_some_iff] at ht
    obtain ⟨v, hv, ht⟩ := ht
    rcases hdir with hdir | hdir <;> rw [hdir] at ht <;> cases ht
    · exact .inl ⟨hdir, v, hv, ho⟩
    · exact .inr (.inl ⟨hdir, v, hv, ho⟩)
  · split at ht
    · rename_i hdir
      refine .inr (.inr (.inl ⟨hdir, ?_⟩))
      split at ht
      · rename_i hkey
        simp only [Option.bind_eq_bind, Option.bind_eq_some_iff] at ht
        obtain ⟨f, hf, v, hv, ht⟩ := ht
        refine ⟨v, hv, ?_⟩
        have hf' : f = ⟨true, d.key.text⟩ := by
          obtain ⟨dir, key, m, v⟩ := d
          cases key with
          | str s => simp [KebabOrStr.asIdent] at hf
          | kebab k =>
            simp only [KebabOrStr.text] at hkey
            simp only [KebabOrStr.asIdent] at hf
            rcases hkey with hkey | hkey <;> rw [hkey] at hf <;>
              simp only [KebabOrStr.text, hkey] <;> cases hf <;> rfl
        rcases hkey with hkey | hkey
        · refine .inl ⟨hkey, ?_⟩
          subst hf'
          rw [hkey] at ht
          cases ht
          exact ho
        · refine .inr (.inl ⟨hkey, ?_⟩)
          subst hf'
          rw [hkey] at ht
          cases ht
          exact ho
      · split at ht
        · rename_i hkey
          simp only [Option.bind_eq_bind, Option.bind_eq_some_iff] at ht
          obtain ⟨v, hv, ht⟩ := ht
          cases ht
          exact ⟨v, hv, .inr (.inr (.inl ⟨hkey.1, hkey.2, ho⟩))⟩
        · rename_i hkey
          simp only [Option.bind_eq_bind, Option.bind_eq_some_iff] at ht
          obtain ⟨f, hf, v, hv, ht⟩ := ht
          cases ht
          exact ⟨v, hv, .inr (.inr (.inr ⟨hkey, f, hf, ho⟩))⟩
    · split at ht
      · rename_i hdir
        simp only [Option.bind_eq_bind, Option.bind_eq_some_iff] at ht
        obtain ⟨f, hf, v, hv, ht⟩ := ht
        cases ht
        exact .inr (.inr (.inr (.inl ⟨hdir, f, v, hf, hv, ho⟩)))
      · split at ht
        · rename_i hdir
          simp only [Option.bind_eq_bind, Option.bind_eq_some_iff] at ht
          obtain ⟨ev, hev, v, hv, ht⟩ := ht
          cases ht
          obtain ⟨name, b, hn, rfl, hb⟩ := event_some hev
          refine .inr (.inr (.inr (.inr (.inl ⟨hdir, name, _, v, hn, hv, ho, ?_⟩))))
          rcases hb with ⟨rfl, hm⟩ | ⟨rfl, hm⟩
          · exact .inl ⟨hm, rfl⟩
          · exact .inr ⟨hm, rfl⟩
        · split at ht
          · rename_i hdir
            simp only [Option.bind_eq_bind, Option.bind_eq_some_iff] at ht
            obtain ⟨a, hu, ht⟩ := ht
            cases ht
            obtain ⟨hm, fn, v, hn, rfl, hv⟩ := useArgs_some hu
            refine .inr (.inr (.inr (.inr (.inr ⟨hdir, hm, fn, ?_⟩))))
            rcases hv with ⟨hv, rfl⟩ | ⟨val, x, hv, hx, rfl⟩
            · exact ⟨[], _, hn, by simp [hv, optMeans], by rw [hv]; rfl, ho⟩
            · exact ⟨x, _, hn, by simp [hv, optMeans, hx], by rw [hv]; rfl, ho⟩
          · cases ht

set_option maxRecDepth 2000 in
/-- All directives of components. -/
example (s : Sched) : mview simplePaths s
    t!"A class:a style:\"b\"=\"c\" attr:class=\"d\" attr:data-x={1} attr:aria-y={2} attr:z
      prop:value=[v] on:e:undelegated={f} use:g use:h={1};" =
    .tokens t!"{ #[allow(unused_braces)] ::leptos::prelude::IntoRender::into_render(
      #[allow(unreachable_code)] ::leptos::prelude::View::new(
        ::leptos::component::component_view(& A,
          ::leptos::component::component_props_builder(& A).build()
        ).add_any_attr((
          ::leptos::tachys::html::class::class((\"a\", true)),
          ::leptos::tachys::html::style::style((\"b\", \"c\")),
          ::leptos::tachys::html::class::r#class(\"d\"),
          ::leptos::tachys::html::attribute::custom::custom_attribute(\"data-x\", {1}),
          ::leptos::tachys::html::attribute::r#aria_y({2}),
          ::leptos::tachys::html::attribute::r#z(true),
          ::leptos::tachys::html::property::r#value(move || {v}),
          ::leptos::tachys::html::event::on(
            ::leptos::tachys::html::event::undelegated(::leptos::tachys::html::event::r#e), {f}),
          ::leptos::tachys::html::directive::directive(r#g, ().into()),
          ::leptos::tachys::html::directive::directive(r#h, ::std::convert::Into::into({1})),
          )))) }" := rfl

/-- The attributes of a component are calls on its builder. -/
theorem attribute_on_component (hp : Parses pp ts root) (h : mview pp s ts = .tokens out)
    (he : Placed root false (.mk (.component path) sels attrs args cs)) {k : KebabIdent}
    {val : Value} (ha : .kv ⟨k, val⟩ ∈ attrs) :
    ∃ method v, rawIdentOf k.repr = some method ∧ val.means = some v ∧
      Occurs q!".#method(#v)" out := by
  obtain ⟨t, hm, ho⟩ := placed_means (mview_means hp h) he
  obtain ⟨nodes, slots, scalls, hn, hsl, hsc, hc⟩ := means_some_component hm
  obtain ⟨as, cl, has, -, hoc⟩ := call_occurs_component hc
  obtain ⟨c, hcm, hac⟩ := mapM_some_mem has (mem_kvs.mpr ha)
  unfold KvAttr.onComponent at hac
  simp only [Option.bind_eq_bind, Option.bind_eq_some_iff] at hac
  obtain ⟨m, hm, v, hv, hac⟩ := hac
  cases hac
  exact ⟨m, v, hm, hv, ((occurs_chain (c := ⟨m, v⟩) (by simp [hcm])).trans hoc).trans ho⟩

/-! ### C23 -/

/-- C23.  The calls on the builder of a component are its attributes, `.children(..)`
exactly if it has a child that is not a slot, its slots and `.build()`.  The argument of
`.children` starts with the `clone:` statements; the rest is a view of the children in
source order, as a closure with the given arguments or through `ToChildren`. -/
theorem children_of_component (hp : Parses pp ts root) (h : mview pp s ts = .tokens out)
    (he : Placed root false (.mk (.component path) sels attrs args cs)) :
    ∃ as ch scalls cl nodes,
      List.Forall₂ (fun a c => a.onComponent = some c) (kvs attrs) as ∧
      List.Forall₂ (fun d t => d.modifier = none ∧ d.value = none ∧
        ∃ x, d.key.asIdent = some x ∧ t = q!"let #x = #x.clone();") (clones attrs) cl ∧
      List.Forall₂ Child.Means (nodeChildren cs) nodes ∧
      (nodeChildren cs = [] → ch = []) ∧
      (nodeChildren cs ≠ [] → ∃ stmts view arg, stmts = cl.flatten ∧ view = viewOf nodes ∧
        ch = [⟨⟨false, c!"children"⟩, arg⟩] ∧
        (∀ a, args = some a → arg = q!"{ #stmts move #a #view }") ∧
        (args = none →
          arg = q!"{ #stmts ::leptos::children::ToChildren::to_children(move || #view) }")) ∧
      Occurs (chain (as ++ ch ++ scalls ++ [⟨⟨false, c!"build"⟩, []⟩])) out := by
  obtain ⟨t, hm, ho⟩ := placed_means (mview_means hp h) he
  obtain ⟨nodes, slots, scalls, hn, hsl, hsc, hc⟩ := means_some_component hm
  obtain ⟨as, cl, has, hcl, hoc⟩ := call_occurs_component hc
  have hf := nodesMean_iff.mp hn
  have hnil : nodeChildren cs = [] ↔ nodes = [] := by
    rw [← List.length_eq_zero_iff, ← List.length_eq_zero_iff, nodeChildren, hf.length_eq]
  refine ⟨as, _, scalls, cl, nodes, mapM_some_forall₂.mp has, ?_, hf, ?_, ?_, hoc.trans ho⟩
  · refine List.Forall₂.imp ?_ (mapM_some_forall₂.mp hcl)
    intro d t hd
    unfold Directive.cloneStmt at hd
    obtain ⟨hg, hd⟩ := bind_guard hd
    simp only [Option.bind_eq_bind, Option.bind_eq_some_iff] at hd
    obtain ⟨x, hx, hd⟩ := hd
    cases hd
    exact ⟨by simpa using hg.1, by simpa using hg.2, x, hx, rfl⟩
  · intro hn
    simp [childrenCall, hnil.mp hn]
  · intro hn
    have hn' : nodes ≠ [] := fun h' => hn (hnil.mpr h')
    cases args with
    | none =>
      exact ⟨_, _, _, rfl, rfl, by simp only [childrenCall, if_neg hn'], by simp, fun _ => rfl⟩
    | some a =>
      refine ⟨_, _, _, rfl, rfl, by simp only [childrenCall, if_neg hn']; rfl, ?_, by simp⟩
      rintro a' ⟨⟩
      rfl

/-- With arguments and clones, without, and with only a slot. -/
example : mview simplePaths (fun _ => []) t!"A clone:x clone:y |(i, j)| { {x} {y} }" =
    .tokens t!"{ #[allow(unused_braces)] ::leptos::prelude::IntoRender::into_render(
      #[allow(unreachable_code)] ::leptos::prelude::View::new(
        ::leptos::component::component_view(& A,
          ::leptos::component::component_props_builder(& A)
            .children({ let r#x = r#x.clone(); let r#y = r#y.clone();
              move |(i, j)| ::leptos::prelude::View::new((
                ::leptos::prelude::IntoRender::into_render({x}),
                ::leptos::prelude::IntoRender::into_render({y}),)) })
            .build()
        ).add_any_attr(()))) }" := rfl
example : mview simplePaths (fun _ => []) t!"A { {x} }" =
    .tokens t!"{ #[allow(unused_braces)] ::leptos::prelude::IntoRender::into_render(
      #[allow(unreachable_code)] ::leptos::prelude::View::new(
        ::leptos::component::component_view(& A,
          ::leptos::component::component_props_builder(& A)
            .children({ ::leptos::children::ToChildren::to_children(
              move || ::leptos::prelude::View::new((
                ::leptos::prelude::IntoRender::into_render({x}),))) })
            .build()
        ).add_any_attr(()))) }" := rfl
example : mview simplePaths (fun _ => []) t!"A clone:x |i| { }" =
    .tokens t!"{ #[allow(unused_braces)] ::leptos::prelude::IntoRender::into_render(
      #[allow(unreachable_code)] ::leptos::prelude::View::new(
        ::leptos::component::component_view(& A,
          ::leptos::component::component_props_builder(& A).build()
        ).add_any_attr(()))) }" := rfl

/-! ### C27 -/

/-- C27.  The path of a component is printed twice, each time with a `::` before every
generic argument list. -/
theorem turbofish_everywhere (hp : Parses pp ts root) (h : mview pp s ts = .tokens out)
    (he : Placed root false (.mk (.component path) sels attrs args cs)) :
    ∃ segs p, List.Forall₂ (fun (g : PathSeg) t => ∃ i, i = g.ident ∧
        ((g.args = .none ∧ t = q!"#i") ∨
         (∃ b inner, g.args = .angle b inner ∧ t = q!"#i :: < #inner >"))) path.segs segs ∧
      p = (if path.leading then t!"::" else []) ++ joinColons segs ∧
      Occurs q!"& #p, ::leptos::component::component_props_builder(& #p)" out := by
  obtain ⟨p, as, es, cl, nodes, slots, scalls, hm, -, -, -, -, -, -, calls, -, en, -, ho⟩ :=
    component_shape hp h he
  unfold Path.means at hm
  simp only [Option.bind_eq_bind, Option.bind_eq_some_iff] at hm
  obtain ⟨segs, hs, hm⟩ := hm
  refine ⟨segs, p, ?_, (Option.some.inj hm).symm, ?_⟩
  · refine List.Forall₂.imp ?_ (mapM_some_forall₂.mp hs)
    intro g t hg
    unfold PathSeg.means at hg
    simp only [Option.bind_eq_bind, Option.bind_eq_some_iff] at hg
    obtain ⟨a, ha, hg⟩ := hg
    refine ⟨_, rfl, ?_⟩
    cases hga : g.args with
    | none =>
      rw [hga] at ha
      cases ha
      cases hg
      exact .inl ⟨rfl, rfl⟩
    | angle b inner =>
      rw [hga] at ha
      cases ha
      cases hg
      exact .inr ⟨b, inner, rfl, rfl⟩
    | paren inner => rw [hga] at ha; cases ha
  · refine Occurs.trans ?_ ho
    simp only [splice_toks]
    iterate 14 refine .cons _ ?_
    refine .group _ _ ?_
    iterate 9 refine .cons _ ?_
    refine .group _ _ ?_
    simpa using Occurs.here (x := q!"& #p, ::leptos::component::component_props_builder(& #p)") []
      calls

/-- Without, with and with some turbofishes, nested generics. -/
example (s : Sched) : mview simplePaths s t!"a::B<Vec<u8>, C>;" =
    .tokens t!"{ #[allow(unused_braces)] ::leptos::prelude::IntoRender::into_render(
      #[allow(unreachable_code)] ::leptos::prelude::View::new(
        ::leptos::component::component_view(& a::B:: <Vec<u8>, C> ,
          ::leptos::component::component_props_builder(& a::B:: <Vec<u8>, C>).build()
        ).add_any_attr(()))) }" := rfl
example (s : Sched) : mview simplePaths s t!"a::B::<Vec<u8>, C>;" =
    mview simplePaths s t!"a::B<Vec<u8>, C>;" := rfl

/-- A path with the turbofishes as given. -/
def PathArgs.setTurbofish (b : Bool) : PathArgs → PathArgs
  | .angle _ inner => .angle b inner
  | a => a

/-- C27.  Writing or omitting any turbofish makes no difference to what a path is
printed as. -/
theorem turbofish_irrelevant (lead : Bool) (segs : List PathSeg) (f : PathSeg → Bool) :
    (Path.mk lead (segs.map fun g => ⟨g.ident, g.args.setTurbofish (f g)⟩)).means =
      (Path.mk lead segs).means := by
  have : ∀ g : PathSeg, (PathSeg.mk g.ident (g.args.setTurbofish (f g))).means = g.means := by
    rintro ⟨i, a⟩
    cases a <;> rfl
  simp only [Path.means]
  congr 1
  induction segs with
  | nil => rfl
  | cons g gs ih => simp only [List.map_cons, List.mapM_cons, this, ih]

/-! ### errors -/

/-- reports a diagnostic of an attribute of a component or slot -/
theorem component_attr_reported (hr : Reads pp ts root) {b : Bool}
    (he : Reached root b (.mk (.component path) sels attrs args cs)) {x : Attr} (ha : x ∈ attrs)
    {diag : Diag} (h : ∀ bufs as, Says FG diag (componentAttrsLoop b bufs (x :: as))) :
    Reported pp s ts diag :=
  reported_of_reached hr he (component_says_own (.inr fun bufs => componentAttrsLoop_says h ha bufs)) s

/-- The directives components know. -/
def componentDirectives : List Str :=
  [c!"class", c!"style", c!"attr", c!"prop", c!"on", c!"use", c!"clone"]

theorem anyAttr_unknown {d : Directive} (hd : d.dir.raw = true ∨ d.dir.name ∉ componentDirectives) :
    directiveToAnyAttrPath d = .ret [] none ∧ d.dir ≠ ⟨false, c!"clone"⟩ := by
  obtain ⟨⟨raw, name⟩, key, m, v⟩ := d
  have hn : ∀ n ∈ componentDirectives, (⟨raw, name⟩ : Ident) ≠ ⟨false, n⟩ := by
    rintro n hn ⟨⟩
    simp at hd
    exact hd hn
  simp only [componentDirectives, List.forall_mem_cons] at hn
  obtain ⟨h1, h2, h3, h4, h5, h6, h7, -⟩ := hn
  refine ⟨?_, h7⟩
  unfold directiveToAnyAttrPath
  simp only [h1, h2, h3, h4, h5, h6, or_self, if_false]
  rfl

/-- C17.  A directive of a component with an unknown name is always reported. -/
theorem unknown_directive_on_component (hr : Reads pp ts root)
    (he : Reached root false (.mk (.component path) sels attrs args cs)) {d : Directive}
    (ha : .directive d ∈ attrs) (hd : d.dir.raw = true ∨ d.dir.name ∉ componentDirectives) :
    Reported pp s ts (.unknownDirective d.dir) := by
  refine component_attr_reported hr he ha fun bufs as => ?_
  obtain ⟨h1, h2⟩ := anyAttr_unknown hd
  unfold componentAttrsLoop
  rw [if_neg h2]
  simp only [Bool.false_eq_true, if_false, h1]
  exact Says.tell (x := Out.bind (emit (.unknownDirective d.dir)) _)
    (.bind (x := emit _) (by simp [emit, Says]) _) []

/-- C18, components.  Modifiers of `on:` other than `:undelegated`, and any modifier of
`use:` and `clone:`, are reported.  Missing: modifiers of `class:`, `style:`, `attr:` and
`prop:` on components are silently ignored, see `modifier_ignored_on_component`. -/
theorem modifier_reported_on_component_partial (hr : Reads pp ts root)
    (he : Reached root false (.mk (.component path) sels attrs args cs)) {d : Directive}
    (ha : .directive d ∈ attrs) {m : Ident} (hm : d.modifier = some m) :
    (d.dir ∈ [⟨false, c!"use"⟩, ⟨false, c!"clone"⟩] → Reported pp s ts (.modifierNotAllowed m)) ∧
    (d.dir = ⟨false, c!"on"⟩ → m ≠ ⟨false, c!"undelegated"⟩ →
      Reported pp s ts (.unknownModifier m)) := by
  obtain ⟨dir, key, m', v⟩ := d
  obtain rfl : m' = some m := hm
  refine ⟨?_, ?_⟩
  · intro hd
    refine component_attr_reported hr he ha fun bufs as => ?_
    simp only [List.mem_cons, List.not_mem_nil, or_false] at hd
    rcases hd with rfl | rfl
    · unfold componentAttrsLoop
      refine .bind ?_ _
      exact .bind (.after (toIdentOrEmit_aborts _) fun _ => .bind (emitIfModifier_says m) _) _
    · unfold componentAttrsLoop
      rw [if_pos rfl]
      exact .bind (emitIfModifier_says m) _
  · intro hd hu
    obtain rfl : dir = ⟨false, c!"on"⟩ := hd
    refine component_attr_reported hr he ha fun bufs as => ?_
    unfold componentAttrsLoop
    refine .bind ?_ _
    refine Says.bind (x := eventListenerEventPath _) ?_ _
    unfold eventListenerEventPath
    simp only [ne_eq, not_true_eq_false, if_false, hu]
    split
    · exact .after (toSnakeIdent_aborts _) fun _ => .bind (x := emit _) (by simp [emit, Says]) _
    · exact .after (x := emit _) (.ret _ _) fun _ => .after (.ret _ _) fun _ =>
        .bind (x := emit _) (by simp [emit, Says]) _

/-- C18 as stated is false: on a component these modifiers are accepted and dropped, the
result is the same as without them. -/
theorem modifier_ignored_on_component (s : Sched) :
    (∃ out, mview simplePaths s t!"A class:b:undelegated={c};" = .tokens out) ∧
    mview simplePaths s t!"A class:b:undelegated={c};" = mview simplePaths s t!"A class:b={c};" ∧
    mview simplePaths s t!"A style:b:x={c};" = mview simplePaths s t!"A style:b={c};" ∧
    mview simplePaths s t!"A attr:b:x={c};" = mview simplePaths s t!"A attr:b={c};" ∧
    mview simplePaths s t!"A prop:b:x={c};" = mview simplePaths s t!"A prop:b={c};" :=
  ⟨⟨_, rfl⟩, rfl, rfl, rfl, rfl⟩

/-- One error of each kind (the modifier of `clone:` is reported twice). -/
example (s : Sched) : mview simplePaths s t!"A foo:a on:x:once={2} use:y:z clone:k:l;" =
    .errors [.unknownDirective ⟨false, c!"foo"⟩,
      .unknownModifier ⟨false, c!"once"⟩, .modifierNotAllowed ⟨false, c!"z"⟩,
      .modifierNotAllowed ⟨false, c!"l"⟩, .modifierNotAllowed ⟨false, c!"l"⟩] t!"()" := rfl

end Mview
