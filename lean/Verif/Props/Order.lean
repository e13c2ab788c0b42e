import Verif.Lemmas.Accept
import Verif.Lemmas.Reorder
import Verif.Lemmas.Sched
import Verif.Lemmas.Siblings
import Verif.Props.Safety
import Verif.Props.Whole
/-
C31 siblings, C32 the order of attributes, C33 hash maps, C36 which trees expand.
-/

set_option linter.unusedVariables false

namespace Mview
open Lex

variable {pp : PathParser} {s s' : Sched} {ts ts' out out' : Toks} {root root' : List Child}

theorem mview_parsed (hp : Parses pp ts root) : mviewImpl pp s ts = expandRoot s root := by
  unfold mviewImpl
  rw [Parses] at hp
  rw [hp, Out.monad_bind, Out.bind_ret, Out.tell_nil]

/-! ### C33 -/

/-- C33.  Success, the diagnostics with their order, and crashes do not depend on the iteration order of the
hash maps. -/
theorem order_independent (pp : PathParser) (s s' : Sched) (ts : Toks) :
    ((∃ out, mview pp s ts = .tokens out) → ∃ out, mview pp s' ts = .tokens out) ∧
    (∀ ds rest, mview pp s ts = .errors ds rest → mview pp s' ts = .errors ds rest) ∧
    ((∃ p, mview pp s ts = .panicked p) → ∃ p, mview pp s' ts = .panicked p) := by
  have h := mviewImpl_like pp s s' ts
  unfold mview
  cases hx : mviewImpl pp s ts <;> cases hy : mviewImpl pp s' ts <;> rw [hx, hy] at h <;>
    simp only [Out.Like] at h
  · obtain ⟨rfl, -⟩ := h
    rename_i ds _ _
    cases ds <;> simp
  · subst h; simp
  · simp
  · simp

/-- C33.  If no component has slots of two different names, the output does not depend on it either. -/
theorem order_irrelevant (hp : Parses pp ts root) (hu : childrenUniform root) :
    mview pp s ts = mview pp s' ts := by
  unfold mview
  rw [mview_parsed hp, mview_parsed hp]
  have : expandRoot s root = expandRoot s' root := by
    unfold expandRoot
    split
    · rfl
    · rw [expandNodes_uniform s s' _ hu]
    · rw [expandNodes_uniform s s' _ hu]
  rw [this]


/-- Slots of two names: the output depends on the order, ... -/
example : mview simplePaths (fun _ => []) t!"A { slot:B; slot:C; }" = .tokens t!"{
      #[allow(unused_braces)]
      ::leptos::prelude::IntoRender::into_render(
        #[allow(unreachable_code)]
        ::leptos::prelude::View::new(::leptos::component::component_view(&A,
          ::leptos::component::component_props_builder(&A)
            .r#b(::std::convert::Into::into(B::builder().build()))
            .r#c(::std::convert::Into::into(C::builder().build()))
            .build()).add_any_attr(()))) }" ∧
    mview simplePaths (fun _ => [1]) t!"A { slot:B; slot:C; }" = .tokens t!"{
      #[allow(unused_braces)]
      ::leptos::prelude::IntoRender::into_render(
        #[allow(unreachable_code)]
        ::leptos::prelude::View::new(::leptos::component::component_view(&A,
          ::leptos::component::component_props_builder(&A)
            .r#c(::std::convert::Into::into(C::builder().build()))
            .r#b(::std::convert::Into::into(B::builder().build()))
            .build()).add_any_attr(()))) }" := ⟨rfl, rfl⟩

/-- ... slots of one name: it does not. -/
example (s : Sched) : mview simplePaths s t!"A { slot:B; slot:B; }" =
    mview simplePaths (fun _ => []) t!"A { slot:B; slot:B; }" :=
  order_irrelevant (root := _) rfl ⟨⟨fun _ => by
    intro e e' n n' h1 h2 t1 t2
    simp only [List.mem_cons, Child.slot.injEq, List.not_mem_nil, or_false, or_self] at h1 h2
    subst h1 h2
    rw [t1] at t2
    simpa using t2, ⟨trivial, trivial, trivial⟩⟩, trivial⟩

/-! ### C36 -/

/-- C36.  An input the parser accepts expands exactly if its tree satisfies `rootAccepted`. -/
theorem accepted (hp : Parses pp ts root) :
    (∃ out, mview pp s ts = .tokens out) ↔ rootAccepted root := by
  rw [← rootAccepted_iff]
  constructor
  · rintro ⟨out, h⟩
    exact ⟨out, mview_means hp h⟩
  · rintro ⟨t, ht⟩
    obtain ⟨s', hs'⟩ := mview_complete hp ht
    exact (order_independent pp s' s ts).1 ⟨t, hs'⟩

/-- C36.  Any other tree is an error or a crash. -/
theorem rejected (hp : Parses pp ts root) (hn : ¬ rootAccepted root) :
    (∃ ds, ds ≠ [] ∧ mview pp s ts = .errors ds t!"()") ∨ ∃ p, mview pp s ts = .panicked p := by
  have hn' : ¬ ∃ out, mview pp s ts = .tokens out := fun h => hn ((accepted hp).mp h)
  cases h : mview pp s ts with
  | tokens out => exact absurd ⟨out, h⟩ hn'
  | errors ds rest =>
    obtain ⟨h1, rfl⟩ := errors_then_unit h
    exact .inl ⟨ds, h1, rfl⟩
  | panicked p => exact .inr ⟨p, rfl⟩
  | hangs => exact absurd h (mview_terminates pp s ts)

/-- A modifier, a bracket and an identifier key in allowed places, ... -/
example : ∃ root, Parses simplePaths t!"A on:click:undelegated=[f()] { p aria-x={1}; f[\"a\"] }" root ∧
    rootAccepted root := by
  have h : ∃ out, mview simplePaths (fun _ => []) t!"A on:click:undelegated=[f()] { p aria-x={1}; f[\"a\"] }" =
    .tokens out := ⟨_, rfl⟩
  obtain ⟨out, h⟩ := h
  obtain ⟨root, hp, -⟩ := mview_sound h
  exact ⟨root, hp, (accepted hp).mp ⟨out, h⟩⟩

/-- ... a string key that is not one, read by the parser but not accepted. -/
example : ∃ root, Parses simplePaths t!"A on:\"click\"={f};" root ∧ ¬ rootAccepted root :=
  ⟨_, rfl, fun h => by
    obtain ⟨out, ho⟩ := (accepted (pp := simplePaths) (ts := t!"A on:\"click\"={f};") (s := fun _ => []) rfl).mpr h
    exact absurd ho (by intro h; cases h)⟩

/-! ### C32 -/

/-- C32.  Trees that differ only in the interleaving of attributes of different kinds have the same
expansion. -/
theorem reordered (hp : Parses pp ts root) (hp' : Parses pp ts' root') (hr : childrenReordered root root') :
    mview pp s ts = .tokens out ↔ mview pp s ts' = .tokens out := by
  have h := expandRoot_reorder s (parses_ok hp) (parses_ok hp') hr
  rw [mview_tokens_iff, mview_tokens_iff]
  constructor
  · rintro ⟨r, h1, h2⟩
    cases hp.unique h1
    exact ⟨root', hp', Out.ok_eq_some.mp (h ▸ Out.ok_eq_some.mpr h2)⟩
  · rintro ⟨r, h1, h2⟩
    cases hp'.unique h1
    exact ⟨root, hp, Out.ok_eq_some.mp (h.symm ▸ Out.ok_eq_some.mpr h2)⟩

/-- Attributes, directives and a spread, classes and ids, on an element and on a component. -/
example (s : Sched) : mview simplePaths s t!"div.a#b.c x=1 on:click={f} y=2 {..z} class:k=3; C x=1 clone:k y=2 on:a={b};" =
    mview simplePaths s t!"div.a.c#b {..z} on:click={f} x=1 y=2 class:k=3; C clone:k on:a={b} x=1 y=2;" := rfl

/-- The order within a kind is visible. -/
example (s : Sched) : mview simplePaths s t!"div x=1 y=2;" = .tokens t!"{ #[allow(unused_braces)]
      ::leptos::prelude::IntoRender::into_render(::leptos::tachys::html::element::r#div().r#x(1).r#y(2)) }" ∧
    mview simplePaths s t!"div y=2 x=1;" = .tokens t!"{ #[allow(unused_braces)]
      ::leptos::prelude::IntoRender::into_render(::leptos::tachys::html::element::r#div().r#y(2).r#x(1)) }" :=
  ⟨rfl, rfl⟩

/-! ### C31 -/

/-- C31.  Replacing a child anywhere in the tree (that is not inside a slot) replaces what it stands for in
the expansion; everything else stays the same. -/
theorem sibling_replaced {G : Gap} {c c' : Child} (hc : c.isSlot = false) (hc' : c'.isSlot = false)
    (hp : Parses pp ts (G.fill c)) (hp' : Parses pp ts' (G.fill c'))
    (h : mview pp s ts = .tokens out) (h' : mview pp s ts' = .tokens out') :
    ∃ (K : TokGap) (x x' : Toks), c.Means x ∧ c'.Means x' ∧ out = K.fill x ∧ out' = K.fill x' := by
  obtain ⟨_, h1, h2⟩ := mview_tokens_iff.mp h
  obtain ⟨_, h1', h2'⟩ := mview_tokens_iff.mp h'
  cases hp.unique h1
  cases hp'.unique h1'
  rw [← Out.ok_eq_some, expandRoot_ok] at h2 h2'
  obtain ⟨hs, ns, hn, rfl⟩ := h2
  obtain ⟨hs', ns', hn', rfl⟩ := h2'
  obtain ⟨a, b, f, x, x', hf, hx, hx', rfl, rfl⟩ :=
    expandNodes_gap hc hc' G s ns ns' (parses_ok hp) (parses_ok hp') hn hn'
  have hlen : (G.fill c).length = (G.fill c').length := by cases G <;> simp [Gap.fill]
  rw [hlen]
  have hv : ∀ ns, childrenFragmentTokens ns = viewOf ns := fun ns => by rw [fragment_eq]
  simp only [hv]
  have hh : Hole fun y => rootBlock (if (G.fill c').length = 1 then (a ++ y :: b).flatten else viewOf (a ++ y :: b)) := by
    have : ∀ g : Toks → Toks, Hole g → Hole fun y => rootBlock (g y) := by
      intro g hg
      exact ((hg.pre [tP '#', tBracket [tId c!"allow", tParen [tId c!"unused_braces"]]]).group .brace []).congr
        fun y => by simp [rootBlock, tBrace]
    by_cases hl : (G.fill c').length = 1
    · simp only [hl, if_true]
      exact this _ (((Hole.id.post b.flatten).pre a.flatten).congr fun y => by simp)
    · simp only [hl, if_false]
      exact this _ (hole_viewOf a b)
  obtain ⟨K, hK⟩ := hh.comp hf
  exact ⟨K, x, x', hx, hx', hK x, hK x'⟩

/-- What a result reports. -/
def MacroResult.diags : MacroResult → Option (List Diag)
  | .tokens _ => some []
  | .errors ds _ => some ds
  | _ => none

/-- what is emitted along the way -/
def Out.diags {α : Type} : Out α → Option (List Diag)
  | .ret ds _ => some ds
  | .abort ds => some ds
  | _ => none

theorem Out.diags_bind_pure {α β : Type} (x : Out α) (f : α → β) :
    (x.bind fun a => .ret [] (f a)).diags = x.diags := by
  cases x <;> simp [Out.diags, Out.bind, Out.tell]

theorem diags_parsed {cs : List Child} (hp : Parses pp ts cs) (hs : ∀ c ∈ cs, c.isSlot = false) :
    (mview pp s ts).diags = (expandNodes s cs).diags := by
  have h : (mview pp s ts).diags = (mviewImpl pp s ts).diags := by
    unfold mview
    rcases mviewImpl pp s ts with ⟨_ | _, _⟩ | _ | _ | _ <;> rfl
  rw [h, mview_parsed hp]
  have hb : ∀ f : List Toks → Toks, ((expandNodes s cs).bind fun ns => .ret [] (f ns)).diags =
      (expandNodes s cs).diags := fun f => Out.diags_bind_pure _ f
  unfold expandRoot
  split
  · simp [Child.isSlot] at hs
  · exact hb _
  · rw [if_neg]
    · exact hb _
    · simpa using hs

/-- C31.  The errors of a list of children are those of its first part followed by those of the second,
unless the first part made the macro stop. -/
theorem siblings_errors {a b : List Child} {tsa tsb : Toks} {sa sb : Sched}
    (hp : Parses pp ts (a ++ b)) (ha : Parses pp tsa a) (hb : Parses pp tsb b)
    (hs : ∀ c ∈ a ++ b, c.isSlot = false) {da db : List Diag}
    (hda : (mview pp sa tsa).diags = some da) (hdb : (mview pp sb tsb).diags = some db) :
    (mview pp s ts).diags = some (da ++ db) ∨
      (.functionGenerics ∈ da ∧ (mview pp s ts).diags = some da) := by
  have e : ∀ (cs : List Child) (s s' : Sched), (expandNodes s cs).diags = (expandNodes s' cs).diags := by
    intro cs s s'
    have := expandNodes_like s s' cs
    cases hx : expandNodes s cs <;> cases hy : expandNodes s' cs <;> rw [hx, hy] at this <;>
      simp [Out.Like] at this <;> simp [Out.diags, this]
  rw [diags_parsed ha fun c hc => hs c (by simp [hc]), e _ _ s] at hda
  rw [diags_parsed hb fun c hc => hs c (by simp [hc]), e _ _ (s.later a.length)] at hdb
  rw [diags_parsed hp hs, expandNodes_append]
  cases hx : expandNodes s a with
  | ret ds x =>
    rw [hx] at hda
    left
    cases hy : expandNodes (s.later a.length) b <;> rw [hy] at hdb <;>
      simp_all [Out.diags, Out.bind, Out.tell]
  | abort ds =>
    rw [hx] at hda
    cases hda
    obtain ⟨d, hd, rfl⟩ := expandNodes_aborts s a _ hx
    exact .inr ⟨hd, rfl⟩
  | panic p => rw [hx] at hda; simp [Out.diags] at hda
  | diverge => rw [hx] at hda; simp [Out.diags] at hda

/-- C31.  A list of children is accepted if and only if its parts are. -/
theorem siblings_accepted {a b : List Child} {tsa tsb : Toks} {sa sb : Sched}
    (hp : Parses pp ts (a ++ b)) (ha : Parses pp tsa a) (hb : Parses pp tsb b) :
    (∃ out, mview pp s ts = .tokens out) ↔
      (∃ out, mview pp sa tsa = .tokens out) ∧ ∃ out, mview pp sb tsb = .tokens out := by
  rw [accepted hp, accepted ha, accepted hb]
  have : ∀ a : List Child, nodesAccepted (a ++ b) ↔ nodesAccepted a ∧ nodesAccepted b := by
    intro a
    induction a with
    | nil => simp [nodesAccepted]
    | cons c a ih => cases c <;> simp [nodesAccepted, ih, and_assoc]
  simp only [rootAccepted, this, List.mem_append]
  constructor
  · rintro ⟨h1, h2, h3⟩
    exact ⟨⟨fun c hc => h1 c (.inl hc), h2⟩, ⟨fun c hc => h1 c (.inr hc), h3⟩⟩
  · rintro ⟨⟨h1, h2⟩, ⟨h3, h4⟩⟩
    exact ⟨fun c hc => hc.elim (h1 c) (h3 c), h2, h4⟩

/-- The middle child replaced, two levels down. -/
example (s : Sched) :
    let around := fun x => q!"{ #[allow(unused_braces)] ::leptos::prelude::View::new((
      ::leptos::prelude::IntoRender::into_render(::leptos::tachys::html::element::r#p()),
      ::leptos::prelude::IntoRender::into_render(::leptos::tachys::html::element::r#div()
        .child(::leptos::prelude::IntoRender::into_render(\"a\"))
        .child(#x)
        .child(::leptos::prelude::IntoRender::into_render(\"c\"))),)) }"
    mview simplePaths s t!"p; div { \"a\" b; \"c\" }" = .tokens
      (around t!"::leptos::prelude::IntoRender::into_render(::leptos::tachys::html::element::r#b())") ∧
    mview simplePaths s t!"p; div { \"a\" {x} \"c\" }" = .tokens
      (around t!"::leptos::prelude::IntoRender::into_render({x})") := ⟨rfl, rfl⟩

/-- Errors of siblings, in order. -/
example (s : Sched) : (mview simplePaths s t!"p foo:x; \"a\"").diags = some [.unknownDirective ⟨false, c!"foo"⟩] ∧
    (mview simplePaths s t!"a[x]").diags = some [.unsupportedPrefix ⟨false, c!"a"⟩] ∧
    (mview simplePaths s t!"p foo:x; \"a\" a[x]").diags =
      some [.unknownDirective ⟨false, c!"foo"⟩, .unsupportedPrefix ⟨false, c!"a"⟩] := ⟨rfl, rfl, rfl⟩

end Mview
