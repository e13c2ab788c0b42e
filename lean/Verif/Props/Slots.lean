import Verif.Props.Components
/-
Slots: C19, C20, C21, C22, C23.
-/

-- the linter does not see variables used inside `q!"..."`
set_option linter.unusedVariables false

namespace Mview
open Lex

variable {pp : PathParser} {s : Sched} {ts out : Toks} {root : List Child} {path : Path}
  {sels : List Selector} {attrs : List Attr} {args : Option Toks} {cs : Option (List Child)}

/-! ### C19 -/

/-- C19.  Whatever the order the hash map is walked in: the slots of a component become one
call for each of their names, and that call has all slots of the name in source order. -/
theorem slots_grouped (hp : Parses pp ts root) (h : mview pp s ts = .tokens out)
    (he : Placed root false (.mk (.component path) sels attrs args cs)) :
    ∃ pre slots names scalls,
      -- the slots, each with its name and code, in source order
      List.Forall₂ (fun e p => e.slotName = some p.1 ∧ e.Means true p.2) (slotChildren cs) slots ∧
      -- every name once
      names.Nodup ∧ (∀ n, n ∈ names ↔ n ∈ slots.map Prod.fst) ∧
      List.Forall₂ (fun n c => ∃ xs, xs = (slots.filter (·.1 = n)).map Prod.snd ∧
        rawIdent (snakeCase n.name) = some c.name ∧
        (∀ x, xs = [x] → c.args = x) ∧
        (xs.length ≠ 1 → ∃ list, list = commaBetween xs ∧
          c.args = q!"<[_]> ::into_vec(::std::boxed::Box::new([#list]))")) names scalls ∧
      Occurs (chain (pre ++ scalls ++ [⟨⟨false, c!"build"⟩, []⟩])) out := by
  obtain ⟨t, hm, ho⟩ := placed_means (mview_means hp h) he
  obtain ⟨nodes, slots, scalls, hn, hsl, ⟨names, hnd, hmem, hc⟩, hcm⟩ := means_some_component hm
  obtain ⟨as, cl, has, hcl, hoc⟩ := call_occurs_component hcm
  refine ⟨_, slots, names, scalls, slotsMean_iff.mp hsl, hnd, hmem, ?_, hoc.trans ho⟩
  refine List.Forall₂.imp ?_ (mapM_some_forall₂.mp hc)
  intro n c hnc
  simp only [Option.bind_eq_bind, Option.bind_eq_some_iff] at hnc
  obtain ⟨m, hm, hnc⟩ := hnc
  cases hnc
  refine ⟨_, rfl, hm, ?_, ?_⟩
  · intro x hx
    rw [hx]
    rfl
  · intro hl
    refine ⟨_, rfl, ?_⟩
    generalize (slots.filter (·.1 = n)).map Prod.snd = xs at hl
    match xs, hl with
    | [], _ => rfl
    | [x], hl => simp at hl
    | x :: y :: xs, _ => rfl

/-- Slots of three names, one of them twice, in two orders. -/
example : mview simplePaths (fun _ => []) t!"A { slot:Ab a=1; slot:C; slot:Ab a=2; slot:Def; }" =
    .tokens t!"{ #[allow(unused_braces)] ::leptos::prelude::IntoRender::into_render(
      #[allow(unreachable_code)] ::leptos::prelude::View::new(
        ::leptos::component::component_view(& A,
          ::leptos::component::component_props_builder(& A)
            .r#ab(<[_]> ::into_vec(::std::boxed::Box::new([
              ::std::convert::Into::into(Ab::builder().r#a(1).build()),
              ::std::convert::Into::into(Ab::builder().r#a(2).build())])))
            .r#c(::std::convert::Into::into(C::builder().build()))
            .r#def(::std::convert::Into::into(Def::builder().build()))
            .build()
        ).add_any_attr(()))) }" := rfl
example : mview simplePaths (fun _ => [2, 1])
      t!"A { slot:Ab a=1; slot:C; slot:Ab a=2; slot:Def; }" =
    .tokens t!"{ #[allow(unused_braces)] ::leptos::prelude::IntoRender::into_render(
      #[allow(unreachable_code)] ::leptos::prelude::View::new(
        ::leptos::component::component_view(& A,
          ::leptos::component::component_props_builder(& A)
            .r#def(::std::convert::Into::into(Def::builder().build()))
            .r#c(::std::convert::Into::into(C::builder().build()))
            .r#ab(<[_]> ::into_vec(::std::boxed::Box::new([
              ::std::convert::Into::into(Ab::builder().r#a(1).build()),
              ::std::convert::Into::into(Ab::builder().r#a(2).build())])))
            .build()
        ).add_any_attr(()))) }" := rfl

/-- C23 for slots.  A slot is its builder with its attributes, `.children(..)` as for
components, and `.build()`. -/
theorem slot_shape (hp : Parses pp ts root) (h : mview pp s ts = .tokens out)
    (he : Placed root true (.mk (.component path) sels attrs args cs)) :
    sels = [] ∧ entries attrs = [] ∧
    ∃ p as cl nodes, path.means = some p ∧
      List.Forall₂ (fun a c => a.onComponent = some c) (kvs attrs) as ∧
      List.Forall₂ (fun d t => d.cloneStmt = some t) (clones attrs) cl ∧
      List.Forall₂ Child.Means (nodeChildren cs) nodes ∧
      ∃ calls, calls = chain (as ++ childrenCall args cl.flatten nodes ++ [⟨plain c!"build", []⟩]) ∧
      Occurs q!"::std::convert::Into::into(#p ::builder() #calls)" out := by
  obtain ⟨t, hm, ho⟩ := placed_means (mview_means hp h) he
  obtain ⟨p', hp', nodes, slots, scalls, hn, hsl, hsc, hc⟩ := means_some_slot hm
  cases hp'
  obtain ⟨h1, h2, p, as, cl, h3, h4, h5, calls, hcalls, rfl⟩ := slotMeans_some.mp hc
  exact ⟨h1, h2, p, as, cl, nodes, h3, mapM_some_forall₂.mp h4, mapM_some_forall₂.mp h5,
    nodesMean_iff.mp hn, calls, hcalls, ho⟩

/-- A slot with an attribute, a clone, arguments and children. -/
example : mview simplePaths (fun _ => []) t!"A { slot:B a=1 clone:x |y| { {x} } }" =
    .tokens t!"{ #[allow(unused_braces)] ::leptos::prelude::IntoRender::into_render(
      #[allow(unreachable_code)] ::leptos::prelude::View::new(
        ::leptos::component::component_view(& A,
          ::leptos::component::component_props_builder(& A)
            .r#b(::std::convert::Into::into(B::builder().r#a(1)
              .children({ let r#x = r#x.clone(); move |y| ::leptos::prelude::View::new((
                ::leptos::prelude::IntoRender::into_render({x}),)) })
              .build()))
            .build()
        ).add_any_attr(()))) }" := rfl

/-! ### C20 -/

/-- An UpperCamelCase name: starts with a capital, has no underscore. -/
def UpperCamel (n : Str) : Prop := (∃ c cs, n = c :: cs ∧ isAsciiUpper c = true) ∧ '_' ∉ n

theorem flatMap_snakeChar_inj {a b : Str} (ha : '_' ∉ a) (hb : '_' ∉ b)
    (h : a.flatMap snakeChar = b.flatMap snakeChar) : a = b := by
  induction a generalizing b with
  | nil =>
    cases b with
    | nil => rfl
    | cons c cs =>
      simp only [List.flatMap_nil, List.flatMap_cons, snakeChar] at h
      split at h <;> simp at h
  | cons x xs ih =>
    cases b with
    | nil =>
      simp only [List.flatMap_nil, List.flatMap_cons, snakeChar] at h
      split at h <;> simp at h
    | cons y ys =>
      simp only [List.mem_cons, not_or] at ha hb
      simp only [List.flatMap_cons, snakeChar] at h
      cases hx : isAsciiUpper x <;> cases hy : isAsciiUpper y <;>
        simp only [hx, hy, if_true, Bool.false_eq_true, if_false, List.cons_append,
          List.nil_append, List.cons.injEq] at h
      · rw [asciiLower_of_not_upper hx, asciiLower_of_not_upper hy] at h
        rw [h.1, ih ha.2 hb.2 h.2]
      · rw [asciiLower_of_not_upper hx] at h
        exact absurd h.1.symm ha.1
      · rw [asciiLower_of_not_upper hy] at h
        exact absurd h.1 hb.1
      · have : x = y := by
          rw [← (upper_facts hx).2.2.1, ← (upper_facts hy).2.2.1, h.2.1]
        rw [this, ih ha.2 hb.2 h.2.2]

/-- C20.  Slots with different UpperCamelCase names are passed to different methods. -/
theorem slot_methods_distinct {m n : Ident} (hm : UpperCamel m.name) (hn : UpperCamel n.name)
    (hne : m.name ≠ n.name) (x : Ident) :
    ¬ (slotMethodName m = some x ∧ slotMethodName n = some x) := by
  rintro ⟨h1, h2⟩
  apply hne
  obtain ⟨⟨a, as, ha, hau⟩, ham⟩ := hm
  obtain ⟨⟨b, bs, hb, hbu⟩, hbn⟩ := hn
  have key : snakeCase m.name = snakeCase n.name := by
    unfold slotMethodName rawIdent at h1 h2
    split at h1
    · cases h1
    · split at h2
      · cases h2
      · rw [← h1] at h2
        simpa using h2.symm
  rw [← snakeCase_eq, ← snakeCase_eq, ha, hb, upperCamelToSnake_cons, upperCamelToSnake_cons] at key
  rw [ha] at ham ⊢
  rw [hb] at hbn ⊢
  simp only [List.mem_cons, not_or] at ham hbn
  simp only [List.cons.injEq] at key
  have : a = b := by
    rw [← (upper_facts hau).2.2.1, ← (upper_facts hbu).2.2.1, key.1]
  rw [this, flatMap_snakeChar_inj ham.2 hbn.2 key.2]

/-- C20.  No capital letter is left. -/
theorem slot_method_lower {n m : Ident} (h : slotMethodName n = some m) :
    ∀ c ∈ m.name, isAsciiUpper c = false := by
  have hm : m.name = snakeCase n.name := by
    unfold slotMethodName rawIdent at h
    split at h
    · cases h
    · rw [← Option.some.inj h]
  rw [hm, ← snakeCase_eq]
  cases hn : n.name with
  | nil => simp [upperCamelToSnake_nil]
  | cons c cs =>
    rw [upperCamelToSnake_cons]
    intro d hd
    rcases List.mem_cons.mp hd with rfl | hd'
    · exact lower_not_upper c
    · obtain ⟨e, _, he⟩ := List.mem_flatMap.mp hd'
      unfold snakeChar at he
      split at he
      · simp only [List.mem_cons, List.not_mem_nil, or_false] at he
        rcases he with rfl | rfl
        · decide
        · exact lower_not_upper e
      · simp only [List.mem_cons, List.not_mem_nil, or_false] at he
        subst he
        exact lower_not_upper e

/-- With underscores (or dashes) names can collide: `AB` and `A_b`. -/
theorem slot_method_collision :
    slotMethodName ⟨false, c!"AB"⟩ = some ⟨true, c!"a_b"⟩ ∧
    slotMethodName ⟨false, c!"A_b"⟩ = some ⟨true, c!"a_b"⟩ ∧
    mview simplePaths (fun _ => []) t!"A { slot:AB; slot:A-b; }" =
    .tokens t!"{ #[allow(unused_braces)] ::leptos::prelude::IntoRender::into_render(
      #[allow(unreachable_code)] ::leptos::prelude::View::new(
        ::leptos::component::component_view(& A,
          ::leptos::component::component_props_builder(& A)
            .r#a_b(::std::convert::Into::into(AB::builder().build()))
            .r#a_b(::std::convert::Into::into(A_b::builder().build()))
            .build()
        ).add_any_attr(()))) }" :=
  ⟨rfl, rfl, rfl⟩

/-! ### C21 -/

/-- C21, top level: the macro stops with an error.  Missing: slots inside HTML elements or
other slots, which are silently dropped, see `slot_dropped`. -/
theorem slot_at_top_level_partial (hr : Reads pp ts root) {e : Element} (he : .slot e ∈ root) :
    ∃ ds, mview pp s ts = .errors (ds ++ [.slotAtTopLevel]) t!"()" := by
  obtain ⟨ds, hd⟩ := hr
  refine ⟨ds, ?_⟩
  have hx : expandRoot s root = .abort [.slotAtTopLevel] := by
    unfold expandRoot
    split
    · rfl
    · rename_i c hc
      simp only [List.mem_singleton] at he
      exact absurd he.symm (hc e)
    · rw [if_pos]
      · rfl
      · simp only [List.any_eq_true]
        exact ⟨_, he, rfl⟩
  exact ((errors_all_or_nothing pp s ts).1 ds root hd).2 _ hx

example (s : Sched) : mview simplePaths s t!"\"a\" slot:B { 1 }" =
    .errors [.nonStringChild, .slotAtTopLevel] t!"()" := rfl

/-- C21 as stated is false: slots inside HTML elements, and directly inside slots, are
accepted and dropped, together with everything in them. -/
theorem slot_dropped :
    (∀ s, mview simplePaths s t!"div { slot:B { {x} } \"a\" }" = mview simplePaths s t!"div { \"a\" }") ∧
    (∀ s, ∃ out, mview simplePaths s t!"div { \"a\" }" = .tokens out) ∧
    mview simplePaths (fun _ => []) t!"A { slot:B { slot:C { {x} } \"a\" } }" =
      mview simplePaths (fun _ => []) t!"A { slot:B { \"a\" } }" ∧
    (∃ out, mview simplePaths (fun _ => []) t!"A { slot:B { \"a\" } }" = .tokens out) :=
  ⟨fun _ => rfl, fun _ => ⟨_, rfl⟩, rfl, ⟨_, rfl⟩⟩

/-! ### C22 -/

/-- C22.  Selectors, spreads and directives other than `clone:` on a slot are reported.
Missing: slots inside HTML elements, which are dropped unseen, see
`slot_in_element_unchecked`. -/
theorem slot_contents_reported_partial (hr : Reads pp ts root)
    (he : Reached root true (.mk (.component path) sels attrs args cs)) :
    (sels ≠ [] → Reported pp s ts .selectorOnSlot) ∧
    (∀ e, .spread e ∈ attrs → Reported pp s ts .spreadOnSlot) ∧
    (∀ d, .directive d ∈ attrs → d.dir ≠ ⟨false, c!"clone"⟩ →
      Reported pp s ts (.directiveOnSlot d.dir)) := by
  refine ⟨?_, ?_, ?_⟩
  · intro hs
    refine reported_of_reached hr he (component_says_own (.inl ?_)) s
    unfold componentSelectors
    rw [if_pos rfl]
    cases sels with
    | nil => exact absurd rfl hs
    | cons x xs => exact .bind (x := emit _) (by simp [emit, Says]) _
  · intro e ha
    refine component_attr_reported hr he ha fun bufs as => ?_
    unfold componentAttrsLoop
    rw [if_pos rfl]
    exact .bind (x := emit _) (by simp [emit, Says]) _
  · intro d ha hd
    refine component_attr_reported hr he ha fun bufs as => ?_
    unfold componentAttrsLoop
    rw [if_neg hd, if_pos rfl]
    exact .bind (x := emit _) (by simp [emit, Says]) _

/-- C22.  A slot of a component (or slot) whose name is not a single identifier is
reported.  Missing: as for `slot_contents_reported_partial`. -/
theorem slot_path_reported_partial (hr : Reads pp ts root) {b : Bool} {children : List Child}
    (he : Reached root b (.mk (.component path) sels attrs args (some children))) {e : Element}
    (hs : .slot e ∈ children) (hn : e.slotName = none) : Reported pp s ts .slotNameIsPath := by
  refine reported_of_reached hr he (element_says_slots fun s => expandSlots_says ?_ hs s) s
  intro s cs
  unfold expandSlots
  cases ht : e.tag with
  | component p =>
    simp only
    cases hg : p.getIdent with
    | some i =>
      exfalso
      unfold Path.getIdent at hg
      split at hg
      · simp [Element.slotName, ht] at hn
      · cases hg
    | none => exact .bind (x := emit _) (by simp [emit, Says]) _
  | _ => trivial

/-- One error of each kind. -/
example : mview simplePaths (fun _ => [])
    t!"A { slot:B .x {..r} on:y={1}; slot:c::D; slot:E { slot:F use:g; } }" =
    .errors [.selectorOnSlot, .spreadOnSlot, .directiveOnSlot ⟨false, c!"on"⟩, .slotNameIsPath,
      .directiveOnSlot ⟨false, c!"use"⟩] t!"()" := rfl

/-- C22 as stated is false: inside an HTML element none of these is noticed. -/
theorem slot_in_element_unchecked (s : Sched) :
    mview simplePaths s t!"div { slot:B .x {..r} on:y={1}; slot:c::D; slot:p; }" =
      mview simplePaths s t!"div { }" ∧ ∃ out, mview simplePaths s t!"div { }" = .tokens out :=
  ⟨rfl, _, rfl⟩

end Mview
