import Verif.Props.Whole
/-
C09: what becomes of the values written in the input.
-/

-- the linter does not see variables used inside `q!"..."`
set_option linter.unusedVariables false

namespace Mview
open Lex

variable {pp : PathParser} {s : Sched} {ts out : Toks} {root : List Child}

/-- C09.  Every value in a successful expansion is there verbatim: as the literal, the
block, or the closure it stands for. -/
theorem value_verbatim (hp : Parses pp ts root) (h : mview pp s ts = .tokens out) {v : Value}
    (hv : Used root (Placed root) v) :
    (∀ l, v = .lit (.tok l) → Occurs [.lit l] out) ∧
    (v = .lit (.bool true) → Occurs t!"true" out) ∧
    (v = .lit (.bool false) → Occurs t!"false" out) ∧
    (∀ code, v = .block code → Occurs q!"{ #code }" out) ∧
    (∀ code, v = .bracket none code → Occurs q!"move || { #code }" out) ∧
    (∀ pfx code, v = .bracket (some pfx) code →
      pfx = ⟨false, c!"f"⟩ ∧ Occurs q!"move || ::std::format!(#code)" out) := by
  obtain ⟨t, hm, ho⟩ := used_means (mview_means hp h) hv
  refine ⟨?_, ?_, ?_, ?_, ?_, ?_⟩
  · rintro l rfl
    simp only [Value.means, Option.some.injEq] at hm
    exact hm ▸ ho
  · rintro rfl
    simp only [Value.means, Option.some.injEq] at hm
    exact hm ▸ ho
  · rintro rfl
    simp only [Value.means, Option.some.injEq] at hm
    exact hm ▸ ho
  · rintro code rfl
    simp only [Value.means, Option.some.injEq] at hm
    exact hm ▸ ho
  · rintro code rfl
    simp only [Value.means, Option.some.injEq] at hm
    exact hm ▸ ho
  · rintro pfx code rfl
    simp only [Value.means] at hm
    split at hm
    · rename_i hf
      simp only [Option.some.injEq] at hm
      exact ⟨hf, hm ▸ ho⟩
    · simp at hm

/-- All five kinds of values, in children, attributes and directives, nested. -/
example (s : Sched) : mview simplePaths s
    t!"div a={x.y()} on:click=[go()] { f[\"{}\", 1] Comp b=true c=1; [z] }" = .tokens
    t!"{ #[allow(unused_braces)] ::leptos::prelude::IntoRender::into_render(
      ::leptos::tachys::html::element::r#div()
        .r#a({x.y()}) .on(::leptos::tachys::html::event::r#click, move || {go()})
        .child(::leptos::prelude::IntoRender::into_render(move || ::std::format!(\"{}\", 1)))
        .child(::leptos::prelude::IntoRender::into_render(
          #[allow(unreachable_code)] ::leptos::prelude::View::new(
            ::leptos::component::component_view(& Comp,
              ::leptos::component::component_props_builder(& Comp).r#b(true).r#c(1).build()
            ).add_any_attr(()))))
        .child(::leptos::prelude::IntoRender::into_render(move || {z}))) }" := by
  rfl

/-- No input with a value `pfx[..]` is accepted unless the prefix is `f`. -/
theorem bad_prefix_rejected (hr : Reads pp ts root) {pfx : Ident} {code : Toks}
    (hv : Used root (Reached root) (.bracket (some pfx) code)) (hf : pfx ≠ ⟨false, c!"f"⟩) :
    mview pp s ts ≠ .tokens out := by
  intro h
  obtain ⟨root', hp, hm⟩ := mview_sound h
  obtain ⟨ds, hd⟩ := hr
  rw [Parses, hd] at hp
  simp only [Out.ret.injEq, PR.ok.injEq, and_true] at hp
  obtain ⟨-, rfl⟩ := hp
  obtain ⟨t, ht⟩ := reached_value_means hm hv
  simp [Value.means, hf] at ht

theorem bad_prefix_says {pfx : Ident} {code : Toks} (hf : pfx ≠ ⟨false, c!"f"⟩) :
    Says FG (.unsupportedPrefix pfx) (Value.bracket (some pfx) code).toToks := by
  show Says FG _ (if pfx = _ then _ else _)
  rw [if_neg hf]
  exact Says.bind (x := emit _) (by simp [emit, Says]) _

theorem expandRoot_value_says {d : Diag} {v : Value} (h : Says FG d v.toToks)
    (hr : Reads pp ts root) (hv : .value v ∈ root) : Reported pp s ts d :=
  reported_of_says hr (expandRoot_says (fun s => expandNodes_says (value_says h) hv s) s)

/-- a value written as a child -/
theorem child_value_reported {d : Diag} {v : Value} (h : Says FG d v.toToks)
    (hr : Reads pp ts root) {b : Bool} {tag : Tag} {sels : List Selector} {attrs : List Attr}
    {args : Option Toks} {cs : List Child} (he : Reached root b (.mk tag sels attrs args (some cs)))
    (hv : .value v ∈ cs) : Reported pp s ts d :=
  reported_of_reached hr he (element_says_nodes fun s => expandNodes_says (value_says h) hv s) s

theorem xmlKv_says {d : Diag} {a : KvAttr} {k : TagKind} (h : Says FG d a.value.toToks) :
    Says FG d (xmlKvAttributeTokens a k) := by
  unfold xmlKvAttributeTokens
  split
  · exact .after (checkSpan_aborts _) fun _ => .bind h _
  · simp only
    split
    · exact .bind h _
    · exact .after (toSnakeIdent_aborts _) fun _ => .bind h _

/-- a value written as an attribute -/
theorem attr_value_reported {d : Diag} {a : KvAttr} (h : Says FG d a.value.toToks)
    (hr : Reads pp ts root) {b : Bool} {e : Element} (he : Reached root b e)
    (ha : .kv a ∈ e.attrs) : Reported pp s ts d := by
  refine reported_of_reached hr he ?_ s
  obtain ⟨tag, sels, attrs, args, cs⟩ := e
  by_cases hk : ∃ p, tag = .component p
  · obtain ⟨p, rfl⟩ := hk
    refine component_says_own (.inr fun bufs => componentAttrsLoop_says (x := .kv a) ?_ ha bufs)
    intro b as
    unfold componentAttrsLoop
    exact .bind (.after (toSnakeIdent_aborts _) fun _ => .bind h _) _
  · have hk' : ∀ p, tag ≠ .component p := fun p hp => hk ⟨p, hp⟩
    cases b with
    | false => exact element_says_attrs hk' (xmlAttrsLoop_says_kv (xmlKv_says h) ha)
    | true =>
      intro s
      cases he with
      | slot _ _ hn =>
        unfold Element.slotName at hn
        split at hn
        · rename_i h'
          exact absurd h' (hk' _)
        · simp at hn

/-- C09.  A prefix other than `f` before a bracket is reported as such, for children of
the input and of elements and slots, and for attributes. -/
theorem bad_prefix_reported (hr : Reads pp ts root) {pfx : Ident} {code : Toks}
    (hf : pfx ≠ ⟨false, c!"f"⟩) :
    (.value (.bracket (some pfx) code) ∈ root → Reported pp s ts (.unsupportedPrefix pfx)) ∧
    (∀ b tag sels attrs args cs, Reached root b (.mk tag sels attrs args (some cs)) →
      .value (.bracket (some pfx) code) ∈ cs → Reported pp s ts (.unsupportedPrefix pfx)) ∧
    (∀ b e k, Reached root b e → .kv ⟨k, .bracket (some pfx) code⟩ ∈ e.attrs →
      Reported pp s ts (.unsupportedPrefix pfx)) :=
  ⟨fun hv => expandRoot_value_says (bad_prefix_says hf) hr hv,
   fun _ _ _ _ _ _ he hv => child_value_reported (bad_prefix_says hf) hr he hv,
   fun _ _ k he ha => attr_value_reported (a := ⟨k, _⟩) (bad_prefix_says hf) hr he ha⟩

/-- Deep inside, next to an error in a sibling. -/
example : mview simplePaths (fun _ => []) t!"Comp a=g[1] { div foo:bar; p { h[2] } }" =
    .errors [.unsupportedPrefix ⟨false, c!"g"⟩, .unknownDirective ⟨false, c!"foo"⟩,
      .unsupportedPrefix ⟨false, c!"h"⟩] t!"()" := rfl

end Mview
