import Verif.Lemmas.Places
import Verif.Lemmas.Run
import Verif.Spec.SameCode
/-
C63: the code of an accepted input is a function of its view, and an injective one.
-/

set_option linter.unusedVariables false

namespace Mview
open Lex

/-! ### values -/

theorem value_first {v : Value} {t : Toks} (h : v.means = some t) : ∃ x r, t = x :: r ∧ ∀ c s, x ≠ .punct c s := by
  unfold Value.means at h
  split at h <;> try (cases h; exact ⟨_, _, rfl, by simp⟩)
  split at h
  · cases h; exact ⟨_, _, rfl, by simp⟩
  · simp at h

theorem value_inj {v w : Value} {t : Toks} (h : v.means = some t) (h' : w.means = some t) : v = w := by
  rcases v with (l | b) | code | ⟨_ | p, code⟩ <;> rcases w with (l' | b') | code' | ⟨_ | p', code'⟩ <;>
    (try cases b) <;> (try cases b') <;>
    simp only [Value.means] at h h' <;> (repeat' split at h) <;> (repeat' split at h') <;>
    simp_all <;> (subst h; simp_all)

theorem optMeans_inj {v w : Option Value} {t : Toks} (h : optMeans v = some t) (h' : optMeans w = some t) : v = w := by
  cases v with
  | none =>
    cases w with
    | none => rfl
    | some w => cases h; obtain ⟨x, r, h, _⟩ := value_first h'; simp at h
  | some v =>
    cases w with
    | none => cases h'; obtain ⟨x, r, h, _⟩ := value_first h; simp at h
    | some w => rw [value_inj h h']

theorem trueMeans_eq (v : Option Value) : trueMeans v = (v.getD (.lit (.bool true))).means := by
  cases v <;> rfl

/-- the code of a value -/
def Value.text (v : Value) : Toks := v.means.getD []
/-- the code of a value that may be left out -/
def optText (v : Option Value) : Toks := (optMeans v).getD []

theorem code_of {v : Value} {t : Toks} (h : v.means = some t) : v.text = t := by simp [Value.text, h]
theorem optCode_of {v : Option Value} {t : Toks} (h : optMeans v = some t) : optText v = t := by simp [optText, h]

theorem code_inj {v w : Value} (h : v.means.isSome) (h' : w.means.isSome) (he : v.text = w.text) : v = w := by
  obtain ⟨t, h⟩ := Option.isSome_iff_exists.mp h
  obtain ⟨t', h'⟩ := Option.isSome_iff_exists.mp h'
  rw [code_of h, code_of h'] at he
  subst he
  exact value_inj h h'

theorem optCode_inj {v w : Option Value} (h : (optMeans v).isSome) (h' : (optMeans w).isSome)
    (he : optText v = optText w) : v = w := by
  obtain ⟨t, h⟩ := Option.isSome_iff_exists.mp h
  obtain ⟨t', h'⟩ := Option.isSome_iff_exists.mp h'
  rw [optCode_of h, optCode_of h'] at he
  subst he
  exact optMeans_inj h h'

/-! ### attributes of elements -/

theorem rawIdentOf_some {n : Str} {i : Ident} (h : rawIdentOf n = some i) : i = ⟨true, underscored n⟩ := by
  unfold rawIdentOf rawIdent at h
  split at h
  · simp at h
  · cases h; rfl

/-- the call of an attribute -/
def ViewAttr.code : ViewAttr → Call
  | .ref v => ⟨plain c!"node_ref", v.text⟩
  | .text name v =>
    let v := v.text
    ⟨plain c!"attr", q!"#name, ::leptos::prelude::IntoAttributeValue::into_attribute_value(#v)"⟩
  | .typed name v => ⟨⟨true, name⟩, v.text⟩

/-- the value is accepted -/
def ViewAttr.ok : ViewAttr → Prop
  | .ref v | .text _ v | .typed _ v => v.means.isSome

theorem attr_view {kind : TagKind} {a : KvAttr} {c : Call} (h : a.onElement kind = some c) :
    (a.view kind).ok ∧ c = (a.view kind).code := by
  simp only [KvAttr.onElement, Option.bind_eq_bind, Option.bind_eq_some_iff, Option.pure_def] at h
  obtain ⟨v, hv, h⟩ := h
  unfold KvAttr.view
  split at h
  · rename_i hr
    cases h
    simp [hr, ViewAttr.ok, ViewAttr.code, hv, code_of hv]
  · rename_i hr
    split at h
    · rename_i hu
      cases h
      simp [hr, hu, ViewAttr.ok, ViewAttr.code, hv, code_of hv]
    · rename_i hu
      simp only [Option.bind_eq_some_iff] at h
      obtain ⟨i, hi, h⟩ := h
      cases h
      simp [hr, hu, ViewAttr.ok, ViewAttr.code, hv, code_of hv, rawIdentOf_some hi]

theorem attr_inj {a b : ViewAttr} (ha : a.ok) (hb : b.ok) (h : a.code = b.code) : a = b := by
  cases a <;> cases b <;> simp only [ViewAttr.code, ViewAttr.ok, Call.mk.injEq, plain, Ident.mk.injEq,
    List.cons.injEq, splice_str, splice_toks, reduceCtorEq, false_and, and_false] at h ha hb <;> simp_all
  all_goals first
    | exact code_inj ha hb h
    | exact code_inj ha hb h.2

/-! ### directives of elements -/

theorem asIdent_some {k : KebabOrStr} {i : Ident} (h : k.asIdent = some i) : i = ⟨true, underscored k.text⟩ := by
  cases k with
  | kebab k => exact rawIdentOf_some h
  | str s => simp [KebabOrStr.asIdent] at h

/-- the event of an `on:` -/
def eventCode (name : Str) (undelegated : Bool) : Toks :=
  let i : Ident := ⟨true, name⟩
  if undelegated then q!"::leptos::tachys::html::event::undelegated(::leptos::tachys::html::event::#i)"
  else q!"::leptos::tachys::html::event::#i"

/-- the arguments of a `use:` -/
def useCode (name : Str) : Option Value → Toks
  | none =>
    let i : Ident := ⟨true, name⟩
    q!"#i, ().into()"
  | some v =>
    let i : Ident := ⟨true, name⟩
    let v := v.text
    q!"#i, ::std::convert::Into::into(#v)"

/-- the call of a directive -/
def ViewDirective.code : ViewDirective → Call
  | .text dir key v =>
    let v := optText v
    if dir = plain c!"prop" then ⟨dir, q!"#key, #v"⟩ else ⟨dir, q!"(#key, #v)"⟩
  | .on name u v =>
    let ev := eventCode name u
    let v := optText v
    ⟨plain c!"on", q!"#ev, #v"⟩
  | .use name v => ⟨plain c!"directive", useCode name v⟩

/-- the directive is accepted -/
def ViewDirective.ok : ViewDirective → Prop
  | .text dir _ v => (dir = plain c!"class" ∨ dir = plain c!"style" ∨ dir = plain c!"prop") ∧ (optMeans v).isSome
  | .on _ _ v => (optMeans v).isSome
  | .use _ v => (optMeans v).isSome

theorem event_view {d : Directive} {t : Toks} (h : d.event = some t) :
    t = eventCode (underscored d.key.text) d.modifier.isSome := by
  simp only [Directive.event, Option.bind_eq_bind, Option.bind_eq_some_iff, Option.pure_def] at h
  obtain ⟨i, hi, h⟩ := h
  rw [asIdent_some hi] at h
  split at h
  · rename_i hm
    cases h
    simp [eventCode, hm]
  · rename_i m hm
    split at h
    · cases h; simp [eventCode, hm]
    · simp at h

theorem useArgs_view {d : Directive} {t : Toks} (h : d.useArgs = some t) :
    (optMeans d.value).isSome ∧ t = useCode (underscored d.key.text) d.value := by
  unfold Directive.useArgs at h
  obtain ⟨-, h⟩ := bind_guard h
  simp only [Option.bind_eq_bind, Option.bind_eq_some_iff, Option.pure_def] at h
  obtain ⟨i, hi, h⟩ := h
  rw [asIdent_some hi] at h
  split at h
  · rename_i hv
    cases h
    simp [useCode, hv, optMeans]
  · rename_i v hv
    simp only [Option.bind_eq_some_iff] at h
    obtain ⟨t', ht, h⟩ := h
    cases h
    simp [useCode, hv, optMeans, ht, code_of ht]

theorem directive_view {d : Directive} {c : Call} (h : d.onElement = some c) : d.view.ok ∧ c = d.view.code := by
  simp only [Directive.onElement] at h
  unfold Directive.view
  split at h
  · rename_i hd
    obtain ⟨-, h⟩ := bind_guard h
    simp only [Option.bind_eq_bind, Option.bind_eq_some_iff, Option.pure_def] at h
    obtain ⟨v, hv, h⟩ := h
    cases h
    rcases hd with hd | hd <;> simp [hd, plain, ViewDirective.ok, ViewDirective.code, hv, optCode_of hv]
  · split at h
    · rename_i hd
      obtain ⟨-, h⟩ := bind_guard h
      simp only [Option.bind_eq_bind, Option.bind_eq_some_iff, Option.pure_def] at h
      obtain ⟨v, hv, h⟩ := h
      cases h
      simp [hd, plain, ViewDirective.ok, ViewDirective.code, hv, optCode_of hv]
    · split at h
      · rename_i hd
        simp only [Option.bind_eq_bind, Option.bind_eq_some_iff, Option.pure_def] at h
        obtain ⟨ev, he, v, hv, h⟩ := h
        cases h
        simp [hd, plain, ViewDirective.ok, ViewDirective.code, hv, optCode_of hv, event_view he]
      · split at h
        · rename_i hd
          simp only [Option.bind_eq_bind, Option.bind_eq_some_iff, Option.pure_def] at h
          obtain ⟨a, ha, h⟩ := h
          cases h
          obtain ⟨h1, h2⟩ := useArgs_view ha
          simp [hd, plain, ViewDirective.ok, ViewDirective.code, h1, h2]
        · simp at h

theorem event_inj {n m : Str} {u w : Bool} {x y : Toks} (h : eventCode n u ++ x = eventCode m w ++ y) :
    n = m ∧ u = w ∧ x = y := by
  cases u <;> cases w <;> simp [eventCode, plain] at h <;> simp_all

theorem useCode_inj {n m : Str} {v w : Option Value} (hv : (optMeans v).isSome) (hw : (optMeans w).isSome)
    (h : useCode n v = useCode m w) : n = m ∧ v = w := by
  cases v <;> cases w <;> simp [useCode] at h <;> simp_all [optMeans]
  exact code_inj hv hw h.2

theorem directive_inj {a b : ViewDirective} (ha : a.ok) (hb : b.ok) (h : a.code = b.code) : a = b := by
  cases a with
  | text dir key v =>
    cases b with
    | text dir' key' v' =>
      obtain ⟨hd, hv⟩ := ha
      obtain ⟨hd', hv'⟩ := hb
      rcases hd with rfl | rfl | rfl <;> rcases hd' with rfl | rfl | rfl <;>
        simp [ViewDirective.code, plain] at h <;> (obtain ⟨rfl, h⟩ := h; rw [optCode_inj hv hv' h])
    | on n u v' =>
      rcases ha.1 with rfl | rfl | rfl <;> simp [ViewDirective.code, plain] at h
    | use n v' =>
      rcases ha.1 with rfl | rfl | rfl <;> simp [ViewDirective.code, plain] at h
  | on n u v =>
    cases b with
    | text dir' key' v' =>
      rcases hb.1 with rfl | rfl | rfl <;> simp [ViewDirective.code, plain] at h
    | on n' u' v' =>
      simp only [ViewDirective.code, Call.mk.injEq, true_and, splice_toks] at h
      obtain ⟨rfl, rfl, h⟩ := event_inj h
      simp only [List.cons_append, List.nil_append, List.cons.injEq, true_and] at h
      rw [optCode_inj ha hb (by simpa using h)]
    | use n v' => simp [ViewDirective.code, plain] at h
  | use n v =>
    cases b with
    | text dir' key' v' =>
      rcases hb.1 with rfl | rfl | rfl <;> simp [ViewDirective.code, plain] at h
    | on n u v' => simp [ViewDirective.code, plain] at h
    | use n' v' =>
      simp only [ViewDirective.code, Call.mk.injEq, true_and] at h
      obtain ⟨rfl, rfl⟩ := useCode_inj ha hb h
      rfl

end Mview
