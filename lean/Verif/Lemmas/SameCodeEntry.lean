import Verif.Lemmas.SameCode
/-
C63: entries of components, chains of calls and the calls of elements.
-/

set_option linter.unusedVariables false

namespace Mview
open Lex

/-! ### entries of components -/

/-- the code of an entry -/
def ViewEntry.code : ViewEntry → Toks
  | .text dir key v =>
    let v := v.text
    q!"::leptos::tachys::html::#dir::#dir((#key, #v))"
  | .custom key v =>
    let v := v.text
    q!"::leptos::tachys::html::attribute::custom::custom_attribute(#key, #v)"
  | .typed name v =>
    let v := v.text
    let f : Ident := ⟨true, name⟩
    let m := plain (if name = c!"class" ∨ name = c!"style" then name else c!"attribute")
    q!"::leptos::tachys::html::#m::#f(#v)"
  | .prop name v =>
    let v := v.text
    let f : Ident := ⟨true, name⟩
    q!"::leptos::tachys::html::property::#f(#v)"
  | .on name u v =>
    let ev := eventCode name u
    let v := optText v
    q!"::leptos::tachys::html::event::on(#ev, #v)"
  | .use name v =>
    let a := useCode name v
    q!"::leptos::tachys::html::directive::directive(#a)"
  | .spread e => e

/-- the entry is accepted -/
def ViewEntry.ok : ViewEntry → Prop
  | .text dir _ v => (dir = plain c!"class" ∨ dir = plain c!"style") ∧ v.means.isSome
  | .custom _ v | .typed _ v | .prop _ v => v.means.isSome
  | .on _ _ v | .use _ v => (optMeans v).isSome
  | .spread e => True

theorem underscored_same {n : Str} (h : '-' ∉ n) : underscored n = n := by
  unfold underscored
  induction n with
  | nil => rfl
  | cons c n ih =>
    simp only [List.mem_cons, not_or] at h
    rw [List.map_cons, ih h.2, if_neg (Ne.symm h.1)]

/-- the name of a checked attribute is `class` or `style` only if it is written so -/
theorem checked_underscored {n m : Str} (hm : m = c!"class" ∨ m = c!"style") (h : ¬ ('-' ∈ n ∧ ¬ c!"aria-" <+: n)) :
    underscored n = m ↔ n = m := by
  have hm' : '-' ∉ m := by rcases hm with rfl | rfl <;> decide
  constructor
  · intro hn
    by_cases hd : '-' ∈ n
    · have ha : c!"aria-" <+: n := Decidable.byContradiction fun ha => h ⟨hd, ha⟩
      obtain ⟨r, rfl⟩ := ha
      rcases hm with rfl | rfl <;> simp [underscored] at hn
    · rwa [underscored_same hd] at hn
  · rintro rfl
    exact underscored_same hm'

theorem entry_view {d : Directive} {t : Toks} (h : d.onComponent = some t) :
    d.viewEntry.ok ∧ t = d.viewEntry.code := by
  simp only [Directive.onComponent] at h
  unfold Directive.viewEntry
  split at h
  · rename_i hd
    simp only [Option.bind_eq_bind, Option.bind_eq_some_iff, Option.pure_def, trueMeans_eq] at h
    obtain ⟨v, hv, h⟩ := h
    cases h
    rcases hd with hd | hd <;> simp [hd, plain, ViewEntry.ok, ViewEntry.code, hv, code_of hv]
  · split at h
    · rename_i hd
      split at h
      · rename_i hk
        simp only [Option.bind_eq_bind, Option.bind_eq_some_iff, Option.pure_def, trueMeans_eq] at h
        obtain ⟨f, hf, v, hv, h⟩ := h
        cases h
        have hc : ¬ ('-' ∈ d.key.text ∧ ¬ c!"aria-" <+: d.key.text) := by
          rcases hk with hk | hk <;> rw [hk] <;> decide
        have hu : underscored d.key.text = d.key.text := (checked_underscored hk hc).mpr rfl
        rw [asIdent_some hf, hu]
        simp [hd, plain, ViewEntry.ok, ViewEntry.code, hv, code_of hv, hc, hk, hu]
      · rename_i hk
        split at h
        · rename_i hc
          simp only [Option.bind_eq_bind, Option.bind_eq_some_iff, Option.pure_def, trueMeans_eq] at h
          obtain ⟨v, hv, h⟩ := h
          cases h
          simp only [hd, if_pos hc]
          simp [plain, ViewEntry.ok, ViewEntry.code, hv, code_of hv]
        · rename_i hc
          simp only [Option.bind_eq_bind, Option.bind_eq_some_iff, Option.pure_def, trueMeans_eq] at h
          obtain ⟨f, hf, v, hv, h⟩ := h
          cases h
          have hk' : ¬ (underscored d.key.text = c!"class" ∨ underscored d.key.text = c!"style") := by
            rw [checked_underscored (.inl rfl) hc, checked_underscored (.inr rfl) hc]; exact hk
          rw [asIdent_some hf]
          simp only [hd, if_neg hc]
          simp [plain, ViewEntry.ok, ViewEntry.code, hv, code_of hv, hk']
    · split at h
      · rename_i hd
        simp only [Option.bind_eq_bind, Option.bind_eq_some_iff, Option.pure_def, trueMeans_eq] at h
        obtain ⟨f, hf, v, hv, h⟩ := h
        cases h
        rw [asIdent_some hf]
        simp [hd, plain, ViewEntry.ok, ViewEntry.code, hv, code_of hv]
      · split at h
        · rename_i hd
          simp only [Option.bind_eq_bind, Option.bind_eq_some_iff, Option.pure_def] at h
          obtain ⟨ev, he, v, hv, h⟩ := h
          cases h
          simp [hd, plain, ViewEntry.ok, ViewEntry.code, hv, optCode_of hv, event_view he]
        · split at h
          · rename_i hd
            simp only [Option.bind_eq_bind, Option.bind_eq_some_iff, Option.pure_def] at h
            obtain ⟨a, ha, h⟩ := h
            cases h
            obtain ⟨h1, h2⟩ := useArgs_view ha
            simp [hd, plain, ViewEntry.ok, ViewEntry.code, h1, h2]
          · simp at h

/-- the entry is not a spread that could be something else -/
def ViewEntry.plain : ViewEntry → Prop
  | .spread e => plainSpread e
  | _ => True

theorem entry_noComma {e : ViewEntry} (h : e.plain) : Run.NoComma e.code := by
  cases e with
  | spread e => exact h.1
  | _ => intro s hs; simp [ViewEntry.code] at hs

theorem entry_inj {a b : ViewEntry} (ha : a.ok) (hb : b.ok) (pa : a.plain) (pb : b.plain) (h : a.code = b.code) :
    a = b := by
  cases a with
  | spread e =>
    cases b with
    | spread e' => exact congrArg _ h
    | _ => exact absurd h (pa.2 _ _)
  | text dir key v =>
    obtain ⟨hd, hv⟩ := ha
    cases b with
    | spread e' => exact absurd h.symm (pb.2 _ _)
    | text dir' key' v' =>
      rcases hd with rfl | rfl <;> rcases hb.1 with rfl | rfl <;> simp [ViewEntry.code] at h <;>
        (obtain ⟨rfl, h⟩ := h; rw [code_inj hv hb.2 h])
    | typed name v' =>
      rcases hd with rfl | rfl <;> simp [ViewEntry.code] at h
    | _ => rcases hd with rfl | rfl <;> simp [ViewEntry.code] at h
  | custom key v =>
    cases b with
    | spread e' => exact absurd h.symm (pb.2 _ _)
    | text dir' key' v' => rcases hb.1 with rfl | rfl <;> simp [ViewEntry.code] at h
    | custom key' v' =>
      simp [ViewEntry.code] at h
      obtain ⟨rfl, h⟩ := h
      rw [code_inj ha hb h]
    | _ => simp [ViewEntry.code] at h
  | typed name v =>
    cases b with
    | spread e' => exact absurd h.symm (pb.2 _ _)
    | text dir' key' v' => rcases hb.1 with rfl | rfl <;> simp [ViewEntry.code] at h
    | typed name' v' =>
      simp [ViewEntry.code] at h
      obtain ⟨-, rfl, h⟩ := h
      rw [code_inj ha hb h]
    | prop name' v' =>
      simp [ViewEntry.code] at h
      obtain ⟨h1, rfl, -⟩ := h
      split at h1
      · rename_i hn; rcases hn with rfl | rfl <;> simp at h1
      · simp at h1
    | _ => simp [ViewEntry.code] at h
  | prop name v =>
    cases b with
    | spread e' => exact absurd h.symm (pb.2 _ _)
    | text dir' key' v' => rcases hb.1 with rfl | rfl <;> simp [ViewEntry.code] at h
    | typed name' v' =>
      simp [ViewEntry.code] at h
      obtain ⟨h1, rfl, -⟩ := h
      split at h1
      · rename_i hn; rcases hn with rfl | rfl <;> simp at h1
      · simp at h1
    | prop name' v' =>
      simp [ViewEntry.code] at h
      obtain ⟨rfl, h⟩ := h
      rw [code_inj ha hb h]
    | _ => simp [ViewEntry.code] at h
  | on name u v =>
    cases b with
    | spread e' => exact absurd h.symm (pb.2 _ _)
    | text dir' key' v' => rcases hb.1 with rfl | rfl <;> simp [ViewEntry.code] at h
    | on name' u' v' =>
      simp [ViewEntry.code] at h
      obtain ⟨rfl, rfl, h⟩ := event_inj h
      rw [optCode_inj ha hb (by simpa using h)]
    | _ => simp [ViewEntry.code] at h
  | use name v =>
    cases b with
    | spread e' => exact absurd h.symm (pb.2 _ _)
    | text dir' key' v' => rcases hb.1 with rfl | rfl <;> simp [ViewEntry.code] at h
    | use name' v' =>
      simp [ViewEntry.code] at h
      obtain ⟨rfl, rfl⟩ := useCode_inj ha hb h
      rfl
    | _ => simp [ViewEntry.code] at h

/-! ### lists -/

theorem commaAfter_inj {as bs : List Toks} (ha : ∀ t ∈ as, Run.NoComma t) (hb : ∀ t ∈ bs, Run.NoComma t)
    (h : commaAfter as = commaAfter bs) : as = bs := by
  have h1 := Run.tuple_commaAfter ha
  rw [h, Run.tuple_commaAfter hb] at h1
  exact (Option.some.inj h1).symm

theorem map_inj_on {α β : Type} {f : α → β} {p : α → Prop} (hf : ∀ a b, p a → p b → f a = f b → a = b) :
    ∀ {as bs : List α}, (∀ a ∈ as, p a) → (∀ b ∈ bs, p b) → as.map f = bs.map f → as = bs
  | [], [], _, _, _ => rfl
  | [], _ :: _, _, _, h => by simp at h
  | _ :: _, [], _, _, h => by simp at h
  | a :: as, b :: bs, ha, hb, h => by
    simp only [List.map_cons, List.cons.injEq] at h
    rw [hf a b (ha a (by simp)) (hb b (by simp)) h.1,
      map_inj_on hf (fun a h => ha a (by simp [h])) (fun b h => hb b (by simp [h])) h.2]

theorem mapM_view {α β γ : Type} {f : α → Option β} {v : α → γ} {code : γ → β} {ok : γ → Prop}
    (hf : ∀ a b, f a = some b → ok (v a) ∧ b = code (v a)) : ∀ {as : List α} {bs : List β}, as.mapM f = some bs →
    (∀ x ∈ as.map v, ok x) ∧ bs = (as.map v).map code
  | [], bs, h => by cases h; simp
  | a :: as, bs, h => by
    rw [List.mapM_cons] at h
    simp only [Option.bind_eq_bind, Option.bind_eq_some_iff, Option.pure_def] at h
    obtain ⟨b, h1, bs', h2, h⟩ := h
    cases h
    obtain ⟨h3, h4⟩ := hf a b h1
    obtain ⟨h5, h6⟩ := mapM_view hf h2
    refine ⟨?_, by rw [h4, h6]; rfl⟩
    intro x hx
    rw [List.map_cons] at hx
    rcases List.mem_cons.mp hx with rfl | hx
    · exact h3
    · exact h5 x hx

theorem chain_inj : ∀ {as bs : List Call}, chain as = chain bs → as = bs
  | [], [], _ => rfl
  | [], ⟨_, _⟩ :: _, h => by simp [chain] at h
  | ⟨_, _⟩ :: _, [], h => by simp [chain] at h
  | ⟨n, a⟩ :: as, ⟨m, b⟩ :: bs, h => by
    simp [chain] at h
    obtain ⟨rfl, rfl, h⟩ := h
    rw [chain_inj h]

/-- two lists in two sorts each -/
theorem sorted_inj {α : Type} {p : α → Bool} {a a' b b' : List α} (ha : ∀ x ∈ a, p x = true)
    (ha' : ∀ x ∈ a', p x = true) (hb : ∀ x ∈ b, p x = false) (hb' : ∀ x ∈ b', p x = false)
    (h : a ++ b = a' ++ b') : a = a' ∧ b = b' := by
  have h1 : ∀ {a b : List α}, (∀ x ∈ a, p x = true) → (∀ x ∈ b, p x = false) → (a ++ b).filter p = a := by
    intro a b ha hb
    rw [List.filter_append, List.filter_eq_self.mpr ha, List.filter_eq_nil_iff.mpr (by simpa using hb), List.append_nil]
  have h2 : a = a' := by rw [← h1 ha hb, h, h1 ha' hb']
  subst h2
  exact ⟨rfl, List.append_cancel_left h⟩

end Mview
