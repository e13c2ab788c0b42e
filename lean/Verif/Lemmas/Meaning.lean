import Verif.Lemmas.ExpandWp
import Verif.Spec.Meaning
/-
The expanders compute the meaning of each piece, and succeed (without diagnostics)
exactly on the pieces that have one.
-/

namespace Mview
open Lex

namespace Out
variable {α β : Type}

/-- the value, if there is one and nothing was reported -/
def ok : Out α → Option α
  | .ret [] a => some a
  | _ => none

theorem ok_eq_some {x : Out α} {a : α} : x.ok = some a ↔ x = .ret [] a := by
  unfold ok
  split <;> simp_all

@[simp] theorem ok_ret (a : α) : (ret [] a).ok = some a := rfl
@[simp] theorem ok_ret_cons (d : Diag) (ds : List Diag) (a : α) : (ret (d :: ds) a).ok = none := rfl
@[simp] theorem ok_abort (ds : List Diag) : (abort ds : Out α).ok = none := rfl
@[simp] theorem ok_panic (p) : (panic p : Out α).ok = none := rfl
@[simp] theorem ok_tell_cons (d : Diag) (ds : List Diag) (x : Out α) :
    (x.tell (d :: ds)).ok = none := by cases x <;> rfl
@[simp] theorem ok_bind (x : Out α) (f : α → Out β) :
    (x.bind f).ok = x.ok.bind fun a => (f a).ok := by
  cases x with
  | ret ds a =>
    cases ds with
    | nil => simp
    | cons d ds => rw [bind_ret]; simp
  | _ => rfl

end Out

/-! ### names and values -/

theorem newRaw_ok (n : Str) :
    (newRaw n).ok = if n ∈ notRaw then none else some ⟨true, n⟩ := by
  unfold newRaw
  split <;> simp

theorem rawIdentOf_eq (n : Str) : rawIdentOf n =
    if dashToUnderscore n ∈ notRaw then none else some ⟨true, dashToUnderscore n⟩ := rfl

theorem checkSpan_eq {k : KebabIdent} (h : 0 < k.spans) : k.checkSpan = .ret [] () := by
  have : k.spans ≠ 0 := by omega
  simp [KebabIdent.checkSpan, this]

theorem toSnakeIdent_ok {k : KebabIdent} (h : 0 < k.spans) :
    k.toSnakeIdent.ok = rawIdentOf k.repr := by
  simp [KebabIdent.toSnakeIdent, checkSpan_eq h, newRaw_ok, rawIdentOf_eq]

theorem Value.toToks_ok (v : Value) : v.toToks.ok = v.means := by
  cases v with
  | lit l =>
    cases l with
    | tok l => rfl
    | bool b => cases b <;> rfl
  | block c => simp [Value.toToks, Value.means, tBrace]
  | bracket p c =>
    cases p with
    | none => simp [Value.toToks, Value.means, tBrace, tOrOr, tId]
    | some p =>
      simp only [Value.toToks, Value.means, plain]
      split
      · simp_all [tOrOr, tId, tAbs, tColon2, tP, tParen]
      · simp_all

theorem optValueToks_ok (v : Option Value) : (optValueToks v).ok = optMeans v := by
  cases v with
  | none => rfl
  | some v => exact v.toToks_ok

theorem trueValue_ok (v : Option Value) : (valueOrTrue v).toToks.ok = trueMeans v := by
  cases v with
  | none => rfl
  | some v => exact v.toToks_ok

/-! ### keys -/

/-- kebab keys have at least one section -/
def KebabOrStr.Spanned : KebabOrStr → Prop
  | .kebab k => 0 < k.spans
  | .str _ => True

theorem toLitStr_eq {k : KebabOrStr} (h : k.Spanned) : k.toLitStr = .ret [] k.text := by
  cases k with
  | kebab k => simp [KebabOrStr.toLitStr, checkSpan_eq h, KebabOrStr.text]
  | str s => simp [KebabOrStr.toLitStr, KebabOrStr.text]

theorem toUnspanned_eq (k : KebabOrStr) : k.toUnspannedString = k.text := by cases k <;> rfl

theorem toIdentOrEmit_ok {k : KebabOrStr} (h : k.Spanned) : k.toIdentOrEmit.ok = k.asIdent := by
  cases k with
  | kebab k => exact toSnakeIdent_ok h
  | str s => simp [KebabOrStr.toIdentOrEmit, KebabOrStr.asIdent]

theorem emitIfModifier_ok (m : Option Ident) : (emitIfModifier m).ok = guard (m.isNone) := by
  cases m <;> rfl

@[simp] theorem guard_true' : (guard True : Option Unit) = some () := rfl
@[simp] theorem guard_false' : (guard False : Option Unit) = none := rfl

theorem ite_ok {α : Type} {p : Prop} [Decidable p] (x y : Out α) :
    (if p then x else y).ok = if p then x.ok else y.ok := by split <;> rfl

/-! ### attributes -/

theorem isPrefixOf_iff (a b : Str) : a.isPrefixOf b = true ↔ a <+: b := List.isPrefixOf_iff_prefix

theorem AttributeKind.isCustom_iff (name : Str) :
    (AttributeKind.ofStr name).isCustom = true ↔ '-' ∈ name ∧ ¬ c!"aria-" <+: name := by
  unfold AttributeKind.isCustom AttributeKind.ofStr
  by_cases h1 : name = c!"class"
  · subst h1; simp
  by_cases h2 : name = c!"style"
  · subst h2; simp
  rw [if_neg h1, if_neg h2]
  rw [← isPrefixOf_iff]
  by_cases h3 : '-' ∈ name <;> cases h4 : c!"aria-".isPrefixOf name <;> simp [h3]

theorem AttributeKind.isClassOrStyle_iff (name : Str) :
    (AttributeKind.ofStr name).isClassOrStyle = true ↔ name = c!"class" ∨ name = c!"style" := by
  unfold AttributeKind.isClassOrStyle AttributeKind.ofStr
  by_cases h1 : name = c!"class"
  · subst h1; simp
  by_cases h2 : name = c!"style"
  · subst h2; simp
  rw [if_neg h1, if_neg h2]
  simp only [h1, h2, or_self, iff_false]
  split <;> simp

theorem unchecked_iff {kind : TagKind} (hk : kind ≠ .component) (name : Str) :
    (((kind = .svg || kind = .webComponent) || (AttributeKind.ofStr name).isCustom) &&
      !(AttributeKind.ofStr name).isClassOrStyle) = true ↔ Unchecked kind name := by
  have hc := AttributeKind.isCustom_iff name
  have hs := AttributeKind.isClassOrStyle_iff name
  have key : '-' ∈ name ∧ ¬ c!"aria-" <+: name → ¬ (name = c!"class" ∨ name = c!"style") := by
    rintro ⟨h, _⟩ (rfl | rfl) <;> simp at h
  rw [Bool.and_eq_true, Bool.or_eq_true, hc, Bool.not_eq_true', ← Bool.not_eq_true, hs]
  cases kind <;> simp [Unchecked] at hk ⊢ <;> intro h1 h2 <;>
    have := key ⟨h1, h2⟩ <;> simpa using this

theorem tCall_eq (n : Ident) (a : Toks) : tCall n a = chain [⟨n, a⟩] := by
  simp [tCall, chain, tP, tParen]

theorem chain_nil : chain [] = [] := rfl
theorem chain_cons (c : Call) (cs : List Call) : chain (c :: cs) = chain [c] ++ chain cs := by
  cases c; simp [chain]

theorem chain_append (a b : List Call) : chain (a ++ b) = chain a ++ chain b := by
  induction a with
  | nil => rfl
  | cons c a ih => rw [List.cons_append, chain_cons, ih, chain_cons c a, List.append_assoc]

theorem xmlKv_ok {kind : TagKind} (hk : kind ≠ .component) {a : KvAttr} (hs : 0 < a.key.spans) :
    (xmlKvAttributeTokens a kind).ok = (a.onElement kind).map fun c => chain [c] := by
  unfold xmlKvAttributeTokens KvAttr.onElement
  by_cases href : a.key.repr = c!"ref"
  · simp only [href, if_true, checkSpan_eq hs]
    simp [Value.toToks_ok, tCall_eq, plain]
    cases a.value.means <;> rfl
  · have hu := unchecked_iff hk a.key.repr
    by_cases hun : Unchecked kind a.key.repr
    · have h := hu.mpr hun
      simp only [h, if_true, hun, if_neg href]
      simp [Value.toToks_ok, tCall_eq, plain, tStr, tP, tAbs, tColon2, tId,
        tParen]
      cases a.value.means <;> simp
    · have h := mt hu.mp hun
      simp only [h, hun, if_neg href]
      simp [Value.toToks_ok, tCall_eq, toSnakeIdent_ok hs]
      cases rawIdentOf a.key.repr <;> cases a.value.means <;> rfl

theorem componentKv_ok {a : KvAttr} (hs : 0 < a.key.spans) :
    (componentKvAttributeTokens a).ok = a.onComponent.map fun c => chain [c] := by
  unfold componentKvAttributeTokens KvAttr.onComponent
  simp [Value.toToks_ok, tCall_eq, toSnakeIdent_ok hs]
  cases rawIdentOf a.key.repr <;> cases a.value.means <;> rfl

/-! ### directives -/

theorem event_ok {d : Directive} (hd : d.dir = plain c!"on") (hs : d.key.Spanned) :
    (eventListenerEventPath d).ok = d.event := by
  unfold eventListenerEventPath Directive.event
  simp only [hd, plain, ne_eq, not_true, if_false]
  cases hk : d.key with
  | kebab k =>
    rw [hk] at hs
    simp only [KebabOrStr.asIdent, Out.monad_bind, Out.ok_bind, toSnakeIdent_ok hs]
    cases rawIdentOf k.repr with
    | none => rfl
    | some i =>
      cases hm : d.modifier with
      | none => simp [eventMod, tAbs, tColon2, tId]
      | some m =>
        by_cases hmm : m = ⟨false, c!"undelegated"⟩
        · simp [hmm, eventMod, tAbs, tColon2, tId, tParen]
        · simp [hmm]
  | str s => simp [KebabOrStr.asIdent]

theorem useArgs_ok {d : Directive} (hd : d.dir = plain c!"use") (hs : d.key.Spanned) :
    ((useDirectiveFnValue d).ok.map fun r => [.ident r.1, tP ','] ++ r.2) = d.useArgs := by
  unfold useDirectiveFnValue Directive.useArgs
  simp only [hd, plain, ne_eq, not_true, if_false]
  simp only [Out.monad_bind, Out.ok_bind, toIdentOrEmit_ok hs, emitIfModifier_ok]
  cases d.modifier with
  | some m => cases d.key.asIdent <;> rfl
  | none =>
    cases d.key.asIdent with
    | none => rfl
    | some fn =>
      cases d.value with
      | none => simp [tP, tParen, tId]
      | some w =>
        simp [Value.toToks_ok]
        cases w.means with
        | none => rfl
        | some v => simp [tP, tAbs, tColon2, tId, tParen]

theorem xmlDirective_ok {d : Directive} (hs : d.key.Spanned) :
    (xmlDirectiveTokens d).ok = d.onElement.map fun c => chain [c] := by
  unfold xmlDirectiveTokens Directive.onElement
  by_cases h1 : d.dir = ⟨false, c!"class"⟩ ∨ d.dir = ⟨false, c!"style"⟩
  · rw [if_pos h1]
    dsimp only
    rw [if_pos h1]
    simp [toLitStr_eq hs, emitIfModifier_ok, optValueToks_ok, tCall_eq,
      tStr, tP, tParen]
    cases d.modifier <;> cases optMeans d.value <;> rfl
  · rw [if_neg h1]
    dsimp only
    rw [if_neg h1]
    by_cases h2 : d.dir = ⟨false, c!"prop"⟩
    · rw [if_pos h2, if_pos h2]
      simp [toLitStr_eq hs, emitIfModifier_ok, optValueToks_ok, tCall_eq,
        tStr, tP]
      cases d.modifier <;> cases optMeans d.value <;> rfl
    · rw [if_neg h2, if_neg h2]
      by_cases h3 : d.dir = ⟨false, c!"on"⟩
      · rw [if_pos h3, if_pos h3]
        simp [event_ok h3 hs, optValueToks_ok, tCall_eq, tP]
        cases d.event <;> cases optMeans d.value <;> simp
      · rw [if_neg h3, if_neg h3]
        by_cases h4 : d.dir = ⟨false, c!"use"⟩
        · rw [if_pos h4, if_pos h4, ← useArgs_ok h4 hs]
          simp [tCall_eq]
          cases (useDirectiveFnValue d).ok <;> rfl
        · rw [if_neg h4, if_neg h4]
          split <;> simp

theorem clone_ok {d : Directive} (hs : d.key.Spanned) :
    (componentCloneTokens d).ok = d.cloneStmt := by
  unfold componentCloneTokens Directive.cloneStmt
  simp [toIdentOrEmit_ok hs, emitIfModifier_ok]
  cases d.modifier with
  | some m => cases d.key.asIdent <;> simp <;> rfl
  | none =>
    cases d.value with
    | some v => cases d.key.asIdent <;> simp
    | none => cases d.key.asIdent <;> simp [tId, tP, tParen]

theorem anyAttr_ok {d : Directive} (hs : d.key.Spanned) :
    (directiveToAnyAttrPath d).ok.join = d.onComponent := by
  unfold directiveToAnyAttrPath Directive.onComponent
  dsimp only
  by_cases h1 : d.dir = ⟨false, c!"class"⟩ ∨ d.dir = ⟨false, c!"style"⟩
  · rw [if_pos h1, if_pos h1]
    simp [trueValue_ok, toUnspanned_eq]
    cases trueMeans d.value with
    | none => rfl
    | some v => simp [tAbs, tColon2, tId, tP, tStr, tParen]
  rw [if_neg h1, if_neg h1]
  by_cases h2 : d.dir = ⟨false, c!"attr"⟩
  · rw [if_pos h2, if_pos h2]
    simp only [toLitStr_eq hs, toUnspanned_eq, Out.monad_bind, Out.bind_ret, Out.tell_nil]
    have hc := AttributeKind.isCustom_iff d.key.text
    have hk := AttributeKind.isClassOrStyle_iff d.key.text
    have hcs : d.key.text = c!"class" ∨ d.key.text = c!"style" →
        ∀ i, d.key.asIdent = some i → i.name = d.key.text := by
      cases d.key with
      | str s => intro _ i hi; simp [KebabOrStr.asIdent] at hi
      | kebab k =>
        intro h i hi
        simp only [KebabOrStr.text] at h ⊢
        simp only [KebabOrStr.asIdent] at hi
        rcases h with h | h <;> rw [h] at hi ⊢ <;> cases hi <;> rfl
    by_cases hcls : d.key.text = c!"class" ∨ d.key.text = c!"style"
    · rw [if_pos hcls]
      have := hk.mpr hcls
      have hcs := hcs hcls
      cases hkd : AttributeKind.ofStr d.key.text <;> rw [hkd] at this <;>
        simp [AttributeKind.isClassOrStyle] at this <;> 
        simp only [Out.ok_bind, trueValue_ok, toIdentOrEmit_ok hs] <;>
        (cases hi : d.key.asIdent with
        | none => rfl
        | some i =>
          rw [← hcs i hi]
          cases trueMeans d.value with
          | none => rfl
          | some v => simp [tAbs, tColon2, tId, tParen, plain])
    · rw [if_neg hcls]
      have hk := mt hk.mp hcls
      by_cases hcu : '-' ∈ d.key.text ∧ ¬ c!"aria-" <+: d.key.text
      · rw [if_pos hcu]
        have := hc.mpr hcu
        cases hkd : AttributeKind.ofStr d.key.text <;> rw [hkd] at this <;>
          simp [AttributeKind.isCustom] at this <;> simp [trueValue_ok]
        cases trueMeans d.value with
        | none => rfl
        | some v => simp [tAbs, tColon2, tId, tParen, tStr, tP]
      · rw [if_neg hcu]
        have hc := mt hc.mp hcu
        cases hkd : AttributeKind.ofStr d.key.text <;> rw [hkd] at hc hk <;>
          simp [AttributeKind.isCustom, AttributeKind.isClassOrStyle] at hc hk <;>
          simp [trueValue_ok, toIdentOrEmit_ok hs]
        cases d.key.asIdent <;> cases trueMeans d.value <;> simp [tAbs, tColon2, tId, tParen]
  rw [if_neg h2, if_neg h2]
  by_cases h3 : d.dir = ⟨false, c!"prop"⟩
  · rw [if_pos h3, if_pos h3]
    simp [trueValue_ok, toIdentOrEmit_ok hs]
    cases d.key.asIdent <;> cases trueMeans d.value <;> simp [tAbs, tColon2, tId, tParen]
  rw [if_neg h3, if_neg h3]
  by_cases h4 : d.dir = ⟨false, c!"on"⟩
  · rw [if_pos h4, if_pos h4]
    simp [event_ok h4 hs, optValueToks_ok]
    cases d.event <;> cases optMeans d.value <;> simp [tAbs, tColon2, tId, tParen, tP]
  rw [if_neg h4, if_neg h4]
  by_cases h5 : d.dir = ⟨false, c!"use"⟩
  · rw [if_pos h5, if_pos h5, ← useArgs_ok h5 hs]
    simp
    cases (useDirectiveFnValue d).ok <;> simp [tAbs, tColon2, tId, tParen, tP]
  · rw [if_neg h5, if_neg h5]
    rfl

end Mview
