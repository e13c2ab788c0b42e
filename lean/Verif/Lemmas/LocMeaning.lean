import Verif.Spec.LocMeaning
import Verif.Lemmas.LocIssues
import Verif.Lemmas.MeaningRoot
/-
The expanders compute the located meaning of each piece (see `Lemmas/Meaning.lean`).
-/

namespace Mview.Loc

namespace Out
variable {σ α β : Type}

/-- the value, if there is one and nothing was reported -/
def ok : Out σ α → Option α
  | .ret [] a => some a
  | _ => none

theorem ok_eq_some {x : Out σ α} {a : α} : x.ok = some a ↔ x = .ret [] a := by
  unfold ok
  split <;> simp_all

@[simp] theorem ok_ret (a : α) : (ret [] a : Out σ α).ok = some a := rfl
@[simp] theorem ok_ret_cons (d : LDiag σ) (ds : List (LDiag σ)) (a : α) :
    (ret (d :: ds) a).ok = none := rfl
@[simp] theorem ok_abort (ds : List (LDiag σ)) : (abort ds : Out σ α).ok = none := rfl
@[simp] theorem ok_panic (p) : (panic p : Out σ α).ok = none := rfl
@[simp] theorem ok_tell_cons (d : LDiag σ) (ds : List (LDiag σ)) (x : Out σ α) :
    (x.tell (d :: ds)).ok = none := by cases x <;> rfl
@[simp] theorem ok_bind (x : Out σ α) (f : α → Out σ β) :
    (x.bind f).ok = x.ok.bind fun a => (f a).ok := by
  cases x with
  | ret ds a =>
    cases ds with
    | nil => simp
    | cons d ds => rw [bind_ret]; simp
  | _ => rfl
@[simp] theorem ok_emit (d : Diag) (sp : σ) : (emit d sp).ok = none := rfl

end Out

variable {σ : Type}

/-! ### names and values -/

theorem newRaw_ok (n : Str) (sp : σ) :
    (newRaw n sp).ok = if n ∈ notRaw then none else some ⟨⟨true, n⟩, sp⟩ := by
  unfold newRaw
  split <;> simp

theorem rawIdentAt_eq (n : Str) (sp : σ) : rawIdentAt n sp =
    if dashToUnderscore n ∈ notRaw then none else some ⟨⟨true, dashToUnderscore n⟩, sp⟩ := by
  unfold rawIdentAt
  rw [rawIdentOf_eq]
  split <;> rfl

theorem checkSpan_eq {k : KebabIdent σ} (h : 0 < k.spans.length) : k.checkSpan = .ret [] () := by
  have : k.spans.length ≠ 0 := by omega
  simp only [KebabIdent.checkSpan, this, if_false]; rfl

variable [Spans σ]

theorem toSnakeIdent_ok {k : KebabIdent σ} (h : 0 < k.spans.length) :
    k.toSnakeIdent.ok = rawIdentAt k.repr k.place := by
  simp [KebabIdent.toSnakeIdent, checkSpan_eq h, newRaw_ok, rawIdentAt_eq, kebab_place]

omit [Spans σ] in
theorem TT.place_eq (t : TT σ) : t.place = t.span := by cases t <;> rfl

theorem placeOf_eq (ts : Toks σ) (d : σ) : (placeOf ts).getD d =
    if ts.isEmpty then d else toksSpan ts := by
  cases ts with
  | nil => rfl
  | cons t ts =>
    simp [placeOf, toksSpan_cons, List.getLast?_eq_some_getLast, TT.place_eq]

theorem Value.toToks_ok (v : Value σ) : v.toToks.ok = v.means := by
  cases v with
  | lit l =>
    obtain ⟨l, sp⟩ := l
    cases l with
    | tok l => rfl
    | bool b => cases b <;> rfl
  | block c b => simp only [Value.toToks, Value.means, tBrace, placeOf_eq]; rfl
  | bracket p c b =>
    cases p with
    | none => simp [Value.toToks, Value.means, tBrace, tOrOr, tId]
    | some p =>
      simp only [Value.toToks, Value.means, plain]
      split
      · simp_all [tOrOr, tId, tAbs, tColons, tColon2, tP, tParen]
      · simp_all [emit]

omit [Spans σ] in
theorem value_place (v : Value σ) : v.span = v.place := by cases v <;> rfl

theorem optValueToks_ok (v : Option (Value σ)) : (optValueToks v).ok = optMeans v := by
  cases v with
  | none => rfl
  | some v => exact v.toToks_ok

theorem trueValue_ok (v : Option (Value σ)) : (valueOrTrue v).toToks.ok = trueMeans v := by
  cases v with
  | none => rfl
  | some v => exact v.toToks_ok

/-! ### keys -/

theorem toLitStr_eq {k : KebabOrStr σ} (h : k.erase.Spanned) :
    k.toLitStr = .ret [] ⟨k.text, k.place⟩ := by
  cases k with
  | kebab k => simp [KebabOrStr.toLitStr, checkSpan_eq (k := k) h, KebabOrStr.text, KebabOrStr.place, kebab_place]
  | str s => simp [KebabOrStr.toLitStr, KebabOrStr.text, KebabOrStr.place]

omit [Spans σ] in
theorem toUnspanned_eq (k : KebabOrStr σ) : k.toUnspannedString = k.text := by cases k <;> rfl

theorem toIdentOrEmit_ok {k : KebabOrStr σ} (h : k.erase.Spanned) :
    k.toIdentOrEmit.ok = k.asIdent := by
  cases k with
  | kebab k => exact toSnakeIdent_ok h
  | str s => simp [KebabOrStr.toIdentOrEmit, KebabOrStr.asIdent]

omit [Spans σ] in
theorem emitIfModifier_ok (m : Option (SIdent σ)) : (emitIfModifier m).ok = guard (m.isNone) := by
  cases m <;> rfl

/-! ### attributes -/

omit [Spans σ] in
theorem tCall_eq (c : σ) (n : SIdent σ) (a : Toks σ) : tCall c n a = chain [⟨c, n, a⟩] := by
  simp [tCall, chain, tP, tParen, tIdent]

omit [Spans σ] in
theorem chain_nil : chain ([] : List (Call σ)) = [] := rfl
omit [Spans σ] in
theorem chain_cons (c : Call σ) (cs : List (Call σ)) : chain (c :: cs) = chain [c] ++ chain cs := by
  cases c; simp [chain]

omit [Spans σ] in
theorem chain_append (a b : List (Call σ)) : chain (a ++ b) = chain a ++ chain b := by
  induction a with
  | nil => rfl
  | cons c a ih => rw [List.cons_append, chain_cons, ih, chain_cons c a, List.append_assoc]

theorem xmlKv_ok {kind : TagKind} (hk : kind ≠ .component) {a : KvAttr σ}
    (hs : 0 < a.key.spans.length) :
    (xmlKvAttributeTokens a kind).ok = (a.onElement kind).map fun c => chain [c] := by
  unfold xmlKvAttributeTokens KvAttr.onElement
  by_cases href : a.key.repr = c!"ref"
  · simp only [href, if_true, checkSpan_eq hs]
    simp [Value.toToks_ok, tCall_eq, mkIdent, kebab_place]
    cases a.value.means <;> rfl
  · have hu := unchecked_iff hk a.key.repr
    by_cases hun : Unchecked kind a.key.repr
    · have h := hu.mpr hun
      simp only [h, if_true, hun, if_neg href]
      simp [Value.toToks_ok, tCall_eq, tStr, tP, tAbs, tColons, tColon2, tId, mkIdent,
        tParen]
      cases a.value.means <;> simp
    · have h := mt hu.mp hun
      simp only [h, hun, if_neg href]
      simp [Value.toToks_ok, tCall_eq, toSnakeIdent_ok hs]
      cases rawIdentAt a.key.repr a.key.place <;> cases a.value.means <;> rfl

theorem componentKv_ok {a : KvAttr σ} (hs : 0 < a.key.spans.length) :
    (componentKvAttributeTokens a).ok = a.onComponent.map fun c => chain [c] := by
  unfold componentKvAttributeTokens KvAttr.onComponent
  simp [Value.toToks_ok, tCall_eq, toSnakeIdent_ok hs, KvAttr.span, kebab_place, value_place]
  cases rawIdentAt a.key.repr a.key.place <;> cases a.value.means <;> rfl

/-! ### directives -/

theorem event_ok {d : Directive σ} (hd : d.dir.id = plain c!"on") (hs : d.key.erase.Spanned) :
    (eventListenerEventPath d).ok = d.event := by
  unfold eventListenerEventPath Directive.event
  simp only [hd, plain, ne_eq, not_true, if_false]
  cases hk : d.key with
  | kebab k =>
    rw [hk] at hs
    simp only [KebabOrStr.asIdent, Out.monad_bind, Out.ok_bind, toSnakeIdent_ok (k := k) hs]
    cases rawIdentAt k.repr k.place with
    | none => rfl
    | some i =>
      cases hm : d.modifier with
      | none => simp [eventMod, tAbs, tColons, tColon2, tId, tIdent]
      | some m =>
        by_cases hmm : m.id = ⟨false, c!"undelegated"⟩
        · simp [hmm, eventMod, tAbs, tColons, tColon2, tId, tParen, tIdent]
        · simp [hmm]
  | str s => simp [KebabOrStr.asIdent]

theorem useArgs_ok {d : Directive σ} (hd : d.dir.id = plain c!"use") (hs : d.key.erase.Spanned) :
    ((useDirectiveFnValue d).ok.map fun r => [tIdent r.1, tP callSite ','] ++ r.2) = d.useArgs := by
  unfold useDirectiveFnValue Directive.useArgs
  simp only [hd, plain, ne_eq, not_true, if_false]
  simp only [Out.monad_bind, Out.ok_bind, toIdentOrEmit_ok hs, emitIfModifier_ok]
  cases d.modifier with
  | some m => cases d.key.asIdent <;> rfl
  | none =>
    cases d.key.asIdent with
    | none => rfl
    | some fn =>
      cases d.value with
      | none => simp [tP, tParen, tId, tIdent]
      | some w =>
        simp [Value.toToks_ok]
        cases w.means with
        | none => rfl
        | some v => simp [tP, tAbs, tColons, tColon2, tId, tParen, tIdent]

theorem xmlDirective_ok {d : Directive σ} (hs : d.key.erase.Spanned) :
    (xmlDirectiveTokens d).ok = d.onElement.map fun c => chain [c] := by
  unfold xmlDirectiveTokens Directive.onElement
  by_cases h1 : d.dir.id = ⟨false, c!"class"⟩ ∨ d.dir.id = ⟨false, c!"style"⟩
  · rw [if_pos h1]
    dsimp only
    rw [if_pos h1]
    simp [toLitStr_eq hs, emitIfModifier_ok, optValueToks_ok, tCall_eq,
      tStr, tP, tParen]
    cases d.modifier <;> cases optMeans d.value <;> rfl
  · rw [if_neg h1]
    dsimp only
    rw [if_neg h1]
    by_cases h2 : d.dir.id = ⟨false, c!"prop"⟩
    · rw [if_pos h2, if_pos h2]
      simp [toLitStr_eq hs, emitIfModifier_ok, optValueToks_ok, tCall_eq,
        tStr, tP]
      cases d.modifier <;> cases optMeans d.value <;> rfl
    · rw [if_neg h2, if_neg h2]
      by_cases h3 : d.dir.id = ⟨false, c!"on"⟩
      · rw [if_pos h3, if_pos h3]
        simp [event_ok h3 hs, optValueToks_ok, tCall_eq, tP]
        cases d.event <;> cases optMeans d.value <;> simp
      · rw [if_neg h3, if_neg h3]
        by_cases h4 : d.dir.id = ⟨false, c!"use"⟩
        · rw [if_pos h4, if_pos h4, ← useArgs_ok h4 hs]
          simp [tCall_eq, mkIdent]
          cases (useDirectiveFnValue d).ok <;> rfl
        · rw [if_neg h4, if_neg h4]
          split <;> simp

theorem clone_ok {d : Directive σ} (hs : d.key.erase.Spanned) :
    (componentCloneTokens d).ok = d.cloneStmt := by
  unfold componentCloneTokens Directive.cloneStmt
  simp [toIdentOrEmit_ok hs, emitIfModifier_ok]
  cases d.modifier with
  | some m => cases d.key.asIdent <;> simp <;> rfl
  | none =>
    cases d.value with
    | some v => cases d.key.asIdent <;> simp
    | none => cases d.key.asIdent <;> simp [tId, tP, tParen, tIdent]

theorem anyAttr_ok {d : Directive σ} (hs : d.key.erase.Spanned) :
    (directiveToAnyAttrPath d).ok.join = d.onComponent := by
  unfold directiveToAnyAttrPath Directive.onComponent
  dsimp only
  by_cases h1 : d.dir.id = ⟨false, c!"class"⟩ ∨ d.dir.id = ⟨false, c!"style"⟩
  · rw [if_pos h1, if_pos h1]
    simp [trueValue_ok, toUnspanned_eq]
    cases trueMeans d.value with
    | none => rfl
    | some v => simp [tAbs, tColons, tColon2, tId, tP, tStr, tParen, tIdent]
  rw [if_neg h1, if_neg h1]
  by_cases h2 : d.dir.id = ⟨false, c!"attr"⟩
  · rw [if_pos h2, if_pos h2]
    simp only [toLitStr_eq hs, toUnspanned_eq, Out.monad_bind, Out.bind_ret, Out.tell_nil]
    have hc := AttributeKind.isCustom_iff d.key.text
    have hk := AttributeKind.isClassOrStyle_iff d.key.text
    have hcs : d.key.text = c!"class" ∨ d.key.text = c!"style" →
        ∀ i, d.key.asIdent = some i → i.id.name = d.key.text := by
      cases d.key with
      | str s => intro _ i hi; simp [KebabOrStr.asIdent] at hi
      | kebab k =>
        intro h i hi
        simp only [KebabOrStr.text] at h ⊢
        simp only [KebabOrStr.asIdent] at hi
        rcases h with h | h <;> rw [h] at hi ⊢ <;> cases hi <;> rfl
    by_cases hcls : d.key.text = c!"class" ∨ d.key.text = c!"style"
    · rw [if_pos hcls]
      have := hk.mpr hcls
      have hcs := hcs hcls
      cases hkd : AttributeKind.ofStr d.key.text <;> rw [hkd] at this <;>
        simp [AttributeKind.isClassOrStyle] at this <;>
        simp only [Out.ok_bind, trueValue_ok, toIdentOrEmit_ok hs] <;>
        (cases hi : d.key.asIdent with
        | none => rfl
        | some i =>
          rw [← hcs i hi]
          cases trueMeans d.value with
          | none => rfl
          | some v => simp [tAbs, tColons, tColon2, tId, tParen, plain, tIdent])
    · rw [if_neg hcls]
      have hk := mt hk.mp hcls
      by_cases hcu : '-' ∈ d.key.text ∧ ¬ c!"aria-" <+: d.key.text
      · rw [if_pos hcu]
        have := hc.mpr hcu
        cases hkd : AttributeKind.ofStr d.key.text <;> rw [hkd] at this <;>
          simp [AttributeKind.isCustom] at this <;> simp [trueValue_ok]
        cases trueMeans d.value with
        | none => rfl
        | some v => simp [tAbs, tColons, tColon2, tId, tParen, tStr, tP]
      · rw [if_neg hcu]
        have hc := mt hc.mp hcu
        cases hkd : AttributeKind.ofStr d.key.text <;> rw [hkd] at hc hk <;>
          simp [AttributeKind.isCustom, AttributeKind.isClassOrStyle] at hc hk <;>
          simp [trueValue_ok, toIdentOrEmit_ok hs]
        cases d.key.asIdent <;> cases trueMeans d.value <;>
          simp [tAbs, tColons, tColon2, tId, tParen, tIdent]
  rw [if_neg h2, if_neg h2]
  by_cases h3 : d.dir.id = ⟨false, c!"prop"⟩
  · rw [if_pos h3, if_pos h3]
    simp [trueValue_ok, toIdentOrEmit_ok hs]
    cases d.key.asIdent <;> cases trueMeans d.value <;>
      simp [tAbs, tColons, tColon2, tId, tParen, tIdent]
  rw [if_neg h3, if_neg h3]
  by_cases h4 : d.dir.id = ⟨false, c!"on"⟩
  · rw [if_pos h4, if_pos h4]
    simp [event_ok h4 hs, optValueToks_ok]
    cases d.event <;> cases optMeans d.value <;> simp [tAbs, tColons, tColon2, tId, tParen, tP]
  rw [if_neg h4, if_neg h4]
  by_cases h5 : d.dir.id = ⟨false, c!"use"⟩
  · rw [if_pos h5, if_pos h5, ← useArgs_ok h5 hs]
    simp
    cases (useDirectiveFnValue d).ok <;> simp [tAbs, tColons, tColon2, tId, tParen, tP, tIdent]
  · rw [if_neg h5, if_neg h5]
    rfl

end Mview.Loc
