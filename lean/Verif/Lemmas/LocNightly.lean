import Verif.Lemmas.LocMeaningRoot
import Verif.Spec.LocRecovery
/-
The located expanders yield what `Spec/LocRecovery.lean` says, whatever they report: the pieces
(see `Lemmas/Nightly.lean`).
-/

-- the linter does not see variables used inside `qs!` and `qc!`
set_option linter.unusedVariables false

namespace Mview.Loc

variable {σ : Type}

namespace Out
variable {α β : Type}

/-- the value, if there is one, whatever was reported -/
def got : Out σ α → Option α
  | .ret _ a => some a
  | _ => none

theorem got_eq_some {x : Out σ α} {a : α} : x.got = some a ↔ ∃ ds, x = .ret ds a := by
  cases x <;> simp [got]

@[simp] theorem got_ret (ds : List (LDiag σ)) (a : α) : (ret ds a).got = some a := rfl
@[simp] theorem got_abort (ds : List (LDiag σ)) : (abort ds : Out σ α).got = none := rfl
@[simp] theorem got_panic (p) : (panic p : Out σ α).got = none := rfl
@[simp] theorem got_tell (ds : List (LDiag σ)) (x : Out σ α) : (x.tell ds).got = x.got := by
  cases x <;> rfl
@[simp] theorem got_bind (x : Out σ α) (f : α → Out σ β) :
    (x.bind f).got = x.got.bind fun a => (f a).got := by
  cases x with
  | ret ds a => rw [bind_ret]; simp
  | _ => rfl

end Out

@[simp] theorem emit_got (d : Diag) (sp : σ) : (emit d sp).got = some () := rfl
@[simp] theorem abortWith_got {α : Type} (d : Diag) (sp : σ) :
    (abortWith d sp : Out σ α).got = none := rfl

/-! ### names and values -/

theorem newRaw_got (n : Str) (sp : σ) :
    (newRaw n sp).got = if n ∈ notRaw then none else some ⟨⟨true, n⟩, sp⟩ := by
  unfold newRaw
  split <;> simp

@[simp] theorem emitIfModifier_got (m : Option (SIdent σ)) : (emitIfModifier m).got = some () := by
  cases m <;> rfl

variable [Spans σ]

theorem toSnakeIdent_got {k : KebabIdent σ} (h : 0 < k.spans.length) :
    k.toSnakeIdent.got = rawIdentAt k.repr k.place := by
  simp [KebabIdent.toSnakeIdent, checkSpan_eq h, newRaw_got, rawIdentAt_eq, kebab_place]

theorem Value.toToks_got (v : Value σ) : v.toToks.got = some v.anyway := by
  have h := v.toToks_ok
  unfold Value.anyway
  rw [← h]
  cases v with
  | lit l => rfl
  | block c b => rfl
  | bracket p c b =>
    cases p with
    | none => rfl
    | some p =>
      simp only [Value.toToks]
      split
      · rfl
      · simp [emit]

theorem optValueToks_got (v : Option (Value σ)) : (optValueToks v).got = some (optAnyway v) := by
  cases v with
  | none => rfl
  | some v => exact v.toToks_got

theorem trueValue_got (v : Option (Value σ)) : (valueOrTrue v).toToks.got = some (trueAnyway v) := by
  cases v with
  | none => rfl
  | some v => exact v.toToks_got

theorem toIdentOrEmit_got {k : KebabOrStr σ} (h : k.erase.Spanned) :
    k.toIdentOrEmit.got = k.identAnyway := by
  cases k with
  | kebab k => exact toSnakeIdent_got h
  | str s => simp [KebabOrStr.toIdentOrEmit, KebabOrStr.identAnyway]

/-! ### attributes -/

theorem xmlKv_got {kind : TagKind} (hk : kind ≠ .component) {a : KvAttr σ}
    (hs : 0 < a.key.spans.length) :
    (xmlKvAttributeTokens a kind).got = (a.onElementAnyway kind).map fun c => chain [c] := by
  unfold xmlKvAttributeTokens KvAttr.onElementAnyway
  by_cases href : a.key.repr = c!"ref"
  · simp only [href, if_true, checkSpan_eq hs]
    simp [Value.toToks_got, tCall_eq, mkIdent, kebab_place]
  · have hu := unchecked_iff hk a.key.repr
    by_cases hun : Unchecked kind a.key.repr
    · have h := hu.mpr hun
      simp only [h, if_true, hun, if_neg href]
      simp [Value.toToks_got, tCall_eq, tStr, tP, tAbs, tColons, tColon2, tId, mkIdent, tParen]
    · have h := mt hu.mp hun
      simp only [h, hun, if_neg href]
      simp [Value.toToks_got, tCall_eq, toSnakeIdent_got hs]
      cases rawIdentAt a.key.repr a.key.place <;> rfl

theorem componentKv_got {a : KvAttr σ} (hs : 0 < a.key.spans.length) :
    (componentKvAttributeTokens a).got = a.onComponentAnyway.map fun c => chain [c] := by
  unfold componentKvAttributeTokens KvAttr.onComponentAnyway
  simp [Value.toToks_got, tCall_eq, toSnakeIdent_got hs, KvAttr.span, kebab_place, value_place]
  cases rawIdentAt a.key.repr a.key.place <;> rfl

/-! ### directives -/

theorem event_got {d : Directive σ} (hd : d.dir.id = plain c!"on") (hs : d.key.erase.Spanned) :
    (eventListenerEventPath d).got = d.eventAnyway := by
  unfold eventListenerEventPath Directive.eventAnyway
  simp only [hd, plain, ne_eq, not_true, if_false]
  cases hk : d.key with
  | kebab k =>
    rw [hk] at hs
    simp only [Out.monad_bind, Out.got_bind, toSnakeIdent_got (k := k) hs]
    cases rawIdentAt k.repr k.place with
    | none => rfl
    | some i =>
      cases hm : d.modifier with
      | none => simp [eventMod, tAbs, tColons, tColon2, tId, tIdent]
      | some m =>
        by_cases hmm : m.id = ⟨false, c!"undelegated"⟩
        · simp [hmm, eventMod, tAbs, tColons, tColon2, tId, tParen, tIdent]
        · simp [hmm, eventMod, tAbs, tColons, tColon2, tId, tIdent]
  | str s =>
    simp only [Out.monad_bind, Out.got_bind, emit_got, Option.bind_some, Out.monad_pure,
      Out.got_ret]
    cases hm : d.modifier with
    | none => simp [eventMod, tAbs, tColons, tColon2, tId, tIdent, mkIdent]
    | some m =>
      by_cases hmm : m.id = ⟨false, c!"undelegated"⟩
      · simp [hmm, eventMod, tAbs, tColons, tColon2, tId, tParen, tIdent, mkIdent]
      · simp [hmm, eventMod, tAbs, tColons, tColon2, tId, tIdent, mkIdent]

theorem useArgs_got {d : Directive σ} (hd : d.dir.id = plain c!"use") (hs : d.key.erase.Spanned) :
    ((useDirectiveFnValue d).got.map fun r => [tIdent r.1, tP callSite ','] ++ r.2) = d.useArgsAnyway := by
  unfold useDirectiveFnValue Directive.useArgsAnyway
  simp only [hd, plain, ne_eq, not_true, if_false]
  simp only [Out.monad_bind, Out.got_bind, toIdentOrEmit_got hs, emitIfModifier_got]
  cases d.key.identAnyway with
  | none => rfl
  | some fn =>
    cases d.value with
    | none => simp [tP, tParen, tId, tIdent]
    | some w => simp [Value.toToks_got, tP, tAbs, tColons, tColon2, tId, tParen, tIdent]

theorem xmlDirective_got {d : Directive σ} (hs : d.key.erase.Spanned) :
    (xmlDirectiveTokens d).got = d.onElementAnyway.map chain := by
  unfold xmlDirectiveTokens Directive.onElementAnyway
  by_cases h1 : d.dir.id = ⟨false, c!"class"⟩ ∨ d.dir.id = ⟨false, c!"style"⟩
  · rw [if_pos h1]
    dsimp only
    rw [if_pos h1]
    simp [toLitStr_eq hs, optValueToks_got, tCall_eq, tStr, tP, tParen, tIdent]
  · rw [if_neg h1]
    dsimp only
    rw [if_neg h1]
    by_cases h2 : d.dir.id = ⟨false, c!"prop"⟩
    · rw [if_pos h2, if_pos h2]
      simp [toLitStr_eq hs, optValueToks_got, tCall_eq, tStr, tP, tIdent]
    · rw [if_neg h2, if_neg h2]
      by_cases h3 : d.dir.id = ⟨false, c!"on"⟩
      · rw [if_pos h3, if_pos h3]
        simp [event_got h3 hs, optValueToks_got, tCall_eq, tP, tIdent]
        cases d.eventAnyway <;> simp
      · rw [if_neg h3, if_neg h3]
        by_cases h4 : d.dir.id = ⟨false, c!"use"⟩
        · rw [if_pos h4, if_pos h4, ← useArgs_got h4 hs]
          simp [tCall_eq]
          cases (useDirectiveFnValue d).got <;> rfl
        · rw [if_neg h4, if_neg h4]
          split <;> simp [chain]

theorem clone_got {d : Directive σ} (hs : d.key.erase.Spanned) :
    (componentCloneTokens d).got = d.cloneAnyway := by
  unfold componentCloneTokens Directive.cloneAnyway
  simp [toIdentOrEmit_got hs]
  cases d.key.identAnyway with
  | none => rfl
  | some x => cases d.value <;> simp [tId, tP, tParen, tIdent]

theorem anyAttr_got {d : Directive σ} (hs : d.key.erase.Spanned) :
    ((directiveToAnyAttrPath d).got.map Option.toList) = d.onComponentAnyway := by
  unfold directiveToAnyAttrPath Directive.onComponentAnyway
  dsimp only
  by_cases h1 : d.dir.id = ⟨false, c!"class"⟩ ∨ d.dir.id = ⟨false, c!"style"⟩
  · rw [if_pos h1, if_pos h1]
    simp [trueValue_got, toUnspanned_eq, tAbs, tColons, tColon2, tId, tP, tStr, tParen, tIdent]
  rw [if_neg h1, if_neg h1]
  by_cases h2 : d.dir.id = ⟨false, c!"attr"⟩
  · rw [if_pos h2, if_pos h2]
    simp only [toLitStr_eq hs, toUnspanned_eq, Out.monad_bind, Out.bind_ret, Out.tell_nil]
    have hc := AttributeKind.isCustom_iff d.key.text
    have hk := AttributeKind.isClassOrStyle_iff d.key.text
    by_cases hcls : d.key.text = c!"class" ∨ d.key.text = c!"style"
    · rw [if_pos hcls]
      have := hk.mpr hcls
      cases hkd : AttributeKind.ofStr d.key.text <;> rw [hkd] at this <;>
        simp [AttributeKind.isClassOrStyle] at this <;>
        simp only [Out.got_bind, trueValue_got, toIdentOrEmit_got hs] <;>
        (cases hi : d.key.identAnyway with
        | none => rfl
        | some i => simp [tAbs, tColons, tColon2, tId, tParen, plain, tIdent])
    · rw [if_neg hcls]
      have hk := mt hk.mp hcls
      by_cases hcu : '-' ∈ d.key.text ∧ ¬ c!"aria-" <+: d.key.text
      · rw [if_pos hcu]
        have := hc.mpr hcu
        cases hkd : AttributeKind.ofStr d.key.text <;> rw [hkd] at this <;>
          simp [AttributeKind.isCustom] at this <;> simp [trueValue_got]
        simp [tAbs, tColons, tColon2, tId, tParen, tStr, tP, tIdent]
      · rw [if_neg hcu]
        have hc := mt hc.mp hcu
        cases hkd : AttributeKind.ofStr d.key.text <;> rw [hkd] at hc hk <;>
          simp [AttributeKind.isCustom, AttributeKind.isClassOrStyle] at hc hk <;>
          simp [trueValue_got, toIdentOrEmit_got hs]
        cases d.key.identAnyway <;> simp [tAbs, tColons, tColon2, tId, tParen, tIdent]
  rw [if_neg h2, if_neg h2]
  by_cases h3 : d.dir.id = ⟨false, c!"prop"⟩
  · rw [if_pos h3, if_pos h3]
    simp [trueValue_got, toIdentOrEmit_got hs]
    cases d.key.identAnyway <;> simp [tAbs, tColons, tColon2, tId, tParen, tIdent]
  rw [if_neg h3, if_neg h3]
  by_cases h4 : d.dir.id = ⟨false, c!"on"⟩
  · rw [if_pos h4, if_pos h4]
    simp [event_got h4 hs, optValueToks_got]
    cases d.eventAnyway <;> simp [tAbs, tColons, tColon2, tId, tParen, tP, tIdent]
  rw [if_neg h4, if_neg h4]
  by_cases h5 : d.dir.id = ⟨false, c!"use"⟩
  · rw [if_pos h5, if_pos h5, ← useArgs_got h5 hs]
    simp
    cases (useDirectiveFnValue d).got <;> simp [tAbs, tColons, tColon2, tId, tParen, tP, tIdent]
  · rw [if_neg h5, if_neg h5]
    rfl

/-! ### loops over attributes -/

theorem xmlAttrsLoop_got {kind : TagKind} (hk : kind ≠ .component) (attrs : List (Attr σ))
    (h : ∀ a ∈ attrs, a.erase.Spanned) : ∀ b : XmlBufs σ, (xmlAttrsLoop kind b attrs).got =
      (do
        let as ← (kvs attrs).mapM (KvAttr.onElementAnyway kind)
        let ds ← (directives attrs).mapM Directive.onElementAnyway
        return ⟨b.attrs ++ chain as, b.spreadAttrs ++ chain ((spreads attrs).map spreadCall),
          b.directives ++ chain ds.flatten⟩) := by
  induction attrs with
  | nil => intro b; simp [xmlAttrsLoop, kvs, directives, spreads, chain]
  | cons a attrs ih =>
    intro b
    have ha := h a (by simp)
    have ih := ih fun a h' => h a (by simp [h'])
    cases a with
    | kv a =>
      have h1 : kvs (.kv a :: attrs) = a :: kvs attrs := rfl
      have h2 : directives (.kv a :: attrs) = directives attrs := rfl
      have h3 : spreads (.kv a :: attrs) = spreads attrs := rfl
      simp only [xmlAttrsLoop, Out.monad_bind, Out.got_bind, xmlKv_got hk ha, ih, h1, h2, h3,
        List.mapM_cons]
      cases a.onElementAnyway kind with
      | none => rfl
      | some c =>
        cases (kvs attrs).mapM (KvAttr.onElementAnyway kind) with
        | none => rfl
        | some cs =>
          cases (directives attrs).mapM Directive.onElementAnyway with
          | none => rfl
          | some ds => simp [chain_cons c cs]
    | directive d =>
      have h1 : kvs (.directive d :: attrs) = kvs attrs := rfl
      have h2 : directives (.directive d :: attrs) = d :: directives attrs := rfl
      have h3 : spreads (.directive d :: attrs) = spreads attrs := rfl
      simp only [xmlAttrsLoop, Out.monad_bind, Out.got_bind, xmlDirective_got ha, ih, h1, h2, h3,
        List.mapM_cons]
      cases d.onElementAnyway with
      | none => cases (kvs attrs).mapM (KvAttr.onElementAnyway kind) <;> rfl
      | some c =>
        cases (kvs attrs).mapM (KvAttr.onElementAnyway kind) with
        | none => rfl
        | some cs =>
          cases (directives attrs).mapM Directive.onElementAnyway with
          | none => rfl
          | some ds => simp [chain_append]
    | spread e =>
      have h1 : kvs (.spread e :: attrs) = kvs attrs := rfl
      have h2 : directives (.spread e :: attrs) = directives attrs := rfl
      have h3 : spreads (.spread e :: attrs) = e :: spreads attrs := rfl
      simp only [xmlAttrsLoop, ih, h1, h2, h3, List.map_cons]
      rw [chain_cons (spreadCall e)]
      simp [xmlSpreadTokens, tCall_eq, spreadCall, mkIdent]

theorem componentAttrs_got (attrs : List (Attr σ))
    (h : ∀ a ∈ attrs, a.erase.Spanned) : ∀ b : CompBufs σ, (componentAttrsLoop false b attrs).got =
      (do
        let as ← (kvs attrs).mapM KvAttr.onComponentAnyway
        let es ← (entries attrs).mapM Attr.entryAnyway
        let cl ← (clones attrs).mapM Directive.cloneAnyway
        return ⟨b.attrs ++ chain as, b.directivePaths ++ es.flatten, b.clones ++ cl.flatten⟩) := by
  induction attrs with
  | nil => intro b; simp [componentAttrsLoop, kvs, entries, clones, directives, chain]
  | cons a attrs ih =>
    intro b
    have ha := h a (by simp)
    have ih := ih fun a h' => h a (by simp [h'])
    cases a with
    | kv a =>
      have h1 : kvs (.kv a :: attrs) = a :: kvs attrs := rfl
      have h2 : entries (.kv a :: attrs) = entries attrs := rfl
      have h3 : clones (.kv a :: attrs) = clones attrs := rfl
      simp only [componentAttrsLoop, Out.monad_bind, Out.got_bind, componentKv_got ha, ih, h1, h2, h3,
        List.mapM_cons]
      cases a.onComponentAnyway with
      | none => rfl
      | some c =>
        cases (kvs attrs).mapM KvAttr.onComponentAnyway with
        | none => rfl
        | some cs =>
          cases (entries attrs).mapM Attr.entryAnyway with
          | none => rfl
          | some es =>
            cases (clones attrs).mapM Directive.cloneAnyway with
            | none => rfl
            | some cl => simp [chain_cons c cs]
    | directive d =>
      have h1 : kvs (.directive d :: attrs) = kvs attrs := rfl
      by_cases hd : d.dir.id = ⟨false, c!"clone"⟩
      · have h2 : entries (.directive d :: attrs) = entries attrs := by simp [entries, hd]
        have h3 : clones (.directive d :: attrs) = d :: clones attrs := by
          simp [clones, directives, hd]
        simp only [componentAttrsLoop, if_pos hd, Out.monad_bind, Out.got_bind, clone_got ha, ih, h1,
          h2, h3, List.mapM_cons, emitIfModifier_got]
        cases d.cloneAnyway with
        | none =>
          cases (kvs attrs).mapM KvAttr.onComponentAnyway <;>
            cases (entries attrs).mapM Attr.entryAnyway <;> rfl
        | some c =>
          cases (kvs attrs).mapM KvAttr.onComponentAnyway with
          | none => rfl
          | some cs =>
            cases (entries attrs).mapM Attr.entryAnyway with
            | none => rfl
            | some es =>
              cases (clones attrs).mapM Directive.cloneAnyway with
              | none => rfl
              | some cl => simp
      · have h2 : entries (.directive d :: attrs) = .directive d :: entries attrs := by
          simp [entries, hd]
        have h3 : clones (.directive d :: attrs) = clones attrs := by
          simp [clones, directives, hd]
        simp only [componentAttrsLoop, if_neg hd, Out.monad_bind, Out.got_bind, h1,
          h2, h3, List.mapM_cons, Attr.entryAnyway, ← anyAttr_got ha, Bool.false_eq_true, if_false]
        rcases (directiveToAnyAttrPath d).got with _ | _ | e
        · cases (kvs attrs).mapM KvAttr.onComponentAnyway <;> rfl
        all_goals
          simp only [Option.bind_some, ih, Out.got_bind, emit_got]
          cases (kvs attrs).mapM KvAttr.onComponentAnyway with
          | none => rfl
          | some cs =>
            cases (entries attrs).mapM Attr.entryAnyway with
            | none => rfl
            | some es =>
              cases (clones attrs).mapM Directive.cloneAnyway with
              | none => rfl
              | some cl => simp
    | spread e =>
      have h1 : kvs (.spread e :: attrs) = kvs attrs := rfl
      have h2 : entries (.spread e :: attrs) = .spread e :: entries attrs := rfl
      have h3 : clones (.spread e :: attrs) = clones attrs := rfl
      simp only [componentAttrsLoop, ih, h1, h2, h3, List.mapM_cons, Attr.entryAnyway,
        Bool.false_eq_true, if_false]
      cases (kvs attrs).mapM KvAttr.onComponentAnyway with
      | none => rfl
      | some cs =>
        cases (entries attrs).mapM Attr.entryAnyway with
        | none => rfl
        | some es =>
          cases (clones attrs).mapM Directive.cloneAnyway with
          | none => rfl
          | some cl => simp [componentSpreadTokens]

theorem slotAttrs_got (attrs : List (Attr σ))
    (h : ∀ a ∈ attrs, a.erase.Spanned) : ∀ b : CompBufs σ, (componentAttrsLoop true b attrs).got =
      (do
        let as ← (kvs attrs).mapM KvAttr.onComponentAnyway
        let cl ← (clones attrs).mapM Directive.cloneAnyway
        return ⟨b.attrs ++ chain as, b.directivePaths, b.clones ++ cl.flatten⟩) := by
  induction attrs with
  | nil => intro b; simp [componentAttrsLoop, kvs, clones, directives, chain]
  | cons a attrs ih =>
    intro b
    have ha := h a (by simp)
    have ih := ih fun a h' => h a (by simp [h'])
    cases a with
    | kv a =>
      have h1 : kvs (.kv a :: attrs) = a :: kvs attrs := rfl
      have h3 : clones (.kv a :: attrs) = clones attrs := rfl
      simp only [componentAttrsLoop, Out.monad_bind, Out.got_bind, componentKv_got ha, ih, h1, h3,
        List.mapM_cons]
      cases a.onComponentAnyway with
      | none => rfl
      | some c =>
        cases (kvs attrs).mapM KvAttr.onComponentAnyway with
        | none => rfl
        | some cs =>
          cases (clones attrs).mapM Directive.cloneAnyway with
          | none => rfl
          | some cl => simp [chain_cons c cs]
    | directive d =>
      have h1 : kvs (.directive d :: attrs) = kvs attrs := rfl
      by_cases hd : d.dir.id = ⟨false, c!"clone"⟩
      · have h3 : clones (.directive d :: attrs) = d :: clones attrs := by
          simp [clones, directives, hd]
        simp only [componentAttrsLoop, if_pos hd, Out.monad_bind, Out.got_bind, clone_got ha, ih, h1,
          h3, List.mapM_cons, emitIfModifier_got]
        cases d.cloneAnyway with
        | none => cases (kvs attrs).mapM KvAttr.onComponentAnyway <;> rfl
        | some c =>
          cases (kvs attrs).mapM KvAttr.onComponentAnyway with
          | none => rfl
          | some cs =>
            cases (clones attrs).mapM Directive.cloneAnyway with
            | none => rfl
            | some cl => simp
      · have h3 : clones (.directive d :: attrs) = clones attrs := by
          simp [clones, directives, hd]
        simp [componentAttrsLoop, if_neg hd, h1, h3, ih]
    | spread e =>
      have h1 : kvs (.spread e :: attrs) = kvs attrs := rfl
      have h3 : clones (.spread e :: attrs) = clones attrs := rfl
      simp [componentAttrsLoop, h1, h3, ih]

/-! ### paths and tags -/

theorem turbofish_got (ss : List (PathSeg σ)) : (turbofishSegs ss).got = (turbofishSegs ss).ok := by
  induction ss with
  | nil => rfl
  | cons s ss ih =>
    have : (turbofishSeg s).got = (turbofishSeg s).ok := by
      obtain ⟨i, a, sep⟩ := s
      cases a <;> rfl
    simp only [turbofishSegs, Out.monad_bind, Out.got_bind, Out.ok_bind, this, ih]
    rfl

theorem path_got (p : Path σ) : ((turbofishify p).got.map Path.toToks) = p.means := by
  rw [← path_ok]
  unfold turbofishify
  simp only [Out.monad_bind, Out.got_bind, Out.ok_bind, turbofish_got]
  rfl

theorem turbofishify_ok {p q : Path σ} (h : (turbofishify p).got = some q) :
    (turbofishify p).ok = some q := by
  rw [← h]
  unfold turbofishify
  simp only [Out.monad_bind, Out.got_bind, Out.ok_bind, turbofish_got]
  rfl

/-! ### elements -/

/-- what the children yield, nothing if there is no block -/
def nodesGot (nodes : Option (Out σ (List (Node σ)))) : Option (List (σ × Toks σ)) :=
  match nodes with
  | none => some []
  | some n => n.got.map pairs

/-- what the slots yield, nothing if there is no block -/
def slotsGot (slots : Option (Out σ (Toks σ))) : Option (Toks σ) :=
  match slots with
  | none => some []
  | some n => n.got

theorem xml_got {tag : Tag σ} {attrs : List (Attr σ)} (sels : List (Selector σ))
    (nodes : Option (Out σ (List (Node σ))))
    (hs : ∀ k, tag = .webComponent k → 0 < k.spans.length) (hattrs : ∀ a ∈ attrs, a.erase.Spanned) :
    (xmlToTokens tag sels attrs nodes = none ∧ ∃ p, tag = .component p) ∨
    ∃ o, xmlToTokens tag sels attrs nodes = some o ∧ tag.kind ≠ .component ∧
      o.got = (nodesGot nodes).bind fun ns => xmlAnyway tag sels attrs ns := by
  unfold xmlToTokens
  rcases tagPath_ok hs with ⟨h, hp⟩ | ⟨o, head, h, ho, hh, hk⟩
  · rw [h]; exact Or.inl ⟨rfl, hp⟩
  · rw [h]
    rw [Out.ok_eq_some] at ho
    subst ho
    refine Or.inr ⟨_, rfl, hk, ?_⟩
    simp only [Out.monad_bind, Out.got_bind, Out.got_ret, xmlAttrsLoop_got hk attrs hattrs,
      xmlAnyway, hh]
    cases (kvs attrs).mapM (KvAttr.onElementAnyway tag.kind) with
    | none => cases nodesGot nodes <;> rfl
    | some as =>
      cases (directives attrs).mapM Directive.onElementAnyway with
      | none => cases nodesGot nodes <;> rfl
      | some ds =>
        cases nodes with
        | none => simp [optOut, nodesGot, chain_append, xmlSelectors_eq, chain_nil]
        | some n =>
          cases hn : n.got <;>
            simp [optOut, nodesGot, hn, chain_append, xmlSelectors_eq, childMethods_eq]

theorem children_got (args : Option (Toks σ)) (clones : Toks σ) (nodes : Option (Out σ (List (Node σ)))) :
    ((optOut nodes).got.map fun s => match s with
      | some (c :: cs) => componentChildrenTokens c.sp (c :: cs) args clones
      | _ => []) = (nodesGot nodes).map fun ns => chain (childrenCall args clones ns) := by
  cases nodes with
  | none => rfl
  | some n =>
    cases hn : n.got with
    | none => simp [optOut, nodesGot, hn]
    | some ns =>
      simp [optOut, nodesGot, hn]
      rw [← children_eq]
      cases ns <;> rfl

theorem component_got {path : Path σ} {attrs : List (Attr σ)} (sels : List (Selector σ))
    (args : Option (Toks σ)) (nodes : Option (Out σ (List (Node σ)))) (slots : Option (Out σ (Toks σ)))
    (calls : List (Call σ)) (hattrs : ∀ a ∈ attrs, a.erase.Spanned)
    (hcalls : slotsGot slots = some (chain calls)) :
    ∃ o, componentToTokens false (.component path) sels attrs args nodes slots = some o ∧
      o.got = (nodesGot nodes).bind fun ns => componentAnyway path sels attrs args ns calls := by
  unfold componentToTokens
  refine ⟨_, rfl, ?_⟩
  simp only [Out.monad_bind, Out.got_bind, componentSelectors_eq, componentAttrs_got attrs hattrs,
    componentAnyway, ← path_got, Out.got_ret, Option.bind_some]
  cases hpath : (turbofishify path).got with
  | none => cases nodesGot nodes <;> rfl
  | some p =>
  have hplace := turbofish_span (turbofishify_ok hpath)
  cases (kvs attrs).mapM KvAttr.onComponentAnyway with
  | none => cases nodesGot nodes <;> rfl
  | some as =>
  cases (entries attrs).mapM Attr.entryAnyway with
  | none => cases nodesGot nodes <;> rfl
  | some es =>
  cases (clones attrs).mapM Directive.cloneAnyway with
  | none => cases nodesGot nodes <;> rfl
  | some cl =>
  have hslots : ((optOut slots).got.map fun s => match s with | some t => t | none => []) =
      some (chain calls) := by
    rw [← hcalls]
    cases slots with
    | none => rfl
    | some s => cases hs : s.got <;> simp [optOut, slotsGot, hs]
  cases hso : (optOut slots).got with
  | none => simp [hso] at hslots
  | some so =>
  simp only [hso, Option.map_some, Option.some.injEq] at hslots
  have hnodes := children_got args cl.flatten nodes
  cases hno : (optOut nodes).got with
  | none =>
    cases hn : nodesGot nodes with
    | none => rfl
    | some ns => simp [hno, hn] at hnodes
  | some no =>
    cases hn : nodesGot nodes with
    | none => simp [hno, hn] at hnodes
    | some ns =>
      simp only [hno, hn, Option.map_some, Option.some.injEq] at hnodes
      simp only [Option.bind_some, Option.bind_eq_bind, Option.pure_def, List.nil_append,
        Bool.false_eq_true, if_false, Option.map_some, Out.monad_pure, Out.got_ret,
        Option.some.injEq]
      rcases no with _ | _ | ⟨c, cs⟩ <;> cases so <;> simp only at hnodes hslots ⊢ <;>
      simp [← hnodes, ← hslots, chain_append, tTerminated_eq, tBuild, tCall_eq, chain, tId, tAbs,
        tColons, tColon2, tParen, tP, tBracket, hplace, buildCall, mkIdent]

theorem slotSelectors_got (sels : List (Selector σ)) : (componentSelectors true sels).got = some [] := by
  cases sels <;> simp [componentSelectors]

theorem slot_got {path : Path σ} {attrs : List (Attr σ)} (sels : List (Selector σ))
    (args : Option (Toks σ)) (nodes : Option (Out σ (List (Node σ)))) (slots : Option (Out σ (Toks σ)))
    (hattrs : ∀ a ∈ attrs, a.erase.Spanned) (hslots : ∃ st, slotsGot slots = some st) :
    ∃ o, componentToTokens true (.component path) sels attrs args nodes slots = some o ∧
      o.got = (nodesGot nodes).bind fun ns => slotAnyway path attrs args ns := by
  unfold componentToTokens
  refine ⟨_, rfl, ?_⟩
  simp only [Out.monad_bind, Out.got_bind, slotSelectors_got, slotAttrs_got attrs hattrs,
    slotAnyway, ← path_got]
  cases hpath : (turbofishify path).got with
  | none => cases nodesGot nodes <;> simp
  | some p =>
  have hplace := turbofish_span (turbofishify_ok hpath)
  cases (kvs attrs).mapM KvAttr.onComponentAnyway with
  | none => cases nodesGot nodes <;> rfl
  | some as =>
  cases (clones attrs).mapM Directive.cloneAnyway with
  | none => cases nodesGot nodes <;> rfl
  | some cl =>
  have hslots : ∃ so, (optOut slots).got = some so := by
    obtain ⟨st, h⟩ := hslots
    cases slots with
    | none => exact ⟨_, rfl⟩
    | some s => exact ⟨some st, by simp [slotsGot] at h; simp [optOut, h]⟩
  obtain ⟨so, hso⟩ := hslots
  have hnodes := children_got args cl.flatten nodes
  cases hno : (optOut nodes).got with
  | none =>
    cases hn : nodesGot nodes with
    | none => rfl
    | some ns => simp [hno, hn] at hnodes
  | some no =>
    cases hn : nodesGot nodes with
    | none => simp [hno, hn] at hnodes
    | some ns =>
      simp only [hno, hn, Option.map_some, Option.some.injEq] at hnodes
      simp only [Option.bind_some, Option.bind_eq_bind, Option.pure_def, List.nil_append,
        if_true, Option.map_some, Out.monad_pure, Out.got_ret, hso]
      rcases no with _ | _ | ⟨c, cs⟩ <;> simp only at hnodes ⊢ <;>
      simp [← hnodes, chain_append, tBuild, tCall_eq, chain, tId, tAbs, tColons, tColon2, tParen,
        hplace, buildCall, mkIdent]

theorem slots_of_got {isSlot : Bool} {path : Path σ} {attrs : List (Attr σ)} {sels : List (Selector σ)}
    {args : Option (Toks σ)} {nodes : Option (Out σ (List (Node σ)))} {slots : Option (Out σ (Toks σ))}
    {o : Out σ (Toks σ)} {t : Toks σ}
    (ho : componentToTokens isSlot (.component path) sels attrs args nodes slots = some o)
    (h : o.got = some t) : ∃ st, slotsGot slots = some st := by
  cases slots with
  | none => exact ⟨_, rfl⟩
  | some s =>
    cases hs : s.got with
    | some st => exact ⟨st, hs⟩
    | none =>
      exfalso
      simp only [componentToTokens, Option.some.injEq] at ho
      subst ho
      simp only [Out.monad_bind, Out.got_bind, optOut, hs] at h
      simp at h

theorem slotMethods_got (es : List (SIdent σ × List (Toks σ))) :
    (slotMethods es).got = (slotMethods es).ok := by
  induction es with
  | nil => rfl
  | cons e es ih =>
    have : (slotMethod e).got = (slotMethod e).ok := by
      unfold slotMethod
      simp only [Out.monad_bind, Out.got_bind, Out.ok_bind, newRaw_got, newRaw_ok]
      split
      · rfl
      · simp only [Option.bind_some]
        split <;> rfl
    simp only [slotMethods, Out.monad_bind, Out.got_bind, Out.ok_bind, this, ih]
    rfl

theorem slots_got_sound {order : List Nat} {slots : Out σ (List (SIdent σ × Toks σ))} {st : Toks σ}
    (h : (slotsToTokens order slots).got = some st) :
    ∃ ss calls, slots.got = some ss ∧ SlotCalls ss calls ∧ st = chain calls := by
  simp only [slotsToTokens, Out.monad_bind, Out.got_bind, Option.bind_eq_some_iff,
    slotMethods_got] at h
  obtain ⟨ss, hss, h⟩ := h
  obtain ⟨ss', calls, h1, h2, h3⟩ := slots_sound (order := order) (slots := .ret [] ss) (st := st)
    (by simpa [slotsToTokens] using h)
  cases h1
  exact ⟨ss, calls, hss, h2, h3⟩

theorem slots_got_complete {slots : Out σ (List (SIdent σ × Toks σ))} {ss : List (SIdent σ × Toks σ)}
    {calls : List (Call σ)} (h : slots.got = some ss) (hc : SlotCalls ss calls) :
    ∃ order, (slotsToTokens order slots).got = some (chain calls) := by
  obtain ⟨order, ho⟩ := slots_complete (slots := .ret [] ss) rfl hc
  refine ⟨order, ?_⟩
  simp only [slotsToTokens, Out.monad_bind, Out.got_bind, h, Option.bind_some, slotMethods_got]
  simpa [slotsToTokens] using ho

end Mview.Loc
