import Verif.Lemmas.MeaningTree
import Verif.Spec.Recovery
/-
The expanders yield what `Spec/Recovery.lean` says, whatever they report: the pieces.
-/

namespace Mview
open Lex

namespace Out
variable {α β : Type}

/-- the value, if there is one, whatever was reported -/
def got : Out α → Option α
  | .ret _ a => some a
  | _ => none

theorem got_eq_some {x : Out α} {a : α} : x.got = some a ↔ ∃ ds, x = .ret ds a := by
  cases x <;> simp [got]

@[simp] theorem got_ret (ds : List Diag) (a : α) : (ret ds a).got = some a := rfl
@[simp] theorem got_abort (ds : List Diag) : (abort ds : Out α).got = none := rfl
@[simp] theorem got_panic (p) : (panic p : Out α).got = none := rfl
@[simp] theorem got_tell (ds : List Diag) (x : Out α) : (x.tell ds).got = x.got := by
  cases x <;> rfl
@[simp] theorem got_bind (x : Out α) (f : α → Out β) :
    (x.bind f).got = x.got.bind fun a => (f a).got := by
  cases x with
  | ret ds a => rw [bind_ret]; simp
  | _ => rfl

end Out

@[simp] theorem emit_got (d : Diag) : (emit d).got = some () := rfl
@[simp] theorem abortWith_got {α : Type} (d : Diag) : (abortWith d : Out α).got = none := rfl

/-! ### names and values -/

theorem newRaw_got (n : Str) :
    (newRaw n).got = if n ∈ notRaw then none else some ⟨true, n⟩ := by
  unfold newRaw
  split <;> simp

theorem toSnakeIdent_got {k : KebabIdent} (h : 0 < k.spans) :
    k.toSnakeIdent.got = rawIdentOf k.repr := by
  simp [KebabIdent.toSnakeIdent, checkSpan_eq h, newRaw_got, rawIdentOf_eq]

theorem Value.toToks_got (v : Value) : v.toToks.got = some v.anyway := by
  have h := v.toToks_ok
  unfold Value.anyway
  rw [← h]
  cases v with
  | lit l => rfl
  | block c => rfl
  | bracket p c =>
    cases p with
    | none => rfl
    | some p =>
      simp only [Value.toToks]
      split
      · rfl
      · simp [emit]

theorem optValueToks_got (v : Option Value) : (optValueToks v).got = some (optAnyway v) := by
  cases v with
  | none => rfl
  | some v => exact v.toToks_got

theorem trueValue_got (v : Option Value) : (valueOrTrue v).toToks.got = some (trueAnyway v) := by
  cases v with
  | none => rfl
  | some v => exact v.toToks_got

theorem toIdentOrEmit_got {k : KebabOrStr} (h : k.Spanned) :
    k.toIdentOrEmit.got = k.identAnyway := by
  cases k with
  | kebab k => exact toSnakeIdent_got h
  | str s => simp [KebabOrStr.toIdentOrEmit, KebabOrStr.identAnyway]

@[simp] theorem emitIfModifier_got (m : Option Ident) : (emitIfModifier m).got = some () := by
  cases m <;> rfl

/-! ### attributes -/

theorem xmlKv_got {kind : TagKind} (hk : kind ≠ .component) {a : KvAttr} (hs : 0 < a.key.spans) :
    (xmlKvAttributeTokens a kind).got = (a.onElementAnyway kind).map fun c => chain [c] := by
  unfold xmlKvAttributeTokens KvAttr.onElementAnyway
  by_cases href : a.key.repr = c!"ref"
  · simp only [href, if_true, checkSpan_eq hs]
    simp [Value.toToks_got, tCall_eq, plain]
  · have hu := unchecked_iff hk a.key.repr
    by_cases hun : Unchecked kind a.key.repr
    · have h := hu.mpr hun
      simp only [h, if_true, hun, if_neg href]
      simp [Value.toToks_got, tCall_eq, plain, tStr, tP, tAbs, tColon2, tId, tParen]
    · have h := mt hu.mp hun
      simp only [h, hun, if_neg href]
      simp [Value.toToks_got, tCall_eq, toSnakeIdent_got hs]
      cases rawIdentOf a.key.repr <;> rfl

theorem componentKv_got {a : KvAttr} (hs : 0 < a.key.spans) :
    (componentKvAttributeTokens a).got = a.onComponentAnyway.map fun c => chain [c] := by
  unfold componentKvAttributeTokens KvAttr.onComponentAnyway
  simp [Value.toToks_got, tCall_eq, toSnakeIdent_got hs]
  cases rawIdentOf a.key.repr <;> rfl

/-! ### directives -/

theorem event_got {d : Directive} (hd : d.dir = plain c!"on") (hs : d.key.Spanned) :
    (eventListenerEventPath d).got = d.eventAnyway := by
  unfold eventListenerEventPath Directive.eventAnyway
  simp only [hd, plain, ne_eq, not_true, if_false]
  have hmod : ∀ i : Ident, Out.got (match (generalizing := false) d.modifier with
      | some m =>
        if m = ⟨false, c!"undelegated"⟩ then
          pure (eventMod ++ tColon2 ++ [.ident m, tParen (eventMod ++ tColon2 ++ [.ident i])])
        else do
          emit (.unknownModifier m)
          pure (eventMod ++ tColon2 ++ [.ident i])
      | none => (pure (eventMod ++ tColon2 ++ [.ident i]) : Out Toks)) =
      (if d.modifier = some ⟨false, c!"undelegated"⟩ then
        some q!"::leptos::tachys::html::event::undelegated(::leptos::tachys::html::event::#i)"
      else some q!"::leptos::tachys::html::event::#i") := by
    intro i
    cases hm : d.modifier with
    | none => simp [eventMod, tAbs, tColon2, tId]
    | some m =>
      by_cases hmm : m = ⟨false, c!"undelegated"⟩
      · simp [hmm, eventMod, tAbs, tColon2, tId, tParen]
      · simp [hmm, eventMod, tAbs, tColon2, tId]
  cases hk : d.key with
  | kebab k =>
    rw [hk] at hs
    simp only [Out.monad_bind, Out.got_bind, toSnakeIdent_got hs]
    cases rawIdentOf k.repr with
    | none => rfl
    | some i => exact hmod i
  | str s =>
    simp only [Out.monad_bind, Out.got_bind, emit_got, Option.bind_some, Out.monad_pure,
      Out.got_ret]
    exact hmod ⟨false, c!"invalid_event"⟩

theorem useArgs_got {d : Directive} (hd : d.dir = plain c!"use") (hs : d.key.Spanned) :
    ((useDirectiveFnValue d).got.map fun r => [.ident r.1, tP ','] ++ r.2) = d.useArgsAnyway := by
  unfold useDirectiveFnValue Directive.useArgsAnyway
  simp only [hd, plain, ne_eq, not_true, if_false]
  simp only [Out.monad_bind, Out.got_bind, toIdentOrEmit_got hs, emitIfModifier_got]
  cases d.key.identAnyway with
  | none => rfl
  | some fn =>
    cases d.value with
    | none => simp [tP, tParen, tId]
    | some w => simp [Value.toToks_got, tP, tAbs, tColon2, tId, tParen]

theorem xmlDirective_got {d : Directive} (hs : d.key.Spanned) :
    (xmlDirectiveTokens d).got = d.onElementAnyway.map chain := by
  unfold xmlDirectiveTokens Directive.onElementAnyway
  by_cases h1 : d.dir = ⟨false, c!"class"⟩ ∨ d.dir = ⟨false, c!"style"⟩
  · rw [if_pos h1]
    dsimp only
    rw [if_pos h1]
    simp [toLitStr_eq hs, optValueToks_got, tCall_eq, tStr, tP, tParen]
  · rw [if_neg h1]
    dsimp only
    rw [if_neg h1]
    by_cases h2 : d.dir = ⟨false, c!"prop"⟩
    · rw [if_pos h2, if_pos h2]
      simp [toLitStr_eq hs, optValueToks_got, tCall_eq, tStr, tP]
    · rw [if_neg h2, if_neg h2]
      by_cases h3 : d.dir = ⟨false, c!"on"⟩
      · rw [if_pos h3, if_pos h3]
        simp [event_got h3 hs, optValueToks_got, tCall_eq, tP]
        cases d.eventAnyway <;> simp
      · rw [if_neg h3, if_neg h3]
        by_cases h4 : d.dir = ⟨false, c!"use"⟩
        · rw [if_pos h4, if_pos h4, ← useArgs_got h4 hs]
          simp [tCall_eq]
          cases (useDirectiveFnValue d).got <;> rfl
        · rw [if_neg h4, if_neg h4]
          split <;> simp [chain]

theorem clone_got {d : Directive} (hs : d.key.Spanned) :
    (componentCloneTokens d).got = d.cloneAnyway := by
  unfold componentCloneTokens Directive.cloneAnyway
  simp [toIdentOrEmit_got hs]
  cases d.key.identAnyway with
  | none => rfl
  | some x => cases d.value <;> simp [tId, tP, tParen]

theorem anyAttr_got {d : Directive} (hs : d.key.Spanned) :
    ((directiveToAnyAttrPath d).got.map Option.toList) = d.onComponentAnyway := by
  unfold directiveToAnyAttrPath Directive.onComponentAnyway
  dsimp only
  by_cases h1 : d.dir = ⟨false, c!"class"⟩ ∨ d.dir = ⟨false, c!"style"⟩
  · rw [if_pos h1, if_pos h1]
    simp [trueValue_got, toUnspanned_eq, tAbs, tColon2, tId, tP, tStr, tParen]
  rw [if_neg h1, if_neg h1]
  by_cases h2 : d.dir = ⟨false, c!"attr"⟩
  · rw [if_pos h2, if_pos h2]
    simp only [toLitStr_eq hs, toUnspanned_eq, Out.monad_bind, Out.bind_ret, Out.tell_nil]
    have hc := AttributeKind.isCustom_iff d.key.text
    have hk := AttributeKind.isClassOrStyle_iff d.key.text
    by_cases hcls : d.key.text = c!"class" ∨ d.key.text = c!"style"
    · rw [if_pos hcls]
      have := hk.mpr hcls
      cases hkd : AttributeKind.ofStr d.key.text <;> rw [hkd] at this <;>
        simp [AttributeKind.isClassOrStyle] at this <;>
        simp only [Out.got_bind, trueValue_got, toIdentOrEmit_got hs] <;>
        (cases hi : d.key.identAnyway with
        | none => rfl
        | some i => simp [tAbs, tColon2, tId, tParen, plain])
    · rw [if_neg hcls]
      have hk := mt hk.mp hcls
      by_cases hcu : '-' ∈ d.key.text ∧ ¬ c!"aria-" <+: d.key.text
      · rw [if_pos hcu]
        have := hc.mpr hcu
        cases hkd : AttributeKind.ofStr d.key.text <;> rw [hkd] at this <;>
          simp [AttributeKind.isCustom] at this <;> simp [trueValue_got]
        simp [tAbs, tColon2, tId, tParen, tStr, tP]
      · rw [if_neg hcu]
        have hc := mt hc.mp hcu
        cases hkd : AttributeKind.ofStr d.key.text <;> rw [hkd] at hc hk <;>
          simp [AttributeKind.isCustom, AttributeKind.isClassOrStyle] at hc hk <;>
          simp [trueValue_got, toIdentOrEmit_got hs]
        cases d.key.identAnyway <;> simp [tAbs, tColon2, tId, tParen]
  rw [if_neg h2, if_neg h2]
  by_cases h3 : d.dir = ⟨false, c!"prop"⟩
  · rw [if_pos h3, if_pos h3]
    simp [trueValue_got, toIdentOrEmit_got hs]
    cases d.key.identAnyway <;> simp [tAbs, tColon2, tId, tParen]
  rw [if_neg h3, if_neg h3]
  by_cases h4 : d.dir = ⟨false, c!"on"⟩
  · rw [if_pos h4, if_pos h4]
    simp [event_got h4 hs, optValueToks_got]
    cases d.eventAnyway <;> simp [tAbs, tColon2, tId, tParen, tP]
  rw [if_neg h4, if_neg h4]
  by_cases h5 : d.dir = ⟨false, c!"use"⟩
  · rw [if_pos h5, if_pos h5, ← useArgs_got h5 hs]
    simp
    cases (useDirectiveFnValue d).got <;> simp [tAbs, tColon2, tId, tParen, tP]
  · rw [if_neg h5, if_neg h5]
    rfl

/-! ### loops over attributes -/

theorem xmlAttrsLoop_got {kind : TagKind} (hk : kind ≠ .component) (attrs : List Attr)
    (h : ∀ a ∈ attrs, a.Spanned) : ∀ b : XmlBufs, (xmlAttrsLoop kind b attrs).got =
      (do
        let as ← (kvs attrs).mapM (KvAttr.onElementAnyway kind)
        let ds ← (directives attrs).mapM Directive.onElementAnyway
        return ⟨b.attrs ++ chain as, b.spreadAttrs ++ chain ((spreads attrs).map spreadCall),
          b.directives ++ chain ds.flatten⟩) := by
  induction attrs with
  | nil => intro b; simp [xmlAttrsLoop, kvs, directives, spreads, chain]
  | cons a attrs ih =>
    intro b
    have ha := h a (by simp)
    have ih := ih fun a h' => h a (by simp [h'])
    cases a with
    | kv a =>
      have h1 : kvs (.kv a :: attrs) = a :: kvs attrs := rfl
      have h2 : directives (.kv a :: attrs) = directives attrs := rfl
      have h3 : spreads (.kv a :: attrs) = spreads attrs := rfl
      simp only [xmlAttrsLoop, Out.monad_bind, Out.got_bind, xmlKv_got hk ha, ih, h1, h2, h3,
        List.mapM_cons]
      cases a.onElementAnyway kind with
      | none => rfl
      | some c =>
        cases (kvs attrs).mapM (KvAttr.onElementAnyway kind) with
        | none => rfl
        | some cs =>
          cases (directives attrs).mapM Directive.onElementAnyway with
          | none => rfl
          | some ds => simp [chain_cons c cs]
    | directive d =>
      have h1 : kvs (.directive d :: attrs) = kvs attrs := rfl
      have h2 : directives (.directive d :: attrs) = d :: directives attrs := rfl
      have h3 : spreads (.directive d :: attrs) = spreads attrs := rfl
      simp only [xmlAttrsLoop, Out.monad_bind, Out.got_bind, xmlDirective_got ha, ih, h1, h2, h3,
        List.mapM_cons]
      cases d.onElementAnyway with
      | none => cases (kvs attrs).mapM (KvAttr.onElementAnyway kind) <;> rfl
      | some c =>
        cases (kvs attrs).mapM (KvAttr.onElementAnyway kind) with
        | none => rfl
        | some cs =>
          cases (directives attrs).mapM Directive.onElementAnyway with
          | none => rfl
          | some ds => simp [chain_append]
    | spread e =>
      have h1 : kvs (.spread e :: attrs) = kvs attrs := rfl
      have h2 : directives (.spread e :: attrs) = directives attrs := rfl
      have h3 : spreads (.spread e :: attrs) = e :: spreads attrs := rfl
      simp only [xmlAttrsLoop, ih, h1, h2, h3, List.map_cons]
      rw [chain_cons (spreadCall e)]
      simp [xmlSpreadTokens, tCall_eq, spreadCall]

theorem componentAttrs_got (attrs : List Attr)
    (h : ∀ a ∈ attrs, a.Spanned) : ∀ b : CompBufs, (componentAttrsLoop false b attrs).got =
      (do
        let as ← (kvs attrs).mapM KvAttr.onComponentAnyway
        let es ← (entries attrs).mapM Attr.entryAnyway
        let cl ← (clones attrs).mapM Directive.cloneAnyway
        return ⟨b.attrs ++ chain as, b.directivePaths ++ es.flatten, b.clones ++ cl.flatten⟩) := by
  induction attrs with
  | nil => intro b; simp [componentAttrsLoop, kvs, entries, clones, directives, chain]
  | cons a attrs ih =>
    intro b
    have ha := h a (by simp)
    have ih := ih fun a h' => h a (by simp [h'])
    cases a with
    | kv a =>
      have h1 : kvs (.kv a :: attrs) = a :: kvs attrs := rfl
      have h2 : entries (.kv a :: attrs) = entries attrs := rfl
      have h3 : clones (.kv a :: attrs) = clones attrs := rfl
      simp only [componentAttrsLoop, Out.monad_bind, Out.got_bind, componentKv_got ha, ih, h1, h2, h3,
        List.mapM_cons]
      cases a.onComponentAnyway with
      | none => rfl
      | some c =>
        cases (kvs attrs).mapM KvAttr.onComponentAnyway with
        | none => rfl
        | some cs =>
          cases (entries attrs).mapM Attr.entryAnyway with
          | none => rfl
          | some es =>
            cases (clones attrs).mapM Directive.cloneAnyway with
            | none => rfl
            | some cl => simp [chain_cons c cs]
    | directive d =>
      have h1 : kvs (.directive d :: attrs) = kvs attrs := rfl
      by_cases hd : d.dir = ⟨false, c!"clone"⟩
      · have h2 : entries (.directive d :: attrs) = entries attrs := by simp [entries, hd]
        have h3 : clones (.directive d :: attrs) = d :: clones attrs := by
          simp [clones, directives, hd]
        simp only [componentAttrsLoop, if_pos hd, Out.monad_bind, Out.got_bind, clone_got ha, ih, h1,
          h2, h3, List.mapM_cons, emitIfModifier_got]
        cases d.cloneAnyway with
        | none =>
          cases (kvs attrs).mapM KvAttr.onComponentAnyway <;>
            cases (entries attrs).mapM Attr.entryAnyway <;> rfl
        | some c =>
          cases (kvs attrs).mapM KvAttr.onComponentAnyway with
          | none => rfl
          | some cs =>
            cases (entries attrs).mapM Attr.entryAnyway with
            | none => rfl
            | some es =>
              cases (clones attrs).mapM Directive.cloneAnyway with
              | none => rfl
              | some cl => simp
      · have h2 : entries (.directive d :: attrs) = .directive d :: entries attrs := by
          simp [entries, hd]
        have h3 : clones (.directive d :: attrs) = clones attrs := by
          simp [clones, directives, hd]
        simp only [componentAttrsLoop, if_neg hd, Out.monad_bind, Out.got_bind, h1,
          h2, h3, List.mapM_cons, Attr.entryAnyway, ← anyAttr_got ha, Bool.false_eq_true, if_false]
        rcases (directiveToAnyAttrPath d).got with _ | _ | e
        · cases (kvs attrs).mapM KvAttr.onComponentAnyway <;> rfl
        all_goals
          simp only [Option.bind_some, ih, Out.got_bind, emit_got]
          cases (kvs attrs).mapM KvAttr.onComponentAnyway with
          | none => rfl
          | some cs =>
            cases (entries attrs).mapM Attr.entryAnyway with
            | none => rfl
            | some es =>
              cases (clones attrs).mapM Directive.cloneAnyway with
              | none => rfl
              | some cl => simp
    | spread e =>
      have h1 : kvs (.spread e :: attrs) = kvs attrs := rfl
      have h2 : entries (.spread e :: attrs) = .spread e :: entries attrs := rfl
      have h3 : clones (.spread e :: attrs) = clones attrs := rfl
      simp only [componentAttrsLoop, ih, h1, h2, h3, List.mapM_cons, Attr.entryAnyway,
        Bool.false_eq_true, if_false]
      cases (kvs attrs).mapM KvAttr.onComponentAnyway with
      | none => rfl
      | some cs =>
        cases (entries attrs).mapM Attr.entryAnyway with
        | none => rfl
        | some es =>
          cases (clones attrs).mapM Directive.cloneAnyway with
          | none => rfl
          | some cl => simp [componentSpreadTokens]

theorem slotAttrs_got (attrs : List Attr)
    (h : ∀ a ∈ attrs, a.Spanned) : ∀ b : CompBufs, (componentAttrsLoop true b attrs).got =
      (do
        let as ← (kvs attrs).mapM KvAttr.onComponentAnyway
        let cl ← (clones attrs).mapM Directive.cloneAnyway
        return ⟨b.attrs ++ chain as, b.directivePaths, b.clones ++ cl.flatten⟩) := by
  induction attrs with
  | nil => intro b; simp [componentAttrsLoop, kvs, clones, directives, chain]
  | cons a attrs ih =>
    intro b
    have ha := h a (by simp)
    have ih := ih fun a h' => h a (by simp [h'])
    cases a with
    | kv a =>
      have h1 : kvs (.kv a :: attrs) = a :: kvs attrs := rfl
      have h3 : clones (.kv a :: attrs) = clones attrs := rfl
      simp only [componentAttrsLoop, Out.monad_bind, Out.got_bind, componentKv_got ha, ih, h1, h3,
        List.mapM_cons]
      cases a.onComponentAnyway with
      | none => rfl
      | some c =>
        cases (kvs attrs).mapM KvAttr.onComponentAnyway with
        | none => rfl
        | some cs =>
          cases (clones attrs).mapM Directive.cloneAnyway with
          | none => rfl
          | some cl => simp [chain_cons c cs]
    | directive d =>
      have h1 : kvs (.directive d :: attrs) = kvs attrs := rfl
      by_cases hd : d.dir = ⟨false, c!"clone"⟩
      · have h3 : clones (.directive d :: attrs) = d :: clones attrs := by
          simp [clones, directives, hd]
        simp only [componentAttrsLoop, if_pos hd, Out.monad_bind, Out.got_bind, clone_got ha, ih, h1,
          h3, List.mapM_cons, emitIfModifier_got]
        cases d.cloneAnyway with
        | none => cases (kvs attrs).mapM KvAttr.onComponentAnyway <;> rfl
        | some c =>
          cases (kvs attrs).mapM KvAttr.onComponentAnyway with
          | none => rfl
          | some cs =>
            cases (clones attrs).mapM Directive.cloneAnyway with
            | none => rfl
            | some cl => simp
      · have h3 : clones (.directive d :: attrs) = clones attrs := by
          simp [clones, directives, hd]
        simp [componentAttrsLoop, if_neg hd, h1, h3, ih]
    | spread e =>
      have h1 : kvs (.spread e :: attrs) = kvs attrs := rfl
      have h3 : clones (.spread e :: attrs) = clones attrs := rfl
      simp [componentAttrsLoop, h1, h3, ih]

/-! ### paths and tags -/

theorem turbofish_got (ss : List PathSeg) : (turbofishSegs ss).got = (turbofishSegs ss).ok := by
  induction ss with
  | nil => rfl
  | cons s ss ih =>
    have : (turbofishSeg s).got = (turbofishSeg s).ok := by
      obtain ⟨i, a⟩ := s
      cases a <;> rfl
    simp only [turbofishSegs, Out.monad_bind, Out.got_bind, Out.ok_bind, this, ih]
    rfl

theorem path_got (p : Path) : ((turbofishify p).got.map Path.toToks) = p.means := by
  rw [← path_ok]
  unfold turbofishify
  simp only [Out.monad_bind, Out.got_bind, Out.ok_bind, turbofish_got]
  rfl

/-! ### elements -/

/-- what the children yield, nothing if there is no block -/
def nodesGot (nodes : Option (Out (List Toks))) : Option (List Toks) :=
  match nodes with
  | none => some []
  | some n => n.got

/-- what the slots yield, nothing if there is no block -/
def slotsGot (slots : Option (Out Toks)) : Option Toks :=
  match slots with
  | none => some []
  | some n => n.got

theorem xml_got {tag : Tag} {attrs : List Attr} (sels : List Selector)
    (nodes : Option (Out (List Toks)))
    (hs : ∀ k, tag = .webComponent k → 0 < k.spans) (hattrs : ∀ a ∈ attrs, a.Spanned) :
    (xmlToTokens tag sels attrs nodes = none ∧ ∃ p, tag = .component p) ∨
    ∃ o, xmlToTokens tag sels attrs nodes = some o ∧ tag.kind ≠ .component ∧
      o.got = (nodesGot nodes).bind fun ns => xmlAnyway tag sels attrs ns := by
  unfold xmlToTokens
  rcases tagPath_ok hs with ⟨h, hp⟩ | ⟨o, head, h, ho, hh, hk⟩
  · rw [h]; exact Or.inl ⟨rfl, hp⟩
  · rw [h]
    rw [Out.ok_eq_some] at ho
    subst ho
    refine Or.inr ⟨_, rfl, hk, ?_⟩
    simp only [Out.monad_bind, Out.got_bind, Out.got_ret, xmlAttrsLoop_got hk attrs hattrs,
      xmlAnyway, hh]
    cases (kvs attrs).mapM (KvAttr.onElementAnyway tag.kind) with
    | none => cases nodesGot nodes <;> rfl
    | some as =>
      cases (directives attrs).mapM Directive.onElementAnyway with
      | none => cases nodesGot nodes <;> rfl
      | some ds =>
        cases nodes with
        | none => simp [optOut, nodesGot, chain_append, xmlSelectors_eq, chain_nil]
        | some n =>
          cases hn : n.got <;>
            simp [optOut, nodesGot, hn, chain_append, xmlSelectors_eq, childMethods_eq]

theorem children_got (args : Option Toks) (clones : Toks) (nodes : Option (Out (List Toks))) :
    ((optOut nodes).got.map fun s => match s with
      | some (c :: cs) => componentChildrenTokens (c :: cs) args clones
      | _ => []) = (nodesGot nodes).map fun ns => chain (childrenCall args clones ns) := by
  cases nodes with
  | none => rfl
  | some n =>
    cases hn : n.got with
    | none => simp [optOut, nodesGot, hn]
    | some ns =>
      simp [optOut, nodesGot, hn]
      rw [← children_eq]
      cases ns <;> rfl

theorem component_got {path : Path} {attrs : List Attr} (sels : List Selector)
    (args : Option Toks) (nodes : Option (Out (List Toks))) (slots : Option (Out Toks))
    (calls : List Call) (hattrs : ∀ a ∈ attrs, a.Spanned)
    (hcalls : slotsGot slots = some (chain calls)) :
    ∃ o, componentToTokens false (.component path) sels attrs args nodes slots = some o ∧
      o.got = (nodesGot nodes).bind fun ns => componentAnyway path sels attrs args ns calls := by
  unfold componentToTokens
  refine ⟨_, rfl, ?_⟩
  simp only [Out.monad_bind, Out.got_bind, componentSelectors_eq, componentAttrs_got attrs hattrs,
    componentAnyway, ← path_got, Out.got_ret, Option.bind_some]
  cases (turbofishify path).got with
  | none => cases nodesGot nodes <;> rfl
  | some path =>
  cases (kvs attrs).mapM KvAttr.onComponentAnyway with
  | none => cases nodesGot nodes <;> rfl
  | some as =>
  cases (entries attrs).mapM Attr.entryAnyway with
  | none => cases nodesGot nodes <;> rfl
  | some es =>
  cases (clones attrs).mapM Directive.cloneAnyway with
  | none => cases nodesGot nodes <;> rfl
  | some cl =>
  have hslots : ((optOut slots).got.map fun s => match s with | some t => t | none => []) =
      some (chain calls) := by
    rw [← hcalls]
    cases slots with
    | none => rfl
    | some s => cases hs : s.got <;> simp [optOut, slotsGot, hs]
  cases hso : (optOut slots).got with
  | none => simp [hso] at hslots
  | some so =>
  simp only [hso, Option.map_some, Option.some.injEq] at hslots
  have hnodes := children_got args cl.flatten nodes
  cases hno : (optOut nodes).got with
  | none =>
    cases hn : nodesGot nodes with
    | none => rfl
    | some ns => simp [hno, hn] at hnodes
  | some no =>
    cases hn : nodesGot nodes with
    | none => simp [hno, hn] at hnodes
    | some ns =>
      simp only [hno, hn, Option.map_some, Option.some.injEq] at hnodes
      simp only [Option.bind_some, Option.bind_eq_bind, Option.pure_def, List.nil_append,
        Bool.false_eq_true, if_false, Option.map_some, Out.monad_pure, Out.got_ret,
        Option.some.injEq]
      rcases no with _ | _ | ⟨c, cs⟩ <;> cases so <;> simp only at hnodes hslots ⊢ <;>
      simp [← hnodes, ← hslots, chain_append, tTerminated_eq, tBuild, tCall_eq, chain, tId, tAbs,
        tColon2, tParen, tP, tBracket]

theorem slotSelectors_got (sels : List Selector) : (componentSelectors true sels).got = some [] := by
  cases sels <;> simp [componentSelectors]

theorem slot_got {path : Path} {attrs : List Attr} (sels : List Selector)
    (args : Option Toks) (nodes : Option (Out (List Toks))) (slots : Option (Out Toks))
    (hattrs : ∀ a ∈ attrs, a.Spanned) (hslots : ∃ st, slotsGot slots = some st) :
    ∃ o, componentToTokens true (.component path) sels attrs args nodes slots = some o ∧
      o.got = (nodesGot nodes).bind fun ns => slotAnyway path attrs args ns := by
  unfold componentToTokens
  refine ⟨_, rfl, ?_⟩
  simp only [Out.monad_bind, Out.got_bind, slotSelectors_got, slotAttrs_got attrs hattrs,
    slotAnyway, ← path_got]
  cases (turbofishify path).got with
  | none => cases nodesGot nodes <;> simp
  | some path =>
  cases (kvs attrs).mapM KvAttr.onComponentAnyway with
  | none => cases nodesGot nodes <;> rfl
  | some as =>
  cases (clones attrs).mapM Directive.cloneAnyway with
  | none => cases nodesGot nodes <;> rfl
  | some cl =>
  have hslots : ∃ so, (optOut slots).got = some so := by
    obtain ⟨st, h⟩ := hslots
    cases slots with
    | none => exact ⟨_, rfl⟩
    | some s => exact ⟨some st, by simp [slotsGot] at h; simp [optOut, h]⟩
  obtain ⟨so, hso⟩ := hslots
  have hnodes := children_got args cl.flatten nodes
  cases hno : (optOut nodes).got with
  | none =>
    cases hn : nodesGot nodes with
    | none => rfl
    | some ns => simp [hno, hn] at hnodes
  | some no =>
    cases hn : nodesGot nodes with
    | none => simp [hno, hn] at hnodes
    | some ns =>
      simp only [hno, hn, Option.map_some, Option.some.injEq] at hnodes
      simp only [Option.bind_some, Option.bind_eq_bind, Option.pure_def, List.nil_append,
        if_true, Option.map_some, Out.monad_pure, Out.got_ret, hso]
      rcases no with _ | _ | ⟨c, cs⟩ <;> simp only at hnodes ⊢ <;>
      simp [← hnodes, chain_append, tBuild, tCall_eq, chain, tId, tAbs, tColon2, tParen]

theorem slots_of_got {isSlot : Bool} {path : Path} {attrs : List Attr} {sels : List Selector}
    {args : Option Toks} {nodes : Option (Out (List Toks))} {slots : Option (Out Toks)}
    {o : Out Toks} {t : Toks}
    (ho : componentToTokens isSlot (.component path) sels attrs args nodes slots = some o)
    (h : o.got = some t) : ∃ st, slotsGot slots = some st := by
  cases slots with
  | none => exact ⟨_, rfl⟩
  | some s =>
    cases hs : s.got with
    | some st => exact ⟨st, hs⟩
    | none =>
      exfalso
      simp only [componentToTokens, Option.some.injEq] at ho
      subst ho
      simp only [Out.monad_bind, Out.got_bind, optOut, hs] at h
      simp at h

theorem slotMethods_got (es : List (Ident × List Toks)) :
    (slotMethods es).got = (slotMethods es).ok := by
  induction es with
  | nil => rfl
  | cons e es ih =>
    have : (slotMethod e).got = (slotMethod e).ok := by
      unfold slotMethod
      simp only [Out.monad_bind, Out.got_bind, Out.ok_bind, newRaw_got, newRaw_ok]
      split
      · rfl
      · simp only [Option.bind_some]
        split <;> rfl
    simp only [slotMethods, Out.monad_bind, Out.got_bind, Out.ok_bind, this, ih]
    rfl

theorem slots_got_sound {order : List Nat} {slots : Out (List (Ident × Toks))} {st : Toks}
    (h : (slotsToTokens order slots).got = some st) :
    ∃ ss calls, slots.got = some ss ∧ SlotCalls ss calls ∧ st = chain calls := by
  simp only [slotsToTokens, Out.monad_bind, Out.got_bind, Option.bind_eq_some_iff,
    slotMethods_got] at h
  obtain ⟨ss, hss, h⟩ := h
  obtain ⟨ss', calls, h1, h2, h3⟩ := slots_sound (order := order) (slots := .ret [] ss) (st := st)
    (by simpa [slotsToTokens] using h)
  cases h1
  exact ⟨ss, calls, hss, h2, h3⟩

theorem slots_got_complete {slots : Out (List (Ident × Toks))} {ss : List (Ident × Toks)}
    {calls : List Call} (h : slots.got = some ss) (hc : SlotCalls ss calls) :
    ∃ order, (slotsToTokens order slots).got = some (chain calls) := by
  obtain ⟨order, ho⟩ := slots_complete (slots := .ret [] ss) rfl hc
  refine ⟨order, ?_⟩
  simp only [slotsToTokens, Out.monad_bind, Out.got_bind, h, Option.bind_some, slotMethods_got]
  simpa [slotsToTokens] using ho

end Mview
