import Verif.Lemmas.Sched
import Verif.Lemmas.Fuel
import Verif.Spec.Issues
/-
Proofs for C38.
-/

namespace Mview
open Lex

section
variable {α β : Type}

/-- the verdict is the outcome -/
def Out.Is : Out α → Verdict → Prop
  | .ret ds _, .errors es => ds = es
  | .abort ds, .stopped es => ds = es
  | .panic _, .crashed => True
  | _, _ => False

/-- the computation goes through these issues -/
def Shows (x : Out α) (is : List Issue) : Prop := x.Is (verdict is)

/-- several errors in front -/
def Verdict.after (ds : List Diag) : Verdict → Verdict
  | .errors es => .errors (ds ++ es)
  | .stopped es => .stopped (ds ++ es)
  | .crashed => .crashed

/-- one after the other -/
def Verdict.seq : Verdict → Verdict → Verdict
  | .errors ds, v => v.after ds
  | .stopped ds, _ => .stopped ds
  | .crashed, _ => .crashed

theorem verdict_append (is js : List Issue) : verdict (is ++ js) = (verdict is).seq (verdict js) := by
  induction is with
  | nil => simp only [List.nil_append, verdict, Verdict.seq]; cases verdict js <;> rfl
  | cons i is ih =>
    cases i with
    | report d =>
      simp only [List.cons_append, verdict, ih]
      cases verdict is <;> cases verdict js <;> rfl
    | stop d => rfl
    | crash => rfl

theorem Shows.ret (a : α) : Shows (.ret [] a) [] := rfl

theorem Shows.panic (p : PanicSite) (is : List Issue) : Shows (.panic p : Out α) (.crash :: is) := trivial

theorem Shows.bind' {x : Out α} {f : α → Out β} {is js : List Issue} (h : Shows x is)
    (hf : ∀ ds a, x = .ret ds a → Shows (f a) js) : Shows (x.bind f) (is ++ js) := by
  unfold Shows at *
  rw [verdict_append]
  generalize verdict is = v at *
  cases x with
  | ret ds a =>
    have hf := hf ds a rfl
    generalize verdict js = w at *
    cases v <;> simp only [Out.Is] at h
    subst h
    simp only [Out.bind, Verdict.seq]
    cases hx : f a <;> rw [hx] at hf <;> cases w <;> simp only [Out.Is] at hf <;>
      simp [Out.tell, Verdict.after, Out.Is, hf]
  | abort ds => cases v <;> simp only [Out.Is] at h; simpa [Out.bind, Verdict.seq, Out.Is] using h
  | panic p => cases v <;> simp only [Out.Is] at h; trivial
  | diverge => cases v <;> simp only [Out.Is] at h

theorem Shows.bind {x : Out α} {f : α → Out β} {is js : List Issue} (h : Shows x is)
    (hf : ∀ a, Shows (f a) js) : Shows (x.bind f) (is ++ js) := h.bind' fun _ a _ => hf a

/-- nothing more happens afterwards -/
theorem Shows.map {x : Out α} {f : α → Out β} {is : List Issue} (h : Shows x is)
    (hf : ∀ a, Shows (f a) []) : Shows (x.bind f) is := by
  have := h.bind hf
  rwa [List.append_nil] at this

/-- nothing happened before -/
theorem Shows.then {x : Out α} {f : α → Out β} {is : List Issue} (h : Shows x [])
    (hf : ∀ a, Shows (f a) is) : Shows (x.bind f) is := h.bind hf

theorem Shows.emit (d : Diag) : Shows (emit d) [.report d] := rfl

theorem Shows.report {d : Diag} {f : Unit → Out β} {is : List Issue} (h : ∀ u, Shows (f u) is) :
    Shows ((Mview.emit d).bind f) (.report d :: is) := (Shows.emit d).bind h

end

/-! ### names and values -/

theorem checkSpan_shows {k : KebabIdent} (h : 0 < k.spans) : Shows k.checkSpan [] := by
  unfold KebabIdent.checkSpan
  rw [if_neg (Nat.pos_iff_ne_zero.mp h)]
  exact .ret _

theorem newRaw_shows (n : Str) :
    Shows (newRaw n) (if n ∉ notRaw then [] else [.crash]) := by
  unfold newRaw
  by_cases h : n ∈ notRaw
  · simp only [h, not_true_eq_false, if_true, if_false]; exact .panic _ _
  · simp only [h, not_false_eq_true, if_true, if_false]; exact .ret _

theorem toSnakeIdent_shows {k : KebabIdent} (h : 0 < k.spans) :
    Shows k.toSnakeIdent (nameIssues k.repr) := by
  refine (checkSpan_shows h).then fun _ => ?_
  have := newRaw_shows (dashToUnderscore k.repr)
  unfold nameIssues Str.Identlike
  exact this

theorem toLitStr_shows {k : KebabOrStr} (h : k.Spanned) : Shows k.toLitStr [] := by
  cases k with
  | kebab k => exact (checkSpan_shows h).then fun _ => .ret _
  | str s => exact .ret _

theorem toIdentOrEmit_shows {k : KebabOrStr} (h : k.Spanned) : Shows k.toIdentOrEmit k.issues := by
  cases k with
  | kebab k => exact toSnakeIdent_shows h
  | str s => exact .report fun _ => .ret _

theorem value_shows (v : Value) : Shows v.toToks v.issues := by
  cases v with
  | lit l => exact .ret _
  | block c => exact .ret _
  | bracket p c =>
    cases p with
    | none => exact .ret _
    | some p =>
      simp only [Value.toToks, Value.issues, plain]
      split
      · exact .ret _
      · exact .report fun _ => .ret _

theorem optValue_shows (v : Option Value) : Shows (optValueToks v) (optIssues v) := by
  cases v with
  | none => exact .ret _
  | some v => exact value_shows v

theorem valueOrTrue_shows (v : Option Value) : Shows (valueOrTrue v).toToks (optIssues v) := by
  cases v with
  | none => exact .ret _
  | some v => exact value_shows v

theorem emitIfModifier_shows (m : Option Ident) : Shows (emitIfModifier m) (modifierIssues m) := by
  cases m with
  | none => exact .ret _
  | some m => exact .emit _

/-! ### attributes -/

theorem unplain (n : Str) : (⟨false, n⟩ : Ident) = plain n := rfl

theorem useArgs_shows {d : Directive} (hd : d.dir = plain c!"use") (h : d.key.Spanned) :
    Shows (useDirectiveFnValue d) (d.useIssues ++ optIssues d.value) := by
  unfold useDirectiveFnValue Directive.useIssues
  rw [if_neg (by simpa [plain] using hd), List.append_assoc]
  dsimp only
  refine (toIdentOrEmit_shows h).bind fun _ => (emitIfModifier_shows _).bind fun _ => ?_
  cases d.value with
  | none => exact .ret _
  | some v => exact (value_shows v).map fun _ => .ret _

theorem event_shows {d : Directive} (hd : d.dir = plain c!"on") (h : d.key.Spanned) :
    Shows (eventListenerEventPath d) d.eventIssues := by
  unfold eventListenerEventPath Directive.eventIssues
  rw [if_neg (by simpa [plain] using hd)]
  dsimp only
  cases hk : d.key with
  | kebab k =>
    rw [hk] at h
    refine Shows.bind (toSnakeIdent_shows h) fun _ => ?_
    cases d.modifier with
    | none => exact .ret _
    | some m =>
      simp only [plain]
      split
      · exact .ret _
      · exact .report fun _ => .ret _
  | str s =>
    refine Shows.report fun _ => ?_
    cases d.modifier with
    | none => exact .ret _
    | some m =>
      simp only [plain]
      split
      · exact .ret _
      · exact .report fun _ => .ret _

theorem xmlKv_shows {kind : TagKind} (hk : kind ≠ .component) {a : KvAttr} (h : 0 < a.key.spans) :
    Shows (xmlKvAttributeTokens a kind) (a.issuesOnElement kind) := by
  have hu := unchecked_iff hk a.key.repr
  unfold xmlKvAttributeTokens KvAttr.issuesOnElement
  by_cases h1 : a.key.repr = c!"ref"
  · simp only [h1, if_true, true_or]
    exact (checkSpan_shows h).then fun _ => (value_shows _).map fun _ => .ret _
  · simp only [h1, if_false, false_or]
    by_cases h2 : Unchecked kind a.key.repr
    · simp only [hu.mpr h2, if_true, h2]
      exact (value_shows _).map fun _ => .ret _
    · simp only [mt hu.mp h2, if_false, h2]
      exact (toSnakeIdent_shows h).bind fun _ => (value_shows _).map fun _ => .ret _

theorem xmlDirective_shows {d : Directive} (h : d.key.Spanned) :
    Shows (xmlDirectiveTokens d) d.issuesOnElement := by
  unfold xmlDirectiveTokens Directive.issuesOnElement
  simp only [List.mem_cons, List.not_mem_nil, or_false, unplain]
  have two : Shows (emitIfModifier d.modifier >>= fun _ => optValueToks d.value)
      (modifierIssues d.modifier ++ optIssues d.value) :=
    (emitIfModifier_shows _).bind fun _ => optValue_shows _
  by_cases h1 : d.dir = plain c!"class" ∨ d.dir = plain c!"style"
  · have h1' : d.dir = plain c!"class" ∨ d.dir = plain c!"style" ∨ d.dir = plain c!"prop" := by
      rcases h1 with h | h <;> simp [h]
    rw [if_pos h1, if_pos h1']
    exact (toLitStr_shows h).then fun _ => (emitIfModifier_shows _).bind fun _ =>
      (optValue_shows _).map fun _ => .ret _
  by_cases h2 : d.dir = plain c!"prop"
  · rw [if_neg h1, if_pos h2, if_pos (.inr (.inr h2))]
    exact (toLitStr_shows h).then fun _ => (emitIfModifier_shows _).bind fun _ =>
      (optValue_shows _).map fun _ => .ret _
  have h1' : ¬ (d.dir = plain c!"class" ∨ d.dir = plain c!"style" ∨ d.dir = plain c!"prop") := by
    rintro (h | h | h)
    · exact h1 (.inl h)
    · exact h1 (.inr h)
    · exact h2 h
  rw [if_neg h1, if_neg h2, if_neg h1']
  by_cases h3 : d.dir = plain c!"on"
  · rw [if_pos h3, if_pos h3]
    exact (event_shows h3 h).bind fun _ => (optValue_shows _).map fun _ => .ret _
  rw [if_neg h3, if_neg h3]
  by_cases h4 : d.dir = plain c!"use"
  · rw [if_pos h4, if_pos h4]
    exact (useArgs_shows h4 h).map fun _ => .ret _
  rw [if_neg h4, if_neg h4]
  by_cases h5 : d.dir = plain c!"attr" ∨ d.dir = plain c!"clone"
  · rw [if_pos h5, if_pos h5]
    exact .report fun _ => .ret _
  · rw [if_neg h5, if_neg h5]
    exact .report fun _ => .ret _

theorem xmlAttrs_shows {kind : TagKind} (hk : kind ≠ .component) (attrs : List Attr)
    (h : ∀ a ∈ attrs, a.Spanned) : ∀ b, Shows (xmlAttrsLoop kind b attrs)
      (attrs.flatMap (Attr.issuesOnElement kind)) := by
  induction attrs with
  | nil => intro b; exact .ret _
  | cons a attrs ih =>
    intro b
    have ha := h a (by simp)
    have ih := ih fun a h' => h a (by simp [h'])
    rw [List.flatMap_cons]
    cases a with
    | kv a => exact (xmlKv_shows hk ha).bind fun _ => ih _
    | directive d => exact (xmlDirective_shows ha).bind fun _ => ih _
    | spread e => exact ih _

theorem componentKv_shows {a : KvAttr} (h : 0 < a.key.spans) :
    Shows (componentKvAttributeTokens a) a.issuesOnComponent :=
  (toSnakeIdent_shows h).bind fun _ => (value_shows _).map fun _ => .ret _

theorem clone_shows {d : Directive} (h : d.key.Spanned) :
    Shows (emitIfModifier d.modifier >>= fun _ => componentCloneTokens d) d.cloneIssues := by
  unfold Directive.cloneIssues componentCloneTokens
  rw [List.append_assoc, List.append_assoc]
  refine (emitIfModifier_shows _).bind fun _ => (toIdentOrEmit_shows h).bind fun _ =>
    (emitIfModifier_shows _).bind fun _ => ?_
  split
  · exact .report fun _ => .ret _
  · exact .ret _

/-- all results have this property -/
def Out.Post {α : Type} (Q : α → Prop) (x : Out α) : Prop := ∀ ds a, x = .ret ds a → Q a

theorem Out.Post.ret {α : Type} {Q : α → Prop} {ds : List Diag} {a : α} (h : Q a) :
    Out.Post Q (.ret ds a) := by
  rintro ds a ⟨⟩; exact h

theorem Out.Post.bind {α β : Type} {Q : β → Prop} {x : Out α} {f : α → Out β}
    (h : ∀ a, Out.Post Q (f a)) : Out.Post Q (x.bind f) := by
  intro ds b hb
  cases x with
  | ret es a =>
    simp only [Out.bind] at hb
    cases hf : f a <;> rw [hf] at hb <;> simp [Out.tell] at hb
    exact h a _ _ (hb.2 ▸ hf)
  | _ => simp [Out.bind] at hb

/-- the directives of components -/
def knownOnComponents : List Ident :=
  [plain c!"class", plain c!"style", plain c!"attr", plain c!"prop", plain c!"on", plain c!"use"]

theorem anyAttr_some {d : Directive} (h : d.dir ∈ knownOnComponents) :
    Out.Post (fun r => r.isSome = true) (directiveToAnyAttrPath d) := by
  unfold directiveToAnyAttrPath
  simp only [unplain]
  simp only [knownOnComponents, List.mem_cons, List.not_mem_nil, or_false] at h
  split
  · exact .bind fun _ => .ret rfl
  split
  · refine .bind fun _ => ?_
    split <;> first | exact .bind fun _ => .ret rfl | exact .bind fun _ => .bind fun _ => .ret rfl
  split
  · exact .bind fun _ => .bind fun _ => .ret rfl
  split
  · exact .bind fun _ => .bind fun _ => .ret rfl
  split
  · exact .bind fun _ => .ret rfl
  · rename_i h1 h2 h3 h4 h5
    rcases h with h | h | h | h | h | h
    · exact absurd (.inl h) h1
    · exact absurd (.inr h) h1
    · exact absurd h h2
    · exact absurd h h3
    · exact absurd h h4
    · exact absurd h h5

theorem anyAttr_none {d : Directive} (h : d.dir ∉ knownOnComponents) :
    directiveToAnyAttrPath d = .ret [] none := by
  unfold directiveToAnyAttrPath
  simp only [unplain]
  simp only [knownOnComponents, List.mem_cons, List.not_mem_nil, or_false, not_or] at h
  obtain ⟨h1, h2, h3, h4, h5, h6⟩ := h
  simp [h1, h2, h3, h4, h5, h6]

theorem anyAttr_shows {d : Directive} (h : d.key.Spanned) (hd : d.dir ∈ knownOnComponents) :
    Shows (directiveToAnyAttrPath d) d.issuesOnComponent := by
  have hc : d.dir ≠ plain c!"clone" := by
    intro hc; rw [hc] at hd; revert hd; decide
  unfold directiveToAnyAttrPath Directive.issuesOnComponent
  simp only [knownOnComponents, List.mem_cons, List.not_mem_nil, or_false, unplain] at hd ⊢
  rw [if_neg hc]
  by_cases h1 : d.dir = plain c!"class" ∨ d.dir = plain c!"style"
  · rw [if_pos h1, if_pos h1]
    exact (valueOrTrue_shows _).map fun _ => .ret _
  rw [if_neg h1, if_neg h1]
  by_cases h2 : d.dir = plain c!"attr"
  · rw [if_pos h2, if_pos h2, toLitStr_eq h]
    have hk := AttributeKind.isCustom_iff d.key.text
    simp only [Out.monad_bind, Out.bind_ret, Out.tell_nil]
    by_cases hcu : '-' ∈ d.key.text ∧ ¬ c!"aria-" <+: d.key.text
    · rw [if_pos hcu]
      have := hk.mpr hcu
      cases ha : AttributeKind.ofStr d.key.text <;> rw [ha] at this <;> simp [AttributeKind.isCustom] at this
      exact (valueOrTrue_shows _).map fun _ => .ret _
    · rw [if_neg hcu]
      have := mt hk.mp hcu
      cases ha : AttributeKind.ofStr d.key.text <;> rw [ha] at this <;> simp [AttributeKind.isCustom] at this
      all_goals exact (toIdentOrEmit_shows h).bind fun _ => (valueOrTrue_shows _).map fun _ => .ret _
  rw [if_neg h2, if_neg h2]
  by_cases h3 : d.dir = plain c!"prop"
  · rw [if_pos h3, if_pos h3]
    exact (toIdentOrEmit_shows h).bind fun _ => (valueOrTrue_shows _).map fun _ => .ret _
  rw [if_neg h3, if_neg h3]
  by_cases h4 : d.dir = plain c!"on"
  · rw [if_pos h4, if_pos h4]
    exact (event_shows h4 h).bind fun _ => (optValue_shows _).map fun _ => .ret _
  rw [if_neg h4, if_neg h4]
  by_cases h5 : d.dir = plain c!"use"
  · rw [if_pos h5, if_pos h5]
    exact (useArgs_shows h5 h).map fun _ => .ret _
  · rcases hd with hd | hd | hd | hd | hd | hd
    · exact absurd (.inl hd) h1
    · exact absurd (.inr hd) h1
    · exact absurd hd h2
    · exact absurd hd h3
    · exact absurd hd h4
    · exact absurd hd h5

/-- the attributes of a component or slot -/
def attrIssues (isSlot : Bool) : Attr → List Issue :=
  if isSlot then Attr.issuesOnSlot else Attr.issuesOnComponent

theorem componentAttrs_shows (isSlot : Bool) (attrs : List Attr) (h : ∀ a ∈ attrs, a.Spanned) :
    ∀ b, Shows (componentAttrsLoop isSlot b attrs) (attrs.flatMap (attrIssues isSlot)) := by
  induction attrs with
  | nil => intro b; exact .ret _
  | cons a attrs ih =>
    intro b
    have ha := h a (by simp)
    have ih := ih fun a h' => h a (by simp [h'])
    rw [List.flatMap_cons]
    cases a with
    | kv a =>
      have : attrIssues isSlot (.kv a) = a.issuesOnComponent := by cases isSlot <;> rfl
      rw [this]
      exact (componentKv_shows ha).bind fun _ => ih _
    | spread e =>
      cases isSlot with
      | false => exact ih _
      | true => exact .report fun _ => ih _
    | directive d =>
      simp only [componentAttrsLoop, unplain]
      by_cases hc : d.dir = plain c!"clone"
      · have : attrIssues isSlot (.directive d) = d.cloneIssues := by
          cases isSlot
          · simp [attrIssues, Attr.issuesOnComponent, Directive.issuesOnComponent, hc]
          · simp [attrIssues, Attr.issuesOnSlot, hc]
        rw [this, if_pos hc]
        have := (clone_shows ha).bind (f := fun t =>
          componentAttrsLoop isSlot { b with clones := b.clones ++ t } attrs) fun _ => ih _
        rw [Out.monad_bind, Out.bind_assoc] at this
        exact this
      · rw [if_neg hc]
        cases isSlot with
        | true =>
          have : attrIssues true (.directive d) = [.report (.directiveOnSlot d.dir)] := by
            simp [attrIssues, Attr.issuesOnSlot, hc]
          rw [this]
          exact .report fun _ => ih _
        | false =>
          have : attrIssues false (.directive d) = d.issuesOnComponent := rfl
          rw [this, if_neg (by simp)]
          by_cases hd : d.dir ∈ knownOnComponents
          · refine (anyAttr_shows ha hd).bind' fun ds r hr => ?_
            have := anyAttr_some hd ds r hr
            cases r with
            | none => simp at this
            | some p => exact ih _
          · rw [anyAttr_none hd]
            have : d.issuesOnComponent = [.report (.unknownDirective d.dir)] := by
              simp only [knownOnComponents, List.mem_cons, List.not_mem_nil, or_false, not_or] at hd
              obtain ⟨h1, h2, h3, h4, h5, h6⟩ := hd
              simp [Directive.issuesOnComponent, hc, h1, h2, h3, h4, h5, h6]
            rw [this]
            rw [Out.monad_bind, Out.bind_ret, Out.tell_nil]
            exact .report fun _ => ih _

/-! ### elements -/

theorem selectorsToPaths_ret (sels : List Selector) : ∀ ids paths,
    ∃ r, selectorsToPaths ids paths sels = .ret [] r := by
  induction sels with
  | nil => intro ids paths; exact ⟨_, rfl⟩
  | cons s sels ih =>
    intro ids paths
    cases s with
    | id k => exact ih _ _
    | cls k =>
      obtain ⟨r, hr⟩ := ih ids (paths ++ [_])
      exact ⟨r, by simp only [selectorsToPaths]; simpa [directiveToAnyAttrPath, valueOrTrue, Value.newTrue,
        Value.toToks, expectSome, KebabOrStr.toUnspannedString, SynLit.toToks] using hr⟩

theorem selectors_shows (isSlot : Bool) (sels : List Selector) :
    Shows (componentSelectors isSlot sels)
      (if isSlot && !sels.isEmpty then [.report .selectorOnSlot] else []) := by
  cases isSlot with
  | true =>
    cases sels with
    | nil => exact .ret _
    | cons s sels => exact .report fun _ => .ret _
  | false =>
    simp only [componentSelectors, Bool.false_and, Bool.false_eq_true, if_false]
    obtain ⟨⟨ids, paths⟩, hr⟩ := selectorsToPaths_ret sels [] []
    rw [hr]
    refine (Shows.ret _).then fun p => ?_
    obtain ⟨ids, paths⟩ := p
    cases ids with
    | nil => exact .ret _
    | cons k ids => exact .ret _

theorem turbofish_shows (p : Path) : Shows (turbofishify p) p.issues := by
  unfold turbofishify Path.issues
  refine Shows.map ?_ fun _ => .ret _
  generalize p.segs = segs
  induction segs with
  | nil => exact .ret _
  | cons seg segs ih =>
    rw [List.flatMap_cons]
    refine Shows.bind ?_ fun _ => ih.map fun _ => .ret _
    unfold turbofishSeg
    cases seg.args <;> first | exact .ret _ | rfl

theorem optOut_shows {α : Type} {x : Option (Out α)} {is : List Issue}
    (h : ∀ y, x = some y → Shows y is) (hn : x = none → is = []) : Shows (optOut x) is := by
  cases x with
  | none => rw [hn rfl]; exact .ret _
  | some x => exact (h x rfl).map fun _ => .ret _

theorem xml_shows {tag : Tag} {sels : List Selector} {attrs : List Attr}
    {nodes : Option (Out (List Toks))} {is : List Issue} (ht : tag.isPath = false)
    (hk : ∀ k, tag = .webComponent k → 0 < k.spans) (ha : ∀ a ∈ attrs, a.Spanned)
    (h : ∀ y, nodes = some y → Shows y is) (hn : nodes = none → is = []) :
    ∃ o, xmlToTokens tag sels attrs nodes = some o ∧
      Shows o (attrs.flatMap (Attr.issuesOnElement tag.kind) ++ is) := by
  have hp : ∃ x, xmlTagPath tag = some x ∧ Shows x [] := by
    cases tag with
    | component p => simp [Tag.isPath] at ht
    | webComponent k => exact ⟨_, rfl, (checkSpan_shows (hk k rfl)).then fun _ => .ret _⟩
    | _ => exact ⟨_, rfl, .ret _⟩
  have hkind : tag.kind ≠ .component := by cases tag <;> simp [Tag.kind, Tag.isPath] at ht ⊢
  obtain ⟨x, hx, hs⟩ := hp
  unfold xmlToTokens
  rw [hx]
  exact ⟨_, rfl, hs.then fun _ => (xmlAttrs_shows hkind attrs ha _).bind fun _ =>
    (optOut_shows h hn).map fun _ => .ret _⟩

theorem component_shows {isSlot : Bool} {p : Path} {sels : List Selector} {attrs : List Attr}
    {args : Option Toks} {nodes : Option (Out (List Toks))} {slots : Option (Out Toks)}
    {is js : List Issue} (ha : ∀ a ∈ attrs, a.Spanned)
    (h : ∀ y, nodes = some y → Shows y is) (hn : nodes = none → is = [])
    (h' : ∀ y, slots = some y → Shows y js) (hn' : slots = none → js = []) :
    ∃ o, componentToTokens isSlot (.component p) sels attrs args nodes slots = some o ∧
      Shows o (p.issues ++ ((if isSlot && !sels.isEmpty then [.report .selectorOnSlot] else []) ++
        (attrs.flatMap (attrIssues isSlot) ++ (is ++ js)))) := by
  refine ⟨_, rfl, ?_⟩
  refine (turbofish_shows p).bind fun _ => (selectors_shows _ _).bind fun _ =>
    (componentAttrs_shows _ _ ha _).bind fun _ => (optOut_shows h hn).bind fun _ =>
    (optOut_shows h' hn').map fun _ => ?_
  cases isSlot <;> exact .ret _

theorem slotName_of_getIdent {e : Element} {p : Path} (h : e.tag = .component p) :
    e.slotName = p.getIdent := by
  unfold Element.slotName Path.getIdent
  rw [h]
  split
  · rename_i heq
    simp only [Tag.component.injEq] at heq
    subst heq; rfl
  · rename_i hne
    split
    · rename_i i; exact absurd rfl (hne i)
    · rfl

/-- the names of the result -/
theorem expandSlots_fst (s : Sched) : ∀ (cs : List Child),
    Out.Post (fun ss => ss.map Prod.fst = slotNames cs) (expandSlots s cs)
  | [] => .ret rfl
  | .value v :: cs => by
    simp only [expandSlots]
    exact expandSlots_fst s.r cs
  | .elem e :: cs => by
    simp only [expandSlots]
    exact expandSlots_fst s.r cs
  | .slot e :: cs => by
    have ih := expandSlots_fst s.r cs
    simp only [expandSlots]
    cases he : e.tag with
    | component p =>
      have hsn := slotName_of_getIdent he
      simp only
      cases hp : p.getIdent with
      | some n =>
        have hl : slotNames (.slot e :: cs) = n :: slotNames cs := by
          simp [slotNames, hsn, hp]
        refine .bind fun _ => ?_
        intro ds ss hss
        cases hx : expandSlots s.r cs with
        | ret es a =>
          rw [hx] at hss
          simp only [Out.monad_bind, Out.monad_pure, Out.bind_ret, Out.tell_ret, Out.ret.injEq] at hss
          rw [← hss.2, List.map_cons, ih es a hx, hl]
        | _ => rw [hx] at hss; simp [Out.bind] at hss
      | none =>
        have hl : slotNames (.slot e :: cs) = slotNames cs := by
          simp [slotNames, hsn, hp]
        rw [hl]
        exact .bind fun _ => ih
    | _ => intro ds ss h; simp at h

theorem slotMethods_shows {o : List Nat} {s : Sched} {cs : List Child} {ds : List Diag}
    {ss : List (Ident × Toks)} (hss : expandSlots s cs = .ret ds ss) :
    Shows (slotMethods (permute o (groupSlots ss []))) (methodIssues cs) := by
  have hfst := expandSlots_fst s cs ds ss hss
  have g := groupSlots_grouped ss [] [] grouped_nil
  rw [List.nil_append] at g
  have ok : ∀ n, slotNameOk n ↔ snakeCase n.name ∉ notRaw := by
    intro n
    have h : slotMethodName n = if snakeCase n.name ∈ notRaw then none else some ⟨true, snakeCase n.name⟩ := rfl
    unfold slotNameOk
    rw [h]
    split <;> simp [*]
  have key : (∀ e ∈ permute o (groupSlots ss []), slotNameOk e.1) ↔
      ∀ n ∈ slotNames cs, snakeCase n.name ∉ [c!"_", c!"self", c!"Self", c!"super", c!"crate"] := by
    rw [← hfst]
    constructor
    · intro h n hn
      obtain ⟨e, he, rfl⟩ := List.mem_map.mp ((g.names n).mpr hn)
      exact (ok _).mp (h e ((permute_perm o _).mem_iff.mpr he))
    · intro h e he
      exact (ok _).mpr (h _ ((g.names _).mp (List.mem_map_of_mem ((permute_perm o _).mem_iff.mp he))))
  unfold methodIssues
  rcases slotMethods_cases (permute o (groupSlots ss [])) with ⟨h1, t, ht⟩ | ⟨⟨e, he, hn⟩, p, hp⟩
  · rw [if_pos (key.mp h1), ht]; exact .ret _
  · rw [if_neg (fun hh => hn (key.mpr hh e he)), hp]; exact .panic _ _

theorem slots_shows {o : List Nat} {s : Sched} {cs : List Child} {is : List Issue}
    (h : Shows (expandSlots s cs) is) :
    Shows (slotsToTokens o (expandSlots s cs)) (is ++ methodIssues cs) :=
  h.bind' fun _ _ hss => slotMethods_shows hss

section
variable {pp : PathParser} {I : Inv pp}

mutual
theorem element_shows (asSlot : Bool) (s : Sched) : ∀ e : Element, e.Ok I →
    Shows (expandElement asSlot s e) (e.issues asSlot)
  | .mk tag sels attrs args none, h => by
    simp only [Element.Ok] at h
    have ha : ∀ a ∈ attrs, a.Spanned := fun a h' => (h.2 a h').spanned
    by_cases ht : tag.isPath
    · obtain ⟨p, rfl⟩ : ∃ p, tag = .component p := by cases tag <;> simp [Tag.isPath] at ht; exact ⟨_, rfl⟩
      cases asSlot with
      | true =>
        obtain ⟨o, ho, hs⟩ := component_shows (isSlot := true) (p := p) (sels := sels) (args := args)
          (nodes := none) (slots := none) (is := []) (js := []) ha (by simp) (by simp) (by simp) (by simp)
        simp only [expandElement, if_true, ho, Element.issues]
        cases sels <;> simpa [attrIssues] using hs
      | false =>
        obtain ⟨o, ho, hs⟩ := component_shows (isSlot := false) (p := p) (sels := sels) (args := args)
          (nodes := none) (slots := none) (is := []) (js := []) ha (by simp) (by simp) (by simp) (by simp)
        simp only [expandElement, xmlToTokens, xmlTagPath, Bool.false_eq_true, if_false, ho, Element.issues]
        simpa [attrIssues] using hs
    · cases asSlot with
      | true =>
        cases tag <;> simp [Tag.isPath] at ht <;>
          simp only [expandElement, componentToTokens, if_true, Element.issues] <;> exact .panic _ _
      | false =>
        obtain ⟨o, ho, hs⟩ := xml_shows (tag := tag) (sels := sels) (nodes := none) (is := [])
          (by simpa using ht) (by rintro k rfl; exact h.1) ha (by simp) (by simp)
        simp only [expandElement, Bool.false_eq_true, if_false, ho]
        have : Element.issues false (.mk tag sels attrs args none) =
            attrs.flatMap (Attr.issuesOnElement tag.kind) := by
          cases tag <;> simp [Tag.isPath] at ht <;> simp only [Element.issues]
        rw [this]
        simpa using hs
  | .mk tag sels attrs args (some cs), h => by
    simp only [Element.Ok] at h
    have ha : ∀ a ∈ attrs, a.Spanned := fun a h' => (h.2.1 a h').spanned
    have hno := nodes_shows s.l cs h.2.2
    have hsl := slots_shows (o := s.here) (slotsTree_shows s.r cs h.2.2)
    by_cases ht : tag.isPath
    · obtain ⟨p, rfl⟩ : ∃ p, tag = .component p := by cases tag <;> simp [Tag.isPath] at ht; exact ⟨_, rfl⟩
      cases asSlot with
      | true =>
        obtain ⟨o, ho, hs⟩ := component_shows (isSlot := true) (p := p) (sels := sels) (args := args)
          (nodes := some (expandNodes s.l cs)) (slots := some (slotsToTokens s.here (expandSlots s.r cs)))
          ha (by rintro y ⟨⟩; exact hno) (by simp) (by rintro y ⟨⟩; exact hsl) (by simp)
        simp only [expandElement, if_true, ho, Element.issues]
        cases sels <;> simpa [attrIssues] using hs
      | false =>
        obtain ⟨o, ho, hs⟩ := component_shows (isSlot := false) (p := p) (sels := sels) (args := args)
          (nodes := some (expandNodes s.l cs)) (slots := some (slotsToTokens s.here (expandSlots s.r cs)))
          ha (by rintro y ⟨⟩; exact hno) (by simp) (by rintro y ⟨⟩; exact hsl) (by simp)
        simp only [expandElement, xmlToTokens, xmlTagPath, Bool.false_eq_true, if_false, ho, Element.issues]
        simpa [attrIssues] using hs
    · cases asSlot with
      | true =>
        cases tag <;> simp [Tag.isPath] at ht <;>
          simp only [expandElement, componentToTokens, if_true, Element.issues] <;> exact .panic _ _
      | false =>
        obtain ⟨o, ho, hs⟩ := xml_shows (tag := tag) (sels := sels) (nodes := some (expandNodes s.l cs))
          (by simpa using ht) (by rintro k rfl; exact h.1) ha (by rintro y ⟨⟩; exact hno) (by simp)
        simp only [expandElement, Bool.false_eq_true, if_false, ho]
        have : Element.issues false (.mk tag sels attrs args (some cs)) =
            attrs.flatMap (Attr.issuesOnElement tag.kind) ++ nodesIssues cs := by
          cases tag <;> simp [Tag.isPath] at ht <;> simp only [Element.issues]
        rw [this]
        exact hs

theorem nodes_shows (s : Sched) : ∀ cs : List Child, childrenOk I cs →
    Shows (expandNodes s cs) (nodesIssues cs)
  | [], _ => by simp only [expandNodes, nodesIssues]; exact .ret _
  | .value v :: cs, h => by
    simp only [expandNodes, nodesIssues]
    exact (value_shows v).bind fun _ => (nodes_shows s.r cs h.2).map fun _ => .ret _
  | .elem e :: cs, h => by
    simp only [childrenOk, Child.Ok] at h
    simp only [expandNodes, nodesIssues]
    exact (element_shows false s.l e h.1).bind fun _ => (nodes_shows s.r cs h.2).map fun _ => .ret _
  | .slot e :: cs, h => by
    simp only [childrenOk] at h
    simp only [expandNodes, nodesIssues]
    exact nodes_shows s.r cs h.2

theorem slotsTree_shows (s : Sched) : ∀ cs : List Child, childrenOk I cs →
    Shows (expandSlots s cs) (slotsIssues cs)
  | [], _ => by simp only [expandSlots, slotsIssues]; exact .ret _
  | .value v :: cs, h => by
    simp only [childrenOk] at h
    simp only [expandSlots, slotsIssues]
    exact slotsTree_shows s.r cs h.2
  | .elem e :: cs, h => by
    simp only [childrenOk] at h
    simp only [expandSlots, slotsIssues]
    exact slotsTree_shows s.r cs h.2
  | .slot e :: cs, h => by
    simp only [childrenOk, Child.Ok] at h
    have ih := slotsTree_shows s.r cs h.2
    have he := element_shows true s.l e h.1.1
    simp only [expandSlots, slotsIssues]
    cases ht : e.tag with
    | component p =>
      have hsn := slotName_of_getIdent ht
      simp only [Tag.isPath, if_true]
      rw [hsn]
      cases hp : p.getIdent with
      | some n =>
        simp only [Option.isSome_some, if_true]
        exact he.bind fun _ => ih.map fun _ => .ret _
      | none =>
        simp only [Option.isSome_none, Bool.false_eq_true, if_false]
        exact .report fun _ => ih
    | _ => exact .panic _ _
end

theorem expandRoot_two (s : Sched) (c d : Child) (cs : List Child) :
    expandRoot s (c :: d :: cs) =
      if (c :: d :: cs).any Child.isSlot then abortWith .slotAtTopLevel
      else (expandNodes s (c :: d :: cs)).bind fun ns => .ret [] (rootBlock (childrenFragmentTokens ns)) := by
  cases c <;> rfl

theorem root_shows (s : Sched) (cs : List Child) (h : childrenOk I cs) :
    Shows (expandRoot s cs) (rootIssues cs) := by
  unfold rootIssues
  have hn := nodes_shows s cs h
  by_cases hs : cs.any Child.isSlot = true
  · rw [if_pos hs]
    rcases cs with _ | ⟨c, _ | ⟨d, cs⟩⟩
    · simp at hs
    · cases c <;> simp [Child.isSlot] at hs
      rfl
    · rw [expandRoot_two, if_pos hs]
      rfl
  · rw [if_neg hs]
    rcases cs with _ | ⟨c, _ | ⟨d, cs⟩⟩
    · exact .ret _
    · cases c with
      | slot e => simp [Child.isSlot] at hs
      | _ => exact hn.map fun _ => .ret _
    · rw [expandRoot_two, if_neg hs]
      exact hn.map fun _ => .ret _

end

end Mview
