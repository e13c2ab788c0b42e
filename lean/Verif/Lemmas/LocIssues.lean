import Verif.Lemmas.Issues
import Verif.Spec.LocIssues
import Verif.Lemmas.LocBasic
/-
Proofs for C41.
-/

namespace Mview.Loc

variable {σ : Type}

section
variable {α β : Type}

/-- the verdict is the outcome -/
def Out.Is : Out σ α → Verdict σ → Prop
  | .ret ds _, .errors es => ds = es
  | .abort ds, .stopped es => ds = es
  | .panic _, .crashed => True
  | _, _ => False

/-- the computation goes through these issues -/
def Shows (x : Out σ α) (is : List (Issue σ)) : Prop := x.Is (verdict is)

/-- several errors in front -/
def Verdict.after (ds : List (LDiag σ)) : Verdict σ → Verdict σ
  | .errors es => .errors (ds ++ es)
  | .stopped es => .stopped (ds ++ es)
  | .crashed => .crashed

/-- one after the other -/
def Verdict.seq : Verdict σ → Verdict σ → Verdict σ
  | .errors ds, v => v.after ds
  | .stopped ds, _ => .stopped ds
  | .crashed, _ => .crashed

theorem verdict_append (is js : List (Issue σ)) : verdict (is ++ js) = (verdict is).seq (verdict js) := by
  induction is with
  | nil => simp only [List.nil_append, verdict, Verdict.seq]; cases verdict js <;> rfl
  | cons i is ih =>
    cases i with
    | report d =>
      simp only [List.cons_append, verdict, ih]
      cases verdict is <;> cases verdict js <;> rfl
    | stop d => rfl
    | crash => rfl

theorem Shows.ret (a : α) : Shows (.ret [] a : Out σ α) [] := rfl

theorem Shows.panic (p : PanicSite) (is : List (Issue σ)) :
    Shows (.panic p : Out σ α) (.crash :: is) := trivial


theorem Shows.bind' {x : Out σ α} {f : α → Out σ β} {is js : List (Issue σ)} (h : Shows x is)
    (hf : ∀ ds a, x = .ret ds a → Shows (f a) js) : Shows (x.bind f) (is ++ js) := by
  unfold Shows at *
  rw [verdict_append]
  generalize verdict is = v at *
  cases x with
  | ret ds a =>
    have hf := hf ds a rfl
    generalize verdict js = w at *
    cases v <;> simp only [Out.Is] at h
    subst h
    simp only [Out.bind, Verdict.seq]
    cases hx : f a <;> rw [hx] at hf <;> cases w <;> simp only [Out.Is] at hf <;>
      simp [Out.tell, Verdict.after, Out.Is, hf]
  | abort ds => cases v <;> simp only [Out.Is] at h; simpa [Out.bind, Verdict.seq, Out.Is] using h
  | panic p => cases v <;> simp only [Out.Is] at h; trivial
  | diverge => cases v <;> simp only [Out.Is] at h

theorem Shows.bind {x : Out σ α} {f : α → Out σ β} {is js : List (Issue σ)} (h : Shows x is)
    (hf : ∀ a, Shows (f a) js) : Shows (x.bind f) (is ++ js) := h.bind' fun _ a _ => hf a

/-- nothing more happens afterwards -/
theorem Shows.map {x : Out σ α} {f : α → Out σ β} {is : List (Issue σ)} (h : Shows x is)
    (hf : ∀ a, Shows (f a) []) : Shows (x.bind f) is := by
  have := h.bind hf
  rwa [List.append_nil] at this

/-- nothing happened before -/
theorem Shows.then {x : Out σ α} {f : α → Out σ β} {is : List (Issue σ)} (h : Shows x [])
    (hf : ∀ a, Shows (f a) is) : Shows (x.bind f) is := h.bind hf

theorem Shows.emit (d : Diag) (p : σ) : Shows (emit d p) [.report d p] := rfl

theorem Shows.report {d : Diag} {p : σ} {f : Unit → Out σ β} {is : List (Issue σ)} (h : ∀ u, Shows (f u) is) :
    Shows ((Loc.emit d p).bind f) (.report d p :: is) := (Shows.emit d p).bind h

end

/-! ### names and values -/

theorem checkSpan_shows {k : KebabIdent σ} (h : 0 < k.spans.length) : Shows k.checkSpan [] := by
  unfold KebabIdent.checkSpan
  rw [if_neg (Nat.pos_iff_ne_zero.mp h)]
  exact .ret _

theorem newRaw_shows (n : Str) (sp : σ) :
    Shows (newRaw n sp) (if n ∉ notRaw then [] else [.crash]) := by
  unfold newRaw
  by_cases h : n ∈ notRaw
  · simp only [h, not_true_eq_false, if_true, if_false]; exact .panic _ _
  · simp only [h, not_false_eq_true, if_true, if_false]; exact .ret _

variable [Spans σ]

theorem toSnakeIdent_shows {k : KebabIdent σ} (h : 0 < k.spans.length) :
    Shows k.toSnakeIdent (nameIssues k.repr) := by
  refine (checkSpan_shows h).then fun _ => ?_
  have := newRaw_shows (dashToUnderscore k.repr) k.span
  unfold nameIssues Str.Identlike
  exact this

theorem toLitStr_shows {k : KebabOrStr σ} (h : k.erase.Spanned) : Shows k.toLitStr [] := by
  cases k with
  | kebab k => exact (checkSpan_shows h).then fun _ => .ret _
  | str s => exact .ret _

theorem toLitStr_text {k : KebabOrStr σ} (h : k.erase.Spanned) :
    ∃ sp, k.toLitStr = .ret [] ⟨k.text, sp⟩ := by
  cases k with
  | kebab k =>
    refine ⟨k.span, ?_⟩
    have : k.checkSpan = .ret [] () := by
      unfold KebabIdent.checkSpan
      have h : 0 < k.spans.length := h
      rw [if_neg (Nat.pos_iff_ne_zero.mp h)]; rfl
    simp [KebabOrStr.toLitStr, this, KebabOrStr.text]
  | str s => exact ⟨s.sp, rfl⟩

theorem toIdentOrEmit_shows {k : KebabOrStr σ} (h : k.erase.Spanned) : Shows k.toIdentOrEmit k.issues := by
  cases k with
  | kebab k => exact toSnakeIdent_shows h
  | str s => exact .report fun _ => .ret _

theorem value_shows (v : Value σ) : Shows v.toToks v.issues := by
  cases v with
  | lit l => exact .ret _
  | block c => exact .ret _
  | bracket p c =>
    cases p with
    | none => exact .ret _
    | some p =>
      simp only [Value.toToks, Value.issues, plain]
      split
      · exact .ret _
      · exact .report fun _ => .ret _

theorem optValue_shows (v : Option (Value σ)) : Shows (optValueToks v) (optIssues v) := by
  cases v with
  | none => exact .ret _
  | some v => exact value_shows v

theorem valueOrTrue_shows (v : Option (Value σ)) : Shows (valueOrTrue v).toToks (optIssues v) := by
  cases v with
  | none => exact .ret _
  | some v => exact value_shows v

omit [Spans σ] in
theorem emitIfModifier_shows (m : Option (SIdent σ)) : Shows (emitIfModifier m) (modifierIssues m) := by
  cases m with
  | none => exact .ret _
  | some m => exact .emit _ _

/-! ### attributes -/

theorem unplain (n : Str) : (⟨false, n⟩ : Ident) = plain n := rfl

theorem useArgs_shows {d : Directive σ} (hd : d.dir.id = plain c!"use") (h : d.key.erase.Spanned) :
    Shows (useDirectiveFnValue d) (d.useIssues ++ optIssues d.value) := by
  unfold useDirectiveFnValue Directive.useIssues
  rw [if_neg (by simpa [plain] using hd), List.append_assoc]
  dsimp only
  refine (toIdentOrEmit_shows h).bind fun _ => (emitIfModifier_shows _).bind fun _ => ?_
  cases d.value with
  | none => exact .ret _
  | some v => exact (value_shows v).map fun _ => .ret _

theorem event_shows {d : Directive σ} (hd : d.dir.id = plain c!"on") (h : d.key.erase.Spanned) :
    Shows (eventListenerEventPath d) d.eventIssues := by
  unfold eventListenerEventPath Directive.eventIssues
  rw [if_neg (by simpa [plain] using hd)]
  dsimp only
  cases hk : d.key with
  | kebab k =>
    rw [hk] at h
    refine Shows.bind (toSnakeIdent_shows h) fun _ => ?_
    cases d.modifier with
    | none => exact .ret _
    | some m =>
      simp only [plain]
      split
      · exact .ret _
      · exact .report fun _ => .ret _
  | str s =>
    refine Shows.report fun _ => ?_
    cases d.modifier with
    | none => exact .ret _
    | some m =>
      simp only [plain]
      split
      · exact .ret _
      · exact .report fun _ => .ret _

theorem xmlKv_shows {kind : TagKind} (hk : kind ≠ .component) {a : KvAttr σ} (h : 0 < a.key.spans.length) :
    Shows (xmlKvAttributeTokens a kind) (a.issuesOnElement kind) := by
  have hu := unchecked_iff hk a.key.repr
  unfold xmlKvAttributeTokens KvAttr.issuesOnElement
  by_cases h1 : a.key.repr = c!"ref"
  · simp only [h1, if_true, true_or]
    exact (checkSpan_shows h).then fun _ => (value_shows _).map fun _ => .ret _
  · simp only [h1, if_false, false_or]
    by_cases h2 : Unchecked kind a.key.repr
    · simp only [hu.mpr h2, if_true, h2]
      exact (value_shows _).map fun _ => .ret _
    · simp only [mt hu.mp h2, if_false, h2]
      exact (toSnakeIdent_shows h).bind fun _ => (value_shows _).map fun _ => .ret _

theorem xmlDirective_shows {d : Directive σ} (h : d.key.erase.Spanned) :
    Shows (xmlDirectiveTokens d) d.issuesOnElement := by
  unfold xmlDirectiveTokens Directive.issuesOnElement
  simp only [List.mem_cons, List.not_mem_nil, or_false, unplain]
  have two : Shows (emitIfModifier d.modifier >>= fun _ => optValueToks d.value)
      (modifierIssues d.modifier ++ optIssues d.value) :=
    (emitIfModifier_shows _).bind fun _ => optValue_shows _
  by_cases h1 : d.dir.id = plain c!"class" ∨ d.dir.id = plain c!"style"
  · have h1' : d.dir.id = plain c!"class" ∨ d.dir.id = plain c!"style" ∨ d.dir.id = plain c!"prop" := by
      rcases h1 with h | h <;> simp [h]
    rw [if_pos h1, if_pos h1']
    exact (toLitStr_shows h).then fun _ => (emitIfModifier_shows _).bind fun _ =>
      (optValue_shows _).map fun _ => .ret _
  by_cases h2 : d.dir.id = plain c!"prop"
  · rw [if_neg h1, if_pos h2, if_pos (.inr (.inr h2))]
    exact (toLitStr_shows h).then fun _ => (emitIfModifier_shows _).bind fun _ =>
      (optValue_shows _).map fun _ => .ret _
  have h1' : ¬ (d.dir.id = plain c!"class" ∨ d.dir.id = plain c!"style" ∨ d.dir.id = plain c!"prop") := by
    rintro (h | h | h)
    · exact h1 (.inl h)
    · exact h1 (.inr h)
    · exact h2 h
  rw [if_neg h1, if_neg h2, if_neg h1']
  by_cases h3 : d.dir.id = plain c!"on"
  · rw [if_pos h3, if_pos h3]
    exact (event_shows h3 h).bind fun _ => (optValue_shows _).map fun _ => .ret _
  rw [if_neg h3, if_neg h3]
  by_cases h4 : d.dir.id = plain c!"use"
  · rw [if_pos h4, if_pos h4]
    exact (useArgs_shows h4 h).map fun _ => .ret _
  rw [if_neg h4, if_neg h4]
  by_cases h5 : d.dir.id = plain c!"attr" ∨ d.dir.id = plain c!"clone"
  · rw [if_pos h5, if_pos h5]
    exact .report fun _ => .ret _
  · rw [if_neg h5, if_neg h5]
    exact .report fun _ => .ret _

theorem xmlAttrs_shows {kind : TagKind} (hk : kind ≠ .component) (attrs : List (Attr σ))
    (h : ∀ a ∈ attrs, a.erase.Spanned) : ∀ b, Shows (xmlAttrsLoop kind b attrs)
      (attrs.flatMap (Attr.issuesOnElement kind)) := by
  induction attrs with
  | nil => intro b; exact .ret _
  | cons a attrs ih =>
    intro b
    have ha := h a (by simp)
    have ih := ih fun a h' => h a (by simp [h'])
    rw [List.flatMap_cons]
    cases a with
    | kv a => exact (xmlKv_shows hk ha).bind fun _ => ih _
    | directive d => exact (xmlDirective_shows ha).bind fun _ => ih _
    | spread e => exact ih _

theorem componentKv_shows {a : KvAttr σ} (h : 0 < a.key.spans.length) :
    Shows (componentKvAttributeTokens a) a.issuesOnComponent :=
  (toSnakeIdent_shows h).bind fun _ => (value_shows _).map fun _ => .ret _

theorem clone_shows {d : Directive σ} (h : d.key.erase.Spanned) :
    Shows (emitIfModifier d.modifier >>= fun _ => componentCloneTokens d) d.cloneIssues := by
  unfold Directive.cloneIssues componentCloneTokens
  rw [List.append_assoc, List.append_assoc]
  refine (emitIfModifier_shows _).bind fun _ => (toIdentOrEmit_shows h).bind fun _ =>
    (emitIfModifier_shows _).bind fun _ => ?_
  cases d.value with
  | some v => cases v <;> exact .report fun _ => .ret _
  | none => exact .ret _

/-- all results have this property -/
def Out.Post {α : Type} (Q : α → Prop) (x : Out σ α) : Prop := ∀ ds a, x = .ret ds a → Q a

omit [Spans σ] in
theorem Out.Post.ret {α : Type} {Q : α → Prop} {ds : List (LDiag σ)} {a : α} (h : Q a) :
    Out.Post Q (.ret ds a) := by
  rintro ds a ⟨⟩; exact h

omit [Spans σ] in
theorem Out.Post.bind {α β : Type} {Q : β → Prop} {x : Out σ α} {f : α → Out σ β}
    (h : ∀ a, Out.Post Q (f a)) : Out.Post Q (x.bind f) := by
  intro ds b hb
  cases x with
  | ret es a =>
    simp only [Out.bind] at hb
    cases hf : f a <;> rw [hf] at hb <;> simp [Out.tell] at hb
    exact h a _ _ (hb.2 ▸ hf)
  | _ => simp [Out.bind] at hb

/-- the directives of components -/
def knownOnComponents : List Ident :=
  [plain c!"class", plain c!"style", plain c!"attr", plain c!"prop", plain c!"on", plain c!"use"]

theorem anyAttr_some {d : Directive σ} (h : d.dir.id ∈ knownOnComponents) :
    Out.Post (fun r => r.isSome = true) (directiveToAnyAttrPath d) := by
  unfold directiveToAnyAttrPath
  simp only [unplain]
  simp only [knownOnComponents, List.mem_cons, List.not_mem_nil, or_false] at h
  split
  · exact .bind fun _ => .ret rfl
  split
  · refine .bind fun _ => ?_
    split <;> first | exact .bind fun _ => .ret rfl | exact .bind fun _ => .bind fun _ => .ret rfl
  split
  · exact .bind fun _ => .bind fun _ => .ret rfl
  split
  · exact .bind fun _ => .bind fun _ => .ret rfl
  split
  · exact .bind fun _ => .ret rfl
  · rename_i h1 h2 h3 h4 h5
    rcases h with h | h | h | h | h | h
    · exact absurd (.inl h) h1
    · exact absurd (.inr h) h1
    · exact absurd h h2
    · exact absurd h h3
    · exact absurd h h4
    · exact absurd h h5

theorem anyAttr_none {d : Directive σ} (h : d.dir.id ∉ knownOnComponents) :
    directiveToAnyAttrPath d = .ret [] none := by
  unfold directiveToAnyAttrPath
  simp only [unplain]
  simp only [knownOnComponents, List.mem_cons, List.not_mem_nil, or_false, not_or] at h
  obtain ⟨h1, h2, h3, h4, h5, h6⟩ := h
  simp [h1, h2, h3, h4, h5, h6]

theorem anyAttr_shows {d : Directive σ} (h : d.key.erase.Spanned) (hd : d.dir.id ∈ knownOnComponents) :
    Shows (directiveToAnyAttrPath d) d.issuesOnComponent := by
  have hc : d.dir.id ≠ plain c!"clone" := by
    intro hc; rw [hc] at hd; revert hd; decide
  unfold directiveToAnyAttrPath Directive.issuesOnComponent
  simp only [knownOnComponents, List.mem_cons, List.not_mem_nil, or_false, unplain] at hd ⊢
  rw [if_neg hc]
  by_cases h1 : d.dir.id = plain c!"class" ∨ d.dir.id = plain c!"style"
  · rw [if_pos h1, if_pos h1]
    exact (valueOrTrue_shows _).map fun _ => .ret _
  rw [if_neg h1, if_neg h1]
  by_cases h2 : d.dir.id = plain c!"attr"
  · obtain ⟨sp, hsp⟩ := toLitStr_text h
    rw [if_pos h2, if_pos h2, hsp]
    have hk := AttributeKind.isCustom_iff d.key.text
    simp only [Out.monad_bind, Out.bind_ret, Out.tell_nil]
    by_cases hcu : '-' ∈ d.key.text ∧ ¬ c!"aria-" <+: d.key.text
    · rw [if_pos hcu]
      have := hk.mpr hcu
      cases ha : AttributeKind.ofStr d.key.text <;> rw [ha] at this <;> simp [AttributeKind.isCustom] at this
      exact (valueOrTrue_shows _).map fun _ => .ret _
    · rw [if_neg hcu]
      have := mt hk.mp hcu
      cases ha : AttributeKind.ofStr d.key.text <;> rw [ha] at this <;> simp [AttributeKind.isCustom] at this
      all_goals exact (toIdentOrEmit_shows h).bind fun _ => (valueOrTrue_shows _).map fun _ => .ret _
  rw [if_neg h2, if_neg h2]
  by_cases h3 : d.dir.id = plain c!"prop"
  · rw [if_pos h3, if_pos h3]
    exact (toIdentOrEmit_shows h).bind fun _ => (valueOrTrue_shows _).map fun _ => .ret _
  rw [if_neg h3, if_neg h3]
  by_cases h4 : d.dir.id = plain c!"on"
  · rw [if_pos h4, if_pos h4]
    exact (event_shows h4 h).bind fun _ => (optValue_shows _).map fun _ => .ret _
  rw [if_neg h4, if_neg h4]
  by_cases h5 : d.dir.id = plain c!"use"
  · rw [if_pos h5, if_pos h5]
    exact (useArgs_shows h5 h).map fun _ => .ret _
  · rcases hd with hd | hd | hd | hd | hd | hd
    · exact absurd (.inl hd) h1
    · exact absurd (.inr hd) h1
    · exact absurd hd h2
    · exact absurd hd h3
    · exact absurd hd h4
    · exact absurd hd h5

/-- the attributes of a component or slot -/
def attrIssues (isSlot : Bool) : Attr σ → List (Issue σ) :=
  if isSlot then Attr.issuesOnSlot else Attr.issuesOnComponent

theorem componentAttrs_shows (isSlot : Bool) (attrs : List (Attr σ)) (h : ∀ a ∈ attrs, a.erase.Spanned) :
    ∀ b, Shows (componentAttrsLoop isSlot b attrs) (attrs.flatMap (attrIssues isSlot)) := by
  induction attrs with
  | nil => intro b; exact .ret _
  | cons a attrs ih =>
    intro b
    have ha := h a (by simp)
    have ih := ih fun a h' => h a (by simp [h'])
    rw [List.flatMap_cons]
    cases a with
    | kv a =>
      have : attrIssues isSlot (.kv a) = a.issuesOnComponent := by cases isSlot <;> rfl
      rw [this]
      exact (componentKv_shows ha).bind fun _ => ih _
    | spread e =>
      cases isSlot with
      | false => exact ih _
      | true => exact .report fun _ => ih _
    | directive d =>
      simp only [componentAttrsLoop, unplain]
      by_cases hc : d.dir.id = plain c!"clone"
      · have : attrIssues isSlot (.directive d) = d.cloneIssues := by
          cases isSlot
          · simp [attrIssues, Attr.issuesOnComponent, Directive.issuesOnComponent, hc]
          · simp [attrIssues, Attr.issuesOnSlot, hc]
        rw [this, if_pos hc]
        have := (clone_shows ha).bind (f := fun t =>
          componentAttrsLoop isSlot { b with clones := b.clones ++ t } attrs) fun _ => ih _
        rw [Out.monad_bind, Out.bind_assoc] at this
        exact this
      · rw [if_neg hc]
        cases isSlot with
        | true =>
          have : attrIssues true (.directive d) = [.report (.directiveOnSlot d.dir.id) d.dir.sp] := by
            simp [attrIssues, Attr.issuesOnSlot, hc]
          rw [this]
          exact .report fun _ => ih _
        | false =>
          have : attrIssues false (.directive d) = d.issuesOnComponent := rfl
          rw [this, if_neg (by simp)]
          by_cases hd : d.dir.id ∈ knownOnComponents
          · refine (anyAttr_shows ha hd).bind' fun ds r hr => ?_
            have := anyAttr_some hd ds r hr
            cases r with
            | none => simp at this
            | some p => exact ih _
          · rw [anyAttr_none hd]
            have : d.issuesOnComponent = [.report (.unknownDirective d.dir.id) d.dir.sp] := by
              simp only [knownOnComponents, List.mem_cons, List.not_mem_nil, or_false, not_or] at hd
              obtain ⟨h1, h2, h3, h4, h5, h6⟩ := hd
              simp [Directive.issuesOnComponent, hc, h1, h2, h3, h4, h5, h6]
            rw [this]
            rw [Out.monad_bind, Out.bind_ret, Out.tell_nil]
            exact .report fun _ => ih _

/-! ### elements -/

theorem selectorsToPaths_ret (sels : List (Selector σ)) : ∀ ids paths,
    ∃ r, selectorsToPaths ids paths sels = .ret [] r := by
  induction sels with
  | nil => intro ids paths; exact ⟨_, rfl⟩
  | cons s sels ih =>
    intro ids paths
    cases s with
    | id k => exact ih _ _
    | cls k =>
      obtain ⟨r, hr⟩ := ih ids (paths ++ [_])
      exact ⟨r, by simp only [selectorsToPaths]; simpa [directiveToAnyAttrPath, valueOrTrue, Value.newTrue,
        Value.toToks, expectSome, KebabOrStr.toUnspannedString, SynLit.toToks] using hr⟩

theorem selectors_shows (isSlot : Bool) (sels : List (Selector σ)) :
    Shows (componentSelectors isSlot sels)
      (if isSlot then selectorIssues sels else []) := by
  cases isSlot with
  | true =>
    cases sels with
    | nil => exact .ret _
    | cons s sels => cases s <;> exact .report fun _ => .ret _
  | false =>
    simp only [componentSelectors, Bool.false_eq_true, if_false]
    obtain ⟨⟨ids, paths⟩, hr⟩ := selectorsToPaths_ret sels [] []
    rw [hr]
    refine (Shows.ret _).then fun p => ?_
    obtain ⟨ids, paths⟩ := p
    cases ids with
    | nil => exact .ret _
    | cons k ids => exact .ret _

theorem turbofish_shows (p : Path σ) : Shows (turbofishify p) p.issues := by
  unfold turbofishify Path.issues
  refine Shows.map ?_ fun _ => .ret _
  generalize p.segs = segs
  induction segs with
  | nil => exact .ret _
  | cons seg segs ih =>
    rw [List.flatMap_cons]
    refine Shows.bind ?_ fun _ => ih.map fun _ => .ret _
    unfold turbofishSeg
    cases seg.args <;> first | exact .ret _ | rfl

omit [Spans σ] in
theorem optOut_shows {α : Type} {x : Option (Out σ α)} {is : List (Issue σ)}
    (h : ∀ y, x = some y → Shows y is) (hn : x = none → is = []) : Shows (optOut x) is := by
  cases x with
  | none => rw [hn rfl]; exact .ret _
  | some x => exact (h x rfl).map fun _ => .ret _

/-- a tag that is a path -/
def Tag.isPath : Tag σ → Bool
  | .component _ => true
  | _ => false

theorem xml_shows {tag : Tag σ} {sels : List (Selector σ)} {attrs : List (Attr σ)}
    {nodes : Option (Out σ (List (Node σ)))} {is : List (Issue σ)} (ht : tag.isPath = false)
    (hk : ∀ k, tag = .webComponent k → 0 < k.spans.length) (ha : ∀ a ∈ attrs, a.erase.Spanned)
    (h : ∀ y, nodes = some y → Shows y is) (hn : nodes = none → is = []) :
    ∃ o, xmlToTokens tag sels attrs nodes = some o ∧
      Shows o (attrs.flatMap (Attr.issuesOnElement tag.kind) ++ is) := by
  have hp : ∃ x, xmlTagPath tag = some x ∧ Shows x [] := by
    cases tag with
    | component p => simp [Tag.isPath] at ht
    | webComponent k => exact ⟨_, rfl, (checkSpan_shows (hk k rfl)).then fun _ => .ret _⟩
    | _ => exact ⟨_, rfl, .ret _⟩
  have hkind : tag.kind ≠ .component := by cases tag <;> simp [Tag.kind, Tag.isPath] at ht ⊢
  obtain ⟨x, hx, hs⟩ := hp
  unfold xmlToTokens
  rw [hx]
  exact ⟨_, rfl, hs.then fun _ => (xmlAttrs_shows hkind attrs ha _).bind fun _ =>
    (optOut_shows h hn).map fun _ => .ret _⟩

theorem component_shows {isSlot : Bool} {p : Path σ} {sels : List (Selector σ)} {attrs : List (Attr σ)}
    {args : Option (Toks σ)} {nodes : Option (Out σ (List (Node σ)))} {slots : Option (Out σ (Toks σ))}
    {is js : List (Issue σ)} (ha : ∀ a ∈ attrs, a.erase.Spanned)
    (h : ∀ y, nodes = some y → Shows y is) (hn : nodes = none → is = [])
    (h' : ∀ y, slots = some y → Shows y js) (hn' : slots = none → js = []) :
    ∃ o, componentToTokens isSlot (.component p) sels attrs args nodes slots = some o ∧
      Shows o (p.issues ++ ((if isSlot then selectorIssues sels else []) ++
        (attrs.flatMap (attrIssues isSlot) ++ (is ++ js)))) := by
  refine ⟨_, rfl, ?_⟩
  refine (turbofish_shows p).bind fun _ => (selectors_shows _ _).bind fun _ =>
    (componentAttrs_shows _ _ ha _).bind fun _ => (optOut_shows h hn).bind fun _ =>
    (optOut_shows h' hn').map fun _ => ?_
  cases isSlot <;> exact .ret _

omit [Spans σ] in
theorem slotName_of_getIdent {e : Element σ} {p : Path σ} (h : e.tag = .component p) :
    e.slotName = p.getIdent.map SIdent.id := by
  unfold Element.slotName Path.getIdent
  rw [h]
  split
  · rename_i heq
    simp only [Tag.component.injEq] at heq
    subst heq; rfl
  · rename_i hne
    split
    · rename_i i s; exact absurd rfl (hne i s)
    · rfl

omit [Spans σ] in
theorem slotName_erase (e : Element σ) : e.erase.slotName = e.slotName := by
  cases ht : e.tag with
  | component p =>
    rw [slotName_of_getIdent ht, Mview.slotName_of_getIdent (p := p.erase) (by rw [tag_erase, ht]; rfl),
      getIdent_erase]
  | _ => unfold Element.slotName Mview.Element.slotName; rw [tag_erase, ht]; rfl

omit [Spans σ] in
theorem slotNames_erase (cs : List (Child σ)) : Mview.slotNames (eraseChildren cs) = slotNames cs := by
  induction cs with
  | nil => simp [eraseChildren, slotNames, Mview.slotNames]
  | cons c cs ih =>
    simp only [slotNames, Mview.slotNames] at ih
    cases c with
    | slot kw e =>
      simp only [eraseChildren, Child.erase, slotNames, Mview.slotNames, List.filterMap_cons, ih,
        slotName_erase]
    | _ => simp only [eraseChildren, Child.erase, slotNames, Mview.slotNames, List.filterMap_cons, ih]

omit [Spans σ] in
/-- Without reports the places do not matter. -/
theorem Shows.of_erase_nil {α β : Type} {f : α → β} {x : Out σ α} {y : Mview.Out β} (h : Er f x y)
    (hy : Mview.Shows y []) : Shows x [] := by
  unfold Er at h
  subst h
  cases x with
  | ret ds a => cases ds <;> simp [Mview.Shows, Out.erase, Mview.Out.Is, Mview.verdict] at hy; exact .ret _
  | _ => simp [Mview.Shows, Out.erase, Mview.Out.Is, Mview.verdict] at hy

omit [Spans σ] in
theorem Shows.of_erase_crash {α β : Type} {f : α → β} {x : Out σ α} {y : Mview.Out β} (h : Er f x y)
    (hy : Mview.Shows y [.crash]) : Shows x [.crash] := by
  unfold Er at h
  subst h
  cases x with
  | panic p => trivial
  | _ => simp [Mview.Shows, Out.erase, Mview.Out.Is, Mview.verdict] at hy

theorem slots_shows {o : List Nat} {s : Sched} {cs : List (Child σ)} {is : List (Issue σ)}
    (h : Shows (expandSlots s cs) is) :
    Shows (slotsToTokens o (expandSlots s cs)) (is ++ methodIssues cs) := by
  unfold slotsToTokens
  refine h.bind' fun ds ss hss => ?_
  have he := expandSlots_erase s cs
  rw [hss] at he
  have hm := slotMethods_erase (permute o (groupSlots ss []))
  rw [map_permute, groupSlots_erase] at hm
  have key := Mview.slotMethods_shows (o := o) (s := s) (cs := eraseChildren cs) he.symm
  have e : Mview.methodIssues (eraseChildren cs) = if (methodIssues cs).isEmpty then [] else [.crash] := by
    unfold Mview.methodIssues methodIssues
    rw [slotNames_erase]
    split <;> rfl
  rw [e] at key
  by_cases hn : (methodIssues cs).isEmpty
  · have : methodIssues cs = [] := by simpa using hn
    rw [this]
    rw [if_pos hn] at key
    exact .of_erase_nil hm key
  · have : methodIssues cs = [.crash] := by
      unfold methodIssues at hn ⊢
      split at hn
      · simp at hn
      · rw [if_neg (by assumption)]
    rw [this]
    rw [if_neg hn] at key
    exact .of_erase_crash hm key

/-! ### places -/

theorem joinOr_self (a : σ) : joinOr a a = a := Spans.join_self a

theorem toksSpan_cons (t : TT σ) (ts : Toks σ) :
    toksSpan (t :: ts) = joinOr t.span ((t :: ts).getLast (by simp)).span := by
  cases ts with
  | nil => simp [toksSpan, joinOr_self]
  | cons u ts => simp [toksSpan]

theorem toksSpan_eq {ts : Toks σ} {a b : TT σ} (h1 : ts.head? = some a) (h2 : ts.getLast? = some b) :
    toksSpan ts = joinOr a.span b.span := by
  cases ts with
  | nil => simp at h1
  | cons t ts =>
    rw [toksSpan_cons]
    simp only [List.head?_cons, Option.some.injEq] at h1
    rw [List.getLast?_eq_some_getLast (by simp)] at h2
    simp only [Option.some.injEq] at h2
    subst h1 h2
    rfl

omit [Spans σ] in
theorem seg_last (s : PathSeg σ) : ∃ b, s.toToks.getLast? = some b ∧ b.span = s.args.theEnd s.ident.sp := by
  unfold PathSeg.toToks
  cases s.args with
  | none => exact ⟨_, rfl, rfl⟩
  | paren inner sp => exact ⟨_, rfl, rfl⟩
  | angle t lt inner gt =>
    refine ⟨.punct '>' .alone gt, ?_, rfl⟩
    cases t <;> simp [PathArgs.toToks, List.getLast?_cons, List.getLast?_append]

omit [Spans σ] in
theorem segs_last {segs : List (PathSeg σ)} {s : PathSeg σ} (h : segs.getLast? = some s) :
    ∃ b, (segsToks segs).getLast? = some b ∧ b.span = s.args.theEnd s.ident.sp := by
  induction segs with
  | nil => simp at h
  | cons a segs ih =>
    cases segs with
    | nil => simp at h; subst h; exact seg_last a
    | cons b segs =>
      obtain ⟨l, hl, hs⟩ := ih (by simpa using h)
      refine ⟨l, ?_, hs⟩
      simp [segsToks, List.getLast?_append, hl]

omit [Spans σ] in
theorem segs_first (a : PathSeg σ) (segs : List (PathSeg σ)) :
    (segsToks (a :: segs)).head? = some (.ident a.ident.id a.ident.sp) := by
  cases segs <;> simp [segsToks, PathSeg.toToks]

theorem path_place (p : Path σ) : p.span = p.place := by
  obtain ⟨l, segs⟩ := p
  unfold Path.span Path.place Path.theStart Path.theEnd Path.toToks
  cases segs with
  | nil =>
    cases l with
    | none => simp [segsToks, toksSpan, joinOr_self]
    | some c => simp [segsToks, toksSpan, tColon2, TT.span]
  | cons a segs =>
    obtain ⟨s, hs⟩ : ∃ s, (a :: segs).getLast? = some s := ⟨_, List.getLast?_eq_some_getLast (by simp)⟩
    obtain ⟨b, hb, hsp⟩ := segs_last hs
    have hf := segs_first a segs
    dsimp only
    rw [hs]
    cases l with
    | none =>
      rw [List.nil_append, toksSpan_eq hf hb, hsp]; rfl
    | some c =>
      dsimp only
      rw [toksSpan_eq (a := .punct ':' .joint c.1) (b := b) (by simp [tColon2])
        (by simp [List.getLast?_append, hb]), hsp]; rfl

theorem kebab_place (k : KebabIdent σ) : k.span = k.place := by
  unfold KebabIdent.span KebabIdent.place
  cases k.spans with
  | nil => exact (joinOr_self _).symm
  | cons s ss => simp [List.getLast?_eq_some_getLast]

theorem tag_place (t : Tag σ) : t.span = t.place := by
  cases t with
  | component p => exact path_place p
  | webComponent k => exact kebab_place k
  | _ => rfl

section
variable {pp : Mview.PathParser} {I : Inv pp}

mutual
theorem element_shows (asSlot : Bool) (s : Sched) : ∀ e : Element σ, e.erase.Ok I →
    Shows (expandElement asSlot s e) (e.issues asSlot)
  | .mk tag sels attrs args none, h => by
    simp only [Element.erase, Mview.Element.Ok] at h
    have ha : ∀ a ∈ attrs, a.erase.Spanned := fun a h' => (h.2 _ (List.mem_map_of_mem h')).spanned
    by_cases ht : tag.isPath
    · obtain ⟨p, rfl⟩ : ∃ p, tag = .component p := by cases tag <;> simp [Tag.isPath] at ht; exact ⟨_, rfl⟩
      cases asSlot with
      | true =>
        obtain ⟨o, ho, hs⟩ := component_shows (isSlot := true) (p := p) (sels := sels) (args := args)
          (nodes := none) (slots := none) (is := []) (js := []) ha (by simp) (by simp) (by simp) (by simp)
        simp only [expandElement, if_true, ho, Element.issues]
        cases sels <;> simpa [attrIssues] using hs
      | false =>
        obtain ⟨o, ho, hs⟩ := component_shows (isSlot := false) (p := p) (sels := sels) (args := args)
          (nodes := none) (slots := none) (is := []) (js := []) ha (by simp) (by simp) (by simp) (by simp)
        simp only [expandElement, xmlToTokens, xmlTagPath, Bool.false_eq_true, if_false, ho, Element.issues]
        simpa [attrIssues] using hs
    · cases asSlot with
      | true =>
        cases tag <;> simp [Tag.isPath] at ht <;>
          simp only [expandElement, componentToTokens, if_true, Element.issues] <;> exact .panic _ _
      | false =>
        obtain ⟨o, ho, hs⟩ := xml_shows (tag := tag) (sels := sels) (nodes := none) (is := [])
          (by simpa using ht) (by rintro k rfl; exact h.1) ha (by simp) (by simp)
        simp only [expandElement, Bool.false_eq_true, if_false, ho]
        have : Element.issues false (.mk tag sels attrs args none) =
            attrs.flatMap (Attr.issuesOnElement tag.kind) := by
          cases tag <;> simp [Tag.isPath] at ht <;> simp only [Element.issues]
        rw [this]
        simpa using hs
  | .mk tag sels attrs args (some cs), h => by
    simp only [Element.erase, Mview.Element.Ok] at h
    have ha : ∀ a ∈ attrs, a.erase.Spanned := fun a h' => (h.2.1 _ (List.mem_map_of_mem h')).spanned
    have hno := nodes_shows s.l cs h.2.2
    have hsl := slots_shows (o := s.here) (slotsTree_shows s.r cs h.2.2)
    by_cases ht : tag.isPath
    · obtain ⟨p, rfl⟩ : ∃ p, tag = .component p := by cases tag <;> simp [Tag.isPath] at ht; exact ⟨_, rfl⟩
      cases asSlot with
      | true =>
        obtain ⟨o, ho, hs⟩ := component_shows (isSlot := true) (p := p) (sels := sels) (args := args)
          (nodes := some (expandNodes s.l cs)) (slots := some (slotsToTokens s.here (expandSlots s.r cs)))
          ha (by rintro y ⟨⟩; exact hno) (by simp) (by rintro y ⟨⟩; exact hsl) (by simp)
        simp only [expandElement, if_true, ho, Element.issues]
        cases sels <;> simpa [attrIssues] using hs
      | false =>
        obtain ⟨o, ho, hs⟩ := component_shows (isSlot := false) (p := p) (sels := sels) (args := args)
          (nodes := some (expandNodes s.l cs)) (slots := some (slotsToTokens s.here (expandSlots s.r cs)))
          ha (by rintro y ⟨⟩; exact hno) (by simp) (by rintro y ⟨⟩; exact hsl) (by simp)
        simp only [expandElement, xmlToTokens, xmlTagPath, Bool.false_eq_true, if_false, ho, Element.issues]
        simpa [attrIssues] using hs
    · cases asSlot with
      | true =>
        cases tag <;> simp [Tag.isPath] at ht <;>
          simp only [expandElement, componentToTokens, if_true, Element.issues] <;> exact .panic _ _
      | false =>
        obtain ⟨o, ho, hs⟩ := xml_shows (tag := tag) (sels := sels) (nodes := some (expandNodes s.l cs))
          (by simpa using ht) (by rintro k rfl; exact h.1) ha (by rintro y ⟨⟩; exact hno) (by simp)
        simp only [expandElement, Bool.false_eq_true, if_false, ho]
        have : Element.issues false (.mk tag sels attrs args (some cs)) =
            attrs.flatMap (Attr.issuesOnElement tag.kind) ++ nodesIssues cs := by
          cases tag <;> simp [Tag.isPath] at ht <;> simp only [Element.issues]
        rw [this]
        exact hs

theorem nodes_shows (s : Sched) : ∀ cs : List (Child σ), childrenOk I (eraseChildren cs) →
    Shows (expandNodes s cs) (nodesIssues cs)
  | [], _ => by simp only [expandNodes, nodesIssues]; exact .ret _
  | .value v :: cs, h => by
    simp only [eraseChildren, childrenOk] at h
    simp only [expandNodes, nodesIssues]
    exact (value_shows v).bind fun _ => (nodes_shows s.r cs h.2).map fun _ => .ret _
  | .elem e :: cs, h => by
    simp only [eraseChildren, Child.erase, childrenOk, Mview.Child.Ok] at h
    simp only [expandNodes, nodesIssues]
    exact (element_shows false s.l e h.1).bind fun _ => (nodes_shows s.r cs h.2).map fun _ => .ret _
  | .slot kw e :: cs, h => by
    simp only [eraseChildren, childrenOk] at h
    simp only [expandNodes, nodesIssues]
    exact nodes_shows s.r cs h.2

theorem slotsTree_shows (s : Sched) : ∀ cs : List (Child σ), childrenOk I (eraseChildren cs) →
    Shows (expandSlots s cs) (slotsIssues cs)
  | [], _ => by simp only [expandSlots, slotsIssues]; exact .ret _
  | .value v :: cs, h => by
    simp only [eraseChildren, childrenOk] at h
    simp only [expandSlots, slotsIssues]
    exact slotsTree_shows s.r cs h.2
  | .elem e :: cs, h => by
    simp only [eraseChildren, childrenOk] at h
    simp only [expandSlots, slotsIssues]
    exact slotsTree_shows s.r cs h.2
  | .slot kw e :: cs, h => by
    simp only [eraseChildren, Child.erase, childrenOk, Mview.Child.Ok] at h
    have ih := slotsTree_shows s.r cs h.2
    have he := element_shows true s.l e h.1.1
    simp only [expandSlots, slotsIssues]
    cases ht : e.tag with
    | component p =>
      have hsn := slotName_of_getIdent ht
      dsimp only
      rw [hsn]
      cases hp : p.getIdent with
      | some n =>
        simp only [Option.map_some, Option.isSome_some, if_true]
        exact he.bind fun _ => ih.map fun _ => .ret _
      | none =>
        simp only [Option.map_none, Option.isSome_none, Bool.false_eq_true, if_false]
        rw [path_place]
        exact .report fun _ => ih
    | _ => exact .panic _ _
end

omit [Spans σ] in
theorem firstSlot_tags (cs : List (Child σ)) :
    (firstSlot cs).map Element.tag = (slotTags cs).head? := by
  induction cs with
  | nil => rfl
  | cons c cs ih =>
    simp only [slotTags] at ih
    cases c <;> simp [firstSlot, slotTags, ih]

theorem expandRoot_two (s : Sched) (c d : Child σ) (cs : List (Child σ)) :
    expandRoot s (c :: d :: cs) =
      match firstSlot (c :: d :: cs) with
      | some e => abortWith .slotAtTopLevel e.tag.span
      | none => (expandNodes s (c :: d :: cs)).bind fun ns =>
          .ret [] (rootBlock (childrenFragmentTokens ns callSite)) := by
  cases c <;> rfl

theorem root_shows (s : Sched) (cs : List (Child σ)) (h : childrenOk I (eraseChildren cs)) :
    Shows (expandRoot s cs) (rootIssues cs) := by
  have hn := nodes_shows s cs h
  rcases cs with _ | ⟨c, _ | ⟨d, cs⟩⟩
  · exact .ret _
  · cases c with
    | slot kw e => rfl
    | _ => exact hn.map fun _ => .ret _
  · have hf := firstSlot_tags (c :: d :: cs)
    have hr : rootIssues (c :: d :: cs) = match slotTags (c :: d :: cs) with
      | t :: _ => [.stop .slotAtTopLevel t.place]
      | [] => nodesIssues (c :: d :: cs) := by
      unfold rootIssues
      split <;> simp_all
    rw [expandRoot_two, hr]
    cases hs : slotTags (c :: d :: cs) with
    | nil =>
      rw [hs] at hf
      cases hfs : firstSlot (c :: d :: cs) with
      | some e => rw [hfs] at hf; simp at hf
      | none => exact hn.map fun _ => .ret _
    | cons t ts =>
      rw [hs] at hf
      cases hfs : firstSlot (c :: d :: cs) with
      | none => rw [hfs] at hf; simp at hf
      | some e =>
        rw [hfs] at hf
        simp only [Option.map_some, List.head?_cons, Option.some.injEq] at hf
        subst hf
        dsimp only
        rw [tag_place]
        rfl

end

end Mview.Loc
