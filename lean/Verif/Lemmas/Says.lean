import Verif.Lemmas.Places
/-
Diagnostics are not lost: what is reported for a part of the tree is reported for the
whole, unless the macro stops early.
-/

namespace Mview
open Lex

/-- Stopping early is always accompanied by one of the diagnostics `S`. -/
def Aborts {α : Type} (S : Diag → Prop) (x : Out α) : Prop :=
  ∀ ds, x = .abort ds → ∃ d ∈ ds, S d

section
variable {α β : Type} {S : Diag → Prop}

theorem Aborts.ret (ds : List Diag) (a : α) : Aborts S (.ret ds a) := by
  intro _ h; simp at h

theorem Aborts.panic (p : PanicSite) : Aborts S (.panic p : Out α) := by
  intro _ h; simp at h

theorem Aborts.diverge : Aborts S (.diverge : Out α) := by
  intro _ h; simp at h

theorem Aborts.abort {d : Diag} (h : S d) : Aborts S (.abort [d] : Out α) := by
  intro _ h'; simp at h'; subst h'; exact ⟨d, by simp, h⟩

theorem Aborts.tell {x : Out α} (h : Aborts S x) (ds : List Diag) : Aborts S (x.tell ds) := by
  intro es he
  cases x <;> simp at he
  subst he
  obtain ⟨d, hd, hs⟩ := h _ rfl
  exact ⟨d, by simp [hd], hs⟩

theorem Aborts.bind {x : Out α} {f : α → Out β} (h : Aborts S x) (hf : ∀ a, Aborts S (f a)) :
    Aborts S (x.bind f) := by
  cases x with
  | ret ds a => exact (hf a).tell ds
  | abort ds => intro es he; simp at he; exact he ▸ h _ rfl
  | panic p => exact .panic p
  | diverge => exact .diverge

/-- `d` is reported (if the computation neither crashes nor stops early). -/
def Says (S : Diag → Prop) (d : Diag) : Out α → Prop
  | .ret ds _ => d ∈ ds
  | .abort ds => d ∈ ds ∨ ∃ e ∈ ds, S e
  | .panic _ => True
  | .diverge => True

variable {d : Diag}

theorem Says.tell {x : Out α} (h : Says S d x) (ds : List Diag) : Says S d (x.tell ds) := by
  cases x with
  | ret es a => exact List.mem_append_right _ h
  | abort es =>
    rcases h with h | ⟨e, he, hs⟩
    · exact Or.inl (List.mem_append_right _ h)
    · exact Or.inr ⟨e, List.mem_append_right _ he, hs⟩
  | panic p => trivial
  | diverge => trivial

theorem Says.tell_here {x : Out α} {ds : List Diag} (h : d ∈ ds) : Says S d (x.tell ds) := by
  cases x with
  | ret es a => exact List.mem_append_left _ h
  | abort es => exact Or.inl (List.mem_append_left _ h)
  | panic p => trivial
  | diverge => trivial

theorem Says.bind {x : Out α} (h : Says S d x) (f : α → Out β) : Says S d (x.bind f) := by
  cases x with
  | ret ds a => exact Says.tell_here h
  | abort ds => exact h
  | panic p => trivial
  | diverge => trivial

theorem Says.after {x : Out α} {f : α → Out β} (h : Aborts S x) (hf : ∀ a, Says S d (f a)) :
    Says S d (x.bind f) := by
  cases x with
  | ret ds a => exact (hf a).tell ds
  | abort ds => exact Or.inr (h ds rfl)
  | panic p => trivial
  | diverge => trivial

end

/-! ### the expansion only stops at function generics -/

/-- function generics -/
def FG (d : Diag) : Prop := d = .functionGenerics

theorem newRaw_aborts (n : Str) : Aborts FG (newRaw n) := by
  unfold newRaw; split
  · exact .panic _
  · exact .ret _ _

theorem checkSpan_aborts (k : KebabIdent) : Aborts FG k.checkSpan := by
  unfold KebabIdent.checkSpan; split
  · exact .panic _
  · exact .ret _ _

theorem toSnakeIdent_aborts (k : KebabIdent) : Aborts FG k.toSnakeIdent :=
  .bind (checkSpan_aborts k) fun _ => newRaw_aborts _

theorem toLitStr_aborts (k : KebabOrStr) : Aborts FG k.toLitStr := by
  cases k with
  | kebab k => exact .bind (checkSpan_aborts k) fun _ => .ret _ _
  | str s => exact .ret _ _

theorem toIdentOrEmit_aborts (k : KebabOrStr) : Aborts FG k.toIdentOrEmit := by
  cases k with
  | kebab k => exact toSnakeIdent_aborts k
  | str s => exact .bind (.ret _ _) fun _ => .ret _ _

theorem value_aborts (v : Value) : Aborts FG v.toToks := by
  unfold Value.toToks
  split
  · exact .ret _ _
  · exact .ret _ _
  · split
    · exact .ret _ _
    · exact .bind (.ret _ _) fun _ => .ret _ _
  · exact .ret _ _

theorem optValue_aborts (v : Option Value) : Aborts FG (optValueToks v) := by
  cases v with
  | none => exact .ret _ _
  | some v => exact value_aborts v

theorem emitIfModifier_aborts (m : Option Ident) : Aborts FG (emitIfModifier m) := by
  cases m <;> exact .ret _ _

theorem useArgs_aborts (d : Directive) : Aborts FG (useDirectiveFnValue d) := by
  unfold useDirectiveFnValue
  extract_lets jp
  have hjp : ∀ u, Aborts FG (jp u) := by
    intro u
    refine .bind (toIdentOrEmit_aborts _) fun _ => .bind (emitIfModifier_aborts _) fun _ => ?_
    split
    · exact .ret _ _
    · exact .bind (value_aborts _) fun _ => .ret _ _
  split
  · exact .panic _
  · exact hjp ()

theorem event_aborts (d : Directive) : Aborts FG (eventListenerEventPath d) := by
  unfold eventListenerEventPath
  extract_lets jp jp2
  have hjp : ∀ u, Aborts FG (jp u) := by
    intro u
    simp only [jp]
    split
    · split
      · exact .ret _ _
      · exact .bind (.ret _ _) fun _ => .ret _ _
    · exact .ret _ _
  have hjp2 : ∀ u, Aborts FG (jp2 u) := by
    intro u
    simp only [jp2]
    split
    · exact .bind (toSnakeIdent_aborts _) fun _ => hjp _
    · exact .bind (.ret _ _) fun _ => .bind (.ret _ _) fun _ => hjp _
  split
  · exact .panic _
  · exact hjp2 ()

theorem xmlKv_aborts (a : KvAttr) (k : TagKind) : Aborts FG (xmlKvAttributeTokens a k) := by
  unfold xmlKvAttributeTokens
  split
  · exact .bind (checkSpan_aborts _) fun _ => .bind (value_aborts _) fun _ => .ret _ _
  · simp only
    split
    · exact .bind (value_aborts _) fun _ => .ret _ _
    · exact .bind (toSnakeIdent_aborts _) fun _ => .bind (value_aborts _) fun _ => .ret _ _

theorem xmlDirective_aborts (d : Directive) : Aborts FG (xmlDirectiveTokens d) := by
  unfold xmlDirectiveTokens
  split
  · exact .bind (toLitStr_aborts _) fun _ => .bind (emitIfModifier_aborts _) fun _ =>
      .bind (optValue_aborts _) fun _ => .ret _ _
  · split
    · exact .bind (toLitStr_aborts _) fun _ => .bind (emitIfModifier_aborts _) fun _ =>
        .bind (optValue_aborts _) fun _ => .ret _ _
    · split
      · exact .bind (event_aborts _) fun _ => .bind (optValue_aborts _) fun _ => .ret _ _
      · split
        · exact .bind (useArgs_aborts _) fun _ => .ret _ _
        · split
          · exact .bind (.ret _ _) fun _ => .ret _ _
          · exact .bind (.ret _ _) fun _ => .ret _ _

theorem xmlAttrsLoop_aborts (k : TagKind) (attrs : List Attr) :
    ∀ b, Aborts FG (xmlAttrsLoop k b attrs) := by
  induction attrs with
  | nil => exact fun b => .ret _ _
  | cons a as ih =>
    intro b
    cases a with
    | kv a => exact .bind (xmlKv_aborts _ _) fun _ => ih _
    | directive d => exact .bind (xmlDirective_aborts _) fun _ => ih _
    | spread e => exact ih _

theorem anyAttr_aborts (d : Directive) : Aborts FG (directiveToAnyAttrPath d) := by
  unfold directiveToAnyAttrPath
  simp only
  split
  · exact .bind (value_aborts _) fun _ => .ret _ _
  · split
    · refine .bind (toLitStr_aborts _) fun _ => ?_
      split
      · exact .bind (toIdentOrEmit_aborts _) fun _ => .bind (value_aborts _) fun _ => .ret _ _
      · exact .bind (toIdentOrEmit_aborts _) fun _ => .bind (value_aborts _) fun _ => .ret _ _
      · exact .bind (value_aborts _) fun _ => .ret _ _
      · exact .bind (toIdentOrEmit_aborts _) fun _ => .bind (value_aborts _) fun _ => .ret _ _
    · split
      · exact .bind (toIdentOrEmit_aborts _) fun _ => .bind (value_aborts _) fun _ => .ret _ _
      · split
        · exact .bind (event_aborts _) fun _ => .bind (optValue_aborts _) fun _ => .ret _ _
        · split
          · exact .bind (useArgs_aborts _) fun _ => .ret _ _
          · exact .ret _ _

theorem expectSome_aborts {α : Type} (p : PanicSite) (x : Option α) : Aborts FG (expectSome p x) := by
  cases x
  · exact .panic _
  · exact .ret _ _

theorem selectorsToPaths_aborts (sels : List Selector) : ∀ ids paths,
    Aborts FG (selectorsToPaths ids paths sels) := by
  induction sels with
  | nil => exact fun _ _ => .ret _ _
  | cons s ss ih =>
    intro ids paths
    cases s with
    | id k => exact ih _ _
    | cls k =>
      unfold selectorsToPaths
      exact .bind (anyAttr_aborts _) fun _ => .bind (expectSome_aborts _ _) fun _ => ih _ _

theorem componentSelectors_aborts (b : Bool) (sels : List Selector) :
    Aborts FG (componentSelectors b sels) := by
  unfold componentSelectors
  split
  · split
    · exact .bind (.ret _ _) fun _ => .ret _ _
    · exact .ret _ _
  · refine .bind (selectorsToPaths_aborts _ _ _) fun r => ?_
    obtain ⟨ids, paths⟩ := r
    simp only
    split
    · exact .ret _ _
    · exact .bind (anyAttr_aborts _) fun _ => .bind (expectSome_aborts _ _) fun _ => .ret _ _

theorem componentKv_aborts (a : KvAttr) : Aborts FG (componentKvAttributeTokens a) :=
  .bind (toSnakeIdent_aborts _) fun _ => .bind (value_aborts _) fun _ => .ret _ _

theorem clone_aborts (d : Directive) : Aborts FG (componentCloneTokens d) := by
  refine .bind (toIdentOrEmit_aborts _) fun _ => .bind (emitIfModifier_aborts _) fun _ => ?_
  split
  · exact .bind (.ret _ _) fun _ => .ret _ _
  · exact .ret _ _

theorem componentAttrsLoop_aborts (isSlot : Bool) (attrs : List Attr) :
    ∀ b, Aborts FG (componentAttrsLoop isSlot b attrs) := by
  induction attrs with
  | nil => exact fun b => .ret _ _
  | cons a as ih =>
    intro b
    cases a with
    | kv a => exact .bind (componentKv_aborts _) fun _ => ih _
    | spread e =>
      unfold componentAttrsLoop
      split
      · exact .bind (.ret _ _) fun _ => ih _
      · exact ih _
    | directive d =>
      unfold componentAttrsLoop
      split
      · exact .bind (emitIfModifier_aborts _) fun _ => .bind (clone_aborts _) fun _ => ih _
      · split
        · exact .bind (.ret _ _) fun _ => ih _
        · refine .bind (anyAttr_aborts _) fun r => ?_
          cases r with
          | some p => exact ih _
          | none => exact .bind (.ret _ _) fun _ => ih _

theorem turbofishSegs_aborts (ss : List PathSeg) : Aborts FG (turbofishSegs ss) := by
  induction ss with
  | nil => exact .ret _ _
  | cons s ss ih =>
    refine .bind ?_ fun _ => .bind ih fun _ => .ret _ _
    unfold turbofishSeg
    split
    · exact .ret _ _
    · exact .ret _ _
    · exact .abort rfl

theorem turbofishify_aborts (p : Path) : Aborts FG (turbofishify p) :=
  .bind (turbofishSegs_aborts _) fun _ => .ret _ _

theorem optOut_aborts {α : Type} {x : Option (Out α)} (h : ∀ y, x = some y → Aborts FG y) :
    Aborts FG (optOut x) := by
  cases x with
  | none => exact .ret _ _
  | some y => exact .bind (h y rfl) fun _ => .ret _ _

theorem slotMethods_aborts (es : List (Ident × List Toks)) : Aborts FG (slotMethods es) := by
  induction es with
  | nil => exact .ret _ _
  | cons e es ih =>
    refine .bind ?_ fun _ => .bind ih fun _ => .ret _ _
    unfold slotMethod
    refine .bind (newRaw_aborts _) fun _ => ?_
    split <;> exact .ret _ _

theorem slotsToTokens_aborts (order : List Nat) {x : Out (List (Ident × Toks))}
    (h : Aborts FG x) : Aborts FG (slotsToTokens order x) :=
  .bind h fun _ => slotMethods_aborts _

theorem xmlTagPath_aborts {tag : Tag} {o : Out Toks} (h : xmlTagPath tag = some o) :
    Aborts FG o := by
  unfold xmlTagPath at h
  split at h <;> simp at h <;> subst h
  · exact .ret _ _
  · exact .ret _ _
  · exact .ret _ _
  · exact .bind (checkSpan_aborts _) fun _ => .ret _ _

theorem xml_aborts {tag : Tag} {sels : List Selector} {attrs : List Attr}
    {nodes : Option (Out (List Toks))} (hn : ∀ y, nodes = some y → Aborts FG y) {o : Out Toks}
    (h : xmlToTokens tag sels attrs nodes = some o) : Aborts FG o := by
  unfold xmlToTokens at h
  split at h
  · simp at h
  · rename_i x hx
    simp only [Option.some.injEq] at h
    subst h
    exact .bind (xmlTagPath_aborts hx) fun _ => .bind (xmlAttrsLoop_aborts _ _ _) fun _ =>
      .bind (optOut_aborts hn) fun _ => .ret _ _

theorem component_aborts {b : Bool} {tag : Tag} {sels : List Selector} {attrs : List Attr}
    {args : Option Toks} {nodes : Option (Out (List Toks))} {slots : Option (Out Toks)}
    (hn : ∀ y, nodes = some y → Aborts FG y) (hs : ∀ y, slots = some y → Aborts FG y) {o : Out Toks}
    (h : componentToTokens b tag sels attrs args nodes slots = some o) : Aborts FG o := by
  unfold componentToTokens at h
  split at h
  · simp only [Option.some.injEq] at h
    subst h
    refine .bind (turbofishify_aborts _) fun _ => .bind (componentSelectors_aborts _ _) fun _ =>
      .bind (componentAttrsLoop_aborts _ _ _) fun _ => .bind (optOut_aborts hn) fun _ =>
      .bind (optOut_aborts hs) fun _ => ?_
    split <;> exact .ret _ _
  · simp at h

mutual
theorem expandElement_aborts (b : Bool) (s : Sched) : ∀ e, Aborts FG (expandElement b s e)
  | .mk tag sels attrs args none => by
    unfold expandElement
    split
    · rename_i o ho
      split at ho
      · exact component_aborts (by simp) (by simp) ho
      · split at ho
        · rename_i o' ho'
          simp only [Option.some.injEq] at ho
          subst ho
          exact xml_aborts (by simp) ho'
        · exact component_aborts (by simp) (by simp) ho
    · exact .panic _
  | .mk tag sels attrs args (some cs) => by
    have hn := expandNodes_aborts s.l cs
    have hs := slotsToTokens_aborts s.here (expandSlots_aborts s.r cs)
    have hn' : ∀ y, some (expandNodes s.l cs) = some y → Aborts FG y := by
      rintro _ ⟨⟩; exact hn
    have hs' : ∀ y, some (slotsToTokens s.here (expandSlots s.r cs)) = some y → Aborts FG y := by
      rintro _ ⟨⟩; exact hs
    unfold expandElement
    simp only
    split
    · rename_i o ho
      split at ho
      · exact component_aborts hn' hs' ho
      · split at ho
        · rename_i o' ho'
          simp only [Option.some.injEq] at ho
          subst ho
          exact xml_aborts hn' ho'
        · exact component_aborts hn' hs' ho
    · exact .panic _
theorem expandNodes_aborts (s : Sched) : ∀ cs, Aborts FG (expandNodes s cs)
  | [] => by unfold expandNodes; exact .ret _ _
  | .value v :: cs => by
    have := expandNodes_aborts s.r cs
    unfold expandNodes
    exact .bind (value_aborts v) fun _ => .bind this fun _ => .ret _ _
  | .elem e :: cs => by
    have := expandNodes_aborts s.r cs
    have he := expandElement_aborts false s.l e
    unfold expandNodes
    exact .bind he fun _ => .bind this fun _ => .ret _ _
  | .slot _ :: cs => by
    have := expandNodes_aborts s.r cs
    unfold expandNodes
    exact this
theorem expandSlots_aborts (s : Sched) : ∀ cs, Aborts FG (expandSlots s cs)
  | [] => by unfold expandSlots; exact .ret _ _
  | .value v :: cs => by
    have := expandSlots_aborts s.r cs
    unfold expandSlots
    exact this
  | .elem e :: cs => by
    have := expandSlots_aborts s.r cs
    unfold expandSlots
    exact this
  | .slot e :: cs => by
    have := expandSlots_aborts s.r cs
    have he := expandElement_aborts true s.l e
    unfold expandSlots
    split
    · split
      · exact .bind he fun _ => .bind this fun _ => .ret _ _
      · exact .bind (.ret _ _) fun _ => this
    · exact .panic _
end

/-! ### what the parts of an element say -/

section
variable {d : Diag}

theorem xmlAttrsLoop_says_directive {k : TagKind} {x : Directive}
    (h : Says FG d (xmlDirectiveTokens x)) {attrs : List Attr} (hx : .directive x ∈ attrs) :
    ∀ b, Says FG d (xmlAttrsLoop k b attrs) := by
  induction attrs with
  | nil => simp at hx
  | cons a as ih =>
    intro b
    rcases List.mem_cons.mp hx with rfl | hx'
    · exact Says.bind h _
    · cases a with
      | kv a => exact .after (xmlKv_aborts _ _) fun _ => ih hx' _
      | directive d => exact .after (xmlDirective_aborts _) fun _ => ih hx' _
      | spread e => exact ih hx' _

theorem xmlAttrsLoop_says_kv {k : TagKind} {x : KvAttr}
    (h : Says FG d (xmlKvAttributeTokens x k)) {attrs : List Attr} (hx : .kv x ∈ attrs) :
    ∀ b, Says FG d (xmlAttrsLoop k b attrs) := by
  induction attrs with
  | nil => simp at hx
  | cons a as ih =>
    intro b
    rcases List.mem_cons.mp hx with rfl | hx'
    · exact Says.bind h _
    · cases a with
      | kv a => exact .after (xmlKv_aborts _ _) fun _ => ih hx' _
      | directive d => exact .after (xmlDirective_aborts _) fun _ => ih hx' _
      | spread e => exact ih hx' _

/-- `componentAttrsLoop` says what it says on a single attribute -/
theorem componentAttrsLoop_says {isSlot : Bool} {x : Attr}
    (h : ∀ b as, Says FG d (componentAttrsLoop isSlot b (x :: as))) {attrs : List Attr}
    (hx : x ∈ attrs) : ∀ b, Says FG d (componentAttrsLoop isSlot b attrs) := by
  induction attrs with
  | nil => simp at hx
  | cons a as ih =>
    intro b
    rcases List.mem_cons.mp hx with rfl | hx'
    · exact h _ _
    · cases a with
      | kv a => exact .after (componentKv_aborts _) fun _ => ih hx' _
      | spread e =>
        unfold componentAttrsLoop
        split
        · exact .after (.ret _ _) fun _ => ih hx' _
        · exact ih hx' _
      | directive d =>
        unfold componentAttrsLoop
        split
        · exact .after (emitIfModifier_aborts _) fun _ => .after (clone_aborts _) fun _ => ih hx' _
        · split
          · exact .after (.ret _ _) fun _ => ih hx' _
          · refine .after (anyAttr_aborts _) fun r => ?_
            cases r with
            | some p => exact ih hx' _
            | none => exact .after (.ret _ _) fun _ => ih hx' _

/-- What an element says: from its attributes, or from its node children. -/
theorem xml_says {tag : Tag} {sels : List Selector} {attrs : List Attr}
    {nodes : Option (Out (List Toks))} {o : Out Toks}
    (h : xmlToTokens tag sels attrs nodes = some o)
    (hd : (∀ b, Says FG d (xmlAttrsLoop tag.kind b attrs)) ∨
      ∃ y, nodes = some y ∧ Says FG d y) : Says FG d o := by
  unfold xmlToTokens at h
  split at h
  · simp at h
  · rename_i x hx
    simp only [Option.some.injEq] at h
    subst h
    refine .after (xmlTagPath_aborts hx) fun _ => ?_
    rcases hd with hd | ⟨y, rfl, hd⟩
    · exact .bind (hd _) _
    · exact .after (xmlAttrsLoop_aborts _ _ _) fun _ => Says.bind (Says.bind hd _) _

/-- What a component or slot says: from its selectors, attributes, children, slots. -/
theorem component_says {b : Bool} {tag : Tag} {sels : List Selector} {attrs : List Attr}
    {args : Option Toks} {nodes : Option (Out (List Toks))} {slots : Option (Out Toks)}
    {o : Out Toks} (h : componentToTokens b tag sels attrs args nodes slots = some o)
    (hn : ∀ y, nodes = some y → Aborts FG y)
    (hd : Says FG d (componentSelectors b sels) ∨
      (∀ bufs, Says FG d (componentAttrsLoop b bufs attrs)) ∨
      (∃ y, nodes = some y ∧ Says FG d y) ∨ ∃ y, slots = some y ∧ Says FG d y) : Says FG d o := by
  unfold componentToTokens at h
  split at h
  · simp only [Option.some.injEq] at h
    subst h
    refine .after (turbofishify_aborts _) fun _ => ?_
    rcases hd with hd | hd | ⟨y, rfl, hd⟩ | ⟨y, rfl, hd⟩
    · exact .bind hd _
    · exact .after (componentSelectors_aborts _ _) fun _ => .bind (hd _) _
    · exact .after (componentSelectors_aborts _ _) fun _ =>
        .after (componentAttrsLoop_aborts _ _ _) fun _ => .bind (.bind hd _) _
    · exact .after (componentSelectors_aborts _ _) fun _ =>
        .after (componentAttrsLoop_aborts _ _ _) fun _ => .after (optOut_aborts hn) fun _ =>
          .bind (.bind hd _) _
  · simp at h

theorem expandNodes_says {c : Child} (hc : ∀ s cs, Says FG d (expandNodes s (c :: cs))) :
    ∀ {cs : List Child}, c ∈ cs → ∀ s, Says FG d (expandNodes s cs) := by
  intro cs hcs
  induction cs with
  | nil => simp at hcs
  | cons c' cs ih =>
    intro s
    rcases List.mem_cons.mp hcs with rfl | hcs'
    · exact hc _ _
    · have := ih hcs' s.r
      cases c' with
      | value v =>
        unfold expandNodes
        exact .after (value_aborts v) fun _ => .bind this _
      | elem e =>
        unfold expandNodes
        exact .after (expandElement_aborts _ _ e) fun _ => .bind this _
      | slot e =>
        unfold expandNodes
        exact this

theorem expandSlots_says {c : Child} (hc : ∀ s cs, Says FG d (expandSlots s (c :: cs))) :
    ∀ {cs : List Child}, c ∈ cs → ∀ s, Says FG d (expandSlots s cs) := by
  intro cs hcs
  induction cs with
  | nil => simp at hcs
  | cons c' cs ih =>
    intro s
    rcases List.mem_cons.mp hcs with rfl | hcs'
    · exact hc _ _
    · have := ih hcs' s.r
      cases c' with
      | value v => unfold expandSlots; exact this
      | elem e => unfold expandSlots; exact this
      | slot e =>
        unfold expandSlots
        split
        · split
          · exact .after (expandElement_aborts _ _ e) fun _ => .bind this _
          · exact .after (.ret _ _) fun _ => this
        · trivial

theorem elem_says {e : Element} (h : ∀ s, Says FG d (expandElement false s e)) (s : Sched)
    (cs : List Child) : Says FG d (expandNodes s (.elem e :: cs)) := by
  unfold expandNodes
  exact .bind (h _) _

theorem value_says {v : Value} (h : Says FG d v.toToks) (s : Sched)
    (cs : List Child) : Says FG d (expandNodes s (.value v :: cs)) := by
  unfold expandNodes
  exact .bind h _

theorem slot_says {e : Element} (hn : e.slotName.isSome)
    (h : ∀ s, Says FG d (expandElement true s e)) (s : Sched)
    (cs : List Child) : Says FG d (expandSlots s (.slot e :: cs)) := by
  unfold expandSlots
  unfold Element.slotName at hn
  split at hn
  · rename_i n he
    rw [he]
    simp only [Path.getIdent]
    exact .bind (h _) _
  · simp at hn

/-- an element says what its nodes say -/
theorem element_says_nodes {b : Bool} {tag : Tag} {sels : List Selector} {attrs : List Attr}
    {args : Option Toks} {cs : List Child} (h : ∀ s, Says FG d (expandNodes s cs)) (s : Sched) :
    Says FG d (expandElement b s (.mk tag sels attrs args (some cs))) := by
  have hn' : ∀ y, some (expandNodes s.l cs) = some y → Aborts FG y := by
    rintro _ ⟨⟩; exact expandNodes_aborts _ _
  unfold expandElement
  simp only
  split
  · rename_i o ho
    split at ho
    · exact component_says ho hn' (Or.inr (Or.inr (Or.inl ⟨_, rfl, h _⟩)))
    · split at ho
      · rename_i o' ho'
        simp only [Option.some.injEq] at ho
        subst ho
        exact xml_says ho' (Or.inr ⟨_, rfl, h _⟩)
      · exact component_says ho hn' (Or.inr (Or.inr (Or.inl ⟨_, rfl, h _⟩)))
  · trivial

/-- a component or slot says what its slots say -/
theorem element_says_slots {b : Bool} {p : Path} {sels : List Selector} {attrs : List Attr}
    {args : Option Toks} {cs : List Child} (h : ∀ s, Says FG d (expandSlots s cs)) (s : Sched) :
    Says FG d (expandElement b s (.mk (.component p) sels attrs args (some cs))) := by
  have hn' : ∀ y, some (expandNodes s.l cs) = some y → Aborts FG y := by
    rintro _ ⟨⟩; exact expandNodes_aborts _ _
  have hs : Says FG d (slotsToTokens s.here (expandSlots s.r cs)) := .bind (h _) _
  unfold expandElement
  simp only
  split
  · rename_i o ho
    split at ho
    · exact component_says ho hn' (Or.inr (Or.inr (Or.inr ⟨_, rfl, hs⟩)))
    · split at ho
      · rename_i o' ho'
        simp [xmlToTokens, xmlTagPath] at ho'
      · exact component_says ho hn' (Or.inr (Or.inr (Or.inr ⟨_, rfl, hs⟩)))
  · trivial

/-- an element says what its attributes say -/
theorem element_says_attrs {tag : Tag} {sels : List Selector} {attrs : List Attr}
    {args : Option Toks} {cs : Option (List Child)} (hk : ∀ p, tag ≠ .component p)
    (h : ∀ b, Says FG d (xmlAttrsLoop tag.kind b attrs)) (s : Sched) :
    Says FG d (expandElement false s (.mk tag sels attrs args cs)) := by
  cases cs with
  | none =>
    unfold expandElement
    simp only [Bool.false_eq_true, if_false]
    split
    · rename_i o ho
      split at ho
      · rename_i o' ho'
        simp only [Option.some.injEq] at ho
        subst ho
        exact xml_says ho' (Or.inl h)
      · cases tag with
        | component p => exact absurd rfl (hk p)
        | _ => simp [componentToTokens] at ho
    · trivial
  | some cs =>
    unfold expandElement
    simp only [Bool.false_eq_true, if_false]
    split
    · rename_i o ho
      split at ho
      · rename_i o' ho'
        simp only [Option.some.injEq] at ho
        subst ho
        exact xml_says ho' (Or.inl h)
      · cases tag with
        | component p => exact absurd rfl (hk p)
        | _ => simp [componentToTokens] at ho
    · trivial

/-- a component or slot says what its selectors and attributes say -/
theorem component_says_own {b : Bool} {p : Path} {sels : List Selector} {attrs : List Attr}
    {args : Option Toks} {cs : Option (List Child)}
    (h : Says FG d (componentSelectors b sels) ∨
      (∀ bufs, Says FG d (componentAttrsLoop b bufs attrs))) (s : Sched) :
    Says FG d (expandElement b s (.mk (.component p) sels attrs args cs)) := by
  have hd := fun {x y : Prop} => h.imp_right (Or.inl (b := x ∨ y))
  have hx : ∀ n, xmlToTokens (.component p) sels attrs n = none := fun _ => rfl
  cases cs with
  | none =>
    unfold expandElement
    simp only [hx]
    cases b <;> simp only [Bool.false_eq_true, if_false, if_true] <;> split
    · rename_i o ho; exact component_says ho (by simp) hd
    · trivial
    · rename_i o ho; exact component_says ho (by simp) hd
    · trivial
  | some cs =>
    have hn' : ∀ y, some (expandNodes s.l cs) = some y → Aborts FG y := by
      rintro _ ⟨⟩; exact expandNodes_aborts _ _
    unfold expandElement
    simp only [hx]
    cases b <;> simp only [Bool.false_eq_true, if_false, if_true] <;> split
    · rename_i o ho; exact component_says ho hn' hd
    · trivial
    · rename_i o ho; exact component_says ho hn' hd
    · trivial

/-! ### the root -/

/-- function generics or a slot at the top level -/
def Stop (d : Diag) : Prop := d = .functionGenerics ∨ d = .slotAtTopLevel

theorem Aborts.stop {α : Type} {x : Out α} (h : Aborts FG x) : Aborts Stop x := by
  intro ds hd
  obtain ⟨e, he, hf⟩ := h ds hd
  exact ⟨e, he, Or.inl hf⟩

theorem Says.stop {α : Type} {x : Out α} (h : Says FG d x) : Says Stop d x := by
  cases x with
  | abort ds =>
    rcases h with h | ⟨e, he, hf⟩
    · exact Or.inl h
    · exact Or.inr ⟨e, he, Or.inl hf⟩
  | _ => exact h

theorem expandRoot_says {root : List Child} (h : ∀ s, Says FG d (expandNodes s root))
    (s : Sched) : Says Stop d (expandRoot s root) := by
  unfold expandRoot
  split
  · exact Or.inr ⟨_, by simp, Or.inr rfl⟩
  · exact .bind (h s).stop _
  · split
    · exact Or.inr ⟨_, by simp, Or.inr rfl⟩
    · exact .bind (h s).stop _

theorem expandRoot_aborts (s : Sched) (root : List Child) : Aborts Stop (expandRoot s root) := by
  unfold expandRoot
  split
  · exact .abort (Or.inr rfl)
  · exact .bind (expandNodes_aborts _ _).stop fun _ => .ret _ _
  · split
    · exact .abort (Or.inr rfl)
    · exact .bind (expandNodes_aborts _ _).stop fun _ => .ret _ _

/-- What an element that is expanded says is said by the root. -/
theorem reached_says {root : List Child} {b : Bool} {e : Element} (hr : Reached root b e)
    (h : ∀ s, Says FG d (expandElement b s e)) (s : Sched) : Says Stop d (expandRoot s root) := by
  induction hr generalizing s with
  | root he => exact expandRoot_says (fun s => expandNodes_says (elem_says h) he s) s
  | child _ he ih =>
    exact ih (fun s => element_says_nodes (fun s => expandNodes_says (elem_says h) he s) s) s
  | slot _ he hn ih =>
    exact ih (fun s => element_says_slots (fun s => expandSlots_says (slot_says hn h) he s) s) s

/-- What the root says is reported by the macro. -/
theorem reported_of_says {pp : PathParser} {ts : Toks} {root : List Child} (hr : Reads pp ts root)
    {s : Sched} (h : Says Stop d (expandRoot s root)) : Reported pp s ts d := by
  obtain ⟨ds, hp⟩ := hr
  have ht := mview_terminates pp s ts
  unfold Reported
  unfold mview mviewImpl at ht ⊢
  rw [hp, Out.monad_bind] at ht ⊢
  simp only [Out.bind] at ht ⊢
  cases he : expandRoot s root with
  | ret es out =>
    rw [he] at h
    have h : d ∈ es := h
    have : ds ++ es ≠ [] := by
      intro hn; simp [(List.append_eq_nil_iff.mp hn).2] at h
    simp only [Out.tell]
    exact Or.inl (List.mem_append_right _ h)
  | abort es =>
    rw [he] at h
    simp only [Out.tell]
    rcases h with h | ⟨e, he, rfl | rfl⟩
    · exact Or.inl (List.mem_append_right _ h)
    · exact Or.inr (Or.inl (List.mem_append_right _ he))
    · exact Or.inr (Or.inr (List.mem_append_right _ he))
  | panic p => trivial
  | diverge => rw [he] at ht; simp [Out.tell] at ht

/-- What an element that is expanded says is reported by the macro. -/
theorem reported_of_reached {pp : PathParser} {ts : Toks} {root : List Child}
    (hr : Reads pp ts root) {b : Bool} {e : Element} (hp : Reached root b e)
    (h : ∀ s, Says FG d (expandElement b s e)) (s : Sched) : Reported pp s ts d :=
  reported_of_says hr (reached_says hp h s)

end

end Mview
