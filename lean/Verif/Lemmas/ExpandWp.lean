import Verif.Lemmas.ParseWp
/-
The expanders terminate and panic only where the invariant allows.
-/

namespace Mview

section
variable {pp : PathParser} {I : Inv pp}

/-- no panic, no divergence, whatever the value -/
abbrev Safe {α : Type} (I : Inv pp) (x : Out α) : Prop := Out.wp I.A (fun _ => True) x

theorem Safe.bind {α β : Type} {x : Out α} {f : α → Out β} (h : Safe I x)
    (hf : ∀ a, Safe I (f a)) : Safe I (x.bind f) := by
  unfold Safe
  rw [Out.wp_bind]
  exact Out.wp_mono (fun a _ => hf a) h

theorem Safe.bind' {α β : Type} {x : Out α} {f : α → Out β} {Q : α → Prop}
    (h : Out.wp I.A Q x) (hf : ∀ a, Q a → Safe I (f a)) : Safe I (x.bind f) := by
  unfold Safe
  rw [Out.wp_bind]
  exact Out.wp_mono hf h

theorem Safe.ret {α : Type} {ds} {a : α} : Safe I (.ret ds a) := trivial

theorem Safe.ofWp {α : Type} {x : Out α} {Q : α → Prop} (h : Out.wp I.A Q x) : Safe I x :=
  Out.wp_mono (fun _ _ => trivial) h

theorem checkSpan_safe {k : KebabIdent} (h : 0 < k.spans) : Safe I k.checkSpan := by
  unfold KebabIdent.checkSpan
  rw [if_neg (by omega)]
  exact Safe.ret

theorem toSnakeIdent_safe {k : KebabIdent} (h : k.Ok I) : Safe I k.toSnakeIdent :=
  Safe.ofWp (toSnakeIdent_wp I h)

theorem Value.toToks_safe (v : Value) : Safe I v.toToks := by
  unfold Value.toToks
  split
  · exact Safe.ret
  · exact Safe.ret
  · split
    · exact Safe.ret
    · exact Safe.bind Safe.ret fun _ => Safe.ret
  · exact Safe.ret

theorem optValueToks_safe (v : Option Value) : Safe I (optValueToks v) := by
  cases v with
  | none => exact Safe.ret
  | some v => exact v.toToks_safe

theorem toLitStr_safe {k : KebabOrStr} (h : k.Ok I) : Safe I k.toLitStr := by
  cases k with
  | kebab k => exact Safe.bind (checkSpan_safe h.1) fun _ => Safe.ret
  | str s => exact Safe.ret

theorem toIdentOrEmit_safe {k : KebabOrStr} (h : k.Ok I) : Safe I k.toIdentOrEmit := by
  cases k with
  | kebab k => exact toSnakeIdent_safe h
  | str s => exact Safe.bind Safe.ret fun _ => Safe.ret

theorem emitIfModifier_safe (m : Option Ident) : Safe I (emitIfModifier m) := by
  cases m <;> exact Safe.ret

theorem turbofishSegs_safe (ss : List PathSeg) : Safe I (turbofishSegs ss) := by
  induction ss with
  | nil => exact Safe.ret
  | cons s ss ih =>
    refine Safe.bind ?_ fun _ => Safe.bind ih fun _ => Safe.ret
    unfold turbofishSeg
    split
    · exact Safe.ret
    · exact Safe.ret
    · exact trivial

theorem turbofishify_safe (p : Path) : Safe I (turbofishify p) :=
  Safe.bind (turbofishSegs_safe _) fun _ => Safe.ret

theorem useDirectiveFnValue_safe {d : Directive} (h : d.key.Ok I) (hd : d.dir = ⟨false, c!"use"⟩) :
    Safe I (useDirectiveFnValue d) := by
  unfold useDirectiveFnValue
  simp only [hd, ne_eq, not_true, if_false]
  refine Safe.bind (toIdentOrEmit_safe h) fun _ =>
    Safe.bind (emitIfModifier_safe _) fun _ => ?_
  split
  · exact Safe.ret
  · exact Safe.bind (Value.toToks_safe _) fun _ => Safe.ret

theorem eventListenerEventPath_safe {d : Directive} (h : d.key.Ok I)
    (hd : d.dir = ⟨false, c!"on"⟩) : Safe I (eventListenerEventPath d) := by
  unfold eventListenerEventPath
  simp only [hd, ne_eq, not_true, if_false]
  have fin : ∀ ev : Ident, Safe I (match d.modifier with
      | some m =>
        if m = ⟨false, c!"undelegated"⟩ then
          pure (eventMod ++ tColon2 ++ [.ident m, tParen (eventMod ++ tColon2 ++ [.ident ev])])
        else do
          emit (.unknownModifier m)
          pure (eventMod ++ tColon2 ++ [.ident ev])
      | none => pure (eventMod ++ tColon2 ++ [.ident ev])) := by
    intro ev
    split
    · split
      · exact Safe.ret
      · exact Safe.bind Safe.ret fun _ => Safe.ret
    · exact Safe.ret
  split
  · rename_i k hk
    rw [hk] at h
    exact Safe.bind (toSnakeIdent_safe h) fin
  · exact Safe.bind Safe.ret fun _ => Safe.bind Safe.ret fin

theorem xmlKvAttributeTokens_safe {a : KvAttr} (h : a.key.Ok I) (t : TagKind) :
    Safe I (xmlKvAttributeTokens a t) := by
  unfold xmlKvAttributeTokens
  split
  · exact Safe.bind (checkSpan_safe h.1) fun _ => Safe.bind (Value.toToks_safe _) fun _ => Safe.ret
  · extract_lets
    split
    · exact Safe.bind (Value.toToks_safe _) fun _ => Safe.ret
    · exact Safe.bind (toSnakeIdent_safe h) fun _ =>
        Safe.bind (Value.toToks_safe _) fun _ => Safe.ret

theorem xmlDirectiveTokens_safe {d : Directive} (h : d.key.Ok I) :
    Safe I (xmlDirectiveTokens d) := by
  unfold xmlDirectiveTokens
  split
  · exact Safe.bind (toLitStr_safe h) fun _ => Safe.bind (emitIfModifier_safe _) fun _ =>
      Safe.bind (optValueToks_safe _) fun _ => Safe.ret
  · split
    · exact Safe.bind (toLitStr_safe h) fun _ => Safe.bind (emitIfModifier_safe _) fun _ =>
        Safe.bind (optValueToks_safe _) fun _ => Safe.ret
    · split
      · rename_i hd
        exact Safe.bind (eventListenerEventPath_safe h hd) fun _ =>
          Safe.bind (optValueToks_safe _) fun _ => Safe.ret
      · split
        · rename_i hd
          exact Safe.bind (useDirectiveFnValue_safe h hd) fun _ => Safe.ret
        · split
          · exact Safe.bind Safe.ret fun _ => Safe.ret
          · exact Safe.bind Safe.ret fun _ => Safe.ret

theorem componentKvAttributeTokens_safe {a : KvAttr} (h : a.key.Ok I) :
    Safe I (componentKvAttributeTokens a) :=
  Safe.bind (toSnakeIdent_safe h) fun _ => Safe.bind (Value.toToks_safe _) fun _ => Safe.ret

theorem componentCloneTokens_safe {d : Directive} (h : d.key.Ok I) :
    Safe I (componentCloneTokens d) := by
  unfold componentCloneTokens
  refine Safe.bind (toIdentOrEmit_safe h) fun _ => Safe.bind (emitIfModifier_safe _) fun _ => ?_
  split
  · exact Safe.bind Safe.ret fun _ => Safe.ret
  · exact Safe.ret

theorem directiveToAnyAttrPath_safe {d : Directive} (h : d.key.Ok I) :
    Safe I (directiveToAnyAttrPath d) := by
  unfold directiveToAnyAttrPath
  extract_lets
  split
  · exact Safe.bind (Value.toToks_safe _) fun _ => Safe.ret
  · split
    · refine Safe.bind (toLitStr_safe h) fun _ => ?_
      split
      · exact Safe.bind (toIdentOrEmit_safe h) fun _ => Safe.bind (Value.toToks_safe _) fun _ =>
          Safe.ret
      · exact Safe.bind (toIdentOrEmit_safe h) fun _ => Safe.bind (Value.toToks_safe _) fun _ =>
          Safe.ret
      · exact Safe.bind (Value.toToks_safe _) fun _ => Safe.ret
      · exact Safe.bind (toIdentOrEmit_safe h) fun _ => Safe.bind (Value.toToks_safe _) fun _ =>
          Safe.ret
    · split
      · exact Safe.bind (toIdentOrEmit_safe h) fun _ => Safe.bind (Value.toToks_safe _) fun _ =>
          Safe.ret
      · split
        · rename_i hd
          exact Safe.bind (eventListenerEventPath_safe h hd) fun _ =>
            Safe.bind (optValueToks_safe _) fun _ => Safe.ret
        · split
          · rename_i hd
            exact Safe.bind (useDirectiveFnValue_safe h hd) fun _ => Safe.ret
          · exact Safe.ret

theorem xmlAttrsLoop_safe (kind : TagKind) (attrs : List Attr) : ∀ (b : XmlBufs),
    (∀ a ∈ attrs, a.Ok I) → Safe I (xmlAttrsLoop kind b attrs) := by
  induction attrs with
  | nil => intro b _; exact Safe.ret
  | cons a as ih =>
    intro b h
    have ha := h a (by simp)
    have has : ∀ a ∈ as, a.Ok I := fun x hx => h x (by simp [hx])
    cases a with
    | kv a => exact Safe.bind (xmlKvAttributeTokens_safe ha _) fun _ => ih _ has
    | directive d => exact Safe.bind (xmlDirectiveTokens_safe ha) fun _ => ih _ has
    | spread e => exact ih _ has

theorem optOut_safe {α : Type} {x : Option (Out α)} (h : ∀ o, x = some o → Safe I o) :
    Safe I (optOut x) := by
  cases x with
  | none => exact Safe.ret
  | some o => exact Safe.bind (h o rfl) fun _ => Safe.ret

theorem xmlToTokens_safe {tag : Tag} {sels : List Selector} {attrs : List Attr}
    {nodes : Option (Out (List Toks))} {o : Out Toks} (ht : tag.Ok I) (ha : ∀ a ∈ attrs, a.Ok I)
    (hn : ∀ o, nodes = some o → Safe I o) (h : xmlToTokens tag sels attrs nodes = some o) :
    Safe I o := by
  unfold xmlToTokens at h
  split at h
  · simp at h
  · rename_i tp htp
    simp only [Option.some.injEq] at h
    subst h
    refine Safe.bind ?_ fun _ => Safe.bind (xmlAttrsLoop_safe _ _ _ ha) fun _ =>
      Safe.bind (optOut_safe hn) fun _ => Safe.ret
    cases tag <;> simp [xmlTagPath] at htp <;> subst htp
    · exact Safe.ret
    · exact Safe.ret
    · exact Safe.ret
    · exact Safe.bind (checkSpan_safe ht) fun _ => Safe.ret

theorem selectorsToPaths_safe (sels : List Selector) : ∀ (ids : List KebabIdent)
    (paths : List Toks), Safe I (selectorsToPaths ids paths sels) := by
  induction sels with
  | nil => intro ids paths; exact Safe.ret
  | cons s ss ih =>
    intro ids paths
    cases s with
    | id k => exact ih _ _
    | cls k =>
      simp only [selectorsToPaths, directiveToAnyAttrPath, true_or, if_true, valueOrTrue, Value.newTrue,
        Value.toToks, Out.monad_bind, Out.monad_pure, Out.bind_ret, Out.tell_nil, expectSome]
      exact ih _ _

theorem componentSelectors_safe (isSlot : Bool) (sels : List Selector) :
    Safe I (componentSelectors isSlot sels) := by
  unfold componentSelectors
  split
  · split
    · exact Safe.bind Safe.ret fun _ => Safe.ret
    · exact Safe.ret
  · refine Safe.bind (selectorsToPaths_safe _ _ _) ?_
    rintro ⟨ids, paths⟩
    dsimp only
    split
    · exact Safe.ret
    · exact Safe.ret

theorem componentAttrsLoop_safe (isSlot : Bool) (attrs : List Attr) : ∀ (b : CompBufs),
    (∀ a ∈ attrs, a.Ok I) → Safe I (componentAttrsLoop isSlot b attrs) := by
  induction attrs with
  | nil => intro b _; exact Safe.ret
  | cons a as ih =>
    intro b h
    have ha := h a (by simp)
    have has : ∀ a ∈ as, a.Ok I := fun x hx => h x (by simp [hx])
    cases a with
    | kv a => exact Safe.bind (componentKvAttributeTokens_safe ha) fun _ => ih _ has
    | spread e =>
      unfold componentAttrsLoop
      split
      · exact Safe.bind Safe.ret fun _ => ih _ has
      · exact ih _ has
    | directive d =>
      unfold componentAttrsLoop
      split
      · exact Safe.bind (emitIfModifier_safe _) fun _ =>
          Safe.bind (componentCloneTokens_safe ha) fun _ => ih _ has
      · split
        · exact Safe.bind Safe.ret fun _ => ih _ has
        · refine Safe.bind (directiveToAnyAttrPath_safe ha) fun r => ?_
          split
          · exact ih _ has
          · exact Safe.bind Safe.ret fun _ => ih _ has

theorem componentToTokens_safe {isSlot : Bool} {tag : Tag} {sels : List Selector}
    {attrs : List Attr} {args : Option Toks} {nodes : Option (Out (List Toks))}
    {slots : Option (Out Toks)} {o : Out Toks} (ha : ∀ a ∈ attrs, a.Ok I)
    (hn : ∀ o, nodes = some o → Safe I o) (hs : ∀ o, slots = some o → Safe I o)
    (h : componentToTokens isSlot tag sels attrs args nodes slots = some o) : Safe I o := by
  unfold componentToTokens at h
  split at h
  · simp only [Option.some.injEq] at h
    subst h
    refine Safe.bind (turbofishify_safe _) fun _ => Safe.bind (componentSelectors_safe _ _) fun _ =>
      Safe.bind (componentAttrsLoop_safe _ _ _ ha) fun _ => Safe.bind (optOut_safe hn) fun _ =>
      Safe.bind (optOut_safe hs) fun _ => ?_
    split <;> exact Safe.ret
  · simp at h

/-- One of the two expansions applies. -/
theorem xml_or_component (tag : Tag) (sels attrs args nodes slots) :
    (∃ o, xmlToTokens tag sels attrs nodes = some o) ∨
    (∃ o, componentToTokens false tag sels attrs args nodes slots = some o) := by
  cases tag
  case component => exact Or.inr ⟨_, rfl⟩
  all_goals exact Or.inl ⟨_, rfl⟩

theorem pushSlot_names {name n : Ident} {t : Toks} {m : List (Ident × List Toks)} {ts}
    (h : (n, ts) ∈ pushSlot name t m) : n = name ∨ ∃ ts', (n, ts') ∈ m := by
  induction m with
  | nil => simp [pushSlot] at h; exact Or.inl h.1
  | cons e es ih =>
    obtain ⟨n', ts'⟩ := e
    unfold pushSlot at h
    split at h
    · simp at h
      rcases h with ⟨rfl, _⟩ | h
      · exact Or.inr ⟨ts', by simp⟩
      · exact Or.inr ⟨ts, by simp [h]⟩
    · simp at h
      rcases h with ⟨rfl, rfl⟩ | h
      · exact Or.inr ⟨ts, by simp⟩
      · rcases ih h with rfl | ⟨ts'', h⟩
        · exact Or.inl rfl
        · exact Or.inr ⟨ts'', by simp [h]⟩

theorem groupSlots_names (ss : List (Ident × Toks)) : ∀ (m : List (Ident × List Toks)) {n ts},
    (n, ts) ∈ groupSlots ss m → (∃ t, (n, t) ∈ ss) ∨ ∃ ts', (n, ts') ∈ m := by
  induction ss with
  | nil => intro m n ts h; exact Or.inr ⟨ts, h⟩
  | cons s ss ih =>
    intro m n ts h
    obtain ⟨n', t'⟩ := s
    rcases ih _ h with ⟨t, ht⟩ | ⟨ts', h⟩
    · exact Or.inl ⟨t, by simp [ht]⟩
    · rcases pushSlot_names h with rfl | h
      · exact Or.inl ⟨t', by simp⟩
      · exact Or.inr h

theorem mem_insertAt {α : Type} {a x : α} : ∀ {n : Nat} {xs : List α},
    x ∈ insertAt a n xs ↔ x = a ∨ x ∈ xs := by
  intro n xs
  induction xs generalizing n with
  | nil => cases n <;> simp [insertAt]
  | cons y ys ih =>
    cases n with
    | zero => simp [insertAt]
    | succ n => simp only [insertAt, List.mem_cons, ih]; constructor <;> (rintro (h | h | h) <;> simp [h])

theorem mem_permute {α : Type} {x : α} : ∀ {ns : List Nat} {xs : List α},
    x ∈ permute ns xs ↔ x ∈ xs := by
  intro ns xs
  induction xs generalizing ns with
  | nil => cases ns <;> simp [permute]
  | cons y ys ih =>
    cases ns with
    | nil => simp [permute]
    | cons n ns => simp [permute, mem_insertAt, ih]

theorem slotMethods_safe (es : List (Ident × List Toks))
    (h : ∀ n ts, (n, ts) ∈ es → RawOk I.A (upperCamelToSnake n.name)) :
    Safe I (slotMethods es) := by
  induction es with
  | nil => exact Safe.ret
  | cons e es ih =>
    refine Safe.bind ?_ fun _ => Safe.bind (ih fun n ts h' => h n ts (by simp [h'])) fun _ =>
      Safe.ret
    unfold slotMethod
    refine Safe.bind (Safe.ofWp (newRaw_wp I (h e.1 e.2 (by simp)))) fun _ => ?_
    split <;> exact Safe.ret

theorem slotsToTokens_safe {order : List Nat} {slots : Out (List (Ident × Toks))}
    (h : Out.wp I.A (fun ss => ∀ n t, (n, t) ∈ ss → RawOk I.A (upperCamelToSnake n.name)) slots) :
    Safe I (slotsToTokens order slots) := by
  unfold slotsToTokens
  refine Safe.bind' h fun ss hss => slotMethods_safe _ ?_
  intro n ts hm
  rw [mem_permute] at hm
  rcases groupSlots_names _ _ hm with ⟨t, ht⟩ | ⟨_, h⟩
  · exact hss n t ht
  · simp at h

/-- what `expandSlots` yields -/
def SlotsPost (I : Inv pp) (ss : List (Ident × Toks)) : Prop :=
  ∀ n t, (n, t) ∈ ss → RawOk I.A (upperCamelToSnake n.name)

mutual
theorem expandElement_safe (asSlot : Bool) (s : Sched) : ∀ (e : Element), e.Ok I →
    (asSlot = true → ∃ p, e.tag = .component p) → Safe I (expandElement asSlot s e)
  | .mk tag sels attrs args none, h, hc => by
    simp only [Element.Ok] at h
    unfold expandElement
    cases asSlot with
    | true =>
      obtain ⟨p, hp⟩ := hc rfl
      simp only [Element.tag] at hp
      subst hp
      simp only [if_true]
      split
      · rename_i o ho
        exact componentToTokens_safe h.2 (by simp) (by simp) ho
      · rename_i ho; simp [componentToTokens] at ho
    | false =>
      simp only [Bool.false_eq_true, if_false]
      have hx := fun o => xmlToTokens_safe (sels := sels) (nodes := none) (o := o) h.1 h.2 (by simp)
      have hcomp := fun o => componentToTokens_safe (I := I) (isSlot := false) (tag := tag)
        (sels := sels) (args := args) (nodes := none) (slots := none) (o := o) h.2 (by simp) (by simp)
      rcases xml_or_component tag sels attrs args none none with ⟨o, ho⟩ | ⟨o, ho⟩
      · rw [ho]; exact hx o ho
      · cases hxm : xmlToTokens tag sels attrs none with
        | some o' => exact hx o' hxm
        | none => simp only [ho]; exact hcomp o ho
  | .mk tag sels attrs args (some cs), h, hc => by
    simp only [Element.Ok] at h
    have hn : ∀ o, some (expandNodes s.l cs) = some o → Safe I o := by
      intro o ho; simp only [Option.some.injEq] at ho; subst ho
      exact expandNodes_safe s.l cs h.2.2
    have hs : ∀ o, some (slotsToTokens s.here (expandSlots s.r cs)) = some o → Safe I o := by
      intro o ho; simp only [Option.some.injEq] at ho; subst ho
      exact slotsToTokens_safe (expandSlots_safe s.r cs h.2.2)
    unfold expandElement
    extract_lets nodes slots
    cases asSlot with
    | true =>
      obtain ⟨p, hp⟩ := hc rfl
      simp only [Element.tag] at hp
      subst hp
      simp only [if_true]
      split
      · rename_i o ho
        exact componentToTokens_safe h.2.1 hn hs ho
      · rename_i ho; simp [componentToTokens] at ho
    | false =>
      simp only [Bool.false_eq_true, if_false]
      have hx := fun o => xmlToTokens_safe (sels := sels) (o := o) h.1 h.2.1 hn
      have hcomp := fun o => componentToTokens_safe (I := I) (isSlot := false) (tag := tag)
        (sels := sels) (args := args) (o := o) h.2.1 hn hs
      rcases xml_or_component tag sels attrs args (some nodes) (some slots) with ⟨o, ho⟩ | ⟨o, ho⟩
      · rw [ho]; exact hx o ho
      · cases hxm : xmlToTokens tag sels attrs (some nodes) with
        | some o' => exact hx o' hxm
        | none => simp only [ho]; exact hcomp o ho

theorem expandNodes_safe (s : Sched) : ∀ (cs : List Child), childrenOk I cs →
    Safe I (expandNodes s cs)
  | [], _ => by unfold expandNodes; exact Safe.ret
  | .value v :: cs, h => by
    simp only [childrenOk] at h
    unfold expandNodes
    exact Safe.bind v.toToks_safe fun _ => Safe.bind (expandNodes_safe s.r cs h.2) fun _ => Safe.ret
  | .elem e :: cs, h => by
    simp only [childrenOk, Child.Ok] at h
    unfold expandNodes
    exact Safe.bind (expandElement_safe false s.l e h.1 (by simp)) fun _ =>
      Safe.bind (expandNodes_safe s.r cs h.2) fun _ => Safe.ret
  | .slot _ :: cs, h => by
    simp only [childrenOk] at h
    unfold expandNodes
    exact expandNodes_safe s.r cs h.2

theorem expandSlots_safe (s : Sched) : ∀ (cs : List Child), childrenOk I cs →
    Out.wp I.A (SlotsPost I) (expandSlots s cs)
  | [], _ => by
    unfold expandSlots
    exact fun _ _ h => by simp at h
  | .value _ :: cs, h => by
    simp only [childrenOk] at h
    unfold expandSlots
    exact expandSlots_safe s.r cs h.2
  | .elem _ :: cs, h => by
    simp only [childrenOk] at h
    unfold expandSlots
    exact expandSlots_safe s.r cs h.2
  | .slot e :: cs, h => by
    simp only [childrenOk, Child.Ok] at h
    have ih := expandSlots_safe s.r cs h.2
    have htag := h.1.1.tag
    unfold expandSlots
    split
    · rename_i path hp
      rw [hp] at htag
      split
      · rename_i name hname
        simp only [Out.monad_bind, Out.wp_bind]
        refine Out.wp_mono ?_ (expandElement_safe true s.l e h.1.1 fun _ => ⟨path, hp⟩)
        intro t _
        refine Out.wp_mono ?_ ih
        intro ss hss n t' hm
        simp at hm
        rcases hm with ⟨rfl, rfl⟩ | hm
        · exact htag _ hname
        · exact hss n t' hm
      · simp only [Out.monad_bind, emit_def, Out.bind_ret, Out.wp_tell]
        exact ih
    · rename_i hnc
      rcases h.1.2 with h' | ⟨p, hp⟩
      · exact h'
      · exact absurd hp (by intro hp; exact hnc p hp)
end

theorem expandRoot_safe (s : Sched) (cs : List Child) (h : childrenOk I cs) :
    Safe I (expandRoot s cs) := by
  unfold expandRoot
  split
  · exact trivial
  · exact Safe.bind (expandNodes_safe _ _ h) fun _ => Safe.ret
  · split
    · exact trivial
    · exact Safe.bind (expandNodes_safe _ _ h) fun _ => Safe.ret

theorem mviewImpl_safe {s : Sched} {ts : Toks} (hT : I.T ts) : Safe I (mviewImpl pp s ts) := by
  unfold mviewImpl
  refine Safe.bind' (parseChildren_wp hT) fun r hr => ?_
  cases r with
  | ok cs rest => exact expandRoot_safe s cs hr.1
  | err e rest => exact hr.elim

end

end Mview
