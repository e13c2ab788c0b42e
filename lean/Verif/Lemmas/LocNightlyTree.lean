import Verif.Lemmas.LocNightly
/-
What is generated for a whole located tree in spite of errors, and that all of it is reached for some iteration
order of the slot maps (see `Lemmas/NightlyTree.lean`).
-/

namespace Mview.Loc

variable {σ : Type} [Spans σ] {pp : Mview.PathParser} {I : Inv pp}

/-- the equation of `SlotsBecome` at a slot -/
theorem slotsBecome_slot {kw : σ} {e : Element σ} {cs : List (Child σ)}
    {ts : List (SIdent σ × Toks σ)} :
    SlotsBecome (.slot kw e :: cs) ts ↔ ∃ p, e.tag = .component p ∧
      ((∃ name, p.getIdent = some name ∧
        ∃ t ts', e.Becomes true t ∧ SlotsBecome cs ts' ∧ ts = (name, t) :: ts') ∨
      p.getIdent = none ∧ SlotsBecome cs ts) := by
  rw [SlotsBecome]
  split
  · rename_i name sep h
    rw [h]
    simp [Path.getIdent]
  · rename_i p h1 h2
    have : p.getIdent = none := by
      cases hp : p.getIdent with
      | none => rfl
      | some n => obtain ⟨sep, hp⟩ := getIdent_iff.mp hp; exact (h1 n sep hp).elim
    rw [h2]
    simp [this]
  · rename_i h1 h2
    simp only [false_iff]
    rintro ⟨p, hp, _⟩
    exact h2 p hp

/-- the equation of `expandElement` in terms of the meanings, element without block -/
theorem expand_none_got (asSlot : Bool) (s : Sched) (tag : Tag σ) (sels : List (Selector σ))
    (attrs : List (Attr σ)) (args : Option (Toks σ)) (h : (Element.mk tag sels attrs args none).erase.Ok I)
    (t : Toks σ) : (expandElement asSlot s (.mk tag sels attrs args none)).got = some t ↔
      (Element.mk tag sels attrs args none).Becomes asSlot t := by
  simp only [Element.erase, Mview.Element.Ok] at h
  have hattrs : ∀ a ∈ attrs, a.erase.Spanned := fun a ha => (h.2 _ (List.mem_map_of_mem ha)).spanned
  have hs : ∀ k, tag = .webComponent k → 0 < k.spans.length := by
    rintro k rfl; exact h.1
  unfold expandElement Element.Becomes
  cases asSlot with
  | true =>
    cases tag with
    | component p =>
      obtain ⟨o, ho, hok⟩ := slot_got (path := p) sels args none none hattrs ⟨[], rfl⟩
      simp only [if_true, ho, hok, nodesGot, Option.bind_some]
    | _ => simp [componentToTokens]
  | false =>
    simp only [Bool.false_eq_true, if_false]
    rcases xml_got sels none hs hattrs with ⟨hx, p, rfl⟩ | ⟨o, hx, hk, hok⟩
    · obtain ⟨o, ho, hok⟩ := component_got (path := p) sels args none none [] hattrs rfl
      simp only [hx, ho, hok, nodesGot, Option.bind_some]
    · simp only [hx, hok, nodesGot, Option.bind_some]
      cases tag with
      | component p => exact absurd rfl hk
      | _ => rfl

mutual
theorem expandElement_becomes (asSlot : Bool) (s : Sched) : ∀ (e : Element σ), e.erase.Ok I → ∀ t,
    (expandElement asSlot s e).got = some t → e.Becomes asSlot t
  | .mk tag sels attrs args none, h, t, ht => (expand_none_got asSlot s tag sels attrs args h t).mp ht
  | .mk tag sels attrs args (some cs), h, t, ht => by
    simp only [Element.erase, Mview.Element.Ok] at h
    have hattrs : ∀ a ∈ attrs, a.erase.Spanned := fun a ha => (h.2.1 _ (List.mem_map_of_mem ha)).spanned
    have hs : ∀ k, tag = .webComponent k → 0 < k.spans.length := by
      rintro k rfl; exact h.1
    have hn := expandNodes_become s.l cs h.2.2
    have hsl := expandSlots_become s.r cs h.2.2
    unfold expandElement at ht
    extract_lets nodes slots at ht
    unfold Element.Becomes
    cases asSlot with
    | true =>
      simp only [if_true] at ht
      cases tag with
      | component p =>
        have hst : ∃ st, slotsGot (some slots) = some st := by
          split at ht
          · rename_i o ho; exact slots_of_got ho ht
          · simp at ht
        obtain ⟨o, ho, hok⟩ := slot_got (path := p) sels args (some nodes) (some slots) hattrs hst
        simp only [ho, hok, nodesGot, Option.bind_eq_some_iff] at ht
        obtain ⟨ns, hns, ht⟩ := ht
        simp only [Option.map_eq_some_iff] at hns
        obtain ⟨ns, hns, rfl⟩ := hns
        obtain ⟨st, hst⟩ := hst
        obtain ⟨ss, calls, hss, hc, rfl⟩ := slots_got_sound (slots := expandSlots s.r cs) hst
        exact ⟨pairs ns, ss, calls, hn ns hns, hsl ss hss, hc, ht⟩
      | _ => simp [componentToTokens] at ht
    | false =>
      simp only [Bool.false_eq_true, if_false] at ht
      rcases xml_got sels (some nodes) hs hattrs with ⟨hx, p, rfl⟩ | ⟨o, hx, hk, hok⟩
      · simp only [hx] at ht
        have hst : ∃ st, slotsGot (some slots) = some st := by
          split at ht
          · rename_i o ho; exact slots_of_got ho ht
          · simp at ht
        obtain ⟨st, hst⟩ := hst
        obtain ⟨ss, calls, hss, hc, rfl⟩ := slots_got_sound (slots := expandSlots s.r cs) hst
        obtain ⟨o, ho, hok⟩ :=
          component_got (path := p) sels args (some nodes) (some slots) calls hattrs hst
        simp only [ho, hok, nodesGot, Option.bind_eq_some_iff] at ht
        obtain ⟨ns, hns, ht⟩ := ht
        simp only [Option.map_eq_some_iff] at hns
        obtain ⟨ns, hns, rfl⟩ := hns
        exact ⟨pairs ns, ss, calls, hn ns hns, hsl ss hss, hc, ht⟩
      · simp only [hx, hok, nodesGot, Option.bind_eq_some_iff] at ht
        obtain ⟨ns, hns, ht⟩ := ht
        simp only [Option.map_eq_some_iff] at hns
        obtain ⟨ns, hns, rfl⟩ := hns
        cases tag with
        | component p => exact absurd rfl hk
        | _ => exact ⟨_, hn ns hns, ht⟩

theorem expandNodes_become (s : Sched) : ∀ (cs : List (Child σ)), childrenOk I (eraseChildren cs) →
    ∀ ns, (expandNodes s cs).got = some ns → NodesBecome cs (pairs ns)
  | [], _, ts, ht => by
    unfold expandNodes at ht
    unfold NodesBecome
    simp at ht
    subst ht
    rfl
  | .value v :: cs, h, ts, ht => by
    simp only [eraseChildren, childrenOk] at h
    unfold expandNodes at ht
    unfold NodesBecome
    simp only [Out.monad_bind, Out.got_bind, Option.bind_eq_some_iff, Value.toToks_got,
      Out.monad_pure, Out.got_ret, Option.some.injEq, rendered_eq] at ht
    obtain ⟨t, rfl, ts', h2, rfl⟩ := ht
    exact ⟨pairs ts', expandNodes_become s.r cs h.2 ts' h2, by simp [pairs, value_place]⟩
  | .elem e :: cs, h, ts, ht => by
    simp only [eraseChildren, Child.erase, childrenOk, Mview.Child.Ok] at h
    unfold expandNodes at ht
    unfold NodesBecome
    simp only [Out.monad_bind, Out.got_bind, Option.bind_eq_some_iff,
      Out.monad_pure, Out.got_ret, Option.some.injEq, rendered_eq] at ht
    obtain ⟨t, h1, ts', h2, rfl⟩ := ht
    exact ⟨t, pairs ts', expandElement_becomes false s.l e h.1 t h1,
      expandNodes_become s.r cs h.2 ts' h2, by simp [pairs, tag_place]⟩
  | .slot _ _ :: cs, h, ts, ht => by
    simp only [eraseChildren, childrenOk] at h
    unfold expandNodes at ht
    unfold NodesBecome
    exact expandNodes_become s.r cs h.2 ts ht

theorem expandSlots_become (s : Sched) : ∀ (cs : List (Child σ)), childrenOk I (eraseChildren cs) → ∀ ts,
    (expandSlots s cs).got = some ts → SlotsBecome cs ts
  | [], _, ts, ht => by
    unfold expandSlots at ht
    unfold SlotsBecome
    simp at ht
    exact ht
  | .value _ :: cs, h, ts, ht => by
    simp only [eraseChildren, childrenOk] at h
    unfold expandSlots at ht
    unfold SlotsBecome
    exact expandSlots_become s.r cs h.2 ts ht
  | .elem _ :: cs, h, ts, ht => by
    simp only [eraseChildren, childrenOk] at h
    unfold expandSlots at ht
    unfold SlotsBecome
    exact expandSlots_become s.r cs h.2 ts ht
  | .slot _ e :: cs, h, ts, ht => by
    simp only [eraseChildren, Child.erase, childrenOk, Mview.Child.Ok] at h
    rw [slotsBecome_slot]
    unfold expandSlots at ht
    split at ht
    · rename_i path hp
      refine ⟨path, hp, ?_⟩
      split at ht
      · rename_i name hname
        simp only [Out.monad_bind, Out.got_bind, Option.bind_eq_some_iff,
          Out.monad_pure, Out.got_ret, Option.some.injEq] at ht
        obtain ⟨t, h1, ts', h2, rfl⟩ := ht
        exact Or.inl ⟨name, hname, t, ts', expandElement_becomes true s.l e h.1.1 t h1,
          expandSlots_become s.r cs h.2 ts' h2, rfl⟩
      · rename_i hname
        simp only [Out.monad_bind, Out.got_bind, emit_got, Option.bind_some] at ht
        exact Or.inr ⟨hname, expandSlots_become s.r cs h.2 ts ht⟩
    · simp at ht
end

mutual
theorem expandElement_reaches (asSlot : Bool) : ∀ (e : Element σ), e.erase.Ok I → ∀ t,
    e.Becomes asSlot t → ∃ s, (expandElement asSlot s e).got = some t
  | .mk tag sels attrs args none, h, t, ht =>
    ⟨fun _ => [], (expand_none_got asSlot _ tag sels attrs args h t).mpr ht⟩
  | .mk tag sels attrs args (some cs), h, t, ht => by
    simp only [Element.erase, Mview.Element.Ok] at h
    have hattrs : ∀ a ∈ attrs, a.erase.Spanned := fun a ha => (h.2.1 _ (List.mem_map_of_mem ha)).spanned
    have hs : ∀ k, tag = .webComponent k → 0 < k.spans.length := by
      rintro k rfl; exact h.1
    have hn := expandNodes_reach cs h.2.2
    have hsl := expandSlots_reach cs h.2.2
    unfold Element.Becomes at ht
    cases asSlot with
    | true =>
      cases tag with
      | component p =>
        obtain ⟨ns, ss, calls, h1, h2, h3, h4⟩ := ht
        obtain ⟨sl, no, hsl', rfl⟩ := hn ns h1
        obtain ⟨sr, hsr⟩ := hsl ss h2
        obtain ⟨order, ho⟩ := slots_got_complete hsr h3
        refine ⟨.mk order sl sr, ?_⟩
        unfold expandElement
        have e1 : (Sched.mk order sl sr).l = sl := rfl
        have e2 : (Sched.mk order sl sr).r = sr := rfl
        have e3 : (Sched.mk order sl sr).here = order := rfl
        rw [e1, e2, e3]
        obtain ⟨o, ho, hok⟩ := slot_got (path := p) sels args (some (expandNodes sl cs))
          (some (slotsToTokens order (expandSlots sr cs))) hattrs ⟨_, ho⟩
        simp only [if_true, ho, hok, nodesGot, hsl', Option.map_some, Option.bind_some, h4]
      | _ => exact ht.elim
    | false =>
      by_cases hc : ∃ p, tag = .component p
      · obtain ⟨p, rfl⟩ := hc
        obtain ⟨ns, ss, calls, h1, h2, h3, h4⟩ := ht
        obtain ⟨sl, no, hsl', rfl⟩ := hn ns h1
        obtain ⟨sr, hsr⟩ := hsl ss h2
        obtain ⟨order, ho⟩ := slots_got_complete hsr h3
        refine ⟨.mk order sl sr, ?_⟩
        unfold expandElement
        have e1 : (Sched.mk order sl sr).l = sl := rfl
        have e2 : (Sched.mk order sl sr).r = sr := rfl
        have e3 : (Sched.mk order sl sr).here = order := rfl
        rw [e1, e2, e3]
        obtain ⟨o, ho', hok⟩ := component_got (path := p) sels args (some (expandNodes sl cs))
          (some (slotsToTokens order (expandSlots sr cs))) calls hattrs ho
        have hx : xmlToTokens (.component p) sels attrs (some (expandNodes sl cs)) = none := rfl
        simp only [Bool.false_eq_true, if_false, hx, ho', hok, nodesGot, hsl', Option.map_some, Option.bind_some, h4]
      · have ht' : ∃ ns, NodesBecome cs ns ∧ xmlAnyway tag sels attrs ns = some t := by
          cases tag with
          | component p => exact absurd ⟨p, rfl⟩ hc
          | _ => exact ht
        obtain ⟨ns, h1, h2⟩ := ht'
        obtain ⟨sl, no, hsl', rfl⟩ := hn ns h1
        refine ⟨.mk [] sl sl, ?_⟩
        unfold expandElement
        have e1 : (Sched.mk [] sl sl).l = sl := rfl
        rw [e1]
        rcases xml_got sels (some (expandNodes sl cs)) hs hattrs with ⟨hx, hp⟩ | ⟨o, hx, hk, hok⟩
        · exact absurd hp hc
        · simp only [Bool.false_eq_true, if_false, hx, hok, nodesGot, hsl', Option.map_some, Option.bind_some, h2]

theorem expandNodes_reach : ∀ (cs : List (Child σ)), childrenOk I (eraseChildren cs) → ∀ ts,
    NodesBecome cs ts → ∃ s ns, (expandNodes s cs).got = some ns ∧ pairs ns = ts
  | [], _, ts, ht => by
    unfold NodesBecome at ht
    subst ht
    exact ⟨fun _ => [], [], by simp [expandNodes], rfl⟩
  | .value v :: cs, h, ts, ht => by
    simp only [eraseChildren, childrenOk] at h
    unfold NodesBecome at ht
    obtain ⟨ts', h2, rfl⟩ := ht
    obtain ⟨s, ns, hs, rfl⟩ := expandNodes_reach cs h.2 ts' h2
    refine ⟨.mk [] s s, ⟨v.span, rendered v.anyway⟩ :: ns, ?_, by simp [pairs, value_place]⟩
    have e2 : (Sched.mk [] s s).r = s := rfl
    unfold expandNodes
    simp [Value.toToks_got, e2, hs, rendered_eq]
  | .elem e :: cs, h, ts, ht => by
    simp only [eraseChildren, Child.erase, childrenOk, Mview.Child.Ok] at h
    unfold NodesBecome at ht
    obtain ⟨t, ts', h1, h2, rfl⟩ := ht
    obtain ⟨sl, hsl⟩ := expandElement_reaches false e h.1 t h1
    obtain ⟨s, ns, hs, rfl⟩ := expandNodes_reach cs h.2 ts' h2
    refine ⟨.mk [] sl s, ⟨e.tag.span, rendered t⟩ :: ns, ?_, by simp [pairs, tag_place]⟩
    have e1 : (Sched.mk [] sl s).l = sl := rfl
    have e2 : (Sched.mk [] sl s).r = s := rfl
    unfold expandNodes
    simp [e1, hsl, e2, hs, rendered_eq]
  | .slot _ _ :: cs, h, ts, ht => by
    simp only [eraseChildren, childrenOk] at h
    unfold NodesBecome at ht
    obtain ⟨s, ns, hs, hp⟩ := expandNodes_reach cs h.2 ts ht
    refine ⟨.mk [] s s, ns, ?_, hp⟩
    unfold expandNodes
    exact hs

theorem expandSlots_reach : ∀ (cs : List (Child σ)), childrenOk I (eraseChildren cs) → ∀ ts,
    SlotsBecome cs ts → ∃ s, (expandSlots s cs).got = some ts
  | [], _, ts, ht => by
    unfold SlotsBecome at ht
    subst ht
    exact ⟨fun _ => [], by simp [expandSlots]⟩
  | .value v :: cs, h, ts, ht => by
    simp only [eraseChildren, childrenOk] at h
    unfold SlotsBecome at ht
    obtain ⟨s, hs⟩ := expandSlots_reach cs h.2 ts ht
    refine ⟨.mk [] s s, ?_⟩
    unfold expandSlots
    exact hs
  | .elem e :: cs, h, ts, ht => by
    simp only [eraseChildren, childrenOk] at h
    unfold SlotsBecome at ht
    obtain ⟨s, hs⟩ := expandSlots_reach cs h.2 ts ht
    refine ⟨.mk [] s s, ?_⟩
    unfold expandSlots
    exact hs
  | .slot _ e :: cs, h, ts, ht => by
    simp only [eraseChildren, Child.erase, childrenOk, Mview.Child.Ok] at h
    rw [slotsBecome_slot] at ht
    obtain ⟨p, hp, ⟨name, hname, t, ts', h1, h2, rfl⟩ | ⟨hname, h2⟩⟩ := ht
    · obtain ⟨sl, hsl⟩ := expandElement_reaches true e h.1.1 t h1
      obtain ⟨s, hs⟩ := expandSlots_reach cs h.2 ts' h2
      refine ⟨.mk [] sl s, ?_⟩
      have e1 : (Sched.mk [] sl s).l = sl := rfl
      have e2 : (Sched.mk [] sl s).r = s := rfl
      unfold expandSlots
      simp [hp, hname, e1, hsl, e2, hs]
    · obtain ⟨s, hs⟩ := expandSlots_reach cs h.2 ts h2
      refine ⟨.mk [] s s, ?_⟩
      have e2 : (Sched.mk [] s s).r = s := rfl
      unfold expandSlots
      simp [hp, hname, e2, hs]
end

/-! ### the root -/

theorem nodesBecome_length {cs : List (Child σ)} {ts : List (σ × Toks σ)} (h : NodesBecome cs ts)
    (hns : ∀ c ∈ cs, c.isSlot = false) : ts.length = cs.length := by
  induction cs generalizing ts with
  | nil => unfold NodesBecome at h; simp [h]
  | cons c cs ih =>
    have ih := fun ts h => ih (ts := ts) h fun c hc => hns c (by simp [hc])
    cases c with
    | value v =>
      unfold NodesBecome at h
      obtain ⟨ts', h2, rfl⟩ := h
      simp [ih ts' h2]
    | elem e =>
      unfold NodesBecome at h
      obtain ⟨t, ts', _, h2, rfl⟩ := h
      simp [ih ts' h2]
    | slot kw e => have := hns _ (List.mem_cons_self ..); simp [Child.isSlot] at this

theorem expandRoot_got (s : Sched) (cs : List (Child σ)) (t : Toks σ) :
    (expandRoot s cs).got = some t ↔ (∀ c ∈ cs, c.isSlot = false) ∧
      ∃ ns, (expandNodes s cs).got = some ns ∧
        t = rootBlock (if cs.length = 1 then ((pairs ns).map Prod.snd).flatten
          else viewOf callSite ((pairs ns).map Prod.snd)) := by
  have hp : ∀ ns : List (Node σ), ns.map Node.toks = (pairs ns).map Prod.snd := by
    intro ns; simp [pairs, Function.comp_def]
  unfold expandRoot
  split
  · simp [Child.isSlot, abortWith]
  · rename_i c hc
    have hcs : c.isSlot = false := by
      cases c with
      | slot kw e => exact absurd rfl (hc kw e)
      | _ => rfl
    simp only [List.mem_singleton, forall_eq, hcs, true_and, List.length_singleton, if_true,
      Out.monad_bind, Out.got_bind, Option.bind_eq_some_iff, Out.monad_pure, Out.got_ret,
      Option.some.injEq, eq_comm (a := t), hp]
  · rename_i h1 h2
    have hl : cs.length ≠ 1 := by
      intro h
      obtain ⟨c, rfl⟩ := List.length_eq_one_iff.mp h
      exact h2 c rfl
    simp only [if_neg hl]
    cases hf : firstSlot cs with
    | some e =>
      simp only [abortWith, Out.got_abort, reduceCtorEq, false_iff]
      rintro ⟨h, _⟩
      rw [firstSlot_none.mpr h] at hf
      simp at hf
    | none =>
      simp only [Out.monad_bind, Out.got_bind, Option.bind_eq_some_iff, Out.monad_pure, Out.got_ret,
        Option.some.injEq, eq_comm (a := t), fragment_eq]
      exact ⟨fun h => ⟨firstSlot_none.mp hf, h⟩, fun h => h.2⟩

theorem rootBecomes_iff {cs : List (Child σ)} {t : Toks σ} : RootBecomes cs t ↔
    (∀ c ∈ cs, c.isSlot = false) ∧ ∃ ns, NodesBecome cs ns ∧
      t = rootBlock (if cs.length = 1 then (ns.map Prod.snd).flatten
        else viewOf callSite (ns.map Prod.snd)) := by
  unfold RootBecomes
  refine and_congr_right fun hns => exists_congr fun ns => and_congr_right fun hm => ?_
  have hl := nodesBecome_length hm hns
  rw [← hl, rootBlock_eq]
  rcases ns with _ | ⟨n, _ | ⟨n', ns⟩⟩
  · exact Iff.rfl
  · simp
  · simp

theorem expandRoot_becomes {s : Sched} {cs : List (Child σ)} (h : childrenOk I (eraseChildren cs))
    {ds : List (LDiag σ)} {t : Toks σ} (ht : expandRoot s cs = .ret ds t) : RootBecomes cs t := by
  obtain ⟨hns, ns, hn, ht⟩ := (expandRoot_got s cs t).mp (Out.got_eq_some.mpr ⟨ds, ht⟩)
  exact rootBecomes_iff.mpr ⟨hns, _, expandNodes_become s cs h ns hn, ht⟩

theorem expandRoot_reaches {cs : List (Child σ)} (h : childrenOk I (eraseChildren cs)) {t : Toks σ}
    (ht : RootBecomes cs t) : ∃ s ds, expandRoot s cs = .ret ds t := by
  obtain ⟨hns, ns, hn, ht⟩ := rootBecomes_iff.mp ht
  obtain ⟨s, no, hs, rfl⟩ := expandNodes_reach cs h ns hn
  exact ⟨s, Out.got_eq_some.mp ((expandRoot_got s cs t).mpr ⟨hns, no, hs, ht⟩)⟩

end Mview.Loc
