import Verif.Lemmas.MeaningTree
/-
The expansion of the whole tree is its meaning, and every meaning is an expansion for
some iteration order of the slot maps.
-/

namespace Mview
open Lex

variable {pp : PathParser} {I : Inv pp}

theorem rendered_eq (t : Toks) : intoRender t = rendered t := by
  simp [intoRender, rendered, tAbs, tColon2, tId, tParen]

theorem getIdent_iff {p : Path} {n : Ident} : p.getIdent = some n ↔ p = ⟨false, [⟨n, .none⟩]⟩ := by
  unfold Path.getIdent
  split
  · simp
  · rename_i h
    simp only [reduceCtorEq, false_iff]
    intro hp
    exact h n hp

/-- the equation of `SlotsMean` at a slot -/
theorem slotsMean_slot {e : Element} {cs : List Child} {ts : List (Ident × Toks)} :
    SlotsMean (.slot e :: cs) ts ↔ ∃ name, e.tag = .component ⟨false, [⟨name, .none⟩]⟩ ∧
      ∃ t ts', e.Means true t ∧ SlotsMean cs ts' ∧ ts = (name, t) :: ts' := by
  rw [SlotsMean]
  split
  · rename_i name h
    rw [h]
    simp
  · rename_i h
    simp only [false_iff]
    rintro ⟨name, h', _⟩
    exact h name h'

/-- the equation of `expandElement` in terms of the meanings, element without block -/
theorem expand_none (asSlot : Bool) (s : Sched) (tag : Tag) (sels : List Selector)
    (attrs : List Attr) (args : Option Toks) (h : (Element.mk tag sels attrs args none).Ok I)
    (t : Toks) : (expandElement asSlot s (.mk tag sels attrs args none)).ok = some t ↔
      (Element.mk tag sels attrs args none).Means asSlot t := by
  simp only [Element.Ok] at h
  have hattrs : ∀ a ∈ attrs, a.Spanned := fun a ha => (h.2 a ha).spanned
  have hs : ∀ k, tag = .webComponent k → 0 < k.spans := by
    rintro k rfl; exact h.1
  unfold expandElement Element.Means
  cases asSlot with
  | true =>
    cases tag with
    | component p =>
      obtain ⟨o, ho, hok⟩ := slot_ok (path := p) sels args none none hattrs ⟨[], rfl⟩
      simp only [if_true, ho, hok, optNodes, Option.bind_some]
    | _ => simp [componentToTokens]
  | false =>
    simp only [Bool.false_eq_true, if_false]
    rcases xml_ok sels none hs hattrs with ⟨hx, p, rfl⟩ | ⟨o, hx, hk, hok⟩
    · obtain ⟨o, ho, hok⟩ := component_ok (path := p) sels args none none [] hattrs rfl
      simp only [hx, ho, hok, optNodes, Option.bind_some]
    · simp only [hx, hok, optNodes, Option.bind_some]
      cases tag with
      | component p => exact absurd rfl hk
      | _ => rfl

mutual
theorem expandElement_sound (asSlot : Bool) (s : Sched) : ∀ (e : Element), e.Ok I → ∀ t,
    (expandElement asSlot s e).ok = some t → e.Means asSlot t
  | .mk tag sels attrs args none, h, t, ht => (expand_none asSlot s tag sels attrs args h t).mp ht
  | .mk tag sels attrs args (some cs), h, t, ht => by
    simp only [Element.Ok] at h
    have hattrs : ∀ a ∈ attrs, a.Spanned := fun a ha => (h.2.1 a ha).spanned
    have hs : ∀ k, tag = .webComponent k → 0 < k.spans := by
      rintro k rfl; exact h.1
    have hn := expandNodes_sound s.l cs h.2.2
    have hsl := expandSlots_sound s.r cs h.2.2
    unfold expandElement at ht
    extract_lets nodes slots at ht
    unfold Element.Means
    cases asSlot with
    | true =>
      simp only [if_true] at ht
      cases tag with
      | component p =>
        have hst : ∃ st, optSlots (some slots) = some st := by
          split at ht
          · rename_i o ho; exact slots_of_ok ho ht
          · simp at ht
        obtain ⟨o, ho, hok⟩ := slot_ok (path := p) sels args (some nodes) (some slots) hattrs hst
        simp only [ho, hok, optNodes, Option.bind_eq_some_iff] at ht
        obtain ⟨ns, hns, ht⟩ := ht
        obtain ⟨st, hst⟩ := hst
        obtain ⟨ss, calls, hss, hc, rfl⟩ := slots_sound (slots := expandSlots s.r cs) hst
        exact ⟨ns, ss, calls, hn ns hns, hsl ss hss, hc, ht⟩
      | _ => simp [componentToTokens] at ht
    | false =>
      simp only [Bool.false_eq_true, if_false] at ht
      rcases xml_ok sels (some nodes) hs hattrs with ⟨hx, p, rfl⟩ | ⟨o, hx, hk, hok⟩
      · simp only [hx] at ht
        have hst : ∃ st, optSlots (some slots) = some st := by
          split at ht
          · rename_i o ho; exact slots_of_ok ho ht
          · simp at ht
        obtain ⟨st, hst⟩ := hst
        obtain ⟨ss, calls, hss, hc, rfl⟩ := slots_sound (slots := expandSlots s.r cs) hst
        obtain ⟨o, ho, hok⟩ :=
          component_ok (path := p) sels args (some nodes) (some slots) calls hattrs hst
        simp only [ho, hok, optNodes, Option.bind_eq_some_iff] at ht
        obtain ⟨ns, hns, ht⟩ := ht
        exact ⟨ns, ss, calls, hn ns hns, hsl ss hss, hc, ht⟩
      · simp only [hx, hok, optNodes, Option.bind_eq_some_iff] at ht
        obtain ⟨ns, hns, ht⟩ := ht
        cases tag with
        | component p => exact absurd rfl hk
        | _ => exact ⟨ns, hn ns hns, ht⟩

theorem expandNodes_sound (s : Sched) : ∀ (cs : List Child), childrenOk I cs → ∀ ts,
    (expandNodes s cs).ok = some ts → NodesMean cs ts
  | [], _, ts, ht => by
    unfold expandNodes at ht
    unfold NodesMean
    simp at ht
    exact ht
  | .value v :: cs, h, ts, ht => by
    simp only [childrenOk] at h
    unfold expandNodes at ht
    unfold NodesMean
    simp only [Out.monad_bind, Out.ok_bind, Option.bind_eq_some_iff, Value.toToks_ok,
      Out.monad_pure, Out.ok_ret, Option.some.injEq, rendered_eq] at ht
    obtain ⟨t, h1, ts', h2, rfl⟩ := ht
    exact ⟨t, ts', h1, expandNodes_sound s.r cs h.2 ts' h2, rfl⟩
  | .elem e :: cs, h, ts, ht => by
    simp only [childrenOk, Child.Ok] at h
    unfold expandNodes at ht
    unfold NodesMean
    simp only [Out.monad_bind, Out.ok_bind, Option.bind_eq_some_iff,
      Out.monad_pure, Out.ok_ret, Option.some.injEq, rendered_eq] at ht
    obtain ⟨t, h1, ts', h2, rfl⟩ := ht
    exact ⟨t, ts', expandElement_sound false s.l e h.1 t h1, expandNodes_sound s.r cs h.2 ts' h2, rfl⟩
  | .slot _ :: cs, h, ts, ht => by
    simp only [childrenOk] at h
    unfold expandNodes at ht
    unfold NodesMean
    exact expandNodes_sound s.r cs h.2 ts ht

theorem expandSlots_sound (s : Sched) : ∀ (cs : List Child), childrenOk I cs → ∀ ts,
    (expandSlots s cs).ok = some ts → SlotsMean cs ts
  | [], _, ts, ht => by
    unfold expandSlots at ht
    unfold SlotsMean
    simp at ht
    exact ht
  | .value _ :: cs, h, ts, ht => by
    simp only [childrenOk] at h
    unfold expandSlots at ht
    unfold SlotsMean
    exact expandSlots_sound s.r cs h.2 ts ht
  | .elem _ :: cs, h, ts, ht => by
    simp only [childrenOk] at h
    unfold expandSlots at ht
    unfold SlotsMean
    exact expandSlots_sound s.r cs h.2 ts ht
  | .slot e :: cs, h, ts, ht => by
    simp only [childrenOk, Child.Ok] at h
    rw [slotsMean_slot]
    unfold expandSlots at ht
    split at ht
    · rename_i path hp
      split at ht
      · rename_i name hname
        simp only [Out.monad_bind, Out.ok_bind, Option.bind_eq_some_iff,
          Out.monad_pure, Out.ok_ret, Option.some.injEq] at ht
        obtain ⟨t, h1, ts', h2, rfl⟩ := ht
        rw [getIdent_iff] at hname
        subst hname
        exact ⟨name, hp, t, ts', expandElement_sound true s.l e h.1.1 t h1,
          expandSlots_sound s.r cs h.2 ts' h2, rfl⟩
      · simp at ht
    · simp at ht
end

/-- the schedule with the given parts -/
def Sched.mk (order : List Nat) (l r : Sched) : Sched
  | [] => order
  | false :: p => l p
  | true :: p => r p

mutual
theorem expandElement_complete (asSlot : Bool) : ∀ (e : Element), e.Ok I → ∀ t,
    e.Means asSlot t → ∃ s, (expandElement asSlot s e).ok = some t
  | .mk tag sels attrs args none, h, t, ht =>
    ⟨fun _ => [], (expand_none asSlot _ tag sels attrs args h t).mpr ht⟩
  | .mk tag sels attrs args (some cs), h, t, ht => by
    simp only [Element.Ok] at h
    have hattrs : ∀ a ∈ attrs, a.Spanned := fun a ha => (h.2.1 a ha).spanned
    have hs : ∀ k, tag = .webComponent k → 0 < k.spans := by
      rintro k rfl; exact h.1
    have hn := expandNodes_complete cs h.2.2
    have hsl := expandSlots_complete cs h.2.2
    unfold Element.Means at ht
    cases asSlot with
    | true =>
      cases tag with
      | component p =>
        obtain ⟨ns, ss, calls, h1, h2, h3, h4⟩ := ht
        obtain ⟨sl, hsl'⟩ := hn ns h1
        obtain ⟨sr, hsr⟩ := hsl ss h2
        obtain ⟨order, ho⟩ := slots_complete hsr h3
        refine ⟨.mk order sl sr, ?_⟩
        unfold expandElement
        have e1 : (Sched.mk order sl sr).l = sl := rfl
        have e2 : (Sched.mk order sl sr).r = sr := rfl
        have e3 : (Sched.mk order sl sr).here = order := rfl
        rw [e1, e2, e3]
        obtain ⟨o, ho, hok⟩ := slot_ok (path := p) sels args (some (expandNodes sl cs))
          (some (slotsToTokens order (expandSlots sr cs))) hattrs ⟨_, ho⟩
        simp only [if_true, ho, hok, optNodes, hsl', Option.bind_some, h4]
      | _ => exact ht.elim
    | false =>
      by_cases hc : ∃ p, tag = .component p
      · obtain ⟨p, rfl⟩ := hc
        obtain ⟨ns, ss, calls, h1, h2, h3, h4⟩ := ht
        obtain ⟨sl, hsl'⟩ := hn ns h1
        obtain ⟨sr, hsr⟩ := hsl ss h2
        obtain ⟨order, ho⟩ := slots_complete hsr h3
        refine ⟨.mk order sl sr, ?_⟩
        unfold expandElement
        have e1 : (Sched.mk order sl sr).l = sl := rfl
        have e2 : (Sched.mk order sl sr).r = sr := rfl
        have e3 : (Sched.mk order sl sr).here = order := rfl
        rw [e1, e2, e3]
        obtain ⟨o, ho', hok⟩ := component_ok (path := p) sels args (some (expandNodes sl cs))
          (some (slotsToTokens order (expandSlots sr cs))) calls hattrs ho
        have hx : xmlToTokens (.component p) sels attrs (some (expandNodes sl cs)) = none := rfl
        simp only [Bool.false_eq_true, if_false, hx, ho', hok, optNodes, hsl', Option.bind_some, h4]
      · have ht' : ∃ ns, NodesMean cs ns ∧ xmlMeans tag sels attrs ns = some t := by
          cases tag with
          | component p => exact absurd ⟨p, rfl⟩ hc
          | _ => exact ht
        obtain ⟨ns, h1, h2⟩ := ht'
        obtain ⟨sl, hsl'⟩ := hn ns h1
        refine ⟨.mk [] sl sl, ?_⟩
        unfold expandElement
        have e1 : (Sched.mk [] sl sl).l = sl := rfl
        rw [e1]
        rcases xml_ok sels (some (expandNodes sl cs)) hs hattrs with ⟨hx, hp⟩ | ⟨o, hx, hk, hok⟩
        · exact absurd hp hc
        · simp only [Bool.false_eq_true, if_false, hx, hok, optNodes, hsl', Option.bind_some, h2]

theorem expandNodes_complete : ∀ (cs : List Child), childrenOk I cs → ∀ ts,
    NodesMean cs ts → ∃ s, (expandNodes s cs).ok = some ts
  | [], _, ts, ht => by
    unfold NodesMean at ht
    subst ht
    exact ⟨fun _ => [], by simp [expandNodes]⟩
  | .value v :: cs, h, ts, ht => by
    simp only [childrenOk] at h
    unfold NodesMean at ht
    obtain ⟨t, ts', h1, h2, rfl⟩ := ht
    obtain ⟨s, hs⟩ := expandNodes_complete cs h.2 ts' h2
    refine ⟨.mk [] s s, ?_⟩
    have e2 : (Sched.mk [] s s).r = s := rfl
    unfold expandNodes
    simp [Value.toToks_ok, h1, e2, hs, rendered_eq]
  | .elem e :: cs, h, ts, ht => by
    simp only [childrenOk, Child.Ok] at h
    unfold NodesMean at ht
    obtain ⟨t, ts', h1, h2, rfl⟩ := ht
    obtain ⟨sl, hsl⟩ := expandElement_complete false e h.1 t h1
    obtain ⟨s, hs⟩ := expandNodes_complete cs h.2 ts' h2
    refine ⟨.mk [] sl s, ?_⟩
    have e1 : (Sched.mk [] sl s).l = sl := rfl
    have e2 : (Sched.mk [] sl s).r = s := rfl
    unfold expandNodes
    simp [e1, hsl, e2, hs, rendered_eq]
  | .slot _ :: cs, h, ts, ht => by
    simp only [childrenOk] at h
    unfold NodesMean at ht
    obtain ⟨s, hs⟩ := expandNodes_complete cs h.2 ts ht
    refine ⟨.mk [] s s, ?_⟩
    unfold expandNodes
    exact hs

theorem expandSlots_complete : ∀ (cs : List Child), childrenOk I cs → ∀ ts,
    SlotsMean cs ts → ∃ s, (expandSlots s cs).ok = some ts
  | [], _, ts, ht => by
    unfold SlotsMean at ht
    subst ht
    exact ⟨fun _ => [], by simp [expandSlots]⟩
  | .value v :: cs, h, ts, ht => by
    simp only [childrenOk] at h
    unfold SlotsMean at ht
    obtain ⟨s, hs⟩ := expandSlots_complete cs h.2 ts ht
    refine ⟨.mk [] s s, ?_⟩
    unfold expandSlots
    exact hs
  | .elem e :: cs, h, ts, ht => by
    simp only [childrenOk] at h
    unfold SlotsMean at ht
    obtain ⟨s, hs⟩ := expandSlots_complete cs h.2 ts ht
    refine ⟨.mk [] s s, ?_⟩
    unfold expandSlots
    exact hs
  | .slot e :: cs, h, ts, ht => by
    simp only [childrenOk, Child.Ok] at h
    rw [slotsMean_slot] at ht
    obtain ⟨name, hp, t, ts', h1, h2, rfl⟩ := ht
    obtain ⟨sl, hsl⟩ := expandElement_complete true e h.1.1 t h1
    obtain ⟨s, hs⟩ := expandSlots_complete cs h.2 ts' h2
    refine ⟨.mk [] sl s, ?_⟩
    have e1 : (Sched.mk [] sl s).l = sl := rfl
    have e2 : (Sched.mk [] sl s).r = s := rfl
    unfold expandSlots
    simp [hp, Path.getIdent, e1, hsl, e2, hs]
end

/-! ### the root -/

theorem nodesMean_length {cs : List Child} {ts : List Toks} (h : NodesMean cs ts)
    (hns : ∀ c ∈ cs, c.isSlot = false) : ts.length = cs.length := by
  induction cs generalizing ts with
  | nil => unfold NodesMean at h; simp [h]
  | cons c cs ih =>
    have ih := fun ts h => ih (ts := ts) h fun c hc => hns c (by simp [hc])
    cases c with
    | value v =>
      unfold NodesMean at h
      obtain ⟨t, ts', _, h2, rfl⟩ := h
      simp [ih ts' h2]
    | elem e =>
      unfold NodesMean at h
      obtain ⟨t, ts', _, h2, rfl⟩ := h
      simp [ih ts' h2]
    | slot e => have := hns _ (List.mem_cons_self ..); simp [Child.isSlot] at this

theorem rootBlock_eq (x : Toks) : rootBlock x = q!"{ #[allow(unused_braces)] #x }" := by
  simp [rootBlock, tBrace, tP, tBracket, tId, tParen]

theorem expandRoot_ok (s : Sched) (cs : List Child) (t : Toks) :
    (expandRoot s cs).ok = some t ↔ (∀ c ∈ cs, c.isSlot = false) ∧
      ∃ ns, (expandNodes s cs).ok = some ns ∧
        t = rootBlock (if cs.length = 1 then ns.flatten else childrenFragmentTokens ns) := by
  unfold expandRoot
  split
  · simp [Child.isSlot]
  · rename_i c hc
    have hcs : c.isSlot = false := by
      cases c with
      | slot e => exact absurd rfl (hc e)
      | _ => rfl
    simp only [List.mem_singleton, forall_eq, hcs, true_and, List.length_singleton, if_true,
      Out.monad_bind, Out.ok_bind, Option.bind_eq_some_iff, Out.monad_pure, Out.ok_ret,
      Option.some.injEq, eq_comm (a := t)]
  · rename_i h1 h2
    have hl : cs.length ≠ 1 := by
      intro h
      obtain ⟨c, rfl⟩ := List.length_eq_one_iff.mp h
      exact h2 c rfl
    simp only [if_neg hl]
    by_cases hs : cs.any Child.isSlot = true
    · rw [if_pos hs]
      simp only [List.any_eq_true] at hs
      obtain ⟨c, hc, hcs⟩ := hs
      simp only [abortWith_def, Out.ok_abort, reduceCtorEq, false_iff]
      rintro ⟨h, _⟩
      rw [h c hc] at hcs
      simp at hcs
    · rw [if_neg hs]
      have : ∀ c ∈ cs, c.isSlot = false := by
        intro c hc
        cases h : c.isSlot
        · rfl
        · exact absurd (List.any_eq_true.mpr ⟨c, hc, h⟩) hs
      simp only [Out.monad_bind, Out.ok_bind, Option.bind_eq_some_iff, Out.monad_pure, Out.ok_ret,
        Option.some.injEq, eq_comm (a := t)]
      exact ⟨fun h => ⟨this, h⟩, fun h => h.2⟩

theorem rootMeans_iff {cs : List Child} {t : Toks} : RootMeans cs t ↔
    (∀ c ∈ cs, c.isSlot = false) ∧ ∃ ns, NodesMean cs ns ∧
      t = rootBlock (if cs.length = 1 then ns.flatten else childrenFragmentTokens ns) := by
  unfold RootMeans
  refine and_congr_right fun hns => exists_congr fun ns => and_congr_right fun hm => ?_
  have hl := nodesMean_length hm hns
  rw [← hl, rootBlock_eq, fragment_eq]
  rcases ns with _ | ⟨n, _ | ⟨n', ns⟩⟩
  · exact Iff.rfl
  · simp
  · simp

theorem expandRoot_sound {s : Sched} {cs : List Child} (h : childrenOk I cs) {t : Toks}
    (ht : expandRoot s cs = .ret [] t) : RootMeans cs t := by
  rw [← Out.ok_eq_some, expandRoot_ok] at ht
  obtain ⟨hns, ns, hn, ht⟩ := ht
  exact rootMeans_iff.mpr ⟨hns, ns, expandNodes_sound s cs h ns hn, ht⟩

theorem expandRoot_complete {cs : List Child} (h : childrenOk I cs) {t : Toks}
    (ht : RootMeans cs t) : ∃ s, expandRoot s cs = .ret [] t := by
  obtain ⟨hns, ns, hn, ht⟩ := rootMeans_iff.mp ht
  obtain ⟨s, hs⟩ := expandNodes_complete cs h ns hn
  exact ⟨s, Out.ok_eq_some.mp ((expandRoot_ok s cs t).mpr ⟨hns, ns, hs, ht⟩)⟩

end Mview
