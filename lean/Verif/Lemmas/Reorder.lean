import Verif.Lemmas.Places
import Verif.Spec.Reorder
/-
Interleaving of attributes does not matter.
-/

namespace Mview
open Lex

variable {pp : PathParser} {I : Inv pp}

theorem xmlMeans_same {tag : Tag} {sels sels' : List Selector} {attrs attrs' : List Attr}
    {ns : List Toks} (ht : ∀ p, tag ≠ .component p) (hs : SameSelectors sels sels')
    (ha : SameAttrs tag attrs attrs') : xmlMeans tag sels attrs ns = xmlMeans tag sels' attrs' ns := by
  have h : kvs attrs = kvs attrs' ∧ directives attrs = directives attrs' ∧ spreads attrs = spreads attrs' := by
    cases tag with
    | component p => exact absurd rfl (ht p)
    | _ => exact ha
  unfold xmlMeans
  rw [h.1, h.2.1, h.2.2, hs.1, hs.2]

theorem componentMeans_same {p q : Path} {sels sels' : List Selector} {attrs attrs' : List Attr}
    {args : Option Toks} {ns : List Toks} {calls : List Call} (hs : SameSelectors sels sels')
    (ha : SameAttrs (.component q) attrs attrs') :
    componentMeans p sels attrs args ns calls = componentMeans p sels' attrs' args ns calls := by
  unfold componentMeans
  rw [ha.1, ha.2.1, ha.2.2, hs.1, hs.2]

theorem sels_nil_iff (sels : List Selector) : sels = [] ↔ classes sels = [] ∧ ids sels = [] := by
  constructor
  · rintro rfl; exact ⟨rfl, rfl⟩
  · rintro ⟨h1, h2⟩
    rcases sels with _ | ⟨s, sels⟩
    · rfl
    · cases s
      · simp [ids] at h2
      · simp [classes] at h1

theorem slotMeans_same {p q : Path} {sels sels' : List Selector} {attrs attrs' : List Attr}
    {args : Option Toks} {ns : List Toks} (hs : SameSelectors sels sels')
    (ha : SameAttrs (.component q) attrs attrs') :
    slotMeans p sels attrs args ns = slotMeans p sels' attrs' args ns := by
  unfold slotMeans
  rw [ha.1, ha.2.1, ha.2.2]
  simp only [sels_nil_iff sels, sels_nil_iff sels', hs.1, hs.2]

/-- components with the same parts yield the same -/
theorem component_congr (isSlot : Bool) {p : Path} {sels sels' : List Selector} {attrs attrs' : List Attr}
    {args : Option Toks} {nodes nodes' : Option (Out (List Toks))} {slots slots' : Option (Out Toks)}
    (hs : SameSelectors sels sels') (ha : SameAttrs (.component p) attrs attrs')
    (hattrs : ∀ a ∈ attrs, a.Spanned) (hattrs' : ∀ a ∈ attrs', a.Spanned)
    (hn : optNodes nodes = optNodes nodes') (hsl : optSlots slots = optSlots slots')
    (hcalls : ∀ st, optSlots slots = some st → ∃ calls, st = chain calls) :
    ∃ o o', componentToTokens isSlot (.component p) sels attrs args nodes slots = some o ∧
      componentToTokens isSlot (.component p) sels' attrs' args nodes' slots' = some o' ∧
      o.ok = o'.ok := by
  cases hst : optSlots slots with
  | none =>
    have hsome : ∀ sels attrs nodes slots, ∃ o,
        componentToTokens isSlot (.component p) sels attrs args nodes slots = some o :=
      fun _ _ _ _ => ⟨_, rfl⟩
    obtain ⟨o, ho⟩ := hsome sels attrs nodes slots
    obtain ⟨o', ho'⟩ := hsome sels' attrs' nodes' slots'
    refine ⟨o, o', ho, ho', ?_⟩
    have h1 : ∀ t, o.ok ≠ some t := by
      intro t h
      obtain ⟨st, hst'⟩ := slots_of_ok ho h
      rw [hst] at hst'; cases hst'
    have h2 : ∀ t, o'.ok ≠ some t := by
      intro t h
      obtain ⟨st, hst'⟩ := slots_of_ok ho' h
      rw [← hsl, hst] at hst'; cases hst'
    rw [Option.eq_none_iff_forall_ne_some.mpr h1, Option.eq_none_iff_forall_ne_some.mpr h2]
  | some st =>
    obtain ⟨calls, rfl⟩ := hcalls st hst
    cases isSlot with
    | true =>
      obtain ⟨o, ho, hok⟩ := slot_ok (path := p) sels args nodes slots hattrs ⟨_, hst⟩
      obtain ⟨o', ho', hok'⟩ := slot_ok (path := p) sels' args nodes' slots' hattrs' ⟨_, hsl ▸ hst⟩
      refine ⟨o, o', ho, ho', ?_⟩
      rw [hok, hok', hn]
      simp only [slotMeans_same hs ha]
    | false =>
      obtain ⟨o, ho, hok⟩ := component_ok (path := p) sels args nodes slots calls hattrs hst
      obtain ⟨o', ho', hok'⟩ := component_ok (path := p) sels' args nodes' slots' calls hattrs' (hsl ▸ hst)
      refine ⟨o, o', ho, ho', ?_⟩
      rw [hok, hok', hn]
      simp only [componentMeans_same hs ha]

theorem element_congr (asSlot : Bool) {tag : Tag} {sels sels' : List Selector} {attrs attrs' : List Attr}
    {args : Option Toks} {nodes nodes' : Option (Out (List Toks))} {slots slots' : Option (Out Toks)}
    (hs : SameSelectors sels sels') (ha : SameAttrs tag attrs attrs')
    (htag : ∀ k, tag = .webComponent k → 0 < k.spans)
    (hattrs : ∀ a ∈ attrs, a.Spanned) (hattrs' : ∀ a ∈ attrs', a.Spanned)
    (hn : optNodes nodes = optNodes nodes') (hsl : optSlots slots = optSlots slots')
    (hcalls : ∀ st, optSlots slots = some st → ∃ calls, st = chain calls) :
    Out.ok (match (if asSlot then componentToTokens true tag sels attrs args nodes slots
      else match xmlToTokens tag sels attrs nodes with
        | some o => some o
        | none => componentToTokens false tag sels attrs args nodes slots) with
    | some o => o
    | none => .panic (if asSlot then .slotChecked else .elementNotComponent)) =
    Out.ok (match (if asSlot then componentToTokens true tag sels' attrs' args nodes' slots'
      else match xmlToTokens tag sels' attrs' nodes' with
        | some o => some o
        | none => componentToTokens false tag sels' attrs' args nodes' slots') with
    | some o => o
    | none => .panic (if asSlot then .slotChecked else .elementNotComponent)) := by
  by_cases hc : ∃ p, tag = .component p
  · obtain ⟨p, rfl⟩ := hc
    have hx : ∀ sels attrs nodes, xmlToTokens (.component p) sels attrs nodes = none := fun _ _ _ => rfl
    simp only [hx]
    cases asSlot with
    | true =>
      obtain ⟨o, o', h1, h2, h3⟩ := component_congr true (args := args) hs ha hattrs hattrs' hn hsl hcalls
      simp only [if_true, h1, h2, h3]
    | false =>
      obtain ⟨o, o', h1, h2, h3⟩ := component_congr false (args := args) hs ha hattrs hattrs' hn hsl hcalls
      simp only [Bool.false_eq_true, if_false, h1, h2, h3]
  · have hp : ∀ p, tag ≠ .component p := fun p h => hc ⟨p, h⟩
    cases asSlot with
    | true =>
      cases tag with
      | component p => exact absurd rfl (hp p)
      | _ => rfl
    | false =>
      rcases xml_ok sels nodes htag hattrs with ⟨_, h⟩ | ⟨o, ho, _, hok⟩
      · exact absurd h hc
      rcases xml_ok sels' nodes' htag hattrs' with ⟨_, h⟩ | ⟨o', ho', _, hok'⟩
      · exact absurd h hc
      simp only [Bool.false_eq_true, if_false, ho, ho', hok, hok', hn, xmlMeans_same hp hs ha]

theorem slotsToTokens_ok (order : List Nat) (x : Out (List (Ident × Toks))) :
    (slotsToTokens order x).ok = x.ok.bind fun ss => (slotMethods (permute order (groupSlots ss []))).ok := by
  simp [slotsToTokens]

mutual
theorem expandElement_reorder (asSlot : Bool) (s : Sched) : ∀ (e e' : Element), e.Ok I → e'.Ok I →
    e.Reordered e' → (expandElement asSlot s e).ok = (expandElement asSlot s e').ok
  | .mk tag sels attrs args none, .mk tag' sels' attrs' args' none, h, h', hr => by
    unfold Element.Reordered at hr
    obtain ⟨rfl, hs, ha, rfl⟩ := hr
    simp only [Element.Ok] at h h'
    unfold expandElement
    exact element_congr asSlot hs ha (by rintro k rfl; exact h.1) (fun a ha => (h.2 a ha).spanned)
      (fun a ha => (h'.2 a ha).spanned) rfl rfl (by
        intro st hst
        simp only [optSlots, Option.some.injEq] at hst
        exact ⟨[], hst.symm⟩)
  | .mk tag sels attrs args (some cs), .mk tag' sels' attrs' args' (some cs'), h, h', hr => by
    unfold Element.Reordered at hr
    obtain ⟨rfl, hs, ha, rfl, hc⟩ := hr
    simp only [Element.Ok] at h h'
    unfold expandElement
    refine element_congr asSlot hs ha (by rintro k rfl; exact h.1) (fun a ha => (h.2.1 a ha).spanned)
      (fun a ha => (h'.2.1 a ha).spanned) ?_ ?_ ?_
    · exact expandNodes_reorder s.l cs cs' h.2.2 h'.2.2 hc
    · simp only [optSlots, slotsToTokens_ok]
      rw [expandSlots_reorder s.r cs cs' h.2.2 h'.2.2 hc]
    · intro st hst
      obtain ⟨_, calls, _, _, rfl⟩ := slots_sound (slots := expandSlots s.r cs) hst
      exact ⟨calls, rfl⟩
  | .mk _ _ _ _ none, .mk _ _ _ _ (some _), _, _, hr => by unfold Element.Reordered at hr; exact hr.elim
  | .mk _ _ _ _ (some _), .mk _ _ _ _ none, _, _, hr => by unfold Element.Reordered at hr; exact hr.elim
theorem expandNodes_reorder (s : Sched) : ∀ (cs cs' : List Child), childrenOk I cs → childrenOk I cs' →
    childrenReordered cs cs' → (expandNodes s cs).ok = (expandNodes s cs').ok
  | [], cs', _, _, hr => by
    cases cs' with
    | nil => rfl
    | cons _ _ => unfold childrenReordered at hr; exact hr.elim
  | .value v :: cs, cs', h, h', hr => by
    rcases cs' with _ | ⟨_ | _ | _, cs'⟩ <;> unfold childrenReordered at hr <;> try exact hr.elim
    obtain ⟨rfl, hr⟩ := hr
    simp only [childrenOk] at h h'
    simp only [expandNodes, Out.monad_bind, Out.ok_bind, expandNodes_reorder s.r cs cs' h.2 h'.2 hr]
  | .elem e :: cs, cs', h, h', hr => by
    rcases cs' with _ | ⟨_ | e' | _, cs'⟩ <;> unfold childrenReordered at hr <;> try exact hr.elim
    simp only [childrenOk, Child.Ok] at h h'
    simp only [expandNodes, Out.monad_bind, Out.ok_bind, expandNodes_reorder s.r cs cs' h.2 h'.2 hr.2,
      expandElement_reorder false s.l e e' h.1 h'.1 hr.1]
  | .slot e :: cs, cs', h, h', hr => by
    rcases cs' with _ | ⟨_ | _ | e', cs'⟩ <;> unfold childrenReordered at hr <;> try exact hr.elim
    simp only [childrenOk] at h h'
    simp only [expandNodes, expandNodes_reorder s.r cs cs' h.2 h'.2 hr.2]
theorem expandSlots_reorder (s : Sched) : ∀ (cs cs' : List Child), childrenOk I cs → childrenOk I cs' →
    childrenReordered cs cs' → (expandSlots s cs).ok = (expandSlots s cs').ok
  | [], cs', _, _, hr => by
    cases cs' with
    | nil => rfl
    | cons _ _ => unfold childrenReordered at hr; exact hr.elim
  | .value v :: cs, cs', h, h', hr => by
    rcases cs' with _ | ⟨_ | _ | _, cs'⟩ <;> unfold childrenReordered at hr <;> try exact hr.elim
    simp only [childrenOk] at h h'
    simp only [expandSlots, expandSlots_reorder s.r cs cs' h.2 h'.2 hr.2]
  | .elem e :: cs, cs', h, h', hr => by
    rcases cs' with _ | ⟨_ | e' | _, cs'⟩ <;> unfold childrenReordered at hr <;> try exact hr.elim
    simp only [childrenOk, Child.Ok] at h h'
    simp only [expandSlots, expandSlots_reorder s.r cs cs' h.2 h'.2 hr.2]
  | .slot e :: cs, cs', h, h', hr => by
    rcases cs' with _ | ⟨_ | _ | e', cs'⟩ <;> unfold childrenReordered at hr <;> try exact hr.elim
    simp only [childrenOk, Child.Ok] at h h'
    have ht : e.tag = e'.tag := by
      have := hr.1
      rcases e with ⟨tag, sels, attrs, args, _ | cs⟩ <;> rcases e' with ⟨tag', sels', attrs', args', _ | cs'⟩ <;>
        unfold Element.Reordered at this <;> first | exact this.elim | exact this.1
    simp only [expandSlots, ht]
    split
    · split
      · simp only [Out.monad_bind, Out.ok_bind, expandSlots_reorder s.r cs cs' h.2 h'.2 hr.2,
          expandElement_reorder true s.l e e' h.1.1 h'.1.1 hr.1]
      · simp only [Out.monad_bind, Out.ok_bind, expandSlots_reorder s.r cs cs' h.2 h'.2 hr.2]
    · rfl
end

theorem reordered_length : ∀ {cs cs' : List Child}, childrenReordered cs cs' → cs.length = cs'.length
  | [], [], _ => rfl
  | [], _ :: _, h => by unfold childrenReordered at h; exact h.elim
  | c :: cs, cs', h => by
    rcases cs' with _ | ⟨c', cs'⟩
    · cases c <;> unfold childrenReordered at h <;> exact h.elim
    · cases c <;> cases c' <;> unfold childrenReordered at h <;> first
        | exact h.elim
        | simp [reordered_length h.2]

theorem reordered_slots : ∀ {cs cs' : List Child}, childrenReordered cs cs' →
    ((∀ c ∈ cs, c.isSlot = false) ↔ ∀ c ∈ cs', c.isSlot = false)
  | [], [], _ => by simp
  | [], _ :: _, h => by unfold childrenReordered at h; exact h.elim
  | c :: cs, cs', h => by
    rcases cs' with _ | ⟨c', cs'⟩
    · cases c <;> unfold childrenReordered at h <;> exact h.elim
    · cases c <;> cases c' <;> unfold childrenReordered at h <;> first
        | exact h.elim
        | simpa [Child.isSlot] using reordered_slots h.2

theorem expandRoot_reorder (s : Sched) {cs cs' : List Child} (h : childrenOk I cs)
    (h' : childrenOk I cs') (hr : childrenReordered cs cs') :
    (expandRoot s cs).ok = (expandRoot s cs').ok := by
  apply Option.ext
  intro t
  rw [expandRoot_ok, expandRoot_ok, reordered_length hr, reordered_slots hr,
    expandNodes_reorder s cs cs' h h' hr]

end Mview
