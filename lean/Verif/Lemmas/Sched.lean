import Verif.Lemmas.MeaningRoot
import Verif.Spec.Uniform
/-
What the expansions under two iteration orders have in common.
-/

namespace Mview
open Lex

variable {α β γ δ : Type}

/-- The same course of events, with results related by `R`. -/
def Out.Like (R : α → β → Prop) : Out α → Out β → Prop
  | .ret ds a, .ret ds' b => ds = ds' ∧ R a b
  | .abort ds, .abort ds' => ds = ds'
  | .panic _, .panic _ => True
  | .diverge, .diverge => True
  | _, _ => False

theorem Out.Like.tell {R : α → β → Prop} {x : Out α} {y : Out β} (h : x.Like R y) (ds : List Diag) :
    (x.tell ds).Like R (y.tell ds) := by
  cases x <;> cases y <;> simp_all [Out.Like, Out.tell]

theorem Out.Like.bind {R : α → β → Prop} {S : γ → δ → Prop} {x : Out α} {y : Out β}
    {f : α → Out γ} {g : β → Out δ} (h : x.Like R y) (hf : ∀ a b, R a b → (f a).Like S (g b)) :
    (x.bind f).Like S (y.bind g) := by
  cases x <;> cases y <;> try exact h.elim
  · obtain ⟨rfl, h⟩ := h
    exact (hf _ _ h).tell _
  · exact h
  · trivial
  · trivial

theorem Out.Like.refl {R : α → α → Prop} (x : Out α) (h : ∀ a, R a a) : x.Like R x := by
  cases x
  · exact ⟨rfl, h _⟩
  · exact rfl
  · trivial
  · trivial

theorem Out.Like.pure {R : α → β → Prop} {a : α} {b : β} (h : R a b) :
    (Pure.pure a : Out α).Like R (Pure.pure b) := ⟨rfl, h⟩

theorem Out.Like.weaken {R S : α → β → Prop} {x : Out α} {y : Out β} (h : x.Like R y)
    (hs : ∀ a b, R a b → S a b) : x.Like S y := by
  cases x <;> cases y <;> try exact h
  exact ⟨h.1, hs _ _ h.2⟩

/-- any two results -/
abbrev any {α β : Type} : α → β → Prop := fun _ _ => True

theorem newRaw_like (n : Str) : (newRaw n).Like Eq (newRaw n) := .refl _ fun _ => rfl

/-- a slot's method exists -/
def slotNameOk (n : Ident) : Prop := slotMethodName n ≠ none

theorem slotMethod_cases (e : Ident × List Toks) :
    (slotNameOk e.1 ∧ ∃ t, slotMethod e = .ret [] t) ∨ (¬ slotNameOk e.1 ∧ ∃ p, slotMethod e = .panic p) := by
  obtain ⟨n, ts⟩ := e
  have h : slotMethodName n = if snakeCase n.name ∈ notRaw then none else some ⟨true, snakeCase n.name⟩ := rfl
  unfold slotNameOk slotMethod newRaw
  simp only [snakeCase_eq, h]
  by_cases hc : snakeCase n.name ∈ notRaw
  · simp only [if_pos hc]
    exact Or.inr ⟨by simp, _, rfl⟩
  · simp only [if_neg hc]
    refine Or.inl ⟨by simp, ?_⟩
    rcases ts with _ | ⟨t, _ | ⟨t', ts⟩⟩ <;> exact ⟨_, rfl⟩

theorem slotMethods_cases (es : List (Ident × List Toks)) :
    ((∀ e ∈ es, slotNameOk e.1) ∧ ∃ t, slotMethods es = .ret [] t) ∨
      ((∃ e ∈ es, ¬ slotNameOk e.1) ∧ ∃ p, slotMethods es = .panic p) := by
  induction es with
  | nil => exact Or.inl ⟨by simp, _, rfl⟩
  | cons e es ih =>
    unfold slotMethods
    rcases slotMethod_cases e with ⟨h, t, ht⟩ | ⟨h, p, hp⟩
    · rcases ih with ⟨h', t', ht'⟩ | ⟨h', p, hp⟩
      · refine Or.inl ⟨by simpa [h] using fun a b => h' (a, b), t ++ t', ?_⟩
        rw [ht, ht']; rfl
      · obtain ⟨e', he, hn⟩ := h'
        refine Or.inr ⟨⟨e', by simp [he], hn⟩, p, ?_⟩
        rw [ht, hp]; rfl
    · refine Or.inr ⟨⟨e, by simp, h⟩, p, ?_⟩
      rw [hp]; rfl

theorem slots_like {o o' : List Nat} {x y : Out (List (Ident × Toks))}
    (h : x.Like (fun a b => a.map Prod.fst = b.map Prod.fst) y) :
    (slotsToTokens o x).Like any (slotsToTokens o' y) := by
  unfold slotsToTokens
  refine h.bind fun a b hab => ?_
  have key : ∀ (o : List Nat) (a : List (Ident × Toks)),
      (∀ e ∈ permute o (groupSlots a []), slotNameOk e.1) ↔ ∀ n ∈ a.map Prod.fst, slotNameOk n := by
    intro o a
    have g := groupSlots_grouped a [] [] grouped_nil
    rw [List.nil_append] at g
    constructor
    · intro h n hn
      obtain ⟨e, he, rfl⟩ := List.mem_map.mp ((g.names n).mpr hn)
      exact h e ((permute_perm o _).mem_iff.mpr he)
    · intro h e he
      exact h _ ((g.names _).mp (List.mem_map_of_mem ((permute_perm o _).mem_iff.mp he)))
  have ha := key o a
  have hb := key o' b
  rcases slotMethods_cases (permute o (groupSlots a [])) with ⟨h1, t, ht⟩ | ⟨⟨e, he, hn⟩, p, hp⟩ <;>
    rcases slotMethods_cases (permute o' (groupSlots b [])) with ⟨h2, t', ht'⟩ | ⟨⟨e', he', hn'⟩, p', hp'⟩
  · rw [ht, ht']; exact ⟨rfl, trivial⟩
  · rw [ha, hab, ← hb] at h1
    exact absurd (h1 _ he') hn'
  · rw [hb, ← hab, ← ha] at h2
    exact absurd (h2 _ he) hn
  · rw [hp, hp']; trivial

/-- both absent, or both present and related -/
def optLike {α β : Type} (R : α → β → Prop) : Option (Out α) → Option (Out β) → Prop
  | none, none => True
  | some x, some y => x.Like R y
  | _, _ => False

theorem optOut_like {R : α → β → Prop} {x : Option (Out α)} {y : Option (Out β)}
    (h : optLike R x y) : (optOut x).Like any (optOut y) := by
  cases x <;> cases y <;> simp only [optLike] at h
  · exact .pure trivial
  · exact h.bind fun _ _ _ => .pure trivial

theorem xml_like {R : List Toks → List Toks → Prop} (tag : Tag) (sels : List Selector)
    (attrs : List Attr) {x y : Option (Out (List Toks))} (h : optLike R x y) :
    optLike any (xmlToTokens tag sels attrs x) (xmlToTokens tag sels attrs y) := by
  unfold xmlToTokens
  cases xmlTagPath tag with
  | none => trivial
  | some p =>
    refine Out.Like.bind (.refl (R := any) _ fun _ => trivial) fun a b _ => ?_
    refine Out.Like.bind (.refl (R := any) _ fun _ => trivial) fun a b _ => ?_
    exact (optOut_like h).bind fun _ _ _ => .pure trivial

theorem component_like {R : List Toks → List Toks → Prop} {S : Toks → Toks → Prop} (isSlot : Bool)
    (tag : Tag) (sels : List Selector) (attrs : List Attr) (args : Option Toks)
    {x y : Option (Out (List Toks))} (h : optLike R x y) {z w : Option (Out Toks)}
    (h' : optLike S z w) :
    optLike any (componentToTokens isSlot tag sels attrs args x z)
      (componentToTokens isSlot tag sels attrs args y w) := by
  unfold componentToTokens
  cases tag with
  | component p =>
    refine Out.Like.bind (.refl (R := any) _ fun _ => trivial) fun a b _ => ?_
    refine Out.Like.bind (R := Eq) (.refl _ fun _ => rfl) fun a b hab => ?_
    subst hab
    refine Out.Like.bind (.refl (R := any) _ fun _ => trivial) fun a b _ => ?_
    refine (optOut_like h).bind fun _ _ _ => ?_
    refine (optOut_like h').bind fun _ _ _ => ?_
    cases isSlot <;> exact .pure trivial
  | _ => trivial

theorem orPanic_like (p : PanicSite) {x y : Option (Out Toks)} : optLike any x y →
    (match x with | some o => o | none => .panic p : Out Toks).Like any
      (match y with | some o => o | none => .panic p) := by
  intro h
  cases x <;> cases y <;> simp only [optLike] at h
  · trivial
  · exact h

theorem orElse_like {x y z w : Option (Out Toks)} : optLike any x y → optLike any z w →
    optLike any (match x with | some o => some o | none => z) (match y with | some o => some o | none => w) := by
  intro h h'
  cases x <;> cases y <;> simp only [optLike] at h
  · exact h'
  · exact h

mutual
theorem expandElement_like (asSlot : Bool) (s s' : Sched) : ∀ (e : Element),
    (expandElement asSlot s e).Like any (expandElement asSlot s' e)
  | .mk tag sels attrs args none => by
    have : expandElement asSlot s (.mk tag sels attrs args none) =
      expandElement asSlot s' (.mk tag sels attrs args none) := by simp only [expandElement]
    rw [this]
    exact .refl _ fun _ => trivial
  | .mk tag sels attrs args (some cs) => by
    unfold expandElement
    have hn : optLike any (some (expandNodes s.l cs)) (some (expandNodes s'.l cs)) :=
      expandNodes_like s.l s'.l cs
    have hs : optLike any (some (slotsToTokens s.here (expandSlots s.r cs)))
        (some (slotsToTokens s'.here (expandSlots s'.r cs))) :=
      slots_like (expandSlots_like s.r s'.r cs)
    refine orPanic_like _ ?_
    cases asSlot with
    | true => exact component_like true tag sels attrs args hn hs
    | false =>
      exact orElse_like (xml_like tag sels attrs hn) (component_like false tag sels attrs args hn hs)
theorem expandNodes_like (s s' : Sched) : ∀ (cs : List Child),
    (expandNodes s cs).Like any (expandNodes s' cs)
  | [] => by simp only [expandNodes]; exact .pure trivial
  | .value v :: cs => by
    simp only [expandNodes]
    exact Out.Like.bind (.refl (R := any) _ fun _ => trivial) fun _ _ _ =>
      (expandNodes_like s.r s'.r cs).bind fun _ _ _ => .pure trivial
  | .elem e :: cs => by
    simp only [expandNodes]
    exact (expandElement_like false s.l s'.l e).bind fun _ _ _ =>
      (expandNodes_like s.r s'.r cs).bind fun _ _ _ => .pure trivial
  | .slot _ :: cs => by
    simp only [expandNodes]
    exact expandNodes_like s.r s'.r cs
theorem expandSlots_like (s s' : Sched) : ∀ (cs : List Child),
    (expandSlots s cs).Like (fun a b => a.map Prod.fst = b.map Prod.fst) (expandSlots s' cs)
  | [] => by simp only [expandSlots]; exact .pure rfl
  | .value v :: cs => by
    simp only [expandSlots]
    exact expandSlots_like s.r s'.r cs
  | .elem e :: cs => by
    simp only [expandSlots]
    exact expandSlots_like s.r s'.r cs
  | .slot e :: cs => by
    simp only [expandSlots]
    split
    · split
      · refine (expandElement_like true s.l s'.l e).bind fun _ _ _ => ?_
        exact (expandSlots_like s.r s'.r cs).bind fun _ _ h => .pure (by simp [h])
      · refine Out.Like.bind (.refl (R := any) _ fun _ => trivial) fun _ _ _ => ?_
        exact expandSlots_like s.r s'.r cs
    · trivial
end

theorem expandRoot_like (s s' : Sched) (cs : List Child) :
    (expandRoot s cs).Like any (expandRoot s' cs) := by
  unfold expandRoot
  split
  · rfl
  · exact (expandNodes_like s s' _).bind fun _ _ _ => .pure trivial
  · split
    · rfl
    · exact (expandNodes_like s s' _).bind fun _ _ _ => .pure trivial

theorem mviewImpl_like (pp : PathParser) (s s' : Sched) (ts : Toks) :
    (mviewImpl pp s ts).Like any (mviewImpl pp s' ts) := by
  unfold mviewImpl
  refine Out.Like.bind (R := Eq) (.refl _ fun _ => rfl) fun a b hab => ?_
  subst hab
  cases a with
  | ok cs r => exact expandRoot_like s s' cs
  | err e r => exact .pure trivial

/-! ### nothing to order -/

theorem permute_short {α : Type} (o : List Nat) (xs : List α) (h : xs.length ≤ 1) : permute o xs = xs := by
  rcases xs with _ | ⟨x, _ | ⟨y, ys⟩⟩
  · cases o <;> rfl
  · rcases o with _ | ⟨n, o⟩
    · rfl
    · rcases o with _ | ⟨m, o⟩ <;> rcases n with _ | n <;> rfl
  · simp at h

/-- The names of the result are those of slots among the children. -/
theorem expandSlots_names (s : Sched) : ∀ (cs : List Child) ds ss, expandSlots s cs = .ret ds ss →
    ∀ n ∈ ss.map Prod.fst, ∃ e, Child.slot e ∈ cs ∧ e.tag = .component ⟨false, [⟨n, .none⟩]⟩
  | [], ds, ss, h, n, hn => by
    simp only [expandSlots, Out.monad_pure, Out.ret.injEq] at h
    simp [← h.2] at hn
  | .value v :: cs, ds, ss, h, n, hn => by
    simp only [expandSlots] at h
    obtain ⟨e, he, ht⟩ := expandSlots_names s.r cs ds ss h n hn
    exact ⟨e, by simp [he], ht⟩
  | .elem v :: cs, ds, ss, h, n, hn => by
    simp only [expandSlots] at h
    obtain ⟨e, he, ht⟩ := expandSlots_names s.r cs ds ss h n hn
    exact ⟨e, by simp [he], ht⟩
  | .slot e :: cs, ds, ss, h, n, hn => by
    simp only [expandSlots] at h
    split at h
    · rename_i path hp
      split at h
      · rename_i name hname
        cases he : expandElement true s.l e with
        | ret ds1 t =>
          cases hs : expandSlots s.r cs with
          | ret ds2 ts =>
            rw [he, hs] at h
            simp only [Out.monad_bind, Out.bind_ret, Out.monad_pure, Out.tell_ret, Out.ret.injEq] at h
            rw [← h.2] at hn
            simp only [List.map_cons, List.mem_cons] at hn
            rcases hn with rfl | hn
            · exact ⟨e, by simp, by rw [hp, getIdent_iff.mp hname]⟩
            · obtain ⟨e', he', ht⟩ := expandSlots_names s.r cs ds2 ts hs n hn
              exact ⟨e', by simp [he'], ht⟩
          | _ => rw [he, hs] at h; simp [Out.bind, Out.tell] at h
        | _ => rw [he] at h; simp [Out.bind] at h
      · cases hs : expandSlots s.r cs with
        | ret ds2 ts =>
          rw [hs] at h
          simp only [Out.monad_bind, emit, Out.bind_ret, Out.tell_ret, Out.ret.injEq] at h
          rw [← h.2] at hn
          obtain ⟨e', he', ht⟩ := expandSlots_names s.r cs ds2 ts hs n hn
          exact ⟨e', by simp [he'], ht⟩
        | _ => rw [hs] at h; simp [emit, Out.bind, Out.tell] at h
    · simp at h

theorem slots_uniform (o o' : List Nat) (s : Sched) (cs : List Child) (h : OneSlotName cs) :
    slotsToTokens o (expandSlots s cs) = slotsToTokens o' (expandSlots s cs) := by
  unfold slotsToTokens
  cases hs : expandSlots s cs with
  | ret ds ss =>
    have hg := groupSlots_grouped ss [] [] grouped_nil
    rw [List.nil_append] at hg
    have hl : (groupSlots ss []).length ≤ 1 := by
      have h1 : ∀ a ∈ (groupSlots ss []).map Prod.fst, ∀ b ∈ (groupSlots ss []).map Prod.fst, a = b := by
        intro a ha b hb
        obtain ⟨e, he, ht⟩ := expandSlots_names s cs ds ss hs a ((hg.names a).mp ha)
        obtain ⟨e', he', ht'⟩ := expandSlots_names s cs ds ss hs b ((hg.names b).mp hb)
        exact h e e' a b he he' ht ht'
      have h2 := hg.nodup
      generalize groupSlots ss [] = m at h1 h2
      rcases m with _ | ⟨x, _ | ⟨y, ys⟩⟩
      · simp
      · simp
      · have := h1 x.1 (by simp) y.1 (by simp)
        simp [this] at h2
    simp only [Out.monad_bind, Out.bind_ret, permute_short _ _ hl]
  | _ => rfl

mutual
theorem expandElement_uniform (asSlot : Bool) (s s' : Sched) : ∀ (e : Element), e.Uniform →
    expandElement asSlot s e = expandElement asSlot s' e
  | .mk tag sels attrs args none, _ => by simp only [expandElement]
  | .mk tag sels attrs args (some cs), h => by
    unfold Element.Uniform at h
    unfold expandElement
    rw [expandNodes_uniform s.l s'.l cs h.2, expandSlots_uniform s.r s'.r cs h.2]
    by_cases hc : ∃ p, tag = .component p
    · rw [slots_uniform s.here s'.here s'.r cs (h.1 hc)]
    · cases tag with
      | component p => exact absurd ⟨p, rfl⟩ hc
      | _ => cases asSlot <;> rfl
theorem expandNodes_uniform (s s' : Sched) : ∀ (cs : List Child), childrenUniform cs →
    expandNodes s cs = expandNodes s' cs
  | [], _ => by simp only [expandNodes]
  | .value v :: cs, h => by
    unfold childrenUniform at h
    simp only [expandNodes, expandNodes_uniform s.r s'.r cs h]
  | .elem e :: cs, h => by
    unfold childrenUniform at h
    simp only [expandNodes, expandNodes_uniform s.r s'.r cs h.2, expandElement_uniform false s.l s'.l e h.1]
  | .slot _ :: cs, h => by
    unfold childrenUniform at h
    simp only [expandNodes, expandNodes_uniform s.r s'.r cs h.2]
theorem expandSlots_uniform (s s' : Sched) : ∀ (cs : List Child), childrenUniform cs →
    expandSlots s cs = expandSlots s' cs
  | [], _ => by simp only [expandSlots]
  | .value v :: cs, h => by
    unfold childrenUniform at h
    simp only [expandSlots, expandSlots_uniform s.r s'.r cs h]
  | .elem e :: cs, h => by
    unfold childrenUniform at h
    simp only [expandSlots, expandSlots_uniform s.r s'.r cs h.2]
  | .slot e :: cs, h => by
    unfold childrenUniform at h
    simp only [expandSlots, expandSlots_uniform s.r s'.r cs h.2, expandElement_uniform true s.l s'.l e h.1]
end

end Mview
