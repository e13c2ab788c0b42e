import Verif.Lemmas.SameCodeParts
/-
C63: whole trees.
-/

set_option linter.unusedVariables false

namespace Mview
open Lex

/-! ### lists -/

theorem forall₂_unique {α β γ : Type} {R : α → γ → Prop} {R' : β → γ → Prop} {δ : Type} {v : α → δ} {v' : β → δ} :
    ∀ {as : List α} {bs : List β} {ts : List γ}, List.Forall₂ R as ts → List.Forall₂ R' bs ts →
    (∀ a ∈ as, ∀ b ∈ bs, ∀ t, R a t → R' b t → v a = v' b) → as.map v = bs.map v'
  | _, _, _, .nil, .nil, _ => rfl
  | _, _, _, .cons h1 h2, .cons h3 h4, h => by
    rw [List.map_cons, List.map_cons, h _ (by simp) _ (by simp) _ h1 h3,
      forall₂_unique h2 h4 fun a ha b hb => h a (by simp [ha]) b (by simp [hb])]

theorem forall₂_same {α γ δ : Type} {R : α → γ → Prop} {v : α → δ} :
    ∀ {as bs : List α} {ts ts' : List γ}, List.Forall₂ R as ts → List.Forall₂ R bs ts' → as.map v = bs.map v →
    (∀ a ∈ as, ∀ b ∈ bs, ∀ t t', R a t → R b t' → v a = v b → R b t) → List.Forall₂ R bs ts
  | _, _, _, _, .nil, .nil, _, _ => .nil
  | _, _, _, _, .nil, .cons _ _, h, _ => by simp at h
  | _, _, _, _, .cons _ _, .nil, h, _ => by simp at h
  | _, _, _, _, .cons h1 h2, .cons h3 h4, he, h => by
    simp only [List.map_cons, List.cons.injEq] at he
    exact .cons (h _ (by simp) _ (by simp) _ _ h1 h3 he.1)
      (forall₂_same h2 h4 he.2 fun a ha b hb => h a (by simp [ha]) b (by simp [hb]))

/-- What is in the lists for each name can be put into any order. -/
theorem forall₂_gather {α γ : Type} {name : α → Ident} {R : α → γ → Prop} : ∀ (bs : List α) (f : Ident → List γ),
    (∀ n, List.Forall₂ R (bs.filter fun b => name b = n) (f n)) →
    ∃ ss : List (Ident × γ), List.Forall₂ (fun b s => name b = s.1 ∧ R b s.2) bs ss ∧
      ∀ n, ((ss.filter fun s => s.1 = n).map Prod.snd) = f n
  | [], f, h => ⟨[], .nil, fun n => by have := h n; simp at this; simp [this]⟩
  | b :: bs, f, h => by
    have h0 := h (name b)
    rw [List.filter_cons_of_pos (by simp)] at h0
    obtain ⟨t, r, h1, h2, h3⟩ := List.forall₂_cons_left_iff.mp h0
    obtain ⟨ss, g1, g2⟩ := forall₂_gather (name := name) (R := R) bs (fun n => if n = name b then r else f n) (by
      intro n
      by_cases hn : n = name b
      · subst hn; simpa using h2
      · have := h n
        rw [List.filter_cons_of_neg (by simpa using Ne.symm hn)] at this
        simpa [hn] using this)
    refine ⟨(name b, t) :: ss, .cons ⟨rfl, h1⟩ g1, ?_⟩
    intro n
    by_cases hn : n = name b
    · subst hn
      rw [List.filter_cons_of_pos (by simp), List.map_cons, g2, if_pos rfl, h3]
    · rw [List.filter_cons_of_neg (by simpa using Ne.symm hn), g2, if_neg hn]

/-! ### slots of a component -/

/-- the code of a slot of that name -/
def SlotCode (n : Ident) (t : Toks) : Prop := ∃ r : Toks, t = q!"::std::convert::Into::into(#n #r)"

theorem slotCode_of {n : Ident} {sels : List Selector} {attrs : List Attr} {args : Option Toks} {nodes : List Toks} {t : Toks}
    (h : slotMeans ⟨false, [⟨n, .none⟩]⟩ sels attrs args nodes = some t) : SlotCode n t := by
  unfold slotMeans at h
  obtain ⟨-, h⟩ := bind_guard h
  simp only [slot_tail rfl, Option.bind_eq_bind, Option.bind_eq_some_iff, Option.pure_def, Option.some.injEq] at h
  obtain ⟨q, rfl, as, has, cl, hcl, h⟩ := h
  exact ⟨_, h.symm⟩

theorem slotCode_name {n m : Ident} {t : Toks} (h : SlotCode n t) (h' : SlotCode m t) : n = m := by
  obtain ⟨r, rfl⟩ := h
  obtain ⟨r', h'⟩ := h'
  simp at h'
  exact h'.1

theorem commaBetween_inj : ∀ {ts us : List Toks}, (∀ t ∈ ts, ∃ n, SlotCode n t) → (∀ t ∈ us, ∃ n, SlotCode n t) →
    commaBetween ts = commaBetween us → ts = us
  | [], [], _, _, _ => rfl
  | [], [u], _, hu, h => by
    obtain ⟨n, r, rfl⟩ := hu u (by simp)
    simp [commaBetween] at h
  | [], u :: w :: us, _, hu, h => by
    obtain ⟨n, r, rfl⟩ := hu u (by simp)
    simp [commaBetween] at h
  | [t], [], ht, _, h => by
    obtain ⟨n, r, rfl⟩ := ht t (by simp)
    simp [commaBetween] at h
  | [t], [u], _, _, h => by simpa [commaBetween] using h
  | [t], u :: w :: us, ht, hu, h => by
    obtain ⟨n, r, rfl⟩ := ht t (by simp)
    obtain ⟨n', r', rfl⟩ := hu u (by simp)
    simp [commaBetween] at h
  | t :: s :: ts, [], ht, _, h => by
    obtain ⟨n, r, rfl⟩ := ht t (by simp)
    simp [commaBetween] at h
  | t :: s :: ts, [u], ht, hu, h => by
    obtain ⟨n, r, rfl⟩ := ht t (by simp)
    obtain ⟨n', r', rfl⟩ := hu u (by simp)
    simp [commaBetween] at h
  | t :: s :: ts, u :: w :: us, ht, hu, h => by
    have ih := commaBetween_inj (ts := s :: ts) (us := w :: us) (fun x hx => ht x (by simp [List.mem_cons.mp hx]))
      (fun x hx => hu x (by simp [List.mem_cons.mp hx]))
    obtain ⟨n, r, rfl⟩ := ht t (by simp)
    obtain ⟨n', r', rfl⟩ := hu u (by simp)
    simp only [commaBetween] at h
    simp at h
    obtain ⟨⟨rfl, rfl⟩, h⟩ := h
    rw [ih h]

theorem slotArg_inj {ts us : List Toks} (ht : ∀ t ∈ ts, ∃ n, SlotCode n t) (hu : ∀ t ∈ us, ∃ n, SlotCode n t)
    (h : slotArg ts = slotArg us) : ts = us := by
  unfold slotArg at h
  split at h <;> split at h
  · rw [h]
  · rename_i t u hn
    obtain ⟨n, r, rfl⟩ := ht t (by simp)
    simp at h
  · rename_i t hn u
    obtain ⟨n, r, rfl⟩ := hu u (by simp)
    simp at h
  · simp at h
    exact commaBetween_inj ht hu h

theorem slotName_raw {n i : Ident} (h : slotMethodName n = some i) : i.raw = true := by
  unfold slotMethodName rawIdent at h
  split at h
  · simp at h
  · cases h; rfl

theorem slotCalls_like {f : Ident → List Toks} : ∀ {ns : List Ident} {calls : List Call},
    ns.mapM (fun n => do return (⟨← slotMethodName n, slotArg (f n)⟩ : Call)) = some calls →
    (∀ n ∈ ns, ∀ t ∈ f n, ∃ m, SlotCode m t) → SlotLike calls
  | [], calls, h, _ => by cases h; simp [SlotLike]
  | n :: ns, calls, h, hf => by
    rw [List.mapM_cons] at h
    simp only [Option.bind_eq_bind, Option.bind_eq_some_iff, Option.pure_def, Option.some.injEq] at h
    obtain ⟨c, ⟨i, hi, rfl⟩, cs, h2, rfl⟩ := h
    intro c hc
    rcases List.mem_cons.mp hc with rfl | hc
    · unfold partSort
      rw [if_pos (slotName_raw hi)]
      have h1 := hf n (by simp)
      unfold slotArg
      split
      · rfl
      · rename_i hn
        split at hn
        · rename_i t ht
          obtain ⟨m, r, rfl⟩ := h1 t (by rw [ht]; simp)
          exact absurd rfl (hn _ _ _)
        · exact absurd rfl (hn _ _ _)
    · exact slotCalls_like h2 (fun n hn => hf n (by simp [hn])) c hc

theorem slotNames_inj {f f' : Ident → List Toks} : ∀ {ns ms : List Ident} {calls : List Call},
    ns.mapM (fun n => do return (⟨← slotMethodName n, slotArg (f n)⟩ : Call)) = some calls →
    ms.mapM (fun n => do return (⟨← slotMethodName n, slotArg (f' n)⟩ : Call)) = some calls →
    (∀ n ∈ ns, f n ≠ [] ∧ ∀ t ∈ f n, SlotCode n t) → (∀ n ∈ ms, f' n ≠ [] ∧ ∀ t ∈ f' n, SlotCode n t) →
    ns = ms ∧ ∀ n ∈ ns, f n = f' n
  | [], ms, calls, h, h', _, _ => by
    cases h
    cases ms with
    | nil => simp
    | cons m ms =>
      rw [List.mapM_cons] at h'
      simp [Option.bind_eq_some_iff] at h'
  | n :: ns, ms, calls, h, h', hf, hf' => by
    rw [List.mapM_cons] at h
    simp only [Option.bind_eq_bind, Option.bind_eq_some_iff, Option.pure_def, Option.some.injEq] at h
    obtain ⟨c, ⟨i, hi, rfl⟩, cs, h2, rfl⟩ := h
    cases ms with
    | nil => cases h'
    | cons m ms =>
      rw [List.mapM_cons] at h'
      simp only [Option.bind_eq_bind, Option.bind_eq_some_iff, Option.pure_def, Option.some.injEq, List.cons.injEq] at h'
      obtain ⟨c, ⟨i', hi', rfl⟩, cs', h2', h3, rfl⟩ := h'
      simp only [Call.mk.injEq] at h3
      obtain ⟨n1, n2⟩ := hf n (by simp)
      obtain ⟨m1, m2⟩ := hf' m (by simp)
      have e := slotArg_inj (fun t ht => ⟨m, m2 t ht⟩) (fun t ht => ⟨n, n2 t ht⟩) h3.2
      obtain ⟨t, r, ht⟩ := List.exists_cons_of_ne_nil n1
      have e2 : n = m := slotCode_name (n2 t (by rw [ht]; simp)) (m2 t (by rw [e, ht]; simp))
      subst e2
      obtain ⟨g1, g2⟩ := slotNames_inj h2 h2' (fun k hk => hf k (by simp [hk])) (fun k hk => hf' k (by simp [hk]))
      subst g1
      refine ⟨rfl, ?_⟩
      intro k hk
      rcases List.mem_cons.mp hk with rfl | hk
      · exact e.symm
      · exact g2 k hk

/-- the codes of the slots of a name -/
def codesOf (slots : List (Ident × Toks)) (n : Ident) : List Toks := (slots.filter fun s => s.1 = n).map Prod.snd

theorem codesOf_ne {slots : List (Ident × Toks)} {n : Ident} : codesOf slots n ≠ [] ↔ n ∈ slots.map Prod.fst := by
  simp [codesOf, List.filter_eq_nil_iff]

theorem codesOf_code {slots : List (Ident × Toks)} {n : Ident} (h : ∀ p ∈ slots, SlotCode p.1 p.2) :
    ∀ t ∈ codesOf slots n, SlotCode n t := by
  intro t ht
  obtain ⟨p, hp, rfl⟩ := List.mem_map.mp ht
  obtain ⟨h1, h2⟩ := List.mem_filter.mp hp
  simp only [decide_eq_true_eq] at h2
  rw [← h2]
  exact h p h1

theorem slotCalls_slotLike {slots : List (Ident × Toks)} {calls : List Call} (hs : ∀ p ∈ slots, SlotCode p.1 p.2)
    (h : SlotCalls slots calls) : SlotLike calls := by
  obtain ⟨names, -, -, h⟩ := h
  exact slotCalls_like (f := codesOf slots) h fun n _ t ht => ⟨n, codesOf_code hs t ht⟩

theorem slotCalls_inj {slots slots' : List (Ident × Toks)} {calls : List Call} (hs : ∀ p ∈ slots, SlotCode p.1 p.2)
    (hs' : ∀ p ∈ slots', SlotCode p.1 p.2) (h : SlotCalls slots calls) (h' : SlotCalls slots' calls) (n : Ident) :
    codesOf slots n = codesOf slots' n := by
  obtain ⟨names, -, hn, h⟩ := h
  obtain ⟨names', -, hn', h'⟩ := h'
  obtain ⟨rfl, g⟩ := slotNames_inj (f := codesOf slots) (f' := codesOf slots') h h'
    (fun n hm => ⟨codesOf_ne.mpr ((hn n).mp hm), codesOf_code hs⟩)
    (fun n hm => ⟨codesOf_ne.mpr ((hn' n).mp hm), codesOf_code hs'⟩)
  by_cases hm : n ∈ names
  · exact g n hm
  · have h1 : codesOf slots n = [] := Decidable.byContradiction fun h => hm ((hn n).mpr (codesOf_ne.mp h))
    have h2 : codesOf slots' n = [] := Decidable.byContradiction fun h => hm ((hn' n).mpr (codesOf_ne.mp h))
    rw [h1, h2]

theorem slotCalls_same {slots slots' : List (Ident × Toks)} {calls : List Call} (h : SlotCalls slots calls)
    (he : ∀ n, codesOf slots' n = codesOf slots n) : SlotCalls slots' calls := by
  obtain ⟨names, h1, h2, h3⟩ := h
  refine ⟨names, h1, ?_, ?_⟩
  · intro n
    rw [h2, ← codesOf_ne, ← codesOf_ne, he]
  · rw [← h3]
    refine congrArg (List.mapM · names) (funext fun n => ?_)
    rw [show (slots'.filter fun s => s.1 = n).map Prod.snd = _ from he n]
    rfl

/-! ### elements with their children -/

theorem slotCalls_none {calls : List Call} (h : SlotCalls [] calls) : calls = [] := by
  obtain ⟨names, -, h1, h2⟩ := h
  have : names = [] := List.eq_nil_iff_forall_not_mem.mpr fun n hn => by simpa using (h1 n).mp hn
  subst this
  cases h2
  rfl

theorem component_iff {p : Path} {sels : List Selector} {attrs : List Attr} {args : Option Toks}
    {cs : Option (List Child)} {t : Toks} : (Element.mk (.component p) sels attrs args cs).Means false t ↔
    ∃ nodes slots calls, NodesMean (cs.getD []) nodes ∧ SlotsMean (cs.getD []) slots ∧ SlotCalls slots calls ∧
      componentMeans p sels attrs args nodes calls = some t := by
  refine ⟨Run.means_component, ?_⟩
  rintro ⟨nodes, slots, calls, h1, h2, h3, h4⟩
  cases cs with
  | none =>
    simp only [Option.getD_none, NodesMean, SlotsMean] at h1 h2
    subst h1 h2
    rw [slotCalls_none h3] at h4
    simpa only [Element.Means] using h4
  | some cs =>
    simp only [Element.Means]
    exact ⟨nodes, slots, calls, h1, h2, h3, h4⟩

theorem slot_iff {p : Path} {sels : List Selector} {attrs : List Attr} {args : Option Toks}
    {cs : Option (List Child)} {t : Toks} : (Element.mk (.component p) sels attrs args cs).Means true t ↔
    ∃ nodes slots calls, NodesMean (cs.getD []) nodes ∧ SlotsMean (cs.getD []) slots ∧ SlotCalls slots calls ∧
      slotMeans p sels attrs args nodes = some t := by
  cases cs with
  | none =>
    simp only [Element.Means, Option.getD_none, NodesMean, SlotsMean]
    constructor
    · intro h
      exact ⟨[], [], [], rfl, rfl, ⟨[], by simp, by simp, rfl⟩, h⟩
    · rintro ⟨_, _, calls, rfl, rfl, h3, h4⟩
      exact h4
  | some cs => simp only [Element.Means, Option.getD_some]

theorem xml_iff {tag : Tag} {sels : List Selector} {attrs : List Attr} {args : Option Toks}
    {cs : Option (List Child)} {t : Toks} (hp : ∀ p, tag ≠ .component p) :
    (Element.mk tag sels attrs args cs).Means false t ↔
    ∃ nodes, NodesMean (cs.getD []) nodes ∧ xmlMeans tag sels attrs nodes = some t := by
  refine ⟨Run.means_xml hp, ?_⟩
  rintro ⟨nodes, h1, h2⟩
  cases cs with
  | none =>
    simp only [Option.getD_none, NodesMean] at h1
    subst h1
    cases tag <;> first | exact absurd rfl (hp _) | simpa only [Element.Means] using h2
  | some cs => cases tag <;> first | exact absurd rfl (hp _) | (simp only [Element.Means]; exact ⟨nodes, h1, h2⟩)

theorem means_true {tag : Tag} {sels : List Selector} {attrs : List Attr} {args : Option Toks}
    {cs : Option (List Child)} {t : Toks} (h : (Element.mk tag sels attrs args cs).Means true t) :
    ∃ p, tag = .component p := by
  cases tag with
  | component p => exact ⟨p, rfl⟩
  | _ => cases cs <;> simp only [Element.Means] at h

theorem view_mk (b : Bool) (tag : Tag) (sels : List Selector) (attrs : List Attr) (args : Option Toks)
    (cs : Option (List Child)) : (Element.mk tag sels attrs args cs).view b =
    viewElement b tag sels attrs args (nodeViews (cs.getD [])) (slotViews (cs.getD [])) := by
  cases cs <;> simp only [Element.view, Option.getD_none, Option.getD_some, nodeViews, slotViews]

theorem plainParts_mk {tag : Tag} {sels : List Selector} {attrs : List Attr} {args : Option Toks}
    {cs : Option (List Child)} (h : (Element.mk tag sels attrs args cs).plainParts) :
    plainTag tag attrs ∧ PlainParts (cs.getD []) := by
  cases cs with
  | none => exact ⟨by simpa only [Element.plainParts] using h, by simp [PlainParts]⟩
  | some cs => simpa only [Element.plainParts, Option.getD_some] using h

/-- what is seen of a child, slots included -/
def Child.view : Child → View
  | .value v => .value v
  | .elem e => e.view false
  | .slot e => e.view true

/-- the slots among the children -/
def slotElems : List Child → List Element
  | [] => []
  | .slot e :: cs => e :: slotElems cs
  | .value _ :: cs => slotElems cs
  | .elem _ :: cs => slotElems cs

theorem nodeViews_eq (cs : List Child) : nodeViews cs = (cs.filter fun c => !c.isSlot).map Child.view := by
  induction cs with
  | nil => rfl
  | cons c cs ih => cases c <;> simp [nodeViews, Child.isSlot, Child.view, ih]

theorem slotViews_eq (cs : List Child) :
    slotViews cs = (slotElems cs).map fun e => (e.slotName.getD (plain []), e.view true) := by
  induction cs with
  | nil => rfl
  | cons c cs ih => cases c <;> simp [slotViews, slotElems, ih]

theorem mem_slotElems {cs : List Child} {e : Element} : e ∈ slotElems cs ↔ .slot e ∈ cs := by
  induction cs with
  | nil => simp [slotElems]
  | cons c cs ih => cases c <;> simp [slotElems, ih]

/-- a slot of that name with that code -/
def slotIs (e : Element) (p : Ident × Toks) : Prop := e.slotName.getD (plain []) = p.1 ∧ e.slotName.isSome ∧ e.Means true p.2

theorem slotIs_iff {e : Element} {p : Ident × Toks} :
    slotIs e p ↔ e.tag = .component ⟨false, [⟨p.1, .none⟩]⟩ ∧ e.Means true p.2 := by
  unfold slotIs Element.slotName
  split
  · rename_i n hn
    rw [hn]
    simp
  · rename_i hn
    simp only [Option.isSome_none, Bool.false_eq_true, false_and, and_false, false_iff]
    rintro ⟨h, -⟩
    exact hn _ h

theorem slotsMean_elems {cs : List Child} {ts : List (Ident × Toks)} :
    SlotsMean cs ts ↔ List.Forall₂ slotIs (slotElems cs) ts := by
  induction cs generalizing ts with
  | nil => rw [SlotsMean]; simp [slotElems]
  | cons c cs ih =>
    cases c with
    | value v => rw [SlotsMean, ih, slotElems]
    | elem e => rw [SlotsMean, ih, slotElems]
    | slot e =>
      rw [slotsMean_slot, slotElems, List.forall₂_cons_left_iff]
      simp only [ih, slotIs_iff]
      constructor
      · rintro ⟨n, hn, t, ts', h1, h2, rfl⟩; exact ⟨(n, t), ts', ⟨hn, h1⟩, h2, rfl⟩
      · rintro ⟨⟨n, t⟩, ts', ⟨hn, h1⟩, h2, rfl⟩; exact ⟨n, hn, t, ts', h1, h2, rfl⟩

theorem slotName_tag {e : Element} (h : e.slotName.isSome) :
    ∃ n, e.tag = .component ⟨false, [⟨n, .none⟩]⟩ ∧ e.slotName = some n := by
  unfold Element.slotName at h ⊢
  split at h
  · rename_i n hn; exact ⟨n, hn, rfl⟩
  · simp at h

theorem slotIs_code {e : Element} {p : Ident × Toks} (h : slotIs e p) : SlotCode p.1 p.2 := by
  obtain ⟨h1, h2, h3⟩ := h
  obtain ⟨n, hn, hs⟩ := slotName_tag h2
  obtain ⟨tag, sels, attrs, args, cs⟩ := e
  simp only [Element.tag] at hn
  subst hn
  rw [hs] at h1
  simp only [Option.getD_some] at h1
  rw [← h1]
  obtain ⟨nodes, -, h⟩ := Run.means_slot h3
  exact slotCode_of h

theorem slotsMean_code {cs : List Child} {ts : List (Ident × Toks)} (h : SlotsMean cs ts) :
    ∀ p ∈ ts, SlotCode p.1 p.2 := by
  have h := slotsMean_elems.mp h
  intro p hp
  obtain ⟨e, -, he⟩ := forall₂_left h.flip hp
  exact slotIs_code he

/-- the slots of a name and their codes -/
theorem slots_named {es : List Element} {ts : List (Ident × Toks)} (h : List.Forall₂ slotIs es ts) (n : Ident) :
    List.Forall₂ (fun e t => slotIs e (n, t)) (es.filter fun e => e.slotName.getD (plain []) = n) (codesOf ts n) := by
  induction h with
  | nil => simp [codesOf]
  | @cons e p es ts h1 h2 ih =>
    obtain ⟨m, t⟩ := p
    have hm : e.slotName.getD (plain []) = m := h1.1
    by_cases hn : m = n
    · subst hn
      rw [List.filter_cons_of_pos (by simpa using hm)]
      unfold codesOf
      rw [List.filter_cons_of_pos (by simp)]
      exact .cons h1 ih
    · rw [List.filter_cons_of_neg (by simpa [hm] using hn)]
      unfold codesOf
      rw [List.filter_cons_of_neg (by simpa using hn)]
      exact ih

/-- the views of the slots of a name -/
theorem views_named (cs : List Child) (n : Ident) : ((slotViews cs).filter fun s => s.1 = n).map Prod.snd =
    ((slotElems cs).filter fun e => e.slotName.getD (plain []) = n).map (Element.view true) := by
  rw [slotViews_eq, List.filter_map, List.map_map]
  rfl

theorem plainParts_mem {cs : List Child} (h : PlainParts cs) : ∀ c ∈ cs, ∀ e, c = .elem e ∨ c = .slot e → e.plainParts := by
  induction cs with
  | nil => simp
  | cons c cs ih =>
    intro x hx e he
    cases c with
    | value v =>
      simp only [PlainParts] at h
      rcases List.mem_cons.mp hx with rfl | hx
      · simp at he
      · exact ih h x hx e he
    | elem e' =>
      simp only [PlainParts] at h
      rcases List.mem_cons.mp hx with rfl | hx
      · simp at he; rw [← he]; exact h.1
      · exact ih h.2 x hx e he
    | slot e' =>
      simp only [PlainParts] at h
      rcases List.mem_cons.mp hx with rfl | hx
      · simp at he; rw [← he]; exact h.1
      · exact ih h.2 x hx e he

/-! ### the same code is the same view -/

/-- whatever has the same code as `e` is the same view -/
def CodeInj (e : Element) : Prop := ∀ (b : Bool) (e' : Element) (t : Toks), e.plainParts → e'.plainParts →
  (b = true → e.slotName.isSome ∧ e'.slotName.isSome) → e.Means b t → e'.Means b t → e.view b = e'.view b

/-- the same for a child -/
def ChildInj : Child → Prop
  | .value _ => True
  | .elem e => CodeInj e
  | .slot e => CodeInj e

theorem xml_first {tag : Tag} {sels : List Selector} {attrs : List Attr} {nodes : List Toks} {t : Toks}
    (h : xmlMeans tag sels attrs nodes = some t) : ∃ r, t = .punct ':' .joint :: r := by
  simp only [xmlMeans, Option.bind_eq_bind, Option.bind_eq_some_iff, Option.pure_def, Option.some.injEq] at h
  obtain ⟨hd, hhd, as, has, ds, hds, h⟩ := h
  cases tag <;> simp only [Tag.head, Option.some.injEq, reduceCtorEq] at hhd <;> (subst hhd; exact ⟨_, h.symm⟩)

theorem component_first {p : Path} {sels : List Selector} {attrs : List Attr} {args : Option Toks} {nodes : List Toks}
    {calls : List Call} {t : Toks} (h : componentMeans p sels attrs args nodes calls = some t) :
    ∃ s r, t = .punct '#' s :: r := by
  simp only [componentMeans, Option.bind_eq_bind, Option.bind_eq_some_iff, Option.pure_def, Option.some.injEq] at h
  obtain ⟨q, hq, as, has, es, hes, cl, hcl, h⟩ := h
  exact ⟨_, _, h.symm⟩

theorem elemCode_first {e : Element} {t : Toks} (h : e.Means false t) : ∃ c s r, t = .punct c s :: r := by
  obtain ⟨tag, sels, attrs, args, cs⟩ := e
  by_cases hp : ∃ p, tag = .component p
  · obtain ⟨p, rfl⟩ := hp
    obtain ⟨nodes, slots, calls, -, -, -, h⟩ := component_iff.mp h
    obtain ⟨s, r, rfl⟩ := component_first h
    exact ⟨_, _, _, rfl⟩
  · obtain ⟨nodes, -, h⟩ := (xml_iff fun p hq => hp ⟨p, hq⟩).mp h
    obtain ⟨r, rfl⟩ := xml_first h
    exact ⟨_, _, _, rfl⟩

theorem rendered_inj {x y : Toks} (h : rendered x = rendered y) : x = y := by simpa [rendered] using h

theorem nodes_inj {cs cs' : List Child} {ns : List Toks} (ih : ∀ c ∈ cs, ChildInj c) (hp : PlainParts cs)
    (hp' : PlainParts cs') (h : NodesMean cs ns) (h' : NodesMean cs' ns) : nodeViews cs = nodeViews cs' := by
  rw [nodeViews_eq, nodeViews_eq]
  refine forall₂_unique (nodesMean_iff.mp h) (nodesMean_iff.mp h') ?_
  intro c hc c' hc' t ht ht'
  have hc := (List.mem_filter.mp hc).1
  have hc' := (List.mem_filter.mp hc').1
  have pc := plainParts_mem hp c hc
  have pc' := plainParts_mem hp' c' hc'
  have ih := ih c hc
  cases c with
  | slot e => exact absurd ht (by simp [Child.Means])
  | value v =>
    obtain ⟨x, hx, rfl⟩ := ht
    cases c' with
    | slot e => exact absurd ht' (by simp [Child.Means])
    | value v' =>
      obtain ⟨y, hy, hr⟩ := ht'
      rw [← rendered_inj hr] at hy
      rw [value_inj hx hy]
    | elem e' =>
      obtain ⟨y, hy, hr⟩ := ht'
      rw [← rendered_inj hr] at hy
      obtain ⟨a, r, rfl, ha⟩ := value_first hx
      obtain ⟨c, s, r', h⟩ := elemCode_first hy
      cases h
      exact absurd rfl (ha _ _)
  | elem e =>
    obtain ⟨x, hx, rfl⟩ := ht
    cases c' with
    | slot e => exact absurd ht' (by simp [Child.Means])
    | value v' =>
      obtain ⟨y, hy, hr⟩ := ht'
      rw [← rendered_inj hr] at hy
      obtain ⟨a, r, rfl, ha⟩ := value_first hy
      obtain ⟨c, s, r', h⟩ := elemCode_first hx
      cases h
      exact absurd rfl (ha _ _)
    | elem e' =>
      obtain ⟨y, hy, hr⟩ := ht'
      rw [← rendered_inj hr] at hy
      exact ih false e' x (pc e (.inl rfl)) (pc' e' (.inl rfl)) (by simp) hx hy

theorem slots_inj {cs cs' : List Child} {ss ss' : List (Ident × Toks)} (ih : ∀ c ∈ cs, ChildInj c) (hp : PlainParts cs)
    (hp' : PlainParts cs') (h : SlotsMean cs ss) (h' : SlotsMean cs' ss') {n : Ident} (he : codesOf ss n = codesOf ss' n) :
    ((slotViews cs).filter fun s => s.1 = n).map Prod.snd = ((slotViews cs').filter fun s => s.1 = n).map Prod.snd := by
  rw [views_named, views_named]
  have h1 := slots_named (slotsMean_elems.mp h) n
  have h2 := slots_named (slotsMean_elems.mp h') n
  rw [← he] at h2
  refine forall₂_unique h1 h2 ?_
  intro e hm e' hm' t ht ht'
  have hc := mem_slotElems.mp (List.mem_filter.mp hm).1
  have hc' := mem_slotElems.mp (List.mem_filter.mp hm').1
  exact ih _ hc true e' t (plainParts_mem hp _ hc e (.inr rfl)) (plainParts_mem hp' _ hc' e' (.inr rfl))
    (fun _ => ⟨ht.2.1, ht'.2.1⟩) ht.2.2 ht'.2.2

theorem nodeViews_nil {cs : List Child} {ns : List Toks} (h : NodesMean cs ns) : (nodeViews cs).isEmpty = true ↔ ns = [] := by
  have h := (nodesMean_iff.mp h).length_eq
  rw [nodeViews_eq, List.isEmpty_iff, List.map_eq_nil_iff, ← List.length_eq_zero_iff, h, List.length_eq_zero_iff]

/-- what depends on there being children -/
theorem ifNodes {α : Type} {cs : List Child} {ns : List Toks} (h : NodesMean cs ns) {a b z : α} (hab : ns ≠ [] → a = b) :
    (if (nodeViews cs).isEmpty = true then z else a) = if (nodeViews cs).isEmpty = true then z else b := by
  by_cases hn : ns = []
  · rw [if_pos ((nodeViews_nil h).mpr hn), if_pos ((nodeViews_nil h).mpr hn)]
  · rw [hab hn]

theorem elem_inj_of {tag : Tag} {sels : List Selector} {attrs : List Attr} {args : Option Toks}
    {cs : Option (List Child)} (ih : ∀ c ∈ cs.getD [], ChildInj c) : CodeInj (.mk tag sels attrs args cs) := by
  rintro b ⟨tag', sels', attrs', args', cs'⟩ t hp hp' hsn h h'
  rw [view_mk, view_mk]
  obtain ⟨p1, p2⟩ := plainParts_mk hp
  obtain ⟨p1', p2'⟩ := plainParts_mk hp'
  cases b with
  | true =>
    obtain ⟨s1, s2⟩ := hsn rfl
    obtain ⟨n, hn, -⟩ := slotName_tag s1
    obtain ⟨n', hn', -⟩ := slotName_tag s2
    simp only [Element.tag] at hn hn'
    subst hn hn'
    obtain ⟨nodes, hns, h⟩ := Run.means_slot h
    obtain ⟨nodes', hns', h'⟩ := Run.means_slot h'
    obtain ⟨rfl, e1, rfl, e2⟩ := slot_inj h h' (Run.nodes_noComma hns) (Run.nodes_noComma hns')
    have e3 := nodes_inj ih p2 p2' hns hns'
    simp only [viewElement, if_true, View.slot.injEq, true_and]
    refine ⟨e1, ?_, ?_, e3⟩
    · rw [← e3]; exact ifNodes hns fun hne => (e2 hne).1
    · rw [← e3]; exact ifNodes hns fun hne => (e2 hne).2
  | false =>
    by_cases hc : ∃ p, tag = .component p
    · obtain ⟨p, rfl⟩ := hc
      obtain ⟨nodes, slots, calls, hns, hss, hcs, h⟩ := component_iff.mp h
      by_cases hc' : ∃ p, tag' = .component p
      · obtain ⟨p', rfl⟩ := hc'
        obtain ⟨nodes', slots', calls', hns', hss', hcs', h'⟩ := component_iff.mp h'
        have c1 := slotsMean_code hss
        have c2 := slotsMean_code hss'
        obtain ⟨e0, e1, ⟨rfl, e2⟩, rfl, e3⟩ := component_inj h h' (p1 _ rfl).2 (p1' _ rfl).2 (Run.nodes_noComma hns)
          (Run.nodes_noComma hns') (slotCalls_slotLike c1 hcs) (slotCalls_slotLike c2 hcs')
        have e4 := nodes_inj ih p2 p2' hns hns'
        simp only [viewElement, Bool.false_eq_true, if_false, View.component.injEq]
        refine ⟨path_inj (p1 _ rfl).1 (p1' _ rfl).1 (component_path h) e0, e1, ?_, ?_, e4, ?_, e3⟩
        · rw [← e4]; exact ifNodes hns fun hne => (e2 hne).1
        · rw [← e4]; exact ifNodes hns fun hne => (e2 hne).2
        · funext n
          exact slots_inj ih p2 p2' hss hss' (slotCalls_inj c1 c2 hcs hcs' n)
      · obtain ⟨nodes', -, h'⟩ := (xml_iff fun p hq => hc' ⟨p, hq⟩).mp h'
        obtain ⟨s, r, rfl⟩ := component_first h
        obtain ⟨r', h''⟩ := xml_first h'
        simp at h''
    · obtain ⟨nodes, hns, h⟩ := (xml_iff fun p hq => hc ⟨p, hq⟩).mp h
      by_cases hc' : ∃ p, tag' = .component p
      · obtain ⟨p', rfl⟩ := hc'
        obtain ⟨nodes', slots', calls', hns', hss', hcs', h'⟩ := component_iff.mp h'
        obtain ⟨s, r, rfl⟩ := component_first h'
        obtain ⟨r', h''⟩ := xml_first h
        simp at h''
      · obtain ⟨nodes', hns', h'⟩ := (xml_iff fun p hq => hc' ⟨p, hq⟩).mp h'
        obtain ⟨⟨e0, e0'⟩, e1, e2, e3, e4, e5, rfl⟩ := xml_inj h h'
        have e6 := nodes_inj ih p2 p2' hns hns'
        cases tag <;> cases tag' <;> first
          | exact absurd ⟨_, rfl⟩ hc
          | exact absurd ⟨_, rfl⟩ hc'
          | simp [viewElement, e0, e1, e2, e3, e4, e5, e6]

mutual
theorem elem_inj : (e : Element) → CodeInj e
  | .mk tag sels attrs args none => elem_inj_of (by simp)
  | .mk tag sels attrs args (some cs) => elem_inj_of (cs := some cs) (children_inj cs)
theorem children_inj : (cs : List Child) → ∀ c ∈ cs, ChildInj c
  | [] => by simp
  | .value v :: cs => by
    intro c hc
    rcases List.mem_cons.mp hc with rfl | hc
    · trivial
    · exact children_inj cs c hc
  | .elem e :: cs => by
    intro c hc
    rcases List.mem_cons.mp hc with rfl | hc
    · exact elem_inj e
    · exact children_inj cs c hc
  | .slot e :: cs => by
    intro c hc
    rcases List.mem_cons.mp hc with rfl | hc
    · exact elem_inj e
    · exact children_inj cs c hc
end

/-! ### the same view has the same code -/

/-- whatever is accepted and the same view as `e` has all codes of `e` -/
def CodeSame (e : Element) : Prop := ∀ (b : Bool) (e' : Element) (t t' : Toks),
  e.Means b t → e'.Means b t' → e.view b = e'.view b → e'.Means b t

/-- the same for a child -/
def ChildSame : Child → Prop
  | .value _ => True
  | .elem e => CodeSame e
  | .slot e => CodeSame e

theorem view_value {b : Bool} {e : Element} {v : Value} : e.view b ≠ .value v := by
  obtain ⟨tag, sels, attrs, args, cs⟩ := e
  rw [view_mk]
  unfold viewElement
  cases tag <;> cases b <;> simp

theorem nodes_same {cs cs' : List Child} {ns ns' : List Toks} (ih : ∀ c ∈ cs, ChildSame c)
    (h : NodesMean cs ns) (h' : NodesMean cs' ns') (he : nodeViews cs = nodeViews cs') : NodesMean cs' ns := by
  rw [nodeViews_eq, nodeViews_eq] at he
  refine nodesMean_iff.mpr (forall₂_same (nodesMean_iff.mp h) (nodesMean_iff.mp h') he ?_)
  intro c hc c' hc' t t' ht ht' hv
  have ih := ih c (List.mem_filter.mp hc).1
  cases c with
  | slot e => exact absurd ht (by simp [Child.Means])
  | value v =>
    cases c' with
    | slot e => exact absurd ht' (by simp [Child.Means])
    | value v' => simp only [Child.view, View.value.injEq] at hv; rw [← hv]; exact ht
    | elem e' => exact absurd hv.symm view_value
  | elem e =>
    cases c' with
    | slot e => exact absurd ht' (by simp [Child.Means])
    | value v' => exact absurd hv view_value
    | elem e' =>
      obtain ⟨x, hx, rfl⟩ := ht
      obtain ⟨y, hy, rfl⟩ := ht'
      exact ⟨x, ih false e' x y hx hy hv, rfl⟩

theorem slots_same {cs cs' : List Child} {ss ss' : List (Ident × Toks)} (ih : ∀ c ∈ cs, ChildSame c)
    (h : SlotsMean cs ss) (h' : SlotsMean cs' ss') (he : ∀ n, ((slotViews cs).filter fun s => s.1 = n).map Prod.snd =
      ((slotViews cs').filter fun s => s.1 = n).map Prod.snd) :
    ∃ ss'', SlotsMean cs' ss'' ∧ ∀ n, codesOf ss'' n = codesOf ss n := by
  have key : ∀ n, List.Forall₂ (fun e t => e.slotName.isSome ∧ e.Means true t)
      ((slotElems cs').filter fun e => e.slotName.getD (plain []) = n) (codesOf ss n) := by
    intro n
    have h1 := (slots_named (slotsMean_elems.mp h) n).imp (fun _ _ h => h.2)
    have h2 := (slots_named (slotsMean_elems.mp h') n).imp (fun _ _ h => h.2)
    have he := he n
    rw [views_named, views_named] at he
    refine forall₂_same h1 h2 he ?_
    intro e hm e' hm' t t' ht ht' hv
    have hc := mem_slotElems.mp (List.mem_filter.mp hm).1
    exact ⟨ht'.1, ih _ hc true e' t t' ht.2 ht'.2 hv⟩
  obtain ⟨ss'', g1, g2⟩ := forall₂_gather (slotElems cs') (codesOf ss) key
  exact ⟨ss'', slotsMean_elems.mpr g1, g2⟩

theorem elem_same_of {tag : Tag} {sels : List Selector} {attrs : List Attr} {args : Option Toks}
    {cs : Option (List Child)} (ih : ∀ c ∈ cs.getD [], ChildSame c) : CodeSame (.mk tag sels attrs args cs) := by
  rintro b ⟨tag', sels', attrs', args', cs'⟩ t t' h h' hv
  rw [view_mk, view_mk] at hv
  cases b with
  | true =>
    obtain ⟨p, rfl⟩ := means_true h
    obtain ⟨p', rfl⟩ := means_true h'
    obtain ⟨nodes, slots, calls, hns, hss, hcs, h⟩ := slot_iff.mp h
    obtain ⟨nodes', slots', calls', hns', hss', hcs', h'⟩ := slot_iff.mp h'
    simp only [viewElement, if_true, View.slot.injEq] at hv
    obtain ⟨e0, e1, e2, e3, e4⟩ := hv
    refine slot_iff.mpr ⟨nodes, slots', calls', nodes_same ih hns hns' e4, hss', hcs', slot_same h h' (path_same e0) e1 ?_⟩
    intro hne
    have hn : (nodeViews (cs.getD [])).isEmpty ≠ true := fun h => hne ((nodeViews_nil hns).mp h)
    rw [← e4] at e2 e3
    rw [if_neg hn, if_neg hn] at e2 e3
    exact ⟨e2, e3⟩
  | false =>
    by_cases hc : ∃ p, tag = .component p
    · obtain ⟨p, rfl⟩ := hc
      obtain ⟨nodes, slots, calls, hns, hss, hcs, h⟩ := component_iff.mp h
      by_cases hc' : ∃ p, tag' = .component p
      · obtain ⟨p', rfl⟩ := hc'
        obtain ⟨nodes', slots', calls', hns', hss', hcs', h'⟩ := component_iff.mp h'
        simp only [viewElement, Bool.false_eq_true, if_false, View.component.injEq] at hv
        obtain ⟨e0, e1, e2, e3, e4, e5, e6⟩ := hv
        obtain ⟨ss, g1, g2⟩ := slots_same ih hss hss' fun n => congrFun e5 n
        refine component_iff.mpr ⟨nodes, ss, calls, nodes_same ih hns hns' e4, g1, slotCalls_same hcs g2,
          component_same h h' (path_same e0) e1 ?_ e6⟩
        intro hne
        have hn : (nodeViews (cs.getD [])).isEmpty ≠ true := fun h => hne ((nodeViews_nil hns).mp h)
        rw [← e4] at e2 e3
        rw [if_neg hn, if_neg hn] at e2 e3
        exact ⟨e2, e3⟩
      · cases tag' <;> first
          | exact absurd ⟨_, rfl⟩ hc'
          | simp [viewElement] at hv
    · obtain ⟨nodes, hns, h⟩ := (xml_iff fun p hq => hc ⟨p, hq⟩).mp h
      by_cases hc' : ∃ p, tag' = .component p
      · obtain ⟨p', rfl⟩ := hc'
        cases tag <;> first
          | exact absurd ⟨_, rfl⟩ hc
          | simp [viewElement] at hv
      · obtain ⟨nodes', hns', h'⟩ := (xml_iff fun p hq => hc' ⟨p, hq⟩).mp h'
        have hv : tag.view = tag'.view ∧
            (kvs attrs).map (KvAttr.view tag.kind) = (kvs attrs').map (KvAttr.view tag'.kind) ∧
            (directives attrs).map Directive.view = (directives attrs').map Directive.view ∧
            classes sels = classes sels' ∧ ids sels = ids sels' ∧ spreads attrs = spreads attrs' ∧
            nodeViews (cs.getD []) = nodeViews (cs'.getD []) := by
          cases tag <;> cases tag' <;> first
            | exact absurd ⟨_, rfl⟩ hc
            | exact absurd ⟨_, rfl⟩ hc'
            | simpa only [viewElement, View.element.injEq] using hv
        obtain ⟨e0, e1, e2, e3, e4, e5, e6⟩ := hv
        exact (xml_iff fun p hq => hc' ⟨p, hq⟩).mpr ⟨nodes, nodes_same ih hns hns' e6,
          xml_same h h' e0 e1 e2 e3 e4 e5⟩

mutual
theorem elem_same : (e : Element) → CodeSame e
  | .mk tag sels attrs args none => elem_same_of (by simp)
  | .mk tag sels attrs args (some cs) => elem_same_of (cs := some cs) (children_same cs)
theorem children_same : (cs : List Child) → ∀ c ∈ cs, ChildSame c
  | [] => by simp
  | .value v :: cs => by
    intro c hc
    rcases List.mem_cons.mp hc with rfl | hc
    · trivial
    · exact children_same cs c hc
  | .elem e :: cs => by
    intro c hc
    rcases List.mem_cons.mp hc with rfl | hc
    · exact elem_same e
    · exact children_same cs c hc
  | .slot e :: cs => by
    intro c hc
    rcases List.mem_cons.mp hc with rfl | hc
    · exact elem_same e
    · exact children_same cs c hc
end

/-! ### the root -/

theorem root_inj {cs cs' : List Child} {t : Toks} (hp : PlainParts cs) (hp' : PlainParts cs')
    (h : RootMeans cs t) (h' : RootMeans cs' t) : SameView cs cs' := by
  obtain ⟨-, ns, h1, h⟩ := h
  obtain ⟨-, ns', h1', h'⟩ := h'
  have hr := Run.nodes_rendered cs ns h1
  have hr' := Run.nodes_rendered cs' ns' h1'
  have key : ns = ns' := by
    split at h <;> split at h'
    · rw [h] at h'
      simp at h'
      rw [h']
    · rename_i x _ hn
      obtain ⟨z, rfl⟩ := hr x (by simp)
      rw [h] at h'
      simp [rendered, viewOf] at h'
    · rename_i hn _ x
      obtain ⟨z, rfl⟩ := hr' x (by simp)
      rw [h] at h'
      simp [rendered, viewOf] at h'
    · rw [h] at h'
      simp at h'
      exact viewOf_inj (Run.nodes_noComma h1) (Run.nodes_noComma h1') h'
  subst key
  exact nodes_inj (children_inj cs) hp hp' h1 h1'

theorem root_same {cs cs' : List Child} {t t' : Toks} (h : RootMeans cs t) (h' : RootMeans cs' t')
    (hv : SameView cs cs') : RootMeans cs' t := by
  obtain ⟨-, ns, h1, h⟩ := h
  obtain ⟨h0, ns', h1', -⟩ := h'
  exact ⟨h0, ns, nodes_same (children_same cs) h1 h1' hv, h⟩

end Mview
