import Verif.Spec.Threads
import Verif.Lemmas.Issues
/-
The issues of a tree are those of its threads.
-/

namespace Mview

/-! ### threads -/

theorem ElemThread.tag_eq {e' e : Element} (h : ElemThread e' e) : e'.tag = e.tag := by
  cases h <;> rfl

theorem slotName_of_tag {e' e : Element} (h : e'.tag = e.tag) : e'.slotName = e.slotName := by
  unfold Element.slotName; rw [h]

/-- What holds for some thread of an element. -/
theorem some_thread {T : Tag} {S : List Selector} {A : List Attr} {g : Option Toks} {k : Option (List Child)}
    {P : Element → Prop} : (∃ e', ElemThread e' (.mk T S A g k) ∧ P e') ↔
      P (.mk T [] [] none none) ∨ (∃ s ∈ S, P (.mk T [s] [] none none)) ∨
      (∃ a ∈ A, P (.mk T [] [a] none none)) ∨
      ∃ cs, k = some cs ∧ ∃ c ∈ cs, ∃ c', Thread c' c ∧ P (.mk T [] [] none (some [c'])) := by
  constructor
  · rintro ⟨e', h, hp⟩
    cases h with
    | tag => exact .inl hp
    | sel h => exact .inr (.inl ⟨_, h, hp⟩)
    | attr h => exact .inr (.inr (.inl ⟨_, h, hp⟩))
    | child h ht => exact .inr (.inr (.inr ⟨_, rfl, _, h, _, ht, hp⟩))
  · rintro (h | ⟨s, hs, h⟩ | ⟨a, ha, h⟩ | ⟨cs, rfl, c, hc, c', ht, h⟩)
    · exact ⟨_, .tag, h⟩
    · exact ⟨_, .sel hs, h⟩
    · exact ⟨_, .attr ha, h⟩
    · exact ⟨_, .child hc ht, h⟩

/-! ### issues of children, one by one -/

theorem nodesIssues_mem {i : Issue} : ∀ {cs : List Child}, i ∈ nodesIssues cs ↔ ∃ c ∈ cs, i ∈ nodesIssues [c]
  | [] => by simp [nodesIssues]
  | c :: cs => by
    have ih := nodesIssues_mem (i := i) (cs := cs)
    cases c <;> simp only [nodesIssues, List.mem_append, ih, List.append_nil, List.mem_cons, exists_eq_or_imp,
      List.not_mem_nil, false_or]

theorem slotsIssues_mem {i : Issue} : ∀ {cs : List Child}, i ∈ slotsIssues cs ↔ ∃ c ∈ cs, i ∈ slotsIssues [c]
  | [] => by simp [slotsIssues]
  | c :: cs => by
    have ih := slotsIssues_mem (i := i) (cs := cs)
    cases c <;> simp only [slotsIssues, List.mem_append, ih, List.append_nil, List.mem_cons, exists_eq_or_imp,
      List.not_mem_nil, false_or]

theorem methodIssues_mem {i : Issue} {cs : List Child} :
    i ∈ methodIssues cs ↔ ∃ c ∈ cs, i ∈ methodIssues [c] := by
  have key : ∀ cs : List Child, i ∈ methodIssues cs ↔ i = .crash ∧ ∃ c ∈ cs, ∃ e n, c = .slot e ∧
      e.slotName = some n ∧ snakeCase n.name ∈ [c!"_", c!"self", c!"Self", c!"super", c!"crate"] := by
    intro cs
    unfold methodIssues
    split
    · rename_i h
      simp only [List.not_mem_nil, false_iff, not_and]
      rintro - ⟨c, hc, e, n, rfl, hn, hm⟩
      exact h n (List.mem_filterMap.mpr ⟨_, hc, hn⟩) hm
    · rename_i h
      simp only [List.mem_singleton]
      constructor
      · intro hi
        refine ⟨hi, ?_⟩
        obtain ⟨n, hn⟩ := Classical.not_forall.mp h
        obtain ⟨hn, hm⟩ := Classical.not_imp.mp hn
        obtain ⟨c, hc, hcn⟩ := List.mem_filterMap.mp hn
        cases c with
        | slot e => exact ⟨_, hc, e, n, rfl, hcn, Classical.not_not.mp hm⟩
        | value v => cases hcn
        | elem e => cases hcn
      · exact fun h => h.1
  rw [key]
  constructor
  · rintro ⟨hi, c, hc, h⟩
    exact ⟨c, hc, (key _).mpr ⟨hi, c, by simp, h⟩⟩
  · rintro ⟨c, hc, h⟩
    obtain ⟨hi, c', hc', h'⟩ := (key _).mp h
    rw [List.mem_singleton] at hc'
    exact ⟨hi, c', hc' ▸ hc, h'⟩

/-- Everything the children of an element with slots contribute. -/
def insideIssues (cs : List Child) : List Issue := nodesIssues cs ++ slotsIssues cs ++ methodIssues cs

theorem insideIssues_mem {i : Issue} {cs : List Child} :
    i ∈ insideIssues cs ↔ ∃ c ∈ cs, i ∈ insideIssues [c] := by
  simp only [insideIssues, List.mem_append]
  rw [nodesIssues_mem, slotsIssues_mem, methodIssues_mem]
  constructor
  · rintro ((⟨c, hc, h⟩ | ⟨c, hc, h⟩) | ⟨c, hc, h⟩)
    · exact ⟨c, hc, .inl (.inl h)⟩
    · exact ⟨c, hc, .inl (.inr h)⟩
    · exact ⟨c, hc, .inr h⟩
  · rintro ⟨c, hc, (h | h) | h⟩
    · exact .inl (.inl ⟨c, hc, h⟩)
    · exact .inl (.inr ⟨c, hc, h⟩)
    · exact .inr ⟨c, hc, h⟩

/-- The issues of an element in a uniform way: of the tag, of the selectors, of each attribute, of each child. -/
theorem element_issues (asSlot : Bool) (T : Tag) : ∃ (P : Issue → Prop) (Q : Issue → Prop) (R : Attr → List Issue)
    (C : List Child → List Issue), (C = insideIssues ∨ C = nodesIssues ∨ C = fun _ => []) ∧
    ∀ S A g k i, i ∈ Element.issues asSlot (.mk T S A g k) ↔ P i ∨ (S ≠ [] ∧ Q i) ∨ (∃ a ∈ A, i ∈ R a) ∨
      ∃ cs, k = some cs ∧ i ∈ C cs := by
  have hx : (∀ p, T ≠ .component p) → ∀ S A g k i, i ∈ Element.issues false (.mk T S A g k) ↔
      (False ∨ (S ≠ [] ∧ False) ∨ (∃ a ∈ A, i ∈ Attr.issuesOnElement T.kind a) ∨
        ∃ cs, k = some cs ∧ i ∈ nodesIssues cs) := by
    intro hT S A g k i
    cases k <;> cases T <;> simp [Element.issues, List.mem_flatMap] at hT ⊢
  have hs : (∀ p, T ≠ .component p) → ∀ S A g k i, i ∈ Element.issues true (.mk T S A g k) ↔ i = .crash := by
    intro hT S A g k i
    cases k <;> cases T <;> simp [Element.issues] at hT ⊢
  cases asSlot with
  | false =>
    cases T with
    | component p =>
      refine ⟨(· ∈ p.issues), fun _ => False, Attr.issuesOnComponent, insideIssues, .inl rfl, fun S A g k i => ?_⟩
      cases k <;> simp [Element.issues, insideIssues, List.mem_flatMap, or_assoc]
    | _ => exact ⟨_, _, _, nodesIssues, .inr (.inl rfl), hx (by simp)⟩
  | true =>
    cases T with
    | component p =>
      refine ⟨(· ∈ p.issues), fun i => i = .report .selectorOnSlot, Attr.issuesOnSlot, insideIssues, .inl rfl,
        fun S A g k i => ?_⟩
      cases k <;> cases S <;> simp [Element.issues, insideIssues, List.mem_flatMap, or_assoc]
    | _ =>
      refine ⟨fun i => i = .crash, fun _ => False, fun _ => [], fun _ => [], .inr (.inr rfl), fun S A g k i => ?_⟩
      rw [hs (by simp)]
      simp

/-! ### threads and issues -/

/-- What a child contributes, in either way. -/
def ThreadsTell (c : Child) : Prop := ∀ i,
  (i ∈ insideIssues [c] ↔ ∃ c', Thread c' c ∧ i ∈ insideIssues [c']) ∧
  (i ∈ nodesIssues [c] ↔ ∃ c', Thread c' c ∧ i ∈ nodesIssues [c'])

theorem thread_value {v : Value} {P : Child → Prop} : (∃ c', Thread c' (.value v) ∧ P c') ↔ P (.value v) := by
  constructor
  · rintro ⟨_, h, hp⟩; cases h; exact hp
  · intro h; exact ⟨_, .value v, h⟩

theorem thread_elem {e : Element} {P : Child → Prop} :
    (∃ c', Thread c' (.elem e) ∧ P c') ↔ ∃ e', ElemThread e' e ∧ P (.elem e') := by
  constructor
  · rintro ⟨_, h, hp⟩; cases h with | elem h => exact ⟨_, h, hp⟩
  · rintro ⟨_, h, hp⟩; exact ⟨_, .elem h, hp⟩

theorem thread_slot {e : Element} {P : Child → Prop} :
    (∃ c', Thread c' (.slot e) ∧ P c') ↔ ∃ e', ElemThread e' e ∧ P (.slot e') := by
  constructor
  · rintro ⟨_, h, hp⟩; cases h with | slot h => exact ⟨_, h, hp⟩
  · rintro ⟨_, h, hp⟩; exact ⟨_, .slot h, hp⟩

/-- An element has a thread. -/
theorem elemThread_exists (e : Element) : ∃ e', ElemThread e' e := by
  cases e with | mk T S A g k => exact ⟨_, .tag⟩

theorem insideIssues_value {v : Value} {i : Issue} : i ∈ insideIssues [.value v] ↔ i ∈ v.issues := by
  simp [insideIssues, nodesIssues, slotsIssues, methodIssues, slotNames]

theorem insideIssues_elem {e : Element} {i : Issue} : i ∈ insideIssues [.elem e] ↔ i ∈ e.issues false := by
  simp [insideIssues, nodesIssues, slotsIssues, methodIssues, slotNames]

/-- A slot: what depends on its tag only, and its own issues if it has a name. -/
theorem insideIssues_slot (T : Tag) : ∃ P : Issue → Prop, ∃ named : Prop, ∀ (e : Element), e.tag = T → ∀ i,
    i ∈ insideIssues [.slot e] ↔ P i ∨ (named ∧ i ∈ e.issues true) := by
  refine ⟨fun i => i ∈ insideIssues [.slot (.mk T [] [] none none)] ∧
      ¬ (T.isPath = true ∧ (Element.mk T [] [] none none).slotName.isSome = true) ∨
      i ∈ methodIssues [.slot (.mk T [] [] none none)],
    T.isPath = true ∧ (Element.mk T [] [] none none).slotName.isSome = true, fun e he i => ?_⟩
  have hn : e.slotName = (Element.mk T [] [] none none).slotName := slotName_of_tag he
  have hm : methodIssues [.slot e] = methodIssues [.slot (.mk T [] [] none none)] := by
    simp [methodIssues, slotNames, hn]
  have ht : (Element.mk T [] [] none none).tag = T := rfl
  simp only [insideIssues, nodesIssues, slotsIssues, List.append_nil, List.nil_append, List.mem_append, hm, hn, he, ht]
  by_cases h1 : T.isPath = true <;> by_cases h2 : (Element.mk T [] [] none none).slotName.isSome = true <;>
    simp [h1, h2, or_comm, or_left_comm]

mutual
theorem element_threads : (e : Element) → ∀ asSlot i,
    i ∈ e.issues asSlot ↔ ∃ e', ElemThread e' e ∧ i ∈ e'.issues asSlot
  | .mk T S A g none => by
    intro asSlot i
    obtain ⟨P, Q, R, C, hC, h⟩ := element_issues asSlot T
    rw [some_thread, h]
    simp only [h]
    constructor
    · rintro (hp | ⟨hs, hq⟩ | ⟨a, ha, hr⟩ | ⟨cs, he, _⟩)
      · exact .inl (.inl hp)
      · cases S with
        | nil => exact absurd rfl hs
        | cons s S => exact .inr (.inl ⟨s, by simp, .inr (.inl ⟨by simp, hq⟩)⟩)
      · exact .inr (.inr (.inl ⟨a, ha, .inr (.inr (.inl ⟨a, by simp, hr⟩))⟩))
      · cases he
    · rintro (h | ⟨s, hs, h⟩ | ⟨a, ha, h⟩ | ⟨cs', he, _⟩)
      · simp at h; exact .inl h
      · simp at h
        rcases h with h | h
        · exact .inl h
        · exact .inr (.inl ⟨by rintro rfl; simp at hs, h⟩)
      · simp at h
        rcases h with h | h
        · exact .inl h
        · exact .inr (.inr (.inl ⟨a, ha, h⟩))
      · cases he
  | .mk T S A g (some cs) => by
    intro asSlot i
    obtain ⟨P, Q, R, C, hC, h⟩ := element_issues asSlot T
    have hcs := children_threads cs
    have key : i ∈ C cs ↔ ∃ c ∈ cs, ∃ c', Thread c' c ∧ i ∈ C [c'] := by
      rcases hC with rfl | rfl | rfl
      · rw [insideIssues_mem]
        constructor
        · rintro ⟨c, hc, hi⟩; exact ⟨c, hc, (hcs c hc i).1.mp hi⟩
        · rintro ⟨c, hc, hi⟩; exact ⟨c, hc, (hcs c hc i).1.mpr hi⟩
      · rw [nodesIssues_mem]
        constructor
        · rintro ⟨c, hc, hi⟩; exact ⟨c, hc, (hcs c hc i).2.mp hi⟩
        · rintro ⟨c, hc, hi⟩; exact ⟨c, hc, (hcs c hc i).2.mpr hi⟩
      · simp
    rw [some_thread, h]
    simp only [h]
    have e1 : (∃ cs', some cs = some cs' ∧ i ∈ C cs') ↔ i ∈ C cs := by simp
    rw [e1, key]
    constructor
    · rintro (hp | ⟨hs, hq⟩ | ⟨a, ha, hr⟩ | ⟨c, hc, c', ht, hi⟩)
      · exact .inl (.inl hp)
      · cases S with
        | nil => exact absurd rfl hs
        | cons s S => exact .inr (.inl ⟨s, by simp, .inr (.inl ⟨by simp, hq⟩)⟩)
      · exact .inr (.inr (.inl ⟨a, ha, .inr (.inr (.inl ⟨a, by simp, hr⟩))⟩))
      · exact .inr (.inr (.inr ⟨cs, rfl, c, hc, c', ht, .inr (.inr (.inr ⟨_, rfl, hi⟩))⟩))
    · rintro (h | ⟨s, hs, h⟩ | ⟨a, ha, h⟩ | ⟨cs', he, c, hc, c', ht, h⟩)
      · simp at h; exact .inl h
      · simp at h
        rcases h with h | h
        · exact .inl h
        · exact .inr (.inl ⟨by rintro rfl; simp at hs, h⟩)
      · simp at h
        rcases h with h | h
        · exact .inl h
        · exact .inr (.inr (.inl ⟨a, ha, h⟩))
      · cases he
        simp at h
        rcases h with h | h
        · exact .inl h
        · exact .inr (.inr (.inr ⟨c, hc, c', ht, h⟩))
theorem child_threads : (c : Child) → ThreadsTell c
  | .value v => by
    intro i
    exact ⟨(thread_value (P := fun c => i ∈ insideIssues [c])).symm,
      (thread_value (P := fun c => i ∈ nodesIssues [c])).symm⟩
  | .elem e => by
    intro i
    have h := element_threads e false i
    rw [thread_elem, thread_elem]
    refine ⟨?_, ?_⟩
    · simp only [insideIssues_elem]; exact h
    · simp only [nodesIssues, List.append_nil]; exact h
  | .slot e => by
    intro i
    have h := element_threads e true i
    rw [thread_slot, thread_slot]
    refine ⟨?_, by simp [nodesIssues]⟩
    obtain ⟨P, named, hs⟩ := insideIssues_slot e.tag
    rw [hs e rfl, h]
    obtain ⟨e₀, h₀⟩ := elemThread_exists e
    constructor
    · rintro (hp | ⟨hn, e', ht, hi⟩)
      · exact ⟨e₀, h₀, (hs e₀ h₀.tag_eq i).mpr (.inl hp)⟩
      · exact ⟨e', ht, (hs e' ht.tag_eq i).mpr (.inr ⟨hn, hi⟩)⟩
    · rintro ⟨e', ht, hi⟩
      rcases (hs e' ht.tag_eq i).mp hi with hp | ⟨hn, hi⟩
      · exact .inl hp
      · exact .inr ⟨hn, e', ht, hi⟩
theorem children_threads : (cs : List Child) → ∀ c ∈ cs, ThreadsTell c
  | [] => fun c h => nomatch h
  | d :: ds => by
    have hd := child_threads d
    have hds := children_threads ds
    intro c h
    rcases List.mem_cons.mp h with e | h
    · rw [e]; exact hd
    · exact hds c h
end

/-! ### leaving out -/

theorem Thread.isSlot {t c : Child} (h : Thread t c) : t.isSlot = c.isSlot := by cases h <;> rfl

theorem LeftOut.isSlot {t c : Child} (h : LeftOut t c) : t.isSlot = c.isSlot := by cases h <;> rfl

mutual
/-- Leaving something out leaves out threads. -/
theorem LeftOut.threads {c' c : Child} (h : LeftOut c' c) : ∀ t, Thread t c' → Thread t c := by
  match h with
  | .value v => exact fun _ ht => ht
  | .elem h =>
    have ih := h.threads
    intro t ht
    cases ht with | elem ht => exact .elem (ih _ ht)
  | .slot h =>
    have ih := h.threads
    intro t ht
    cases ht with | slot ht => exact .slot (ih _ ht)
theorem ElemLeftOut.threads {e' e : Element} (h : ElemLeftOut e' e) :
    ∀ t, ElemThread t e' → ElemThread t e := by
  match h with
  | .void hs ha =>
    intro t ht
    cases ht with
    | tag => exact .tag
    | sel h => exact .sel (hs.subset h)
    | attr h => exact .attr (ha.subset h)
  | .block hs ha hg hc =>
    have ih := hc.threads
    intro t ht
    cases ht with
    | tag => exact .tag
    | sel h => exact .sel (hs.subset h)
    | attr h => exact .attr (ha.subset h)
    | child h ht =>
      obtain ⟨c, hm, ht⟩ := ih _ h _ ht
      exact .child hm ht
theorem AllLeftOut.threads {cs' cs : List Child} (h : AllLeftOut cs' cs) :
    ∀ c' ∈ cs', ∀ t, Thread t c' → ∃ c ∈ cs, Thread t c := by
  match h with
  | .nil => exact fun _ hc => nomatch hc
  | .without h =>
    have ih := h.threads
    intro c' hc t ht
    obtain ⟨c, hm, ht⟩ := ih _ hc _ ht
    exact ⟨c, List.mem_cons_of_mem _ hm, ht⟩
  | .both h1 h2 =>
    have ih1 := h1.threads
    have ih2 := h2.threads
    intro c' hc t ht
    rcases List.mem_cons.mp hc with e | hc
    · exact ⟨_, List.mem_cons_self, ih1 _ (e ▸ ht)⟩
    · obtain ⟨c, hm, ht⟩ := ih2 _ hc _ ht
      exact ⟨c, List.mem_cons_of_mem _ hm, ht⟩
end

theorem AllLeftOut.slots {cs' cs : List Child} (h : AllLeftOut cs' cs) (hs : ∀ c ∈ cs, c.isSlot = false) :
    ∀ c ∈ cs', c.isSlot = false := by
  intro c hc
  match h with
  | .nil => cases hc
  | .without h => exact h.slots (fun c hc => hs c (List.mem_cons_of_mem _ hc)) c hc
  | .both h1 h2 =>
    rcases List.mem_cons.mp hc with rfl | hc
    · rw [h1.isSlot]; exact hs _ List.mem_cons_self
    · exact h2.slots (fun c hc => hs c (List.mem_cons_of_mem _ hc)) c hc

/-! ### threads of trees that were parsed -/

section
variable {pp : PathParser} {I : Inv pp}

theorem childrenOk_iff {cs : List Child} : childrenOk I cs ↔ ∀ c ∈ cs, c.Ok I := by
  induction cs with
  | nil => simp [childrenOk]
  | cons c cs ih => simp [childrenOk, ih]

mutual
theorem Thread.ok {t c : Child} (h : Thread t c) (hc : c.Ok I) : t.Ok I := by
  match h with
  | .value v => trivial
  | .elem h => rw [Child.Ok] at hc ⊢; exact h.ok hc
  | .slot h =>
    rw [Child.Ok] at hc ⊢
    exact ⟨h.ok hc.1, by rw [h.tag_eq]; exact hc.2⟩
theorem ElemThread.ok {t e : Element} (h : ElemThread t e) (he : e.Ok I) : t.Ok I := by
  match h with
  | .tag =>
    have := he.tag
    rw [Element.Ok]
    exact ⟨this, by simp⟩
  | .sel h =>
    have := he.tag
    rw [Element.Ok]
    exact ⟨this, by simp⟩
  | .attr (T := T) (S := S) (A := A) (g := g) (k := k) h =>
    have ht := he.tag
    have ha : ∀ a ∈ A, a.Ok I := by
      cases k <;> rw [Element.Ok] at he
      · exact he.2
      · exact he.2.1
    rw [Element.Ok]
    exact ⟨ht, by simpa using ha _ h⟩
  | .child h ht =>
    rw [Element.Ok] at he ⊢
    refine ⟨he.1, by simp, ?_⟩
    rw [childrenOk_iff] at he ⊢
    intro c hc
    rw [List.mem_singleton] at hc
    subst hc
    exact ht.ok (he.2.2 _ h)
end
end

/-! ### verdicts -/

theorem verdict_errors {is : List Issue} : (∃ ds, verdict is = .errors ds) ↔ ∀ i ∈ is, ∃ d, i = .report d := by
  induction is with
  | nil => simp [verdict]
  | cons i is ih =>
    cases i with
    | report d =>
      have : (∃ ds, verdict (.report d :: is) = .errors ds) ↔ ∃ ds, verdict is = .errors ds := by
        rw [verdict]
        cases verdict is <;> simp [Verdict.add]
      rw [this, ih]
      simp
    | stop d => simp [verdict]
    | crash => simp [verdict]

theorem errors_has_report {is : List Issue} {ds : List Diag} (h : verdict is = .errors ds) (d : Diag) :
    d ∈ ds ↔ .report d ∈ is := by
  induction is generalizing ds with
  | nil => cases h; simp
  | cons i is ih =>
    cases i with
    | report e =>
      rw [verdict] at h
      cases hv : verdict is with
      | errors es =>
        rw [hv, Verdict.add] at h
        cases h
        simp [ih hv]
      | stopped es => rw [hv, Verdict.add] at h; cases h
      | crashed => rw [hv, Verdict.add] at h; cases h
    | stop e => cases h
    | crash => cases h

section
variable {pp : PathParser} {I : Inv pp} {s : Sched} {root : List Child}

theorem returns_verdict (ok : childrenOk I root) {ds : List Diag} :
    (∃ out, expandRoot s root = .ret ds out) ↔ verdict (rootIssues root) = .errors ds := by
  have h := root_shows s root ok
  unfold Shows at h
  constructor
  · rintro ⟨out, ho⟩
    rw [ho] at h
    cases hv : verdict (rootIssues root) <;> rw [hv] at h <;> simp only [Out.Is] at h
    rw [h]
  · intro hv
    rw [hv] at h
    cases ho : expandRoot s root <;> rw [ho] at h <;> simp only [Out.Is] at h
    subst h
    exact ⟨_, rfl⟩

/-- The issues of the whole are those of the threads, unless there is a slot at the top, of which there is a thread,
too. -/
theorem rootIssues_threads (i : Issue) (h : ∀ c ∈ root, c.isSlot = false) :
    i ∈ rootIssues root ↔ ∃ t, ThreadOf t root ∧ i ∈ rootIssues [t] := by
  have h0 : root.any Child.isSlot = false := by
    rw [List.any_eq_false]; intro c hc; simp [h c hc]
  have h1 : ∀ t, ThreadOf t root → rootIssues [t] = nodesIssues [t] := by
    rintro t ⟨c, hc, ht⟩
    have := ht.isSlot
    rw [h c hc] at this
    simp [rootIssues, this]
  rw [rootIssues, h0, if_neg (by simp), nodesIssues_mem]
  constructor
  · rintro ⟨c, hc, hi⟩
    obtain ⟨t, ht, hi⟩ := (child_threads c i).2.mp hi
    exact ⟨t, ⟨c, hc, ht⟩, by rw [h1 t ⟨c, hc, ht⟩]; exact hi⟩
  · rintro ⟨t, ht, hi⟩
    rw [h1 t ht] at hi
    obtain ⟨c, hc, ht⟩ := ht
    exact ⟨c, hc, (child_threads c i).2.mpr ⟨t, ht, hi⟩⟩

theorem thread_ok {t : Child} (ok : childrenOk I root) (h : ThreadOf t root) : childrenOk I [t] := by
  obtain ⟨c, hc, ht⟩ := h
  rw [childrenOk_iff] at ok ⊢
  intro c' hc'
  rw [List.mem_singleton] at hc'
  subst hc'
  exact ht.ok (ok c hc)

/-- Each child has a thread. -/
theorem thread_exists (c : Child) : ∃ t, Thread t c := by
  cases c with
  | value v => exact ⟨_, .value v⟩
  | elem e => obtain ⟨e', h⟩ := elemThread_exists e; exact ⟨_, .elem h⟩
  | slot e => obtain ⟨e', h⟩ := elemThread_exists e; exact ⟨_, .slot h⟩

theorem slot_stops (h : ∃ c ∈ root, c.isSlot = true) : rootIssues root = [.stop .slotAtTopLevel] := by
  rw [rootIssues, if_pos]
  rw [List.any_eq_true]
  exact h

/-- What depends on the issues one by one can be told from the threads. -/
theorem all_issues_threads (P : Issue → Prop) (hP : ¬ P (.stop .slotAtTopLevel)) :
    (∀ i ∈ rootIssues root, P i) ↔ ∀ t, ThreadOf t root → ∀ i ∈ rootIssues [t], P i := by
  by_cases h : ∃ c ∈ root, c.isSlot = true
  · rw [slot_stops h]
    have hs : ∀ t, t.isSlot = true → rootIssues [t] = [.stop .slotAtTopLevel] := fun t ht =>
      slot_stops ⟨t, by simp, ht⟩
    obtain ⟨c, hc, hs'⟩ := h
    obtain ⟨t, ht⟩ := thread_exists c
    constructor
    · intro hall; exact absurd (hall _ (by simp)) hP
    · intro hall
      have := hall t ⟨c, hc, ht⟩
      rw [hs t (by rw [ht.isSlot, hs'])] at this
      exact this
  · have h : ∀ c ∈ root, c.isSlot = false := by
      intro c hc
      cases hs : c.isSlot with
      | false => rfl
      | true => exact absurd ⟨c, hc, hs⟩ h
    constructor
    · intro hall t ht i hi
      exact hall i ((rootIssues_threads i h).mpr ⟨t, ht, hi⟩)
    · intro hall i hi
      obtain ⟨t, ht, hi⟩ := (rootIssues_threads i h).mp hi
      exact hall t ht i hi
end

end Mview
