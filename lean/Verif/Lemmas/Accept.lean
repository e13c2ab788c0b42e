import Verif.Lemmas.Sched
import Verif.Spec.Accept
/-
A tree stands for something exactly if it is accepted.
-/

namespace Mview
open Lex

/-- there is a result -/
abbrev Def {α : Type} (x : Option α) : Prop := ∃ a, x = some a

theorem def_some {α : Type} (a : α) : Def (some a) ↔ True := by simp [Def]
theorem def_none {α : Type} : Def (none : Option α) ↔ False := by simp [Def]
theorem def_pure {α : Type} (a : α) : Def (pure a : Option α) ↔ True := by simp [Def]

theorem def_bind {α β : Type} {x : Option α} {f : α → Option β} {P : Prop}
    (h : ∀ a, x = some a → (Def (f a) ↔ P)) : Def (x >>= f) ↔ Def x ∧ P := by
  cases x with
  | none => simp [Def]
  | some a =>
    have : (some a >>= f) = f a := rfl
    rw [this, h a rfl]
    simp [Def]

theorem def_guard {p : Prop} [Decidable p] : Def (guard p : Option Unit) ↔ p := by
  by_cases h : p <;> simp [guard, h, Def, failure]

theorem def_ite {α : Type} {p : Prop} [Decidable p] {x y : Option α} :
    Def (if p then x else y) ↔ (p ∧ Def x) ∨ (¬ p ∧ Def y) := by
  by_cases h : p <;> simp [h]

theorem def_mapM {α β : Type} {f : α → Option β} {xs : List α} :
    Def (xs.mapM f) ↔ ∀ x ∈ xs, Def (f x) := by
  induction xs with
  | nil => simp [Def]
  | cons x xs ih =>
    rw [List.mapM_cons, def_bind (P := ∀ x ∈ xs, Def (f x))]
    · simp
    · intro a _
      rw [def_bind (P := True) fun _ _ => def_pure _, ih, and_true]

theorem def_rawIdentOf (n : Str) : Def (rawIdentOf n) ↔ Str.Identlike n := by
  unfold rawIdentOf rawIdent Str.Identlike
  rw [def_ite, def_none, def_some]
  simp

theorem def_value (v : Value) : Def v.means ↔ v.Accepted := by
  cases v with
  | lit l => cases l with
    | tok l => exact def_some _
    | bool b => cases b <;> exact def_some _
  | block c => exact def_some _
  | bracket p c =>
    cases p with
    | none => exact def_some _
    | some p =>
      unfold Value.means Value.Accepted
      dsimp only
      rw [def_ite, def_some, def_none]; simp

theorem def_optMeans (v : Option Value) : Def (optMeans v) ↔ optAccepted v := by
  cases v with
  | none => simp [optMeans, Def, optAccepted]
  | some v => rw [optMeans, def_value]; simp [optAccepted]

theorem def_trueMeans (v : Option Value) : Def (trueMeans v) ↔ optAccepted v := by
  cases v with
  | none => rw [trueMeans, def_some]; simp [optAccepted]
  | some v => rw [trueMeans, def_value]; simp [optAccepted]

theorem def_kvElement (kind : TagKind) (a : KvAttr) :
    Def (a.onElement kind) ↔ a.AcceptedOnElement kind := by
  unfold KvAttr.onElement KvAttr.AcceptedOnElement
  rw [def_bind (P := a.key.repr = c!"ref" ∨ Unchecked kind a.key.repr ∨ Str.Identlike a.key.repr),
    def_value]
  intro v _
  dsimp only
  rw [def_ite, def_ite, def_pure, def_pure, def_bind (P := True) fun _ _ => def_pure _, def_rawIdentOf]
  by_cases h : a.key.repr = c!"ref" <;> by_cases h' : Unchecked kind a.key.repr <;> simp [h, h']

theorem def_kvComponent (a : KvAttr) : Def a.onComponent ↔ a.AcceptedOnComponent := by
  unfold KvAttr.onComponent KvAttr.AcceptedOnComponent
  rw [def_bind (P := a.value.Accepted), def_rawIdentOf, and_comm]
  intro v _
  rw [def_bind (P := True) fun _ _ => def_pure _, def_value, and_true]

theorem def_asIdent (k : KebabOrStr) : Def k.asIdent ↔ k.IdentKey := by
  cases k with
  | kebab k => exact def_rawIdentOf _
  | str s => exact def_none

theorem def_event (d : Directive) : Def d.event ↔
    d.key.IdentKey ∧ (d.modifier = none ∨ d.modifier = some (plain c!"undelegated")) := by
  unfold Directive.event
  rw [def_bind (P := d.modifier = none ∨ d.modifier = some (plain c!"undelegated")), def_asIdent]
  intro i _
  cases d.modifier with
  | none => simp only [def_pure, reduceCtorEq, or_false]
  | some m =>
    dsimp only
    rw [def_ite, def_pure, def_none]
    simp

theorem def_useArgs (d : Directive) : Def d.useArgs ↔
    d.key.IdentKey ∧ d.modifier = none ∧ optAccepted d.value := by
  unfold Directive.useArgs
  rw [def_bind (P := d.key.IdentKey ∧ optAccepted d.value), def_guard]
  · rw [Option.isNone_iff_eq_none]
    constructor
    · rintro ⟨h1, h2, h3⟩; exact ⟨h2, h1, h3⟩
    · rintro ⟨h1, h2, h3⟩; exact ⟨h2, h1, h3⟩
  · intro _ _
    rw [def_bind (P := optAccepted d.value), def_asIdent]
    intro i _
    cases d.value with
    | none => simp only [def_pure, optAccepted]; simp
    | some v =>
      dsimp only
      rw [def_bind (P := True) fun _ _ => def_pure _, def_value]
      simp [optAccepted]

theorem dir_ne {d : Ident} {a b : Str} (h : d = plain a) (hab : a ≠ b) : d ≠ plain b := by
  subst h
  intro h
  exact hab (by simpa [plain] using h)

theorem def_dirElement (d : Directive) : Def d.onElement ↔ d.AcceptedOnElement := by
  unfold Directive.onElement Directive.AcceptedOnElement
  dsimp only
  simp only [def_ite, def_none]
  have hcs : Def (do
      guard (d.modifier.isNone = true)
      let v ← optMeans d.value
      let key := d.key.text
      pure (⟨d.dir, q!"(#key, #v)"⟩ : Call)) ↔ d.modifier = none ∧ optAccepted d.value := by
    rw [def_bind (P := optAccepted d.value), def_guard, Option.isNone_iff_eq_none]
    intro _ _
    rw [def_bind (P := True) fun _ _ => def_pure _, def_optMeans, and_true]
  have hp : Def (do
      guard (d.modifier.isNone = true)
      let v ← optMeans d.value
      let key := d.key.text
      pure (⟨d.dir, q!"#key, #v"⟩ : Call)) ↔ d.modifier = none ∧ optAccepted d.value := by
    rw [def_bind (P := optAccepted d.value), def_guard, Option.isNone_iff_eq_none]
    intro _ _
    rw [def_bind (P := True) fun _ _ => def_pure _, def_optMeans, and_true]
  have ho : Def (do
      let ev ← d.event
      let v ← optMeans d.value
      pure (⟨d.dir, q!"#ev, #v"⟩ : Call)) ↔ (d.key.IdentKey ∧
        (d.modifier = none ∨ d.modifier = some (plain c!"undelegated"))) ∧ optAccepted d.value := by
    rw [def_bind (P := optAccepted d.value), def_event]
    intro _ _
    rw [def_bind (P := True) fun _ _ => def_pure _, def_optMeans, and_true]
  have hu : Def (do
      return (⟨plain c!"directive", ← d.useArgs⟩ : Call)) ↔
        d.key.IdentKey ∧ d.modifier = none ∧ optAccepted d.value := by
    rw [def_bind (P := True) fun _ _ => def_pure _, def_useArgs, and_true]
  dsimp only at hcs hp ho hu
  rw [hcs, hp, ho, hu]
  simp only [List.mem_cons, List.not_mem_nil, or_false]
  generalize d.key.IdentKey = K
  generalize (d.modifier = some (plain c!"undelegated")) = U
  generalize optAccepted d.value = V
  generalize (d.modifier = none) = M
  by_cases h1 : d.dir = plain c!"class"
  · simp [h1, and_comm]
  by_cases h2 : d.dir = plain c!"style"
  · simp [h2, and_comm]
  by_cases h3 : d.dir = plain c!"prop"
  · simp [h3, and_comm]
  by_cases h4 : d.dir = plain c!"on"
  · simp [h4, and_comm]
  by_cases h5 : d.dir = plain c!"use"
  · simp [h5, and_comm, and_left_comm]
  simp [h1, h2, h3, h4, h5]


theorem def_dirComponent (d : Directive) : Def d.onComponent ∧ d.dir ≠ plain c!"clone" ↔
    d.AcceptedOnComponent ∧ d.dir ≠ plain c!"clone" := by
  unfold Directive.onComponent Directive.AcceptedOnComponent
  dsimp only
  simp only [def_ite, def_none]
  have h1 {α : Type} (f : Toks → α) : Def (do let v ← trueMeans d.value; pure (f v)) ↔
      optAccepted d.value := by
    rw [def_bind (P := True) fun _ _ => def_pure _, def_trueMeans, and_true]
  have h2 {α : Type} (f : Ident → Toks → α) : Def (do
      let i ← d.key.asIdent
      let v ← trueMeans d.value
      pure (f i v)) ↔ d.key.IdentKey ∧ optAccepted d.value := by
    rw [def_bind (P := optAccepted d.value), def_asIdent]
    intro _ _
    exact h1 _
  have h3 {α : Type} (f : Toks → Toks → α) : Def (do
      let i ← d.event
      let v ← optMeans d.value
      pure (f i v)) ↔ (d.key.IdentKey ∧
        (d.modifier = none ∨ d.modifier = some (plain c!"undelegated"))) ∧ optAccepted d.value := by
    rw [def_bind (P := optAccepted d.value), def_event]
    intro _ _
    rw [def_bind (P := True) fun _ _ => def_pure _, def_optMeans, and_true]
  have h4 {α : Type} (f : Toks → α) : Def (do let a ← d.useArgs; pure (f a)) ↔
        d.key.IdentKey ∧ d.modifier = none ∧ optAccepted d.value := by
    rw [def_bind (P := True) fun _ _ => def_pure _, def_useArgs, and_true]
  simp only [h1, h2, h3, h4]
  have hk : d.key.text = c!"class" ∨ d.key.text = c!"style" →
      ¬ ('-' ∈ d.key.text ∧ ¬ c!"aria-" <+: d.key.text) := by
    rintro (h | h) <;> rw [h] <;> decide
  clear h1 h2 h3 h4
  simp only [List.mem_cons, List.not_mem_nil, or_false]
  generalize d.key.IdentKey = K
  generalize (d.modifier = some (plain c!"undelegated")) = U
  generalize optAccepted d.value = V
  generalize (d.modifier = none) = M
  generalize (d.key.text = c!"class" ∨ d.key.text = c!"style") = A at hk ⊢
  generalize ('-' ∈ d.key.text ∧ ¬ c!"aria-" <+: d.key.text) = B at hk ⊢
  by_cases h1 : d.dir = plain c!"class"
  · simp [h1, and_comm]
  by_cases h2 : d.dir = plain c!"style"
  · simp [h2, and_comm]
  by_cases h6 : d.dir = plain c!"attr"
  · simp only [h6]
    simp
    clear h1 h2 h6
    by_cases hA : A
    · simp [hA, hk hA, and_comm]
    · by_cases hB : B
      · simp [hA, hB]
      · simp [hA, hB, and_comm]
  by_cases h3 : d.dir = plain c!"prop"
  · simp [h3, and_comm]
  by_cases h4 : d.dir = plain c!"on"
  · simp [h4, and_comm]
  by_cases h5 : d.dir = plain c!"use"
  · simp [h5, and_comm, and_left_comm]
  simp [h1, h2, h3, h4, h5, h6]
  exact fun h _ _ _ => h

theorem def_clone (d : Directive) : Def d.cloneStmt ↔
    d.key.IdentKey ∧ d.modifier = none ∧ d.value = none := by
  unfold Directive.cloneStmt
  rw [def_bind (P := d.key.IdentKey), def_guard, Option.isNone_iff_eq_none, Option.isNone_iff_eq_none,
    and_comm]
  intro _ _
  rw [def_bind (P := True) fun _ _ => def_pure _, def_asIdent, and_true]

theorem def_path (p : Path) : Def p.means ↔ p.Accepted := by
  unfold Path.means Path.Accepted
  rw [def_bind (P := True) fun _ _ => def_pure _, def_mapM, and_true]
  refine forall_congr' fun seg => imp_congr_right fun _ => ?_
  unfold PathSeg.means
  rw [def_bind (P := True) fun _ _ => def_pure _, and_true]
  cases seg.args with
  | none => simp [PathArgs.means, Def]
  | angle a b => simp [PathArgs.means, Def]
  | paren i => simp [PathArgs.means, Def]

theorem def_entries (attrs : List Attr) (sels : List Selector) :
    (Def ((kvs attrs).mapM KvAttr.onComponent) ∧ Def ((entries attrs).mapM Attr.entry) ∧
      Def ((clones attrs).mapM Directive.cloneStmt)) ↔ ∀ a ∈ attrs, a.AcceptedOnComponent := by
  rw [def_mapM, def_mapM, def_mapM]
  constructor
  · rintro ⟨h1, h2, h3⟩ a ha
    cases a with
    | kv a => exact (def_kvComponent a).mp (h1 a (by simpa [kvs] using ⟨_, ha, rfl⟩))
    | spread e => trivial
    | directive d =>
      by_cases hd : d.dir = plain c!"clone"
      · refine Or.inl ⟨hd, (def_clone d).mp (h3 d ?_)⟩
        simp only [clones, directives, List.mem_filter, List.mem_filterMap, decide_eq_true_eq]
        exact ⟨⟨_, ha, rfl⟩, hd⟩
      · refine ((def_dirComponent d).mp ⟨h2 (.directive d) ?_, hd⟩).1
        simp only [entries, List.mem_filter]
        exact ⟨ha, by simpa using hd⟩
  · intro h
    refine ⟨?_, ?_, ?_⟩
    · intro a ha
      simp only [kvs, List.mem_filterMap] at ha
      obtain ⟨b, hb, hab⟩ := ha
      cases b <;> simp at hab
      subst hab
      exact (def_kvComponent _).mpr (h _ hb)
    · intro a ha
      simp only [entries, List.mem_filter] at ha
      obtain ⟨ha, hc⟩ := ha
      cases a with
      | kv a => simp at hc
      | spread e => exact ⟨e, rfl⟩
      | directive d => exact ((def_dirComponent d).mpr ⟨h _ ha, by simpa using hc⟩).1
    · intro d hd
      simp only [clones, directives, List.mem_filter, List.mem_filterMap, decide_eq_true_eq] at hd
      obtain ⟨⟨b, hb, hab⟩, hd⟩ := hd
      cases b <;> simp at hab
      subst hab
      rw [def_clone]
      rcases h _ hb with h | ⟨_, h⟩
      · exact h.2
      · simp [hd] at h

theorem def_slotEntries (attrs : List Attr) :
    (entries attrs = [] ∧ Def ((kvs attrs).mapM KvAttr.onComponent) ∧
      Def ((clones attrs).mapM Directive.cloneStmt)) ↔ ∀ a ∈ attrs, a.AcceptedOnSlot := by
  rw [def_mapM, def_mapM]
  constructor
  · rintro ⟨h2, h1, h3⟩ a ha
    cases a with
    | kv a => exact (def_kvComponent a).mp (h1 a (by simpa [kvs] using ⟨_, ha, rfl⟩))
    | spread e =>
      have : Attr.spread e ∈ entries attrs := by simp [entries, ha]
      rw [h2] at this
      cases this
    | directive d =>
      by_cases hd : d.dir = plain c!"clone"
      · refine ⟨hd, (def_clone d).mp (h3 d ?_)⟩
        simp only [clones, directives, List.mem_filter, List.mem_filterMap, decide_eq_true_eq]
        exact ⟨⟨_, ha, rfl⟩, hd⟩
      · have : Attr.directive d ∈ entries attrs := by
          simp only [entries, List.mem_filter]
          exact ⟨ha, by simpa using hd⟩
        rw [h2] at this
        cases this
  · intro h
    refine ⟨?_, ?_, ?_⟩
    · simp only [entries, List.filter_eq_nil_iff]
      intro a ha
      have := h a ha
      cases a with
      | kv a => simp
      | spread e => exact this.elim
      | directive d => simpa using this.1
    · intro a ha
      simp only [kvs, List.mem_filterMap] at ha
      obtain ⟨b, hb, hab⟩ := ha
      cases b <;> simp at hab
      subst hab
      exact (def_kvComponent _).mpr (h _ hb)
    · intro d hd
      simp only [clones, directives, List.mem_filter, List.mem_filterMap, decide_eq_true_eq] at hd
      obtain ⟨⟨b, hb, hab⟩, hd⟩ := hd
      cases b <;> simp at hab
      subst hab
      exact (def_clone _).mpr (h _ hb).2

theorem def_xmlAttrs (kind : TagKind) (attrs : List Attr) :
    (Def ((kvs attrs).mapM (KvAttr.onElement kind)) ∧ Def ((directives attrs).mapM Directive.onElement)) ↔
      ∀ a ∈ attrs, a.AcceptedOnElement kind := by
  rw [def_mapM, def_mapM]
  constructor
  · rintro ⟨h1, h2⟩ a ha
    cases a with
    | kv a => exact (def_kvElement kind a).mp (h1 a (by simpa [kvs] using ⟨_, ha, rfl⟩))
    | spread e => trivial
    | directive d =>
      exact (def_dirElement d).mp (h2 d (by simpa [directives] using ⟨_, ha, rfl⟩))
  · intro h
    refine ⟨?_, ?_⟩
    · intro a ha
      simp only [kvs, List.mem_filterMap] at ha
      obtain ⟨b, hb, hab⟩ := ha
      cases b <;> simp at hab
      subst hab
      exact (def_kvElement kind _).mpr (h _ hb)
    · intro a ha
      simp only [directives, List.mem_filterMap] at ha
      obtain ⟨b, hb, hab⟩ := ha
      cases b <;> simp at hab
      subst hab
      exact (def_dirElement _).mpr (h _ hb)

theorem def_xml {tag : Tag} (ht : ∀ p, tag ≠ .component p) (sels : List Selector) (attrs : List Attr)
    (nodes : List Toks) : Def (xmlMeans tag sels attrs nodes) ↔
      ∀ a ∈ attrs, a.AcceptedOnElement tag.kind := by
  unfold xmlMeans
  rw [def_bind (P := ∀ a ∈ attrs, a.AcceptedOnElement tag.kind)]
  · have : Def tag.head := by
      cases tag with
      | component p => exact absurd rfl (ht p)
      | _ => exact ⟨_, rfl⟩
    simp [this]
  · intro _ _
    rw [def_bind (P := Def ((directives attrs).mapM Directive.onElement)), def_xmlAttrs]
    intro _ _
    rw [def_bind (P := True) fun _ _ => def_pure _, and_true]

theorem def_component (p : Path) (sels : List Selector) (attrs : List Attr) (args : Option Toks)
    (nodes : List Toks) (calls : List Call) : Def (componentMeans p sels attrs args nodes calls) ↔
      p.Accepted ∧ ∀ a ∈ attrs, a.AcceptedOnComponent := by
  unfold componentMeans
  rw [def_bind (P := ∀ a ∈ attrs, a.AcceptedOnComponent), def_path]
  intro _ _
  rw [← def_entries attrs sels, def_bind]
  intro _ _
  rw [def_bind]
  intro _ _
  rw [def_bind (P := True) fun _ _ => def_pure _, and_true]

theorem def_slot (p : Path) (sels : List Selector) (attrs : List Attr) (args : Option Toks)
    (nodes : List Toks) : Def (slotMeans p sels attrs args nodes) ↔
      p.Accepted ∧ sels = [] ∧ ∀ a ∈ attrs, a.AcceptedOnSlot := by
  unfold slotMeans
  rw [def_bind (P := p.Accepted ∧ Def ((kvs attrs).mapM KvAttr.onComponent) ∧
      Def ((clones attrs).mapM Directive.cloneStmt)), def_guard, ← def_slotEntries]
  · constructor
    · rintro ⟨⟨h1, h2⟩, h3, h4⟩; exact ⟨h3, h1, h2, h4⟩
    · rintro ⟨h3, h1, h2, h4⟩; exact ⟨⟨h1, h2⟩, h3, h4⟩
  · intro _ _
    rw [def_bind, def_path]
    intro _ _
    rw [def_bind]
    intro _ _
    rw [def_bind (P := True) fun _ _ => def_pure _, and_true]

/-- There is an order of the slots' methods if all of them exist. -/
theorem def_slotCalls (slots : List (Ident × Toks)) : (∃ calls, SlotCalls slots calls) ↔
    ∀ n ∈ slots.map Prod.fst, slotMethodName n ≠ none := by
  constructor
  · rintro ⟨calls, names, hnd, hn, hm⟩ n hmem
    have hd : Def (names.mapM (fun n => do
      return (⟨← slotMethodName n, slotArg ((slots.filter (·.1 = n)).map Prod.snd)⟩ : Call))) := ⟨_, hm⟩
    rw [def_mapM] at hd
    have := hd n ((hn n).mpr hmem)
    rw [def_bind (P := True) fun _ _ => def_pure _] at this
    obtain ⟨⟨x, hx⟩, _⟩ := this
    simp [hx]
  · intro h
    have g := groupSlots_grouped slots [] [] grouped_nil
    rw [List.nil_append] at g
    have hd : Def (((groupSlots slots []).map Prod.fst).mapM (fun n => do
      return (⟨← slotMethodName n, slotArg ((slots.filter (·.1 = n)).map Prod.snd)⟩ : Call))) := by
      rw [def_mapM]
      intro n hn
      rw [def_bind (P := True) fun _ _ => def_pure _, and_true]
      exact Option.ne_none_iff_exists'.mp (h n ((g.names n).mp hn))
    obtain ⟨calls, hc⟩ := hd
    exact ⟨calls, _, g.nodup, g.names, hc⟩

theorem slotName_iff {e : Element} {name : Ident} : e.slotName = some name ↔
    e.tag = .component ⟨false, [⟨name, .none⟩]⟩ := by
  unfold Element.slotName
  split
  · rename_i n h; rw [h]; simp
  · rename_i h
    simp only [reduceCtorEq, false_iff]
    exact h name

theorem def_slotMethodName (n : Ident) : slotMethodName n ≠ none ↔
    snakeCase n.name ∉ [c!"_", c!"self", c!"Self", c!"super", c!"crate"] := by
  unfold slotMethodName rawIdent
  split <;> simp_all

mutual
theorem accepted_iff (asSlot : Bool) : ∀ (e : Element),
    (∃ t, e.Means asSlot t) ↔ e.Accepted asSlot
  | .mk tag sels attrs args none => by
    simp only [Element.Means, Element.Accepted]
    cases asSlot <;> cases tag
    all_goals first
      | exact def_component ..
      | exact def_slot ..
      | exact def_xml (by simp) ..
      | simp
  | .mk tag sels attrs args (some cs) => by
    have hn := nodesAccepted_iff cs
    have hs := slotsAccepted_iff cs
    have comp : ∀ (R : List Toks → List Call → Toks → Prop) (Q : Prop),
        (∀ ns calls, (∃ t, R ns calls t) ↔ Q) →
        ((∃ t nodes slots calls, NodesMean cs nodes ∧ SlotsMean cs slots ∧
          SlotCalls slots calls ∧ R nodes calls t) ↔ Q ∧ nodesAccepted cs ∧ slotsAccepted cs) := by
      intro R Q hR
      rw [← hn, ← hs]
      constructor
      · rintro ⟨t, nodes, slots, calls, h1, h2, h3, h4⟩
        exact ⟨(hR _ _).mp ⟨_, h4⟩, ⟨_, h1⟩, _, h2, (def_slotCalls _).mp ⟨_, h3⟩⟩
      · rintro ⟨q, ⟨nodes, h1⟩, slots, h2, h3⟩
        obtain ⟨calls, hc⟩ := (def_slotCalls _).mpr h3
        obtain ⟨t, ht⟩ := (hR nodes calls).mpr q
        exact ⟨t, nodes, slots, calls, h1, h2, hc, ht⟩
    have xml : ∀ (tag : Tag), (∀ p, tag ≠ .component p) →
        ((∃ t nodes, NodesMean cs nodes ∧ xmlMeans tag sels attrs nodes = some t) ↔
          (∀ a ∈ attrs, a.AcceptedOnElement tag.kind) ∧ nodesAccepted cs) := by
      intro tag ht
      rw [← hn]
      constructor
      · rintro ⟨t, nodes, h1, h2⟩
        exact ⟨(def_xml ht sels attrs nodes).mp ⟨t, h2⟩, nodes, h1⟩
      · rintro ⟨h1, nodes, h2⟩
        obtain ⟨t, h⟩ := (def_xml ht sels attrs nodes).mpr h1
        exact ⟨t, nodes, h2, h⟩
    simp only [Element.Means, Element.Accepted]
    cases asSlot <;> cases tag
    all_goals first
      | exact xml _ (by simp)
      | (refine (comp _ _ fun ns calls => def_component _ _ _ _ ns calls).trans ?_
         rw [and_assoc])
      | (refine (comp _ _ fun ns calls => def_slot _ _ _ _ ns).trans ?_
         rw [and_assoc, and_assoc])
      | simp
theorem nodesAccepted_iff : ∀ (cs : List Child), (∃ ns, NodesMean cs ns) ↔ nodesAccepted cs
  | [] => by simp [NodesMean, nodesAccepted]
  | .value v :: cs => by
    unfold NodesMean nodesAccepted
    rw [← def_value, ← nodesAccepted_iff cs]
    constructor
    · rintro ⟨ns, t, ts, h1, h2, -⟩; exact ⟨⟨_, h1⟩, _, h2⟩
    · rintro ⟨⟨_, h1⟩, _, h2⟩; exact ⟨_, _, _, h1, h2, rfl⟩
  | .elem e :: cs => by
    unfold NodesMean nodesAccepted
    rw [← accepted_iff, ← nodesAccepted_iff cs]
    constructor
    · rintro ⟨ns, t, ts, h1, h2, -⟩; exact ⟨⟨_, h1⟩, _, h2⟩
    · rintro ⟨⟨_, h1⟩, _, h2⟩; exact ⟨_, _, _, h1, h2, rfl⟩
  | .slot _ :: cs => by
    unfold NodesMean nodesAccepted
    exact nodesAccepted_iff cs
theorem slotsAccepted_iff : ∀ (cs : List Child),
    (∃ ss, SlotsMean cs ss ∧ ∀ n ∈ ss.map Prod.fst, slotMethodName n ≠ none) ↔ slotsAccepted cs
  | [] => by simp [SlotsMean, slotsAccepted]
  | .value v :: cs => by
    unfold SlotsMean slotsAccepted
    exact slotsAccepted_iff cs
  | .elem e :: cs => by
    unfold SlotsMean slotsAccepted
    exact slotsAccepted_iff cs
  | .slot e :: cs => by
    unfold slotsAccepted
    rw [← accepted_iff, ← slotsAccepted_iff cs]
    simp only [slotsMean_slot]
    constructor
    · rintro ⟨ss, ⟨name, h1, t, ts, h2, h3, rfl⟩, h4⟩
      refine ⟨⟨name, slotName_iff.mpr h1, (def_slotMethodName _).mp (h4 name (by simp))⟩, ⟨t, h2⟩, ts, h3, ?_⟩
      intro n hn
      exact h4 n (by simpa using Or.inr (by simpa using hn))
    · rintro ⟨⟨name, h1, h4⟩, ⟨t, h2⟩, ts, h3, h5⟩
      refine ⟨(name, t) :: ts, ⟨name, slotName_iff.mp h1, t, ts, h2, h3, rfl⟩, ?_⟩
      intro n hn
      simp only [List.map_cons, List.mem_cons] at hn
      rcases hn with rfl | hn
      · exact (def_slotMethodName _).mpr h4
      · exact h5 n hn
end

theorem rootAccepted_iff (cs : List Child) : (∃ t, RootMeans cs t) ↔ rootAccepted cs := by
  unfold rootAccepted
  rw [← nodesAccepted_iff]
  simp only [rootMeans_iff]
  constructor
  · rintro ⟨t, h, ns, h1, -⟩; exact ⟨h, ns, h1⟩
  · rintro ⟨h, ns, h1⟩; exact ⟨_, h, ns, h1, rfl⟩

end Mview
