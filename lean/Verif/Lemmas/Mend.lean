import Verif.Spec.Mend
import Verif.Spec.Issues
import Verif.Spec.Recovery
import Verif.Lemmas.Accept
import Verif.Props.Nightly
/-
What is generated does not change when a view is mended, and exactly the errors about what was too much go away.
-/

set_option linter.unusedVariables false

namespace Mview
open Lex

/-! ### lists -/

theorem mapM_mended {α β : Type} {m : α → Option α} {f : α → Option (List β)}
    (h : ∀ a, (m a = none ∧ f a = some []) ∨ ∃ b, m a = some b ∧ f b = f a) (xs : List α) :
    ((xs.filterMap m).mapM f).map List.flatten = (xs.mapM f).map List.flatten := by
  induction xs with
  | nil => rfl
  | cons x xs ih =>
    rcases h x with ⟨h1, h2⟩ | ⟨b, h1, h2⟩
    · rw [List.filterMap_cons_none h1, ih, List.mapM_cons, h2]
      cases xs.mapM f <;> simp
    · rw [List.filterMap_cons_some h1, List.mapM_cons, List.mapM_cons, h2]
      cases f x with
      | none => rfl
      | some y =>
        cases h3 : (xs.filterMap m).mapM f <;> cases h4 : xs.mapM f <;> rw [h3, h4] at ih <;> simp_all

theorem bind_flatten {β γ : Type} {x y : Option (List (List β))} (h : x.map List.flatten = y.map List.flatten)
    (f : List (List β) → Option γ) (hf : ∀ a b, a.flatten = b.flatten → f a = f b) : x >>= f = y >>= f := by
  cases x <;> cases y <;> simp_all
  exact hf _ _ h

/-- The issue stays. -/
def Issue.stays : Issue → Bool
  | .report d => !d.isExtra
  | _ => true

theorem flatMap_mended {α : Type} {m : α → Option α} {f g : α → List Issue}
    (h : ∀ a, (m a = none ∧ (g a).filter Issue.stays = []) ∨ ∃ b, m a = some b ∧ f b = (g a).filter Issue.stays)
    (xs : List α) : (xs.filterMap m).flatMap f = (xs.flatMap g).filter Issue.stays := by
  induction xs with
  | nil => rfl
  | cons x xs ih =>
    rw [List.flatMap_cons, List.filter_append]
    rcases h x with ⟨h1, h2⟩ | ⟨b, h1, h2⟩
    · rw [List.filterMap_cons_none h1, ih, h2, List.nil_append]
    · rw [List.filterMap_cons_some h1, List.flatMap_cons, ih, h2]

/-! ### what is generated -/

theorem eventAnyway_mend (d : Directive) :
    (Directive.mk d.dir d.key (mendEvent d.modifier) d.value).eventAnyway = d.eventAnyway := by
  unfold Directive.eventAnyway mendEvent
  by_cases h : d.modifier = some (plain c!"undelegated")
  · simp [h]
  · simp [h]

theorem mendOnElement_anyway (d : Directive) : (d.mendOnElement = none ∧ d.onElementAnyway = some []) ∨
    ∃ d', d.mendOnElement = some d' ∧ d'.onElementAnyway = d.onElementAnyway := by
  unfold Directive.mendOnElement
  split
  · rename_i h
    refine Or.inr ⟨_, rfl, ?_⟩
    unfold Directive.onElementAnyway
    rw [eventAnyway_mend]
    rfl
  · rename_i h
    split
    · refine Or.inr ⟨_, rfl, ?_⟩
      unfold Directive.onElementAnyway
      dsimp only
      rw [if_neg h, if_neg h]
      rfl
    · rename_i h'
      simp only [List.mem_cons, List.not_mem_nil, or_false, not_or] at h'
      refine Or.inl ⟨rfl, ?_⟩
      unfold Directive.onElementAnyway
      simp [h, h']

theorem mendOnComponent_anyway (d : Directive) (hc : d.dir ≠ plain c!"clone") :
    (d.mendOnComponent = none ∧ d.onComponentAnyway = some []) ∨
    ∃ d', d.mendOnComponent = some d' ∧ d'.onComponentAnyway = d.onComponentAnyway := by
  unfold Directive.mendOnComponent
  by_cases h : d.dir = plain c!"on"
  · rw [if_pos h]
    refine Or.inr ⟨_, rfl, ?_⟩
    unfold Directive.onComponentAnyway
    rw [eventAnyway_mend]
    rfl
  rw [if_neg h]
  by_cases h' : d.dir = plain c!"use"
  · rw [if_pos h']
    refine Or.inr ⟨_, rfl, ?_⟩
    unfold Directive.onComponentAnyway
    simp only [h', Directive.useArgsAnyway]
    simp [plain]
  rw [if_neg h', if_neg hc]
  split
  · exact Or.inr ⟨_, rfl, rfl⟩
  · rename_i h''
    simp only [List.mem_cons, List.not_mem_nil, or_false, not_or] at h''
    refine Or.inl ⟨rfl, ?_⟩
    unfold Directive.onComponentAnyway
    simp [h, h', h'']

theorem kvs_filterMap {m : Attr → Option Attr} (h : ∀ a, m (.kv a) = some (.kv a))
    (h' : ∀ d a, m (.directive d) ≠ some (.kv a)) (h'' : ∀ e a, m (.spread e) ≠ some (.kv a)) (attrs : List Attr) :
    kvs (attrs.filterMap m) = kvs attrs := by
  unfold kvs
  rw [List.filterMap_filterMap]
  refine List.filterMap_congr fun a _ => ?_
  cases a with
  | kv a => rw [h]; rfl
  | directive d =>
    cases hm : m (.directive d) with
    | none => rfl
    | some b =>
      cases b with
      | kv a => exact absurd hm (h' d a)
      | _ => rfl
  | spread d =>
    cases hm : m (.spread d) with
    | none => rfl
    | some b =>
      cases b with
      | kv a => exact absurd hm (h'' d a)
      | _ => rfl

theorem mendOnElement_kvs (attrs : List Attr) : kvs (attrs.filterMap Attr.mendOnElement) = kvs attrs :=
  kvs_filterMap (m := Attr.mendOnElement) (fun _ => rfl) (fun d a h => by simp [Attr.mendOnElement] at h)
    (fun e a h => by simp [Attr.mendOnElement] at h) attrs

theorem mendOnComponent_kvs (attrs : List Attr) : kvs (attrs.filterMap Attr.mendOnComponent) = kvs attrs :=
  kvs_filterMap (m := Attr.mendOnComponent) (fun _ => rfl) (fun d a h => by simp [Attr.mendOnComponent] at h)
    (fun e a h => by simp [Attr.mendOnComponent] at h) attrs

theorem mendOnSlot_kvs (attrs : List Attr) : kvs (attrs.filterMap Attr.mendOnSlot) = kvs attrs :=
  kvs_filterMap (m := Attr.mendOnSlot) (fun _ => rfl) (fun d a h => by simp only [Attr.mendOnSlot] at h; split at h <;> simp at h)
    (fun e a h => by simp [Attr.mendOnSlot] at h) attrs

theorem mendOnElement_spreads (attrs : List Attr) :
    spreads (attrs.filterMap Attr.mendOnElement) = spreads attrs := by
  unfold spreads
  rw [List.filterMap_filterMap]
  refine List.filterMap_congr fun a _ => ?_
  cases a with
  | directive d => cases h : d.mendOnElement <;> simp [Attr.mendOnElement, h]
  | _ => rfl

theorem mendOnElement_directives (attrs : List Attr) :
    directives (attrs.filterMap Attr.mendOnElement) = (directives attrs).filterMap Directive.mendOnElement := by
  unfold directives
  rw [List.filterMap_filterMap, List.filterMap_filterMap]
  refine List.filterMap_congr fun a _ => ?_
  cases a with
  | directive d => cases h : d.mendOnElement <;> simp [Attr.mendOnElement, h]
  | _ => rfl

theorem mendOnComponent_dir {d d' : Directive} (h : d.mendOnComponent = some d') : d'.dir = d.dir := by
  unfold Directive.mendOnComponent at h
  repeat' split at h
  all_goals first | (cases h; rfl) | cases h

theorem mendOnComponent_entries (attrs : List Attr) :
    entries (attrs.filterMap Attr.mendOnComponent) = (entries attrs).filterMap Attr.mendOnComponent := by
  induction attrs with
  | nil => rfl
  | cons a attrs ih =>
    unfold entries at ih ⊢
    cases a with
    | kv a => simpa [Attr.mendOnComponent] using ih
    | spread e => simpa [Attr.mendOnComponent] using ih
    | directive d =>
      cases h : d.mendOnComponent with
      | none =>
        have h' : Attr.mendOnComponent (.directive d) = none := by simp [Attr.mendOnComponent, h]
        rw [List.filterMap_cons_none h', ih, List.filter_cons]
        by_cases hd : d.dir = plain c!"clone"
        · simp only [hd, ne_eq, not_true_eq_false, decide_false, Bool.false_eq_true, if_false]
        · simp only [hd, ne_eq, not_false_eq_true, decide_true, if_true]
          rw [List.filterMap_cons_none h']
      | some d' =>
        have h' : Attr.mendOnComponent (.directive d) = some (.directive d') := by simp [Attr.mendOnComponent, h]
        rw [List.filterMap_cons_some h', List.filter_cons, List.filter_cons]
        simp only [mendOnComponent_dir h]
        by_cases hd : d.dir = plain c!"clone"
        · simp only [hd, ne_eq, not_true_eq_false, decide_false, Bool.false_eq_true, if_false]
          exact ih
        · simp only [hd, ne_eq, not_false_eq_true, decide_true, if_true]
          rw [List.filterMap_cons_some h', ih]

/-- `clone:` without anything else. -/
def bareClone (d : Directive) : Directive := ⟨d.dir, d.key, none, none⟩

theorem mendOnComponent_clones (attrs : List Attr) :
    clones (attrs.filterMap Attr.mendOnComponent) = (clones attrs).map bareClone := by
  unfold clones directives
  induction attrs with
  | nil => rfl
  | cons a attrs ih =>
    cases a with
    | kv a => simpa [Attr.mendOnComponent] using ih
    | spread e => simpa [Attr.mendOnComponent] using ih
    | directive d =>
      cases h : d.mendOnComponent with
      | none =>
        have h' : Attr.mendOnComponent (.directive d) = none := by simp [Attr.mendOnComponent, h]
        have hd : d.dir ≠ plain c!"clone" := by
          intro hd
          simp [Directive.mendOnComponent, hd, plain] at h
        rw [List.filterMap_cons_none h', ih]
        simp [hd]
      | some d' =>
        have h' : Attr.mendOnComponent (.directive d) = some (.directive d') := by simp [Attr.mendOnComponent, h]
        rw [List.filterMap_cons_some h']
        simp only [List.filterMap_cons, List.filter_cons, mendOnComponent_dir h]
        by_cases hd : d.dir = plain c!"clone"
        · have : d' = bareClone d := by
            simp [Directive.mendOnComponent, hd, plain] at h
            rw [← h, bareClone, hd]
          simp only [hd, decide_true, if_true, List.map_cons]
          rw [ih, this]
        · simp only [hd, decide_false, Bool.false_eq_true, if_false]
          exact ih

theorem mendOnSlot_clones (attrs : List Attr) :
    clones (attrs.filterMap Attr.mendOnSlot) = (clones attrs).map bareClone := by
  unfold clones directives
  induction attrs with
  | nil => rfl
  | cons a attrs ih =>
    cases a with
    | kv a =>
      rw [List.filterMap_cons_some (rfl : Attr.mendOnSlot (.kv a) = some (.kv a))]
      simpa using ih
    | spread e =>
      rw [List.filterMap_cons_none (rfl : Attr.mendOnSlot (.spread e) = none)]
      simpa using ih
    | directive d =>
      by_cases hd : d.dir = plain c!"clone"
      · have h' : Attr.mendOnSlot (.directive d) = some (.directive (bareClone d)) := by
          simp [Attr.mendOnSlot, hd, bareClone]
        rw [List.filterMap_cons_some h']
        simp only [List.filterMap_cons, List.filter_cons, hd, bareClone, decide_true, if_true, List.map_cons]
        rw [ih]
      · have h' : Attr.mendOnSlot (.directive d) = none := by simp [Attr.mendOnSlot, hd]
        rw [List.filterMap_cons_none h', ih]
        simp [hd]

theorem cloneAnyway_mend (ds : List Directive) :
    (ds.map bareClone).mapM Directive.cloneAnyway = ds.mapM Directive.cloneAnyway := by
  rw [List.mapM_map]
  rfl

section
variable (path : Path) (tag : Tag) (sels : List Selector) (attrs : List Attr) (args : Option Toks)
  (nodes : List Toks) (calls : List Call)

theorem xmlAnyway_mend : xmlAnyway tag sels (attrs.filterMap Attr.mendOnElement) nodes =
    xmlAnyway tag sels attrs nodes := by
  unfold xmlAnyway
  rw [mendOnElement_kvs, mendOnElement_spreads, mendOnElement_directives]
  refine congrArg (tag.head >>= ·) (funext fun head => ?_)
  refine congrArg (_ >>= ·) (funext fun as => ?_)
  refine bind_flatten (mapM_mended mendOnElement_anyway _) _ fun a b h => ?_
  dsimp only
  rw [h]

theorem entry_mended (xs : List Attr) (h : ∀ d, .directive d ∈ xs → d.dir ≠ plain c!"clone") :
    ((xs.filterMap Attr.mendOnComponent).mapM Attr.entryAnyway).map List.flatten =
      (xs.mapM Attr.entryAnyway).map List.flatten := by
  induction xs with
  | nil => rfl
  | cons x xs ih =>
    have ih := ih fun d hd => h d (by simp [hd])
    have hx : (x.mendOnComponent = none ∧ x.entryAnyway = some []) ∨
        ∃ b, x.mendOnComponent = some b ∧ b.entryAnyway = x.entryAnyway := by
      cases x with
      | kv a => exact Or.inr ⟨_, rfl, rfl⟩
      | spread a => exact Or.inr ⟨_, rfl, rfl⟩
      | directive d =>
        rcases mendOnComponent_anyway d (h d (by simp)) with ⟨h1, h2⟩ | ⟨d', h1, h2⟩
        · exact Or.inl ⟨by simp [Attr.mendOnComponent, h1], h2⟩
        · exact Or.inr ⟨.directive d', by simp [Attr.mendOnComponent, h1], h2⟩
    rcases hx with ⟨h1, h2⟩ | ⟨b, h1, h2⟩
    · rw [List.filterMap_cons_none h1, ih, List.mapM_cons, h2]
      cases xs.mapM Attr.entryAnyway <;> simp
    · rw [List.filterMap_cons_some h1, List.mapM_cons, List.mapM_cons, h2]
      cases x.entryAnyway with
      | none => rfl
      | some y =>
        cases h3 : (xs.filterMap Attr.mendOnComponent).mapM Attr.entryAnyway <;>
          cases h4 : xs.mapM Attr.entryAnyway <;> rw [h3, h4] at ih <;> simp_all

theorem componentAnyway_mend : componentAnyway path sels (attrs.filterMap Attr.mendOnComponent) args nodes calls =
    componentAnyway path sels attrs args nodes calls := by
  unfold componentAnyway
  rw [mendOnComponent_kvs, mendOnComponent_clones, mendOnComponent_entries, cloneAnyway_mend]
  refine congrArg (path.means >>= ·) (funext fun path => ?_)
  refine congrArg (_ >>= ·) (funext fun as => ?_)
  have he := entry_mended (entries attrs) fun d hd => by
    unfold entries at hd
    simpa using (List.mem_filter.mp hd).2
  refine bind_flatten he _ fun a b h => ?_
  dsimp only
  rw [h]

theorem slotAnyway_mend : slotAnyway path (attrs.filterMap Attr.mendOnSlot) args nodes =
    slotAnyway path attrs args nodes := by
  unfold slotAnyway
  rw [mendOnSlot_kvs, mendOnSlot_clones, cloneAnyway_mend]
end

theorem Element.mend_tag (asSlot : Bool) (e : Element) : (e.mend asSlot).tag = e.tag := by
  cases e with
  | mk tag sels attrs args block => cases block <;> simp [Element.mend, Element.tag]

theorem Element.mend_slotName (asSlot : Bool) (e : Element) : (e.mend asSlot).slotName = e.slotName := by
  unfold Element.slotName; rw [Element.mend_tag]

mutual
theorem mend_becomes : (asSlot : Bool) → (e : Element) → (t : Toks) →
    ((e.mend asSlot).Becomes asSlot t ↔ e.Becomes asSlot t)
  | asSlot, .mk tag sels attrs args none, t => by
    rw [Element.mend]
    cases asSlot <;> cases tag <;> simp only [Element.Becomes, Tag.isPath, mendAttrs, if_true, if_false,
      Bool.false_eq_true, xmlAnyway_mend, componentAnyway_mend, slotAnyway_mend]
  | asSlot, .mk tag sels attrs args (some cs), t => by
    rw [Element.mend]
    have hn := nodes_mend cs
    have hs := slots_mend cs
    cases asSlot <;> cases tag <;> simp only [Element.Becomes, Tag.isPath, mendAttrs, if_true, if_false,
      Bool.false_eq_true, xmlAnyway_mend, componentAnyway_mend, slotAnyway_mend, hn, hs]
theorem nodes_mend : (cs : List Child) → (ns : List Toks) → (NodesBecome (mend cs) ns ↔ NodesBecome cs ns)
  | [], ns => by rw [mend]
  | .value v :: cs, ns => by
    rw [mend, NodesBecome, NodesBecome]
    simp only [nodes_mend cs]
  | .elem e :: cs, ns => by
    rw [mend, NodesBecome, NodesBecome]
    simp only [nodes_mend cs, mend_becomes false e]
  | .slot e :: cs, ns => by
    rw [mend, NodesBecome]
    split
    · exact nodes_mend cs ns
    · rw [NodesBecome]; exact nodes_mend cs ns
theorem slots_mend : (cs : List Child) → (ns : List (Ident × Toks)) → (SlotsBecome (mend cs) ns ↔ SlotsBecome cs ns)
  | [], ns => by rw [mend]
  | .value v :: cs, ns => by
    rw [mend, SlotsBecome, SlotsBecome]
    exact slots_mend cs ns
  | .elem e :: cs, ns => by
    rw [mend, SlotsBecome, SlotsBecome]
    exact slots_mend cs ns
  | .slot e :: cs, ns => by
    rw [mend]
    split
    · rename_i h
      rw [slots_mend cs ns, SlotsBecome]
      obtain ⟨h1, h2⟩ := h
      unfold Element.slotName at h2
      split
      · rename_i heq; simp [heq] at h2
      · rfl
      · rename_i h3
        cases ht : e.tag <;> simp_all [Tag.isPath]
    · rw [SlotsBecome, SlotsBecome, Element.mend_tag]
      simp only [slots_mend cs, mend_becomes true e]
end

/-! ### the errors -/

theorem stays_name (n : Str) : (nameIssues n).filter Issue.stays = nameIssues n := by
  unfold nameIssues; split <;> rfl

theorem stays_value (v : Value) : v.issues.filter Issue.stays = v.issues := by
  unfold Value.issues
  split
  · split <;> rfl
  · rfl

theorem stays_opt (v : Option Value) : (optIssues v).filter Issue.stays = optIssues v := by
  cases v with
  | none => rfl
  | some v => exact stays_value v

theorem stays_modifier (m : Option Ident) : (modifierIssues m).filter Issue.stays = [] := by cases m <;> rfl

theorem modifier_none : modifierIssues none = [] := rfl

theorem stays_key (k : KebabOrStr) : k.issues.filter Issue.stays = k.issues := by
  cases k with
  | kebab k => exact stays_name _
  | str s => rfl

theorem stays_event (d : Directive) : d.eventIssues.filter Issue.stays =
    (Directive.mk d.dir d.key (mendEvent d.modifier) d.value).eventIssues := by
  unfold Directive.eventIssues mendEvent
  rw [List.filter_append]
  congr 1
  · cases d.key with
    | kebab k => exact stays_name _
    | str s => rfl
  · cases d.modifier with
    | none => rfl
    | some m => by_cases h : m = plain c!"undelegated" <;> simp [h, Issue.stays, Diag.isExtra]

theorem stays_use (d : Directive) : d.useIssues.filter Issue.stays =
    (Directive.mk d.dir d.key none d.value).useIssues := by
  unfold Directive.useIssues
  rw [List.filter_append, stays_key, stays_modifier]
  rfl

theorem stays_clone (d : Directive) : d.cloneIssues.filter Issue.stays = (bareClone d).cloneIssues := by
  unfold Directive.cloneIssues
  simp only [List.filter_append, stays_key, stays_modifier]
  cases d.value <;> simp [bareClone, modifierIssues, Issue.stays, Diag.isExtra]

theorem stays_kvElement (kind : TagKind) (a : KvAttr) :
    (a.issuesOnElement kind).filter Issue.stays = a.issuesOnElement kind := by
  unfold KvAttr.issuesOnElement
  rw [List.filter_append, stays_value]
  split
  · rfl
  · rw [stays_name]

theorem stays_kvComponent (a : KvAttr) : a.issuesOnComponent.filter Issue.stays = a.issuesOnComponent := by
  unfold KvAttr.issuesOnComponent
  rw [List.filter_append, stays_value, stays_name]

theorem mendOnElement_issues (kind : TagKind) (a : Attr) :
    (a.mendOnElement = none ∧ (a.issuesOnElement kind).filter Issue.stays = []) ∨
    ∃ b, a.mendOnElement = some b ∧ b.issuesOnElement kind = (a.issuesOnElement kind).filter Issue.stays := by
  cases a with
  | kv a => exact Or.inr ⟨_, rfl, (stays_kvElement kind a).symm⟩
  | spread e => exact Or.inr ⟨_, rfl, rfl⟩
  | directive d =>
    simp only [Attr.mendOnElement, Attr.issuesOnElement, Directive.mendOnElement]
    by_cases h : d.dir = plain c!"on"
    · rw [if_pos h]
      refine Or.inr ⟨_, rfl, ?_⟩
      simp only [Directive.issuesOnElement, h, List.mem_cons, List.not_mem_nil, plain, Ident.mk.injEq]
      simp [stays_event, stays_opt, h, plain]
    rw [if_neg h]
    split
    · rename_i h'
      refine Or.inr ⟨_, rfl, ?_⟩
      simp only [List.mem_cons, List.not_mem_nil, or_false] at h'
      simp only [Directive.issuesOnElement]
      rcases h' with h' | h' | h' | h' <;>
        simp [h', plain, stays_modifier, stays_opt, stays_use, modifier_none, List.filter_append]
    · rename_i h'
      refine Or.inl ⟨rfl, ?_⟩
      simp only [List.mem_cons, List.not_mem_nil, or_false, not_or] at h'
      simp only [Directive.issuesOnElement, List.mem_cons, List.not_mem_nil, or_false, h, h', if_false]
      split <;> rfl

theorem mendOnComponent_issues (a : Attr) :
    (a.mendOnComponent = none ∧ a.issuesOnComponent.filter Issue.stays = []) ∨
    ∃ b, a.mendOnComponent = some b ∧ b.issuesOnComponent = a.issuesOnComponent.filter Issue.stays := by
  cases a with
  | kv a => exact Or.inr ⟨_, rfl, (stays_kvComponent a).symm⟩
  | spread e => exact Or.inr ⟨_, rfl, rfl⟩
  | directive d =>
    simp only [Attr.mendOnComponent, Attr.issuesOnComponent, Directive.mendOnComponent]
    by_cases h : d.dir = plain c!"on"
    · rw [if_pos h]
      refine Or.inr ⟨_, rfl, ?_⟩
      simp only [Directive.issuesOnComponent, h, List.mem_cons, List.not_mem_nil, plain, Ident.mk.injEq]
      simp [stays_event, stays_opt, h, plain]
    rw [if_neg h]
    by_cases h1 : d.dir = plain c!"use"
    · rw [if_pos h1]
      refine Or.inr ⟨_, rfl, ?_⟩
      simp [Directive.issuesOnComponent, h1, plain, stays_use, stays_opt, List.filter_append]
    rw [if_neg h1]
    by_cases h2 : d.dir = plain c!"clone"
    · rw [if_pos h2]
      refine Or.inr ⟨_, rfl, ?_⟩
      simp only [Directive.issuesOnComponent, h2, if_true, stays_clone]
      rfl
    rw [if_neg h2]
    split
    · rename_i h'
      refine Or.inr ⟨_, rfl, ?_⟩
      simp only [List.mem_cons, List.not_mem_nil, or_false] at h'
      simp only [Directive.issuesOnComponent]
      rcases h' with h' | h' | h' | h' <;> simp [h', plain, stays_opt, stays_key, List.filter_append]
      split <;> simp [stays_key]
    · rename_i h'
      refine Or.inl ⟨rfl, ?_⟩
      simp only [List.mem_cons, List.not_mem_nil, or_false, not_or] at h'
      simp only [Directive.issuesOnComponent, List.mem_cons, List.not_mem_nil, or_false, h, h1, h2, h', if_false]
      rfl

theorem mendOnSlot_issues (a : Attr) :
    (a.mendOnSlot = none ∧ a.issuesOnSlot.filter Issue.stays = []) ∨
    ∃ b, a.mendOnSlot = some b ∧ b.issuesOnSlot = a.issuesOnSlot.filter Issue.stays := by
  cases a with
  | kv a => exact Or.inr ⟨_, rfl, (stays_kvComponent a).symm⟩
  | spread e => exact Or.inl ⟨rfl, rfl⟩
  | directive d =>
    by_cases h : d.dir = plain c!"clone"
    · refine Or.inr ⟨.directive (bareClone d), by simp [Attr.mendOnSlot, h, bareClone], ?_⟩
      have hd : (bareClone d).dir = d.dir := rfl
      simp only [Attr.issuesOnSlot, hd, h, if_true, stays_clone]
    · refine Or.inl ⟨by simp [Attr.mendOnSlot, h], ?_⟩
      simp only [Attr.issuesOnSlot, h, if_false]
      rfl

theorem stays_path (p : Path) : p.issues.filter Issue.stays = p.issues := by
  unfold Path.issues
  induction p.segs with
  | nil => rfl
  | cons seg segs ih =>
    rw [List.flatMap_cons, List.filter_append, ih]
    congr 1
    split <;> rfl

theorem stays_method (cs : List Child) : (methodIssues cs).filter Issue.stays = methodIssues cs := by
  unfold methodIssues; split <;> rfl

theorem slotNames_mend : (cs : List Child) → slotNames (mend cs) = slotNames cs
  | [] => by rw [mend]
  | .value v :: cs => by rw [mend]; simpa [slotNames] using slotNames_mend cs
  | .elem v :: cs => by rw [mend]; simpa [slotNames] using slotNames_mend cs
  | .slot e :: cs => by
    have ih := slotNames_mend cs
    rw [mend]
    unfold slotNames at ih ⊢
    split
    · rename_i h
      rw [ih]
      simp [h.2]
    · simp only [List.filterMap_cons, Element.mend_slotName, ih]

theorem selectors_stay (sels : List Selector) :
    List.filter Issue.stays (if sels.isEmpty = true then [] else [Issue.report .selectorOnSlot]) = [] := by
  split <;> rfl

mutual
theorem mend_issues : (asSlot : Bool) → (e : Element) →
    (e.mend asSlot).issues asSlot = (e.issues asSlot).filter Issue.stays
  | asSlot, .mk tag sels attrs args none => by
    rw [Element.mend]
    cases asSlot <;> cases tag <;> simp only [Element.issues, Tag.isPath, Tag.kind, mendAttrs, if_true, if_false,
      Bool.false_eq_true, List.filter_append, stays_path, selectors_stay, List.isEmpty_nil, List.append_nil,
      flatMap_mended mendOnComponent_issues, flatMap_mended mendOnSlot_issues,
      flatMap_mended (mendOnElement_issues _)] <;> rfl
  | asSlot, .mk tag sels attrs args (some cs) => by
    rw [Element.mend]
    have hn := nodesIssues_mend cs
    have hs := slotsIssues_mend cs
    have hm : methodIssues (mend cs) = (methodIssues cs).filter Issue.stays := by
      rw [stays_method]; unfold methodIssues; rw [slotNames_mend]
    cases asSlot <;> cases tag <;> simp only [Element.issues, Tag.isPath, Tag.kind, mendAttrs, if_true, if_false,
      Bool.false_eq_true, List.filter_append, stays_path, selectors_stay, List.isEmpty_nil, List.append_nil,
      flatMap_mended mendOnComponent_issues, flatMap_mended mendOnSlot_issues,
      flatMap_mended (mendOnElement_issues _), hn, hs, hm] <;> rfl
theorem nodesIssues_mend : (cs : List Child) → nodesIssues (mend cs) = (nodesIssues cs).filter Issue.stays
  | [] => by rw [mend]; rfl
  | .value v :: cs => by
    rw [mend, nodesIssues, nodesIssues, List.filter_append, stays_value, nodesIssues_mend cs]
  | .elem e :: cs => by
    rw [mend, nodesIssues, nodesIssues, List.filter_append, mend_issues false e, nodesIssues_mend cs]
  | .slot e :: cs => by
    rw [mend, nodesIssues, ← nodesIssues_mend cs]
    split
    · rfl
    · rw [nodesIssues]
theorem slotsIssues_mend : (cs : List Child) → slotsIssues (mend cs) = (slotsIssues cs).filter Issue.stays
  | [] => by rw [mend]; rfl
  | .value v :: cs => by rw [mend, slotsIssues, slotsIssues, slotsIssues_mend cs]
  | .elem v :: cs => by rw [mend, slotsIssues, slotsIssues, slotsIssues_mend cs]
  | .slot e :: cs => by
    rw [mend, slotsIssues, List.filter_append, ← slotsIssues_mend cs]
    split
    · rename_i h
      simp [h, Issue.stays, Diag.isExtra]
    · rename_i h
      rw [slotsIssues, Element.mend_tag, Element.mend_slotName]
      congr 1
      split
      · rename_i h1
        rw [if_pos (by cases hn : e.slotName <;> simp_all), if_pos (by cases hn : e.slotName <;> simp_all)]
        exact mend_issues true e
      · rfl
end

/-! ### without errors, a view is accepted -/

theorem fine_name {n : Str} (h : nameIssues n = []) : Str.Identlike n := by
  unfold nameIssues at h; split at h <;> simp_all

theorem fine_value {v : Value} (h : v.issues = []) : v.Accepted := by
  unfold Value.issues at h
  split at h
  · split at h
    · assumption
    · simp at h
  · rename_i hv
    unfold Value.Accepted
    split
    · exact absurd rfl (hv _ _)
    · trivial

theorem fine_opt {v : Option Value} (h : optIssues v = []) : optAccepted v := by
  rintro x rfl
  exact fine_value h

theorem fine_modifier {m : Option Ident} (h : modifierIssues m = []) : m = none := by
  cases m <;> simp_all [modifierIssues]

theorem fine_key {k : KebabOrStr} (h : k.issues = []) : k.IdentKey := by
  cases k with
  | kebab k => exact fine_name h
  | str s => simp [KebabOrStr.issues] at h

theorem fine_event {d : Directive} (h : d.eventIssues = []) :
    d.key.IdentKey ∧ (d.modifier = none ∨ d.modifier = some (plain c!"undelegated")) := by
  unfold Directive.eventIssues at h
  rw [List.append_eq_nil_iff] at h
  obtain ⟨h1, h2⟩ := h
  constructor
  · cases hk : d.key with
    | kebab k => rw [hk] at h1; exact fine_name h1
    | str s => simp [hk] at h1
  · cases hm : d.modifier with
    | none => exact Or.inl rfl
    | some m =>
      rw [hm] at h2
      by_cases he : m = plain c!"undelegated"
      · exact Or.inr (by rw [he])
      · simp [he] at h2

theorem fine_kvElement {kind : TagKind} {a : KvAttr} (h : a.issuesOnElement kind = []) :
    a.AcceptedOnElement kind := by
  unfold KvAttr.issuesOnElement at h
  rw [List.append_eq_nil_iff] at h
  refine ⟨fine_value h.2, ?_⟩
  by_cases hc : a.key.repr = c!"ref" ∨ Unchecked kind a.key.repr
  · rcases hc with hc | hc
    · exact Or.inl hc
    · exact Or.inr (Or.inl hc)
  · rw [if_neg hc] at h
    exact Or.inr (Or.inr (fine_name h.1))

theorem fine_kvComponent {a : KvAttr} (h : a.issuesOnComponent = []) : a.AcceptedOnComponent := by
  unfold KvAttr.issuesOnComponent at h
  rw [List.append_eq_nil_iff] at h
  exact ⟨fine_value h.2, fine_name h.1⟩

theorem fine_clone {d : Directive} (h : d.cloneIssues = []) : d.key.IdentKey ∧ d.modifier = none ∧ d.value = none := by
  unfold Directive.cloneIssues at h
  simp only [List.append_eq_nil_iff] at h
  obtain ⟨⟨⟨h1, h2⟩, _⟩, h3⟩ := h
  exact ⟨fine_key h2, fine_modifier h1, by cases hv : d.value <;> simp_all⟩

theorem fine_onElement {kind : TagKind} {a : Attr} (h : a.issuesOnElement kind = []) : a.AcceptedOnElement kind := by
  cases a with
  | kv a => exact fine_kvElement h
  | spread e => trivial
  | directive d =>
    simp only [Attr.issuesOnElement, Directive.issuesOnElement] at h
    simp only [Attr.AcceptedOnElement, Directive.AcceptedOnElement]
    repeat' split at h
    · rename_i hd
      rw [List.append_eq_nil_iff] at h
      exact ⟨fine_opt h.2, Or.inl ⟨hd, fine_modifier h.1⟩⟩
    · rename_i hd
      rw [List.append_eq_nil_iff] at h
      exact ⟨fine_opt h.2, Or.inr (Or.inl ⟨hd, fine_event h.1⟩)⟩
    · rename_i hd
      simp only [Directive.useIssues, List.append_eq_nil_iff] at h
      exact ⟨fine_opt h.2, Or.inr (Or.inr ⟨hd, fine_key h.1.1, fine_modifier h.1.2⟩)⟩
    all_goals simp at h

theorem fine_onComponent {a : Attr} (h : a.issuesOnComponent = []) : a.AcceptedOnComponent := by
  cases a with
  | kv a => exact fine_kvComponent h
  | spread e => trivial
  | directive d =>
    simp only [Attr.issuesOnComponent, Directive.issuesOnComponent] at h
    simp only [Attr.AcceptedOnComponent, Directive.AcceptedOnComponent]
    by_cases h1 : d.dir = plain c!"clone"
    · rw [if_pos h1] at h
      exact Or.inl ⟨h1, fine_clone h⟩
    rw [if_neg h1] at h
    right
    by_cases h2 : d.dir ∈ [plain c!"class", plain c!"style"]
    · rw [if_pos h2] at h
      exact ⟨fine_opt h, Or.inl h2⟩
    rw [if_neg h2] at h
    by_cases h3 : d.dir = plain c!"attr"
    · rw [if_pos h3, List.append_eq_nil_iff] at h
      refine ⟨fine_opt h.2, Or.inr (Or.inl ⟨h3, ?_⟩)⟩
      by_cases hk : '-' ∈ d.key.text ∧ ¬ c!"aria-" <+: d.key.text
      · exact Or.inl hk
      · rw [if_neg hk] at h; exact Or.inr (fine_key h.1)
    rw [if_neg h3] at h
    by_cases h4 : d.dir = plain c!"prop"
    · rw [if_pos h4, List.append_eq_nil_iff] at h
      exact ⟨fine_opt h.2, Or.inr (Or.inr (Or.inl ⟨h4, fine_key h.1⟩))⟩
    rw [if_neg h4] at h
    by_cases h5 : d.dir = plain c!"on"
    · rw [if_pos h5, List.append_eq_nil_iff] at h
      exact ⟨fine_opt h.2, Or.inr (Or.inr (Or.inr (Or.inl ⟨h5, fine_event h.1⟩)))⟩
    rw [if_neg h5] at h
    by_cases h6 : d.dir = plain c!"use"
    · rw [if_pos h6] at h
      simp only [Directive.useIssues, List.append_eq_nil_iff] at h
      exact ⟨fine_opt h.2, Or.inr (Or.inr (Or.inr (Or.inr ⟨h6, fine_key h.1.1, fine_modifier h.1.2⟩)))⟩
    · rw [if_neg h6] at h
      simp at h

theorem fine_onSlot {a : Attr} (h : a.issuesOnSlot = []) : a.AcceptedOnSlot := by
  cases a with
  | kv a => exact fine_kvComponent h
  | spread e => simp [Attr.issuesOnSlot] at h
  | directive d =>
    simp only [Attr.issuesOnSlot] at h
    split at h
    · rename_i hd; exact ⟨hd, fine_clone h⟩
    · simp at h

theorem fine_path {p : Path} (h : p.issues = []) : p.Accepted := by
  intro seg hs inner ha
  have := List.flatMap_eq_nil_iff.mp h seg hs
  simp [ha] at this

theorem fine_sels {sels : List Selector}
    (h : (if sels.isEmpty = true then [] else [Issue.report .selectorOnSlot]) = []) : sels = [] := by
  cases sels <;> simp_all

mutual
theorem fine_elem (asSlot : Bool) : (e : Element) → e.issues asSlot = [] → e.Accepted asSlot
  | .mk tag sels attrs args none, h => by
    unfold Element.issues at h
    unfold Element.Accepted
    cases asSlot <;> cases tag <;> simp only [List.append_eq_nil_iff, List.flatMap_eq_nil_iff] at h ⊢
    case false.component => exact ⟨fine_path h.1, fun a ha => fine_onComponent (h.2 a ha)⟩
    case true.component => exact ⟨fine_path h.1.1, fine_sels h.1.2, fun a ha => fine_onSlot (h.2 a ha)⟩
    all_goals first
      | exact fun a ha => fine_onElement (h a ha)
      | simp at h
  | .mk tag sels attrs args (some cs), h => by
    unfold Element.issues at h
    unfold Element.Accepted
    cases asSlot <;> cases tag <;> simp only [List.append_eq_nil_iff, List.flatMap_eq_nil_iff] at h ⊢
    case false.component =>
      obtain ⟨⟨⟨⟨h1, h2⟩, h3⟩, h4⟩, h5⟩ := h
      exact ⟨fine_path h1, fun a ha => fine_onComponent (h2 a ha), fine_nodes cs h3, fine_slots cs h4 h5⟩
    case true.component =>
      obtain ⟨⟨⟨⟨⟨h1, h0⟩, h2⟩, h3⟩, h4⟩, h5⟩ := h
      exact ⟨fine_path h1, fine_sels h0, fun a ha => fine_onSlot (h2 a ha), fine_nodes cs h3, fine_slots cs h4 h5⟩
    all_goals first
      | exact ⟨fun a ha => fine_onElement (h.1 a ha), fine_nodes cs h.2⟩
      | simp at h
theorem fine_nodes : (cs : List Child) → nodesIssues cs = [] → nodesAccepted cs
  | [], _ => by rw [nodesAccepted]; trivial
  | .value v :: cs, h => by
    rw [nodesIssues, List.append_eq_nil_iff] at h
    rw [nodesAccepted]
    exact ⟨fine_value h.1, fine_nodes cs h.2⟩
  | .elem e :: cs, h => by
    rw [nodesIssues, List.append_eq_nil_iff] at h
    rw [nodesAccepted]
    exact ⟨fine_elem false e h.1, fine_nodes cs h.2⟩
  | .slot e :: cs, h => by
    rw [nodesIssues] at h
    rw [nodesAccepted]
    exact fine_nodes cs h
theorem fine_slots : (cs : List Child) → slotsIssues cs = [] → methodIssues cs = [] → slotsAccepted cs
  | [], _, _ => by rw [slotsAccepted]; trivial
  | .value v :: cs, h, hm => by
    rw [slotsIssues] at h
    rw [slotsAccepted]
    exact fine_slots cs h hm
  | .elem v :: cs, h, hm => by
    rw [slotsIssues] at h
    rw [slotsAccepted]
    exact fine_slots cs h hm
  | .slot e :: cs, h, hm => by
    rw [slotsIssues, List.append_eq_nil_iff] at h
    rw [slotsAccepted]
    obtain ⟨h1, h2⟩ := h
    split at h1
    · split at h1
      · rename_i hs
        obtain ⟨name, hn⟩ := Option.isSome_iff_exists.mp hs
        have hall : ∀ n ∈ slotNames (.slot e :: cs), snakeCase n.name ∉ [c!"_", c!"self", c!"Self", c!"super", c!"crate"] := by
          unfold methodIssues at hm
          split at hm
          · assumption
          · simp at hm
        have hc : slotNames (.slot e :: cs) = name :: slotNames cs := by simp [slotNames, hn]
        rw [hc] at hall
        refine ⟨⟨name, hn, hall name (by simp)⟩, fine_elem true e h1, fine_slots cs h2 ?_⟩
        unfold methodIssues
        rw [if_pos fun n hn => hall n (by simp [hn])]
      · simp at h1
    · simp at h1
end

/-! ### without errors, it is what the view stands for -/

theorem means_of_anyway {x y : Option Toks} {t : Toks} (hd : Def x) (hxy : ∀ t, x = some t → y = some t)
    (h : y = some t) : x = some t := by
  obtain ⟨t', ht⟩ := hd
  rw [hxy t' ht] at h
  rw [ht, h]

mutual
theorem means_of_becomes (asSlot : Bool) : (e : Element) → (t : Toks) → e.Accepted asSlot → e.Becomes asSlot t →
    e.Means asSlot t
  | .mk tag sels attrs args none, t, ha, h => by
    unfold Element.Accepted at ha
    unfold Element.Becomes at h
    unfold Element.Means
    cases asSlot <;> cases tag
    case false.component p => exact means_of_anyway ((def_component ..).mpr ha) (fun _ => componentAnyway_of) h
    case true.component p => exact means_of_anyway ((def_slot ..).mpr ha) (fun _ => slotAnyway_of) h
    all_goals first
      | exact h.elim
      | exact means_of_anyway ((def_xml (by simp) ..).mpr ha) (fun _ => xmlAnyway_of) h
  | .mk tag sels attrs args (some cs), t, ha, h => by
    unfold Element.Accepted at ha
    unfold Element.Becomes at h
    unfold Element.Means
    cases asSlot <;> cases tag
    case false.component p =>
      obtain ⟨a1, a2, a3, a4⟩ := ha
      obtain ⟨ns, ss, calls, h1, h2, h3, h4⟩ := h
      exact ⟨ns, ss, calls, nodesMean_of_become cs ns a3 h1, slotsMean_of_become cs ss a4 h2, h3,
        means_of_anyway ((def_component ..).mpr ⟨a1, a2⟩) (fun _ => componentAnyway_of) h4⟩
    case true.component p =>
      obtain ⟨a1, a2, a3, a4, a5⟩ := ha
      obtain ⟨ns, ss, calls, h1, h2, h3, h4⟩ := h
      exact ⟨ns, ss, calls, nodesMean_of_become cs ns a4 h1, slotsMean_of_become cs ss a5 h2, h3,
        means_of_anyway ((def_slot ..).mpr ⟨a1, a2, a3⟩) (fun _ => slotAnyway_of) h4⟩
    all_goals first
      | exact h.elim
      | obtain ⟨ns, h1, h2⟩ := h
        exact ⟨ns, nodesMean_of_become cs ns ha.2 h1,
          means_of_anyway ((def_xml (by simp) ..).mpr ha.1) (fun _ => xmlAnyway_of) h2⟩
theorem nodesMean_of_become : (cs : List Child) → (ts : List Toks) → nodesAccepted cs → NodesBecome cs ts →
    NodesMean cs ts
  | [], ts, _, h => by unfold NodesBecome at h; unfold NodesMean; exact h
  | .value v :: cs, ts, ha, h => by
    rw [nodesAccepted] at ha
    unfold NodesBecome at h; unfold NodesMean
    obtain ⟨ts', h1, rfl⟩ := h
    obtain ⟨t, ht⟩ := (def_value v).mpr ha.1
    exact ⟨t, ts', ht, nodesMean_of_become cs ts' ha.2 h1, by rw [Value.anyway_of_means ht]⟩
  | .elem e :: cs, ts, ha, h => by
    rw [nodesAccepted] at ha
    unfold NodesBecome at h; unfold NodesMean
    obtain ⟨t, ts', h1, h2, rfl⟩ := h
    exact ⟨t, ts', means_of_becomes false e t ha.1 h1, nodesMean_of_become cs ts' ha.2 h2, rfl⟩
  | .slot e :: cs, ts, ha, h => by
    rw [nodesAccepted] at ha
    unfold NodesBecome at h; unfold NodesMean
    exact nodesMean_of_become cs ts ha h
theorem slotsMean_of_become : (cs : List Child) → (ts : List (Ident × Toks)) → slotsAccepted cs → SlotsBecome cs ts →
    SlotsMean cs ts
  | [], ts, _, h => by unfold SlotsBecome at h; unfold SlotsMean; exact h
  | .value v :: cs, ts, ha, h => by
    rw [slotsAccepted] at ha
    unfold SlotsBecome at h; unfold SlotsMean
    exact slotsMean_of_become cs ts ha h
  | .elem e :: cs, ts, ha, h => by
    rw [slotsAccepted] at ha
    unfold SlotsBecome at h; unfold SlotsMean
    exact slotsMean_of_become cs ts ha h
  | .slot e :: cs, ts, ha, h => by
    rw [slotsAccepted] at ha
    obtain ⟨⟨name, hn, _⟩, a1, a2⟩ := ha
    have ht := slotName_iff.mp hn
    unfold SlotsBecome at h; unfold SlotsMean
    rw [ht] at h ⊢
    obtain ⟨t, ts', h1, h2, rfl⟩ := h
    exact ⟨t, ts', means_of_becomes true e t a1 h1, slotsMean_of_become cs ts' a2 h2, rfl⟩
end

end Mview
