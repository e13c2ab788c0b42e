import Verif.Spec.Longhand
import Verif.Spec.Accept
/-
Writing a tree in full does not change what it shows, nor whether it is accepted.
-/

-- the linter does not see variables used inside `q!"..."`
set_option linter.unusedVariables false

namespace Mview.Run
open Lex

variable {V : Type} {R : Rust V}

/-! ### names -/

theorem underscores_twice (s : Str) :
    (s.map fun c => if c = '-' then '_' else c).map (fun c => if c = '-' then '_' else c) =
      s.map fun c => if c = '-' then '_' else c := by
  rw [List.map_map]
  apply List.map_congr_left
  intro c _
  simp only [Function.comp_apply]
  by_cases h : c = '-'
  · rw [if_pos h]; rfl
  · rw [if_neg h, if_neg h]

theorem rustName_under (k : KebabIdent) : rustName (.kebab (underscored k)) = rustName (.kebab k) :=
  underscores_twice k.repr

theorem rustName_long (k : KebabOrStr) : rustName (longKey k) = rustName k := by
  cases k with
  | kebab k => exact rustName_under k
  | str s => rfl

/-! ### values -/

theorem valueOf_long (hR : R.Plain) (v : Value) : valueOf R (longValue v) = valueOf R v := by
  cases v with
  | lit l =>
    cases l with
    | tok l =>
      simp only [longValue]
      split
      · rfl
      · exact hR.lit l
    | bool b => exact hR.bool b
  | block code =>
    simp only [longValue, valueOf]
    unfold longBlockCode
    split
    · split
      · rfl
      · rename_i h; exact (hR.raw _ h).symm
    · rfl
  | bracket p code =>
    cases p with
    | none => exact hR.lazy code
    | some p =>
      simp only [longValue]
      split
      · exact hR.format code
      · rfl

/-! ### attributes -/

theorem attrLook_long (hR : R.Plain) (a : KvAttr) : attrLook R ⟨a.key, longValue a.value⟩ = attrLook R a := by
  simp only [attrLook, valueOf_long hR]

theorem unprefixed_long (hR : R.Plain) : ∀ attrs : List Attr,
    (unprefixed (attrs.map longOnElement)).map (attrLook R) = (unprefixed attrs).map (attrLook R)
  | [] => rfl
  | .kv a :: r => by
    simp only [List.map_cons, longOnElement, unprefixed, attrLook_long hR]
    rw [unprefixed_long hR r]
  | .directive d :: r => by
    simp only [List.map_cons, longOnElement, unprefixed]
    exact unprefixed_long hR r
  | .spread e :: r => by
    simp only [List.map_cons, longOnElement, unprefixed]
    exact unprefixed_long hR r

theorem spreadOnto_long : ∀ attrs : List Attr, spreadOnto (attrs.map longOnElement) = spreadOnto attrs
  | [] => rfl
  | .kv a :: r => by simp only [List.map_cons, longOnElement, spreadOnto]; exact spreadOnto_long r
  | .directive d :: r => by simp only [List.map_cons, longOnElement, spreadOnto]; exact spreadOnto_long r
  | .spread e :: r => by simp only [List.map_cons, longOnElement, spreadOnto]; rw [spreadOnto_long r]

theorem map_value_long (hR : R.Plain) (v : Option Value) :
    (v.map longValue).map (valueOf R) = v.map (valueOf R) := by
  cases v with
  | none => rfl
  | some v => exact congrArg some (valueOf_long hR v)

theorem plain_ne {a b : Str} (h : a ≠ b) : plain a ≠ plain b := fun he => h (by cases he; rfl)

theorem directiveLook_long (hR : R.Plain) (d : Directive) :
    directiveLook R ⟨d.dir, if d.dir = plain c!"on" ∨ d.dir = plain c!"use" then longKey d.key else d.key, d.modifier,
      d.value.map longValue⟩ = directiveLook R d := by
  obtain ⟨dir, key, m, v⟩ := d
  simp only [directiveLook]
  by_cases hu : dir = plain c!"use"
  · rw [if_pos hu, if_pos hu, if_pos (Or.inr hu), rustName_long, map_value_long hR]
  · rw [if_neg hu, if_neg hu]
    cases v with
    | none => rfl
    | some v =>
      simp only [Option.map_some, Option.bind_some, valueOf_long hR]
      by_cases ho : dir = plain c!"on"
      · subst ho
        simp [rustName_long, plain]
      · simp only [ho, hu, or_self, if_false]

theorem prefixed_long (hR : R.Plain) : ∀ attrs : List Attr,
    (prefixed (attrs.map longOnElement)).mapM (directiveLook R) = (prefixed attrs).mapM (directiveLook R)
  | [] => rfl
  | .kv a :: r => by simp only [List.map_cons, longOnElement, prefixed]; exact prefixed_long hR r
  | .directive d :: r => by
    simp only [List.map_cons, longOnElement, prefixed]
    rw [List.mapM_cons, List.mapM_cons, directiveLook_long hR, prefixed_long hR r]
  | .spread e :: r => by simp only [List.map_cons, longOnElement, prefixed]; exact prefixed_long hR r

theorem looks_long (hR : R.Plain) (sels : List Selector) (attrs : List Attr) :
    looks R sels (attrs.map longOnElement) = looks R sels attrs := by
  simp only [looks, prefixed_long hR, unprefixed_long hR, spreadOnto_long]

theorem orTrue_long (hR : R.Plain) (v : Option Value) :
    orTrue R (some (longValue (v.getD (.lit (.bool true))))) = orTrue R v := by
  cases v with
  | none => exact valueOf_long hR (.lit (.bool true))
  | some v => exact valueOf_long hR v

theorem orTrue_map (hR : R.Plain) (v : Option Value) : orTrue R (v.map longValue) = orTrue R v := by
  cases v with
  | none => rfl
  | some v => exact valueOf_long hR v

/-- The directive of a component in full. -/
def longDirective (d : Directive) : Directive :=
  if d.dir = plain c!"class" ∨ d.dir = plain c!"style" ∨ d.dir = plain c!"attr" then
    ⟨d.dir, d.key, d.modifier, some (longValue (d.value.getD (.lit (.bool true))))⟩
  else if d.dir = plain c!"prop" then
    ⟨d.dir, longKey d.key, d.modifier, some (longValue (d.value.getD (.lit (.bool true))))⟩
  else ⟨d.dir, longKey d.key, d.modifier, d.value.map longValue⟩

theorem longOnComponent_directive (d : Directive) : longOnComponent (.directive d) = .directive (longDirective d) := by
  simp only [longOnComponent, longDirective]
  split
  · rfl
  · split <;> rfl

theorem longDirective_dir (d : Directive) : (longDirective d).dir = d.dir := by
  simp only [longDirective]
  split
  · rfl
  · split <;> rfl

theorem directiveEntry_long (hR : R.Plain) (d : Directive) : directiveEntry R (longDirective d) = directiveEntry R d := by
  obtain ⟨dir, key, m, v⟩ := d
  simp only [longDirective]
  by_cases h1 : dir = plain c!"class" ∨ dir = plain c!"style" ∨ dir = plain c!"attr"
  · rw [if_pos h1]
    rcases h1 with rfl | rfl | rfl <;> simp [directiveEntry, orTrue_long hR, plain]
  · rw [if_neg h1]
    simp only [not_or] at h1
    obtain ⟨h1, h2, h3⟩ := h1
    by_cases h4 : dir = plain c!"prop"
    · subst h4
      simp [directiveEntry, orTrue_long hR, plain, rustName_long]
    · rw [if_neg h4]
      simp only [directiveEntry, if_neg h1, if_neg h2, if_neg h3, if_neg h4, rustName_long, map_value_long hR,
        orTrue_map hR]
      cases v <;> rfl

theorem attrEntries_long (hR : R.Plain) : ∀ attrs : List Attr,
    attrEntries R (attrs.map longOnComponent) = attrEntries R attrs
  | [] => rfl
  | .kv a :: r => by simp only [List.map_cons, longOnComponent, attrEntries]; exact attrEntries_long hR r
  | .spread e :: r => by simp only [List.map_cons, longOnComponent, attrEntries, attrEntries_long hR r]
  | .directive d :: r => by
    simp only [List.map_cons, longOnComponent_directive, attrEntries, longDirective_dir, directiveEntry_long hR,
      attrEntries_long hR r]

theorem cloned_long : ∀ attrs : List Attr, cloned (attrs.map longOnComponent) = cloned attrs
  | [] => rfl
  | .kv a :: r => by simp only [List.map_cons, longOnComponent, cloned]; exact cloned_long r
  | .spread e :: r => by simp only [List.map_cons, longOnComponent, cloned]; exact cloned_long r
  | .directive d :: r => by
    simp only [List.map_cons, longOnComponent_directive, cloned, longDirective_dir, cloned_long r]
    split
    · rename_i h
      have : longDirective d = ⟨d.dir, longKey d.key, d.modifier, d.value.map longValue⟩ := by
        simp only [longDirective]
        rw [if_neg (by rw [h]; simp [plain]), if_neg (by rw [h]; simp [plain])]
      rw [this, rustName_long]
    · rfl

theorem props_long (hR : R.Plain) : ∀ attrs : List Attr, props R (attrs.map longOnComponent) = props R attrs
  | [] => rfl
  | .kv a :: r => by
    have := props_long hR r
    simp only [props] at this
    simp only [List.map_cons, longOnComponent, props, unprefixed, rustName_under, valueOf_long hR, this]
  | .spread e :: r => by
    have := props_long hR r
    simp only [props] at this
    simp only [List.map_cons, longOnComponent, props, unprefixed, this]
  | .directive d :: r => by
    have := props_long hR r
    simp only [props] at this
    simp only [List.map_cons, longOnComponent_directive, props, unprefixed, this]

theorem entryLooks_long (hR : R.Plain) (sels : List Selector) (attrs : List Attr) :
    entryLooks R sels (attrs.map longOnComponent) = entryLooks R sels attrs := by
  simp only [entryLooks, attrEntries_long hR]

theorem body_long (attrs : List Attr) (args : Option Toks) (ds : List (Dom V)) :
    body (attrs.map longOnComponent) args ds = body attrs args ds := by
  simp only [body, cloned_long]

/-! ### the tree -/

theorem long_tag (e : Element) : (longElement e).tag = e.tag := by
  cases e; rfl

mutual
theorem shows_long (hR : R.Plain) : ∀ (e : Element) (d : Dom V), Shows R (longElement e) d ↔ Shows R e d
  | .mk tag sels attrs args block, d => by
    cases tag <;>
      simp only [longElement, longAttrs, Shows, looks_long hR, entryLooks_long hR, props_long hR, body_long,
        blockShows_long hR block, blockSlots_long hR block]
theorem slotShows_long (hR : R.Plain) : ∀ (e : Element) (name : Ident) (d : Dom V), (∃ p, e.tag = .component p) →
    (SlotShows R (longElement e) name d ↔ SlotShows R e name d)
  | .mk tag sels attrs args block, name, d, ⟨p, hp⟩ => by
    simp only [Element.tag] at hp
    subst hp
    simp only [longElement, longAttrs, SlotShows, props_long hR, body_long, blockShows_long hR block]
theorem blockShows_long (hR : R.Plain) : ∀ (b : Option (List Child)) (ds : List (Dom V)),
    BlockShows R (longBlock b) ds ↔ BlockShows R b ds
  | none, ds => by simp only [longBlock]
  | some cs, ds => by simp only [longBlock, BlockShows, allShow_long hR cs]
theorem blockSlots_long (hR : R.Plain) : ∀ (b : Option (List Child)) (ds : List (Ident × Dom V)),
    BlockSlots R (longBlock b) ds ↔ BlockSlots R b ds
  | none, ds => by simp only [longBlock]
  | some cs, ds => by simp only [longBlock, BlockSlots, slotsShow_long hR cs]
theorem allShow_long (hR : R.Plain) : ∀ (cs : List Child) (ds : List (Dom V)), AllShow R (longhand cs) ds ↔ AllShow R cs ds
  | [], ds => by simp only [longhand]
  | .value v :: cs, ds => by simp only [longhand, AllShow, valueOf_long hR, allShow_long hR cs]
  | .elem e :: cs, ds => by simp only [longhand, AllShow, shows_long hR e, allShow_long hR cs]
  | .slot e :: cs, ds => by simp only [longhand, AllShow, allShow_long hR cs]
theorem slotsShow_long (hR : R.Plain) : ∀ (cs : List Child) (ds : List (Ident × Dom V)),
    SlotsShow R (longhand cs) ds ↔ SlotsShow R cs ds
  | [], ds => by simp only [longhand]
  | .value v :: cs, ds => by simp only [longhand, SlotsShow, slotsShow_long hR cs]
  | .elem e :: cs, ds => by simp only [longhand, SlotsShow, slotsShow_long hR cs]
  | .slot e :: cs, ds => by
    simp only [longhand, SlotsShow, long_tag, slotsShow_long hR cs]
    constructor
    · rintro ⟨name, d, ds', h1, h2, h3⟩
      exact ⟨name, d, ds', h1, (slotShows_long hR e name d ⟨_, h1⟩).mp h2, h3⟩
    · rintro ⟨name, d, ds', h1, h2, h3⟩
      exact ⟨name, d, ds', h1, (slotShows_long hR e name d ⟨_, h1⟩).mpr h2, h3⟩
end

/-! ### usual names -/

theorem kv_in_element {attrs : List Attr} {P : KvAttr → Prop} (hP : ∀ a, P ⟨a.key, longValue a.value⟩ ↔ P a) :
    (∀ a, .kv a ∈ attrs.map longOnElement → P a) ↔ ∀ a, .kv a ∈ attrs → P a := by
  constructor
  · intro h a ha
    exact (hP a).mp (h _ (List.mem_map.mpr ⟨_, ha, rfl⟩))
  · intro h a ha
    obtain ⟨x, hx, he⟩ := List.mem_map.mp ha
    cases x <;> cases he
    exact (hP _).mpr (h _ hx)

theorem directive_in_element {attrs : List Attr} : (∀ d, .directive d ∈ attrs.map longOnElement → directiveUsual d) ↔
    ∀ d, .directive d ∈ attrs → directiveUsual d := by
  constructor
  · intro h d hd
    have := h _ (List.mem_map.mpr ⟨_, hd, rfl⟩)
    simpa [directiveUsual] using this
  · intro h d hd
    obtain ⟨x, hx, he⟩ := List.mem_map.mp hd
    cases x <;> cases he
    have := h _ hx
    simpa [directiveUsual] using this

theorem propUsual_long (a : KvAttr) : propUsual ⟨underscored a.key, longValue a.value⟩ ↔ propUsual a := by
  simp only [propUsual, rustName_under]

theorem kv_in_component {attrs : List Attr} : (∀ a, .kv a ∈ attrs.map longOnComponent → propUsual a) ↔
    ∀ a, .kv a ∈ attrs → propUsual a := by
  constructor
  · intro h a ha
    exact (propUsual_long a).mp (h _ (List.mem_map.mpr ⟨_, ha, rfl⟩))
  · intro h a ha
    obtain ⟨x, hx, he⟩ := List.mem_map.mp ha
    cases x with
    | kv a => cases he; exact (propUsual_long _).mpr (h _ hx)
    | directive d => rw [longOnComponent_directive] at he; cases he
    | spread e => cases he

theorem entryUsual_long (a : Attr) : entryUsual (longOnComponent a) ↔ entryUsual a := by
  cases a with
  | kv a => rfl
  | spread e => rfl
  | directive d =>
    rw [longOnComponent_directive]
    obtain ⟨dir, key, m, v⟩ := d
    simp only [longDirective]
    by_cases h1 : dir = plain c!"class" ∨ dir = plain c!"style" ∨ dir = plain c!"attr"
    · rw [if_pos h1]
      rcases h1 with rfl | rfl | rfl <;> simp [entryUsual, plain]
    · rw [if_neg h1]
      simp only [not_or] at h1
      by_cases h4 : dir = plain c!"prop"
      · subst h4
        simp [entryUsual, plain]
      · rw [if_neg h4]
        simp [entryUsual, h1]

theorem entries_in_component {attrs : List Attr} : (∀ a ∈ attrs.map longOnComponent, entryUsual a) ↔
    ∀ a ∈ attrs, entryUsual a := by
  simp only [List.forall_mem_map, entryUsual_long]

mutual
theorem usual_long : ∀ e : Element, Usual (longElement e) ↔ Usual e
  | .mk tag sels attrs args block => by
    have hk := fun kind => kv_in_element (attrs := attrs) (P := attrUsual kind) fun a => Iff.rfl
    cases tag <;>
      simp only [longElement, longAttrs, Usual, blockUsual_long block, kv_in_component, entries_in_component, hk,
        directive_in_element]
theorem blockUsual_long : ∀ b : Option (List Child), BlockUsual (longBlock b) ↔ BlockUsual b
  | none => by simp only [longBlock]
  | some cs => by simp only [longBlock, BlockUsual, allUsual_long cs]
theorem allUsual_long : ∀ cs : List Child, AllUsual (longhand cs) ↔ AllUsual cs
  | [] => by simp only [longhand]
  | .value v :: cs => by simp only [longhand, AllUsual, allUsual_long cs]
  | .elem e :: cs => by simp only [longhand, AllUsual, usual_long e, allUsual_long cs]
  | .slot e :: cs => by simp only [longhand, AllUsual, slotUsual, long_tag, usual_long e, allUsual_long cs]
end

/-! ### what is accepted -/

theorem accepted_value (v : Value) : (longValue v).Accepted ↔ v.Accepted := by
  cases v with
  | lit l =>
    cases l with
    | tok l =>
      simp only [longValue]
      split <;> simp [Value.Accepted]
    | bool b => simp [longValue, Value.Accepted]
  | block code => simp [longValue, Value.Accepted]
  | bracket p code =>
    cases p with
    | none => simp [longValue, Value.Accepted]
    | some p =>
      simp only [longValue]
      split
      · rename_i h; simp [Value.Accepted, h]
      · rfl

theorem accepted_opt (v : Option Value) : optAccepted (v.map longValue) ↔ optAccepted v := by
  cases v with
  | none => simp [optAccepted]
  | some v => simp [optAccepted, accepted_value]

theorem accepted_orTrue (v : Option Value) :
    optAccepted (some (longValue (v.getD (.lit (.bool true))))) ↔ optAccepted v := by
  cases v with
  | none => simp [optAccepted, longValue, Value.Accepted]
  | some v => simp [optAccepted, accepted_value]

theorem identlike_under (k : KebabIdent) : Str.Identlike (underscored k).repr ↔ Str.Identlike k.repr := by
  simp only [Str.Identlike, underscored, underscores_twice]

theorem identKey_long (k : KebabOrStr) : (longKey k).IdentKey ↔ k.IdentKey := by
  cases k with
  | kebab k => exact identlike_under k
  | str s => rfl

theorem accepted_onElement (kind : TagKind) (a : Attr) :
    (longOnElement a).AcceptedOnElement kind ↔ a.AcceptedOnElement kind := by
  cases a with
  | kv a => simp only [longOnElement, Attr.AcceptedOnElement, KvAttr.AcceptedOnElement, accepted_value]
  | spread e => rfl
  | directive d =>
    obtain ⟨dir, key, m, v⟩ := d
    simp only [longOnElement, Attr.AcceptedOnElement, Directive.AcceptedOnElement, accepted_opt]
    by_cases h : dir = plain c!"on" ∨ dir = plain c!"use"
    · rw [if_pos h, identKey_long]
    · rw [if_neg h]

theorem accepted_directive (d : Directive) : (longDirective d).AcceptedOnComponent ↔ d.AcceptedOnComponent := by
  obtain ⟨dir, key, m, v⟩ := d
  simp only [longDirective]
  by_cases h1 : dir = plain c!"class" ∨ dir = plain c!"style" ∨ dir = plain c!"attr"
  · rw [if_pos h1]
    rcases h1 with rfl | rfl | rfl <;> simp [Directive.AcceptedOnComponent, accepted_orTrue, plain]
  · rw [if_neg h1]
    simp only [not_or] at h1
    by_cases h4 : dir = plain c!"prop"
    · subst h4
      simp [Directive.AcceptedOnComponent, accepted_orTrue, plain, identKey_long]
    · rw [if_neg h4]
      simp [Directive.AcceptedOnComponent, accepted_opt, identKey_long, h1, h4]

theorem accepted_onComponent (a : Attr) : (longOnComponent a).AcceptedOnComponent ↔ a.AcceptedOnComponent := by
  cases a with
  | kv a =>
    simp only [longOnComponent, Attr.AcceptedOnComponent, KvAttr.AcceptedOnComponent, accepted_value, identlike_under]
  | spread e => rfl
  | directive d =>
    rw [longOnComponent_directive]
    exact accepted_directive d

theorem accepted_onSlot (a : Attr) : (longOnComponent a).AcceptedOnSlot ↔ a.AcceptedOnSlot := by
  cases a with
  | kv a => simp only [longOnComponent, Attr.AcceptedOnSlot, KvAttr.AcceptedOnComponent, accepted_value, identlike_under]
  | spread e => rfl
  | directive d =>
    rw [longOnComponent_directive]
    obtain ⟨dir, key, m, v⟩ := d
    by_cases h : dir = plain c!"clone"
    · subst h
      simp [longDirective, Attr.AcceptedOnSlot, Directive.AcceptedOnSlot, plain, identKey_long]
    · simp only [Attr.AcceptedOnSlot, Directive.AcceptedOnSlot, longDirective_dir]
      simp [h]

theorem all_onElement (kind : TagKind) (attrs : List Attr) : (∀ a ∈ attrs.map longOnElement, a.AcceptedOnElement kind) ↔
    ∀ a ∈ attrs, a.AcceptedOnElement kind := by
  simp only [List.forall_mem_map, accepted_onElement]
theorem all_onComponent (attrs : List Attr) : (∀ a ∈ attrs.map longOnComponent, a.AcceptedOnComponent) ↔
    ∀ a ∈ attrs, a.AcceptedOnComponent := by
  simp only [List.forall_mem_map, accepted_onComponent]
theorem all_onSlot (attrs : List Attr) : (∀ a ∈ attrs.map longOnComponent, a.AcceptedOnSlot) ↔
    ∀ a ∈ attrs, a.AcceptedOnSlot := by
  simp only [List.forall_mem_map, accepted_onSlot]

theorem slotName_long (e : Element) : (longElement e).slotName = e.slotName := by
  simp only [Element.slotName, long_tag]

mutual
theorem element_accepted_long (asSlot : Bool) : ∀ e : Element, (longElement e).Accepted asSlot ↔ e.Accepted asSlot
  | .mk tag sels attrs args none => by
    cases tag <;> cases asSlot <;>
      simp only [longElement, longAttrs, longBlock, Element.Accepted, all_onElement, all_onComponent, all_onSlot]
  | .mk tag sels attrs args (some cs) => by
    cases tag <;> cases asSlot <;>
      simp only [longElement, longAttrs, longBlock, Element.Accepted, all_onElement, all_onComponent, all_onSlot,
        nodes_accepted_long cs, slots_accepted_long cs]
theorem nodes_accepted_long : ∀ cs : List Child, nodesAccepted (longhand cs) ↔ nodesAccepted cs
  | [] => by simp only [longhand]
  | .value v :: cs => by simp only [longhand, nodesAccepted, accepted_value, nodes_accepted_long cs]
  | .elem e :: cs => by simp only [longhand, nodesAccepted, element_accepted_long false e, nodes_accepted_long cs]
  | .slot e :: cs => by simp only [longhand, nodesAccepted, nodes_accepted_long cs]
theorem slots_accepted_long : ∀ cs : List Child, slotsAccepted (longhand cs) ↔ slotsAccepted cs
  | [] => by simp only [longhand]
  | .value v :: cs => by simp only [longhand, slotsAccepted, slots_accepted_long cs]
  | .elem e :: cs => by simp only [longhand, slotsAccepted, slots_accepted_long cs]
  | .slot e :: cs => by
    simp only [longhand, slotsAccepted, slotName_long, element_accepted_long true e, slots_accepted_long cs]
end

theorem isSlot_long : ∀ cs : List Child, (∀ c ∈ longhand cs, c.isSlot = false) ↔ ∀ c ∈ cs, c.isSlot = false
  | [] => by simp only [longhand]
  | .value v :: cs => by
    simp only [longhand, List.forall_mem_cons, isSlot_long cs]; exact Iff.rfl
  | .elem e :: cs => by
    simp only [longhand, List.forall_mem_cons, isSlot_long cs]; exact Iff.rfl
  | .slot e :: cs => by
    simp only [longhand, List.forall_mem_cons, isSlot_long cs]; exact Iff.rfl

theorem root_accepted_long (cs : List Child) : rootAccepted (longhand cs) ↔ rootAccepted cs := by
  simp only [rootAccepted, isSlot_long, nodes_accepted_long]

end Mview.Run
