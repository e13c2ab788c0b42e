import Verif.Spec.Ingredients
import Verif.Spec.Accept
import Verif.Lemmas.Count
/-
C83: what is written in a view is used on the page exactly once.
-/

namespace Mview.Run

variable {V : Type} {R : Rust V} {w : Ingredient V → Nat}

theorem total_flat {α β : Type} (f : β → Nat) (g : α → List β) (xs : List α) :
    total f (xs.flatMap g) = total (fun x => total f (g x)) xs := by
  induction xs with
  | nil => rfl
  | cons x xs ih => simp [ih]

theorem total_map {α β : Type} (f : β → Nat) (g : α → β) (xs : List α) :
    total f (xs.map g) = total (fun x => f (g x)) xs := by
  induction xs with
  | nil => rfl
  | cons x xs ih => simp [ih]

theorem total_none {α : Type} {f : α → Nat} {xs : List α} (h : ∀ x ∈ xs, f x = 0) : total f xs = 0 := by
  induction xs with
  | nil => rfl
  | cons x xs ih => simp [h x (by simp), ih fun y hy => h y (by simp [hy])]

/-- the weight of what is written -/
def gives (R : Rust V) (w : Ingredient V → Nat) (xs : List (Ingredient Value)) : Nat :=
  total (fun x => w (x.map (valueOf R))) xs

@[simp] theorem gives_nil : gives R w [] = 0 := rfl
@[simp] theorem gives_cons (x : Ingredient Value) (xs : List (Ingredient Value)) :
    gives R w (x :: xs) = w (x.map (valueOf R)) + gives R w xs := total_cons ..
@[simp] theorem gives_append (xs ys : List (Ingredient Value)) :
    gives R w (xs ++ ys) = gives R w xs + gives R w ys := total_append ..

/-- names have no weight -/
structure Nameless (R : Rust V) (w : Ingredient V → Nat) : Prop where
  str : ∀ s, w (.value (R.lit (.str s))) = 0
  bool : ∀ b, w (.value (R.bool b)) = 0

section
variable (hw : Nameless R w)

theorem attrLook_gives (a : KvAttr) : total w (attrLook R a).ingredients = gives R w (attrGives (.kv a)) := by
  unfold attrLook
  dsimp only
  split
  · simp [Look.ingredients, attrGives, Ingredient.map]
  split
  · simp [Look.ingredients, attrGives, Ingredient.map]
  split
  · simp [Look.ingredients, attrGives, Ingredient.map]
  · simp [Look.ingredients, attrGives, Ingredient.map]

include hw

theorem directiveLook_gives {d : Directive} {l : Look V} (h : directiveLook R d = some l) :
    total w l.ingredients = gives R w (attrGives (.directive d)) := by
  unfold directiveLook at h
  dsimp only at h
  split at h
  · cases h
    cases hv : d.value <;> simp [Look.ingredients, attrGives, Ingredient.map, hv]
  · rw [Option.bind_eq_some_iff] at h
    obtain ⟨v, hv, h⟩ := h
    split at h
    · cases h; simp [Look.ingredients, attrGives, Ingredient.map, hv, hw.str]
    split at h
    · cases h; simp [Look.ingredients, attrGives, Ingredient.map, hv, hw.str]
    split at h
    · cases h; simp [Look.ingredients, attrGives, Ingredient.map, hv, hw.str]
    split at h
    · cases h; simp [Look.ingredients, attrGives, Ingredient.map, hv]
    · cases h

theorem directiveEntry_gives {d : Directive} {l : Look V} (h : directiveEntry R d = some l) :
    total w l.ingredients = gives R w (attrGives (.directive d)) := by
  have ht : w (.value (orTrue R d.value)) = gives R w (attrGives (.directive d)) := by
    cases hv : d.value <;> simp [orTrue, attrGives, Ingredient.map, hv, hw.bool]
  unfold directiveEntry at h
  dsimp only at h
  split at h
  · cases h; simp [Look.ingredients, hw.str, ht]
  split at h
  · cases h; simp [Look.ingredients, hw.str, ht]
  split at h
  · cases h
    split
    · simp [Look.ingredients, ht]
    split
    · simp [Look.ingredients, ht]
    · simp [Look.ingredients, ht]
  split at h
  · cases h; simp [Look.ingredients, hw.str, ht]
  split at h
  · rw [Option.map_eq_some_iff] at h
    obtain ⟨v, hv, rfl⟩ := h
    simp [Look.ingredients, ht]
  split at h
  · cases h
    cases hv : d.value <;> simp [Look.ingredients, attrGives, Ingredient.map, hv]
  · cases h

theorem looks_give {sels : List Selector} {attrs : List Attr} {ls : List (Look V)} (h : looks R sels attrs = some ls) :
    total w (ls.flatMap Look.ingredients) = gives R w (attrs.flatMap attrGives) := by
  simp only [looks, Option.bind_eq_bind, Option.bind_eq_some_iff, Option.pure_def, Option.some.injEq] at h
  obtain ⟨ds, hds, rfl⟩ := h
  have h1 : total (fun l : Look V => total w l.ingredients)
      ((dots sels).map fun k => .clsIf (R.lit (.str k)) (R.bool true)) = 0 :=
    total_none fun l hl => by
      obtain ⟨k, _, rfl⟩ := List.mem_map.mp hl
      simp [Look.ingredients, hw.str, hw.bool]
  have h2 : total (fun l : Look V => total w l.ingredients)
      ((hashes sels).map fun k => .attr c!"id" (R.lit (.str k))) = 0 :=
    total_none fun l hl => by
      obtain ⟨k, _, rfl⟩ := List.mem_map.mp hl
      simp [Look.ingredients, hw.str]
  rw [total_flat]
  simp only [total_append, h1, h2, Nat.add_zero]
  clear h1 h2
  induction attrs generalizing ds with
  | nil => simp [prefixed] at hds; subst hds; rfl
  | cons a attrs ih =>
    cases a with
    | kv a =>
      have := ih _ hds
      have := attrLook_gives (R := R) (w := w) a
      simp only [unprefixed, spreadOnto, List.map_cons, total_cons, List.flatMap_cons, gives_append]
      omega
    | spread e =>
      have := ih _ hds
      simp only [unprefixed, spreadOnto, List.map_cons, total_cons, List.flatMap_cons, gives_append]
      have : total w (Look.spread e : Look V).ingredients = gives R w (attrGives (.spread e)) := by
        simp [Look.ingredients, attrGives, Ingredient.map]
      omega
    | directive d =>
      rw [prefixed, List.mapM_cons] at hds
      simp only [Option.bind_eq_bind, Option.bind_eq_some_iff, Option.pure_def, Option.some.injEq] at hds
      obtain ⟨l, hl, ds, hds, rfl⟩ := hds
      have := ih _ hds
      have := directiveLook_gives hw hl
      simp only [unprefixed, spreadOnto, total_cons, List.flatMap_cons, gives_append]
      omega

theorem entries_give {attrs : List Attr} (ha : ∀ a ∈ attrs, a.AcceptedOnComponent) {es : List (Look V)}
    (h : attrEntries R attrs = some es) :
    total (fun a => w (.value (valueOf R a.value))) (unprefixed attrs) + total w (es.flatMap Look.ingredients) =
      gives R w (attrs.flatMap attrGives) := by
  rw [total_flat]
  induction attrs generalizing es with
  | nil => simp [attrEntries] at h; subst h; rfl
  | cons a attrs ih =>
    have ih := fun {es} => ih (fun a h => ha a (by simp [h])) (es := es)
    have ha := ha a (by simp)
    cases a with
    | kv a =>
      have := ih h
      simp only [unprefixed, total_cons, List.flatMap_cons, gives_append, attrGives, gives_cons, gives_nil, Ingredient.map]
      omega
    | spread e =>
      simp only [attrEntries, Option.bind_eq_bind, Option.bind_eq_some_iff, Option.pure_def, Option.some.injEq] at h
      obtain ⟨es, h, rfl⟩ := h
      have := ih h
      simp only [unprefixed, total_cons, List.flatMap_cons, gives_append]
      have : total w (Look.spread e : Look V).ingredients = gives R w (attrGives (.spread e)) := by
        simp [Look.ingredients, attrGives, Ingredient.map]
      omega
    | directive d =>
      rw [attrEntries] at h
      split at h
      · rename_i hd
        have := ih h
        have hv : d.value = none := by
          rcases ha with h | ⟨_, h⟩
          · exact h.2.2.2
          · rw [hd] at h
            exfalso
            revert h
            simp [plain]
        simp only [unprefixed, List.flatMap_cons, gives_append, attrGives, hv]
        simpa using this
      · simp only [Option.bind_eq_bind, Option.bind_eq_some_iff, Option.pure_def, Option.some.injEq] at h
        obtain ⟨l, hl, es, h, rfl⟩ := h
        have := ih h
        have := directiveEntry_gives hw hl
        simp only [unprefixed, total_cons, List.flatMap_cons, gives_append]
        omega

theorem entryLooks_give {sels : List Selector} {attrs : List Attr} (ha : ∀ a ∈ attrs, a.AcceptedOnComponent)
    {ls : List (Look V)} (h : entryLooks R sels attrs = some ls) :
    total (fun a => w (.value (valueOf R a.value))) (unprefixed attrs) + total w (ls.flatMap Look.ingredients) =
      gives R w (attrs.flatMap attrGives) := by
  simp only [entryLooks, Option.bind_eq_bind, Option.bind_eq_some_iff, Option.pure_def, Option.some.injEq] at h
  obtain ⟨es, hes, rfl⟩ := h
  have h1 : total (fun l : Look V => total w l.ingredients)
      ((dots sels).map fun k => .clsIf (R.lit (.str k)) (R.bool true)) = 0 :=
    total_none fun l hl => by
      obtain ⟨k, _, rfl⟩ := List.mem_map.mp hl
      simp [Look.ingredients, hw.str, hw.bool]
  have h2 : total (fun l : Look V => total w l.ingredients) (if hashes sels = [] then [] else
      [.attr c!"id" (R.lit (.str ([' '].intercalate (hashes sels))))]) = 0 :=
    total_none fun l hl => by
      split at hl
      · cases hl
      · simp at hl; subst hl; simp [Look.ingredients, hw.str]
  rw [← entries_give hw ha hes, total_flat, total_flat]
  simp only [total_append, h1, h2]
  omega

end

theorem slotAttrs_give {attrs : List Attr} (ha : ∀ a ∈ attrs, a.AcceptedOnSlot) :
    total (fun a => w (.value (valueOf R a.value))) (unprefixed attrs) = gives R w (attrs.flatMap attrGives) := by
  induction attrs with
  | nil => rfl
  | cons a attrs ih =>
    have ih := ih fun a h => ha a (by simp [h])
    have ha := ha a (by simp)
    cases a with
    | kv a => simp [unprefixed, attrGives, Ingredient.map, ih]
    | spread e => exact ha.elim
    | directive d =>
      have hv : d.value = none := ha.2.2.2
      simp [unprefixed, attrGives, hv, ih]

theorem partsIngredients_append (a b : List (Part V)) :
    partsIngredients (a ++ b) = partsIngredients a ++ partsIngredients b := by
  induction a with
  | nil => simp [partsIngredients]
  | cons p a ih => simp [partsIngredients, ih]

theorem props_weigh (attrs : List Attr) : total w (partsIngredients (props R attrs)) =
    total (fun a => w (.value (valueOf R a.value))) (unprefixed attrs) := by
  unfold props
  induction unprefixed attrs with
  | nil => simp [partsIngredients]
  | cons a as ih => simp [partsIngredients, Part.ingredients, ih]

theorem clones_weigh (attrs : List Attr) : total w ((cloned attrs).map Ingredient.clone) =
    gives R w (attrs.flatMap attrClones) := by
  induction attrs with
  | nil => rfl
  | cons a attrs ih =>
    cases a with
    | kv a => simpa [cloned, attrClones] using ih
    | spread a => simpa [cloned, attrClones] using ih
    | directive d =>
      by_cases hd : d.dir = plain c!"clone" <;> simp [cloned, attrClones, hd, Ingredient.map, ih]

theorem body_weighs (tag : Tag) (hp : tag.isPath = true) (attrs : List Attr) (args : Option Toks) {cs : List Child}
    {ds : List (Dom V)} (hn : ds = [] ↔ ¬ ∃ c ∈ cs, c.isSlot = false) :
    total w (partsIngredients (body attrs args ds)) =
      gives R w (forChildren tag attrs args cs) + total w (domsIngredients ds) := by
  unfold body forChildren
  by_cases h : ds = []
  · subst h
    rw [if_pos (by rfl), if_neg fun h => hn.mp rfl h.2]
    simp [partsIngredients, domsIngredients]
  · rw [if_neg (by simpa using h), if_pos ⟨hp, Decidable.not_not.mp fun h' => h (hn.mpr h')⟩]
    have := clones_weigh (R := R) (w := w) attrs
    simp only [partsIngredients, Part.ingredients, List.append_nil, total_append, gives_append, this]
    cases args <;> simp [Ingredient.map]

theorem shown_nil : ∀ {cs : List Child} {ds : List (Dom V)}, AllShow R cs ds → (ds = [] ↔ ¬ ∃ c ∈ cs, c.isSlot = false)
  | [], ds, h => by
    unfold AllShow at h; subst h; simp
  | .value v :: cs, ds, h => by
    unfold AllShow at h
    obtain ⟨ds', _, rfl⟩ := h
    simp [Child.isSlot]
  | .elem e :: cs, ds, h => by
    unfold AllShow at h
    obtain ⟨d, ds', _, _, rfl⟩ := h
    simp [Child.isSlot]
  | .slot e :: cs, ds, h => by
    unfold AllShow at h
    have := shown_nil h
    simp [Child.isSlot] at this ⊢
    exact this

theorem domsIngredients_total (ds : List (Dom V)) :
    total w (domsIngredients ds) = total (fun d => total w d.ingredients) ds := by
  induction ds with
  | nil => simp [domsIngredients]
  | cons d ds ih => simp [domsIngredients, ih]

theorem grouped_weighs {slots : List (Ident × Dom V)} {gs : List (Part V)} (h : Grouped slots gs) :
    total w (partsIngredients gs) = total (fun p => total w p.2.ingredients) slots := by
  obtain ⟨names, hd, hm, rfl⟩ := h
  have h1 : total w (partsIngredients (names.map fun n =>
      (.slots (snakeCase n.name) ((slots.filter (·.1 = n)).map Prod.snd) : Part V))) =
      total (fun n => total (fun p => total w p.2.ingredients) (slots.filter (·.1 = n))) names := by
    clear hd hm
    induction names with
    | nil => simp [partsIngredients]
    | cons n names ih =>
      simp only [List.map_cons, partsIngredients, Part.ingredients, total_append, total_cons, ih,
        domsIngredients_total, total_map]
  rw [h1]
  clear h1
  have hin : ∀ p ∈ slots, p.1 ∈ names := fun p hp => (hm p.1).mpr (List.mem_map_of_mem hp)
  clear hm
  induction slots with
  | nil => exact total_none fun _ _ => rfl
  | cons p slots ih =>
    have h2 : (fun n => total (fun p => total w p.2.ingredients) ((p :: slots).filter (·.1 = n))) =
        fun n => (if p.1 = n then total w p.2.ingredients else 0) +
          total (fun p => total w p.2.ingredients) (slots.filter (·.1 = n)) := by
      funext n
      by_cases hi : p.1 = n <;> simp [hi]
    rw [h2, total_add, ih fun q hq => hin q (by simp [hq]), total_one hd (hin p (by simp)), total_cons]

/-- what is written in children that are not slots -/
def nodesGive : List Child → List (Ingredient Value)
  | [] => []
  | .value v :: cs => .value v :: nodesGive cs
  | .elem e :: cs => elementGives false e ++ nodesGive cs
  | .slot _ :: cs => nodesGive cs
/-- what is written in slots -/
def slotsGive : List Child → List (Ingredient Value)
  | [] => []
  | .value _ :: cs => slotsGive cs
  | .elem _ :: cs => slotsGive cs
  | .slot e :: cs => elementGives true e ++ slotsGive cs

theorem childrenGive_split (inside : Bool) (cs : List Child) : gives R w (childrenGive inside cs) =
    gives R w (nodesGive cs) + gives R w (if inside then slotsGive cs else []) := by
  induction cs with
  | nil => cases inside <;> simp [childrenGive, nodesGive, slotsGive]
  | cons c cs ih =>
    cases c <;> cases inside <;> simp [childrenGive, nodesGive, slotsGive] at ih ⊢ <;> omega

mutual
theorem shows_give (hw : Nameless R w) : ∀ (e : Element) (d : Dom V), e.Accepted false → Shows R e d →
    total w d.ingredients = gives R w (elementGives false e)
  | .mk tag sels attrs args none, d, ha, h => by
    cases tag with
    | component p =>
      unfold Shows at h
      obtain ⟨path, ls, ds, slots, gs, _, h2, h3, h4, h5, rfl⟩ := h
      unfold BlockShows at h3
      unfold BlockSlots at h4
      subst h3 h4
      unfold Element.Accepted at ha
      have h6 := entryLooks_give hw ha.2 h2
      have h7 := grouped_weighs (w := w) h5
      have h8 := props_weigh (R := R) (w := w) attrs
      simp only [Dom.ingredients, partsIngredients_append, total_append, elementGives, body, List.isEmpty_nil, if_true,
        partsIngredients, total_nil] at h7 ⊢
      omega
    | html i | svg i | math i | webComponent i =>
      unfold Shows at h
      obtain ⟨space, name, ls, ds, _, h2, h3, rfl⟩ := h
      unfold BlockShows at h3
      subst h3
      simp [Dom.ingredients, elementGives, domsIngredients, looks_give hw h2]
  | .mk tag sels attrs args (some cs), d, ha, h => by
    have hsp := fun b => childrenGive_split (R := R) (w := w) b cs
    cases tag with
    | component p =>
      unfold Shows at h
      obtain ⟨path, ls, ds, slots, gs, _, h2, h3, h4, h5, rfl⟩ := h
      unfold BlockShows at h3
      unfold BlockSlots at h4
      unfold Element.Accepted at ha
      have h6 := entryLooks_give hw ha.2.1 h2
      have h7 := grouped_weighs (w := w) h5
      have h8 := props_weigh (R := R) (w := w) attrs
      have h9 := body_weighs (R := R) (w := w) (.component p) rfl attrs args (shown_nil h3)
      have h10 := allShow_gives hw cs ds ha.2.2.1 h3
      have h11 := slotsShow_give hw cs slots ha.2.2.2 h4
      simp only [Dom.ingredients, partsIngredients_append, total_append, elementGives, gives_append, hsp, Tag.isPath,
        Bool.not_false, Bool.and_self, if_true]
      omega
    | html i | svg i | math i | webComponent i =>
      unfold Shows at h
      obtain ⟨space, name, ls, ds, _, h2, h3, rfl⟩ := h
      unfold BlockShows at h3
      unfold Element.Accepted at ha
      have h10 := allShow_gives hw cs ds ha.2 h3
      simp [Dom.ingredients, elementGives, looks_give hw h2, hsp, Tag.isPath, forChildren, h10]

theorem slotShows_give (hw : Nameless R w) : ∀ (e : Element) (name : Ident) (d : Dom V), e.Accepted true →
    SlotShows R e name d → total w d.ingredients = gives R w (elementGives true e)
  | .mk tag sels attrs args none, name, d, ha, h => by
    unfold SlotShows at h
    obtain ⟨ds, h3, rfl⟩ := h
    unfold BlockShows at h3
    subst h3
    have h8 := props_weigh (R := R) (w := w) attrs
    cases tag with
    | component p =>
      unfold Element.Accepted at ha
      have h6 := slotAttrs_give (R := R) (w := w) ha.2.2
      simp only [Dom.ingredients, partsIngredients_append, total_append, elementGives, body, List.isEmpty_nil, if_true,
        partsIngredients, total_nil]
      omega
    | html i | svg i | math i | webComponent i => unfold Element.Accepted at ha; exact ha.elim
  | .mk tag sels attrs args (some cs), name, d, ha, h => by
    have hsp := fun b => childrenGive_split (R := R) (w := w) b cs
    unfold SlotShows at h
    obtain ⟨ds, h3, rfl⟩ := h
    unfold BlockShows at h3
    have h8 := props_weigh (R := R) (w := w) attrs
    cases tag with
    | component p =>
      unfold Element.Accepted at ha
      have h6 := slotAttrs_give (R := R) (w := w) ha.2.2.1
      have h9 := body_weighs (R := R) (w := w) (.component p) rfl attrs args (shown_nil h3)
      have h10 := allShow_gives hw cs ds ha.2.2.2.1 h3
      simp only [Dom.ingredients, partsIngredients_append, total_append, elementGives, gives_append, hsp, Tag.isPath,
        Bool.not_true, Bool.and_false, Bool.false_eq_true, if_false, gives_nil]
      omega
    | html i | svg i | math i | webComponent i => unfold Element.Accepted at ha; exact ha.elim

theorem allShow_gives (hw : Nameless R w) : ∀ (cs : List Child) (ds : List (Dom V)), nodesAccepted cs → AllShow R cs ds →
    total w (domsIngredients ds) = gives R w (nodesGive cs)
  | [], ds, _, h => by
    unfold AllShow at h; subst h; simp [domsIngredients, nodesGive]
  | .value v :: cs, ds, ha, h => by
    unfold AllShow at h
    unfold nodesAccepted at ha
    obtain ⟨ds', h1, rfl⟩ := h
    simp [domsIngredients, nodesGive, Dom.ingredients, Ingredient.map, allShow_gives hw cs ds' ha.2 h1]
  | .elem e :: cs, ds, ha, h => by
    unfold AllShow at h
    unfold nodesAccepted at ha
    obtain ⟨d, ds', h1, h2, rfl⟩ := h
    simp [domsIngredients, nodesGive, shows_give hw e d ha.1 h1, allShow_gives hw cs ds' ha.2 h2]
  | .slot e :: cs, ds, ha, h => by
    unfold AllShow at h
    unfold nodesAccepted at ha
    exact allShow_gives hw cs ds ha h

theorem slotsShow_give (hw : Nameless R w) : ∀ (cs : List Child) (ss : List (Ident × Dom V)), slotsAccepted cs →
    SlotsShow R cs ss → total (fun p => total w p.2.ingredients) ss = gives R w (slotsGive cs)
  | [], ss, _, h => by
    unfold SlotsShow at h; subst h; simp [slotsGive]
  | .value v :: cs, ss, ha, h => by
    unfold SlotsShow at h
    unfold slotsAccepted at ha
    exact slotsShow_give hw cs ss ha h
  | .elem e :: cs, ss, ha, h => by
    unfold SlotsShow at h
    unfold slotsAccepted at ha
    exact slotsShow_give hw cs ss ha h
  | .slot e :: cs, ss, ha, h => by
    unfold SlotsShow at h
    unfold slotsAccepted at ha
    obtain ⟨name, d, ss', _, h1, h2, rfl⟩ := h
    simp [slotsGive, slotShows_give hw e name d ha.2.1 h1, slotsShow_give hw cs ss' ha.2.2 h2]
end

end Mview.Run
