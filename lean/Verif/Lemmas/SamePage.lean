import Verif.Spec.SamePage
/-
What a tree shows is determined, up to the order of slots.
-/

namespace Mview.Run

variable {V : Type} {R : Rust V}

theorem partsSame_append {b' b : List (Part V)} (hb : PartsSame b' b) :
    ∀ {a' a : List (Part V)}, PartsSame a' a → PartsSame (a' ++ b') (a ++ b) := by
  intro a' a h
  match h with
  | .nil => exact hb
  | .cons hp h => exact .cons hp (partsSame_append hb h)

theorem props_same : ∀ A : List KvAttr,
    PartsSame (A.map fun a => Part.prop (rustName (.kebab a.key)) (valueOf R a.value))
      (A.map fun a => .prop (rustName (.kebab a.key)) (valueOf R a.value))
  | [] => .nil
  | _ :: A => .cons (.prop _ _) (props_same A)

theorem body_same {A : List Attr} {g : Option Toks} {ds' ds : List (Dom V)} (hd : AllSame ds' ds) :
    PartsSame (body A g ds') (body A g ds) := by
  unfold body
  cases hd with
  | nil => exact .nil
  | cons hd h => exact .cons (.children (.cons hd h)) .nil

/-- the same slots with the same names -/
inductive PairsSame : List (Ident × Dom V) → List (Ident × Dom V) → Prop
  | nil : PairsSame [] []
  | cons {n : Ident} {d' d : Dom V} {ss' ss : List (Ident × Dom V)} (hd : Same d' d) (h : PairsSame ss' ss) :
    PairsSame ((n, d') :: ss') ((n, d) :: ss)

theorem PairsSame.names {ss' ss : List (Ident × Dom V)} (h : PairsSame ss' ss) :
    ss'.map Prod.fst = ss.map Prod.fst := by
  induction h with
  | nil => rfl
  | cons hd h ih => rw [List.map_cons, List.map_cons, ih]

theorem PairsSame.filter {ss' ss : List (Ident × Dom V)} (h : PairsSame ss' ss) (n : Ident) :
    AllSame ((ss'.filter (·.1 = n)).map Prod.snd) ((ss.filter (·.1 = n)).map Prod.snd) := by
  induction h with
  | nil => exact .nil
  | @cons m d' d ss' ss hd h ih =>
    by_cases hp : m = n
    · rw [List.filter_cons_of_pos (by simpa using hp), List.filter_cons_of_pos (by simpa using hp)]
      exact .cons hd ih
    · rw [List.filter_cons_of_neg (by simpa using hp), List.filter_cons_of_neg (by simpa using hp)]; exact ih

theorem groups_same {ss' ss : List (Ident × Dom V)} (h : PairsSame ss' ss) : ∀ names : List Ident,
    PartsSame (names.map fun n => .slots (snakeCase n.name) ((ss'.filter (·.1 = n)).map Prod.snd))
      (names.map fun n => .slots (snakeCase n.name) ((ss.filter (·.1 = n)).map Prod.snd))
  | [] => .nil
  | n :: names => .cons (.slots (h.filter n)) (groups_same h names)

theorem grouped_same {ss' ss : List (Ident × Dom V)} {gs' gs : List (Part V)} (h : PairsSame ss' ss)
    (hg' : Grouped ss' gs') (hg : Grouped ss gs) : ∃ gs₁, PartsSame gs' gs₁ ∧ gs₁.Perm gs ∧
      ∀ p ∈ gs, p.isSlots = true := by
  obtain ⟨names', n1', n2', rfl⟩ := hg'
  obtain ⟨names, n1, n2, rfl⟩ := hg
  refine ⟨_, groups_same h names', List.Perm.map _ ((List.perm_ext_iff_of_nodup n1' n1).mpr fun n => ?_), ?_⟩
  · rw [n2' n, n2 n, h.names]
  · intro p hp
    obtain ⟨n, -, rfl⟩ := List.mem_map.mp hp
    rfl

mutual
theorem shows_same : ∀ (e : Element) (d' d : Dom V), Shows R e d' → Shows R e d → Same d' d
  | .mk (.component p) sels attrs args block, d', d, h', h => by
    simp only [Shows] at h h'
    obtain ⟨path, ls, ds, slots, gs, a1, a2, a3, a4, a5, rfl⟩ := h
    obtain ⟨path', ls', ds', slots', gs', b1, b2, b3, b4, b5, rfl⟩ := h'
    rw [a1] at b1; cases b1
    rw [a2] at b2; cases b2
    obtain ⟨gs₁, g1, g2, g3⟩ := grouped_same (blockSlots_same block _ _ b4 a4) b5 a5
    exact .comp (partsSame_append g1 (partsSame_append (body_same (blockShows_same block _ _ b3 a3))
      (props_same (unprefixed attrs)))) g2 g3
  | .mk (.html i) sels attrs args block, d', d, h', h => by
    simp only [Shows] at h h'
    obtain ⟨sp, nm, ls, ds, a1, a2, a3, rfl⟩ := h
    obtain ⟨sp', nm', ls', ds', b1, b2, b3, rfl⟩ := h'
    rw [a1] at b1; cases b1
    rw [a2] at b2; cases b2
    exact .elem (blockShows_same block _ _ b3 a3)
  | .mk (.svg i) sels attrs args block, d', d, h', h => by
    simp only [Shows] at h h'
    obtain ⟨sp, nm, ls, ds, a1, a2, a3, rfl⟩ := h
    obtain ⟨sp', nm', ls', ds', b1, b2, b3, rfl⟩ := h'
    rw [a1] at b1; cases b1
    rw [a2] at b2; cases b2
    exact .elem (blockShows_same block _ _ b3 a3)
  | .mk (.math i) sels attrs args block, d', d, h', h => by
    simp only [Shows] at h h'
    obtain ⟨sp, nm, ls, ds, a1, a2, a3, rfl⟩ := h
    obtain ⟨sp', nm', ls', ds', b1, b2, b3, rfl⟩ := h'
    rw [a1] at b1; cases b1
    rw [a2] at b2; cases b2
    exact .elem (blockShows_same block _ _ b3 a3)
  | .mk (.webComponent k) sels attrs args block, d', d, h', h => by
    simp only [Shows] at h h'
    obtain ⟨sp, nm, ls, ds, a1, a2, a3, rfl⟩ := h
    obtain ⟨sp', nm', ls', ds', b1, b2, b3, rfl⟩ := h'
    rw [a1] at b1; cases b1
    rw [a2] at b2; cases b2
    exact .elem (blockShows_same block _ _ b3 a3)
theorem slotShows_same (name : Ident) : ∀ (e : Element) (d' d : Dom V), SlotShows R e name d' → SlotShows R e name d →
    Same d' d
  | .mk tag sels attrs args block, d', d, h', h => by
    simp only [SlotShows] at h h'
    obtain ⟨ds, h1, rfl⟩ := h
    obtain ⟨ds', h1', rfl⟩ := h'
    exact .slot (partsSame_append (body_same (blockShows_same block _ _ h1' h1)) (props_same (unprefixed attrs)))
theorem blockShows_same : ∀ (b : Option (List Child)) (ds' ds : List (Dom V)), BlockShows R b ds' → BlockShows R b ds →
    AllSame ds' ds
  | none, ds', ds, h', h => by simp only [BlockShows] at h h'; subst h; subst h'; exact .nil
  | some cs, ds', ds, h', h => by
    simp only [BlockShows] at h h'
    exact allShow_same cs ds' ds h' h
theorem blockSlots_same : ∀ (b : Option (List Child)) (ds' ds : List (Ident × Dom V)), BlockSlots R b ds' →
    BlockSlots R b ds → PairsSame ds' ds
  | none, ds', ds, h', h => by simp only [BlockSlots] at h h'; subst h; subst h'; exact .nil
  | some cs, ds', ds, h', h => by
    simp only [BlockSlots] at h h'
    exact slotsShow_same cs ds' ds h' h
theorem allShow_same : ∀ (cs : List Child) (ds' ds : List (Dom V)), AllShow R cs ds' → AllShow R cs ds → AllSame ds' ds
  | [], ds', ds, h', h => by simp only [AllShow] at h h'; subst h; subst h'; exact .nil
  | .value v :: cs, ds', ds, h', h => by
    simp only [AllShow] at h h'
    obtain ⟨x, h1, rfl⟩ := h
    obtain ⟨y, h2, rfl⟩ := h'
    exact .cons (.value _) (allShow_same cs y x h2 h1)
  | .elem e :: cs, ds', ds, h', h => by
    simp only [AllShow] at h h'
    obtain ⟨d, x, h1, h2, rfl⟩ := h
    obtain ⟨d', y, h1', h2', rfl⟩ := h'
    exact .cons (shows_same e d' d h1' h1) (allShow_same cs y x h2' h2)
  | .slot e :: cs, ds', ds, h', h => by
    simp only [AllShow] at h h'
    exact allShow_same cs ds' ds h' h
theorem slotsShow_same : ∀ (cs : List Child) (ds' ds : List (Ident × Dom V)), SlotsShow R cs ds' → SlotsShow R cs ds →
    PairsSame ds' ds
  | [], ds', ds, h', h => by simp only [SlotsShow] at h h'; subst h; subst h'; exact .nil
  | .value v :: cs, ds', ds, h', h => by
    simp only [SlotsShow] at h h'
    exact slotsShow_same cs ds' ds h' h
  | .elem e :: cs, ds', ds, h', h => by
    simp only [SlotsShow] at h h'
    exact slotsShow_same cs ds' ds h' h
  | .slot e :: cs, ds', ds, h', h => by
    simp only [SlotsShow] at h h'
    obtain ⟨n, d, x, h1, h2, h3, rfl⟩ := h
    obtain ⟨n', d', y, h1', h2', h3', rfl⟩ := h'
    rw [h1] at h1'
    cases h1'
    exact .cons (slotShows_same n e d' d h2' h2) (slotsShow_same cs y x h3' h3)
end

end Mview.Run
