import Verif.Lemmas.SameEquiv
import Verif.Spec.Edit
/-
Replacing the children of an element by others that look the same.
-/

namespace Mview.Run

variable {V : Type} {R : Rust V}

/-- Children that look the same and have the same slots. -/
def LikeAll (R : Rust V) (cs' cs : List Child) : Prop :=
  (∀ ds' ds, AllShow R cs' ds' → AllShow R cs ds → AllSame ds' ds) ∧
  ∀ ss' ss, SlotsShow R cs' ss' → SlotsShow R cs ss → PairsSame ss' ss

theorem likeAll_refl (cs : List Child) : LikeAll R cs cs :=
  ⟨fun ds' ds => allShow_same cs ds' ds, fun ss' ss => slotsShow_same cs ss' ss⟩

/-- An element with such children. -/
theorem like_elem {cs' cs : List Child} (h : LikeAll R cs' cs) : ∀ {T : Tag} {S : List Selector} {A : List Attr}
    {g : Option Toks} {d' d : Dom V}, Shows R (.mk T S A g (some cs')) d' → Shows R (.mk T S A g (some cs)) d → Same d' d
  | .component p, S, A, g, d', d, h', hd => by
    simp only [Shows] at h' hd
    obtain ⟨path, ls, ds, slots, gs, a1, a2, a3, a4, a5, rfl⟩ := hd
    obtain ⟨path', ls', ds', slots', gs', b1, b2, b3, b4, b5, rfl⟩ := h'
    rw [a1] at b1; cases b1
    rw [a2] at b2; cases b2
    simp only [BlockShows] at a3 b3
    simp only [BlockSlots] at a4 b4
    obtain ⟨gs₁, g1, g2, g3⟩ := grouped_same (h.2 _ _ b4 a4) b5 a5
    exact .comp (partsSame_append g1 (partsSame_append (body_same (h.1 _ _ b3 a3)) (props_same (unprefixed A)))) g2 g3
  | .html i, S, A, g, d', d, h', hd => by
    simp only [Shows, BlockShows] at h' hd
    obtain ⟨sp, nm, ls, ds, a1, a2, a3, rfl⟩ := hd
    obtain ⟨sp', nm', ls', ds', b1, b2, b3, rfl⟩ := h'
    rw [a1] at b1; cases b1
    rw [a2] at b2; cases b2
    exact .elem (h.1 _ _ b3 a3)
  | .svg i, S, A, g, d', d, h', hd => by
    simp only [Shows, BlockShows] at h' hd
    obtain ⟨sp, nm, ls, ds, a1, a2, a3, rfl⟩ := hd
    obtain ⟨sp', nm', ls', ds', b1, b2, b3, rfl⟩ := h'
    rw [a1] at b1; cases b1
    rw [a2] at b2; cases b2
    exact .elem (h.1 _ _ b3 a3)
  | .math i, S, A, g, d', d, h', hd => by
    simp only [Shows, BlockShows] at h' hd
    obtain ⟨sp, nm, ls, ds, a1, a2, a3, rfl⟩ := hd
    obtain ⟨sp', nm', ls', ds', b1, b2, b3, rfl⟩ := h'
    rw [a1] at b1; cases b1
    rw [a2] at b2; cases b2
    exact .elem (h.1 _ _ b3 a3)
  | .webComponent i, S, A, g, d', d, h', hd => by
    simp only [Shows, BlockShows] at h' hd
    obtain ⟨sp, nm, ls, ds, a1, a2, a3, rfl⟩ := hd
    obtain ⟨sp', nm', ls', ds', b1, b2, b3, rfl⟩ := h'
    rw [a1] at b1; cases b1
    rw [a2] at b2; cases b2
    exact .elem (h.1 _ _ b3 a3)

/-- A slot with such children. -/
theorem like_slot {cs' cs : List Child} (h : LikeAll R cs' cs) {T : Tag} {S : List Selector} {A : List Attr}
    {g : Option Toks} {n : Ident} {d' d : Dom V} (h' : SlotShows R (.mk T S A g (some cs')) n d')
    (hd : SlotShows R (.mk T S A g (some cs)) n d) : Same d' d := by
  simp only [SlotShows, BlockShows] at h' hd
  obtain ⟨ds, h1, rfl⟩ := hd
  obtain ⟨ds', h1', rfl⟩ := h'
  exact .slot (partsSame_append (body_same (h.1 _ _ h1' h1)) (props_same (unprefixed A)))

/-- The first child replaced. -/
theorem likeAll_head {cs' cs : List Child} (h : LikeAll R cs' cs) {b : Bool} {T : Tag} {S : List Selector}
    {A : List Attr} {g : Option Toks} {post : List Child} :
    LikeAll R (asChild b (.mk T S A g (some cs')) :: post) (asChild b (.mk T S A g (some cs)) :: post) := by
  cases b
  · refine ⟨fun ds' ds h' hd => ?_, fun ss' ss h' hd => ?_⟩ <;>
      simp only [asChild, Bool.false_eq_true, if_false, AllShow, SlotsShow] at h' hd
    · obtain ⟨d, x, h1, h2, rfl⟩ := hd
      obtain ⟨d', y, h1', h2', rfl⟩ := h'
      exact .cons (like_elem h h1' h1) (allShow_same post _ _ h2' h2)
    · exact slotsShow_same post _ _ h' hd
  · refine ⟨fun ds' ds h' hd => ?_, fun ss' ss h' hd => ?_⟩ <;>
      simp only [asChild, if_true, AllShow, SlotsShow, Element.tag] at h' hd
    · exact allShow_same post _ _ h' hd
    · obtain ⟨n, d, x, h1, h2, h3, rfl⟩ := hd
      obtain ⟨n', d', y, h1', h2', h3', rfl⟩ := h'
      rw [h1] at h1'
      cases h1'
      exact .cons (like_slot h h2' h2) (slotsShow_same post _ _ h3' h3)

/-- Something in front. -/
theorem likeAll_append {cs' cs : List Child} (h : LikeAll R cs' cs) : ∀ pre : List Child,
    LikeAll R (pre ++ cs') (pre ++ cs)
  | [] => h
  | .value v :: pre => by
    have ih := likeAll_append h pre
    refine ⟨fun ds' ds h' hd => ?_, fun ss' ss h' hd => ?_⟩ <;>
      simp only [List.cons_append, AllShow, SlotsShow] at h' hd
    · obtain ⟨x, h1, rfl⟩ := hd
      obtain ⟨y, h2, rfl⟩ := h'
      exact .cons (.value _) (ih.1 _ _ h2 h1)
    · exact ih.2 _ _ h' hd
  | .elem e :: pre => by
    have ih := likeAll_append h pre
    refine ⟨fun ds' ds h' hd => ?_, fun ss' ss h' hd => ?_⟩ <;>
      simp only [List.cons_append, AllShow, SlotsShow] at h' hd
    · obtain ⟨d, x, h1, h2, rfl⟩ := hd
      obtain ⟨d', y, h1', h2', rfl⟩ := h'
      exact .cons (shows_same e _ _ h1' h1) (ih.1 _ _ h2' h2)
    · exact ih.2 _ _ h' hd
  | .slot e :: pre => by
    have ih := likeAll_append h pre
    refine ⟨fun ds' ds h' hd => ?_, fun ss' ss h' hd => ?_⟩ <;>
      simp only [List.cons_append, AllShow, SlotsShow] at h' hd
    · exact ih.1 _ _ h' hd
    · obtain ⟨n, d, x, h1, h2, h3, rfl⟩ := hd
      obtain ⟨n', d', y, h1', h2', h3', rfl⟩ := h'
      rw [h1] at h1'
      cases h1'
      exact .cons (slotShows_same n e _ _ h2' h2) (ih.2 _ _ h3' h3)

/-- Anywhere in a tree. -/
theorem likeAll_gap {cs' cs : List Child} (h : LikeAll R cs' cs) : ∀ T : TreeGap, LikeAll R (T.fill cs') (T.fill cs)
  | .here => h
  | .elem pre b tag sels attrs args inner post => by
    rw [TreeGap.fill, TreeGap.fill]
    exact likeAll_append (likeAll_head (likeAll_gap h inner)) pre

/-! ### children without slots -/

theorem slotsShow_none : ∀ {cs : List Child}, (∀ c ∈ cs, c.isSlot = false) → ∀ {ss}, SlotsShow R cs ss → ss = []
  | [], _, ss, h => by simpa only [SlotsShow] using h
  | .value v :: cs, hn, ss, h => by
    simp only [SlotsShow] at h
    exact slotsShow_none (fun c hc => hn c (by simp [hc])) h
  | .elem v :: cs, hn, ss, h => by
    simp only [SlotsShow] at h
    exact slotsShow_none (fun c hc => hn c (by simp [hc])) h
  | .slot e :: cs, hn, ss, h => by
    have := hn (.slot e) (by simp)
    simp [Child.isSlot] at this

/-- If children without slots look the same once, they always do. -/
theorem likeAll_of {cs' cs : List Child} (hn' : ∀ c ∈ cs', c.isSlot = false) (hn : ∀ c ∈ cs, c.isSlot = false)
    {ds' ds : List (Dom V)} (h' : AllShow R cs' ds') (h : AllShow R cs ds) (hd : AllSame ds' ds) : LikeAll R cs' cs := by
  refine ⟨fun es' es he' he => ?_, fun ss' ss hs' hs => ?_⟩
  · exact allSame_trans _ _ _ (allShow_same cs' es' ds' he' h') (allSame_trans _ _ _ hd (allShow_same cs ds es h he))
  · rw [slotsShow_none hn' hs', slotsShow_none hn hs]
    exact .nil

/-! ### one after the other -/

theorem allShow_append : ∀ {a b : List Child} {da db : List (Dom V)}, AllShow R a da → AllShow R b db →
    AllShow R (a ++ b) (da ++ db)
  | [], b, da, db, ha, hb => by
    simp only [AllShow] at ha
    subst ha
    exact hb
  | .value v :: a, b, da, db, ha, hb => by
    simp only [List.cons_append, AllShow] at ha ⊢
    obtain ⟨x, h1, rfl⟩ := ha
    exact ⟨_, allShow_append h1 hb, rfl⟩
  | .elem v :: a, b, da, db, ha, hb => by
    simp only [List.cons_append, AllShow] at ha ⊢
    obtain ⟨d, x, h1, h2, rfl⟩ := ha
    exact ⟨d, _, h1, allShow_append h2 hb, rfl⟩
  | .slot v :: a, b, da, db, ha, hb => by
    simp only [List.cons_append, AllShow] at ha ⊢
    exact allShow_append ha hb

/-! ### names -/

theorem allUsual_append : ∀ {a b : List Child}, AllUsual (a ++ b) ↔ AllUsual a ∧ AllUsual b
  | [], b => by simp [AllUsual]
  | .value v :: a, b => by simp only [List.cons_append, AllUsual]; exact allUsual_append
  | .elem e :: a, b => by simp only [List.cons_append, AllUsual, allUsual_append (a := a), and_assoc]
  | .slot e :: a, b => by simp only [List.cons_append, AllUsual, allUsual_append (a := a), and_assoc]

theorem usual_gap {cs' cs : List Child} (hu : AllUsual cs') : ∀ {T : TreeGap}, AllUsual (T.fill cs) →
    AllUsual (T.fill cs')
  | .here, _ => hu
  | .elem pre b tag sels attrs args inner post, h => by
    rw [TreeGap.fill, allUsual_append] at h ⊢
    refine ⟨h.1, ?_⟩
    have h := h.2
    cases b
    · simp only [asChild, Bool.false_eq_true, if_false, AllUsual, Usual, BlockUsual] at h ⊢
      exact ⟨⟨usual_gap hu h.1.1, h.1.2⟩, h.2⟩
    · simp only [asChild, if_true, AllUsual, Usual, BlockUsual, slotUsual, Element.tag] at h ⊢
      exact ⟨h.1, ⟨usual_gap hu h.2.1.1, h.2.1.2⟩, h.2.2⟩

theorem usual_of_gap {cs : List Child} : ∀ {T : TreeGap}, AllUsual (T.fill cs) → AllUsual cs
  | .here, h => h
  | .elem pre b tag sels attrs args inner post, h => by
    rw [TreeGap.fill, allUsual_append] at h
    have h := h.2
    cases b
    · simp only [asChild, Bool.false_eq_true, if_false, AllUsual, Usual, BlockUsual] at h
      exact usual_of_gap h.1.1
    · simp only [asChild, if_true, AllUsual, Usual, BlockUsual] at h
      exact usual_of_gap h.2.1.1

end Mview.Run
