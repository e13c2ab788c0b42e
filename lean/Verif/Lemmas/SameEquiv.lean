import Verif.Lemmas.SamePage
/-
To be the same page is an equivalence.
-/

namespace Mview.Run

variable {V : Type}

/-! ### lists -/

theorem PartSame.isSlots {p q : Part V} (h : PartSame p q) : p.isSlots = q.isSlots := by
  cases h <;> rfl

theorem PartsSame.isSlots {ps qs : List (Part V)} (h : PartsSame ps qs) (hs : ∀ p ∈ ps, p.isSlots = true) :
    ∀ q ∈ qs, q.isSlots = true := by
  match h with
  | .nil => exact fun _ h => nomatch h
  | .cons hp h =>
    intro q hq
    rcases List.mem_cons.mp hq with rfl | hq
    · rw [← hp.isSlots]; exact hs _ (by simp)
    · exact PartsSame.isSlots h (fun p hp => hs p (by simp [hp])) q hq

theorem PartsSame.isSlots' {ps qs : List (Part V)} (h : PartsSame ps qs) (hs : ∀ q ∈ qs, q.isSlots = true) :
    ∀ p ∈ ps, p.isSlots = true := by
  match h with
  | .nil => exact fun _ h => nomatch h
  | .cons hp h =>
    intro q hq
    rcases List.mem_cons.mp hq with rfl | hq
    · rw [hp.isSlots]; exact hs _ (by simp)
    · exact PartsSame.isSlots' h (fun p hp => hs p (by simp [hp])) q hq

theorem partsSame_split {b2 : List (Part V)} : ∀ {b1 as : List (Part V)}, PartsSame as (b1 ++ b2) →
    ∃ a1 a2, as = a1 ++ a2 ∧ PartsSame a1 b1 ∧ PartsSame a2 b2
  | [], as, h => ⟨[], as, rfl, .nil, h⟩
  | b :: b1, as, h => by
    cases h with
    | cons hp h =>
      obtain ⟨a1, a2, rfl, h1, h2⟩ := partsSame_split h
      exact ⟨_ :: a1, a2, rfl, .cons hp h1, h2⟩

theorem partsSame_split' {a2 : List (Part V)} : ∀ {a1 bs : List (Part V)}, PartsSame (a1 ++ a2) bs →
    ∃ b1 b2, bs = b1 ++ b2 ∧ PartsSame a1 b1 ∧ PartsSame a2 b2
  | [], bs, h => ⟨[], bs, rfl, .nil, h⟩
  | a :: a1, bs, h => by
    cases h with
    | cons hp h =>
      obtain ⟨b1, b2, rfl, h1, h2⟩ := partsSame_split' h
      exact ⟨_ :: b1, b2, rfl, .cons hp h1, h2⟩

theorem perm_partsSame {l u : List (Part V)} (h : l.Perm u) :
    ∀ {v}, PartsSame u v → ∃ w, PartsSame l w ∧ w.Perm v := by
  induction h with
  | nil => intro v h; exact ⟨v, h, .refl _⟩
  | cons x h ih =>
    intro v hv
    cases hv with
    | cons hp hv =>
      obtain ⟨w, h1, h2⟩ := ih hv
      exact ⟨_ :: w, .cons hp h1, h2.cons _⟩
  | swap x y l =>
    intro v hv
    cases hv with
    | cons hp hv =>
      cases hv with
      | cons hq hv => exact ⟨_, .cons hq (.cons hp hv), .swap _ _ _⟩
  | trans h1 h2 ih1 ih2 =>
    intro v hv
    obtain ⟨w, a1, a2⟩ := ih2 hv
    obtain ⟨w', b1, b2⟩ := ih1 a1
    exact ⟨w', b1, b2.trans a2⟩

theorem partsSame_perm {u v : List (Part V)} (h : u.Perm v) :
    ∀ {l}, PartsSame l u → ∃ w, l.Perm w ∧ PartsSame w v := by
  induction h with
  | nil => intro l h; exact ⟨l, .refl _, h⟩
  | cons x h ih =>
    intro l hv
    cases hv with
    | cons hp hv =>
      obtain ⟨w, h1, h2⟩ := ih hv
      exact ⟨_ :: w, h1.cons _, .cons hp h2⟩
  | swap x y l =>
    intro l hv
    cases hv with
    | cons hp hv =>
      cases hv with
      | cons hq hv => exact ⟨_, .swap _ _ _, .cons hq (.cons hp hv)⟩
  | trans h1 h2 ih1 ih2 =>
    intro l hv
    obtain ⟨w, a1, a2⟩ := ih1 hv
    obtain ⟨w', b1, b2⟩ := ih2 a2
    exact ⟨w', a1.trans b1, b2⟩

/-! ### reflexivity -/

mutual
theorem same_refl : (d : Dom V) → Same d d
  | .value v => .value v
  | .elem _ _ _ ds => .elem (allSame_refl ds)
  | .comp f b ps ls => by
    have := Same.comp (f := f) (b := b) (ls := ls) (front := ps) (slots := []) (slots' := []) (ps' := ps)
      (by rw [List.append_nil]; exact partsSame_refl ps) (.refl _) (fun _ h => nomatch h)
    rw [List.append_nil] at this
    exact this
  | .slot _ ps => .slot (partsSame_refl ps)
theorem allSame_refl : (ds : List (Dom V)) → AllSame ds ds
  | [] => .nil
  | d :: ds => .cons (same_refl d) (allSame_refl ds)
theorem partsSame_refl : (ps : List (Part V)) → PartsSame ps ps
  | [] => .nil
  | p :: ps => .cons (partSame_refl p) (partsSame_refl ps)
theorem partSame_refl : (p : Part V) → PartSame p p
  | .prop n v => .prop n v
  | .children _ _ ds => .children (allSame_refl ds)
  | .slots _ ds => .slots (allSame_refl ds)
end

/-! ### symmetry -/

theorem partsSame_symm_of : {ps qs : List (Part V)} → (∀ p ∈ ps, ∀ q, PartSame p q → PartSame q p) →
    PartsSame ps qs → PartsSame qs ps
  | [], _, _, .nil => .nil
  | _ :: _, _, hs, .cons hp h =>
    .cons (hs _ (by simp) _ hp) (partsSame_symm_of (fun p hp => hs p (by simp [hp])) h)

mutual
theorem same_symm : (d : Dom V) → ∀ d', Same d d' → Same d' d
  | .value v, _, h => by cases h; exact .value v
  | .elem _ _ _ ds, _, h => by
    cases h with
    | elem hd => exact .elem (allSame_symm ds _ hd)
  | .comp f b ps ls, _, h => by
    have ih := parts_symm ps
    cases h with
    | comp hp ho hs =>
      obtain ⟨a1, a2, rfl, h1, h2⟩ := partsSame_split hp
      obtain ⟨w, w1, w2⟩ := partsSame_perm ho h2
      refine .comp (slots' := w) (partsSame_append ?_ (partsSame_symm_of (fun p hp => ih p (by simp [hp])) h1)) w1.symm
        (h2.isSlots' fun q hq => hs q (ho.subset hq))
      exact partsSame_symm_of (fun p hp => ih p (by simp [w1.symm.subset hp])) w2
  | .slot _ ps, _, h => by
    have ih := parts_symm ps
    cases h with
    | slot hp => exact .slot (partsSame_symm_of ih hp)
theorem allSame_symm : (ds : List (Dom V)) → ∀ ds', AllSame ds ds' → AllSame ds' ds
  | [], _, h => by cases h; exact .nil
  | d :: ds, _, h => by
    cases h with
    | cons hd h => exact .cons (same_symm d _ hd) (allSame_symm ds _ h)
theorem parts_symm : (ps : List (Part V)) → ∀ p ∈ ps, ∀ q, PartSame p q → PartSame q p
  | [], _, h => nomatch h
  | p :: ps, q, h => by
    rcases List.mem_cons.mp h with h | h
    · intro r hr
      rw [h] at hr ⊢
      exact part_symm p r hr
    · exact parts_symm ps q h
theorem part_symm : (p : Part V) → ∀ q, PartSame p q → PartSame q p
  | .prop n v, _, h => by cases h; exact .prop n v
  | .children _ _ ds, _, h => by
    cases h with
    | children hd => exact .children (allSame_symm ds _ hd)
  | .slots _ ds, _, h => by
    cases h with
    | slots hd => exact .slots (allSame_symm ds _ hd)
end

/-! ### transitivity -/

theorem partsSame_trans_of : {ps qs rs : List (Part V)} →
    (∀ p ∈ ps, ∀ q r, PartSame p q → PartSame q r → PartSame p r) → PartsSame ps qs → PartsSame qs rs → PartsSame ps rs
  | [], _, _, _, .nil, .nil => .nil
  | _ :: _, _, _, hs, .cons hp h, .cons hq h' =>
    .cons (hs _ (by simp) _ _ hp hq) (partsSame_trans_of (fun p hp => hs p (by simp [hp])) h h')

mutual
theorem same_trans : (d : Dom V) → ∀ d' d'', Same d d' → Same d' d'' → Same d d''
  | .value v, _, _, h, h' => by cases h; cases h'; exact .value v
  | .elem _ _ _ ds, _, _, h, h' => by
    cases h with
    | elem hd =>
      cases h' with
      | elem hd' => exact .elem (allSame_trans ds _ _ hd hd')
  | .comp f b ps ls, _, _, h, h' => by
    have ih := parts_trans ps
    cases h with
    | comp hp ho hs =>
      cases h' with
      | comp hp' ho' hs' =>
        obtain ⟨u1, u2, he, h1, h2⟩ := partsSame_split' hp'
        obtain ⟨w, w1, w2⟩ := perm_partsSame ho h2
        have hall := partsSame_trans_of ih hp (partsSame_append w1 h1)
        rcases List.append_eq_append_iff.mp he with ⟨a, rfl, rfl⟩ | ⟨c, rfl, rfl⟩
        · rw [List.append_assoc] at hall
          exact .comp (slots' := a ++ w) hall ((w2.append_left a).trans ho') hs'
        · rw [List.append_assoc]
          refine .comp (slots' := w) hall (w2.trans (ho'.append_left c)) ?_
          intro p hp
          rcases List.mem_append.mp hp with hp | hp
          · exact h2.isSlots hs p (by simp [hp])
          · exact hs' p hp
  | .slot _ ps, _, _, h, h' => by
    have ih := parts_trans ps
    cases h with
    | slot hp =>
      cases h' with
      | slot hp' => exact .slot (partsSame_trans_of ih hp hp')
theorem allSame_trans : (ds : List (Dom V)) → ∀ ds' ds'', AllSame ds ds' → AllSame ds' ds'' → AllSame ds ds''
  | [], _, _, h, h' => by cases h; cases h'; exact .nil
  | d :: ds, _, _, h, h' => by
    cases h with
    | cons hd h =>
      cases h' with
      | cons hd' h' => exact .cons (same_trans d _ _ hd hd') (allSame_trans ds _ _ h h')
theorem parts_trans : (ps : List (Part V)) → ∀ p ∈ ps, ∀ q r, PartSame p q → PartSame q r → PartSame p r
  | [], _, h => nomatch h
  | p :: ps, q, h => by
    rcases List.mem_cons.mp h with h | h
    · intro r t hr ht
      rw [h] at hr ⊢
      exact part_trans p r t hr ht
    · exact parts_trans ps q h
theorem part_trans : (p : Part V) → ∀ q r, PartSame p q → PartSame q r → PartSame p r
  | .prop n v, _, _, h, h' => by cases h; cases h'; exact .prop n v
  | .children _ _ ds, _, _, h, h' => by
    cases h with
    | children hd =>
      cases h' with
      | children hd' => exact .children (allSame_trans ds _ _ hd hd')
  | .slots _ ds, _, _, h, h' => by
    cases h with
    | slots hd =>
      cases h' with
      | slots hd' => exact .slots (allSame_trans ds _ _ hd hd')
end

end Mview.Run
