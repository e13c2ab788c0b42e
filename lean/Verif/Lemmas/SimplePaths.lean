import Verif.Lemmas.GrammarTree
import Verif.Spec.Rewrites
/-
`simplePaths` satisfies what is assumed of `syn::Path::parse`.
-/

namespace Mview

theorem simplePaths_starts : simplePaths.Starts := by
  intro ts p rest h
  have h : simpleRun ts = (some p, rest) := h
  unfold simpleRun at h
  simp only at h
  by_cases hl : peekPunct2 ':' ':' ts = true
  · exact .inl (peekPunct2_colons.mp hl)
  · rw [Bool.not_eq_true] at hl
    rw [hl] at h
    right
    match ts, h with
    | .ident i :: r, _ => exact ⟨i, r, rfl⟩
    | [], h => simp [simpleSegs] at h
    | .punct _ _ :: _, h => simp [simpleSegs] at h
    | .lit _ :: _, h => simp [simpleSegs] at h
    | .group _ _ :: _, h => simp [simpleSegs] at h

theorem angleBody_shorter (ts : Toks) : ∀ d a b, angleBody d ts = some (a, b) →
    b.length < ts.length := by
  induction ts with
  | nil => intro d a b h; simp [angleBody] at h
  | cons t ts ih =>
    intro d a b h
    unfold angleBody at h
    split at h
    · cases d with
      | zero => simp at h; rw [← h.2]; simp
      | succ d =>
        simp only [Option.map_eq_some_iff, Prod.exists, Prod.mk.injEq] at h
        obtain ⟨a', b', h1, _, h2⟩ := h
        have := ih _ _ _ h1
        simp only [List.length_cons, ← h2]; omega
    · simp only [Option.map_eq_some_iff, Prod.exists, Prod.mk.injEq] at h
      obtain ⟨a', b', h1, _, h2⟩ := h
      have := ih _ _ _ h1
      simp only [List.length_cons, ← h2]; omega
    · simp only [Option.map_eq_some_iff, Prod.exists, Prod.mk.injEq] at h
      obtain ⟨a', b', h1, _, h2⟩ := h
      have := ih _ _ _ h1
      simp only [List.length_cons, ← h2]; omega

theorem angleBody_local (u : Toks) : ∀ d a b b', angleBody d (u ++ b) = some (a, b) →
    angleBody d (u ++ b') = some (a, b') := by
  induction u with
  | nil => intro d a b b' h; have := angleBody_shorter _ _ _ _ h; simp at this
  | cons t u ih =>
    intro d a b b' h
    rw [List.cons_append] at h ⊢
    unfold angleBody at h ⊢
    split at h
    · cases d with
      | zero =>
        simp only [Option.some.injEq, Prod.mk.injEq] at h
        obtain ⟨rfl, h⟩ := h
        have : u = [] := by simpa using h
        simp [this]
      | succ d =>
        simp only [Option.map_eq_some_iff, Prod.exists, Prod.mk.injEq] at h ⊢
        obtain ⟨a', _, h1, h2, rfl⟩ := h
        exact ⟨a', b', ih _ _ _ _ h1, h2, rfl⟩
    · simp only [Option.map_eq_some_iff, Prod.exists, Prod.mk.injEq] at h ⊢
      obtain ⟨a', _, h1, h2, rfl⟩ := h
      exact ⟨a', b', ih _ _ _ _ h1, h2, rfl⟩
    · simp only [Option.map_eq_some_iff, Prod.exists, Prod.mk.injEq] at h ⊢
      obtain ⟨a', _, h1, h2, rfl⟩ := h
      exact ⟨a', b', ih _ _ _ _ h1, h2, rfl⟩

theorem drop_append_of {u b w : Toks} {n : Nat} (h : (u ++ b).drop n = w ++ b) (hw : w ≠ []) :
    n ≤ u.length ∧ u.drop n = w := by
  have hlen := congrArg List.length h
  have : 0 < w.length := List.length_pos_iff.mpr hw
  simp only [List.length_drop, List.length_append] at hlen
  have hn : n ≤ u.length := by omega
  refine ⟨hn, ?_⟩
  rw [List.drop_append_of_le_length hn] at h
  exact List.append_cancel_right h

theorem colons_head {x y : TT} {r r' : Toks} (h : peekPunct2 ':' ':' (x :: y :: r) = true) :
    peekPunct2 ':' ':' (x :: y :: r') = true := by
  obtain ⟨s, q, he⟩ := peekPunct2_colons.mp h
  simp only [List.cons.injEq] at he
  exact peekPunct2_colons.mpr ⟨s, r', by rw [he.1, he.2.1]⟩

theorem simpleArgs_local {u b b' : Toks} {a : PathArgs} (h : simpleArgs (u ++ b) = some (a, b))
    (h1 : peekPunct '<' b' = peekPunct '<' b)
    (h2 : (peekPunct2 ':' ':' b' && peekPunct '<' (b'.drop 2)) =
      (peekPunct2 ':' ':' b && peekPunct '<' (b.drop 2))) :
    simpleArgs (u ++ b') = some (a, b') := by
  unfold simpleArgs at h ⊢
  split at h
  · rename_i hp
    simp only [Option.map_eq_some_iff, Prod.exists, Prod.mk.injEq] at h
    obtain ⟨a', _, h3, rfl, rfl⟩ := h
    rename_i b
    obtain ⟨w, hw⟩ := angleBody_suffix _ _ _ _ h3
    have hwne : w ≠ [] := by
      rintro rfl; have := angleBody_shorter _ _ _ _ h3; rw [hw] at this; simp at this
    obtain ⟨hn, hd⟩ := drop_append_of hw hwne
    rcases u with _ | ⟨t, u⟩
    · simp at hn
    · have hpt : peekPunct '<' (t :: (u ++ b')) = true := by
        cases t <;> simp [peekPunct] at hp ⊢; exact hp
      rw [if_pos (by exact hpt)]
      simp only [List.cons_append, List.drop_succ_cons, List.drop_zero] at h3 ⊢
      rw [angleBody_local u _ _ _ b' h3]; rfl
  · split at h
    · rename_i hnp hp
      simp only [Option.map_eq_some_iff, Prod.exists, Prod.mk.injEq] at h
      obtain ⟨a', _, h3, rfl, rfl⟩ := h
      rename_i b
      obtain ⟨w, hw⟩ := angleBody_suffix _ _ _ _ h3
      have hwne : w ≠ [] := by
        rintro rfl; have := angleBody_shorter _ _ _ _ h3; rw [hw] at this; simp at this
      obtain ⟨hn, hd⟩ := drop_append_of hw hwne
      rcases u with _ | ⟨x, _ | ⟨y, _ | ⟨z, u⟩⟩⟩
      · simp at hn
      · simp at hn
      · simp at hn
      · have hq : (peekPunct2 ':' ':' (x :: y :: z :: u ++ b') &&
            peekPunct '<' ((x :: y :: z :: u ++ b').drop 2)) = true := by
          rw [Bool.and_eq_true] at hp ⊢
          refine ⟨?_, ?_⟩
          · exact colons_head hp.1
          · have := hp.2
            cases z <;> simp_all [peekPunct]
        have hq' : ¬ peekPunct '<' (x :: y :: z :: u ++ b') = true := by
          cases x <;> simp_all [peekPunct]
        rw [if_neg hq', if_pos hq]
        simp only [List.cons_append, List.drop_succ_cons, List.drop_zero] at h3 ⊢
        rw [angleBody_local u _ _ _ b' h3]; rfl
    · rename_i hp hp'
      simp only [Option.some.injEq, Prod.mk.injEq] at h
      have : u = [] := by simpa using h.2
      subst this
      simp only [List.nil_append] at hp hp' ⊢
      rw [if_neg (by rw [h1]; exact hp), if_neg (by rw [h2]; exact hp'), h.1]

theorem simpleSegs_local : ∀ (n m : Nat) (u b b' : Toks) (ss : List PathSeg),
    simpleSegs n (u ++ b) = some (ss, b) → u.length < m →
    (∀ s r, b ≠ .punct ':' s :: r) → (∀ s r, b ≠ .punct '<' s :: r) →
    (∀ s r, b' ≠ .punct ':' s :: r) → (∀ s r, b' ≠ .punct '<' s :: r) →
    simpleSegs m (u ++ b') = some (ss, b') := by
  intro n
  induction n with
  | zero => intro m u b b' ss h; simp [simpleSegs] at h
  | succ n ih =>
    intro m u b b' ss h hm hb1 hb2 hb1' hb2'
    obtain ⟨m, rfl⟩ : ∃ k, m = k + 1 := ⟨m - 1, by omega⟩
    obtain ⟨v, hv, hvb⟩ := simpleSegs_suffix _ _ _ _ h
    have := List.append_cancel_right hvb
    subst this
    have np : ∀ {b : Toks} {c : Char}, (∀ s r, b ≠ .punct c s :: r) → peekPunct c b = false := by
      intro b c hb
      rw [← Bool.not_eq_true, peekPunct_iff]
      rintro ⟨s, r, he⟩; exact hb _ _ he
    have np2 : ∀ {b : Toks}, (∀ s r, b ≠ .punct ':' s :: r) → peekPunct2 ':' ':' b = false := by
      intro b hb
      rw [← Bool.not_eq_true, peekPunct2_colons]
      rintro ⟨s, r, he⟩; exact hb _ _ he
    match u, hv, h, hm with
    | [], hv, _, _ => exact absurd rfl hv
    | .punct _ _ :: _, _, h, _ => simp [simpleSegs] at h
    | .lit _ :: _, _, h, _ => simp [simpleSegs] at h
    | .group _ _ :: _, _, h, _ => simp [simpleSegs] at h
    | .ident i :: u, _, h, hm =>
      simp only [List.cons_append, simpleSegs] at h ⊢
      split at h
      · simp at h
      · rename_i a rest ha
        obtain ⟨w, hw⟩ := simpleArgs_suffix ha
        split at h
        · rename_i hcol
          simp only [Option.map_eq_some_iff, Prod.exists, Prod.mk.injEq] at h
          obtain ⟨ss', _, h3, rfl, rfl⟩ := h
          rename_i b
          obtain ⟨z, hz, hzb⟩ := simpleSegs_suffix _ _ _ _ h3
          obtain ⟨s, r, hr⟩ := peekPunct2_colons.mp hcol
          subst hr
          simp only [List.drop_succ_cons, List.drop_zero] at h3 hzb
          subst hzb
          have hu : u = w ++ .punct ':' .joint :: .punct ':' s :: z := by
            have : u ++ b = (w ++ .punct ':' .joint :: .punct ':' s :: z) ++ b := by simpa using hw
            exact List.append_cancel_right this
          subst hu
          have ha' : simpleArgs (w ++ (.punct ':' .joint :: .punct ':' s :: z ++ b')) =
              some (a, .punct ':' .joint :: .punct ':' s :: z ++ b') := by
            refine simpleArgs_local (b := .punct ':' .joint :: .punct ':' s :: (z ++ b)) ?_ ?_ ?_
            · rw [← ha]; simp
            · rfl
            · cases z with
              | nil => exact absurd rfl hz
              | cons z0 z => cases z0 <;> rfl
          rw [show w ++ .punct ':' .joint :: .punct ':' s :: z ++ b' =
            w ++ (.punct ':' .joint :: .punct ':' s :: z ++ b') by simp, ha']
          simp only
          rw [if_pos (by rfl)]
          simp only [List.cons_append, List.drop_succ_cons, List.drop_zero]
          rw [ih m z b b' ss' h3 (by simp at hm; omega) hb1 hb2 hb1' hb2']
          rfl
        · simp only [Option.some.injEq, Prod.mk.injEq] at h
          obtain ⟨rfl, rfl⟩ := h
          have ha' : simpleArgs (u ++ b') = some (a, b') := by
            refine simpleArgs_local ha ?_ ?_
            · rw [np hb2, np hb2']
            · rw [np2 hb1, np2 hb1']; rfl
          rw [ha']
          simp only
          rw [if_neg (by rw [np2 hb1']; simp)]

theorem simplePaths_local : simplePaths.Local := by
  intro used p after after' h h1 h2 h3 h4
  have h : simpleRun (used ++ after) = (some p, after) := h
  show simpleRun (used ++ after') = (some p, after')
  unfold simpleRun at h ⊢
  simp only at h ⊢
  split at h
  · rename_i ss r hs
    simp only [Prod.mk.injEq, Option.some.injEq] at h
    obtain ⟨rfl, rfl⟩ := h
    rename_i r
    by_cases hl : peekPunct2 ':' ':' (used ++ r) = true
    · rw [hl] at hs ⊢
      simp only [if_true] at hs
      obtain ⟨w, hw, hwe⟩ := simpleSegs_suffix _ _ _ _ hs
      obtain ⟨hn, hd⟩ := drop_append_of hwe hw
      rcases used with _ | ⟨x, _ | ⟨y, u⟩⟩
      · simp at hn
      · simp at hn
      · have hl' : peekPunct2 ':' ':' (x :: y :: u ++ after') = true := colons_head hl
        rw [hl']
        simp only [List.cons_append, List.drop_succ_cons, List.drop_zero, if_true] at hs ⊢
        rw [simpleSegs_local _ ((x :: y :: (u ++ after')).length + 1) u _ after' _ hs
          (by simp; omega) h1 h2 h3 h4]
    · rw [Bool.not_eq_true] at hl
      rw [hl] at hs ⊢
      simp only [Bool.false_eq_true, if_false] at hs
      obtain ⟨w, hw, hwe⟩ := simpleSegs_suffix _ _ _ _ hs
      have := List.append_cancel_right hwe
      subst this
      have hl' : peekPunct2 ':' ':' (used ++ after') = false := by
        cases used with
        | nil => exact absurd rfl hw
        | cons x u => cases x <;> first | rfl | simp [simpleSegs] at hs
      rw [hl']
      simp only [Bool.false_eq_true, if_false]
      rw [simpleSegs_local _ ((used ++ after').length + 1) used _ after' _ hs
          (by simp; omega) h1 h2 h3 h4]
  · simp at h

end Mview
