import Verif.Spec.SynPath
import Verif.Lemmas.Mentions
import Verif.Lemmas.Size
/-
`synPaths` satisfies what is assumed of `syn::Path::parse`.
-/

namespace Mview

/-! ### locality -/

/-- The two streams start with the same token, which is such. -/
def Meets (p : TT → Prop) (x x' : Toks) : Prop := ∃ t r r', x = t :: r ∧ x' = t :: r' ∧ p t

/-- A semicolon. -/
def TT.IsSemi (t : TT) : Prop := ∃ s, t = .punct ';' s

theorem TT.IsSemi.ends {t : TT} (h : t.IsSemi) : t.EndsArg := by
  obtain ⟨s, rfl⟩ := h; exact ⟨_, s, rfl, by simp⟩

theorem Meets.mono {p q : TT → Prop} {x x' : Toks} (h : Meets p x x') (hi : ∀ t, p t → q t) : Meets q x x' := by
  obtain ⟨t, r, r', h1, h2, h3⟩ := h; exact ⟨t, r, r', h1, h2, hi t h3⟩

theorem self_append {a b : Toks} (h : b = a ++ b) : a = [] := by
  have := congrArg List.length h
  simp at this
  exact this

variable {ga : ArgParser}

theorem peekPunct_meets {p : TT → Prop} {c : Char} {w x x' : Toks} (h : Meets p x x') :
    peekPunct c (w ++ x') = peekPunct c (w ++ x) := by
  obtain ⟨t, r, r', rfl, rfl, _⟩ := h
  cases w with
  | nil => cases t <;> rfl
  | cons a w => cases a <;> rfl

/-- What follows an argument does not matter. -/
theorem synArg_local (hl : ga.Local) {w x x' : Toks} {v : Bool × Toks} (h : synArg ga (w ++ x) = (some v, x))
    (hx : Meets TT.EndsArg x x') : synArg ga (w ++ x') = (some v, x') := by
  have hga : ((ga.run (w ++ x)).1.map (false, ·), (ga.run (w ++ x)).2) = (some v, x) →
      ((ga.run (w ++ x')).1.map (false, ·), (ga.run (w ++ x')).2) = (some v, x') := by
    intro h
    obtain ⟨t, r, r', rfl, rfl, ht⟩ := hx
    match hr : ga.run (w ++ t :: r) with
    | (none, _) => simp [hr] at h
    | (some a, y) =>
      simp only [hr, Option.map_some, Prod.mk.injEq, Option.some.injEq] at h
      obtain ⟨rfl, rfl⟩ := h
      rw [hl ht hr]; rfl
  have hp := fun u => peekPunct_meets (c := '+') (w := u) hx
  unfold synArg at h ⊢
  split at h
  · rename_i i r he
    rcases w with _ | ⟨t, _ | ⟨t', w⟩⟩
    · obtain ⟨t, r1, r', rfl, rfl, ht⟩ := hx
      obtain ⟨c, s, rfl, hc⟩ := ht
      simp at he
      rcases hc with rfl | rfl | rfl <;> simp at he
    · obtain ⟨t, r1, r', rfl, rfl, ht⟩ := hx
      obtain ⟨c, s, rfl, hc⟩ := ht
      simp at he
    · simp only [List.cons_append, List.cons.injEq] at he
      obtain ⟨rfl, rfl, rfl⟩ := he
      simp only [List.cons_append] at h hga ⊢
      rw [hp w]
      split at h
      · rename_i hp'
        rw [if_pos hp']
        exact hga h
      · rename_i hp'
        rw [if_neg hp']
        simp only [Prod.mk.injEq] at h ⊢
        exact ⟨h.1, by rw [self_append h.2.symm]; rfl⟩
  · rename_i hne
    split
    · rename_i i r he
      exfalso
      rcases w with _ | ⟨t, _ | ⟨t', w⟩⟩
      · obtain ⟨t, r1, r', rfl, rfl, ht⟩ := hx
        obtain ⟨c, s, rfl, hc⟩ := ht
        simp at he
        rcases hc with rfl | rfl | rfl <;> simp at he
      · obtain ⟨t, r1, r', rfl, rfl, ht⟩ := hx
        obtain ⟨c, s, rfl, hc⟩ := ht
        simp at he
      · simp only [List.cons_append, List.cons.injEq] at he
        exact hne i (w ++ x) (by simp [he.1, he.2.1])
    · exact hga h

/-- Nor does what follows a `;` at which there is no argument. -/
theorem synArg_fails (hf : ga.FailsLocally) {w x x' : Toks} (h : synArg ga (w ++ x) = (none, x))
    (hx : Meets TT.IsSemi x x') : synArg ga (w ++ x') = (none, x') := by
  have hga : ((ga.run (w ++ x)).1.map (false, ·), (ga.run (w ++ x)).2) = ((none : Option (Bool × Toks)), x) →
      ((ga.run (w ++ x')).1.map (false, ·), (ga.run (w ++ x')).2) = ((none : Option (Bool × Toks)), x') := by
    intro h
    obtain ⟨t, r, r', rfl, rfl, s, rfl⟩ := hx
    match hr : ga.run (w ++ .punct ';' s :: r) with
    | (some a, y) => simp [hr] at h
    | (none, y) =>
      simp only [hr, Option.map_none, Prod.mk.injEq, true_and] at h
      subst h
      rw [hf hr]; rfl
  have hp := fun u => peekPunct_meets (c := '+') (w := u) hx
  unfold synArg at h ⊢
  split at h
  · rename_i i r he
    split at h
    · rename_i hp'
      rcases w with _ | ⟨t, _ | ⟨t', w⟩⟩
      · obtain ⟨t, r1, r', rfl, rfl, s, rfl⟩ := hx; simp at he
      · obtain ⟨t, r1, r', rfl, rfl, s, rfl⟩ := hx; simp at he
      · simp only [List.cons_append, List.cons.injEq] at he
        obtain ⟨rfl, rfl, rfl⟩ := he
        simp only [List.cons_append] at h hga ⊢
        rw [hp w, if_pos hp']
        exact hga h
    · simp at h
  · rename_i hne
    split
    · rename_i i r he
      exfalso
      rcases w with _ | ⟨t, _ | ⟨t', w⟩⟩
      · obtain ⟨t, r1, r', rfl, rfl, s, rfl⟩ := hx; simp at he
      · obtain ⟨t, r1, r', rfl, rfl, s, rfl⟩ := hx; simp at he
      · simp only [List.cons_append, List.cons.injEq] at he
        exact hne i (w ++ x) (by simp [he.1, he.2.1])
    · exact hga h

theorem suffix_append {a b c d : Toks} (h : a ++ b = c ++ d) (hd : d.length ≤ b.length) :
    ∃ e, b = e ++ d ∧ c = a ++ e := by
  rcases List.append_eq_append_iff.mp h with ⟨e, rfl, he⟩ | ⟨e, rfl, he⟩
  · exact ⟨e, he, rfl⟩
  · have := congrArg List.length he
    simp at this
    have : e = [] := List.eq_nil_of_length_eq_zero (by omega)
    subst this
    exact ⟨[], by simpa using he.symm, by simp⟩

theorem synArgs_local (hl : ga.Local) (hf : ga.FailsLocally) : ∀ (n m : Nat) (w x x' : Toks)
    (o : Option (List SynArg)), synArgs ga n (w ++ x) = (o, x) → w.length < n → w.length < m →
    (o ≠ none → Meets TT.EndsArg x x') → (o = none → Meets TT.IsSemi x x') →
    synArgs ga m (w ++ x') = (o, x') := by
  intro n
  induction n with
  | zero => intro m w x x' o h hn; omega
  | succ n ih =>
    intro m w x x' o h hn hm h1 h2
    obtain ⟨m, rfl⟩ : ∃ k, m = k + 1 := ⟨m - 1, by omega⟩
    have hx : Meets TT.EndsArg x x' := by
      cases o with
      | none => exact (h2 rfl).mono fun _ => TT.IsSemi.ends
      | some _ => exact h1 (by simp)
    have hp := fun c u => peekPunct_meets (c := c) (w := u) hx
    unfold synArgs at h ⊢
    rw [hp]
    split at h
    · rename_i hg
      simp only [Prod.mk.injEq] at h
      obtain ⟨rfl, h⟩ := h
      rw [if_pos hg, self_append h.symm]; rfl
    · rename_i hg
      rw [if_neg hg]
      split at h
      · rename_i r ha
        simp only [Prod.mk.injEq] at h
        obtain ⟨rfl, rfl⟩ := h
        rw [synArg_fails hf ha (h2 rfl)]
      · rename_i lt a r ha
        obtain ⟨u, hu, hne⟩ := synArg_suffix ha
        have hne := hne (by simp)
        split at h
        · rename_i hg'
          simp only [Prod.mk.injEq] at h
          obtain ⟨rfl, rfl⟩ := h
          rw [synArg_local hl ha hx]
          simp only
          rw [if_pos (by have := hp '>' []; simp only [List.nil_append] at this; rw [this]; exact hg')]
        · rename_i hg'
          split at h
          · rename_i hc
            match hs : synArgs ga n (r.drop 1) with
            | (as, r') =>
              simp only [hs, Prod.mk.injEq] at h
              obtain ⟨rfl, hy⟩ := h
              rw [hy] at hs
              obtain ⟨s, r1, rfl⟩ := synPeek_cons hc
              simp only [List.drop_succ_cons, List.drop_zero] at hs
              obtain ⟨v, rfl, _⟩ := synArgs_suffix hs
              have hw : w = u ++ .punct ',' s :: v :=
                List.append_cancel_right (bs := x) (by rw [hu]; simp)
              subst hw
              have ha' := synArg_local hl (w := u) (x := .punct ',' s :: (v ++ x))
                (x' := .punct ',' s :: (v ++ x')) (by rw [← ha]; simp)
                ⟨_, _, _, rfl, rfl, _, _, rfl, by simp⟩
              rw [show u ++ .punct ',' s :: v ++ x' = u ++ .punct ',' s :: (v ++ x') by simp, ha']
              have := List.length_pos_iff.mpr hne
              simp only [List.length_append, List.length_cons] at hn hm
              have hs' := ih m v x x' as hs (by omega) (by omega)
                (fun h => h1 (by cases as with | none => exact absurd rfl h | some _ => simp))
                (fun h => h2 (by rw [h]; rfl))
              simp only [peekPunct, List.drop_succ_cons, List.drop_zero, hs']
              simp
          · rename_i hc
            simp only [Prod.mk.injEq] at h
            obtain ⟨rfl, rfl⟩ := h
            rw [synArg_local hl ha hx]
            have h3 := hp '>' []
            have h4 := hp ',' []
            simp only [List.nil_append] at h3 h4
            simp only
            rw [if_neg (by rw [h3]; exact hg'), if_neg (by rw [h4]; exact hc)]

theorem synAngle_local (hl : ga.Local) (hf : ga.FailsLocally) {b : Bool} {t : TT} {w x x' : Toks}
    {o : Option PathArgs} (h : synAngle ga b (t :: w ++ x) = (o, x))
    (h2 : o = none → Meets TT.IsSemi x x') : synAngle ga b (t :: w ++ x') = (o, x') := by
  unfold synAngle at h ⊢
  simp only [List.cons_append, List.drop_succ_cons, List.drop_zero, List.length_cons, List.length_append] at h ⊢
  split at h
  · rename_i r hs
    simp only [Prod.mk.injEq] at h
    obtain ⟨rfl, rfl⟩ := h
    rw [synArgs_local hl hf _ _ w r x' none hs (by omega) (by omega) (by simp) (fun _ => h2 rfl)]
  · rename_i as r hs
    simp only [Prod.mk.injEq] at h
    obtain ⟨rfl, rfl⟩ := h
    obtain ⟨u, hu, hp⟩ := synArgs_suffix hs
    obtain ⟨s, r, rfl⟩ := synPeek_cons (hp (by simp))
    simp only [List.drop_succ_cons, List.drop_zero] at hu hs ⊢
    have hw : w = u ++ [.punct '>' s] := List.append_cancel_right (bs := r) (by rw [hu]; simp)
    subst hw
    rw [List.append_assoc] at hs ⊢
    have hs' := synArgs_local hl hf _ (List.length (u ++ [TT.punct '>' s]) + List.length x' + 1 + 1) u
      (.punct '>' s :: r) ([.punct '>' s] ++ x') (some as) hs
      (by simp only [List.length_append, List.length_cons, List.length_nil]; omega)
      (by simp only [List.length_append, List.length_cons, List.length_nil]; omega)
      (fun _ => ⟨.punct '>' s, r, x', rfl, rfl, _, _, rfl, by simp⟩) (by simp)
    rw [hs']
    rfl

/-- After a path segment the same is seen. -/
def LooksSame (x x' : Toks) : Prop :=
  (peekPunct '<' x' && !peekPunct2 '<' '=' x') = (peekPunct '<' x && !peekPunct2 '<' '=' x) ∧
  (peekPunct2 ':' ':' x' && peekPunct '<' (x'.drop 2)) = (peekPunct2 ':' ':' x && peekPunct '<' (x.drop 2)) ∧
  (peekPunct2 ':' ':' x' && !peekGroup .paren (x'.drop 2)) =
    (peekPunct2 ':' ':' x && !peekGroup .paren (x.drop 2))

theorem synSeg_local (hl : ga.Local) (hf : ga.FailsLocally) {u x x' : Toks} {o : Option PathSeg}
    (h : synSeg ga (u ++ x) = (o, x)) (h1 : o ≠ none → LooksSame x x')
    (h2 : o = none → Meets TT.IsSemi x x') : synSeg ga (u ++ x') = (o, x') := by
  rcases u with _ | ⟨t, u⟩
  · obtain ⟨u, hu, hn⟩ := synSeg_suffix h
    have hu := self_append hu
    cases o with
    | some _ => exact absurd hu (hn (by simp))
    | none =>
      obtain ⟨t, r, r', rfl, rfl, s, rfl⟩ := h2 rfl
      rfl
  · have hlen : ∀ {y : Toks} {o' : Option PathSeg}, (o', t :: u ++ x) ≠ (o, x) := by
      intro y o' he
      simp only [Prod.mk.injEq] at he
      have := congrArg List.length he.2
      simp at this
      omega
    cases t with
    | punct c s => exact absurd h (hlen (y := []))
    | lit l => exact absurd h (hlen (y := []))
    | group d g => exact absurd h (hlen (y := []))
    | ident i =>
      unfold synSeg at h ⊢
      simp only [List.cons_append] at h hlen ⊢
      split at h
      · rename_i hc
        simp only [Prod.mk.injEq] at h
        obtain ⟨rfl, h⟩ := h
        rw [if_pos hc, self_append h.symm]; rfl
      · rename_i hc
        rw [if_neg hc]
        have hid : peekIdent (.ident i :: (u ++ x')) = peekIdent (.ident i :: (u ++ x)) := rfl
        rw [hid]
        split at h
        · rename_i hc'
          rw [if_pos hc']
          split at h
          · rename_i hc1
            obtain ⟨s, r, he⟩ := synPeek_cons (Bool.and_eq_true _ _ ▸ hc1).1
            match hs : synAngle ga false (u ++ x) with
            | (a, y) =>
              simp only [hs, Prod.mk.injEq] at h
              obtain ⟨rfl, hy⟩ := h
              rw [hy] at hs
              rw [he] at hs
              obtain ⟨v, hv, hvn⟩ := synAngle_suffix hs
              rw [← he] at hs
              rcases u with _ | ⟨t, u⟩
              · rw [List.nil_append] at he
                have := congrArg List.length he
                rw [hv] at this
                simp at this
                omega
              · simp only [List.cons_append, List.cons.injEq] at he
                obtain ⟨rfl, rfl⟩ := he
                have hu := List.append_cancel_right hv
                subst hu
                have hs' := synAngle_local hl hf (x' := x') hs
                  (fun h => h2 (by rw [h]; rfl))
                have hc1' : (peekPunct '<' (.punct '<' s :: u ++ x') && !peekPunct2 '<' '=' (.punct '<' s :: u ++ x')) = true := by
                  rw [← hc1]
                  rcases u with _ | ⟨t, u⟩
                  · cases a with
                    | some _ => exact absurd rfl (hvn (by simp))
                    | none =>
                      obtain ⟨t, r, r', rfl, rfl, s1, rfl⟩ := h2 rfl
                      cases s <;> simp [peekPunct, peekPunct2]
                  · cases t <;> cases s <;> simp [peekPunct, peekPunct2]
                rw [if_pos hc1', hs']
          · rename_i hc1
            split at h
            · rename_i hc2
              obtain ⟨s, r, he⟩ := synPeek2_cons (Bool.and_eq_true _ _ ▸ hc2).1
              obtain ⟨s', r', he'⟩ := synPeek_cons (Bool.and_eq_true _ _ ▸ hc2).2
              have he2 : (u ++ x).drop 2 = r := by rw [he]; rfl
              rw [he2] at he'
              subst he'
              match hs : synAngle ga true ((u ++ x).drop 2) with
              | (a, y) =>
                simp only [hs, Prod.mk.injEq] at h
                obtain ⟨rfl, hy⟩ := h
                rw [hy] at hs
                rw [he2] at hs
                obtain ⟨v, hv, hvn⟩ := synAngle_suffix hs
                have hlen' := congrArg List.length he
                rw [hv] at hlen'
                simp at hlen'
                rcases u with _ | ⟨t, _ | ⟨t', _ | ⟨t'', u⟩⟩⟩
                · simp at hlen'; omega
                · simp at hlen'; omega
                · simp at hlen'; omega
                · simp only [List.cons_append, List.cons.injEq] at he
                  obtain ⟨rfl, rfl, rfl, rfl⟩ := he
                  have hs' := synAngle_local hl hf (x' := x') hs
                    (fun h => h2 (by rw [h]; rfl))
                  rw [if_neg (by simp [peekPunct]), if_pos (by simp [peekPunct, peekPunct2])]
                  simp only [List.cons_append, List.drop_succ_cons, List.drop_zero] at hs' ⊢
                  rw [hs']
            · rename_i hc2
              simp only [Prod.mk.injEq] at h
              obtain ⟨rfl, h⟩ := h
              have hu := self_append h.symm
              subst hu
              obtain ⟨h3, h4, _⟩ := h1 (by simp)
              simp only [List.nil_append] at hc1 hc2 ⊢
              rw [if_neg (by rw [h3]; exact hc1), if_neg (by rw [h4]; exact hc2)]
        · exact absurd h (hlen (y := []))

/-- Neither `:` nor `<` comes next. -/
def PathOver (b : Toks) : Prop := (∀ s r, b ≠ .punct ':' s :: r) ∧ ∀ s r, b ≠ .punct '<' s :: r

theorem PathOver.punct {b : Toks} (h : PathOver b) : peekPunct '<' b = false ∧ peekPunct2 ':' ':' b = false := by
  constructor
  · rw [← Bool.not_eq_true]
    intro hp
    obtain ⟨s, r, he⟩ := synPeek_cons hp
    exact h.2 _ _ he
  · rw [← Bool.not_eq_true]
    intro hp
    obtain ⟨s, r, he⟩ := synPeek2_cons hp
    exact h.1 _ _ he

theorem PathOver.same {b b' : Toks} (h : PathOver b) (h' : PathOver b') : LooksSame b b' := by
  unfold LooksSame
  rw [h.punct.1, h'.punct.1, h.punct.2, h'.punct.2]
  simp

theorem synSegs_local (hl : ga.Local) (hf : ga.FailsLocally) : ∀ (n m : Nat) (u b b' : Toks)
    (o : Option (List PathSeg)), synSegs ga n (u ++ b) = (o, b) → u.length < n → u.length < m →
    (o ≠ none → PathOver b ∧ PathOver b') → (o = none → Meets TT.IsSemi b b') →
    synSegs ga m (u ++ b') = (o, b') := by
  intro n
  induction n with
  | zero => intro m u b b' o h hn; omega
  | succ n ih =>
    intro m u b b' o h hn hm h1 h2
    obtain ⟨m, rfl⟩ : ∃ k, m = k + 1 := ⟨m - 1, by omega⟩
    unfold synSegs at h ⊢
    split at h
    · rename_i r ha
      simp only [Prod.mk.injEq] at h
      obtain ⟨rfl, rfl⟩ := h
      rw [synSeg_local hl hf (x' := b') ha (by simp) (fun _ => h2 rfl)]
    · rename_i seg r ha
      obtain ⟨v, hv, hvn⟩ := synSeg_suffix ha
      have hvn := hvn (by simp)
      split at h
      · rename_i hc
        obtain ⟨s, r1, rfl⟩ := synPeek2_cons (Bool.and_eq_true _ _ ▸ hc).1
        simp only [List.drop_succ_cons, List.drop_zero] at h
        match hs : synSegs ga n r1 with
        | (segs, y) =>
          simp only [hs, Prod.mk.injEq] at h
          obtain ⟨rfl, hy⟩ := h
          rw [hy] at hs
          obtain ⟨z, hz, hzn⟩ := synSegs_suffix hs
          subst hz
          have hu : u = v ++ .punct ':' .joint :: .punct ':' s :: z :=
            List.append_cancel_right (bs := b) (by rw [hv]; simp)
          subst hu
          have hsame : LooksSame (.punct ':' .joint :: .punct ':' s :: (z ++ b))
              (.punct ':' .joint :: .punct ':' s :: (z ++ b')) := by
            rcases z with _ | ⟨t, z⟩
            · cases segs with
              | some _ => exact absurd rfl (hzn (by simp))
              | none =>
                obtain ⟨t, r, r', rfl, rfl, s, rfl⟩ := h2 rfl
                exact ⟨rfl, rfl, rfl⟩
            · cases t <;> exact ⟨rfl, rfl, rfl⟩
          have ha' := synSeg_local hl hf (u := v) (x := .punct ':' .joint :: .punct ':' s :: (z ++ b))
            (x' := .punct ':' .joint :: .punct ':' s :: (z ++ b')) (by rw [← ha]; simp) (fun _ => hsame) (by simp)
          rw [show v ++ .punct ':' .joint :: .punct ':' s :: z ++ b' =
            v ++ .punct ':' .joint :: .punct ':' s :: (z ++ b') by simp, ha']
          have := List.length_pos_iff.mpr hvn
          simp only [List.length_append, List.length_cons] at hn hm
          have hs' := ih m z b b' segs hs (by omega) (by omega)
            (fun h => h1 (by cases segs with | none => exact absurd rfl h | some _ => simp))
            (fun h => h2 (by rw [h]; rfl))
          simp only
          rw [if_pos (by rw [hsame.2.2]; exact hc)]
          simp only [List.drop_succ_cons, List.drop_zero, hs']
      · rename_i hc
        simp only [Prod.mk.injEq] at h
        obtain ⟨rfl, rfl⟩ := h
        obtain ⟨h3, h4⟩ := h1 (by simp)
        rw [synSeg_local hl hf (x' := b') ha (fun _ => h3.same h4) (by simp)]
        simp only
        rw [if_neg (by rw [h4.punct.2]; simp)]

theorem synRun_local (hl : ga.Local) (hf : ga.FailsLocally) {u b b' : Toks} {o : Option Path}
    (h : synRun ga (u ++ b) = (o, b)) (h1 : o ≠ none → PathOver b ∧ PathOver b')
    (h2 : o = none → Meets TT.IsSemi b b') : synRun ga (u ++ b') = (o, b') := by
  unfold synRun at h ⊢
  simp only [Prod.mk.injEq] at h ⊢
  obtain ⟨rfl, h⟩ := h
  match hs : synSegs ga ((u ++ b).length + 1) (if peekPunct2 ':' ':' (u ++ b) then (u ++ b).drop 2 else u ++ b) with
  | (o, y) =>
    simp only [hs] at h h1 h2 ⊢
    subst h
    obtain ⟨v, hv, hvn⟩ := synSegs_suffix hs
    have h1' : o ≠ none → PathOver y ∧ PathOver b' := fun h => h1 (by cases o <;> simp at h ⊢)
    have h2' : o = none → Meets TT.IsSemi y b' := fun h => h2 (by rw [h]; rfl)
    split at hs
    · rename_i hc
      rw [if_pos hc] at hv
      obtain ⟨s, r, he⟩ := synPeek2_cons hc
      have hd : (u ++ y).drop 2 = r := by rw [he]; rfl
      rw [hd] at hv hs
      subst hv
      have hu : u = .punct ':' .joint :: .punct ':' s :: v := List.append_cancel_right (bs := y) (by rw [he]; simp)
      subst hu
      have hs' := synSegs_local hl hf _ ((.punct ':' .joint :: .punct ':' s :: v ++ b').length + 1) v y b' o hs
        (by simp; omega) (by simp; omega) h1' h2'
      have hc' : peekPunct2 ':' ':' (.punct ':' .joint :: .punct ':' s :: v ++ b') = true := by simp [peekPunct2]
      rw [hc', hc, if_pos rfl]
      have hd' : (.punct ':' .joint :: .punct ':' s :: v ++ b').drop 2 = v ++ b' := rfl
      rw [hd', hs']
      exact ⟨rfl, rfl⟩
    · rename_i hc
      have hc' : peekPunct2 ':' ':' (u ++ b') = false := by
        rcases u with _ | ⟨t, u⟩
        · rw [if_neg hc] at hv
          have hv := self_append hv
          cases o with
          | some _ => exact absurd hv (hvn (by simp))
          | none =>
            obtain ⟨t, r, r', rfl, rfl, s, rfl⟩ := h2' rfl
            rw [← Bool.not_eq_true]
            intro hp
            obtain ⟨_, _, he⟩ := synPeek2_cons hp
            simp at he
        · cases t with
          | punct c s =>
            simp only [List.cons_append, synSegs, synSeg, Prod.mk.injEq] at hs
            have := congrArg List.length hs.2
            simp at this
            omega
          | _ => rfl
      rw [hc', if_neg (by simp : ¬ false = true), synSegs_local hl hf _ ((u ++ b').length + 1) u y b' o hs
        (by simp; omega) (by simp; omega) h1' h2']
      exact ⟨by rw [Bool.not_eq_true] at hc; rw [hc], rfl⟩

/-! ### what is assumed of paths -/

theorem synPaths_local (hl : ga.Local) (hf : ga.FailsLocally) : (synPaths ga).Local := by
  intro used p after after' h h1 h2 h3 h4
  exact synRun_local hl hf h (fun _ => ⟨⟨h1, h2⟩, h3, h4⟩) (by simp)

theorem synPaths_failsLocally (hl : ga.Local) (hf : ga.FailsLocally) : (synPaths ga).FailsLocally := by
  intro used s rest rest' h
  exact synRun_local hl hf h (by simp) (fun _ => ⟨_, _, _, rfl, rfl, s, rfl⟩)

/-- A segment starts with an identifier. -/
theorem synSeg_ident {ts r : Toks} {seg : PathSeg} (h : synSeg ga ts = (some seg, r)) :
    ∃ r', ts = .ident seg.ident :: r' := by
  unfold synSeg at h
  split at h
  · rename_i i r0
    refine ⟨r0, ?_⟩
    split at h
    · simp only [Prod.mk.injEq, Option.some.injEq] at h
      rw [← h.1]
    · split at h
      · split at h
        · simp only [Prod.mk.injEq, Option.map_eq_some_iff] at h
          obtain ⟨⟨a, _, rfl⟩, _⟩ := h
          rfl
        · split at h
          · simp only [Prod.mk.injEq, Option.map_eq_some_iff] at h
            obtain ⟨⟨a, _, rfl⟩, _⟩ := h
            rfl
          · simp only [Prod.mk.injEq, Option.some.injEq] at h
            rw [← h.1]
      · simp at h
  · simp at h

theorem synSegs_ident : ∀ {n : Nat} {ts r : Toks} {segs : List PathSeg}, synSegs ga n ts = (some segs, r) →
    ∃ seg segs' r', segs = seg :: segs' ∧ ts = .ident seg.ident :: r'
  | 0, _, _, _, h => by simp [synSegs] at h
  | n + 1, ts, r, segs, h => by
    unfold synSegs at h
    split at h
    · simp at h
    · rename_i seg r0 ha
      obtain ⟨r', hr⟩ := synSeg_ident ha
      split at h
      · simp only [Prod.mk.injEq, Option.map_eq_some_iff] at h
        obtain ⟨⟨segs', _, rfl⟩, _⟩ := h
        exact ⟨seg, segs', r', rfl, hr⟩
      · simp only [Prod.mk.injEq, Option.some.injEq] at h
        exact ⟨seg, [], r', h.1.symm, hr⟩

theorem synPaths_starts : (synPaths ga).Starts := by
  intro ts p rest h
  have h : synRun ga ts = (some p, rest) := h
  unfold synRun at h
  simp only [Prod.mk.injEq, Option.map_eq_some_iff] at h
  obtain ⟨⟨segs, hs, rfl⟩, _⟩ := h
  by_cases hc : peekPunct2 ':' ':' ts = true
  · exact .inl (peekPunct2_colons.mp hc)
  · rw [if_neg hc] at hs
    obtain ⟨seg, _, r', _, he⟩ := synSegs_ident (Prod.ext hs rfl)
    exact .inr ⟨_, _, he⟩

theorem synPaths_honest : (synPaths ga).Honest := by
  intro ts p rest i h hi
  have h : synRun ga ts = (some p, rest) := h
  unfold synRun at h
  simp only [Prod.mk.injEq, Option.map_eq_some_iff] at h
  obtain ⟨⟨segs, hs, rfl⟩, _⟩ := h
  by_cases hc : peekPunct2 ':' ':' ts = true
  · rw [hc] at hi
    simp [Path.getIdent] at hi
  · rw [if_neg hc] at hs
    obtain ⟨seg, segs', r', rfl, he⟩ := synSegs_ident (Prod.ext hs rfl)
    unfold Path.getIdent at hi
    split at hi
    · rename_i heq
      simp only [Path.mk.injEq, List.cons.injEq] at heq
      simp only [Option.some.injEq] at hi
      obtain ⟨_, rfl, _⟩ := heq
      subst hi
      exact ⟨r', he⟩
    · simp at hi

/-! ### what is in a path was written there -/

theorem synArg_toks {P : Toks → Toks → Prop} (hga : ∀ {ts a r}, ga.run ts = (some a, r) → P a ts)
    (hlt : ∀ {i r}, P [.punct '\'' .joint, .ident i] (.punct '\'' .joint :: .ident i :: r))
    {ts r : Toks} {v : Bool × Toks} (h : synArg ga ts = (some v, r)) : P v.2 ts := by
  have hga : ((ga.run ts).1.map (false, ·), (ga.run ts).2) = (some v, r) → P v.2 ts := by
    intro h
    match hr : ga.run ts with
    | (none, _) => simp [hr] at h
    | (some a, y) =>
      simp only [hr, Option.map_some, Prod.mk.injEq, Option.some.injEq] at h
      rw [← h.1]
      exact hga hr
  unfold synArg at h
  split at h
  · split at h
    · exact hga h
    · simp only [Prod.mk.injEq, Option.some.injEq] at h
      rw [← h.1]
      exact hlt
  · exact hga h

theorem synArgs_idents (hv : ga.Verbatim) : ∀ {n : Nat} {ts r : Toks} {as : List SynArg},
    synArgs ga n ts = (some as, r) → ∀ a ∈ as, ∀ i ∈ idents a.toks, i ∈ idents ts
  | 0, _, _, _, h => by simp [synArgs] at h
  | n + 1, ts, r, as, h => by
    unfold synArgs at h
    split at h
    · simp only [Prod.mk.injEq, Option.some.injEq] at h
      simp [← h.1]
    · split at h
      · simp at h
      · rename_i lt a r0 ha
        have h1 : ∀ i ∈ idents a, i ∈ idents ts :=
          synArg_toks (P := fun a ts => ∀ i ∈ idents a, i ∈ idents ts) (fun h => hv h)
            (by intro i r j hj; simp [idents, TT.idents] at hj ⊢; simp [hj]) ha
        split at h
        · simp only [Prod.mk.injEq, Option.some.injEq] at h
          rw [← h.1]
          simpa using h1
        · split at h
          · simp only [Prod.mk.injEq, Option.map_eq_some_iff] at h
            obtain ⟨⟨as', hs, rfl⟩, _⟩ := h
            have h2 := synArgs_idents hv (Prod.ext hs rfl)
            obtain ⟨u, hu, _⟩ := synArg_suffix ha
            intro x hx i hi
            rcases List.mem_cons.mp hx with rfl | hx
            · exact h1 i hi
            · rw [hu, idents_append, List.mem_append]
              exact .inr (drop_idents 1 _ i (h2 x hx i hi))
          · simp at h

theorem printArgs_idents (lt : Bool) : ∀ (sep : Bool) (as : List SynArg), ∀ i ∈ idents (printArgs lt sep as).1,
    ∃ a ∈ as, i ∈ idents a.toks
  | _, [], i, h => by simp [printArgs, idents] at h
  | sep, a :: as, i, h => by
    unfold printArgs at h
    split at h
    · have hc : ∀ b : Bool, idents (if b then [] else [.punct ',' .alone]) = [] := by
        intro b; cases b <;> rfl
      have hc' : ∀ b : Bool, idents (if b then [.punct ',' .alone] else []) = [] := by
        intro b; cases b <;> rfl
      simp only [idents_append, hc, hc', List.nil_append, List.append_nil, List.mem_append] at h
      rcases h with h | h
      · exact ⟨a, by simp, h⟩
      · obtain ⟨b, hb, hi⟩ := printArgs_idents lt a.comma as i h
        exact ⟨b, by simp [hb], hi⟩
    · obtain ⟨b, hb, hi⟩ := printArgs_idents lt sep as i h
      exact ⟨b, by simp [hb], hi⟩

theorem printedArgs_idents {as : List SynArg} : ∀ i ∈ idents (printedArgs as), ∃ a ∈ as, i ∈ idents a.toks := by
  intro i h
  simp only [printedArgs, idents_append, List.mem_append] at h
  rcases h with h | h
  · exact printArgs_idents _ _ _ i h
  · exact printArgs_idents _ _ _ i h

theorem synAngle_idents (hv : ga.Verbatim) {b : Bool} {ts r : Toks} {a : PathArgs}
    (h : synAngle ga b ts = (some a, r)) : ∀ i ∈ a.idents, i ∈ idents ts := by
  unfold synAngle at h
  split at h
  · simp at h
  · rename_i as r0 hs
    simp only [Prod.mk.injEq, Option.some.injEq] at h
    rw [← h.1]
    intro i hi
    obtain ⟨x, hx, hi⟩ := printedArgs_idents i hi
    exact drop_idents 1 ts i (synArgs_idents hv hs x hx i hi)

theorem synSeg_idents (hv : ga.Verbatim) {ts r : Toks} {seg : PathSeg} (h : synSeg ga ts = (some seg, r)) :
    ∀ i ∈ seg.ident :: seg.args.idents, i ∈ idents ts := by
  unfold synSeg at h
  split at h
  · rename_i i r0
    have hi : i ∈ idents (.ident i :: r0) := by simp [idents, TT.idents]
    have hr : ∀ j ∈ idents r0, j ∈ idents (.ident i :: r0) := by
      intro j hj; simp [idents, hj]
    have hn : ∀ seg : PathSeg, PathSeg.mk i .none = seg → ∀ j ∈ seg.ident :: seg.args.idents,
        j ∈ idents (.ident i :: r0) := by
      rintro _ rfl j hj
      simp only [PathArgs.idents, List.mem_cons, List.not_mem_nil, or_false] at hj
      rw [hj]; exact hi
    split at h
    · simp only [Prod.mk.injEq, Option.some.injEq] at h
      exact hn _ h.1
    · split at h
      · split at h
        · simp only [Prod.mk.injEq, Option.map_eq_some_iff] at h
          obtain ⟨⟨a, ha, rfl⟩, _⟩ := h
          intro j hj
          rcases List.mem_cons.mp hj with rfl | hj
          · exact hi
          · exact hr _ (synAngle_idents hv (Prod.ext ha rfl) j hj)
        · split at h
          · simp only [Prod.mk.injEq, Option.map_eq_some_iff] at h
            obtain ⟨⟨a, ha, rfl⟩, _⟩ := h
            intro j hj
            rcases List.mem_cons.mp hj with rfl | hj
            · exact hi
            · exact hr _ (drop_idents 2 _ _ (synAngle_idents hv (Prod.ext ha rfl) j hj))
          · simp only [Prod.mk.injEq, Option.some.injEq] at h
            exact hn _ h.1
      · simp at h
  · simp at h

theorem synSegs_idents (hv : ga.Verbatim) : ∀ {n : Nat} {ts r : Toks} {segs : List PathSeg},
    synSegs ga n ts = (some segs, r) → ∀ seg ∈ segs, ∀ i ∈ seg.ident :: seg.args.idents, i ∈ idents ts
  | 0, _, _, _, h => by simp [synSegs] at h
  | n + 1, ts, r, segs, h => by
    unfold synSegs at h
    split at h
    · simp at h
    · rename_i seg r0 ha
      have h1 := synSeg_idents hv ha
      obtain ⟨u, hu, _⟩ := synSeg_suffix ha
      split at h
      · simp only [Prod.mk.injEq, Option.map_eq_some_iff] at h
        obtain ⟨⟨segs', hs, rfl⟩, _⟩ := h
        have h2 := synSegs_idents hv (Prod.ext hs rfl)
        intro x hx i hi
        rcases List.mem_cons.mp hx with rfl | hx
        · exact h1 i hi
        · rw [hu, idents_append, List.mem_append]
          exact .inr (drop_idents 2 _ i (h2 x hx i hi))
      · simp only [Prod.mk.injEq, Option.some.injEq] at h
        rw [← h.1]
        simpa using h1

theorem synPaths_verbatim (hv : ga.Verbatim) : (synPaths ga).Verbatim := by
  intro ts p rest h
  have h : synRun ga ts = (some p, rest) := h
  unfold synRun at h
  simp only [Prod.mk.injEq, Option.map_eq_some_iff] at h
  obtain ⟨⟨segs, hs, rfl⟩, _⟩ := h
  have h1 := synSegs_idents hv (Prod.ext hs rfl)
  intro i hi
  simp only [Path.idents, List.mem_flatMap] at hi
  obtain ⟨seg, hseg, hi⟩ := hi
  have := h1 seg hseg i hi
  split at this
  · exact drop_idents 2 ts i this
  · exact this

theorem toksLen_drop (n : Nat) (ts : Toks) : toksLen (ts.drop n) ≤ toksLen ts := by
  have := toksLen_append (ts.take n) (ts.drop n)
  rw [List.take_append_drop] at this
  omega

/-- The length of generic arguments as they are written. -/
def synArgsLen (as : List SynArg) : Nat := (as.map fun a => toksLen a.toks + if a.comma then 2 else 0).sum

/-- All but the last argument are followed by a comma. -/
def CommasBetween : List SynArg → Prop
  | [] => True
  | [_] => True
  | a :: b :: as => a.comma = true ∧ CommasBetween (b :: as)

theorem synArgs_len (hv : ga.Sparing) : ∀ {n : Nat} {ts r : Toks} {as : List SynArg},
    synArgs ga n ts = (some as, r) → synArgsLen as + toksLen r ≤ toksLen ts ∧ CommasBetween as
  | 0, _, _, _, h => by simp [synArgs] at h
  | n + 1, ts, r, as, h => by
    unfold synArgs at h
    split at h
    · simp only [Prod.mk.injEq, Option.some.injEq] at h
      simp [← h.1, h.2, synArgsLen, CommasBetween]
    · split at h
      · simp at h
      · rename_i lt a r0 ha
        have h1 : toksLen a + toksLen r0 ≤ toksLen ts := by
          have hga : ((ga.run ts).1.map (false, ·), (ga.run ts).2) = (some (lt, a), r0) →
              toksLen a + toksLen r0 ≤ toksLen ts := by
            intro h
            match hr : ga.run ts with
            | (none, _) => simp [hr] at h
            | (some a, y) =>
              simp only [hr, Option.map_some, Prod.mk.injEq, Option.some.injEq] at h
              rw [← h.1.2, ← h.2]
              exact hv hr
          unfold synArg at ha
          split at ha
          · split at ha
            · exact hga ha
            · simp only [Prod.mk.injEq, Option.some.injEq] at ha
              rw [← ha.1.2, ← ha.2]
              simp [toksLen]; omega
          · exact hga ha
        split at h
        · simp only [Prod.mk.injEq, Option.some.injEq] at h
          rw [← h.1, ← h.2]
          simpa [synArgsLen, CommasBetween] using h1
        · split at h
          · rename_i hc
            simp only [Prod.mk.injEq, Option.map_eq_some_iff] at h
            obtain ⟨⟨as', hs, rfl⟩, rfl⟩ := h
            have h2 := synArgs_len hv (r := (synArgs ga n _).2) (Prod.ext hs rfl)
            obtain ⟨s, r1, rfl⟩ := synPeek_cons hc
            simp only [List.drop_succ_cons, List.drop_zero] at h2 ⊢
            refine ⟨?_, ?_⟩
            · simp [synArgsLen, toksLen, TT.len] at h1 h2 ⊢
              omega
            · cases as' with
              | nil => trivial
              | cons b as' => exact ⟨rfl, h2.2⟩
          · simp at h

/-- What the first (`lt`) or second loop prints. -/
theorem printArgs_len (lt : Bool) : ∀ (sep : Bool) (as : List SynArg), CommasBetween as →
    toksLen (printArgs lt sep as).1 ≤
      (as.map fun a => if a.lifetime = lt then toksLen a.toks + (if a.comma then 2 else 0) else 0).sum +
        (if sep then 0 else 2)
  | sep, [], _ => by simp [printArgs, toksLen]
  | sep, [a], _ => by
    unfold printArgs
    split
    · cases sep <;> cases hc : a.comma <;> simp [printArgs, toksLen_append, toksLen, TT.len, hc, *] <;> omega
    · simp [printArgs, toksLen, *]
  | sep, a :: b :: as, h => by
    have ih := fun sep => printArgs_len lt sep (b :: as) h.2
    unfold printArgs
    split
    · rename_i hl
      have := ih true
      rw [List.map_cons, List.sum_cons, if_pos hl]
      simp only [h.1, if_true, toksLen_append] at this ⊢
      have hc : ∀ b : Bool, toksLen (if b then [] else [.punct ',' .alone]) = if b then 0 else 2 := by
        intro b; cases b <;> simp [toksLen, TT.len]
      rw [hc]
      simp only [toksLen, TT.len]
      omega
    · rename_i hl
      have := ih sep
      rw [List.map_cons, List.sum_cons, if_neg hl]
      omega

theorem printedArgs_len {as : List SynArg} (h : CommasBetween as) : toksLen (printedArgs as) ≤ synArgsLen as + 2 := by
  have h1 := printArgs_len true true as h
  have h2 := printArgs_len false (printArgs true true as).2 as h
  have h3 : (as.map fun a => if a.lifetime = true then toksLen a.toks + (if a.comma then 2 else 0) else 0).sum +
      (as.map fun a => if a.lifetime = false then toksLen a.toks + (if a.comma then 2 else 0) else 0).sum =
      synArgsLen as := by
    clear h h1 h2
    induction as with
    | nil => rfl
    | cons a as ih =>
      simp only [synArgsLen, List.map_cons, List.sum_cons] at ih ⊢
      cases a.lifetime <;> simp <;> omega
  simp only [printedArgs, toksLen_append]
  simp only [if_true] at h1
  have : (if (printArgs true true as).2 = true then 0 else 2) ≤ 2 := by split <;> omega
  omega

theorem synAngle_len (hv : ga.Sparing) {b : Bool} {s : Spacing} {ts r : Toks} {a : PathArgs}
    (h : synAngle ga b (.punct '<' s :: ts) = (some a, r)) : a.len + toksLen r + 2 ≤ toksLen (.punct '<' s :: ts) := by
  unfold synAngle at h
  split at h
  · simp at h
  · rename_i as r0 hs
    simp only [Prod.mk.injEq, Option.some.injEq] at h
    obtain ⟨h1, h2⟩ := synArgs_len hv hs
    have h3 := printedArgs_len h2
    obtain ⟨u, hu, hp⟩ := synArgs_suffix hs
    obtain ⟨s', r1, rfl⟩ := synPeek_cons (hp (by simp))
    rw [← h.1, ← h.2]
    simp [toksLen, TT.len, PathArgs.len] at h1 ⊢
    omega

theorem synSeg_len (hv : ga.Sparing) {ts r : Toks} {seg : PathSeg} (h : synSeg ga ts = (some seg, r)) :
    seg.ident.len + 1 + seg.args.len + toksLen r ≤ toksLen ts := by
  unfold synSeg at h
  split at h
  · rename_i i r0
    have hn : ∀ seg : PathSeg, PathSeg.mk i .none = seg → r0 = r →
        seg.ident.len + 1 + seg.args.len + toksLen r ≤ toksLen (.ident i :: r0) := by
      rintro _ rfl rfl
      simp [PathArgs.len, toksLen, TT.len]
    split at h
    · simp only [Prod.mk.injEq, Option.some.injEq] at h
      exact hn _ h.1 h.2
    · split at h
      · split at h
        · rename_i hc
          obtain ⟨s, r1, rfl⟩ := synPeek_cons (Bool.and_eq_true _ _ ▸ hc).1
          simp only [Prod.mk.injEq, Option.map_eq_some_iff] at h
          obtain ⟨⟨a, ha, rfl⟩, rfl⟩ := h
          have := synAngle_len hv (r := (synAngle ga false _).2) (Prod.ext ha rfl)
          simp only [toksLen, TT.len] at this ⊢
          omega
        · split at h
          · rename_i hc
            obtain ⟨s, r1, rfl⟩ := synPeek2_cons (Bool.and_eq_true _ _ ▸ hc).1
            obtain ⟨s', r2, h2⟩ := synPeek_cons (Bool.and_eq_true _ _ ▸ hc).2
            simp only [List.drop_succ_cons, List.drop_zero] at h2 h
            subst h2
            simp only [Prod.mk.injEq, Option.map_eq_some_iff] at h
            obtain ⟨⟨a, ha, rfl⟩, rfl⟩ := h
            have := synAngle_len hv (r := (synAngle ga true _).2) (Prod.ext ha rfl)
            simp only [toksLen, TT.len] at this ⊢
            omega
          · simp only [Prod.mk.injEq, Option.some.injEq] at h
            exact hn _ h.1 h.2
      · simp at h
  · simp at h

theorem synSegs_len (hv : ga.Sparing) : ∀ {n : Nat} {ts r : Toks} {segs : List PathSeg},
    synSegs ga n ts = (some segs, r) →
    (segs.map fun seg => seg.ident.len + 1 + seg.args.len).sum + toksLen r ≤ toksLen ts
  | 0, _, _, _, h => by simp [synSegs] at h
  | n + 1, ts, r, segs, h => by
    unfold synSegs at h
    split at h
    · simp at h
    · rename_i seg r0 ha
      have h1 := synSeg_len hv ha
      split at h
      · simp only [Prod.mk.injEq, Option.map_eq_some_iff] at h
        obtain ⟨⟨segs', hs, rfl⟩, rfl⟩ := h
        have h2 := synSegs_len hv (r := (synSegs ga n _).2) (Prod.ext hs rfl)
        have h3 := toksLen_drop 2 r0
        simp only [List.map_cons, List.sum_cons]
        omega
      · simp only [Prod.mk.injEq, Option.some.injEq] at h
        rw [← h.1, ← h.2]
        simpa using h1

theorem synPaths_sparing (hv : ga.Sparing) : (synPaths ga).Sparing := by
  intro ts p rest h
  have h : synRun ga ts = (some p, rest) := h
  unfold synRun at h
  simp only [Prod.mk.injEq, Option.map_eq_some_iff] at h
  obtain ⟨⟨segs, hs, rfl⟩, rfl⟩ := h
  have h1 := synSegs_len hv (Prod.ext hs rfl)
  simp only [Path.len]
  refine Nat.le_trans h1 ?_
  split
  · exact toksLen_drop 2 ts
  · exact Nat.le_refl _

end Mview
