import Verif.Lemmas.SameCode
/-
C63: paths.
-/

-- the linter does not see variables used inside `q!"..."`
set_option linter.unusedVariables false

namespace Mview
open Lex

theorem segMeans_view (s : PathSeg) : PathSeg.means ⟨s.ident, s.args.view⟩ = s.means := by
  obtain ⟨i, a⟩ := s
  cases a <;> simp [PathSeg.means, PathArgs.means, PathArgs.view]

theorem pathMeans_view (p : Path) : p.view.means = p.means := by
  have h : ∀ l : List PathSeg, (l.map fun s => (⟨s.ident, s.args.view⟩ : PathSeg)).mapM PathSeg.means =
      l.mapM PathSeg.means := by
    intro l
    induction l with
    | nil => rfl
    | cons s l ih => simp [List.mapM_cons, segMeans_view, ih]
  unfold Path.means Path.view
  rw [h]

/-- the same path has the same code -/
theorem path_same {p p' : Path} (h : p.view = p'.view) : p.means = p'.means := by
  rw [← pathMeans_view, h, pathMeans_view]

/-- where balanced tokens end -/
theorem Angles.ends {a b r r' : Toks} {s s' : Spacing} (ha : Angles a) (hb : Angles b)
    (h : a ++ .punct '>' s :: r = b ++ .punct '>' s' :: r') : a = b ∧ r = r' := by
  induction ha generalizing b r r' s s' with
  | nil =>
    cases hb with
    | nil => simp at h; exact ⟨rfl, h.2⟩
    | arrow _ => simp at h
    | nested _ _ => simp at h
    | other hx _ _ =>
      simp at h
      exact absurd rfl (hx _ _ h.1.symm).2
  | arrow _ ih =>
    cases hb with
    | nil => simp at h
    | arrow hb =>
      simp at h
      obtain ⟨rfl, h⟩ := h
      obtain ⟨rfl, rfl⟩ := ih hb h
      exact ⟨rfl, rfl⟩
    | nested _ _ => simp at h
    | other _ hx _ =>
      simp at h
      exact absurd h.1.symm hx
  | nested _ _ ih1 ih2 =>
    cases hb with
    | nil => simp at h
    | arrow hb => simp at h
    | nested hb1 hb2 =>
      simp only [List.cons_append, List.append_assoc, List.cons.injEq, TT.punct.injEq, true_and] at h
      obtain ⟨rfl, h⟩ := h
      obtain ⟨rfl, h2⟩ := ih1 hb1 h
      have h3 := (List.append_cancel_left h)
      simp only [List.cons.injEq, TT.punct.injEq, true_and] at h3
      obtain ⟨rfl, -⟩ := h3
      obtain ⟨rfl, rfl⟩ := ih2 hb2 h2
      exact ⟨rfl, rfl⟩
    | other hx _ _ =>
      simp at h
      exact absurd rfl (hx _ _ h.1.symm).1
  | other hx hy _ ih =>
    cases hb with
    | nil =>
      simp at h
      exact absurd rfl (hx _ _ h.1).2
    | arrow hb =>
      simp at h
      exact absurd h.1 hy
    | nested _ _ =>
      simp at h
      exact absurd rfl (hx _ _ h.1).1
    | other hx' _ hb =>
      simp at h
      obtain ⟨rfl, h⟩ := h
      obtain ⟨rfl, rfl⟩ := ih hb h
      exact ⟨rfl, rfl⟩

/-- segments as generated -/
def segsCode : List PathSeg → Toks
  | [] => []
  | s :: ss =>
    let i := s.ident
    let a := (s.args.means).getD []
    let rest := segsCode ss
    if ss = [] then q!"#i #a" else q!"#i #a :: #rest"

theorem segs_means {l : List PathSeg} {q : List Toks} (h : l.mapM PathSeg.means = some q) :
    (∀ s ∈ l, ∀ i, s.args ≠ .paren i) ∧ joinColons q = segsCode l := by
  induction l generalizing q with
  | nil => simp at h; subst h; simp [joinColons, segsCode]
  | cons s l ih =>
    simp only [List.mapM_cons, Option.bind_eq_bind, Option.bind_eq_some_iff, Option.pure_def, Option.some.injEq] at h
    obtain ⟨t, ht, q', hq, rfl⟩ := h
    obtain ⟨h1, h2⟩ := ih hq
    obtain ⟨i, a⟩ := s
    simp only [PathSeg.means, Option.bind_eq_bind, Option.bind_eq_some_iff, Option.pure_def, Option.some.injEq] at ht
    obtain ⟨x, hx, rfl⟩ := ht
    refine ⟨?_, ?_⟩
    · intro s' hs'
      rcases List.mem_cons.mp hs' with rfl | hs'
      · intro i hi
        simp only at hi
        subst hi
        simp [PathArgs.means] at hx
      · exact h1 s' hs'
    · cases l with
      | nil =>
        simp at hq
        subst hq
        simp [joinColons, segsCode, hx]
      | cons s' l =>
        cases q' with
        | nil =>
          simp [List.mapM_cons, Option.bind_eq_some_iff] at hq
        | cons y q' =>
          simp only [joinColons]
          rw [segsCode, h2]
          simp [hx]

theorem segs_inj {l l' : List PathSeg} (h : segsCode l = segsCode l') (hp : ∀ s ∈ l, ∀ i, s.args ≠ .paren i)
    (hp' : ∀ s ∈ l', ∀ i, s.args ≠ .paren i) (ha : ∀ s ∈ l, ∀ t i, s.args = .angle t i → Angles i)
    (ha' : ∀ s ∈ l', ∀ t i, s.args = .angle t i → Angles i) :
    (l.map fun s => (⟨s.ident, s.args.view⟩ : PathSeg)) = l'.map fun s => ⟨s.ident, s.args.view⟩ := by
  induction l generalizing l' with
  | nil =>
    cases l' with
    | nil => rfl
    | cons s l' =>
      rw [segsCode, segsCode] at h
      split at h <;> simp at h
  | cons s l ih =>
    cases l' with
    | nil =>
      rw [segsCode, segsCode] at h
      split at h <;> simp at h
    | cons s' l' =>
      have ih := fun hh => ih (l' := l') hh (fun s hs => hp s (by simp [hs])) (fun s hs => hp' s (by simp [hs]))
        (fun s hs => ha s (by simp [hs])) (fun s hs => ha' s (by simp [hs]))
      obtain ⟨i, a⟩ := s
      obtain ⟨i', a'⟩ := s'
      have q := hp _ (by simp : (⟨i, a⟩ : PathSeg) ∈ _)
      have q' := hp' _ (by simp : (⟨i', a'⟩ : PathSeg) ∈ _)
      have b := ha _ (by simp : (⟨i, a⟩ : PathSeg) ∈ _)
      have b' := ha' _ (by simp : (⟨i', a'⟩ : PathSeg) ∈ _)
      have first : ∀ s l, ∃ r, segsCode (s :: l) = .ident s.ident :: r := by
        intro s l
        rw [segsCode]
        split <;> simp
      have key : i = i' ∧ a.view = a'.view ∧ segsCode l = segsCode l' := by
        rw [segsCode, segsCode] at h
        cases a with
        | paren x => exact absurd rfl (q x)
        | none =>
          cases a' with
          | paren x => exact absurd rfl (q' x)
          | none =>
            refine ⟨?_, rfl, ?_⟩
            · split at h <;> split at h <;> simp at h <;> simp [h]
            · split at h <;> split at h <;> rename_i e1 e2 <;> simp [PathArgs.means] at h
              · rw [e1, e2]
              · exact h.2
          | angle t x =>
            exfalso
            split at h
            · split at h <;> simp [PathArgs.means] at h
            · rename_i e1
              obtain ⟨z, l2, rfl⟩ := List.exists_cons_of_ne_nil e1
              obtain ⟨r, hr⟩ := first z l2
              split at h <;> simp [PathArgs.means, hr] at h
        | angle t x =>
          cases a' with
          | paren x => exact absurd rfl (q' x)
          | none =>
            exfalso
            split at h
            · split at h
              · simp [PathArgs.means] at h
              · rename_i e1
                obtain ⟨z, l2, rfl⟩ := List.exists_cons_of_ne_nil e1
                obtain ⟨r, hr⟩ := first z l2
                simp [PathArgs.means, hr] at h
            · split at h
              · simp [PathArgs.means] at h
              · rename_i e1
                obtain ⟨z, l2, rfl⟩ := List.exists_cons_of_ne_nil e1
                obtain ⟨r, hr⟩ := first z l2
                simp [PathArgs.means, hr] at h
          | angle t' x' =>
            have b := b _ _ rfl
            have b' := b' _ _ rfl
            have lem : ∀ {u v : Toks}, x ++ .punct '>' .alone :: u = x' ++ .punct '>' .alone :: v → x = x' ∧ u = v :=
              fun h => b.ends b' h
            split at h <;> split at h <;> rename_i e1 e2 <;> simp [PathArgs.means] at h
            · obtain ⟨rfl, h⟩ := h
              subst h
              exact ⟨rfl, rfl, by rw [e1, e2]⟩
            · have := (lem h.2).2; simp at this
            · have := (lem h.2).2; simp at this
            · obtain ⟨rfl, h⟩ := h
              obtain ⟨rfl, h2⟩ := lem h
              simp at h2
              exact ⟨rfl, rfl, h2⟩
      obtain ⟨rfl, k1, k2⟩ := key
      simp [k1, ih k2]

/-- the code of a path tells the path -/
theorem path_inj {p p' : Path} (hp : p.plain) (hp' : p'.plain) (h : ∃ q, p.means = some q) (he : p.means = p'.means) :
    p.view = p'.view := by
  obtain ⟨q, hq⟩ := h
  rw [hq] at he
  obtain ⟨l, segs⟩ := p
  obtain ⟨l', segs'⟩ := p'
  have he := he.symm
  simp only [Path.means, Option.bind_eq_bind, Option.bind_eq_some_iff, Option.pure_def, Option.some.injEq] at hq he
  obtain ⟨x, hx, rfl⟩ := hq
  obtain ⟨x', hx', he⟩ := he
  obtain ⟨a1, a2⟩ := segs_means hx
  obtain ⟨b1, b2⟩ := segs_means hx'
  rw [a2, b2] at he
  have first : ∀ (l : List PathSeg) c s r, segsCode l ≠ .punct c s :: r := by
    intro l c s r
    cases l with
    | nil => simp [segsCode]
    | cons s l => rw [segsCode]; split <;> simp
  have key : l = l' ∧ segsCode segs = segsCode segs' := by
    cases l <;> cases l' <;> simp at he
    · exact ⟨rfl, he.symm⟩
    · exact absurd he.symm (first _ _ _ _)
    · exact absurd he (first _ _ _ _)
    · exact ⟨rfl, he.symm⟩
  obtain ⟨rfl, key⟩ := key
  simp only [Path.view, Path.mk.injEq, true_and]
  exact segs_inj key a1 b1 hp hp'

end Mview
