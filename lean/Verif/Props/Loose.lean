import Verif.Lemmas.Loose
import Verif.Props.Safety
/-
C55: whether the input is valid or not, the macro does not look at what is in brackets, in blocks after an
`=` and in `{..}`, nor at the spacing of most punctuation.
-/

-- the linter does not see variables used inside `q!"..."`
set_option linter.unusedVariables false

namespace Mview
open Lex

variable {R : Toks → Toks → Prop} {pp : PathParser} {s : Sched} {ts ts' : Toks}

theorem impl_alike (hl : Like R ts ts') (hs : pp.SameIn R ts ts') :
    OutAlike (Alike (Loose R)) (mviewImpl pp s ts) (mviewImpl pp s ts') := by
  have h := (tree_agree hs (max (fuelFor ts) (fuelFor ts'))).2.2 ts ts' (.inl ⟨.here, hl⟩)
  rw [childrenF_of_large pp ts (Nat.le_max_left _ _), childrenF_of_large pp ts' (Nat.le_max_right _ _)] at h
  refine OutAlike.bind h fun r r' hr => ?_
  cases hr with
  | ok h _ => exact (root_alike s h).mono fun _ _ h => h.join
  | err e => exact .pure .nil

/-- C55.  Two inputs, valid or not, that differ in what the macro does not look at have the same result but for
that: the same errors, or expansions that are the same everywhere else. -/
theorem unseen_opaque (hl : Like R ts ts') (hs : pp.SameIn R ts ts') :
    (mview pp s ts).Alike (Loose R) (mview pp s ts') := by
  have h := impl_alike (s := s) hl hs
  have ht := mview_terminates pp s ts
  unfold mview at ht ⊢
  generalize mviewImpl pp s ts = x, mviewImpl pp s ts' = y at h ht
  cases h with
  | ret ds h =>
    cases ds with
    | nil => exact .tokens h
    | cons d ds => exact .errors _ _
  | abort ds => exact .errors _ _
  | panic p => exact .panicked p
  | diverge => exact absurd rfl ht

/-- C55 with the feature `nightly`: also what is generated in spite of errors is the same everywhere else. -/
theorem nightly_unseen_opaque (hl : Like R ts ts') (hs : pp.SameIn R ts ts') :
    (mviewNightly pp s ts).Alike (Loose R) (mviewNightly pp s ts') := by
  have h := impl_alike (s := s) hl hs
  have ht := mview_terminates pp s ts
  unfold mview at ht
  unfold mviewNightly
  generalize mviewImpl pp s ts = x, mviewImpl pp s ts' = y at h ht
  cases h with
  | ret ds h => exact .done ds h
  | abort ds => exact .done ds (.refl _)
  | panic p => exact .panicked p
  | diverge => exact absurd rfl ht

/-! ### `simplePaths` -/

/-- The same was read, and the same follows. -/
def BodyAlike (R : Toks → Toks → Prop) (x y : Toks × Toks) : Prop :=
  Alike (Loose R) x.1 y.1 ∧ Like R x.2 y.2

theorem angle_other {t : TT} (h1 : ∀ s, t ≠ .punct '>' s) (h2 : ∀ s, t ≠ .punct '<' s) (d : Nat) (ts : Toks) :
    angleBody d (t :: ts) = (angleBody d ts).map fun x => (t :: x.1, x.2) := by
  rcases t with _ | ⟨c, s⟩ | _ | _ <;> try rfl
  rw [angleBody]
  · exact h1
  · exact h2

theorem optRel_map {α β γ δ : Type} {Q : α → β → Prop} {S : γ → δ → Prop} {f : α → γ} {g : β → δ}
    (hf : ∀ a b, Q a b → S (f a) (g b)) {x : Option α} {y : Option β} (h : Option.Rel Q x y) :
    Option.Rel S (x.map f) (y.map g) := by
  cases h with
  | none => exact .none
  | some h => exact .some (hf _ _ h)

theorem angle_punct (c : Char) (s s' : Spacing) (hc : c ∈ together → s = s') {a a' : Toks} (h : Like R a a')
    (ih : ∀ d, Option.Rel (BodyAlike R) (angleBody d a) (angleBody d a')) (d : Nat) :
    Option.Rel (BodyAlike R) (angleBody d (.punct c s :: a)) (angleBody d (.punct c s' :: a')) := by
  have put : ∀ x y, BodyAlike R x y → BodyAlike R (.punct c s :: x.1, x.2) (.punct c s' :: y.1, y.2) := by
    rintro x y ⟨h1, h2⟩
    refine ⟨?_, h2⟩
    by_cases hm : c ∈ together
    · rw [hc hm]; exact .tok _ h1
    · exact .piece (a := [_]) (a' := [_]) (.space hm s s') h1
  by_cases h1 : c = '>'
  · subst h1
    cases d with
    | zero => exact .some ⟨.nil, h⟩
    | succ d => exact optRel_map put (ih d)
  · by_cases h2 : c = '<'
    · subst h2; exact optRel_map put (ih (d + 1))
    · rw [angle_other (by simp [h1]) (by simp [h2]), angle_other (by simp [h1]) (by simp [h2])]
      exact optRel_map put (ih d)

theorem angleBody_alike {a a' : Toks} (h : Like R a a') :
    ∀ d, Option.Rel (BodyAlike R) (angleBody d a) (angleBody d a') := by
  induction h with
  | nil => intro d; exact .none
  | tok t h ih =>
    intro d
    cases t with
    | punct c s => exact angle_punct c s s (fun _ => rfl) h ih d
    | _ => exact optRel_map (fun _ _ h => ⟨.tok _ h.1, h.2⟩) (ih d)
  | space hc s s' h ih => intro d; exact angle_punct _ s s' (fun h => absurd h hc) h ih d
  | group dl h _ _ ih => intro d; exact optRel_map (fun _ _ h' => ⟨.group _ h.alike h'.1, h'.2⟩) (ih d)
  | bracket h _ ih => intro d; exact optRel_map (fun _ _ h' => ⟨.group _ (.ofCode (.code h)) h'.1, h'.2⟩) (ih d)
  | other h _ ih =>
    intro d
    exact optRel_map (fun _ _ h' => ⟨.piece (a := [_]) (a' := [_]) (.code h) h'.1, h'.2⟩) (ih d)
  | block s s' h h' ih =>
    intro d
    have e : ∀ (s : Spacing) (g b : Toks), angleBody d (.punct '=' s :: .group .brace g :: b) =
        (angleBody d b).map fun x => (.punct '=' s :: .group .brace g :: x.1, x.2) := by
      intro s g b
      simp [angleBody, Option.map_map, Function.comp_def]
    rw [e, e]
    exact optRel_map (fun _ _ h' => ⟨.piece (a := [_]) (a' := [_]) (.space (by decide) s s')
      (.group _ (.ofCode (.code h)) h'.1), h'.2⟩) (ih d)
  | lit s s' h h' ih =>
    intro d
    have e : ∀ (s : Spacing) (l : Lit) (b : Toks), angleBody d (.punct '=' s :: .lit l :: b) =
        (angleBody d b).map fun x => (.punct '=' s :: .lit l :: x.1, x.2) := by
      intro s l b
      simp [angleBody, Option.map_map, Function.comp_def]
    rw [e, e]
    exact optRel_map (fun _ _ h' => ⟨.piece (a := [_]) (a' := [_]) (.space (by decide) s s')
      (.piece (a := [_]) (a' := [_]) (.code h) h'.1), h'.2⟩) (ih d)
  | spread s h _ ih =>
    intro d
    exact optRel_map (fun _ _ h' => ⟨.group _ (.tok _ (.tok _ (.ofCode (.code h)))) h'.1, h'.2⟩) (ih d)

/-- Everything is at the same place in itself. -/
theorem Like.at {a a' : Toks} (h : Like R a a') : At R a a' a a' := ⟨.here, h⟩

theorem like_drop_colons {a a' : Toks} (h : Like R a a') (hc : peekPunct2 ':' ':' a = true) :
    Like R (a.drop 2) (a'.drop 2) := by
  cases h.at.heads with
  | punct hs k k' =>
    rw [peekPunct2_cons] at hc
    simp only [Bool.and_eq_true, decide_eq_true_eq] at hc
    cases (k' (by rw [hc.1.1]; decide)).heads with
    | punct hs2 k2 k2' =>
      simp only [peekPunct, decide_eq_true_eq] at hc
      exact (k2' (by rw [hc.2]; decide)).2
    | _ => simp [peekPunct] at hc
  | _ => simp [peekPunct2] at hc

theorem like_drop_angle {a a' : Toks} (h : Like R a a') (hc : peekPunct '<' a = true) :
    Like R (a.drop 1) (a'.drop 1) := by
  cases h.at.heads with
  | punct hs k k' =>
    simp only [peekPunct, decide_eq_true_eq] at hc
    exact (k' (by rw [hc]; decide)).2
  | _ => simp [peekPunct] at hc

theorem simpleArgs_alike {a a' : Toks} (h : Like R a a') :
    Option.Rel (fun x y => x.1.Alike (Loose R) y.1 ∧ Like R x.2 y.2) (simpleArgs a) (simpleArgs a') := by
  unfold simpleArgs
  rw [h.at.past.peekPunct, h.at.past.peekPunct2 (by decide)]
  by_cases h1 : peekPunct '<' a' = true
  · rw [if_pos h1, if_pos h1]
    have hd := like_drop_angle h (h.at.past.peekPunct '<' ▸ h1)
    exact optRel_map (fun _ _ h => ⟨.angle _ h.1, h.2⟩) (angleBody_alike hd 0)
  · rw [if_neg h1, if_neg h1]
    cases h2 : peekPunct2 ':' ':' a' with
    | false => exact .some ⟨.none, h⟩
    | true =>
      have hd := like_drop_colons h (h.at.past.peekPunct2 (c := ':') (by decide) ':' ▸ h2)
      rw [hd.at.past.peekPunct, Bool.true_and]
      by_cases h3 : peekPunct '<' (a'.drop 2) = true
      · rw [if_pos h3, if_pos h3]
        have hd3 := like_drop_angle hd (hd.at.past.peekPunct '<' ▸ h3)
        rw [List.drop_drop, List.drop_drop] at hd3
        exact optRel_map (fun _ _ h => ⟨.angle _ h.1, h.2⟩) (angleBody_alike hd3 0)
      · rw [if_neg h3, if_neg h3]
        exact .some ⟨.none, h⟩

theorem simpleSegs_alike (n : Nat) : ∀ {a a' : Toks}, Like R a a' →
    Option.Rel (fun x y => List.Forall₂ (PathSeg.Alike (Loose R)) x.1 y.1 ∧ Like R x.2 y.2) (simpleSegs n a)
      (simpleSegs n a') := by
  induction n with
  | zero => intro a a' h; exact .none
  | succ n ih =>
    intro a a' h
    cases h.at.heads with
    | ident i k =>
      have ha := simpleArgs_alike k.2
      rename_i b b'
      simp only [simpleSegs]
      generalize simpleArgs b = x, simpleArgs b' = y at ha
      cases ha with
      | none => exact .none
      | some ha =>
        rename_i x y
        obtain ⟨h1, h2⟩ := ha
        dsimp only
        rw [h2.at.past.peekPunct2 (by decide)]
        cases h3 : peekPunct2 ':' ':' y.2 with
        | false => exact .some ⟨.cons (.mk i h1) .nil, h2⟩
        | true =>
          have hd := like_drop_colons h2 (h2.at.past.peekPunct2 (c := ':') (by decide) ':' ▸ h3)
          exact optRel_map (fun _ _ h => ⟨.cons (.mk i h1) h.1, h.2⟩) (ih hd)
    | _ => exact .none

/-- The path parser of the examples does not look at these things either. -/
theorem simplePaths_same : simplePaths.SameIn R ts ts' := by
  intro a a' _ h _
  show PathsAlike R (simpleRun a) (simpleRun a')
  unfold simpleRun
  dsimp only
  rw [h.at.past.peekPunct2 (by decide), h.length]
  have hd : Like R (if peekPunct2 ':' ':' a' = true then a.drop 2 else a)
      (if peekPunct2 ':' ':' a' = true then a'.drop 2 else a') := by
    split
    · rename_i hc
      exact like_drop_colons h (h.at.past.peekPunct2 (c := ':') (by decide) ':' ▸ hc)
    · exact h
  generalize (if peekPunct2 ':' ':' a' = true then a.drop 2 else a) = b,
    (if peekPunct2 ':' ':' a' = true then a'.drop 2 else a') = b' at hd
  have hs := simpleSegs_alike (a'.length + 1) hd
  generalize simpleSegs _ b = x, simpleSegs _ b' = y at hs
  cases hs with
  | none => exact .error h
  | some hs => exact .path (.mk _ hs.1) hs.2

/-- The errors are found on one input and are those of the other. -/
example (s : Sched) :
    mview simplePaths s t!"p a={1 + 1} b=2 {..h i} e=|x| f[] 'c' ; ;" = mview simplePaths s t!"p a={one} b=\"c\" {..d} e= |x| f[g] 'd' ;;" ∧
      mview simplePaths s t!"p a={one} b=\"c\" {..d} e= |x| f[g] 'd' ;;" = .errors [.missingValue false,
        .expectedChildrenBlock, .nonStringChild, .extraSemicolon, .extraSemicolon] dummy := by
  have hl : Like (fun _ _ => True) t!"p a={one} b=\"c\" {..d} e= |x| f[g] 'd' ;;"
      t!"p a={1 + 1} b=2 {..h i} e=|x| f[] 'c' ; ;" := by
    refine .tok _ (.tok _ (.block _ _ trivial (.tok _ (.lit _ _ trivial (.spread _ trivial (.tok _
      (.space (by decide) _ _ (.tok _ (.tok _ (.tok _ (.tok _ (.bracket trivial (.other trivial
      (.space (by decide) _ _ (.tok _ .nil)))))))))))))))
  have h := unseen_opaque (s := s) hl simplePaths_same
  have e : mview simplePaths s t!"p a={one} b=\"c\" {..d} e= |x| f[g] 'd' ;;" = .errors [.missingValue false,
        .expectedChildrenBlock, .nonStringChild, .extraSemicolon, .extraSemicolon] dummy := rfl
  rw [e] at h ⊢
  cases hx : mview simplePaths s t!"p a={1 + 1} b=2 {..h i} e=|x| f[] 'c' ; ;" <;> rw [hx] at h <;> cases h
  exact ⟨rfl, rfl⟩

/-- The spacing of `:` does matter. -/
example : (∃ out, mview simplePaths (fun _ => []) t!"a::B;" = .tokens out) ∧
    mview simplePaths (fun _ => []) t!"a: :B;" = .errors [.unknownAttribute, .childrenNotFound, .synError .invalidChild]
      dummy := by
  exact ⟨⟨_, rfl⟩, rfl⟩

end Mview
