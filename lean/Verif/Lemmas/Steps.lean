import Verif.Steps.Parse
import Verif.Lemmas.Basic
/-
How many steps the parsers take.
-/

namespace Mview.Steps

variable {α β : Type} {pp : PathParser} {ts : Toks}

/-- What holds of the steps and the result, if there is one, an error, or no result. -/
def After (x : Nat × Out (PR α)) (ok : Nat → α → Toks → Prop) (err : Nat → Toks → Prop) (stop : Nat → Prop) :
    Prop :=
  match x with
  | (n, .ret _ (.ok a r)) => ok n a r
  | (n, .ret _ (.err _ r)) => err n r
  | (n, .abort _) => stop n
  | (n, .panic _) => stop n
  | (n, .diverge) => stop n

section
variable {ok ok' : Nat → α → Toks → Prop} {err err' : Nat → Toks → Prop} {stop stop' : Nat → Prop}

theorem After.mono {x : Nat × Out (PR α)} (h : After x ok err stop) (ho : ∀ n a r, ok n a r → ok' n a r)
    (he : ∀ n r, err n r → err' n r) (hs : ∀ n, stop n → stop' n) : After x ok' err' stop' := by
  rcases x with ⟨n, o⟩
  cases o with
  | ret ds r => cases r with
    | ok a r => exact ho _ _ _ h
    | err e r => exact he _ _ h
  | _ => exact hs _ h

theorem After.bind {p : C α} {f : α → C β} {ok : Nat → β → Toks → Prop}
    (h : After (p ts) (fun n a r => After (f a r) (fun m => ok (n + m)) (fun m => err (n + m))
      (fun m => stop (n + m))) err stop) : After ((p >>= f) ts) ok err stop := by
  show After (C.bind p f ts) _ _ _
  unfold C.bind
  revert h
  rcases p ts with ⟨n, o⟩
  cases o with
  | ret ds r => cases r with
    | ok a r =>
      intro h
      simp only [After] at h ⊢
      revert h
      rcases f a r with ⟨m, o⟩
      cases o with
      | ret ds' r' => cases r' <;> exact fun h => h
      | _ => exact fun h => h
    | err e r => exact fun h => h
  | _ => exact fun h => h

theorem After.pure {a : α} (h : ok 0 a ts) : After ((pure a : C α) ts) ok err stop := h

theorem After.look {k : Nat} {ok : Nat → Toks → Toks → Prop} (h : ok k ts ts) :
    After (Steps.look k ts) ok err stop := h

theorem After.emit {d : Diag} {ok : Nat → Unit → Toks → Prop} (h : ok 0 () ts) :
    After (free (emitP d) ts) ok err stop := h

theorem After.fail {e : Err} (h : err 0 ts) : After (free (fail e : P α) ts) ok err stop := h

/-- Something that does not touch the stream. -/
theorem After.lift {o : Out α} (h : ∀ a, ok 0 a ts) (hs : stop 0) : After (free (liftOut o) ts) ok err stop := by
  cases o with
  | ret ds a => exact h a
  | _ => exact hs

theorem After.rollback {p : C α} {ok : Nat → Option α → Toks → Prop}
    (h : After (p ts) (fun n a r => ok (n + 1) (some a) r) (fun n _ => ok (n + 1) none ts) (fun n => stop (n + 1))) :
    After (rollback p ts) ok err stop := by
  unfold Steps.rollback
  revert h
  rcases p ts with ⟨n, o⟩
  cases o with
  | ret ds r => cases r <;> exact fun h => h
  | _ => exact fun h => h

theorem After.unwrapP {s : PanicSite} {p : C α} (h : After (p ts) ok (fun n _ => stop n) stop) :
    After (unwrapP s p ts) ok err stop := by
  unfold Steps.unwrapP
  revert h
  rcases p ts with ⟨n, o⟩
  cases o with
  | ret ds r => cases r <;> exact fun h => h
  | _ => exact fun h => h

theorem After.unwrapOrAbort {p : C α} (h : After (p ts) ok (fun n _ => stop n) stop) :
    After (unwrapOrAbort p ts) ok err stop := by
  unfold Steps.unwrapOrAbort
  revert h
  rcases p ts with ⟨n, o⟩
  cases o with
  | ret ds r => cases r <;> exact fun h => h
  | _ => exact fun h => h

theorem After.caught {p : C α} {ok : Nat → Except Err α → Toks → Prop}
    (h : After (p ts) (fun n a r => ok n (.ok a) r) (fun n r => ∀ e, ok n (.error e) r) stop) :
    After (caught p ts) ok err stop := by
  unfold Steps.caught
  revert h
  rcases p ts with ⟨n, o⟩
  cases o with
  | ret ds r => cases r with
    | ok a r => exact fun h => h
    | err e r => exact fun h => h e
  | _ => exact fun h => h

theorem After.ite {c : Prop} [Decidable c] {p q : C α} (h1 : c → After (p ts) ok err stop)
    (h2 : ¬c → After (q ts) ok err stop) : After ((if c then p else q) ts) ok err stop := by
  split
  · exact h1 ‹_›
  · exact h2 ‹_›
end

/-! ### what a token is allowed to cost -/

mutual
/-- What a token may cost; a group also for having its tokens looked at in vain. -/
def weigh : TT → Nat
  | .group _ ts => 70 + 6 * ts.length + weighs ts
  | _ => 70
def weighs : Toks → Nat
  | [] => 0
  | t :: ts => weigh t + weighs ts
end

theorem weighs_append (a b : Toks) : weighs (a ++ b) = weighs a + weighs b := by
  induction a with
  | nil => simp [weighs]
  | cons t a ih => simp only [List.cons_append, weighs, ih]; omega

theorem weigh_ge (t : TT) : 70 ≤ weigh t := by
  cases t <;> simp only [weigh] <;> omega

theorem weighs_ge (ts : Toks) : 70 * ts.length ≤ weighs ts := by
  induction ts with
  | nil => simp
  | cons t ts ih =>
    have := weigh_ge t
    simp only [weighs, List.length_cons]; omega

mutual
theorem size_weigh : (t : TT) → t.size + 60 ≤ weigh t
  | .group _ ts => by
    have := size_weighs ts
    simp only [TT.size, weigh]; omega
  | .ident _ => by simp [TT.size, weigh]
  | .punct _ _ => by simp [TT.size, weigh]
  | .lit _ => by simp [TT.size, weigh]
theorem size_weighs : (ts : Toks) → toksSize ts ≤ weighs ts
  | [] => by simp [toksSize]
  | t :: ts => by
    have := size_weigh t
    have := size_weighs ts
    simp only [toksSize, weighs]; omega
end

mutual
theorem weigh_le : (t : TT) → weigh t + 6 ≤ 76 * t.size
  | .group _ ts => by
    have := weighs_le ts
    simp only [TT.size, weigh]; omega
  | .ident _ => by simp [TT.size, weigh]
  | .punct _ _ => by simp [TT.size, weigh]
  | .lit _ => by simp [TT.size, weigh]
/-- In all at most 76 for a token. -/
theorem weighs_le : (ts : Toks) → weighs ts + 6 * ts.length ≤ 76 * toksSize ts
  | [] => by simp [weighs]
  | t :: ts => by
    have := weigh_le t
    have := weighs_le ts
    simp only [toksSize, weighs, List.length_cons]; omega
end

/-- `r` is what is left of `ts`. -/
def Left (ts r : Toks) : Prop := ∃ u, ts = u ++ r

theorem Left.refl : Left ts ts := ⟨[], rfl⟩
theorem Left.trans {a b c : Toks} : Left a b → Left b c → Left a c := by
  rintro ⟨u, rfl⟩ ⟨v, rfl⟩; exact ⟨u ++ v, by simp⟩
theorem Left.length {a b : Toks} : Left a b → b.length ≤ a.length := by
  rintro ⟨u, rfl⟩; simp
theorem Left.weight {a b : Toks} : Left a b → weighs b + 70 * a.length ≤ weighs a + 70 * b.length := by
  rintro ⟨u, rfl⟩
  have := weighs_ge u
  simp only [weighs_append, List.length_append]; omega
theorem Left.cons {t : TT} : Left (t :: ts) ts := ⟨[t], rfl⟩

/-- A parser of something that is there: it moves on, or fails where it is. -/
def Eats (p : P α) : Prop := ∀ ts, After (1, p ts) (fun _ _ r => Left ts r ∧ r.length < ts.length)
  (fun _ r => Left ts r) (fun _ => False)

theorem eats_punct (c : Char) : Eats (parsePunct c) := by
  intro ts
  unfold parsePunct
  split
  · split
    · exact ⟨.cons, by simp⟩
    · exact .refl
  · exact .refl

theorem eats_ident : Eats parseIdentAny := by
  intro ts
  unfold parseIdentAny
  split
  · exact ⟨.cons, by simp⟩
  · exact .refl

theorem eats_kw (k : Str) : Eats (parseKw k) := by
  intro ts
  unfold parseKw
  split
  · rename_i h
    cases ts with
    | nil => simp [peekKw] at h
    | cons t ts => exact ⟨.cons, by simp⟩
  · exact .refl

theorem eats_tt : Eats parseTT := by
  intro ts
  unfold parseTT
  split
  · exact ⟨.cons, by simp⟩
  · exact .refl

theorem eats_lit : Eats parseLit := by
  intro ts
  unfold parseLit
  split
  · exact ⟨.cons, by simp⟩
  · split
    · exact ⟨.cons, by simp⟩
    · split
      · exact ⟨.cons, by simp⟩
      · exact .refl
  · exact ⟨⟨[_, _], rfl⟩, by simp; omega⟩
  · exact ⟨⟨[_, _], rfl⟩, by simp; omega⟩
  · exact .refl

theorem eats_litInt : Eats parseLitInt := by
  intro ts
  have h := eats_lit ts
  unfold parseLitInt
  rw [P.bind_apply]
  revert h
  cases parseLit ts with
  | ret ds r => cases r with
    | ok l r =>
      intro h
      cases l with
      | tok l => cases l <;> first | exact h | exact h.1
      | bool b => exact h.1
    | err e r => exact fun h => h
  | _ => exact fun h => h

theorem eats_litStr : Eats parseLitStr := by
  intro ts
  have h := eats_lit ts
  unfold parseLitStr
  rw [P.bind_apply]
  revert h
  cases parseLit ts with
  | ret ds r => cases r with
    | ok l r =>
      intro h
      cases l with
      | tok l => cases l <;> first | exact h | exact h.1
      | bool b => exact h.1
    | err e r => exact fun h => h
  | _ => exact fun h => h

section
variable {err : Nat → Toks → Prop} {stop : Nat → Prop}

theorem After.step {p : P α} {ok : Nat → α → Toks → Prop} (hp : Eats p)
    (h1 : ∀ a r, Left ts r → r.length < ts.length → ok 1 a r) (h2 : ∀ r, Left ts r → err 1 r) :
    After (Steps.step p ts) ok err stop := by
  have h := hp ts
  show After (1, p ts) _ _ _
  revert h
  cases p ts with
  | ret ds r => cases r with
    | ok l r => exact fun h => h1 _ _ h.1 h.2
    | err e r => exact fun h => h2 _ h
  | _ => exact fun h => h.elim

/-- Trying for something takes two steps. -/
theorem After.try {p : P α} {ok : Nat → Option α → Toks → Prop} (hp : Eats p)
    (h1 : ∀ a r, Left ts r → r.length < ts.length → ok 2 (some a) r) (h2 : ok 2 none ts) :
    After (Steps.rollback (Steps.step p) ts) ok err stop :=
  .rollback (.step hp h1 fun _ _ => h2)
end

/-! ### names -/

theorem kebabLoop_steps (fuel : Nat) (b : Bool) (k : KebabIdent) (ts : Toks) :
    After (kebabLoop fuel b k ts)
      (fun n _ r => Left ts r ∧ n ≤ 6 * (ts.length - r.length) + (if b then 8 else 2))
      (fun _ _ => False) (fun n => n ≤ 6 * ts.length + (if b then 8 else 2)) := by
  induction fuel generalizing b k ts with
  | zero => exact Nat.zero_le _
  | succ fuel ih =>
    -- the rest of the loop, and of the iteration
    have next : ∀ (m : Nat) (r : Toks) (k : KebabIdent), Left ts r →
        m + 2 ≤ 6 * (ts.length - r.length) + (if b then 8 else 2) →
        After (kebabLoop fuel false k r)
          (fun n _ r => Left ts r ∧ m + n ≤ 6 * (ts.length - r.length) + (if b then 8 else 2))
          (fun _ _ => False) (fun n => m + n ≤ 6 * ts.length + (if b then 8 else 2)) := by
      intro m r k hl hm
      have hlen := hl.length
      refine (ih false k r).mono (fun n _ r' h => ⟨hl.trans h.1, ?_⟩) (fun _ _ h => h) (fun n h => ?_)
      · have := h.1.length
        have := h.2
        simp only [Bool.false_eq_true, if_false] at this
        omega
      · simp only [Bool.false_eq_true, if_false] at h
        omega
    have body : ∀ (r : Toks) (k : KebabIdent), Left ts r →
        2 + 6 ≤ 6 * (ts.length - r.length) + (if b then 8 else 2) →
        After ((do
          let ident ← rollback (step parseIdentAny)
          match ident with
          | some i =>
            if i.raw then free (emitP (.rawInKebab i))
            kebabLoop fuel false ⟨k.repr ++ i.name, k.spans + 1⟩
          | none =>
            let int ← rollback (step parseLitInt)
            match int with
            | some s => kebabLoop fuel false ⟨k.repr ++ s, k.spans + 1⟩
            | none => kebabLoop fuel false k : C KebabIdent) r)
          (fun n _ r => Left ts r ∧ 2 + n ≤ 6 * (ts.length - r.length) + (if b then 8 else 2))
          (fun _ _ => False) (fun n => 2 + n ≤ 6 * ts.length + (if b then 8 else 2)) := by
      intro r k hl hm
      have hlen := hl.length
      refine .bind (.try eats_ident ?_ ?_)
      · intro i r2 hl2 hn2
        have hlen2 := (hl.trans hl2).length
        have hq : 2 + 2 + 2 ≤ 6 * (ts.length - r2.length) + (if b then 8 else 2) := by omega
        simp only
        split
        · refine .bind (.emit ?_)
          simpa only [Nat.zero_add, Nat.add_assoc] using next (2 + 2) r2 _ (hl.trans hl2) hq
        · simpa only [Nat.add_assoc] using next (2 + 2) r2 _ (hl.trans hl2) hq
      · refine .bind (.try eats_litInt ?_ ?_)
        · intro s r2 hl2 hn2
          have hlen2 := (hl.trans hl2).length
          have hq : 2 + 2 + 2 + 2 ≤ 6 * (ts.length - r2.length) + (if b then 8 else 2) := by omega
          simpa only [Nat.add_assoc] using next (2 + 2 + 2) r2 _ (hl.trans hl2) hq
        · simpa only [Nat.add_assoc] using next (2 + 2 + 2) r _ hl hm
    unfold kebabLoop
    refine .bind (.try (eats_punct '-') ?_ ?_)
    · intro _ r hl hn
      have hlen := hl.length
      refine .ite (fun _ => ?_) (fun h => absurd rfl h)
      exact body r _ hl (by split <;> omega)
    · refine .ite (fun h => ?_) (fun _ => ?_)
      · have hb : b = true := by
          simp only [Option.isSome_none, Bool.false_or, Bool.and_eq_true] at h
          exact h.1
        exact body ts _ .refl (by simp [hb])
      · exact ⟨.refl, by split <;> omega⟩

/-- A name takes at most six steps for a token and eight more. -/
theorem parseKebab_steps (ts : Toks) : After (parseKebab ts)
    (fun n _ r => Left ts r ∧ r.length < ts.length ∧ n ≤ 6 * (ts.length - r.length) + 6)
    (fun n r => r = ts ∧ n ≤ 4) (fun n => n ≤ 6 * ts.length + 6) := by
  unfold parseKebab
  refine .bind (.try eats_ident ?_ ?_)
  · intro i r hl hn
    refine .bind (.look ?_)
    refine (kebabLoop_steps _ _ _ r).mono ?_ (fun _ _ h => h.elim) ?_
    · intro n _ r' h
      have := h.1.length
      have := h.2
      simp only [if_true] at this
      exact ⟨hl.trans h.1, by omega, by omega⟩
    · intro n h
      simp only [if_true] at h
      omega
  · refine .bind (.try (eats_punct '-') ?_ ?_)
    · intro i r hl hn
      refine .bind (.look ?_)
      refine (kebabLoop_steps _ _ _ r).mono ?_ (fun _ _ h => h.elim) ?_
      · intro n _ r' h
        have := h.1.length
        have := h.2
        simp only [if_true] at this
        exact ⟨hl.trans h.1, by omega, by omega⟩
      · intro n h
        simp only [if_true] at h
        omega
    · exact .fail ⟨rfl, by omega⟩

theorem parseKebabOrStr_steps (ts : Toks) : After (parseKebabOrStr ts)
    (fun n _ r => Left ts r ∧ r.length < ts.length ∧ n ≤ 6 * (ts.length - r.length) + 8)
    (fun n r => r = ts ∧ n ≤ 6) (fun n => n ≤ 6 * ts.length + 8) := by
  unfold parseKebabOrStr
  refine .bind (.try eats_litStr ?_ ?_)
  · intro s r hl hn
    exact ⟨hl, hn, by omega⟩
  · refine .bind ((parseKebab_steps ts).mono ?_ ?_ ?_)
    · intro n k r h
      exact ⟨h.1, h.2.1, by omega⟩
    · intro n r h
      exact ⟨h.1, by omega⟩
    · intro n h
      omega

/-- What it may cost to look into a block for a name that is not there. -/
def lead : Toks → Nat
  | .group .brace inner :: _ => 6 * inner.length
  | _ => 0

theorem parseBracedKebab_steps (ts : Toks) : After (parseBracedKebab ts)
    (fun n _ r => ∃ inner, ts = .group .brace inner :: r ∧ n ≤ 6 * inner.length + 10)
    (fun n r => r = ts ∧ n ≤ lead ts + 10) (fun n => n ≤ lead ts + 10) := by
  unfold parseBracedKebab inGroup
  split
  · rename_i d' inner rest
    split
    · rename_i hd
      subst hd
      have h := parseKebab_steps inner
      revert h
      rcases parseKebab inner with ⟨n, o⟩
      cases o with
      | ret ds r => cases r with
        | ok a left =>
          intro h
          have h2 : n ≤ 6 * (inner.length - left.length) + 6 := h.2.2
          simp only
          split
          · exact ⟨inner, rfl, by omega⟩
          · exact ⟨rfl, by simp only [lead]; omega⟩
        | err e left =>
          intro h
          have h2 : n ≤ 4 := h.2
          exact ⟨rfl, by simp only [lead]; omega⟩
      | _ =>
        intro h
        have h2 : n ≤ 6 * inner.length + 6 := h
        show n + 3 ≤ _
        simp only [lead]; omega
    · exact ⟨rfl, by omega⟩
  · exact ⟨rfl, by omega⟩

/-! ### values -/

theorem groupTokens_steps (d : Delim) (ts : Toks) : After (groupTokens d ts)
    (fun n _ r => ∃ inner, ts = .group d inner :: r ∧ n = 1 + toksSize inner)
    (fun n r => r = ts ∧ n = 1) (fun _ => False) := by
  unfold groupTokens extractGroup
  cases ts with
  | nil => exact ⟨rfl, rfl⟩
  | cons t r =>
    cases t with
    | group d' inner =>
      by_cases h : d' = d
      · subst h
        simp only [if_true]
        exact ⟨inner, rfl, rfl⟩
      · simp only [h, if_false]
        exact ⟨rfl, rfl⟩
    | _ => exact ⟨rfl, rfl⟩

theorem parseValue_steps (ts : Toks) : After (parseValue ts)
    (fun n _ r => Left ts r ∧ r.length < ts.length ∧ n + weighs r + 60 ≤ weighs ts)
    (fun n _ => n ≤ 5) (fun n => n ≤ weighs ts + 7) := by
  have group : ∀ (d : Delim) (m : Nat) (us : Toks), Left ts us → m ≤ 6 → ∀ f : Toks → C Value,
      (∀ x, ∃ v, f x = pure v) →
      After ((unwrapP .valueUnwrap (groupTokens d) >>= f) us)
        (fun n _ r => Left ts r ∧ r.length < ts.length ∧ m + n + weighs r + 60 ≤ weighs ts)
        (fun n _ => m + n ≤ 5) (fun n => m + n ≤ weighs ts + 7) := by
    intro d m us hl hm f hf
    refine .bind (.unwrapP ((groupTokens_steps d us).mono ?_ ?_ ?_))
    · rintro n x r ⟨inner, rfl, hn⟩
      obtain ⟨v, hv⟩ := hf x
      rw [hv]
      refine .pure ⟨hl.trans .cons, ?_, ?_⟩
      · have := hl.length
        simp only [List.length_cons] at this
        omega
      · have := size_weighs inner
        have h2 := hl.weight
        have h3 := hl.length
        simp only [List.length_cons, weighs, weigh] at h2 h3
        omega
    · intro n r h
      omega
    · exact fun _ h => h.elim
  unfold parseValue
  refine .bind (.look ?_)
  refine .ite (fun _ => group _ 5 ts .refl (by omega) _ fun x => ⟨_, rfl⟩) (fun _ => ?_)
  refine .ite (fun _ => ?_) (fun _ => ?_)
  · refine .bind (.unwrapP (.step eats_ident ?_ ?_))
    · intro i r hl hn
      refine (group .bracket 6 r hl (by omega) _ fun x => ⟨_, rfl⟩).mono ?_ ?_ ?_
      · intro n v r' h
        exact ⟨h.1, h.2.1, by omega⟩
      · intro n r' h; omega
      · intro n h; omega
    · intro r _; omega
  · refine .ite (fun _ => group _ 5 ts .refl (by omega) _ fun x => ⟨_, rfl⟩) (fun _ => ?_)
    refine .ite (fun _ => ?_) (fun _ => ?_)
    · refine .bind (.unwrapP (.step eats_lit ?_ ?_))
      · intro l r hl hn
        have := hl.weight
        exact .pure ⟨hl, hn, by omega⟩
      · intro r _; omega
    · exact .fail (by omega)

theorem parseValueOrEmit_steps (ts : Toks) : After (parseValueOrEmit ts)
    (fun n _ r => Left ts r ∧ n + weighs r ≤ weighs ts + 8)
    (fun _ _ => False) (fun n => n ≤ weighs ts + 8) := by
  unfold parseValueOrEmit
  refine .bind (.rollback ((parseValue_steps ts).mono ?_ ?_ ?_))
  · intro n v r h
    exact .pure ⟨h.1, by omega⟩
  · intro n r h
    refine .bind (.look (.bind (.emit (.pure ⟨.refl, by omega⟩))))
  · intro n h; omega

/-! ### attributes -/

theorem parseKv_steps (ts : Toks) : After (parseKv ts)
    (fun n _ r => Left ts r ∧ r.length < ts.length ∧ n + weighs r + 47 ≤ weighs ts)
    (fun n _ => n ≤ lead ts + 11) (fun n => n ≤ weighs ts + 17) := by
  have lead_le : lead ts ≤ weighs ts := by
    unfold lead
    split
    · simp only [weighs, weigh]; omega
    · omega
  unfold parseKv
  refine .bind (.look (.ite (fun _ => ?_) (fun _ => ?_)))
  · refine .bind ((parseBracedKebab_steps ts).mono ?_ ?_ ?_)
    · rintro n k r ⟨inner, rfl, hn⟩
      refine .bind (.lift (fun v => .pure ⟨.cons, by simp, ?_⟩) ?_)
      · simp only [weighs, weigh]; omega
      · simp only [weighs, weigh]; omega
    · intro n r h; omega
    · intro n h; omega
  · refine .bind ((parseKebab_steps ts).mono ?_ ?_ ?_)
    · rintro n k r ⟨hl, hlt, hn⟩
      have hw := hl.weight
      refine .bind (.try (eats_punct '=') ?_ ?_)
      · intro _ r2 hl2 hn2
        have hw2 := hl2.weight
        refine .bind ((parseValueOrEmit_steps r2).mono ?_ (fun _ _ h => h.elim) ?_)
        · intro m v r3 h
          have := h.1.length
          exact .pure ⟨(hl.trans hl2).trans h.1, by omega, by omega⟩
        · intro m h; omega
      · exact .pure ⟨hl, hlt, by omega⟩
    · intro n r h; omega
    · intro n h
      have := weighs_ge ts
      omega

theorem parseModifier_steps (ts : Toks) : After (parseModifier ts)
    (fun n _ r => Left ts r ∧ n ≤ 3) (fun n _ => n ≤ 3) (fun _ => False) := by
  unfold parseModifier
  refine .bind (.try (eats_punct ':') ?_ ?_)
  · intro _ r hl hn
    refine .bind (.step eats_ident ?_ ?_)
    · intro i r2 hl2 hn2
      exact .pure ⟨hl.trans hl2, by omega⟩
    · intro r2 _; omega
  · exact .pure ⟨.refl, by omega⟩

theorem parseDirective_steps (ts : Toks) : After (parseDirective ts)
    (fun n _ r => Left ts r ∧ r.length < ts.length ∧ n + weighs r + 40 ≤ weighs ts)
    (fun n _ => n ≤ weighs ts + 16) (fun n => n ≤ weighs ts + 16) := by
  unfold parseDirective
  refine .bind (.step eats_ident ?_ (fun _ _ => by omega))
  intro i r1 hl1 hn1
  refine .bind (.step (eats_punct ':') ?_ (fun _ _ => by omega))
  intro _ r2 hl2 hn2
  have h12 := hl1.trans hl2
  have hw := h12.weight
  refine .bind (.look (.ite (fun _ => ?_) (fun _ => ?_)))
  · refine .bind ((parseBracedKebab_steps r2).mono ?_ ?_ ?_)
    · rintro n k r ⟨inner, rfl, hn⟩
      simp only [weighs, weigh, List.length_cons] at hw
      simp only [List.length_cons] at hn2
      refine .bind (.lift (fun v => ?_) ?_)
      · refine .bind ((parseModifier_steps r).mono ?_ ?_ (fun _ h => h.elim))
        · intro m o r4 h
          have h4 := h.1.length
          have hw4 := h.1.weight
          exact .pure ⟨(h12.trans .cons).trans h.1, by omega, by omega⟩
        · intro m r4 h; omega
      · omega
    · rintro n r ⟨rfl, h⟩
      have : lead r ≤ weighs r := by
        unfold lead
        split
        · simp only [weighs, weigh]; omega
        · omega
      omega
    · intro n h
      have : lead r2 ≤ weighs r2 := by
        unfold lead
        split
        · simp only [weighs, weigh]; omega
        · omega
      omega
  · refine .bind ((parseKebabOrStr_steps r2).mono ?_ ?_ ?_)
    · rintro n k r ⟨hl, hlt, hn⟩
      have h13 := h12.trans hl
      have hw3 := h13.weight
      refine .bind ((parseModifier_steps r).mono ?_ ?_ (fun _ h => h.elim))
      · intro m o r4 h
        have h14 := h13.trans h.1
        have hlen := h.1.length
        have hw4 := h14.weight
        refine .bind (.try (eats_punct '=') ?_ ?_)
        · intro _ r5 hl5 hn5
          have h15 := h14.trans hl5
          have hw5 := h15.weight
          refine .bind ((parseValueOrEmit_steps r5).mono ?_ (fun _ _ h => h.elim) ?_)
          · intro j v r6 h6
            have := h6.1.length
            exact .pure ⟨h15.trans h6.1, by omega, by omega⟩
          · intro j h6; omega
        · exact .pure ⟨h14, by omega, by omega⟩
      · intro m r4 h; omega
    · intro n r h; omega
    · intro n h
      have := weighs_ge r2
      omega

theorem size_drop (ts : Toks) (n : Nat) : toksSize (ts.drop n) ≤ toksSize ts := by
  induction n generalizing ts with
  | zero => simp
  | succ n ih =>
    cases ts with
    | nil => simp
    | cons t ts =>
      have := ih ts
      simp only [List.drop_succ_cons, toksSize]; omega

theorem parseSpread_steps (ts : Toks) : After (parseSpread ts)
    (fun n _ r => ∃ inner, ts = .group .brace inner :: r ∧ n ≤ 4 + toksSize inner)
    (fun n _ => n ≤ 3) (fun _ => False) := by
  unfold parseSpread
  refine .bind ?_
  show After (1, extractGroup .brace ts) _ _ _
  unfold extractGroup
  split
  · rename_i d' inner r
    split
    · rename_i hd
      subst hd
      refine .bind (.look (.ite (fun _ => ?_) (fun _ => .fail (by omega))))
      refine .bind (.look (.pure ⟨inner, rfl, ?_⟩))
      have := size_drop inner 2
      omega
    · show 1 ≤ 3; omega
  · show 1 ≤ 3; omega

theorem parseAttr_steps (ts : Toks) : After (parseAttr ts)
    (fun n _ r => Left ts r ∧ r.length < ts.length ∧ n + weighs r + 35 ≤ weighs ts)
    (fun n _ => n ≤ lead ts + 19) (fun n => n ≤ weighs ts + 21) := by
  unfold parseAttr
  refine .bind (.look (.ite (fun _ => ?_) (fun _ => .ite (fun _ => ?_) (fun _ => ?_))))
  · refine .bind (.unwrapOrAbort ((parseDirective_steps ts).mono ?_ ?_ ?_))
    · intro n d r h
      exact .pure ⟨h.1, h.2.1, by omega⟩
    · intro n r h; omega
    · intro n h; omega
  · refine .bind ((parseKv_steps ts).mono ?_ ?_ ?_)
    · intro n d r h
      exact .pure ⟨h.1, h.2.1, by omega⟩
    · intro n r h; omega
    · intro n h; omega
  · refine .bind (.rollback ((parseKv_steps ts).mono ?_ ?_ ?_))
    · intro n d r h
      exact .pure ⟨h.1, h.2.1, by omega⟩
    · intro n r h
      refine .bind (.rollback ((parseSpread_steps ts).mono ?_ ?_ (fun _ h => h.elim)))
      · rintro m e r2 ⟨inner, rfl, hm⟩
        have := size_weighs inner
        simp only [lead] at h
        exact .pure ⟨.cons, by simp, by simp only [weighs, weigh]; omega⟩
      · intro m r2 hm
        exact .fail (by omega)
    · intro n h; omega

theorem attrsLoop_steps (fuel : Nat) (vec : List Attr) (ts : Toks) : After (attrsLoop fuel vec ts)
    (fun n _ r => Left ts r ∧ n + weighs r ≤ weighs ts + lead r + 20)
    (fun _ _ => False) (fun n => n ≤ weighs ts + 22) := by
  induction fuel generalizing vec ts with
  | zero => exact Nat.zero_le _
  | succ fuel ih =>
    unfold attrsLoop
    refine .bind (.rollback ((parseAttr_steps ts).mono ?_ ?_ ?_))
    · intro n a r h
      refine (ih _ r).mono ?_ (fun _ _ h => h) ?_
      · intro m _ r2 h2
        exact ⟨h.1.trans h2.1, by omega⟩
      · intro m h2; omega
    · intro n r h
      exact .pure ⟨.refl, by omega⟩
    · intro n h; omega

theorem parseSelector_steps (ts : Toks) : After (parseSelector ts)
    (fun n _ r => Left ts r ∧ r.length < ts.length ∧ n + weighs r + 40 ≤ weighs ts)
    (fun n _ => n ≤ 8) (fun n => n ≤ weighs ts + 10) := by
  unfold parseSelector
  refine .bind (.try (eats_punct '.') ?_ ?_)
  · intro _ r hl hn
    refine .bind ((parseKebab_steps r).mono ?_ ?_ ?_)
    · intro n k r2 h
      have h12 := hl.trans h.1
      have := h12.weight
      exact .pure ⟨h12, by omega, by omega⟩
    · intro n r2 h; omega
    · intro n h
      have := weighs_ge ts
      omega
  · refine .bind (.try (eats_punct '#') ?_ ?_)
    · intro _ r hl hn
      refine .bind ((parseKebab_steps r).mono ?_ ?_ ?_)
      · intro n k r2 h
        have h12 := hl.trans h.1
        have := h12.weight
        exact .pure ⟨h12, by omega, by omega⟩
      · intro n r2 h; omega
      · intro n h
        have := weighs_ge ts
        omega
    · exact .fail (by omega)

theorem selectorsLoop_steps (fuel : Nat) (vec : List Selector) (ts : Toks) : After (selectorsLoop fuel vec ts)
    (fun n _ r => Left ts r ∧ n + weighs r ≤ weighs ts + 9)
    (fun _ _ => False) (fun n => n ≤ weighs ts + 11) := by
  induction fuel generalizing vec ts with
  | zero => exact Nat.zero_le _
  | succ fuel ih =>
    unfold selectorsLoop
    refine .bind (.rollback ((parseSelector_steps ts).mono ?_ ?_ ?_))
    · intro n a r h
      refine (ih _ r).mono ?_ (fun _ _ h => h) ?_
      · intro m _ r2 h2
        exact ⟨h.1.trans h2.1, by omega⟩
      · intro m h2; omega
    · intro n r h
      exact .pure ⟨.refl, by omega⟩
    · intro n h; omega

/-! ### elements -/

theorem parseTag_steps (ts : Toks) : After (parseTag pp ts)
    (fun n _ r => Left ts r ∧ r.length < ts.length ∧ n + weighs r + 55 ≤ weighs ts)
    (fun n r => Left ts r ∧ n + weighs r ≤ weighs ts + 7) (fun n => n ≤ weighs ts + 9) := by
  unfold parseTag
  refine .bind (.look (.ite (fun _ => ?_) (fun _ => ?_)))
  · refine .bind ?_
    unfold parsePath Mview.parsePath
    rcases hp : pp.run ts with ⟨o, rest⟩
    cases o with
    | some p =>
      obtain ⟨u, hu, hts⟩ := pp.progress ts p rest hp
      have hl : Left ts rest := ⟨u, hts⟩
      have hw := hl.weight
      have hlt : rest.length < ts.length := by
        have : 0 < u.length := List.length_pos_iff.mpr hu
        rw [hts, List.length_append]; omega
      have hq : 3 + (1 + (ts.length - rest.length) + 0) + weighs rest + 55 ≤ weighs ts := by omega
      exact (⟨hl, hlt, hq⟩ : Left ts rest ∧ rest.length < ts.length ∧ _)
    | none =>
      obtain ⟨u, hts⟩ := pp.suffix ts rest hp
      have hl : Left ts rest := ⟨u, hts⟩
      have hw := hl.weight
      have hlen := hl.length
      have hq : 3 + (1 + (ts.length - rest.length)) + weighs rest ≤ weighs ts + 7 := by omega
      exact (⟨hl, hq⟩ : Left ts rest ∧ _)
  · refine .bind ((parseKebab_steps ts).mono ?_ ?_ ?_)
    · rintro n k r ⟨hl, hlt, hn⟩
      have hw := hl.weight
      have hq : Left ts r ∧ r.length < ts.length ∧ 3 + (n + (0 + 0)) + weighs r + 55 ≤ weighs ts :=
        ⟨hl, hlt, by omega⟩
      have hs : 3 + (n + 0) ≤ weighs ts + 9 := by omega
      cases TagKind.ofStr k.repr with
      | webComponent => exact .pure hq
      | _ => exact .bind (.lift (fun i => .pure hq) hs)
    · rintro n r ⟨rfl, h⟩
      exact ⟨.refl, by omega⟩
    · intro n h
      have := weighs_ge ts
      omega

theorem closureArgsLoop_steps (fuel : Nat) (tokens : Toks) (ts : Toks) : After (closureArgsLoop fuel tokens ts)
    (fun n _ r => Left ts r ∧ n + weighs r ≤ weighs ts + 4)
    (fun n r => Left ts r ∧ n + weighs r ≤ weighs ts + 4) (fun n => n ≤ weighs ts + 4) := by
  induction fuel generalizing tokens ts with
  | zero => exact Nat.zero_le _
  | succ fuel ih =>
    unfold closureArgsLoop
    refine .bind (.try (eats_punct '|') ?_ ?_)
    · intro _ r hl hn
      have := hl.weight
      exact .pure ⟨hl, by omega⟩
    · cases ts with
      | nil => exact ⟨.refl, Nat.le_refl 4⟩
      | cons t r =>
        have hz := size_weigh t
        refine .bind ?_
        show After (2, .ret [] (.ok (some t) r)) _ _ _
        refine .bind (.look ((ih _ r).mono ?_ ?_ ?_))
        · intro n _ r2 h
          exact ⟨Left.cons.trans h.1, by simp only [weighs]; omega⟩
        · intro n r2 h
          exact ⟨Left.cons.trans h.1, by simp only [weighs]; omega⟩
        · intro n h
          simp only [weighs]; omega

theorem parseClosureArgs_steps (ts : Toks) : After (parseClosureArgs ts)
    (fun n _ r => Left ts r ∧ n + weighs r + 60 ≤ weighs ts)
    (fun n r => Left ts r ∧ n + weighs r ≤ weighs ts + 1) (fun n => n ≤ weighs ts) := by
  unfold parseClosureArgs
  refine .bind (.step (eats_punct '|') ?_ ?_)
  · intro _ r hl hn
    have hw := hl.weight
    refine .bind (.look ((closureArgsLoop_steps _ _ r).mono ?_ ?_ ?_))
    · intro n _ r2 h
      exact ⟨hl.trans h.1, by omega⟩
    · intro n r2 h
      exact ⟨hl.trans h.1, by omega⟩
    · intro n h; omega
  · intro r hl
    have := hl.weight
    have := hl.length
    exact ⟨hl, by omega⟩

/-- what is known of the children of a block -/
def ChildrenSteps (p : C (List Child)) : Prop := ∀ ts, After (p ts)
  (fun n _ r => r = [] ∧ n ≤ weighs ts + 30) (fun _ _ => False) (fun n => n ≤ weighs ts + 40)

/-- A block is paid for by its group. -/
theorem block_steps {p : C (List Child)} (hp : ChildrenSteps p) (d : Delim) (ts : Toks) (h : peekGroup d ts) :
    After (inGroup d p ts)
      (fun n _ r => Left ts r ∧ n + weighs r + 36 + lead ts ≤ weighs ts)
      (fun _ _ => False) (fun n => n + lead ts + 25 ≤ weighs ts) := by
  unfold peekGroup at h
  split at h
  · rename_i d' inner rest
    have hd : d' = d := by simpa using h
    subst hd
    have hlead : lead (.group d' inner :: rest) ≤ 6 * inner.length := by
      unfold lead
      split
      · rename_i h; cases h; omega
      · omega
    unfold inGroup
    simp only [if_true]
    have h := hp inner
    revert h
    rcases p inner with ⟨n, o⟩
    cases o with
    | ret ds r => cases r with
      | ok a left =>
        rintro ⟨rfl, h⟩
        refine ⟨.cons, ?_⟩
        simp only [weighs, weigh]; omega
      | err e left => exact fun h => h.elim
    | _ =>
      intro h
      have h2 : n ≤ weighs inner + 40 := h
      show n + 3 + _ + _ ≤ _
      simp only [weighs, weigh]; omega
  · simp at h

theorem After.tryPunct {c : Char} {ok : Nat → Option Unit → Toks → Prop} {err : Nat → Toks → Prop}
    {stop : Nat → Prop} (h1 : ∀ s r, ts = .punct c s :: r → ok 2 (some ()) r) (h2 : ok 2 none ts) :
    After (Steps.rollback (Steps.step (parsePunct c)) ts) ok err stop := by
  refine .rollback ?_
  show After (1, parsePunct c ts) _ _ _
  unfold parsePunct
  split
  · split
    · rename_i h; subst h; exact h1 _ _ rfl
    · exact h2
  · exact h2

theorem lead_punct {c : Char} {r : Toks} (h : peekPunct c r) : lead r = 0 := by
  unfold peekPunct at h
  split at h
  · rfl
  · simp at h

theorem lead_other {r : Toks} (h : ¬(peekGroup .brace r || peekGroup .paren r)) : lead r = 0 := by
  unfold lead
  split
  · simp [peekGroup] at h
  · rfl

/-- An element leaves something over for the loop it is in. -/
theorem element_steps {fuel : Nat} (hp : ChildrenSteps (childrenF pp fuel)) (ts : Toks) :
    After (elementF pp (fuel + 1) ts)
      (fun n _ r => Left ts r ∧ r.length < ts.length ∧ n + weighs r + 12 ≤ weighs ts)
      (fun n r => Left ts r ∧ n + weighs r ≤ weighs ts + 7) (fun n => n ≤ weighs ts + 9) := by
  unfold elementF
  refine .bind ((parseTag_steps ts).mono ?_ (fun _ _ h => h) (fun _ h => h))
  intro n1 tag r1 h1
  refine .bind (.bind (.look ?_))
  refine (selectorsLoop_steps _ _ r1).mono ?_ (fun _ _ h => h.elim) (fun n h => by omega)
  intro n2 sels r2 h2
  refine .bind (.bind (.look ?_))
  refine (attrsLoop_steps _ _ r2).mono ?_ (fun _ _ h => h.elim) (fun n h => by omega)
  intro n3 attrs r3 h3
  have h13 := (h1.1.trans h2.1).trans h3.1
  have hlen := (h2.1.trans h3.1).length
  have hlt := h1.2.1
  have hw1 := h1.2.2
  have hw2 := h2.2
  have hw3 := h3.2
  refine .bind (.tryPunct ?_ ?_)
  · rintro s r rfl
    simp only [lead, weighs, weigh, List.length_cons] at hw3 hlen
    exact .pure ⟨h13.trans .cons, by omega, by omega⟩
  · refine .bind (.look (.ite (fun he => ?_) (fun _ => .ite (fun hg => ?_) (fun hg => .ite (fun hc => ?_) (fun _ => ?_)))))
    · have : lead r3 = 0 := by cases r3 <;> simp_all [isEmpty, lead]
      exact .bind (.emit (.pure ⟨h13, by omega, by omega⟩))
    · have key : ∀ d, peekGroup d r3 → After (inGroup d (childrenF pp fuel) r3)
          (fun n _ r => Left r3 r ∧ n + weighs r + 36 + lead r3 ≤ weighs r3)
          (fun _ _ => False) (fun n => n + lead r3 + 25 ≤ weighs r3) := fun d h => block_steps hp d r3 h
      refine .ite (fun h => ?_) (fun h => ?_)
      · refine .bind ((key .brace h).mono ?_ (fun _ _ h => h.elim) ?_)
        · intro n4 cs r4 h4
          have := h4.1.length
          exact .pure ⟨h13.trans h4.1, by omega, by omega⟩
        · intro n4 h4; omega
      · refine .bind ((key .paren (by simpa [h] using hg)).mono ?_ (fun _ _ h => h.elim) ?_)
        · intro n4 cs r4 h4
          have := h4.1.length
          exact .pure ⟨h13.trans h4.1, by omega, by omega⟩
        · intro n4 h4; omega
    · have hl0 := lead_punct hc
      refine .bind ((parseClosureArgs_steps r3).mono ?_ ?_ ?_)
      · intro n4 args r4 h4
        have h14 := h13.trans h4.1
        have := h4.1.length
        have hw4 := h4.2
        refine .bind (.look (.ite (fun h => ?_) (fun _ => .ite (fun h => ?_) (fun _ => ?_))))
        · refine .bind ((block_steps hp _ r4 h).mono ?_ (fun _ _ h => h.elim) ?_)
          · intro n5 cs r5 h5
            have := h5.1.length
            exact .pure ⟨h14.trans h5.1, by omega, by omega⟩
          · intro n5 h5; omega
        · refine .bind ((block_steps hp _ r4 h).mono ?_ (fun _ _ h => h.elim) ?_)
          · intro n5 cs r5 h5
            have := h5.1.length
            exact .pure ⟨h14.trans h5.1, by omega, by omega⟩
          · intro n5 h5; omega
        · exact .bind (.emit (.pure ⟨h14, by omega, by omega⟩))
      · intro n4 r4 h4
        exact ⟨h13.trans h4.1, by omega⟩
      · intro n4 h4; omega
    · have := lead_other hg
      exact .bind (.emit (.bind (.emit (.pure ⟨h13, by omega, by omega⟩))))

/-! ### children -/

theorem child_steps {fuel : Nat} (he : ∀ ts, After (elementF pp fuel ts)
      (fun n _ r => Left ts r ∧ r.length < ts.length ∧ n + weighs r + 12 ≤ weighs ts)
      (fun n r => Left ts r ∧ n + weighs r ≤ weighs ts + 7) (fun n => n ≤ weighs ts + 9)) (ts : Toks) :
    After (childF pp (fuel + 1) ts)
      (fun n _ r => Left ts r ∧ n + weighs r + 2 ≤ weighs ts)
      (fun n r => Left ts r ∧ n + weighs r ≤ weighs ts + 17) (fun n => n ≤ weighs ts + 19) := by
  unfold childF
  refine .bind (.rollback ((parseValue_steps ts).mono ?_ ?_ ?_))
  · intro n v r h
    have hq : Left ts r ∧ n + 1 + (0 + 0) + weighs r + 2 ≤ weighs ts := ⟨h.1, by omega⟩
    cases v with
    | lit l =>
      cases l with
      | tok l => cases l <;> first | exact .pure hq | exact .bind (.emit (.pure hq))
      | bool b => exact .bind (.emit (.pure hq))
    | _ => exact .pure hq
  · intro n _ hn
    refine .bind (.look (.ite (fun _ => ?_) (fun _ => .ite (fun _ => ?_) (fun _ => .fail ⟨.refl, by omega⟩))))
    · refine .bind (.unwrapP (.step (eats_kw _) ?_ (fun r _ => by omega)))
      intro _ r1 h1 hl1
      refine .bind (.unwrapP (.step (eats_punct ':') ?_ (fun r _ => by omega)))
      intro _ r2 h2 hl2
      have h12 := h1.trans h2
      have hw := h12.weight
      refine .bind ((he r2).mono ?_ ?_ ?_)
      · intro m e r3 h3
        exact .pure ⟨h12.trans h3.1, by omega⟩
      · intro m r3 h3
        exact ⟨h12.trans h3.1, by omega⟩
      · intro m h3; omega
    · refine .bind ((he ts).mono ?_ ?_ ?_)
      · intro m e r3 h3
        exact .pure ⟨h3.1, by omega⟩
      · intro m r3 h3
        exact ⟨h3.1, by omega⟩
      · intro m h3; omega
  · intro n h; omega

theorem children_succ {fuel : Nat} (hc : ∀ ts, After (childF pp fuel ts)
      (fun n _ r => Left ts r ∧ n + weighs r + 2 ≤ weighs ts)
      (fun n r => Left ts r ∧ n + weighs r ≤ weighs ts + 17) (fun n => n ≤ weighs ts + 19))
    (hp : ChildrenSteps (childrenF pp fuel)) (hn : ∀ ts, isEmpty ts → After (childrenF pp fuel ts)
      (fun n _ r => r = [] ∧ n ≤ 1) (fun _ _ => False) (fun n => n ≤ 1)) :
    ChildrenSteps (childrenF pp (fuel + 1)) := by
  intro ts
  unfold childrenF
  refine .bind (.look (.ite (fun h => ?_) (fun _ => ?_)))
  · cases ts with
    | nil => exact .pure ⟨rfl, by omega⟩
    | cons t r => simp [isEmpty] at h
  · refine .bind (.caught ((hc ts).mono ?_ ?_ ?_))
    · intro n c r h
      refine .bind ((hp r).mono ?_ (fun _ _ h => h.elim) ?_)
      · intro m cs r2 h2
        exact .pure ⟨h2.1, by omega⟩
      · intro m h2; omega
    · intro n r h e
      refine .bind (.look (.ite (fun _ => ?_) (fun _ => ?_)))
      · refine .bind (.emit (.bind (.unwrapP (.step (eats_punct ';') ?_ (fun r2 h2 => by omega)))))
        intro _ r2 hl2 hlt
        have hw := hl2.weight
        refine (hp r2).mono ?_ (fun _ _ h => h) ?_
        · intro m cs r3 h3
          exact ⟨h3.1, by omega⟩
        · intro m h3; omega
      · refine .bind (.emit (.bind ?_))
        have hz := size_weighs r
        show After (1 + toksSize r, .ret [] (.ok () [])) _ _ _
        refine (hn [] rfl).mono ?_ (fun _ _ h => h) ?_
        · intro m cs r3 h3
          exact ⟨h3.1, by omega⟩
        · intro m h3; omega
    · intro n h; omega

theorem children_nil (fuel : Nat) (ts : Toks) (h : isEmpty ts) : After (childrenF pp fuel ts)
    (fun n _ r => r = [] ∧ n ≤ 1) (fun _ _ => False) (fun n => n ≤ 1) := by
  cases fuel with
  | zero => exact Nat.zero_le _
  | succ fuel =>
    unfold childrenF
    refine .bind (.look (.ite (fun _ => ?_) (fun h' => absurd h h')))
    cases ts with
    | nil => exact .pure ⟨rfl, by omega⟩
    | cons t r => simp [isEmpty] at h

theorem all_steps (fuel : Nat) :
    (∀ ts, After (elementF pp fuel ts)
      (fun n _ r => Left ts r ∧ r.length < ts.length ∧ n + weighs r + 12 ≤ weighs ts)
      (fun n r => Left ts r ∧ n + weighs r ≤ weighs ts + 7) (fun n => n ≤ weighs ts + 9)) ∧
    (∀ ts, After (childF pp fuel ts)
      (fun n _ r => Left ts r ∧ n + weighs r + 2 ≤ weighs ts)
      (fun n r => Left ts r ∧ n + weighs r ≤ weighs ts + 17) (fun n => n ≤ weighs ts + 19)) ∧
    ChildrenSteps (childrenF pp fuel) := by
  induction fuel with
  | zero => exact ⟨fun _ => Nat.zero_le _, fun _ => Nat.zero_le _, fun _ => Nat.zero_le _⟩
  | succ fuel ih =>
    exact ⟨element_steps ih.2.2, child_steps ih.1, children_succ ih.2.1 ih.2.2 (children_nil _)⟩

/-- Parsing takes at most what the tokens may cost. -/
theorem steps_weighs (pp : PathParser) (ts : Toks) : steps pp ts ≤ weighs ts + 40 := by
  have h := (all_steps (pp := pp) (fuelFor ts)).2.2 ts
  unfold steps parseChildren
  revert h
  rcases childrenF pp (fuelFor ts) ts with ⟨n, o⟩
  cases o with
  | ret ds r => cases r with
    | ok a r =>
      rintro ⟨_, h⟩
      show n ≤ _
      omega
    | err e r => exact fun h => h.elim
  | _ => exact fun h => h

end Mview.Steps
