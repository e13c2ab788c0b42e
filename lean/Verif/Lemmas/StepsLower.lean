import Verif.Lemmas.Steps
import Verif.Lemmas.StepsErase
/-
Nothing is read for free: a step moves over two tokens at most (a minus and a number).
-/

namespace Mview.Steps

variable {α β : Type} {pp : PathParser} {ts : Toks}

/-- Every two tokens take a step. -/
def Frugal (p : C α) : Prop := ∀ ts, After (p ts) (fun n _ r => ts.length ≤ r.length + 2 * n)
  (fun n r => ts.length ≤ r.length + 2 * n) (fun _ => True)

theorem Frugal.bind {p : C α} {f : α → C β} (hp : Frugal p) (hf : ∀ a, Frugal (f a)) : Frugal (p >>= f) := by
  intro ts
  refine .bind ((hp ts).mono ?_ (fun _ _ h => h) (fun _ h => h))
  intro n a r h
  refine (hf a r).mono ?_ ?_ (fun _ h => h)
  · intro m b r2 h2; omega
  · intro m r2 h2; omega

theorem Frugal.pure {a : α} : Frugal (pure a : C α) := fun ts => Nat.le_add_right ts.length _
theorem Frugal.look {k : Nat} : Frugal (Steps.look k) := fun ts => Nat.le_add_right ts.length _
theorem Frugal.emit {d : Diag} : Frugal (free (emitP d)) := fun ts => Nat.le_add_right ts.length _
theorem Frugal.fail {e : Err} : Frugal (free (fail e : P α)) := fun ts => Nat.le_add_right ts.length _
theorem Frugal.lift {o : Out α} : Frugal (free (liftOut o)) := by
  intro ts
  cases o with
  | ret ds a => exact Nat.le_add_right ts.length _
  | _ => trivial
theorem Frugal.diverge : Frugal (fun _ => (0, .diverge) : C α) := fun _ => trivial

theorem Frugal.rollback {p : C α} (hp : Frugal p) : Frugal (rollback p) := by
  intro ts
  refine .rollback ((hp ts).mono ?_ ?_ (fun _ h => h))
  · intro n a r h; omega
  · intro n r h; omega

theorem Frugal.unwrapP {s : PanicSite} {p : C α} (hp : Frugal p) : Frugal (unwrapP s p) := fun ts =>
  .unwrapP ((hp ts).mono (fun _ _ _ h => h) (fun _ _ _ => trivial) (fun _ h => h))

theorem Frugal.unwrapOrAbort {p : C α} (hp : Frugal p) : Frugal (unwrapOrAbort p) := fun ts =>
  .unwrapOrAbort ((hp ts).mono (fun _ _ _ h => h) (fun _ _ _ => trivial) (fun _ h => h))

theorem Frugal.caught {p : C α} (hp : Frugal p) : Frugal (caught p) := fun ts =>
  .caught ((hp ts).mono (fun _ _ _ h => h) (fun _ _ h _ => h) (fun _ h => h))

theorem Frugal.ite {c : Prop} [Decidable c] {p q : C α} (hp : Frugal p) (hq : Frugal q) :
    Frugal (if c then p else q) := by
  split <;> assumption

theorem Frugal.opt {γ : Type} {o : Option γ} {f : γ → C α} {g : C α} (hf : ∀ a, Frugal (f a)) (hg : Frugal g) :
    Frugal (match o with | some a => f a | none => g) := by
  cases o
  · exact hg
  · exact hf _

theorem Frugal.inGroup {d : Delim} {p : C α} : Frugal (inGroup d p) := by
  intro ts
  unfold Steps.inGroup
  split
  · rename_i d' inner rest
    split
    · rcases p inner with ⟨n, o⟩
      cases o with
      | ret ds r => cases r with
        | ok a left =>
          simp only
          split
          · show rest.length + 1 ≤ rest.length + 2 * (n + 4); omega
          · exact Nat.le_add_right _ _
        | err e left => exact Nat.le_add_right _ _
      | _ => trivial
    · exact Nat.le_add_right _ _
  · exact Nat.le_add_right _ _

/-- Two tokens at most. -/
def Nibbles (p : P α) : Prop := ∀ ts, After (1, p ts) (fun _ _ r => ts.length ≤ r.length + 2)
  (fun _ r => ts.length ≤ r.length + 2) (fun _ => True)

theorem Frugal.step {p : P α} (hp : Nibbles p) : Frugal (step p) := by
  intro ts
  have h := hp ts
  show After (1, p ts) _ _ _
  revert h
  cases p ts with
  | ret ds r => cases r <;> exact fun h => h
  | _ => exact fun h => h

theorem nibbles_punct (c : Char) : Nibbles (parsePunct c) := by
  intro ts
  unfold parsePunct
  split
  · split
    · exact Nat.le_succ _
    · exact Nat.le_add_right _ 2
  · exact Nat.le_add_right _ 2

theorem nibbles_ident : Nibbles parseIdentAny := by
  intro ts
  unfold parseIdentAny
  split
  · exact Nat.le_succ _
  · exact Nat.le_add_right _ 2

theorem nibbles_kw (k : Str) : Nibbles (parseKw k) := by
  intro ts
  unfold parseKw
  split
  · cases ts with
    | nil => exact Nat.zero_le _
    | cons t ts => exact Nat.le_succ _
  · exact Nat.le_add_right _ 2

theorem nibbles_tt : Nibbles parseTT := by
  intro ts
  unfold parseTT
  split
  · exact Nat.le_succ _
  · exact Nat.zero_le _

theorem nibbles_lit : Nibbles parseLit := by
  intro ts
  unfold parseLit
  split
  · exact Nat.le_succ _
  · split
    · exact Nat.le_succ _
    · split
      · exact Nat.le_succ _
      · exact Nat.le_add_right _ 2
  · exact Nat.le_refl _
  · exact Nat.le_refl _
  · exact Nat.le_add_right _ 2

theorem nibbles_litInt : Nibbles parseLitInt := by
  intro ts
  have h := nibbles_lit ts
  unfold parseLitInt
  rw [P.bind_apply]
  revert h
  cases parseLit ts with
  | ret ds r => cases r with
    | ok l r =>
      intro h
      cases l with
      | tok l => cases l <;> exact h
      | bool b => exact h
    | err e r => exact fun h => h
  | _ => exact fun h => h

theorem nibbles_litStr : Nibbles parseLitStr := by
  intro ts
  have h := nibbles_lit ts
  unfold parseLitStr
  rw [P.bind_apply]
  revert h
  cases parseLit ts with
  | ret ds r => cases r with
    | ok l r =>
      intro h
      cases l with
      | tok l => cases l <;> exact h
      | bool b => exact h
    | err e r => exact fun h => h
  | _ => exact fun h => h

theorem nibbles_group (d : Delim) : Nibbles (extractGroup d) := by
  intro ts
  unfold extractGroup
  split
  · split
    · exact Nat.le_succ _
    · exact Nat.le_add_right _ 2
  · exact Nat.le_add_right _ 2

theorem frugal_groupTokens (d : Delim) : Frugal (groupTokens d) := by
  intro ts
  refine (groupTokens_steps d ts).mono ?_ ?_ (fun _ h => h.elim)
  · rintro n x r ⟨inner, rfl, h⟩
    simp only [List.length_cons]; omega
  · rintro n r ⟨rfl, h⟩
    omega

theorem frugal_path : Frugal (parsePath pp) := by
  intro ts
  unfold parsePath Mview.parsePath
  rcases hp : pp.run ts with ⟨o, rest⟩
  cases o with
  | some p => show ts.length ≤ rest.length + 2 * (1 + (ts.length - rest.length)); omega
  | none => show ts.length ≤ rest.length + 2 * (1 + (ts.length - rest.length)); omega

theorem frugal_kebabLoop (fuel : Nat) (b : Bool) (k : KebabIdent) : Frugal (kebabLoop fuel b k) := by
  induction fuel generalizing b k with
  | zero => exact .diverge
  | succ fuel ih =>
    unfold kebabLoop
    refine .bind (.rollback (.step (nibbles_punct _))) fun dash => .ite ?_ .pure
    refine .bind (.rollback (.step nibbles_ident)) fun i => ?_
    cases i with
    | some i =>
      simp only
      split
      · exact .bind .emit fun _ => ih _ _
      · exact ih _ _
    | none => exact .bind (.rollback (.step nibbles_litInt)) fun s => by cases s <;> exact ih _ _

theorem frugal_kebab : Frugal parseKebab := by
  unfold parseKebab
  refine .bind (.rollback (.step nibbles_ident)) fun i => ?_
  cases i with
  | some i => exact .bind .look fun _ => frugal_kebabLoop _ _ _
  | none =>
    refine .bind (.rollback (.step (nibbles_punct _))) fun d => ?_
    cases d with
    | some _ => exact .bind .look fun _ => frugal_kebabLoop _ _ _
    | none => exact .fail

theorem frugal_kebabOrStr : Frugal parseKebabOrStr := by
  unfold parseKebabOrStr
  refine .bind (.rollback (.step nibbles_litStr)) fun s => ?_
  cases s with
  | some s => exact .pure
  | none => exact .bind frugal_kebab fun _ => .pure

theorem frugal_value : Frugal parseValue := by
  unfold parseValue
  exact .bind .look fun ts => .ite (.bind (.unwrapP (frugal_groupTokens _)) fun _ => .pure)
    (.ite (.bind (.unwrapP (.step nibbles_ident)) fun _ => .bind (.unwrapP (frugal_groupTokens _)) fun _ => .pure)
    (.ite (.bind (.unwrapP (frugal_groupTokens _)) fun _ => .pure)
    (.ite (.bind (.unwrapP (.step nibbles_lit)) fun _ => .pure) .fail)))

theorem frugal_valueOrEmit : Frugal parseValueOrEmit := by
  unfold parseValueOrEmit
  refine .bind (.rollback frugal_value) fun v => ?_
  cases v with
  | some v => exact .pure
  | none => exact .bind .look fun _ => .bind .emit fun _ => .pure

theorem frugal_kv : Frugal parseKv := by
  unfold parseKv
  refine .bind .look fun ts => .ite (.bind .inGroup fun _ => .bind .lift fun _ => .pure)
    (.bind frugal_kebab fun k => .bind (.rollback (.step (nibbles_punct _))) fun e => ?_)
  cases e with
  | some _ => exact .bind frugal_valueOrEmit fun _ => .pure
  | none => exact .pure

theorem frugal_modifier : Frugal parseModifier := by
  unfold parseModifier
  refine .bind (.rollback (.step (nibbles_punct _))) fun e => ?_
  cases e with
  | some _ => exact .bind (.step nibbles_ident) fun _ => .pure
  | none => exact .pure

theorem frugal_directive : Frugal parseDirective := by
  unfold parseDirective
  refine .bind (.step nibbles_ident) fun n => .bind (.step (nibbles_punct _)) fun _ => .bind .look fun ts =>
    .ite (.bind .inGroup fun _ => .bind .lift fun _ => .bind frugal_modifier fun _ => .pure)
    (.bind frugal_kebabOrStr fun k => .bind frugal_modifier fun m => .bind (.rollback (.step (nibbles_punct _))) fun e => ?_)
  cases e with
  | some _ => exact .bind frugal_valueOrEmit fun _ => .pure
  | none => exact .pure

theorem frugal_spread : Frugal parseSpread := by
  unfold parseSpread
  exact .bind (.step (nibbles_group _)) fun s => .bind .look fun _ => .ite (.bind .look fun _ => .pure) .fail

theorem frugal_attr : Frugal parseAttr := by
  unfold parseAttr
  refine .bind .look fun ts => .ite (.bind (.unwrapOrAbort frugal_directive) fun _ => .pure)
    (.ite (.bind frugal_kv fun _ => .pure) (.bind (.rollback frugal_kv) fun kv => ?_))
  cases kv with
  | some kv => exact .pure
  | none =>
    refine .bind (.rollback frugal_spread) fun sp => ?_
    cases sp with
    | some _ => exact .pure
    | none => exact .fail

theorem frugal_attrsLoop (fuel : Nat) (vec : List Attr) : Frugal (attrsLoop fuel vec) := by
  induction fuel generalizing vec with
  | zero => exact .diverge
  | succ fuel ih =>
    unfold attrsLoop
    refine .bind (.rollback frugal_attr) fun a => ?_
    cases a with
    | some a => exact ih _
    | none => exact .pure

theorem frugal_selector : Frugal parseSelector := by
  unfold parseSelector
  refine .bind (.rollback (.step (nibbles_punct _))) fun d => ?_
  cases d with
  | some _ => exact .bind frugal_kebab fun _ => .pure
  | none =>
    refine .bind (.rollback (.step (nibbles_punct _))) fun d => ?_
    cases d with
    | some _ => exact .bind frugal_kebab fun _ => .pure
    | none => exact .fail

theorem frugal_selectorsLoop (fuel : Nat) (vec : List Selector) : Frugal (selectorsLoop fuel vec) := by
  induction fuel generalizing vec with
  | zero => exact .diverge
  | succ fuel ih =>
    unfold selectorsLoop
    refine .bind (.rollback frugal_selector) fun a => ?_
    cases a with
    | some a => exact ih _
    | none => exact .pure

theorem frugal_tag : Frugal (parseTag pp) := by
  unfold parseTag
  refine .bind .look fun ts => .ite (.bind frugal_path fun _ => .pure) (.bind frugal_kebab fun k => ?_)
  cases TagKind.ofStr k.repr with
  | webComponent => exact .pure
  | _ => exact .bind .lift fun _ => .pure

theorem frugal_closureArgsLoop (fuel : Nat) (tokens : Toks) : Frugal (closureArgsLoop fuel tokens) := by
  induction fuel generalizing tokens with
  | zero => exact .diverge
  | succ fuel ih =>
    unfold closureArgsLoop
    refine .bind (.rollback (.step (nibbles_punct _))) fun d => ?_
    cases d with
    | some _ => exact .pure
    | none =>
      refine .bind (.rollback (.step nibbles_tt)) fun t => ?_
      cases t with
      | some t => exact .bind .look fun _ => ih _
      | none => exact .fail

theorem frugal_closureArgs : Frugal parseClosureArgs := by
  unfold parseClosureArgs
  exact .bind (.step (nibbles_punct _)) fun _ => .bind .look fun _ => frugal_closureArgsLoop _ _

theorem frugal_element (fuel : Nat) : Frugal (elementF pp fuel) := by
  cases fuel with
  | zero => exact .diverge
  | succ fuel =>
    unfold elementF
    refine .bind frugal_tag fun tag => .bind (.bind .look fun _ => frugal_selectorsLoop _ _) fun sels =>
      .bind (.bind .look fun _ => frugal_attrsLoop _ _) fun attrs => .bind (.rollback (.step (nibbles_punct _))) fun s => ?_
    cases s with
    | some _ => exact .pure
    | none =>
      exact .bind .look fun ts => .ite (.bind .emit fun _ => .pure)
        (.ite (.ite (.bind .inGroup fun _ => .pure) (.bind .inGroup fun _ => .pure))
        (.ite (.bind frugal_closureArgs fun _ => .bind .look fun _ => .ite (.bind .inGroup fun _ => .pure)
            (.ite (.bind .inGroup fun _ => .pure) (.bind .emit fun _ => .pure)))
          (.bind .emit fun _ => .bind .emit fun _ => .pure)))

theorem frugal_child (fuel : Nat) : Frugal (childF pp fuel) := by
  cases fuel with
  | zero => exact .diverge
  | succ fuel =>
    unfold childF
    refine .bind (.rollback frugal_value) fun v => ?_
    cases v with
    | some v =>
      cases v with
      | lit l =>
        cases l with
        | tok l => cases l <;> first | exact .pure | exact .bind .emit fun _ => .pure
        | bool b => exact .bind .emit fun _ => .pure
      | _ => exact .pure
    | none =>
      exact .bind .look fun ts => .ite (.bind (.unwrapP (.step (nibbles_kw _))) fun _ =>
          .bind (.unwrapP (.step (nibbles_punct _))) fun _ => .bind (frugal_element _) fun _ => .pure)
        (.ite (.bind (frugal_element _) fun _ => .pure) .fail)

theorem size_length (ts : Toks) : ts.length ≤ toksSize ts := by
  induction ts with
  | nil => exact Nat.le_refl _
  | cons t ts ih =>
    have : 1 ≤ t.size := by cases t <;> simp [TT.size]
    simp only [List.length_cons, toksSize]; omega

theorem frugal_takeRest : Frugal takeRest := by
  intro ts
  show ts.length ≤ 0 + 2 * (1 + toksSize ts)
  have := size_length ts
  omega

theorem frugal_children (fuel : Nat) : Frugal (childrenF pp fuel) := by
  induction fuel with
  | zero => exact .diverge
  | succ fuel ih =>
    unfold childrenF
    refine .bind .look fun ts => .ite .pure (.bind (.caught (frugal_child _)) fun r => ?_)
    cases r with
    | ok c => exact .bind ih fun _ => .pure
    | error e =>
      exact .bind .look fun _ => .ite (.bind .emit fun _ => .bind (.unwrapP (.step (nibbles_punct _))) fun _ => ih)
        (.bind .emit fun _ => .bind frugal_takeRest fun _ => ih)

/-- Whatever is read is read in steps. -/
theorem steps_lower (pp : PathParser) (ts : Toks) {ds : List Diag} {r : PR (List Child)}
    (h : Mview.parseChildren pp ts = .ret ds r) : ts.length ≤ 2 * steps pp ts := by
  rw [← parse_erase] at h
  have h1 := frugal_children (pp := pp) (fuelFor ts) ts
  have h2 := (all_steps (pp := pp) (fuelFor ts)).2.2 ts
  unfold steps
  unfold parseChildren at h ⊢
  revert h h1 h2
  rcases childrenF pp (fuelFor ts) ts with ⟨n, o⟩
  cases o with
  | ret ds r => cases r with
    | ok a r =>
      rintro - h1 ⟨rfl, -⟩
      have : ts.length ≤ 0 + 2 * n := h1
      show ts.length ≤ 2 * n
      omega
    | err e r => exact fun _ _ h => h.elim
  | _ => exact fun h => nomatch h

end Mview.Steps
