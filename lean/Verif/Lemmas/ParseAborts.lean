import Verif.Lemmas.Says
/-
The parser only stops early at a malformed directive.
-/

namespace Mview

/-- an error of `syn` -/
def SA (d : Diag) : Prop := ∃ e, d = .synAbort e

/-- every run of the parser stops only with an error of `syn` -/
def PAborts {α : Type} (p : P α) : Prop := ∀ ts, Aborts SA (p ts)

theorem Aborts.weaken {α : Type} {S : Diag → Prop} {x : Out α} (h : Aborts S x) :
    Aborts (fun _ => True) x := by
  intro ds hd
  obtain ⟨d, h1, _⟩ := h ds hd
  exact ⟨d, h1, trivial⟩

/-- a stronger condition for code that never stops early -/
def Never {α : Type} (x : Out α) : Prop := ∀ ds, x ≠ .abort ds

theorem Never.aborts {α : Type} {S : Diag → Prop} {x : Out α} (h : Never x) : Aborts S x :=
  fun ds hd => absurd hd (h ds)

section
variable {α β : Type}

theorem PAborts.pure (a : α) : PAborts (Pure.pure a : P α) := fun _ => .ret _ _
theorem PAborts.bind {p : P α} {f : α → P β} (h : PAborts p) (hf : ∀ a, PAborts (f a)) :
    PAborts (p >>= f) := by
  intro ts
  refine Aborts.bind (h ts) fun r => ?_
  cases r with
  | ok a rest => exact hf a rest
  | err e rest => exact .ret _ _
theorem PAborts.inp : PAborts inp := fun _ => .ret _ _
theorem PAborts.fail (e : Err) : PAborts (fail e : P α) := fun _ => .ret _ _
theorem PAborts.diverge : PAborts (fun _ => .diverge : P α) := fun _ => .diverge
theorem PAborts.liftOut {o : Out α} (h : Aborts SA o) : PAborts (liftOut o) :=
  fun _ => .bind h fun _ => .ret _ _
theorem PAborts.emitP (d : Diag) : PAborts (emitP d) := fun _ => .ret _ _
theorem PAborts.rollback {p : P α} (h : PAborts p) : PAborts (rollback p) := by
  intro ts
  refine Aborts.bind (h ts) fun r => ?_
  cases r <;> exact .ret _ _
theorem PAborts.unwrapP {p : P α} (h : PAborts p) (site : PanicSite) :
    PAborts (unwrapP site p) := by
  intro ts
  refine Aborts.bind (h ts) fun r => ?_
  cases r
  · exact .ret _ _
  · exact .panic _
theorem PAborts.unwrapOrAbort {p : P α} (h : PAborts p) : PAborts (unwrapOrAbort p) := by
  intro ts
  refine Aborts.bind (h ts) fun r => ?_
  cases r
  · exact .ret _ _
  · exact .abort ⟨_, rfl⟩
theorem PAborts.ite {c : Prop} [Decidable c] {p q : P α} (h : PAborts p) (h' : PAborts q) :
    PAborts (if c then p else q) := by
  split
  · exact h
  · exact h'

theorem parseIdentAny_a : PAborts parseIdentAny := by
  intro ts; unfold parseIdentAny; split <;> exact .ret _ _
theorem parsePunct_a (c : Char) : PAborts (parsePunct c) := by
  intro ts; unfold parsePunct; split
  · split <;> exact .ret _ _
  · exact .ret _ _
theorem parseKw_a (c : Str) : PAborts (parseKw c) := by
  intro ts; unfold parseKw; split <;> exact .ret _ _
theorem parseTT_a : PAborts parseTT := by
  intro ts; unfold parseTT; split <;> exact .ret _ _
theorem parseLit_a : PAborts parseLit := by
  intro ts; unfold parseLit; split
  · exact .ret _ _
  · split
    · exact .ret _ _
    · split <;> exact .ret _ _
  · exact .ret _ _
  · exact .ret _ _
  · exact .ret _ _
theorem parseLitInt_a : PAborts parseLitInt := by
  refine .bind parseLit_a fun l => ?_
  split
  · exact .pure _
  · exact .fail _
theorem parseLitStr_a : PAborts parseLitStr := by
  refine .bind parseLit_a fun l => ?_
  split
  · exact .pure _
  · exact .fail _
theorem extractGroup_a (d : Delim) : PAborts (extractGroup d) := by
  intro ts; unfold extractGroup; split
  · split <;> exact .ret _ _
  · exact .ret _ _
theorem inGroup_a {d : Delim} {p : P α} (h : PAborts p) : PAborts (inGroup d p) := by
  intro ts; unfold inGroup; split
  · refine Aborts.bind ((extractGroup_a d).unwrapP _ ts) fun r => ?_
    cases r with
    | ok inner rest =>
      refine Aborts.bind (h inner) fun q => ?_
      cases q with
      | ok a left => simp only; split <;> exact .ret _ _
      | err e l => exact .ret _ _
    | err e l => exact .ret _ _
  · exact .ret _ _

theorem kebabLoop_a (fuel : Nat) : ∀ b k, PAborts (kebabLoop fuel b k) := by
  induction fuel with
  | zero => exact fun _ _ => .diverge
  | succ fuel ih =>
    intro b k
    unfold kebabLoop
    refine .bind (parsePunct_a _).rollback fun dash => ?_
    refine .ite ?_ (.pure _)
    refine .bind parseIdentAny_a.rollback fun i => ?_
    split
    · split <;> extract_lets jp <;>
        exact .ite (.bind (.emitP _) fun _ => ih _ _) (ih _ _)
    · refine .bind parseLitInt_a.rollback fun i => ?_
      split
      · exact ih _ _
      · exact ih _ _

theorem parseKebab_a : PAborts parseKebab := by
  refine .bind parseIdentAny_a.rollback fun i => ?_
  split
  · exact .bind .inp fun _ => kebabLoop_a _ _ _
  · refine .bind (parsePunct_a _).rollback fun dash => ?_
    split
    · exact .bind .inp fun _ => kebabLoop_a _ _ _
    · exact .fail _

theorem parseKebabOrStr_a : PAborts parseKebabOrStr := by
  refine .bind parseLitStr_a.rollback fun i => ?_
  split
  · exact .pure _
  · exact .bind parseKebab_a fun _ => .pure _

theorem parseBracedKebab_a : PAborts parseBracedKebab := inGroup_a parseKebab_a

theorem toSnakeIdent_never (k : KebabIdent) : Never k.toSnakeIdent := by
  intro ds h
  unfold KebabIdent.toSnakeIdent KebabIdent.checkSpan newRaw at h
  split at h
  · simp at h
  · split at h <;> simp at h

theorem intoBlockValue_a (k : KebabIdent) : Aborts SA (intoBlockValue k) :=
  .bind (toSnakeIdent_never k).aborts fun _ => .ret _ _

theorem parseValue_a : PAborts parseValue := by
  refine .bind .inp fun ts => ?_
  refine .ite (.bind ((extractGroup_a _).unwrapP _) fun _ => .pure _) (.ite ?_ (.ite ?_ (.ite ?_ (.fail _))))
  · exact .bind (parseIdentAny_a.unwrapP _) fun _ => .bind ((extractGroup_a _).unwrapP _) fun _ => .pure _
  · exact .bind ((extractGroup_a _).unwrapP _) fun _ => .pure _
  · exact .bind (parseLit_a.unwrapP _) fun _ => .pure _

theorem parseValueOrEmit_a : PAborts parseValueOrEmit := by
  refine .bind parseValue_a.rollback fun v => ?_
  split
  · exact .pure _
  · exact .bind .inp fun _ => .bind (.emitP _) fun _ => .pure _

theorem parseKv_a : PAborts parseKv := by
  refine .bind .inp fun ts => .ite ?_ ?_
  · exact .bind parseBracedKebab_a fun k => .bind (.liftOut (intoBlockValue_a k)) fun _ => .pure _
  · refine .bind parseKebab_a fun k => .bind (parsePunct_a _).rollback fun e => ?_
    split
    · exact .bind parseValueOrEmit_a fun _ => .pure _
    · exact .pure _

theorem parseModifier_a : PAborts parseModifier := by
  refine .bind (parsePunct_a _).rollback fun e => ?_
  split
  · exact .bind parseIdentAny_a fun _ => .pure _
  · exact .pure _

theorem parseDirective_a : PAborts parseDirective := by
  refine .bind parseIdentAny_a fun _ => .bind (parsePunct_a _) fun _ => .bind .inp fun ts =>
    .ite ?_ ?_
  · exact .bind parseBracedKebab_a fun k => .bind (.liftOut (intoBlockValue_a k)) fun _ =>
      .bind parseModifier_a fun _ => .pure _
  · refine .bind parseKebabOrStr_a fun _ => .bind parseModifier_a fun _ =>
      .bind (parsePunct_a _).rollback fun e => ?_
    split
    · exact .bind parseValueOrEmit_a fun _ => .pure _
    · exact .pure _

theorem parseSpread_a : PAborts parseSpread :=
  .bind (extractGroup_a _) fun _ => .ite (.pure _) (.fail _)

theorem parseAttr_a : PAborts parseAttr := by
  refine .bind .inp fun ts => .ite ?_ (.ite ?_ ?_)
  · exact .bind parseDirective_a.unwrapOrAbort fun _ => .pure _
  · exact .bind parseKv_a fun _ => .pure _
  · refine .bind parseKv_a.rollback fun k => ?_
    split
    · exact .pure _
    · refine .bind parseSpread_a.rollback fun k => ?_
      split
      · exact .pure _
      · exact .fail _

theorem attrsLoop_a (fuel : Nat) : ∀ v, PAborts (attrsLoop fuel v) := by
  induction fuel with
  | zero => exact fun _ => .diverge
  | succ fuel ih =>
    intro v
    refine .bind parseAttr_a.rollback fun a => ?_
    split
    · exact ih _
    · exact .pure _

theorem parseSelector_a : PAborts parseSelector := by
  refine .bind (parsePunct_a _).rollback fun d => ?_
  split
  · exact .bind parseKebab_a fun _ => .pure _
  · refine .bind (parsePunct_a _).rollback fun d => ?_
    split
    · exact .bind parseKebab_a fun _ => .pure _
    · exact .fail _

theorem selectorsLoop_a (fuel : Nat) : ∀ v, PAborts (selectorsLoop fuel v) := by
  induction fuel with
  | zero => exact fun _ => .diverge
  | succ fuel ih =>
    intro v
    refine .bind parseSelector_a.rollback fun a => ?_
    split
    · exact ih _
    · exact .pure _

theorem parseTag_a (pp : PathParser) : PAborts (parseTag pp) := by
  refine .bind .inp fun ts => .ite ?_ ?_
  · refine .bind (fun ts => ?_) fun _ => .pure _
    unfold parsePath
    split <;> exact .ret _ _
  · refine .bind parseKebab_a fun k => ?_
    have := PAborts.liftOut (o := k.toSnakeIdent) (toSnakeIdent_never k).aborts
    split
    · exact .bind this fun _ => .pure _
    · exact .bind this fun _ => .pure _
    · exact .bind this fun _ => .pure _
    · exact .bind this fun _ => .pure _
    · exact .pure _

theorem closureArgsLoop_a (fuel : Nat) : ∀ v, PAborts (closureArgsLoop fuel v) := by
  induction fuel with
  | zero => exact fun _ => .diverge
  | succ fuel ih =>
    intro v
    refine .bind (parsePunct_a _).rollback fun a => ?_
    split
    · exact .pure _
    · refine .bind parseTT_a.rollback fun a => ?_
      split
      · exact ih _
      · exact .fail _

theorem parseClosureArgs_a : PAborts parseClosureArgs :=
  .bind (parsePunct_a _) fun _ => .bind .inp fun _ => closureArgsLoop_a _ _

theorem descent_a (pp : PathParser) (fuel : Nat) :
    PAborts (elementF pp fuel) ∧ PAborts (childF pp fuel) ∧ PAborts (childrenF pp fuel) := by
  induction fuel with
  | zero =>
    refine ⟨?_, ?_, ?_⟩
    · unfold elementF; exact .diverge
    · unfold childF; exact .diverge
    · unfold childrenF; exact .diverge
  | succ fuel ih =>
    obtain ⟨ihE, ihC, ihL⟩ := ih
    refine ⟨?_, ?_, ?_⟩
    · unfold elementF
      refine .bind (parseTag_a pp) fun _ => .bind (.bind .inp fun _ => selectorsLoop_a _ _) fun _ =>
        .bind (.bind .inp fun _ => attrsLoop_a _ _) fun _ =>
        .bind (parsePunct_a _).rollback fun semi => ?_
      split
      · exact .pure _
      · refine .bind .inp fun ts => .ite (.bind (.emitP _) fun _ => .pure _) (.ite ?_ (.ite ?_ ?_))
        · split
          · exact .bind (inGroup_a ihL) fun _ => .pure _
          · exact .bind (inGroup_a ihL) fun _ => .pure _
        · refine .bind parseClosureArgs_a fun _ => .bind .inp fun ts => .ite ?_ (.ite ?_ ?_)
          · exact .bind (inGroup_a ihL) fun _ => .pure _
          · exact .bind (inGroup_a ihL) fun _ => .pure _
          · exact .bind (.emitP _) fun _ => .pure _
        · exact .bind (.emitP _) fun _ => .bind (.emitP _) fun _ => .pure _
    · unfold childF
      refine .bind parseValue_a.rollback fun v => ?_
      split
      · split
        · split
          · exact .pure _
          · exact .bind (.emitP _) fun _ => .pure _
        · exact .pure _
      · refine .bind .inp fun ts => .ite ?_ (.ite ?_ (.fail _))
        · exact .bind ((parseKw_a _).unwrapP _) fun _ => .bind ((parsePunct_a _).unwrapP _) fun _ =>
            .bind ihE fun _ => .pure _
        · exact .bind ihE fun _ => .pure _
    · intro ts
      unfold childrenF
      split
      · exact .ret _ _
      · refine .bind (ihC ts) fun r => ?_
        cases r with
        | ok c rest =>
          refine .bind (ihL rest) fun q => ?_
          cases q <;> exact .ret _ _
        | err e rest =>
          simp only
          split
          · refine .bind (.ret _ _) fun _ => .bind ((parsePunct_a _).unwrapP _ _) fun q => ?_
            cases q
            · exact ihL _
            · exact .ret _ _
          · exact .bind (.ret _ _) fun _ => ihL _

theorem childrenF_aborts (pp : PathParser) (fuel : Nat) : PAborts (childrenF pp fuel) :=
  (descent_a pp fuel).2.2

end
end Mview
