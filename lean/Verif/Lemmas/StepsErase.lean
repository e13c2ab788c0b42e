import Verif.Steps.Parse
import Verif.Lemmas.Basic
/-
Counting steps changes nothing else: without the counts, the parsers of `Steps/Parse.lean` are the
ones of `Model/Parse.lean`.
-/

namespace Mview.Steps

variable {α β : Type}

/-- without the count -/
def C.er (p : C α) : P α := fun ts => (p ts).2

theorem er_bind (p : C α) (f : α → C β) : (p >>= f).er = p.er >>= fun a => (f a).er := by
  funext ts
  show (C.bind p f ts).2 = Out.bind (p ts).2 _
  unfold C.bind
  rcases p ts with ⟨n, o⟩
  cases o with
  | ret ds r => cases r <;> simp [C.er, Out.bind, Out.tell]
  | _ => rfl

theorem er_pure (a : α) : (pure a : C α).er = pure a := rfl
theorem er_step (p : P α) : (step p).er = p := rfl
theorem er_free (p : P α) : (free p).er = p := rfl
theorem er_look (n : Nat) : (look n).er = inp := rfl

theorem er_ite {c : Prop} [Decidable c] (p q : C α) : (if c then p else q).er = if c then p.er else q.er := by
  split <;> rfl

theorem er_rollback (p : C α) : (rollback p).er = Mview.rollback p.er := by
  funext ts
  show (rollback p ts).2 = Out.bind (p ts).2 _
  unfold rollback
  rcases p ts with ⟨n, o⟩
  cases o with
  | ret ds r => cases r <;> simp [Out.bind, Out.tell]
  | _ => rfl

theorem er_unwrapP (s : PanicSite) (p : C α) : (unwrapP s p).er = Mview.unwrapP s p.er := by
  funext ts
  show (unwrapP s p ts).2 = Out.bind (p ts).2 _
  unfold unwrapP
  rcases p ts with ⟨n, o⟩
  cases o with
  | ret ds r => cases r <;> simp [Out.bind, Out.tell]
  | _ => rfl

theorem er_unwrapOrAbort (p : C α) : (unwrapOrAbort p).er = Mview.unwrapOrAbort p.er := by
  funext ts
  show (unwrapOrAbort p ts).2 = Out.bind (p ts).2 _
  unfold unwrapOrAbort
  rcases p ts with ⟨n, o⟩
  cases o with
  | ret ds r => cases r <;> simp [Out.bind, Out.tell]
  | _ => rfl

theorem er_groupTokens (d : Delim) : (groupTokens d).er = Mview.groupTokens d := by
  funext ts
  show (groupTokens d ts).2 = Mview.extractGroup d ts
  unfold groupTokens
  split <;> simp_all

theorem er_parsePath (pp : PathParser) : (parsePath pp).er = Mview.parsePath pp := rfl

theorem er_inGroup (d : Delim) (p : C α) : (inGroup d p).er = Mview.inGroup d p.er := by
  funext ts
  show (inGroup d p ts).2 = Mview.inGroup d p.er ts
  unfold inGroup Mview.inGroup
  split
  · rename_i d' inner rest
    by_cases h : d' = d
    · subst h
      simp only [peekGroup, decide_true, if_true, unwrapP_apply, extractGroup, Out.bind_ret, Out.tell_nil, C.er]
      rcases p inner with ⟨n, o⟩
      cases o with
      | ret ds r =>
        cases r with
        | ok a left => simp only; split <;> simp [*]
        | err e left => simp
      | _ => rfl
    · simp [peekGroup, h]
  · rename_i hn
    have : peekGroup d ts = false := by
      unfold peekGroup
      split
      · exact absurd rfl (hn _ _ _)
      · rfl
    simp [this]

theorem look_er (n : Nat) (f : Toks → C β) : (look n >>= f).er = inp >>= fun ts => (f ts).er := er_bind _ _

/-- Looking and not using it is nothing. -/
theorem inp_const (p : P β) : (inp >>= fun _ => p) = p := by
  funext ts; simp

theorem er_kebabLoop (fuel : Nat) (b : Bool) (k : KebabIdent) :
    (kebabLoop fuel b k).er = Mview.kebabLoop fuel b k := by
  induction fuel generalizing b k with
  | zero => rfl
  | succ fuel ih =>
    unfold kebabLoop Mview.kebabLoop
    rw [er_bind, er_rollback, er_step]
    congr; funext dash
    rw [er_ite]
    congr 1
    simp only
    rw [er_bind, er_rollback, er_step]
    congr; funext ident
    cases ident with
    | some i =>
      simp only
      split
      · rw [er_bind, er_free]; congr; funext _; exact ih _ _
      · exact ih _ _
    | none =>
      simp only
      rw [er_bind, er_rollback, er_step]
      congr; funext int
      cases int <;> exact ih _ _

theorem er_parseKebab : parseKebab.er = Mview.parseKebab := by
  unfold parseKebab Mview.parseKebab
  rw [er_bind, er_rollback, er_step]
  congr; funext ident
  cases ident with
  | some i => simp only [er_bind, er_look, er_kebabLoop]
  | none =>
    simp only
    rw [er_bind, er_rollback, er_step]
    congr; funext dash
    cases dash with
    | some _ => simp only [er_bind, er_look, er_kebabLoop]
    | none => rfl

theorem er_parseKebabOrStr : parseKebabOrStr.er = Mview.parseKebabOrStr := by
  unfold parseKebabOrStr Mview.parseKebabOrStr
  rw [er_bind, er_rollback, er_step]
  congr; funext s
  cases s with
  | some s => rfl
  | none => simp only [er_bind, er_parseKebab, er_pure]

theorem er_parseBracedKebab : parseBracedKebab.er = Mview.parseBracedKebab := by
  unfold parseBracedKebab Mview.parseBracedKebab
  rw [er_inGroup, er_parseKebab]

theorem er_parseValue : parseValue.er = Mview.parseValue := by
  unfold parseValue Mview.parseValue
  simp only [er_bind, er_look, er_ite, er_unwrapP, er_groupTokens, er_step, er_free, er_pure]

theorem er_parseValueOrEmit : parseValueOrEmit.er = Mview.parseValueOrEmit := by
  unfold parseValueOrEmit Mview.parseValueOrEmit
  rw [er_bind, er_rollback, er_parseValue]
  congr; funext v
  cases v <;> simp only [er_bind, er_look, er_free, er_pure]

theorem er_parseKv : parseKv.er = Mview.parseKv := by
  unfold parseKv Mview.parseKv
  simp only [er_bind, er_look, er_ite, er_parseBracedKebab, er_parseKebab, er_free, er_pure, er_rollback, er_step]
  congr; funext ts; congr; funext k; congr; funext eq
  cases eq <;> simp only [er_bind, er_parseValueOrEmit, er_pure]

theorem er_parseModifier : parseModifier.er = Mview.parseModifier := by
  unfold parseModifier Mview.parseModifier
  rw [er_bind, er_rollback, er_step]
  congr; funext c
  cases c <;> simp only [er_bind, er_step, er_pure]

theorem er_parseDirective : parseDirective.er = Mview.parseDirective := by
  unfold parseDirective Mview.parseDirective
  simp only [er_bind, er_look, er_ite, er_parseBracedKebab, er_parseKebabOrStr, er_free, er_pure, er_rollback, er_step,
    er_parseModifier]
  congr; funext n; congr; funext _; congr; funext ts; congr; funext k; congr; funext m; congr; funext eq
  cases eq <;> simp only [er_bind, er_parseValueOrEmit, er_pure]

theorem er_parseSpread : parseSpread.er = Mview.parseSpread := by
  unfold parseSpread Mview.parseSpread
  simp only [er_bind, er_look, er_ite, er_step, er_free, er_pure, inp_const]

theorem er_parseAttr : parseAttr.er = Mview.parseAttr := by
  unfold parseAttr Mview.parseAttr
  simp only [er_bind, er_look, er_ite, er_unwrapOrAbort, er_parseDirective, er_parseKv, er_pure, er_rollback]
  congr; funext ts; congr; funext kv
  cases kv with
  | some kv => rfl
  | none =>
    simp only [er_bind, er_rollback, er_parseSpread]
    congr; funext sp
    cases sp <;> rfl

theorem er_attrsLoop (fuel : Nat) (vec : List Attr) : (attrsLoop fuel vec).er = Mview.attrsLoop fuel vec := by
  induction fuel generalizing vec with
  | zero => rfl
  | succ fuel ih =>
    unfold attrsLoop Mview.attrsLoop
    rw [er_bind, er_rollback, er_parseAttr]
    congr; funext a
    cases a with
    | some a => exact ih _
    | none => rfl

theorem er_parseAttrs : parseAttrs.er = Mview.parseAttrs := by
  unfold parseAttrs Mview.parseAttrs
  simp only [er_bind, er_look, er_attrsLoop]

theorem er_parseSelector : parseSelector.er = Mview.parseSelector := by
  unfold parseSelector Mview.parseSelector
  simp only [er_bind, er_rollback, er_step]
  congr; funext d
  cases d with
  | some _ => simp only [er_bind, er_parseKebab, er_pure]
  | none =>
    simp only [er_bind, er_rollback, er_step]
    congr; funext p
    cases p <;> simp only [er_bind, er_parseKebab, er_pure, er_free]

theorem er_selectorsLoop (fuel : Nat) (vec : List Selector) :
    (selectorsLoop fuel vec).er = Mview.selectorsLoop fuel vec := by
  induction fuel generalizing vec with
  | zero => rfl
  | succ fuel ih =>
    unfold selectorsLoop Mview.selectorsLoop
    rw [er_bind, er_rollback, er_parseSelector]
    congr; funext a
    cases a with
    | some a => exact ih _
    | none => rfl

theorem er_parseSelectors : parseSelectors.er = Mview.parseSelectors := by
  unfold parseSelectors Mview.parseSelectors
  simp only [er_bind, er_look, er_selectorsLoop]

theorem er_parseTag (pp : PathParser) : (parseTag pp).er = Mview.parseTag pp := by
  unfold parseTag Mview.parseTag
  simp only [er_bind, er_look, er_ite, er_parsePath, er_parseKebab, er_pure]
  congr; funext ts; congr; funext k
  cases TagKind.ofStr k.repr <;> simp only [er_bind, er_free, er_pure]

theorem er_closureArgsLoop (fuel : Nat) (tokens : Toks) :
    (closureArgsLoop fuel tokens).er = Mview.closureArgsLoop fuel tokens := by
  induction fuel generalizing tokens with
  | zero => rfl
  | succ fuel ih =>
    unfold closureArgsLoop Mview.closureArgsLoop
    rw [er_bind, er_rollback, er_step]
    congr; funext p
    cases p with
    | some _ => rfl
    | none =>
      simp only [er_bind, er_rollback, er_step]
      congr; funext t
      cases t with
      | some t => simp only [er_bind, er_look, inp_const]; exact ih _
      | none => rfl

theorem er_parseClosureArgs : parseClosureArgs.er = Mview.parseClosureArgs := by
  unfold parseClosureArgs Mview.parseClosureArgs
  simp only [er_bind, er_step, er_look, er_closureArgsLoop]

theorem er_element {pp : PathParser} {fuel : Nat} (ih : (childrenF pp fuel).er = Mview.childrenF pp fuel) :
    (elementF pp (fuel + 1)).er = Mview.elementF pp (fuel + 1) := by
  unfold elementF Mview.elementF
  simp only [er_bind, er_parseTag, er_parseSelectors, er_parseAttrs, er_rollback, er_step]
  congr; funext tag; congr; funext sels; congr; funext attrs; congr; funext semi
  cases semi with
  | some _ => rfl
  | none =>
    simp only [er_bind, er_look, er_ite, er_free, er_pure, er_inGroup, er_parseClosureArgs, ih]

theorem er_child {pp : PathParser} {fuel : Nat} (ih : (elementF pp fuel).er = Mview.elementF pp fuel) :
    (childF pp (fuel + 1)).er = Mview.childF pp (fuel + 1) := by
  unfold childF Mview.childF
  simp only [er_bind, er_rollback, er_parseValue]
  congr; funext v
  cases v with
  | some v =>
    cases v with
    | lit l =>
      cases l with
      | tok l => cases l <;> rfl
      | bool b => rfl
    | _ => rfl
  | none =>
    simp only [er_bind, er_look, er_ite, er_unwrapP, er_step, er_free, er_pure, ih]

theorem er_children {pp : PathParser} {fuel : Nat} (ih : (childF pp fuel).er = Mview.childF pp fuel)
    (ihs : (childrenF pp fuel).er = Mview.childrenF pp fuel) :
    (childrenF pp (fuel + 1)).er = Mview.childrenF pp (fuel + 1) := by
  funext ts
  unfold childrenF Mview.childrenF
  simp only [er_bind, er_look, er_ite, er_pure]
  rw [P.bind_apply]
  simp only [inp_apply, Out.bind_ret, Out.tell_nil]
  by_cases he : isEmpty ts
  · simp [he]
  · simp only [he, Bool.false_eq_true, if_false]
    rw [← ih, P.bind_apply]
    have hc : (caught (childF pp fuel)).er ts = Out.bind ((childF pp fuel).er ts) fun r => match r with
        | .ok c rest => .ret [] (.ok (.ok c) rest)
        | .err e rest => .ret [] (.ok (.error e) rest) := by
      show (caught (childF pp fuel) ts).2 = Out.bind (childF pp fuel ts).2 _
      unfold caught
      rcases childF pp fuel ts with ⟨n, o⟩
      cases o with
      | ret ds r => cases r <;> simp [Out.bind, Out.tell]
      | _ => rfl
    rw [hc, Out.bind_assoc]
    congr; funext r
    cases r with
    | ok c rest =>
      simp only [Out.bind_ret, Out.tell_nil, er_bind, ihs, P.bind_apply, er_pure, P.pure_apply]
      congr; funext q
      cases q <;> rfl
    | err e rest =>
      simp only [Out.bind_ret, Out.tell_nil, er_bind, er_look, er_ite, er_free, er_unwrapP, er_step, ihs, P.bind_apply,
        inp_apply]
      by_cases hs : peekPunct ';' rest
      · simp only [hs, if_true, P.bind_apply, emitP_apply, emit_def, Out.bind_ret]
        congr; congr; funext q
        cases q <;> rfl
      · simp only [hs, Bool.false_eq_true, if_false, P.bind_apply, emitP_apply, emit_def, Out.bind_ret]
        have : takeRest.er rest = .ret [] (.ok () []) := rfl
        rw [this]
        simp

theorem er_all (pp : PathParser) (fuel : Nat) : (elementF pp fuel).er = Mview.elementF pp fuel ∧
    (childF pp fuel).er = Mview.childF pp fuel ∧ (childrenF pp fuel).er = Mview.childrenF pp fuel := by
  induction fuel with
  | zero => exact ⟨rfl, rfl, rfl⟩
  | succ fuel ih => exact ⟨er_element ih.2.2, er_child ih.1, er_children ih.2.1 ih.2.2⟩

/-- Apart from the counting this is the parser of the macro. -/
theorem parse_erase (pp : PathParser) (ts : Toks) : (parseChildren pp ts).2 = Mview.parseChildren pp ts :=
  congrFun (er_all pp _).2.2 ts

end Mview.Steps
