import Verif.Lemmas.Context
/-
What the parser reports, and how it continues.
-/

namespace Mview

/-! ### places -/

/-- Accepted input is accepted piece by piece. -/
theorem place_parses {pp : PathParser} (hpp : pp.Starts) {x : Toks} {K : Place} {root : List Child}
    (hl : LexicalToks (K.fill x)) (hw : K.Wf pp x) :
    Parses pp (K.fill x) root ↔ ∃ cs, Parses pp x cs ∧ K.Tree pp cs root := by
  unfold Parses
  rw [parse_place hpp K hl hw, Out.bind_eq_ret_nil]
  have key : ∀ (K : Place) cs root,
      K.around pp cs = .ret [] (.ok root []) ↔ K.Tree pp cs root := by
    intro K
    induction K with
    | here before =>
      intro cs root
      simp only [Place.around, Out.ret.injEq, PR.ok.injEq, true_and, and_true]
      constructor
      · rintro rfl; exact .here _ _
      · rintro ⟨⟩; rfl
    | inside before head args d inner after ih =>
      intro cs root
      rw [Place.around, Out.bind_eq_ret_nil]
      constructor
      · rintro ⟨q, h1, h2⟩
        cases q with
        | err e r => simp at h2
        | ok cs' r =>
          unfold prepend at h2
          rw [Out.bind_eq_ret_nil] at h2
          obtain ⟨q', h3, h4⟩ := h2
          cases q' with
          | err e r => simp at h4
          | ok cs'' r' =>
            simp only [Out.ret.injEq, PR.ok.injEq, true_and] at h4
            obtain ⟨rfl, rfl⟩ := h4
            have hr : r = [] := by
              have : ∀ (K : Place) cs ds cs' r, K.around pp cs = .ret ds (.ok cs' r) → r = [] := by
                intro K
                cases K with
                | here before =>
                  intro cs ds cs' r h
                  simp only [Place.around, Out.ret.injEq, PR.ok.injEq] at h
                  exact h.2.2.symm
                | inside before head args d inner after =>
                  intro cs ds cs' r h
                  rw [Place.around] at h
                  cases ho : inner.around pp cs with
                  | ret ds' q =>
                    rw [ho] at h
                    cases q with
                    | err => simp at h
                    | ok cs1 r1 =>
                      rcases parse_total pp after with ⟨ds2, cs2, hp⟩ | ⟨ds2, hp⟩ | ⟨p, hp⟩ <;>
                        simp [hp, prepend] at h
                      exact h.2.2
                  | _ => rw [ho] at h; simp at h
              exact this _ _ _ _ _ h1
            subst hr
            rw [List.append_assoc]
            exact .inside ((ih _ _).mp h1) h3
      · rintro ⟨⟩
        rename_i cs' cs'' h2 h1
        refine ⟨_, (ih _ _).mpr h1, ?_⟩
        unfold Parses at h2
        simp [h2, prepend]
  constructor
  · rintro ⟨q, h1, h2⟩
    cases q with
    | err e r => simp at h2
    | ok cs r =>
      rcases parse_total pp x with ⟨ds, cs', hp⟩ | ⟨ds, hp⟩ | ⟨p, hp⟩
      · rw [hp] at h1
        simp only [Out.ret.injEq, PR.ok.injEq] at h1
        obtain ⟨rfl, rfl, rfl⟩ := h1
        exact ⟨_, hp, (key _ _ _).mp h2⟩
      · rw [hp] at h1; simp at h1
      · rw [hp] at h1; simp at h1
  · rintro ⟨cs, h1, h2⟩
    exact ⟨_, h1, (key _ _ _).mpr h2⟩

/-- Errors of the parser are errors of the macro. -/
theorem flagged_of_tells {pp : PathParser} {s : Sched} {ts : Toks} {d : Diag}
    (h : (parseChildren pp ts).Tells d) : Flagged pp s ts d := by
  have h' : (mviewImpl pp s ts).Tells d := h.bind _
  have ht := mview_terminates pp s ts
  unfold Flagged mview at *
  cases ho : mviewImpl pp s ts with
  | ret ds a =>
    rw [ho] at h'
    cases ds with
    | nil => simp [Out.Tells] at h'
    | cons d' ds => exact .inl ⟨_, rfl, h'⟩
  | abort ds => rw [ho] at h'; exact .inl ⟨_, rfl, h'⟩
  | panic p => exact .inr ⟨p, rfl⟩
  | diverge => rw [ho] at ht; exact absurd rfl ht

/-! ### recovery among children -/

theorem value_fails_of {ts : Toks} (h : NoValue ts) : Fails parseValue ts :=
  fails_value.mpr fun v r he _ => h v r he

/-- Nothing starts here. -/
theorem childF_nothing {pp : PathParser} {fuel : Nat} {ts : Toks} (hv : NoValue ts)
    (hi : ∀ i r, ts ≠ .ident i :: r) :
    childF pp (fuel + 1) ts = .ret [] (.err .invalidChild ts) := by
  have hid : peekIdentAny ts = false := by
    rw [← Bool.not_eq_true, peekIdentAny_iff]
    rintro ⟨i, r, h⟩
    exact hi i r h
  have hkw : peekKw c!"slot" ts = false := by
    unfold peekKw
    split
    · exact absurd rfl (hi _ _)
    · rfl
  rw [childF, (rollback_fails (value_fails_of hv)).bind_eq]
  simp only
  rw [inp_bind, hkw, if_neg (by simp), hid, if_neg (by simp)]
  rfl

/-- A stray `;` is reported and skipped. -/
theorem parse_semi {pp : PathParser} {s : Spacing} {rest : Toks} :
    parseChildren pp (.punct ';' s :: rest) = (parseChildren pp rest).tell [.extraSemicolon] := by
  refine parseChildren_eq (N := fuelFor rest + 2) fun fuel hf => ?_
  obtain ⟨f, rfl⟩ : ∃ f, fuel = f + 2 := ⟨fuel - 2, by omega⟩
  rw [childrenF_ne (by simp), childF_nothing (by intro v r; cases v <;> simp [CVal.toks]; rename_i p c; cases p <;> simp) (by simp)]
  have : unwrapP .semiUnwrap (parsePunct ';') (.punct ';' s :: rest) = .ret [] (.ok () rest) := by
    simp [parsePunct]
  simp only [Out.bind_ret, Out.tell_nil]
  rw [if_pos (by simp [peekPunct]), this]
  simp only [emit_def, Out.bind_ret, Out.tell_nil]
  rw [childrenF_of_large pp rest (by omega)]

/-- Anything else that no child starts with ends the parser's work. -/
theorem parse_nothing {pp : PathParser} {ts : Toks} (hne : ts ≠ []) (hv : NoValue ts)
    (hi : ∀ i r, ts ≠ .ident i :: r) (hs : ∀ s r, ts ≠ .punct ';' s :: r) :
    parseChildren pp ts = .ret [.synError .invalidChild] (.ok [] []) := by
  refine parseChildren_eq (N := 2) fun fuel hf => ?_
  obtain ⟨f, rfl⟩ : ∃ f, fuel = f + 2 := ⟨fuel - 2, by omega⟩
  rw [childrenF_ne hne, childF_nothing hv hi]
  simp only [Out.bind_ret, Out.tell_nil]
  have : peekPunct ';' ts = false := by
    rw [← Bool.not_eq_true, peekPunct_iff]
    rintro ⟨s, r, h⟩
    exact hs s r h
  rw [this, if_neg (by simp), childrenF]
  simp [isEmpty]

/-- A literal child that is not a string. -/
theorem parse_literal {pp : PathParser} {v : CVal} {rest : Toks} (hv : ¬ v.ChildWf)
    (hend : v.Ends rest) :
    parseChildren pp (v.toks ++ rest) =
      (prepend [.value (.lit (.tok (.str [])))] (parseChildren pp rest)).tell [.nonStringChild] := by
  refine parseChildren_eq (N := fuelFor rest + 2) fun fuel hf => ?_
  obtain ⟨f, rfl⟩ : ∃ f, fuel = f + 2 := ⟨fuel - 2, by omega⟩
  have hne : v.toks ++ rest ≠ [] := by
    cases v <;> simp [CVal.toks]
    rename_i p c; cases p <;> simp
  rw [childrenF_ne hne, childF, (yields_rollback_some.mpr (yields_value.mpr
    ⟨v, rfl, rfl, hend⟩)).bind_eq]
  cases v with
  | lit l =>
    cases l with
    | str s => simp [CVal.ChildWf] at hv
    | _ => simp [CVal.ast, childrenF_of_large pp rest (fuel := f + 1) (by omega)]
  | bool b => simp [CVal.ast, childrenF_of_large pp rest (fuel := f + 1) (by omega)]
  | neg s b x =>
    cases b <;> simp [CVal.ast, childrenF_of_large pp rest (fuel := f + 1) (by omega)]
  | block x => simp [CVal.ChildWf] at hv
  | bracket p x => simp [CVal.ChildWf] at hv

/-! ### slots -/

theorem slotStart_iff {ts : Toks} :
    (peekKw c!"slot" ts && peekPunct ':' (skip ts) && !(peekPunct2 ':' ':' (skip ts))) = true ↔
      SlotStart ts := by
  constructor
  · intro h
    simp only [Bool.and_eq_true, Bool.not_eq_true'] at h
    obtain ⟨⟨h1, h2⟩, h3⟩ := h
    unfold peekKw at h1
    split at h1
    · rename_i i r
      simp only [decide_eq_true_eq] at h1
      subst h1
      rw [skip_ident] at h2 h3
      obtain ⟨s, r', rfl⟩ := peekPunct_iff.mp h2
      refine ⟨s, r', rfl, ?_⟩
      rw [← Bool.not_eq_true, peekPunct2_colons] at h3
      exact h3
    · simp at h1
  · rintro ⟨s, r, rfl, h⟩
    rw [skip_ident]
    simp only [Bool.and_eq_true, Bool.not_eq_true']
    refine ⟨⟨by simp [peekKw], by simp [peekPunct]⟩, ?_⟩
    rw [← Bool.not_eq_true, peekPunct2_colons]
    exact h

theorem childF_slot {pp : PathParser} {fuel : Nat} {ts rest : Toks} {ds : List Diag} {c : Child}
    (h : childF pp fuel ts = .ret ds (.ok c rest)) : (∃ e, c = .slot e) ↔ SlotStart ts := by
  cases fuel with
  | zero => rw [childF] at h; simp at h
  | succ fuel =>
    rw [childF] at h
    rcases value_cases ts with ⟨v, r, hy⟩ | hf
    · rw [(yields_rollback_some.mpr hy).bind_eq] at h
      have hns : ¬ SlotStart ts := by
        rintro ⟨s, r', rfl, _⟩
        obtain ⟨c, h1, _, _⟩ := yields_value.mp hy
        cases c with
        | lit l => simp [CVal.toks] at h1
        | bool b => cases b <;> simp [CVal.toks, plain] at h1
        | neg s f x => simp [CVal.toks] at h1
        | block x => simp [CVal.toks] at h1
        | bracket pfx x => cases pfx <;> simp [CVal.toks] at h1
      have hc : ∃ v, c = .value v := by
        cases v with
        | lit l =>
          cases l with
          | tok l => cases l <;> (simp at h; exact ⟨_, h.2.1.symm⟩)
          | bool b => simp at h; exact ⟨_, h.2.1.symm⟩
        | _ => simp at h; exact ⟨_, h.2.1.symm⟩
      obtain ⟨v', rfl⟩ := hc
      simp [hns]
    · rw [(rollback_fails hf).bind_eq] at h
      simp only at h
      rw [inp_bind] at h
      split at h
      · rename_i hc
        have hc := slotStart_iff.mp hc
        refine ⟨fun _ => hc, fun _ => ?_⟩
        obtain ⟨s, r, rfl, _⟩ := hc
        rw [(unwrap_kw.mpr rfl : Yields (unwrapP _ (parseKw c!"slot")) _ () _).bind_eq,
          (yields_unwrapP.mpr (yields_punct.mpr ⟨s, rfl⟩) : Yields (unwrapP _ (parsePunct ':')) _ () _).bind_eq,
          P.bind_apply] at h
        cases ho : elementF pp fuel r with
        | ret ds q =>
          rw [ho] at h
          cases q with
          | ok e r' => simp at h; exact ⟨e, h.2.1.symm⟩
          | err e r' => simp at h
        | _ => rw [ho] at h; simp at h
      · rename_i hc
        rw [slotStart_iff] at hc
        simp only [hc, iff_false]
        rintro ⟨e, rfl⟩
        split at h
        · rw [P.bind_apply] at h
          cases ho : elementF pp fuel ts with
          | ret ds q =>
            rw [ho] at h
            cases q <;> simp at h
          | _ => rw [ho] at h; simp at h
        · simp at h

/-! ### attributes without the value they announce -/

theorem tells_valueOrEmit {ts : Toks} (h : NoValue ts) :
    ∃ b, (parseValueOrEmit ts).Tells (.missingValue b) := by
  refine ⟨peekIdent ts, ?_⟩
  unfold parseValueOrEmit
  rw [(rollback_fails (value_fails_of h)).bind_eq]
  simp [Out.Tells]

theorem tells_rollback {α : Type} {p : P α} {ts : Toks} {d : Diag} (h : (p ts).Tells d) :
    (rollback p ts).Tells d := by
  rw [rollback_apply]; exact h.bind _

theorem tells_pbind {α β : Type} {p : P α} {f : α → P β} {ts : Toks} {d : Diag}
    (h : (p ts).Tells d) : ((p >>= f) ts).Tells d := by
  rw [P.bind_apply]; exact h.bind _

theorem tells_eq {e : CEq} {s : Spacing} {rest : Toks} (hl : LexicalToks (e.toks ++ .punct '=' s :: rest))
    (hw : e.Wf (.punct '=' s :: rest)) (hn : NoValue rest) :
    ∃ b, (parseAttr (e.toks ++ .punct '=' s :: rest)).Tells (.missingValue b) := by
  obtain ⟨b, hb⟩ := tells_valueOrEmit hn
  refine ⟨b, ?_⟩
  have heq : Yields (rollback (parsePunct '=')) (.punct '=' s :: rest) (some ()) rest :=
    yields_rollback_some.mpr (yields_punct.mpr ⟨s, rfl⟩)
  cases e with
  | kv name =>
    rw [show (CEq.kv name).toks = name from rfl] at hl ⊢
    have hk : (parseKv (name ++ .punct '=' s :: rest)).Tells (.missingValue b) := by
      obtain ⟨t, r, he, ht⟩ := NameEnds.starts hw
      unfold parseKv
      rw [inp_bind, if_neg (by simp only [he, List.cons_append, not_brace_of_starts ht]; simp),
        ((yields_kebab hl.head).mpr ⟨name, rfl, hw, rfl⟩).bind_eq, heq.bind_eq]
      exact tells_pbind hb
    unfold parseAttr
    rw [inp_bind, name_not_directive hw (by simp),
      if_neg (by simp)]
    split
    · exact tells_pbind hk
    · exact tells_pbind (tells_rollback hk)
  | dir d s' key m =>
    have hw : key.Wf (modifierToks m ++ .punct '=' s :: rest) := hw
    have e : (CEq.dir d s' key m).toks ++ .punct '=' s :: rest =
      .ident d :: .punct ':' s' :: (key.toks ++ (modifierToks m ++ .punct '=' s :: rest)) := by
      simp [CEq.toks]
    rw [e] at hl ⊢
    unfold parseAttr
    rw [inp_bind, if_pos (by rfl)]
    refine tells_pbind ?_
    rw [unwrapOrAbort_apply]
    refine Out.Tells.bind ?_ _
    unfold parseDirective
    rw [(yields_identAny.mpr rfl).bind_eq, (yields_punct.mpr ⟨s', rfl⟩ : Yields _ _ () _).bind_eq,
      inp_bind, if_neg (by rw [key_not_brace key hw]; simp), (key_complete key hl.tail.tail hw).bind_eq,
      (modifier_complete m (by simp)).bind_eq, heq.bind_eq]
    exact tells_pbind hb

theorem tells_attrs {d : Diag} : ∀ (cs : List CAttr) (fuel : Nat) (vec : List Attr) (rest : Toks),
    LexicalToks (cs.flatMap CAttr.toks ++ rest) → Follows rest →
    listWf CAttr.toks CAttr.Wf cs rest → (parseAttr rest).Tells d → cs.length < fuel →
    (attrsLoop fuel vec (cs.flatMap CAttr.toks ++ rest)).Tells d := by
  intro cs
  induction cs with
  | nil =>
    intro fuel vec rest _ _ _ h hlen
    obtain ⟨f, rfl⟩ : ∃ f, fuel = f + 1 := ⟨fuel - 1, by simp at hlen; omega⟩
    rw [attrsLoop]
    exact tells_pbind (tells_rollback h)
  | cons c cs ih =>
    intro fuel vec rest hl hf hw h hlen
    obtain ⟨f, rfl⟩ : ∃ f, fuel = f + 1 := ⟨fuel - 1, by simp at hlen; omega⟩
    rw [attrsLoop]
    have e : (c :: cs).flatMap CAttr.toks ++ rest = c.toks ++ (cs.flatMap CAttr.toks ++ rest) := by
      simp
    rw [e] at hl ⊢
    rw [(yields_rollback_some.mpr (attr_complete hl (attrs_follows hw.2 hf) hw.1)).bind_eq]
    exact ih f (vec ++ [c.ast]) rest hl.append hf hw.2 h (by simp at hlen; omega)

/-- Errors in an attribute. -/
theorem tells_head {pp : PathParser} (hpp : pp.Starts) {h : CHead} {rest : Toks} {d : Diag}
    (hl : LexicalToks (h.toks ++ rest)) (hw : h.Wf pp rest) (hf : Follows rest)
    (ht : (parseAttr rest).Tells d) : (parseChildren pp (h.toks ++ rest)).Tells d := by
  have hla : LexicalToks (h.attrs.flatMap CAttr.toks ++ rest) := by
    have : h.toks ++ rest = slotToks h.slot ++ (h.tag.toks ++ (h.sels.flatMap CSel.toks ++
      (h.attrs.flatMap CAttr.toks ++ rest))) := by simp [CHead.toks]
    rw [this] at hl
    exact hl.append.append.append
  refine tells_first (N := 2) ?_ fun fuel hfu => ?_
  · obtain ⟨t, r, rfl, _⟩ := hf
    simp
  · obtain ⟨f, rfl⟩ : ∃ f, fuel = f + 2 := ⟨fuel - 2, by omega⟩
    rw [childF_head hpp f hl hw hf]
    refine tells_pbind ?_
    unfold parseAttrs
    rw [inp_bind]
    refine tells_attrs _ _ _ _ hla hf hw.2.2.1 ht ?_
    have := attrs_length hw.2.2.1
    simp only [List.length_append]; omega

theorem CEq.follows {e : CEq} {after : Toks} (hw : e.Wf after) : Follows (e.toks ++ after) := by
  cases e with
  | kv name =>
    obtain ⟨t, r, he, ht⟩ := NameEnds.starts hw
    exact ⟨t, r ++ after, by simp [CEq.toks, he], follows_of_starts ht⟩
  | dir d s key m => exact ⟨_, _, rfl, rfl⟩

/-! ### closure arguments without the closing pipe -/

theorem closureLoop_open : ∀ (args : Toks) (fuel : Nat) (tokens : Toks),
    (∀ t ∈ args, t.isPipe = false) → args.length < fuel →
    closureArgsLoop fuel tokens args = .ret [] (.err .closureNotClosed []) := by
  intro args
  induction args with
  | nil =>
    intro fuel tokens _ hlen
    obtain ⟨f, rfl⟩ : ∃ f, fuel = f + 1 := ⟨fuel - 1, by simp at hlen; omega⟩
    rw [closureArgsLoop, (rollback_fails (fails_punct.mpr (by simp))).bind_eq]
    rfl
  | cons t args ih =>
    intro fuel tokens hp hlen
    obtain ⟨f, rfl⟩ : ∃ f, fuel = f + 1 := ⟨fuel - 1, by simp at hlen; omega⟩
    have ht := hp t (by simp)
    rw [closureArgsLoop, (rollback_fails (fails_punct.mpr ?_)).bind_eq]
    · simp only
      rw [(yields_rollback_some.mpr (yields_tt.mpr rfl)).bind_eq]
      exact ih f _ (fun x hx => hp x (by simp [hx])) (by simp at hlen; omega)
    · rintro s r h
      simp only [List.cons.injEq] at h
      rw [h.1] at ht
      simp [TT.isPipe] at ht

/-- `|` and no further pipe: everything up to the end of the block is lost. -/
theorem parse_open {pp : PathParser} (hpp : pp.Starts) {h : CHead} {s : Spacing} {args : Toks}
    (hl : LexicalToks (h.toks ++ .punct '|' s :: args)) (hw : h.Wf pp (.punct '|' s :: args))
    (ha : ∀ t ∈ args, t.isPipe = false) :
    parseChildren pp (h.toks ++ .punct '|' s :: args) =
      .ret [.synError .closureNotClosed] (.ok [] []) := by
  have hff : Follows (.punct '|' s :: args) := ⟨_, _, rfl, rfl⟩
  have hla : LexicalToks (h.attrs.flatMap CAttr.toks ++ .punct '|' s :: args) := by
    have : h.toks ++ .punct '|' s :: args = slotToks h.slot ++ (h.tag.toks ++ (h.sels.flatMap CSel.toks ++
      (h.attrs.flatMap CAttr.toks ++ .punct '|' s :: args))) := by simp [CHead.toks]
    rw [this] at hl
    exact hl.append.append.append
  refine parseChildren_eq (N := 3) fun fuel hf => ?_
  obtain ⟨f, rfl⟩ : ∃ f, fuel = f + 3 := ⟨fuel - 3, by omega⟩
  have hna : Fails parseAttr (.punct '|' s :: args) :=
    attr_fails (by simp [TT.isIdent, TT.isDash]) (by simp)
  rw [childrenF_ne (by simp), childF_head hpp f hl hw hff,
    (attrs_complete hla hff hw.2.2.1 hna).bind_eq, P.bind_apply]
  have ht : elemTail pp f h.tag.ast (h.sels.map CSel.ast) (h.attrs.map CAttr.ast)
      (.punct '|' s :: args) = .ret [] (.err .closureNotClosed []) := by
    unfold elemTail
    rw [(rollback_fails (fails_punct.mpr (by simp))).bind_eq]
    simp only
    rw [inp_bind, if_neg (by simp [isEmpty]), if_neg (by simp [peekGroup]), if_pos (by rfl), P.bind_apply]
    have : parseClosureArgs (.punct '|' s :: args) = .ret [] (.err .closureNotClosed []) := by
      unfold parseClosureArgs
      rw [(yields_punct.mpr ⟨s, rfl⟩ : Yields _ _ () _).bind_eq, inp_bind]
      exact closureLoop_open _ _ _ ha (by omega)
    rw [this]
    simp
  rw [ht]
  simp only [Out.bind_ret, Out.tell_nil]
  rw [if_neg (by simp [peekPunct]), childrenF]
  simp [isEmpty]

end Mview
