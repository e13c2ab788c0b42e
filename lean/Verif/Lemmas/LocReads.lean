import Verif.Lemmas.Reads
import Verif.Lemmas.LocIssues
import Verif.Spec.LocReads
/-
Proofs for C42.
-/

namespace Mview.Loc
open Lex

variable {σ : Type}

/-! ### computations that go through issues and then have a value -/

section
variable {α β : Type}

/-- the computation goes through these issues, and if nothing stops it, it ends with `a` -/
def Gives (x : Out σ α) (is : List (Issue σ)) (a : α) : Prop := Shows x is ∧ ∀ ds b, x = .ret ds b → b = a

theorem Gives.ret (a : α) : Gives (.ret [] a : Out σ α) [] a := ⟨.ret a, fun _ _ h => by cases h; rfl⟩

theorem Gives.of_eq {x : Out σ α} {a : α} (h : x = .ret [] a) : Gives x [] a := h ▸ .ret a

theorem Gives.bind {x : Out σ α} {f : α → Out σ β} {is js : List (Issue σ)} {a : α} {b : β}
    (h : Gives x is a) (hf : Gives (f a) js b) : Gives (x.bind f) (is ++ js) b := by
  refine ⟨h.1.bind' fun ds c hc => h.2 ds c hc ▸ hf.1, fun ds c hc => ?_⟩
  cases x with
  | ret es c' =>
    rw [h.2 es c' rfl] at hc
    simp only [Out.bind] at hc
    cases hy : f a <;> rw [hy] at hc <;> simp only [Out.tell, reduceCtorEq] at hc
    cases hc
    exact hf.2 _ _ hy
  | _ => simp [Out.bind] at hc

/-- the macro does not get past these issues -/
def Halts (is : List (Issue σ)) : Prop := ∀ ds, verdict is ≠ .errors ds

theorem Gives.halt {x : Out σ α} {f : α → Out σ β} {is : List (Issue σ)} {a : α} {b : β}
    (h : Gives x is a) (hh : Halts is) : Gives (x.bind f) is b := by
  unfold Halts at hh
  have h1 := h.1
  unfold Gives Shows at *
  cases x with
  | ret ds c =>
    generalize verdict is = v at *
    cases v <;> simp only [Out.Is] at h1
    exact absurd rfl (hh _)
  | abort ds => refine ⟨?_, by simp [Out.bind]⟩; cases hv : verdict is <;> rw [hv] at h1 <;> exact h1
  | panic p => refine ⟨?_, by simp [Out.bind]⟩; cases hv : verdict is <;> rw [hv] at h1 <;> exact h1
  | diverge => refine ⟨?_, by simp [Out.bind]⟩; cases hv : verdict is <;> rw [hv] at h1 <;> exact h1

theorem halts_append {is js : List (Issue σ)} (h : Halts js) : Halts (is ++ js) := by
  intro ds he
  rw [verdict_append] at he
  unfold Halts at h
  generalize verdict is = v at *
  generalize verdict js = w at *
  cases v <;> cases w <;> simp only [Verdict.seq, Verdict.after, reduceCtorEq] at he
  exact absurd rfl (h _)

theorem halts_stop (d : Diag) (p : σ) : Halts [.stop d p] := by intro ds; simp [verdict]

theorem Gives.then {x : Out σ α} {f : α → Out σ β} {is : List (Issue σ)} {a : α} {b : β}
    (h : Gives x [] a) (hf : Gives (f a) is b) : Gives (x.bind f) is b := h.bind hf

theorem Gives.map {x : Out σ α} {f : α → Out σ β} {is : List (Issue σ)} {a : α} {b : β}
    (h : Gives x is a) (hf : f a = .ret [] b) : Gives (x.bind f) is b := by
  have := h.bind (Gives.of_eq hf)
  rwa [List.append_nil] at this

theorem Gives.emit (d : Diag) (p : σ) : Gives (emit d p) [.report d p] () := ⟨.emit d p, fun _ _ _ => rfl⟩

/-! ### parsers -/

variable {p : P σ α} {f : α → P σ β} {sc : σ} {ts r : Toks σ} {is js : List (Issue σ)} {a : α} {q : PR σ β}

/-- the parser succeeds without issues -/
def Yields (p : P σ α) (sc : σ) (ts : Toks σ) (a : α) (rest : Toks σ) : Prop := p sc ts = .ret [] (.ok a rest)

/-- the parser fails without issues -/
def Fails (p : P σ α) (sc : σ) (ts : Toks σ) : Prop := ∃ e r, p sc ts = .ret [] (.err e r)

theorem Yields.gives {rest : Toks σ} (h : Yields p sc ts a rest) : Gives (p sc ts) [] (.ok a rest) := .of_eq h

theorem P.bind_apply : (p >>= f) sc ts = (p sc ts).bind fun r =>
    match r with
    | .ok a rest => f a sc rest
    | .err e rest => .ret [] (.err e rest) := rfl

theorem Yields.bind_eq (h : Yields p sc ts a r) : (p >>= f) sc ts = f a sc r := by
  rw [P.bind_apply, h]
  simp

theorem inp_bind {f : Toks σ → P σ β} : (inp >>= f) sc ts = f ts sc ts := Yields.bind_eq rfl
theorem inpSpan_bind {f : σ → P σ β} : (inpSpan >>= f) sc ts = f (spanAt sc ts) sc ts := Yields.bind_eq rfl

theorem Yields.some (h : Yields p sc ts a r) : Yields (rollback p) sc ts (some a) r := by
  unfold Yields rollback at *
  rw [h]
  rfl

theorem Fails.none (h : Fails p sc ts) : Yields (rollback p) sc ts none ts := by
  obtain ⟨e, r, h⟩ := h
  unfold Yields rollback
  rw [h]
  rfl

theorem Yields.unwrap {site : PanicSite} (h : Yields p sc ts a r) : Yields (unwrapP site p) sc ts a r := by
  unfold Yields unwrapP at *
  rw [h]
  rfl

/-- a failure without spans is one with spans -/
theorem fails_of_erase {γ : Type} {g : α → γ} {p' : Mview.P γ} (he : ErP g p p')
    (h : Mview.Fails p' (eraseToks ts)) : Fails p sc ts := by
  obtain ⟨e, r, h⟩ := h
  have := he sc ts
  rw [h] at this
  unfold Er at this
  unfold Fails
  generalize p sc ts = o at *
  cases o with
  | ret ds q =>
    simp only [Out.erase, Mview.Out.ret.injEq, List.map_eq_nil_iff] at this
    obtain ⟨rfl, h⟩ := this
    cases q with
    | ok a rest => simp [PR.erase] at h
    | err e rest => exact ⟨e, rest, rfl⟩
  | _ => simp [Out.erase] at this

theorem Gives.pbind (h : Gives (p sc ts) is (.ok a r)) (hf : Gives (f a sc r) js q) :
    Gives ((p >>= f) sc ts) (is ++ js) q := Gives.bind h hf

theorem Gives.pbind_nil (h : Gives (p sc ts) is (.ok a r)) (hf : Gives (f a sc r) [] q) :
    Gives ((p >>= f) sc ts) is q := by
  have := h.pbind hf
  rwa [List.append_nil] at this

theorem Gives.perr {e : LErr σ} (h : Gives (p sc ts) is (.err e r)) :
    Gives ((p >>= f) sc ts) is (.err e r) := Gives.map h rfl

theorem Gives.phalt {q' : PR σ α} (h : Gives (p sc ts) is q') (hh : Halts is) :
    Gives ((p >>= f) sc ts) is q := Gives.halt h hh

/-- nothing happened before -/
theorem Gives.pthen (h : Yields p sc ts a r) (hf : Gives (f a sc r) js q) :
    Gives ((p >>= f) sc ts) js q := by rw [h.bind_eq]; exact hf

/-- nothing happens afterwards -/
theorem Gives.pmap {g : α → β} (h : Gives (p sc ts) is (.ok a r)) :
    Gives ((p >>= fun a => pure (g a)) sc ts) is (.ok (g a) r) := Gives.map h rfl

theorem Gives.some (h : Gives (p sc ts) is (.ok a r)) :
    Gives (rollback p sc ts) is (.ok (some a) r) := Gives.map h rfl

theorem Gives.none {e : LErr σ} (h : Gives (p sc ts) is (.err e r)) :
    Gives (rollback p sc ts) is (.ok none ts) := Gives.map h rfl

theorem extract_yields {d : Delim} {c rest : Toks σ} {b : DelimSpan σ} :
    Yields (extractGroup d) sc (.group d c b :: rest) ⟨c, b⟩ rest := by
  simp [Yields, extractGroup]

theorem Gives.inGroup {d : Delim} {c rest : Toks σ} {b : DelimSpan σ} (h : Gives (p b.closing c) is (.ok a [])) :
    Gives (Loc.inGroup d p sc (.group d c b :: rest)) is (.ok (b, a) rest) := by
  unfold Loc.inGroup
  rw [if_pos (by simp [peekGroup])]
  refine Gives.then (a := .ok ⟨c, b⟩ rest) (Yields.gives extract_yields.unwrap) ?_
  exact Gives.map h rfl

theorem spanAt_eq : ∀ (sc : σ) (ts : Toks σ), spanAt sc ts = nextPlace sc ts
  | _, [] => rfl
  | _, .ident _ _ :: _ => rfl
  | _, .punct _ _ _ :: _ => rfl
  | _, .lit _ _ :: _ => rfl
  | _, .group _ _ _ :: _ => rfl

theorem Gives.inGroup_more {d : Delim} {c rest : Toks σ} {b : DelimSpan σ} {t : TT σ}
    (h : Gives (p b.closing c) is (.ok a (t :: r))) :
    Gives (Loc.inGroup d p sc (.group d c b :: rest)) is
      (.err ⟨.extraTokens d, nextPlace b.closing (t :: r)⟩ (.group d c b :: rest)) := by
  unfold Loc.inGroup
  rw [if_pos (by simp [peekGroup])]
  refine Gives.then (a := .ok ⟨c, b⟩ rest) (Yields.gives extract_yields.unwrap) ?_
  refine Gives.map h ?_
  rw [← spanAt_eq]
  rfl

theorem Gives.inGroup_err {d : Delim} {c rest : Toks σ} {b : DelimSpan σ} {e : LErr σ}
    (h : Gives (p b.closing c) is (.err e r)) :
    Gives (Loc.inGroup d p sc (.group d c b :: rest)) is (.err e (.group d c b :: rest)) := by
  unfold Loc.inGroup
  rw [if_pos (by simp [peekGroup])]
  refine Gives.then (a := .ok ⟨c, b⟩ rest) (Yields.gives extract_yields.unwrap) ?_
  exact Gives.map h rfl

theorem Gives.lift {o : Out σ α} (h : Gives o is a) : Gives (liftOut o sc ts) is (.ok a ts) := Gives.map h rfl

theorem Gives.unwrapOrAbort (h : Gives (p sc ts) is (.ok a r)) :
    Gives (Loc.unwrapOrAbort p sc ts) is (.ok a r) := Gives.map h rfl

theorem Gives.aborts {e : LErr σ} {q : PR σ α} (h : Gives (p sc ts) is (.err e r)) :
    Gives (Loc.unwrapOrAbort p sc ts) (is ++ [.stop (.synAbort e.err) e.sp]) q := by
  refine Gives.bind h ⟨?_, fun _ _ h => by simp at h⟩
  rfl

end

theorem punct_yields {sc : σ} {c : Char} {s : Spacing} {p : σ} {r : Toks σ} :
    Yields (parsePunct c) sc (.punct c s p :: r) p r := by simp [Yields, parsePunct]

theorem punct_some {sc : σ} {c : Char} {s : Spacing} {p : σ} {r : Toks σ} :
    Yields (rollback (parsePunct c)) sc (.punct c s p :: r) (some p) r := punct_yields.some

theorem punct_fails {sc : σ} {c : Char} {ts : Toks σ} (h : ∀ s p r, ts ≠ .punct c s p :: r) :
    Fails (parsePunct c) sc ts := by
  unfold Fails parsePunct
  split
  · rename_i c' s sp r
    rw [if_neg (by rintro rfl; exact h _ _ _ rfl)]
    exact ⟨_, _, rfl⟩
  · exact ⟨_, _, rfl⟩

theorem punct_none {sc : σ} {c : Char} {ts : Toks σ} (h : ∀ s p r, ts ≠ .punct c s p :: r) :
    Yields (rollback (parsePunct c)) sc ts none ts := (punct_fails h).none

theorem identAny_yields {sc : σ} {i : Ident} {p : σ} {r : Toks σ} :
    Yields parseIdentAny sc (.ident i p :: r) ⟨i, p⟩ r := rfl

theorem identAny_err {sc : σ} {ts : Toks σ} (h : ∀ i p r, ts ≠ .ident i p :: r) :
    parseIdentAny sc ts = .ret [] (.err ⟨.expectedIdent, nextPlace sc ts⟩ ts) := by
  rw [← spanAt_eq]
  unfold parseIdentAny
  split
  · exact absurd rfl (h _ _ _)
  · rfl

/-! ### names -/

variable [Spans σ]

omit [Spans σ] in
theorem verdict_reports (ds : List (LDiag σ)) : verdict (reports ds) = .errors ds := by
  induction ds with
  | nil => rfl
  | cons d ds ih =>
    show (verdict (reports ds)).add _ = _
    rw [ih]; rfl

/-- raw identifiers among these tokens -/
def rawsIn (ts : Toks σ) : List (LDiag σ) := ts.filterMap fun
  | .ident i p => if i.raw then some ⟨.rawInKebab i, p⟩ else none
  | _ => none

omit [Spans σ] in
theorem rawIssues_cons (t : TT σ) (run : Toks σ) : rawIssues (t :: run) = reports (rawsIn run) := by
  unfold rawIssues rawsIn reports
  rw [List.map_filterMap]
  dsimp only
  congr 1
  funext t
  cases t <;> simp only [Option.map_none]
  split <;> rfl

theorem litInt_cases (sc : σ) (ts : Toks σ) :
    (∃ x p r, ts = .lit (.int x) p :: r ∧ Yields parseLitInt sc ts ⟨x, p⟩ r) ∨
    (∃ s p x q r, ts = .punct '-' s p :: .lit (.int x) q :: r ∧
      Yields parseLitInt sc ts ⟨'-' :: x, joinOr p q⟩ r) ∨
    (Fails parseLitInt sc ts ∧ (∀ s p x q r, ts ≠ .punct '-' s p :: .lit (.int x) q :: r)) := by
  unfold Yields Fails parseLitInt
  rw [P.bind_apply]
  fun_cases parseLit sc ts
  · rename_i l s r
    cases l with
    | int x => exact .inl ⟨x, s, r, rfl, rfl⟩
    | _ => exact .inr (.inr ⟨⟨_, _, rfl⟩, by simp⟩)
  · exact .inr (.inr ⟨⟨_, _, by simp; rfl⟩, by simp⟩)
  · exact .inr (.inr ⟨⟨_, _, by simp [*]; rfl⟩, by simp⟩)
  · exact .inr (.inr ⟨⟨_, _, by simp [*]; exact ⟨rfl, rfl⟩⟩, by simp⟩)
  · rename_i s' p x q r
    exact .inr (.inl ⟨s', p, x, q, r, rfl, rfl⟩)
  · exact .inr (.inr ⟨⟨_, _, rfl⟩, by simp⟩)
  · refine .inr (.inr ⟨⟨_, _, rfl⟩, ?_⟩)
    rintro s p x q r rfl
    simp_all
    rename_i h
    exact h _ _ _ _ _ rfl rfl rfl rfl rfl

theorem wordPlaces_dash {s : Spacing} {p : σ} {ts rest : Toks σ}
    (h : ∀ s p x q r, ts ++ rest ≠ .punct '-' s p :: .lit (.int x) q :: r)
    (hd : ∀ c s p, .punct c s p ∈ ts → c = '-') :
    wordPlaces (.punct '-' s p :: ts) = wordPlaces ts := by
  match ts with
  | [] => simp [wordPlaces]
  | [.punct _ _ _] => simp [wordPlaces]
  | .punct c _ _ :: .lit (.int _) _ :: _ =>
    have := hd c _ _ (List.mem_cons_self ..)
    subst this
    exact absurd rfl (h _ _ _ _ _)
  | .punct _ _ _ :: .lit (.str _) _ :: _ => simp [wordPlaces]
  | .punct _ _ _ :: .lit (.float _) _ :: _ => simp [wordPlaces]
  | .punct _ _ _ :: .lit (.other _) _ :: _ => simp [wordPlaces]
  | .punct _ _ _ :: .ident _ _ :: _ => simp [wordPlaces]
  | .punct _ _ _ :: .group _ _ _ :: _ => simp [wordPlaces]
  | .punct _ _ _ :: .punct _ _ _ :: _ => simp [wordPlaces]
  | .ident _ _ :: _ => simp [wordPlaces]
  | .lit _ _ :: _ => simp [wordPlaces]
  | .group _ _ _ :: _ => simp [wordPlaces]

theorem loop_run : ∀ (fuel : Nat) (b : Bool) (k : KebabIdent σ) (sc : σ) (ts : Toks σ) (ds : List (LDiag σ))
    (k' : KebabIdent σ) (rest : Toks σ), kebabLoop fuel b k sc ts = .ret ds (.ok k' rest) →
    ∃ run, ts = run ++ rest ∧ ds = rawsIn run ∧ k'.repr = k.repr ++ kebabText (eraseToks run) ∧
      k'.spans = k.spans ++ wordPlaces run ∧ ∀ c s p, .punct c s p ∈ run → c = '-' := by
  intro fuel
  induction fuel with
  | zero => intro b k sc ts ds k' rest h; simp [kebabLoop] at h
  | succ fuel ih =>
    -- what comes after a dash (or the first one)
    have word : ∀ (k : KebabIdent σ) (sc : σ) (ts : Toks σ) (ds : List (LDiag σ)) (k' : KebabIdent σ)
        (rest : Toks σ), (do
          let ident ← rollback parseIdentAny
          match ident with
          | some i =>
            if i.id.raw then emitP (.rawInKebab i.id) i.sp
            kebabLoop fuel false ⟨k.repr ++ i.id.name, k.spans ++ [i.sp]⟩
          | none =>
            let int ← rollback parseLitInt
            match int with
            | some s => kebabLoop fuel false ⟨k.repr ++ s.str, k.spans ++ [s.sp]⟩
            | none => kebabLoop fuel false k : P σ (KebabIdent σ)) sc ts = .ret ds (.ok k' rest) →
        ∃ run, ts = run ++ rest ∧ ds = rawsIn run ∧ k'.repr = k.repr ++ kebabText (eraseToks run) ∧
          (∀ s p, k'.spans = k.spans ++ wordPlaces (.punct '-' s p :: run)) ∧
          ((∀ s p r, ts ≠ .punct '-' s p :: r) → k'.spans = k.spans ++ wordPlaces run) ∧
          ∀ c s p, .punct c s p ∈ run → c = '-' := by
      intro k sc ts ds k' rest h
      by_cases hi : ∃ i p r, ts = .ident i p :: r
      · obtain ⟨i, p, r, rfl⟩ := hi
        rw [(identAny_yields.some).bind_eq] at h
        dsimp only at h
        obtain ⟨es, h', rfl⟩ : ∃ es, kebabLoop fuel false ⟨k.repr ++ i.name, k.spans ++ [p]⟩ sc r =
            .ret es (.ok k' rest) ∧ ds = (if i.raw then [⟨.rawInKebab i, p⟩] else []) ++ es := by
          by_cases hr : i.raw = true
          · rw [if_pos hr] at h ⊢
            rw [P.bind_apply] at h
            simp only [emitP, liftOut, emit, Out.bind_ret, Out.tell_ret, List.append_nil] at h
            generalize kebabLoop fuel false (⟨k.repr ++ i.name, k.spans ++ [p]⟩ : KebabIdent σ) sc r = o at h ⊢
            cases o <;> simp only [Out.tell, reduceCtorEq, Out.ret.injEq] at h
            exact ⟨_, by rw [h.2], h.1.symm⟩
          · rw [if_neg hr] at h ⊢
            exact ⟨_, h, rfl⟩
        obtain ⟨run, rfl, rfl, h1, h2, h3⟩ := ih _ _ _ _ _ _ _ h'
        refine ⟨.ident i p :: run, rfl, ?_, ?_, ?_, ?_, ?_⟩
        · by_cases hr : i.raw = true <;> simp [rawsIn, hr]
        · simp [h1, kebabText, TT.erase, TT.text]
        · simp [h2, wordPlaces]
        · simp [h2, wordPlaces]
        · simpa using h3
      · have hf : Fails parseIdentAny sc ts := ⟨_, _, identAny_err fun i p r h => hi ⟨i, p, r, h⟩⟩
        rw [hf.none.bind_eq] at h
        dsimp only at h
        rcases litInt_cases sc ts with ⟨x, p, r, rfl, hy⟩ | ⟨s, p, x, q, r, rfl, hy⟩ | ⟨hy, hn⟩
        · rw [hy.some.bind_eq] at h
          obtain ⟨run, rfl, rfl, h1, h2, h3⟩ := ih _ _ _ _ _ _ _ h
          refine ⟨.lit (.int x) p :: run, rfl, ?_, ?_, ?_, ?_, ?_⟩
          · simp [rawsIn]
          · simp [h1, kebabText, TT.erase, TT.text]
          · simp [h2, wordPlaces]
          · simp [h2, wordPlaces]
          · simpa using h3
        · rw [hy.some.bind_eq] at h
          obtain ⟨run, rfl, rfl, h1, h2, h3⟩ := ih _ _ _ _ _ _ _ h
          refine ⟨.punct '-' s p :: .lit (.int x) q :: run, rfl, ?_, ?_, ?_, ?_, ?_⟩
          · simp [rawsIn]
          · simp [h1, kebabText, TT.erase, TT.text]
          · simp [h2, wordPlaces]
          · intro hn; exact absurd rfl (hn _ _ _)
          · intro c s' p' hm
            simp only [List.mem_cons, TT.punct.injEq, reduceCtorEq, false_or] at hm
            rcases hm with hm | hm
            · exact hm.1
            · exact h3 _ _ _ hm
        · rw [hy.none.bind_eq] at h
          obtain ⟨run, rfl, rfl, h1, h2, h3⟩ := ih _ _ _ _ _ _ _ h
          refine ⟨run, rfl, rfl, h1, fun s p => ?_, fun _ => h2, h3⟩
          rw [wordPlaces_dash hn h3]
          exact h2
    intro b k sc ts ds k' rest h
    rw [kebabLoop] at h
    by_cases hd : ∃ s p r, ts = .punct '-' s p :: r
    · obtain ⟨s, p, r, rfl⟩ := hd
      rw [punct_some.bind_eq] at h
      simp only [Option.isSome_some, Bool.true_or, if_true] at h
      obtain ⟨run, rfl, rfl, h1, h2, _, h3⟩ := word ⟨k.repr ++ c!"-", k.spans⟩ _ _ _ _ _ h
      refine ⟨.punct '-' s p :: run, rfl, ?_, ?_, h2 s p, ?_⟩
      · simp [rawsIn]
      · simp [h1, kebabText, TT.erase, TT.text]
      · intro c s' p' hm
        simp only [List.mem_cons, TT.punct.injEq] at hm
        rcases hm with hm | hm
        · exact hm.1
        · exact h3 _ _ _ hm
    · have hd : ∀ s p r, ts ≠ .punct '-' s p :: r := fun s p r h => hd ⟨s, p, r, h⟩
      rw [(punct_none hd).bind_eq] at h
      by_cases hb : (b && k.repr = c!"-") = true
      · simp only [Option.isSome_none, Bool.false_or, hb, if_true, Bool.false_eq_true, if_false] at h
        obtain ⟨run, rfl, rfl, h1, _, h2, h3⟩ := word k _ _ _ _ _ h
        exact ⟨run, rfl, rfl, h1, h2 hd, h3⟩
      · simp only [Option.isSome_none, Bool.false_or, hb] at h
        cases h
        exact ⟨[], rfl, rfl, by simp [kebabText], by simp [wordPlaces], by simp⟩

theorem kebab_run {sc : σ} {ts : Toks σ} {ds : List (LDiag σ)} {k : KebabIdent σ} {rest : Toks σ}
    (h : parseKebab sc ts = .ret ds (.ok k rest)) :
    ∃ run, ts = run ++ rest ∧ reports ds = rawIssues run ∧ k = kebabOf run := by
  unfold parseKebab at h
  by_cases hi : ∃ i p r, ts = .ident i p :: r
  · obtain ⟨i, p, r, rfl⟩ := hi
    rw [(identAny_yields.some).bind_eq] at h
    dsimp only at h
    rw [inp_bind] at h
    obtain ⟨run, rfl, rfl, h1, h2, h3⟩ := loop_run _ _ _ _ _ _ _ _ h
    refine ⟨.ident i p :: run, rfl, (rawIssues_cons _ _).symm, ?_⟩
    cases k
    simp only at h1 h2
    rw [h1, h2]
    simp [kebabOf, kebabText, TT.erase, TT.text, TT.place]
  · have hf : Fails parseIdentAny sc ts := ⟨_, _, identAny_err fun i p r h => hi ⟨i, p, r, h⟩⟩
    rw [hf.none.bind_eq] at h
    dsimp only at h
    by_cases hd : ∃ s p r, ts = .punct '-' s p :: r
    · obtain ⟨s, p, r, rfl⟩ := hd
      rw [punct_some.bind_eq] at h
      dsimp only at h
      rw [inp_bind] at h
      obtain ⟨run, rfl, rfl, h1, h2, h3⟩ := loop_run _ _ _ _ _ _ _ _ h
      refine ⟨.punct '-' s p :: run, rfl, (rawIssues_cons _ _).symm, ?_⟩
      cases k
      simp only at h1 h2
      rw [h1, h2]
      simp [kebabOf, kebabText, TT.erase, TT.text, TT.place]
    · have hd : ∀ s p r, ts ≠ .punct '-' s p :: r := fun s p r h => hd ⟨s, p, r, h⟩
      rw [(punct_none hd).bind_eq] at h
      cases h

theorem kebab_gives {sc : σ} {ts run rest : Toks σ} (hl : LexicalToks (eraseToks ts)) (h : LongName ts run rest) :
    Gives (parseKebab sc ts) (rawIssues run) (.ok (kebabOf run) rest) := by
  have hp := parseKebab_erase (σ := σ) sc ts
  have hm := Mview.kebab_gives hl h.longest
  unfold Er at hp
  rw [← hp] at hm
  cases ho : parseKebab sc ts with
  | ret ds q =>
    rw [ho] at hm
    have h2 := hm.2 _ _ rfl
    cases q with
    | err e r => simp [PR.erase] at h2
    | ok k rest' =>
      obtain ⟨run', rfl, h3, rfl⟩ := kebab_run ho
      simp only [PR.erase, Mview.PR.ok.injEq] at h2
      have hlen : rest'.length = rest.length := by
        have := congrArg List.length h2.2
        simpa using this
      obtain ⟨rfl, rfl⟩ := List.append_inj' h.split hlen
      refine ⟨?_, fun _ _ h => by cases h; rfl⟩
      rw [← h3]
      unfold Shows
      rw [verdict_reports]
      rfl
  | _ =>
    rw [ho] at hm
    have h1 := hm.1
    unfold Mview.Shows at h1
    rw [show Mview.rawIssues (eraseToks run) =
      ((kebabRaws (eraseToks run)).map Diag.rawInKebab).map .report by simp [Mview.rawIssues],
      Mview.verdict_reports] at h1
    exact h1.elim

theorem kebab_none {sc : σ} {ts : Toks σ} (h : ¬ NameStart (eraseToks ts)) :
    parseKebab sc ts = .ret [] (.err ⟨.expectedKebab, nextPlace sc ts⟩ ts) := by
  rw [← spanAt_eq]
  unfold parseKebab
  rw [(Fails.none ⟨_, _, identAny_err ?_⟩).bind_eq]
  · dsimp only
    rw [(punct_none ?_).bind_eq]
    · rfl
    · rintro s p r rfl
      exact h ⟨_, _, rfl, .inr (by simp [TT.erase, Mview.TT.isDash])⟩
  · rintro i p r rfl
    exact h ⟨_, _, rfl, .inl (by simp [TT.erase, Mview.TT.isIdent])⟩

omit [Spans σ] in
theorem LongName.start {ts run rest : Toks σ} (h : LongName ts run rest) :
    ∃ t r, run = t :: r ∧ ts = t :: (r ++ rest) ∧ (t.erase.isIdent = true ∨ t.erase.isDash = true) := by
  cases run with
  | nil => exact absurd rfl h.longest.kebab.nonempty
  | cons t r => exact ⟨t, r, rfl, h.split, h.longest.kebab.start _ rfl⟩

omit [Spans σ] in
theorem LongName.nameStart {ts run rest : Toks σ} (h : LongName ts run rest) : NameStart (eraseToks ts) :=
  h.longest.nameStart

omit [Spans σ] in
theorem LongName.ne {ts run rest : Toks σ} (h : LongName ts run rest) : run ≠ [] := by
  rintro rfl
  exact h.longest.kebab.nonempty rfl

theorem kebabOf_spans {run : Toks σ} (h : run ≠ []) : 0 < (kebabOf run).spans.length := by
  cases run with
  | nil => exact absurd rfl h
  | cons t r => simp [kebabOf]

theorem snake_eq {k : KebabIdent σ} (h : 0 < k.spans.length) :
    k.toSnakeIdent = match rawIdentOf k.repr with
      | some i => .ret [] ⟨i, k.place⟩
      | none => .panic (.rawIdent (dashToUnderscore k.repr)) := by
  have hraw : rawIdentOf k.repr = if dashToUnderscore k.repr ∈ notRaw then none
    else some ⟨true, dashToUnderscore k.repr⟩ := rfl
  rw [hraw]
  unfold KebabIdent.toSnakeIdent KebabIdent.checkSpan
  rw [if_neg (Nat.pos_iff_ne_zero.mp h), kebab_place]
  unfold newRaw
  by_cases hn : dashToUnderscore k.repr ∈ notRaw
  · rw [if_pos hn, if_pos hn]; rfl
  · rw [if_neg hn, if_neg hn]; rfl

theorem shortValue_gives {c : Toks σ} {b : DelimSpan σ} (h : c ≠ []) :
    Gives (intoBlockValue (b, kebabOf c)) (nameIssues (kebabText (eraseToks c))) (shortValue c b) := by
  have hs := kebabOf_spans h
  refine ⟨(toSnakeIdent_shows hs).map fun _ => .ret _, fun ds v hv => ?_⟩
  unfold intoBlockValue at hv
  rw [Out.monad_bind, snake_eq hs] at hv
  have e : identOf (eraseToks c) = (rawIdentOf (kebabOf c).repr).getD ⟨false, []⟩ := rfl
  unfold shortValue
  rw [e]
  cases hr : rawIdentOf (kebabOf c).repr <;> rw [hr] at hv <;> cases hv
  rfl

/-! ### what is left -/

/-- `rest` is what is left of `ts` -/
def Left (ts rest : Toks σ) : Prop := ∃ used, eraseToks ts = used ++ eraseToks rest

omit [Spans σ] in
theorem Left.of_eq {ts rest used : Toks σ} (h : ts = used ++ rest) : Left ts rest :=
  ⟨eraseToks used, by rw [h, eraseToks_append]⟩
omit [Spans σ] in
theorem Left.refl (ts : Toks σ) : Left ts ts := ⟨[], rfl⟩
omit [Spans σ] in
theorem Left.nil (ts : Toks σ) : Left ts [] := ⟨_, (List.append_nil _).symm⟩
omit [Spans σ] in
theorem Left.trans {a b c : Toks σ} (h : Left a b) (h' : Left b c) : Left a c := by
  obtain ⟨u, hu⟩ := h
  obtain ⟨v, hv⟩ := h'
  exact ⟨u ++ v, by rw [hu, hv, List.append_assoc]⟩
omit [Spans σ] in
theorem Left.cons {a b : Toks σ} (t : TT σ) (h : Left a b) : Left (t :: a) b :=
  Left.trans (.of_eq (used := [t]) rfl) h
omit [Spans σ] in
theorem Left.lexical {a b : Toks σ} (h : Left a b) (hl : LexicalToks (eraseToks a)) : LexicalToks (eraseToks b) := by
  obtain ⟨u, hu⟩ := h
  exact (hu ▸ hl).append
omit [Spans σ] in
theorem Left.length {a b : Toks σ} (h : Left a b) : b.length ≤ a.length := by
  obtain ⟨u, hu⟩ := h
  have := congrArg List.length hu
  simp only [eraseToks_length, List.length_append] at this
  omega
omit [Spans σ] in
theorem LongName.left {ts run rest : Toks σ} (h : LongName ts run rest) : Left ts rest := .of_eq h.split
omit [Spans σ] in
theorem LongName.shorter {ts run rest : Toks σ} (h : LongName ts run rest) : rest.length < ts.length := by
  obtain ⟨t, r, _, h2, _⟩ := h.start
  rw [h2]
  simp only [List.length_cons, List.length_append]
  omega

/-! ### selectors -/

theorem ReadsSels.left {ts : Toks σ} {is : List (Issue σ)} {sels : List (Selector σ)} {rest : Toks σ}
    (h : ReadsSels ts is sels rest) : Left ts rest := by
  induction h with
  | cls hn _ ih | id hn _ ih => exact .cons _ (hn.left.trans ih)
  | done => exact .refl _

theorem selectors_give {ts : Toks σ} {is : List (Issue σ)} {sels : List (Selector σ)} {rest : Toks σ} {sc : σ}
    (h : ReadsSels ts is sels rest) (hl : LexicalToks (eraseToks ts)) :
    ∀ (fuel : Nat) (vec : List (Selector σ)), ts.length < fuel →
    Gives (selectorsLoop fuel vec sc ts) is (.ok (vec ++ sels) rest) := by
  induction h with
  | @cls s p ts run rest is sels left hn _ ih =>
    intro fuel vec hf
    obtain ⟨f, rfl⟩ : ∃ f, fuel = f + 1 := ⟨fuel - 1, by omega⟩
    have hl : LexicalToks (eraseToks ts) := (Left.cons _ (Left.refl ts)).lexical hl
    have hlen := hn.left.length
    simp only [List.length_cons] at hf
    rw [selectorsLoop]
    have := ih (hn.left.lexical hl) f (vec ++ [.cls p (kebabOf run)]) (by omega)
    rw [List.append_assoc] at this
    refine (Gives.some (a := .cls p (kebabOf run)) (r := rest) ?_).pbind this
    unfold parseSelector
    refine .pthen punct_some ?_
    exact (kebab_gives hl hn).pmap
  | @id s p ts run rest is sels left hn _ ih =>
    intro fuel vec hf
    obtain ⟨f, rfl⟩ : ∃ f, fuel = f + 1 := ⟨fuel - 1, by omega⟩
    have hl : LexicalToks (eraseToks ts) := (Left.cons _ (Left.refl ts)).lexical hl
    have hlen := hn.left.length
    simp only [List.length_cons] at hf
    rw [selectorsLoop]
    have := ih (hn.left.lexical hl) f (vec ++ [.id p (kebabOf run)]) (by omega)
    rw [List.append_assoc] at this
    refine (Gives.some (a := .id p (kebabOf run)) (r := rest) ?_).pbind this
    unfold parseSelector
    refine .pthen (punct_none (by simp)) ?_
    refine .pthen punct_some ?_
    exact (kebab_gives hl hn).pmap
  | @done ts hd =>
    intro fuel vec hf
    obtain ⟨f, rfl⟩ : ∃ f, fuel = f + 1 := ⟨fuel - 1, by omega⟩
    rw [selectorsLoop, List.append_nil]
    have hfail : Fails parseSelector sc ts := by
      unfold Fails parseSelector
      by_cases h1 : ∃ s p r, ts = .punct '.' s p :: r
      · obtain ⟨s, p, r, rfl⟩ := h1
        rw [punct_some.bind_eq]
        dsimp only
        rw [P.bind_apply, kebab_none (hd _ _ _ _ rfl (.inl rfl))]
        exact ⟨_, _, rfl⟩
      · rw [(punct_none fun s p r h => h1 ⟨s, p, r, h⟩).bind_eq]
        dsimp only
        by_cases h2 : ∃ s p r, ts = .punct '#' s p :: r
        · obtain ⟨s, p, r, rfl⟩ := h2
          rw [punct_some.bind_eq]
          dsimp only
          rw [P.bind_apply, kebab_none (hd _ _ _ _ rfl (.inr rfl))]
          exact ⟨_, _, rfl⟩
        · rw [(punct_none fun s p r h => h2 ⟨s, p, r, h⟩).bind_eq]
          exact ⟨_, _, rfl⟩
    rw [hfail.none.bind_eq]
    exact .ret _

/-! ### values -/

theorem lit_yields {sc : σ} {used rest : Toks σ} {l : SLit σ} (h : IsValue used (.lit l)) :
    Yields parseLit sc (used ++ rest) l rest := by
  cases h <;> first | rfl | simp [Yields, parseLit, plain]

theorem value_yields {sc : σ} {ts : Toks σ} {v : Value σ} {rest : Toks σ} (h : ValueNext ts v rest) :
    Yields parseValue sc ts v rest := by
  unfold parseValue Yields
  rw [inp_bind]
  obtain ⟨hv, hn⟩ := h
  rename_i used
  -- a literal
  have lit : ∀ l, IsValue used (.lit l) →
      (peekGroup .bracket (used ++ rest) = false) →
      (peekIdentAny (used ++ rest) && peekGroup .bracket (skip (used ++ rest))) = false →
      peekGroup .brace (used ++ rest) = false →
      (if peekGroup .bracket (used ++ rest) then do
        let g ← unwrapP .valueUnwrap (extractGroup .bracket)
        pure (.bracket none g.toks g.sp)
      else if peekIdentAny (used ++ rest) && peekGroup .bracket (skip (used ++ rest)) then do
        let pfx ← unwrapP .valueUnwrap parseIdentAny
        let g ← unwrapP .valueUnwrap (extractGroup .bracket)
        pure (.bracket (some pfx) g.toks g.sp)
      else if peekGroup .brace (used ++ rest) then do
        let g ← unwrapP .valueUnwrap (extractGroup .brace)
        pure (.block g.toks g.sp)
      else if peekLit (used ++ rest) then do
        let l ← unwrapP .valueUnwrap parseLit
        pure (.lit l)
      else fail .invalidValue : P σ (Value σ)) sc (used ++ rest) = .ret [] (.ok (.lit l) rest) := by
    intro l hl h1 h2 h3
    rw [h1, h2, h3, if_neg (by simp), if_neg (by simp), if_neg (by simp)]
    have : peekLit (used ++ rest) = true := by
      unfold peekLit
      rw [lit_yields hl]
    rw [this, if_pos rfl, (lit_yields hl).unwrap.bind_eq]
    rfl
  cases hv with
  | lit => exact lit _ .lit rfl rfl rfl
  | true =>
    refine lit _ .true rfl ?_ rfl
    cases rest with
    | nil => rfl
    | cons t r =>
      cases t with
      | group d c b =>
        cases d with
        | bracket => exact absurd rfl (hn _ _ _ _ _ rfl)
        | _ => rfl
      | _ => rfl
  | false =>
    refine lit _ .false rfl ?_ rfl
    cases rest with
    | nil => rfl
    | cons t r =>
      cases t with
      | group d c b =>
        cases d with
        | bracket => exact absurd rfl (hn _ _ _ _ _ rfl)
        | _ => rfl
      | _ => rfl
  | negInt => exact lit _ .negInt rfl rfl rfl
  | negFloat => exact lit _ .negFloat rfl rfl rfl
  | block =>
    rw [if_neg (by simp [peekGroup]), if_neg (by simp [peekIdentAny]), if_pos (by simp [peekGroup])]
    exact extract_yields.unwrap.bind_eq
  | bracket =>
    rw [if_pos (by simp [peekGroup])]
    exact extract_yields.unwrap.bind_eq
  | pfx =>
    rw [if_neg (by simp [peekGroup]), if_pos (by simp [peekIdentAny, skip, peekGroup])]
    rw [List.cons_append, identAny_yields.unwrap.bind_eq]
    exact extract_yields.unwrap.bind_eq

omit [Spans σ] in
theorem wordNext_iff {ts : Toks σ} : peekIdent ts = true ↔ WordNext (eraseToks ts) := by
  rw [← peekIdent_erase]
  exact Mview.wordNext_iff

omit [Spans σ] in
theorem ValueNext.left [Spans σ] {ts : Toks σ} {v : Value σ} {rest : Toks σ} (h : ValueNext ts v rest) : Left ts rest := by
  cases h
  exact .of_eq rfl

theorem ReadsValue.left {eq : σ} {ts : Toks σ} {is : List (Issue σ)} {v : Value σ} {rest : Toks σ}
    (h : ReadsValue eq ts is v rest) : Left ts rest := by
  cases h with
  | value h => exact h.left
  | missing => exact .refl _

theorem ReadsEq.left {ts : Toks σ} {is : List (Issue σ)} {v : Option (Value σ)} {rest : Toks σ}
    (h : ReadsEq ts is v rest) : Left ts rest := by
  cases h with
  | some h => exact .cons _ h.left
  | none => exact .refl _

omit [Spans σ] in
theorem ReadsModifier.left {ts : Toks σ} {m : Option (SIdent σ)} {rest : Toks σ}
    (h : ReadsModifier ts m rest) : Left ts rest := by
  cases h with
  | some => exact .cons _ (.cons _ (.refl _))
  | none => exact .refl _

theorem ReadsKey.left {ts : Toks σ} {is : List (Issue σ)} {k : KebabOrStr σ} {rest : Toks σ}
    (h : ReadsKey ts is k rest) : Left ts rest := by
  cases h with
  | str => exact .cons _ (.refl _)
  | name h => exact h.left

theorem value_gives {eq sc : σ} {ts : Toks σ} {is : List (Issue σ)} {v : Value σ} {rest : Toks σ}
    (h : ReadsValue eq ts is v rest) : Gives (parseValueOrEmit eq sc ts) is (.ok v rest) := by
  unfold parseValueOrEmit
  cases h with
  | value h =>
    refine .pthen (value_yields h).some ?_
    exact .ret _
  | @missing help hn hh =>
    refine .pthen (fails_of_erase parseValue_erase (value_fails_of hn)).none ?_
    dsimp only
    rw [inp_bind, inpSpan_bind]
    have : peekIdent ts = help := by
      rw [Bool.eq_iff_iff, wordNext_iff, hh]
    rw [this]
    have e : (if isEmpty ts = true then eq else spanAt sc ts) = nextPlace eq ts := by
      rw [spanAt_eq]
      match ts with
      | [] => rfl
      | .ident _ _ :: _ => rfl
      | .punct _ _ _ :: _ => rfl
      | .lit _ _ :: _ => rfl
      | .group _ _ _ :: _ => rfl
    rw [e]
    exact (Gives.lift (Gives.emit _ _)).pbind (js := []) (.ret _)

/-- the value of an attribute or directive -/
theorem eq_gives {β : Type} {sc : σ} {ts : Toks σ} {is : List (Issue σ)} {v : Option (Value σ)} {rest : Toks σ}
    {g : Value σ → β} {b : β} (h : ReadsEq ts is v rest) :
    Gives ((do
      let eq ← rollback (parsePunct '=')
      match eq with
      | some s => do
        let v ← parseValueOrEmit s
        pure (g v)
      | none => pure b : P σ β) sc ts) is (.ok (v.elim b g) rest) := by
  cases h with
  | some h =>
    refine .pthen punct_some ?_
    exact (value_gives h).pmap
  | none hn =>
    refine .pthen (punct_none hn) ?_
    exact .ret _

omit [Spans σ] in
theorem modifier_yields {sc : σ} {ts : Toks σ} {m : Option (SIdent σ)} {rest : Toks σ}
    (h : ReadsModifier ts m rest) : Yields parseModifier sc ts m rest := by
  unfold parseModifier Yields
  cases h with
  | some =>
    rw [punct_some.bind_eq]
    rfl
  | none hn =>
    rw [(punct_none hn).bind_eq]
    rfl

omit [Spans σ] in
theorem modifier_err {sc : σ} {s : Spacing} {p : σ} {rest : Toks σ} (h : ∀ i p r, rest ≠ .ident i p :: r) :
    parseModifier sc (.punct ':' s p :: rest) = .ret [] (.err ⟨.expectedIdent, nextPlace sc rest⟩ rest) := by
  unfold parseModifier
  rw [punct_some.bind_eq]
  dsimp only
  rw [P.bind_apply, identAny_err h]
  rfl

theorem litStr_fails {sc : σ} {ts : Toks σ} (h : ∀ x p r, ts ≠ .lit (.str x) p :: r) : Fails parseLitStr sc ts := by
  refine fails_of_erase parseLitStr_erase (Mview.litStr_fails ?_)
  intro x r he
  match ts, he with
  | .lit l p :: r', he =>
    simp only [eraseToks_cons, TT.erase, List.cons.injEq, Mview.TT.lit.injEq] at he
    exact h x p r' (by rw [he.1])
  | [], he => simp at he
  | .ident _ _ :: _, he => simp [TT.erase] at he
  | .punct _ _ _ :: _, he => simp [TT.erase] at he
  | .group _ _ _ :: _, he => simp [TT.erase] at he

theorem key_gives {sc : σ} {ts : Toks σ} {is : List (Issue σ)} {k : KebabOrStr σ} {rest : Toks σ}
    (h : ReadsKey ts is k rest) (hl : LexicalToks (eraseToks ts)) :
    Gives (parseKebabOrStr sc ts) is (.ok k rest) := by
  unfold parseKebabOrStr
  cases h with
  | str =>
    refine .pthen (Yields.some (p := parseLitStr) rfl) ?_
    exact .ret _
  | name h =>
    refine .pthen (Fails.none (litStr_fails ?_)) ?_
    · rintro s p r rfl
      obtain ⟨t, r', _, he, ht⟩ := h.start
      simp only [List.cons.injEq] at he
      rw [← he.1] at ht
      simp [TT.erase, Mview.TT.isIdent, Mview.TT.isDash] at ht
    · exact (kebab_gives hl h).pmap

omit [Spans σ] in
theorem not_brace_of_start {t : TT σ} {r : Toks σ} (h : t.erase.isIdent = true ∨ t.erase.isDash = true) :
    peekGroup .brace (t :: r) = false := by
  rw [← peekGroup_erase, eraseToks_cons]
  exact not_brace_of_starts h

theorem ReadsKey.not_brace {ts : Toks σ} {is : List (Issue σ)} {k : KebabOrStr σ} {rest : Toks σ}
    (h : ReadsKey ts is k rest) : peekGroup .brace ts = false := by
  cases h with
  | str => rfl
  | name h =>
    obtain ⟨t, r', _, he, ht⟩ := h.start
    rw [he]
    exact not_brace_of_start ht

/-! ### attributes -/

theorem attr_directive {sc : σ} {d : Ident} {p : σ} {s : Spacing} {q : σ} {r : Toks σ} {is : List (Issue σ)}
    {x : Directive σ} {rest : Toks σ}
    (h : Gives (parseDirective sc (.ident d p :: .punct ':' s q :: r)) is (.ok x rest)) :
    Gives (parseAttr sc (.ident d p :: .punct ':' s q :: r)) is (.ok (.directive x) rest) := by
  unfold parseAttr
  rw [inp_bind, if_pos (by simp [peekIdentAny, skip, peekPunct])]
  exact h.unwrapOrAbort.pmap

theorem attr_directive_abort {sc : σ} {d : Ident} {p : σ} {s : Spacing} {q : σ} {r : Toks σ} {is : List (Issue σ)}
    {e : LErr σ} {rest : Toks σ} {x : PR σ (Attr σ)}
    (h : Gives (parseDirective sc (.ident d p :: .punct ':' s q :: r)) is (.err e rest)) :
    Gives (parseAttr sc (.ident d p :: .punct ':' s q :: r)) (is ++ [.stop (.synAbort e.err) e.sp]) x := by
  unfold parseAttr
  rw [inp_bind, if_pos (by simp [peekIdentAny, skip, peekPunct])]
  exact (h.aborts (q := .err e rest)).phalt (halts_append (halts_stop _ _))

/-- the beginning of a directive -/
theorem directive_start {sc : σ} {d : Ident} {p : σ} {s : Spacing} {q : σ} {r : Toks σ} :
    parseDirective sc (.ident d p :: .punct ':' s q :: r) = (if peekGroup .brace r then do
      let b ← parseBracedKebab
      let v ← liftOut (intoBlockValue b)
      let m ← parseModifier
      pure ⟨⟨d, p⟩, .kebab b.2, m, some v⟩
    else do
      let key ← parseKebabOrStr
      let m ← parseModifier
      let eq ← rollback (parsePunct '=')
      match eq with
      | some s => do
        let v ← parseValueOrEmit s
        pure ⟨⟨d, p⟩, key, m, some v⟩
      | none => pure ⟨⟨d, p⟩, key, m, none⟩ : P σ (Directive σ)) sc r := by
  unfold parseDirective
  rw [identAny_yields.bind_eq, punct_yields.bind_eq, inp_bind]
  rfl

omit [Spans σ] in
/-- the content of a group is lexical -/
theorem lexical_group {d : Delim} {c : Toks σ} {b : DelimSpan σ} {rest : Toks σ} (hd : d ≠ .bracket)
    (hl : LexicalToks (eraseToks (.group d c b :: rest))) : LexicalToks (eraseToks c) := by
  rw [eraseToks_cons] at hl
  exact LexicalToks.group (inner := eraseToks c) hd (by simpa only [TT.erase] using hl)

omit [Spans σ] in
theorem lexical_tail {t : TT σ} {rest : Toks σ} (hl : LexicalToks (eraseToks (t :: rest))) :
    LexicalToks (eraseToks rest) := (Left.cons _ (Left.refl rest)).lexical hl

theorem braced_gives {sc : σ} {c : Toks σ} {b : DelimSpan σ} {rest : Toks σ}
    (hl : LexicalToks (eraseToks (.group .brace c b :: rest))) (h : AllName c) :
    Gives (parseBracedKebab sc (.group .brace c b :: rest)) (rawIssues c) (.ok (b, kebabOf c) rest) :=
  (kebab_gives (lexical_group (by decide) hl) h).inGroup

omit [Spans σ] in
/-- an attribute that is not a directive -/
theorem attr_kv {ts : Toks σ} (h : ∀ d p s q r, ts ≠ .ident d p :: .punct ':' s q :: r) :
    (peekIdentAny ts && peekPunct ':' (skip ts)) = false := by
  match ts with
  | [] => rfl
  | [.ident _ _] => rfl
  | .ident _ _ :: .ident _ _ :: _ => rfl
  | .ident _ _ :: .lit _ _ :: _ => rfl
  | .ident _ _ :: .group _ _ _ :: _ => rfl
  | .ident _ _ :: .punct c _ _ :: _ =>
    show (true && decide (c = ':')) = false
    rw [Bool.true_and, decide_eq_false_iff_not]
    rintro rfl
    exact h _ _ _ _ _ rfl
  | .punct _ _ _ :: _ => rfl
  | .lit _ _ :: _ => rfl
  | .group _ _ _ :: _ => rfl

theorem attr_of_kv {sc : σ} {ts : Toks σ} {is : List (Issue σ)} {a : KvAttr σ} {rest : Toks σ}
    (hd : ∀ d p s q r, ts ≠ .ident d p :: .punct ':' s q :: r) (h : Gives (parseKv sc ts) is (.ok a rest)) :
    Gives (parseAttr sc ts) is (.ok (.kv a) rest) := by
  unfold parseAttr
  rw [inp_bind, attr_kv hd, if_neg (by simp)]
  split
  · exact h.pmap
  · exact h.some.pbind_nil (.ret _)

theorem kv_gives {sc : σ} {ts run rest : Toks σ} {js : List (Issue σ)} {v : Option (Value σ)} {rest' : Toks σ}
    (hl : LexicalToks (eraseToks ts)) (h : LongName ts run rest) (hv : ReadsEq rest js v rest') :
    Gives (parseKv sc ts) (rawIssues run ++ js)
      (.ok ⟨kebabOf run, v.getD (.lit ⟨.bool true, callSite⟩)⟩ rest') := by
  unfold parseKv
  obtain ⟨t, r', _, he, ht⟩ := h.start
  rw [inp_bind, if_neg (by rw [he, not_brace_of_start ht]; simp)]
  refine (kebab_gives hl h).pbind ?_
  have := eq_gives (sc := sc) (g := fun v => (⟨kebabOf run, v⟩ : KvAttr σ)) (b := ⟨kebabOf run, Value.newTrue⟩) hv
  have e : v.elim (⟨kebabOf run, Value.newTrue⟩ : KvAttr σ) (fun v => ⟨kebabOf run, v⟩) =
    ⟨kebabOf run, v.getD (.lit ⟨.bool true, callSite⟩)⟩ := by cases v <;> rfl
  rw [e] at this
  exact this

theorem short_gives {sc : σ} {c : Toks σ} {b : DelimSpan σ} {rest : Toks σ}
    (hl : LexicalToks (eraseToks (.group .brace c b :: rest))) (h : AllName c) :
    Gives (parseKv sc (.group .brace c b :: rest)) (rawIssues c ++ nameIssues (kebabText (eraseToks c)))
      (.ok ⟨kebabOf c, shortValue c b⟩ rest) := by
  unfold parseKv
  rw [inp_bind, if_pos (by simp [peekGroup])]
  refine (braced_gives hl h).pbind ?_
  exact (shortValue_gives (LongName.ne h)).lift.pmap

/-- braces that are not a shorthand -/
theorem brace_attr {sc : σ} {c : Toks σ} {b : DelimSpan σ} {rest : Toks σ} {is : List (Issue σ)} {e : LErr σ}
    {r : Toks σ} (h : Gives (parseBracedKebab sc (.group .brace c b :: rest)) is (.err e r)) :
    Gives (parseAttr sc (.group .brace c b :: rest)) is
      (match spreadParts c with
        | some (d, e) => .ok (.spread ⟨b, d, e⟩) rest
        | none => .err ⟨.noAttribute, b.opening⟩ (.group .brace c b :: rest)) := by
  unfold parseAttr
  rw [inp_bind, if_neg (by simp [peekIdentAny]), if_neg (by simp [peekIdent])]
  have hkv : Gives (parseKv sc (.group .brace c b :: rest)) is (.err e r) := by
    unfold parseKv
    rw [inp_bind, if_pos (by simp [peekGroup])]
    exact h.perr
  refine hkv.none.pbind_nil ?_
  dsimp only
  cases hs : spreadParts c with
  | some x =>
    obtain ⟨d, e⟩ := x
    have : Yields parseSpread sc (.group .brace c b :: rest) ⟨b, d, e⟩ rest := by
      unfold parseSpread Yields
      rw [extract_yields.bind_eq]
      simp only [hs]
      rfl
    rw [this.some.bind_eq]
    exact .ret _
  | none =>
    have : Fails parseSpread sc (.group .brace c b :: rest) := by
      unfold parseSpread Fails
      rw [extract_yields.bind_eq]
      simp only [hs]
      exact ⟨_, _, rfl⟩
    rw [this.none.bind_eq]
    exact .ret _

theorem ReadsAttrs.left {sc : σ} {ts : Toks σ} {is : List (Issue σ)} {as : List (Attr σ)} {rest : Toks σ}
    (h : ReadsAttrs sc ts is as rest) : Left ts rest := by
  induction h with
  | short _ _ ih | spread _ ih => exact .cons _ ih
  | kv hn _ he _ ih => exact hn.left.trans (he.left.trans ih)
  | dirShort _ hm _ ih => exact .cons _ (.cons _ (.cons _ (hm.left.trans ih)))
  | dir hk hm he _ ih => exact .cons _ (.cons _ (hk.left.trans (hm.left.trans (he.left.trans ih))))
  | dirMore | dirNoName | dirNoKey | dirShortNoModifier | dirNoModifier => exact .nil _
  | brace | done => exact .refl _

/-- the loop goes on -/
theorem attrs_step {sc : σ} {ts rest left : Toks σ} {is js : List (Issue σ)} {a : Attr σ} {as : List (Attr σ)}
    {f : Nat} {vec : List (Attr σ)} (h : Gives (parseAttr sc ts) is (.ok a rest))
    (ih : Gives (attrsLoop f (vec ++ [a]) sc rest) js (.ok ((vec ++ [a]) ++ as) left)) :
    Gives (attrsLoop (f + 1) vec sc ts) (is ++ js) (.ok (vec ++ a :: as) left) := by
  rw [attrsLoop]
  rw [List.append_assoc] at ih
  exact h.some.pbind ih

/-- the macro stops -/
theorem attrs_halt {sc : σ} {ts : Toks σ} {is : List (Issue σ)} {q : PR σ (Attr σ)} {f : Nat}
    {vec : List (Attr σ)} {q' : PR σ (List (Attr σ))} (h : Gives (parseAttr sc ts) is q) (hh : Halts is) :
    Gives (attrsLoop (f + 1) vec sc ts) is q' := by
  rw [attrsLoop]
  exact Gives.phalt (q' := .ok Option.none ts) (p := rollback parseAttr) (Gives.halt h hh) hh

/-- the loop ends -/
theorem attrs_end {sc : σ} {ts : Toks σ} {is : List (Issue σ)} {e : LErr σ} {r : Toks σ} {f : Nat}
    {vec : List (Attr σ)} (h : Gives (parseAttr sc ts) is (.err e r)) :
    Gives (attrsLoop (f + 1) vec sc ts) is (.ok vec ts) := by
  rw [attrsLoop]
  exact h.none.pbind_nil (.ret _)

theorem attrs_give {sc : σ} {ts : Toks σ} {is : List (Issue σ)} {as : List (Attr σ)} {rest : Toks σ}
    (h : ReadsAttrs sc ts is as rest) (hl : LexicalToks (eraseToks ts)) :
    ∀ (fuel : Nat) (vec : List (Attr σ)), ts.length < fuel →
    Gives (attrsLoop fuel vec sc ts) is (.ok (vec ++ as) rest) := by
  induction h with
  | @short c b rest is as left hn hr ih =>
    intro fuel vec hf
    obtain ⟨f, rfl⟩ : ∃ f, fuel = f + 1 := ⟨fuel - 1, by omega⟩
    rw [← List.append_assoc]
    exact attrs_step (attr_of_kv (by simp) (short_gives hl hn))
      (ih (lexical_tail hl) f _ (by simp only [List.length_cons] at hf; omega))
  | @spread p s q e b rest is as left hr ih =>
    intro fuel vec hf
    obtain ⟨f, rfl⟩ : ∃ f, fuel = f + 1 := ⟨fuel - 1, by omega⟩
    have hk : ¬ NameStart (eraseToks (.punct '.' .joint p :: .punct '.' s q :: e)) := by
      rintro ⟨t, r, h, ht⟩
      simp only [eraseToks_cons, List.cons.injEq] at h
      rw [← h.1] at ht
      simp [TT.erase, Mview.TT.isIdent, Mview.TT.isDash] at ht
    have := brace_attr (sc := sc) (b := b) (rest := rest) (Gives.inGroup_err (.of_eq (kebab_none hk)))
    exact attrs_step (is := []) this (ih (lexical_tail hl) f _ (by simp only [List.length_cons] at hf; omega))
  | @kv ts run rest js v rest' is as left hn hd hv hr ih =>
    intro fuel vec hf
    obtain ⟨f, rfl⟩ : ∃ f, fuel = f + 1 := ⟨fuel - 1, by omega⟩
    rw [← List.append_assoc]
    have h1 := hn.shorter
    have h2 := hv.left.length
    exact attrs_step (attr_of_kv hd (kv_gives hl hn hv)) (ih ((hn.left.trans hv.left).lexical hl) f _ (by omega))
  | @dirShort d p s q c b rest m rest' is as left hn hm hr ih =>
    intro fuel vec hf
    obtain ⟨f, rfl⟩ : ∃ f, fuel = f + 1 := ⟨fuel - 1, by omega⟩
    rw [← List.append_assoc]
    have h2 := hm.left.length
    simp only [List.length_cons] at hf
    have hl' := lexical_tail (lexical_tail hl)
    refine attrs_step (attr_directive ?_) (ih (hm.left.lexical (lexical_tail hl')) f _ (by omega))
    rw [directive_start, if_pos (by simp [peekGroup])]
    refine (braced_gives hl' hn).pbind ?_
    refine (shortValue_gives (LongName.ne hn)).lift.pbind_nil ?_
    exact (modifier_yields hm).gives.pmap
  | @dir d p s q ts ks key r1 m r2 js v r3 is as left hk hm hv hr ih =>
    intro fuel vec hf
    obtain ⟨f, rfl⟩ : ∃ f, fuel = f + 1 := ⟨fuel - 1, by omega⟩
    rw [← List.append_assoc]
    have h1 := (hk.left.trans (hm.left.trans hv.left)).length
    have hl' := lexical_tail (lexical_tail hl)
    simp only [List.length_cons] at hf
    refine attrs_step (attr_directive ?_)
      (ih ((hk.left.trans (hm.left.trans hv.left)).lexical hl') f _ (by omega))
    rw [directive_start, if_neg (by rw [hk.not_brace]; simp)]
    refine (key_gives hk hl').pbind ?_
    refine .pthen (modifier_yields hm) ?_
    have := eq_gives (sc := sc) (g := fun v => (⟨⟨d, p⟩, key, m, some v⟩ : Directive σ))
      (b := ⟨⟨d, p⟩, key, m, none⟩) hv
    have e : v.elim (⟨⟨d, p⟩, key, m, none⟩ : Directive σ) (fun v => ⟨⟨d, p⟩, key, m, some v⟩) =
        ⟨⟨d, p⟩, key, m, v⟩ := by
      cases v <;> rfl
    rw [e] at this
    exact this
  | @dirMore d p s q c b run t r rest hn =>
    intro fuel vec hf
    obtain ⟨f, rfl⟩ : ∃ f, fuel = f + 1 := ⟨fuel - 1, by omega⟩
    refine attrs_halt (attr_directive_abort (e := ⟨.extraTokens .brace, nextPlace b.closing (t :: r)⟩)
      (rest := .group .brace c b :: rest) (x := .err ⟨.badPath, sc⟩ []) ?_) (halts_append (halts_stop _ _))
    rw [directive_start, if_pos (by simp [peekGroup])]
    exact (kebab_gives (lexical_group (by decide) (lexical_tail (lexical_tail hl))) hn).inGroup_more.perr
  | @dirNoName d p s q c b rest hn =>
    intro fuel vec hf
    obtain ⟨f, rfl⟩ : ∃ f, fuel = f + 1 := ⟨fuel - 1, by omega⟩
    refine attrs_halt (attr_directive_abort (is := []) (e := ⟨.expectedKebab, nextPlace b.closing c⟩)
      (rest := .group .brace c b :: rest) (x := .err ⟨.badPath, sc⟩ []) ?_) (halts_stop _ _)
    rw [directive_start, if_pos (by simp [peekGroup])]
    exact (Gives.inGroup_err (.of_eq (kebab_none hn))).perr
  | @dirNoKey d p s q ts h1 h2 h3 =>
    intro fuel vec hf
    obtain ⟨f, rfl⟩ : ∃ f, fuel = f + 1 := ⟨fuel - 1, by omega⟩
    refine attrs_halt (attr_directive_abort (is := []) (e := ⟨.expectedKebab, nextPlace sc ts⟩) (rest := ts)
      (x := .err ⟨.badPath, sc⟩ []) ?_) (halts_stop _ _)
    have hb : peekGroup .brace ts = false := by
      match ts with
      | [] => rfl
      | .ident _ _ :: _ => rfl
      | .punct _ _ _ :: _ => rfl
      | .lit _ _ :: _ => rfl
      | .group .bracket _ _ :: _ => rfl
      | .group .paren _ _ :: _ => rfl
      | .group .brace _ _ :: _ => exact absurd rfl (h3 _ _ _)
    rw [directive_start, if_neg (by rw [hb]; simp)]
    refine Gives.perr ?_
    unfold parseKebabOrStr
    refine .pthen (litStr_fails h2).none ?_
    exact Gives.perr (.of_eq (kebab_none h1))
  | @dirShortNoModifier d p s q c b s' q' rest hn hm =>
    intro fuel vec hf
    obtain ⟨f, rfl⟩ : ∃ f, fuel = f + 1 := ⟨fuel - 1, by omega⟩
    rw [← List.append_assoc]
    refine attrs_halt (attr_directive_abort (e := ⟨.expectedIdent, nextPlace sc rest⟩) (rest := rest)
      (x := .err ⟨.badPath, sc⟩ []) ?_) (halts_append (halts_stop _ _))
    rw [directive_start, if_pos (by simp [peekGroup])]
    refine (braced_gives (lexical_tail (lexical_tail hl)) hn).pbind ?_
    refine (shortValue_gives (LongName.ne hn)).lift.pbind_nil ?_
    exact Gives.perr (.of_eq (modifier_err hm))
  | @dirNoModifier d p s q ts ks key s' q' rest hk hm =>
    intro fuel vec hf
    obtain ⟨f, rfl⟩ : ∃ f, fuel = f + 1 := ⟨fuel - 1, by omega⟩
    refine attrs_halt (attr_directive_abort (e := ⟨.expectedIdent, nextPlace sc rest⟩) (rest := rest)
      (x := .err ⟨.badPath, sc⟩ []) ?_) (halts_append (halts_stop _ _))
    rw [directive_start, if_neg (by rw [hk.not_brace]; simp)]
    refine (key_gives hk (lexical_tail (lexical_tail hl))).pbind_nil ?_
    exact Gives.perr (.of_eq (modifier_err hm))
  | @brace c b run t r rest hn =>
    intro fuel vec hf
    obtain ⟨f, rfl⟩ : ∃ f, fuel = f + 1 := ⟨fuel - 1, by omega⟩
    rw [List.append_nil]
    have := brace_attr (sc := sc) (b := b) (rest := rest) (kebab_gives (lexical_group (by decide) hl) hn).inGroup_more
    have hs : spreadParts c = none := by
      obtain ⟨t', r', _, he, ht⟩ := hn.start
      unfold spreadParts
      split
      · simp only [List.cons.injEq] at he
        rw [← he.1] at ht
        simp [TT.erase, Mview.TT.isIdent, Mview.TT.isDash] at ht
      · rfl
    rw [hs] at this
    exact attrs_end this
  | @done ts h1 h2 =>
    intro fuel vec hf
    obtain ⟨f, rfl⟩ : ∃ f, fuel = f + 1 := ⟨fuel - 1, by omega⟩
    rw [List.append_nil]
    obtain ⟨e, r, hfail⟩ : Fails parseAttr sc ts := by
      refine fails_of_erase parseAttr_erase (attr_fails (fun t ht => ?_) ?_)
      · cases ts with
        | nil => simp at ht
        | cons t' r =>
          simp only [eraseToks_cons, List.head?_cons, Option.some.injEq] at ht
          subst ht
          refine ⟨?_, ?_⟩ <;> rw [← Bool.not_eq_true] <;> intro hx
          · exact h1 ⟨_, _, rfl, .inl hx⟩
          · exact h1 ⟨_, _, rfl, .inr hx⟩
      · intro c r hc
        match ts, hc with
        | .group d c' b :: r', hc =>
          simp only [eraseToks_cons, TT.erase, List.cons.injEq, Mview.TT.group.injEq] at hc
          obtain ⟨⟨rfl, rfl⟩, rfl⟩ := hc
          obtain ⟨h3, h4⟩ := h2 c' b r' rfl
          refine ⟨fails_inGroup.mpr (.inr ⟨_, _, rfl, .inl ⟨_, _, Mview.kebab_none h3⟩⟩), fails_spread.mpr ?_⟩
          rintro s e r'' he
          simp only [eraseToks_cons, TT.erase, List.cons.injEq, Mview.TT.group.injEq, true_and] at he
          exact h4 ⟨s, e, he.1⟩
        | [], hc => simp at hc
        | .ident _ _ :: _, hc => simp [TT.erase] at hc
        | .punct _ _ _ :: _, hc => simp [TT.erase] at hc
        | .lit _ _ :: _, hc => simp [TT.erase] at hc
    exact attrs_end (.of_eq hfail)

/-! ### tags -/

variable {pp : Mview.PathParser} {lp : PathParser σ pp}

omit [Spans σ] in
theorem pathStart_iff {ts : Toks σ} :
    (peekPunct2 ':' ':' (skip ts) || peekPunct2 ':' ':' ts || peekPunct '<' (skip ts)) = true ↔
      PathStart (eraseToks ts) := by
  rw [← Mview.pathStart_iff, skip_erase, peekPunct2_erase, peekPunct2_erase, peekPunct_erase]

omit [Spans σ] in
theorem path_erased {sc : σ} {ts : Toks σ} {p : Path σ} {rest : Toks σ} (h : lp.run sc ts = .path p rest) :
    pp.run (eraseToks ts) = (some p.erase, eraseToks rest) := by
  rw [← lp.erases sc ts, h]
  rfl

theorem ReadsTag.left {sc : σ} {ts : Toks σ} {is : List (Issue σ)} {tag : Tag σ} {rest : Toks σ}
    (h : ReadsTag lp sc ts is tag rest) : Left ts rest := by
  cases h with
  | path _ h => obtain ⟨u, _, h⟩ := pp.progress _ _ _ (path_erased h); exact ⟨u, h⟩
  | name _ h => exact h.left
  | crash => exact .nil _

omit [Spans σ] in
theorem NoTag.left {sc : σ} {ts : Toks σ} {e : Err} {p : σ} {rest : Toks σ}
    (h : NoTag lp sc ts e p rest) : Left ts rest := by
  cases h with
  | path _ h =>
    have := lp.erases sc ts
    rw [h] at this
    exact pp.suffix _ _ this.symm
  | name => exact .refl _

theorem tag_gives {sc : σ} {ts : Toks σ} {is : List (Issue σ)} {tag : Tag σ} {rest : Toks σ}
    (h : ReadsTag lp sc ts is tag rest) (hl : LexicalToks (eraseToks ts)) :
    Gives (parseTag lp sc ts) is (.ok tag rest) := by
  unfold parseTag
  rw [inp_bind]
  cases h with
  | path hp h =>
    rw [if_pos (pathStart_iff.mpr hp)]
    refine .pthen (p := parsePath lp) (a := _) (r := rest) ?_ (.ret _)
    unfold Yields parsePath
    rw [h]
  | @name run _ _ hp h ht =>
    rw [if_neg (by rw [pathStart_iff]; exact hp)]
    refine (kebab_gives hl h).pbind_nil ?_
    refine Gives.of_eq ?_
    unfold tagOf at ht
    rw [tag_kind, snake_eq (kebabOf_spans h.ne)]
    cases hk : kindOf (kebabOf run).repr <;> rw [hk] at ht <;>
      simp only [Option.map_eq_some_iff, Option.some.injEq] at ht
    case webComponent => rw [← ht]; rfl
    all_goals
      obtain ⟨i, hi, rfl⟩ := ht
      rw [hi]
      rfl
  | @crash run rest _ hp h ht =>
    rw [if_neg (by rw [pathStart_iff]; exact hp)]
    refine (kebab_gives hl h).pbind ?_
    unfold tagOf at ht
    rw [tag_kind, snake_eq (kebabOf_spans h.ne)]
    cases hk : kindOf (kebabOf run).repr <;> rw [hk] at ht <;>
      simp only [Option.map_eq_none_iff, reduceCtorEq] at ht
    all_goals
      rw [ht]
      exact ⟨trivial, fun _ _ h => by cases h⟩

theorem noTag_eq {sc : σ} {ts : Toks σ} {e : Err} {p : σ} {rest : Toks σ} (h : NoTag lp sc ts e p rest) :
    parseTag lp sc ts = .ret [] (.err ⟨e, p⟩ rest) := by
  unfold parseTag
  rw [inp_bind]
  cases h with
  | path hp h =>
    rw [if_pos (pathStart_iff.mpr hp), P.bind_apply]
    unfold parsePath
    rw [h]
    rfl
  | name hp h =>
    rw [if_neg (by rw [pathStart_iff]; exact hp), P.bind_apply, kebab_none h]
    rfl

end Mview.Loc
