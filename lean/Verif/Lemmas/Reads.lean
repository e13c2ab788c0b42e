import Verif.Lemmas.Recover
import Verif.Lemmas.Issues
import Verif.Spec.Reads
/-
Proofs for C39.
-/

namespace Mview
open Lex

/-! ### computations that go through issues and then have a value -/

section
variable {α β : Type}

/-- the computation goes through these issues, and if nothing stops it, it ends with `a` -/
def Gives (x : Out α) (is : List Issue) (a : α) : Prop := Shows x is ∧ ∀ ds b, x = .ret ds b → b = a

theorem Gives.ret (a : α) : Gives (.ret [] a) [] a := ⟨.ret a, fun _ _ h => by cases h; rfl⟩

theorem Gives.of_eq {x : Out α} {a : α} (h : x = .ret [] a) : Gives x [] a := h ▸ .ret a

theorem Gives.bind {x : Out α} {f : α → Out β} {is js : List Issue} {a : α} {b : β}
    (h : Gives x is a) (hf : Gives (f a) js b) : Gives (x.bind f) (is ++ js) b := by
  refine ⟨h.1.bind' fun ds c hc => h.2 ds c hc ▸ hf.1, fun ds c hc => ?_⟩
  cases x with
  | ret es c' =>
    rw [h.2 es c' rfl] at hc
    simp only [Out.bind] at hc
    cases hy : f a <;> rw [hy] at hc <;> simp only [Out.tell, reduceCtorEq] at hc
    cases hc
    exact hf.2 _ _ hy
  | _ => simp [Out.bind] at hc

/-- the macro does not get past these issues -/
def Halts (is : List Issue) : Prop := ∀ ds, verdict is ≠ .errors ds

theorem Gives.halt {x : Out α} {f : α → Out β} {is : List Issue} {a : α} {b : β}
    (h : Gives x is a) (hh : Halts is) : Gives (x.bind f) is b := by
  unfold Halts at hh
  have h1 := h.1
  unfold Gives Shows at *
  cases x with
  | ret ds c =>
    generalize verdict is = v at *
    cases v <;> simp only [Out.Is] at h1
    exact absurd rfl (hh _)
  | abort ds => refine ⟨?_, by simp [Out.bind]⟩; cases hv : verdict is <;> rw [hv] at h1 <;> exact h1
  | panic p => refine ⟨?_, by simp [Out.bind]⟩; cases hv : verdict is <;> rw [hv] at h1 <;> exact h1
  | diverge => refine ⟨?_, by simp [Out.bind]⟩; cases hv : verdict is <;> rw [hv] at h1 <;> exact h1

/-- no value after these issues -/
theorem Gives.any {x : Out α} {is : List Issue} {a b : α} (h : Gives x is a) (hh : Halts is) :
    Gives x is b := by
  refine ⟨h.1, ?_⟩
  rintro ds c rfl
  have h1 := h.1
  unfold Shows at h1
  unfold Halts at hh
  generalize verdict is = v at *
  cases v <;> simp only [Out.Is] at h1
  exact absurd rfl (hh _)

theorem halts_append {is js : List Issue} (h : Halts js) : Halts (is ++ js) := by
  intro ds he
  rw [verdict_append] at he
  unfold Halts at h
  generalize verdict is = v at *
  generalize verdict js = w at *
  cases v <;> cases w <;> simp only [Verdict.seq, Verdict.after, reduceCtorEq] at he
  exact absurd rfl (h _)

theorem halts_stop (d : Diag) : Halts [.stop d] := by intro ds; simp [verdict]
theorem halts_crash : Halts [.crash] := by intro ds; simp [verdict]

theorem Gives.then {x : Out α} {f : α → Out β} {is : List Issue} {a : α} {b : β}
    (h : Gives x [] a) (hf : Gives (f a) is b) : Gives (x.bind f) is b := h.bind hf

theorem Gives.map {x : Out α} {f : α → Out β} {is : List Issue} {a : α} {b : β}
    (h : Gives x is a) (hf : f a = .ret [] b) : Gives (x.bind f) is b := by
  have := h.bind (Gives.of_eq hf)
  rwa [List.append_nil] at this

theorem Gives.emit (d : Diag) : Gives (emit d) [.report d] () := ⟨.emit d, fun _ _ _ => rfl⟩

/-! ### parsers -/

variable {p : P α} {f : α → P β} {ts r : Toks} {is js : List Issue} {a : α} {q : PR β}

theorem Yields.gives {rest : Toks} (h : Yields p ts a rest) : Gives (p ts) [] (.ok a rest) := .of_eq h

theorem Gives.pbind (h : Gives (p ts) is (.ok a r)) (hf : Gives (f a r) js q) :
    Gives ((p >>= f) ts) (is ++ js) q := Gives.bind h hf

theorem Gives.pbind_nil (h : Gives (p ts) is (.ok a r)) (hf : Gives (f a r) [] q) :
    Gives ((p >>= f) ts) is q := by
  have := h.pbind hf
  rwa [List.append_nil] at this

theorem Gives.perr {e : Err} (h : Gives (p ts) is (.err e r)) :
    Gives ((p >>= f) ts) is (.err e r) := Gives.map h rfl

theorem Gives.phalt {q' : PR α} (h : Gives (p ts) is q') (hh : Halts is) :
    Gives ((p >>= f) ts) is q := Gives.halt h hh

/-- nothing happened before -/
theorem Gives.pthen (h : Yields p ts a r) (hf : Gives (f a r) js q) :
    Gives ((p >>= f) ts) js q := by rw [h.bind_eq]; exact hf

/-- nothing happens afterwards -/
theorem Gives.pmap {g : α → β} (h : Gives (p ts) is (.ok a r)) :
    Gives ((p >>= fun a => pure (g a)) ts) is (.ok (g a) r) := Gives.map h rfl

theorem Gives.some (h : Gives (p ts) is (.ok a r)) :
    Gives (rollback p ts) is (.ok (some a) r) := Gives.map h rfl

theorem Gives.none {e : Err} (h : Gives (p ts) is (.err e r)) :
    Gives (rollback p ts) is (.ok none ts) := Gives.map h rfl

theorem Gives.inGroup {d : Delim} {c rest : Toks} (h : Gives (p c) is (.ok a [])) :
    Gives (inGroup d p (.group d c :: rest)) is (.ok a rest) := by
  unfold Mview.inGroup
  rw [if_pos (by simp [peekGroup])]
  refine Gives.then (a := .ok c rest) (.of_eq (by simp [unwrapP, extractGroup, Out.bind, Out.tell])) ?_
  exact Gives.map h rfl

theorem Gives.inGroup_more {d : Delim} {c rest : Toks} {t : TT} (h : Gives (p c) is (.ok a (t :: r))) :
    Gives (Mview.inGroup d p (.group d c :: rest)) is (.err (.extraTokens d) (.group d c :: rest)) := by
  unfold Mview.inGroup
  rw [if_pos (by simp [peekGroup])]
  refine Gives.then (a := .ok c rest) (.of_eq (by simp [unwrapP, extractGroup, Out.bind, Out.tell])) ?_
  exact Gives.map h rfl

theorem Gives.inGroup_err {d : Delim} {c rest : Toks} {e : Err} (h : Gives (p c) is (.err e r)) :
    Gives (Mview.inGroup d p (.group d c :: rest)) is (.err e (.group d c :: rest)) := by
  unfold Mview.inGroup
  rw [if_pos (by simp [peekGroup])]
  refine Gives.then (a := .ok c rest) (.of_eq (by simp [unwrapP, extractGroup, Out.bind, Out.tell])) ?_
  exact Gives.map h rfl

theorem Gives.lift {o : Out α} (h : Gives o is a) : Gives (liftOut o ts) is (.ok a ts) := Gives.map h rfl

theorem Gives.unwrapOrAbort (h : Gives (p ts) is (.ok a r)) :
    Gives (Mview.unwrapOrAbort p ts) is (.ok a r) := Gives.map h rfl

theorem Gives.aborts {e : Err} {q : PR α} (h : Gives (p ts) is (.err e r)) :
    Gives (Mview.unwrapOrAbort p ts) (is ++ [.stop (.synAbort e)]) q := by
  refine Gives.bind h ⟨?_, fun _ _ h => by simp at h⟩
  rfl

end

/-! ### names -/

theorem verdict_reports (ds : List Diag) : verdict (ds.map .report) = .errors ds := by
  induction ds with
  | nil => rfl
  | cons d ds ih => simp [verdict, ih, Verdict.add]

theorem kebab_gives {ts run rest : Toks} (hl : LexicalToks ts) (h : LongestKebab ts run rest) :
    Gives (parseKebab ts) (rawIssues run) (.ok (kebabOf run) rest) := by
  rw [parseKebab_eq, h.kebabSplit hl.head]
  dsimp only
  rw [rawDiags_tail]
  refine ⟨?_, fun _ _ h => by cases h; rfl⟩
  unfold Shows
  rw [show rawIssues run = ((kebabRaws run).map Diag.rawInKebab).map .report by simp [rawIssues],
    verdict_reports]
  rfl

theorem kebab_none {ts : Toks} (h : ¬ NameStart ts) :
    parseKebab ts = .ret [] (.err .expectedKebab ts) := by
  refine kebab_fails fun t ht => ?_
  cases ts with
  | nil => simp at ht
  | cons t' r =>
    simp only [List.head?_cons, Option.some.injEq] at ht
    subst ht
    refine ⟨?_, ?_⟩ <;> rw [← Bool.not_eq_true] <;> intro hx
    · exact h ⟨_, _, rfl, .inl hx⟩
    · exact h ⟨_, _, rfl, .inr hx⟩

theorem LongestKebab.start {ts run rest : Toks} (h : LongestKebab ts run rest) :
    ∃ t r, run = t :: r ∧ ts = t :: (r ++ rest) ∧ (t.isIdent = true ∨ t.isDash = true) := by
  cases run with
  | nil => exact absurd rfl h.kebab.nonempty
  | cons t r => exact ⟨t, r, rfl, h.split, h.kebab.start t rfl⟩

theorem LongestKebab.nameStart {ts run rest : Toks} (h : LongestKebab ts run rest) : NameStart ts := by
  obtain ⟨t, r, _, h2, h3⟩ := h.start
  exact ⟨t, _, h2, h3⟩

/-- a name, or none -/
theorem name_cases {ts : Toks} (hl : LexicalToks ts) :
    (∃ run rest, LongestKebab ts run rest) ∨ ¬ NameStart ts := by
  by_cases h : NameStart ts
  · obtain ⟨t, r, rfl, ht⟩ := h
    exact .inl ⟨_, _, kebabSplit_longest hl.head (kebabSplit_eq hl.head ht)⟩
  · exact .inr h

theorem shortValue_gives {c : Toks} (h : AllName c) :
    Gives (intoBlockValue (kebabOf c)) (nameIssues (kebabText c)) (shortValue c) := by
  have hne : c ≠ [] := h.kebab.nonempty
  refine ⟨(toSnakeIdent_shows (kebabOf_spans hne)).map fun _ => .ret _, fun ds v hv => ?_⟩
  have hd : ds = [] := by
    unfold intoBlockValue at hv
    rw [Out.monad_bind, snake_ident _ (kebabOf_spans hne)] at hv
    dsimp only at hv
    split at hv
    · simp at hv
    · simp at hv; exact hv.1
  subst hd
  exact ((intoBlock_iff hne).mp hv).2

theorem yields_some_punct {c : Char} (s : Spacing) {r : Toks} :
    Yields (rollback (parsePunct c)) (.punct c s :: r) (some ()) r :=
  yields_rollback_some.mpr (yields_punct.mpr ⟨s, rfl⟩)

/-! ### selectors -/

theorem ReadsSels.suffix {ts : Toks} {is : List Issue} {sels : List Selector} {rest : Toks}
    (h : ReadsSels ts is sels rest) : ∃ used, ts = used ++ rest := by
  induction h with
  | cls hn _ ih | id hn _ ih =>
    obtain ⟨u, hu⟩ := ih
    exact ⟨_ :: (_ ++ u), by rw [hn.split, hu]; simp; exact ⟨rfl, rfl⟩⟩
  | done => exact ⟨[], rfl⟩

theorem selectors_give {ts : Toks} {is : List Issue} {sels : List Selector} {rest : Toks}
    (h : ReadsSels ts is sels rest) (hl : LexicalToks ts) : ∀ (fuel : Nat) (vec : List Selector),
    ts.length < fuel → Gives (selectorsLoop fuel vec ts) is (.ok (vec ++ sels) rest) := by
  induction h with
  | @cls s ts run rest is sels left hn _ ih =>
    intro fuel vec hf
    obtain ⟨f, rfl⟩ : ∃ f, fuel = f + 1 := ⟨fuel - 1, by omega⟩
    have hrest : LexicalToks rest := (hn.split ▸ hl.tail).append
    have hlen : rest.length < f := by
      have := congrArg List.length hn.split
      simp only [List.length_append] at this
      simp only [List.length_cons] at hf
      omega
    rw [selectorsLoop]
    have := ih hrest f (vec ++ [.cls (kebabOf run)]) hlen
    rw [List.append_assoc] at this
    refine (Gives.some (a := .cls (kebabOf run)) (r := rest) ?_).pbind this
    unfold parseSelector
    refine .pthen (yields_some_punct s) ?_
    exact (kebab_gives hl.tail hn).pmap
  | @id s ts run rest is sels left hn _ ih =>
    intro fuel vec hf
    obtain ⟨f, rfl⟩ : ∃ f, fuel = f + 1 := ⟨fuel - 1, by omega⟩
    have hrest : LexicalToks rest := (hn.split ▸ hl.tail).append
    have hlen : rest.length < f := by
      have := congrArg List.length hn.split
      simp only [List.length_append] at this
      simp only [List.length_cons] at hf
      omega
    rw [selectorsLoop]
    have := ih hrest f (vec ++ [.id (kebabOf run)]) hlen
    rw [List.append_assoc] at this
    refine (Gives.some (a := .id (kebabOf run)) (r := rest) ?_).pbind this
    unfold parseSelector
    refine .pthen (yields_rollback_none.mpr ⟨fails_punct.mpr (by simp), rfl⟩) ?_
    refine .pthen (yields_some_punct s) ?_
    exact (kebab_gives hl.tail hn).pmap
  | @done ts hd =>
    intro fuel vec hf
    obtain ⟨f, rfl⟩ : ∃ f, fuel = f + 1 := ⟨fuel - 1, by omega⟩
    rw [selectorsLoop, List.append_nil]
    have hfail : Fails parseSelector ts := by
      unfold parseSelector
      by_cases h1 : ∃ s r, ts = .punct '.' s :: r
      · obtain ⟨s, r, rfl⟩ := h1
        refine fails_bind.mpr (.inr ⟨some (), _, yields_some_punct s, ?_⟩)
        exact fails_bind.mpr (.inl ⟨_, _, kebab_none (hd _ _ _ rfl (.inl rfl))⟩)
      · refine fails_bind.mpr (.inr ⟨none, ts, yields_rollback_none.mpr ⟨fails_punct.mpr
          fun s r h => h1 ⟨s, r, h⟩, rfl⟩, ?_⟩)
        by_cases h2 : ∃ s r, ts = .punct '#' s :: r
        · obtain ⟨s, r, rfl⟩ := h2
          refine fails_bind.mpr (.inr ⟨some (), _, yields_some_punct s, ?_⟩)
          exact fails_bind.mpr (.inl ⟨_, _, kebab_none (hd _ _ _ rfl (.inr rfl))⟩)
        · exact fails_bind.mpr (.inr ⟨none, ts, yields_rollback_none.mpr ⟨fails_punct.mpr
            fun s r h => h2 ⟨s, r, h⟩, rfl⟩, fails_fail⟩)
    rw [(rollback_fails hfail).bind_eq]
    exact .ret _

/-! ### attributes -/

theorem ReadsValue.suffix {ts : Toks} {is : List Issue} {v : Value} {rest : Toks}
    (h : ReadsValue ts is v rest) : ∃ used, ts = used ++ rest := by
  cases h with
  | value => exact ⟨_, rfl⟩
  | missing => exact ⟨[], rfl⟩

theorem ReadsEq.suffix {ts : Toks} {is : List Issue} {v : Option Value} {rest : Toks}
    (h : ReadsEq ts is v rest) : ∃ used, ts = used ++ rest := by
  cases h with
  | some h => obtain ⟨u, hu⟩ := h.suffix; exact ⟨_ :: u, by rw [hu]; rfl⟩
  | none => exact ⟨[], rfl⟩

theorem ReadsModifier.suffix {ts : Toks} {m : Option Ident} {rest : Toks}
    (h : ReadsModifier ts m rest) : ∃ used, ts = used ++ rest := by
  cases h with
  | some => exact ⟨[_, _], rfl⟩
  | none => exact ⟨[], rfl⟩

theorem ReadsKey.suffix {ts : Toks} {is : List Issue} {k : KebabOrStr} {rest : Toks}
    (h : ReadsKey ts is k rest) : ∃ used, ts = used ++ rest := by
  cases h with
  | str => exact ⟨[_], rfl⟩
  | name h => exact ⟨_, h.split⟩

theorem reserved_iff {n : Str} : n ∉ reserved ↔ n ∉ strictKeywords ∧ n ∉ reservedKeywords ∧ n ≠ c!"_" := by
  have h1 : ∀ x ∈ reserved, x ∈ strictKeywords ∨ x ∈ reservedKeywords ∨ x = c!"_" := by decide
  have h2 : ∀ x ∈ strictKeywords, x ∈ reserved := by decide
  have h3 : ∀ x ∈ reservedKeywords, x ∈ reserved := by decide
  have h4 : c!"_" ∈ reserved := by decide
  constructor
  · intro h
    exact ⟨fun h' => h (h2 _ h'), fun h' => h (h3 _ h'), fun h' => h (h' ▸ h4)⟩
  · rintro ⟨a, b, c⟩ h
    rcases h1 _ h with h | h | h
    · exact a h
    · exact b h
    · exact c h

theorem wordNext_iff {ts : Toks} : peekIdent ts = true ↔ WordNext ts := by
  unfold WordNext peekIdent
  simp only [← reserved_iff]
  constructor
  · intro h
    split at h
    · rename_i i r
      simp only [Bool.or_eq_true, Bool.not_eq_true', List.contains_eq_mem, decide_eq_false_iff_not] at h
      exact ⟨i, r, rfl, h⟩
    · simp at h
  · rintro ⟨i, r, rfl, h⟩
    simpa using h

theorem value_gives {ts : Toks} {is : List Issue} {v : Value} {rest : Toks}
    (h : ReadsValue ts is v rest) : Gives (parseValueOrEmit ts) is (.ok v rest) := by
  unfold parseValueOrEmit
  cases h with
  | @value v rest he =>
    refine .pthen (yields_rollback_some.mpr (yields_value.mpr ⟨v, rfl, rfl, he⟩)) ?_
    exact .ret _
  | @missing ts help hn hh =>
    refine .pthen (rollback_fails (value_fails_of hn)) ?_
    dsimp only
    rw [inp_bind]
    have : peekIdent ts = help := by
      rw [Bool.eq_iff_iff, wordNext_iff, hh]
    rw [this]
    exact (Gives.lift (Gives.emit _)).pbind (js := []) (.ret _)

/-- the value of an attribute or directive -/
theorem eq_gives {β : Type} {ts : Toks} {is : List Issue} {v : Option Value} {rest : Toks}
    {g : Value → β} {b : β} (h : ReadsEq ts is v rest) :
    Gives ((do
      let eq ← rollback (parsePunct '=')
      match eq with
      | some _ => do
        let v ← parseValueOrEmit
        pure (g v)
      | none => pure b : P β) ts) is (.ok (v.elim b g) rest) := by
  cases h with
  | @some s ts is v rest h =>
    refine .pthen (yields_some_punct s) ?_
    exact (value_gives h).pmap
  | @none ts hn =>
    refine .pthen (rollback_fails (fails_punct.mpr hn)) ?_
    exact .ret _

theorem modifier_yields {ts : Toks} {m : Option Ident} {rest : Toks}
    (h : ReadsModifier ts m rest) : Yields parseModifier ts m rest := by
  unfold parseModifier
  cases h with
  | @some s m rest =>
    exact yields_bind.mpr ⟨some (), _, yields_some_punct s,
      yields_bind.mpr ⟨m, rest, yields_identAny.mpr rfl, by simp⟩⟩
  | none hn =>
    exact yields_bind.mpr ⟨none, _, rollback_fails (fails_punct.mpr hn), by simp⟩

theorem modifier_err {s : Spacing} {rest : Toks} (h : ∀ i r, rest ≠ .ident i :: r) :
    parseModifier (.punct ':' s :: rest) = .ret [] (.err .expectedIdent rest) := by
  unfold parseModifier
  rw [Yields.bind_eq (a := some ()) (yields_some_punct s)]
  dsimp only
  rw [P.bind_apply]
  have : parseIdentAny rest = .ret [] (.err .expectedIdent rest) := by
    unfold parseIdentAny
    split
    · exact absurd rfl (h _ _)
    · rfl
  rw [this]
  rfl

theorem key_gives {ts : Toks} {is : List Issue} {k : KebabOrStr} {rest : Toks}
    (h : ReadsKey ts is k rest) (hl : LexicalToks ts) :
    Gives (parseKebabOrStr ts) is (.ok k rest) := by
  unfold parseKebabOrStr
  cases h with
  | str =>
    refine .pthen (yields_rollback_some.mpr (yields_litStr.mpr rfl)) ?_
    exact .ret _
  | name h =>
    refine .pthen (rollback_fails (litStr_fails ?_)) ?_
    · rintro s r rfl
      obtain ⟨t, r', _, he, ht⟩ := h.start
      simp only [List.cons.injEq] at he
      rw [← he.1] at ht
      simp [TT.isIdent, TT.isDash] at ht
    · exact (kebab_gives hl h).pmap

theorem ReadsKey.not_brace {ts : Toks} {is : List Issue} {k : KebabOrStr} {rest : Toks}
    (h : ReadsKey ts is k rest) : peekGroup .brace ts = false := by
  cases h with
  | str => rfl
  | name h =>
    obtain ⟨t, r', _, he, ht⟩ := h.start
    rw [he]
    exact not_brace_of_starts ht

theorem attr_directive {d : Ident} {s : Spacing} {r : Toks} {is : List Issue} {x : Directive} {rest : Toks}
    (h : Gives (parseDirective (.ident d :: .punct ':' s :: r)) is (.ok x rest)) :
    Gives (parseAttr (.ident d :: .punct ':' s :: r)) is (.ok (.directive x) rest) := by
  unfold parseAttr
  rw [inp_bind, if_pos (by simp [peekIdentAny, skip_ident, peekPunct])]
  exact h.unwrapOrAbort.pmap

theorem attr_directive_abort {d : Ident} {s : Spacing} {r : Toks} {is : List Issue} {e : Err} {rest : Toks}
    {q : PR Attr} (h : Gives (parseDirective (.ident d :: .punct ':' s :: r)) is (.err e rest)) :
    Gives (parseAttr (.ident d :: .punct ':' s :: r)) (is ++ [.stop (.synAbort e)]) q := by
  unfold parseAttr
  rw [inp_bind, if_pos (by simp [peekIdentAny, skip_ident, peekPunct])]
  exact (h.aborts (q := .err e rest)).phalt (halts_append (halts_stop _))

/-- the beginning of a directive -/
theorem directive_start {d : Ident} {s : Spacing} {r : Toks} :
    parseDirective (.ident d :: .punct ':' s :: r) = (if peekGroup .brace r then do
      let k ← parseBracedKebab
      let v ← liftOut (intoBlockValue k)
      let m ← parseModifier
      pure ⟨d, .kebab k, m, some v⟩
    else do
      let key ← parseKebabOrStr
      let m ← parseModifier
      let eq ← rollback (parsePunct '=')
      match eq with
      | some _ => do
        let v ← parseValueOrEmit
        pure ⟨d, key, m, some v⟩
      | none => pure ⟨d, key, m, none⟩ : P Directive) r := by
  unfold parseDirective
  rw [Yields.bind_eq (yields_identAny.mpr rfl), Yields.bind_eq (a := ()) (yields_punct.mpr ⟨s, rfl⟩), inp_bind]
  rfl

theorem braced_gives {c rest : Toks} (hl : LexicalToks (.group .brace c :: rest)) (h : AllName c) :
    Gives (parseBracedKebab (.group .brace c :: rest)) (rawIssues c) (.ok (kebabOf c) rest) :=
  (kebab_gives (hl.group (by decide)) h).inGroup

/-- an attribute that is not a directive -/
theorem attr_kv {ts : Toks} (h : ∀ d s r, ts ≠ .ident d :: .punct ':' s :: r) :
    (peekIdentAny ts && peekPunct ':' (skip ts)) = false := by
  rw [← Bool.not_eq_true, Bool.and_eq_true]
  rintro ⟨h1, h2⟩
  obtain ⟨i, r, rfl⟩ := peekIdentAny_iff.mp h1
  rw [skip_ident] at h2
  obtain ⟨s, r', rfl⟩ := peekPunct_iff.mp h2
  exact h _ _ _ rfl

theorem attr_of_kv {ts : Toks} {is : List Issue} {a : KvAttr} {rest : Toks}
    (hd : ∀ d s r, ts ≠ .ident d :: .punct ':' s :: r) (h : Gives (parseKv ts) is (.ok a rest)) :
    Gives (parseAttr ts) is (.ok (.kv a) rest) := by
  unfold parseAttr
  rw [inp_bind, attr_kv hd, if_neg (by simp)]
  split
  · exact h.pmap
  · exact h.some.pbind_nil (.ret _)

theorem kv_gives {ts run rest : Toks} {js : List Issue} {v : Option Value} {rest' : Toks}
    (hl : LexicalToks ts) (h : LongestKebab ts run rest) (hv : ReadsEq rest js v rest') :
    Gives (parseKv ts) (rawIssues run ++ js) (.ok ⟨kebabOf run, v.getD (.lit (.bool true))⟩ rest') := by
  unfold parseKv
  obtain ⟨t, r', _, he, ht⟩ := h.start
  rw [inp_bind, if_neg (by rw [he, not_brace_of_starts ht]; simp)]
  refine (kebab_gives hl h).pbind ?_
  have := eq_gives (g := fun v => (⟨kebabOf run, v⟩ : KvAttr)) (b := ⟨kebabOf run, Value.newTrue⟩) hv
  have e : v.elim (⟨kebabOf run, Value.newTrue⟩ : KvAttr) (fun v => ⟨kebabOf run, v⟩) =
    ⟨kebabOf run, v.getD (.lit (.bool true))⟩ := by cases v <;> rfl
  rw [e] at this
  exact this

theorem short_gives {c rest : Toks} (hl : LexicalToks (.group .brace c :: rest)) (h : AllName c) :
    Gives (parseKv (.group .brace c :: rest)) (rawIssues c ++ nameIssues (kebabText c))
      (.ok ⟨kebabOf c, shortValue c⟩ rest) := by
  unfold parseKv
  rw [inp_bind, if_pos (by simp [peekGroup])]
  refine (braced_gives hl h).pbind ?_
  exact (shortValue_gives h).lift.pmap

/-- braces that are not a shorthand -/
theorem brace_attr {c rest : Toks} {is : List Issue} {e : Err} {r : Toks}
    (h : Gives (parseBracedKebab (.group .brace c :: rest)) is (.err e r)) :
    Gives (parseAttr (.group .brace c :: rest)) is
      (if peekPunct2 '.' '.' c then .ok (.spread (c.drop 2)) rest
        else .err .noAttribute (.group .brace c :: rest)) := by
  unfold parseAttr
  rw [inp_bind, if_neg (by simp [peekIdentAny]), if_neg (by simp [peekIdent])]
  have hkv : Gives (parseKv (.group .brace c :: rest)) is (.err e r) := by
    unfold parseKv
    rw [inp_bind, if_pos (by simp [peekGroup])]
    exact h.perr
  refine hkv.none.pbind_nil ?_
  dsimp only
  split
  · rename_i hs
    obtain ⟨s, e, rfl⟩ := peekPunct2_iff.mp hs
    rw [Yields.bind_eq (yields_rollback_some.mpr (yields_spread.mpr ⟨s, rfl⟩))]
    exact .ret _
  · rename_i hs
    rw [Yields.bind_eq (rollback_fails (fails_spread.mpr ?_))]
    · exact .ret _
    · rintro s e r he
      simp only [List.cons.injEq, TT.group.injEq, true_and] at he
      rw [he.1] at hs
      simp [peekPunct2] at hs

theorem ReadsAttrs.suffix {ts : Toks} {is : List Issue} {as : List Attr} {rest : Toks}
    (h : ReadsAttrs ts is as rest) : ∃ used, ts = used ++ rest := by
  induction h with
  | short _ _ ih | spread _ ih =>
    obtain ⟨u, hu⟩ := ih
    exact ⟨_ :: u, by rw [hu]; rfl⟩
  | kv hn _ he _ ih =>
    obtain ⟨u, hu⟩ := ih
    obtain ⟨w, hw⟩ := he.suffix
    exact ⟨_ ++ (w ++ u), by rw [hn.split, hw, hu]; simp; rfl⟩
  | dirShort _ hm _ ih =>
    obtain ⟨u, hu⟩ := ih
    obtain ⟨w, hw⟩ := hm.suffix
    exact ⟨_ :: _ :: _ :: (w ++ u), by rw [hw, hu]; simp; exact ⟨rfl, rfl, rfl⟩⟩
  | dir hk hm he _ ih =>
    obtain ⟨u, hu⟩ := ih
    obtain ⟨w, hw⟩ := hm.suffix
    obtain ⟨x, hx⟩ := hk.suffix
    obtain ⟨y, hy⟩ := he.suffix
    exact ⟨_ :: _ :: (x ++ (w ++ (y ++ u))), by rw [hx, hw, hy, hu]; simp; exact ⟨rfl, rfl⟩⟩
  | dirMore | dirNoName | dirNoKey | dirShortNoModifier | dirNoModifier => exact ⟨_, (List.append_nil _).symm⟩
  | brace | done => exact ⟨[], rfl⟩

/-- the loop goes on -/
theorem attrs_step {ts rest left : Toks} {is js : List Issue} {a : Attr} {as : List Attr} {f : Nat}
    {vec : List Attr} (h : Gives (parseAttr ts) is (.ok a rest))
    (ih : Gives (attrsLoop f (vec ++ [a]) rest) js (.ok ((vec ++ [a]) ++ as) left)) :
    Gives (attrsLoop (f + 1) vec ts) (is ++ js) (.ok (vec ++ a :: as) left) := by
  rw [attrsLoop]
  rw [List.append_assoc] at ih
  exact h.some.pbind ih

/-- the macro stops -/
theorem attrs_halt {ts : Toks} {is : List Issue} {q : PR Attr} {f : Nat} {vec : List Attr}
    {q' : PR (List Attr)} (h : Gives (parseAttr ts) is q) (hh : Halts is) :
    Gives (attrsLoop (f + 1) vec ts) is q' := by
  rw [attrsLoop]
  exact Gives.phalt (q' := .ok Option.none ts) (p := rollback parseAttr) (Gives.halt h hh) hh

/-- the loop ends -/
theorem attrs_end {ts : Toks} {is : List Issue} {e : Err} {r : Toks} {f : Nat} {vec : List Attr}
    (h : Gives (parseAttr ts) is (.err e r)) :
    Gives (attrsLoop (f + 1) vec ts) is (.ok vec ts) := by
  rw [attrsLoop]
  exact h.none.pbind_nil (.ret _)

theorem attrs_give {ts : Toks} {is : List Issue} {as : List Attr} {rest : Toks}
    (h : ReadsAttrs ts is as rest) (hl : LexicalToks ts) : ∀ (fuel : Nat) (vec : List Attr),
    ts.length < fuel → Gives (attrsLoop fuel vec ts) is (.ok (vec ++ as) rest) := by
  induction h with
  | @short c rest is as left hn hr ih =>
    intro fuel vec hf
    obtain ⟨f, rfl⟩ : ∃ f, fuel = f + 1 := ⟨fuel - 1, by omega⟩
    rw [← List.append_assoc]
    exact attrs_step (attr_of_kv (by simp) (short_gives hl hn))
      (ih hl.tail f _ (by simp only [List.length_cons] at hf; omega))
  | @spread s e rest is as left hr ih =>
    intro fuel vec hf
    obtain ⟨f, rfl⟩ : ∃ f, fuel = f + 1 := ⟨fuel - 1, by omega⟩
    have hk : ¬ NameStart (.punct '.' .joint :: .punct '.' s :: e) := by
      rintro ⟨t, r, h, ht⟩
      simp only [List.cons.injEq] at h
      rw [← h.1] at ht
      simp [TT.isIdent, TT.isDash] at ht
    have := brace_attr (rest := rest) (Gives.inGroup_err (.of_eq (kebab_none hk)))
    rw [if_pos (by rfl)] at this
    exact attrs_step (is := []) this (ih hl.tail f _ (by simp only [List.length_cons] at hf; omega))
  | @kv ts run rest js v rest' is as left hn hd hv hr ih =>
    intro fuel vec hf
    obtain ⟨f, rfl⟩ : ∃ f, fuel = f + 1 := ⟨fuel - 1, by omega⟩
    rw [← List.append_assoc]
    obtain ⟨u, hu⟩ := hv.suffix
    obtain ⟨t, r', hr1, he, ht⟩ := hn.start
    refine attrs_step (attr_of_kv hd (kv_gives hl hn hv)) (ih ?_ f _ ?_)
    · have h1 : LexicalToks rest := (hn.split ▸ hl).append
      exact (hu ▸ h1).append
    · have h1 := congrArg List.length hn.split
      have h2 := congrArg List.length hu
      rw [hr1] at h1
      simp only [List.length_append, List.length_cons] at h1 h2
      omega
  | @dirShort d s c rest m rest' is as left hn hm hr ih =>
    intro fuel vec hf
    obtain ⟨f, rfl⟩ : ∃ f, fuel = f + 1 := ⟨fuel - 1, by omega⟩
    rw [← List.append_assoc]
    obtain ⟨u, hu⟩ := hm.suffix
    refine attrs_step (attr_directive ?_) (ih ?_ f _ ?_)
    · rw [directive_start, if_pos (by simp [peekGroup])]
      refine (braced_gives hl.tail.tail hn).pbind ?_
      refine (shortValue_gives hn).lift.pbind_nil ?_
      exact (modifier_yields hm).gives.pmap
    · exact (hu ▸ hl.tail.tail.tail).append
    · have h2 := congrArg List.length hu
      simp only [List.length_append, List.length_cons] at h2 hf
      omega
  | @dir d s ts ks key r1 m r2 js v r3 is as left hk hm hv hr ih =>
    intro fuel vec hf
    obtain ⟨f, rfl⟩ : ∃ f, fuel = f + 1 := ⟨fuel - 1, by omega⟩
    rw [← List.append_assoc]
    obtain ⟨u, hu⟩ := hk.suffix
    obtain ⟨w, hw⟩ := hm.suffix
    obtain ⟨x, hx⟩ := hv.suffix
    refine attrs_step (attr_directive ?_) (ih ?_ f _ ?_)
    · rw [directive_start, if_neg (by rw [hk.not_brace]; simp)]
      refine (key_gives hk hl.tail.tail).pbind ?_
      refine .pthen (modifier_yields hm) ?_
      have := eq_gives (g := fun v => (⟨d, key, m, some v⟩ : Directive)) (b := ⟨d, key, m, none⟩) hv
      have e : v.elim (⟨d, key, m, none⟩ : Directive) (fun v => ⟨d, key, m, some v⟩) = ⟨d, key, m, v⟩ := by
        cases v <;> rfl
      rw [e] at this
      exact this
    · have h1 : LexicalToks r1 := (hu ▸ hl.tail.tail).append
      have h2 : LexicalToks r2 := (hw ▸ h1).append
      exact (hx ▸ h2).append
    · have h1 := congrArg List.length hu
      have h2 := congrArg List.length hw
      have h3 := congrArg List.length hx
      simp only [List.length_append, List.length_cons] at h1 h2 h3 hf
      omega
  | @dirMore d s c run t r rest hn =>
    intro fuel vec hf
    obtain ⟨f, rfl⟩ : ∃ f, fuel = f + 1 := ⟨fuel - 1, by omega⟩
    refine attrs_halt (attr_directive_abort (rest := .group .brace c :: rest) (q := .err .badPath []) ?_)
      (halts_append (halts_stop _))
    rw [directive_start, if_pos (by simp [peekGroup])]
    exact (kebab_gives (hl.tail.tail.group (by decide)) hn).inGroup_more.perr
  | @dirNoName d s c rest hn =>
    intro fuel vec hf
    obtain ⟨f, rfl⟩ : ∃ f, fuel = f + 1 := ⟨fuel - 1, by omega⟩
    refine attrs_halt (attr_directive_abort (is := []) (rest := .group .brace c :: rest)
      (q := .err .badPath []) ?_) (halts_stop _)
    rw [directive_start, if_pos (by simp [peekGroup])]
    exact (Gives.inGroup_err (.of_eq (kebab_none hn))).perr
  | @dirNoKey d s ts h1 h2 h3 =>
    intro fuel vec hf
    obtain ⟨f, rfl⟩ : ∃ f, fuel = f + 1 := ⟨fuel - 1, by omega⟩
    refine attrs_halt (attr_directive_abort (is := []) (rest := ts)
      (q := .err .badPath []) ?_) (halts_stop _)
    rw [directive_start, if_neg (by rw [peekGroup_iff]; rintro ⟨x, r, h⟩; exact h3 _ _ h)]
    refine Gives.perr ?_
    unfold parseKebabOrStr
    refine .pthen (rollback_fails (litStr_fails h2)) ?_
    exact Gives.perr (.of_eq (kebab_none h1))
  | @dirShortNoModifier d s c s' rest hn hm =>
    intro fuel vec hf
    obtain ⟨f, rfl⟩ : ∃ f, fuel = f + 1 := ⟨fuel - 1, by omega⟩
    rw [← List.append_assoc]
    refine attrs_halt (attr_directive_abort (rest := rest) (q := .err .badPath []) ?_)
      (halts_append (halts_stop _))
    rw [directive_start, if_pos (by simp [peekGroup])]
    refine (braced_gives hl.tail.tail hn).pbind ?_
    refine (shortValue_gives hn).lift.pbind_nil ?_
    exact Gives.perr (.of_eq (modifier_err hm))
  | @dirNoModifier d s ts ks key s' rest hk hm =>
    intro fuel vec hf
    obtain ⟨f, rfl⟩ : ∃ f, fuel = f + 1 := ⟨fuel - 1, by omega⟩
    refine attrs_halt (attr_directive_abort (rest := rest) (q := .err .badPath []) ?_)
      (halts_append (halts_stop _))
    rw [directive_start, if_neg (by rw [hk.not_brace]; simp)]
    refine (key_gives hk hl.tail.tail).pbind_nil ?_
    exact Gives.perr (.of_eq (modifier_err hm))
  | @brace c run t r rest hn =>
    intro fuel vec hf
    obtain ⟨f, rfl⟩ : ∃ f, fuel = f + 1 := ⟨fuel - 1, by omega⟩
    rw [List.append_nil]
    have := brace_attr (rest := rest) (kebab_gives (hl.group (by decide)) hn).inGroup_more
    rw [if_neg] at this
    · exact attrs_end this
    · intro hp
      obtain ⟨s, e, rfl⟩ := peekPunct2_iff.mp hp
      obtain ⟨t, r', _, he, ht⟩ := hn.start
      simp only [List.cons.injEq] at he
      rw [← he.1] at ht
      simp [TT.isIdent, TT.isDash] at ht
  | @done ts h1 h2 =>
    intro fuel vec hf
    obtain ⟨f, rfl⟩ : ∃ f, fuel = f + 1 := ⟨fuel - 1, by omega⟩
    rw [List.append_nil]
    obtain ⟨e, r, hfail⟩ : Fails parseAttr ts := by
      refine attr_fails (fun t ht => ?_) ?_
      · cases ts with
        | nil => simp at ht
        | cons t' r =>
          simp only [List.head?_cons, Option.some.injEq] at ht
          subst ht
          refine ⟨?_, ?_⟩ <;> rw [← Bool.not_eq_true] <;> intro hx
          · exact h1 ⟨_, _, rfl, .inl hx⟩
          · exact h1 ⟨_, _, rfl, .inr hx⟩
      · rintro c r rfl
        obtain ⟨h3, h4⟩ := h2 c r rfl
        refine ⟨fails_inGroup.mpr (.inr ⟨_, _, rfl, .inl ⟨_, _, kebab_none h3⟩⟩), fails_spread.mpr ?_⟩
        rintro s e r' he
        simp only [List.cons.injEq, TT.group.injEq, true_and] at he
        exact h4 ⟨s, e, he.1⟩
    exact attrs_end (.of_eq hfail)

/-! ### tags -/

theorem skip_afterFirst (ts : Toks) : skip ts = afterFirst ts := rfl

theorem pathStart_iff {ts : Toks} :
    (peekPunct2 ':' ':' (skip ts) || peekPunct2 ':' ':' ts || peekPunct '<' (skip ts)) = true ↔
      PathStart ts := by
  simp only [Bool.or_eq_true, peekPunct2_colons, peekPunct_angle, skip_afterFirst, PathStart]
  constructor
  · rintro ((h | h) | h)
    · exact .inr (.inl h)
    · exact .inl h
    · exact .inr (.inr h)
  · rintro (h | h | h)
    · exact .inl (.inr h)
    · exact .inl (.inl h)
    · exact .inr h

theorem ReadsTag.suffix {pp : PathParser} {ts : Toks} {is : List Issue} {tag : Tag} {rest : Toks}
    (h : ReadsTag pp ts is tag rest) : ∃ used, ts = used ++ rest := by
  cases h with
  | path _ h => obtain ⟨u, _, h⟩ := pp.progress _ _ _ h; exact ⟨u, h⟩
  | name _ h => exact ⟨_, h.split⟩
  | crash => exact ⟨_, (List.append_nil _).symm⟩

theorem NoTag.suffix {pp : PathParser} {ts : Toks} {e : Err} {rest : Toks}
    (h : NoTag pp ts e rest) : ∃ used, ts = used ++ rest := by
  cases h with
  | path _ h => exact pp.suffix _ _ h
  | name => exact ⟨[], rfl⟩

/-- a name that cannot be an identifier -/
theorem snake_crash {k : KebabIdent} (hk : 0 < k.spans) (h : rawIdentOf k.repr = none) :
    ∃ p, k.toSnakeIdent = .panic p := by
  have hraw : rawIdentOf k.repr = if (k.repr.map fun c =>
    if c = '-' then '_' else c) ∈ [c!"_", c!"self", c!"Self", c!"super", c!"crate"] then none
    else some ⟨true, k.repr.map fun c => if c = '-' then '_' else c⟩ := rfl
  rw [hraw] at h
  rw [snake_ident k hk]
  simp only
  split at h
  · rename_i hc
    exact ⟨_, if_pos hc⟩
  · simp at h

theorem tag_gives {pp : PathParser} {ts : Toks} {is : List Issue} {tag : Tag} {rest : Toks}
    (h : ReadsTag pp ts is tag rest) (hl : LexicalToks ts) :
    Gives (parseTag pp ts) is (.ok tag rest) := by
  unfold parseTag
  rw [inp_bind]
  cases h with
  | path hp h =>
    rw [if_pos (pathStart_iff.mpr hp)]
    exact (yields_path.mpr h).gives.pmap
  | name hp h ht =>
    rw [if_neg (by rw [pathStart_iff]; exact hp)]
    refine (kebab_gives hl h).pbind_nil ?_
    exact Gives.of_eq ((tagKind_iff (kebabOf_spans h.kebab.nonempty)).mpr ⟨ht, rfl⟩)
  | @crash run rest _ hp h ht =>
    rw [if_neg (by rw [pathStart_iff]; exact hp)]
    refine (kebab_gives hl h).pbind ?_
    rw [tag_kind]
    unfold tagOf at ht
    have key : rawIdentOf (kebabOf run).repr = none → ∀ (f : Ident → Tag) (q : PR Tag),
        Gives ((do let i ← liftOut (kebabOf run).toSnakeIdent; pure (f i) : P Tag) rest) [.crash] q := by
      intro hr f q
      obtain ⟨p, hp⟩ := snake_crash (kebabOf_spans h.kebab.nonempty) hr
      rw [hp]
      exact ⟨trivial, fun _ _ h => by cases h⟩
    cases hk : kindOf (kebabOf run).repr <;> rw [hk] at ht <;> simp only [Option.map_eq_none_iff, reduceCtorEq] at ht
    · exact key ht _ _
    · exact key ht _ _
    · exact key ht _ _
    · exact key ht _ _

theorem noTag_eq {pp : PathParser} {ts : Toks} {e : Err} {rest : Toks} (h : NoTag pp ts e rest) :
    parseTag pp ts = .ret [] (.err e rest) := by
  unfold parseTag
  rw [inp_bind]
  cases h with
  | path hp h =>
    rw [if_pos (pathStart_iff.mpr hp), P.bind_apply]
    unfold parsePath
    rw [h]
    rfl
  | name hp h =>
    rw [if_neg (by rw [pathStart_iff]; exact hp), P.bind_apply, kebab_none h]
    rfl

/-! ### the end of an element -/

theorem noPipe_iff {ts : Toks} : NoPipe ts ↔ ∀ t ∈ ts, t.isPipe = false := by
  unfold NoPipe
  constructor
  · intro h t ht
    rw [← Bool.not_eq_true]
    intro hp
    obtain ⟨s, rfl⟩ := isPipe_eq hp
    exact h _ ht s rfl
  · rintro h t ht s rfl
    exact absurd (h _ ht) (by simp [TT.isPipe])

/-- `Element::parse` goes on -/
theorem elemTail_start {pp : PathParser} {fuel : Nat} {tag : Tag} {sels : List Selector}
    {attrs : List Attr} {t : TT} {r : Toks} (h : ∀ s, t ≠ .punct ';' s) :
    elemTail pp fuel tag sels attrs (t :: r) =
      (if peekGroup .brace (t :: r) || peekGroup .paren (t :: r) then do
        let children ←
          if peekGroup .brace (t :: r) then inGroup .brace (childrenF pp fuel)
          else inGroup .paren (childrenF pp fuel)
        pure (.mk tag sels attrs none (some children))
      else if peekPunct '|' (t :: r) then do
        let args ← parseClosureArgs
        let ts ← inp
        if peekGroup .brace ts then do
          let children ← inGroup .brace (childrenF pp fuel)
          pure (.mk tag sels attrs (some args) (some children))
        else if peekGroup .paren ts then do
          let children ← inGroup .paren (childrenF pp fuel)
          pure (.mk tag sels attrs (some args) (some children))
        else do
          emitP .expectedChildrenBlock
          pure (.mk tag sels attrs (some args) none)
      else do
        emitP .unknownAttribute
        emitP .childrenNotFound
        pure (.mk tag sels attrs none none) : P Element) (t :: r) := by
  unfold elemTail
  rw [(rollback_fails (fails_punct.mpr (by
    rintro s r' he; simp only [List.cons.injEq] at he; exact h s he.1))).bind_eq]
  dsimp only
  rw [inp_bind, if_neg (by simp [isEmpty])]

/-- closure arguments -/
theorem elemTail_args {pp : PathParser} {fuel : Nat} {tag : Tag} {sels : List Selector}
    {attrs : List Attr} {s s' : Spacing} {args r : Toks} (h : NoPipe args) :
    elemTail pp fuel tag sels attrs (.punct '|' s :: (args ++ .punct '|' s' :: r)) =
      (if peekGroup .brace r then do
        let children ← inGroup .brace (childrenF pp fuel)
        pure (.mk tag sels attrs (some (piped args)) (some children))
      else if peekGroup .paren r then do
        let children ← inGroup .paren (childrenF pp fuel)
        pure (.mk tag sels attrs (some (piped args)) (some children))
      else do
        emitP .expectedChildrenBlock
        pure (.mk tag sels attrs (some (piped args)) none) : P Element) r := by
  rw [elemTail_start (by simp), if_neg (by simp [peekGroup]), if_pos (by simp [peekPunct])]
  have := closure_complete (c := (s, args, s')) (rest := r) (by simpa [argsWf] using noPipe_iff.mp h)
  simp only [argsToks, List.cons_append, List.append_assoc, List.nil_append] at this
  rw [this.bind_eq, inp_bind]
  rfl

/-- closure arguments that are not closed -/
theorem elemTail_unclosed {pp : PathParser} {fuel : Nat} {tag : Tag} {sels : List Selector}
    {attrs : List Attr} {s : Spacing} {args : Toks} (h : NoPipe args) :
    elemTail pp fuel tag sels attrs (.punct '|' s :: args) = .ret [] (.err .closureNotClosed []) := by
  rw [elemTail_start (by simp), if_neg (by simp [peekGroup]), if_pos (by simp [peekPunct])]
  have : parseClosureArgs (.punct '|' s :: args) = .ret [] (.err .closureNotClosed []) := by
    unfold parseClosureArgs
    rw [Yields.bind_eq (a := ()) (yields_punct.mpr ⟨s, rfl⟩), inp_bind]
    exact closureLoop_open _ _ _ (noPipe_iff.mp h) (by omega)
  rw [P.bind_apply, this]
  rfl

theorem ReadsEnd.suffix {pp : PathParser} {ts : Toks} {is : List Issue} {args : Option Toks}
    {block : Option (List Child)} {rest : Toks} (h : ReadsEnd pp ts is args block rest) :
    ∃ used, ts = used ++ rest := by
  cases h with
  | semi => exact ⟨[_], rfl⟩
  | block => exact ⟨[_], rfl⟩
  | @closure s args s' d c =>
    exact ⟨.punct '|' s :: (args ++ [.punct '|' s', .group d c]), by simp⟩
  | nothing => exact ⟨[], rfl⟩
  | @noBlock s args s' =>
    exact ⟨.punct '|' s :: (args ++ [.punct '|' s']), by simp⟩
  | other => exact ⟨[], rfl⟩

/-! ### children -/

theorem ElemStart.suffix {ts r0 : Toks} {b : Bool} (h : ElemStart ts b r0) :
    ∃ used, ts = used ++ r0 := by
  cases h with
  | slot => exact ⟨[_, _], rfl⟩
  | elem => exact ⟨[], rfl⟩

theorem ElemStart.ne {ts r0 : Toks} {b : Bool} (h : ElemStart ts b r0) : ts ≠ [] := by
  cases h <;> simp

theorem noValue_slot {s : Spacing} {r : Toks} :
    NoValue (.ident (plain c!"slot") :: .punct ':' s :: r) := by
  intro v r'
  cases v with
  | lit l => simp [CVal.toks]
  | bool b => cases b <;> simp [CVal.toks, plain]
  | neg s f x => simp [CVal.toks]
  | block x => simp [CVal.toks]
  | bracket p x => cases p <;> simp [CVal.toks]

/-- `Child::parse` of an element or slot -/
theorem childF_start {pp : PathParser} {fuel : Nat} {ts r0 : Toks} {b : Bool} (h : ElemStart ts b r0) :
    childF pp (fuel + 1) ts = (elementF pp fuel >>= fun e => pure (asChild b e)) r0 := by
  rw [childF]
  cases h with
  | @slot s r hs =>
    rw [(rollback_fails (value_fails_of noValue_slot)).bind_eq]
    dsimp only
    rw [inp_bind, if_pos (slotStart_iff.mpr ⟨s, _, rfl, hs⟩),
      (unwrap_kw.mpr rfl : Yields (unwrapP _ (parseKw c!"slot")) _ () _).bind_eq,
      (yields_unwrapP.mpr (yields_punct.mpr ⟨s, rfl⟩) : Yields (unwrapP _ (parsePunct ':')) _ () _).bind_eq]
    rfl
  | @elem i r hv hs =>
    rw [(rollback_fails (value_fails_of hv)).bind_eq]
    dsimp only
    rw [inp_bind, if_neg (by rw [slotStart_iff]; exact hs), if_pos (by simp [peekIdentAny])]
    rfl

/-- the loop goes on -/
theorem children_step {pp : PathParser} {f : Nat} {ts rest : Toks} {is js : List Issue} {c : Child}
    {cs : List Child} (hne : ts ≠ []) (h : Gives (childF pp f ts) is (.ok c rest))
    (ih : Gives (childrenF pp f rest) js (.ok cs [])) :
    Gives (childrenF pp (f + 1) ts) (is ++ js) (.ok (c :: cs) []) := by
  rw [childrenF_ne hne]
  exact h.bind (ih.map rfl)

/-- the loop goes on after a semicolon -/
theorem children_semi {pp : PathParser} {f : Nat} {ts rest : Toks} {is : List Issue} {e : Err}
    {s : Spacing} {cs : List Child} (hne : ts ≠ [])
    (h : Gives (childF pp f ts) [] (.err e (.punct ';' s :: rest)))
    (ih : Gives (childrenF pp f rest) is (.ok cs [])) :
    Gives (childrenF pp (f + 1) ts) (.report .extraSemicolon :: is) (.ok cs []) := by
  rw [childrenF_ne hne]
  refine h.then ?_
  dsimp only
  rw [if_pos (by simp [peekPunct])]
  refine (Gives.emit _).bind ?_
  refine Gives.then (a := .ok () rest) (.of_eq (by simp [unwrapP, parsePunct, Out.bind, Out.tell])) ?_
  exact ih

/-- the loop ends -/
theorem children_stop {pp : PathParser} {f : Nat} {ts rest : Toks} {is : List Issue} {e : Err}
    (hne : ts ≠ []) (h : Gives (childF pp (f + 1) ts) is (.err e rest))
    (hs : ∀ s r, rest ≠ .punct ';' s :: r) :
    Gives (childrenF pp (f + 2) ts) (is ++ [.report (.synError e)]) (.ok [] []) := by
  rw [childrenF_ne hne]
  refine h.bind ?_
  dsimp only
  rw [if_neg (by rw [peekPunct_iff]; rintro ⟨s, r, h⟩; exact hs s r h)]
  refine (Gives.emit _).bind (js := []) ?_
  rw [childrenF]
  exact .ret _

/-- the head of an element -/
theorem element_gives {pp : PathParser} {f : Nat} {r0 r1 r2 r3 : Toks} {ti si ai ei : List Issue}
    {tag : Tag} {sels : List Selector} {attrs : List Attr} {q : PR Element} (hl : LexicalToks r0)
    (ht : ReadsTag pp r0 ti tag r1) (hs : ReadsSels r1 si sels r2) (ha : ReadsAttrs r2 ai attrs r3)
    (he : Gives (elemTail pp f tag sels attrs r3) ei q) :
    Gives (elementF pp (f + 1) r0) (ti ++ (si ++ (ai ++ ei))) q := by
  obtain ⟨u1, h1⟩ := ht.suffix
  obtain ⟨u2, h2⟩ := hs.suffix
  have hl1 : LexicalToks r1 := (h1 ▸ hl).append
  have hl2 : LexicalToks r2 := (h2 ▸ hl1).append
  rw [elementF_eq]
  refine (tag_gives ht hl).pbind ?_
  refine Gives.pbind (a := sels) (r := r2) ?_ ?_
  · unfold parseSelectors
    rw [inp_bind]
    exact selectors_give hs hl1 _ [] (Nat.lt_succ_self _)
  refine Gives.pbind (a := attrs) (r := r3) ?_ he
  unfold parseAttrs
  rw [inp_bind]
  exact attrs_give ha hl2 _ [] (Nat.lt_succ_self _)

theorem ReadsAttrs.lexical {pp : PathParser} {r0 r1 r2 r3 : Toks} {ti si ai : List Issue}
    {tag : Tag} {sels : List Selector} {attrs : List Attr} (hl : LexicalToks r0)
    (ht : ReadsTag pp r0 ti tag r1) (hs : ReadsSels r1 si sels r2) (ha : ReadsAttrs r2 ai attrs r3) :
    LexicalToks r3 := by
  obtain ⟨u1, h1⟩ := ht.suffix
  obtain ⟨u2, h2⟩ := hs.suffix
  obtain ⟨u3, h3⟩ := ha.suffix
  have hl1 : LexicalToks r1 := (h1 ▸ hl).append
  have hl2 : LexicalToks r2 := (h2 ▸ hl1).append
  exact (h3 ▸ hl2).append

theorem ElemStart.lexical {ts r0 : Toks} {b : Bool} (h : ElemStart ts b r0) (hl : LexicalToks ts) :
    LexicalToks r0 := by
  obtain ⟨u, hu⟩ := h.suffix
  exact (hu ▸ hl).append

theorem value_ne {v : CVal} {rest : Toks} : v.toks ++ rest ≠ [] := by
  cases v <;> simp [CVal.toks]
  rename_i p c; cases p <;> simp

/-- what the end of an element gives -/
def EndGives (pp : PathParser) (ts : Toks) (is : List Issue) (args : Option Toks)
    (block : Option (List Child)) (rest : Toks) : Prop :=
  LexicalToks ts → ∃ N, ∀ fuel, N ≤ fuel → ∀ tag sels attrs,
    Gives (elemTail pp fuel tag sels attrs ts) is (.ok (.mk tag sels attrs args block) rest)

/-- what children give -/
def ChildrenGive (pp : PathParser) (ts : Toks) (is : List Issue) (cs : List Child) : Prop :=
  LexicalToks ts → ∃ N, ∀ fuel, N ≤ fuel → Gives (childrenF pp fuel ts) is (.ok cs [])

theorem children_give {pp : PathParser} {ts : Toks} {is : List Issue} {cs : List Child}
    (h : ReadsChildren pp ts is cs) : ChildrenGive pp ts is cs := by
  refine ReadsChildren.rec (motive_1 := fun ts is args block rest _ => EndGives pp ts is args block rest)
    (motive_2 := fun ts is cs _ => ChildrenGive pp ts is cs) ?_ ?_ ?_ ?_ ?_ ?_ ?_ ?_ ?_ ?_ ?_ ?_ ?_ ?_ ?_ h
  · -- `;`
    intro s rest _
    refine ⟨0, fun fuel _ tag sels attrs => ?_⟩
    unfold elemTail
    exact .pthen (yields_some_punct s) (.ret _)
  · -- a block
    intro d c rest is cs hd _ ih hl
    obtain ⟨N, hN⟩ := ih (hl.group hd)
    refine ⟨N, fun fuel hf tag sels attrs => ?_⟩
    rw [elemTail_start (by simp)]
    cases d with
    | bracket => exact absurd rfl hd
    | brace =>
      rw [if_pos (by rfl), if_pos (by rfl)]
      exact (hN fuel hf).inGroup.pmap
    | paren =>
      rw [if_pos (by rfl), if_neg (by simp [peekGroup])]
      exact (hN fuel hf).inGroup.pmap
  · -- closure arguments and a block
    intro s args s' d c rest is cs hp hd _ ih hl
    obtain ⟨N, hN⟩ := ih (hl.tail.append.tail.group hd)
    refine ⟨N, fun fuel hf tag sels attrs => ?_⟩
    rw [elemTail_args hp]
    cases d with
    | bracket => exact absurd rfl hd
    | brace =>
      rw [if_pos (by rfl)]
      exact (hN fuel hf).inGroup.pmap
    | paren =>
      rw [if_neg (by simp [peekGroup]), if_pos (by rfl)]
      exact (hN fuel hf).inGroup.pmap
  · -- nothing
    intro _
    refine ⟨0, fun fuel _ tag sels attrs => ?_⟩
    unfold elemTail
    refine .pthen (rollback_fails (fails_punct.mpr (by simp))) ?_
    dsimp only
    rw [inp_bind, if_pos (by rfl)]
    exact (Gives.lift (Gives.emit _)).pbind (js := []) (.ret _)
  · -- no block
    intro s args s' rest hp hr hl
    refine ⟨0, fun fuel hf tag sels attrs => ?_⟩
    have hg : ∀ d, d ≠ .bracket → ¬ peekGroup d rest = true := by
      intro d hd h
      obtain ⟨x, r, rfl⟩ := peekGroup_iff.mp h
      exact hd (hr _ _ _ rfl)
    rw [elemTail_args hp, if_neg (hg _ (by decide)), if_neg (hg _ (by decide))]
    exact (Gives.lift (Gives.emit _)).pbind (js := []) (.ret _)
  · -- anything else
    intro t r h1 h2 h3 hl
    refine ⟨0, fun fuel hf tag sels attrs => ?_⟩
    have hg : ∀ d, d ≠ .bracket → ¬ peekGroup d (t :: r) = true := by
      intro d hd h
      obtain ⟨x, r, h⟩ := peekGroup_iff.mp h
      simp only [List.cons.injEq] at h
      exact hd (h3 _ _ h.1)
    rw [elemTail_start h1, if_neg (by simp [hg .brace (by decide), hg .paren (by decide)]),
      if_neg (by
        rw [peekPunct_iff]; rintro ⟨s, r, h⟩; simp only [List.cons.injEq] at h; exact h2 s h.1)]
    refine (Gives.lift (Gives.emit _)).pbind (is := [.report .unknownAttribute]) ?_
    exact (Gives.lift (Gives.emit _)).pbind (js := []) (.ret _)
  · -- no children
    intro _
    refine ⟨1, fun fuel hf => ?_⟩
    obtain ⟨f, rfl⟩ : ∃ f, fuel = f + 1 := ⟨fuel - 1, by omega⟩
    rw [childrenF]
    exact .ret _
  · -- a value
    intro v rest is cs he hw _ ih hl
    obtain ⟨N, hN⟩ := ih hl.append
    refine ⟨N + 2, fun fuel hf => ?_⟩
    obtain ⟨f, rfl⟩ : ∃ f, fuel = f + 2 := ⟨fuel - 2, by omega⟩
    refine children_step (is := []) value_ne ?_ (hN _ (by omega))
    rw [childF]
    refine .pthen (yields_rollback_some.mpr (yields_value.mpr ⟨v, rfl, rfl, he⟩)) ?_
    cases v with
    | lit l => cases l <;> first | exact .ret _ | exact absurd hw (by simp [CVal.ChildWf])
    | block x => exact .ret _
    | bracket p x => exact .ret _
    | bool b => exact absurd hw (by simp [CVal.ChildWf])
    | neg s b x => exact absurd hw (by simp [CVal.ChildWf])
  · -- a literal that is not a string
    intro v rest is cs he hw _ ih hl
    obtain ⟨N, hN⟩ := ih hl.append
    refine ⟨N + 2, fun fuel hf => ?_⟩
    obtain ⟨f, rfl⟩ : ∃ f, fuel = f + 2 := ⟨fuel - 2, by omega⟩
    refine children_step (is := [.report .nonStringChild]) value_ne ?_ (hN _ (by omega))
    rw [childF]
    refine .pthen (yields_rollback_some.mpr (yields_value.mpr ⟨v, rfl, rfl, he⟩)) ?_
    have key : ∀ {x : Child}, Gives ((emitP .nonStringChild >>= fun _ => pure x : P Child) rest)
        [.report .nonStringChild] (.ok x rest) := fun {x} =>
      (Gives.lift (Gives.emit _)).pbind (js := []) (.ret _)
    cases v with
    | lit l => cases l <;> first | exact key | exact absurd trivial hw
    | block x => exact absurd trivial hw
    | bracket p x => exact absurd trivial hw
    | bool b => exact key
    | neg s b x => cases b <;> exact key
  · -- an element
    intro ts b r0 ti tag r1 si sels r2 ai attrs r3 ei args block r4 is cs h0 ht hs ha he _ ihe ih hl
    have hl0 := h0.lexical hl
    have hl3 := ReadsAttrs.lexical hl0 ht hs ha
    obtain ⟨M, hM⟩ := ihe hl3
    obtain ⟨u, hu⟩ := he.suffix
    obtain ⟨N, hN⟩ := ih (hu ▸ hl3).append
    refine ⟨M + N + 3, fun fuel hf => ?_⟩
    obtain ⟨f, rfl⟩ : ∃ f, fuel = f + 3 := ⟨fuel - 3, by omega⟩
    have := children_step (pp := pp) (f := f + 2) (c := asChild b (.mk tag sels attrs args block)) h0.ne
      (by rw [childF_start h0]
          exact (element_gives (f := f) hl0 ht hs ha (hM f (by omega) tag sels attrs)).pmap)
      (hN _ (by omega))
    simpa only [List.append_assoc] using this
  · -- closure arguments not closed
    intro ts b r0 ti tag r1 si sels r2 ai attrs s args h0 ht hs ha hp hl
    have hl0 := h0.lexical hl
    refine ⟨3, fun fuel hf => ?_⟩
    obtain ⟨f, rfl⟩ : ∃ f, fuel = f + 3 := ⟨fuel - 3, by omega⟩
    have := children_stop (pp := pp) (f := f + 1) (e := .closureNotClosed) (rest := []) h0.ne
      (by rw [childF_start h0]
          exact (element_gives (f := f) hl0 ht hs ha (.of_eq (elemTail_unclosed hp))).perr) (by simp)
    simpa only [List.append_assoc, List.append_nil, List.nil_append] using this
  · -- no tag before a semicolon
    intro ts b r0 e s rest is cs h0 hn _ ih hl
    have hl0 := h0.lexical hl
    obtain ⟨u, hu⟩ := hn.suffix
    obtain ⟨N, hN⟩ := ih (hu ▸ hl0).append.tail
    refine ⟨N + 3, fun fuel hf => ?_⟩
    obtain ⟨f, rfl⟩ : ∃ f, fuel = f + 3 := ⟨fuel - 3, by omega⟩
    refine children_semi h0.ne (e := e) (s := s) ?_ (hN _ (by omega))
    rw [childF_start h0, elementF_eq]
    exact Gives.perr (Gives.perr (.of_eq (noTag_eq hn)))
  · -- no tag
    intro ts b r0 e rest h0 hn hs hl
    refine ⟨3, fun fuel hf => ?_⟩
    obtain ⟨f, rfl⟩ : ∃ f, fuel = f + 3 := ⟨fuel - 3, by omega⟩
    refine children_stop (is := []) h0.ne (rest := rest) ?_ hs
    rw [childF_start h0, elementF_eq]
    exact Gives.perr (Gives.perr (.of_eq (noTag_eq hn)))
  · -- a semicolon
    intro s rest is cs _ ih hl
    obtain ⟨N, hN⟩ := ih hl.tail
    refine ⟨N + 2, fun fuel hf => ?_⟩
    obtain ⟨f, rfl⟩ : ∃ f, fuel = f + 2 := ⟨fuel - 2, by omega⟩
    refine children_semi (by simp) (e := .invalidChild) (s := s) (.of_eq ?_) (hN _ (by omega))
    exact childF_nothing (by intro v r; cases v <;> simp [CVal.toks]; rename_i p c; cases p <;> simp) (by simp)
  · -- anything else
    intro t r hv hi hs hl
    refine ⟨2, fun fuel hf => ?_⟩
    obtain ⟨f, rfl⟩ : ∃ f, fuel = f + 2 := ⟨fuel - 2, by omega⟩
    refine children_stop (is := []) (by simp) (rest := t :: r) (.of_eq (childF_nothing hv ?_)) ?_
    · rintro i r' h
      simp only [List.cons.injEq] at h
      rw [h.1] at hi
      simp [TT.isIdent] at hi
    · rintro s r' h
      simp only [List.cons.injEq] at h
      exact hs s h.1

end Mview
