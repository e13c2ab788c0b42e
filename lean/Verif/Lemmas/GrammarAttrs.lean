import Verif.Lemmas.Fuel
import Verif.Lemmas.Meaning
import Verif.Props.Names
/-
The parser and the grammar agree: names, values, attributes, selectors, tags.
-/

namespace Mview

/-! ### lexical streams -/

theorem LexicalToks.within {a b : Toks} (h : LexicalToks b) (hw : Within a b) : LexicalToks a := by
  intro i r hi
  refine h i r ?_
  clear h
  induction hw with
  | here => exact hi
  | tail _ ih => exact .tail ih
  | group hd _ ih => exact .group hd ih

theorem LexicalToks.tail {t : TT} {ts : Toks} (h : LexicalToks (t :: ts)) : LexicalToks ts :=
  h.within (.tail (.here _))

theorem LexicalToks.append {a b : Toks} (h : LexicalToks (a ++ b)) : LexicalToks b := by
  induction a with
  | nil => exact h
  | cons t a ih => exact ih h.tail

theorem LexicalToks.group {d : Delim} {inner ts : Toks} (hd : d ≠ .bracket)
    (h : LexicalToks (.group d inner :: ts)) : LexicalToks inner :=
  h.within (.group hd (.here _))

theorem LexicalToks.head {ts : Toks} (h : LexicalToks ts) : HeadLexical ts := by
  rintro i r rfl hi
  have := (h i r (.here _)).2
  simp [hi] at this

/-! ### names -/

theorem nameEnds_iff {ts run rest : Toks} (hl : HeadLexical ts) :
    (ts = run ++ rest ∧ NameEnds run rest) ↔
      kebabSplit ts = some (run, rest) ∧ kebabRaws run = [] := by
  constructor
  · rintro ⟨rfl, h, hr⟩
    exact ⟨h.kebabSplit hl, hr⟩
  · rintro ⟨h, hr⟩
    have := kebabSplit_longest hl h
    have e := this.split
    exact ⟨e, e ▸ this, hr⟩

theorem yields_kebab_split {ts rest : Toks} {k : KebabIdent} :
    Yields parseKebab ts k rest ↔
      ∃ run, kebabSplit ts = some (run, rest) ∧ kebabRaws run = [] ∧ k = kebabOf run := by
  unfold Yields
  rw [parseKebab_eq]
  split
  · rename_i run rest' h
    rw [h, rawDiags_tail]
    simp only [Out.ret.injEq, List.map_eq_nil_iff, PR.ok.injEq, Option.some.injEq, Prod.mk.injEq]
    constructor
    · rintro ⟨h1, rfl, rfl⟩; exact ⟨run, ⟨rfl, rfl⟩, h1, rfl⟩
    · rintro ⟨_, ⟨rfl, rfl⟩, h1, rfl⟩; exact ⟨h1, rfl, rfl⟩
  · rename_i h
    rw [h]
    simp

theorem yields_kebab {ts rest : Toks} {k : KebabIdent} (hl : HeadLexical ts) :
    Yields parseKebab ts k rest ↔ ∃ run, ts = run ++ rest ∧ NameEnds run rest ∧ k = kebabOf run := by
  rw [yields_kebab_split]
  constructor
  · rintro ⟨run, h1, h2, h3⟩
    have := (nameEnds_iff hl).mpr ⟨h1, h2⟩
    exact ⟨run, this.1, this.2, h3⟩
  · rintro ⟨run, h1, h2, h3⟩
    have := (nameEnds_iff hl).mp ⟨h1, h2⟩
    exact ⟨run, this.1, this.2, h3⟩

theorem fails_kebab {ts : Toks} :
    Fails parseKebab ts ↔ ∀ t, ts.head? = some t → t.isIdent = false ∧ t.isDash = false := by
  constructor
  · rintro ⟨e, r, h⟩ t ht
    rw [parseKebab_eq] at h
    split at h
    · simp at h
    · rename_i hn
      unfold kebabSplit at hn
      split at hn
      · simp at hn
      · simp at hn
      · rename_i h1 h2
        cases ts with
        | nil => simp at ht
        | cons x xs =>
          simp only [List.head?_cons, Option.some.injEq] at ht
          subst ht
          cases x with
          | ident i => exact absurd rfl (h1 _ _)
          | punct c s =>
            refine ⟨rfl, ?_⟩
            cases hd : TT.isDash (.punct c s)
            · rfl
            · obtain ⟨s', he⟩ := isDash_eq hd
              rw [he] at h2
              exact absurd rfl (h2 _ _)
          | _ => exact ⟨rfl, rfl⟩
  · intro h
    exact ⟨_, _, Mview.kebab_fails h⟩

/-- A name starts with an identifier or dash. -/
theorem NameEnds.starts {run rest : Toks} (h : NameEnds run rest) :
    ∃ t r, run = t :: r ∧ (t.isIdent = true ∨ t.isDash = true) := by
  have hk := h.1.kebab
  cases run with
  | nil => exact absurd rfl hk.nonempty
  | cons t r => exact ⟨t, r, rfl, hk.start t rfl⟩

/-! ### values -/

/-- `true` and `false` before a bracket are prefixes of the bracket. -/
def CVal.Ends (v : CVal) (rest : Toks) : Prop :=
  ∀ b, v = .bool b → ∀ x r, rest ≠ .group .bracket x :: r

theorem skip_ident (i : Ident) (r : Toks) : skip (.ident i :: r) = r := rfl

theorem value_cases (ts : Toks) :
    (∃ v rest, Yields parseValue ts v rest) ∨ Fails parseValue ts := by
  unfold parseValue
  rw [fails_inp_bind]
  simp only [yields_inp_bind]
  split
  · rename_i h
    obtain ⟨x, r, rfl⟩ := peekGroup_iff.mp h
    exact .inl ⟨_, _, yields_bind.mpr ⟨_, _, yields_unwrapP.mpr (yields_extract.mpr rfl), yields_pure.mpr ⟨rfl, rfl⟩⟩⟩
  · split
    · rename_i h
      rw [Bool.and_eq_true] at h
      obtain ⟨i, r, rfl⟩ := peekIdentAny_iff.mp h.1
      obtain ⟨x, r', h2⟩ := peekGroup_iff.mp h.2
      rw [skip_ident] at h2
      subst h2
      exact .inl ⟨_, _, yields_bind.mpr ⟨_, _, yields_unwrapP.mpr (yields_identAny.mpr rfl),
        yields_bind.mpr ⟨_, _, yields_unwrapP.mpr (yields_extract.mpr rfl), yields_pure.mpr ⟨rfl, rfl⟩⟩⟩⟩
    · split
      · rename_i h
        obtain ⟨x, r, rfl⟩ := peekGroup_iff.mp h
        exact .inl ⟨_, _, yields_bind.mpr ⟨_, _, yields_unwrapP.mpr (yields_extract.mpr rfl), yields_pure.mpr ⟨rfl, rfl⟩⟩⟩
      · split
        · rename_i h
          unfold peekLit at h
          split at h
          · rename_i ds l r hl
            have : ds = [] := by
              unfold parseLit at hl
              repeat' split at hl
              all_goals simp at hl
              all_goals exact hl.1
            subst this
            exact .inl ⟨_, _, yields_bind.mpr ⟨_, _, yields_unwrapP.mpr hl, yields_pure.mpr ⟨rfl, rfl⟩⟩⟩
          · simp at h
        · exact .inr fails_fail

theorem yields_lit {ts rest : Toks} {l : SynLit} : Yields parseLit ts l rest ↔
    (∃ x, ts = .lit x :: rest ∧ l = .tok x) ∨
    (∃ b, ts = .ident (plain (if b then c!"true" else c!"false")) :: rest ∧ l = .bool b) ∨
    (∃ s, ∃ f : Bool, ∃ x, ts = .punct '-' s :: .lit (if f then .float x else .int x) :: rest ∧
      l = .tok (if f then .float ('-' :: x) else .int ('-' :: x))) := by
  unfold Yields parseLit
  split
  · simp only [Out.ret.injEq, true_and, PR.ok.injEq, List.cons.injEq, reduceCtorEq, false_and,
      exists_false, or_false, TT.lit.injEq]
    constructor
    · rintro ⟨rfl, rfl⟩; exact ⟨_, ⟨rfl, rfl⟩, rfl⟩
    · rintro ⟨x, ⟨rfl, rfl⟩, rfl⟩; exact ⟨rfl, rfl⟩
  · rename_i i r
    split
    · rename_i h; subst h
      simp only [Out.ret.injEq, true_and, PR.ok.injEq, List.cons.injEq, reduceCtorEq, false_and,
        exists_false, or_false, false_or, TT.ident.injEq]
      constructor
      · rintro ⟨rfl, rfl⟩; exact ⟨true, by simp⟩
      · rintro ⟨b, ⟨hb, rfl⟩, rfl⟩
        cases b
        · simp at hb
        · simp
    · rename_i h1
      split
      · rename_i h; subst h
        simp only [Out.ret.injEq, true_and, PR.ok.injEq, List.cons.injEq, reduceCtorEq, false_and,
          exists_false, or_false, false_or, TT.ident.injEq]
        constructor
        · rintro ⟨rfl, rfl⟩; exact ⟨false, by simp⟩
        · rintro ⟨b, ⟨hb, rfl⟩, rfl⟩
          cases b
          · simp
          · simp at hb
      · rename_i h2
        simp only [Out.ret.injEq, true_and, reduceCtorEq, List.cons.injEq, false_and,
          exists_false, or_false, false_or, TT.ident.injEq, false_iff, not_exists, not_and]
        rintro b ⟨rfl, _⟩
        cases b
        · exact absurd rfl h2
        · exact absurd rfl h1
  · rename_i s x r
    simp only [Out.ret.injEq, true_and, PR.ok.injEq, List.cons.injEq, reduceCtorEq, false_and,
      exists_false, false_or, TT.punct.injEq, TT.lit.injEq]
    constructor
    · rintro ⟨rfl, rfl⟩; exact ⟨s, false, x, by simp⟩
    · rintro ⟨s', f, x', ⟨_, h, rfl⟩, rfl⟩
      cases f
      · simp at h; simp [h]
      · simp at h
  · rename_i s x r
    simp only [Out.ret.injEq, true_and, PR.ok.injEq, List.cons.injEq, reduceCtorEq, false_and,
      exists_false, false_or, TT.punct.injEq, TT.lit.injEq]
    constructor
    · rintro ⟨rfl, rfl⟩; exact ⟨s, true, x, by simp⟩
    · rintro ⟨s', f, x', ⟨_, h, rfl⟩, rfl⟩
      cases f
      · simp at h
      · simp at h; simp [h]
  · rename_i h1 h2 h3 h4
    simp only [Out.ret.injEq, reduceCtorEq, and_false, false_iff, not_or, not_exists, not_and]
    refine ⟨?_, ?_, ?_⟩
    · rintro x rfl; exact absurd rfl (h1 _ _)
    · rintro b rfl; exact absurd rfl (h2 _ _)
    · rintro s f x rfl
      cases f
      · exact absurd rfl (h3 _ _ _)
      · exact absurd rfl (h4 _ _ _)

theorem peekLit_of_yields {ts rest : Toks} {l : SynLit} (h : Yields parseLit ts l rest) :
    peekLit ts = true := by
  unfold Yields at h
  unfold peekLit
  rw [h]

theorem peekLit_yields {ts : Toks} (h : peekLit ts = true) : ∃ l rest, Yields parseLit ts l rest := by
  unfold peekLit at h
  split at h
  · rename_i ds l r hl
    have : ds = [] := by
      unfold parseLit at hl
      repeat' split at hl
      all_goals simp at hl
      all_goals exact hl.1
    subst this
    exact ⟨_, _, hl⟩
  · simp at h

theorem yields_value {ts rest : Toks} {v : Value} : Yields parseValue ts v rest ↔
    ∃ c : CVal, ts = c.toks ++ rest ∧ v = c.ast ∧ c.Ends rest := by
  constructor
  · intro h
    unfold parseValue at h
    rw [yields_inp_bind] at h
    split at h
    · obtain ⟨x, r, h1, h2⟩ := yields_bind.mp h
      rw [yields_unwrapP, groupTokens, yields_extract] at h1
      rw [yields_pure] at h2
      obtain ⟨rfl, rfl⟩ := h2
      exact ⟨.bracket none x, by simpa [CVal.toks] using h1, rfl, by rintro b ⟨⟩⟩
    · split at h
      · obtain ⟨i, r, h1, h2⟩ := yields_bind.mp h
        obtain ⟨x, r', h3, h4⟩ := yields_bind.mp h2
        rw [yields_unwrapP, yields_identAny] at h1
        rw [yields_unwrapP, groupTokens, yields_extract] at h3
        rw [yields_pure] at h4
        obtain ⟨rfl, rfl⟩ := h4
        subst h3
        exact ⟨.bracket (some i) x, by simpa [CVal.toks] using h1, rfl, by rintro b ⟨⟩⟩
      · split at h
        · obtain ⟨x, r, h1, h2⟩ := yields_bind.mp h
          rw [yields_unwrapP, groupTokens, yields_extract] at h1
          rw [yields_pure] at h2
          obtain ⟨rfl, rfl⟩ := h2
          exact ⟨.block x, by simpa [CVal.toks] using h1, rfl, by rintro b ⟨⟩⟩
        · split at h
          · rename_i hnb _ _
            obtain ⟨l, r, h1, h2⟩ := yields_bind.mp h
            rw [yields_unwrapP, yields_lit] at h1
            rw [yields_pure] at h2
            obtain ⟨rfl, rfl⟩ := h2
            rcases h1 with ⟨x, rfl, rfl⟩ | ⟨b, rfl, rfl⟩ | ⟨s, f, x, rfl, rfl⟩
            · exact ⟨.lit x, rfl, rfl, by rintro b ⟨⟩⟩
            · refine ⟨.bool b, rfl, rfl, ?_⟩
              rintro b' _ x r rfl
              exact hnb rfl
            · exact ⟨.neg s f x, rfl, rfl, by rintro b ⟨⟩⟩
          · exact absurd h yields_fail
  · rintro ⟨c, rfl, rfl, he⟩
    unfold parseValue
    rw [yields_inp_bind]
    cases c with
    | lit l =>
      rw [if_neg (by simp [CVal.toks, peekGroup]), if_neg (by simp [CVal.toks, peekIdentAny]),
        if_neg (by simp [CVal.toks, peekGroup])]
      have : Yields parseLit ((CVal.lit l).toks ++ rest) (.tok l) rest :=
        yields_lit.mpr (.inl ⟨l, rfl, rfl⟩)
      rw [if_pos (peekLit_of_yields this)]
      exact yields_bind.mpr ⟨_, _, yields_unwrapP.mpr this, by simp [CVal.ast]⟩
    | bool b =>
      rw [if_neg (by simp [CVal.toks, peekGroup]), if_neg ?_, if_neg (by simp [CVal.toks, peekGroup])]
      · have : Yields parseLit ((CVal.bool b).toks ++ rest) (.bool b) rest :=
          yields_lit.mpr (.inr (.inl ⟨b, rfl, rfl⟩))
        rw [if_pos (peekLit_of_yields this)]
        exact yields_bind.mpr ⟨_, _, yields_unwrapP.mpr this, by simp [CVal.ast]⟩
      · simp only [CVal.toks, List.cons_append, List.nil_append, skip_ident, Bool.and_eq_true, not_and]
        intro _ hb
        obtain ⟨x, r, hb⟩ := peekGroup_iff.mp hb
        exact he b rfl x r hb
    | neg s f x =>
      have : Yields parseLit ((CVal.neg s f x).toks ++ rest)
          (.tok (if f then .float ('-' :: x) else .int ('-' :: x))) rest :=
        yields_lit.mpr (.inr (.inr ⟨s, f, x, rfl, rfl⟩))
      rw [if_neg (by simp [CVal.toks, peekGroup]), if_neg (by simp [CVal.toks, peekIdentAny]),
        if_neg (by simp [CVal.toks, peekGroup]), if_pos (peekLit_of_yields this)]
      exact yields_bind.mpr ⟨_, _, yields_unwrapP.mpr this, by simp [CVal.ast]⟩
    | block x =>
      rw [if_neg (by simp [CVal.toks, peekGroup]), if_neg (by simp [CVal.toks, peekIdentAny]),
        if_pos (by simp [CVal.toks, peekGroup])]
      exact yields_bind.mpr ⟨_, _, yields_unwrapP.mpr (yields_extract.mpr rfl), by simp [CVal.ast]⟩
    | bracket pfx x =>
      cases pfx with
      | none =>
        rw [if_pos (by simp [CVal.toks, peekGroup])]
        exact yields_bind.mpr ⟨_, _, yields_unwrapP.mpr (yields_extract.mpr rfl), by simp [CVal.ast]⟩
      | some i =>
        rw [if_neg (by simp [CVal.toks, peekGroup]), if_pos (by simp [CVal.toks, peekIdentAny, skip_ident, peekGroup])]
        exact yields_bind.mpr ⟨_, _, yields_unwrapP.mpr (yields_identAny.mpr rfl),
          yields_bind.mpr ⟨_, _, yields_unwrapP.mpr (yields_extract.mpr rfl), by simp [CVal.ast]⟩⟩

theorem fails_value {ts : Toks} :
    Fails parseValue ts ↔ ∀ (c : CVal) rest, ts = c.toks ++ rest → ¬ c.Ends rest := by
  constructor
  · intro h c rest he hend
    exact (yields_value.mpr ⟨c, he, rfl, hend⟩).not_fails h
  · intro h
    rcases value_cases ts with ⟨v, rest, hy⟩ | hf
    · obtain ⟨c, h1, h2, h3⟩ := yields_value.mp hy
      exact absurd h3 (h c rest h1)
    · exact hf

theorem yields_valueOrEmit {ts rest : Toks} {v : Value} :
    Yields parseValueOrEmit ts v rest ↔ Yields parseValue ts v rest := by
  unfold parseValueOrEmit
  rw [yields_bind]
  constructor
  · rintro ⟨o, r, h1, h2⟩
    cases o with
    | some v' =>
      rw [yields_rollback_some] at h1
      simp only [yields_pure] at h2
      rw [h2.1, h2.2]; exact h1
    | none =>
      simp only at h2
      rw [yields_inp_bind, yields_bind] at h2
      obtain ⟨_, _, h2, _⟩ := h2
      exact absurd h2 yields_emitP
  · intro h
    exact ⟨_, _, yields_rollback_some.mpr h, yields_pure.mpr ⟨rfl, rfl⟩⟩

theorem fails_valueOrEmit {ts : Toks} : ¬ Fails parseValueOrEmit ts := by
  unfold parseValueOrEmit
  rw [fails_bind]
  rintro (h | ⟨o, r, h1, h2⟩)
  · exact fails_rollback h
  · cases o with
    | some v => exact fails_pure h2
    | none =>
      simp only at h2
      rw [fails_inp_bind, fails_bind] at h2
      rcases h2 with h2 | ⟨_, _, _, h2⟩
      · exact fails_emitP h2
      · exact fails_pure h2


/-! ### attributes -/

theorem intoBlock_iff {run : Toks} (h : run ≠ []) {v : Value} :
    intoBlockValue (kebabOf run) = .ret [] v ↔ HasIdent run ∧ v = .block [.ident (identOf run)] := by
  unfold intoBlockValue
  rw [Out.monad_bind, snake_ident _ (kebabOf_spans h)]
  have hraw : rawIdentOf (kebabText run) = if ((kebabOf run).repr.map fun c =>
      if c = '-' then '_' else c) ∈ [c!"_", c!"self", c!"Self", c!"super", c!"crate"] then none
      else some ⟨true, (kebabOf run).repr.map fun c => if c = '-' then '_' else c⟩ := rfl
  unfold HasIdent identOf
  rw [hraw]
  split
  · rename_i hc
    simp only [hc, if_true]
    simp [Out.bind]
  · rename_i hc
    simp only [hc, if_false]
    simp [Out.bind, Out.tell, eq_comm]

theorem yields_bracedKebab {ts rest : Toks} {k : KebabIdent} (hl : LexicalToks ts) :
    Yields parseBracedKebab ts k rest ↔
      ∃ run, ts = .group .brace run :: rest ∧ NameEnds run [] ∧ k = kebabOf run := by
  unfold parseBracedKebab
  rw [yields_inGroup]
  constructor
  · rintro ⟨inner, rfl, h⟩
    obtain ⟨run, h1, h2, h3⟩ := (yields_kebab (hl.group (by simp)).head).mp h
    rw [List.append_nil] at h1
    subst h1
    exact ⟨inner, rfl, h2, h3⟩
  · rintro ⟨run, rfl, h2, h3⟩
    exact ⟨run, rfl, (yields_kebab (hl.group (by simp)).head).mpr ⟨run, by simp, h2, h3⟩⟩

theorem parseKv_sound {ts rest : Toks} {a : KvAttr} (hl : LexicalToks ts)
    (h : Yields parseKv ts a rest) :
    ∃ c : CAttr, ts = c.toks ++ rest ∧ c.ast = .kv a ∧ c.Wf rest := by
  unfold parseKv at h
  rw [yields_inp_bind] at h
  split at h
  · obtain ⟨k, r, h1, h2⟩ := yields_bind.mp h
    obtain ⟨v, r', h3, h4⟩ := yields_bind.mp h2
    obtain ⟨run, rfl, hn, rfl⟩ := (yields_bracedKebab hl).mp h1
    obtain ⟨t, ru, he, _⟩ := hn.starts
    rw [yields_liftOut, intoBlock_iff (by simp [he])] at h3
    rw [yields_pure] at h4
    obtain ⟨⟨hi, rfl⟩, rfl⟩ := h3
    obtain ⟨rfl, rfl⟩ := h4
    exact ⟨.short run, rfl, rfl, hn, hi⟩
  · obtain ⟨k, r, h1, h2⟩ := yields_bind.mp h
    obtain ⟨run, rfl, hn, rfl⟩ := (yields_kebab hl.head).mp h1
    obtain ⟨o, r', h3, h4⟩ := yields_bind.mp h2
    cases o with
    | some u =>
      rw [yields_rollback_some, yields_punct] at h3
      obtain ⟨s, rfl⟩ := h3
      obtain ⟨v, r'', h5, h6⟩ := yields_bind.mp h4
      rw [yields_valueOrEmit, yields_value] at h5
      obtain ⟨c, rfl, rfl, _⟩ := h5
      rw [yields_pure] at h6
      obtain ⟨rfl, rfl⟩ := h6
      exact ⟨.full run s c, by simp [CAttr.toks], rfl, hn⟩
    | none =>
      rw [yields_rollback_none] at h3
      obtain ⟨_, rfl⟩ := h3
      rw [yields_pure] at h4
      obtain ⟨rfl, rfl⟩ := h4
      exact ⟨.bare run, rfl, rfl, hn⟩

theorem fails_kv {ts : Toks} : Fails parseKv ts ↔
    if peekGroup .brace ts then Fails parseBracedKebab ts else Fails parseKebab ts := by
  unfold parseKv
  rw [fails_inp_bind]
  split
  · rw [fails_bind]
    constructor
    · rintro (h | ⟨_, _, _, h⟩)
      · exact h
      · rw [fails_bind] at h
        rcases h with h | ⟨_, _, _, h⟩
        · exact absurd h fails_liftOut
        · exact absurd h fails_pure
    · exact .inl
  · rw [fails_bind]
    constructor
    · rintro (h | ⟨_, _, _, h⟩)
      · exact h
      · rw [fails_bind] at h
        rcases h with h | ⟨o, _, _, h⟩
        · exact absurd h fails_rollback
        · cases o with
          | some _ =>
            rw [fails_bind] at h
            rcases h with h | ⟨_, _, _, h⟩
            · exact absurd h fails_valueOrEmit
            · exact absurd h fails_pure
          | none => exact absurd h fails_pure
    · exact .inl

/-- A token that can follow an attribute. -/
def TT.follows : TT → Bool
  | .ident _ => true
  | .punct c _ => c = '-' || c = ';' || c = '|'
  | .group .bracket _ => false
  | .group _ _ => true
  | .lit _ => false

/-- The stream starts with a token that can follow an attribute. -/
def Follows (ts : Toks) : Prop := ∃ t r, ts = t :: r ∧ t.follows = true

theorem Follows.not_punct {ts : Toks} (h : Follows ts) {c : Char} (hc : c ≠ '-' ∧ c ≠ ';' ∧ c ≠ '|') :
    ∀ s r, ts ≠ .punct c s :: r := by
  obtain ⟨t, r, rfl, ht⟩ := h
  rintro s r' he
  simp only [List.cons.injEq] at he
  rw [he.1] at ht
  simp [TT.follows, hc] at ht

theorem Follows.not_bracket {ts : Toks} (h : Follows ts) : ∀ x r, ts ≠ .group .bracket x :: r := by
  obtain ⟨t, r, rfl, ht⟩ := h
  rintro s r' he
  simp only [List.cons.injEq] at he
  rw [he.1] at ht
  simp [TT.follows] at ht

theorem Follows.ends {ts : Toks} (h : Follows ts) (v : CVal) : v.Ends ts :=
  fun _ _ => h.not_bracket

theorem follows_of_starts {t : TT} (h : t.isIdent = true ∨ t.isDash = true) : t.follows = true := by
  rcases h with h | h
  · cases t <;> simp [TT.isIdent] at h; rfl
  · obtain ⟨s, rfl⟩ := isDash_eq h
    simp [TT.follows]

theorem not_brace_of_starts {t : TT} {r : Toks} (h : t.isIdent = true ∨ t.isDash = true) :
    peekGroup .brace (t :: r) = false := by
  rcases h with h | h
  · cases t <;> simp [TT.isIdent] at h; rfl
  · obtain ⟨s, rfl⟩ := isDash_eq h
    rfl

theorem Follows.fails_eq {ts : Toks} (h : Follows ts) : Yields (rollback (parsePunct '=')) ts none ts :=
  yields_rollback_none.mpr ⟨fails_punct.mpr (h.not_punct (by decide)), rfl⟩

theorem parseKv_complete {c : CAttr} {a : KvAttr} {rest : Toks} (hl : LexicalToks (c.toks ++ rest))
    (hf : Follows rest) (ha : c.ast = .kv a) (hw : c.Wf rest) :
    Yields parseKv (c.toks ++ rest) a rest := by
  unfold parseKv
  rw [yields_inp_bind]
  cases c with
  | bare name =>
    obtain ⟨t, r, he, ht⟩ := hw.starts
    rw [if_neg (by simp only [CAttr.toks, he, List.cons_append, not_brace_of_starts ht]; simp)]
    simp only [CAttr.ast, Attr.kv.injEq] at ha
    refine yields_bind.mpr ⟨_, _, (yields_kebab hl.head).mpr ⟨name, rfl, hw, rfl⟩,
      yields_bind.mpr ⟨_, _, hf.fails_eq, yields_pure.mpr ⟨ha.symm, rfl⟩⟩⟩
  | short name =>
    rw [if_pos (by rfl)]
    simp only [CAttr.ast, Attr.kv.injEq] at ha
    obtain ⟨t, r, he, ht⟩ := hw.1.starts
    refine yields_bind.mpr ⟨_, _, (yields_bracedKebab hl).mpr ⟨name, rfl, hw.1, rfl⟩,
      yields_bind.mpr ⟨_, _, yields_liftOut.mpr ⟨(intoBlock_iff (by simp [he])).mpr ⟨hw.2, rfl⟩, rfl⟩,
        yields_pure.mpr ⟨ha.symm, rfl⟩⟩⟩
  | full name s v =>
    obtain ⟨t, r, he, ht⟩ := hw.starts
    have e : (CAttr.full name s v).toks ++ rest = name ++ (.punct '=' s :: v.toks ++ rest) := by
      simp [CAttr.toks]
    rw [e] at hl ⊢
    rw [if_neg (by simp only [he, List.cons_append, not_brace_of_starts ht]; simp)]
    simp only [CAttr.ast, Attr.kv.injEq] at ha
    refine yields_bind.mpr ⟨_, _, (yields_kebab hl.head).mpr ⟨name, rfl, hw, rfl⟩,
      yields_bind.mpr ⟨some (), _, yields_rollback_some.mpr (yields_punct.mpr ⟨s, rfl⟩),
        yields_bind.mpr ⟨_, rest, yields_valueOrEmit.mpr (yields_value.mpr ⟨v, rfl, rfl, hf.ends v⟩),
          yields_pure.mpr ⟨ha.symm, rfl⟩⟩⟩⟩
  | dirShort | dir | spread => simp [CAttr.ast] at ha

theorem modifier_sound {ts rest : Toks} {m : Option Ident} (h : Yields parseModifier ts m rest) :
    ∃ c, ts = modifierToks c ++ rest ∧ m = c.map Prod.snd := by
  unfold parseModifier at h
  obtain ⟨o, r, h1, h2⟩ := yields_bind.mp h
  cases o with
  | some u =>
    rw [yields_rollback_some, yields_punct] at h1
    obtain ⟨s, rfl⟩ := h1
    obtain ⟨i, r', h3, h4⟩ := yields_bind.mp h2
    rw [yields_identAny] at h3
    rw [yields_pure] at h4
    obtain ⟨rfl, rfl⟩ := h4
    subst h3
    exact ⟨some (s, i), rfl, rfl⟩
  | none =>
    rw [yields_rollback_none] at h1
    rw [yields_pure] at h2
    obtain ⟨_, rfl⟩ := h1
    obtain ⟨rfl, rfl⟩ := h2
    exact ⟨none, rfl, rfl⟩

theorem modifier_complete (c : Option (Spacing × Ident)) {rest : Toks}
    (h : ∀ s r, rest ≠ .punct ':' s :: r) :
    Yields parseModifier (modifierToks c ++ rest) (c.map Prod.snd) rest := by
  unfold parseModifier
  cases c with
  | none =>
    exact yields_bind.mpr ⟨none, _, yields_rollback_none.mpr ⟨fails_punct.mpr h, rfl⟩,
      yields_pure.mpr ⟨rfl, rfl⟩⟩
  | some c =>
    obtain ⟨s, i⟩ := c
    exact yields_bind.mpr ⟨some (), _, yields_rollback_some.mpr (yields_punct.mpr ⟨s, rfl⟩),
      yields_bind.mpr ⟨_, _, yields_identAny.mpr rfl, yields_pure.mpr ⟨rfl, rfl⟩⟩⟩

theorem yields_litStr {ts rest : Toks} {s : Str} :
    Yields parseLitStr ts s rest ↔ ts = .lit (.str s) :: rest := by
  unfold parseLitStr
  rw [yields_bind]
  constructor
  · rintro ⟨l, r, h1, h2⟩
    rw [yields_lit] at h1
    split at h2
    · rename_i s'
      rw [yields_pure] at h2
      obtain ⟨rfl, rfl⟩ := h2
      rcases h1 with ⟨x, rfl, h⟩ | ⟨b, rfl, h⟩ | ⟨_, f, x, rfl, h⟩
      · simp at h; simp [h]
      · simp at h
      · cases f <;> simp at h
    · exact absurd h2 yields_fail
  · rintro rfl
    exact ⟨_, _, yields_lit.mpr (.inl ⟨_, rfl, rfl⟩), yields_pure.mpr ⟨rfl, rfl⟩⟩

theorem litStr_fails {ts : Toks} (h : ∀ s r, ts ≠ .lit (.str s) :: r) : Fails parseLitStr ts := by
  unfold parseLitStr
  rw [fails_bind]
  by_cases hp : peekLit ts = true
  · obtain ⟨l, r, hy⟩ := peekLit_yields hp
    refine .inr ⟨l, r, hy, ?_⟩
    split
    · rename_i s
      have := yields_litStr.mp (yields_bind.mpr ⟨_, _, hy, yields_pure.mpr ⟨rfl, rfl⟩⟩)
      exact absurd this (h _ _)
    · exact fails_fail
  · left
    unfold peekLit at hp
    unfold Fails
    unfold parseLit at hp ⊢
    repeat' split
    all_goals first
      | exact ⟨_, _, rfl⟩
      | (exfalso; revert hp; simp_all)

theorem key_sound {ts rest : Toks} {k : KebabOrStr} (hl : LexicalToks ts)
    (h : Yields parseKebabOrStr ts k rest) :
    ∃ c : CKey, ts = c.toks ++ rest ∧ k = c.ast ∧ c.Wf rest := by
  unfold parseKebabOrStr at h
  obtain ⟨o, r, h1, h2⟩ := yields_bind.mp h
  cases o with
  | some s =>
    rw [yields_rollback_some, yields_litStr] at h1
    rw [yields_pure] at h2
    obtain ⟨rfl, rfl⟩ := h2
    exact ⟨.str s, h1, rfl, trivial⟩
  | none =>
    rw [yields_rollback_none] at h1
    obtain ⟨_, rfl⟩ := h1
    obtain ⟨k', r', h3, h4⟩ := yields_bind.mp h2
    obtain ⟨run, rfl, hn, rfl⟩ := (yields_kebab hl.head).mp h3
    rw [yields_pure] at h4
    obtain ⟨rfl, rfl⟩ := h4
    exact ⟨.name run, rfl, rfl, hn⟩

theorem key_complete (c : CKey) {rest : Toks} (hl : LexicalToks (c.toks ++ rest)) (hw : c.Wf rest) :
    Yields parseKebabOrStr (c.toks ++ rest) c.ast rest := by
  unfold parseKebabOrStr
  cases c with
  | str s =>
    exact yields_bind.mpr ⟨some s, _, yields_rollback_some.mpr (yields_litStr.mpr rfl),
      yields_pure.mpr ⟨rfl, rfl⟩⟩
  | name run =>
    have hw : NameEnds run rest := hw
    obtain ⟨t, r, he, ht⟩ := hw.starts
    refine yields_bind.mpr ⟨none, run ++ rest, yields_rollback_none.mpr ⟨litStr_fails ?_, rfl⟩,
      yields_bind.mpr ⟨_, _, (yields_kebab hl.head).mpr ⟨run, rfl, hw, rfl⟩,
        yields_pure.mpr ⟨rfl, rfl⟩⟩⟩
    intro s r' h
    rw [show (CKey.name run).toks = run from rfl, he] at h
    simp only [List.cons_append, List.cons.injEq] at h
    rw [h.1] at ht
    simp [TT.isIdent, TT.isDash] at ht

theorem directive_sound {ts rest : Toks} {d : Directive} (hl : LexicalToks ts)
    (h : Yields parseDirective ts d rest) :
    ∃ c : CAttr, ts = c.toks ++ rest ∧ c.ast = .directive d ∧ c.Wf rest := by
  unfold parseDirective at h
  obtain ⟨name, r1, h1, h0⟩ := yields_bind.mp h
  obtain ⟨_, r2, h2, h9⟩ := yields_bind.mp h0
  clear h h0
  rw [yields_identAny] at h1
  rw [yields_punct] at h2
  obtain ⟨s, rfl⟩ := h2
  subst h1
  have h := h9
  have hl := hl.tail.tail
  rw [yields_inp_bind] at h
  split at h
  · obtain ⟨k, r3, h3, h⟩ := yields_bind.mp h
    obtain ⟨v, r4, h4, h⟩ := yields_bind.mp h
    obtain ⟨m, r5, h5, h⟩ := yields_bind.mp h
    obtain ⟨run, rfl, hn, rfl⟩ := (yields_bracedKebab hl).mp h3
    obtain ⟨t, ru, he, _⟩ := hn.starts
    rw [yields_liftOut, intoBlock_iff (by simp [he])] at h4
    obtain ⟨⟨hi, rfl⟩, rfl⟩ := h4
    obtain ⟨cm, rfl, rfl⟩ := modifier_sound h5
    rw [yields_pure] at h
    obtain ⟨rfl, rfl⟩ := h
    exact ⟨.dirShort name s run cm, by simp [CAttr.toks], rfl, hn, hi⟩
  · obtain ⟨k, r3, h3, h'⟩ := yields_bind.mp h
    obtain ⟨m, r4, h4, h''⟩ := yields_bind.mp h'
    obtain ⟨o, r5, h5, h8⟩ := yields_bind.mp h''
    clear h h' h'' h9
    obtain ⟨ck, rfl, rfl, hw⟩ := key_sound hl h3
    obtain ⟨cm, rfl, rfl⟩ := modifier_sound h4
    cases o with
    | some u =>
      rw [yields_rollback_some, yields_punct] at h5
      obtain ⟨s', rfl⟩ := h5
      obtain ⟨v, r6, h6, h⟩ := yields_bind.mp h8
      rw [yields_valueOrEmit, yields_value] at h6
      obtain ⟨cv, rfl, rfl, _⟩ := h6
      rw [yields_pure] at h
      obtain ⟨rfl, rfl⟩ := h
      exact ⟨.dir name s ck cm (some (s', cv)), by simp [CAttr.toks, eqToks], rfl,
        by simpa [CAttr.Wf, eqToks] using hw⟩
    | none =>
      rw [yields_rollback_none] at h5
      obtain ⟨_, rfl⟩ := h5
      rw [yields_pure] at h8
      obtain ⟨rfl, rfl⟩ := h8
      exact ⟨.dir name s ck cm none, by simp [CAttr.toks, eqToks], rfl,
        by simpa [CAttr.Wf, eqToks] using hw⟩

theorem key_not_brace (c : CKey) {rest : Toks} (hw : c.Wf rest) :
    peekGroup .brace (c.toks ++ rest) = false := by
  cases c with
  | str s => rfl
  | name run =>
    obtain ⟨t, r, he, ht⟩ := NameEnds.starts hw
    simp only [CKey.toks, he, List.cons_append, not_brace_of_starts ht]

theorem directive_complete {c : CAttr} {d : Directive} {rest : Toks}
    (hl : LexicalToks (c.toks ++ rest)) (hf : Follows rest) (ha : c.ast = .directive d)
    (hw : c.Wf rest) : Yields parseDirective (c.toks ++ rest) d rest := by
  unfold parseDirective
  cases c with
  | dirShort name s run m =>
    simp only [CAttr.ast, Attr.directive.injEq] at ha
    obtain ⟨t, r, he, ht⟩ := hw.1.starts
    refine yields_bind.mpr ⟨_, _, yields_identAny.mpr rfl, yields_bind.mpr ⟨(), _,
      yields_punct.mpr ⟨s, rfl⟩, yields_inp_bind.mpr ?_⟩⟩
    rw [if_pos (by rfl)]
    exact yields_bind.mpr ⟨_, _, (yields_bracedKebab hl.tail.tail).mpr ⟨run, rfl, hw.1, rfl⟩,
      yields_bind.mpr ⟨_, _, yields_liftOut.mpr ⟨(intoBlock_iff (by simp [he])).mpr ⟨hw.2, rfl⟩, rfl⟩,
      yields_bind.mpr ⟨_, rest, modifier_complete m (hf.not_punct (by decide)),
        yields_pure.mpr ⟨ha.symm, rfl⟩⟩⟩⟩
  | dir name s key m v =>
    simp only [CAttr.ast, Attr.directive.injEq] at ha
    have hw : key.Wf (modifierToks m ++ eqToks v ++ rest) := hw
    have e : (CAttr.dir name s key m v).toks ++ rest =
      .ident name :: .punct ':' s :: (key.toks ++ (modifierToks m ++ eqToks v ++ rest)) := by
      simp [CAttr.toks]
    rw [e] at hl ⊢
    refine yields_bind.mpr ⟨_, _, yields_identAny.mpr rfl, yields_bind.mpr ⟨(), _,
      yields_punct.mpr ⟨s, rfl⟩, yields_inp_bind.mpr ?_⟩⟩
    rw [if_neg (by rw [key_not_brace key hw]; simp)]
    refine yields_bind.mpr ⟨_, _, key_complete key hl.tail.tail hw, ?_⟩
    rw [List.append_assoc]
    cases v with
    | none =>
      exact yields_bind.mpr ⟨_, rest, modifier_complete m (hf.not_punct (by decide)),
        yields_bind.mpr ⟨none, rest, hf.fails_eq, yields_pure.mpr ⟨ha.symm, rfl⟩⟩⟩
    | some v =>
      obtain ⟨s', v⟩ := v
      exact yields_bind.mpr ⟨_, .punct '=' s' :: (v.toks ++ rest), modifier_complete m (by simp [eqToks]),
        yields_bind.mpr ⟨some (), _, yields_rollback_some.mpr (yields_punct.mpr ⟨s', rfl⟩),
          yields_bind.mpr ⟨_, rest,
            yields_valueOrEmit.mpr (yields_value.mpr ⟨v, rfl, rfl, hf.ends v⟩),
            yields_pure.mpr ⟨ha.symm, rfl⟩⟩⟩⟩
  | bare | short | full | spread => simp [CAttr.ast] at ha

theorem yields_spread {ts rest e : Toks} : Yields parseSpread ts e rest ↔
    ∃ s, ts = .group .brace (.punct '.' .joint :: .punct '.' s :: e) :: rest := by
  unfold parseSpread
  rw [yields_bind]
  constructor
  · rintro ⟨inner, r, h1, h2⟩
    rw [yields_extract] at h1
    split at h2
    · rename_i hp
      obtain ⟨s, r', rfl⟩ := peekPunct2_iff.mp hp
      rw [yields_pure] at h2
      obtain ⟨rfl, rfl⟩ := h2
      exact ⟨s, by simpa using h1⟩
    · exact absurd h2 yields_fail
  · rintro ⟨s, rfl⟩
    refine ⟨_, _, yields_extract.mpr rfl, ?_⟩
    rw [if_pos (by rfl)]
    exact yields_pure.mpr ⟨by simp, rfl⟩

theorem fails_spread {ts : Toks} : Fails parseSpread ts ↔
    ∀ s e r, ts ≠ .group .brace (.punct '.' .joint :: .punct '.' s :: e) :: r := by
  unfold parseSpread
  rw [fails_bind, fails_extract]
  constructor
  · rintro (h | ⟨inner, r, h1, h2⟩) s e r' he
    · exact h _ _ he
    · rw [yields_extract, he] at h1
      simp only [List.cons.injEq, TT.group.injEq, true_and] at h1
      rw [← h1.1, if_pos (by rfl)] at h2
      exact fails_pure h2
  · intro h
    by_cases hp : peekGroup .brace ts = true
    · obtain ⟨x, r, rfl⟩ := peekGroup_iff.mp hp
      refine .inr ⟨x, r, yields_extract.mpr rfl, ?_⟩
      rw [if_neg]
      · exact fails_fail
      · intro h2
        obtain ⟨s, r', rfl⟩ := peekPunct2_iff.mp h2
        exact h _ _ _ rfl
    · exact .inl fun x r he => hp (peekGroup_iff.mpr ⟨_, _, he⟩)

theorem attr_sound {ts rest : Toks} {a : Attr} (hl : LexicalToks ts) (h : Yields parseAttr ts a rest) :
    ∃ c : CAttr, ts = c.toks ++ rest ∧ c.ast = a ∧ c.Wf rest := by
  unfold parseAttr at h
  rw [yields_inp_bind] at h
  split at h
  · obtain ⟨d, r, h1, h2⟩ := yields_bind.mp h
    rw [yields_pure] at h2
    obtain ⟨rfl, rfl⟩ := h2
    exact directive_sound hl (yields_unwrapOrAbort.mp h1)
  · split at h
    · obtain ⟨kv, r, h1, h2⟩ := yields_bind.mp h
      rw [yields_pure] at h2
      obtain ⟨rfl, rfl⟩ := h2
      exact parseKv_sound hl h1
    · obtain ⟨o, r, h1, h2⟩ := yields_bind.mp h
      cases o with
      | some kv =>
        rw [yields_pure] at h2
        obtain ⟨rfl, rfl⟩ := h2
        exact parseKv_sound hl (yields_rollback_some.mp h1)
      | none =>
        rw [yields_rollback_none] at h1
        obtain ⟨_, rfl⟩ := h1
        obtain ⟨o, r', h3, h4⟩ := yields_bind.mp h2
        cases o with
        | some e =>
          rw [yields_rollback_some, yields_spread] at h3
          rw [yields_pure] at h4
          obtain ⟨rfl, rfl⟩ := h4
          obtain ⟨s, rfl⟩ := h3
          exact ⟨.spread s e, rfl, rfl, trivial⟩
        | none => exact absurd h4 yields_fail

theorem yields_attr_kv {ts rest : Toks} {a : KvAttr}
    (hd : (peekIdentAny ts && peekPunct ':' (skip ts)) = false) (h : Yields parseKv ts a rest) :
    Yields parseAttr ts (.kv a) rest := by
  unfold parseAttr
  rw [yields_inp_bind, hd, if_neg (by simp)]
  split
  · exact yields_bind.mpr ⟨_, _, h, yields_pure.mpr ⟨rfl, rfl⟩⟩
  · exact yields_bind.mpr ⟨some a, _, yields_rollback_some.mpr h, yields_pure.mpr ⟨rfl, rfl⟩⟩

/-- A name that is not followed by `:` is not the start of a directive. -/
theorem name_not_directive {run rest : Toks} (h : NameEnds run rest)
    (hr : ∀ s r, rest ≠ .punct ':' s :: r) :
    (peekIdentAny (run ++ rest) && peekPunct ':' (skip (run ++ rest))) = false := by
  rw [Bool.and_eq_false_iff]
  obtain ⟨t, r, rfl, ht⟩ := h.starts
  cases t with
  | ident i =>
    right
    rw [List.cons_append, skip_ident, ← Bool.not_eq_true, peekPunct_iff]
    rintro ⟨s, r', he⟩
    cases r with
    | nil => exact hr _ _ he
    | cons x xs =>
      simp only [List.cons_append, List.cons.injEq] at he
      have := h.1.kebab.tokens x (by simp)
      rw [he.1] at this
      simp [TT.isWord, TT.isDash] at this
  | _ => left; rfl

theorem attr_complete {c : CAttr} {rest : Toks} (hl : LexicalToks (c.toks ++ rest))
    (hf : Follows rest) (hw : c.Wf rest) : Yields parseAttr (c.toks ++ rest) c.ast rest := by
  cases c with
  | bare name =>
    exact yields_attr_kv (name_not_directive hw (hf.not_punct (by decide)))
      (parseKv_complete hl hf rfl hw)
  | short name => exact yields_attr_kv rfl (parseKv_complete hl hf rfl hw)
  | full name s v =>
    refine yields_attr_kv ?_ (parseKv_complete hl hf rfl hw)
    have := name_not_directive hw (by simp)
    simpa [CAttr.toks] using this
  | dirShort name s run m =>
    unfold parseAttr
    rw [yields_inp_bind, if_pos (by rfl)]
    exact yields_bind.mpr ⟨_, _, yields_unwrapOrAbort.mpr (directive_complete hl hf rfl hw),
      yields_pure.mpr ⟨rfl, rfl⟩⟩
  | dir name s key m v =>
    unfold parseAttr
    rw [yields_inp_bind, if_pos (by rfl)]
    exact yields_bind.mpr ⟨_, _, yields_unwrapOrAbort.mpr (directive_complete hl hf rfl hw),
      yields_pure.mpr ⟨rfl, rfl⟩⟩
  | spread s e =>
    unfold parseAttr
    rw [yields_inp_bind, if_neg (by simp [CAttr.toks, peekIdentAny]),
      if_neg (by simp [CAttr.toks, peekIdent])]
    refine yields_bind.mpr ⟨none, _, yields_rollback_none.mpr ⟨fails_kv.mpr ?_, rfl⟩,
      yields_bind.mpr ⟨some e, rest, yields_rollback_some.mpr (yields_spread.mpr ⟨s, rfl⟩),
        yields_pure.mpr ⟨rfl, rfl⟩⟩⟩
    rw [if_pos (by rfl)]
    refine fails_inGroup.mpr (.inr ⟨_, _, rfl, .inl (fails_kebab.mpr ?_)⟩)
    simp [TT.isIdent, TT.isDash]

/-- The attributes end here. -/
theorem attr_fails {ts : Toks} (h1 : ∀ t, ts.head? = some t → t.isIdent = false ∧ t.isDash = false)
    (h2 : ∀ x r, ts = .group .brace x :: r → Fails parseBracedKebab ts ∧ Fails parseSpread ts) :
    Fails parseAttr ts := by
  have hi : peekIdentAny ts = false := by
    rw [← Bool.not_eq_true, peekIdentAny_iff]
    rintro ⟨i, r, rfl⟩
    have := (h1 _ rfl).1
    simp [TT.isIdent] at this
  have hi' : peekIdent ts = false := by
    unfold peekIdent
    split
    · simp [peekIdentAny] at hi
    · rfl
  have hk : Fails parseKv ts := by
    rw [fails_kv]
    split
    · rename_i hb
      obtain ⟨x, r, he⟩ := peekGroup_iff.mp hb
      exact (h2 x r he).1
    · exact fails_kebab.mpr h1
  have hs : Fails parseSpread ts := by
    by_cases hb : peekGroup .brace ts = true
    · obtain ⟨x, r, he⟩ := peekGroup_iff.mp hb
      exact (h2 x r he).2
    · exact fails_spread.mpr fun s e r he => hb (peekGroup_iff.mpr ⟨_, _, he⟩)
  unfold parseAttr
  rw [fails_inp_bind, hi, hi', if_neg (by simp), if_neg (by simp)]
  exact fails_bind.mpr (.inr ⟨none, _, yields_rollback_none.mpr ⟨hk, rfl⟩,
    fails_bind.mpr (.inr ⟨none, _, yields_rollback_none.mpr ⟨hs, rfl⟩, fails_fail⟩)⟩)

theorem attrsLoop_sound : ∀ (fuel : Nat) (vec as : List Attr) (ts rest : Toks), LexicalToks ts →
    Yields (attrsLoop fuel vec) ts as rest →
    ∃ cs : List CAttr, ts = cs.flatMap CAttr.toks ++ rest ∧ as = vec ++ cs.map CAttr.ast ∧
      listWf CAttr.toks CAttr.Wf cs rest := by
  intro fuel
  induction fuel with
  | zero => intro vec as ts rest _ h; simp [Yields, attrsLoop] at h
  | succ fuel ih =>
    intro vec as ts rest hl h
    rw [attrsLoop] at h
    obtain ⟨o, r, h1, h2⟩ := yields_bind.mp h
    cases o with
    | some a =>
      rw [yields_rollback_some] at h1
      obtain ⟨c, rfl, rfl, hw⟩ := attr_sound hl h1
      obtain ⟨cs, rfl, rfl, hws⟩ := ih _ _ _ _ hl.append h2
      exact ⟨c :: cs, by simp, by simp, hw, hws⟩
    | none =>
      rw [yields_rollback_none] at h1
      rw [yields_pure] at h2
      obtain ⟨_, rfl⟩ := h1
      obtain ⟨rfl, rfl⟩ := h2
      exact ⟨[], by simp, by simp, trivial⟩

theorem CAttr.follows {c : CAttr} {rest : Toks} (h : c.Wf rest) :
    ∃ t r, c.toks = t :: r ∧ t.follows = true := by
  cases c with
  | bare name =>
    obtain ⟨t, r, he, ht⟩ := NameEnds.starts h
    exact ⟨t, r, he, follows_of_starts ht⟩
  | short name => exact ⟨_, _, rfl, rfl⟩
  | full name s v =>
    obtain ⟨t, r, he, ht⟩ := NameEnds.starts h
    exact ⟨t, r ++ .punct '=' s :: v.toks, by simp [CAttr.toks, he], follows_of_starts ht⟩
  | dirShort => exact ⟨_, _, rfl, rfl⟩
  | dir => exact ⟨_, _, rfl, rfl⟩
  | spread => exact ⟨_, _, rfl, rfl⟩

theorem attrs_follows {cs : List CAttr} {rest : Toks} (h : listWf CAttr.toks CAttr.Wf cs rest)
    (hf : Follows rest) : Follows (cs.flatMap CAttr.toks ++ rest) := by
  cases cs with
  | nil => exact hf
  | cons c cs =>
    obtain ⟨t, r, he, ht⟩ := CAttr.follows h.1
    exact ⟨t, r ++ (cs.flatMap CAttr.toks ++ rest), by simp [he], ht⟩

theorem attrsLoop_complete : ∀ (cs : List CAttr) (fuel : Nat) (vec : List Attr) (rest : Toks),
    LexicalToks (cs.flatMap CAttr.toks ++ rest) → Follows rest →
    listWf CAttr.toks CAttr.Wf cs rest → Fails parseAttr rest → cs.length < fuel →
    Yields (attrsLoop fuel vec) (cs.flatMap CAttr.toks ++ rest) (vec ++ cs.map CAttr.ast) rest := by
  intro cs
  induction cs with
  | nil =>
    intro fuel vec rest hl hf hw hr hlen
    obtain ⟨f, rfl⟩ : ∃ f, fuel = f + 1 := ⟨fuel - 1, by simp at hlen; omega⟩
    rw [attrsLoop]
    exact yields_bind.mpr ⟨none, _, yields_rollback_none.mpr ⟨hr, rfl⟩,
      yields_pure.mpr ⟨by simp, rfl⟩⟩
  | cons c cs ih =>
    intro fuel vec rest hl hf hw hr hlen
    obtain ⟨f, rfl⟩ : ∃ f, fuel = f + 1 := ⟨fuel - 1, by simp at hlen; omega⟩
    rw [attrsLoop]
    have e : (c :: cs).flatMap CAttr.toks ++ rest = c.toks ++ (cs.flatMap CAttr.toks ++ rest) := by
      simp
    rw [e] at hl ⊢
    refine yields_bind.mpr ⟨some c.ast, _, yields_rollback_some.mpr
      (attr_complete hl (attrs_follows hw.2 hf) hw.1), ?_⟩
    have := ih f (vec ++ [c.ast]) rest hl.append hf hw.2 hr (by simp at hlen; omega)
    simpa using this

theorem attrs_length {cs : List CAttr} {rest : Toks} (h : listWf CAttr.toks CAttr.Wf cs rest) :
    cs.length ≤ (cs.flatMap CAttr.toks).length := by
  induction cs with
  | nil => simp
  | cons c cs ih =>
    obtain ⟨t, r, he, _⟩ := CAttr.follows h.1
    have := ih h.2
    simp only [List.flatMap_cons, List.length_append, List.length_cons, he]
    omega

theorem attrs_sound {ts rest : Toks} {as : List Attr} (hl : LexicalToks ts)
    (h : Yields parseAttrs ts as rest) :
    ∃ cs : List CAttr, ts = cs.flatMap CAttr.toks ++ rest ∧ as = cs.map CAttr.ast ∧
      listWf CAttr.toks CAttr.Wf cs rest := by
  unfold parseAttrs at h
  rw [yields_inp_bind] at h
  simpa using attrsLoop_sound _ _ _ _ _ hl h

theorem attrs_complete {cs : List CAttr} {rest : Toks}
    (hl : LexicalToks (cs.flatMap CAttr.toks ++ rest)) (hf : Follows rest)
    (hw : listWf CAttr.toks CAttr.Wf cs rest) (hr : Fails parseAttr rest) :
    Yields parseAttrs (cs.flatMap CAttr.toks ++ rest) (cs.map CAttr.ast) rest := by
  unfold parseAttrs
  rw [yields_inp_bind]
  have := attrsLoop_complete cs ((cs.flatMap CAttr.toks ++ rest).length + 1) [] rest hl hf hw hr
    (by have := attrs_length hw; simp only [List.length_append]; omega)
  simpa using this

/-! ### selectors -/

theorem selector_sound {ts rest : Toks} {a : Selector} (hl : LexicalToks ts)
    (h : Yields parseSelector ts a rest) :
    ∃ c : CSel, ts = c.toks ++ rest ∧ c.ast = a ∧ c.Wf rest := by
  unfold parseSelector at h
  obtain ⟨o, r, h1, h2⟩ := yields_bind.mp h
  cases o with
  | some u =>
    rw [yields_rollback_some, yields_punct] at h1
    obtain ⟨s, rfl⟩ := h1
    obtain ⟨k, r', h3, h4⟩ := yields_bind.mp h2
    obtain ⟨run, rfl, hn, rfl⟩ := (yields_kebab hl.tail.head).mp h3
    rw [yields_pure] at h4
    obtain ⟨rfl, rfl⟩ := h4
    exact ⟨.cls s run, rfl, rfl, hn⟩
  | none =>
    rw [yields_rollback_none] at h1
    obtain ⟨_, rfl⟩ := h1
    obtain ⟨o, r, h1, h4⟩ := yields_bind.mp h2
    clear h2
    have h2 := h4
    clear h4
    cases o with
    | some u =>
      rw [yields_rollback_some, yields_punct] at h1
      obtain ⟨s, rfl⟩ := h1
      obtain ⟨k, r', h3, h4⟩ := yields_bind.mp h2
      obtain ⟨run, rfl, hn, rfl⟩ := (yields_kebab hl.tail.head).mp h3
      rw [yields_pure] at h4
      obtain ⟨rfl, rfl⟩ := h4
      exact ⟨.id s run, rfl, rfl, hn⟩
    | none => exact absurd h2 yields_fail

theorem selector_complete {c : CSel} {rest : Toks} (hl : LexicalToks (c.toks ++ rest))
    (hw : c.Wf rest) : Yields parseSelector (c.toks ++ rest) c.ast rest := by
  unfold parseSelector
  cases c with
  | cls s name =>
    exact yields_bind.mpr ⟨some (), _, yields_rollback_some.mpr (yields_punct.mpr ⟨s, rfl⟩),
      yields_bind.mpr ⟨_, _, (yields_kebab hl.tail.head).mpr ⟨name, rfl, hw, rfl⟩,
        yields_pure.mpr ⟨rfl, rfl⟩⟩⟩
  | id s name =>
    exact yields_bind.mpr ⟨none, _, yields_rollback_none.mpr ⟨fails_punct.mpr (by simp [CSel.toks]), rfl⟩,
      yields_bind.mpr ⟨some (), _, yields_rollback_some.mpr (yields_punct.mpr ⟨s, rfl⟩),
      yields_bind.mpr ⟨_, _, (yields_kebab hl.tail.head).mpr ⟨name, rfl, hw, rfl⟩,
        yields_pure.mpr ⟨rfl, rfl⟩⟩⟩⟩

theorem selector_fails {ts : Toks} (h1 : ∀ s r, ts ≠ .punct '.' s :: r)
    (h2 : ∀ s r, ts ≠ .punct '#' s :: r) : Fails parseSelector ts := by
  unfold parseSelector
  exact fails_bind.mpr (.inr ⟨none, _, yields_rollback_none.mpr ⟨fails_punct.mpr h1, rfl⟩,
    fails_bind.mpr (.inr ⟨none, _, yields_rollback_none.mpr ⟨fails_punct.mpr h2, rfl⟩, fails_fail⟩)⟩)

theorem selectorsLoop_sound : ∀ (fuel : Nat) (vec as : List Selector) (ts rest : Toks), LexicalToks ts →
    Yields (selectorsLoop fuel vec) ts as rest →
    ∃ cs : List CSel, ts = cs.flatMap CSel.toks ++ rest ∧ as = vec ++ cs.map CSel.ast ∧
      listWf CSel.toks CSel.Wf cs rest := by
  intro fuel
  induction fuel with
  | zero => intro vec as ts rest _ h; simp [Yields, selectorsLoop] at h
  | succ fuel ih =>
    intro vec as ts rest hl h
    rw [selectorsLoop] at h
    obtain ⟨o, r, h1, h2⟩ := yields_bind.mp h
    cases o with
    | some a =>
      rw [yields_rollback_some] at h1
      obtain ⟨c, rfl, rfl, hw⟩ := selector_sound hl h1
      obtain ⟨cs, rfl, rfl, hws⟩ := ih _ _ _ _ hl.append h2
      exact ⟨c :: cs, by simp, by simp, hw, hws⟩
    | none =>
      rw [yields_rollback_none] at h1
      rw [yields_pure] at h2
      obtain ⟨_, rfl⟩ := h1
      obtain ⟨rfl, rfl⟩ := h2
      exact ⟨[], by simp, by simp, trivial⟩

theorem selectorsLoop_complete : ∀ (cs : List CSel) (fuel : Nat) (vec : List Selector) (rest : Toks),
    LexicalToks (cs.flatMap CSel.toks ++ rest) →
    listWf CSel.toks CSel.Wf cs rest → Fails parseSelector rest → cs.length < fuel →
    Yields (selectorsLoop fuel vec) (cs.flatMap CSel.toks ++ rest) (vec ++ cs.map CSel.ast) rest := by
  intro cs
  induction cs with
  | nil =>
    intro fuel vec rest hl hw hr hlen
    obtain ⟨f, rfl⟩ : ∃ f, fuel = f + 1 := ⟨fuel - 1, by simp at hlen; omega⟩
    rw [selectorsLoop]
    exact yields_bind.mpr ⟨none, _, yields_rollback_none.mpr ⟨hr, rfl⟩,
      yields_pure.mpr ⟨by simp, rfl⟩⟩
  | cons c cs ih =>
    intro fuel vec rest hl hw hr hlen
    obtain ⟨f, rfl⟩ : ∃ f, fuel = f + 1 := ⟨fuel - 1, by simp at hlen; omega⟩
    rw [selectorsLoop]
    have e : (c :: cs).flatMap CSel.toks ++ rest = c.toks ++ (cs.flatMap CSel.toks ++ rest) := by
      simp
    rw [e] at hl ⊢
    refine yields_bind.mpr ⟨some c.ast, _, yields_rollback_some.mpr
      (selector_complete hl hw.1), ?_⟩
    have := ih f (vec ++ [c.ast]) rest hl.append hw.2 hr (by simp at hlen; omega)
    simpa using this

theorem CSel.length_pos (c : CSel) : 0 < c.toks.length := by
  cases c <;> simp [CSel.toks]

theorem selectors_length (cs : List CSel) : cs.length ≤ (cs.flatMap CSel.toks).length := by
  induction cs with
  | nil => simp
  | cons c cs ih =>
    have := c.length_pos
    simp only [List.flatMap_cons, List.length_append, List.length_cons]
    omega

theorem selectors_sound {ts rest : Toks} {as : List Selector} (hl : LexicalToks ts)
    (h : Yields parseSelectors ts as rest) :
    ∃ cs : List CSel, ts = cs.flatMap CSel.toks ++ rest ∧ as = cs.map CSel.ast ∧
      listWf CSel.toks CSel.Wf cs rest := by
  unfold parseSelectors at h
  rw [yields_inp_bind] at h
  simpa using selectorsLoop_sound _ _ _ _ _ hl h

theorem selectors_complete {cs : List CSel} {rest : Toks}
    (hl : LexicalToks (cs.flatMap CSel.toks ++ rest))
    (hw : listWf CSel.toks CSel.Wf cs rest) (hf : Follows rest) :
    Yields parseSelectors (cs.flatMap CSel.toks ++ rest) (cs.map CSel.ast) rest := by
  unfold parseSelectors
  rw [yields_inp_bind]
  have := selectorsLoop_complete cs ((cs.flatMap CSel.toks ++ rest).length + 1) [] rest hl hw
    (selector_fails (hf.not_punct (by decide)) (hf.not_punct (by decide)))
    (by have := selectors_length cs; simp only [List.length_append]; omega)
  simpa using this

end Mview
