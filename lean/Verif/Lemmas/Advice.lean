import Verif.Spec.Advice
import Verif.Lemmas.Rewrites
import Verif.Lemmas.Reads
import Verif.Lemmas.Pieces
/-
Readings with a changed tail: how the beginning of an element is read depends on the next token only.
-/

namespace Mview
open Lex

variable {pp : PathParser}

/-! ### names -/

theorem longest_stops {t : TT} {r rest : Toks} : LongestKebab (t :: r ++ rest) (t :: r) rest ↔
    IsKebab (t :: r) ∧ Stops (endsWord t.isWord r) rest := by
  constructor
  · intro h
    have hm := munch_is_longest (h.kebab.start t rfl) (r ++ rest)
    obtain ⟨h1, h2⟩ := LongestKebab.unique h hm
    have := munch_rest_stops t.isWord (r ++ rest)
    simp only [List.cons.injEq, true_and] at h1
    rw [← h1, ← h2] at this
    exact ⟨h.kebab, this⟩
  · rintro ⟨hk, hs⟩
    have hm := munch_is_longest (hk.start t rfl) (r ++ rest)
    rwa [munch_append_of ((isKebab_cons_iff t r).mp hk).2 hs] at hm

theorem LongestKebab.softer {run x y : Toks} (h : LongestKebab (run ++ x) run x) (hs : Softer x y) :
    LongestKebab (run ++ y) run y := by
  cases run with
  | nil => exact absurd rfl h.kebab.nonempty
  | cons t r =>
    obtain ⟨h1, h2⟩ := longest_stops.mp h
    exact longest_stops.mpr ⟨h1, hs _ h2⟩

theorem LongestKebab.split_at {ts run rest : Toks} (h : LongestKebab ts run rest) :
    ts = run ++ rest ∧ LongestKebab (run ++ rest) run rest := by
  have e := h.split
  exact ⟨e, by rw [← e]; exact h⟩

/-! ### the next token -/

/-- The same token, but for the content of groups. -/
inductive TT.Kin : TT → TT → Prop
  | refl (t : TT) : TT.Kin t t
  | group (d : Delim) (c c' : Toks) : TT.Kin (.group d c) (.group d c')

/-- `l` is not a name; `l'` starts with `;` or as `l`. -/
structure Swap (l l' : Toks) : Prop where
  start : ¬ NameStart l
  next : (∃ s r, l' = .punct ';' s :: r) ∨ ∃ t t' r r', l = t :: r ∧ l' = t' :: r' ∧ t.Kin t'
  calm : ∀ c s r, l' = .punct c s :: r → c = ';' ∨ c = '|'

section
variable {u l l' : Toks}

theorem Swap.softer (h : Swap l l') : Softer (u ++ l) (u ++ l') := by
  cases u with
  | cons t u => exact .append (by simp)
  | nil =>
    rcases h.next with ⟨s, r, rfl⟩ | ⟨t, t', r, r', rfl, rfl, hk⟩
    · exact .of_neither rfl rfl
    · cases hk with
      | refl => exact .of_head (x := [])
      | group d c c' => exact .of_neither rfl rfl

theorem Swap.punct (h : Swap l l') {c : Char} (hc : c ≠ ';') {s : Spacing} {r : Toks}
    (he : u ++ l' = .punct c s :: r) : ∃ s r, u ++ l = .punct c s :: r := by
  cases u with
  | cons t u =>
    simp only [List.cons_append, List.cons.injEq] at he
    exact ⟨s, u ++ l, by rw [← he.1]; rfl⟩
  | nil =>
    simp only [List.nil_append] at he ⊢
    subst he
    rcases h.next with ⟨s', r', h'⟩ | ⟨t, t', r1, r2, rfl, h', hk⟩
    · simp only [List.cons.injEq, TT.punct.injEq] at h'
      exact absurd h'.1.1 hc
    · simp only [List.cons.injEq] at h'
      obtain ⟨rfl, rfl⟩ := h'
      cases hk
      exact ⟨_, _, rfl⟩

theorem Swap.bracket (h : Swap l l') {x r : Toks}
    (he : u ++ l' = .group .bracket x :: r) : ∃ x r, u ++ l = .group .bracket x :: r := by
  cases u with
  | cons t u =>
    simp only [List.cons_append, List.cons.injEq] at he
    exact ⟨x, u ++ l, by rw [← he.1]; rfl⟩
  | nil =>
    simp only [List.nil_append] at he ⊢
    subst he
    rcases h.next with ⟨s', r', h'⟩ | ⟨t, t', r1, r2, rfl, h', hk⟩
    · simp at h'
    · simp only [List.cons.injEq] at h'
      obtain ⟨rfl, rfl⟩ := h'
      cases hk <;> exact ⟨_, _, rfl⟩

theorem Swap.lit (h : Swap l l') {x : Lit} {r : Toks}
    (he : u ++ l' = .lit x :: r) : ∃ r, u ++ l = .lit x :: r := by
  cases u with
  | cons t u =>
    simp only [List.cons_append, List.cons.injEq] at he
    exact ⟨u ++ l, by rw [← he.1]; rfl⟩
  | nil =>
    simp only [List.nil_append] at he ⊢
    subst he
    rcases h.next with ⟨s', r', h'⟩ | ⟨t, t', r1, r2, rfl, h', hk⟩
    · simp at h'
    · simp only [List.cons.injEq] at h'
      obtain ⟨rfl, rfl⟩ := h'
      cases hk
      exact ⟨_, rfl⟩

theorem Swap.not_ident (h : Swap l l') {i : Ident} {r : Toks} : l' ≠ .ident i :: r := by
  rintro rfl
  rcases h.next with ⟨s', r', h'⟩ | ⟨t, t', r1, r2, rfl, h', hk⟩
  · simp at h'
  · simp only [List.cons.injEq] at h'
    obtain ⟨rfl, rfl⟩ := h'
    cases hk
    exact h.start ⟨_, _, rfl, .inl rfl⟩

theorem Swap.not_dash (h : Swap l l') {s : Spacing} {r : Toks} : l' ≠ .punct '-' s :: r := by
  rintro rfl
  rcases h.next with ⟨s', r', h'⟩ | ⟨t, t', r1, r2, rfl, h', hk⟩
  · simp at h'
  · simp only [List.cons.injEq] at h'
    obtain ⟨rfl, rfl⟩ := h'
    cases hk
    exact h.start ⟨_, _, rfl, .inr rfl⟩

theorem Swap.not_name (h : Swap l l') : ¬ NameStart l' := by
  rintro ⟨t, r, rfl, ht | ht⟩
  · cases t <;> simp [TT.isIdent] at ht
    exact h.not_ident rfl
  · obtain ⟨s, rfl⟩ := isDash_eq ht
    exact h.not_dash rfl

theorem Swap.brace (h : Swap l l') {x r : Toks}
    (he : u ++ l' = .group .brace x :: r) : ∃ x r, u ++ l = .group .brace x :: r := by
  cases u with
  | cons t u =>
    simp only [List.cons_append, List.cons.injEq] at he
    exact ⟨x, u ++ l, by rw [← he.1]; rfl⟩
  | nil =>
    simp only [List.nil_append] at he ⊢
    subst he
    rcases h.next with ⟨s', r', h'⟩ | ⟨t, t', r1, r2, rfl, h', hk⟩
    · simp at h'
    · simp only [List.cons.injEq] at h'
      obtain ⟨rfl, rfl⟩ := h'
      cases hk <;> exact ⟨_, _, rfl⟩

theorem Swap.noValue (h : Swap l l') (hn : NoValue (u ++ l)) : NoValue (u ++ l') := by
  intro v r he
  cases v with
  | lit x =>
    obtain ⟨r', h'⟩ := h.lit he
    exact hn (.lit x) r' h'
  | bool b =>
    cases u with
    | nil => exact h.not_ident he
    | cons t u =>
      simp only [CVal.toks, List.cons_append, List.cons.injEq] at he
      exact hn (.bool b) (u ++ l) (by simp [CVal.toks, he.1])
  | neg s f x =>
    cases u with
    | nil => exact h.not_dash he
    | cons t u =>
      simp only [CVal.toks, List.cons_append, List.nil_append, List.cons.injEq] at he
      obtain ⟨r', h'⟩ := h.lit he.2
      exact hn (.neg s f x) r' (by simp [CVal.toks, he.1, h'])
  | block x =>
    obtain ⟨x', r', h'⟩ := h.brace he
    exact hn (.block x') r' h'
  | bracket p x =>
    cases p with
    | none =>
      obtain ⟨x', r', h'⟩ := h.bracket he
      exact hn (.bracket none x') r' h'
    | some p =>
      cases u with
      | nil => exact h.not_ident he
      | cons t u =>
        simp only [CVal.toks, List.cons_append, List.nil_append, List.cons.injEq] at he
        obtain ⟨x', r', h'⟩ := h.bracket he.2
        exact hn (.bracket (some p) x') r' (by simp [CVal.toks, he.1, h'])

theorem Swap.word (h : Swap l l') : WordNext (u ++ l') ↔ WordNext (u ++ l) := by
  cases u with
  | nil =>
    constructor
    · rintro ⟨i, r, he, _⟩; exact absurd he h.not_ident
    · rintro ⟨i, r, he, _⟩; exact absurd ⟨_, _, he, .inl rfl⟩ h.start
  | cons t u =>
    constructor
    · rintro ⟨i, r, he, hi⟩
      simp only [List.cons_append, List.cons.injEq] at he
      exact ⟨i, u ++ l, by simp [he.1], hi⟩
    · rintro ⟨i, r, he, hi⟩
      simp only [List.cons_append, List.cons.injEq] at he
      exact ⟨i, u ++ l', by simp [he.1], hi⟩

/-- What comes before `l` is read in the same way before `l'`. -/
structure Follow (l l' : Toks) : Prop where
  softer : ∀ u, Softer (u ++ l) (u ++ l')
  punct : ∀ u c s r, c ≠ ';' → u ++ l' = .punct c s :: r → ∃ s r, u ++ l = .punct c s :: r
  bracket : ∀ u x r, u ++ l' = .group .bracket x :: r → ∃ x r, u ++ l = .group .bracket x :: r
  noValue : ∀ u, NoValue (u ++ l) → NoValue (u ++ l')
  word : ∀ u, WordNext (u ++ l') ↔ WordNext (u ++ l)
  sels_end : ∀ u, (∀ c s r, u ++ l = .punct c s :: r → c = '.' ∨ c = '#' → ¬ NameStart r) →
    ∀ c s r, u ++ l' = .punct c s :: r → c = '.' ∨ c = '#' → ¬ NameStart r

theorem Follow.prefix (h : Follow l l') (v : Toks) : Follow (v ++ l) (v ++ l') where
  softer u := by rw [← List.append_assoc, ← List.append_assoc]; exact h.softer _
  punct u c s r hc := by rw [← List.append_assoc, ← List.append_assoc]; exact h.punct _ c s r hc
  bracket u x r := by rw [← List.append_assoc, ← List.append_assoc]; exact h.bracket _ x r
  noValue u := by rw [← List.append_assoc, ← List.append_assoc]; exact h.noValue _
  word u := by rw [← List.append_assoc, ← List.append_assoc]; exact h.word _
  sels_end u := by rw [← List.append_assoc, ← List.append_assoc]; exact h.sels_end _

/-! ### attributes -/

theorem eq_swap (h : Follow l l') {x : Toks} {js : List Issue} {v : Option Value}
    (hr : ReadsEq x js v (u ++ l)) : ∃ w, x = w ++ (u ++ l) ∧ ReadsEq (w ++ (u ++ l')) js v (u ++ l') ∧
      (∀ t r, w = t :: r → ∃ s, t = .punct '=' s) := by
  generalize hq : u ++ l = q at hr
  cases hr with
  | @some s ts _ v' _ hv =>
    cases hv with
    | @value v rest hb =>
      subst hq
      refine ⟨.punct '=' s :: v.toks, rfl, ?_, by rintro t r ⟨⟩; exact ⟨_, rfl⟩⟩
      refine .some (ReadsValue.value ?_)
      intro b hb' c r he
      obtain ⟨c', r', he'⟩ := h.bracket _ _ _ he
      exact hb b hb' c' r' he'
    | @missing _ help hn hw =>
      subst hq
      exact ⟨[.punct '=' s], rfl, .some (.missing (h.noValue _ hn) (hw.trans (h.word _).symm)),
        by rintro t r ⟨⟩; exact ⟨_, rfl⟩⟩
  | none hn =>
    subst hq
    refine ⟨[], rfl, .none ?_, by simp⟩
    intro s r he
    obtain ⟨s', r', he'⟩ := h.punct _ _ _ _ (by decide) he
    exact hn s' r' he'

theorem modifier_swap {x y y' : Toks} {m : Option Ident}
    (hp : ∀ s r, y' = .punct ':' s :: r → ∃ s r, y = .punct ':' s :: r)
    (hr : ReadsModifier x m y) : ∃ w, x = w ++ y ∧ ReadsModifier (w ++ y') m y' ∧
      ∀ t r, w = t :: r → ∃ s, t = .punct ':' s := by
  cases hr with
  | @some s i _ =>
    exact ⟨[.punct ':' s, .ident i], rfl, .some, by rintro t r ⟨⟩; exact ⟨_, rfl⟩⟩
  | none hn =>
    refine ⟨[], rfl, .none ?_, by simp⟩
    intro s r he
    obtain ⟨s', r', he'⟩ := hp s r he
    exact hn s' r' he'

theorem key_swap {x y y' : Toks} {is : List Issue} {k : KebabOrStr} (hs : Softer y y')
    (hr : ReadsKey x is k y) : ∃ w, x = w ++ y ∧ ReadsKey (w ++ y') is k y' := by
  cases hr with
  | @str s _ => exact ⟨[.lit (.str s)], rfl, .str⟩
  | @name _ run _ hk =>
    obtain ⟨he, hk⟩ := hk.split_at
    exact ⟨run, he, .name (hk.softer hs)⟩

end

section
variable {u l l' : Toks}

theorem Swap.ne_nil (h : Swap l l') : l' ≠ [] := by
  rcases h.next with ⟨s, r, rfl⟩ | ⟨t, t', r, r', rfl, rfl, hk⟩ <;> simp

theorem Swap.nameStart (h : Swap l l') (hn : NameStart (u ++ l')) : NameStart (u ++ l) := by
  obtain ⟨t, r, he, ht⟩ := hn
  cases u with
  | nil => exact absurd ⟨t, r, he, ht⟩ h.not_name
  | cons a u =>
    simp only [List.cons_append, List.cons.injEq] at he
    exact ⟨t, u ++ l, by simp [he.1], ht⟩

theorem Swap.sels_end (h : Swap l l')
    (hy : ∀ c s r, u ++ l = .punct c s :: r → c = '.' ∨ c = '#' → ¬ NameStart r) :
    ∀ c s r, u ++ l' = .punct c s :: r → c = '.' ∨ c = '#' → ¬ NameStart r := by
  intro c s r he hc hn
  cases u with
  | nil =>
    rcases h.calm c s r he with rfl | rfl <;> simp at hc
  | cons a u =>
    simp only [List.cons_append, List.cons.injEq] at he
    obtain ⟨rfl, rfl⟩ := he
    exact hy c s (u ++ l) rfl hc (h.nameStart hn)

theorem Swap.not_colon (h : Swap l l') {c : Char} (hc : c = ':' ∨ c = '<')
    (hu : ∀ t r, u = t :: r → ∀ s, t ≠ .punct c s) : ∀ s r, u ++ l' ≠ .punct c s :: r := by
  intro s r he
  cases u with
  | nil => rcases h.calm c s r he with rfl | rfl <;> simp at hc
  | cons a u =>
    simp only [List.cons_append, List.cons.injEq] at he
    exact hu a u rfl s he.1

theorem Swap.follow (h : Swap l l') : Follow l l' where
  softer _ := h.softer
  punct _ _ _ _ hc he := h.punct hc he
  bracket _ _ _ he := h.bracket he
  noValue _ hn := h.noValue hn
  word _ := h.word
  sels_end _ hy := h.sels_end hy

end

/-- Nothing here stops the macro. -/
def OnlyReports (is : List Issue) : Prop := ∀ i ∈ is, ∃ d, i = .report d

theorem OnlyReports.append {is js : List Issue} : OnlyReports (is ++ js) ↔ OnlyReports is ∧ OnlyReports js := by
  simp only [OnlyReports, List.mem_append]
  constructor
  · exact fun h => ⟨fun i hi => h i (.inl hi), fun i hi => h i (.inr hi)⟩
  · rintro ⟨h1, h2⟩ i (hi | hi)
    · exact h1 i hi
    · exact h2 i hi

theorem OnlyReports.not_stop {is : List Issue} {d : Diag} (h : OnlyReports (is ++ [.stop d])) : False := by
  obtain ⟨d', h'⟩ := h (.stop d) (by simp)
  cases h'

theorem OnlyReports.not_stop' {d : Diag} (h : OnlyReports [.stop d]) : False := by
  obtain ⟨d', h'⟩ := h (.stop d) (by simp)
  cases h'

theorem attrs_peek {ts left left' : Toks} {is : List Issue} {as : List Attr}
    (hr : ReadsAttrs ts is as left) (hi : OnlyReports is) (h : Swap left left') :
    ∃ used ai j, ts = used ++ left ∧ is = ai ++ j ∧ ReadsAttrs left j [] left ∧
      ∀ j', ReadsAttrs left' j' [] left' → ReadsAttrs (used ++ left') (ai ++ j') as left' := by
  induction hr with
  | @short c rest is as left hc _ ih =>
    obtain ⟨w, ai, j, rfl, rfl, hj, hw⟩ := ih (OnlyReports.append.mp (OnlyReports.append.mp hi).2).2 h
    refine ⟨.group .brace c :: w, rawIssues c ++ (nameIssues (kebabText c) ++ ai), j, rfl, by simp, hj, fun j' hj' => ?_⟩
    have := ReadsAttrs.short hc (hw j' hj')
    simpa using this
  | @spread s e rest is as left _ ih =>
    obtain ⟨w, ai, j, rfl, rfl, hj, hw⟩ := ih hi h
    exact ⟨.group .brace (.punct '.' .joint :: .punct '.' s :: e) :: w, ai, j, rfl, rfl, hj,
      fun j' hj' => .spread (hw j' hj')⟩
  | @kv ts run rest js v rest' is as left hk hne he _ ih =>
    obtain ⟨w, ai, j, rfl, rfl, hj, hw⟩ := ih (OnlyReports.append.mp (OnlyReports.append.mp hi).2).2 h
    obtain ⟨x, rfl, hx, hx0⟩ := eq_swap h.follow he
    obtain ⟨hsp, hk⟩ := hk.split_at
    have hsoft : Softer (x ++ (w ++ left)) (x ++ (w ++ left')) := by
      rw [← List.append_assoc, ← List.append_assoc]; exact h.softer
    subst hsp
    refine ⟨run ++ (x ++ w), rawIssues run ++ (js ++ ai), j, by simp, by simp, hj, fun j' hj' => ?_⟩
    rw [List.append_assoc, List.append_assoc, List.append_assoc, List.append_assoc]
    refine .kv (hk.softer hsoft) ?_ hx (hw j' hj')
    intro d s r hde
    rcases run with _ | ⟨a, _ | ⟨b, run⟩⟩
    · exact absurd rfl hk.kebab.nonempty
    · simp only [List.cons_append, List.nil_append, List.cons.injEq] at hde
      have : ∃ s r, x ++ (w ++ left) = .punct ':' s :: r := by
        rw [← List.append_assoc]
        refine h.punct (u := x ++ w) (s := s) (r := r) (by decide) ?_
        rw [List.append_assoc]; exact hde.2
      obtain ⟨s', r', h'⟩ := this
      exact hne d s' r' (by rw [h', hde.1]; rfl)
    · simp only [List.cons_append, List.cons.injEq] at hde
      exact hne d s (run ++ (x ++ (w ++ left))) (by rw [hde.1, ← hde.2.1]; rfl)
  | @dirShort d s c rest m rest' is as left hc hm _ ih =>
    obtain ⟨w, ai, j, rfl, rfl, hj, hw⟩ := ih (OnlyReports.append.mp (OnlyReports.append.mp hi).2).2 h
    obtain ⟨x, rfl, hx, -⟩ := modifier_swap (y' := w ++ left') (fun s r he => h.punct (by decide) he) hm
    refine ⟨.ident d :: .punct ':' s :: .group .brace c :: (x ++ w),
      rawIssues c ++ (nameIssues (kebabText c) ++ ai), j, by simp, by simp, hj, fun j' hj' => ?_⟩
    have := ReadsAttrs.dirShort (d := d) (s := s) hc hx (hw j' hj')
    simpa using this
  | @dir d s ts ks key r1 m r2 js v r3 is as left hk hm he _ ih =>
    obtain ⟨w, ai, j, rfl, rfl, hj, hw⟩ := ih (OnlyReports.append.mp (OnlyReports.append.mp hi).2).2 h
    obtain ⟨x, rfl, hx, hx0⟩ := eq_swap h.follow he
    have hsoft : Softer (x ++ (w ++ left)) (x ++ (w ++ left')) := by
      rw [← List.append_assoc, ← List.append_assoc]; exact h.softer
    obtain ⟨y, rfl, hy, hy0⟩ := modifier_swap (y' := x ++ (w ++ left')) (fun s r he => by
      rw [← List.append_assoc] at he ⊢
      exact h.punct (by decide) he) hm
    obtain ⟨z, rfl, hz⟩ := key_swap (y' := y ++ (x ++ (w ++ left'))) (.append_left hsoft) hk
    refine ⟨.ident d :: .punct ':' s :: (z ++ (y ++ (x ++ w))), ks ++ (js ++ ai), j, by simp, by simp, hj,
      fun j' hj' => ?_⟩
    have := ReadsAttrs.dir (d := d) (s := s) hz hy hx (hw j' hj')
    simpa using this
  | dirMore => exact (OnlyReports.not_stop hi).elim
  | dirNoName => exact (OnlyReports.not_stop' hi).elim
  | dirNoKey => exact (OnlyReports.not_stop' hi).elim
  | dirShortNoModifier => exact (OnlyReports.not_stop' (OnlyReports.append.mp (OnlyReports.append.mp hi).2).2).elim
  | dirNoModifier => exact (OnlyReports.not_stop hi).elim
  | brace hc => exact ⟨[], [], _, rfl, rfl, .brace hc, fun _ h => h⟩
  | done h1 h2 => exact ⟨[], [], _, rfl, rfl, .done h1 h2, fun _ h => h⟩

theorem attrs_swap {ts left left' : Toks} {is : List Issue} {as : List Attr}
    (hr : ReadsAttrs ts is as left) (hi : OnlyReports is) (h : Swap left left')
    (hd : ∀ js, ReadsAttrs left js [] left → ReadsAttrs left' js [] left') :
    ∃ used, ts = used ++ left ∧ ReadsAttrs (used ++ left') is as left' := by
  obtain ⟨used, ai, j, hu, rfl, hj, hw⟩ := attrs_peek hr hi h
  exact ⟨used, hu, hw j (hd j hj)⟩

/-- Attributes end where there is no name. -/
theorem attrs_left {ts left : Toks} {is : List Issue} {as : List Attr}
    (hr : ReadsAttrs ts is as left) (hi : OnlyReports is) : ∃ js, ReadsAttrs left js [] left ∧ ¬ NameStart left := by
  induction hr with
  | short _ _ ih => exact ih (OnlyReports.append.mp (OnlyReports.append.mp hi).2).2
  | spread _ ih => exact ih hi
  | kv _ _ _ _ ih => exact ih (OnlyReports.append.mp (OnlyReports.append.mp hi).2).2
  | dirShort _ _ _ ih => exact ih (OnlyReports.append.mp (OnlyReports.append.mp hi).2).2
  | dir _ _ _ _ ih => exact ih (OnlyReports.append.mp (OnlyReports.append.mp hi).2).2
  | dirMore => exact (OnlyReports.not_stop hi).elim
  | dirNoName => exact (OnlyReports.not_stop' hi).elim
  | dirNoKey => exact (OnlyReports.not_stop' hi).elim
  | dirShortNoModifier => exact (OnlyReports.not_stop' (OnlyReports.append.mp (OnlyReports.append.mp hi).2).2).elim
  | dirNoModifier => exact (OnlyReports.not_stop hi).elim
  | brace hc => exact ⟨_, .brace hc, by rintro ⟨t, r, he, ht⟩; cases he; simp [TT.isIdent, TT.isDash] at ht⟩
  | done h1 h2 => exact ⟨_, .done h1 h2, h1⟩

/-! ### selectors -/

theorem sels_swap {ts x y : Toks} {is : List Issue} {sels : List Selector}
    (hr : ReadsSels ts is sels x) (hs : Softer x y)
    (hy : ∀ c s r, y = .punct c s :: r → c = '.' ∨ c = '#' → ¬ NameStart r) :
    ∃ used, ts = used ++ x ∧ ReadsSels (used ++ y) is sels y ∧
      ∀ t r, used = t :: r → ∃ c s, t = .punct c s ∧ (c = '.' ∨ c = '#') := by
  induction hr with
  | @cls s ts run rest is sels left hk _ ih =>
    obtain ⟨w, rfl, hw, -⟩ := ih hs
    obtain ⟨hsp, hk⟩ := hk.split_at
    subst hsp
    refine ⟨.punct '.' s :: (run ++ w), by simp, ?_, by rintro t r ⟨⟩; exact ⟨_, _, rfl, .inl rfl⟩⟩
    have := ReadsSels.cls (s := s) (hk.softer (.append_left (a := w) hs)) hw
    simpa using this
  | @id s ts run rest is sels left hk _ ih =>
    obtain ⟨w, rfl, hw, -⟩ := ih hs
    obtain ⟨hsp, hk⟩ := hk.split_at
    subst hsp
    refine ⟨.punct '#' s :: (run ++ w), by simp, ?_, by rintro t r ⟨⟩; exact ⟨_, _, rfl, .inr rfl⟩⟩
    have := ReadsSels.id (s := s) (hk.softer (.append_left (a := w) hs)) hw
    simpa using this
  | @done ts h => exact ⟨[], rfl, .done hy, by simp⟩

theorem sels_done {ts left : Toks} {is : List Issue} {sels : List Selector}
    (hr : ReadsSels ts is sels left) :
    ∀ c s r, left = .punct c s :: r → c = '.' ∨ c = '#' → ¬ NameStart r := by
  induction hr with
  | cls _ _ ih => exact ih
  | id _ _ ih => exact ih
  | done h => exact h

/-- What attributes start with. -/
theorem attrs_first {u left : Toks} {is : List Issue} {as : List Attr} (hi : OnlyReports is)
    (hr : ReadsAttrs (u ++ left) is as left) : ∀ t r, u = t :: r →
      t.isIdent = true ∨ t.isDash = true ∨ ∃ c, t = .group .brace c := by
  rintro t r rfl
  generalize hq : t :: r ++ left = q at hr
  simp only [List.cons_append] at hq
  cases hr with
  | short => cases hq; exact .inr (.inr ⟨_, rfl⟩)
  | spread => cases hq; exact .inr (.inr ⟨_, rfl⟩)
  | kv hk =>
    obtain ⟨t', r', he, ht⟩ := hk.nameStart
    rw [← hq] at he
    cases he
    rcases ht with ht | ht
    · exact .inl ht
    · exact .inr (.inl ht)
  | dirShort => exact .inl (by rw [(List.cons.inj hq).1]; rfl)
  | dir => exact .inl (by rw [(List.cons.inj hq).1]; rfl)
  | dirMore => exact (OnlyReports.not_stop hi).elim
  | dirNoName => exact (OnlyReports.not_stop' hi).elim
  | dirNoKey => exact (OnlyReports.not_stop' hi).elim
  | dirShortNoModifier => exact (OnlyReports.not_stop' (OnlyReports.append.mp (OnlyReports.append.mp hi).2).2).elim
  | dirNoModifier => exact (OnlyReports.not_stop hi).elim
  | brace => have := congrArg List.length hq; simp at this; omega
  | done => have := congrArg List.length hq; simp at this; omega

/-! ### tags -/

theorem IsKebab.suffix {w y : Toks} (h : IsKebab (w ++ y)) {t : TT} {r : Toks} (hy : y = t :: r)
    (ht : t.isIdent = true ∨ t.isDash = true) : IsKebab y := by
  subst hy
  refine ⟨by simp, ?_, fun t ht => h.tokens t (by simp at ht ⊢; right; exact ht), ?_⟩
  · intro t' he; simp only [List.head?_cons, Option.some.injEq] at he; subst he; exact ht
  · intro pre a b post he
    exact h.alternate (w ++ pre) a b post (by rw [he]; simp)

theorem kebab_token {x : Toks} (h : IsKebab x) {c : Char} {s : Spacing} (hm : .punct c s ∈ x) : c = '-' := by
  rcases h.tokens _ hm with h | h
  · simp [TT.isWord] at h
  · obtain ⟨s', h'⟩ := isDash_eq h
    simp only [TT.punct.injEq] at h'
    exact h'.1

theorem not_pathStart_name {run rest : Toks} (hk : IsKebab run) (h1 : ∀ s r, rest ≠ .punct ':' s :: r)
    (h2 : ∀ s r, rest ≠ .punct '<' s :: r) : ¬ PathStart (run ++ rest) := by
  have key : ∀ t r, run = t :: r → afterFirst (run ++ rest) = r ++ rest := by
    rintro t r rfl
    have ht := hk.start t rfl
    rcases ht with ht | ht
    · cases t <;> simp [TT.isIdent] at ht
      rfl
    · obtain ⟨s, rfl⟩ := isDash_eq ht
      rfl
  have hc : ∀ {u : Toks} {c s r}, (∀ t ∈ u, t ∈ run) → c = ':' ∨ c = '<' → u ++ rest ≠ .punct c s :: r := by
    intro u c s r hu hc he
    cases u with
    | nil => rcases hc with rfl | rfl
             · exact h1 _ _ he
             · exact h2 _ _ he
    | cons a u =>
      simp only [List.cons_append, List.cons.injEq] at he
      have := kebab_token hk (hu (.punct c s) (by rw [he.1]; simp))
      subst this; simp at hc
  cases run with
  | nil => exact absurd rfl hk.nonempty
  | cons t r =>
    rintro (⟨s, y, h⟩ | h)
    · exact hc (fun _ h => h) (.inl rfl) h
    · rw [key t r rfl] at h
      rcases h with ⟨s, y, h⟩ | ⟨s, y, h⟩
      · exact hc (fun _ h => List.mem_cons_of_mem _ h) (.inl rfl) h
      · exact hc (fun _ h => List.mem_cons_of_mem _ h) (.inr rfl) h

theorem not_slotStart_name {run rest : Toks} (hk : IsKebab run) (h1 : ∀ s r, rest ≠ .punct ':' s :: r) :
    ¬ SlotStart (run ++ rest) := by
  rintro ⟨s, r, he, -⟩
  rcases run with _ | ⟨a, _ | ⟨b, run⟩⟩
  · exact absurd rfl hk.nonempty
  · simp only [List.cons_append, List.nil_append, List.cons.injEq] at he
    exact h1 _ _ he.2
  · simp only [List.cons_append, List.cons.injEq] at he
    have := kebab_token hk (c := ':') (s := s) (by rw [he.2.1]; simp)
    simp at this

theorem not_slotStart_path {i : Ident} {r : Toks} (h : PathStart (.ident i :: r)) : ¬ SlotStart (.ident i :: r) := by
  rintro ⟨s, r', he, hn⟩
  simp only [List.cons.injEq] at he
  rcases h with ⟨s', r'', h⟩ | ⟨s', r'', h⟩ | ⟨s', r'', h⟩
  · simp at h
  · simp only [afterFirst] at h
    exact hn ⟨s', r'', he.2.symm.trans h⟩
  · simp only [afterFirst] at h
    rw [he.2] at h
    simp at h

theorem pathStart_like {ts : Toks} (h : StartsColons ts ∨ ∃ i r, ts = .ident i :: r) :
    PathStart ts ↔ PathLike ts := by
  rcases h with h | ⟨i, r, rfl⟩
  · exact ⟨fun _ => .inl h, fun _ => .inl h⟩
  · constructor
    · rintro (⟨s, r', h⟩ | h | h)
      · simp at h
      · exact .inr ⟨i, r, rfl, .inl h⟩
      · exact .inr ⟨i, r, rfl, .inr h⟩
    · rintro (⟨s, r', h⟩ | ⟨i', r', h, h'⟩)
      · simp at h
      · cases h; exact .inr h'

theorem tag_swap (hpp : pp.Starts) (hloc : pp.Local) {ts x y : Toks} {is : List Issue} {tag : Tag}
    (hr : ReadsTag pp ts is tag x) (hi : OnlyReports is) (hs : Softer x y)
    (hx : ∀ p, PathStart ts → pp.run ts = (some p, x) →
      (∀ s r, x ≠ .punct ':' s :: r) ∧ ∀ s r, x ≠ .punct '<' s :: r)
    (hy1 : ∀ s r, y ≠ .punct ':' s :: r) (hy2 : ∀ s r, y ≠ .punct '<' s :: r) :
    ∃ used, used ≠ [] ∧ ts = used ++ x ∧ ReadsTag pp (used ++ y) is tag y ∧
      ∀ i r, used = .ident i :: r → ¬ SlotStart (used ++ y) := by
  cases hr with
  | path hps hrun =>
    obtain ⟨used, hne, rfl⟩ := pp.progress _ _ _ hrun
    obtain ⟨hx1, hx2⟩ := hx _ hps hrun
    have hst := hpp hrun
    have hpl := ((pathStart_like hst).mp hps).transport (y := y) (t := .ident ⟨false, []⟩) hne hx1 hx2
    have hrun' := hloc hrun hx1 hx2 hy1 hy2
    have hps' := (pathStart_like (hpp hrun')).mpr hpl
    refine ⟨used, hne, rfl, .path hps' hrun', ?_⟩
    rintro i r rfl
    exact not_slotStart_path hps'
  | name hps hk ht =>
    obtain ⟨rfl, hk⟩ := hk.split_at
    exact ⟨_, hk.kebab.nonempty, rfl, .name (not_pathStart_name hk.kebab hy1 hy2) (hk.softer hs) ht,
      fun _ _ _ => not_slotStart_name hk.kebab hy1⟩
  | crash =>
    obtain ⟨d, h'⟩ := hi .crash (by simp)
    cases h'

/-- No name reaches over the end of `u`. -/
def Bound (u x : Toks) : Prop := ∀ w run z, LongestKebab (w ++ (u ++ x)) run z → ∃ z0, w ++ u = run ++ z0

theorem tag_bound {ts x l : Toks} {is : List Issue} {tag : Tag} {i : Ident} {r used v : Toks}
    (hr : ReadsTag pp ts is tag x) (hi : OnlyReports is) (ht : ts = .ident i :: r) (he : ts = used ++ x)
    (hne : used ≠ []) (hx : x = v ++ l) : Bound (used ++ v) l := by
  intro w run z hk
  have hs := hk.split
  rw [List.append_assoc] at hs
  have hs' : (w ++ (used ++ v)) ++ l = run ++ z := by simpa using hs
  rcases List.append_eq_append_iff.mp hs' with ⟨m, hm, -⟩ | ⟨m, hm, -⟩
  · cases m with
    | nil => exact ⟨[], by rw [hm]; simp⟩
    | cons a m =>
      exfalso
      have hkk := hk.kebab
      rw [hm] at hkk
      have hk2 : IsKebab ((used ++ v) ++ a :: m) := by
        rw [List.append_assoc] at hkk
        cases used with
        | nil => exact absurd rfl hne
        | cons b used =>
          have : b = .ident i := by rw [ht] at he; simp at he; exact he.1.symm
          exact hkk.suffix (t := b) (r := used ++ v ++ a :: m) rfl (.inl (by rw [this]; rfl))
      have hts : ∃ z', ts = (used ++ v ++ a :: m) ++ z' := by
        refine ⟨z, ?_⟩
        rw [he, hx]
        rw [hm] at hs'
        have h3 : w ++ (used ++ (v ++ l)) = w ++ (used ++ v ++ a :: m ++ z) := by simpa using hs'
        exact List.append_cancel_left h3
      obtain ⟨z', hz'⟩ := hts
      cases hr with
      | path hps hrun =>
        rcases used with _ | ⟨b, used⟩
        · exact absurd rfl hne
        · rw [ht] at hps hz'
          have hr2 : ∀ c s y, r = .punct c s :: y → c = '-' := by
            intro c s y hy
            simp only [List.cons_append, List.cons.injEq] at hz'
            refine kebab_token hk2 (s := s) ?_
            have h2 := hz'.2
            rw [hy] at h2
            cases hq : used ++ v ++ a :: m with
            | nil => simp at hq
            | cons q qs =>
              rw [hq] at h2
              simp only [List.cons_append, List.cons.injEq] at h2
              rw [List.cons_append, List.cons_append, hq, h2.1]
              simp
          rcases hps with ⟨s, y, h⟩ | ⟨s, y, h⟩ | ⟨s, y, h⟩
          · simp at h
          · have := hr2 _ _ _ h; simp at this
          · have := hr2 _ _ _ h; simp at this
      | name hps hlk =>
        have h1 := hlk.longest _ _ hz' hk2
        have h2 := congrArg List.length (hlk.split.symm.trans he)
        simp only [List.length_append, List.length_cons] at h1 h2
        omega
      | crash =>
        obtain ⟨d, h'⟩ := hi .crash (by simp)
        cases h'
  · exact ⟨m, hm⟩

end Mview
