import Verif.Lemmas.Advice
/-
Ending an element that is not ended.
-/

namespace Mview
open Lex

variable {pp : PathParser}

/-! ### names at the beginning of a block -/

/-- The same first token, and the same name in front of anything. -/
structure Front (x x' : Toks) : Prop where
  head : ∃ t r r', x = t :: r ∧ x' = t :: r' ∧ ∀ c s, t = .punct c s → c = '-' ∨ c = ';'
  runs : ∀ w run z, LongestKebab (w ++ x) run z → ∃ z', z' ≠ [] ∧ LongestKebab (w ++ x') run z'

theorem Front.prefix {x x' : Toks} (h : Front x x') {t : TT} {v : Toks}
    (ht : ∀ c s, t = .punct c s → c = '-' ∨ c = ';') : Front (t :: (v ++ x)) (t :: (v ++ x')) := by
  refine ⟨⟨t, v ++ x, v ++ x', rfl, rfl, ht⟩, ?_⟩
  intro w run z hk
  have := h.runs (w ++ t :: v) run z (by simpa using hk)
  simpa using this

theorem Bound.front {u l l' : Toks} (hb : Bound u l) (h : Swap l l') {i : Ident} {u' : Toks}
    (hu : u = .ident i :: u') : Front (u ++ l) (u ++ l') := by
  refine ⟨⟨.ident i, u' ++ l, u' ++ l', by rw [hu]; rfl, by rw [hu]; rfl, by simp⟩, ?_⟩
  intro w run z hk
  obtain ⟨z0, hz⟩ := hb w run z hk
  have e1 : w ++ (u ++ l) = run ++ (z0 ++ l) := by rw [← List.append_assoc, hz, List.append_assoc]
  have e2 : w ++ (u ++ l') = run ++ (z0 ++ l') := by rw [← List.append_assoc, hz, List.append_assoc]
  have e3 : z = z0 ++ l := List.append_cancel_left (hk.split.symm.trans e1)
  rw [e1, e3] at hk
  exact ⟨z0 ++ l', by simp [h.ne_nil], by rw [e2]; exact hk.softer h.softer⟩

theorem bound_of {a b x : Toks} {t : TT} (h1 : t.isWord = false) (h2 : t.isDash = false) :
    Bound (a ++ t :: b) x := by
  intro w run z hk
  have hs : (w ++ (a ++ t :: b)) ++ x = run ++ z := by rw [← hk.split]; simp
  rcases List.append_eq_append_iff.mp hs with ⟨m, hm, -⟩ | ⟨m, hm, -⟩
  · rcases hk.kebab.tokens t (by rw [hm]; simp) with h | h
    · rw [h1] at h; cases h
    · rw [h2] at h; cases h
  · exact ⟨m, hm⟩

/-! ### where attributes stop -/

/-- Attributes stop at `l'` as at `l`. -/
def AttrsStop (l l' : Toks) : Prop := ∀ js, ReadsAttrs l js [] l → ReadsAttrs l' js [] l'

theorem attrsStop_plain {l l' : Toks} (h1 : ∀ c r, l ≠ .group .brace c :: r)
    (h2 : ∀ c r, l' ≠ .group .brace c :: r) (h3 : ¬ NameStart l') : AttrsStop l l' := by
  intro js h
  generalize hq : ([] : List Attr) = q at h
  generalize hl : l = k at h
  have h' := h
  cases h with
  | brace => exact absurd hl (h1 _ _)
  | done => exact .done h3 fun c r he => absurd he (h2 c r)
  | short | spread | kv | dirShort | dir => cases hq
  | _ => simp_all

theorem attrsStop_brace {c c' r r' : Toks} (hc : c = c' ∨ Front c c') :
    AttrsStop (.group .brace c :: r) (.group .brace c' :: r') := by
  intro js h
  generalize hq : ([] : List Attr) = q at h
  generalize hl : TT.group .brace c :: r = k at h
  cases h with
  | brace hk =>
    cases hl
    rcases hc with rfl | hf
    · exact .brace hk
    · obtain ⟨z', hz, hk'⟩ := hf.runs [] _ _ hk
      cases z' with
      | nil => exact absurd rfl hz
      | cons t z => exact .brace hk'
  | done h1 h2 =>
    subst hl
    refine .done (by rintro ⟨t, r, he, ht⟩; cases he; simp [TT.isIdent, TT.isDash] at ht) ?_
    intro d r1 he
    cases he
    obtain ⟨h3, h4⟩ := h2 c r rfl
    rcases hc with rfl | hf
    · exact ⟨h3, h4⟩
    · obtain ⟨t, y, y', rfl, rfl, ht⟩ := hf.head
      constructor
      · rintro ⟨t1, r1, he, h1⟩
        cases he
        exact h3 ⟨_, _, rfl, h1⟩
      · rintro ⟨s, e, he⟩
        cases he
        rcases ht '.' .joint rfl with h | h <;> simp at h
  | short | spread | kv | dirShort | dir => cases hq
  | _ => simp_all

theorem attrsStop_group {d : Delim} {c c' r r' : Toks} (hc : c = c' ∨ Front c c') :
    AttrsStop (.group d c :: r) (.group d c' :: r') := by
  by_cases hd : d = .brace
  · subst hd; exact attrsStop_brace hc
  · refine attrsStop_plain (fun c r he => ?_) (fun c r he => ?_) ?_
    · cases he; exact hd rfl
    · cases he; exact hd rfl
    · rintro ⟨t, r, he, ht⟩; cases he; simp [TT.isIdent, TT.isDash] at ht

theorem group_not_name {d : Delim} {c r : Toks} : ¬ NameStart (.group d c :: r) := by
  rintro ⟨t, r, he, ht⟩; cases he; simp [TT.isIdent, TT.isDash] at ht

theorem punct_not_name {c : Char} {s : Spacing} {r : Toks} (hc : c ≠ '-') : ¬ NameStart (.punct c s :: r) := by
  rintro ⟨t, r, he, ht | ht⟩
  · cases he; simp [TT.isIdent] at ht
  · cases he
    obtain ⟨s', h⟩ := isDash_eq ht
    cases h
    exact hc rfl

theorem nil_not_name : ¬ NameStart [] := by rintro ⟨t, r, he, -⟩; cases he

theorem swap_group {d : Delim} {c c' r r' : Toks} : Swap (.group d c :: r) (.group d c' :: r') :=
  ⟨group_not_name, .inr ⟨_, _, _, _, rfl, rfl, .group d c c'⟩, by simp⟩

theorem swap_punct {c : Char} {s : Spacing} {r r' : Toks} (hc : c = ';' ∨ c = '|') :
    Swap (.punct c s :: r) (.punct c s :: r') := by
  refine ⟨punct_not_name (by rcases hc with rfl | rfl <;> decide), .inr ⟨_, _, _, _, rfl, rfl, .refl _⟩, ?_⟩
  rintro c' s' r'' he
  cases he
  exact hc

theorem attrsStop_punct {c c' : Char} {s s' : Spacing} {r r' : Toks} (hc : c' ≠ '-') :
    AttrsStop (.punct c s :: r) (.punct c' s' :: r') :=
  attrsStop_plain (by simp) (by simp) (punct_not_name hc)

/-! ### an element followed by something else -/

theorem elem_start_swap (hpp : pp.Starts) (hloc : pp.Local) {ts r0 r1 r2 r2' : Toks} {b : Bool}
    {ti si : List Issue} {tag : Tag} {sels : List Selector}
    (hst : ElemStart ts b r0) (ht : ReadsTag pp r0 ti tag r1) (hs : ReadsSels r1 si sels r2)
    (hti : OnlyReports ti) (h : Follow r2 r2')
    (hc : ∀ c, c = ':' ∨ c = '<' → ∀ s r, r2' ≠ .punct c s :: r)
    (hg : ∀ p, PathStart r0 → pp.run r0 = (some p, r2) →
      (∀ s r, r2 ≠ .punct ':' s :: r) ∧ ∀ s r, r2 ≠ .punct '<' s :: r) :
    ∃ i u r0' r1', ts = .ident i :: u ++ r2 ∧ ElemStart (.ident i :: u ++ r2') b r0' ∧ ReadsTag pp r0' ti tag r1' ∧
      ReadsSels r1' si sels r2' ∧ ∀ v l, r2 = v ++ l → Bound (.ident i :: u ++ v) l := by
  obtain ⟨us, rfl, hs', hus⟩ := sels_swap hs (h.softer []) (h.sels_end [] (sels_done hs))
  have hfirst : ∀ t r, us = t :: r → ∀ c, c = ':' ∨ c = '<' → ∀ s, t ≠ .punct c s := by
    rintro t r rfl c hc s hts
    obtain ⟨c', s', h1, h2⟩ := hus t r rfl
    rw [h1] at hts
    cases hts
    rcases h2 with rfl | rfl <;> simp at hc
  have hy : ∀ c, c = ':' ∨ c = '<' → ∀ s r, us ++ r2' ≠ .punct c s :: r := by
    intro c hc' s r he
    cases us with
    | nil => exact hc c hc' s r he
    | cons t us => exact hfirst t us rfl c hc' s (List.cons.inj he).1
  have hx : ∀ p, PathStart r0 → pp.run r0 = (some p, us ++ r2) →
      (∀ s r, us ++ r2 ≠ .punct ':' s :: r) ∧ ∀ s r, us ++ r2 ≠ .punct '<' s :: r := by
    intro p h1 h2
    cases us with
    | nil => exact hg p h1 h2
    | cons t r =>
      constructor
      · intro s r' he
        exact hfirst t r rfl ':' (.inl rfl) s (List.cons.inj he).1
      · intro s r' he
        exact hfirst t r rfl '<' (.inr rfl) s (List.cons.inj he).1
  obtain ⟨ut, hne, he, ht', hslot⟩ := tag_swap hpp hloc ht hti (h.softer us) hx (hy _ (.inl rfl)) (hy _ (.inr rfl))
  cases hst with
  | @slot s _ hc =>
    refine ⟨plain c!"slot", .punct ':' s :: (ut ++ us), _, _, by rw [he]; simp, ?_, ht', hs', ?_⟩
    · have : ElemStart (.ident (plain c!"slot") :: .punct ':' s :: (ut ++ (us ++ r2'))) true
          (ut ++ (us ++ r2')) := by
        refine .slot ?_
        rintro ⟨s', r', he'⟩
        cases ut with
        | nil => exact hne rfl
        | cons a ut =>
          simp only [List.cons_append, List.cons.injEq] at he'
          exact hc ⟨s', ut ++ (us ++ r2), by rw [he, he'.1, ← he'.2.1]; rfl⟩
      simpa using this
    · intro v l _
      exact bound_of (a := [.ident (plain c!"slot")]) (t := .punct ':' s) rfl rfl
  | @elem i r hn hns =>
    obtain ⟨ut', rfl⟩ : ∃ ut', ut = .ident i :: ut' := by
      cases ut with
      | nil => exact absurd rfl hne
      | cons a ut => simp only [List.cons_append, List.cons.injEq] at he; exact ⟨ut, by rw [he.1]⟩
    refine ⟨i, ut' ++ us, _, _, by rw [he]; simp, ?_, ht', hs', ?_⟩
    · have : ElemStart (.ident i :: (ut' ++ (us ++ r2'))) false (.ident i :: (ut' ++ (us ++ r2'))) := by
        refine .elem ?_ ?_
        · have := h.noValue (.ident i :: ut' ++ us) (by rw [he] at hn; simpa using hn)
          simpa using this
        · exact hslot i ut' rfl
      simpa using this
    · rintro v l rfl
      have := tag_bound (v := us ++ v) (l := l) ht hti rfl he hne (by simp)
      simpa using this

theorem elem_peek (hpp : pp.Starts) (hloc : pp.Local) {ts r0 r1 r2 l l' : Toks} {b : Bool}
    {ti si ai : List Issue} {tag : Tag} {sels : List Selector} {attrs : List Attr}
    (hst : ElemStart ts b r0) (ht : ReadsTag pp r0 ti tag r1) (hs : ReadsSels r1 si sels r2)
    (ha : ReadsAttrs r2 ai attrs l) (hti : OnlyReports ti) (hai : OnlyReports ai) (h : Swap l l')
    (hg : ∀ p, PathStart r0 → pp.run r0 = (some p, l) →
      (∀ s r, l ≠ .punct ':' s :: r) ∧ ∀ s r, l ≠ .punct '<' s :: r) :
    ∃ u a j r0' r1' r2', ts = u ++ l ∧ ai = a ++ j ∧ ReadsAttrs l j [] l ∧ ElemStart (u ++ l') b r0' ∧
      ReadsTag pp r0' ti tag r1' ∧ ReadsSels r1' si sels r2' ∧
      (∀ j', ReadsAttrs l' j' [] l' → ReadsAttrs r2' (a ++ j') attrs l') ∧ Front (u ++ l) (u ++ l') := by
  obtain ⟨ua, a, j, rfl, rfl, hj, ha'⟩ := attrs_peek ha hai h
  have hfirst : ∀ t r, ua = t :: r → ∀ c, c = ':' ∨ c = '<' → ∀ s, t ≠ .punct c s := by
    intro t r he c hc s hts
    rcases attrs_first hai ha t r he with h1 | h1 | ⟨x, h1⟩
    · subst hts; simp [TT.isIdent] at h1
    · subst hts
      obtain ⟨s', h1⟩ := isDash_eq h1
      cases h1
      simp at hc
    · rw [h1] at hts; cases hts
  obtain ⟨i, u, r0', r1', rfl, hst', ht', hs', hb⟩ := elem_start_swap hpp hloc hst ht hs hti (h.follow.prefix ua)
    (fun c hc => h.not_colon hc fun t r he s => hfirst t r he c hc s) (by
      intro p h1 h2
      cases ua with
      | nil => exact hg p h1 h2
      | cons t r =>
        constructor
        · intro s r' he
          exact hfirst t r rfl ':' (.inl rfl) s (List.cons.inj he).1
        · intro s r' he
          exact hfirst t r rfl '<' (.inr rfl) s (List.cons.inj he).1)
  refine ⟨.ident i :: (u ++ ua), a, j, r0', r1', _, by simp, rfl, hj, by simpa using hst', ht', hs', ha', ?_⟩
  have := hb ua l rfl
  exact Bound.front (by simpa using this) h rfl

theorem elem_swap (hpp : pp.Starts) (hloc : pp.Local) {ts r0 r1 r2 l l' : Toks} {b : Bool}
    {ti si ai : List Issue} {tag : Tag} {sels : List Selector} {attrs : List Attr}
    (hst : ElemStart ts b r0) (ht : ReadsTag pp r0 ti tag r1) (hs : ReadsSels r1 si sels r2)
    (ha : ReadsAttrs r2 ai attrs l) (hti : OnlyReports ti) (hai : OnlyReports ai) (h : Swap l l')
    (hd : AttrsStop l l')
    (hg : ∀ p, PathStart r0 → pp.run r0 = (some p, l) →
      (∀ s r, l ≠ .punct ':' s :: r) ∧ ∀ s r, l ≠ .punct '<' s :: r) :
    ∃ u r0' r1' r2', ts = u ++ l ∧ ElemStart (u ++ l') b r0' ∧ ReadsTag pp r0' ti tag r1' ∧
      ReadsSels r1' si sels r2' ∧ ReadsAttrs r2' ai attrs l' ∧ Front (u ++ l) (u ++ l') := by
  obtain ⟨u, a, j, r0', r1', r2', hts, rfl, hj, hst', ht', hs', ha', hf⟩ :=
    elem_peek hpp hloc hst ht hs ha hti hai h hg
  exact ⟨u, r0', r1', r2', hts, hst', ht', hs', ha' j (hd j hj), hf⟩

/-- The end of an element, followed by something else. -/
theorem end_front {x r4 r4' : Toks} {ei : List Issue} {args : Option Toks} {block : Option (List Child)}
    (h : ReadsEnd pp x ei args block r4) (hx : ¬ NameStart x) (hf : Front r4 r4') :
    ∃ p, x = p ++ r4 ∧ ReadsEnd pp (p ++ r4') ei args block r4' ∧ Swap x (p ++ r4') ∧ AttrsStop x (p ++ r4') ∧
      (∀ s r, x ≠ .punct ':' s :: r) ∧ ∀ s r, x ≠ .punct '<' s :: r := by
  cases h with
  | @semi s => exact ⟨[.punct ';' s], rfl, .semi, swap_punct (.inl rfl), attrsStop_punct (by decide), by simp, by simp⟩
  | @block d c _ _ cs hd hc =>
    exact ⟨[.group d c], rfl, .block hd hc, swap_group, attrsStop_group (.inl rfl), by simp, by simp⟩
  | @closure s args s' d c _ _ cs hn hd hc =>
    refine ⟨.punct '|' s :: (args ++ [.punct '|' s', .group d c]), by simp, ?_, ?_, ?_, by simp, by simp⟩
    · have := ReadsEnd.closure (pp := pp) (s := s) (s' := s') (rest := r4') hn hd hc
      simpa using this
    · exact swap_punct (.inr rfl)
    · exact attrsStop_punct (by decide)
  | nothing => obtain ⟨t, r, r', he, -⟩ := hf.head; cases he
  | @noBlock s args s' _ hn hg =>
    refine ⟨.punct '|' s :: (args ++ [.punct '|' s']), by simp, ?_, ?_, ?_, by simp, by simp⟩
    · have := ReadsEnd.noBlock (pp := pp) (s := s) (s' := s') (rest := r4') hn (by
        obtain ⟨t, r, r', rfl, rfl, -⟩ := hf.head
        intro d c r1 he
        cases he
        exact hg d c _ rfl)
      simpa using this
    · exact swap_punct (.inr rfl)
    · exact attrsStop_punct (by decide)
  | @other t r h1 h2 h3 =>
    obtain ⟨t', r1, r1', he, rfl, ht⟩ := hf.head
    cases he
    have hx' : ¬ NameStart (t :: r1') := fun ⟨t', r', he, h⟩ => hx ⟨t, r, rfl, by cases he; exact h⟩
    have hp : ∀ c s, t ≠ .punct c s := by
      rintro c s rfl
      rcases ht c s rfl with rfl | rfl
      · exact hx ⟨_, _, rfl, .inr rfl⟩
      · exact h1 s rfl
    refine ⟨[], rfl, .other h1 h2 h3, ⟨hx, .inr ⟨_, _, _, _, rfl, rfl, .refl _⟩, ?_⟩, ?_, ?_, ?_⟩
    · intro c s r he; exact absurd (List.cons.inj he).1 (hp c s)
    · refine attrsStop_plain ?_ ?_ hx'
      · intro c r he; cases (List.cons.inj he).1; exact absurd (h3 _ _ rfl) (by decide)
      · intro c r he; cases (List.cons.inj he).1; exact absurd (h3 _ _ rfl) (by decide)
    · intro s r he; exact hp _ _ (List.cons.inj he).1
    · intro s r he; exact hp _ _ (List.cons.inj he).1

/-! ### the edit -/

/-- The end of an element is missing here: which errors that gives. -/
inductive Unended : Diag → List Issue → Toks → Prop
  | nothing : Unended .unterminated [] []
  | other {t r} : (∀ s, t ≠ .punct ';' s) → (∀ s, t ≠ .punct '|' s) →
      (∀ d c, t = .group d c → d = .bracket) →
      Unended .unknownAttribute [.report .childrenNotFound] (t :: r)

def SemiAt (D : Diag) (ds : List Issue) (ts ts' : Toks) : Prop :=
  ∃ pre post, Unended D ds post ∧ ts = pre ++ post ∧ ts' = pre ++ .punct ';' .alone :: post

theorem SemiAt.prefix {D : Diag} {ds : List Issue} {ts ts' : Toks} (h : Somewhere (SemiAt D ds) ts ts') (p : Toks) :
    Somewhere (SemiAt D ds) (p ++ ts) (p ++ ts') := by
  cases h with
  | here h =>
    obtain ⟨pre, post, h, rfl, rfl⟩ := h
    exact .here ⟨p ++ pre, post, h, by simp, by simp⟩
  | inside pre post hd h =>
    have := Somewhere.inside (p ++ pre) post hd h
    simpa using this

theorem split_front {α : Type} {D : α} {R : List α} : ∀ {xs ys A : List α}, xs ++ ys = A ++ D :: R → D ∉ xs →
    ∃ A', A = xs ++ A' ∧ ys = A' ++ D :: R
  | [], _, A, h, _ => ⟨A, rfl, h⟩
  | x :: xs, ys, [], h, hn => by
    simp only [List.cons_append, List.nil_append, List.cons.injEq] at h
    exact absurd (by rw [h.1]; simp) hn
  | x :: xs, ys, a :: A, h, hn => by
    simp only [List.cons_append, List.cons.injEq] at h
    obtain ⟨A', rfl, rfl⟩ := split_front h.2 fun hm => hn (List.mem_cons_of_mem _ hm)
    exact ⟨A', by rw [h.1]; rfl, rfl⟩

theorem split_either {α : Type} {D : α} {R : List α} : ∀ {xs ys A : List α}, xs ++ ys = A ++ D :: R →
    (∃ R', xs = A ++ D :: R' ∧ R = R' ++ ys) ∨ ∃ A', A = xs ++ A' ∧ ys = A' ++ D :: R
  | [], _, A, h => .inr ⟨A, rfl, h⟩
  | x :: xs, ys, [], h => by
    simp only [List.cons_append, List.nil_append, List.cons.injEq] at h
    exact .inl ⟨xs, by rw [h.1]; rfl, h.2.symm⟩
  | x :: xs, ys, a :: A, h => by
    simp only [List.cons_append, List.cons.injEq] at h
    rcases split_either h.2 with ⟨R', rfl, rfl⟩ | ⟨A', rfl, rfl⟩
    · exact .inl ⟨R', by rw [h.1]; rfl, rfl⟩
    · exact .inr ⟨A', by rw [h.1]; rfl, rfl⟩

/-- not an error about names or values -/
def Diag.Late : Diag → Prop
  | .unterminated => True
  | .unknownAttribute => True
  | .unknownModifier _ => True
  | _ => False

theorem raw_late {D : Diag} (hD : D.Late) {run : Toks} : Issue.report D ∉ rawIssues run := by
  intro h
  simp only [rawIssues, List.mem_map] at h
  obtain ⟨i, -, h⟩ := h
  cases h
  exact hD

theorem name_late {D : Diag} {n : Str} : Issue.report D ∉ nameIssues n := by
  unfold nameIssues; split <;> simp

theorem tag_late {D : Diag} (hD : D.Late) {ts rest : Toks} {is : List Issue} {tag : Tag}
    (h : ReadsTag pp ts is tag rest) : Issue.report D ∉ is := by
  cases h with
  | path => simp
  | name => exact raw_late hD
  | crash => simp [raw_late hD]

theorem sels_late {D : Diag} (hD : D.Late) {ts rest : Toks} {is : List Issue} {sels : List Selector}
    (h : ReadsSels ts is sels rest) : Issue.report D ∉ is := by
  induction h with
  | cls _ _ ih | id _ _ ih => simp [raw_late hD, ih]
  | done => simp

theorem eq_late {D : Diag} (hD : D.Late) {ts rest : Toks} {is : List Issue} {v : Option Value}
    (h : ReadsEq ts is v rest) : Issue.report D ∉ is := by
  cases h with
  | none => simp
  | some h =>
    cases h with
    | value => simp
    | missing => intro h; simp at h; subst h; exact hD

theorem key_late {D : Diag} (hD : D.Late) {ts rest : Toks} {is : List Issue} {k : KebabOrStr}
    (h : ReadsKey ts is k rest) : Issue.report D ∉ is := by
  cases h with
  | str => simp
  | name => exact raw_late hD

theorem attrs_late {D : Diag} (hD : D.Late) {ts rest : Toks} {is : List Issue} {as : List Attr}
    (h : ReadsAttrs ts is as rest) : Issue.report D ∉ is := by
  induction h with
  | short _ _ ih => simp [raw_late hD, name_late, ih]
  | spread _ ih => exact ih
  | kv _ _ he _ ih => simp [raw_late hD, eq_late hD he, ih]
  | dirShort _ _ _ ih => simp [raw_late hD, name_late, ih]
  | dir hk _ he _ ih => simp [key_late hD hk, eq_late hD he, ih]
  | dirMore => simp [raw_late hD]
  | dirNoName => simp
  | dirNoKey => simp
  | dirShortNoModifier => simp [raw_late hD, name_late]
  | dirNoModifier hk => simp [key_late hD hk]
  | brace => exact raw_late hD
  | done => simp

/-! ### no tag before a semicolon -/

theorem afterFirst_semi (a : TT) (u : Toks) (s : Spacing) :
    ∃ v, ∀ x, afterFirst (a :: u ++ .punct ';' s :: x) = v ++ .punct ';' s :: x := by
  by_cases h : a = .punct '\'' .joint ∧ ∃ i u', u = .ident i :: u'
  · obtain ⟨rfl, i, u', rfl⟩ := h
    exact ⟨u', fun x => rfl⟩
  · refine ⟨u, fun x => ?_⟩
    show afterFirst (a :: (u ++ .punct ';' s :: x)) = _
    unfold afterFirst
    split
    · rename_i i r he
      exfalso
      simp only [List.cons.injEq] at he
      refine h ⟨he.1, ?_⟩
      cases u with
      | nil => simp at he
      | cons b u => simp only [List.cons_append, List.cons.injEq] at he; exact ⟨i, u, by rw [he.2.1]⟩
    · rename_i he; exact (List.cons.inj he).2.symm
    · rename_i he; cases he

theorem colons_semi {u : Toks} {s : Spacing} {x : Toks} (x' : Toks) (h : StartsColons (u ++ .punct ';' s :: x)) :
    StartsColons (u ++ .punct ';' s :: x') := by
  obtain ⟨s', r, he⟩ := h
  rcases u with _ | ⟨a, _ | ⟨b, u⟩⟩
  · simp at he
  · simp at he
  · simp only [List.cons_append, List.cons.injEq] at he
    exact ⟨s', u ++ .punct ';' s :: x', by rw [he.1, he.2.1]; rfl⟩

theorem angle_semi {u : Toks} {s : Spacing} {x : Toks} (x' : Toks) (h : StartsAngle (u ++ .punct ';' s :: x)) :
    StartsAngle (u ++ .punct ';' s :: x') := by
  obtain ⟨s', r, he⟩ := h
  rcases u with _ | ⟨a, u⟩
  · simp at he
  · simp only [List.cons_append, List.cons.injEq] at he
    exact ⟨s', u ++ .punct ';' s :: x', by rw [he.1]; rfl⟩

theorem pathStart_semi {u : Toks} (hu : u ≠ []) {s : Spacing} {x : Toks} (x' : Toks)
    (h : PathStart (u ++ .punct ';' s :: x)) : PathStart (u ++ .punct ';' s :: x') := by
  cases u with
  | nil => exact absurd rfl hu
  | cons a u =>
    obtain ⟨v, hv⟩ := afterFirst_semi a u s
    rcases h with h | h | h
    · exact .inl (colons_semi x' h)
    · rw [hv] at h
      exact .inr (.inl (by rw [hv]; exact colons_semi x' h))
    · rw [hv] at h
      exact .inr (.inr (by rw [hv]; exact angle_semi x' h))

theorem Front.not_punct {x x' : Toks} (h : Front x x') {c : Char} (hc : c = ':' ∨ c = '<') :
    (∀ s r, x ≠ .punct c s :: r) ∧ ∀ s r, x' ≠ .punct c s :: r := by
  obtain ⟨t, r, r', rfl, rfl, ht⟩ := h.head
  constructor <;>
  · intro s y he
    rcases ht c s (List.cons.inj he).1 with rfl | rfl <;> simp at hc

theorem not_pathStart_semi {s : Spacing} {x : Toks} (h : ∀ c, c = ':' ∨ c = '<' → ∀ s r, x ≠ .punct c s :: r) :
    ¬ PathStart (.punct ';' s :: x) := by
  rintro (⟨s', r, he⟩ | ⟨s', r, he⟩ | ⟨s', r, he⟩)
  · simp at he
  · exact h ':' (.inl rfl) _ _ he
  · exact h '<' (.inr rfl) _ _ he

theorem noTag_swap (hfl : pp.FailsLocally) {r0 rest rest' : Toks} {e : Err} {s : Spacing}
    (h : NoTag pp r0 e (.punct ';' s :: rest)) (hf : Front rest rest') :
    ∃ u, r0 = u ++ .punct ';' s :: rest ∧ NoTag pp (u ++ .punct ';' s :: rest') e (.punct ';' s :: rest') ∧
      (u ≠ [] → PathStart (u ++ .punct ';' s :: rest')) := by
  generalize hq : TT.punct ';' s :: rest = q at h
  cases h with
  | path hps hrun =>
    subst hq
    obtain ⟨u, rfl⟩ := pp.suffix _ _ hrun
    have hu : u ≠ [] := by
      rintro rfl
      exact not_pathStart_semi (fun c hc => (hf.not_punct hc).1) hps
    have := pathStart_semi hu rest' hps
    exact ⟨u, rfl, .path this (hfl hrun), fun _ => this⟩
  | name hps hn =>
    subst hq
    exact ⟨[], rfl, .name (not_pathStart_semi fun c hc => (hf.not_punct hc).2) (punct_not_name (by decide)),
      fun h => absurd rfl h⟩

theorem noTagSemi_swap (hfl : pp.FailsLocally) {ts r0 rest rest' : Toks} {b : Bool} {e : Err} {s : Spacing}
    (hst : ElemStart ts b r0) (h : NoTag pp r0 e (.punct ';' s :: rest)) (hf : Front rest rest') :
    ∃ i p r0', ts = .ident i :: (p ++ rest) ∧ ElemStart (.ident i :: (p ++ rest')) b r0' ∧
      NoTag pp r0' e (.punct ';' s :: rest') := by
  obtain ⟨u, he, hnt, hps⟩ := noTag_swap hfl h hf
  cases hst with
  | @slot s1 _ hc =>
    refine ⟨plain c!"slot", .punct ':' s1 :: (u ++ [.punct ';' s]), _, by rw [he]; simp, ?_, hnt⟩
    have : ElemStart (.ident (plain c!"slot") :: .punct ':' s1 :: (u ++ .punct ';' s :: rest')) true
        (u ++ .punct ';' s :: rest') := by
      refine .slot ?_
      rintro ⟨s', r', he'⟩
      cases u with
      | nil => simp at he'
      | cons a ut =>
        simp only [List.cons_append, List.cons.injEq] at he'
        exact hc ⟨s', ut ++ .punct ';' s :: rest, by rw [he, he'.1, ← he'.2.1]; rfl⟩
    simpa using this
  | @elem i r hn hns =>
    cases u with
    | nil => simp at he
    | cons a u =>
      obtain rfl : a = .ident i := (List.cons.inj he).1.symm
      refine ⟨i, u ++ [.punct ';' s], _, by rw [he]; simp, ?_, hnt⟩
      have : ElemStart (.ident i :: (u ++ .punct ';' s :: rest')) false (.ident i :: (u ++ .punct ';' s :: rest')) := by
        refine .elem ?_ (not_slotStart_path (hps (by simp)))
        exact (swap_punct (s := s) (r := rest) (r' := rest') (.inl rfl)).noValue (u := .ident i :: u)
          (by rw [he] at hn; exact hn)
      simpa using this

/-! ### all of it -/

theorem within_suffix {y b : Toks} : ∀ {a : Toks}, Within y b → Within y (a ++ b)
  | [], h => h
  | _ :: a, h => .tail (within_suffix (a := a) h)

/-- If a path ends where the end of an element is missing, then not in front of `:` or `<`. -/
def PathsEnd (pp : PathParser) (D : Diag) (ds : List Issue) (ts : Toks) : Prop :=
  ∀ y p rest, Within y ts → PathStart y → pp.run y = (some p, rest) → Unended D ds rest →
    (∀ s r, rest ≠ .punct ':' s :: r) ∧ ∀ s r, rest ≠ .punct '<' s :: r

theorem PathsEnd.suffix {D : Diag} {ds : List Issue} {a b : Toks} (h : PathsEnd pp D ds (a ++ b)) :
    PathsEnd pp D ds b := fun y p rest hy => h y p rest (within_suffix hy)

theorem PathsEnd.group {D : Diag} {ds : List Issue} {d : Delim} {c r : Toks} (hd : d ≠ .bracket)
    (h : PathsEnd pp D ds (.group d c :: r)) : PathsEnd pp D ds c :=
  fun y p rest hy => h y p rest (.group hd hy)

theorem value_front {v : CVal} {rest rest' : Toks} (hf : Front rest rest') :
    Front (v.toks ++ rest) (v.toks ++ rest') := by
  cases v with
  | lit x => exact hf.prefix (v := []) (by simp)
  | bool b => exact hf.prefix (v := []) (by simp)
  | neg s f x => exact hf.prefix (v := [_]) (by rintro c s ⟨⟩; exact .inl rfl)
  | block x => exact hf.prefix (v := []) (by simp)
  | bracket p x =>
    cases p with
    | none => exact hf.prefix (v := []) (by simp)
    | some p => exact hf.prefix (v := [_]) (by simp)

theorem value_bracket {v : CVal} {rest rest' : Toks} (hf : Front rest rest')
    (h : ∀ b, v = .bool b → ∀ c r, rest ≠ .group .bracket c :: r) :
    ∀ b, v = .bool b → ∀ c r, rest' ≠ .group .bracket c :: r := by
  obtain ⟨t, r, r', rfl, rfl, -⟩ := hf.head
  intro b hb c y he
  exact h b hb c r (by rw [(List.cons.inj he).1])

/-- what can be done about the end of an element -/
def EndFix (pp : PathParser) (D : Diag) (ds : List Issue) (x : Toks) (ei : List Issue) (args : Option Toks)
    (block : Option (List Child)) (r4 : Toks) : Prop :=
  ¬ NameStart x → PathsEnd pp D ds x → ∀ {A R : List Issue}, OnlyReports A → ei = A ++ .report D :: R →
    ∃ B x', R = ds ++ B ∧ ReadsEnd pp x' (A ++ B) args block r4 ∧ Swap x x' ∧ AttrsStop x x' ∧
      Somewhere (SemiAt D ds) x x' ∧
      (Unended D ds x ∨ (∀ s r, x ≠ .punct ':' s :: r) ∧ ∀ s r, x ≠ .punct '<' s :: r)

/-- what can be done about children -/
def ChildrenFix (pp : PathParser) (D : Diag) (ds : List Issue) (ts : Toks) (is : List Issue) (cs : List Child) : Prop :=
  PathsEnd pp D ds ts → ∀ {A R : List Issue}, OnlyReports A → is = A ++ .report D :: R →
    ∃ B ts', R = ds ++ B ∧ ReadsChildren pp ts' (A ++ B) cs ∧ Front ts ts' ∧ Somewhere (SemiAt D ds) ts ts'

theorem children_fix (hpp : pp.Starts) (hloc : pp.Local) (hfl : pp.FailsLocally) {D : Diag} {ds : List Issue} (hD : D.Late)
    (hU : ∀ {x}, Unended D [] x ∨ Unended D [.report .childrenNotFound] x → Unended D ds x)
    {ts : Toks} {is : List Issue} {cs : List Child} (h : ReadsChildren pp ts is cs) : ChildrenFix pp D ds ts is cs := by
  refine ReadsChildren.rec (motive_1 := fun x ei args block r4 _ => EndFix pp D ds x ei args block r4)
    (motive_2 := fun ts is cs _ => ChildrenFix pp D ds ts is cs) ?_ ?_ ?_ ?_ ?_ ?_ ?_ ?_ ?_ ?_ ?_ ?_ ?_ ?_ ?_ h
  · intro s rest hx hg A R hi he
    simp at he
  · intro d c r4 is cs hd hc ih hx hg A R hi he
    obtain ⟨B, c', rfl, hc', hf, hs⟩ := ih (hg.group hd) hi he
    exact ⟨B, .group d c' :: r4, rfl, .block hd hc', swap_group, attrsStop_group (.inr hf),
      .inside [] r4 hd hs, .inr ⟨by simp, by simp⟩⟩
  · intro s args s' d c r4 is cs hn hd hc ih hx hg A R hi he
    have hg' : PathsEnd pp D ds (.group d c :: r4) := PathsEnd.suffix (a := .punct '|' s :: (args ++ [.punct '|' s']))
      (by simpa using hg)
    obtain ⟨B, c', rfl, hc', hf, hs⟩ := ih (hg'.group hd) hi he
    refine ⟨B, _, rfl, .closure (s := s) (s' := s') hn hd hc', swap_punct (.inr rfl), attrsStop_punct (by decide), ?_,
      .inr ⟨by simp, by simp⟩⟩
    have := Somewhere.inside (.punct '|' s :: (args ++ [.punct '|' s'])) r4 hd hs
    simpa using this
  · intro hx hg A R hi he
    rcases A with _ | ⟨a, A⟩
    · simp only [List.nil_append, List.cons.injEq, Issue.report.injEq] at he
      obtain ⟨rfl, rfl⟩ := he
      have hu := hU (.inl .nothing)
      cases hu
      exact ⟨[], [.punct ';' .alone], rfl, .semi, ⟨nil_not_name, .inl ⟨_, _, rfl⟩, by
        intro c s r he; cases he; exact .inl rfl⟩,
        attrsStop_plain (by simp) (by simp) (punct_not_name (by decide)), .here ⟨[], [], .nothing, rfl, rfl⟩,
        .inl .nothing⟩
    · simp at he
  · intro s args s' rest _ _ hx hg A R hi he
    rcases A with _ | ⟨a, A⟩
    · simp only [List.nil_append, List.cons.injEq, Issue.report.injEq] at he
      obtain ⟨rfl, -⟩ := he
      exact hD.elim
    · simp at he
  · intro t r h1 h2 h3 hx hg A R hi he
    rcases A with _ | ⟨a, _ | ⟨b, A⟩⟩
    · simp only [List.nil_append, List.cons.injEq, Issue.report.injEq] at he
      obtain ⟨rfl, rfl⟩ := he
      have hu := hU (.inr (.other h1 h2 h3 (r := r)))
      cases hu
      refine ⟨[], .punct ';' .alone :: t :: r, rfl, .semi, ⟨hx, .inl ⟨_, _, rfl⟩, by
        intro c s r he; cases he; exact .inl rfl⟩,
        attrsStop_plain ?_ (by simp) (punct_not_name (by decide)), .here ⟨[], t :: r, .other h1 h2 h3, rfl, rfl⟩,
        .inl (.other h1 h2 h3)⟩
      intro c r' he
      have := h3 _ _ (List.cons.inj he).1
      simp at this
    · simp only [List.cons_append, List.nil_append, List.cons.injEq, Issue.report.injEq] at he
      obtain ⟨-, rfl, -⟩ := he
      exact hD.elim
    · simp at he
  · intro hg A R hi he
    simp at he
  · intro v rest is cs hb hw hr ih hg A R hi he
    obtain ⟨B, rest', rfl, hr', hf, hs⟩ := ih hg.suffix hi he
    exact ⟨B, v.toks ++ rest', rfl, .value (value_bracket hf hb) hw hr', value_front hf, SemiAt.prefix hs _⟩
  · intro v rest is cs hb hw hr ih hg A R hi he
    obtain ⟨A1, rfl, rfl⟩ := split_front (xs := [Issue.report .nonStringChild]) he (by
      intro hm; simp at hm; subst hm; exact hD)
    obtain ⟨B, rest', rfl, hr', hf, hs⟩ := ih hg.suffix (OnlyReports.append.mp hi).2 rfl
    exact ⟨B, v.toks ++ rest', rfl, .literal (value_bracket hf hb) hw hr', value_front hf, SemiAt.prefix hs _⟩
  · intro ts isSlot r0 ti tag r1 si sels r2 ai attrs r3 ei args block r4 is cs hst ht hs ha hend hr ihe ihr hg A R hi he
    obtain ⟨A1, rfl, he1⟩ := split_front he (tag_late hD ht)
    obtain ⟨A2, rfl, he2⟩ := split_front he1 (sels_late hD hs)
    obtain ⟨A3, rfl, he3⟩ := split_front he2 (attrs_late hD ha)
    obtain ⟨hti, hi1⟩ := OnlyReports.append.mp hi
    obtain ⟨hsi, hi2⟩ := OnlyReports.append.mp hi1
    obtain ⟨hai, hi3⟩ := OnlyReports.append.mp hi2
    obtain ⟨-, -, hx⟩ := attrs_left ha hai
    obtain ⟨ua, hua⟩ := ha.suffix
    obtain ⟨us, hus⟩ := hs.suffix
    obtain ⟨ut, hut⟩ := ht.suffix
    obtain ⟨u0, hu0⟩ := hst.suffix
    have hg3 : PathsEnd pp D ds r3 := by
      rw [hu0, hut, hus, hua] at hg
      exact hg.suffix.suffix.suffix.suffix
    have hg0 : PathsEnd pp D ds r0 := by rw [hu0] at hg; exact hg.suffix
    rcases split_either he3 with ⟨R', rfl, rfl⟩ | ⟨A', rfl, rfl⟩
    · obtain ⟨B, x', rfl, hend', hsw, hstop, hsome, hor⟩ := ihe hx hg3 hi3 rfl
      obtain ⟨u, r0', r1', r2', rfl, hst', ht', hs', ha', hf⟩ := elem_swap hpp hloc hst ht hs ha hti hai hsw hstop (by
        intro p h1 h2
        rcases hor with h | h
        · exact hg0 r0 p r3 (.here _) h1 h2 h
        · exact h)
      refine ⟨B ++ is, u ++ x', by simp, ?_, hf, SemiAt.prefix hsome _⟩
      have := ReadsChildren.elem hst' ht' hs' ha' hend' hr
      simpa using this
    · have hg4 : PathsEnd pp D ds r4 := by
        obtain ⟨u4, hu4⟩ := hend.suffix
        rw [hu4] at hg3
        exact hg3.suffix
      obtain ⟨B, r4', rfl, hr', hf4, hsome⟩ := ihr hg4 (OnlyReports.append.mp hi3).2 rfl
      obtain ⟨p, hp, hend', hsw, hstop, hc1, hc2⟩ := end_front hend hx hf4
      obtain ⟨u, r0', r1', r2', rfl, hst', ht', hs', ha', hf⟩ := elem_swap hpp hloc hst ht hs ha hti hai hsw hstop
        (fun _ _ _ => ⟨hc1, hc2⟩)
      refine ⟨B, u ++ (p ++ r4'), rfl, ?_, hf, ?_⟩
      · have := ReadsChildren.elem hst' ht' hs' ha' hend' hr'
        simpa using this
      · rw [hp]
        exact SemiAt.prefix (SemiAt.prefix hsome _) _
  · intro ts isSlot r0 ti tag r1 si sels r2 ai attrs s args hst ht hs ha hn hg A R hi he
    exfalso
    obtain ⟨A1, rfl, he1⟩ := split_front he (tag_late hD ht)
    obtain ⟨A2, rfl, he2⟩ := split_front he1 (sels_late hD hs)
    obtain ⟨A3, rfl, he3⟩ := split_front he2 (attrs_late hD ha)
    obtain ⟨A4, rfl, he4⟩ := split_front (xs := [Issue.report (.synError .closureNotClosed)]) (ys := []) he3 (by
      intro hm; simp at hm; subst hm; exact hD)
    simp at he4
  · intro ts isSlot r0 e s rest is cs hst hnt hr ih hg A R hi he
    obtain ⟨A1, rfl, rfl⟩ := split_front (xs := [Issue.report .extraSemicolon]) he (by
      intro hm; simp at hm; subst hm; exact hD)
    have hgr : PathsEnd pp D ds rest := by
      obtain ⟨u0, hu0⟩ := hst.suffix
      obtain ⟨u1, hu1⟩ := hnt.suffix
      rw [hu0, hu1] at hg
      exact PathsEnd.suffix (a := [.punct ';' s]) hg.suffix.suffix
    obtain ⟨B, rest', rfl, hr', hf, hsome⟩ := ih hgr (OnlyReports.append.mp hi).2 rfl
    obtain ⟨i, p, r0', rfl, hst', hnt'⟩ := noTagSemi_swap hfl hst hnt hf
    exact ⟨B, .ident i :: (p ++ rest'), rfl, .noTagSemi hst' hnt' hr', hf.prefix (by simp),
      SemiAt.prefix hsome (.ident i :: p)⟩
  · intro ts isSlot r0 e rest hst hnt hr hg A R hi he
    exfalso
    obtain ⟨A1, rfl, he1⟩ := split_front (xs := [_]) (ys := []) he (by
      intro hm; simp at hm; subst hm; exact hD)
    simp at he1
  · intro s rest is cs hr ih hg A R hi he
    obtain ⟨A1, rfl, rfl⟩ := split_front (xs := [Issue.report .extraSemicolon]) he (by
      intro hm; simp at hm; subst hm; exact hD)
    obtain ⟨B, rest', rfl, hr', hf, hs⟩ := ih (PathsEnd.suffix (a := [.punct ';' s]) hg) (OnlyReports.append.mp hi).2 rfl
    exact ⟨B, .punct ';' s :: rest', rfl, .semi hr', hf.prefix (v := []) (by rintro c s ⟨⟩; exact .inr rfl),
      SemiAt.prefix hs [.punct ';' s]⟩
  · intro t r h1 h2 h3 hg A R hi he
    exfalso
    obtain ⟨A1, rfl, he1⟩ := split_front (xs := [_]) (ys := []) he (by
      intro hm; simp at hm; subst hm; exact hD)
    simp at he1

end Mview
