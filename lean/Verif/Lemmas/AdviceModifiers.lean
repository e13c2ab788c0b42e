import Verif.Lemmas.AdviceIssues
/-
Writing another modifier.
-/

namespace Mview
open Lex

variable {pp : PathParser}

/-! ### a different name after a colon -/

theorem follow_colon {i : Ident} {s : Spacing} {y y' : Toks} :
    Follow (.ident i :: .punct ':' s :: y) (.ident i :: .punct ':' s :: y') where
  softer u := by
    cases u with
    | nil => exact .of_head (x := [])
    | cons t u => exact .append (by simp)
  punct u c s' r hc he := by
    cases u with
    | nil => simp at he
    | cons t u =>
      simp only [List.cons_append, List.cons.injEq] at he
      exact ⟨s', _, by rw [he.1]; rfl⟩
  bracket u x r he := by
    cases u with
    | nil => simp at he
    | cons t u =>
      simp only [List.cons_append, List.cons.injEq] at he
      exact ⟨x, _, by rw [he.1]; rfl⟩
  noValue u hn := by
    intro v r he
    rcases u with _ | ⟨a, _ | ⟨b, u⟩⟩
    · cases v with
      | bool b =>
        simp only [CVal.toks, List.cons_append, List.nil_append, List.cons.injEq] at he
        exact hn (.bool b) (.punct ':' s :: y) (by simp [CVal.toks, he.1])
      | lit x => simp [CVal.toks] at he
      | neg s f x => simp [CVal.toks] at he
      | block x => simp [CVal.toks] at he
      | bracket p x => cases p <;> simp [CVal.toks] at he
    · cases v with
      | bool b =>
        simp only [CVal.toks, List.cons_append, List.nil_append, List.cons.injEq] at he
        exact hn (.bool b) (.ident i :: .punct ':' s :: y) (by simp [CVal.toks, he.1])
      | lit x =>
        simp only [CVal.toks, List.cons_append, List.nil_append, List.cons.injEq] at he
        exact hn (.lit x) (.ident i :: .punct ':' s :: y) (by simp [CVal.toks, he.1])
      | neg s f x => simp [CVal.toks] at he
      | block x =>
        simp only [CVal.toks, List.cons_append, List.nil_append, List.cons.injEq] at he
        exact hn (.block x) (.ident i :: .punct ':' s :: y) (by simp [CVal.toks, he.1])
      | bracket p x =>
        cases p with
        | none =>
          simp only [CVal.toks, List.cons_append, List.nil_append, List.cons.injEq] at he
          exact hn (.bracket none x) (.ident i :: .punct ':' s :: y) (by simp [CVal.toks, he.1])
        | some p => simp [CVal.toks] at he
    · have : ∃ r', v.toks ++ r' = a :: b :: u ++ .ident i :: .punct ':' s :: y := by
        cases v with
        | bracket p x =>
          cases p with
          | none => simp only [CVal.toks, List.cons_append, List.nil_append, List.cons.injEq] at he ⊢; exact ⟨_, he.1.symm, rfl⟩
          | some p =>
            simp only [CVal.toks, List.cons_append, List.nil_append, List.cons.injEq] at he ⊢
            exact ⟨_, he.1.symm, he.2.1.symm, rfl⟩
        | neg s f x =>
          simp only [CVal.toks, List.cons_append, List.nil_append, List.cons.injEq] at he ⊢
          exact ⟨_, he.1.symm, he.2.1.symm, rfl⟩
        | _ => simp only [CVal.toks, List.cons_append, List.nil_append, List.cons.injEq] at he ⊢; exact ⟨_, he.1.symm, rfl⟩
      obtain ⟨r', hr'⟩ := this
      exact hn v r' hr'.symm
  word u := by
    constructor
    · rintro ⟨j, r, he, hj⟩
      cases u with
      | nil => simp only [List.nil_append, List.cons.injEq] at he; exact ⟨j, _, by rw [← he.1]; rfl, hj⟩
      | cons t u => simp only [List.cons_append, List.cons.injEq] at he; exact ⟨j, _, by rw [he.1]; rfl, hj⟩
    · rintro ⟨j, r, he, hj⟩
      cases u with
      | nil => simp only [List.nil_append, List.cons.injEq] at he; exact ⟨j, _, by rw [← he.1]; rfl, hj⟩
      | cons t u => simp only [List.cons_append, List.cons.injEq] at he; exact ⟨j, _, by rw [he.1]; rfl, hj⟩
  sels_end u hy := by
    intro c s' r he hc hn
    cases u with
    | nil => simp at he
    | cons t u =>
      simp only [List.cons_append, List.cons.injEq] at he
      obtain ⟨rfl, rfl⟩ := he
      refine hy c s' _ rfl hc ?_
      obtain ⟨t', r', he', ht'⟩ := hn
      cases u with
      | nil => simp only [List.nil_append, List.cons.injEq] at he'; exact ⟨t', _, by rw [← he'.1]; rfl, ht'⟩
      | cons a u => simp only [List.cons_append, List.cons.injEq] at he'; exact ⟨t', _, by rw [he'.1]; rfl, ht'⟩

theorem front_colon {i : Ident} {u : Toks} {s : Spacing} {y y' : Toks} :
    Front (.ident i :: u ++ .punct ':' s :: y) (.ident i :: u ++ .punct ':' s :: y') := by
  refine ⟨⟨.ident i, _, _, rfl, rfl, by simp⟩, ?_⟩
  intro w run z hk
  obtain ⟨z0, hz⟩ : ∃ z0, w ++ (.ident i :: u) = run ++ z0 := by
    have hs : (w ++ (.ident i :: u)) ++ .punct ':' s :: y = run ++ z := by rw [← hk.split]; simp
    rcases List.append_eq_append_iff.mp hs with ⟨m, hm, hm'⟩ | ⟨m, hm, -⟩
    · cases m with
      | nil => exact ⟨[], by rw [hm]; simp⟩
      | cons a m =>
        simp only [List.cons_append, List.cons.injEq] at hm'
        have := kebab_token hk.kebab (c := ':') (s := s) (by rw [hm, ← hm'.1]; simp)
        simp at this
    · exact ⟨m, hm⟩
  have e1 : ∀ y, w ++ (.ident i :: u ++ .punct ':' s :: y) = run ++ (z0 ++ .punct ':' s :: y) := by
    intro y; rw [← List.append_assoc, hz, List.append_assoc]
  have e3 := List.append_cancel_left (hk.split.symm.trans (e1 y))
  rw [e1, e3] at hk
  refine ⟨z0 ++ .punct ':' s :: y', by simp, ?_⟩
  rw [e1]
  refine hk.softer (.append_left (.of_neither rfl rfl))

/-! ### attributes -/

/-- A directive with another modifier. -/
inductive AttrEdit (m m' : Ident) : Attr → Attr → Prop
  | mk (d : Ident) (k : KebabOrStr) (v : Option Value) :
      AttrEdit m m' (.directive ⟨d, k, some m, v⟩) (.directive ⟨d, k, some m', v⟩)

/-- A name after a colon is replaced. -/
def Recolon (m m' : Ident) (ts ts' : Toks) : Prop :=
  ∃ pre s post, ts = pre ++ .punct ':' s :: .ident m :: post ∧ ts' = pre ++ .punct ':' s :: .ident m' :: post

theorem Recolon.prefix {m m' : Ident} {ts ts' : Toks} (h : Recolon m m' ts ts') (p : Toks) :
    Recolon m m' (p ++ ts) (p ++ ts') := by
  obtain ⟨pre, s, post, rfl, rfl⟩ := h
  exact ⟨p ++ pre, s, post, by simp, by simp⟩

/-- Replaced after something that starts with `name:`. -/
def Recolon' (m m' : Ident) (ts ts' : Toks) : Prop :=
  ∃ w i s y y', ts = w ++ .ident i :: .punct ':' s :: y ∧ ts' = w ++ .ident i :: .punct ':' s :: y' ∧ Recolon m m' y y'

theorem Recolon'.follow {m m' : Ident} {ts ts' : Toks} (h : Recolon' m m' ts ts') : Follow ts ts' := by
  obtain ⟨w, i, s, y, y', rfl, rfl, -⟩ := h
  exact follow_colon.prefix w

theorem Recolon'.prefix {m m' : Ident} {ts ts' : Toks} (h : Recolon' m m' ts ts') (p : Toks) :
    Recolon' m m' (p ++ ts) (p ++ ts') := by
  obtain ⟨w, i, s, y, y', rfl, rfl, h⟩ := h
  exact ⟨p ++ w, i, s, y, y', by simp, by simp, h⟩

theorem attrs_edit {m m' : Ident} {ts left : Toks} {is : List Issue} {as : List Attr}
    (hr : ReadsAttrs ts is as left) : ∀ {as1 a a' as2}, as = as1 ++ a :: as2 → AttrEdit m m' a a' →
    ∃ ts', ReadsAttrs ts' is (as1 ++ a' :: as2) left ∧ Recolon' m m' ts ts' := by
  induction hr with
  | @short c rest is as left hc hr ih =>
    intro as1 a a' as2 he hm
    cases as1 with
    | nil => cases hm; simp at he
    | cons b as1 =>
      simp only [List.cons_append, List.cons.injEq] at he
      obtain ⟨ts', h1, h2⟩ := ih he.2 hm
      rw [← he.1]
      exact ⟨.group .brace c :: ts', .short hc h1, h2.prefix [_]⟩
  | @spread s e rest is as left hr ih =>
    intro as1 a a' as2 he hm
    cases as1 with
    | nil => cases hm; simp at he
    | cons b as1 =>
      simp only [List.cons_append, List.cons.injEq] at he
      obtain ⟨ts', h1, h2⟩ := ih he.2 hm
      rw [← he.1]
      exact ⟨_, .spread h1, h2.prefix [_]⟩
  | @kv ts run rest js v rest' is as left hk hne he' hr ih =>
    intro as1 a a' as2 he hm
    cases as1 with
    | nil => cases hm; simp at he
    | cons b as1 =>
      simp only [List.cons_append, List.cons.injEq] at he
      obtain ⟨ts', h1, h2⟩ := ih he.2 hm
      rw [← he.1]
      obtain ⟨x, rfl, hx, -⟩ := eq_swap (u := []) h2.follow he'
      obtain ⟨hsp, hk⟩ := hk.split_at
      subst hsp
      refine ⟨run ++ (x ++ ts'), .kv (hk.softer (h2.follow.softer x)) ?_ hx h1, ?_⟩
      · intro d s r hde
        rcases run with _ | ⟨a, _ | ⟨b, run⟩⟩
        · exact absurd rfl hk.kebab.nonempty
        · simp only [List.cons_append, List.nil_append, List.cons.injEq] at hde
          obtain ⟨s', r', h'⟩ := h2.follow.punct x ':' s r (by decide) hde.2
          exact hne d s' r' (by rw [List.nil_append, h', hde.1]; rfl)
        · simp only [List.cons_append, List.cons.injEq] at hde
          exact hne d s (run ++ (x ++ rest')) (by rw [hde.1, ← hde.2.1]; rfl)
      · have := h2.prefix (run ++ x)
        simpa using this
  | @dirShort d s c rest m0 rest' is as left hc hm' hr ih =>
    intro as1 a a' as2 he hm
    cases as1 with
    | nil =>
      cases hm
      simp only [List.nil_append, List.cons.injEq, Attr.directive.injEq, Directive.mk.injEq] at he
      obtain ⟨⟨rfl, rfl, rfl, rfl⟩, rfl⟩ := he
      cases hm' with
      | @some s' _ _ =>
        refine ⟨.ident d :: .punct ':' s :: .group .brace c :: .punct ':' s' :: .ident m' :: rest', .dirShort hc .some hr, [], d, s, _, _, rfl, rfl, ?_⟩
        exact ⟨[.group .brace c], s', rest', rfl, rfl⟩
    | cons b as1 =>
      simp only [List.cons_append, List.cons.injEq] at he
      obtain ⟨ts', h1, h2⟩ := ih he.2 hm
      rw [← he.1]
      obtain ⟨x, rfl, hx, -⟩ := modifier_swap (y' := ts') (fun s r he => h2.follow.punct [] _ s r (by decide) he) hm'
      refine ⟨.ident d :: .punct ':' s :: .group .brace c :: (x ++ ts'), .dirShort hc hx h1, ?_⟩
      have := h2.prefix (.ident d :: .punct ':' s :: .group .brace c :: x)
      simpa using this
  | @dir d s ts ks key r1 m0 r2 js v r3 is as left hk hm' he' hr ih =>
    intro as1 a a' as2 he hm
    cases as1 with
    | nil =>
      cases hm
      simp only [List.nil_append, List.cons.injEq, Attr.directive.injEq, Directive.mk.injEq] at he
      obtain ⟨⟨rfl, rfl, rfl, rfl⟩, rfl⟩ := he
      cases hm' with
      | @some s' _ _ =>
        obtain ⟨z, rfl, hz⟩ := key_swap (y' := .punct ':' s' :: .ident m' :: r2) (.of_head (x := [])) hk
        refine ⟨.ident d :: .punct ':' s :: (z ++ .punct ':' s' :: .ident m' :: r2), .dir hz .some he' hr, [], d, s, _, _, rfl, rfl, ?_⟩
        exact ⟨z, s', r2, rfl, rfl⟩
    | cons b as1 =>
      simp only [List.cons_append, List.cons.injEq] at he
      obtain ⟨ts', h1, h2⟩ := ih he.2 hm
      rw [← he.1]
      obtain ⟨x, rfl, hx, -⟩ := eq_swap (u := []) h2.follow he'
      obtain ⟨y, rfl, hy, -⟩ := modifier_swap (y' := x ++ ([] ++ ts')) (fun s r he => h2.follow.punct x _ s r (by decide) he) hm'
      obtain ⟨z, rfl, hz⟩ := key_swap (y' := y ++ (x ++ ([] ++ ts'))) (.append_left (h2.follow.softer x)) hk
      refine ⟨.ident d :: .punct ':' s :: (z ++ (y ++ (x ++ ([] ++ ts')))), .dir hz hy hx h1, ?_⟩
      have := h2.prefix (.ident d :: .punct ':' s :: (z ++ (y ++ x)))
      simpa using this
  | _ => intro as1 a a' as2 he; simp at he

/-! ### trees -/

/-- One directive of a tree has another modifier. -/
inductive ChildrenEdit (m m' : Ident) : List Child → List Child → Prop
  | attr (b : Bool) (tag : Tag) (sels : List Selector) (as1 : List Attr) {a a' : Attr} (as2 : List Attr)
      (args : Option Toks) (block : Option (List Child)) (cs : List Child) : AttrEdit m m' a a' →
      ChildrenEdit m m' (asChild b (.mk tag sels (as1 ++ a :: as2) args block) :: cs)
        (asChild b (.mk tag sels (as1 ++ a' :: as2) args block) :: cs)
  | inside (b : Bool) (tag : Tag) (sels : List Selector) (as : List Attr) (args : Option Toks)
      {bs bs' : List Child} (cs : List Child) : ChildrenEdit m m' bs bs' →
      ChildrenEdit m m' (asChild b (.mk tag sels as args (some bs)) :: cs)
        (asChild b (.mk tag sels as args (some bs')) :: cs)
  | later (c : Child) {cs cs' : List Child} : ChildrenEdit m m' cs cs' → ChildrenEdit m m' (c :: cs) (c :: cs')

theorem asChild_inj {b b' : Bool} {e e' : Element} (h : asChild b e = asChild b' e') : b = b' ∧ e = e' := by
  cases b <;> cases b' <;> simp_all [asChild]

theorem asChild_value {b : Bool} {e : Element} {v : Value} : asChild b e ≠ .value v := by
  cases b <;> simp [asChild]

theorem recolon_prefix {m m' : Ident} {ts ts' : Toks} (h : Somewhere (Recolon m m') ts ts') (p : Toks) :
    Somewhere (Recolon m m') (p ++ ts) (p ++ ts') := by
  cases h with
  | here h => exact .here (h.prefix p)
  | inside pre post hd h =>
    have := Somewhere.inside (p ++ pre) post hd h
    simpa using this

theorem Recolon'.recolon {m m' : Ident} {ts ts' : Toks} (h : Recolon' m m' ts ts') : Recolon m m' ts ts' := by
  obtain ⟨w, i, s, y, y', rfl, rfl, h⟩ := h
  have := h.prefix (w ++ [.ident i, .punct ':' s])
  simpa using this

/-- attributes that are there do not start with `:` or `<` -/
theorem attrs_start {ts left : Toks} {is : List Issue} {as : List Attr} (hr : ReadsAttrs ts is as left)
    (hne : as ≠ []) : ∀ c, c = ':' ∨ c = '<' → ∀ s r, ts ≠ .punct c s :: r := by
  intro c hc s r he
  have hc' : c ≠ '-' := by rcases hc with rfl | rfl <;> decide
  cases hr with
  | short | spread | dirShort | dir => cases he
  | kv hk => exact punct_not_name hc' (he ▸ hk.nameStart)
  | _ => exact hne rfl

def EndEdit (pp : PathParser) (m m' : Ident) (x : Toks) (ei : List Issue) (args : Option Toks)
    (block : Option (List Child)) (r4 : Toks) : Prop :=
  ∀ {bs bs'}, block = some bs → OnlyReports ei → ChildrenEdit m m' bs bs' →
    ∃ x', ReadsEnd pp x' ei args (some bs') r4 ∧ Swap x x' ∧ AttrsStop x x' ∧ Somewhere (Recolon m m') x x' ∧
      (∀ s r, x ≠ .punct ':' s :: r) ∧ ∀ s r, x ≠ .punct '<' s :: r

def ReadEdit (pp : PathParser) (m m' : Ident) (ts : Toks) (is : List Issue) (cs : List Child) : Prop :=
  ∀ {cs'}, OnlyReports is → ChildrenEdit m m' cs cs' →
    ∃ ts', ReadsChildren pp ts' is cs' ∧ Front ts ts' ∧ Somewhere (Recolon m m') ts ts'

theorem later_inv {m m' : Ident} {v : Value} {cs cs' : List Child} (h : ChildrenEdit m m' (.value v :: cs) cs') :
    ∃ d, cs' = .value v :: d ∧ ChildrenEdit m m' cs d := by
  generalize hq : Child.value v :: cs = q at h
  cases h with
  | attr => exact absurd (List.cons.inj hq).1.symm asChild_value
  | inside => exact absurd (List.cons.inj hq).1.symm asChild_value
  | later c h => cases hq; exact ⟨_, rfl, h⟩

theorem children_edit (hpp : pp.Starts) (hloc : pp.Local) (hfl : pp.FailsLocally) {m m' : Ident}
    {ts : Toks} {is : List Issue} {cs : List Child} (h : ReadsChildren pp ts is cs) : ReadEdit pp m m' ts is cs := by
  refine ReadsChildren.rec (motive_1 := fun x ei args block r4 _ => EndEdit pp m m' x ei args block r4)
    (motive_2 := fun ts is cs _ => ReadEdit pp m m' ts is cs) ?_ ?_ ?_ ?_ ?_ ?_ ?_ ?_ ?_ ?_ ?_ ?_ ?_ ?_ ?_ h
  · intro s rest bs bs' hb; cases hb
  · intro d c r4 is cs hd hc ih bs bs' hb hi he
    cases hb
    obtain ⟨c', hc', hf, hs⟩ := ih hi he
    exact ⟨.group d c' :: r4, .block hd hc', swap_group, attrsStop_group (.inr hf), .inside [] r4 hd hs,
      by simp, by simp⟩
  · intro s args s' d c r4 is cs hn hd hc ih bs bs' hb hi he
    cases hb
    obtain ⟨c', hc', hf, hs⟩ := ih hi he
    refine ⟨_, .closure (s := s) (s' := s') hn hd hc', swap_punct (.inr rfl), attrsStop_punct (by decide), ?_,
      by simp, by simp⟩
    have := Somewhere.inside (.punct '|' s :: (args ++ [.punct '|' s'])) r4 hd hs
    simpa using this
  · intro bs bs' hb; cases hb
  · intro s args s' rest _ _ bs bs' hb; cases hb
  · intro t r _ _ _ bs bs' hb; cases hb
  · intro cs' hi he; cases he
  · intro v rest is cs hb hw hr ih cs' hi he
    obtain ⟨d, rfl, hd⟩ := later_inv he
    obtain ⟨rest', hr', hf, hs⟩ := ih hi hd
    exact ⟨v.toks ++ rest', .value (value_bracket hf hb) hw hr', value_front hf, recolon_prefix hs _⟩
  · intro v rest is cs hb hw hr ih cs' hi he
    obtain ⟨d, rfl, hd⟩ := later_inv he
    obtain ⟨rest', hr', hf, hs⟩ := ih (OnlyReports.append (is := [_]).mp hi).2 hd
    exact ⟨v.toks ++ rest', .literal (value_bracket hf hb) hw hr', value_front hf, recolon_prefix hs _⟩
  · intro ts isSlot r0 ti tag r1 si sels r2 ai attrs r3 ei args block r4 is cs hst ht hs ha hend hr ihe ihr cs' hi he
    obtain ⟨hti, hi1⟩ := OnlyReports.append.mp hi
    obtain ⟨hsi, hi2⟩ := OnlyReports.append.mp hi1
    obtain ⟨hai, hi3⟩ := OnlyReports.append.mp hi2
    obtain ⟨hei, hi4⟩ := OnlyReports.append.mp hi3
    obtain ⟨-, -, hx⟩ := attrs_left ha hai
    generalize hq : asChild isSlot (.mk tag sels attrs args block) :: cs = q at he
    cases he with
    | attr b tag1 sels1 as1 as2 args1 block1 cs1 hae =>
      obtain ⟨hq1, rfl⟩ := List.cons.inj hq
      obtain ⟨rfl, hq2⟩ := asChild_inj hq1
      cases hq2
      obtain ⟨r2', ha', hrc⟩ := attrs_edit ha rfl hae
      obtain ⟨i, u, r0', r1', rfl, hst', ht', hs', -⟩ := elem_start_swap hpp hloc hst ht hs hti hrc.follow
        (attrs_start ha' (by simp))
        (fun _ _ _ => ⟨attrs_start ha (by simp) _ (.inl rfl), attrs_start ha (by simp) _ (.inr rfl)⟩)
      refine ⟨.ident i :: u ++ r2', .elem hst' ht' hs' ha' hend hr, ?_, .here (hrc.recolon.prefix _)⟩
      obtain ⟨w, j, s, y, y', rfl, rfl, -⟩ := hrc
      have := front_colon (i := i) (u := u ++ w ++ [.ident j]) (s := s) (y := y) (y' := y')
      simpa using this
    | inside b tag1 sels1 as1 args1 cs1 hin =>
      obtain ⟨hq1, rfl⟩ := List.cons.inj hq
      obtain ⟨rfl, hq2⟩ := asChild_inj hq1
      cases hq2
      obtain ⟨x', hend', hsw, hstop, hsome, hc1, hc2⟩ := ihe rfl hei hin
      obtain ⟨u, r0', r1', r2', rfl, hst', ht', hs', ha', hf⟩ := elem_swap hpp hloc hst ht hs ha hti hai hsw hstop
        (fun _ _ _ => ⟨hc1, hc2⟩)
      exact ⟨u ++ x', .elem hst' ht' hs' ha' hend' hr, hf, recolon_prefix hsome _⟩
    | later c hl =>
      obtain ⟨rfl, rfl⟩ := List.cons.inj hq
      obtain ⟨r4', hr', hf4, hsome⟩ := ihr hi4 hl
      obtain ⟨p, hp, hend', hsw, hstop, hc1, hc2⟩ := end_front hend hx hf4
      obtain ⟨u, r0', r1', r2', rfl, hst', ht', hs', ha', hf⟩ := elem_swap hpp hloc hst ht hs ha hti hai hsw hstop
        (fun _ _ _ => ⟨hc1, hc2⟩)
      refine ⟨u ++ (p ++ r4'), .elem hst' ht' hs' ha' hend' hr', hf, ?_⟩
      rw [hp]
      exact recolon_prefix (recolon_prefix hsome _) _
  · intro ts isSlot r0 ti tag r1 si sels r2 ai attrs s args hst ht hs ha hn cs' hi he; cases he
  · intro ts isSlot r0 e s rest is cs hst hnt hr ih cs' hi he
    obtain ⟨rest', hr', hf, hsome⟩ := ih (OnlyReports.append (is := [_]).mp hi).2 he
    obtain ⟨i, p, r0', rfl, hst', hnt'⟩ := noTagSemi_swap hfl hst hnt hf
    exact ⟨.ident i :: (p ++ rest'), .noTagSemi hst' hnt' hr', hf.prefix (by simp),
      recolon_prefix hsome (.ident i :: p)⟩
  · intro ts isSlot r0 e rest hst hnt hr cs' hi he; cases he
  · intro s rest is cs hr ih cs' hi he
    obtain ⟨rest', hr', hf, hs⟩ := ih (OnlyReports.append (is := [_]).mp hi).2 he
    exact ⟨.punct ';' s :: rest', .semi hr', hf.prefix (v := []) (by rintro c s ⟨⟩; exact .inr rfl),
      recolon_prefix hs [.punct ';' s]⟩
  · intro t r h1 h2 h3 cs' hi he; cases he

/-! ### what is reported about a tree -/

section
variable {m : Ident}

theorem unk_name (n : Str) : Issue.report (.unknownModifier m) ∉ nameIssues n := name_late

theorem unk_value (v : Value) : Issue.report (.unknownModifier m) ∉ v.issues := by
  unfold Value.issues
  split
  · split <;> simp
  · simp

theorem unk_opt (v : Option Value) : Issue.report (.unknownModifier m) ∉ optIssues v := by
  cases v
  · simp [optIssues]
  · exact unk_value _

theorem unk_modifier (n : Option Ident) : Issue.report (.unknownModifier m) ∉ modifierIssues n := by
  cases n <;> simp [modifierIssues]

theorem unk_key (k : KebabOrStr) : Issue.report (.unknownModifier m) ∉ k.issues := by
  cases k
  · exact unk_name _
  · simp [KebabOrStr.issues]

theorem unk_use (d : Directive) : Issue.report (.unknownModifier m) ∉ d.useIssues := by
  simp [Directive.useIssues, unk_key, unk_modifier]

theorem unk_clone (d : Directive) : Issue.report (.unknownModifier m) ∉ d.cloneIssues := by
  simp only [Directive.cloneIssues, List.mem_append, unk_key, unk_modifier, false_or]
  split <;> simp

theorem unk_kvElement (k : TagKind) (a : KvAttr) : Issue.report (.unknownModifier m) ∉ a.issuesOnElement k := by
  simp only [KvAttr.issuesOnElement, List.mem_append, unk_value, or_false]
  split
  · simp
  · exact unk_name _

theorem unk_kvComponent (a : KvAttr) : Issue.report (.unknownModifier m) ∉ a.issuesOnComponent := by
  simp [KvAttr.issuesOnComponent, unk_name, unk_value]

theorem unk_path (p : Path) : Issue.report (.unknownModifier m) ∉ p.issues := by
  simp only [Path.issues, List.mem_flatMap, not_exists, not_and]
  intro seg _
  split <;> simp

theorem unk_slot (a : Attr) : Issue.report (.unknownModifier m) ∉ a.issuesOnSlot := by
  cases a with
  | kv a => exact unk_kvComponent a
  | directive d =>
    simp only [Attr.issuesOnSlot]
    split
    · exact unk_clone d
    · simp
  | spread => simp [Attr.issuesOnSlot]

theorem unk_method (cs : List Child) : Issue.report (.unknownModifier m) ∉ methodIssues cs := by
  unfold methodIssues; split <;> simp

/-- The error goes away with the modifier `undelegated`. -/
def Mends (m : Ident) (f : Attr → List Issue) : Prop :=
  ∀ {a A B}, f a = A ++ .report (.unknownModifier m) :: B →
    ∃ a', AttrEdit m (plain c!"undelegated") a a' ∧ f a' = A ++ B

theorem event_mends {d : Directive} {A B : List Issue}
    (h : d.eventIssues ++ optIssues d.value = A ++ .report (.unknownModifier m) :: B) :
    ∃ k v, d = ⟨d.dir, k, some m, v⟩ ∧
      (Directive.mk d.dir k (some (plain c!"undelegated")) v).eventIssues ++ optIssues v = A ++ B := by
  obtain ⟨dir, k, n, v⟩ := d
  simp only [Directive.eventIssues, List.append_assoc] at h ⊢
  obtain ⟨A', hA, g⟩ := split_front h (by
    cases k
    · exact unk_name _
    · simp)
  cases n with
  | none =>
    simp only [List.nil_append] at g
    exact absurd (by rw [g]; simp) (unk_opt (m := m) v)
  | some n =>
    by_cases hn : n = plain c!"undelegated"
    · simp only [hn, if_true, List.nil_append] at g
      exact absurd (by rw [g]; simp) (unk_opt (m := m) v)
    · simp only [hn, if_false] at g
      cases A' with
      | cons a A' =>
        simp only [List.cons_append, List.nil_append, List.cons.injEq] at g
        exact absurd (by rw [g.2]; simp) (unk_opt (m := m) v)
      | nil =>
        simp only [List.cons_append, List.nil_append, List.cons.injEq, Issue.report.injEq,
          Diag.unknownModifier.injEq] at g
        obtain ⟨rfl, rfl⟩ := g
        exact ⟨k, v, rfl, by simp [hA]⟩

theorem element_mends (k : TagKind) : Mends m (Attr.issuesOnElement k) := by
  intro a A B h
  have hm : Issue.report (.unknownModifier m) ∈ a.issuesOnElement k := by rw [h]; simp
  cases a with
  | kv a => exact absurd hm (unk_kvElement k a)
  | spread => simp [Attr.issuesOnElement] at hm
  | directive d =>
    simp only [Attr.issuesOnElement, Directive.issuesOnElement] at h hm
    by_cases h1 : d.dir ∈ [plain c!"class", plain c!"style", plain c!"prop"]
    · rw [if_pos h1] at hm; simp [unk_modifier, unk_opt] at hm
    · rw [if_neg h1] at h hm
      by_cases h2 : d.dir = plain c!"on"
      · rw [if_pos h2] at h
        obtain ⟨key, v, hd, h'⟩ := event_mends h
        rw [hd]
        refine ⟨_, .mk d.dir key v, ?_⟩
        simp only [Attr.issuesOnElement, Directive.issuesOnElement]
        rw [if_neg h1, if_pos h2]
        exact h'
      · rw [if_neg h2] at hm
        split at hm
        · simp [unk_use, unk_opt] at hm
        · split at hm <;> simp at hm

theorem component_mends : Mends m Attr.issuesOnComponent := by
  intro a A B h
  have hm : Issue.report (.unknownModifier m) ∈ a.issuesOnComponent := by rw [h]; simp
  cases a with
  | kv a => exact absurd hm (unk_kvComponent a)
  | spread => simp [Attr.issuesOnComponent] at hm
  | directive d =>
    simp only [Attr.issuesOnComponent] at h hm
    by_cases h2 : d.dir = plain c!"on"
    · have e : ∀ d : Directive, d.dir = plain c!"on" → d.issuesOnComponent = d.eventIssues ++ optIssues d.value := by
        intro d hd
        have n1 : plain c!"on" ≠ plain c!"clone" := by decide
        have n2 : plain c!"on" ∉ [plain c!"class", plain c!"style"] := by decide
        have n3 : plain c!"on" ≠ plain c!"attr" := by decide
        have n4 : plain c!"on" ≠ plain c!"prop" := by decide
        unfold Directive.issuesOnComponent
        rw [hd, if_neg n1, if_neg n2, if_neg n3, if_neg n4, if_pos rfl]
      rw [e d h2] at h
      obtain ⟨key, v, hd, h'⟩ := event_mends h
      rw [hd]
      refine ⟨_, .mk d.dir key v, ?_⟩
      exact (e ⟨d.dir, key, some (plain c!"undelegated"), v⟩ h2).trans h'
    · exfalso
      simp only [Directive.issuesOnComponent, if_neg h2] at hm
      split at hm
      · exact unk_clone _ hm
      split at hm
      · exact unk_opt _ hm
      split at hm
      · rcases List.mem_append.mp hm with hm | hm
        · split at hm
          · simp at hm
          · exact unk_key _ hm
        · exact unk_opt _ hm
      split at hm
      · simp [unk_key, unk_opt] at hm
      split at hm
      · simp [unk_use, unk_opt] at hm
      · simp at hm

theorem flatMap_mends {f : Attr → List Issue} (hf : Mends m f) : ∀ {as : List Attr} {A B : List Issue},
    as.flatMap f = A ++ .report (.unknownModifier m) :: B →
    ∃ as1 a a' as2, as = as1 ++ a :: as2 ∧ AttrEdit m (plain c!"undelegated") a a' ∧
      (as1 ++ a' :: as2).flatMap f = A ++ B
  | [], A, B, h => by simp at h
  | a :: as, A, B, h => by
    rw [List.flatMap_cons] at h
    rcases split_either h with ⟨R, h1, rfl⟩ | ⟨A', rfl, h2⟩
    · obtain ⟨a', he, h'⟩ := hf h1
      exact ⟨[], a, a', as, rfl, he, by simp [h']⟩
    · obtain ⟨as1, b, b', as2, rfl, he, h'⟩ := flatMap_mends hf h2
      exact ⟨a :: as1, b, b', as2, rfl, he, by
        rw [List.cons_append, List.flatMap_cons, h', List.append_assoc]⟩

/-- the element with another modifier somewhere -/
def ElemEdit (m : Ident) (e e' : Element) : Prop :=
  e'.tag = e.tag ∧ ∀ b cs, ChildrenEdit m (plain c!"undelegated") (asChild b e :: cs) (asChild b e' :: cs)

theorem ElemEdit.slotName {e e' : Element} (h : ElemEdit m e e') : e'.slotName = e.slotName := by
  unfold Element.slotName; rw [h.1]

/-- children with another modifier somewhere -/
def NodesEdit (m : Ident) (cs cs' : List Child) : Prop :=
  ChildrenEdit m (plain c!"undelegated") cs cs' ∧ slotNames cs' = slotNames cs ∧
    cs'.any Child.isSlot = cs.any Child.isSlot

theorem NodesEdit.method {cs cs' : List Child} (h : NodesEdit m cs cs') : methodIssues cs' = methodIssues cs := by
  unfold methodIssues; rw [h.2.1]

theorem NodesEdit.later {cs cs' : List Child} (h : NodesEdit m cs cs') (c : Child) :
    NodesEdit m (c :: cs) (c :: cs') := by
  refine ⟨.later c h.1, ?_, by simp [h.2.2]⟩
  have := h.2.1
  unfold slotNames at this ⊢
  simp only [List.filterMap_cons, this]

theorem NodesEdit.elem {e e' : Element} (h : ElemEdit m e e') (cs : List Child) :
    NodesEdit m (.elem e :: cs) (.elem e' :: cs) := ⟨h.2 false cs, rfl, rfl⟩

theorem NodesEdit.slot {e e' : Element} (h : ElemEdit m e e') (cs : List Child) :
    NodesEdit m (.slot e :: cs) (.slot e' :: cs) := by
  refine ⟨h.2 true cs, ?_, rfl⟩
  unfold slotNames
  simp only [List.filterMap_cons, h.slotName]

theorem ElemEdit.attr {tag : Tag} {sels : List Selector} {as1 as2 : List Attr} {a a' : Attr} {args : Option Toks}
    {block : Option (List Child)} (h : AttrEdit m (plain c!"undelegated") a a') :
    ElemEdit m (.mk tag sels (as1 ++ a :: as2) args block) (.mk tag sels (as1 ++ a' :: as2) args block) :=
  ⟨rfl, fun b cs => .attr b tag sels as1 as2 args block cs h⟩

theorem ElemEdit.inside {tag : Tag} {sels : List Selector} {as : List Attr} {args : Option Toks} {cs cs' : List Child}
    (h : NodesEdit m cs cs') : ElemEdit m (.mk tag sels as args (some cs)) (.mk tag sels as args (some cs')) :=
  ⟨rfl, fun b ds => .inside b tag sels as args ds h.1⟩

mutual
theorem elem_mends (b : Bool) : ∀ (e : Element) {A B : List Issue},
    e.issues b = A ++ .report (.unknownModifier m) :: B → ∃ e', ElemEdit m e e' ∧ e'.issues b = A ++ B
  | .mk tag sels attrs args none, A, B, h => by
    have html : ∀ {tag : Tag}, (∀ p, tag ≠ .component p) → ∀ as : List Attr,
        (Element.mk tag sels as args none).issues false = as.flatMap (Attr.issuesOnElement tag.kind) := by
      intro tag ht as
      cases tag <;> first | exact absurd rfl (ht _) | simp [Element.issues]
    cases b with
    | false =>
      by_cases ht : ∃ p, tag = .component p
      · obtain ⟨p, rfl⟩ := ht
        simp only [Element.issues] at h
        obtain ⟨A', rfl, g1⟩ := split_front h (unk_path p)
        obtain ⟨as1, a, a', as2, rfl, he, h'⟩ := flatMap_mends component_mends g1
        exact ⟨_, .attr he, by simp only [Element.issues]; rw [h', List.append_assoc]⟩
      · have ht' : ∀ p, tag ≠ .component p := fun p hp => ht ⟨p, hp⟩
        rw [html ht'] at h
        obtain ⟨as1, a, a', as2, rfl, he, h'⟩ := flatMap_mends (element_mends _) h
        exact ⟨_, .attr he, by rw [html ht', h']⟩
    | true =>
      exfalso
      have hm : Issue.report (.unknownModifier m) ∈ (Element.mk tag sels attrs args none).issues true := by
        rw [h]; simp
      cases tag with
      | component p =>
        simp only [Element.issues, List.mem_append, unk_path, false_or, List.mem_flatMap] at hm
        rcases hm with hm | ⟨a, -, hm⟩
        · split at hm <;> simp at hm
        · exact unk_slot a hm
      | _ => simp [Element.issues] at hm
  | .mk tag sels attrs args (some cs), A, B, h => by
    have html : ∀ {tag : Tag}, (∀ p, tag ≠ .component p) → ∀ (as : List Attr) (cs : List Child),
        (Element.mk tag sels as args (some cs)).issues false =
          as.flatMap (Attr.issuesOnElement tag.kind) ++ nodesIssues cs := by
      intro tag ht as cs
      cases tag <;> first | exact absurd rfl (ht _) | simp [Element.issues]
    cases b with
    | false =>
      by_cases ht : ∃ p, tag = .component p
      · obtain ⟨p, rfl⟩ := ht
        simp only [Element.issues, List.append_assoc] at h
        obtain ⟨A', rfl, g1⟩ := split_front h (unk_path p)
        rcases split_either g1 with ⟨R, h1, rfl⟩ | ⟨A2, rfl, g2⟩
        · obtain ⟨as1, a, a', as2, rfl, he, h'⟩ := flatMap_mends component_mends h1
          exact ⟨_, .attr he, by simp only [Element.issues]; rw [h']; simp⟩
        rcases split_either g2 with ⟨R, h1, rfl⟩ | ⟨A3, rfl, g3⟩
        · obtain ⟨cs', he, h', h''⟩ := nodes_mends cs h1
          exact ⟨_, .inside he, by simp only [Element.issues]; rw [h', h'', he.method]; simp⟩
        rcases split_either g3 with ⟨R, h1, rfl⟩ | ⟨A4, rfl, g4⟩
        · obtain ⟨cs', he, h', h''⟩ := slots_mends cs h1
          exact ⟨_, .inside he, by simp only [Element.issues]; rw [h', h'', he.method]; simp⟩
        · exact absurd (by rw [g4]; simp) (unk_method (m := m) cs)
      · have ht' : ∀ p, tag ≠ .component p := fun p hp => ht ⟨p, hp⟩
        rw [html ht'] at h
        rcases split_either h with ⟨R, h1, rfl⟩ | ⟨A2, rfl, g1⟩
        · obtain ⟨as1, a, a', as2, rfl, he, h'⟩ := flatMap_mends (element_mends _) h1
          exact ⟨_, .attr he, by rw [html ht', h']; simp⟩
        · obtain ⟨cs', he, h', -⟩ := nodes_mends cs g1
          exact ⟨_, .inside he, by rw [html ht', h']; simp⟩
    | true =>
      cases tag with
      | component p =>
        simp only [Element.issues, List.append_assoc] at h
        obtain ⟨A', rfl, g1⟩ := split_front h (unk_path p)
        obtain ⟨A1, rfl, g2⟩ := split_front g1 (by split <;> simp)
        obtain ⟨A2, rfl, g3⟩ := split_front g2 (by
          simp only [List.mem_flatMap, not_exists, not_and]
          intro a _
          exact unk_slot a)
        rcases split_either g3 with ⟨R, h1, rfl⟩ | ⟨A3, rfl, g4⟩
        · obtain ⟨cs', he, h', h''⟩ := nodes_mends cs h1
          exact ⟨_, .inside he, by simp only [Element.issues]; rw [h', h'', he.method]; simp⟩
        rcases split_either g4 with ⟨R, h1, rfl⟩ | ⟨A4, rfl, g5⟩
        · obtain ⟨cs', he, h', h''⟩ := slots_mends cs h1
          exact ⟨_, .inside he, by simp only [Element.issues]; rw [h', h'', he.method]; simp⟩
        · exact absurd (by rw [g5]; simp) (unk_method (m := m) cs)
      | _ =>
        exfalso
        have hm := congrArg (Issue.report (.unknownModifier m) ∈ ·) h
        simp [Element.issues] at hm
theorem nodes_mends : ∀ (cs : List Child) {A B : List Issue},
    nodesIssues cs = A ++ .report (.unknownModifier m) :: B →
    ∃ cs', NodesEdit m cs cs' ∧ nodesIssues cs' = A ++ B ∧ slotsIssues cs' = slotsIssues cs
  | [], A, B, h => by simp [nodesIssues] at h
  | .value v :: cs, A, B, h => by
    simp only [nodesIssues] at h
    obtain ⟨A', rfl, g1⟩ := split_front h (unk_value v)
    obtain ⟨cs', he, h', h''⟩ := nodes_mends cs g1
    exact ⟨_, he.later _, by simp only [nodesIssues]; rw [h']; simp, by simp only [slotsIssues]; exact h''⟩
  | .elem e :: cs, A, B, h => by
    simp only [nodesIssues] at h
    rcases split_either h with ⟨R, h1, rfl⟩ | ⟨A', rfl, g1⟩
    · obtain ⟨e', he, h'⟩ := elem_mends false e h1
      exact ⟨_, .elem he cs, by simp only [nodesIssues]; rw [h']; simp, by simp only [slotsIssues]⟩
    · obtain ⟨cs', he, h', h''⟩ := nodes_mends cs g1
      exact ⟨_, he.later _, by simp only [nodesIssues]; rw [h']; simp, by simp only [slotsIssues]; exact h''⟩
  | .slot e :: cs, A, B, h => by
    simp only [nodesIssues] at h
    obtain ⟨cs', he, h', h''⟩ := nodes_mends cs h
    exact ⟨_, he.later _, by simp only [nodesIssues]; exact h', by simp only [slotsIssues]; rw [h'']⟩
theorem slots_mends : ∀ (cs : List Child) {A B : List Issue},
    slotsIssues cs = A ++ .report (.unknownModifier m) :: B →
    ∃ cs', NodesEdit m cs cs' ∧ slotsIssues cs' = A ++ B ∧ nodesIssues cs' = nodesIssues cs
  | [], A, B, h => by simp [slotsIssues] at h
  | .value v :: cs, A, B, h => by
    simp only [slotsIssues] at h
    obtain ⟨cs', he, h', h''⟩ := slots_mends cs h
    exact ⟨_, he.later _, by simp only [slotsIssues]; exact h', by simp only [nodesIssues]; rw [h'']⟩
  | .elem e :: cs, A, B, h => by
    simp only [slotsIssues] at h
    obtain ⟨cs', he, h', h''⟩ := slots_mends cs h
    exact ⟨_, he.later _, by simp only [slotsIssues]; exact h', by simp only [nodesIssues]; rw [h'']⟩
  | .slot e :: cs, A, B, h => by
    simp only [slotsIssues] at h
    rcases split_either h with ⟨R, h1, rfl⟩ | ⟨A', rfl, g1⟩
    · by_cases ht : e.tag.isPath = true
      · by_cases hn : e.slotName.isSome = true
        · rw [if_pos ht, if_pos hn] at h1
          obtain ⟨e', he, h'⟩ := elem_mends true e h1
          refine ⟨_, .slot he cs, ?_, by simp only [nodesIssues]⟩
          simp only [slotsIssues]
          rw [he.1, he.slotName, if_pos ht, if_pos hn, h']
          simp
        · rw [if_pos ht, if_neg hn] at h1
          have : Issue.report (.unknownModifier m) ∈ [Issue.report .slotNameIsPath] := by rw [h1]; simp
          simp at this
      · rw [if_neg ht] at h1
        have : Issue.report (.unknownModifier m) ∈ [Issue.crash] := by rw [h1]; simp
        simp at this
    · obtain ⟨cs', he, h', h''⟩ := slots_mends cs g1
      exact ⟨_, he.later _, by simp only [slotsIssues]; rw [h']; simp, by simp only [nodesIssues]; exact h''⟩
end

theorem root_mends {cs : List Child} {A B : List Issue}
    (h : rootIssues cs = A ++ .report (.unknownModifier m) :: B) :
    ∃ cs', ChildrenEdit m (plain c!"undelegated") cs cs' ∧ rootIssues cs' = A ++ B := by
  unfold rootIssues at h
  by_cases hs : cs.any Child.isSlot = true
  · rw [if_pos hs] at h
    have : Issue.report (.unknownModifier m) ∈ [Issue.stop .slotAtTopLevel] := by rw [h]; simp
    simp at this
  · rw [if_neg hs] at h
    obtain ⟨cs', he, h', -⟩ := nodes_mends cs h
    refine ⟨cs', he.1, ?_⟩
    unfold rootIssues
    rw [he.2.2, if_neg hs, h']

end

/-! ### all of it -/

theorem children_late {D : Diag} (hD : D.Late) (h1 : D ≠ .unterminated) (h2 : D ≠ .unknownAttribute)
    {ts : Toks} {is : List Issue} {cs : List Child} (h : ReadsChildren pp ts is cs) : Issue.report D ∉ is := by
  have no : ∀ {d : Diag}, ¬ d.Late → Issue.report D ≠ .report d := by
    intro d hd he
    cases he
    exact hd hD
  refine ReadsChildren.rec (motive_1 := fun _ ei _ _ _ _ => Issue.report D ∉ ei)
    (motive_2 := fun _ is _ _ => Issue.report D ∉ is) ?_ ?_ ?_ ?_ ?_ ?_ ?_ ?_ ?_ ?_ ?_ ?_ ?_ ?_ ?_ h
  · intros; simp
  · intro _ _ _ _ _ _ _ ih; exact ih
  · intro _ _ _ _ _ _ _ _ _ _ _ ih; exact ih
  · simpa using h1
  · intros; simpa using no (d := .expectedChildrenBlock) id
  · intros
    have := no (d := .childrenNotFound) id
    simp only [ne_eq, Issue.report.injEq] at this
    simp [h2, this]
  · simp
  · intro _ _ _ _ _ _ _ ih; exact ih
  · intro _ _ _ _ _ _ _ ih; exact fun hm => (List.mem_cons.mp hm).elim (no id) ih
  · intro _ _ _ _ _ _ _ _ _ _ _ _ _ _ _ _ _ _ _ ht hs ha _ _ ih1 ih2
    simp [tag_late hD ht, sels_late hD hs, attrs_late hD ha, ih1, ih2]
  · intro _ _ _ _ _ _ _ _ _ _ _ _ _ _ ht hs ha _
    have := no (d := .synError .closureNotClosed) id
    simp only [ne_eq, Issue.report.injEq] at this
    simp [tag_late hD ht, sels_late hD hs, attrs_late hD ha, this]
  · intro _ _ _ _ _ _ _ _ _ _ _ ih; exact fun hm => (List.mem_cons.mp hm).elim (no id) ih
  · intros; exact fun hm => no id (List.mem_singleton.mp hm)
  · intro _ _ _ _ _ ih; exact fun hm => (List.mem_cons.mp hm).elim (no id) ih
  · intros; exact fun hm => no id (List.mem_singleton.mp hm)

theorem recolon_lexical {m m' : Ident} (hm : LexicalToks [.ident m']) {ts ts' : Toks}
    (h : Somewhere (Recolon m m') ts ts') (hl : LexicalToks ts) : LexicalToks ts' := by
  induction h with
  | here h =>
    obtain ⟨pre, s, post, rfl, rfl⟩ := h
    obtain ⟨h1, h2⟩ := lexical_append.mp hl
    obtain ⟨h3, h4⟩ := lexical_append (a := [.punct ':' s]).mp h2
    obtain ⟨-, h5⟩ := lexical_append (a := [.ident m]).mp h4
    exact lexical_append.mpr ⟨h1, lexical_append (a := [.punct ':' s]).mpr
      ⟨h3, lexical_append (a := [.ident m']).mpr ⟨hm, h5⟩⟩⟩
  | inside pre post hd _ ih =>
    obtain ⟨h1, h2⟩ := lexical_append.mp hl
    obtain ⟨h3, h4⟩ := (lexical_group hd).mp h2
    exact lexical_append.mpr ⟨h1, (lexical_group hd).mpr ⟨ih h3, h4⟩⟩

theorem modifier_fix (hpp : pp.Starts) (hloc : pp.Local) (hfl : pp.FailsLocally) {m : Ident} {s : Sched} {ts : Toks}
    (hl : LexicalToks ts) {A B : List Diag}
    (h : (mview pp s ts).reported = some (A ++ .unknownModifier m :: B)) :
    ∃ ts', Somewhere (Recolon m (plain c!"undelegated")) ts ts' ∧ (mview pp s ts').reported = some (A ++ B) := by
  obtain ⟨is, cs, hr⟩ := reading_exists (pp := pp) hl
  have hv := h
  rw [is_reported (reading_exact (s := s) hl hr)] at hv
  have hD : (Diag.unknownModifier m).Late := trivial
  rcases verdict_split hv with ⟨X, hX⟩ | ⟨X, hX⟩
  · obtain ⟨A', hA, hroot⟩ := split_front hX (children_late hD (by simp) (by simp) hr)
    obtain ⟨cs', he, hroot'⟩ := root_mends hroot
    have hi : OnlyReports is := by
      intro i hi
      have : i ∈ A.map Issue.report := by rw [hA]; exact List.mem_append_left _ hi
      obtain ⟨d, -, rfl⟩ := List.mem_map.mp this
      exact ⟨d, rfl⟩
    obtain ⟨ts', hr', -, hs⟩ := children_edit hpp hloc hfl hr hi he
    refine ⟨ts', hs, ?_⟩
    rw [is_reported (reading_exact (s := s) (recolon_lexical (lexical_of rfl) hs hl) hr'), hroot',
      ← List.append_assoc, ← hA, verdict_list]
    rw [hX, verdict_list] at hv
    simp only [verdict, add_list] at hv
    cases hq : (verdict X).list with
    | none => rw [hq] at hv; cases hv
    | some l =>
      rw [hq] at hv
      simp only [Option.map_some, Option.some.injEq] at hv ⊢
      have := List.append_cancel_left hv
      rw [(List.cons.inj this).2]
  · exfalso
    have : Issue.stop (.unknownModifier m) ∈ is ++ rootIssues cs := by rw [hX]; simp
    rcases List.mem_append.mp this with hm | hm
    · exact children_passes hD hr hm
    · exact (not_root hD cs _ hm).2 rfl

end Mview
