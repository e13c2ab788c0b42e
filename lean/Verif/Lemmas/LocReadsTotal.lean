import Verif.Lemmas.LocReadsTree
import Verif.Lemmas.ReadsTotal
/-
Proofs for C42: every input with spans has a reading.
-/

namespace Mview.Loc
open Lex

variable {σ : Type}

theorem split_of_erase : ∀ (a : Mview.Toks) {ts : Toks σ} {b : Mview.Toks}, eraseToks ts = a ++ b →
    ∃ u v, ts = u ++ v ∧ eraseToks u = a ∧ eraseToks v = b
  | [], ts, b, h => ⟨[], ts, rfl, rfl, h⟩
  | x :: a, [], b, h => by simp at h
  | x :: a, t :: ts, b, h => by
    simp only [eraseToks_cons, List.cons_append, List.cons.injEq] at h
    obtain ⟨u, v, rfl, h2, h3⟩ := split_of_erase a h.2
    exact ⟨t :: u, v, rfl, by rw [eraseToks_cons, h2, h.1], h3⟩

theorem name_cases {ts : Toks σ} (hl : LexicalToks (eraseToks ts)) :
    (∃ run rest, LongName ts run rest) ∨ ¬ NameStart (eraseToks ts) := by
  rcases Mview.name_cases hl with ⟨run, rest, h⟩ | h
  · obtain ⟨u, v, rfl, rfl, rfl⟩ := split_of_erase run h.split
    exact .inl ⟨u, v, rfl, h⟩
  · exact .inr h

variable [Spans σ]

theorem sels_total : ∀ (n : Nat) (ts : Toks σ), ts.length ≤ n → LexicalToks (eraseToks ts) →
    ∃ is sels rest, ReadsSels ts is sels rest := by
  intro n
  induction n with
  | zero =>
    intro ts hn _
    have : ts = [] := List.length_eq_zero_iff.mp (by omega)
    subst this
    exact ⟨_, _, _, .done (by simp)⟩
  | succ n ih =>
    intro ts hn hl
    by_cases hd : ∀ c s p r, ts = .punct c s p :: r → c = '.' ∨ c = '#' → ¬ NameStart (eraseToks r)
    · exact ⟨_, _, _, .done hd⟩
    · simp only [Classical.not_forall, Classical.not_not] at hd
      obtain ⟨c, s, p, r, rfl, hc, hs⟩ := hd
      rcases name_cases (lexical_tail hl) with ⟨run, rest, hk⟩ | h
      · have hrest := hk.left.lexical (lexical_tail hl)
        have hlen := hk.shorter
        simp only [List.length_cons] at hn
        obtain ⟨is, sels, left, h⟩ := ih rest (by omega) hrest
        rcases hc with rfl | rfl
        · exact ⟨_, _, _, .cls hk h⟩
        · exact ⟨_, _, _, .id hk h⟩
      · exact absurd hs h

/-- a value, or none -/
theorem value_or_none (ts : Toks σ) : (∃ v rest, ValueNext ts v rest) ∨ NoValue (eraseToks ts) := by
  rcases Mview.value_or_none (eraseToks ts) with ⟨v, rest, he, hb⟩ | h
  · left
    obtain ⟨u, r, rfl, hu, rfl⟩ := split_of_erase _ he
    have mk : ∀ {v' : Value σ}, IsValue u v' → (∀ b, v ≠ .bool b) → (∀ i p, u ≠ [.ident i p]) →
        ∃ v rest, ValueNext (u ++ r) v rest := fun hv _ hi =>
      ⟨_, _, .mk hv fun i p c b x h => absurd h (hi i p)⟩
    cases v with
    | lit l =>
      match u, hu with
      | [.lit _ _], hu => exact mk .lit (by simp) (by simp)
      | [.ident _ _], hu => simp [CVal.toks, TT.erase] at hu
      | [.punct _ _ _], hu => simp [CVal.toks, TT.erase] at hu
      | [.group _ _ _], hu => simp [CVal.toks, TT.erase] at hu
      | [], hu => simp [CVal.toks] at hu
      | _ :: _ :: _, hu => simp [CVal.toks] at hu
    | bool b =>
      match u, hu with
      | [.ident i p], hu =>
        have hr : ∀ i' p' c b' x, [TT.ident i p] = [.ident i' p'] → r ≠ .group .bracket c b' :: x := by
          rintro i' p' c b' x _ rfl
          exact hb b rfl _ _ rfl
        simp only [eraseToks_cons, TT.erase, CVal.toks, List.cons.injEq, Mview.TT.ident.injEq] at hu
        cases b
        · obtain ⟨rfl, _⟩ := hu
          exact ⟨_, _, .mk .false hr⟩
        · obtain ⟨rfl, _⟩ := hu
          exact ⟨_, _, .mk .true hr⟩
      | [.lit _ _], hu => simp [CVal.toks, TT.erase] at hu
      | [.punct _ _ _], hu => simp [CVal.toks, TT.erase] at hu
      | [.group _ _ _], hu => simp [CVal.toks, TT.erase] at hu
      | [], hu => simp [CVal.toks] at hu
      | _ :: _ :: _, hu => simp [CVal.toks] at hu
    | neg s f x =>
      match u, hu with
      | [.punct c s' p, .lit l q], hu =>
        simp only [eraseToks_cons, TT.erase, CVal.toks, List.cons.injEq, Mview.TT.punct.injEq,
          Mview.TT.lit.injEq] at hu
        obtain ⟨⟨rfl, rfl⟩, rfl, _⟩ := hu
        cases f
        · exact mk .negInt (by simp) (by simp)
        · exact mk .negFloat (by simp) (by simp)
      | [.punct _ _ _, .ident _ _], hu => simp [CVal.toks, TT.erase] at hu
      | [.punct _ _ _, .punct _ _ _], hu => simp [CVal.toks, TT.erase] at hu
      | [.punct _ _ _, .group _ _ _], hu => simp [CVal.toks, TT.erase] at hu
      | .lit _ _ :: _, hu => simp [CVal.toks, TT.erase] at hu
      | .ident _ _ :: _, hu => simp [CVal.toks, TT.erase] at hu
      | .group _ _ _ :: _, hu => simp [CVal.toks, TT.erase] at hu
      | [], hu => simp [CVal.toks] at hu
      | [.punct _ _ _], hu => simp [CVal.toks] at hu
      | .punct _ _ _ :: _ :: _ :: _, hu => simp [CVal.toks] at hu
    | block x =>
      match u, hu with
      | [.group d c b], hu =>
        simp only [eraseToks_cons, TT.erase, CVal.toks, List.cons.injEq, Mview.TT.group.injEq] at hu
        obtain ⟨⟨rfl, _⟩, _⟩ := hu
        exact mk .block (by simp) (by simp)
      | [.lit _ _], hu => simp [CVal.toks, TT.erase] at hu
      | [.punct _ _ _], hu => simp [CVal.toks, TT.erase] at hu
      | [.ident _ _], hu => simp [CVal.toks, TT.erase] at hu
      | [], hu => simp [CVal.toks] at hu
      | _ :: _ :: _, hu => simp [CVal.toks] at hu
    | bracket q x =>
      cases q with
      | none =>
        match u, hu with
        | [.group d c b], hu =>
          simp only [eraseToks_cons, TT.erase, CVal.toks, List.cons.injEq, Mview.TT.group.injEq] at hu
          obtain ⟨⟨rfl, _⟩, _⟩ := hu
          exact mk .bracket (by simp) (by simp)
        | [.lit _ _], hu => simp [CVal.toks, TT.erase] at hu
        | [.punct _ _ _], hu => simp [CVal.toks, TT.erase] at hu
        | [.ident _ _], hu => simp [CVal.toks, TT.erase] at hu
        | [], hu => simp [CVal.toks] at hu
        | _ :: _ :: _, hu => simp [CVal.toks] at hu
      | some i =>
        match u, hu with
        | [.ident _ _, .group d c b], hu =>
          simp only [eraseToks_cons, TT.erase, CVal.toks, List.cons.injEq, Mview.TT.group.injEq] at hu
          obtain ⟨_, ⟨rfl, _⟩, _⟩ := hu
          exact mk .pfx (by simp) (by simp)
        | [.ident _ _, .ident _ _], hu => simp [CVal.toks, TT.erase] at hu
        | [.ident _ _, .punct _ _ _], hu => simp [CVal.toks, TT.erase] at hu
        | [.ident _ _, .lit _ _], hu => simp [CVal.toks, TT.erase] at hu
        | .lit _ _ :: _, hu => simp [CVal.toks, TT.erase] at hu
        | .punct _ _ _ :: _, hu => simp [CVal.toks, TT.erase] at hu
        | .group _ _ _ :: _, hu => simp [CVal.toks, TT.erase] at hu
        | [], hu => simp [CVal.toks] at hu
        | [.ident _ _], hu => simp [CVal.toks] at hu
        | .ident _ _ :: _ :: _ :: _, hu => simp [CVal.toks] at hu
  · exact .inr h

theorem readsValue_total (eq : σ) (ts : Toks σ) : ∃ is v rest, ReadsValue eq ts is v rest := by
  rcases value_or_none ts with ⟨v, rest, h⟩ | h
  · exact ⟨_, _, _, .value h⟩
  · by_cases hw : WordNext (eraseToks ts)
    · exact ⟨_, _, _, .missing (help := true) h (by simp [hw])⟩
    · exact ⟨_, _, _, .missing (help := false) h (by simp [hw])⟩

theorem readsEq_total (ts : Toks σ) : ∃ is v rest, ReadsEq ts is v rest := by
  by_cases h : ∀ s p r, ts ≠ .punct '=' s p :: r
  · exact ⟨_, _, _, .none h⟩
  · simp only [Classical.not_forall, Classical.not_not] at h
    obtain ⟨s, p, r, rfl⟩ := h
    obtain ⟨is, v, rest, h⟩ := readsValue_total p r
    exact ⟨_, _, _, .some h⟩

/-- a modifier, none, or only its colon -/
theorem modifier_cases (ts : Toks σ) : (∃ m rest, ReadsModifier ts m rest) ∨
    ∃ s p r, ts = .punct ':' s p :: r ∧ ∀ i q r', r ≠ .ident i q :: r' := by
  by_cases h : ∀ s p r, ts ≠ .punct ':' s p :: r
  · exact .inl ⟨_, _, .none h⟩
  · simp only [Classical.not_forall, Classical.not_not] at h
    obtain ⟨s, p, r, rfl⟩ := h
    by_cases h : ∀ i q r', r ≠ .ident i q :: r'
    · exact .inr ⟨s, p, r, rfl, h⟩
    · simp only [Classical.not_forall, Classical.not_not] at h
      obtain ⟨i, q, r', rfl⟩ := h
      exact .inl ⟨_, _, .some⟩

/-- what can be said about the content of braces -/
theorem content_cases {c : Toks σ} (hl : LexicalToks (eraseToks c)) :
    AllName c ∨ (∃ run t r, LongName c run (t :: r)) ∨ ¬ NameStart (eraseToks c) := by
  rcases name_cases hl with ⟨run, rest, h⟩ | h
  · cases rest with
    | nil =>
      left
      have : c = run := by rw [h.split, List.append_nil]
      subst this
      exact h
    | cons t r => exact .inr (.inl ⟨run, t, r, h⟩)
  · exact .inr (.inr h)

theorem attrs_total (sc : σ) : ∀ (n : Nat) (ts : Toks σ), ts.length ≤ n → LexicalToks (eraseToks ts) →
    ∃ is as rest, ReadsAttrs sc ts is as rest := by
  intro n
  induction n with
  | zero =>
    intro ts hn _
    have : ts = [] := List.length_eq_zero_iff.mp (by omega)
    subst this
    exact ⟨_, _, _, .done (by rintro ⟨t, r, h, _⟩; simp at h) (by simp)⟩
  | succ n ih =>
    intro ts hn hl
    -- the attributes after one
    have next : ∀ {rest}, Left ts rest → rest.length < ts.length → ∃ is as left, ReadsAttrs sc rest is as left :=
      fun h hlt => ih _ (by omega) (h.lexical hl)
    by_cases hd : ∃ d p s q r, ts = .ident d p :: .punct ':' s q :: r
    · obtain ⟨d, p, s, q, r, rfl⟩ := hd
      have hlr := lexical_tail (lexical_tail hl)
      have next' : ∀ {rest}, Left r rest → ∃ is as left, ReadsAttrs sc rest is as left := fun {rest} h =>
        next (.cons _ (.cons _ h)) (by have := h.length; simp only [List.length_cons]; omega)
      by_cases hb : ∃ c b r', r = .group .brace c b :: r'
      · obtain ⟨c, b, r', rfl⟩ := hb
        rcases content_cases (lexical_group (by decide) hlr) with hc | ⟨run, t, x, hc⟩ | hc
        · rcases modifier_cases r' with ⟨m, rest, hm⟩ | ⟨s', q', r'', rfl, hm⟩
          · obtain ⟨is, as, left, h⟩ := next' (.cons _ hm.left)
            exact ⟨_, _, _, .dirShort hc hm h⟩
          · exact ⟨_, _, _, .dirShortNoModifier hc hm⟩
        · exact ⟨_, _, _, .dirMore hc⟩
        · exact ⟨_, _, _, .dirNoName hc⟩
      · by_cases hk : ∃ ks key r1, ReadsKey r ks key r1
        · obtain ⟨ks, key, r1, hk⟩ := hk
          rcases modifier_cases r1 with ⟨m, r2, hm⟩ | ⟨s', q', r2, rfl, hm⟩
          · obtain ⟨js, v, r3, hv⟩ := readsEq_total r2
            obtain ⟨is, as, left, h⟩ := next' (hk.left.trans (hm.left.trans hv.left))
            exact ⟨_, _, _, .dir hk hm hv h⟩
          · exact ⟨_, _, _, .dirNoModifier hk hm⟩
        · refine ⟨_, _, _, .dirNoKey ?_ ?_ ?_⟩
          · rcases name_cases hlr with ⟨run, rest, h⟩ | h
            · exact absurd ⟨_, _, _, .name h⟩ hk
            · exact h
          · rintro x p' r' rfl
            exact hk ⟨_, _, _, .str⟩
          · rintro c b r' rfl
            exact hb ⟨_, _, _, rfl⟩
    · rcases name_cases hl with ⟨run, rest, hr⟩ | hr
      · obtain ⟨js, v, r3, hv⟩ := readsEq_total rest
        obtain ⟨is, as, left, h⟩ := next (hr.left.trans hv.left)
          (by have := hr.shorter; have := hv.left.length; omega)
        exact ⟨_, _, _, .kv hr (fun d p s q r h => hd ⟨d, p, s, q, r, h⟩) hv h⟩
      · by_cases hb : ∃ c b r', ts = .group .brace c b :: r'
        · obtain ⟨c, b, r', rfl⟩ := hb
          have hafter := next (rest := r') (.cons _ (.refl _)) (by simp)
          rcases content_cases (lexical_group (by decide) hl) with hc | ⟨run, t, x, hc⟩ | hc
          · obtain ⟨is, as, left, h⟩ := hafter
            exact ⟨_, _, _, .short hc h⟩
          · exact ⟨_, _, _, .brace hc⟩
          · by_cases hs : IsSpread (eraseToks c)
            · obtain ⟨s, e, he⟩ := hs
              obtain ⟨is, as, left, h⟩ := hafter
              match c, he with
              | .punct c1 s1 p1 :: .punct c2 s2 p2 :: e', he =>
                simp only [eraseToks_cons, TT.erase, List.cons.injEq, Mview.TT.punct.injEq] at he
                obtain ⟨⟨rfl, rfl⟩, ⟨rfl, rfl⟩, _⟩ := he
                exact ⟨_, _, _, .spread h⟩
              | [], he => simp at he
              | [_], he => simp at he
              | .ident _ _ :: _ :: _, he => simp [TT.erase] at he
              | .lit _ _ :: _ :: _, he => simp [TT.erase] at he
              | .group _ _ _ :: _ :: _, he => simp [TT.erase] at he
              | .punct _ _ _ :: .ident _ _ :: _, he => simp [TT.erase] at he
              | .punct _ _ _ :: .lit _ _ :: _, he => simp [TT.erase] at he
              | .punct _ _ _ :: .group _ _ _ :: _, he => simp [TT.erase] at he
            · refine ⟨_, _, _, .done hr ?_⟩
              rintro c' b' r h
              simp only [List.cons.injEq, TT.group.injEq, true_and] at h
              rw [← h.1.1]
              exact ⟨hc, hs⟩
        · exact ⟨_, _, _, .done hr fun c b r h => absurd ⟨c, b, r, h⟩ hb⟩

variable {pp : Mview.PathParser}

theorem tag_total (lp : PathParser σ pp) (sc : σ) {ts : Toks σ} (hl : LexicalToks (eraseToks ts)) :
    (∃ is tag rest, ReadsTag lp sc ts is tag rest) ∨ ∃ e p rest, NoTag lp sc ts e p rest := by
  by_cases hp : PathStart (eraseToks ts)
  · cases h : lp.run sc ts with
    | path p rest => exact .inl ⟨_, _, _, .path hp h⟩
    | error p rest => exact .inr ⟨_, _, _, .path hp h⟩
  · rcases name_cases hl with ⟨run, rest, h⟩ | h
    · cases ht : tagOf (kebabOf run) with
      | some tag => exact .inl ⟨_, _, _, .name hp h ht⟩
      | none => exact .inl ⟨_, .webComponent (kebabOf run), _, .crash hp h ht⟩
    · exact .inr ⟨_, _, _, .name hp h⟩

/-- size without spans -/
def size (ts : Toks σ) : Nat := toksSize (eraseToks ts)

omit [Spans σ] in
theorem Left.size {ts rest : Toks σ} (h : Left ts rest) : size rest ≤ size ts := suffix_size h

omit [Spans σ] in
theorem size_tail (t : TT σ) (ts : Toks σ) : size ts < size (t :: ts) := by
  unfold size
  rw [eraseToks_cons]
  exact rest_smaller (used := [t.erase]) (by simp)

omit [Spans σ] in
theorem size_group (d : Delim) (c : Toks σ) (b : DelimSpan σ) (ts : Toks σ) : size c < size (.group d c b :: ts) := by
  unfold size
  rw [eraseToks_cons]
  simp only [TT.erase, toksSize_cons, Mview.TT.size]
  omega

/-- A tag has at least one token. -/
theorem ReadsTag.smaller {lp : PathParser σ pp} {sc : σ} {ts : Toks σ} {is : List (Issue σ)} {tag : Tag σ}
    {rest : Toks σ} (h : ReadsTag lp sc ts is tag rest) : size rest < size ts := by
  cases h with
  | path _ h =>
    obtain ⟨u, hu, he⟩ := pp.progress _ _ _ (path_erased h)
    unfold size
    rw [he]
    exact rest_smaller hu
  | name _ h =>
    unfold size
    rw [h.longest.split]
    exact rest_smaller h.longest.kebab.nonempty
  | crash _ h =>
    unfold size
    rw [h.longest.split]
    have := rest_smaller (rest := []) h.longest.kebab.nonempty
    rw [toksSize_append] at this ⊢
    rw [eraseToks_nil, toksSize_nil]
    omega

omit [Spans σ] in
/-- pipes close, or not -/
theorem pipe_cases (ts : Toks σ) :
    NoPipe ts ∨ ∃ args s p r, ts = args ++ .punct '|' s p :: r ∧ NoPipe args := by
  induction ts with
  | nil => exact .inl (by simp [NoPipe])
  | cons t ts ih =>
    by_cases h : ∃ s p, t = .punct '|' s p
    · obtain ⟨s, p, rfl⟩ := h
      exact .inr ⟨[], s, p, ts, rfl, by simp [NoPipe]⟩
    · rcases ih with ih | ⟨args, s, p, r, rfl, ih⟩
      · left
        intro x hx s p
        rcases List.mem_cons.mp hx with rfl | hx
        · exact fun he => h ⟨s, p, he⟩
        · exact ih x hx s p
      · refine .inr ⟨t :: args, s, p, r, rfl, ?_⟩
        intro x hx s p
        rcases List.mem_cons.mp hx with rfl | hx
        · exact fun he => h ⟨s, p, he⟩
        · exact ih x hx s p

theorem end_total {lp : PathParser σ pp} (sc tp : σ) {ts : Toks σ} (hl : LexicalToks (eraseToks ts))
    (ih : ∀ sc c, size c < size ts → LexicalToks (eraseToks c) → ∃ is cs, ReadsChildren lp sc c is cs) :
    (∃ is args block rest, ReadsEnd lp sc tp ts is args block rest) ∨
    ∃ s p args, ts = .punct '|' s p :: args ∧ NoPipe args := by
  cases ts with
  | nil => exact .inl ⟨_, _, _, _, .nothing⟩
  | cons t r =>
    by_cases h1 : ∃ s p, t = .punct ';' s p
    · obtain ⟨s, p, rfl⟩ := h1
      exact .inl ⟨_, _, _, _, .semi⟩
    by_cases h2 : ∃ s p, t = .punct '|' s p
    · obtain ⟨s, p, rfl⟩ := h2
      rcases pipe_cases r with hp | ⟨args, s', p', r', rfl, hp⟩
      · exact .inr ⟨s, p, r, rfl, hp⟩
      left
      by_cases hg : ∃ d c b x, r' = .group d c b :: x ∧ d ≠ .bracket
      · obtain ⟨d, c, b, x, rfl, hd⟩ := hg
        have hleft : Left (.punct '|' s p :: (args ++ .punct '|' s' p' :: .group d c b :: x)) (.group d c b :: x) :=
          Left.of_eq (used := .punct '|' s p :: (args ++ [.punct '|' s' p'])) (by simp)
        obtain ⟨is, cs, h⟩ := ih b.closing c (Nat.lt_of_lt_of_le (size_group ..) hleft.size)
          (lexical_group hd (hleft.lexical hl))
        exact ⟨_, _, _, _, .closure hp hd h⟩
      · refine ⟨_, _, _, _, .noBlock hp ?_⟩
        rintro d c b x rfl
        by_cases hd : d = .bracket
        · exact hd
        · exact absurd ⟨_, _, _, _, rfl, hd⟩ hg
    left
    by_cases hg : ∃ d c b, t = .group d c b ∧ d ≠ .bracket
    · obtain ⟨d, c, b, rfl, hd⟩ := hg
      obtain ⟨is, cs, h⟩ := ih b.closing c (size_group ..) (lexical_group hd hl)
      exact ⟨_, _, _, _, .block hd h⟩
    · refine ⟨_, _, _, _, .other (fun s p h => h1 ⟨s, p, h⟩) (fun s p h => h2 ⟨s, p, h⟩) ?_⟩
      rintro d c b rfl
      by_cases hd : d = .bracket
      · exact hd
      · exact absurd ⟨_, _, _, rfl, hd⟩ hg

/-- an element or slot starts, or a value, or neither -/
theorem start_cases (t : TT σ) (r : Toks σ) :
    (∃ v rest, ValueNext (t :: r) v rest) ∨
    (∃ b r0, ElemStart (t :: r) b r0) ∨
    (NoValue (eraseToks (t :: r)) ∧ t.erase.isIdent = false) := by
  rcases value_or_none (t :: r) with h | h
  · exact .inl h
  · right
    cases t with
    | ident i p =>
      left
      by_cases hs : SlotStart (.ident i :: eraseToks r)
      · obtain ⟨s, r', he, hc⟩ := hs
        simp only [List.cons.injEq, Mview.TT.ident.injEq] at he
        obtain ⟨rfl, he⟩ := he
        match r, he with
        | .punct c s' q :: r'', he =>
          simp only [eraseToks_cons, TT.erase, List.cons.injEq, Mview.TT.punct.injEq] at he
          obtain ⟨⟨rfl, rfl⟩, rfl⟩ := he
          exact ⟨_, _, .slot hc⟩
        | [], he => simp at he
        | .ident _ _ :: _, he => simp [TT.erase] at he
        | .lit _ _ :: _, he => simp [TT.erase] at he
        | .group _ _ _ :: _, he => simp [TT.erase] at he
      · exact ⟨_, _, .elem h hs⟩
    | _ => exact .inr ⟨h, rfl⟩

theorem ValueNext.smaller {ts : Toks σ} {v : Value σ} {rest : Toks σ} (h : ValueNext ts v rest) :
    size rest < size ts := by
  cases h with
  | @mk used _ _ h =>
    cases used with
    | nil => cases h
    | cons t u => exact Nat.lt_of_le_of_lt (Left.size (.of_eq rfl)) (size_tail t (u ++ rest))

theorem children_total (lp : PathParser σ pp) : ∀ (n : Nat) (sc : σ) (ts : Toks σ), size ts ≤ n →
    LexicalToks (eraseToks ts) → ∃ is cs, ReadsChildren lp sc ts is cs := by
  intro n
  induction n with
  | zero =>
    intro sc ts hn _
    cases ts with
    | nil => exact ⟨_, _, .nil⟩
    | cons t r => have := size_tail t r; omega
  | succ n ih =>
    intro sc ts hn hl
    have small : ∀ sc c, size c < size ts → LexicalToks (eraseToks c) → ∃ is cs, ReadsChildren lp sc c is cs :=
      fun sc c hc => ih sc c (by omega)
    cases ts with
    | nil => exact ⟨_, _, .nil⟩
    | cons t r =>
      rcases start_cases t r with ⟨v, rest, hv⟩ | ⟨b, r0, h0⟩ | ⟨hv, hi⟩
      · obtain ⟨is, cs, h⟩ := small sc rest hv.smaller (hv.left.lexical hl)
        by_cases hw : ∀ l p, v = .lit ⟨l, p⟩ → ∃ x, l = .tok (.str x)
        · exact ⟨_, _, .value hv hw h⟩
        · simp only [Classical.not_forall, not_exists] at hw
          obtain ⟨l, p, rfl, hw⟩ := hw
          exact ⟨_, _, .literal hv hw h⟩
      · have hl0 := h0.left.lexical hl
        have hs0 := h0.left.size
        rcases tag_total lp sc hl0 with ⟨ti, tag, r1, ht⟩ | ⟨e, p, rest, hn⟩
        · have hl1 := ht.left.lexical hl0
          obtain ⟨si, sels, r2, hs⟩ := sels_total _ r1 (Nat.le_refl _) hl1
          have hl2 := hs.left.lexical hl1
          obtain ⟨ai, attrs, r3, ha⟩ := attrs_total sc _ r2 (Nat.le_refl _) hl2
          have hl3 := ha.left.lexical hl2
          have h1 := ht.smaller
          have h2 := hs.left.size
          have h3 := ha.left.size
          rcases end_total (lp := lp) sc tag.place hl3 (fun sc c hc => small sc c (by omega)) with
            ⟨ei, args, block, r4, hend⟩ | ⟨s, p, args, rfl, hp⟩
          · have hl4 := hend.left.lexical hl3
            have h4 := hend.left.size
            obtain ⟨is, cs, h⟩ := small sc r4 (by omega) hl4
            exact ⟨_, _, .elem h0 ht hs ha hend h⟩
          · exact ⟨_, _, .unclosed h0 ht hs ha hp⟩
        · by_cases hs : ∃ s q r', rest = .punct ';' s q :: r'
          · obtain ⟨s, q, r', rfl⟩ := hs
            have h1 := hn.left.size
            have h2 := size_tail (.punct ';' s q) r'
            obtain ⟨is, cs, h⟩ := small sc r' (by omega) (lexical_tail (hn.left.lexical hl0))
            exact ⟨_, _, .noTagSemi h0 hn h⟩
          · exact ⟨_, _, .noTag h0 hn fun s q r' h => hs ⟨s, q, r', h⟩⟩
      · by_cases hs : ∃ s p, t = .punct ';' s p
        · obtain ⟨s, p, rfl⟩ := hs
          obtain ⟨is, cs, h⟩ := small sc r (size_tail ..) (lexical_tail hl)
          exact ⟨_, _, .semi h⟩
        · exact ⟨_, _, .other hv hi fun s p h => hs ⟨s, p, h⟩⟩

end Mview.Loc
