import Verif.Lemmas.Reads
/-
Proofs for C39: every input has a reading.
-/

namespace Mview
open Lex

theorem sels_total : ∀ (n : Nat) (ts : Toks), ts.length ≤ n → LexicalToks ts →
    ∃ is sels rest, ReadsSels ts is sels rest := by
  intro n
  induction n with
  | zero =>
    intro ts hn _
    have : ts = [] := List.length_eq_zero_iff.mp (by omega)
    subst this
    exact ⟨_, _, _, .done (by simp)⟩
  | succ n ih =>
    intro ts hn hl
    by_cases hd : ∀ c s r, ts = .punct c s :: r → c = '.' ∨ c = '#' → ¬ NameStart r
    · exact ⟨_, _, _, .done hd⟩
    · simp only [Classical.not_forall, Classical.not_not] at hd
      obtain ⟨c, s, r, rfl, hc, hs⟩ := hd
      rcases name_cases hl.tail with ⟨run, rest, hk⟩ | h
      · have hrest : LexicalToks rest := (hk.split ▸ hl.tail).append
        have hlen := congrArg List.length hk.split
        simp only [List.length_append, List.length_cons] at hlen hn
        obtain ⟨is, sels, left, h⟩ := ih rest (by omega) hrest
        rcases hc with rfl | rfl
        · exact ⟨_, _, _, .cls hk h⟩
        · exact ⟨_, _, _, .id hk h⟩
      · exact absurd hs h

/-- a value, or none -/
theorem value_or_none (ts : Toks) : (∃ (v : CVal) (rest : Toks), ts = v.toks ++ rest ∧
    ∀ b, v = .bool b → ∀ c r, rest ≠ .group .bracket c :: r) ∨ NoValue ts := by
  by_cases h : NoValue ts
  · exact .inr h
  · unfold NoValue at h
    simp only [Classical.not_forall, Classical.not_not] at h
    obtain ⟨v, r, rfl⟩ := h
    by_cases he : ∀ b, v = .bool b → ∀ c r', r ≠ .group .bracket c :: r'
    · exact .inl ⟨v, r, rfl, he⟩
    · simp only [Classical.not_forall, Classical.not_not] at he
      obtain ⟨b, rfl, c, r', rfl⟩ := he
      exact .inl ⟨.bracket (some (plain (if b then c!"true" else c!"false"))) c, r', rfl, by simp⟩

theorem readsValue_total (ts : Toks) : ∃ is v rest, ReadsValue ts is v rest := by
  rcases value_or_none ts with ⟨v, rest, rfl, he⟩ | h
  · exact ⟨_, _, _, .value he⟩
  · by_cases hw : WordNext ts
    · exact ⟨_, _, _, .missing (help := true) h (by simp [hw])⟩
    · exact ⟨_, _, _, .missing (help := false) h (by simp [hw])⟩

theorem readsEq_total (ts : Toks) : ∃ is v rest, ReadsEq ts is v rest := by
  by_cases h : ∀ s r, ts ≠ .punct '=' s :: r
  · exact ⟨_, _, _, .none h⟩
  · simp only [Classical.not_forall, Classical.not_not] at h
    obtain ⟨s, r, rfl⟩ := h
    obtain ⟨is, v, rest, h⟩ := readsValue_total r
    exact ⟨_, _, _, .some h⟩

/-- a modifier, none, or only its colon -/
theorem modifier_cases (ts : Toks) : (∃ m rest, ReadsModifier ts m rest) ∨
    ∃ s r, ts = .punct ':' s :: r ∧ ∀ i r', r ≠ .ident i :: r' := by
  by_cases h : ∀ s r, ts ≠ .punct ':' s :: r
  · exact .inl ⟨_, _, .none h⟩
  · simp only [Classical.not_forall, Classical.not_not] at h
    obtain ⟨s, r, rfl⟩ := h
    by_cases h : ∀ i r', r ≠ .ident i :: r'
    · exact .inr ⟨s, r, rfl, h⟩
    · simp only [Classical.not_forall, Classical.not_not] at h
      obtain ⟨i, r', rfl⟩ := h
      exact .inl ⟨_, _, .some⟩

/-- what can be said about the content of braces -/
theorem content_cases {c : Toks} (hl : LexicalToks c) :
    AllName c ∨ (∃ run t r, LongestKebab c run (t :: r)) ∨ ¬ NameStart c := by
  rcases name_cases hl with ⟨run, rest, h⟩ | h
  · cases rest with
    | nil =>
      left
      have : c = run := by rw [h.split, List.append_nil]
      subst this
      exact h
    | cons t r => exact .inr (.inl ⟨run, t, r, h⟩)
  · exact .inr (.inr h)

theorem attrs_total : ∀ (n : Nat) (ts : Toks), ts.length ≤ n → LexicalToks ts →
    ∃ is as rest, ReadsAttrs ts is as rest := by
  intro n
  induction n with
  | zero =>
    intro ts hn _
    have : ts = [] := List.length_eq_zero_iff.mp (by omega)
    subst this
    exact ⟨_, _, _, .done (by rintro ⟨t, r, h, _⟩; simp at h) (by simp)⟩
  | succ n ih =>
    intro ts hn hl
    -- the attributes after one
    have next : ∀ {used rest}, used ≠ [] → ts = used ++ rest → ∃ is as left, ReadsAttrs rest is as left := by
      rintro used rest hu rfl
      refine ih rest ?_ hl.append
      cases used with
      | nil => exact absurd rfl hu
      | cons => simp only [List.length_append, List.length_cons] at hn; omega
    by_cases hd : ∃ d s r, ts = .ident d :: .punct ':' s :: r
    · obtain ⟨d, s, r, rfl⟩ := hd
      by_cases hb : ∃ c r', r = .group .brace c :: r'
      · obtain ⟨c, r', rfl⟩ := hb
        rcases content_cases (hl.tail.tail.group (by decide)) with hc | ⟨run, t, x, hc⟩ | hc
        · rcases modifier_cases r' with ⟨m, rest, hm⟩ | ⟨s', r'', rfl, hm⟩
          · obtain ⟨u, hu⟩ := hm.suffix
            obtain ⟨is, as, left, h⟩ := next (used := .ident d :: .punct ':' s :: .group .brace c :: u)
              (rest := rest) (by simp) (by rw [hu]; rfl)
            exact ⟨_, _, _, .dirShort hc hm h⟩
          · exact ⟨_, _, _, .dirShortNoModifier hc hm⟩
        · exact ⟨_, _, _, .dirMore hc⟩
        · exact ⟨_, _, _, .dirNoName hc⟩
      · by_cases hk : ∃ ks key r1, ReadsKey r ks key r1
        · obtain ⟨ks, key, r1, hk⟩ := hk
          obtain ⟨u1, hu1⟩ := hk.suffix
          rcases modifier_cases r1 with ⟨m, r2, hm⟩ | ⟨s', r2, rfl, hm⟩
          · obtain ⟨js, v, r3, hv⟩ := readsEq_total r2
            obtain ⟨u2, hu2⟩ := hm.suffix
            obtain ⟨u3, hu3⟩ := hv.suffix
            obtain ⟨is, as, left, h⟩ := next (used := .ident d :: .punct ':' s :: (u1 ++ (u2 ++ u3)))
              (rest := r3) (by simp) (by rw [hu1, hu2, hu3]; simp)
            exact ⟨_, _, _, .dir hk hm hv h⟩
          · exact ⟨_, _, _, .dirNoModifier hk hm⟩
        · refine ⟨_, _, _, .dirNoKey ?_ ?_ ?_⟩
          · rcases name_cases hl.tail.tail with ⟨run, rest, h⟩ | h
            · exact absurd ⟨_, _, _, .name h⟩ hk
            · exact h
          · rintro x r' rfl
            exact hk ⟨_, _, _, .str⟩
          · rintro c r' rfl
            exact hb ⟨_, _, rfl⟩
    · rcases name_cases hl with ⟨run, rest, hr⟩ | hr
      · obtain ⟨js, v, r3, hv⟩ := readsEq_total rest
        obtain ⟨u, hu⟩ := hv.suffix
        obtain ⟨is, as, left, h⟩ := next (used := run ++ u)
          (rest := r3) (by
            intro h
            exact hr.kebab.nonempty (List.append_eq_nil_iff.mp h).1) (by rw [hr.split, hu]; simp)
        exact ⟨_, _, _, .kv hr (fun d s r h => hd ⟨d, s, r, h⟩) hv h⟩
      · by_cases hb : ∃ c r', ts = .group .brace c :: r'
        · obtain ⟨c, r', rfl⟩ := hb
          rcases content_cases (hl.group (by decide)) with hc | ⟨run, t, x, hc⟩ | hc
          · obtain ⟨is, as, left, h⟩ := next (used := [.group .brace c]) (rest := r') (by simp) rfl
            exact ⟨_, _, _, .short hc h⟩
          · exact ⟨_, _, _, .brace hc⟩
          · by_cases hs : IsSpread c
            · obtain ⟨s, e, rfl⟩ := hs
              obtain ⟨is, as, left, h⟩ := next
                (used := [.group .brace (.punct '.' .joint :: .punct '.' s :: e)]) (rest := r') (by simp) rfl
              exact ⟨_, _, _, .spread h⟩
            · refine ⟨_, _, _, .done hr ?_⟩
              rintro c' r h
              simp only [List.cons.injEq, TT.group.injEq, true_and] at h
              rw [← h.1]
              exact ⟨hc, hs⟩
        · exact ⟨_, _, _, .done hr fun c r h => absurd ⟨c, r, h⟩ hb⟩

theorem rest_smaller {used rest : Toks} (h : used ≠ []) : toksSize rest < toksSize (used ++ rest) := by
  cases used with
  | nil => exact absurd rfl h
  | cons t u => exact SSub.size ⟨t, u, rfl⟩

theorem tag_total (pp : PathParser) {ts : Toks} (hl : LexicalToks ts) :
    (∃ is tag rest, ReadsTag pp ts is tag rest) ∨ ∃ e rest, NoTag pp ts e rest := by
  by_cases hp : PathStart ts
  · cases h : pp.run ts with
    | mk p rest =>
      cases p with
      | some p => exact .inl ⟨_, _, _, .path hp h⟩
      | none => exact .inr ⟨_, _, .path hp h⟩
  · rcases name_cases hl with ⟨run, rest, h⟩ | h
    · cases ht : tagOf (kebabOf run) with
      | some tag => exact .inl ⟨_, _, _, .name hp h ht⟩
      | none => exact .inl ⟨_, .webComponent (kebabOf run), _, .crash hp h ht⟩
    · exact .inr ⟨_, _, .name hp h⟩

/-- A tag has at least one token. -/
theorem ReadsTag.smaller {pp : PathParser} {ts : Toks} {is : List Issue} {tag : Tag} {rest : Toks}
    (h : ReadsTag pp ts is tag rest) : toksSize rest < toksSize ts := by
  cases h with
  | path _ h =>
    obtain ⟨u, hu, rfl⟩ := pp.progress _ _ _ h
    exact rest_smaller hu
  | name _ h =>
    rw [h.split]
    exact rest_smaller h.kebab.nonempty
  | crash _ h =>
    rw [h.split]
    have := rest_smaller (rest := []) h.kebab.nonempty
    rw [toksSize_append] at this ⊢
    rw [toksSize_nil]
    omega

/-- pipes close, or not -/
theorem pipe_cases (ts : Toks) : NoPipe ts ∨ ∃ args s r, ts = args ++ .punct '|' s :: r ∧ NoPipe args := by
  induction ts with
  | nil => exact .inl (by simp [NoPipe])
  | cons t ts ih =>
    by_cases h : ∃ s, t = .punct '|' s
    · obtain ⟨s, rfl⟩ := h
      exact .inr ⟨[], s, ts, rfl, by simp [NoPipe]⟩
    · rcases ih with ih | ⟨args, s, r, rfl, ih⟩
      · left
        intro x hx s
        rcases List.mem_cons.mp hx with rfl | hx
        · exact fun he => h ⟨s, he⟩
        · exact ih x hx s
      · refine .inr ⟨t :: args, s, r, rfl, ?_⟩
        intro x hx s
        rcases List.mem_cons.mp hx with rfl | hx
        · exact fun he => h ⟨s, he⟩
        · exact ih x hx s

theorem suffix_size {ts rest : Toks} (h : ∃ used, ts = used ++ rest) : toksSize rest ≤ toksSize ts :=
  Sub.size h

theorem end_total {pp : PathParser} {ts : Toks} (hl : LexicalToks ts)
    (ih : ∀ c, toksSize c < toksSize ts → LexicalToks c → ∃ is cs, ReadsChildren pp c is cs) :
    (∃ is args block rest, ReadsEnd pp ts is args block rest) ∨
    ∃ s args, ts = .punct '|' s :: args ∧ NoPipe args := by
  cases ts with
  | nil => exact .inl ⟨_, _, _, _, .nothing⟩
  | cons t r =>
    by_cases h1 : ∃ s, t = .punct ';' s
    · obtain ⟨s, rfl⟩ := h1
      exact .inl ⟨_, _, _, _, .semi⟩
    by_cases h2 : ∃ s, t = .punct '|' s
    · obtain ⟨s, rfl⟩ := h2
      rcases pipe_cases r with hp | ⟨args, s', r', rfl, hp⟩
      · exact .inr ⟨s, r, rfl, hp⟩
      left
      by_cases hg : ∃ d c x, r' = .group d c :: x ∧ d ≠ .bracket
      · obtain ⟨d, c, x, rfl, hd⟩ := hg
        obtain ⟨is, cs, h⟩ := ih c (by
          simp only [toksSize_cons, toksSize_append, TT.size]; omega)
          (hl.tail.append.tail.group hd)
        exact ⟨_, _, _, _, .closure hp hd h⟩
      · refine ⟨_, _, _, _, .noBlock hp ?_⟩
        rintro d c x rfl
        by_cases hd : d = .bracket
        · exact hd
        · exact absurd ⟨_, _, _, rfl, hd⟩ hg
    left
    by_cases hg : ∃ d c, t = .group d c ∧ d ≠ .bracket
    · obtain ⟨d, c, rfl, hd⟩ := hg
      obtain ⟨is, cs, h⟩ := ih c (by simp only [toksSize_cons, TT.size]; omega) (hl.group hd)
      exact ⟨_, _, _, _, .block hd h⟩
    · refine ⟨_, _, _, _, .other (fun s h => h1 ⟨s, h⟩) (fun s h => h2 ⟨s, h⟩) ?_⟩
      rintro d c rfl
      by_cases hd : d = .bracket
      · exact hd
      · exact absurd ⟨_, _, rfl, hd⟩ hg

/-- an element or slot starts, or a value, or neither -/
theorem start_cases (t : TT) (r : Toks) :
    (∃ (v : CVal) (rest : Toks), t :: r = v.toks ++ rest ∧
      ∀ b, v = .bool b → ∀ c r, rest ≠ .group .bracket c :: r) ∨
    (∃ b r0, ElemStart (t :: r) b r0) ∨
    (NoValue (t :: r) ∧ t.isIdent = false) := by
  rcases value_or_none (t :: r) with h | h
  · exact .inl h
  · right
    cases t with
    | ident i =>
      left
      by_cases hs : SlotStart (.ident i :: r)
      · obtain ⟨s, r', he, hc⟩ := hs
        simp only [List.cons.injEq, TT.ident.injEq] at he
        rw [he.1, he.2]
        exact ⟨_, _, .slot hc⟩
      · exact ⟨_, _, .elem h hs⟩
    | _ => exact .inr ⟨h, rfl⟩

theorem children_total (pp : PathParser) : ∀ (n : Nat) (ts : Toks), toksSize ts ≤ n → LexicalToks ts →
    ∃ is cs, ReadsChildren pp ts is cs := by
  intro n
  induction n with
  | zero =>
    intro ts hn _
    have hlen := length_le_toksSize ts
    have : ts = [] := List.length_eq_zero_iff.mp (by omega)
    subst this
    exact ⟨_, _, .nil⟩
  | succ n ih =>
    intro ts hn hl
    have small : ∀ c, toksSize c < toksSize ts → LexicalToks c → ∃ is cs, ReadsChildren pp c is cs :=
      fun c hc => ih c (by omega)
    cases ts with
    | nil => exact ⟨_, _, .nil⟩
    | cons t r =>
      rcases start_cases t r with ⟨v, rest, he, hv⟩ | ⟨b, r0, h0⟩ | ⟨hv, hi⟩
      · rw [he] at hl small ⊢
        obtain ⟨is, cs, h⟩ := small rest (rest_smaller (by
          have := value_ne (v := v) (rest := []); simpa using this)) hl.append
        by_cases hw : v.ChildWf
        · exact ⟨_, _, .value hv hw h⟩
        · exact ⟨_, _, .literal hv hw h⟩
      · have hl0 := h0.lexical hl
        have hs0 := suffix_size h0.suffix
        rcases tag_total pp hl0 with ⟨ti, tag, r1, ht⟩ | ⟨e, rest, hn⟩
        · have hl1 : LexicalToks r1 := by obtain ⟨u, hu⟩ := ht.suffix; exact (hu ▸ hl0).append
          obtain ⟨si, sels, r2, hs⟩ := sels_total _ r1 (Nat.le_refl _) hl1
          have hl2 : LexicalToks r2 := by obtain ⟨u, hu⟩ := hs.suffix; exact (hu ▸ hl1).append
          obtain ⟨ai, attrs, r3, ha⟩ := attrs_total _ r2 (Nat.le_refl _) hl2
          have hl3 : LexicalToks r3 := by obtain ⟨u, hu⟩ := ha.suffix; exact (hu ▸ hl2).append
          have h1 := ht.smaller
          have h2 := suffix_size hs.suffix
          have h3 := suffix_size ha.suffix
          rcases end_total hl3 (fun c hc => small c (by omega)) with ⟨ei, args, block, r4, hend⟩ | ⟨s, args, rfl, hp⟩
          · have hl4 : LexicalToks r4 := by obtain ⟨u, hu⟩ := hend.suffix; exact (hu ▸ hl3).append
            have h4 := suffix_size hend.suffix
            obtain ⟨is, cs, h⟩ := small r4 (by omega) hl4
            exact ⟨_, _, .elem h0 ht hs ha hend h⟩
          · exact ⟨_, _, .unclosed h0 ht hs ha hp⟩
        · by_cases hs : ∃ s r', rest = .punct ';' s :: r'
          · obtain ⟨s, r', rfl⟩ := hs
            have h1 := suffix_size hn.suffix
            simp only [toksSize_cons (.punct ';' s), TT.size] at h1
            obtain ⟨is, cs, h⟩ := small r' (by omega) (by
              obtain ⟨u, hu⟩ := hn.suffix; exact (hu ▸ hl0).append.tail)
            exact ⟨_, _, .noTagSemi h0 hn h⟩
          · exact ⟨_, _, .noTag h0 hn fun s r' h => hs ⟨s, r', h⟩⟩
      · by_cases hs : ∃ s, t = .punct ';' s
        · obtain ⟨s, rfl⟩ := hs
          obtain ⟨is, cs, h⟩ := small r (by simp only [toksSize_cons, TT.size]; omega) hl.tail
          exact ⟨_, _, .semi h⟩
        · exact ⟨_, _, .other hv hi fun s h => hs ⟨s, h⟩⟩

end Mview
