import Verif.Lemmas.Basic
import Verif.Spec.Kebab
/-
The kebab parser computes the longest run.
-/

namespace Mview

/-- Greedy reading of a run; `pw`: whether the previous token was a word. -/
def munch : Bool → Toks → Toks × Toks
  | _, [] => ([], [])
  | pw, t :: ts =>
    if t.isDash then (t :: (munch false ts).1, (munch false ts).2)
    else if t.isWord && !pw then (t :: (munch true ts).1, (munch true ts).2)
    else ([], t :: ts)

theorem munch_append (pw : Bool) (ts : Toks) : (munch pw ts).1 ++ (munch pw ts).2 = ts := by
  induction ts generalizing pw with
  | nil => rfl
  | cons t ts ih => 
    unfold munch
    split
    · simp [ih]
    · split <;> simp [ih]

/-- raw identifiers of the rest of a run, as diagnostics -/
def rawDiags (run : Toks) : List Diag := run.filterMap fun
  | .ident i => if i.raw then some (.rawInKebab i) else none
  | _ => none

/-- Outcome of the loop in terms of the greedy run. -/
def kebabRes (k : KebabIdent) (m : Toks × Toks) : Out (PR KebabIdent) :=
  .ret (rawDiags m.1) (.ok ⟨k.repr ++ kebabText m.1, k.spans + m.1.countP TT.isWord⟩ m.2)

theorem isDash_eq {t : TT} (h : t.isDash = true) : ∃ s, t = .punct '-' s := by
  unfold TT.isDash at h; split at h <;> simp_all

theorem parsePunct_dash (t : TT) (ts : Toks) : parsePunct '-' (t :: ts) =
    if t.isDash then .ret [] (.ok () ts) else .ret [] (.err (.expectedPunct '-') (t :: ts)) := by
  cases t with
  | punct c s =>
    simp only [parsePunct, TT.isDash]
    by_cases h : c = '-'
    · subst h; simp
    · have : TT.isDash (.punct c s) = false := by unfold TT.isDash; split <;> simp_all
      simp [h]
  | _ => simp [parsePunct, TT.isDash]

theorem munch_notWord {t : TT} {ts : Toks} (h : t.isWord = false) :
    munch false (t :: ts) = munch true (t :: ts) := by
  simp [munch, h]

theorem rollback_dash_nil : rollback (parsePunct '-') [] = .ret [] (.ok none []) := rfl

theorem rollback_dash_cons (t : TT) (ts : Toks) : rollback (parsePunct '-') (t :: ts) =
    if t.isDash then .ret [] (.ok (some ()) ts) else .ret [] (.ok none (t :: ts)) := by
  rw [rollback_apply, parsePunct_dash]; split <;> simp

/-- What the loop does after a dash (or the initial lone dash): try a word. -/
def afterDash (fuel : Nat) (k : KebabIdent) : P KebabIdent := do
  let ident ← rollback parseIdentAny
  match ident with
  | some i =>
    if i.raw then emitP (.rawInKebab i)
    kebabLoop fuel false ⟨k.repr ++ i.name, k.spans + 1⟩
  | none =>
    let int ← rollback parseLitInt
    match int with
    | some s => kebabLoop fuel false ⟨k.repr ++ s, k.spans + 1⟩
    | none => kebabLoop fuel false k

theorem kebabLoop_nil (fuel : Nat) (b : Bool) (k : KebabIdent) :
    kebabLoop (fuel + 1) b k [] =
      if (b && k.repr = c!"-") then afterDash fuel k [] else .ret [] (.ok k []) := by
  simp only [kebabLoop, P.bind_apply, rollback_dash_nil, Out.bind_ret, Out.tell_nil]
  cases b <;> simp
  split <;> rfl

theorem kebabLoop_cons (fuel : Nat) (b : Bool) (k : KebabIdent) (t : TT) (ts : Toks) :
    kebabLoop (fuel + 1) b k (t :: ts) =
      if t.isDash then afterDash fuel { k with repr := k.repr ++ c!"-" } ts
      else if (b && k.repr = c!"-") then afterDash fuel k (t :: ts)
      else .ret [] (.ok k (t :: ts)) := by
  simp only [kebabLoop, P.bind_apply, rollback_dash_cons]
  by_cases h : t.isDash
  · simp only [h, if_true, Out.bind_ret, Out.tell_nil]; rfl
  · simp only [h, if_false, Out.bind_ret, Out.tell_nil, Bool.false_eq_true]
    cases b <;> simp
    split <;> rfl

theorem countP_cons' (t : TT) (ts : Toks) :
    (t :: ts).countP TT.isWord = (if t.isWord then 1 else 0) + ts.countP TT.isWord := by
  rw [List.countP_cons]; omega

/-- The loop from its second iteration on, and the word after a dash, both read the
greedy run. -/
theorem kebabLoop_munch : ∀ (n : Nat) (ts : Toks), ts.length ≤ n → ∀ (fuel : Nat) (k : KebabIdent),
    (ts.length < fuel → kebabLoop fuel false k ts = kebabRes k (munch true ts)) ∧
    (ts.length < fuel → afterDash fuel k ts = kebabRes k (munch false ts)) := by
  intro n
  induction n with
  | zero =>
    intro ts hn fuel k
    have : ts = [] := List.length_eq_zero_iff.mp (by omega)
    subst this
    refine ⟨?_, ?_⟩
    · intro hf; obtain ⟨f, rfl⟩ : ∃ f, fuel = f + 1 := ⟨fuel - 1, by simp at hf; omega⟩
      rw [kebabLoop_nil]; simp [munch, kebabRes, rawDiags, kebabText]
    · intro hf; obtain ⟨f, rfl⟩ : ∃ f, fuel = f + 1 := ⟨fuel - 1, by simp at hf; omega⟩
      unfold afterDash
      simp [rollback_apply, parseIdentAny, parseLitInt, parseLit, kebabLoop_nil]
      simp [munch, kebabRes, rawDiags, kebabText]
  | succ n ih =>
    intro ts hn
    -- first the loop
    have loop : ∀ (fuel : Nat) (k : KebabIdent), ts.length < fuel →
        kebabLoop fuel false k ts = kebabRes k (munch true ts) := by
      intro fuel k hf
      obtain ⟨f, rfl⟩ : ∃ f, fuel = f + 1 := ⟨fuel - 1, by omega⟩
      cases ts with
      | nil => rw [kebabLoop_nil]; simp [munch, kebabRes, rawDiags, kebabText]
      | cons t ts =>
        simp only [List.length_cons] at hn hf
        rw [kebabLoop_cons]
        by_cases h : t.isDash
        · obtain ⟨s, rfl⟩ := isDash_eq h
          rw [if_pos h, (ih ts (by omega) f _).2 (by omega)]
          simp [kebabRes, munch, TT.isDash, rawDiags, kebabText, TT.text, TT.isWord]
        · simp [h, kebabRes, munch, rawDiags, kebabText]
    refine fun fuel k => ⟨loop fuel k, ?_⟩
    intro hf
    cases ts with
    | nil =>
      unfold afterDash
      simp [rollback_apply, parseIdentAny, parseLitInt, parseLit]
      rw [loop _ _ hf]; simp [munch, kebabRes, rawDiags, kebabText]
    | cons t ts =>
      simp only [List.length_cons] at hn hf
      have ih1 := ih ts (by omega)
      unfold afterDash
      cases t with
      | ident i =>
        simp only [P.bind_apply, rollback_apply, parseIdentAny, Out.bind_ret, Out.tell_nil]
        by_cases hr : i.raw
        · simp only [hr, if_true, P.bind_apply, emitP_apply, Out.bind_ret]
          rw [(ih1 _ _).1 (by omega)]
          simp [munch, TT.isDash, TT.isWord, kebabRes, rawDiags, hr, kebabText, TT.text, List.countP_cons]
          omega
        · simp only [hr, if_false, Bool.false_eq_true]
          rw [(ih1 _ _).1 (by omega)]
          simp [munch, TT.isDash, TT.isWord, kebabRes, rawDiags, hr, kebabText, TT.text, List.countP_cons]
          omega
      | lit l =>
        cases l with
        | int x =>
          simp [rollback_apply, parseIdentAny, parseLitInt, parseLit]
          rw [(ih1 _ _).1 (by omega)]
          simp [munch, TT.isDash, TT.isWord, kebabRes, rawDiags, kebabText, TT.text, List.countP_cons]
          omega
        | _ =>
          simp [rollback_apply, parseIdentAny, parseLitInt, parseLit]
          rw [loop _ _ hf, munch_notWord (by rfl)]
      | group d inner =>
        simp [rollback_apply, parseIdentAny, parseLitInt, parseLit]
        rw [loop _ _ hf, munch_notWord (by rfl)]
      | punct c s =>
        by_cases hlit : ∃ x r, c = '-' ∧ ts = .lit (.int x) :: r
        · obtain ⟨x, r, rfl, rfl⟩ := hlit
          simp [rollback_apply, parseIdentAny, parseLitInt, parseLit]
          simp only [List.length_cons] at hn hf
          rw [((ih r (by omega)) _ _).1 (by omega)]
          simp [munch, TT.isDash, TT.isWord, kebabRes, rawDiags, kebabText, TT.text, List.countP_cons]
          omega
        · have : rollback parseLitInt (.punct c s :: ts) = .ret [] (.ok none (.punct c s :: ts)) := by
            simp only [rollback_apply, parseLitInt, P.bind_apply]
            unfold parseLit
            split <;> simp_all
          have h2 : rollback parseIdentAny (.punct c s :: ts) =
              .ret [] (.ok none (.punct c s :: ts)) := rfl
          simp only [P.bind_apply, this, h2, Out.bind_ret, Out.tell_nil]
          rw [loop _ _ (by simpa using hf), munch_notWord (by rfl)]

/-- What the parser reads: the first token and the greedy run after it. -/
def kebabSplit : Toks → Option (Toks × Toks)
  | .ident i :: ts =>
    let m := munch (i.name ≠ c!"-") ts
    some (.ident i :: m.1, m.2)
  | .punct '-' s :: ts =>
    let m := munch false ts
    some (.punct '-' s :: m.1, m.2)
  | _ => none

theorem loop_true (k : KebabIdent) (ts : Toks) (fuel : Nat) (hf : ts.length + 1 < fuel) :
    kebabLoop fuel true k ts = kebabRes k (munch (k.repr ≠ c!"-") ts) := by
  obtain ⟨f, rfl⟩ : ∃ f, fuel = f + 1 := ⟨fuel - 1, by omega⟩
  by_cases h : k.repr = c!"-"
  · cases ts with
    | nil =>
      rw [kebabLoop_nil]
      simp only [h]
      exact (kebabLoop_munch 0 [] (Nat.le_refl _) f k).2 (by simp at hf; simpa using by omega)
    | cons t ts =>
      rw [kebabLoop_cons]
      by_cases ht : t.isDash
      · obtain ⟨s, rfl⟩ := isDash_eq ht
        rw [if_pos ht, ((kebabLoop_munch _ ts (Nat.le_refl _)) f _).2 (by simp at hf; omega)]
        simp [kebabRes, munch, TT.isDash, rawDiags, kebabText, TT.text, TT.isWord, h]
      · simp only [ht, h]
        simpa using ((kebabLoop_munch _ (t :: ts) (Nat.le_refl _)) f k).2 (by omega)
  · have : kebabLoop (f + 1) true k ts = kebabLoop (f + 1) false k ts := by
      cases ts with
      | nil => simp [kebabLoop_nil, h]
      | cons t ts => simp [kebabLoop_cons, h]
    rw [this, ((kebabLoop_munch _ ts (Nat.le_refl _)) _ k).1 (by omega)]
    simp [h]

theorem parseKebab_eq (ts : Toks) : parseKebab ts =
    match kebabSplit ts with
    | some (run, rest) => .ret (rawDiags run.tail) (.ok (kebabOf run) rest)
    | none => .ret [] (.err .expectedKebab ts) := by
  unfold parseKebab kebabSplit
  split
  · rename_i h
    split at h <;> simp at h
    · rename_i i r
      obtain ⟨rfl, rfl⟩ := h
      simp [rollback_apply, parseIdentAny]
      rw [loop_true _ _ _ (by omega)]
      simp [kebabRes, kebabOf, kebabText, kebabSections, TT.text]
    · rename_i s r
      obtain ⟨rfl, rfl⟩ := h
      simp [rollback_apply, parseIdentAny, parsePunct]
      rw [loop_true _ _ _ (by omega)]
      simp [kebabRes, kebabOf, kebabText, kebabSections, TT.text]
  · rename_i h
    split at h <;> simp at h
    rename_i h1 h2
    have e1 : parseIdentAny ts = .ret [] (.err .expectedIdent ts) := by
      unfold parseIdentAny; split
      · rename_i i r; exact absurd rfl (h1 i r)
      · rfl
    have e2 : parsePunct '-' ts = .ret [] (.err (.expectedPunct '-') ts) := by
      unfold parsePunct; split
      · rename_i c s r
        split
        · rename_i hc; subst hc; exact absurd rfl (h2 s r)
        · rfl
      · rfl
    simp [e1, e2]

end Mview

namespace Mview

/-- `a` continues a run after a word (`pw`) or dash. -/
def chainOk : Bool → Toks → Bool
  | _, [] => true
  | pw, t :: a => (t.isDash && chainOk false a) || (t.isWord && !pw && chainOk true a)

/-- Whether the last token is a word. -/
def endsWord : Bool → Toks → Bool
  | pw, [] => pw
  | _, t :: a => endsWord t.isWord a

theorem isWord_of_isDash {t : TT} (h : t.isDash = true) : t.isWord = false := by
  obtain ⟨s, rfl⟩ := isDash_eq h; rfl
theorem not_isDash_of_isWord {t : TT} (h : t.isWord = true) : t.isDash = false := by
  cases hd : t.isDash
  · rfl
  · rw [isWord_of_isDash hd] at h; exact h.symm
theorem isWord_of_isIdent {t : TT} (h : t.isIdent = true) : t.isWord = true := by
  cases t <;> simp_all [TT.isIdent, TT.isWord]

theorem munch_chainOk (pw : Bool) (ts : Toks) : chainOk pw (munch pw ts).1 = true := by
  induction ts generalizing pw with
  | nil => rfl
  | cons t ts ih =>
    unfold munch
    split
    · simp [chainOk, *]
    · split
      · simp_all [chainOk]
      · rfl

/-- The run cannot be continued with `rest`. -/
def Stops (pw : Bool) (rest : Toks) : Prop :=
  ∀ t, rest.head? = some t → t.isDash = false ∧ (t.isWord = true → pw = true)

theorem munch_eq_nil_iff {pw : Bool} {rest : Toks} : munch pw rest = ([], rest) ↔ Stops pw rest := by
  cases rest with
  | nil => simp [munch, Stops]
  | cons t ts =>
    unfold munch Stops
    by_cases h : t.isDash
    · simp [h]
    · by_cases hw : t.isWord <;> cases pw <;> simp [h, hw]

theorem munch_rest_stops (pw : Bool) (ts : Toks) :
    Stops (endsWord pw (munch pw ts).1) (munch pw ts).2 := by
  induction ts generalizing pw with
  | nil => simp [munch, Stops]
  | cons t ts ih =>
    unfold munch
    split
    · rename_i h; simpa [endsWord, isWord_of_isDash h] using ih false
    · split
      · rename_i h; simp at h; simpa [endsWord, h.1] using ih true
      · rename_i h1 h2
        intro t' ht'
        simp at ht'; subst ht'
        simp at h1 h2
        exact ⟨h1, fun hw => by simpa [endsWord] using h2 hw⟩

theorem munch_append_of {pw : Bool} {a rest : Toks} (h : chainOk pw a = true)
    (hs : Stops (endsWord pw a) rest) : munch pw (a ++ rest) = (a, rest) := by
  induction a generalizing pw with
  | nil => simpa [endsWord] using munch_eq_nil_iff.mpr hs
  | cons t a ih =>
    simp only [chainOk, Bool.or_eq_true, Bool.and_eq_true] at h
    rcases h with ⟨h1, h2⟩ | ⟨⟨h1, h2⟩, h3⟩
    · have := ih h2 (by simpa [endsWord, isWord_of_isDash h1] using hs)
      simp [munch, h1, this]
    · have := ih h3 (by simpa [endsWord, h1] using hs)
      simp at h2
      simp [munch, not_isDash_of_isWord h1, h1, h2, this]

theorem chainOk_prefix {pw : Bool} {a b : Toks} (h : chainOk pw (a ++ b) = true) :
    chainOk pw a = true := by
  induction a generalizing pw with
  | nil => rfl
  | cons t a ih =>
    simp only [List.cons_append, chainOk, Bool.or_eq_true, Bool.and_eq_true] at h ⊢
    rcases h with ⟨h1, h2⟩ | ⟨⟨h1, h2⟩, h3⟩
    · exact Or.inl ⟨h1, ih h2⟩
    · exact Or.inr ⟨⟨h1, h2⟩, ih h3⟩

/-- Nothing longer than the greedy run continues a run. -/
theorem munch_longest {pw : Bool} {a rest : Toks} (h : chainOk pw a = true) :
    a.length ≤ (munch pw (a ++ rest)).1.length := by
  induction a generalizing pw with
  | nil => simp
  | cons t a ih =>
    simp only [chainOk, Bool.or_eq_true, Bool.and_eq_true] at h
    rcases h with ⟨h1, h2⟩ | ⟨⟨h1, h2⟩, h3⟩
    · simp [munch, h1]; exact ih h2
    · simp at h2
      simp [munch, not_isDash_of_isWord h1, h1, h2]; exact ih h3

theorem chainOk_iff (pw : Bool) (a : Toks) : chainOk pw a = true ↔
    (∀ t ∈ a, t.isWord = true ∨ t.isDash = true) ∧
    (∀ t, a.head? = some t → ¬ (pw = true ∧ t.isWord = true)) ∧
    (∀ pre x y post, a = pre ++ x :: y :: post → ¬ (x.isWord = true ∧ y.isWord = true)) := by
  induction a generalizing pw with
  | nil => simp [chainOk]
  | cons t a ih =>
    have key : ∀ b, (chainOk b a = true) ↔ _ := fun b => ih b
    constructor
    · intro h
      have h' : ∃ b, chainOk b a = true ∧ (t.isWord = true → b = true) ∧
          (t.isWord = true ∨ t.isDash = true) ∧ ¬ (pw = true ∧ t.isWord = true) := by
        simp only [chainOk, Bool.or_eq_true, Bool.and_eq_true, Bool.not_eq_true'] at h
        rcases h with ⟨h1, h2⟩ | ⟨⟨h1, h2⟩, h3⟩
        · exact ⟨false, h2, by simp [isWord_of_isDash h1], Or.inr h1, by simp [isWord_of_isDash h1]⟩
        · exact ⟨true, h3, by simp, Or.inl h1, by simp [h2]⟩
      obtain ⟨b, hb, hbw, hd, hp⟩ := h'
      obtain ⟨k1, k2, k3⟩ := (key b).mp hb
      refine ⟨?_, ?_, ?_⟩
      · intro x hx
        rcases List.mem_cons.mp hx with rfl | hx
        · exact hd
        · exact k1 x hx
      · intro x hx; simp at hx; subst hx; exact hp
      · intro pre x y post he
        cases pre with
        | nil =>
          simp at he
          obtain ⟨rfl, rfl⟩ := he
          intro ⟨hx, hy⟩
          exact k2 y rfl ⟨hbw hx, hy⟩
        | cons z pre =>
          simp at he
          exact k3 pre x y post he.2
    · rintro ⟨k1, k2, k3⟩
      have hd := k1 t (List.mem_cons_self)
      have hp := k2 t rfl
      have hrest : ∀ b, (b = true → t.isWord = true) → chainOk b a = true := by
        intro b hb
        refine (key b).mpr ⟨fun x hx => k1 x (List.mem_cons_of_mem _ hx), ?_, ?_⟩
        · intro x hx ⟨h1, h2⟩
          cases a with
          | nil => simp at hx
          | cons y a =>
            simp at hx; subst hx
            exact k3 [] t _ a rfl ⟨hb h1, h2⟩
        · intro pre x y post he
          exact k3 (t :: pre) x y post (by rw [he]; rfl)
      simp only [chainOk, Bool.or_eq_true, Bool.and_eq_true, Bool.not_eq_true']
      rcases hd with hw | hd
      · right
        refine ⟨⟨hw, ?_⟩, hrest true (fun _ => hw)⟩
        cases pw
        · rfl
        · exact absurd ⟨rfl, hw⟩ hp
      · left; exact ⟨hd, hrest false (by simp)⟩

theorem isKebab_cons_iff (t : TT) (a : Toks) : IsKebab (t :: a) ↔
    (t.isIdent = true ∨ t.isDash = true) ∧ chainOk t.isWord a = true := by
  have e : chainOk false (t :: a) = true ↔ ((t.isDash = true ∨ t.isWord = true) ∧
      chainOk t.isWord a = true) := by
    simp only [chainOk, Bool.or_eq_true, Bool.and_eq_true, Bool.not_eq_true']
    constructor
    · rintro (⟨h1, h2⟩ | ⟨⟨h1, _⟩, h2⟩)
      · exact ⟨Or.inl h1, by rw [isWord_of_isDash h1]; exact h2⟩
      · exact ⟨Or.inr h1, by rw [h1]; exact h2⟩
    · rintro ⟨h1 | h1, h2⟩
      · left; rw [isWord_of_isDash h1] at h2; exact ⟨h1, h2⟩
      · right; rw [h1] at h2; exact ⟨⟨h1, by simp⟩, h2⟩
  constructor
  · intro h
    refine ⟨h.start t rfl, (e.mp ((chainOk_iff _ _).mpr ⟨h.tokens, by simp, h.alternate⟩)).2⟩
  · rintro ⟨h1, h2⟩
    have h3 : t.isDash = true ∨ t.isWord = true := by
      rcases h1 with h1 | h1
      · exact Or.inr (isWord_of_isIdent h1)
      · exact Or.inl h1
    obtain ⟨k1, _, k3⟩ := (chainOk_iff _ _).mp (e.mpr ⟨h3, h2⟩)
    exact ⟨by simp, by intro x hx; simp at hx; subst hx; exact h1, k1, k3⟩

/-- identifiers at the head are not dashes -/
def HeadLexical (ts : Toks) : Prop := ∀ i r, ts = .ident i :: r → i.name ≠ c!"-"

theorem kebabSplit_eq {t : TT} {ts : Toks} (hl : HeadLexical (t :: ts))
    (h : t.isIdent = true ∨ t.isDash = true) :
    kebabSplit (t :: ts) = some (t :: (munch t.isWord ts).1, (munch t.isWord ts).2) := by
  rcases h with h | h
  · cases t <;> simp [TT.isIdent] at h
    rename_i i
    have := hl i ts rfl
    simp [kebabSplit, this, TT.isWord]
  · obtain ⟨s, rfl⟩ := isDash_eq h
    simp [kebabSplit, TT.isWord]

theorem kebabSplit_none {ts : Toks}
    (h : ∀ t, ts.head? = some t → t.isIdent = false ∧ t.isDash = false) : kebabSplit ts = none := by
  unfold kebabSplit
  split
  · rename_i i r; have := (h _ rfl).1; simp [TT.isIdent] at this
  · rename_i s r; have := (h _ rfl).2; simp [TT.isDash] at this
  · rfl

theorem kebabSplit_longest {ts run rest : Toks} (hl : HeadLexical ts)
    (h : kebabSplit ts = some (run, rest)) : LongestKebab ts run rest := by
  cases ts with
  | nil => simp [kebabSplit] at h
  | cons t ts =>
    have hs : t.isIdent = true ∨ t.isDash = true := by
      cases h1 : t.isIdent
      · cases h2 : t.isDash
        · rw [kebabSplit_none (by simp [h1, h2])] at h; simp at h
        · simp
      · simp
    rw [kebabSplit_eq hl hs] at h
    simp at h
    obtain ⟨rfl, rfl⟩ := h
    refine ⟨by simp [munch_append], ?_, ?_⟩
    · exact (isKebab_cons_iff _ _).mpr ⟨hs, munch_chainOk _ _⟩
    · intro run' rest' he hk
      cases run' with
      | nil => simp
      | cons t' run' =>
        simp at he
        obtain ⟨rfl, rfl⟩ := he
        have := munch_longest (rest := rest') ((isKebab_cons_iff _ _).mp hk).2
        simpa using this

theorem LongestKebab.unique {ts run rest run' rest' : Toks} (h : LongestKebab ts run rest)
    (h' : LongestKebab ts run' rest') : run = run' ∧ rest = rest' := by
  have e : run.length = run'.length :=
    Nat.le_antisymm (h'.longest _ _ h.split h.kebab) (h.longest _ _ h'.split h'.kebab)
  exact List.append_inj (h.split.symm.trans h'.split) e

/-- the raw-identifier diagnostics as stated by the specification -/
theorem rawDiags_tail (run : Toks) : rawDiags run.tail = (kebabRaws run).map Diag.rawInKebab := by
  cases run with
  | nil => rfl
  | cons t a =>
    simp only [List.tail_cons, kebabRaws, rawDiags, List.map_filterMap]
    congr
    funext t
    cases t <;> simp

theorem LongestKebab.kebabSplit {ts run rest : Toks} (h : LongestKebab ts run rest)
    (hl : HeadLexical ts) : kebabSplit ts = some (run, rest) := by
  have hs : ∀ t r, run = t :: r → t.isIdent = true ∨ t.isDash = true := by
    rintro t r rfl; exact h.kebab.start t rfl
  cases run with
  | nil => exact absurd rfl h.kebab.nonempty
  | cons t r =>
    have h1 := h.split
    have hs := hs t r rfl
    subst h1
    rw [List.cons_append] at hl h ⊢
    have e := kebabSplit_eq hl hs
    have u := h.unique (kebabSplit_longest hl e)
    rw [e, ← u.1, ← u.2]

end Mview
