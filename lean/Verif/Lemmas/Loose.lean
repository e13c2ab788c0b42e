import Verif.Lemmas.OpaqueExpand
import Verif.Lemmas.Fuel
import Verif.Lemmas.Reads
/-
Reading inputs that differ in what the macro does not look at.
-/

namespace Mview
variable {R : Toks → Toks → Prop} {pp : PathParser} {ts ts' : Toks}

/-! ### tokens -/

/-- Alike, pieces being alike themselves. -/
theorem Alike.join {S : Toks → Toks → Prop} {a a' : Toks} (h : Alike (Alike S) a a') : Alike S a a' := by
  induction h with
  | nil => exact .nil
  | tok t _ ih => exact .tok t ih
  | group d _ _ ih ih' => exact .group d ih ih'
  | code h _ ih => exact h.append ih

theorem Alike.piece {S : Toks → Toks → Prop} {a a' b b' : Toks} (h : S a a') (h' : Alike S b b') :
    Alike S (a ++ b) (a' ++ b') := .code h h'

theorem Like.alike {a a' : Toks} (h : Like R a a') : Alike (Loose R) a a' := by
  induction h with
  | nil => exact .nil
  | tok t _ ih => exact .tok t ih
  | space hc s s' _ ih => exact .piece (a := [_]) (a' := [_]) (.space hc s s') ih
  | group d _ _ ih ih' => exact .group d ih ih'
  | bracket h _ ih => exact .group _ (.ofCode (.code h)) ih
  | other h _ ih => exact .piece (a := [_]) (a' := [_]) (.code h) ih
  | block s s' h _ ih =>
    exact .piece (a := [_]) (a' := [_]) (.space (by decide) s s') (.group _ (.ofCode (.code h)) ih)
  | lit s s' h _ ih =>
    exact .piece (a := [_]) (a' := [_]) (.space (by decide) s s') (.piece (a := [_]) (a' := [_]) (.code h) ih)
  | spread s h _ ih => exact .group _ (.tok _ (.tok _ (.ofCode (.code h)))) ih

theorem Like.refl : (a : Toks) → Like R a a
  | [] => .nil
  | t :: a => .tok t (Like.refl a)

theorem Like.length {a a' : Toks} (h : Like R a a') : a.length = a'.length := by
  induction h <;> simp_all

/-! ### places -/

variable (R ts ts') in
/-- The same place in both inputs, and the same follows. -/
def At (a a' : Toks) : Prop := SamePlace ts ts' a a' ∧ Like R a a'

variable (R ts ts') in
/-- The same place in both inputs, perhaps after an `=`. -/
def Past (a a' : Toks) : Prop :=
  At R ts ts' a a' ∨
    (∃ g g' b b', a = .group .brace g :: b ∧ a' = .group .brace g' :: b' ∧ R g g' ∧ At R ts ts' b b') ∨
    ∃ l l' b b', a = .lit l :: b ∧ a' = .lit l' :: b' ∧ R [.lit l] [.lit l'] ∧ At R ts ts' b b'

variable (R ts ts') in
/-- In braces or parentheses: the same place in both inputs, or after `{`. -/
def Inner (a a' : Toks) : Prop :=
  At R ts ts' a a' ∨
    ∃ s e e', a = .punct '.' .joint :: .punct '.' s :: e ∧ a' = .punct '.' .joint :: .punct '.' s :: e' ∧
      R e e'

variable (R) in
/-- Literals that are not told apart. -/
inductive LitLike : Lit → Lit → Prop
  | refl (l : Lit) : LitLike l l
  | other {x x' : Str} (h : R [.lit (.other x)] [.lit (.other x')]) : LitLike (.other x) (.other x')

variable (R ts ts') in
/-- What may come next. -/
inductive Heads : Toks → Toks → Prop
  | nil : Heads [] []
  | ident (i : Ident) {b b' : Toks} (h : At R ts ts' b b') : Heads (.ident i :: b) (.ident i :: b')
  | punct {c : Char} {s s' : Spacing} (hs : c ∈ together → s = s') {b b' : Toks} (h : Past R ts ts' b b')
    (h' : c ≠ '=' → At R ts ts' b b') : Heads (.punct c s :: b) (.punct c s' :: b')
  | lit {l l' : Lit} (hl : LitLike R l l') {b b' : Toks} (h : At R ts ts' b b') : Heads (.lit l :: b) (.lit l' :: b')
  | group {d : Delim} {g g' : Toks} (hg : Alike (Loose R) g g') (hw : d ≠ .bracket → Inner R ts ts' g g')
    {b b' : Toks} (h : At R ts ts' b b') : Heads (.group d g :: b) (.group d g' :: b')

variable (R ts ts') in
/-- What may come next, perhaps after an `=`. -/
inductive PastHeads : Toks → Toks → Prop
  | at {a a' : Toks} (h : Heads R ts ts' a a') : PastHeads a a'
  | block {g g' : Toks} (hg : R g g') {b b' : Toks} (h : At R ts ts' b b') :
    PastHeads (.group .brace g :: b) (.group .brace g' :: b')
  | lit {l l' : Lit} (hl : R [.lit l] [.lit l']) {b b' : Toks} (h : At R ts ts' b b') :
    PastHeads (.lit l :: b) (.lit l' :: b')

theorem At.past {a a' : Toks} (h : At R ts ts' a a') : Past R ts ts' a a' := .inl h

theorem At.heads {a a' : Toks} (h : At R ts ts' a a') : Heads R ts ts' a a' := by
  obtain ⟨hp, hl⟩ := h
  cases hl with
  | nil => exact .nil
  | tok t h =>
    have hn : At R ts ts' _ _ := ⟨hp.next, h⟩
    cases t with
    | ident i => exact .ident i hn
    | punct c s => exact .punct (fun _ => rfl) hn.past fun _ => hn
    | lit l => exact .lit (.refl l) hn
    | group d g => exact .group (.refl g) (fun _ => .inl ⟨hp.into, .refl g⟩) hn
  | space hc s s' h =>
    have hn : At R ts ts' _ _ := ⟨hp.next, h⟩
    exact .punct (fun h => absurd h hc) hn.past fun _ => hn
  | group d h h' => exact .group h.alike (fun _ => .inl ⟨hp.into, h⟩) ⟨hp.next, h'⟩
  | bracket h h' => exact .group (.ofCode (.code h)) (fun h => absurd rfl h) ⟨hp.next, h'⟩
  | other h h' => exact .lit (.other h) ⟨hp.next, h'⟩
  | block s s' h h' =>
    exact .punct (fun h => absurd h (by decide)) (.inr (.inl ⟨_, _, _, _, rfl, rfl, h, hp.next.next, h'⟩))
      fun h => absurd rfl h
  | lit s s' h h' =>
    exact .punct (fun h => absurd h (by decide)) (.inr (.inr ⟨_, _, _, _, rfl, rfl, h, hp.next.next, h'⟩))
      fun h => absurd rfl h
  | spread s h h' =>
    exact .group (.tok _ (.tok _ (.ofCode (.code h)))) (fun _ => .inr ⟨_, _, _, rfl, rfl, h⟩) ⟨hp.next, h'⟩

theorem Past.heads {a a' : Toks} (h : Past R ts ts' a a') : PastHeads R ts ts' a a' := by
  rcases h with h | ⟨_, _, _, _, rfl, rfl, h, h'⟩ | ⟨_, _, _, _, rfl, rfl, h, h'⟩
  · exact .at h.heads
  · exact .block h h'
  · exact .lit h h'

/-! ### looking ahead -/

theorem Past.peekGroup {a a' : Toks} (h : Past R ts ts' a a') (d : Delim) : peekGroup d a = peekGroup d a' := by
  rcases h.heads with ⟨_ | _ | _ | _ | _⟩ | _ | _ <;> rfl

theorem Past.peekPunct {a a' : Toks} (h : Past R ts ts' a a') (c : Char) : peekPunct c a = peekPunct c a' := by
  rcases h.heads with ⟨_ | _ | _ | _ | _⟩ | _ | _ <;> rfl

theorem Past.peekIdentAny {a a' : Toks} (h : Past R ts ts' a a') : peekIdentAny a = peekIdentAny a' := by
  rcases h.heads with ⟨_ | _ | _ | _ | _⟩ | _ | _ <;> rfl

theorem Past.peekIdent {a a' : Toks} (h : Past R ts ts' a a') : peekIdent a = peekIdent a' := by
  rcases h.heads with ⟨_ | _ | _ | _ | _⟩ | _ | _ <;> rfl

theorem Past.peekKw {a a' : Toks} (h : Past R ts ts' a a') (k : Str) : peekKw k a = peekKw k a' := by
  rcases h.heads with ⟨_ | _ | _ | _ | _⟩ | _ | _ <;> rfl

theorem Past.isEmpty {a a' : Toks} (h : Past R ts ts' a a') : isEmpty a = isEmpty a' := by
  rcases h.heads with ⟨_ | _ | _ | _ | _⟩ | _ | _ <;> rfl

theorem peekPunct2_cons (a b c : Char) (s : Spacing) (r : Toks) :
    peekPunct2 a b (.punct c s :: r) = (decide (c = a) && decide (s = .joint) && peekPunct b r) := by
  rcases s with _ | _ <;> rcases r with _ | ⟨_ | _ | _ | _, r⟩ <;> simp [peekPunct2, peekPunct]

theorem Past.peekPunct2 {a a' : Toks} (h : Past R ts ts' a a') {c : Char} (hc : c ∈ together) (c' : Char) :
    peekPunct2 c c' a = peekPunct2 c c' a' := by
  cases h.heads with
  | block => rfl
  | lit => rfl
  | «at» k =>
    cases k with
    | punct hs k k' =>
      rename_i x s s' b b'
      rw [peekPunct2_cons, peekPunct2_cons, k.peekPunct]
      by_cases hx : x = c
      · rw [hs (hx ▸ hc)]
      · simp [hx]
    | _ => rfl

theorem skip_punct {c : Char} {s : Spacing} (h : ¬ (c = '\'' ∧ s = .joint)) (r : Toks) :
    skip (.punct c s :: r) = r := by
  unfold skip
  split
  · rename_i he
    simp only [List.cons.injEq, TT.punct.injEq] at he
    exact absurd he.1 h
  · rename_i he; simp only [List.cons.injEq] at he; exact he.2.symm
  · rename_i he; cases he

theorem At.skip {a a' : Toks} (h : At R ts ts' a a') : Past R ts ts' (skip a) (skip a') := by
  cases h.heads with
  | nil => exact h.past
  | ident i k => exact k.past
  | lit hl k => exact k.past
  | group hg hw k => exact k.past
  | punct hs k k' =>
    rename_i c s s' b b'
    by_cases hc : c = '\'' ∧ s = .joint
    · obtain ⟨rfl, rfl⟩ := hc
      obtain rfl := hs (by decide)
      cases (k' (by decide)).heads with
      | ident i k2 => exact k2.past
      | _ => exact k
    · rw [skip_punct hc, skip_punct fun hc' => hc ⟨hc'.1, (hs (hc'.1 ▸ by decide)).trans hc'.2⟩]
      exact k

/-! ### parsers -/

variable (R ts ts') in
/-- The same is read. -/
inductive ReadAlike {α β : Type} (Q : α → β → Prop) : PR α → PR β → Prop
  | ok {a : α} {b : β} {r r' : Toks} (h : Q a b) (hr : At R ts ts' r r') : ReadAlike Q (.ok a r) (.ok b r')
  | err (e : Err) {r r' : Toks} (hr : At R ts ts' r r') : ReadAlike Q (.err e r) (.err e r')

variable (R ts ts') in
/-- The parsers agree everywhere. -/
def Agree {α β : Type} (Q : α → β → Prop) (p : P α) (p' : P β) : Prop :=
  ∀ a a', At R ts ts' a a' → OutAlike (ReadAlike R ts ts' Q) (p a) (p' a')

theorem Agree.pure {α β : Type} {Q : α → β → Prop} {a : α} {b : β} (h : Q a b) :
    Agree R ts ts' Q (Pure.pure a) (Pure.pure b) := fun _ _ hp => .ret [] (.ok h hp)

theorem Agree.bind {α β γ δ : Type} {Q : α → β → Prop} {S : γ → δ → Prop} {p : P α} {p' : P β}
    {f : α → P γ} {f' : β → P δ} (h : Agree R ts ts' Q p p')
    (hf : ∀ a b, Q a b → Agree R ts ts' S (f a) (f' b)) : Agree R ts ts' S (p >>= f) (p' >>= f') := by
  intro a a' hp
  refine OutAlike.bind (h a a' hp) fun r r' hr => ?_
  cases hr with
  | ok h hr => exact hf _ _ h _ _ hr
  | err e hr => exact .ret [] (.err e hr)

/-- Look ahead. -/
theorem Agree.look {γ δ : Type} {S : γ → δ → Prop} {f : Toks → P γ} {f' : Toks → P δ}
    (hf : ∀ a a', At R ts ts' a a' → OutAlike (ReadAlike R ts ts' S) (f a a) (f' a' a')) :
    Agree R ts ts' S (inp >>= f) (inp >>= f') := by
  intro a a' hp
  show OutAlike _ ((f a a).tell []) ((f' a' a').tell [])
  have e : ∀ {α : Type} (x : Out α), x.tell [] = x := by intro α x; cases x <;> rfl
  rw [e, e]
  exact hf a a' hp

theorem iteAt {α β : Type} {Q : PR α → PR β → Prop} {c : Prop} [Decidable c] {x y : P α}
    {x' y' : P β} {a a' : Toks} (h : OutAlike Q (x a) (x' a')) (h' : OutAlike Q (y a) (y' a')) :
    OutAlike Q ((if c then x else y) a) ((if c then x' else y') a') := by
  split
  · exact h
  · exact h'

theorem Agree.fail {α β : Type} {Q : α → β → Prop} (e : Err) : Agree R ts ts' Q (fail e) (fail e) :=
  fun _ _ hp => .ret [] (.err e hp)

theorem Agree.liftOut {α β : Type} {Q : α → β → Prop} {x : Out α} {y : Out β} (h : OutAlike Q x y) :
    Agree R ts ts' Q (liftOut x) (liftOut y) :=
  fun _ _ hp => .bind h fun _ _ h => .ret [] (.ok h hp)

theorem Agree.lift {α : Type} (x : Out α) : Agree R ts ts' Eq (Mview.liftOut x) (Mview.liftOut x) :=
  .liftOut (.same x)

theorem Agree.emit (d : Diag) : Agree R ts ts' Eq (emitP d) (emitP d) := .lift _

theorem Agree.rollback {α β : Type} {Q : α → β → Prop} {p : P α} {p' : P β} (h : Agree R ts ts' Q p p') :
    Agree R ts ts' (Option.Rel Q) (rollback p) (rollback p') := by
  intro a a' hp
  refine OutAlike.bind (h a a' hp) fun r r' hr => ?_
  cases hr with
  | ok h hr => exact .ret [] (.ok (.some h) hr)
  | err e hr => exact .ret [] (.ok .none hp)

theorem Agree.unwrap {α β : Type} {Q : α → β → Prop} {p : P α} {p' : P β} (site : PanicSite)
    (h : Agree R ts ts' Q p p') : Agree R ts ts' Q (unwrapP site p) (unwrapP site p') := by
  intro a a' hp
  refine OutAlike.bind (h a a' hp) fun r r' hr => ?_
  cases hr with
  | ok h hr => exact .ret [] (.ok h hr)
  | err e hr => exact .panic _

theorem Agree.orAbort {α β : Type} {Q : α → β → Prop} {p : P α} {p' : P β}
    (h : Agree R ts ts' Q p p') : Agree R ts ts' Q (unwrapOrAbort p) (unwrapOrAbort p') := by
  intro a a' hp
  refine OutAlike.bind (h a a' hp) fun r r' hr => ?_
  cases hr with
  | ok h hr => exact .ret [] (.ok h hr)
  | err e hr => exact .abort _

theorem Agree.identAny : Agree R ts ts' Eq parseIdentAny parseIdentAny := by
  intro a a' hp
  rcases hp.heads with _ | ⟨_, h⟩ | _ | _ | _
  · exact .ret [] (.err _ hp)
  · exact .ret [] (.ok rfl h)
  all_goals exact .ret [] (.err _ hp)

theorem Agree.punct {c : Char} (hc : c ≠ '=') : Agree R ts ts' Eq (parsePunct c) (parsePunct c) := by
  intro a a' hp
  rcases hp.heads with _ | ⟨_, h⟩ | ⟨_, _, h⟩ | _ | _
  · exact .ret [] (.err _ hp)
  · exact .ret [] (.err _ hp)
  · simp only [parsePunct]
    split
    · rename_i he; exact .ret [] (.ok rfl (h (he ▸ hc)))
    · exact .ret [] (.err _ hp)
  all_goals exact .ret [] (.err _ hp)

theorem Agree.kw (k : Str) : Agree R ts ts' Eq (parseKw k) (parseKw k) := by
  intro a a' hp
  unfold parseKw
  rw [hp.past.peekKw]
  split
  · rename_i hk
    cases hp.heads with
    | nil => exact .ret [] (.ok rfl hp)
    | ident i h => exact .ret [] (.ok rfl h)
    | _ => simp [Mview.peekKw] at hk
  · exact .ret [] (.err _ hp)

variable (R) in
/-- The same literal. -/
inductive SynLitLike : SynLit → SynLit → Prop
  | refl (l : SynLit) : SynLitLike l l
  | tok {l l' : Lit} (h : LitLike R l l') : SynLitLike (.tok l) (.tok l')

theorem Agree.lit : Agree R ts ts' (SynLitLike R) parseLit parseLit := by
  intro a a' hp
  cases hp.heads with
  | nil => exact .ret [] (.err _ hp)
  | ident i h =>
    simp only [parseLit]
    split
    · exact .ret [] (.ok (.refl _) h)
    · split
      · exact .ret [] (.ok (.refl _) h)
      · exact .ret [] (.err _ hp)
  | punct hs h1 h =>
    rename_i c s s' b b'
    by_cases hc : c = '-'
    · subst hc
      cases (h (by decide)).heads with
      | lit hl h' =>
        cases hl with
        | refl =>
          rename_i l b b'
          cases l with
          | int x => exact .ret [] (.ok (.refl _) h')
          | float x => exact .ret [] (.ok (.refl _) h')
          | _ => exact .ret [] (.err _ hp)
        | other => exact .ret [] (.err _ hp)
      | _ => exact .ret [] (.err _ hp)
    · have e : ∀ (s : Spacing) (r : Toks), parseLit (.punct c s :: r) = .ret [] (.err .expectedLit (.punct c s :: r)) := by
        intro s r
        unfold parseLit
        split <;> rename_i he <;> first
          | rfl
          | (simp only [List.cons.injEq, TT.punct.injEq] at he; exact absurd he.1.1 hc)
          | cases he
      rw [e, e]
      exact .ret [] (.err _ hp)
  | lit hl h => exact .ret [] (.ok (.tok hl) h)
  | group => exact .ret [] (.err _ hp)

theorem At.peekLit {a a' : Toks} (h : At R ts ts' a a') : peekLit a = peekLit a' := by
  have := Agree.lit a a' h
  unfold Mview.peekLit
  generalize parseLit a = x, parseLit a' = y at this
  cases this with
  | ret ds h => cases h <;> rfl
  | _ => rfl

theorem Agree.litInt : Agree R ts ts' Eq parseLitInt parseLitInt := by
  refine .bind .lit fun l l' h => ?_
  cases h with
  | refl => rcases l with (_ | _ | _ | _) | _ <;> first | exact .pure rfl | exact .fail _
  | tok h =>
    cases h with
    | refl => rename_i l; rcases l with _ | _ | _ | _ <;> first | exact .pure rfl | exact .fail _
    | other h => exact .fail _

theorem Agree.litStr : Agree R ts ts' Eq parseLitStr parseLitStr := by
  refine .bind .lit fun l l' h => ?_
  cases h with
  | refl => rcases l with (_ | _ | _ | _) | _ <;> first | exact .pure rfl | exact .fail _
  | tok h =>
    cases h with
    | refl => rename_i l; rcases l with _ | _ | _ | _ <;> first | exact .pure rfl | exact .fail _
    | other h => exact .fail _

theorem Agree.groupTokens (d : Delim) :
    Agree R ts ts' (Alike (Loose R)) (groupTokens d) (groupTokens d) := by
  intro a a' hp
  rcases hp.heads with _ | _ | _ | _ | ⟨hg, _, h⟩
  · exact .ret [] (.err _ hp)
  · exact .ret [] (.err _ hp)
  · exact .ret [] (.err _ hp)
  · exact .ret [] (.err _ hp)
  · simp only [Mview.groupTokens, extractGroup]
    split
    · exact .ret [] (.ok hg h)
    · exact .ret [] (.err _ hp)

/-- What a parser does in a group. -/
inductive GroupAlike {α β : Type} (Q : α → β → Prop) : PR α → PR β → Prop
  | ok {a : α} {b : β} {r r' : Toks} (h : Q a b) (hr : isEmpty r = isEmpty r') : GroupAlike Q (.ok a r) (.ok b r')
  | err (e : Err) {r r' : Toks} : GroupAlike Q (.err e r) (.err e r')

theorem ReadAlike.group {α β : Type} {Q : α → β → Prop} {x : PR α} {y : PR β} (h : ReadAlike R ts ts' Q x y) :
    GroupAlike Q x y := by
  cases h with
  | ok h hr => exact .ok h hr.past.isEmpty
  | err e hr => exact .err e

theorem OutAlike.mono {α β : Type} {Q S : α → β → Prop} (hq : ∀ a b, Q a b → S a b) {x : Out α} {y : Out β}
    (h : OutAlike Q x y) : OutAlike S x y := by
  cases h with
  | ret ds h => exact .ret ds (hq _ _ h)
  | abort ds => exact .abort ds
  | panic p => exact .panic p
  | diverge => exact .diverge

theorem inGroup_eq {γ : Type} (d : Delim) (p : P γ) (g r : Toks) :
    inGroup d p (.group d g :: r) = Out.bind (p g) fun q =>
      match q with
      | .ok a left =>
        if isEmpty left then .ret [] (.ok a r) else .ret [] (.err (.extraTokens d) (.group d g :: r))
      | .err e _ => .ret [] (.err e (.group d g :: r)) := by
  simp only [inGroup, peekGroup, decide_true, unwrapP, extractGroup, if_true, Out.bind, Out.tell, List.append_nil]
  cases p g with
  | ret ds q => cases q with
    | ok a left => cases h : isEmpty left <;> simp [Out.tell, h]
    | err e left => simp
  | _ => rfl

theorem Agree.inGroup {α β : Type} {Q : α → β → Prop} {d : Delim} (hd : d ≠ .bracket) {p : P α} {p' : P β}
    (h : ∀ g g', Inner R ts ts' g g' → OutAlike (GroupAlike Q) (p g) (p' g')) :
    Agree R ts ts' Q (inGroup d p) (inGroup d p') := by
  intro a a' hp
  by_cases hg : peekGroup d a' = true
  · rcases hp.heads with _ | _ | _ | _ | ⟨_, hw, hr⟩
    · simp [peekGroup] at hg
    · simp [peekGroup] at hg
    · simp [peekGroup] at hg
    · simp [peekGroup] at hg
    · simp only [peekGroup, decide_eq_true_eq] at hg
      subst hg
      rw [inGroup_eq, inGroup_eq]
      refine OutAlike.bind (h _ _ (hw hd)) fun q q' hq => ?_
      cases hq with
      | ok h he =>
        simp only [he]
        split
        · exact .ret [] (.ok h hr)
        · exact .ret [] (.err _ hp)
      | err e => exact .ret [] (.err _ hp)
  · unfold Mview.inGroup
    rw [hp.past.peekGroup, if_neg hg, if_neg hg]
    exact .ret [] (.err _ hp)

/-! ### names -/

theorem kebabLoop_agree (fuel : Nat) : ∀ (b : Bool) (k : KebabIdent),
    Agree R ts ts' Eq (kebabLoop fuel b k) (kebabLoop fuel b k) := by
  induction fuel with
  | zero => intro b k a a' hp; exact .diverge
  | succ fuel ih =>
    intro b k
    unfold kebabLoop
    refine .bind (.rollback (.punct (by decide))) fun d d' h => ?_
    have hd : d = d' := by cases h with | none => rfl | some h => rw [h]
    subst hd
    split
    · dsimp only
      refine .bind (.rollback .identAny) fun i i' h => ?_
      cases h with
      | some h =>
        subst h
        dsimp only
        split
        · exact .bind (.emit _) fun _ _ _ => ih _ _
        · exact ih _ _
      | none =>
        refine .bind (.rollback .litInt) fun i i' h => ?_
        cases h with
        | some h => subst h; exact ih _ _
        | none => exact ih _ _
    · exact .pure rfl

theorem kebab_agree : Agree R ts ts' Eq parseKebab parseKebab := by
  refine .bind (.rollback .identAny) fun i i' h => ?_
  cases h with
  | some h =>
    subst h
    exact .look fun a a' hp => by rw [hp.2.length]; exact kebabLoop_agree _ _ _ _ _ hp
  | none =>
    refine .bind (.rollback (.punct (by decide))) fun i i' h => ?_
    cases h with
    | some h => exact .look fun a a' hp => by rw [hp.2.length]; exact kebabLoop_agree _ _ _ _ _ hp
    | none => exact .fail _

theorem kebabOrStr_agree : Agree R ts ts' Eq parseKebabOrStr parseKebabOrStr := by
  refine .bind (.rollback .litStr) fun i i' h => ?_
  cases h with
  | some h => subst h; exact .pure rfl
  | none => exact .bind kebab_agree fun _ _ h => .pure (by rw [h])

theorem kebab_dot (s : Spacing) (r : Toks) :
    parseKebab (.punct '.' s :: r) = .ret [] (.err .expectedKebab (.punct '.' s :: r)) := by
  rfl

theorem bracedKebab_agree : Agree R ts ts' Eq parseBracedKebab parseBracedKebab := by
  refine .inGroup (by decide) fun g g' h => ?_
  rcases h with h | ⟨s, e, e', rfl, rfl, h⟩
  · exact (kebab_agree g g' h).mono fun _ _ h => h.group
  · exact .ret [] (.err _)

/-! ### values -/

/-- Whether this may be a child. -/
def Value.childOk : Value → Bool
  | .lit (.tok (.str _)) => true
  | .lit _ => false
  | _ => true

variable (R) in
/-- The same value. -/
def ValueLike (v v' : Value) : Prop := v.Alike (Alike (Loose R)) v' ∧ v.childOk = v'.childOk

theorem alikeValue_lit {l l' : SynLit} (h : SynLitLike R l l') : ValueLike R (.lit l) (.lit l') := by
  cases h with
  | refl => exact ⟨.refl _, rfl⟩
  | tok h =>
    cases h with
    | refl => exact ⟨.refl _, rfl⟩
    | other h => exact ⟨.lit (.ofCode (.code h)), rfl⟩

theorem value_agree : Agree R ts ts' (ValueLike R) parseValue parseValue := by
  refine .look fun a a' hp => ?_
  rw [hp.past.peekGroup, hp.past.peekGroup, hp.past.peekIdentAny, hp.skip.peekGroup, hp.peekLit]
  refine iteAt ?_ (iteAt ?_ (iteAt ?_ (iteAt ?_ ?_)))
  · exact Agree.bind (.unwrap _ (.groupTokens _)) (fun _ _ h => .pure ⟨.bracket _ h, rfl⟩) a a' hp
  · exact Agree.bind (.unwrap _ .identAny) (fun _ _ e => .bind (.unwrap _ (.groupTokens _))
      fun _ _ h => .pure (by subst e; exact ⟨.bracket _ h, rfl⟩)) a a' hp
  · exact Agree.bind (.unwrap _ (.groupTokens _)) (fun _ _ h => .pure ⟨.block h, rfl⟩) a a' hp
  · exact Agree.bind (.unwrap _ .lit) (fun _ _ h => .pure (alikeValue_lit h)) a a' hp
  · exact Agree.fail _ a a' hp

theorem valueOrEmit_agree {a a' : Toks} (h : Past R ts ts' a a') :
    OutAlike (ReadAlike R ts ts' (Value.Alike (Alike (Loose R)))) (parseValueOrEmit a) (parseValueOrEmit a') := by
  rcases h with h | ⟨g, g', b, b', rfl, rfl, h, h'⟩ | ⟨l, l', b, b', rfl, rfl, h, h'⟩
  · refine Agree.bind (.rollback value_agree) (fun i i' h => ?_) a a' h
    cases h with
    | some h => exact .pure h.1
    | none =>
      refine .look fun a a' hp => ?_
      rw [hp.past.peekIdent]
      exact Agree.bind (.emit _) (fun _ _ _ => .pure (.refl _)) a a' hp
  · exact .ret [] (.ok (.block (.ofCode (.code h))) h')
  · exact .ret [] (.ok (.lit (.ofCode (.code h))) h')

/-- Perhaps `=`, and a value. -/
theorem Agree.eqThen {γ δ : Type} {S : γ → δ → Prop} {f : Option Unit → P γ} {f' : Option Unit → P δ}
    (hs : ∀ a a', Past R ts ts' a a' → OutAlike (ReadAlike R ts ts' S) (f (some ()) a) (f' (some ()) a'))
    (hn : Agree R ts ts' S (f none) (f' none)) :
    Agree R ts ts' S (Mview.rollback (parsePunct '=') >>= f) (Mview.rollback (parsePunct '=') >>= f') := by
  intro a a' hp
  have e : ∀ {α : Type} (x : Out α), x.tell [] = x := by intro α x; cases x <;> rfl
  have ok : ∀ {γ : Type} (s : Spacing) (r : Toks) (f : Option Unit → P γ),
      (Mview.rollback (parsePunct '=') >>= f) (.punct '=' s :: r) = f (some ()) r := by
    intro γ s r f; exact e _
  have no : ∀ {γ : Type} (ts : Toks) (f : Option Unit → P γ), Mview.peekPunct '=' ts = false →
      (Mview.rollback (parsePunct '=') >>= f) ts = f none ts := by
    intro γ ts f h
    have : Mview.rollback (parsePunct '=') ts = .ret [] (.ok none ts) := by
      rcases ts with _ | ⟨_ | ⟨c, s⟩ | _ | _, ts⟩ <;> try rfl
      simp only [Mview.peekPunct, decide_eq_false_iff_not] at h
      simp [Mview.rollback, parsePunct, h, Out.bind, Out.tell]
    show Out.bind (Mview.rollback (parsePunct '=') ts) _ = _
    rw [this]
    exact e _
  cases hq : Mview.peekPunct '=' a with
  | false => rw [no a f hq, no a' f' (hp.past.peekPunct '=' ▸ hq)]; exact hn a a' hp
  | true =>
    cases hp.heads with
    | punct hs' h h' =>
      simp only [Mview.peekPunct, decide_eq_true_eq] at hq
      subst hq
      rw [ok, ok]
      exact hs _ _ h
    | _ => simp [Mview.peekPunct] at hq

/-! ### attributes -/

theorem kv_agree : Agree R ts ts' (fun a a' => Attr.Alike (Alike (Loose R)) (.kv a) (.kv a')) parseKv parseKv := by
  refine .look fun a a' hp => ?_
  rw [hp.past.peekGroup]
  refine iteAt ?_ ?_
  · refine Agree.bind bracedKebab_agree (fun k k' h => ?_) a a' hp
    subst h
    exact .bind (.lift _) fun v v' hv => .pure (by subst hv; exact .kv _ (.refl _))
  · refine Agree.bind kebab_agree (fun k k' h => ?_) a a' hp
    subst h
    refine .eqThen (fun a a' hp => ?_) (.pure (.kv _ (.refl _)))
    exact OutAlike.bind (valueOrEmit_agree hp) fun r r' hr => by
      cases hr with
      | ok h hr => exact .ret [] (.ok (.kv _ h) hr)
      | err e hr => exact .ret [] (.err e hr)

theorem modifier_agree : Agree R ts ts' Eq parseModifier parseModifier := by
  refine .bind (.rollback (.punct (by decide))) fun i i' h => ?_
  cases h with
  | some h => exact .bind .identAny fun _ _ h => .pure (by rw [h])
  | none => exact .pure rfl

theorem directive_agree : Agree R ts ts' (fun a a' => Attr.Alike (Alike (Loose R)) (.directive a) (.directive a'))
    parseDirective parseDirective := by
  refine .bind .identAny fun n n' h => .bind (.punct (by decide)) fun _ _ _ => .look fun a a' hp => ?_
  subst h
  rw [hp.past.peekGroup]
  refine iteAt ?_ ?_
  · refine Agree.bind bracedKebab_agree (fun k k' h => ?_) a a' hp
    subst h
    exact .bind (.lift _) fun v v' hv =>
      .bind modifier_agree fun m m' hm => .pure (by subst hv hm; exact .directive _ _ _ (.some (.refl _)))
  · refine Agree.bind kebabOrStr_agree (fun k k' h => .bind modifier_agree fun m m' hm => ?_) a a' hp
    subst h hm
    refine .eqThen (fun a a' hp => ?_) (.pure (.directive _ _ _ .none))
    exact OutAlike.bind (valueOrEmit_agree hp) fun r r' hr => by
      cases hr with
      | ok h hr => exact .ret [] (.ok (.directive _ _ _ (.some h)) hr)
      | err e hr => exact .ret [] (.err e hr)

theorem spread_agree : Agree R ts ts' (Alike (Loose R)) parseSpread parseSpread := by
  intro a a' hp
  cases hp.heads with
  | group hg hw h =>
    rename_i d g g' b b'
    by_cases hd : d = .brace
    · subst hd
      have e : ∀ g b, parseSpread (.group .brace g :: b) =
          if Mview.peekPunct2 '.' '.' g then .ret [] (.ok (g.drop 2) b) else .ret [] (.err .invalidSpread b) := by
        intro g b
        show Out.tell [] ((if Mview.peekPunct2 '.' '.' g then Pure.pure (g.drop 2) else Mview.fail .invalidSpread : P Toks) b) = _
        split <;> rfl
      rw [e, e]
      rcases hw (by decide) with hw | ⟨s, x, x', rfl, rfl, hx⟩
      · rw [hw.past.peekPunct2 (by decide)]
        split
        · rename_i hd
          refine .ret [] (.ok ?_ h)
          cases hw.heads with
          | punct hs k k' =>
            rename_i c s s' r r'
            rw [peekPunct2_cons] at hd
            simp only [Bool.and_eq_true, decide_eq_true_eq] at hd
            have k := k' (by rw [hd.1.1]; decide)
            cases k.heads with
            | punct hs2 k2 k2' =>
              simp only [Mview.peekPunct, decide_eq_true_eq] at hd
              exact (k2' (by rw [hd.2]; decide)).2.alike
            | _ => simp [Mview.peekPunct] at hd
          | _ => simp [Mview.peekPunct2] at hd
        · exact .ret [] (.err _ h)
      · exact .ret [] (.ok (.ofCode (.code hx)) h)
    · have e : ∀ g b, parseSpread (.group d g :: b) = .ret [] (.err (.expectedGroup .brace) (.group d g :: b)) := by
        intro g b
        cases d with
        | brace => exact absurd rfl hd
        | _ => rfl
      rw [e, e]
      exact .ret [] (.err _ hp)
  | _ => exact .ret [] (.err _ hp)

theorem attr_agree : Agree R ts ts' (Attr.Alike (Alike (Loose R))) parseAttr parseAttr := by
  refine .look fun a a' hp => ?_
  rw [hp.past.peekIdentAny, hp.skip.peekPunct, hp.past.peekIdent]
  refine iteAt ?_ (iteAt ?_ ?_)
  · exact Agree.bind (.orAbort directive_agree) (fun _ _ h => .pure h) a a' hp
  · exact Agree.bind kv_agree (fun _ _ h => .pure h) a a' hp
  · refine Agree.bind (.rollback kv_agree) (fun i i' h => ?_) a a' hp
    cases h with
    | some h => exact .pure h
    | none =>
      refine .bind (.rollback spread_agree) fun i i' h => ?_
      cases h with
      | some h => exact .pure (.spread (.ofCode h))
      | none => exact .fail _

theorem attrsLoop_agree (fuel : Nat) : ∀ {as as' : List Attr}, List.Forall₂ (Attr.Alike (Alike (Loose R))) as as' →
    Agree R ts ts' (List.Forall₂ (Attr.Alike (Alike (Loose R)))) (attrsLoop fuel as) (attrsLoop fuel as') := by
  induction fuel with
  | zero => intro as as' h a a' hp; exact .diverge
  | succ fuel ih =>
    intro as as' h
    refine .bind (.rollback attr_agree) fun i i' h' => ?_
    cases h' with
    | some h' => exact ih (forall2_append h (.cons h' .nil))
    | none => exact .pure h

theorem attrs_agree : Agree R ts ts' (List.Forall₂ (Attr.Alike (Alike (Loose R)))) parseAttrs parseAttrs :=
  .look fun a a' hp => by rw [hp.2.length]; exact attrsLoop_agree _ .nil _ _ hp

theorem selector_agree : Agree R ts ts' Eq parseSelector parseSelector := by
  refine .bind (.rollback (.punct (by decide))) fun i i' h => ?_
  cases h with
  | some h => exact .bind kebab_agree fun _ _ h => .pure (by rw [h])
  | none =>
    refine .bind (.rollback (.punct (by decide))) fun i i' h => ?_
    cases h with
    | some h => exact .bind kebab_agree fun _ _ h => .pure (by rw [h])
    | none => exact .fail _

theorem selectorsLoop_agree (fuel : Nat) : ∀ (ss : List Selector),
    Agree R ts ts' Eq (selectorsLoop fuel ss) (selectorsLoop fuel ss) := by
  induction fuel with
  | zero => intro as a a' hp; exact .diverge
  | succ fuel ih =>
    intro as
    refine .bind (.rollback selector_agree) fun i i' h' => ?_
    cases h' with
    | some h' => subst h'; exact ih _
    | none => exact .pure rfl

theorem selectors_agree : Agree R ts ts' Eq parseSelectors parseSelectors :=
  .look fun a a' hp => by rw [hp.2.length]; exact selectorsLoop_agree _ _ _ _ hp

/-! ### tags -/

theorem SamePlace.suffix {u u' r r' : Toks} : (h : SamePlace ts ts' (u ++ r) (u' ++ r')) →
    u.length = u'.length → SamePlace ts ts' r r' := by
  induction u generalizing u' with
  | nil =>
    intro h e
    cases u' with
    | nil => exact h
    | cons => simp at e
  | cons t u ih =>
    intro h e
    cases u' with
    | nil => simp at e
    | cons t' u' => exact ih (u' := u') h.next (by simpa using e)

theorem At.suffix {a a' u u' r r' : Toks} (h : At R ts ts' a a') (e : a = u ++ r) (e' : a' = u' ++ r')
    (hr : Like R r r') : At R ts ts' r r' := by
  subst e e'
  have h1 := h.2.length
  have h2 := hr.length
  simp only [List.length_append] at h1
  exact ⟨h.1.suffix (by omega), hr⟩

theorem path_agree (hs : pp.SameIn R ts ts') {a a' : Toks} (hp : At R ts ts' a a') (h : PathStart a) :
    OutAlike (ReadAlike R ts ts' (Path.Alike (Loose R))) (parsePath pp a) (parsePath pp a') := by
  have h := hs a a' hp.1 hp.2 h
  unfold parsePath
  generalize hx : pp.run a = x, hy : pp.run a' = y at h
  cases h with
  | path h hr =>
    obtain ⟨u, _, hu⟩ := pp.progress _ _ _ hx
    obtain ⟨u', _, hu'⟩ := pp.progress _ _ _ hy
    exact .ret [] (.ok h (hp.suffix hu hu' hr))
  | error hr =>
    obtain ⟨u, hu⟩ := pp.suffix _ _ hx
    obtain ⟨u', hu'⟩ := pp.suffix _ _ hy
    exact .ret [] (.err _ (hp.suffix hu hu' hr))

theorem pathAlike_mono {S S' : Toks → Toks → Prop} (hm : ∀ a a', S a a' → S' a a') {a a' : Toks}
    (h : Alike S a a') : Alike S' a a' := by
  induction h with
  | nil => exact .nil
  | tok t _ ih => exact .tok t ih
  | group d _ _ ih ih' => exact .group d ih ih'
  | code h _ ih => exact .code (hm _ _ h) ih

theorem pathAlike_up {S S' : Toks → Toks → Prop} (hm : ∀ a a', S a a' → S' a a') {p p' : Path}
    (h : p.Alike S p') : p.Alike S' p' := by
  cases h with
  | mk l h =>
    refine .mk l (h.imp fun s s' h => ?_)
    cases h with
    | mk i h =>
      refine .mk i ?_
      cases h with
      | none => exact .none
      | angle t h => exact .angle t (pathAlike_mono hm h)
      | paren a a' => exact .paren a a'

theorem tag_agree (hs : pp.SameIn R ts ts') :
    Agree R ts ts' (Tag.Alike (Alike (Loose R))) (parseTag pp) (parseTag pp) := by
  refine .look fun a a' hp => ?_
  have e : ((peekPunct2 ':' ':' (skip a) || peekPunct2 ':' ':' a || peekPunct '<' (skip a)) : Bool) =
      (peekPunct2 ':' ':' (skip a') || peekPunct2 ':' ':' a' || peekPunct '<' (skip a')) := by
    rw [hp.skip.peekPunct2 (by decide), hp.past.peekPunct2 (by decide), hp.skip.peekPunct]
  by_cases hc : (peekPunct2 ':' ':' (skip a) || peekPunct2 ':' ':' a || peekPunct '<' (skip a)) = true
  · rw [if_pos hc, if_pos (e ▸ hc)]
    refine OutAlike.bind (path_agree hs hp (pathStart_iff.mp hc)) fun r r' hr => ?_
    cases hr with
    | ok h hr => exact .ret [] (.ok (.component (pathAlike_up (fun _ _ h => .ofCode h) h)) hr)
    | err e hr => exact .ret [] (.err e hr)
  · rw [if_neg hc, if_neg (e ▸ hc)]
    refine Agree.bind kebab_agree (fun k k' h => ?_) a a' hp
    subst h
    have fin : ∀ f : Ident → Tag, Agree R ts ts' (Tag.Alike (Alike (Loose R)))
        (do let i ← liftOut k.toSnakeIdent; pure (f i)) (do let i ← liftOut k.toSnakeIdent; pure (f i)) :=
      fun f => .bind (.lift _) fun i i' h => .pure (by subst h; exact .refl _)
    split
    · exact fin _
    · exact fin _
    · exact fin _
    · exact fin _
    · exact .pure (.refl _)

/-! ### the tree -/

theorem closureLoop_agree (fuel : Nat) : ∀ {x x' : Toks}, Alike (Loose R) x x' → ∀ a a', Past R ts ts' a a' →
    OutAlike (ReadAlike R ts ts' (Alike (Loose R))) (closureArgsLoop fuel x a) (closureArgsLoop fuel x' a') := by
  induction fuel with
  | zero => intro x x' hx a a' hp; exact .diverge
  | succ fuel ih =>
    have e : ∀ {α : Type} (x : Out α), x.tell [] = x := by intro α x; cases x <;> rfl
    intro x x' hx a a' hp
    have other : ∀ (t : TT) (r x : Toks), (∀ s, t ≠ .punct '|' s) →
        closureArgsLoop (fuel + 1) x (t :: r) = closureArgsLoop fuel (x ++ [t]) r := by
      intro t r x ht
      have h1 : rollback (parsePunct '|') (t :: r) = .ret [] (.ok none (t :: r)) := by
        rcases t with _ | ⟨c, s⟩ | _ | _ <;> try rfl
        have hc : c ≠ '|' := fun h => ht s (by rw [h])
        simp [rollback, parsePunct, hc, Out.bind, Out.tell]
      show Out.bind (rollback (parsePunct '|') (t :: r)) _ = _
      rw [h1]
      show Out.tell [] (Out.tell [] _) = _
      rw [e, e]
    have pipe : ∀ (s : Spacing) (r x : Toks),
        closureArgsLoop (fuel + 1) x (.punct '|' s :: r) = .ret [] (.ok (x ++ [pipeTok]) r) := fun s r x => rfl
    cases hp.heads with
    | «at» h =>
      cases h with
      | nil =>
        rcases hp with hp | ⟨_, _, _, _, h, _⟩ | ⟨_, _, _, _, h, _⟩
        · exact .ret [] (.err _ hp)
        · cases h
        · cases h
      | ident i h =>
        rw [other _ _ _ (by simp), other _ _ _ (by simp)]
        exact ih (hx.append (.refl _)) _ _ h.past
      | lit hl h =>
        rw [other _ _ _ (by simp), other _ _ _ (by simp)]
        refine ih (hx.append ?_) _ _ h.past
        cases hl with
        | refl => exact .refl _
        | other h => exact .ofCode (.code h)
      | group hg hw h =>
        rw [other _ _ _ (by simp), other _ _ _ (by simp)]
        exact ih (hx.append (.group _ hg .nil)) _ _ h.past
      | punct hs h h' =>
        rename_i c s s' b b'
        by_cases hc : c = '|'
        · subst hc
          rw [pipe, pipe]
          exact .ret [] (.ok (hx.append (.refl _)) (h' (by decide)))
        · rw [other _ _ _ (by simp [hc]), other _ _ _ (by simp [hc])]
          refine ih (hx.append ?_) _ _ h
          by_cases hm : c ∈ together
          · rw [hs hm]; exact .refl _
          · exact .ofCode (.space hm s s')
    | block hg h =>
      rw [other _ _ _ (by simp), other _ _ _ (by simp)]
      exact ih (hx.append (.group _ (.ofCode (.code hg)) .nil)) _ _ h.past
    | lit hl h =>
      rw [other _ _ _ (by simp), other _ _ _ (by simp)]
      exact ih (hx.append (.ofCode (.code hl))) _ _ h.past

theorem closureArgs_agree : Agree R ts ts' (Alike (Loose R)) parseClosureArgs parseClosureArgs :=
  .bind (.punct (by decide)) fun _ _ _ => .look fun a a' hp => by
    rw [hp.2.length]; exact closureLoop_agree _ (.refl _) _ _ hp.past

theorem elem_none {tag tag' : Tag} (ht : tag.Alike R tag') {sels : List Selector} {as as' : List Attr}
    (ha : List.Forall₂ (Attr.Alike R) as as') {args args' : Option Toks} (hg : TArgsAlike R args args') :
    (Element.mk tag sels as args none).Alike R (.mk tag' sels as' args' none) := by
  rw [Element.Alike]; exact ⟨ht, rfl, ha, hg⟩

theorem elem_some {tag tag' : Tag} (ht : tag.Alike R tag') {sels : List Selector} {as as' : List Attr}
    (ha : List.Forall₂ (Attr.Alike R) as as') {args args' : Option Toks} (hg : TArgsAlike R args args')
    {cs cs' : List Child} (hc : treesAlike R cs cs') :
    (Element.mk tag sels as args (some cs)).Alike R (.mk tag' sels as' args' (some cs')) := by
  rw [Element.Alike]; exact ⟨ht, rfl, ha, hg, hc⟩

/-- The same child. -/
def ChildAlike (R : Toks → Toks → Prop) (c c' : Child) : Prop := treesAlike R [c] [c']

theorem childAlike_cons {c c' : Child} {cs cs' : List Child} (h : ChildAlike R c c') (h' : treesAlike R cs cs') :
    treesAlike R (c :: cs) (c' :: cs') := by
  unfold ChildAlike at h
  cases c <;> cases c' <;> simp_all [treesAlike]

theorem children_dot (pp : PathParser) (fuel : Nat) (s s' : Spacing) (r r' : Toks) :
    childrenF pp fuel (.punct '.' s :: r) = childrenF pp fuel (.punct '.' s' :: r') := by
  match fuel with
  | 0 => rfl
  | 1 => rfl
  | 2 => rfl
  | fuel + 3 => rfl

theorem attr_refl (a : Attr) : a.Alike R a := by
  rcases a with ⟨k, v⟩ | ⟨d, k, m, _ | v⟩ | e
  · exact .kv k (.refl v)
  · exact .directive d k m .none
  · exact .directive d k m (.some (.refl v))
  · exact .spread (.refl e)

theorem args_refl (a : Option Toks) : TArgsAlike R a a := by
  cases a with
  | none => exact .none
  | some a => exact .some (.refl _)

mutual
theorem element_refl : (e : Element) → e.Alike R e
  | .mk tag sels attrs args none => by
    rw [Element.Alike]
    exact ⟨.refl _, rfl, forall2_refl attr_refl _, args_refl args⟩
  | .mk tag sels attrs args (some cs) => by
    rw [Element.Alike]
    exact ⟨.refl _, rfl, forall2_refl attr_refl _, args_refl args, trees_refl cs⟩
theorem trees_refl : (cs : List Child) → treesAlike R cs cs
  | [] => by rw [treesAlike]; trivial
  | .value v :: cs => by rw [treesAlike]; exact ⟨.refl _, trees_refl cs⟩
  | .elem e :: cs => by rw [treesAlike]; exact ⟨element_refl e, trees_refl cs⟩
  | .slot e :: cs => by rw [treesAlike]; exact ⟨element_refl e, trees_refl cs⟩
end

theorem tree_agree (hs : pp.SameIn R ts ts') : ∀ fuel : Nat,
    Agree R ts ts' (Element.Alike (Alike (Loose R))) (elementF pp fuel) (elementF pp fuel) ∧
    Agree R ts ts' (ChildAlike (Alike (Loose R))) (childF pp fuel) (childF pp fuel) ∧
    ∀ g g', Inner R ts ts' g g' →
      OutAlike (GroupAlike (treesAlike (Alike (Loose R)))) (childrenF pp fuel g) (childrenF pp fuel g')
  | 0 => ⟨fun _ _ _ => .diverge, fun _ _ _ => .diverge, fun _ _ _ => .diverge⟩
  | fuel + 1 => by
    obtain ⟨ihe, ihc, ihs⟩ := tree_agree hs fuel
    refine ⟨?_, ?_, ?_⟩
    · unfold elementF
      refine .bind (tag_agree hs) fun tag tag' ht => .bind selectors_agree fun sels sels' he =>
        .bind attrs_agree fun as as' ha => .bind (.rollback (.punct (by decide))) fun i i' h => ?_
      subst he
      cases h with
      | some h => exact .pure (elem_none ht ha .none)
      | none =>
        refine .look fun a a' hp => ?_
        rw [hp.past.isEmpty, hp.past.peekGroup, hp.past.peekGroup, hp.past.peekPunct]
        refine iteAt ?_ (iteAt ?_ (iteAt ?_ ?_))
        · exact Agree.bind (.emit _) (fun _ _ _ => .pure (elem_none ht ha .none)) a a' hp
        · have hb := Agree.inGroup (d := .brace) (by decide) ihs
          have hq := Agree.inGroup (d := .paren) (by decide) ihs
          split
          · exact Agree.bind hb (fun _ _ h => .pure (elem_some ht ha .none h)) a a' hp
          · exact Agree.bind hq (fun _ _ h => .pure (elem_some ht ha .none h)) a a' hp
        · refine Agree.bind closureArgs_agree (fun x x' hx => .look fun a a' hp => ?_) a a' hp
          rw [hp.past.peekGroup, hp.past.peekGroup]
          refine iteAt ?_ (iteAt ?_ ?_)
          · exact Agree.bind (.inGroup (by decide) ihs)
              (fun _ _ h => .pure (elem_some ht ha (.some (.ofCode hx)) h)) a a' hp
          · exact Agree.bind (.inGroup (by decide) ihs)
              (fun _ _ h => .pure (elem_some ht ha (.some (.ofCode hx)) h)) a a' hp
          · exact Agree.bind (.emit _) (fun _ _ _ => .pure (elem_none ht ha (.some (.ofCode hx)))) a a' hp
        · exact Agree.bind (.emit _) (fun _ _ _ => .bind (.emit _) fun _ _ _ =>
            .pure (elem_none ht ha .none)) a a' hp
    · unfold childF
      refine .bind (.rollback value_agree) fun v v' h => ?_
      cases h with
      | some h =>
        rename_i v v'
        obtain ⟨h, hk⟩ := h
        have hv : ChildAlike (Alike (Loose R)) (.value v) (.value v') := by
          unfold ChildAlike; rw [treesAlike, treesAlike]; exact ⟨h, trivial⟩
        have he : Agree R ts ts' (ChildAlike (Alike (Loose R)))
            (do emitP .nonStringChild; pure (.value (.lit (.tok (.str [])))))
            (do emitP .nonStringChild; pure (.value (.lit (.tok (.str []))))) :=
          .bind (.emit _) fun _ _ _ => .pure (by
            unfold ChildAlike; rw [treesAlike, treesAlike]; exact ⟨.refl _, trivial⟩)
        cases h with
        | refl =>
          rcases v with ((_ | _ | _ | _) | _) | _ | _ <;> first | exact .pure hv | exact he
        | lit h =>
          rename_i l l'
          cases l <;> cases l' <;> simp only [Value.childOk, reduceCtorEq] at hk <;>
            first | exact .pure hv | exact he
        | block h => exact .pure hv
        | bracket pfx h => exact .pure hv
      | none =>
        refine .look fun a a' hp => ?_
        rw [hp.past.peekKw, hp.skip.peekPunct, hp.skip.peekPunct2 (by decide), hp.past.peekIdentAny]
        refine iteAt ?_ (iteAt ?_ ?_)
        · exact Agree.bind (.unwrap _ (.kw _)) (fun _ _ _ => .bind (.unwrap _ (.punct (by decide))) fun _ _ _ =>
            .bind ihe fun _ _ h => .pure (by unfold ChildAlike; rw [treesAlike, treesAlike]; exact ⟨h, trivial⟩)) a a' hp
        · exact Agree.bind ihe (fun _ _ h => .pure (by unfold ChildAlike; rw [treesAlike, treesAlike]; exact ⟨h, trivial⟩)) a a' hp
        · exact Agree.fail _ a a' hp
    · intro g g' h
      rcases h with hp | ⟨s, e, e', rfl, rfl, h⟩
      · unfold childrenF
        rw [hp.past.isEmpty]
        split
        · exact .ret [] (.ok (by rw [treesAlike]; trivial) hp.past.isEmpty)
        · refine OutAlike.bind (ihc g g' hp) fun r r' hr => ?_
          cases hr with
          | ok h hr =>
            refine OutAlike.bind (ihs _ _ (.inl hr)) fun q q' hq => ?_
            cases hq with
            | ok h' he => exact .ret [] (.ok (childAlike_cons h h') he)
            | err e => exact .ret [] (.err e)
          | err e hr =>
            dsimp only
            rw [hr.past.peekPunct]
            refine .ite ?_ ?_
            · refine OutAlike.bind (.same (emit .extraSemicolon)) fun _ _ _ =>
                OutAlike.bind (Agree.unwrap .semiUnwrap (.punct (by decide)) _ _ hr) fun q q' hq => ?_
              cases hq with
              | ok h' hr => exact ihs _ _ (.inl hr)
              | err e hr => exact .ret [] (.err e)
            · refine OutAlike.bind (.same (emit (.synError e))) fun _ _ _ => ?_
              cases fuel <;> first
                | exact .diverge
                | exact .ret [] (.ok (by rw [treesAlike]; trivial) rfl)
      · have hd := children_dot pp (fuel + 1) .joint .joint (.punct '.' s :: e) (.punct '.' s :: e')
        rw [hd]
        refine .refl (fun q => ?_) _
        cases q with
        | ok cs r => exact .ok (trees_refl cs) rfl
        | err e r => exact .err e

end Mview
