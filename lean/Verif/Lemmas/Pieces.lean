import Verif.Lemmas.Recover
import Verif.Lemmas.Rewrites
import Verif.Props.Grammar
import Verif.Props.Reads
/-
Pieces of the input that are complete by themselves.
-/

namespace Mview

variable {pp : PathParser}

theorem forall₂_eq_refl {α : Type} : ∀ l : List α, List.Forall₂ Eq l l
  | [] => .nil
  | _ :: l => .cons rfl (forall₂_eq_refl l)

mutual
theorem CElem.same_self : (e : CElem) → e.Same Eq Eq e
  | .mk tag sels attrs fin => by
    rw [CElem.Same]; exact ⟨rfl, rfl, forall₂_eq_refl _, CEnd.same_self fin⟩
theorem CEnd.same_self : (e : CEnd) → e.Same Eq Eq e
  | .semi s => by rw [CEnd.Same]
  | .block args d cs => by rw [CEnd.Same]; exact ⟨rfl, rfl, childrenSame_self cs⟩
theorem CChild.same_self : (c : CChild) → c.Same Eq Eq c
  | .value v => by rw [CChild.Same]
  | .elem e => by rw [CChild.Same]; exact CElem.same_self e
  | .slot s e => by rw [CChild.Same]; exact ⟨rfl, CElem.same_self e⟩
theorem childrenSame_self : (cs : List CChild) → childrenSame Eq Eq cs cs
  | [] => by rw [childrenSame]; trivial
  | c :: cs => by rw [childrenSame]; exact ⟨CChild.same_self c, childrenSame_self cs⟩
end

/-- Children are complete by themselves: it does not matter what follows. -/
theorem childrenWf_any (hpp : pp.Starts) (hloc : pp.Local) {cs : List CChild} {x : Toks} (y : Toks)
    (h : childrenWf pp cs x) : childrenWf pp cs y :=
  childrenSame.wf hpp hloc keeps_eq cs cs (childrenSame_self cs) x y h

theorem CHead.Wf.softer (hloc : pp.Local) {h : CHead} {x y : Toks} (hw : h.Wf pp x) (hx : Follows x)
    (hy : Follows y) (hs : Softer x y) : h.Wf pp y := by
  obtain ⟨h1, h2, h3, h4⟩ := hw
  obtain ⟨h5, h6⟩ := attrs_transport keeps_eq (forall₂_eq_refl h.attrs) hs h3
  exact ⟨tag_transport hloc h6.append_left (sels_followsTag (attrs_follows h3 hx))
    (sels_followsTag (attrs_follows h5 hy)) h1, sels_softer h2 h6, h5, h4⟩

/-! ### lexical streams -/

theorem within_append {pos : Toks} : ∀ {a b : Toks}, Within pos (a ++ b) →
    Within pos b ∨ ∃ u, pos = u ++ b ∧ Within u a ∨ Within pos a := by
  intro a
  induction a with
  | nil => intro b h; exact .inl h
  | cons t a ih =>
    intro b h
    rw [List.cons_append] at h
    generalize hx : t :: (a ++ b) = x at h
    cases h with
    | here => exact .inr ⟨t :: a, .inl ⟨hx.symm, .here _⟩⟩
    | tail h =>
      cases hx
      rcases ih h with h | ⟨u, h | h⟩
      · exact .inl h
      · exact .inr ⟨u, .inl ⟨h.1, .tail h.2⟩⟩
      · exact .inr ⟨u, .inr (.tail h)⟩
    | group hd h =>
      simp only [List.cons.injEq] at hx
      obtain ⟨rfl, rfl⟩ := hx
      exact .inr ⟨[], .inr (.group hd h)⟩

theorem lexical_append {a b : Toks} : LexicalToks (a ++ b) ↔ LexicalToks a ∧ LexicalToks b := by
  constructor
  · refine fun h => ⟨?_, h.append⟩
    have : ∀ {pos a : Toks}, Within pos a → (∃ r, Within (pos ++ r) (a ++ b)) ∨ Within pos (a ++ b) := by
      intro pos a h
      induction h with
      | here => exact .inl ⟨b, .here _⟩
      | tail _ ih =>
        rcases ih with ⟨r, h⟩ | h
        · exact .inl ⟨r, .tail h⟩
        · exact .inr (.tail h)
      | group hd h ih => exact .inr (.group hd h)
    intro i r hi
    rcases this hi with ⟨r', h'⟩ | h'
    · exact h _ _ h'
    · exact h _ _ h'
  · rintro ⟨ha, hb⟩ i r h
    rcases within_append h with h | ⟨u, ⟨h, hu⟩ | h⟩
    · exact hb _ _ h
    · cases u with
      | nil => simp only [List.nil_append] at h; exact hb i r (h ▸ .here _)
      | cons t u =>
        simp only [List.cons_append, List.cons.injEq] at h
        obtain ⟨rfl, -⟩ := h
        exact ha _ _ hu
    · exact ha _ _ h

theorem lexical_group {d : Delim} {c ts : Toks} (hd : d ≠ .bracket) :
    LexicalToks (.group d c :: ts) ↔ LexicalToks c ∧ LexicalToks ts := by
  constructor
  · exact fun h => ⟨h.group hd, h.tail⟩
  · rintro ⟨h1, h2⟩ i r h
    cases h with
    | tail h => exact h2 _ _ h
    | group _ h => exact h1 _ _ h

theorem Place.lexical {x y : Toks} : ∀ (K : Place), LexicalToks (K.fill y) → LexicalToks x →
    LexicalToks (K.fill x) := by
  intro K
  induction K with
  | here before =>
    intro h hx
    rw [Place.fill, lexical_append] at h ⊢
    exact ⟨h.1, hx⟩
  | inside before head args d inner after ih =>
    intro h hx
    have hd : d.delim ≠ .bracket := by cases d <;> simp [Braces.delim]
    rw [Place.fill, lexical_append, lexical_append, lexical_append, lexical_group hd] at h ⊢
    exact ⟨h.1, h.2.1, h.2.2.1, ih h.2.2.2.1 hx, h.2.2.2.2⟩

theorem Place.lexical_at {x : Toks} : ∀ (K : Place), LexicalToks (K.fill x) → LexicalToks x := by
  intro K
  induction K with
  | here before => intro h; rw [Place.fill] at h; exact h.append
  | inside before head args d inner after ih =>
    intro h
    have hd : d.delim ≠ .bracket := by cases d <;> simp [Braces.delim]
    rw [Place.fill, lexical_append, lexical_append, lexical_append, lexical_group hd] at h
    exact ih h.2.2.2.1

/-! ### children are not attributes -/

theorem notAttr_of_word {i : Ident} {t : TT} {r : Toks} (hl : LexicalToks (.ident i :: t :: r))
    (ht : t.isDash = false) : NotAttr (.ident i :: t :: r) :=
  ⟨.inr ⟨[.ident i], t, r, rfl, nameEnds_single hl ht⟩, by simp⟩

theorem tag_notAttr {tag : CTag} {rest : Toks} (hl : LexicalToks (tag.toks ++ rest))
    (hf : ∃ t r, rest = t :: r ∧ t.followsTag = true) (hw : tag.Wf pp rest)
    (hi : ∃ i r, tag.toks = .ident i :: r) : NotAttr (tag.toks ++ rest) := by
  obtain ⟨t, r, rfl, ht⟩ := hf
  obtain ⟨i, u, hi⟩ := hi
  cases tag with
  | name run =>
    refine ⟨.inr ⟨run, t, r, rfl, hw.1⟩, ?_⟩
    rw [hi]
    simp
  | path used p =>
    have hp := hw.1
    rw [show (CTag.path used p).toks = used from rfl] at hi hl ⊢
    rw [hi, List.cons_append] at hp hl ⊢
    rcases hp with ⟨_, _, h⟩ | ⟨_, _, h, ⟨s, x, hc⟩ | ⟨s, x, hc⟩⟩
    · simp at h
    · simp only [List.cons.injEq] at h
      rw [h.2, hc] at hl ⊢
      exact notAttr_of_word hl rfl
    · simp only [List.cons.injEq] at h
      rw [h.2, hc] at hl ⊢
      exact notAttr_of_word hl rfl

theorem child_notAttr (hpp : pp.Starts) {c : CChild} {rest : Toks} (hl : LexicalToks (c.toks ++ rest))
    (hw : c.Wf pp rest) : NotAttr (c.toks ++ rest) := by
  cases c with
  | value v =>
    rw [CChild.Wf] at hw
    rw [CChild.toks] at hl ⊢
    cases v with
    | lit l => exact ⟨.inl (by simp [CVal.toks, TT.isIdent, TT.isDash]), by simp [CVal.toks]⟩
    | bool b => simp [CVal.ChildWf] at hw
    | neg s f x => simp [CVal.ChildWf] at hw
    | block x => exact ⟨.inl (by simp [CVal.toks, TT.isIdent, TT.isDash]), by simp [CVal.toks]⟩
    | bracket pfx x =>
      cases pfx with
      | none => exact ⟨.inl (by simp [CVal.toks, TT.isIdent, TT.isDash]), by simp [CVal.toks]⟩
      | some i => exact notAttr_of_word hl rfl
  | slot s e =>
    rw [CChild.toks] at hl ⊢
    exact notAttr_of_word hl rfl
  | elem e =>
    rw [CChild.Wf] at hw
    rw [CChild.toks] at hl ⊢
    obtain ⟨hw, i, r', hi, _⟩ := hw
    cases e with
    | mk tag sels attrs fin =>
      obtain ⟨t', u, hu⟩ := CTag.toks_ne_nil hpp (show tag.Wf pp _ by rw [CElem.Wf] at hw; exact hw.1)
      rw [CElem.Wf] at hw
      have e' : (CElem.mk tag sels attrs fin).toks ++ rest = tag.toks ++
        (sels.flatMap CSel.toks ++ (attrs.flatMap CAttr.toks ++ (fin.toks ++ rest))) := by
        simp [CElem.toks]
      rw [CElem.toks, hu] at hi
      simp only [List.cons_append, List.cons.injEq] at hi
      rw [e'] at hl ⊢
      exact tag_notAttr hl (sels_followsTag (attrs_follows hw.2.2.1 (fin_follows fin rest))) hw.1
        ⟨i, u, by rw [hu, hi.1]⟩

theorem children_notAttr (hpp : pp.Starts) {cs : List CChild} {rest : Toks}
    (hl : LexicalToks (childrenToks cs ++ rest)) (hw : childrenWf pp cs rest) (hn : NotAttr rest) :
    NotAttr (childrenToks cs ++ rest) := by
  cases cs with
  | nil => exact hn
  | cons c cs =>
    rw [childrenWf] at hw
    rw [childrenToks, List.append_assoc] at hl ⊢
    exact child_notAttr hpp hl hw.1

theorem head_notAttr {h : CHead} {rest : Toks} (hl : LexicalToks (h.toks ++ rest))
    (hf : Follows rest) (hw : h.Wf pp rest) : NotAttr (h.toks ++ rest) := by
  obtain ⟨h1, h2, h3, h4⟩ := hw
  unfold CHead.toks at hl ⊢
  cases hs : h.slot with
  | some s =>
    rw [hs] at hl
    exact notAttr_of_word hl rfl
  | none =>
    rw [hs] at hl h4
    obtain ⟨i, r, hi, -⟩ := h4
    simp only [slotToks, List.nil_append, List.append_assoc] at hl ⊢
    exact tag_notAttr hl (sels_followsTag (attrs_follows h3 hf)) h1 ⟨i, r, hi⟩

theorem notAttr_nil : NotAttr [] := ⟨.inl (by simp), by simp⟩

/-- Where one thing can stand, every complete piece can. -/
theorem Place.wf_any (hpp : pp.Starts) (hloc : pp.Local) {x y : Toks} (hx : LexicalToks x)
    (hn : NotAttr x) : ∀ (K : Place), LexicalToks (K.fill y) → K.Wf pp y →
    K.Wf pp x ∧ NotAttr (K.fill x) := by
  intro K
  induction K with
  | here before =>
    intro hl hw
    have hl' := Place.lexical (.here before) hl hx
    rw [Place.Wf] at hw ⊢
    rw [Place.fill] at hl' ⊢
    have := childrenWf_any hpp hloc x hw
    exact ⟨this, children_notAttr hpp hl' this hn⟩
  | inside before head args d inner after ih =>
    intro hl hw
    have hl' := Place.lexical (.inside before head args d inner after) hl hx
    have hd : d.delim ≠ .bracket := by cases d <;> simp [Braces.delim]
    rw [Place.Wf] at hw ⊢
    rw [Place.fill] at hl hl' ⊢
    obtain ⟨hw1, hw2, hw3, hw4, hw5⟩ := hw
    obtain ⟨i1, i2⟩ := ih ((lexical_group hd).mp hl.append.append.append).1 hw5
    have hf : ∀ z, Follows (argsToks args ++ (.group d.delim z :: after)) := fun z =>
      args_follows args ⟨_, _, rfl, by cases d <;> rfl⟩
    have hh : head.Wf pp (argsToks args ++ (.group d.delim (inner.fill x) :: after)) := by
      refine hw2.softer hloc (hf _) (hf _) ?_
      cases args with
      | none => simp only [argsToks, List.nil_append]; exact .of_neither rfl rfl
      | some a => simp only [argsToks]; exact .of_neither rfl rfl
    have h1 := childrenWf_any hpp hloc
      (head.toks ++ (argsToks args ++ (.group d.delim (inner.fill x) :: after))) hw1
    exact ⟨⟨h1, hh, hw3, fun _ _ => i2, i1⟩,
      children_notAttr hpp hl' h1 (head_notAttr hl'.append (hf _) hh)⟩

/-! ### accepted pieces -/

/-- An accepted piece first. -/
theorem parse_piece (hpp : pp.Starts) (hloc : pp.Local) {ta tb : Toks} {a : List Child}
    (hl : LexicalToks (ta ++ tb)) (ha : Parses pp ta a) :
    parseChildren pp (ta ++ tb) = prepend a (parseChildren pp tb) := by
  obtain ⟨cs, hw, rfl, rfl⟩ := (parses_iff hpp (lexical_append.mp hl).1).mp ha
  exact parse_append hpp cs tb hl (childrenWf_any hpp hloc tb hw)

theorem piece_notAttr (hpp : pp.Starts) (hloc : pp.Local) {ta tb : Toks} {a : List Child}
    (hl : LexicalToks (ta ++ tb)) (ha : Parses pp ta a) (hb : NotAttr tb) : NotAttr (ta ++ tb) := by
  obtain ⟨cs, hw, rfl, rfl⟩ := (parses_iff hpp (lexical_append.mp hl).1).mp ha
  exact children_notAttr hpp hl (childrenWf_any hpp hloc tb hw) hb

theorem piece_notAttr_cons (hpp : pp.Starts) (hloc : pp.Local) {ta tb : Toks} {c : Child} {a : List Child}
    (hl : LexicalToks (ta ++ tb)) (ha : Parses pp ta (c :: a)) : NotAttr (ta ++ tb) := by
  obtain ⟨cs, hw, rfl, hc⟩ := (parses_iff hpp (lexical_append.mp hl).1).mp ha
  have hw := childrenWf_any hpp hloc tb hw
  cases cs with
  | nil => simp [childrenAst] at hc
  | cons d cs =>
    rw [childrenWf] at hw
    rw [childrenToks, List.append_assoc] at hl ⊢
    exact child_notAttr hpp hl hw.1

theorem piece_nil (hpp : pp.Starts) {ta : Toks} (hl : LexicalToks ta) (ha : Parses pp ta []) : ta = [] := by
  obtain ⟨cs, hw, rfl, hc⟩ := (parses_iff hpp hl).mp ha
  cases cs with
  | nil => rfl
  | cons d cs => simp [childrenAst] at hc

theorem nodesIssues_append : ∀ (a b : List Child), nodesIssues (a ++ b) = nodesIssues a ++ nodesIssues b
  | [], b => by simp [nodesIssues]
  | .value v :: a, b => by simp [nodesIssues, nodesIssues_append a b]
  | .elem e :: a, b => by simp [nodesIssues, nodesIssues_append a b]
  | .slot e :: a, b => by simp [nodesIssues, nodesIssues_append a b]

theorem rootIssues_append {a : List Child} (h : rootIssues a = []) (b : List Child) :
    rootIssues (a ++ b) = rootIssues b := by
  unfold rootIssues at h ⊢
  split at h
  · simp at h
  · rename_i hs
    rw [Bool.not_eq_true] at hs
    simp only [List.any_append, hs, Bool.false_or, nodesIssues_append, h, List.nil_append]

end Mview
