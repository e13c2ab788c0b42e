import Verif.Spec.Combine
import Verif.Lemmas.Pieces
/-
Parts of elements, each on its own and joined.
-/

-- the linter does not see variables used inside `q!"..."`
set_option linter.unusedVariables false

namespace Mview
open Lex

variable {pp : PathParser}

/-! ### what a name may be followed by -/

/-- Names at the end of `u` are complete before `y`. -/
def Parted (u y : Toks) : Prop :=
  ∀ t, y.head? = some t → t.isDash = false ∧ (t.isWord = true → ∀ v s, u ≠ v ++ [.punct '-' s])

theorem Parted.suffix {w u y : Toks} (h : Parted (w ++ u) y) : Parted u y := by
  intro t ht
  refine ⟨(h t ht).1, fun hw v s he => (h t ht).2 hw (w ++ v) s ?_⟩
  rw [he, List.append_assoc]

theorem endsWord_last : ∀ (r : Toks) (pw : Bool) (x : TT), endsWord pw (r ++ [x]) = x.isWord
  | [], _, _ => rfl
  | t :: r, _, x => by rw [List.cons_append, endsWord]; exact endsWord_last r _ x

theorem list_last {α : Type} (r : List α) : r = [] ∨ ∃ v x, r = v ++ [x] := by
  rcases List.eq_nil_or_concat r with h | ⟨v, x, h⟩
  · exact .inl h
  · exact .inr ⟨v, x, by simpa using h⟩

/-- A name that does not end with a word ends with a dash. -/
theorem ends_dash {t : TT} {r : Toks} (hk : IsKebab (t :: r)) (h : endsWord t.isWord r = false) :
    ∃ v s, t :: r = v ++ [.punct '-' s] := by
  rcases list_last r with rfl | ⟨v, x, rfl⟩
  · have hw : t.isWord = false := h
    rcases hk.tokens t (by simp) with h' | h'
    · rw [hw] at h'; cases h'
    · obtain ⟨s, rfl⟩ := isDash_eq h'
      exact ⟨[], s, rfl⟩
  · rw [endsWord_last] at h
    rcases hk.tokens x (by simp) with h' | h'
    · rw [h] at h'; cases h'
    · obtain ⟨s, rfl⟩ := isDash_eq h'
      exact ⟨t :: v, s, rfl⟩

theorem NameEnds.parted {run x y : Toks} (h : NameEnds run x) (ha : Parted run y) : NameEnds run y := by
  cases run with
  | nil => exact absurd rfl h.1.kebab.nonempty
  | cons t r =>
    obtain ⟨h1, h2, h3⟩ := nameEnds_stops.mp h
    refine nameEnds_stops.mpr ⟨h1, h2, fun t' ht' => ⟨(ha t' ht').1, fun hw => ?_⟩⟩
    cases he : endsWord t.isWord r with
    | true => rfl
    | false =>
      obtain ⟨v, s, hv⟩ := ends_dash h1 he
      exact absurd hv ((ha t' ht').2 hw v s)

theorem NameEnds.nonempty' {run x : Toks} (h : NameEnds run x) : run ≠ [] := h.1.kebab.nonempty

/-- A complete name that ends with a dash is not followed by a word. -/
theorem NameEnds.not_merges {run x : Toks} (h : NameEnds run x) : ¬ Merges run x := by
  rintro ⟨u, s, i, v, rfl, rfl⟩
  cases u with
  | nil =>
    have := (nameEnds_stops.mp h).2.2 _ rfl
    simp [TT.isWord, endsWord] at this
  | cons t u =>
    have : Stops (endsWord t.isWord (u ++ [.punct '-' s])) (.ident i :: v) := (nameEnds_stops.mp h).2.2
    rw [endsWord_last] at this
    have := this _ rfl
    simp [TT.isWord] at this

theorem CAttr.Wf.parted {a : CAttr} {x y : Toks} (h : a.Wf x) (ha : Parted a.toks y) : a.Wf y := by
  cases a with
  | bare name => exact NameEnds.parted h ha
  | short name => exact h
  | full name s v => exact NameEnds.softer h (.of_head (x := []))
  | dirShort d s name m => exact h
  | dir d s key m v =>
    have h : key.Wf (modifierToks m ++ eqToks v ++ x) := h
    show key.Wf (modifierToks m ++ eqToks v ++ y)
    by_cases he : modifierToks m ++ eqToks v = []
    · rw [he] at h ⊢
      cases key with
      | str s => trivial
      | name run =>
        refine NameEnds.parted h ?_
        have : (CAttr.dir d s (.name run) m v).toks = [.ident d, .punct ':' s] ++ run := by
          simp only [List.append_eq_nil_iff] at he
          simp [CAttr.toks, CKey.toks, he]
        rw [this] at ha
        exact ha.suffix
    · exact CKey.Wf.softer h (.append he)
  | spread s e => trivial

theorem CSel.Wf.parted {a : CSel} {x y : Toks} (h : a.Wf x) (ha : Parted a.toks y) : a.Wf y := by
  cases a with
  | cls s name => exact NameEnds.parted h (Parted.suffix (w := [.punct '.' s]) ha)
  | id s name => exact NameEnds.parted h (Parted.suffix (w := [.punct '#' s]) ha)

theorem listWf_parted {α : Type} {toks : α → Toks} {wf : α → Toks → Prop}
    (h1 : ∀ {a x y}, wf a x → Parted (toks a) y → wf a y)
    (h2 : ∀ {a x y}, wf a x → Softer x y → wf a y) (h3 : ∀ {a x}, wf a x → toks a ≠ []) :
    ∀ {as : List α} {x y : Toks}, listWf toks wf as x → Parted (as.flatMap toks) y → listWf toks wf as y := by
  intro as
  induction as with
  | nil => intros; trivial
  | cons a as ih =>
    intro x y hw ha
    rw [List.flatMap_cons] at ha
    refine ⟨?_, ih hw.2 ha.suffix⟩
    cases as with
    | nil => exact h1 hw.1 (by simpa using ha)
    | cons b bs =>
      refine h2 hw.1 (.append ?_)
      simp only [List.flatMap_cons, ne_eq, List.append_eq_nil_iff, not_and]
      intro hb
      exact absurd hb (h3 hw.2.1)

theorem CSel.toks_ne_nil {a : CSel} : a.toks ≠ [] := by cases a <;> simp [CSel.toks]

theorem attrs_parted {as : List CAttr} {x y : Toks} (h : listWf CAttr.toks CAttr.Wf as x)
    (ha : Parted (as.flatMap CAttr.toks) y) : listWf CAttr.toks CAttr.Wf as y :=
  listWf_parted (toks := CAttr.toks) (wf := CAttr.Wf) CAttr.Wf.parted CAttr.Wf.softer CAttr.toks_ne_nil h ha

theorem sels_parted {as : List CSel} {x y : Toks} (h : listWf CSel.toks CSel.Wf as x)
    (ha : Parted (as.flatMap CSel.toks) y) : listWf CSel.toks CSel.Wf as y :=
  listWf_parted (toks := CSel.toks) (wf := CSel.Wf) CSel.Wf.parted CSel.Wf.softer (fun _ => CSel.toks_ne_nil) h ha

theorem tag_parted (hloc : pp.Local) {tag : CTag} {x y : Toks} (ha : Parted tag.toks y)
    (hx : ∃ t r, x = t :: r ∧ t.followsTag = true) (hy : ∃ t r, y = t :: r ∧ t.followsTag = true)
    (h : tag.Wf pp x) : tag.Wf pp y := by
  cases tag with
  | name run => exact ⟨h.1.parted ha, h.2⟩
  | path used p =>
    obtain ⟨t, r, rfl, ht⟩ := hx
    obtain ⟨t', r', rfl, ht'⟩ := hy
    obtain ⟨h1, h2⟩ := h
    obtain ⟨u, hu, he⟩ := pp.progress _ _ _ h2
    have := List.append_cancel_right he
    subst this
    exact ⟨h1.transport (t := t) hu (followsTag_ne ht (.inl rfl)) (followsTag_ne ht (.inr rfl)),
      hloc h2 (followsTag_ne ht (.inl rfl)) (followsTag_ne ht (.inr rfl))
        (followsTag_ne ht' (.inl rfl)) (followsTag_ne ht' (.inr rfl))⟩

theorem listWf_append {α : Type} {toks : α → Toks} {wf : α → Toks → Prop} {as bs : List α} {x : Toks} :
    listWf toks wf (as ++ bs) x ↔ listWf toks wf as (bs.flatMap toks ++ x) ∧ listWf toks wf bs x := by
  induction as with
  | nil => simp [listWf]
  | cons a as ih =>
    simp only [List.cons_append, listWf, ih, List.flatMap_append, List.append_assoc, and_assoc]

/-- Nothing that is followed by what is neither dash nor word is continued by it. -/
theorem parted_of_neither {u : Toks} {t : TT} {r : Toks} (h1 : t.isDash = false) (h2 : t.isWord = false) :
    Parted u (t :: r) := by
  intro t' ht'
  simp only [List.head?_cons, Option.some.injEq] at ht'
  subst ht'
  exact ⟨h1, fun h => by rw [h2] at h; cases h⟩

theorem fin_head (fin : CEnd) : ∃ t r, fin.toks = t :: r ∧ t.isDash = false ∧ t.isWord = false := by
  cases fin with
  | semi s => exact ⟨_, _, rfl, rfl, rfl⟩
  | block args d cs =>
    cases args with
    | none => exact ⟨_, _, rfl, rfl, rfl⟩
    | some a => exact ⟨_, _, rfl, rfl, rfl⟩

theorem parted_fin (u : Toks) (fin : CEnd) (y : Toks) : Parted u (fin.toks ++ y) := by
  obtain ⟨t, r, h, h1, h2⟩ := fin_head fin
  rw [h]
  exact parted_of_neither h1 h2

/-- Before attributes. -/
theorem parted_attrs {u x y : Toks} {as : List CAttr} {fin : CEnd} (h : listWf CAttr.toks CAttr.Wf as x)
    (hd : NoDash (as.flatMap CAttr.toks)) (hm : ¬ Merges u (as.flatMap CAttr.toks ++ (fin.toks ++ y))) :
    Parted u (as.flatMap CAttr.toks ++ (fin.toks ++ y)) := by
  cases as with
  | nil => exact parted_fin u fin y
  | cons a as =>
    obtain ⟨t, r, he, ht⟩ := CAttr.follows h.1
    rw [List.flatMap_cons, he] at hd hm ⊢
    cases t with
    | ident i =>
      intro t' ht'
      simp only [List.cons_append, List.head?_cons, Option.some.injEq] at ht'
      subst ht'
      exact ⟨rfl, fun _ v s hv => hm ⟨v, s, i, _, hv, rfl⟩⟩
    | punct c s =>
      refine parted_of_neither ?_ rfl
      by_cases hc : c = '-'
      · subst hc; exact absurd rfl (hd s _)
      · unfold TT.isDash; split
        · rename_i h; cases h; exact absurd rfl hc
        · rfl
    | group d c => exact parted_of_neither rfl rfl
    | lit l => cases ht

/-- Before selectors and attributes. -/
theorem parted_sels {u x y : Toks} {ss : List CSel} {as : List CAttr} {fin : CEnd}
    (h : listWf CAttr.toks CAttr.Wf as x) (hd : NoDash (as.flatMap CAttr.toks))
    (hm : ¬ Merges u (ss.flatMap CSel.toks ++ (as.flatMap CAttr.toks ++ (fin.toks ++ y)))) :
    Parted u (ss.flatMap CSel.toks ++ (as.flatMap CAttr.toks ++ (fin.toks ++ y))) := by
  cases ss with
  | nil => exact parted_attrs h hd hm
  | cons c ss => cases c <;> exact parted_of_neither rfl rfl

/-! ### one element -/

/-- An element alone, in the grammar. -/
theorem parses_elem_iff (hpp : pp.Starts) {ts : Toks} (hl : LexicalToks ts) {T : Tag} {S : List Selector}
    {A : List Attr} {g : Option Toks} {k : Option (List Child)} :
    Parses pp ts [.elem (.mk T S A g k)] ↔ ∃ tag sels attrs fin,
      CElem.Wf pp (.mk tag sels attrs fin) [] ∧
      (∃ i r, ts = .ident i :: r ∧ i ≠ plain c!"true" ∧ i ≠ plain c!"false") ∧
      ts = tag.toks ++ (sels.flatMap CSel.toks ++ (attrs.flatMap CAttr.toks ++ fin.toks)) ∧
      tag.ast = T ∧ sels.map CSel.ast = S ∧ attrs.map CAttr.ast = A ∧ fin.args = g ∧ fin.children = k := by
  rw [parses_iff hpp hl]
  constructor
  · rintro ⟨cs, hw, ht, ha⟩
    rcases cs with _ | ⟨c, _ | ⟨c', cs⟩⟩
    · simp [childrenAst] at ha
    · simp only [childrenAst, List.cons.injEq, and_true] at ha
      cases c with
      | value v => simp [CChild.ast] at ha
      | slot s e => simp [CChild.ast] at ha
      | elem e =>
        cases e with
        | mk tag sels attrs fin =>
          simp only [CChild.ast, CElem.ast, Child.elem.injEq, Element.mk.injEq] at ha
          simp only [childrenWf, childrenToks, List.append_nil, and_true, CChild.Wf, CChild.toks] at hw ht
          refine ⟨tag, sels, attrs, fin, hw.1, ht ▸ hw.2, ?_, ha⟩
          rw [← ht, CElem.toks]
    · simp [childrenAst] at ha
  · rintro ⟨tag, sels, attrs, fin, hw, hi, ht, ha⟩
    refine ⟨[.elem (.mk tag sels attrs fin)], ?_, ?_, ?_⟩
    · simp only [childrenWf, childrenToks, List.append_nil, and_true, CChild.Wf, CElem.toks]
      exact ⟨hw, ht ▸ hi⟩
    · simp only [childrenToks, CChild.toks, CElem.toks, List.append_nil]; exact ht.symm
    · simp only [childrenAst, CChild.ast, CElem.ast, ha]

/-- The same after `slot:`. -/
theorem parses_slot (hpp : pp.Starts) {ts : Toks} (hl : LexicalToks (t!"slot:" ++ ts)) {T : Tag} {S : List Selector}
    {A : List Attr} {g : Option Toks} {k : Option (List Child)} (h : Parses pp ts [.elem (.mk T S A g k)]) :
    Parses pp (t!"slot:" ++ ts) [.slot (.mk T S A g k)] := by
  obtain ⟨tag, sels, attrs, fin, hw, hi, ht, h1, h2, h3, h4, h5⟩ := (parses_elem_iff hpp hl.append).mp h
  refine (parses_iff hpp hl).mpr ⟨[.slot .alone (.mk tag sels attrs fin)], ?_, ?_, ?_⟩
  · simp only [childrenWf, childrenToks, List.append_nil, and_true, CChild.Wf]
    exact ⟨hw, by simp⟩
  · simp only [childrenToks, CChild.toks, CElem.toks, List.append_nil, ← ht]; rfl
  · simp only [childrenAst, CChild.ast, CElem.ast, h1, h2, h3, h4, h5]

/-- The tag of `div ..` is `div` only if it is the word itself. -/
theorem div_tag {tag : CTag} {x y : Toks} (hw : tag.Wf pp x) (ha : tag.ast = divTag)
    (he : tag.toks ++ x = t!"div" ++ y) : tag = .name t!"div" ∧ x = y := by
  cases tag with
  | path used p => simp [CTag.ast, divTag] at ha
  | name run =>
    have hn := hw.1
    cases run with
    | nil => exact absurd rfl hn.1.kebab.nonempty
    | cons t r =>
      have he' : t :: (r ++ x) = .ident (plain c!"div") :: y := he
      simp only [List.cons.injEq] at he'
      obtain ⟨rfl, hx⟩ := he'
      cases r with
      | nil => exact ⟨rfl, hx⟩
      | cons t' r =>
        exfalso
        have hk := hn.1.kebab
        have hd : t'.isDash = true := by
          rcases hk.tokens t' (by simp) with h | h
          · exact absurd ⟨rfl, h⟩ (hk.alternate [] _ _ r rfl)
          · exact h
        obtain ⟨s, rfl⟩ := isDash_eq hd
        have hne := hw.2
        rw [CTag.ast] at ha
        cases hq : tagOf (kebabOf (.ident (plain c!"div") :: .punct '-' s :: r)) with
        | none => exact hne hq
        | some T =>
          rw [hq, Option.getD_some] at ha
          subst ha
          unfold tagOf at hq
          have hraw : ∀ n j, rawIdentOf n = some j → n.length = j.name.length := by
            intro n j hj
            unfold rawIdentOf rawIdent at hj
            split at hj
            · cases hj
            · cases hj; simp
          split at hq <;> simp only [divTag, Option.map_eq_some_iff, Option.some.injEq, reduceCtorEq,
            and_false, exists_false, Tag.html.injEq] at hq
          obtain ⟨j, h1, rfl⟩ := hq
          have := hraw _ _ h1
          simp [kebabOf, kebabText, TT.text, plain] at this

/-- The parts of `div`. -/
theorem div_parts (hpp : pp.Starts) {y : Toks} (hl : LexicalToks (t!"div" ++ y)) {S : List Selector}
    {A : List Attr} {g : Option Toks} {k : Option (List Child)} :
    Parses pp (t!"div" ++ y) [.elem (.mk divTag S A g k)] ↔ ∃ sels attrs fin,
      listWf CSel.toks CSel.Wf sels (attrs.flatMap CAttr.toks ++ fin.toks) ∧
      listWf CAttr.toks CAttr.Wf attrs fin.toks ∧ CEnd.Wf pp fin ∧ NoDash y ∧
      y = sels.flatMap CSel.toks ++ (attrs.flatMap CAttr.toks ++ fin.toks) ∧
      sels.map CSel.ast = S ∧ attrs.map CAttr.ast = A ∧ fin.args = g ∧ fin.children = k := by
  rw [parses_elem_iff hpp hl]
  constructor
  · rintro ⟨tag, sels, attrs, fin, hw, hi, ht, h1, h2⟩
    simp only [CElem.Wf, List.append_nil] at hw
    obtain ⟨rfl, hy⟩ := div_tag hw.1 h1 ht.symm
    refine ⟨sels, attrs, fin, hw.2.1, hw.2.2.1, hw.2.2.2, ?_, hy.symm, h2⟩
    rintro s r rfl
    rw [hy] at hw
    have := (nameEnds_stops.mp hw.1.1).2.2 _ rfl
    simp [TT.isDash] at this
  · rintro ⟨sels, attrs, fin, hs, ha, hf, hd, hy, h2⟩
    refine ⟨.name t!"div", sels, attrs, fin, ?_, ⟨plain c!"div", y, rfl, by simp [plain], by simp [plain]⟩,
      by rw [hy]; rfl, rfl, h2⟩
    simp only [CElem.Wf, List.append_nil]
    refine ⟨⟨?_, ?_⟩, hs, ha, hf⟩
    · rw [← hy]
      cases y with
      | nil =>
        obtain ⟨t, r, h, _⟩ := fin_head fin
        rw [h] at hy
        simp at hy
      | cons t r =>
        refine nameEnds_single (i := plain c!"div") hl ?_
        cases ht : t.isDash with
        | false => rfl
        | true => obtain ⟨s, rfl⟩ := isDash_eq ht; exact absurd rfl (hd s r)
    · intro h; cases h

theorem semi_of_none {fin : CEnd} (h : fin.children = none) : ∃ s, fin = .semi s := by
  cases fin with
  | semi s => exact ⟨s, rfl⟩
  | block args d cs => simp [CEnd.children] at h

/-! ### parts -/

theorem semi_cancel {x y : Toks} {s : Spacing} (h : x ++ t!";" = y ++ [.punct ';' s]) : x = y :=
  (List.append_inj' h rfl).1

theorem semi_last {x y : Toks} {s : Spacing} (h : x ++ t!";" = y ++ [.punct ';' s]) : s = .alone := by
  have := (List.append_inj' h rfl).2
  simp only [List.cons.injEq, TT.punct.injEq, and_true] at this
  exact this.2.symm

theorem NoDash.left {x y : Toks} (h : NoDash (x ++ y)) : NoDash x := by
  rintro s r rfl
  exact h s _ rfl

theorem noDash_semi {x : Toks} (h : NoDash x) : NoDash (x ++ t!";") := by
  cases x with
  | nil => intro s r he; cases he
  | cons t x =>
    intro s r he
    simp only [List.cons_append, List.cons.injEq] at he
    exact h s x (by rw [he.1])

theorem tag_alone_iff (hpp : pp.Starts) {t : Toks} (hl : LexicalToks (t ++ t!";")) {T : Tag} :
    TagAlone pp t T ↔ ∃ tag : CTag, tag.Wf pp t!";" ∧ t = tag.toks ∧ tag.ast = T ∧
      ∃ i r, t = .ident i :: r ∧ i ≠ plain c!"true" ∧ i ≠ plain c!"false" := by
  unfold TagAlone
  rw [parses_elem_iff hpp hl]
  constructor
  · rintro ⟨tag, sels, attrs, fin, hw, hi, ht, h1, h2, h3, h4, h5⟩
    obtain rfl := List.map_eq_nil_iff.mp h2
    obtain rfl := List.map_eq_nil_iff.mp h3
    obtain ⟨s, rfl⟩ := semi_of_none h5
    simp only [List.flatMap_nil, List.nil_append, CEnd.toks] at ht
    obtain rfl := semi_last ht
    have ht := semi_cancel ht
    simp only [CElem.Wf, List.flatMap_nil, List.nil_append, CEnd.toks, List.append_nil] at hw
    refine ⟨tag, hw.1, ht, h1, ?_⟩
    obtain ⟨t', r', hne⟩ := CTag.toks_ne_nil hpp hw.1
    obtain ⟨i, r, he, hi⟩ := hi
    rw [ht, hne, List.cons_append, List.cons.injEq] at he
    exact ⟨i, r', by rw [ht, hne, he.1], hi⟩
  · rintro ⟨tag, hw, ht, h1, i, r, hi, hi'⟩
    refine ⟨tag, [], [], .semi .alone, ?_, ⟨i, r ++ t!";", by rw [hi]; rfl, hi'⟩, ?_, h1, rfl, rfl, rfl, rfl⟩
    · simp only [CElem.Wf, List.flatMap_nil, List.nil_append, CEnd.toks, List.append_nil]
      exact ⟨hw, trivial, trivial, trivial⟩
    · rw [ht]; rfl

theorem sels_alone_iff (hpp : pp.Starts) {x : Toks} (hl : LexicalToks (t!"div" ++ (x ++ t!";")))
    {S : List Selector} : SelsAlone pp x S ↔ ∃ sels : List CSel,
      listWf CSel.toks CSel.Wf sels t!";" ∧ x = sels.flatMap CSel.toks ∧ sels.map CSel.ast = S := by
  unfold SelsAlone
  rw [div_parts hpp hl]
  constructor
  · rintro ⟨sels, attrs, fin, h1, h2, h3, h4, h5, h6, h7, h8, h9⟩
    obtain rfl := List.map_eq_nil_iff.mp h7
    obtain ⟨s, rfl⟩ := semi_of_none h9
    simp only [List.flatMap_nil, List.nil_append, CEnd.toks] at h5 h1
    obtain rfl := semi_last h5
    exact ⟨sels, h1, semi_cancel h5, h6⟩
  · rintro ⟨sels, h1, rfl, h2⟩
    refine ⟨sels, [], .semi .alone, h1, trivial, trivial, ?_, rfl, h2, rfl, rfl, rfl⟩
    cases sels with
    | nil => intro s r he; cases he
    | cons c sels => cases c <;> (intro s r he; cases he)

theorem attrs_alone_iff (hpp : pp.Starts) {x : Toks} (hl : LexicalToks (t!"div" ++ (x ++ t!";")))
    {A : List Attr} : AttrsAlone pp x A ↔ NoDash x ∧ ∃ attrs : List CAttr,
      listWf CAttr.toks CAttr.Wf attrs t!";" ∧ x = attrs.flatMap CAttr.toks ∧ attrs.map CAttr.ast = A := by
  unfold AttrsAlone
  rw [div_parts hpp hl]
  constructor
  · rintro ⟨sels, attrs, fin, h1, h2, h3, h4, h5, h6, h7, h8, h9⟩
    obtain rfl := List.map_eq_nil_iff.mp h6
    obtain ⟨s, rfl⟩ := semi_of_none h9
    simp only [List.flatMap_nil, List.nil_append, CEnd.toks] at h5 h2
    obtain rfl := semi_last h5
    exact ⟨h4.left, attrs, h2, semi_cancel h5, h7⟩
  · rintro ⟨hd, attrs, h1, rfl, h2⟩
    exact ⟨[], attrs, .semi .alone, trivial, h1, trivial, noDash_semi hd, rfl, rfl, h2, rfl, rfl⟩

theorem end_alone_iff (hpp : pp.Starts) {x : Toks} (hl : LexicalToks (t!"div" ++ x))
    {g : Option Toks} {k : Option (List Child)} : EndAlone pp x g k ↔ ∃ fin : CEnd,
      fin.Wf pp ∧ x = fin.toks ∧ fin.args = g ∧ fin.children = k := by
  unfold EndAlone
  rw [div_parts hpp hl]
  constructor
  · rintro ⟨sels, attrs, fin, h1, h2, h3, h4, h5, h6, h7, h8, h9⟩
    obtain rfl := List.map_eq_nil_iff.mp h6
    obtain rfl := List.map_eq_nil_iff.mp h7
    exact ⟨fin, h3, h5, h8, h9⟩
  · rintro ⟨fin, h1, rfl, h2, h3⟩
    refine ⟨[], [], fin, trivial, trivial, h1, ?_, rfl, rfl, rfl, h2, h3⟩
    obtain ⟨t, r, h, hd, _⟩ := fin_head fin
    rw [h]
    intro s r' he
    simp only [List.cons.injEq] at he
    rw [he.1] at hd
    cases hd

theorem lexical_div {x : Toks} (h : LexicalToks x) : LexicalToks (t!"div" ++ x) :=
  lexical_append.mpr ⟨lexical_of rfl, h⟩

theorem lexical_semi {x : Toks} (h : LexicalToks x) : LexicalToks (x ++ t!";") :=
  lexical_append.mpr ⟨h, lexical_of rfl⟩

/-- Before `;` everything is complete. -/
theorem parted_semi (u : Toks) : Parted u t!";" := parted_of_neither rfl rfl

theorem followsTag_semi : ∃ t r, t!";" = t :: r ∧ t.followsTag = true := ⟨_, _, rfl, rfl⟩

/-- Only the end matters. -/
theorem Merges.suffix {w u y : Toks} (h : Merges (w ++ u) y) (hu : u ≠ []) : Merges u y := by
  obtain ⟨v, s, i, r, he, hy⟩ := h
  rcases list_last u with rfl | ⟨v', x, rfl⟩
  · exact absurd rfl hu
  · rw [← List.append_assoc] at he
    exact ⟨v', s, i, r, by rw [(List.append_inj' he rfl).2], hy⟩

/-- Of what is complete the end is not continued. -/
theorem listWf_not_merges {α : Type} {toks : α → Toks} {wf : α → Toks → Prop}
    (h1 : ∀ {a x}, wf a x → ¬ Merges (toks a) x) (h3 : ∀ {a x}, wf a x → toks a ≠ []) :
    ∀ {as : List α} {x : Toks}, listWf toks wf as x → ¬ Merges (as.flatMap toks) x := by
  intro as
  induction as with
  | nil => rintro x - ⟨u, s, i, v, he, -⟩; simp at he
  | cons a as ih =>
    intro x hw hm
    cases as with
    | nil => exact h1 hw.1 (by simpa using hm)
    | cons b bs =>
      rw [List.flatMap_cons] at hm
      refine ih hw.2 (hm.suffix ?_)
      simp only [List.flatMap_cons, ne_eq, List.append_eq_nil_iff, not_and]
      intro hb
      exact absurd hb (h3 hw.2.1)

theorem CSel.not_merges {a : CSel} {x : Toks} (h : a.Wf x) : ¬ Merges a.toks x := by
  intro hm
  cases a with
  | cls s name =>
    have h : NameEnds name x := h
    exact h.not_merges (hm.suffix (w := [.punct '.' s]) h.nonempty')
  | id s name =>
    have h : NameEnds name x := h
    exact h.not_merges (hm.suffix (w := [.punct '#' s]) h.nonempty')

theorem not_merges_last {u y : Toks} {t : TT} (h : t.isDash = false) : ¬ Merges (u ++ [t]) y := by
  rintro ⟨v, s, i, r, he, -⟩
  have := (List.append_inj' he rfl).2
  simp only [List.cons.injEq, and_true] at this
  rw [this] at h
  cases h

theorem val_not_merges {u y : Toks} (v : CVal) : ¬ Merges (u ++ v.toks) y := by
  cases v with
  | lit l => exact not_merges_last rfl
  | bool b => exact not_merges_last rfl
  | neg s f t =>
    rw [show (CVal.neg s f t).toks = [.punct '-' s] ++ [.lit (if f then .float t else .int t)] from rfl,
      ← List.append_assoc]
    exact not_merges_last rfl
  | block c => exact not_merges_last rfl
  | bracket p c =>
    cases p with
    | none => exact not_merges_last rfl
    | some p =>
      rw [show (CVal.bracket (some p) c).toks = [.ident p] ++ [.group .bracket c] from rfl, ← List.append_assoc]
      exact not_merges_last rfl

theorem CAttr.not_merges {a : CAttr} {x : Toks} (h : a.Wf x) : ¬ Merges a.toks x := by
  cases a with
  | bare name => exact NameEnds.not_merges h
  | short name => exact not_merges_last (u := []) rfl
  | full name s v =>
    rw [show (CAttr.full name s v).toks = name ++ [.punct '=' s] ++ v.toks by simp [CAttr.toks]]
    exact val_not_merges v
  | dirShort d s name m =>
    cases m with
    | none => exact not_merges_last (u := [.ident d, .punct ':' s]) rfl
    | some m =>
      exact not_merges_last (u := [.ident d, .punct ':' s, .group .brace name, .punct ':' m.1]) (t := .ident m.2) rfl
  | dir d s key m v =>
    have h : key.Wf (modifierToks m ++ eqToks v ++ x) := h
    rw [show (CAttr.dir d s key m v).toks = [.ident d, .punct ':' s] ++ (key.toks ++ modifierToks m ++ eqToks v)
      from rfl]
    cases v with
    | some v =>
      rw [show eqToks (some v) = [.punct '=' v.1] ++ v.2.toks from rfl]
      rw [← List.append_assoc, ← List.append_assoc, ← List.append_assoc]
      exact val_not_merges v.2
    | none =>
      cases m with
      | some m =>
        rw [show eqToks none = [] from rfl, List.append_nil,
          show modifierToks (some m) = [.punct ':' m.1] ++ [.ident m.2] from rfl, ← List.append_assoc, ← List.append_assoc]
        exact not_merges_last rfl
      | none =>
        rw [show eqToks none = [] from rfl, show modifierToks none = [] from rfl, List.append_nil, List.append_nil]
        cases key with
        | str k => exact not_merges_last rfl
        | name run =>
          have h : NameEnds run x := h
          exact fun hm => h.not_merges (hm.suffix h.nonempty')
  | spread s e => exact not_merges_last (u := []) rfl

theorem sels_not_merges {as : List CSel} {x : Toks} (h : listWf CSel.toks CSel.Wf as x) :
    ¬ Merges (as.flatMap CSel.toks) x :=
  listWf_not_merges (toks := CSel.toks) (wf := CSel.Wf) CSel.not_merges (fun _ => CSel.toks_ne_nil) h

theorem attrs_not_merges {as : List CAttr} {x : Toks} (h : listWf CAttr.toks CAttr.Wf as x) :
    ¬ Merges (as.flatMap CAttr.toks) x :=
  listWf_not_merges (toks := CAttr.toks) (wf := CAttr.Wf) CAttr.not_merges CAttr.toks_ne_nil h

/-- Attributes before others. -/
theorem parted_attrs_semi {u x : Toks} {as : List CAttr} (h : listWf CAttr.toks CAttr.Wf as x)
    (hd : NoDash (as.flatMap CAttr.toks)) (hm : ¬ Merges u (as.flatMap CAttr.toks)) :
    Parted u (as.flatMap CAttr.toks ++ t!";") := by
  refine parted_attrs (fin := .semi .alone) (y := []) h hd ?_
  rintro ⟨v, s, i, r, h1, h2⟩
  cases as with
  | nil => cases h2
  | cons a as =>
    obtain ⟨t, w, he, -⟩ := CAttr.follows h.1
    rw [List.flatMap_cons, he] at hm h2
    simp only [List.cons_append, List.cons.injEq] at h2
    exact hm ⟨v, s, i, _, h1, by rw [h2.1]; rfl⟩

theorem parted_sels_semi {u : Toks} (as : List CSel) : Parted u (as.flatMap CSel.toks ++ t!";") := by
  cases as with
  | nil => exact parted_semi u
  | cons c as => cases c <;> exact parted_of_neither rfl rfl

end Mview
