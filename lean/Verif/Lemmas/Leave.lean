import Verif.Spec.Leave
import Verif.Lemmas.Combine
import Verif.Lemmas.Threads
/-
How to write what is left if something is left out.
-/

namespace Mview
open Lex

variable {pp : PathParser}

/-! ### names -/

/-- what does not begin with a dash -/
def NoDashNext (y : Toks) : Prop := ∀ t, y.head? = some t → t.isDash = false

theorem kebab_last {v : Toks} {s : Spacing} : (kebabOf (v ++ [.punct '-' s])).repr = kebabText v ++ ['-'] := by
  simp [kebabOf, kebabText, TT.text]

theorem kebab_first {v : Toks} {s : Spacing} : (kebabOf (.punct '-' s :: v)).repr = '-' :: kebabText v := by
  simp [kebabOf, kebabText, TT.text]

theorem parted_of_last {u y : Toks} (h : ∀ v s, u ≠ v ++ [.punct '-' s]) (hy : NoDashNext y) : Parted u y :=
  fun t ht => ⟨hy t ht, fun _ => h⟩

theorem firm_last {name : Toks} (h : (kebabOf name).Firm) : ∀ v s, name ≠ v ++ [.punct '-' s] := by
  rintro v s rfl
  exact (h (kebabText v)).2 kebab_last

theorem NameEnds.firm {run x y : Toks} (h : NameEnds run x) (hf : (kebabOf run).Firm) (hy : NoDashNext y) :
    NameEnds run y := h.parted (parted_of_last (firm_last hf) hy)

theorem CSel.Wf.firm {a : CSel} {x y : Toks} (h : a.Wf x) (hf : a.ast.Firm) (hy : NoDashNext y) : a.Wf y := by
  cases a with
  | cls s name => exact NameEnds.firm h hf hy
  | id s name => exact NameEnds.firm h hf hy

theorem CAttr.Wf.firm {a : CAttr} {x y : Toks} (h : a.Wf x) (hf : a.ast.Firm) (hy : NoDashNext y) : a.Wf y := by
  cases a with
  | bare name => exact NameEnds.firm h hf hy
  | short name => exact h
  | full name s v => exact NameEnds.softer h (.of_head (x := []))
  | dirShort d s name m => exact h
  | dir d s key m v =>
    have h : key.Wf (modifierToks m ++ eqToks v ++ x) := h
    show key.Wf (modifierToks m ++ eqToks v ++ y)
    by_cases he : modifierToks m ++ eqToks v = []
    · rw [he] at h ⊢
      cases key with
      | str s => trivial
      | name run => exact NameEnds.firm h (hf _ rfl) hy
    · exact CKey.Wf.softer h (.append he)
  | spread s e => trivial

/-- Attributes do not start with a dash. -/
theorem CAttr.noDashNext {a : CAttr} {x y : Toks} (h : a.Wf x) (hf : a.ast.Firm) : NoDashNext (a.toks ++ y) := by
  have hn : ∀ {name x y : Toks}, NameEnds name x → (kebabOf name).Firm → NoDashNext (name ++ y) := by
    intro name x y h hf
    cases name with
    | nil => exact absurd rfl h.1.kebab.nonempty
    | cons t r =>
      intro t' ht'
      simp only [List.cons_append, List.head?_cons, Option.some.injEq] at ht'
      subst ht'
      cases hd : t.isDash with
      | false => rfl
      | true =>
        obtain ⟨s, rfl⟩ := isDash_eq hd
        exact absurd kebab_first (hf _).1
  have hi : ∀ {t : TT} {r : Toks}, t.isDash = false → NoDashNext (t :: r) := by
    intro t r h t' ht'
    cases ht'
    exact h
  cases a with
  | bare name => exact hn h hf
  | short name => exact hi rfl
  | full name s v =>
    rw [CAttr.toks, List.append_assoc]
    exact hn h hf
  | dirShort d s name m => exact hi rfl
  | dir d s key m v => exact hi rfl
  | spread s e => exact hi rfl

theorem firm_of {k : KebabIdent} (h : (k.repr.head? != some '-' && k.repr.getLast? != some '-') = true) : k.Firm := by
  intro r
  constructor <;> (intro he; rw [he] at h; simp at h)

/-! ### some of a list -/

theorem listWf_each {α : Type} {toks : α → Toks} {wf : α → Toks → Prop} :
    ∀ {as : List α} {x : Toks}, listWf toks wf as x → ∀ a ∈ as, ∃ y, wf a y
  | [], _, _ => fun _ h => nomatch h
  | a :: as, x, h => by
    intro b hb
    rcases List.mem_cons.mp hb with rfl | hb
    · exact ⟨_, h.1⟩
    · exact listWf_each h.2 b hb

theorem attrs_noDashNext {as : List CAttr} {y : Toks} (h : ∀ a ∈ as, ∃ x, a.Wf x) (hf : ∀ a ∈ as, a.ast.Firm)
    (hy : NoDashNext y) : NoDashNext (as.flatMap CAttr.toks ++ y) := by
  cases as with
  | nil => exact hy
  | cons a as =>
    obtain ⟨x, hx⟩ := h a (by simp)
    rw [List.flatMap_cons, List.append_assoc]
    exact CAttr.noDashNext hx (hf a (by simp))

theorem attrs_firm {y : Toks} : ∀ {as : List CAttr}, (∀ a ∈ as, ∃ x, a.Wf x) → (∀ a ∈ as, a.ast.Firm) →
    NoDashNext y → listWf CAttr.toks CAttr.Wf as y
  | [], _, _, _ => trivial
  | a :: as, h, hf, hy => by
    obtain ⟨x, hx⟩ := h a (by simp)
    have h' : ∀ a ∈ as, ∃ x, a.Wf x := fun b hb => h b (List.mem_cons_of_mem _ hb)
    have hf' : ∀ a ∈ as, a.ast.Firm := fun b hb => hf b (List.mem_cons_of_mem _ hb)
    exact ⟨hx.firm (hf a (by simp)) (attrs_noDashNext h' hf' hy), attrs_firm h' hf' hy⟩

theorem sels_noDashNext {as : List CSel} {y : Toks} (hy : NoDashNext y) :
    NoDashNext (as.flatMap CSel.toks ++ y) := by
  cases as with
  | nil => exact hy
  | cons a as =>
    intro t ht
    cases a <;> (cases ht; rfl)

theorem sels_firm {y : Toks} : ∀ {as : List CSel}, (∀ a ∈ as, ∃ x, a.Wf x) → (∀ a ∈ as, a.ast.Firm) →
    NoDashNext y → listWf CSel.toks CSel.Wf as y
  | [], _, _, _ => trivial
  | a :: as, h, hf, hy => by
    obtain ⟨x, hx⟩ := h a (by simp)
    have h' : ∀ a ∈ as, ∃ x, a.Wf x := fun b hb => h b (List.mem_cons_of_mem _ hb)
    have hf' : ∀ a ∈ as, a.ast.Firm := fun b hb => hf b (List.mem_cons_of_mem _ hb)
    exact ⟨hx.firm (hf a (by simp)) (sels_noDashNext hy), sels_firm h' hf' hy⟩

theorem fin_noDashNext (fin : CEnd) (y : Toks) : NoDashNext (fin.toks ++ y) := by
  obtain ⟨t, r, h, h1, h2⟩ := fin_head fin
  rw [h]
  intro t' ht'
  cases ht'
  exact h1

/-! ### tags -/

theorem tag_last {tag : CTag} {x : Toks} (h : tag.Wf pp x) (hf : tag.ast.Firm) {run : Toks} (he : tag = .name run) :
    ∀ v s, run ≠ v ++ [.punct '-' s] := by
  subst he
  rintro v s rfl
  obtain ⟨-, hne⟩ := h
  have hr : (kebabOf (v ++ [TT.punct '-' s])).repr = kebabText v ++ ['-'] := kebab_last
  rw [CTag.ast] at hf
  generalize kebabOf (v ++ [TT.punct '-' s]) = k at hr hne hf
  have hd : '-' ∈ k.repr := by rw [hr]; simp
  cases hk : kindOf k.repr with
  | webComponent =>
    have : tagOf k = some (.webComponent k) := by unfold tagOf; rw [hk]
    rw [this] at hf
    exact hf _ hr
  | component =>
    have ht : tagOf k = (rawIdentOf k.repr).map fun i => .component ⟨false, [⟨⟨false, i.name⟩, .none⟩]⟩ := by
      unfold tagOf; rw [hk]
    cases hq : rawIdentOf k.repr with
    | none => exact hne (by rw [ht, hq]; rfl)
    | some j =>
      rw [ht, hq] at hf
      refine hf _ ((kebabText v).map fun c => if c = '-' then '_' else c) rfl ?_
      unfold rawIdentOf rawIdent at hq
      split at hq
      · cases hq
      · cases hq
        rw [hr]
        simp
  | svg =>
    unfold kindOf at hk
    split at hk
    · cases hk
    · split at hk
      · rename_i h
        exact (by decide : ∀ n ∈ svgNames, '-' ∉ n) _ h hd
      · cases hk
  | math =>
    unfold kindOf at hk
    rw [if_pos hd] at hk
    split at hk <;> first | cases hk | (split at hk <;> cases hk)
  | html =>
    unfold kindOf at hk
    rw [if_pos hd] at hk
    split at hk <;> first | cases hk | (split at hk <;> cases hk)

theorem tag_firm (hloc : pp.Local) {tag : CTag} {x y : Toks} (h : tag.Wf pp x) (hf : tag.ast.Firm)
    (hx : ∃ t r, x = t :: r ∧ t.followsTag = true) (hy : ∃ t r, y = t :: r ∧ t.followsTag = true)
    (hd : NoDashNext y) : tag.Wf pp y := by
  cases tag with
  | name run => exact ⟨h.1.parted (parted_of_last (tag_last h hf rfl) hd), h.2⟩
  | path used p =>
    obtain ⟨t, r, rfl, ht⟩ := hx
    obtain ⟨t', r', rfl, ht'⟩ := hy
    obtain ⟨h1, h2⟩ := h
    obtain ⟨u, hu, he⟩ := pp.progress _ _ _ h2
    have := List.append_cancel_right he
    subst this
    exact ⟨h1.transport (t := t) hu (followsTag_ne ht (.inl rfl)) (followsTag_ne ht (.inr rfl)),
      hloc h2 (followsTag_ne ht (.inl rfl)) (followsTag_ne ht (.inr rfl))
        (followsTag_ne ht' (.inl rfl)) (followsTag_ne ht' (.inr rfl))⟩

/-! ### elements -/

theorem lexical_flatMap {α : Type} {f : α → Toks} {as : List α} :
    LexicalToks (as.flatMap f) ↔ ∀ a ∈ as, LexicalToks (f a) := by
  induction as with
  | nil => simp only [List.flatMap_nil, List.not_mem_nil, false_implies, implies_true, iff_true]; exact lexical_of rfl
  | cons a as ih => rw [List.flatMap_cons, lexical_append, ih]; simp

theorem Element.Firm.parts {T : Tag} {S : List Selector} {A : List Attr} {g : Option Toks} {k : Option (List Child)}
    (h : (Element.mk T S A g k).Firm) : T.Firm ∧ (∀ s ∈ S, s.Firm) ∧ (∀ a ∈ A, a.Firm) ∧
      ∀ cs, k = some cs → allFirm cs := by
  cases k <;> rw [Element.Firm] at h
  · exact ⟨h.1, h.2.1, h.2.2, by simp⟩
  · exact ⟨h.1.1, h.1.2.1, h.1.2.2, by rintro cs ⟨⟩; exact h.2⟩

/-- A child can be written, whatever follows. -/
def Writable (pp : PathParser) (c : Child) : Prop :=
  ∃ cc : CChild, cc.ast = c ∧ (∀ y, cc.Wf pp y) ∧ LexicalToks cc.toks

/-- An element can be written with the same beginning. -/
def ElemWritable (pp : PathParser) (t : TT) (e : Element) : Prop :=
  ∃ ce : CElem, ce.ast = e ∧ (∀ y, ce.Wf pp y) ∧ LexicalToks ce.toks ∧ ∃ r, ce.toks = t :: r

theorem elem_rewrite (hpp : pp.Starts) (hloc : pp.Local) {tag : CTag} {sels sels' : List CSel}
    {attrs attrs' : List CAttr} {fin fin' : CEnd} {x : Toks} (hw : (CElem.mk tag sels attrs fin).Wf pp x)
    (hf : (CElem.mk tag sels attrs fin).ast.Firm) (hl : LexicalToks (CElem.mk tag sels attrs fin).toks)
    (hs : sels'.Sublist sels) (ha : attrs'.Sublist attrs) (hfin : fin'.Wf pp) (hlf : LexicalToks fin'.toks)
    {t : TT} {r : Toks} (ht : (CElem.mk tag sels attrs fin).toks = t :: r) :
    ElemWritable pp t (CElem.mk tag sels' attrs' fin').ast := by
  rw [CElem.Wf] at hw
  obtain ⟨w1, w2, w3, w4⟩ := hw
  rw [CElem.ast] at hf
  obtain ⟨f1, f2, f3, -⟩ := hf.parts
  rw [CElem.toks] at hl
  obtain ⟨l1, hl⟩ := lexical_append.mp hl
  obtain ⟨l2, hl⟩ := lexical_append.mp hl
  obtain ⟨l3, l4⟩ := lexical_append.mp hl
  have es : ∀ a ∈ sels', ∃ x, a.Wf x := fun a h => listWf_each w2 a (hs.subset h)
  have ea : ∀ a ∈ attrs', ∃ x, a.Wf x := fun a h => listWf_each w3 a (ha.subset h)
  have fs : ∀ a ∈ sels', a.ast.Firm := fun a h => f2 _ (List.mem_map_of_mem (hs.subset h))
  have fa : ∀ a ∈ attrs', a.ast.Firm := fun a h => f3 _ (List.mem_map_of_mem (ha.subset h))
  have ff : ∀ y, Follows (fin'.toks ++ y) := fun y => fin_follows fin' y
  refine ⟨.mk tag sels' attrs' fin', rfl, fun y => ?_, ?_, ?_⟩
  · rw [CElem.Wf]
    have n1 := fin_noDashNext fin' y
    have n2 := attrs_noDashNext ea fa n1
    have a' := attrs_firm ea fa n1
    refine ⟨tag_firm hloc w1 f1 (sels_followsTag (attrs_follows w3 (fin_follows fin x)))
      (sels_followsTag (attrs_follows a' (ff y))) (sels_noDashNext n2), sels_firm es fs n2, a', hfin⟩
  · rw [CElem.toks]
    exact lexical_append.mpr ⟨l1, lexical_append.mpr ⟨lexical_flatMap.mpr fun a h =>
      lexical_flatMap.mp l2 a (hs.subset h), lexical_append.mpr ⟨lexical_flatMap.mpr fun a h =>
      lexical_flatMap.mp l3 a (ha.subset h), hlf⟩⟩⟩
  · obtain ⟨t', r', hne⟩ := CTag.toks_ne_nil hpp w1
    rw [CElem.toks, hne, List.cons_append, List.cons.injEq] at ht
    rw [CElem.toks, hne, ht.1]
    exact ⟨_, rfl⟩

theorem fin_block {fin : CEnd} {cs : List Child} (h : fin.children = some cs) :
    ∃ args d ccs, fin = .block args d ccs ∧ childrenAst ccs = cs := by
  cases fin with
  | semi s => simp [CEnd.children] at h
  | block args d ccs => simp only [CEnd.children, Option.some.injEq] at h; exact ⟨_, _, _, rfl, h⟩

theorem braces_ne (d : Braces) : d.delim ≠ .bracket := by cases d <;> simp [Braces.delim]

mutual
theorem LeftOut.writable (hpp : pp.Starts) (hloc : pp.Local) {c' c : Child} (h : LeftOut c' c) :
    ∀ (cc : CChild) (x : Toks), cc.ast = c → cc.Wf pp x → c.Firm → LexicalToks cc.toks → Writable pp c' := by
  match h with
  | .value v =>
    intro cc x ha hw hf hl
    cases cc with
    | value cv => exact ⟨.value cv, ha, fun _ => hw, hl⟩
    | elem e => cases ha
    | slot s e => cases ha
  | .elem h =>
    have ih := h.writable hpp hloc
    intro cc x ha hw hf hl
    cases cc with
    | value cv => cases ha
    | slot s e => cases ha
    | elem ce =>
      rw [CChild.ast, Child.elem.injEq] at ha
      rw [CChild.Wf] at hw
      rw [CChild.toks] at hl
      obtain ⟨hw, i, r, hi, hi'⟩ := hw
      obtain ⟨ce', h1, h2, h3, r', h4⟩ := ih ce x _ r ha hw hf hl hi
      exact ⟨.elem ce', by rw [CChild.ast, h1], fun y => by rw [CChild.Wf]; exact ⟨h2 y, i, r', h4, hi'⟩,
        by rw [CChild.toks]; exact h3⟩
  | .slot h =>
    have ih := h.writable hpp hloc
    intro cc x ha hw hf hl
    cases cc with
    | value cv => cases ha
    | elem e => cases ha
    | slot s ce =>
      rw [CChild.ast, Child.slot.injEq] at ha
      rw [CChild.Wf] at hw
      rw [CChild.toks] at hl
      obtain ⟨hw, hc⟩ := hw
      obtain ⟨t, r, hi⟩ : ∃ t r, ce.toks = t :: r := by
        cases ce with
        | mk tag sels attrs fin =>
          rw [CElem.Wf] at hw
          obtain ⟨t', r', hne⟩ := CTag.toks_ne_nil hpp hw.1
          rw [CElem.toks, hne]
          exact ⟨_, _, rfl⟩
      have hl' : LexicalToks ([.ident (plain c!"slot"), .punct ':' s] ++ ce.toks) := hl
      obtain ⟨l1, l2⟩ := lexical_append.mp hl'
      obtain ⟨ce', h1, h2, h3, r', h4⟩ := ih ce x _ r ha hw hf l2 hi
      refine ⟨.slot s ce', by rw [CChild.ast, h1], fun y => ?_, ?_⟩
      · rw [CChild.Wf]
        refine ⟨h2 y, ?_⟩
        rintro ⟨rfl, s', r'', he⟩
        rw [h4, List.cons.injEq] at he
        exact hc ⟨rfl, s', r, by rw [hi, he.1]⟩
      · rw [CChild.toks]
        exact (lexical_append (a := [.ident (plain c!"slot"), .punct ':' s])).mpr ⟨l1, h3⟩
theorem ElemLeftOut.writable (hpp : pp.Starts) (hloc : pp.Local) {e' e : Element} (h : ElemLeftOut e' e) :
    ∀ (ce : CElem) (x : Toks) (t : TT) (r : Toks), ce.ast = e → ce.Wf pp x → e.Firm → LexicalToks ce.toks →
      ce.toks = t :: r → ElemWritable pp t e' := by
  match h with
  | .void hs ha =>
    rintro ⟨tag, sels, attrs, fin⟩ x t r he hw hf hl ht
    rw [← he] at hf
    rw [CElem.ast, Element.mk.injEq] at he
    obtain ⟨rfl, rfl, rfl, rfl, rfl⟩ := he
    obtain ⟨sels', hs', rfl⟩ := List.sublist_map_iff.mp hs
    obtain ⟨attrs', ha', rfl⟩ := List.sublist_map_iff.mp ha
    exact elem_rewrite hpp hloc hw hf hl hs' ha' (fin' := .semi .alone) (by rw [CEnd.Wf]; trivial)
      (lexical_of rfl) ht
  | .block hs ha hg hc =>
    have ih := hc.writable hpp hloc
    rintro ⟨tag, sels, attrs, fin⟩ x t r he hw hf hl ht
    rw [← he] at hf
    have hf' := hf
    rw [CElem.ast, Element.mk.injEq] at he
    obtain ⟨rfl, rfl, rfl, rfl, hk⟩ := he
    obtain ⟨sels', hs', rfl⟩ := List.sublist_map_iff.mp hs
    obtain ⟨attrs', ha', rfl⟩ := List.sublist_map_iff.mp ha
    obtain ⟨args, d, ccs, rfl, rfl⟩ := fin_block hk
    rw [CElem.ast] at hf'
    have fc := hf'.parts.2.2.2 _ hk
    have hl' := hl
    have hw' := hw
    rw [CElem.toks] at hl'
    rw [CElem.Wf] at hw'
    have lf : LexicalToks (argsToks args ++ [.group d.delim (childrenToks ccs)]) := hl'.append.append.append
    obtain ⟨la, lg⟩ := lexical_append.mp lf
    have wf := hw'.2.2.2
    rw [CEnd.Wf] at wf
    obtain ⟨ccs', h1, h2, h3⟩ := ih ccs [] rfl wf.2 fc ((lexical_group (braces_ne d)).mp lg).1
    rw [CEnd.args] at hg
    have lg' : LexicalToks [.group d.delim (childrenToks ccs')] :=
      (lexical_group (braces_ne d)).mpr ⟨h3, lexical_of rfl⟩
    rcases hg with rfl | rfl
    · have := elem_rewrite hpp hloc hw hf hl hs' ha' (fin' := .block none d ccs')
        (by rw [CEnd.Wf]; exact ⟨(fun s a s' h => nomatch h), h2 []⟩) (by rw [CEnd.toks]; exact lg') ht
      rw [CElem.ast, CEnd.args, CEnd.children, h1] at this
      exact this
    · have := elem_rewrite hpp hloc hw hf hl hs' ha' (fin' := .block args d ccs')
        (by rw [CEnd.Wf]; exact ⟨wf.1, h2 []⟩) (by rw [CEnd.toks]; exact lexical_append.mpr ⟨la, lg'⟩) ht
      rw [CElem.ast, CEnd.args, CEnd.children, h1] at this
      exact this
theorem AllLeftOut.writable (hpp : pp.Starts) (hloc : pp.Local) {cs' cs : List Child} (h : AllLeftOut cs' cs) :
    ∀ (ccs : List CChild) (x : Toks), childrenAst ccs = cs → childrenWf pp ccs x → allFirm cs →
      LexicalToks (childrenToks ccs) → ∃ ccs', childrenAst ccs' = cs' ∧ (∀ y, childrenWf pp ccs' y) ∧
        LexicalToks (childrenToks ccs') := by
  match h with
  | .nil => exact fun _ _ _ _ _ _ => ⟨[], rfl, fun _ => trivial, lexical_of rfl⟩
  | .without h =>
    have ih := h.writable hpp hloc
    intro ccs x ha hw hf hl
    cases ccs with
    | nil => cases ha
    | cons cc ccs =>
      rw [childrenAst, List.cons.injEq] at ha
      rw [childrenWf] at hw
      rw [allFirm] at hf
      rw [childrenToks] at hl
      exact ih ccs x ha.2 hw.2 hf.2 hl.append
  | .both h1 h2 =>
    have ih1 := h1.writable hpp hloc
    have ih2 := h2.writable hpp hloc
    intro ccs x ha hw hf hl
    cases ccs with
    | nil => cases ha
    | cons cc ccs =>
      rw [childrenAst, List.cons.injEq] at ha
      rw [childrenWf] at hw
      rw [allFirm] at hf
      rw [childrenToks] at hl
      obtain ⟨l1, l2⟩ := lexical_append.mp hl
      obtain ⟨cc', a1, w1, m1⟩ := ih1 cc _ ha.1 hw.1 hf.1 l1
      obtain ⟨ccs', a2, w2, m2⟩ := ih2 ccs x ha.2 hw.2 hf.2 l2
      exact ⟨cc' :: ccs', by rw [childrenAst, a1, a2], fun y => by rw [childrenWf]; exact ⟨w1 _, w2 y⟩,
        by rw [childrenToks]; exact lexical_append.mpr ⟨m1, m2⟩⟩
end

/-! ### threads are left when all the rest is left out -/

theorem allLeftOut_none : ∀ cs : List Child, AllLeftOut [] cs
  | [] => .nil
  | _ :: cs => .without (allLeftOut_none cs)

theorem allLeftOut_single {c c' : Child} (h : LeftOut c' c) : ∀ {cs : List Child}, c ∈ cs → AllLeftOut [c'] cs
  | [], hc => nomatch hc
  | d :: cs, hc => by
    rcases List.mem_cons.mp hc with rfl | hc
    · exact .both h (allLeftOut_none cs)
    · exact .without (allLeftOut_single h hc)

mutual
theorem Thread.leftOut {t c : Child} (h : Thread t c) : LeftOut t c := by
  match h with
  | .value v => exact .value v
  | .elem h => exact .elem h.leftOut
  | .slot h => exact .slot h.leftOut
theorem ElemThread.leftOut {t e : Element} (h : ElemThread t e) : ElemLeftOut t e := by
  match h with
  | .tag => exact .void (List.nil_sublist _) (List.nil_sublist _)
  | .sel h => exact .void (List.singleton_sublist.mpr h) (List.nil_sublist _)
  | .attr h => exact .void (List.nil_sublist _) (List.singleton_sublist.mpr h)
  | .child h ht => exact .block (List.nil_sublist _) (List.nil_sublist _) (.inl rfl) (allLeftOut_single ht.leftOut h)
end

end Mview
