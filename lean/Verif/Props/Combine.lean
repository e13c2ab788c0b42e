import Verif.Lemmas.Combine
/-
C73: the parts of an element are read the same whatever they are combined with.
-/

-- the linter does not see variables used inside `q!"..."`
set_option linter.unusedVariables false

namespace Mview
open Lex

variable {pp : PathParser} {t s a b e ts : Toks} {T : Tag} {S S' : List Selector} {A B : List Attr}
  {g : Option Toks} {k : Option (List Child)}

/-- C73.  A tag, selectors, attributes and an end that are each accepted on their own can be written one after
the other, unless a name would grow: the element has exactly these parts. -/
theorem parts_combine (hpp : pp.Starts) (hloc : pp.Local) (hl : LexicalToks (t ++ (s ++ (a ++ e))))
    (ht : TagAlone pp t T) (hs : SelsAlone pp s S) (ha : AttrsAlone pp a A) (he : EndAlone pp e g k)
    (h1 : ¬ Merges t (s ++ (a ++ e))) (h2 : ¬ Merges s (a ++ e)) :
    Parses pp (t ++ (s ++ (a ++ e))) [.elem (.mk T S A g k)] := by
  obtain ⟨lt, hl'⟩ := lexical_append.mp hl
  obtain ⟨ls, hl'⟩ := lexical_append.mp hl'
  obtain ⟨la, le⟩ := lexical_append.mp hl'
  obtain ⟨tag, wt, rfl, at', i, r, hi, hi'⟩ := (tag_alone_iff hpp (lexical_semi lt)).mp ht
  obtain ⟨sels, ws, rfl, as⟩ := (sels_alone_iff hpp (lexical_div (lexical_semi ls))).mp hs
  obtain ⟨hd, attrs, wa, rfl, aa⟩ := (attrs_alone_iff hpp (lexical_div (lexical_semi la))).mp ha
  obtain ⟨fin, wf, rfl, ag, ak⟩ := (end_alone_iff hpp (lexical_div le)).mp he
  refine (parses_elem_iff hpp hl).mpr ⟨tag, sels, attrs, fin, ?_, ⟨i, _, by rw [hi]; rfl, hi'⟩, rfl, at', as, aa,
    ag, ak⟩
  rw [CElem.Wf]
  rw [← List.append_nil fin.toks] at h1 h2
  have wa' := attrs_parted wa (parted_fin _ fin [])
  exact ⟨tag_parted hloc (parted_sels wa hd h1) followsTag_semi
      (sels_followsTag (attrs_follows wa' (fin_follows fin []))) wt,
    sels_parted ws (parted_attrs wa hd h2), wa', wf⟩

/-- C73.  The same for a slot. -/
theorem slot_combine (hpp : pp.Starts) (hloc : pp.Local) (hl : LexicalToks (t ++ (s ++ (a ++ e))))
    (ht : TagAlone pp t T) (hs : SelsAlone pp s S) (ha : AttrsAlone pp a A) (he : EndAlone pp e g k)
    (h1 : ¬ Merges t (s ++ (a ++ e))) (h2 : ¬ Merges s (a ++ e)) :
    Parses pp (t!"slot:" ++ (t ++ (s ++ (a ++ e)))) [.slot (.mk T S A g k)] :=
  parses_slot hpp (lexical_append.mpr ⟨lexical_of rfl, hl⟩) (parts_combine hpp hloc hl ht hs ha he h1 h2)

/-- C73.  Every accepted element is made up like that.  Only attributes that start with a dash cannot be written
after `div`, whose name they would become part of. -/
theorem parts_split (hpp : pp.Starts) (hloc : pp.Local) (hl : LexicalToks ts)
    (h : Parses pp ts [.elem (.mk T S A g k)]) : ∃ t s a e, ts = t ++ (s ++ (a ++ e)) ∧
      TagAlone pp t T ∧ SelsAlone pp s S ∧ (NoDash a → AttrsAlone pp a A) ∧ EndAlone pp e g k ∧
      ¬ Merges s (a ++ e) := by
  obtain ⟨tag, sels, attrs, fin, hw, hi, rfl, h1, h2, h3, h4, h5⟩ := (parses_elem_iff hpp hl).mp h
  obtain ⟨lt, hl'⟩ := lexical_append.mp hl
  obtain ⟨ls, hl'⟩ := lexical_append.mp hl'
  obtain ⟨la, le⟩ := lexical_append.mp hl'
  simp only [CElem.Wf, List.append_nil] at hw
  obtain ⟨w1, w2, w3, w4⟩ := hw
  have hff : Follows fin.toks := by simpa using fin_follows fin []
  refine ⟨_, _, _, _, rfl, (tag_alone_iff hpp (lexical_semi lt)).mpr ⟨tag, ?_, rfl, h1, ?_⟩,
    (sels_alone_iff hpp (lexical_div (lexical_semi ls))).mpr ⟨sels, sels_parted w2 (parted_semi _), rfl, h2⟩,
    fun hd => (attrs_alone_iff hpp (lexical_div (lexical_semi la))).mpr
      ⟨hd, attrs, attrs_parted w3 (parted_semi _), rfl, h3⟩,
    (end_alone_iff hpp (lexical_div le)).mpr ⟨fin, w4, rfl, h4, h5⟩, sels_not_merges w2⟩
  · exact tag_parted hloc (parted_semi _) (sels_followsTag (attrs_follows w3 hff)) followsTag_semi w1
  · obtain ⟨t', r', hne⟩ := CTag.toks_ne_nil hpp w1
    obtain ⟨i, r, he, hi⟩ := hi
    rw [hne, List.cons_append, List.cons.injEq] at he
    exact ⟨i, r', by rw [hne, he.1], hi⟩

/-- C73.  Attributes can be written one after the other, unless a name would grow. -/
theorem attrs_combine (hpp : pp.Starts) (hl : LexicalToks (a ++ b)) (ha : AttrsAlone pp a A)
    (hb : AttrsAlone pp b B) (hm : ¬ Merges a b) : AttrsAlone pp (a ++ b) (A ++ B) := by
  obtain ⟨la, lb⟩ := lexical_append.mp hl
  obtain ⟨hd, as, wa, rfl, aa⟩ := (attrs_alone_iff hpp (lexical_div (lexical_semi la))).mp ha
  obtain ⟨hd', bs, wb, rfl, ab⟩ := (attrs_alone_iff hpp (lexical_div (lexical_semi lb))).mp hb
  refine (attrs_alone_iff hpp (lexical_div (lexical_semi hl))).mpr ⟨?_, as ++ bs, listWf_append.mpr
    ⟨attrs_parted wa (parted_attrs_semi wb hd' hm), wb⟩, by rw [List.flatMap_append], by rw [List.map_append, aa, ab]⟩
  cases as with
  | nil => exact hd'
  | cons c as =>
    obtain ⟨t', w, he, -⟩ := CAttr.follows wa.1
    intro s r hr
    rw [List.flatMap_cons, he, List.cons_append, List.cons_append, List.cons.injEq] at hr
    exact hd s (w ++ as.flatMap CAttr.toks) (by rw [List.flatMap_cons, he, hr.1, List.cons_append])

/-- C73.  And they come apart wherever one ends. -/
theorem attrs_come_apart (hpp : pp.Starts) (hl : LexicalToks ts) (h : AttrsAlone pp ts (A ++ B)) :
    ∃ a b, ts = a ++ b ∧ AttrsAlone pp a A ∧ (NoDash b → AttrsAlone pp b B) ∧ ¬ Merges a b := by
  obtain ⟨hd, cs, wc, rfl, ac⟩ := (attrs_alone_iff hpp (lexical_div (lexical_semi hl))).mp h
  obtain ⟨as, bs, rfl, h1, h2⟩ := List.map_eq_append_iff.mp ac
  rw [List.flatMap_append] at hl hd ⊢
  obtain ⟨la, lb⟩ := lexical_append.mp hl
  obtain ⟨wa, wb⟩ := listWf_append.mp wc
  refine ⟨_, _, rfl, (attrs_alone_iff hpp (lexical_div (lexical_semi la))).mpr
    ⟨hd.left, as, attrs_parted wa (parted_semi _), rfl, h1⟩, fun hd' =>
    (attrs_alone_iff hpp (lexical_div (lexical_semi lb))).mpr ⟨hd', bs, wb, rfl, h2⟩, ?_⟩
  rintro ⟨u, s, i, v, h3, h4⟩
  exact attrs_not_merges wa ⟨u, s, i, v ++ t!";", h3, by rw [h4]; rfl⟩

/-- C73.  Selectors can always be written one after the other. -/
theorem sels_combine (hpp : pp.Starts) (hl : LexicalToks (s ++ t)) (hs : SelsAlone pp s S)
    (ht : SelsAlone pp t S') : SelsAlone pp (s ++ t) (S ++ S') := by
  obtain ⟨la, lb⟩ := lexical_append.mp hl
  obtain ⟨as, wa, rfl, aa⟩ := (sels_alone_iff hpp (lexical_div (lexical_semi la))).mp hs
  obtain ⟨bs, wb, rfl, ab⟩ := (sels_alone_iff hpp (lexical_div (lexical_semi lb))).mp ht
  exact (sels_alone_iff hpp (lexical_div (lexical_semi hl))).mpr ⟨as ++ bs, listWf_append.mpr
    ⟨sels_parted wa (parted_sels_semi bs), wb⟩, by rw [List.flatMap_append], by rw [List.map_append, aa, ab]⟩

/-- C73.  And they come apart wherever one ends. -/
theorem sels_come_apart (hpp : pp.Starts) (hl : LexicalToks ts) (h : SelsAlone pp ts (S ++ S')) :
    ∃ s t, ts = s ++ t ∧ SelsAlone pp s S ∧ SelsAlone pp t S' := by
  obtain ⟨cs, wc, rfl, ac⟩ := (sels_alone_iff hpp (lexical_div (lexical_semi hl))).mp h
  obtain ⟨as, bs, rfl, h1, h2⟩ := List.map_eq_append_iff.mp ac
  rw [List.flatMap_append] at hl ⊢
  obtain ⟨la, lb⟩ := lexical_append.mp hl
  obtain ⟨wa, wb⟩ := listWf_append.mp wc
  exact ⟨_, _, rfl, (sels_alone_iff hpp (lexical_div (lexical_semi la))).mpr
    ⟨as, sels_parted wa (parted_semi _), rfl, h1⟩,
    (sels_alone_iff hpp (lexical_div (lexical_semi lb))).mpr ⟨bs, wb, rfl, h2⟩⟩

/-! ### examples -/

/-- a component with a class, an attribute, a directive and children -/
def exTag : Toks := t!"Button"
def exSels : Toks := t!".big #the-one"
def exAttrs : Toks := t!"disabled data-n=3 on:click={go}"
def exEnd : Toks := t!"|x| { \"a\" }"

theorem exTag_alone : TagAlone simplePaths exTag
    (.component ⟨false, [⟨plain c!"Button", .none⟩]⟩) := rfl

set_option maxRecDepth 4000 in
theorem exSels_alone : SelsAlone simplePaths exSels
    [.cls ⟨c!"big", 1⟩, .id ⟨c!"the-one", 2⟩] := rfl

set_option maxRecDepth 4000 in
theorem exAttrs_alone : AttrsAlone simplePaths exAttrs
    [.kv ⟨⟨c!"disabled", 1⟩, .lit (.bool true)⟩, .kv ⟨⟨c!"data-n", 2⟩, .lit (.tok (.int c!"3"))⟩,
     .directive ⟨plain c!"on", .kebab ⟨c!"click", 1⟩, none, some (.block t!"go")⟩] := rfl

set_option maxRecDepth 4000 in
theorem exEnd_alone : EndAlone simplePaths exEnd (some t!"|x|")
    (some [.value (.lit (.tok (.str c!"a")))]) := rfl

set_option maxRecDepth 4000 in
/-- C73.  `Button .big #the-one disabled data-n=3 on:click={go} |x| { "a" }` -/
example : Parses simplePaths (exTag ++ (exSels ++ (exAttrs ++ exEnd)))
    [.elem (.mk (.component ⟨false, [⟨plain c!"Button", .none⟩]⟩) [.cls ⟨c!"big", 1⟩, .id ⟨c!"the-one", 2⟩]
      [.kv ⟨⟨c!"disabled", 1⟩, .lit (.bool true)⟩, .kv ⟨⟨c!"data-n", 2⟩, .lit (.tok (.int c!"3"))⟩,
       .directive ⟨plain c!"on", .kebab ⟨c!"click", 1⟩, none, some (.block t!"go")⟩]
      (some t!"|x|") (some [.value (.lit (.tok (.str c!"a")))]))] := by
  refine parts_combine simplePaths_starts simplePaths_local (lexical_of rfl) exTag_alone exSels_alone exAttrs_alone
    exEnd_alone ?_ ?_
  · rintro ⟨u, s, i, v, h, h'⟩; cases h'
  · rintro ⟨u, s, i, v, h, h'⟩
    have h := congrArg List.getLast? h
    rw [List.getLast?_concat] at h
    cases h

/-- C73.  Where a name would grow it does: `div .a- b ;` has one class, no attribute. -/
example : SelsAlone simplePaths t!".a-" [.cls ⟨c!"a-", 1⟩] ∧
    AttrsAlone simplePaths t!"b" [.kv ⟨⟨c!"b", 1⟩, .lit (.bool true)⟩] ∧ Merges t!".a-" t!"b" ∧
    Parses simplePaths (t!"div" ++ (t!".a-" ++ (t!"b" ++ t!";")))
      [.elem (.mk divTag [.cls ⟨c!"a-b", 2⟩] [] none none)] :=
  ⟨rfl, rfl, ⟨t!".a", .alone, plain c!"b", [], rfl, rfl⟩, rfl⟩

/-- C73.  An attribute whose name starts with a dash is possible after a path, but not after `div`. -/
example : Parses simplePaths t!"a::B -x;" [.elem (.mk (.component ⟨false, [⟨plain c!"a", .none⟩, ⟨plain c!"B", .none⟩]⟩)
      [] [.kv ⟨⟨c!"-x", 2⟩, .lit (.bool true)⟩] none none)] ∧
    ¬ ∃ A, AttrsAlone simplePaths t!"-x" A := by
  refine ⟨rfl, ?_⟩
  rintro ⟨A, h⟩
  exact ((attrs_alone_iff simplePaths_starts (lexical_of rfl)).mp h).1 _ _ rfl

end Mview
