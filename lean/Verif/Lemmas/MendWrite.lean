import Verif.Spec.Mend
import Verif.Lemmas.Assemble
/-
How to write a view without what is too much.
-/

namespace Mview
open Lex

variable {pp : PathParser}

theorem noDash_less {m : Option (Spacing × Ident)} {v : Option (Spacing × CVal)} :
    NoDashNext (modifierToks m ++ eqToks v ++ []) := by
  intro t ht
  match m, v with
  | none, none => cases ht
  | none, some (s, v) => cases ht; rfl
  | some (s, i), _ => cases ht; rfl

/-- An attribute can be written. -/
def AttrWritten (a : Attr) : Prop := ∃ ca : CAttr, ca.ast = a ∧ (∃ x, ca.Wf x) ∧ LexicalToks ca.toks

/-- A directive can also be written without its modifier or value. -/
theorem attr_less {d : Ident} {k : KebabOrStr} {m m' : Option Ident} {v v' : Option Value}
    (hf : (Attr.directive ⟨d, k, m, v⟩).Firm) (hm : m' = m ∨ m' = none) (hv : v' = v ∨ v' = none)
    (h : AttrWritten (.directive ⟨d, k, m, v⟩)) : AttrWritten (.directive ⟨d, k, m', v'⟩) := by
  obtain ⟨ca, ha, ⟨x, hw⟩, hl⟩ := h
  cases ca with
  | bare n => cases ha
  | short n => cases ha
  | full n s v => cases ha
  | spread s e => cases ha
  | dirShort cd s name cm =>
    cases ha
    obtain ⟨h1, h2⟩ := hw
    have lg : LexicalToks ([.ident d, .punct ':' s] ++ ([.group .brace name] ++ modifierToks cm)) := hl
    obtain ⟨l1, l2⟩ := lexical_append.mp lg
    obtain ⟨l2, l3⟩ := lexical_append.mp l2
    have hmod : ∃ cm' : Option (Spacing × Ident), cm'.map Prod.snd = m' ∧ LexicalToks (modifierToks cm') := by
      rcases hm with rfl | rfl
      · exact ⟨cm, rfl, l3⟩
      · exact ⟨none, rfl, lexical_of rfl⟩
    obtain ⟨cm', rfl, lm⟩ := hmod
    rcases hv with rfl | rfl
    · refine ⟨.dirShort d s name cm', rfl, ⟨[], h1, h2⟩, ?_⟩
      exact (lexical_append (a := [.ident d, .punct ':' s])).mpr
        ⟨l1, (lexical_append (a := [.group .brace name])).mpr ⟨l2, lm⟩⟩
    · refine ⟨.dir d s (.name name) cm' none, rfl, ⟨[], ?_⟩, ?_⟩
      · exact NameEnds.firm h1 (hf _ rfl) noDash_less
      · exact (lexical_append (a := [.ident d, .punct ':' s])).mpr
          ⟨l1, lexical_append.mpr ⟨lexical_append.mpr ⟨((lexical_group (by simp)).mp l2).1, lm⟩,
            lexical_of rfl⟩⟩
  | dir cd s key cm cv =>
    cases ha
    have lg : LexicalToks ([.ident d, .punct ':' s] ++ (key.toks ++ modifierToks cm ++ eqToks cv)) := hl
    obtain ⟨l1, l2⟩ := lexical_append.mp lg
    obtain ⟨l2, l3⟩ := lexical_append.mp l2
    have hmod : ∃ cm' : Option (Spacing × Ident), cm'.map Prod.snd = m' ∧ LexicalToks (modifierToks cm') := by
      rcases hm with rfl | rfl
      · exact ⟨cm, rfl, (lexical_append.mp l2).2⟩
      · exact ⟨none, rfl, lexical_of rfl⟩
    obtain ⟨cm', rfl, lm⟩ := hmod
    have hval : ∃ cv' : Option (Spacing × CVal), cv'.map (·.2.ast) = v' ∧ LexicalToks (eqToks cv') := by
      rcases hv with rfl | rfl
      · exact ⟨cv, rfl, l3⟩
      · exact ⟨none, rfl, lexical_of rfl⟩
    obtain ⟨cv', rfl, l4⟩ := hval
    refine ⟨.dir d s key cm' cv', rfl, ⟨[], ?_⟩, ?_⟩
    · cases key with
      | str t => trivial
      | name run => exact NameEnds.firm hw (hf _ rfl) noDash_less
    · exact (lexical_append (a := [.ident d, .punct ':' s])).mpr
        ⟨l1, lexical_append.mpr ⟨lexical_append.mpr ⟨(lexical_append.mp l2).1, lm⟩, l4⟩⟩

theorem mendEvent_or (m : Option Ident) : mendEvent m = m ∨ mendEvent m = none := by
  unfold mendEvent
  split <;> simp

theorem attr_mended {b p : Bool} {a a' : Attr} (hf : a.Firm) (h : AttrWritten a)
    (hm : (if b then Attr.mendOnSlot else if p then Attr.mendOnComponent else Attr.mendOnElement) a = some a') :
    AttrWritten a' ∧ a'.Firm := by
  cases a with
  | kv a => cases b <;> cases p <;> cases hm <;> exact ⟨h, hf⟩
  | spread e => cases b <;> cases p <;> cases hm <;> exact ⟨h, hf⟩
  | directive d =>
    obtain ⟨d, k, m, v⟩ := d
    have key : ∃ m' v', a' = .directive ⟨d, k, m', v'⟩ ∧ (m' = m ∨ m' = none) ∧ (v' = v ∨ v' = none) := by
      cases b
      · cases p
        · simp only [Bool.false_eq_true, if_false, Attr.mendOnElement, Directive.mendOnElement] at hm
          split at hm
          · cases hm; exact ⟨_, _, rfl, mendEvent_or m, .inl rfl⟩
          · split at hm
            · cases hm; exact ⟨_, _, rfl, .inr rfl, .inl rfl⟩
            · cases hm
        · simp only [Bool.false_eq_true, if_false, if_true, Attr.mendOnComponent, Directive.mendOnComponent] at hm
          split at hm
          · cases hm; exact ⟨_, _, rfl, mendEvent_or m, .inl rfl⟩
          · split at hm
            · cases hm; exact ⟨_, _, rfl, .inr rfl, .inl rfl⟩
            · split at hm
              · cases hm; exact ⟨_, _, rfl, .inr rfl, .inr rfl⟩
              · split at hm
                · cases hm; exact ⟨_, _, rfl, .inl rfl, .inl rfl⟩
                · cases hm
      · simp only [if_true, Attr.mendOnSlot] at hm
        split at hm
        · cases hm; exact ⟨_, _, rfl, .inr rfl, .inr rfl⟩
        · cases hm
    obtain ⟨m', v', rfl, h1, h2⟩ := key
    exact ⟨attr_less hf h1 h2 h, hf⟩

/-- The attributes that are left. -/
theorem attrs_mended {b p : Bool} {A : List Attr} (hf : ∀ a ∈ A, a.Firm) (h : ∀ a ∈ A, AttrWritten a) :
    (∀ a ∈ mendAttrs b p A, AttrWritten a) ∧ ∀ a ∈ mendAttrs b p A, a.Firm := by
  have : ∀ a ∈ mendAttrs b p A, AttrWritten a ∧ a.Firm := by
    intro a ha
    obtain ⟨a₀, h0, h1⟩ := List.mem_filterMap.mp ha
    exact attr_mended (hf _ h0) (h _ h0) h1
  exact ⟨fun a ha => (this a ha).1, fun a ha => (this a ha).2⟩

theorem elem_mended (hpp : pp.Starts) (hloc : pp.Local) {b : Bool} {tag : CTag} {sels : List CSel}
    {attrs : List CAttr} {fin fin' : CEnd} {x : Toks} (hw : (CElem.mk tag sels attrs fin).Wf pp x)
    (hf : (CElem.mk tag sels attrs fin).ast.Firm) (hl : LexicalToks (CElem.mk tag sels attrs fin).toks)
    (hfin : fin'.Wf pp) (hlf : LexicalToks fin'.toks)
    {t : TT} {r : Toks} (ht : (CElem.mk tag sels attrs fin).toks = t :: r) :
    ElemWritable pp t (.mk tag.ast (if b then [] else sels.map CSel.ast)
      (mendAttrs b tag.ast.isPath (attrs.map CAttr.ast)) fin'.args fin'.children) := by
  rw [CElem.Wf] at hw
  obtain ⟨w1, w2, w3, w4⟩ := hw
  rw [CElem.ast] at hf
  obtain ⟨f1, f2, f3, -⟩ := hf.parts
  rw [CElem.toks] at hl ht
  obtain ⟨l1, hl⟩ := lexical_append.mp hl
  obtain ⟨l2, hl⟩ := lexical_append.mp hl
  obtain ⟨l3, l4⟩ := lexical_append.mp hl
  obtain ⟨t', r', hne⟩ := CTag.toks_ne_nil hpp w1
  have ht' : t' = t := by
    rw [hne, List.cons_append, List.cons.injEq] at ht
    exact ht.1
  subst ht'
  have wa : ∀ a ∈ attrs.map CAttr.ast, AttrWritten a := by
    intro a ha
    obtain ⟨ca, hc, rfl⟩ := List.mem_map.mp ha
    exact ⟨ca, rfl, listWf_each w3 ca hc, lexical_flatMap.mp l3 ca hc⟩
  obtain ⟨h1, h2⟩ := attrs_mended (b := b) (p := tag.ast.isPath) f3 wa
  obtain ⟨attrs', ha', ea⟩ := collect h1
  obtain ⟨sels', hs', es⟩ : ∃ sels' : List CSel, sels'.map CSel.ast = (if b then [] else sels.map CSel.ast) ∧
      ∀ a ∈ sels', a ∈ sels := by
    cases b
    · exact ⟨sels, rfl, fun _ h => h⟩
    · exact ⟨[], rfl, fun _ h => nomatch h⟩
  have := elem_build hpp hloc (sels := sels') (attrs := attrs') (fin := fin') w1
    (sels_followsTag (attrs_follows w3 (fin_follows fin x))) f1 l1
    (fun a h => ⟨listWf_each w2 a (es a h), lexical_flatMap.mp l2 a (es a h)⟩)
    (fun a h => f2 _ (List.mem_map_of_mem (es a h))) ea
    (fun a h => h2 _ (by rw [← ha']; exact List.mem_map_of_mem h)) hfin hlf hne
  rw [CElem.ast, hs', ha'] at this
  exact this

mutual
theorem mended_elem (hpp : pp.Starts) (hloc : pp.Local) (b : Bool) : (e : Element) →
    ∀ (ce : CElem) (x : Toks) (t : TT) (r : Toks), ce.ast = e → ce.Wf pp x → e.Firm → LexicalToks ce.toks →
      ce.toks = t :: r → ElemWritable pp t (e.mend b)
  | .mk T S A g none => by
    rintro ⟨tag, sels, attrs, fin⟩ x t r he hw hf hl ht
    rw [← he] at hf
    rw [CElem.ast, Element.mk.injEq] at he
    obtain ⟨rfl, rfl, rfl, rfl, hk⟩ := he
    cases fin with
    | block args d ccs => cases hk
    | semi s =>
      have := elem_mended hpp hloc (b := b) hw hf hl (fin' := .semi .alone) (by rw [CEnd.Wf]; trivial) (lexical_of rfl) ht
      rw [Element.mend]
      exact this
  | .mk T S A g (some cs) => by
    have ih := mended_all hpp hloc cs
    rintro ⟨tag, sels, attrs, fin⟩ x t r he hw hf hl ht
    rw [← he] at hf
    have hf' := hf
    rw [CElem.ast, Element.mk.injEq] at he
    obtain ⟨rfl, rfl, rfl, rfl, hk⟩ := he
    obtain ⟨args, d, ccs, rfl, hc⟩ := fin_block hk
    rw [CElem.ast] at hf'
    have fc := hf'.parts.2.2.2 _ hk
    have hl' := hl
    have hw' := hw
    rw [CElem.toks] at hl'
    rw [CElem.Wf] at hw'
    have lf : LexicalToks (argsToks args ++ [.group d.delim (childrenToks ccs)]) := hl'.append.append.append
    obtain ⟨la, lg⟩ := lexical_append.mp lf
    have wf := hw'.2.2.2
    rw [CEnd.Wf] at wf
    obtain ⟨ccs', h1, h2, h3⟩ := ih ccs [] hc wf.2 fc ((lexical_group (braces_ne d)).mp lg).1
    have lg' : LexicalToks [.group d.delim (childrenToks ccs')] :=
      (lexical_group (braces_ne d)).mpr ⟨h3, lexical_of rfl⟩
    have := elem_mended hpp hloc (b := b) hw hf hl (fin' := .block args d ccs')
      (by rw [CEnd.Wf]; exact ⟨wf.1, h2 []⟩) (by rw [CEnd.toks]; exact lexical_append.mpr ⟨la, lg'⟩) ht
    rw [CEnd.args, CEnd.children, h1] at this
    rw [Element.mend, CEnd.args]
    exact this
theorem mended_all (hpp : pp.Starts) (hloc : pp.Local) : (cs : List Child) →
    ∀ (ccs : List CChild) (x : Toks), childrenAst ccs = cs → childrenWf pp ccs x → allFirm cs →
      LexicalToks (childrenToks ccs) → ∃ ccs', childrenAst ccs' = mend cs ∧ (∀ y, childrenWf pp ccs' y) ∧
        LexicalToks (childrenToks ccs')
  | [] => fun _ _ _ _ _ _ => ⟨[], rfl, fun _ => trivial, lexical_of rfl⟩
  | .value v :: cs => by
    have ih := mended_all hpp hloc cs
    intro ccs x ha hw hf hl
    match ccs with
    | .value cv :: ccs =>
      rw [childrenAst, List.cons.injEq] at ha
      rw [childrenWf] at hw
      rw [allFirm] at hf
      rw [childrenToks] at hl
      obtain ⟨l1, l2⟩ := lexical_append.mp hl
      obtain ⟨ccs', a2, w2, m2⟩ := ih ccs x ha.2 hw.2 hf.2 l2
      exact ⟨.value cv :: ccs', by rw [childrenAst, ha.1, a2, mend], fun y => by rw [childrenWf]; exact ⟨hw.1, w2 y⟩,
        by rw [childrenToks]; exact lexical_append.mpr ⟨l1, m2⟩⟩
  | .elem e :: cs => by
    have ihe := mended_elem hpp hloc false e
    have ih := mended_all hpp hloc cs
    intro ccs x ha hw hf hl
    match ccs with
    | .elem ce :: ccs =>
      rw [childrenAst, List.cons.injEq, CChild.ast, Child.elem.injEq] at ha
      rw [childrenWf, CChild.Wf] at hw
      rw [allFirm] at hf
      rw [childrenToks, CChild.toks] at hl
      obtain ⟨l1, l2⟩ := lexical_append.mp hl
      obtain ⟨ccs', a2, w2, m2⟩ := ih ccs x ha.2 hw.2 hf.2 l2
      obtain ⟨⟨hw1, i, r, hi, hi'⟩, -⟩ := hw
      obtain ⟨ce', h1, h2, h3, r', h4⟩ := ihe ce _ _ r ha.1 hw1 hf.1 l1 hi
      exact ⟨.elem ce' :: ccs', by rw [childrenAst, CChild.ast, h1, a2, mend],
        fun y => by rw [childrenWf, CChild.Wf]; exact ⟨⟨h2 _, i, r', h4, hi'⟩, w2 y⟩,
        by rw [childrenToks, CChild.toks]; exact lexical_append.mpr ⟨h3, m2⟩⟩
  | .slot e :: cs => by
    have ihe := mended_elem hpp hloc true e
    have ih := mended_all hpp hloc cs
    intro ccs x ha hw hf hl
    match ccs with
    | .slot s ce :: ccs =>
      rw [childrenAst, List.cons.injEq, CChild.ast, Child.slot.injEq] at ha
      rw [childrenWf, CChild.Wf] at hw
      rw [allFirm] at hf
      rw [childrenToks, CChild.toks] at hl
      obtain ⟨l0, l2⟩ := lexical_append.mp hl
      obtain ⟨ccs', a2, w2, m2⟩ := ih ccs x ha.2 hw.2 hf.2 l2
      rw [mend]
      split
      · exact ⟨ccs', a2, w2, m2⟩
      obtain ⟨⟨hw1, hc⟩, -⟩ := hw
      obtain ⟨t, r, hi⟩ : ∃ t r, ce.toks = t :: r := by
        cases ce with
        | mk tag sels attrs fin =>
          rw [CElem.Wf] at hw1
          obtain ⟨t', r', hne⟩ := CTag.toks_ne_nil hpp hw1.1
          rw [CElem.toks, hne]
          exact ⟨_, _, rfl⟩
      have hl' : LexicalToks ([.ident (plain c!"slot"), .punct ':' s] ++ ce.toks) := l0
      obtain ⟨l1, l2⟩ := lexical_append.mp hl'
      obtain ⟨ce', h1, h2, h3, r', h4⟩ := ihe ce _ _ r ha.1 hw1 hf.1 l2 hi
      refine ⟨.slot s ce' :: ccs', by rw [childrenAst, CChild.ast, h1, a2], fun y => ?_, ?_⟩
      · rw [childrenWf, CChild.Wf]
        refine ⟨⟨h2 _, ?_⟩, w2 y⟩
        rintro ⟨rfl, s', r'', he⟩
        rw [h4, List.cons.injEq] at he
        exact hc ⟨rfl, s', r, by rw [hi, he.1]⟩
      · rw [childrenToks, CChild.toks]
        exact lexical_append.mpr ⟨(lexical_append (a := [.ident (plain c!"slot"), .punct ':' s])).mpr ⟨l1, h3⟩, m2⟩
end

/-- A view that can be written can be written without what is too much. -/
theorem mend_written (hpp : pp.Starts) (hloc : pp.Local) {ts : Toks} {cs : List Child} (hl : LexicalToks ts)
    (hp : Parses pp ts cs) (hf : allFirm cs) : ∃ ts', LexicalToks ts' ∧ Parses pp ts' (mend cs) := by
  obtain ⟨ccs, hw, rfl, ha⟩ := (parses_iff hpp hl).mp hp
  obtain ⟨ccs', a, w, l⟩ := mended_all hpp hloc cs ccs [] ha hw hf hl
  exact ⟨_, l, (parses_iff hpp l).mpr ⟨ccs', w [], rfl, a⟩⟩

end Mview
