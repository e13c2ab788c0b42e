import Verif.Spec.Assemble
import Verif.Lemmas.Leave
/-
How to write a tree whose threads can be written.
-/

namespace Mview
open Lex

variable {pp : PathParser}

/-- It can be written before something. -/
def Written (pp : PathParser) (c : Child) : Prop :=
  ∃ (cc : CChild) (x : Toks), cc.ast = c ∧ cc.Wf pp x ∧ LexicalToks cc.toks

def ElemWritten (pp : PathParser) (e : Element) : Prop :=
  ∃ (ce : CElem) (x : Toks), ce.ast = e ∧ ce.Wf pp x ∧ LexicalToks ce.toks

theorem written_of_parses (hpp : pp.Starts) {ts : Toks} {t : Child} (hl : LexicalToks ts) (h : Parses pp ts [t]) :
    Written pp t := by
  obtain ⟨ccs, hw, rfl, ha⟩ := (parses_iff hpp hl).mp h
  match ccs with
  | [] => cases ha
  | cc :: ccs =>
    rw [childrenAst, List.cons.injEq] at ha
    rw [childrenWf] at hw
    rw [childrenToks] at hl
    exact ⟨cc, _, ha.1, hw.1, (lexical_append.mp hl).1⟩

theorem Written.elem {e : Element} (h : Written pp (.elem e)) : ElemWritten pp e := by
  obtain ⟨cc, x, ha, hw, hl⟩ := h
  cases cc with
  | value v => cases ha
  | slot s ce => cases ha
  | elem ce =>
    rw [CChild.ast, Child.elem.injEq] at ha
    rw [CChild.Wf] at hw
    rw [CChild.toks] at hl
    exact ⟨ce, x, ha, hw.1, hl⟩

theorem Written.slot {e : Element} (h : Written pp (.slot e)) : ElemWritten pp e := by
  obtain ⟨cc, x, ha, hw, hl⟩ := h
  cases cc with
  | value v => cases ha
  | elem ce => cases ha
  | slot s ce =>
    rw [CChild.ast, Child.slot.injEq] at ha
    rw [CChild.Wf] at hw
    rw [CChild.toks] at hl
    exact ⟨ce, x, ha, hw.1, (lexical_append (a := [.ident (plain c!"slot"), .punct ':' s])).mp hl |>.2⟩

/-! ### parts -/

theorem collect {α β : Type} {f : α → β} {P : α → Prop} : ∀ {bs : List β}, (∀ b ∈ bs, ∃ a, f a = b ∧ P a) →
    ∃ as : List α, as.map f = bs ∧ ∀ a ∈ as, P a
  | [], _ => ⟨[], rfl, fun _ h => nomatch h⟩
  | b :: bs, h => by
    obtain ⟨a, ha, hp⟩ := h b (by simp)
    obtain ⟨as, has, hps⟩ := collect fun b hb => h b (List.mem_cons_of_mem _ hb)
    refine ⟨a :: as, by rw [List.map_cons, ha, has], ?_⟩
    intro x hx
    rcases List.mem_cons.mp hx with rfl | hx
    · exact hp
    · exact hps x hx

theorem ElemWritten.sel {T : Tag} {s : Selector} (h : ElemWritten pp (.mk T [s] [] none none)) :
    ∃ a : CSel, a.ast = s ∧ (∃ x, a.Wf x) ∧ LexicalToks a.toks := by
  obtain ⟨⟨tag, sels, attrs, fin⟩, x, ha, hw, hl⟩ := h
  rw [CElem.ast, Element.mk.injEq] at ha
  obtain ⟨-, h2, -, -, -⟩ := ha
  rw [CElem.Wf] at hw
  rw [CElem.toks] at hl
  have ls := (lexical_append.mp (lexical_append.mp hl).2).1
  match sels, h2 with
  | [a], h2 =>
    simp only [List.map_cons, List.map_nil, List.cons.injEq, and_true] at h2
    exact ⟨a, h2, ⟨_, hw.2.1.1⟩, lexical_flatMap.mp ls a (by simp)⟩

theorem ElemWritten.attr {T : Tag} {s : Attr} (h : ElemWritten pp (.mk T [] [s] none none)) :
    ∃ a : CAttr, a.ast = s ∧ (∃ x, a.Wf x) ∧ LexicalToks a.toks := by
  obtain ⟨⟨tag, sels, attrs, fin⟩, x, ha, hw, hl⟩ := h
  rw [CElem.ast, Element.mk.injEq] at ha
  obtain ⟨-, -, h2, -, -⟩ := ha
  rw [CElem.Wf] at hw
  rw [CElem.toks] at hl
  have ls := (lexical_append.mp (lexical_append.mp (lexical_append.mp hl).2).2).1
  match attrs, h2 with
  | [a], h2 =>
    simp only [List.map_cons, List.map_nil, List.cons.injEq, and_true] at h2
    exact ⟨a, h2, ⟨_, hw.2.2.1.1⟩, lexical_flatMap.mp ls a (by simp)⟩

theorem ElemWritten.child {T : Tag} {c : Child} (h : ElemWritten pp (.mk T [] [] none (some [c]))) : Written pp c := by
  obtain ⟨⟨tag, sels, attrs, fin⟩, x, ha, hw, hl⟩ := h
  rw [CElem.ast, Element.mk.injEq] at ha
  obtain ⟨-, -, -, -, h2⟩ := ha
  obtain ⟨args, d, ccs, rfl, hc⟩ := fin_block h2
  rw [CElem.Wf, CEnd.Wf] at hw
  rw [CElem.toks, CEnd.toks] at hl
  have lf := (lexical_append.mp (lexical_append.mp (lexical_append.mp (lexical_append.mp hl).2).2).2).2
  have lc := ((lexical_group (braces_ne d)).mp lf).1
  have wc := hw.2.2.2.2
  match ccs, hc with
  | cc :: ccs, hc =>
    rw [childrenAst, List.cons.injEq] at hc
    rw [childrenWf] at wc
    rw [childrenToks] at lc
    exact ⟨cc, _, hc.1, wc.1, (lexical_append.mp lc).1⟩

/-! ### elements -/

theorem elem_build (hpp : pp.Starts) (hloc : pp.Local) {tag : CTag} {sels : List CSel} {attrs : List CAttr}
    {fin : CEnd} {x : Toks} (w1 : tag.Wf pp x) (hx : ∃ t r, x = t :: r ∧ t.followsTag = true)
    (f1 : tag.ast.Firm) (l1 : LexicalToks tag.toks)
    (es : ∀ a ∈ sels, (∃ x, a.Wf x) ∧ LexicalToks a.toks) (fs : ∀ a ∈ sels, a.ast.Firm)
    (ea : ∀ a ∈ attrs, (∃ x, a.Wf x) ∧ LexicalToks a.toks) (fa : ∀ a ∈ attrs, a.ast.Firm)
    (hfin : fin.Wf pp) (hlf : LexicalToks fin.toks) {t : TT} {r : Toks} (ht : tag.toks = t :: r) :
    ElemWritable pp t (CElem.mk tag sels attrs fin).ast := by
  have es' : ∀ a ∈ sels, ∃ x, a.Wf x := fun a h => (es a h).1
  have ea' : ∀ a ∈ attrs, ∃ x, a.Wf x := fun a h => (ea a h).1
  refine ⟨.mk tag sels attrs fin, rfl, fun y => ?_, ?_, ?_⟩
  · rw [CElem.Wf]
    have n1 := fin_noDashNext fin y
    have n2 := attrs_noDashNext ea' fa n1
    have a' := attrs_firm ea' fa n1
    exact ⟨tag_firm hloc w1 f1 hx (sels_followsTag (attrs_follows a' (fin_follows fin y))) (sels_noDashNext n2),
      sels_firm es' fs n2, a', hfin⟩
  · rw [CElem.toks]
    exact lexical_append.mpr ⟨l1, lexical_append.mpr ⟨lexical_flatMap.mpr fun a h => (es a h).2,
      lexical_append.mpr ⟨lexical_flatMap.mpr fun a h => (ea a h).2, hlf⟩⟩⟩
  · rw [CElem.toks, ht]
    exact ⟨_, rfl⟩

/-- An element, given how to write what it ends with. -/
theorem elem_assemble (hpp : pp.Starts) (hloc : pp.Local) {T : Tag} {S : List Selector} {A : List Attr}
    {g : Option Toks} {k : Option (List Child)} (hf : (Element.mk T S A g k).Firm)
    (h : ∀ e', ElemThread e' (.mk T S A g k) → ElemWritten pp e')
    {fin : CEnd} (hg : fin.args = g) (hk : fin.children = k) (hfin : fin.Wf pp) (hlf : LexicalToks fin.toks)
    (ce : CElem) (x : Toks) (t : TT) (r : Toks) (ha : ce.ast = .mk T [] [] none none) (hw : ce.Wf pp x)
    (hl : LexicalToks ce.toks) (ht : ce.toks = t :: r) : ElemWritable pp t (.mk T S A g k) := by
  obtain ⟨f1, f2, f3, -⟩ := hf.parts
  obtain ⟨sels, hs, es⟩ := collect fun s hs => (h _ (.sel hs)).sel
  obtain ⟨attrs, ha', ea⟩ := collect fun a ha => (h _ (.attr ha)).attr
  obtain ⟨tag, sels₀, attrs₀, fin₀⟩ := ce
  rw [CElem.ast, Element.mk.injEq] at ha
  obtain ⟨a1, a2, a3, -, -⟩ := ha
  obtain rfl := List.map_eq_nil_iff.mp a2
  obtain rfl := List.map_eq_nil_iff.mp a3
  rw [CElem.Wf] at hw
  rw [CElem.toks] at hl ht
  obtain ⟨t', r', hne⟩ := CTag.toks_ne_nil hpp hw.1
  have ht' : t' = t := by
    rw [hne, List.cons_append, List.cons.injEq] at ht
    exact ht.1
  subst ht'
  have := elem_build hpp hloc (sels := sels) (attrs := attrs) (fin := fin) hw.1
    (sels_followsTag (cs := []) (attrs_follows (cs := []) trivial (fin_follows fin₀ x)))
    (by rw [a1]; exact f1) (lexical_append.mp hl).1 es
    (fun a h => f2 _ (by rw [← hs]; exact List.mem_map_of_mem h)) ea
    (fun a h => f3 _ (by rw [← ha']; exact List.mem_map_of_mem h)) hfin hlf hne
  rw [CElem.ast, a1, hs, ha', hg, hk] at this
  exact this

mutual
theorem assemble_elem (hpp : pp.Starts) (hloc : pp.Local) : ∀ e : Element, e.Firm → e.ArgsFit →
    (∀ e', ElemThread e' e → ElemWritten pp e') → ∀ (ce : CElem) (x : Toks) (t : TT) (r : Toks),
      ce.ast = .mk e.tag [] [] none none → ce.Wf pp x → LexicalToks ce.toks → ce.toks = t :: r → ElemWritable pp t e
  | .mk T S A g none => by
    intro hf hg h ce x t r
    rw [Element.ArgsFit] at hg
    have hg : g = none := by
      rcases hg with hg | ⟨hg, -⟩
      · exact hg
      · cases hg
    subst hg
    exact elem_assemble hpp hloc hf h (fin := .semi .alone) rfl rfl (by rw [CEnd.Wf]; trivial) (lexical_of rfl) ce x t r
  | .mk T S A g (some cs) => by
    intro hf hg h ce x t r
    rw [Element.ArgsFit] at hg
    obtain ⟨ccs, c1, c2, c3⟩ := assemble_all hpp hloc cs (hf.parts.2.2.2 _ rfl) hg.2
      fun c hc c' ht => (h _ (.child hc ht)).child
    have lg : LexicalToks [.group Braces.brace.delim (childrenToks ccs)] :=
      (lexical_group (braces_ne .brace)).mpr ⟨c3, lexical_of rfl⟩
    rcases hg.1 with rfl | ⟨-, a, rfl, ha, la⟩
    · exact elem_assemble hpp hloc hf h (fin := .block none .brace ccs) rfl (by rw [CEnd.children, c1])
        (by rw [CEnd.Wf]; exact ⟨(fun s a s' h => nomatch h), c2 []⟩) (by rw [CEnd.toks]; exact lg) ce x t r
    · refine elem_assemble hpp hloc hf h (fin := .block (some (.alone, a, .alone)) .brace ccs) rfl
        (by rw [CEnd.children, c1]) ?_ ?_ ce x t r
      · rw [CEnd.Wf]
        refine ⟨?_, c2 []⟩
        intro s b s' he
        cases he
        exact ha
      · rw [CEnd.toks]
        refine lexical_append.mpr ⟨?_, lg⟩
        exact (lexical_append (a := [.punct '|' .alone])).mpr ⟨lexical_of rfl, lexical_append.mpr ⟨la, lexical_of rfl⟩⟩
theorem assemble_child (hpp : pp.Starts) (hloc : pp.Local) : ∀ c : Child, c.Firm → c.ArgsFit →
    (∀ c', Thread c' c → Written pp c') → Writable pp c
  | .value v => by
    intro hf hg h
    obtain ⟨cc, x, ha, hw, hl⟩ := h _ (.value v)
    cases cc with
    | value cv => exact ⟨.value cv, ha, fun _ => hw, hl⟩
    | elem e => cases ha
    | slot s e => cases ha
  | .elem e => by
    intro hf hg h
    have ih := assemble_elem hpp hloc e hf hg fun e' he => (h _ (.elem he)).elem
    obtain ⟨cc, x, ha, hw, hl⟩ := h (.elem (.mk e.tag [] [] none none)) (.elem (by cases e; exact .tag))
    cases cc with
    | value cv => cases ha
    | slot s e => cases ha
    | elem ce =>
      rw [CChild.ast, Child.elem.injEq] at ha
      rw [CChild.Wf] at hw
      rw [CChild.toks] at hl
      obtain ⟨hw, i, r, hi, hi'⟩ := hw
      obtain ⟨ce', h1, h2, h3, r', h4⟩ := ih ce x _ r ha hw hl hi
      exact ⟨.elem ce', by rw [CChild.ast, h1], fun y => by rw [CChild.Wf]; exact ⟨h2 y, i, r', h4, hi'⟩,
        by rw [CChild.toks]; exact h3⟩
  | .slot e => by
    intro hf hg h
    have ih := assemble_elem hpp hloc e hf hg fun e' he => (h _ (.slot he)).slot
    obtain ⟨cc, x, ha, hw, hl⟩ := h (.slot (.mk e.tag [] [] none none)) (.slot (by cases e; exact .tag))
    cases cc with
    | value cv => cases ha
    | elem e => cases ha
    | slot s ce =>
      rw [CChild.ast, Child.slot.injEq] at ha
      rw [CChild.Wf] at hw
      rw [CChild.toks] at hl
      obtain ⟨hw, hc⟩ := hw
      obtain ⟨t, r, hi⟩ : ∃ t r, ce.toks = t :: r := by
        cases ce with
        | mk tag sels attrs fin =>
          rw [CElem.Wf] at hw
          obtain ⟨t', r', hne⟩ := CTag.toks_ne_nil hpp hw.1
          rw [CElem.toks, hne]
          exact ⟨_, _, rfl⟩
      have hl' : LexicalToks ([.ident (plain c!"slot"), .punct ':' s] ++ ce.toks) := hl
      obtain ⟨l1, l2⟩ := lexical_append.mp hl'
      obtain ⟨ce', h1, h2, h3, r', h4⟩ := ih ce x _ r ha hw l2 hi
      refine ⟨.slot s ce', by rw [CChild.ast, h1], fun y => ?_, ?_⟩
      · rw [CChild.Wf]
        refine ⟨h2 y, ?_⟩
        rintro ⟨rfl, s', r'', he⟩
        rw [h4, List.cons.injEq] at he
        exact hc ⟨rfl, s', r, by rw [hi, he.1]⟩
      · rw [CChild.toks]
        exact (lexical_append (a := [.ident (plain c!"slot"), .punct ':' s])).mpr ⟨l1, h3⟩
theorem assemble_all (hpp : pp.Starts) (hloc : pp.Local) : ∀ cs : List Child, allFirm cs → allArgsFit cs →
    (∀ c ∈ cs, ∀ c', Thread c' c → Written pp c') → ∃ ccs, childrenAst ccs = cs ∧ (∀ y, childrenWf pp ccs y) ∧
      LexicalToks (childrenToks ccs)
  | [] => fun _ _ _ => ⟨[], rfl, fun _ => trivial, lexical_of rfl⟩
  | c :: cs => by
    intro hf hg h
    rw [allFirm] at hf
    rw [allArgsFit] at hg
    obtain ⟨cc, a1, w1, m1⟩ := assemble_child hpp hloc c hf.1 hg.1 (h c (by simp))
    obtain ⟨ccs, a2, w2, m2⟩ := assemble_all hpp hloc cs hf.2 hg.2 fun d hd => h d (List.mem_cons_of_mem _ hd)
    exact ⟨cc :: ccs, by rw [childrenAst, a1, a2], fun y => by rw [childrenWf]; exact ⟨w1 _, w2 y⟩,
      by rw [childrenToks]; exact lexical_append.mpr ⟨m1, m2⟩⟩
end

/-! ### closure arguments of what is written -/

mutual
theorem argsFit_elem : ∀ (ce : CElem) (x : Toks), ce.Wf pp x → LexicalToks ce.toks → ce.ast.ArgsFit
  | .mk tag sels attrs (.semi s), x, _, _ => by
    rw [CElem.ast]
    show Element.ArgsFit (.mk _ _ _ none none)
    rw [Element.ArgsFit]
    exact .inl rfl
  | .mk tag sels attrs (.block args d ccs), x, hw, hl => by
    rw [CElem.Wf, CEnd.Wf] at hw
    rw [CElem.toks, CEnd.toks] at hl
    have le := (lexical_append.mp (lexical_append.mp (lexical_append.mp hl).2).2).2
    obtain ⟨la, lg⟩ := lexical_append.mp le
    have ih := argsFit_all ccs [] hw.2.2.2.2 ((lexical_group (braces_ne d)).mp lg).1
    rw [CElem.ast]
    show Element.ArgsFit (.mk _ _ _ (argsAst args) (some (childrenAst ccs)))
    rw [Element.ArgsFit]
    refine ⟨?_, ih⟩
    cases args with
    | none => exact .inl rfl
    | some q =>
      obtain ⟨s, a, s'⟩ := q
      refine .inr ⟨rfl, a, rfl, hw.2.2.2.1 s a s' rfl, ?_⟩
      have la' : LexicalToks ([.punct '|' s] ++ (a ++ [.punct '|' s'])) := la
      exact (lexical_append.mp (lexical_append.mp la').2).1
theorem argsFit_child : ∀ (cc : CChild) (x : Toks), cc.Wf pp x → LexicalToks cc.toks → cc.ast.ArgsFit
  | .value v, x, _, _ => trivial
  | .elem e, x, hw, hl => by
    rw [CChild.Wf] at hw
    rw [CChild.toks] at hl
    exact argsFit_elem e x hw.1 hl
  | .slot s e, x, hw, hl => by
    rw [CChild.Wf] at hw
    rw [CChild.toks] at hl
    exact argsFit_elem e x hw.1 ((lexical_append (a := [.ident (plain c!"slot"), .punct ':' s])).mp hl).2
theorem argsFit_all : ∀ (ccs : List CChild) (x : Toks), childrenWf pp ccs x → LexicalToks (childrenToks ccs) →
    allArgsFit (childrenAst ccs)
  | [], _, _, _ => trivial
  | cc :: ccs, x, hw, hl => by
    rw [childrenWf] at hw
    rw [childrenToks] at hl
    obtain ⟨l1, l2⟩ := lexical_append.mp hl
    exact ⟨argsFit_child cc _ hw.1 l1, argsFit_all ccs x hw.2 l2⟩
end

end Mview
