import Verif.Lemmas.OpaqueExpand
import Verif.Lemmas.Rewrites
/-
Reading inputs that differ in code only.
-/

namespace Mview
variable {R : Toks → Toks → Prop} {pp : PathParser}

/-! ### the trees meant -/

theorem CVal.Alike.ast {v v' : CVal} (h : v.Alike R v') : v.ast.Alike R v'.ast := by
  cases h with
  | refl v => exact .refl _
  | lit _ h => exact .lit h
  | block h => exact .block h
  | bracket pfx h => exact .bracket pfx h

theorem Attr.Alike.refl (a : Attr) : a.Alike R a := by
  rcases a with ⟨k, v⟩ | ⟨d, k, m, _ | v⟩ | e
  · exact .kv k (.refl v)
  · exact .directive d k m .none
  · exact .directive d k m (.some (.refl v))
  · exact .spread (.refl e)

theorem CAttr.Alike.ast {a a' : CAttr} (h : a.Alike R a') : a.ast.Alike R a'.ast := by
  cases h with
  | refl a => exact .refl _
  | full name s h => exact .kv _ h.ast
  | dir d s key m s' h => exact .directive _ _ _ (.some h.ast)
  | spread s h => exact .spread (.ofCode h)

theorem ArgsAlike.ast {a a' : Option (Spacing × Toks × Spacing)} (h : ArgsAlike R a a') :
    TArgsAlike R (argsAst a) (argsAst a') := by
  cases h with
  | refl a =>
    cases a with
    | none => exact .none
    | some a => exact .some (.refl _)
  | code s s' h hp => exact .some (.tok _ (.code h (.refl _)))

theorem attrs_alike {as as' : List CAttr} (h : List.Forall₂ (CAttr.Alike R) as as') :
    List.Forall₂ (Attr.Alike R) (as.map CAttr.ast) (as'.map CAttr.ast) := by
  induction h with
  | nil => exact .nil
  | cons h _ ih => exact .cons h.ast ih

mutual
theorem CElem.Alike.ast : (e e' : CElem) → e.Alike R e' → e.ast.Alike R e'.ast
  | .mk tag sels attrs (.semi s), .mk tag' sels' attrs' (.semi s'), h => by
    rw [CElem.Alike] at h
    obtain ⟨rfl, rfl, ha, _⟩ := h
    simp only [CElem.ast, CEnd.args, CEnd.children]
    rw [Element.Alike]
    exact ⟨.refl _, rfl, attrs_alike ha, .none⟩
  | .mk tag sels attrs (.block args d cs), .mk tag' sels' attrs' (.block args' d' cs'), h => by
    rw [CElem.Alike, CEnd.Alike] at h
    obtain ⟨rfl, rfl, ha, hg, _, hc⟩ := h
    simp only [CElem.ast, CEnd.args, CEnd.children]
    rw [Element.Alike]
    exact ⟨.refl _, rfl, attrs_alike ha, hg.ast, childrenAlike.ast cs cs' hc⟩
  | .mk tag sels attrs (.semi s), .mk tag' sels' attrs' (.block args' d' cs'), h => by
    simp [CElem.Alike, CEnd.Alike] at h
  | .mk tag sels attrs (.block args d cs), .mk tag' sels' attrs' (.semi s'), h => by
    simp [CElem.Alike, CEnd.Alike] at h
theorem childrenAlike.ast : (cs cs' : List CChild) → childrenAlike R cs cs' →
    treesAlike R (childrenAst cs) (childrenAst cs')
  | [], [], _ => by simp only [childrenAst]; rw [treesAlike]; trivial
  | .value v :: cs, .value v' :: cs', h => by
    rw [childrenAlike, CChild.Alike] at h
    simp only [childrenAst, CChild.ast]
    rw [treesAlike]
    exact ⟨h.1.ast, childrenAlike.ast cs cs' h.2⟩
  | .elem e :: cs, .elem e' :: cs', h => by
    rw [childrenAlike, CChild.Alike] at h
    simp only [childrenAst, CChild.ast]
    rw [treesAlike]
    exact ⟨CElem.Alike.ast e e' h.1, childrenAlike.ast cs cs' h.2⟩
  | .slot s e :: cs, .slot s' e' :: cs', h => by
    rw [childrenAlike, CChild.Alike] at h
    simp only [childrenAst, CChild.ast]
    rw [treesAlike]
    exact ⟨CElem.Alike.ast e e' h.1.2, childrenAlike.ast cs cs' h.2⟩
  | [], _ :: _, h => by simp [childrenAlike] at h
  | c :: _, [], h => by simp [childrenAlike] at h
  | .value _ :: _, .elem _ :: _, h => by simp [childrenAlike, CChild.Alike] at h
  | .value _ :: _, .slot _ _ :: _, h => by simp [childrenAlike, CChild.Alike] at h
  | .elem _ :: _, .value _ :: _, h => by simp [childrenAlike, CChild.Alike] at h
  | .elem _ :: _, .slot _ _ :: _, h => by simp [childrenAlike, CChild.Alike] at h
  | .slot _ _ :: _, .value _ :: _, h => by simp [childrenAlike, CChild.Alike] at h
  | .slot _ _ :: _, .elem _ :: _, h => by simp [childrenAlike, CChild.Alike] at h
end

/-! ### well-formedness -/

theorem CAttr.Alike.wf {a a' : CAttr} {x : Toks} (h : a.Alike R a') (hw : a.Wf x) : a'.Wf x := by
  cases h with
  | refl => exact hw
  | full name s h => exact NameEnds.softer hw (.of_head (x := []))
  | dir d s key m s' h =>
    have hw : key.Wf (modifierToks m ++ (.punct '=' s' :: _) ++ x) := hw
    refine CKey.Wf.softer hw ?_
    simp only [eqToks, List.append_assoc]
    exact .append_left (.of_head (x := []))
  | spread => trivial

theorem CAttr.Alike.first {a a' : CAttr} {x y : Toks} (h : a.Alike R a') (hw : a.Wf x) :
    Softer (a.toks ++ x) (a'.toks ++ y) := by
  cases h with
  | refl => exact .append (CAttr.toks_ne_nil hw)
  | full name s h =>
    have := hw.1.kebab.nonempty
    simp only [CAttr.toks, List.append_assoc]
    exact .append this
  | dir => exact .of_head (x := [])
  | spread => exact .of_neither rfl rfl

theorem attrs_alike_wf {as bs : List CAttr} (h : List.Forall₂ (CAttr.Alike R) as bs) {x y : Toks}
    (hs : Softer x y) (hw : listWf CAttr.toks CAttr.Wf as x) :
    listWf CAttr.toks CAttr.Wf bs y ∧
      Softer (as.flatMap CAttr.toks ++ x) (bs.flatMap CAttr.toks ++ y) := by
  induction h with
  | nil => exact ⟨trivial, hs⟩
  | cons h _ ih =>
    obtain ⟨h1, h2⟩ := ih hw.2
    refine ⟨⟨CAttr.Wf.softer (h.wf hw.1) h2, h1⟩, ?_⟩
    simp only [List.flatMap_cons, List.append_assoc]
    exact h.first hw.1

theorem elem_alike_head {e e' : CElem} (h : e.Alike R e') {t : TT} {r : Toks}
    (hne : ∀ {tag sels attrs fin}, e = .mk tag sels attrs fin → tag.toks ≠ []) (he : e.toks = t :: r) :
    ∃ r', e'.toks = t :: r' := by
  cases e with
  | mk tag sels attrs fin =>
    cases e' with
    | mk tag' sels' attrs' fin' =>
      rw [CElem.Alike] at h
      obtain ⟨rfl, _, _, _⟩ := h
      have := hne rfl
      rw [CElem.toks] at he ⊢
      cases hq : tag.toks with
      | nil => exact absurd hq this
      | cons a u =>
        rw [hq, List.cons_append, List.cons.injEq] at he
        exact ⟨u ++ _, by rw [he.1, List.cons_append]⟩

theorem CVal.Alike.childWf {v v' : CVal} (h : v.Alike R v') (hw : v.ChildWf) : v'.ChildWf := by
  cases h with
  | refl => exact hw
  | @lit l l' hs h => cases l <;> cases l' <;> simp_all [CVal.ChildWf, Lit.isStr]
  | block => trivial
  | bracket => trivial

theorem ArgsAlike.wf {a a' : Option (Spacing × Toks × Spacing)} (h : ArgsAlike R a a') (hw : argsWf a) :
    argsWf a' := by
  cases h with
  | refl => exact hw
  | code s s' h hp =>
    rintro _ _ _ ⟨⟩
    exact hp

mutual
theorem CElem.Alike.wf (hpp : pp.Starts) (hloc : pp.Local) :
    (e e' : CElem) → e.Alike R e' → (x y : Toks) → e.Wf pp x → e'.Wf pp y
  | .mk tag sels attrs fin, .mk tag' sels' attrs' fin', h, x, y, hw => by
    rw [CElem.Alike] at h
    obtain ⟨rfl, rfl, ha, hf⟩ := h
    rw [CElem.Wf] at hw ⊢
    obtain ⟨h1, h2, h3, h4⟩ := hw
    obtain ⟨h5, h6⟩ := attrs_alike_wf ha (fin_softer fin' (x := fin.toks ++ x) (y := y)) h3
    have hx := attrs_follows h3 (fin_follows fin x)
    have hy := attrs_follows h5 (fin_follows fin' y)
    exact ⟨tag_transport hloc h6.append_left (sels_followsTag hx) (sels_followsTag hy) h1,
      sels_softer h2 h6, h5, CEnd.Alike.wf hpp hloc fin fin' hf h4⟩
theorem CEnd.Alike.wf (hpp : pp.Starts) (hloc : pp.Local) :
    (e e' : CEnd) → e.Alike R e' → e.Wf pp → e'.Wf pp
  | .semi s, .semi s', h, _ => by rw [CEnd.Wf]; trivial
  | .block args d cs, .block args' d' cs', h, hw => by
    rw [CEnd.Alike] at h
    obtain ⟨ha, _, hc⟩ := h
    rw [CEnd.Wf] at hw ⊢
    exact ⟨ha.wf hw.1, childrenAlike.wf hpp hloc cs cs' hc [] [] hw.2⟩
  | .semi s, .block args d cs, h, _ => by simp [CEnd.Alike] at h
  | .block args d cs, .semi s, h, _ => by simp [CEnd.Alike] at h
theorem CChild.Alike.wf (hpp : pp.Starts) (hloc : pp.Local) :
    (e e' : CChild) → e.Alike R e' → (x y : Toks) → e.Wf pp x → e'.Wf pp y
  | .value v, .value v', h, _, _, hw => by
    rw [CChild.Alike] at h; rw [CChild.Wf] at hw ⊢; exact h.childWf hw
  | .elem e, .elem e', h, x, y, hw => by
    rw [CChild.Alike] at h
    rw [CChild.Wf] at hw ⊢
    obtain ⟨hw, i, r, he, hi⟩ := hw
    obtain ⟨r', he'⟩ := elem_alike_head h (elem_tag_ne_nil hpp hw) he
    exact ⟨CElem.Alike.wf hpp hloc e e' h x y hw, i, r', he', hi⟩
  | .slot s e, .slot s' e', h, x, y, hw => by
    rw [CChild.Alike] at h
    obtain ⟨rfl, h⟩ := h
    rw [CChild.Wf] at hw ⊢
    obtain ⟨hw, hns⟩ := hw
    obtain ⟨t, r, he⟩ := CElem.toks_ne_nil hpp hw
    obtain ⟨r', he'⟩ := elem_alike_head h (elem_tag_ne_nil hpp hw) he
    refine ⟨CElem.Alike.wf hpp hloc e e' h x y hw, ?_⟩
    rintro ⟨rfl, s', r'', hx⟩
    rw [he', List.cons.injEq] at hx
    exact hns ⟨rfl, s', r, by rw [he, hx.1]⟩
  | .value _, .elem _, h, _, _, _ => by simp [CChild.Alike] at h
  | .value _, .slot _ _, h, _, _, _ => by simp [CChild.Alike] at h
  | .elem _, .value _, h, _, _, _ => by simp [CChild.Alike] at h
  | .elem _, .slot _ _, h, _, _, _ => by simp [CChild.Alike] at h
  | .slot _ _, .value _, h, _, _, _ => by simp [CChild.Alike] at h
  | .slot _ _, .elem _, h, _, _, _ => by simp [CChild.Alike] at h
theorem childrenAlike.wf (hpp : pp.Starts) (hloc : pp.Local) :
    (cs cs' : List CChild) → childrenAlike R cs cs' → (x y : Toks) → childrenWf pp cs x →
      childrenWf pp cs' y
  | [], [], _, _, _, _ => by rw [childrenWf]; trivial
  | c :: cs, c' :: cs', h, x, y, hw => by
    rw [childrenAlike] at h
    rw [childrenWf] at hw ⊢
    exact ⟨CChild.Alike.wf hpp hloc c c' h.1 _ _ hw.1,
      childrenAlike.wf hpp hloc cs cs' h.2 _ _ hw.2⟩
  | [], _ :: _, h, _, _, _ => by simp [childrenAlike] at h
  | _ :: _, [], h, _, _, _ => by simp [childrenAlike] at h
end

end Mview
