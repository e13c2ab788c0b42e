import Verif.Lemmas.Count
import Verif.Spec.Twice
/-
Weighing the generic arguments in the output.
-/

-- the linter does not see variables used inside `q!"..."`
set_option linter.unusedVariables false

namespace Mview
open Lex

variable {w : Leaf → Nat}

section
variable (hw : Foreign w)
include hw

theorem path_weighs {p : Path} {t : Toks} (h : p.means = some t) : weigh w t = weigh w p.generics := by
  simp only [Path.means, Option.bind_eq_bind, Option.bind_eq_some_iff, Option.pure_def,
    Option.some.injEq] at h
  obtain ⟨ss, hs, rfl⟩ := h
  have h2 : weigh w (joinColons ss) = weigh w p.generics := by
    rw [Path.generics]
    generalize p.segs = segs at hs
    have h3 : weigh w (joinColons ss) = total (weigh w) ss := by
      clear hs
      induction ss with
      | nil => rfl
      | cons x xs ih => cases xs <;> simp [joinColons, hw.punct] at ih ⊢; omega
    rw [h3]
    clear h3
    induction segs generalizing ss with
    | nil => simp at hs; subst hs; rfl
    | cons s segs ih =>
      rw [List.mapM_cons] at hs
      simp only [Option.bind_eq_bind, Option.bind_eq_some_iff, Option.pure_def, Option.some.injEq] at hs
      obtain ⟨b, hb, bs, hbs, rfl⟩ := hs
      have := ih _ hbs
      simp only [PathSeg.means, Option.bind_eq_bind, Option.bind_eq_some_iff, Option.pure_def,
        Option.some.injEq] at hb
      obtain ⟨a, ha, rfl⟩ := hb
      simp only [total_cons, List.flatMap_cons, weigh_append, this]
      cases hs' : s.args with
      | none => rw [hs'] at ha; cases ha; simp [hw.ident]
      | paren _ => rw [hs'] at ha; cases ha
      | angle tf inner => rw [hs'] at ha; cases ha; simp [hw.ident, hw.punct]
  cases p.leading <;> simp [h2, hw.punct]

theorem xml_weighs {tag : Tag} {sels : List Selector} {attrs : List Attr} {ns : List Toks} {t : Toks}
    (h : xmlMeans tag sels (attrs.map Attr.blank) ns = some t) : weigh w t = total (weigh w) ns := by
  simp only [xmlMeans, Option.bind_eq_bind, Option.bind_eq_some_iff, Option.pure_def, Option.some.injEq] at h
  obtain ⟨hd, hhd, as, has, ds, hds, rfl⟩ := h
  have h0 := xml_zero hw (tag := tag) (sels := sels) (attrs := attrs) (ns := []) (t := _)
    (by simp only [xmlMeans, hhd, has, hds, Option.bind_eq_bind, Option.bind_some, Option.pure_def]; rfl)
    (by simp)
  simp only [splice_toks, weigh_append, weigh_chain_append] at h0 ⊢
  have h6 : weigh w (chain (ns.map childCall)) = total (weigh w) ns := by
    rw [weigh_childCalls, hw.ident, hw.punct]; simp
  simp only [List.map_nil] at h0
  omega

theorem children_weigh {args : Option Toks} {cl : Toks} {ns : List Toks} (hcl : weigh w cl = 0) :
    weigh w (chain (childrenCall (args.map fun _ => []) cl ns)) = total (weigh w) ns := by
  have hv : weigh w (viewOf ns) = total (weigh w) ns := by
    simp [viewOf, hw.ident, hw.punct, weigh_commaAfter]
  unfold childrenCall
  split
  · rename_i h; subst h; rfl
  · cases args with
    | none => simp [chain, hw.ident, hw.punct, hv, hcl]
    | some a => simp [chain, hw.ident, hw.punct, hv, hcl]

theorem component_weighs {p : Path} {sels : List Selector} {attrs : List Attr} {args : Option Toks}
    {ns : List Toks} {calls : List Call} {t : Toks}
    (h : componentMeans p sels (attrs.map Attr.blank) (args.map fun _ => []) ns calls = some t) :
    weigh w t = 2 * weigh w p.generics + total (weigh w) ns + weigh w (chain calls) := by
  simp only [componentMeans, Option.bind_eq_bind, Option.bind_eq_some_iff, Option.pure_def,
    Option.some.injEq] at h
  obtain ⟨pt, hpt, as, has, es, hes, cl, hcl, rfl⟩ := h
  have h0 := path_weighs hw hpt
  rw [kvs_blank] at has
  rw [entries_blank] at hes
  have h1 := chain_zero hw (mapM_all (P := fun c => weigh w c.args = 0) has fun a ha b hb => by
    obtain ⟨a, _, rfl⟩ := List.mem_map.mp ha; exact kvComponent_zero hw hb)
  have h2 := commaAfter_zero hw (mapM_all (P := fun c => weigh w c = 0) hes fun a ha b hb => by
    obtain ⟨a, _, rfl⟩ := List.mem_map.mp ha
    cases a with
    | kv a => cases hb
    | directive d => exact onComponent_zero hw hb
    | spread e => cases hb; rfl)
  have h3 := children_weigh hw (args := args) (ns := ns) (clones_zero hw hcl)
  have h4 : weigh w (chain [⟨plain c!"build", []⟩]) = 0 := chain_zero hw (by simp)
  have h5 : weigh w (commaAfter ((classes sels).map classEntry)) = 0 := by
    apply commaAfter_zero hw
    intro c hc
    obtain ⟨k, _, rfl⟩ := List.mem_map.mp hc
    simp [classEntry, hw.ident, hw.punct, hw.str]
  have h6 : weigh w (commaAfter (idEntry (ids sels))) = 0 := by
    apply commaAfter_zero hw
    intro c hc
    unfold idEntry at hc
    split at hc
    · simp at hc
    · simp at hc; subst hc; simp [hw.ident, hw.punct, hw.str]
  simp [weigh_chain_append, weigh_commaAfter_append, hw.ident, hw.punct, h0, h1, h2, h3, h4, h5, h6]
  omega

theorem slot_weighs {p : Path} {sels : List Selector} {attrs : List Attr} {args : Option Toks}
    {ns : List Toks} {t : Toks}
    (h : slotMeans p sels (attrs.map Attr.blank) (args.map fun _ => []) ns = some t) :
    weigh w t = weigh w p.generics + total (weigh w) ns := by
  simp only [slotMeans, Option.bind_eq_bind, Option.bind_eq_some_iff, Option.pure_def,
    Option.some.injEq] at h
  obtain ⟨_, _, pt, hpt, as, has, cl, hcl, rfl⟩ := h
  have h0 := path_weighs hw hpt
  rw [kvs_blank] at has
  have h1 := chain_zero hw (mapM_all (P := fun c => weigh w c.args = 0) has fun a ha b hb => by
    obtain ⟨a, _, rfl⟩ := List.mem_map.mp ha; exact kvComponent_zero hw hb)
  have h3 := children_weigh hw (args := args) (ns := ns) (clones_zero hw hcl)
  have h4 : weigh w (chain [⟨plain c!"build", []⟩]) = 0 := chain_zero hw (by simp)
  simp [weigh_chain_append, hw.ident, hw.punct, h0, h1, h3, h4]

theorem slotCalls_weigh {ss : List (Ident × Toks)} {calls : List Call} (h : SlotCalls ss calls) :
    weigh w (chain calls) = total (weigh w) (ss.map Prod.snd) := by
  obtain ⟨names, hd, hmem, hm⟩ := h
  rw [← weigh_flatten, ← total_names hd ss fun n hn => (hmem n).mpr hn]
  clear hd hmem
  induction names generalizing calls with
  | nil => simp at hm; subst hm; rfl
  | cons n names ih =>
    rw [List.mapM_cons] at hm
    simp only [Option.bind_eq_bind, Option.bind_eq_some_iff, Option.pure_def, Option.some.injEq] at hm
    obtain ⟨c, ⟨i, hi, rfl⟩, cs, hcs, rfl⟩ := hm
    have h1 := ih (by simpa using hcs)
    have h2 : weigh w (slotArg (ofName n ss)) = weigh w (ofName n ss).flatten := by
      rw [weigh_flatten]
      generalize ofName n ss = ts
      unfold slotArg
      split
      · simp
      · simp [hw.ident, hw.punct, weigh_commaBetween]
    simp only [ofName] at h1 h2
    simp [chain, ofName, hw.ident, hw.punct, h1, h2]

theorem rendered_weighs (t : Toks) : weigh w (rendered t) = weigh w t := by
  simp [rendered, hw.ident, hw.punct]

end

/-- the arguments written in the children that are not slots -/
def nodesKept : List Child → Toks
  | [] => []
  | .value _ :: cs => nodesKept cs
  | .elem e :: cs => e.kept false ++ nodesKept cs
  | .slot _ :: cs => nodesKept cs
/-- the arguments written in the slots -/
def slotsKept : List Child → Toks
  | [] => []
  | .value _ :: cs => slotsKept cs
  | .elem _ :: cs => slotsKept cs
  | .slot e :: cs => e.kept true ++ slotsKept cs

theorem childrenKept_split (inside : Bool) (cs : List Child) : weigh w (childrenKept inside cs) =
    weigh w (nodesKept cs) + weigh w (if inside then slotsKept cs else []) := by
  induction cs with
  | nil => cases inside <;> simp [childrenKept, nodesKept, slotsKept]
  | cons c cs ih =>
    cases c <;> cases inside <;> simp [childrenKept, nodesKept, slotsKept] at ih ⊢ <;> omega

mutual
theorem element_twice (hw : Foreign w) (asSlot : Bool) : ∀ (e : Element) (t : Toks),
    e.blank.Means asSlot t → (asSlot = true → e.tag.generics = []) → weigh w t = 2 * weigh w (e.kept asSlot)
  | .mk tag sels attrs args none, t, h, hg => by
    simp only [Element.kept]
    by_cases hp : ∃ p, tag = .component p
    · obtain ⟨p, rfl⟩ := hp
      cases asSlot with
      | false =>
        simp only [Element.blank, Element.Means] at h
        have := component_weighs hw h
        simpa [chain, Tag.generics] using this
      | true =>
        simp only [Element.blank, Element.Means] at h
        have h1 := slot_weighs hw h
        have h2 := hg rfl
        simp only [Element.tag, Tag.generics] at h2
        simpa [h2, Tag.generics] using h1
    · have ht : tag.generics = [] := by
        cases tag <;> first | exact absurd ⟨_, rfl⟩ hp | rfl
      cases asSlot with
      | false =>
        have hx : xmlMeans tag sels (attrs.map Attr.blank) [] = some t := by
          cases tag <;> first | exact absurd ⟨_, rfl⟩ hp | simpa only [Element.blank, Element.Means] using h
        rw [xml_weighs hw hx, ht]; rfl
      | true => cases tag <;> first | exact absurd ⟨_, rfl⟩ hp | (simp only [Element.blank, Element.Means] at h)
  | .mk tag sels attrs args (some cs), t, h, hg => by
    have hsp := fun b => childrenKept_split (w := w) b cs
    simp only [Element.kept, weigh_append, hsp]
    by_cases hp : ∃ p, tag = .component p
    · obtain ⟨p, rfl⟩ := hp
      cases asSlot with
      | false =>
        simp only [Element.blank, Element.Means] at h
        obtain ⟨ns, ss, calls, hns, hss, hcalls, h⟩ := h
        have h1 := component_weighs hw h
        have h2 := nodes_twice hw cs ns hns
        have h3 := slotCalls_weigh hw hcalls
        have h4 := slots_twice hw cs ss hss
        simp only [Tag.isPath, Tag.generics, Bool.not_false, Bool.and_self, if_true]
        omega
      | true =>
        simp only [Element.blank, Element.Means] at h
        obtain ⟨ns, ss, calls, hns, hss, hcalls, h⟩ := h
        have h1 := slot_weighs hw h
        have h2 := nodes_twice hw cs ns hns
        have h3 := hg rfl
        simp only [Element.tag, Tag.generics] at h3
        simp only [Tag.isPath, Tag.generics, h3, weigh_nil, Bool.not_true, Bool.and_false] at h1 ⊢
        simp
        omega
    · have ht : tag.generics = [] := by
        cases tag <;> first | exact absurd ⟨_, rfl⟩ hp | rfl
      have hip : tag.isPath = false := by
        cases tag <;> first | exact absurd ⟨_, rfl⟩ hp | rfl
      cases asSlot with
      | false =>
        have hx : ∃ ns, NodesMean (childrenBlank cs) ns ∧ xmlMeans tag sels (attrs.map Attr.blank) ns = some t := by
          cases tag <;> first | exact absurd ⟨_, rfl⟩ hp | simpa only [Element.blank, Element.Means] using h
        obtain ⟨ns, hns, hx⟩ := hx
        have h2 := nodes_twice hw cs ns hns
        rw [xml_weighs hw hx, ht, hip]
        simp
        omega
      | true => cases tag <;> first | exact absurd ⟨_, rfl⟩ hp | (simp only [Element.blank, Element.Means] at h)

theorem nodes_twice (hw : Foreign w) : ∀ (cs : List Child) (ns : List Toks),
    NodesMean (childrenBlank cs) ns → total (weigh w) ns = 2 * weigh w (nodesKept cs)
  | [], ns, h => by
    simp only [childrenBlank, NodesMean] at h
    subst h; simp [nodesKept]
  | .value v :: cs, ns, h => by
    simp only [childrenBlank, NodesMean] at h
    obtain ⟨t, ns, ht, hns, rfl⟩ := h
    simp [nodesKept, rendered_weighs hw, value_zero hw ht, nodes_twice hw cs ns hns]
  | .elem e :: cs, ns, h => by
    simp only [childrenBlank, NodesMean] at h
    obtain ⟨t, ns, ht, hns, rfl⟩ := h
    simp only [nodesKept, total_cons, rendered_weighs hw, weigh_append,
      element_twice hw false e t ht (by simp), nodes_twice hw cs ns hns]
    omega
  | .slot e :: cs, ns, h => by
    simp only [childrenBlank, NodesMean] at h
    exact nodes_twice hw cs ns h

theorem slots_twice (hw : Foreign w) : ∀ (cs : List Child) (ss : List (Ident × Toks)),
    SlotsMean (childrenBlank cs) ss → total (weigh w) (ss.map Prod.snd) = 2 * weigh w (slotsKept cs)
  | [], ss, h => by
    simp only [childrenBlank, SlotsMean] at h
    subst h; simp [slotsKept]
  | .value v :: cs, ss, h => by
    simp only [childrenBlank, SlotsMean] at h
    exact slots_twice hw cs ss h
  | .elem e :: cs, ss, h => by
    simp only [childrenBlank, SlotsMean] at h
    exact slots_twice hw cs ss h
  | .slot e :: cs, ss, h => by
    simp only [childrenBlank, SlotsMean] at h
    split at h
    · rename_i name htag
      obtain ⟨t, ss, ht, hss, rfl⟩ := h
      have hg : e.tag.generics = [] := by
        have : e.blank.tag = e.tag := by
          obtain ⟨_, _, _, _, cs⟩ := e
          cases cs <;> rfl
        rw [← this, htag]; rfl
      simp only [slotsKept, List.map_cons, total_cons, weigh_append,
        element_twice hw true e t ht (fun _ => hg), slots_twice hw cs ss hss]
      omega
    · exact h.elim
end

theorem root_twice (hw : Foreign w) {root : List Child} {t : Toks} (h : RootMeans (childrenBlank root) t) :
    weigh w t = 2 * weigh w (childrenKept false root) := by
  obtain ⟨_, ns, hns, h⟩ := h
  have hz := nodes_twice hw root ns hns
  have hv : weigh w (viewOf ns) = total (weigh w) ns := by
    simp [viewOf, hw.ident, hw.punct, weigh_commaAfter]
  rw [childrenKept_split]
  simp only [Bool.false_eq_true, if_false, weigh_nil, Nat.add_zero, ← hz]
  rcases ns with _ | ⟨x, _ | ⟨y, ns⟩⟩
  · subst h; simp [hw.ident, hw.punct, hv]
  · subst h; simp [hw.ident, hw.punct]
  · subst h; simp [hw.ident, hw.punct, hv]

/-! ### all tokens of the input -/

theorem ctag_split (hw : Rare w) {pp : PathParser} {tag : CTag} {after : Toks} (h : tag.Wf pp after) :
    weigh w tag.toks = weigh w tag.pathToks := by
  cases tag with
  | name run => simpa [CTag.toks, CTag.pathToks] using name_weighs hw h.1
  | path used p => rfl

mutual
theorem celem_split (hw : Rare w) {pp : PathParser} : ∀ (e : CElem) (after : Toks), e.Wf pp after →
    weigh w e.toks = weigh w e.ast.code + weigh w e.pathToks
  | .mk tag sels attrs (.semi s), after, h => by
    rw [CElem.Wf] at h
    obtain ⟨h1, h2, h3, -⟩ := h
    have ht := ctag_split hw h1
    simp [CElem.toks, CEnd.toks, CElem.ast, CEnd.args, CEnd.children, Element.code, CElem.pathToks, ht, csels_weigh hw h2,
      cattrs_weigh hw h3, hw.punct]
    omega
  | .mk tag sels attrs (.block args d cs), after, h => by
    rw [CElem.Wf] at h
    obtain ⟨h1, h2, h3, h4⟩ := h
    rw [CEnd.Wf] at h4
    have ht := ctag_split hw h1
    have hc := cchildren_split hw cs [] h4.2
    simp [CElem.toks, CEnd.toks, CElem.ast, CEnd.args, CEnd.children, Element.code, CElem.pathToks, ht, csels_weigh hw h2,
      cattrs_weigh hw h3, args_weigh hw, hc]
    omega

theorem cchildren_split (hw : Rare w) {pp : PathParser} : ∀ (cs : List CChild) (after : Toks), childrenWf pp cs after →
    weigh w (childrenToks cs) = weigh w (childrenCode (childrenAst cs)) + weigh w (childrenPathToks cs)
  | [], _, _ => by simp [childrenToks, childrenAst, childrenCode, childrenPathToks]
  | .value v :: cs, after, h => by
    rw [childrenWf] at h
    have := cchildren_split hw cs after h.2
    simp [childrenToks, childrenAst, childrenCode, childrenPathToks, CChild.toks, CChild.ast, cval_weighs hw v, this]
    omega
  | .elem e :: cs, after, h => by
    rw [childrenWf, CChild.Wf] at h
    have h1 := celem_split hw e _ h.1.1
    have := cchildren_split hw cs after h.2
    simp [childrenToks, childrenAst, childrenCode, childrenPathToks, CChild.toks, CChild.ast, h1, this]
    omega
  | .slot s e :: cs, after, h => by
    rw [childrenWf, CChild.Wf] at h
    have h1 := celem_split hw e _ h.1.1
    have := cchildren_split hw cs after h.2
    simp [childrenToks, childrenAst, childrenCode, childrenPathToks, CChild.toks, CChild.ast, h1, this, hw.ident, hw.punct]
    omega
end

end Mview
