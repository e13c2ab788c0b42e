import Verif.Lemmas.Twice
import Verif.Lemmas.SizeReads
/-
C54: the user's code is not duplicated, in spite of errors.
-/

set_option linter.unusedVariables false
set_option linter.unusedSimpArgs false

namespace Mview
open Lex

variable {w : Leaf → Nat}

/-- The weight of the arguments of some calls. -/
def callsWeight (w : Leaf → Nat) (cs : List Call) : Nat := (cs.map fun c => weigh w c.args).sum

section
variable (hw : Foreign w)
include hw

theorem chain_weight (cs : List Call) : weigh w (chain cs) = callsWeight w cs := by
  induction cs with
  | nil => rfl
  | cons c cs ih =>
    obtain ⟨n, a⟩ := c
    simp only [callsWeight] at ih
    simp [chain, hw.ident, hw.punct, ih, callsWeight]

theorem commaAfter_weight (ts : List Toks) : weigh w (commaAfter ts) = (ts.map (weigh w)).sum := by
  rw [weigh_commaAfter, hw.punct]; simp [total]

theorem commaBetween_weight (ts : List Toks) : weigh w (commaBetween ts) = (ts.map (weigh w)).sum := by
  rw [weigh_commaBetween, hw.punct]; simp [total]

theorem anyway_weight (v : Value) : weigh w v.anyway ≤ weigh w v.code := by
  cases v with
  | lit l =>
    cases l with
    | tok l => simp [Value.anyway, Value.means, Value.code]
    | bool b => cases b <;> simp [Value.anyway, Value.means, Value.code, hw.ident]
  | block code => simp [Value.anyway, Value.means, Value.code]
  | bracket p code =>
    cases p with
    | none => simp [Value.anyway, Value.means, Value.code, hw.ident, hw.punct]
    | some p =>
      simp only [Value.anyway, Value.means, Value.code]
      split <;> simp [hw.ident, hw.punct]

theorem optAnyway_weight (v : Option Value) : weigh w (optAnyway v) ≤ weigh w (optCode v) := by
  cases v with
  | none => simp [optAnyway, optCode]
  | some v => exact anyway_weight hw v

theorem trueAnyway_weight (v : Option Value) : weigh w (trueAnyway v) ≤ weigh w (optCode v) := by
  cases v with
  | none => simp [trueAnyway, optCode, hw.ident]
  | some v => exact anyway_weight hw v

theorem kvElementAnyway_weight {kind : TagKind} {a : KvAttr} {c : Call} (h : a.onElementAnyway kind = some c) :
    weigh w c.args ≤ weigh w (Attr.kv a).code := by
  have hv : weigh w a.value.anyway ≤ weigh w (Attr.kv a).code := anyway_weight hw a.value
  unfold KvAttr.onElementAnyway at h
  dsimp only at h
  split at h
  · cases h; exact hv
  split at h
  · cases h; simpa [hw.ident, hw.punct, hw.str] using hv
  · rw [Option.map_eq_some_iff] at h
    obtain ⟨i, _, rfl⟩ := h
    exact hv

theorem kvComponentAnyway_weight {a : KvAttr} {c : Call} (h : a.onComponentAnyway = some c) :
    weigh w c.args ≤ weigh w (Attr.kv a).code := by
  unfold KvAttr.onComponentAnyway at h
  rw [Option.map_eq_some_iff] at h
  obtain ⟨i, _, rfl⟩ := h
  exact anyway_weight hw a.value

theorem eventAnyway_weight {d : Directive} {t : Toks} (h : d.eventAnyway = some t) : weigh w t = 0 := by
  have key : ∀ i : Ident, (if d.modifier = some (plain c!"undelegated") then
        some q!"::leptos::tachys::html::event::undelegated(::leptos::tachys::html::event::#i)"
      else some q!"::leptos::tachys::html::event::#i") = some t → weigh w t = 0 := by
    intro i h
    split at h <;> cases h <;> simp [hw.ident, hw.punct]
  unfold Directive.eventAnyway at h
  cases hk : d.key with
  | kebab k =>
    simp only [hk, Option.bind_eq_bind, Option.bind_eq_some_iff] at h
    obtain ⟨n, _, h⟩ := h
    exact key n h
  | str x =>
    rw [hk] at h
    exact key _ h

theorem useArgsAnyway_weight {d : Directive} {t : Toks} (h : d.useArgsAnyway = some t) :
    weigh w t ≤ weigh w (Attr.directive d).code := by
  obtain ⟨dir, key, m, v⟩ := d
  simp only [Directive.useArgsAnyway, Option.bind_eq_bind, Option.bind_eq_some_iff] at h
  obtain ⟨n, hn, h⟩ := h
  cases v with
  | none => cases h; simp [hw.ident, hw.punct]
  | some v =>
    cases h
    have := anyway_weight hw v
    simpa [hw.ident, hw.punct, Attr.code] using this

theorem onElementAnyway_weight {d : Directive} {cs : List Call} (h : d.onElementAnyway = some cs) :
    callsWeight w cs ≤ weigh w (Attr.directive d).code := by
  have hv : weigh w (optAnyway d.value) ≤ weigh w (Attr.directive d).code := optAnyway_weight hw d.value
  unfold Directive.onElementAnyway at h
  dsimp only at h
  split at h
  · cases h; simpa [callsWeight, hw.ident, hw.punct, hw.str] using hv
  split at h
  · cases h; simpa [callsWeight, hw.ident, hw.punct, hw.str] using hv
  split at h
  · simp only [Option.map_eq_some_iff] at h
    obtain ⟨ev, he, rfl⟩ := h
    simpa [callsWeight, hw.ident, hw.punct, hw.str, eventAnyway_weight hw he] using hv
  split at h
  · simp only [Option.map_eq_some_iff] at h
    obtain ⟨a, ha, rfl⟩ := h
    simpa [callsWeight] using useArgsAnyway_weight hw ha
  · cases h; simp [callsWeight]

theorem onComponentAnyway_weight {d : Directive} {es : List Toks} (h : d.onComponentAnyway = some es) :
    (es.map (weigh w)).sum ≤ weigh w (Attr.directive d).code := by
  have hv : weigh w (trueAnyway d.value) ≤ weigh w (Attr.directive d).code := trueAnyway_weight hw d.value
  have hv' : weigh w (optAnyway d.value) ≤ weigh w (Attr.directive d).code := optAnyway_weight hw d.value
  unfold Directive.onComponentAnyway at h
  dsimp only at h
  split at h
  · cases h; simpa [hw.ident, hw.punct, hw.str] using hv
  split at h
  · split at h
    · simp only [Option.map_eq_some_iff] at h
      obtain ⟨f, _, rfl⟩ := h
      simpa [hw.ident, hw.punct, hw.str] using hv
    split at h
    · cases h; simpa [hw.ident, hw.punct, hw.str] using hv
    · simp only [Option.map_eq_some_iff] at h
      obtain ⟨f, _, rfl⟩ := h
      simpa [hw.ident, hw.punct, hw.str] using hv
  split at h
  · simp only [Option.map_eq_some_iff] at h
    obtain ⟨f, _, rfl⟩ := h
    simpa [hw.ident, hw.punct, hw.str] using hv
  split at h
  · simp only [Option.map_eq_some_iff] at h
    obtain ⟨ev, he, rfl⟩ := h
    simpa [hw.ident, hw.punct, hw.str, eventAnyway_weight hw he] using hv'
  split at h
  · simp only [Option.map_eq_some_iff] at h
    obtain ⟨a, ha, rfl⟩ := h
    simpa [hw.ident, hw.punct, hw.str] using useArgsAnyway_weight hw ha
  · cases h; simp

theorem entryAnyway_weight {a : Attr} {es : List Toks} (h : a.entryAnyway = some es) :
    (es.map (weigh w)).sum ≤ weigh w a.code := by
  cases a with
  | kv a => cases h; simp
  | directive d => exact onComponentAnyway_weight hw h
  | spread e => cases h; simp [Attr.code]

theorem cloneAnyway_weight {d : Directive} {t : Toks} (h : d.cloneAnyway = some t) : weigh w t = 0 := by
  simp only [Directive.cloneAnyway, Option.map_eq_some_iff] at h
  obtain ⟨x, _, rfl⟩ := h
  simp [hw.ident, hw.punct]

end

/-! ### by kind -/

theorem codes_element (attrs : List Attr) :
    ((kvs attrs).map fun a => weigh w (Attr.kv a).code).sum +
      ((directives attrs).map fun d => weigh w (Attr.directive d).code).sum +
      ((spreads attrs).map fun e => weigh w (Attr.spread e).code).sum = weigh w (attrs.flatMap Attr.code) := by
  induction attrs with
  | nil => rfl
  | cons a as ih =>
    cases a <;> simp only [kvs, directives, spreads, List.filterMap_cons, List.map_cons,
      List.sum_cons, List.flatMap_cons, weigh_append] at ih ⊢ <;> omega

theorem codes_component (attrs : List Attr) :
    ((kvs attrs).map fun a => weigh w (Attr.kv a).code).sum +
      ((entries attrs).map fun a => weigh w a.code).sum ≤ weigh w (attrs.flatMap Attr.code) := by
  induction attrs with
  | nil => exact Nat.le_refl _
  | cons a as ih =>
    cases a with
    | directive d =>
      simp only [kvs, entries, List.filterMap_cons, List.filter_cons, List.flatMap_cons, weigh_append,
        List.map_cons, List.sum_cons] at ih ⊢
      by_cases hd : d.dir = plain c!"clone" <;> simp [hd] at ih ⊢ <;> omega
    | kv a =>
      simp only [kvs, entries, List.filterMap_cons, List.filter_cons, List.flatMap_cons, weigh_append,
        List.map_cons, List.sum_cons] at ih ⊢
      simp at ih ⊢; omega
    | spread a =>
      simp only [kvs, entries, List.filterMap_cons, List.filter_cons, List.flatMap_cons, weigh_append,
        List.map_cons, List.sum_cons] at ih ⊢
      simp at ih ⊢; omega

theorem namesSum (f : Ident × Toks → Nat) : ∀ (names : List Ident) (slots : List (Ident × Toks)), names.Nodup →
    (names.map fun n => ((slots.filter (·.1 = n)).map f).sum).sum ≤ (slots.map f).sum
  | [], slots, _ => by simp
  | n :: ns, slots, h => by
    rw [List.nodup_cons] at h
    have ih := namesSum f ns (slots.filter (·.1 ≠ n)) h.2
    have h1 : ∀ m ∈ ns, (slots.filter (·.1 ≠ n)).filter (·.1 = m) = slots.filter (·.1 = m) := by
      intro m hm
      rw [List.filter_filter]
      congr 1
      funext x
      by_cases hx : x.1 = m
      · have : x.1 ≠ n := fun h' => h.1 (by rw [← h', hx]; exact hm)
        simp [hx, hx ▸ this]
      · simp [hx]
    have h2 : (ns.map fun m => (((slots.filter (·.1 ≠ n)).filter (·.1 = m)).map f).sum) =
        ns.map fun m => ((slots.filter (·.1 = m)).map f).sum :=
      List.map_congr_left fun m hm => by rw [h1 m hm]
    rw [h2] at ih
    have h3 : ((slots.filter (·.1 = n)).map f).sum + ((slots.filter (·.1 ≠ n)).map f).sum =
        (slots.map f).sum := by
      clear ih h1 h2
      induction slots with
      | nil => rfl
      | cons x xs ih =>
        simp only [List.filter_cons]
        by_cases hx : x.1 = n <;> simp [hx] at ih ⊢ <;> omega
    simp only [List.map_cons, List.sum_cons]
    omega

section
variable (hw : Foreign w)
include hw

theorem slotArg_weight (ts : List Toks) : weigh w (slotArg ts) ≤ (ts.map (weigh w)).sum := by
  have h := commaBetween_weight hw ts
  unfold slotArg
  split
  · simp
  · dsimp only
    simp [hw.ident, hw.punct, h]

theorem slotCalls_weight {slots : List (Ident × Toks)} {calls : List Call} (h : SlotCalls slots calls) :
    callsWeight w calls ≤ (slots.map fun p => weigh w p.2).sum := by
  obtain ⟨names, hn, _, h⟩ := h
  refine Nat.le_trans ?_ (namesSum _ names slots hn)
  refine mapM_len (len := fun c : Call => weigh w c.args) (fun n c hc => ?_) h
  rw [Option.bind_eq_bind, Option.bind_eq_some_iff] at hc
  obtain ⟨m, h1, hc⟩ := hc
  cases hc
  have := slotArg_weight hw ((slots.filter (·.1 = n)).map Prod.snd)
  simpa [List.map_map, Function.comp_def] using this

theorem viewOf_weight (ns : List Toks) : weigh w (viewOf ns) = (ns.map (weigh w)).sum := by
  simp [viewOf, hw.ident, hw.punct, commaAfter_weight hw]

omit hw in
theorem childCalls_weight (ns : List Toks) : callsWeight w (ns.map childCall) = (ns.map (weigh w)).sum := by
  simp [callsWeight, childCall, Function.comp_def]

theorem childrenCall_weight (args : Option Toks) {cl : Toks} (hc : weigh w cl = 0) (ns : List Toks) :
    callsWeight w (childrenCall args cl ns) ≤ weigh w (args.getD []) + (ns.map (weigh w)).sum := by
  unfold childrenCall
  split
  · simp [callsWeight]
  · cases args <;> simp [callsWeight, hw.ident, hw.punct, hc, viewOf_weight hw]

omit hw in
theorem callsWeight_append (a b : List Call) : callsWeight w (a ++ b) = callsWeight w a + callsWeight w b := by
  simp [callsWeight]

theorem clonesAnyway_weight {ds : List Directive} {cl : List Toks} (h : ds.mapM Directive.cloneAnyway = some cl) :
    weigh w cl.flatten = 0 := by
  have h1 := mapM_all (P := fun c => weigh w c = 0) h fun a _ b hb => cloneAnyway_weight hw hb
  clear h
  induction cl with
  | nil => rfl
  | cons c cl ih =>
    simp [h1 c (by simp), ih fun b hb => h1 b (by simp [hb])]

theorem xmlAnyway_weight {tag : Tag} {sels : List Selector} {attrs : List Attr} {ns : List Toks} {t : Toks}
    (h : xmlAnyway tag sels attrs ns = some t) :
    weigh w t ≤ weigh w (attrs.flatMap Attr.code) + (ns.map (weigh w)).sum := by
  simp only [xmlAnyway, Option.bind_eq_bind, Option.bind_eq_some_iff, Option.pure_def, Option.some.injEq] at h
  obtain ⟨hd, hhd, as, has, ds, hds, rfl⟩ := h
  have h0 : weigh w hd = 0 := by
    cases tag <;> cases hhd <;> simp [hw.ident, hw.punct, hw.str]
  have h1 := mapM_len (b := fun a => weigh w (Attr.kv a).code) (len := fun c : Call => weigh w c.args)
    (fun _ _ => kvElementAnyway_weight hw) has
  have h2 := mapM_len (b := fun d => weigh w (Attr.directive d).code) (len := callsWeight w)
    (fun _ _ => onElementAnyway_weight hw) hds
  have h3 : callsWeight w ((classes sels).map classCall) = 0 := by
    simp [callsWeight, Function.comp_def, classCall, coloured_zero hw, hw.ident, hw.punct]
  have h4 : callsWeight w ((ids sels).map idCall) = 0 := by
    simp [callsWeight, Function.comp_def, idCall, coloured_zero hw]
  have h5 : callsWeight w ((spreads attrs).map spreadCall) =
      ((spreads attrs).map fun e => weigh w (Attr.spread e).code).sum := by
    simp [callsWeight, Function.comp_def, spreadCall, Attr.code]
  have h6 := childCalls_weight (w := w) ns
  have h7 := codes_element (w := w) attrs
  have h8 : callsWeight w ds.flatten = (ds.map (callsWeight w)).sum := flatten_sum _ _
  have h9 : callsWeight w as = (as.map fun c : Call => weigh w c.args).sum := rfl
  simp only [splice_toks, weigh_append, chain_weight hw, callsWeight_append, h0, h3, h4, h5, h6, h8, h9]
  omega

theorem componentAnyway_weight {p : Path} {sels : List Selector} {attrs : List Attr} {args : Option Toks}
    {ns : List Toks} {calls : List Call} {t : Toks}
    (h : componentAnyway p sels attrs args ns calls = some t) :
    weigh w t ≤ weigh w (attrs.flatMap Attr.code) + weigh w (args.getD []) + (ns.map (weigh w)).sum +
      callsWeight w calls + 2 * weigh w p.generics := by
  simp only [componentAnyway, Option.bind_eq_bind, Option.bind_eq_some_iff, Option.pure_def,
    Option.some.injEq] at h
  obtain ⟨pt, hpt, as, has, es, hes, cl, hcl, rfl⟩ := h
  have h0 := path_weighs hw hpt
  have h1 := mapM_len (b := fun a => weigh w (Attr.kv a).code) (len := fun c : Call => weigh w c.args)
    (fun _ _ => kvComponentAnyway_weight hw) has
  have h2 := mapM_len (b := fun a => weigh w (Attr.code a)) (len := fun es : List Toks => (es.map (weigh w)).sum)
    (fun _ _ => entryAnyway_weight hw) hes
  have h3 := childrenCall_weight hw args (clonesAnyway_weight hw hcl) ns
  have h4 : callsWeight w [⟨plain c!"build", []⟩] = 0 := by simp [callsWeight]
  have h5 : (((classes sels).map classEntry).map (weigh w)).sum = 0 := by
    simp [Function.comp_def, classEntry, hw.ident, hw.punct, hw.str]
  have h6 : ((idEntry (ids sels)).map (weigh w)).sum = 0 := by
    unfold idEntry
    split <;> simp [hw.ident, hw.punct, hw.str]
  have h7 := codes_component (w := w) attrs
  have h8 : (es.flatten.map (weigh w)).sum = (es.map fun es => (es.map (weigh w)).sum).sum := flatten_sum _ _
  have h9 : callsWeight w as = (as.map fun c : Call => weigh w c.args).sum := rfl
  have h10 : ∀ path calls es : Toks,
      weigh w q!"#[allow(unreachable_code)] ::leptos::prelude::View::new(
        ::leptos::component::component_view(& #path,
          ::leptos::component::component_props_builder(& #path) #calls
        ).add_any_attr((#es)))" = weigh w calls + weigh w es + 2 * weigh w path := by
    intro path calls es
    simp [hw.ident, hw.punct]
    omega
  rw [h10, h0, chain_weight hw, commaAfter_weight hw]
  simp only [callsWeight_append, List.map_append, List.sum_append, h4, h5, h6, h8, h9]
  omega

theorem slotAnyway_weight {p : Path} {attrs : List Attr} {args : Option Toks}
    {ns : List Toks} {t : Toks}
    (h : slotAnyway p attrs args ns = some t) :
    weigh w t ≤ weigh w (attrs.flatMap Attr.code) + weigh w (args.getD []) + (ns.map (weigh w)).sum +
      weigh w p.generics := by
  simp only [slotAnyway, Option.bind_eq_bind, Option.bind_eq_some_iff, Option.pure_def,
    Option.some.injEq] at h
  obtain ⟨pt, hpt, as, has, cl, hcl, rfl⟩ := h
  have h0 := path_weighs hw hpt
  have h1 := mapM_len (b := fun a => weigh w (Attr.kv a).code) (len := fun c : Call => weigh w c.args)
    (fun _ _ => kvComponentAnyway_weight hw) has
  have h3 := childrenCall_weight hw args (clonesAnyway_weight hw hcl) ns
  have h4 : callsWeight w [⟨plain c!"build", []⟩] = 0 := by simp [callsWeight]
  have h7 := codes_component (w := w) attrs
  have h9 : callsWeight w as = (as.map fun c : Call => weigh w c.args).sum := rfl
  have h10 : ∀ path calls : Toks,
      weigh w q!"::std::convert::Into::into(#path ::builder() #calls)" = weigh w path + weigh w calls := by
    intro path calls
    simp [hw.ident, hw.punct]
  rw [h10, h0, chain_weight hw]
  simp only [callsWeight_append, h4, h9]
  omega

theorem rendered_weight (t : Toks) : weigh w (rendered t) = weigh w t := by
  simp [rendered, hw.ident, hw.punct]

/-! ### the whole tree -/

/-- The weight of the children that are not slots, with generic arguments twice. -/
def nodesWeight (w : Leaf → Nat) : List Child → Nat
  | [] => 0
  | .value v :: cs => weigh w v.code + nodesWeight w cs
  | .elem e :: cs => weigh w e.code + 2 * weigh w e.generics + nodesWeight w cs
  | .slot _ :: cs => nodesWeight w cs

/-- The weight of the slots, likewise. -/
def slotsWeight (w : Leaf → Nat) : List Child → Nat
  | [] => 0
  | .value _ :: cs => slotsWeight w cs
  | .elem _ :: cs => slotsWeight w cs
  | .slot e :: cs => weigh w e.code + 2 * weigh w e.generics + slotsWeight w cs

omit hw in
theorem nodes_and_slots : ∀ cs, nodesWeight w cs + slotsWeight w cs =
    weigh w (childrenCode cs) + 2 * weigh w (childrenGenerics cs)
  | [] => rfl
  | .value v :: cs => by
    have := nodes_and_slots cs; simp only [nodesWeight, slotsWeight, childrenCode, childrenGenerics, weigh_append]; omega
  | .elem e :: cs => by
    have := nodes_and_slots cs; simp only [nodesWeight, slotsWeight, childrenCode, childrenGenerics, weigh_append]; omega
  | .slot e :: cs => by
    have := nodes_and_slots cs; simp only [nodesWeight, slotsWeight, childrenCode, childrenGenerics, weigh_append]; omega

mutual
theorem becomes_weight (asSlot : Bool) : ∀ (e : Element) (t : Toks), e.Becomes asSlot t →
    weigh w t ≤ weigh w e.code + 2 * weigh w e.generics
  | .mk tag sels attrs args none, t, h => by
    unfold Element.Becomes at h
    simp only [Element.code, Element.generics, weigh_append]
    cases asSlot <;> cases tag
    case false.component p =>
      have := componentAnyway_weight hw h
      simp only [List.map_nil, List.sum_nil, callsWeight, Tag.generics] at this ⊢
      omega
    case true.component p =>
      have := slotAnyway_weight hw h
      simp only [List.map_nil, List.sum_nil, Tag.generics] at this ⊢
      omega
    all_goals first
      | exact h.elim
      | (have := xmlAnyway_weight hw h; simp only [List.map_nil, List.sum_nil] at this; omega)
  | .mk tag sels attrs args (some cs), t, h => by
    unfold Element.Becomes at h
    have hs := nodes_and_slots (w := w) cs
    simp only [Element.code, Element.generics, weigh_append]
    cases asSlot <;> cases tag
    case false.component p =>
      obtain ⟨ns, ss, calls, h1, h2, h3, h4⟩ := h
      have := componentAnyway_weight hw h4
      have := nodesBecome_weight cs ns h1
      simp only [Tag.generics]
      have := slotsBecome_weight cs ss h2
      have := slotCalls_weight hw h3
      omega
    case true.component p =>
      obtain ⟨ns, ss, calls, h1, h2, h3, h4⟩ := h
      have := slotAnyway_weight hw h4
      have := nodesBecome_weight cs ns h1
      simp only [Tag.generics]
      omega
    all_goals first
      | exact h.elim
      | (obtain ⟨ns, h1, h2⟩ := h
         have := nodesBecome_weight cs ns h1
         have := xmlAnyway_weight hw h2
         omega)

theorem nodesBecome_weight : ∀ (cs : List Child) (ts : List Toks), NodesBecome cs ts →
    (ts.map (weigh w)).sum ≤ nodesWeight w cs
  | [], ts, h => by unfold NodesBecome at h; subst h; simp
  | .value v :: cs, ts, h => by
    unfold NodesBecome at h
    obtain ⟨ts', h2, rfl⟩ := h
    have := nodesBecome_weight cs ts' h2
    have := anyway_weight hw v
    simp only [List.map_cons, List.sum_cons, nodesWeight, rendered_weight hw]
    omega
  | .elem e :: cs, ts, h => by
    unfold NodesBecome at h
    obtain ⟨t, ts', h1, h2, rfl⟩ := h
    have := nodesBecome_weight cs ts' h2
    have := becomes_weight false e t h1
    simp only [List.map_cons, List.sum_cons, nodesWeight, rendered_weight hw]
    omega
  | .slot e :: cs, ts, h => by
    unfold NodesBecome at h
    unfold nodesWeight
    exact nodesBecome_weight cs ts h

theorem slotsBecome_weight : ∀ (cs : List Child) (ts : List (Ident × Toks)), SlotsBecome cs ts →
    (ts.map fun p => weigh w p.2).sum ≤ slotsWeight w cs
  | [], ts, h => by unfold SlotsBecome at h; subst h; simp
  | .value v :: cs, ts, h => by
    unfold SlotsBecome at h
    unfold slotsWeight
    exact slotsBecome_weight cs ts h
  | .elem e :: cs, ts, h => by
    unfold SlotsBecome at h
    unfold slotsWeight
    exact slotsBecome_weight cs ts h
  | .slot e :: cs, ts, h => by
    rw [slotsBecome_slot] at h
    unfold slotsWeight
    obtain ⟨p, hp, h⟩ := h
    rcases h with ⟨name, hn, t, ts', h1, h2, rfl⟩ | ⟨_, h⟩
    · have := slotsBecome_weight cs ts' h2
      have := becomes_weight true e t h1
      simp only [List.map_cons, List.sum_cons]
      omega
    · have := slotsBecome_weight cs ts h
      omega
end

/-- What is generated contains no more of the code than the tree, and of generic arguments no more than twice. -/
theorem root_weight {cs : List Child} {t : Toks} (h : RootBecomes cs t) :
    weigh w t ≤ weigh w (childrenCode cs) + 2 * weigh w (childrenGenerics cs) := by
  obtain ⟨_, nodes, h1, h2⟩ := h
  have h3 := nodesBecome_weight hw cs nodes h1
  have h4 := viewOf_weight hw nodes
  have h5 := nodes_and_slots (w := w) cs
  have h6 : ∀ t : Toks, weigh w q!"{ #[allow(unused_braces)] #t }" = weigh w t := by
    intro t; simp [hw.ident, hw.punct]
  split at h2
  · rename_i x
    subst h2
    rw [h6]
    simp only [List.map_cons, List.map_nil, List.sum_cons, List.sum_nil] at h3
    omega
  · dsimp only at h2
    subst h2
    rw [h6]
    omega

end

/-! ### the code in what is read -/

section
variable (hw : Rare w)
include hw

theorem value_reads_weight (v : CVal) : weigh w v.ast.code ≤ weigh w v.toks := by
  cases v with
  | lit l => simp [CVal.ast, CVal.toks, Value.code]
  | bool b => cases b <;> simp [CVal.ast, CVal.toks, Value.code, hw.ident]
  | neg s f text => cases f <;> simp [CVal.ast, CVal.toks, Value.code, hw.int, hw.float]
  | block code => simp [CVal.ast, CVal.toks, Value.code]
  | bracket pfx code => cases pfx <;> simp [CVal.ast, CVal.toks, Value.code]

theorem readsValue_weight {ts : Toks} {is : List Issue} {v : Value} {rest : Toks} (h : ReadsValue ts is v rest) :
    weigh w v.code + weigh w rest ≤ weigh w ts := by
  cases h with
  | value h =>
    rename_i v
    have := value_reads_weight hw v
    rw [weigh_append]; omega
  | missing => simp [Value.code, hw.ident, hw.punct]

theorem eq_weight {ts : Toks} {is : List Issue} {v : Option Value} {rest : Toks} (h : ReadsEq ts is v rest) :
    weigh w (optCode v) + weigh w rest ≤ weigh w ts := by
  cases h with
  | some h =>
    have := readsValue_weight hw h
    simp only [optCode, Option.map_some, Option.getD_some, weigh_cons] at this ⊢; omega
  | none h => simp [optCode]

theorem getD_true_weight (v : Option Value) : weigh w (v.getD (.lit (.bool true))).code = weigh w (optCode v) := by
  cases v with
  | none => simp [optCode, Value.code, hw.ident]
  | some v => simp [optCode]

theorem shortValue_weight (c : Toks) : weigh w (shortValue c).code = 0 := by
  simp [shortValue, Value.code, hw.ident]

omit hw in
theorem modifier_weight {ts : Toks} {m : Option Ident} {rest : Toks} (h : ReadsModifier ts m rest) :
    weigh w rest ≤ weigh w ts := by
  cases h with
  | some => simp only [weigh_cons]; omega
  | none => exact Nat.le_refl _

omit hw in
theorem longest_weight {ts run rest : Toks} (h : LongestKebab ts run rest) : weigh w rest ≤ weigh w ts := by
  rw [h.split, weigh_append]; omega

omit hw in
theorem key_weight {ts : Toks} {is : List Issue} {k : KebabOrStr} {rest : Toks} (h : ReadsKey ts is k rest) :
    weigh w rest ≤ weigh w ts := by
  cases h with
  | str => simp only [weigh_cons]; omega
  | name h => exact longest_weight h

omit hw in
theorem sels_weight {ts : Toks} {is : List Issue} {sels : List Selector} {rest : Toks}
    (h : ReadsSels ts is sels rest) : weigh w rest ≤ weigh w ts := by
  induction h with
  | cls hk _ ih => have := longest_weight (w := w) hk; simp only [weigh_cons]; omega
  | id hk _ ih => have := longest_weight (w := w) hk; simp only [weigh_cons]; omega
  | done => exact Nat.le_refl _

theorem attrs_weight {ts : Toks} {is : List Issue} {as : List Attr} {rest : Toks}
    (h : ReadsAttrs ts is as rest) : weigh w (as.flatMap Attr.code) + weigh w rest ≤ weigh w ts := by
  induction h with
  | @short c rest is as left hk _ ih =>
    have h2 := shortValue_weight hw c
    simp only [List.flatMap_cons, Attr.code, weigh_append, weigh_cons, h2]
    omega
  | spread _ ih =>
    simp only [List.flatMap_cons, Attr.code, weigh_append, weigh_cons, weight_group]
    omega
  | @kv ts run rest js v rest' is as left hk _ he _ ih =>
    have h1 := longest_weight (w := w) hk
    have h2 := eq_weight hw he
    have h3 := getD_true_weight hw v
    simp only [List.flatMap_cons, Attr.code, weigh_append, h3]
    omega
  | @dirShort d s c rest m rest' is as left hk hm _ ih =>
    have h2 := shortValue_weight hw c
    have h3 := modifier_weight (w := w) hm
    simp only [List.flatMap_cons, Attr.code, weigh_append, weigh_cons, Option.map_some, Option.getD_some, h2]
    omega
  | @dir d s ts ks key r1 m r2 js v r3 is as left hk hm he _ ih =>
    have h1 := key_weight (w := w) hk
    have h2 := modifier_weight (w := w) hm
    have h3 : weigh w ((v.map Value.code).getD []) + weigh w r3 ≤ weigh w r2 := eq_weight hw he
    simp only [List.flatMap_cons, Attr.code, weigh_append, weigh_cons]
    omega
  | dirMore => simp
  | dirNoName => simp
  | dirNoKey => simp
  | dirShortNoModifier => simp
  | dirNoModifier => simp
  | brace => simp
  | done => simp

omit hw in
theorem tag_weight {pp : PathParser} {ts : Toks} {is : List Issue} {tag : Tag} {rest : Toks}
    (h : ReadsTag pp ts is tag rest) : weigh w rest ≤ weigh w ts := by
  cases h with
  | path _ hr =>
    obtain ⟨used, hu, rfl⟩ := pp.progress _ _ _ hr
    rw [weigh_append]; omega
  | name _ hk ht => exact longest_weight hk
  | crash => simp

omit hw in
theorem start_weight {ts : Toks} {b : Bool} {r : Toks} (h : ElemStart ts b r) : weigh w r ≤ weigh w ts := by
  cases h with
  | slot => simp only [weigh_cons]; omega
  | elem => exact Nat.le_refl _

omit hw in
theorem noTag_weight {pp : PathParser} {ts : Toks} {e : Err} {rest : Toks} (h : NoTag pp ts e rest) :
    weigh w rest ≤ weigh w ts := by
  cases h with
  | path _ hr =>
    obtain ⟨used, rfl⟩ := pp.suffix _ _ hr
    rw [weigh_append]; omega
  | name => exact Nat.le_refl _

/-- The code in a block. -/
def blockCode : Option (List Child) → Toks
  | none => []
  | some cs => childrenCode cs

omit hw in
theorem Element.code_eq (tag : Tag) (sels : List Selector) (attrs : List Attr) (args : Option Toks)
    (block : Option (List Child)) : weigh w (Element.mk tag sels attrs args block).code =
      weigh w (attrs.flatMap Attr.code) + weigh w (args.getD []) + weigh w (blockCode block) := by
  cases block <;> simp only [Element.code, blockCode, weigh_append, weigh_nil] <;> omega

mutual
theorem end_weight {pp : PathParser} {ts : Toks} {is : List Issue} {args : Option Toks}
    {block : Option (List Child)} {rest : Toks} (h : ReadsEnd pp ts is args block rest) :
    weigh w (args.getD []) + weigh w (blockCode block) + weigh w rest ≤ weigh w ts := by
  match h with
  | .semi => simp [blockCode]
  | .block _ h =>
    have := children_weight h
    simp only [blockCode, Option.getD_none, weigh_cons, weigh_nil, weight_group]; omega
  | .closure _ _ h =>
    have := children_weight h
    simp only [blockCode, Option.getD_some, piped, weigh_cons, weigh_append, weigh_nil, weight_group,
      weight_punct, hw.punct]; omega
  | .nothing => simp [blockCode]
  | .noBlock _ _ =>
    simp only [blockCode, Option.getD_some, piped, weigh_cons, weigh_append, weigh_nil, weight_punct, hw.punct]
    omega
  | .other _ _ _ => simp [blockCode]

/-- The tree contains no more code than the input. -/
theorem children_weight {pp : PathParser} {ts : Toks} {is : List Issue} {cs : List Child}
    (h : ReadsChildren pp ts is cs) : weigh w (childrenCode cs) ≤ weigh w ts := by
  match h with
  | .nil => simp [childrenCode]
  | .value (v := v) _ hv h =>
    have := children_weight h
    have h1 := value_reads_weight hw v
    simp only [childrenCode, weigh_append]
    omega
  | .literal (v := v) _ hv h =>
    have := children_weight h
    simp only [childrenCode, weigh_append, Value.code, weigh_cons, weigh_nil, weight_lit, hw.str]
    omega
  | .elem (isSlot := b) hs ht hsel ha he h =>
    have h0 := start_weight (w := w) hs
    have h1 := tag_weight (w := w) ht
    have h2 := sels_weight (w := w) hsel
    have h3 := attrs_weight hw ha
    have h4 := end_weight he
    have h5 := children_weight h
    cases b <;> simp only [asChild, childrenCode, weigh_append, Element.code_eq, if_true, if_false,
      Bool.false_eq_true] <;> omega
  | .unclosed _ _ _ _ _ => simp [childrenCode]
  | .noTagSemi hs ht h =>
    have := children_weight h
    have h0 := start_weight (w := w) hs
    have h1 := noTag_weight (w := w) ht
    simp only [weigh_cons] at h1
    omega
  | .noTag _ _ _ => simp [childrenCode]
  | .semi h =>
    have := children_weight h
    simp only [weigh_cons]
    omega
  | .other _ _ _ => simp [childrenCode]
end

end

end Mview
