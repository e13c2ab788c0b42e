import Verif.Spec.Size
import Verif.Spec.Recovery
import Verif.Spec.Reads
import Verif.Lemmas.Basic
import Verif.Lemmas.NightlyTree
/-
C51: the size of what is generated.
-/

set_option linter.unusedVariables false

namespace Mview
open Lex

/-! ### lengths -/

theorem toksLen_append (a b : Toks) : toksLen (a ++ b) = toksLen a + toksLen b := by
  induction a with
  | nil => simp [toksLen]
  | cons t ts ih => simp [toksLen, ih]; omega

theorem rawIdent_len {n : Str} {i : Ident} (h : rawIdent n = some i) : i.len = n.length + 2 := by
  unfold rawIdent at h
  split at h
  · simp at h
  · cases h; simp [Ident.len]

theorem rawIdentOf_len {n : Str} {i : Ident} (h : rawIdentOf n = some i) : i.len = n.length + 2 := by
  have := rawIdent_len h
  simpa using this

theorem snakeCase_len (n : Str) : (snakeCase n).length ≤ 2 * n.length := by
  cases n with
  | nil => simp [snakeCase]
  | cons c cs =>
    simp only [snakeCase, List.length_cons]
    have : (cs.flatMap fun c => if c.isUpper then ['_', c.toLower] else [c]).length ≤ 2 * cs.length := by
      induction cs with
      | nil => simp
      | cons c cs ih =>
        rw [List.flatMap_cons, List.length_append, List.length_cons]
        split <;> simp only [List.length_cons, List.length_nil] <;> omega
    omega

/-- The length of a method call. -/
def Call.len (c : Call) : Nat := c.name.len + toksLen c.args + 7

theorem chain_len (cs : List Call) : toksLen (chain cs) = (cs.map Call.len).sum := by
  induction cs with
  | nil => rfl
  | cons c cs ih =>
    cases c
    simp [chain, toksLen, TT.len, ih, Call.len]; omega

theorem commaAfter_len (ts : List Toks) : toksLen (commaAfter ts) = (ts.map fun t => toksLen t + 2).sum := by
  induction ts with
  | nil => rfl
  | cons c cs ih => simp [commaAfter, toksLen, TT.len, toksLen_append, ih]; omega

theorem commaBetween_len (ts : List Toks) :
    toksLen (commaBetween ts) ≤ (ts.map fun t => toksLen t + 2).sum := by
  induction ts with
  | nil => simp [commaBetween, toksLen]
  | cons c cs ih =>
    cases cs with
    | nil => simp [commaBetween]
    | cons d ds =>
      simp only [commaBetween] at ih ⊢
      simp only [splice_toks, toksLen_append, toksLen, TT.len, List.map_cons, List.sum_cons] at ih ⊢
      omega

theorem colours_len (n : Nat) : toksLen (colours n) = 16 * n := by
  induction n with
  | zero => rfl
  | succ n ih => simp [colours, toksLen, TT.len, ih, Ident.len]; omega

/-! ### pieces -/

theorem mapM_len {α β : Type} {f : α → Option β} {b : α → Nat} {len : β → Nat}
    (hf : ∀ x y, f x = some y → len y ≤ b x) : ∀ {xs : List α} {ys : List β}, xs.mapM f = some ys →
      (ys.map len).sum ≤ (xs.map b).sum
  | [], ys, h => by cases h; simp
  | x :: xs, ys, h => by
    rw [List.mapM_cons] at h
    simp only [Option.bind_eq_bind, Option.bind_eq_some_iff] at h
    obtain ⟨y, h1, zs, h2, h3⟩ := h
    cases h3
    have := hf x y h1
    have := mapM_len hf h2
    simp only [List.map_cons, List.sum_cons]
    omega

theorem flatten_sum {α : Type} (f : α → Nat) (xs : List (List α)) :
    (xs.flatten.map f).sum = (xs.map fun ys => (ys.map f).sum).sum := by
  induction xs with
  | nil => rfl
  | cons x xs ih => rw [List.flatten_cons, List.map_append, List.sum_append, ih]; rfl

/-- The length of a value. -/
def optLen : Option Value → Nat
  | none => 0
  | some v => toksLen v.anyway

theorem optAnyway_len (v : Option Value) : toksLen (optAnyway v) = optLen v := by
  cases v <;> rfl

theorem trueAnyway_len (v : Option Value) : toksLen (trueAnyway v) ≤ optLen v + 5 := by
  cases v
  · exact Nat.le_refl _
  · exact Nat.le_add_right _ _

/-- How much code an attribute can become. -/
def Attr.bulk : Attr → Nat
  | .kv a => 130 + a.key.repr.length + toksLen a.value.anyway
  | .directive d => 260 + 2 * d.key.text.length + optLen d.value
  | .spread e => 30 + toksLen e

theorem onElementAnyway_len {kind : TagKind} {a : KvAttr} {c : Call} (h : a.onElementAnyway kind = some c) :
    c.len ≤ (Attr.kv a).bulk := by
  unfold KvAttr.onElementAnyway at h
  dsimp only at h
  split at h
  · cases h; simp [Call.len, Attr.bulk, Ident.len]; omega
  split at h
  · cases h; simp [Call.len, Attr.bulk, Ident.len, toksLen, TT.len, Lit.len]; omega
  · rw [Option.map_eq_some_iff] at h
    obtain ⟨i, h1, rfl⟩ := h
    have := rawIdentOf_len h1
    simp only [Call.len, Attr.bulk]; omega

theorem onComponentAnyway_len {a : KvAttr} {c : Call} (h : a.onComponentAnyway = some c) :
    c.len ≤ (Attr.kv a).bulk := by
  unfold KvAttr.onComponentAnyway at h
  rw [Option.map_eq_some_iff] at h
  obtain ⟨i, h1, rfl⟩ := h
  have := rawIdentOf_len h1
  simp only [Call.len, Attr.bulk]; omega

theorem identAnyway_len {k : KebabOrStr} {i : Ident} (h : k.identAnyway = some i) :
    i.len ≤ k.text.length + 30 := by
  cases k with
  | kebab k => have := rawIdentOf_len h; simp only [KebabOrStr.text]; omega
  | str s => cases h; simp [Ident.len]

theorem eventAnyway_len {d : Directive} {t : Toks} (h : d.eventAnyway = some t) :
    toksLen t ≤ d.key.text.length + 130 := by
  have key : ∀ i : Ident, i.len ≤ d.key.text.length + 20 →
      (if d.modifier = some (plain c!"undelegated") then
        some q!"::leptos::tachys::html::event::undelegated(::leptos::tachys::html::event::#i)"
      else some q!"::leptos::tachys::html::event::#i") = some t → toksLen t ≤ d.key.text.length + 130 := by
    intro i hi h
    split at h
    all_goals
      cases h
      simp [toksLen, TT.len]
      simp [Ident.len] at hi ⊢
      omega
  unfold Directive.eventAnyway at h
  cases hk : d.key with
  | kebab k =>
    rw [hk] at h key
    cases hi : rawIdentOf k.repr with
    | none => simp [hi] at h
    | some i =>
      simp only [hi] at h
      have := rawIdentOf_len hi
      exact key i (by simp only [KebabOrStr.text]; omega) h
  | str s =>
    rw [hk] at h key
    exact key (plain c!"invalid_event") (by simp [Ident.len]) h

theorem useArgsAnyway_len {d : Directive} {t : Toks} (h : d.useArgsAnyway = some t) :
    toksLen t ≤ d.key.text.length + optLen d.value + 80 := by
  unfold Directive.useArgsAnyway at h
  rw [Option.bind_eq_bind, Option.bind_eq_some_iff] at h
  obtain ⟨i, h1, h⟩ := h
  have hi := identAnyway_len h1
  cases hv : d.value with
  | none => rw [hv] at h; cases h; simp [toksLen, TT.len, optLen]; simp [Ident.len] at hi ⊢; omega
  | some v => rw [hv] at h; cases h; simp [toksLen, TT.len, optLen]; simp [Ident.len] at hi ⊢; omega

theorem directiveAnyway_len {d : Directive} {cs : List Call} (h : d.onElementAnyway = some cs) :
    (cs.map Call.len).sum ≤ (Attr.directive d).bulk := by
  unfold Directive.onElementAnyway at h
  dsimp only at h
  have hv := optAnyway_len d.value
  split at h
  · rename_i hd
    cases h
    rcases hd with hd | hd <;> rw [hd] <;>
      simp [Call.len, Attr.bulk, toksLen, TT.len, Lit.len, Ident.len, hv] <;> omega
  split at h
  · rename_i hd
    cases h
    rw [hd]
    simp [Call.len, Attr.bulk, toksLen, TT.len, Lit.len, Ident.len, hv]; omega
  split at h
  · rename_i hd
    rw [Option.map_eq_some_iff] at h
    obtain ⟨e, h1, rfl⟩ := h
    have := eventAnyway_len h1
    rw [hd]
    simp [Call.len, Attr.bulk, toksLen, TT.len, Ident.len, toksLen_append, hv]; omega
  split at h
  · rw [Option.map_eq_some_iff] at h
    obtain ⟨e, h1, rfl⟩ := h
    have := useArgsAnyway_len h1
    simp [Call.len, Attr.bulk, Ident.len]; omega
  · cases h; simp

set_option maxHeartbeats 1000000 in
theorem entryDirective_len {d : Directive} {cs : List Toks} (h : d.onComponentAnyway = some cs) :
    (cs.map fun t => toksLen t + 2).sum ≤ (Attr.directive d).bulk := by
  unfold Directive.onComponentAnyway at h
  dsimp only at h
  have hv := trueAnyway_len d.value
  have hv' := optAnyway_len d.value
  split at h
  · rename_i hd
    cases h
    rcases hd with hd | hd <;> rw [hd] <;>
      simp [Attr.bulk, toksLen, TT.len, Lit.len, Ident.len] <;> omega
  split at h
  · split at h
    · rw [Option.map_eq_some_iff] at h
      obtain ⟨i, h1, rfl⟩ := h
      have := identAnyway_len h1
      have : i.name.length ≤ i.len := by simp [Ident.len]
      have hp : (plain i.name).len = i.name.length := by simp [Ident.len]
      simp only [List.map_cons, List.map_nil, List.sum_cons, List.sum_nil, Attr.bulk, toksLen, TT.len,
        List.nil_append, List.cons_append, splice_ident, splice_toks, hp]
      simp only [Ident.len, List.length_cons, List.length_nil]
      simp only [Ident.len] at *
      omega
    split at h
    · cases h
      simp [Attr.bulk, toksLen, TT.len, Lit.len, Ident.len]; omega
    · rw [Option.map_eq_some_iff] at h
      obtain ⟨i, h1, rfl⟩ := h
      have := identAnyway_len h1
      simp [Attr.bulk, toksLen, TT.len]; simp [Ident.len] at *; omega
  split at h
  · rw [Option.map_eq_some_iff] at h
    obtain ⟨i, h1, rfl⟩ := h
    have := identAnyway_len h1
    simp [Attr.bulk, toksLen, TT.len]; simp [Ident.len] at *; omega
  split at h
  · rw [Option.map_eq_some_iff] at h
    obtain ⟨e, h1, rfl⟩ := h
    have := eventAnyway_len h1
    simp [Attr.bulk, toksLen, TT.len, Ident.len, toksLen_append, hv']; omega
  split at h
  · rw [Option.map_eq_some_iff] at h
    obtain ⟨e, h1, rfl⟩ := h
    have := useArgsAnyway_len h1
    simp [Attr.bulk, toksLen, TT.len, Ident.len]; omega
  · cases h; simp

theorem cloneAnyway_len {d : Directive} {t : Toks} (h : d.cloneAnyway = some t) :
    toksLen t ≤ (Attr.directive d).bulk := by
  unfold Directive.cloneAnyway at h
  rw [Option.map_eq_some_iff] at h
  obtain ⟨i, h1, rfl⟩ := h
  have := identAnyway_len h1
  simp [Attr.bulk, toksLen, TT.len]; simp [Ident.len] at *; omega

/-! ### attributes by kind -/

/-- How much code some attributes can become. -/
def attrsBulk (attrs : List Attr) : Nat := (attrs.map Attr.bulk).sum

theorem byKind_element (attrs : List Attr) :
    ((kvs attrs).map fun a => (Attr.kv a).bulk).sum +
      ((directives attrs).map fun d => (Attr.directive d).bulk).sum +
      ((spreads attrs).map fun e => (Attr.spread e).bulk).sum = attrsBulk attrs := by
  induction attrs with
  | nil => rfl
  | cons a as ih =>
    cases a <;> simp only [attrsBulk, kvs, directives, spreads, List.filterMap_cons, List.map_cons,
      List.sum_cons] at ih ⊢ <;> omega

theorem byKind_component (attrs : List Attr) :
    ((kvs attrs).map fun a => (Attr.kv a).bulk).sum + ((entries attrs).map Attr.bulk).sum +
      ((clones attrs).map fun d => (Attr.directive d).bulk).sum = attrsBulk attrs := by
  induction attrs with
  | nil => rfl
  | cons a as ih =>
    cases a with
    | directive d =>
      simp only [attrsBulk, kvs, clones, directives, entries, List.filterMap_cons, List.filter_cons,
        List.map_cons, List.sum_cons] at ih ⊢
      by_cases hd : d.dir = plain c!"clone" <;> simp [hd] at ih ⊢ <;> omega
    | kv a =>
      simp only [attrsBulk, kvs, clones, directives, entries, List.filterMap_cons, List.filter_cons,
        List.map_cons, List.sum_cons] at ih ⊢
      simp at ih ⊢; omega
    | spread a =>
      simp only [attrsBulk, kvs, clones, directives, entries, List.filterMap_cons, List.filter_cons,
        List.map_cons, List.sum_cons] at ih ⊢
      simp at ih ⊢; omega

/-- How much code a selector can become. -/
def Selector.bulk : Selector → Nat
  | .cls k => 100 + k.repr.length + 16 * k.spans
  | .id k => 100 + k.repr.length + 16 * k.spans

/-- How much code some selectors can become. -/
def selsBulk (sels : List Selector) : Nat := (sels.map Selector.bulk).sum

theorem coloured_len (k : KebabIdent) : toksLen k.coloured = 7 + k.repr.length + 16 * k.spans := by
  simp [KebabIdent.coloured, toksLen, TT.len, Lit.len, toksLen_append, colours_len]; omega

theorem sels_element (sels : List Selector) :
    (((classes sels).map classCall).map Call.len).sum + (((ids sels).map idCall).map Call.len).sum ≤
      selsBulk sels := by
  induction sels with
  | nil => simp [classes, ids]
  | cons a as ih =>
    cases a with
    | cls k =>
      have : (classCall k).len ≤ (Selector.cls k).bulk := by
        simp [classCall, Call.len, Ident.len, toksLen, TT.len, toksLen_append, coloured_len, Selector.bulk]
        omega
      simp only [selsBulk, classes, ids, List.filterMap_cons, List.map_cons, List.sum_cons] at ih ⊢
      omega
    | id k =>
      have : (idCall k).len ≤ (Selector.id k).bulk := by
        simp [idCall, Call.len, Ident.len, coloured_len, Selector.bulk]
        omega
      simp only [selsBulk, classes, ids, List.filterMap_cons, List.map_cons, List.sum_cons] at ih ⊢
      omega

theorem intercalate_len (ks : List KebabIdent) :
    ([' '].intercalate (ks.map (·.repr))).length ≤ (ks.map fun k => k.repr.length + 1).sum := by
  induction ks with
  | nil => simp
  | cons k ks ih =>
    cases ks with
    | nil => simp
    | cons j ks =>
      simp only [List.map_cons] at ih ⊢
      rw [List.intercalate_cons_cons]
      simp only [List.length_append, List.length_singleton, List.sum_cons] at ih ⊢
      omega

theorem idTemplate_len (names : Str) :
    toksLen q!"::leptos::tachys::html::attribute::r#id(#names)" = names.length + 61 := by
  simp [toksLen, TT.len, Lit.len, Ident.len]
  omega

theorem sels_component (sels : List Selector) :
    (((classes sels).map classEntry ++ idEntry (ids sels)).map fun t => toksLen t + 2).sum ≤
      selsBulk sels := by
  have h1 : (((classes sels).map classEntry).map fun t => toksLen t + 2).sum +
      ((ids sels).map fun k => k.repr.length + 90).sum ≤ selsBulk sels := by
    induction sels with
    | nil => simp [classes, ids]
    | cons a as ih =>
      cases a with
      | cls k =>
        have : toksLen (classEntry k) + 2 ≤ (Selector.cls k).bulk := by
          simp [classEntry, Ident.len, toksLen, TT.len, Lit.len, Selector.bulk]
          omega
        simp only [selsBulk, classes, ids, List.filterMap_cons, List.map_cons, List.sum_cons] at ih ⊢
        omega
      | id k =>
        simp only [selsBulk, classes, ids, List.filterMap_cons, List.map_cons, List.sum_cons,
          Selector.bulk] at ih ⊢
        omega
  have h2 : ((idEntry (ids sels)).map fun t => toksLen t + 2).sum ≤
      ((ids sels).map fun k => k.repr.length + 90).sum := by
    generalize ids sels = ks
    unfold idEntry
    split
    · simp
    · rename_i h
      have := intercalate_len ks
      have h3 : (ks.map fun k => k.repr.length + 1).sum + 89 ≤ (ks.map fun k => k.repr.length + 90).sum := by
        cases ks with
        | nil => exact absurd rfl h
        | cons k ks =>
          have : (ks.map fun k => k.repr.length + 1).sum ≤ (ks.map fun k => k.repr.length + 90).sum := by
            clear h h1 this
            induction ks with
            | nil => simp
            | cons k ks ih => simp only [List.map_cons, List.sum_cons]; omega
          simp only [List.map_cons, List.sum_cons]; omega
      rw [List.map_cons, List.map_nil, List.sum_cons, List.sum_nil, idTemplate_len]
      omega
  rw [List.map_append, List.sum_append]
  omega

theorem path_means_len {p : Path} {t : Toks} (h : p.means = some t) : toksLen t ≤ 16 * p.len + 4 := by
  unfold Path.means at h
  rw [Option.bind_eq_bind, Option.bind_eq_some_iff] at h
  obtain ⟨segs, h1, h⟩ := h
  cases h
  have hs : (segs.map fun t => toksLen t + 4).sum ≤
      (p.segs.map fun seg => 16 * (seg.ident.len + 1 + seg.args.len)).sum := by
    refine mapM_len (f := PathSeg.means) (fun seg t h => ?_) h1
    unfold PathSeg.means at h
    rw [Option.bind_eq_bind, Option.bind_eq_some_iff] at h
    obtain ⟨a, ha, h⟩ := h
    cases h
    have : toksLen a ≤ seg.args.len + 8 := by
      cases hseg : seg.args with
      | none => rw [hseg] at ha; cases ha; simp [toksLen]
      | angle b inner => rw [hseg] at ha; cases ha; simp [toksLen, TT.len, toksLen_append, PathArgs.len]; omega
      | paren inner => rw [hseg] at ha; cases ha
    simp [toksLen, TT.len]
    omega
  have hj : ∀ segs : List Toks, toksLen (joinColons segs) ≤ (segs.map fun t => toksLen t + 4).sum := by
    intro segs
    induction segs with
    | nil => simp [joinColons, toksLen]
    | cons c cs ih =>
      cases cs with
      | nil => simp [joinColons]
      | cons d ds =>
        simp only [joinColons] at ih ⊢
        simp only [splice_toks, toksLen_append, toksLen, TT.len, List.map_cons, List.sum_cons] at ih ⊢
        omega
  have hj := hj segs
  have hm : (p.segs.map fun seg => 16 * (seg.ident.len + 1 + seg.args.len)).sum = 16 * p.len := by
    unfold Path.len
    generalize p.segs = ss
    induction ss with
    | nil => rfl
    | cons a as ih => simp only [List.map_cons, List.sum_cons, ih]; omega
  rw [toksLen_append]
  split
  · simp [toksLen, TT.len]; omega
  · simp [toksLen]; omega

/-! ### slots -/

/-- How much code a slot can become. -/
def slotLen (x : Ident × Toks) : Nat := toksLen x.2 + 2 * x.1.name.length + 110

theorem vecTemplate_len (xs : Toks) :
    toksLen q!"<[_]> ::into_vec(::std::boxed::Box::new([#xs]))" = toksLen xs + 69 := by
  simp [toksLen, TT.len, Ident.len]
  omega

theorem slotArg_len {ts : List Toks} : toksLen (slotArg ts) ≤ 90 + (ts.map fun t => toksLen t + 2).sum := by
  have h := commaBetween_len ts
  have h1 := vecTemplate_len (commaBetween ts)
  unfold slotArg
  split
  · rw [List.map_cons, List.map_nil, List.sum_cons, List.sum_nil]
    omega
  · dsimp only
    rw [h1]
    omega

theorem slotsSum : ∀ (names : List Ident) (slots : List (Ident × Toks)), names.Nodup →
    (names.map fun n => ((slots.filter (·.1 = n)).map slotLen).sum).sum ≤ (slots.map slotLen).sum
  | [], slots, _ => by simp
  | n :: ns, slots, h => by
    rw [List.nodup_cons] at h
    have ih := slotsSum ns (slots.filter (·.1 ≠ n)) h.2
    have h1 : ∀ m ∈ ns, (slots.filter (·.1 ≠ n)).filter (·.1 = m) = slots.filter (·.1 = m) := by
      intro m hm
      rw [List.filter_filter]
      congr 1
      funext x
      by_cases hx : x.1 = m
      · have : x.1 ≠ n := fun h' => h.1 (by rw [← h', hx]; exact hm)
        simp [hx, hx ▸ this]
      · simp [hx]
    have h2 : (ns.map fun m => (((slots.filter (·.1 ≠ n)).filter (·.1 = m)).map slotLen).sum) =
        ns.map fun m => ((slots.filter (·.1 = m)).map slotLen).sum :=
      List.map_congr_left fun m hm => by rw [h1 m hm]
    rw [h2] at ih
    have h3 : ((slots.filter (·.1 = n)).map slotLen).sum + ((slots.filter (·.1 ≠ n)).map slotLen).sum =
        (slots.map slotLen).sum := by
      clear ih h1 h2
      induction slots with
      | nil => rfl
      | cons x xs ih =>
        simp only [List.filter_cons]
        by_cases hx : x.1 = n <;> simp [hx] at ih ⊢ <;> omega
    simp only [List.map_cons, List.sum_cons]
    omega

theorem slotCalls_len {slots : List (Ident × Toks)} {calls : List Call} (h : SlotCalls slots calls) :
    (calls.map Call.len).sum ≤ (slots.map slotLen).sum := by
  obtain ⟨names, hn, hm, h⟩ := h
  refine Nat.le_trans ?_ (slotsSum names slots hn)
  have key : ∀ n ∈ names, ∀ c : Call, (do
      return (⟨← slotMethodName n, slotArg ((slots.filter (·.1 = n)).map Prod.snd)⟩ : Call)) = some c →
      c.len ≤ ((slots.filter (·.1 = n)).map slotLen).sum := by
    intro n hin c hc
    rw [Option.bind_eq_bind, Option.bind_eq_some_iff] at hc
    obtain ⟨m, h1, hc⟩ := hc
    cases hc
    have h2 := rawIdent_len h1
    have h3 := snakeCase_len n.name
    have h4 := slotArg_len (ts := (slots.filter (·.1 = n)).map Prod.snd)
    simp only [Call.len]
    have h5 : ∃ x xs, slots.filter (·.1 = n) = x :: xs ∧ ∀ y ∈ x :: xs, y.1 = n := by
      rw [hm, List.mem_map] at hin
      obtain ⟨y, hy, hyn⟩ := hin
      cases hf : slots.filter (·.1 = n) with
      | nil =>
        have : y ∈ slots.filter (·.1 = n) := List.mem_filter.mpr ⟨hy, by simp [hyn]⟩
        rw [hf] at this
        simp at this
      | cons x xs =>
        refine ⟨x, xs, rfl, fun y hy => ?_⟩
        rw [← hf] at hy
        simpa using (List.mem_filter.mp hy).2
    obtain ⟨x, xs, h5, h6⟩ := h5
    rw [h5] at h4 ⊢
    have h7 : ∀ ys : List (Ident × Toks), ((ys.map Prod.snd).map fun t => toksLen t + 2).sum ≤
        (ys.map slotLen).sum := by
      intro ys
      induction ys with
      | nil => simp
      | cons y ys ih => simp only [List.map_cons, List.sum_cons, slotLen] at ih ⊢; omega
    have h7 := h7 xs
    have h8 := h6 x (by simp)
    simp only [List.map_cons, List.sum_cons, slotLen, h8] at h4 h7 ⊢
    omega
  clear hn hm
  induction names generalizing calls with
  | nil => cases h; simp
  | cons n ns ih =>
    rw [List.mapM_cons] at h
    rw [Option.bind_eq_bind, Option.bind_eq_some_iff] at h
    obtain ⟨y, h1, h⟩ := h
    rw [Option.bind_eq_bind, Option.bind_eq_some_iff] at h
    obtain ⟨zs, h2, h3⟩ := h
    cases h3
    have := key n (by simp) y h1
    have := ih h2 fun m hm => key m (by simp [hm])
    simp only [List.map_cons, List.sum_cons]
    omega

/-! ### elements -/

/-- How much code a tag can become. -/
def Tag.bulk : Tag → Nat
  | .html i => i.len
  | .svg i => i.len
  | .math i => i.len
  | .webComponent k => k.repr.length
  | .component p => 40 * p.len

/-- The length of closure arguments. -/
def argsLen : Option Toks → Nat
  | none => 0
  | some a => toksLen a

mutual
/-- How much code an element can become. -/
def Element.bulk : Element → Nat
  | .mk tag sels attrs args none => 600 + tag.bulk + selsBulk sels + attrsBulk attrs + argsLen args
  | .mk tag sels attrs args (some cs) =>
    600 + tag.bulk + selsBulk sels + attrsBulk attrs + argsLen args + nodesBulk cs + slotsBulk cs
/-- How much code the children that are not slots can become. -/
def nodesBulk : List Child → Nat
  | [] => 0
  | .value v :: cs => 90 + toksLen v.anyway + nodesBulk cs
  | .elem e :: cs => 90 + e.bulk + nodesBulk cs
  | .slot _ :: cs => nodesBulk cs
/-- How much code the slots can become. -/
def slotsBulk : List Child → Nat
  | [] => 0
  | .value _ :: cs => slotsBulk cs
  | .elem _ :: cs => slotsBulk cs
  | .slot e :: cs => 200 + e.bulk + slotsBulk cs
end

theorem viewTemplate_len (xs : Toks) :
    toksLen q!"::leptos::prelude::View::new((#xs))" = toksLen xs + 48 := by
  simp [toksLen, TT.len, Ident.len]
  omega

theorem nodes_len {nodes : List Toks} {n : Nat} (h : (nodes.map fun t => toksLen t + 20).sum ≤ n) :
    (((nodes.map childCall).map Call.len).sum ≤ n) ∧ toksLen (viewOf nodes) ≤ n + 70 := by
  constructor
  · refine Nat.le_trans ?_ h
    clear h
    induction nodes with
    | nil => simp
    | cons x xs ih =>
      have : (childCall x).len = toksLen x + 12 := by simp [childCall, Call.len, Ident.len]; omega
      rw [List.map_cons, List.map_cons, List.map_cons, List.sum_cons, List.sum_cons, this]
      omega
  · have : (nodes.map fun t => toksLen t + 2).sum ≤ (nodes.map fun t => toksLen t + 20).sum := by
      clear h
      induction nodes with
      | nil => simp
      | cons x xs ih => simp only [List.map_cons, List.sum_cons] at ih ⊢; omega
    have h1 := commaAfter_len nodes
    have h2 := viewTemplate_len (commaAfter nodes)
    unfold viewOf
    dsimp only
    rw [h2, h1]
    omega

theorem htmlTemplate_len (i : Ident) :
    toksLen q!"::leptos::tachys::html::element::#i()" ≤ i.len + 70 := by
  simp [toksLen, TT.len]; simp [Ident.len]; omega

theorem svgTemplate_len (i : Ident) : toksLen q!"::leptos::tachys::svg::element::#i()" ≤ i.len + 70 := by
  simp [toksLen, TT.len]; simp [Ident.len]; omega

theorem mathTemplate_len (i : Ident) : toksLen q!"::leptos::tachys::math::element::#i()" ≤ i.len + 70 := by
  simp [toksLen, TT.len]; simp [Ident.len]; omega

theorem customTemplate_len (name : Str) :
    toksLen q!"::leptos::tachys::html::element::custom(#name)" ≤ name.length + 80 := by
  simp [toksLen, TT.len, Ident.len, Lit.len]; omega

theorem head_len {tag : Tag} {t : Toks} (h : tag.head = some t) : toksLen t ≤ 80 + tag.bulk := by
  cases tag with
  | html i => have := htmlTemplate_len i; cases h; unfold Tag.bulk; dsimp only at *; omega
  | svg i => have := svgTemplate_len i; cases h; unfold Tag.bulk; dsimp only at *; omega
  | math i => have := mathTemplate_len i; cases h; unfold Tag.bulk; dsimp only at *; omega
  | webComponent k => have := customTemplate_len k.repr; cases h; unfold Tag.bulk; dsimp only at *; omega
  | component p => cases h

theorem xml_len {tag : Tag} {sels : List Selector} {attrs : List Attr} {nodes : List Toks} {t : Toks} {n : Nat}
    (hn : (nodes.map fun t => toksLen t + 20).sum ≤ n) (h : xmlAnyway tag sels attrs nodes = some t) :
    toksLen t ≤ 600 + tag.bulk + selsBulk sels + attrsBulk attrs + n := by
  unfold xmlAnyway at h
  simp only [Option.bind_eq_bind, Option.bind_eq_some_iff] at h
  obtain ⟨hd, h0, as, h1, ds, h2, h⟩ := h
  cases h
  have h1 := mapM_len (b := fun a => (Attr.kv a).bulk) (len := Call.len)
    (fun _ _ => onElementAnyway_len) h1
  have h2 := mapM_len (b := fun d => (Attr.directive d).bulk) (len := fun cs => (cs.map Call.len).sum)
    (fun _ _ => directiveAnyway_len) h2
  have h3 := byKind_element attrs
  have h4 := sels_element sels
  have h5 := (nodes_len hn).1
  have h6 : (((spreads attrs).map spreadCall).map Call.len).sum ≤
      ((spreads attrs).map fun e => (Attr.spread e).bulk).sum := by
    generalize spreads attrs = es
    induction es with
    | nil => simp
    | cons x xs ih =>
      have : (spreadCall x).len ≤ (Attr.spread x).bulk := by
        simp [spreadCall, Call.len, Ident.len, Attr.bulk]; omega
      rw [List.map_cons, List.map_cons, List.map_cons, List.sum_cons, List.sum_cons]
      omega
  have h7 := head_len h0
  have h8 := flatten_sum Call.len ds
  rw [splice_toks, splice_toks, toksLen_append, chain_len]
  simp only [List.map_append, List.sum_append]
  rw [h8]
  omega

theorem childrenCall_len {args : Option Toks} {cl : Toks} {nodes : List Toks} {n : Nat}
    (hn : (nodes.map fun t => toksLen t + 20).sum ≤ n) :
    ((childrenCall args cl nodes).map Call.len).sum ≤ 200 + argsLen args + toksLen cl + n := by
  have h := (nodes_len hn).2
  unfold childrenCall
  dsimp only
  split
  · simp
  · cases args with
    | none => simp [Call.len, toksLen, TT.len, toksLen_append, Ident.len, argsLen]; omega
    | some a => simp [Call.len, toksLen, TT.len, toksLen_append, Ident.len, argsLen]; omega

theorem clones_len {ds : List Directive} {cl : List Toks} (h : ds.mapM Directive.cloneAnyway = some cl) :
    toksLen cl.flatten ≤ (ds.map fun d => (Attr.directive d).bulk).sum := by
  have h1 := mapM_len (b := fun d => (Attr.directive d).bulk) (len := toksLen)
    (fun _ _ => cloneAnyway_len) h
  refine Nat.le_trans (Nat.le_of_eq ?_) h1
  clear h h1
  induction cl with
  | nil => rfl
  | cons x xs ih => simp [toksLen_append, ih]

theorem componentTemplate_len (path calls es : Toks) :
    toksLen q!"#[allow(unreachable_code)] ::leptos::prelude::View::new(
    ::leptos::component::component_view(& #path,
      ::leptos::component::component_props_builder(& #path) #calls
    ).add_any_attr((#es)))" = 2 * toksLen path + toksLen calls + toksLen es + 211 := by
  simp [toksLen, TT.len, toksLen_append, Ident.len]
  omega

theorem component_len {p : Path} {sels : List Selector} {attrs : List Attr} {args : Option Toks}
    {nodes : List Toks} {calls : List Call} {t : Toks} {n m : Nat}
    (hn : (nodes.map fun t => toksLen t + 20).sum ≤ n) (hm : (calls.map Call.len).sum ≤ m)
    (h : componentAnyway p sels attrs args nodes calls = some t) :
    toksLen t ≤ 600 + (Tag.component p).bulk + selsBulk sels + attrsBulk attrs + argsLen args + n + m := by
  unfold componentAnyway at h
  simp only [Option.bind_eq_bind, Option.bind_eq_some_iff] at h
  obtain ⟨path, h0, as, h1, es, h2, cl, h3, h⟩ := h
  cases h
  have h0 := path_means_len h0
  have h1 := mapM_len (b := fun a => (Attr.kv a).bulk) (len := Call.len)
    (fun _ _ => onComponentAnyway_len) h1
  have h2 := mapM_len (b := Attr.bulk) (len := fun ts => (ts.map fun t => toksLen t + 2).sum)
    (fun a ts h => by
      cases a with
      | kv a => cases h; simp
      | directive d => exact entryDirective_len h
      | spread e => cases h; simp [Attr.bulk]; omega) h2
  have h3 := clones_len h3
  have h4 := byKind_component attrs
  have h5 := sels_component sels
  have h6 := childrenCall_len (args := args) (cl := cl.flatten) hn
  have h7 := flatten_sum (fun t => toksLen t + 2) es
  have h8 : toksLen (commaAfter ((classes sels).map classEntry ++ idEntry (ids sels) ++ es.flatten)) ≤
      selsBulk sels + ((entries attrs).map Attr.bulk).sum := by
    rw [commaAfter_len, List.map_append, List.sum_append, h7]
    omega
  have h9 : toksLen (chain (as ++ childrenCall args cl.flatten nodes ++ calls ++ [⟨plain c!"build", []⟩])) ≤
      ((kvs attrs).map fun a => (Attr.kv a).bulk).sum + (200 + argsLen args +
        ((clones attrs).map fun d => (Attr.directive d).bulk).sum + n) + m + 20 := by
    rw [chain_len]
    simp only [List.map_append, List.sum_append, List.map_cons, List.map_nil, List.sum_cons, List.sum_nil]
    simp [Call.len, toksLen, Ident.len]
    omega
  have h10 := componentTemplate_len path (chain (as ++ childrenCall args cl.flatten nodes ++ calls ++
    [⟨plain c!"build", []⟩])) (commaAfter ((classes sels).map classEntry ++ idEntry (ids sels) ++ es.flatten))
  rw [h10]
  unfold Tag.bulk
  dsimp only
  omega

theorem slotTemplate_len (path calls : Toks) :
    toksLen q!"::std::convert::Into::into(#path ::builder() #calls)" = toksLen path + toksLen calls + 58 := by
  simp [toksLen, TT.len, toksLen_append, Ident.len]
  omega

theorem slot_len {p : Path} {attrs : List Attr} {args : Option Toks}
    {nodes : List Toks} {t : Toks} {n : Nat}
    (hn : (nodes.map fun t => toksLen t + 20).sum ≤ n) (h : slotAnyway p attrs args nodes = some t) :
    toksLen t ≤ 600 + 30 * p.len + attrsBulk attrs + argsLen args + n := by
  unfold slotAnyway at h
  simp only [Option.bind_eq_bind, Option.bind_eq_some_iff] at h
  obtain ⟨path, h0, as, h1, cl, h3, h⟩ := h
  cases h
  have h0 := path_means_len h0
  have h1 := mapM_len (b := fun a => (Attr.kv a).bulk) (len := Call.len)
    (fun _ _ => onComponentAnyway_len) h1
  have h3 := clones_len h3
  have h4 := byKind_component attrs
  have h6 := childrenCall_len (args := args) (cl := cl.flatten) hn
  have h9 : toksLen (chain (as ++ childrenCall args cl.flatten nodes ++ [⟨plain c!"build", []⟩])) ≤
      ((kvs attrs).map fun a => (Attr.kv a).bulk).sum + (200 + argsLen args +
        ((clones attrs).map fun d => (Attr.directive d).bulk).sum + n) + 20 := by
    rw [chain_len]
    simp only [List.map_append, List.sum_append, List.map_cons, List.map_nil, List.sum_cons, List.sum_nil]
    simp [Call.len, toksLen, Ident.len]
    omega
  have h10 := slotTemplate_len path (chain (as ++ childrenCall args cl.flatten nodes ++
    [⟨plain c!"build", []⟩]))
  rw [h10]
  omega

/-! ### the tree -/

theorem renderedTemplate_len (t : Toks) : toksLen (rendered t) = toksLen t + 58 := by
  simp [rendered, toksLen, TT.len, Ident.len]
  omega

mutual
theorem becomes_len (asSlot : Bool) : ∀ (e : Element) (t : Toks), e.Becomes asSlot t → toksLen t ≤ e.bulk
  | .mk tag sels attrs args none, t, h => by
    unfold Element.Becomes at h
    unfold Element.bulk
    cases asSlot <;> cases tag
    case false.component p => have := component_len (n := 0) (m := 0) (by simp) (by simp) h; omega
    case true.component p =>
      have := slot_len (n := 0) (by simp) h
      simp only [Tag.bulk]; omega
    all_goals first
      | exact h.elim
      | (have := xml_len (n := 0) (by simp) h; omega)
  | .mk tag sels attrs args (some cs), t, h => by
    unfold Element.Becomes at h
    unfold Element.bulk
    cases asSlot <;> cases tag
    case false.component p =>
      obtain ⟨ns, ss, calls, h1, h2, h3, h4⟩ := h
      have := component_len (nodesBecome_len cs ns h1)
        (Nat.le_trans (slotCalls_len h3) (slotsBecome_len cs ss h2)) h4
      omega
    case true.component p =>
      obtain ⟨ns, ss, calls, h1, h2, h3, h4⟩ := h
      have := slot_len (nodesBecome_len cs ns h1) h4
      simp only [Tag.bulk]; omega
    all_goals first
      | exact h.elim
      | (obtain ⟨ns, h1, h2⟩ := h
         have := xml_len (nodesBecome_len cs ns h1) h2
         omega)

theorem nodesBecome_len : ∀ (cs : List Child) (ts : List Toks), NodesBecome cs ts →
    (ts.map fun t => toksLen t + 20).sum ≤ nodesBulk cs
  | [], ts, h => by unfold NodesBecome at h; subst h; simp
  | .value v :: cs, ts, h => by
    unfold NodesBecome at h
    obtain ⟨ts', h2, rfl⟩ := h
    have := nodesBecome_len cs ts' h2
    have := renderedTemplate_len v.anyway
    simp only [List.map_cons, List.sum_cons, nodesBulk]
    omega
  | .elem e :: cs, ts, h => by
    unfold NodesBecome at h
    obtain ⟨t, ts', h1, h2, rfl⟩ := h
    have := nodesBecome_len cs ts' h2
    have := becomes_len false e t h1
    have := renderedTemplate_len t
    simp only [List.map_cons, List.sum_cons, nodesBulk]
    omega
  | .slot e :: cs, ts, h => by
    unfold NodesBecome at h
    unfold nodesBulk
    exact nodesBecome_len cs ts h

theorem slotsBecome_len : ∀ (cs : List Child) (ts : List (Ident × Toks)), SlotsBecome cs ts →
    (ts.map slotLen).sum ≤ slotsBulk cs
  | [], ts, h => by unfold SlotsBecome at h; subst h; simp
  | .value v :: cs, ts, h => by
    unfold SlotsBecome at h
    unfold slotsBulk
    exact slotsBecome_len cs ts h
  | .elem e :: cs, ts, h => by
    unfold SlotsBecome at h
    unfold slotsBulk
    exact slotsBecome_len cs ts h
  | .slot e :: cs, ts, h => by
    rw [slotsBecome_slot] at h
    unfold slotsBulk
    obtain ⟨p, hp, h⟩ := h
    rcases h with ⟨name, hn, t, ts', h1, h2, rfl⟩ | ⟨_, h⟩
    · obtain rfl := getIdent_iff.mp hn
      have := slotsBecome_len cs ts' h2
      have := slotBecomes_len e name hp t h1
      simp only [List.map_cons, List.sum_cons, slotLen]
      omega
    · have := slotsBecome_len cs ts h
      omega

theorem slotBecomes_len (e : Element) (name : Ident) (hp : e.tag = .component ⟨false, [⟨name, .none⟩]⟩) (t : Toks)
    (h : e.Becomes true t) : toksLen t + 2 * name.name.length ≤ e.bulk := by
  have hl : name.name.length ≤ (Path.mk false [⟨name, .none⟩]).len := by
    simp [Path.len, Ident.len]; omega
  match e, hp with
  | .mk tag sels attrs args none, hp =>
    simp only [Element.tag] at hp
    subst hp
    unfold Element.Becomes at h
    unfold Element.bulk
    have := slot_len (n := 0) (by simp) h
    simp only [Tag.bulk]; omega
  | .mk tag sels attrs args (some cs), hp =>
    simp only [Element.tag] at hp
    subst hp
    unfold Element.Becomes at h
    unfold Element.bulk
    obtain ⟨ns, ss, calls, h1, h2, h3, h4⟩ := h
    have := slot_len (nodesBecome_len cs ns h1) h4
    simp only [Tag.bulk]; omega
end

theorem rootTemplate_len (t : Toks) : toksLen q!"{ #[allow(unused_braces)] #t }" = toksLen t + 34 := by
  simp [toksLen, TT.len, Ident.len]
  omega

/-- What is generated is not longer than this. -/
theorem root_len {cs : List Child} {t : Toks} (h : RootBecomes cs t) : toksLen t ≤ nodesBulk cs + 200 := by
  obtain ⟨_, nodes, h1, h2⟩ := h
  have h3 := nodesBecome_len cs nodes h1
  have h4 := (nodes_len h3).2
  split at h2
  · rename_i x
    subst h2
    rw [rootTemplate_len]
    simp only [List.map_cons, List.map_nil, List.sum_cons, List.sum_nil] at h3
    omega
  · dsimp only at h2
    subst h2
    rw [rootTemplate_len]
    omega

end Mview
