import Verif.Lemmas.Size
/-
C51: the size of the tree an input is read as.
-/

namespace Mview
open Lex

theorem TT.len_pos (t : TT) : 1 ≤ t.len := by
  cases t <;> simp only [TT.len] <;> omega

theorem kebabText_len (run : Toks) : (kebabText run).length ≤ toksLen run := by
  induction run with
  | nil => simp [kebabText]
  | cons t ts ih =>
    have : t.text.length + 1 ≤ t.len := by
      cases t with
      | ident i => simp [TT.text, TT.len, Ident.len]
      | punct c s => simp [TT.text, TT.len]
      | lit l => cases l <;> simp [TT.text, TT.len, Lit.len]
      | group d ts => simp [TT.text, TT.len]
    simp only [kebabText, List.flatMap_cons, List.length_append, toksLen] at ih ⊢
    omega

theorem kebabText_len_lt {run : Toks} (h : run ≠ []) : (kebabText run).length + 1 ≤ toksLen run := by
  cases run with
  | nil => exact absurd rfl h
  | cons t ts =>
    have : t.text.length + 1 ≤ t.len := by
      cases t with
      | ident i => simp [TT.text, TT.len, Ident.len]
      | punct c s => simp [TT.text, TT.len]
      | lit l => cases l <;> simp [TT.text, TT.len, Lit.len]
      | group d ts => simp [TT.text, TT.len]
    have := kebabText_len ts
    simp only [kebabText, List.flatMap_cons, List.length_append, toksLen] at this ⊢
    omega

theorem length_len (ts : Toks) : ts.length ≤ toksLen ts := by
  induction ts with
  | nil => simp
  | cons t ts ih => have := t.len_pos; simp only [List.length_cons, toksLen]; omega

theorem sections_len (run : Toks) : kebabSections run ≤ toksLen run := by
  refine Nat.le_trans ?_ (length_len run)
  cases run with
  | nil => simp [kebabSections]
  | cons t ts =>
    have := List.countP_le_length (p := TT.isWord) (l := ts)
    simp only [kebabSections, List.length_cons]; omega

/-- A name is as long as its tokens. -/
theorem longest_len {ts run rest : Toks} (h : LongestKebab ts run rest) :
    toksLen ts = toksLen run + toksLen rest ∧ (kebabText run).length + 1 ≤ toksLen run ∧
      kebabSections run ≤ toksLen run := by
  refine ⟨?_, kebabText_len_lt h.kebab.nonempty, sections_len run⟩
  rw [h.split, toksLen_append]

theorem sels_len {ts : Toks} {is : List Issue} {sels : List Selector} {rest : Toks}
    (h : ReadsSels ts is sels rest) : selsBulk sels + 1000 * toksLen rest ≤ 1000 * toksLen ts := by
  induction h with
  | cls hk _ ih =>
    have ⟨h1, h2, h3⟩ := longest_len hk
    simp only [selsBulk, List.map_cons, List.sum_cons, Selector.bulk, kebabOf, toksLen, TT.len] at ih ⊢
    omega
  | id hk _ ih =>
    have ⟨h1, h2, h3⟩ := longest_len hk
    simp only [selsBulk, List.map_cons, List.sum_cons, Selector.bulk, kebabOf, toksLen, TT.len] at ih ⊢
    omega
  | done => simp [selsBulk]

theorem value_anyway_len (v : CVal) : toksLen v.ast.anyway ≤ toksLen v.toks + 60 := by
  cases v with
  | lit l => simp [CVal.ast, CVal.toks, Value.anyway, Value.means, toksLen]
  | bool b => cases b <;> simp [CVal.ast, CVal.toks, Value.anyway, Value.means, toksLen, TT.len, Ident.len]
  | neg s f text =>
    cases f <;> simp [CVal.ast, CVal.toks, Value.anyway, Value.means, toksLen, TT.len, Lit.len] <;> omega
  | block code => simp [CVal.ast, CVal.toks, Value.anyway, Value.means, toksLen, TT.len]
  | bracket pfx code =>
    cases pfx with
    | none =>
      simp [CVal.ast, CVal.toks, Value.anyway, Value.means, toksLen, TT.len, Ident.len]; omega
    | some p =>
      simp only [CVal.ast, CVal.toks, Value.anyway, Value.means]
      split
      · simp [toksLen, TT.len, Ident.len]; omega
      · simp [toksLen]

theorem CVal.toks_len_pos (v : CVal) : 1 ≤ toksLen v.toks := by
  have : v.toks ≠ [] := by
    cases v with
    | bracket p => cases p <;> simp [CVal.toks]
    | _ => simp [CVal.toks]
  have := List.length_pos_iff.mpr this
  have := length_len v.toks
  omega

theorem readsValue_len {ts : Toks} {is : List Issue} {v : Value} {rest : Toks} (h : ReadsValue ts is v rest) :
    toksLen v.anyway + 1000 * toksLen rest ≤ 1000 * toksLen ts + 60 := by
  cases h with
  | value h =>
    rename_i v
    have := value_anyway_len v
    rw [toksLen_append]; omega
  | missing =>
    have : toksLen (Value.block t!"::leptos_mview::MissingValueAfterEq").anyway = 45 := by decide
    omega

theorem eq_len {ts : Toks} {is : List Issue} {v : Option Value} {rest : Toks} (h : ReadsEq ts is v rest) :
    optLen v + 1000 * toksLen rest ≤ 1000 * toksLen ts + 60 := by
  cases h with
  | some h => have := readsValue_len h; simp only [toksLen, optLen] at this ⊢; omega
  | none h => simp only [optLen]; omega

theorem getD_true_len (v : Option Value) : toksLen (v.getD (.lit (.bool true))).anyway ≤ optLen v + 5 := by
  cases v with
  | none => decide
  | some v => simp [optLen]

theorem modifier_len {ts : Toks} {m : Option Ident} {rest : Toks} (h : ReadsModifier ts m rest) :
    toksLen rest ≤ toksLen ts := by
  cases h with
  | some => simp only [toksLen]; omega
  | none => exact Nat.le_refl _

theorem key_len {ts : Toks} {is : List Issue} {k : KebabOrStr} {rest : Toks} (h : ReadsKey ts is k rest) :
    k.text.length + toksLen rest ≤ toksLen ts := by
  cases h with
  | str => simp only [KebabOrStr.text, toksLen, TT.len, Lit.len]; omega
  | name h => have := longest_len h; simp only [KebabOrStr.text, kebabOf]; omega

theorem shortValue_len (c : Toks) : toksLen (shortValue c).anyway ≤ (kebabText c).length + 20 := by
  have : (identOf c).len ≤ (kebabText c).length + 2 := by
    unfold identOf
    cases h : rawIdentOf (kebabText c) with
    | none => simp [Ident.len]
    | some i => have := rawIdentOf_len h; simp only [Option.getD_some]; omega
  simp [shortValue, Value.anyway, Value.means, toksLen, TT.len]
  omega

theorem attrs_len {ts : Toks} {is : List Issue} {as : List Attr} {rest : Toks}
    (h : ReadsAttrs ts is as rest) : attrsBulk as + 1000 * toksLen rest ≤ 1000 * toksLen ts := by
  induction h with
  | @short c rest is as left hk _ ih =>
    have h1 := longest_len hk
    have h2 := shortValue_len c
    simp only [attrsBulk, List.map_cons, List.sum_cons, Attr.bulk, kebabOf, toksLen, TT.len] at ih h1 ⊢
    omega
  | spread _ ih =>
    simp only [attrsBulk, List.map_cons, List.sum_cons, Attr.bulk, toksLen, TT.len] at ih ⊢
    omega
  | @kv ts run rest js v rest' is as left hk _ he _ ih =>
    have h1 := longest_len hk
    have h2 := eq_len he
    have h3 := getD_true_len v
    simp only [attrsBulk, List.map_cons, List.sum_cons, Attr.bulk, kebabOf] at ih ⊢
    omega
  | @dirShort d s c rest m rest' is as left hk hm _ ih =>
    have h1 := longest_len hk
    have h2 := shortValue_len c
    have h3 := modifier_len hm
    simp only [attrsBulk, List.map_cons, List.sum_cons, Attr.bulk, kebabOf, KebabOrStr.text, optLen, toksLen,
      TT.len] at ih h1 ⊢
    omega
  | dir hk hm he _ ih =>
    have h1 := key_len hk
    have h2 := modifier_len hm
    have h3 := eq_len he
    simp only [attrsBulk, List.map_cons, List.sum_cons, Attr.bulk, toksLen, TT.len] at ih h1 ⊢
    omega
  | dirMore => simp [attrsBulk, toksLen]
  | dirNoName => simp [attrsBulk, toksLen]
  | dirNoKey => simp [attrsBulk, toksLen]
  | dirShortNoModifier => simp [attrsBulk, toksLen]
  | dirNoModifier => simp [attrsBulk, toksLen]
  | brace => simp [attrsBulk]
  | done => simp [attrsBulk]

theorem tagOf_len {k : KebabIdent} {tag : Tag} (h : tagOf k = some tag) :
    tag.bulk ≤ 40 * (k.repr.length + 1) := by
  unfold tagOf at h
  split at h
  case h_3 => cases h; simp only [Tag.bulk]; omega
  all_goals
    rw [Option.map_eq_some_iff] at h
    obtain ⟨i, h1, rfl⟩ := h
    have h2 := rawIdentOf_len h1
    simp only [Tag.bulk, Path.len]
    first
    | omega
    | (have : (Ident.mk false i.name).len + 2 ≤ i.len := by
         unfold rawIdentOf rawIdent at h1
         split at h1
         · simp at h1
         · cases h1; simp [Ident.len]
       simp [PathArgs.len]
       omega)

theorem tag_len {pp : PathParser} (hpp : pp.Sparing) {ts : Toks} {is : List Issue} {tag : Tag} {rest : Toks}
    (h : ReadsTag pp ts is tag rest) (hc : Issue.crash ∉ is) :
    tag.bulk + 900 + 1000 * toksLen rest ≤ 1000 * toksLen ts := by
  cases h with
  | path _ hr =>
    obtain ⟨used, hu, rfl⟩ := pp.progress _ _ _ hr
    have h1 := hpp hr
    have h2 : 1 ≤ toksLen used := by
      have := length_len used
      have := List.length_pos_iff.mpr hu
      omega
    rw [toksLen_append] at h1 ⊢
    simp only [Tag.bulk]
    omega
  | name _ hk ht =>
    have h1 := longest_len hk
    have h2 := tagOf_len ht
    simp only [kebabOf] at h2
    omega
  | crash => simp at hc

theorem start_len {ts : Toks} {b : Bool} {r : Toks} (h : ElemStart ts b r) : toksLen r ≤ toksLen ts := by
  cases h with
  | slot => simp only [toksLen]; omega
  | elem => exact Nat.le_refl _

theorem noTag_len {pp : PathParser} {ts : Toks} {e : Err} {rest : Toks} (h : NoTag pp ts e rest) :
    toksLen rest ≤ toksLen ts := by
  cases h with
  | path _ hr =>
    obtain ⟨used, rfl⟩ := pp.suffix _ _ hr
    rw [toksLen_append]; omega
  | name => exact Nat.le_refl _

/-- How much code a block can become. -/
def blockBulk : Option (List Child) → Nat
  | none => 0
  | some cs => nodesBulk cs + slotsBulk cs

theorem Element.bulk_eq (tag : Tag) (sels : List Selector) (attrs : List Attr) (args : Option Toks)
    (block : Option (List Child)) : (Element.mk tag sels attrs args block).bulk =
      600 + tag.bulk + selsBulk sels + attrsBulk attrs + argsLen args + blockBulk block := by
  cases block <;> simp only [Element.bulk, blockBulk] <;> omega

mutual
theorem end_len {pp : PathParser} (hpp : pp.Sparing) {ts : Toks} {is : List Issue} {args : Option Toks}
    {block : Option (List Child)} {rest : Toks} (h : ReadsEnd pp ts is args block rest)
    (hc : Issue.crash ∉ is) :
    argsLen args + blockBulk block + 1000 * toksLen rest ≤ 1000 * toksLen ts := by
  match h with
  | .semi => simp only [argsLen, blockBulk, toksLen]; omega
  | .block _ h =>
    have := children_len hpp h hc
    simp only [argsLen, blockBulk, toksLen, TT.len]; omega
  | .closure _ _ h =>
    have := children_len hpp h hc
    simp only [argsLen, blockBulk, piped, toksLen, TT.len, toksLen_append]; omega
  | .nothing => simp [argsLen, blockBulk]
  | .noBlock _ _ => simp only [argsLen, blockBulk, piped, toksLen, TT.len, toksLen_append]; omega
  | .other _ _ _ => simp [argsLen, blockBulk]

theorem children_len {pp : PathParser} (hpp : pp.Sparing) {ts : Toks} {is : List Issue} {cs : List Child}
    (h : ReadsChildren pp ts is cs) (hc : Issue.crash ∉ is) :
    nodesBulk cs + slotsBulk cs ≤ 1000 * toksLen ts := by
  match h with
  | .nil => simp [nodesBulk, slotsBulk]
  | .value (v := v) _ hv h =>
    have := children_len hpp h hc
    have h1 := value_anyway_len v
    have h2 := v.toks_len_pos
    simp only [nodesBulk, slotsBulk, toksLen_append]
    omega
  | .literal (v := v) _ hv h =>
    have := children_len hpp h fun h' => hc (List.mem_cons_of_mem _ h')
    have h1 : toksLen (Value.lit (.tok (.str []))).anyway = 3 := by decide
    have h2 := v.toks_len_pos
    simp only [nodesBulk, slotsBulk, toksLen_append]
    omega
  | .elem (isSlot := b) hs ht hsel ha he h =>
    simp only [List.mem_append, not_or] at hc
    have h0 := start_len hs
    have h1 := tag_len hpp ht hc.1
    have h2 := sels_len hsel
    have h3 := attrs_len ha
    have h4 := end_len hpp he hc.2.2.2.1
    have h5 := children_len hpp h hc.2.2.2.2
    cases b <;> simp only [asChild, nodesBulk, slotsBulk, Element.bulk_eq, if_true, if_false,
      Bool.false_eq_true] <;> omega
  | .unclosed _ _ _ _ _ => simp [nodesBulk, slotsBulk]
  | .noTagSemi hs ht h =>
    have := children_len hpp h fun h' => hc (List.mem_cons_of_mem _ h')
    have h0 := start_len hs
    have h1 := noTag_len ht
    simp only [toksLen] at h1
    omega
  | .noTag _ _ _ => simp [nodesBulk, slotsBulk]
  | .semi h =>
    have := children_len hpp h fun h' => hc (List.mem_cons_of_mem _ h')
    simp only [toksLen]
    omega
  | .other _ _ _ => simp [nodesBulk, slotsBulk]
end

end Mview
