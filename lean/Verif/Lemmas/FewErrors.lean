import Verif.Spec.FewErrors
import Verif.Lemmas.AdviceIssues
/-
At most three errors for two tokens.
-/

namespace Mview
open Lex

variable {pp : PathParser}

theorem many_append {a b : Toks} : toksMany (a ++ b) = toksMany a + toksMany b := by
  induction a with
  | nil => simp [toksMany]
  | cons t a ih => simp only [List.cons_append, toksMany, ih]; omega

theorem one_many (t : TT) : 1 ≤ t.many := by cases t <;> simp [TT.many]

theorem length_many (a : Toks) : a.length ≤ toksMany a := by
  induction a with
  | nil => simp
  | cons t a ih => have := one_many t; simp only [List.length_cons, toksMany]; omega

theorem suffix_many {ts rest : Toks} (h : ∃ u, ts = u ++ rest) : toksMany rest ≤ toksMany ts := by
  obtain ⟨u, rfl⟩ := h
  rw [many_append]; omega

/-- the number of errors among issues; one is left out, as it is only known that one token is a path -/
def reportsIn : List Issue → Nat
  | [] => 0
  | .report _ :: is => reportsIn is + 1
  | .stop d :: is => reportsIn is + if d = .functionGenerics then 0 else 1
  | .crash :: is => reportsIn is

theorem reportsIn_append {a b : List Issue} : reportsIn (a ++ b) = reportsIn a + reportsIn b := by
  induction a with
  | nil => simp [reportsIn]
  | cons i a ih => cases i <;> simp only [List.cons_append, reportsIn, ih] <;> omega

/-! ### reading -/

/-- raw identifiers -/
def raws : Toks → Nat
  | [] => 0
  | .ident i :: r => raws r + if i.raw then 1 else 0
  | _ :: r => raws r

theorem raws_map (run : Toks) : reportsIn ((run.filterMap fun
    | .ident i => if i.raw then some i else none
    | _ => none).map fun i => .report (.rawInKebab i)) = raws run := by
  induction run with
  | nil => rfl
  | cons t run ih =>
    cases t with
    | ident i => cases h : i.raw <;> simp [raws, h, reportsIn, ih]
    | _ => simpa [raws] using ih

/-- raw identifiers in the name at the beginning, after its first token -/
def leadRaws : Toks → Nat
  | [] => 0
  | t :: r => if t.isIdent || t.isDash then raws (munch t.isWord r).1 else 0

theorem raw_lead {ts run rest : Toks} (h : LongestKebab ts run rest) : reportsIn (rawIssues run) = leadRaws ts := by
  cases run with
  | nil => exact absurd rfl h.kebab.nonempty
  | cons t r =>
    obtain ⟨rfl, h'⟩ := h.split_at
    have hm := munch_is_longest (h.kebab.start t rfl) (r ++ rest)
    obtain ⟨h1, -⟩ := LongestKebab.unique h' hm
    rw [show rawIssues (t :: r) = (r.filterMap fun
      | .ident i => if i.raw then some i else none
      | _ => none).map fun i => .report (.rawInKebab i) from rfl, raws_map]
    have h2 : (t.isIdent || t.isDash) = true := by simpa using h.kebab.start t rfl
    simp only [List.cons.injEq, true_and] at h1
    simp only [List.cons_append, leadRaws, h2, if_true, ← h1]

theorem dash_raws {t : TT} (h : t.isDash = true) (r : Toks) : raws (t :: r) = raws r := by
  obtain ⟨s, rfl⟩ := isDash_eq h
  rfl

theorem cons_raws (t : TT) (r : Toks) : raws (t :: r) ≤ raws r + 1 := by
  cases t <;> simp only [raws] <;> (try split) <;> omega

theorem munch_raws (pw : Bool) (r : Toks) :
    2 * raws (munch pw r).1 + (if pw then 1 else 0) ≤ (munch pw r).1.length + 1 := by
  induction r generalizing pw with
  | nil => cases pw <;> simp [munch, raws]
  | cons t r ih =>
    unfold munch
    split
    · rename_i hd
      have := ih false
      simp only [Bool.false_eq_true, if_false] at this
      rw [dash_raws hd, List.length_cons]
      split <;> omega
    · split
      · rename_i h
        simp only [Bool.and_eq_true, Bool.not_eq_true'] at h
        have h1 := ih true
        have h2 := cons_raws t (munch true r).1
        simp only [if_true] at h1
        rw [h.2, List.length_cons]
        simp only [Bool.false_eq_true, if_false]
        omega
      · cases pw <;> simp [raws]

theorem raw_many {ts run rest : Toks} (h : LongestKebab ts run rest) :
    2 * reportsIn (rawIssues run) ≤ run.length ∧ 1 ≤ run.length ∧ run.length + toksMany rest ≤ toksMany ts := by
  refine ⟨?_, List.length_pos_iff.mpr h.kebab.nonempty, ?_⟩
  · cases run with
    | nil => exact absurd rfl h.kebab.nonempty
    | cons t r =>
      obtain ⟨rfl, h'⟩ := h.split_at
      have hm := munch_is_longest (h.kebab.start t rfl) (r ++ rest)
      obtain ⟨h1, -⟩ := LongestKebab.unique h' hm
      simp only [List.cons.injEq, true_and] at h1
      have := munch_raws t.isWord (r ++ rest)
      rw [← h1] at this
      rw [show rawIssues (t :: r) = (r.filterMap fun
        | .ident i => if i.raw then some i else none
        | _ => none).map fun i => .report (.rawInKebab i) from rfl, raws_map, List.length_cons]
      omega
  · rw [h.split, many_append]
    have := length_many run
    omega

theorem munch_lead (rest : Toks) : raws (munch true rest).1 ≤ leadRaws rest := by
  cases rest with
  | nil => simp [munch, raws]
  | cons t r =>
    cases hd : t.isDash with
    | true => simp [munch, hd, leadRaws, dash_raws hd, isWord_of_isDash hd]
    | false => simp [munch, hd, raws]

theorem lead_many (ts : Toks) : 2 * leadRaws ts ≤ toksMany ts := by
  cases ts with
  | nil => simp [leadRaws]
  | cons t r =>
    simp only [leadRaws]
    split
    · have h1 := munch_raws t.isWord r
      have h2 := congrArg List.length (munch_append t.isWord r)
      have h3 := length_many r
      have h4 := one_many t
      rw [List.length_append] at h2
      simp only [toksMany]
      omega
    · omega

/-- values have no raw identifiers in common with the name they start with, if any -/
theorem value_lead (v : CVal) (rest : Toks) : leadRaws (v.toks ++ rest) ≤ leadRaws rest := by
  cases v with
  | lit l => simp [CVal.toks, leadRaws, TT.isIdent, TT.isDash]
  | bool b => exact munch_lead rest
  | neg s isFloat text =>
    cases isFloat with
    | true => simp [CVal.toks, leadRaws, TT.isIdent, TT.isDash, TT.isWord, munch, raws]
    | false =>
      have := munch_lead rest
      simpa [CVal.toks, leadRaws, TT.isIdent, TT.isDash, TT.isWord, munch, raws] using this
  | block => simp [CVal.toks, leadRaws, TT.isIdent, TT.isDash]
  | bracket p c => cases p <;> simp [CVal.toks, leadRaws, TT.isIdent, TT.isDash, TT.isWord, munch, raws]

theorem value_toks (v : CVal) : 1 ≤ toksMany v.toks := by
  refine Nat.le_trans ?_ (length_many _)
  cases v with
  | bracket p => cases p <;> simp [CVal.toks]
  | _ => simp [CVal.toks]

theorem name_few (n : Str) : reportsIn (nameIssues n) = 0 := by
  unfold nameIssues; split <;> rfl

theorem sels_few {ts rest : Toks} {is : List Issue} {sels : List Selector} (h : ReadsSels ts is sels rest) :
    2 * reportsIn is + 3 * toksMany rest ≤ 3 * toksMany ts := by
  induction h with
  | cls hk _ ih | id hk _ ih =>
    have := raw_many hk
    simp only [reportsIn_append, toksMany, TT.many]
    omega
  | done => simp [reportsIn]

theorem value_few (v : Value) : reportsIn v.issues ≤ 1 := by
  unfold Value.issues
  split
  · split <;> simp [reportsIn]
  · simp [reportsIn]

theorem opt_few (v : Option Value) : reportsIn (optIssues v) ≤ 1 := by
  cases v
  · simp [optIssues, reportsIn]
  · exact value_few _

theorem eq_few {ts rest : Toks} {is : List Issue} {v : Option Value} (h : ReadsEq ts is v rest) :
    2 * reportsIn is + 2 * reportsIn (optIssues v) + 3 * toksMany rest ≤ 3 * toksMany ts := by
  cases h with
  | none => simp [optIssues, reportsIn]
  | @some s ts is v rest h =>
    cases h with
    | @value v rest =>
      have := opt_few (some v.ast)
      simp only [toksMany, TT.many, many_append, reportsIn]
      omega
    | missing => simp only [toksMany, TT.many, reportsIn, optIssues, Value.issues]; omega

/-- with a directive, the value pays for one more -/
theorem eq_fewer {ts rest : Toks} {is : List Issue} {v : Option Value} (h : ReadsEq ts is v rest) :
    2 * reportsIn is + 3 * toksMany rest ≤ 3 * toksMany ts := by
  have := eq_few h
  omega

theorem modifier_few {ts rest : Toks} {m : Option Ident} (h : ReadsModifier ts m rest) : toksMany rest ≤ toksMany ts := by
  cases h with
  | some => simp only [toksMany]; omega
  | none => exact Nat.le_refl _

theorem key_few {ts rest : Toks} {is : List Issue} {k : KebabOrStr} (h : ReadsKey ts is k rest) :
    2 * reportsIn is + 2 + 3 * toksMany rest ≤ 3 * toksMany ts := by
  cases h with
  | str => simp only [reportsIn, toksMany, TT.many]; omega
  | name hk => have := raw_many hk; omega

theorem keyIssues_few (k : KebabOrStr) : reportsIn k.issues ≤ 1 := by
  cases k
  · simp [KebabOrStr.issues, name_few]
  · simp [KebabOrStr.issues, reportsIn]

theorem modifierIssues_few (m : Option Ident) : reportsIn (modifierIssues m) ≤ 1 := by
  cases m <;> simp [modifierIssues, reportsIn]

theorem event_few (d : Directive) : reportsIn d.eventIssues ≤ 2 := by
  unfold Directive.eventIssues
  rw [reportsIn_append]
  refine Nat.add_le_add (b := 1) (d := 1) ?_ ?_
  · split
    · simp [name_few]
    · simp [reportsIn]
  · split
    · split <;> simp [reportsIn]
    · simp [reportsIn]

theorem use_few (d : Directive) : reportsIn d.useIssues ≤ 2 := by
  have h1 := keyIssues_few d.key
  have h2 := modifierIssues_few d.modifier
  simp only [Directive.useIssues, reportsIn_append]
  omega

theorem clone_few (d : Directive) : reportsIn d.cloneIssues ≤ 4 := by
  have h1 := keyIssues_few d.key
  have h2 := modifierIssues_few d.modifier
  have h3 : reportsIn (if d.value.isSome then [.report .cloneValue] else []) ≤ 1 := by split <;> simp [reportsIn]
  simp only [Directive.cloneIssues, reportsIn_append]
  omega

/-- at most one for the value of an attribute, four for a directive, one for a spread -/
def Attr.few : Attr → Nat
  | .kv a => reportsIn a.value.issues
  | .directive _ => 4
  | .spread _ => 1

theorem onElement_few (k : TagKind) (a : Attr) : reportsIn (a.issuesOnElement k) ≤ a.few := by
  cases a with
  | kv a =>
    simp only [Attr.issuesOnElement, KvAttr.issuesOnElement, reportsIn_append, Attr.few]
    split <;> simp [name_few, reportsIn]
  | spread => simp [Attr.issuesOnElement, reportsIn]
  | directive d =>
    have h1 := modifierIssues_few d.modifier
    have h2 := opt_few d.value
    have h3 := event_few d
    have h4 := use_few d
    simp only [Attr.issuesOnElement, Directive.issuesOnElement, Attr.few]
    repeat' split
    all_goals simp only [reportsIn_append, reportsIn]
    all_goals omega

theorem onComponent_few (a : Attr) : reportsIn a.issuesOnComponent ≤ a.few := by
  cases a with
  | kv a => simp [Attr.issuesOnComponent, KvAttr.issuesOnComponent, reportsIn_append, Attr.few, name_few]
  | spread => simp [Attr.issuesOnComponent, reportsIn]
  | directive d =>
    have h0 := keyIssues_few d.key
    have h2 := opt_few d.value
    have h3 := event_few d
    have h4 := use_few d
    have h5 := clone_few d
    simp only [Attr.issuesOnComponent, Directive.issuesOnComponent, Attr.few]
    repeat' split
    all_goals (try simp only [reportsIn_append, reportsIn])
    all_goals omega

theorem onSlot_few (a : Attr) : reportsIn a.issuesOnSlot ≤ a.few := by
  cases a with
  | kv a => simp [Attr.issuesOnSlot, KvAttr.issuesOnComponent, reportsIn_append, Attr.few, name_few]
  | spread => simp [Attr.issuesOnSlot, reportsIn, Attr.few]
  | directive d =>
    have h5 := clone_few d
    simp only [Attr.issuesOnSlot, Attr.few]
    split
    · exact h5
    · simp [reportsIn]

def attrsFew (as : List Attr) : Nat := (as.map Attr.few).sum

theorem flatMap_few {f : Attr → List Issue} (hf : ∀ a, reportsIn (f a) ≤ a.few) (as : List Attr) :
    reportsIn (as.flatMap f) ≤ attrsFew as := by
  induction as with
  | nil => simp [reportsIn]
  | cons a as ih =>
    have := hf a
    simp only [attrsFew] at ih
    simp only [List.flatMap_cons, reportsIn_append, attrsFew, List.map_cons, List.sum_cons]
    omega

/-- the braces after the attributes, whose first name is perhaps read twice -/
def lead : Toks → Nat
  | .group .brace c :: _ => 2 * leadRaws c
  | _ => 0

theorem allName_few {c : Toks} (h : AllName c) : 2 * reportsIn (rawIssues c) ≤ toksMany c := by
  have := raw_many h
  omega

theorem attrs_few {ts left : Toks} {is : List Issue} {as : List Attr} (h : ReadsAttrs ts is as left) :
    2 * reportsIn is + 2 * attrsFew as + 3 * toksMany left ≤ 3 * toksMany ts + lead left := by
  induction h with
  | short hc _ ih =>
    have := allName_few hc
    simp only [attrsFew] at ih
    simp only [reportsIn_append, name_few, attrsFew, List.map_cons, List.sum_cons, Attr.few, shortValue, Value.issues,
      reportsIn, toksMany, TT.many]
    omega
  | spread _ ih =>
    simp only [attrsFew] at ih
    simp only [attrsFew, List.map_cons, List.sum_cons, Attr.few, toksMany, TT.many]
    omega
  | @kv ts run rest js v rest' is as left hk _ he _ ih =>
    have h1 := raw_many hk
    have h2 := eq_few he
    have h3 : reportsIn (v.getD (.lit (.bool true))).issues = reportsIn (optIssues v) := by cases v <;> rfl
    simp only [attrsFew] at ih
    simp only [reportsIn_append, attrsFew, List.map_cons, List.sum_cons, Attr.few, h3]
    omega
  | dirShort hc hm _ ih =>
    have h1 := raw_many hc
    have h2 := modifier_few hm
    simp only [attrsFew] at ih
    simp only [reportsIn_append, name_few, attrsFew, List.map_cons, List.sum_cons, Attr.few, toksMany, TT.many]
    omega
  | dir hk hm he _ ih =>
    have h1 := key_few hk
    have h2 := modifier_few hm
    have h3 := eq_fewer he
    simp only [attrsFew] at ih
    simp only [reportsIn_append, attrsFew, List.map_cons, List.sum_cons, Attr.few, toksMany, TT.many]
    omega
  | @dirMore d s c run t r rest hk =>
    have h1 := raw_many hk
    simp only [reportsIn_append, reportsIn, attrsFew, List.map_nil, List.sum_nil, toksMany, TT.many, reduceCtorEq, if_false]
    omega
  | dirShortNoModifier hc =>
    have h1 := allName_few hc
    simp only [reportsIn_append, name_few, reportsIn, attrsFew, List.map_nil, List.sum_nil, toksMany, TT.many, reduceCtorEq, if_false]
    omega
  | dirNoModifier hk =>
    have h1 := key_few hk
    simp only [reportsIn_append, reportsIn, attrsFew, List.map_nil, List.sum_nil, toksMany, TT.many, reduceCtorEq, if_false]
    omega
  | @brace c run t r rest hk =>
    have h1 := raw_lead hk
    simp only [attrsFew, List.map_nil, List.sum_nil, lead]
    omega
  | _ => simp only [reportsIn, attrsFew, List.map_nil, List.sum_nil, toksMany, TT.many, reduceCtorEq, if_false]; omega

theorem attrs_noIdent {ts left : Toks} {is : List Issue} {as : List Attr} (h : ReadsAttrs ts is as left) :
    ∀ i r, left ≠ .ident i :: r := by
  induction h with
  | short _ _ ih | spread _ ih | kv _ _ _ _ ih | dirShort _ _ _ ih | dir _ _ _ _ ih => exact ih
  | done h => rintro i r rfl; exact h ⟨_, _, rfl, .inl rfl⟩
  | _ => simp

theorem path_lead {ts : Toks} (h : PathStart ts) : leadRaws ts = 0 := by
  have hp : ∀ b c s r, c = ':' ∨ c = '<' → raws (munch b (.punct c s :: r)).1 = 0 := by
    rintro b c s r (rfl | rfl) <;> simp [munch, TT.isDash, TT.isWord, raws]
  cases ts with
  | nil => rfl
  | cons t r =>
    simp only [leadRaws]
    split
    · rename_i hd
      have ha : afterFirst (t :: r) = r := by
        cases t with
        | punct c s =>
          have : c = '-' := by
            by_cases hc : c = '-'
            · exact hc
            · simp [TT.isIdent, TT.isDash, hc] at hd
          subst this
          rfl
        | _ => rfl
      rw [PathStart, ha] at h
      rcases h with ⟨s, q, hq⟩ | ⟨s, q, hq⟩ | ⟨s, q, hq⟩
      · cases hq; cases hd
      · rw [hq]; exact hp _ _ _ _ (.inl rfl)
      · rw [hq]; exact hp _ _ _ _ (.inr rfl)
    · rfl

theorem tag_few {ts rest : Toks} {is : List Issue} {tag : Tag} (h : ReadsTag pp ts is tag rest) :
    2 * reportsIn is + 3 + 3 * toksMany rest ≤ 3 * toksMany ts ∧
      2 * reportsIn is + 2 * leadRaws ts + 1 + 3 * toksMany rest ≤ 3 * toksMany ts := by
  cases h with
  | path hp hr =>
    have h3 := path_lead hp
    obtain ⟨u, hu, rfl⟩ := pp.progress _ _ _ hr
    have h1 := length_many u
    have h2 := List.length_pos_iff.mpr hu
    simp only [h3, many_append, reportsIn]
    omega
  | name _ hk =>
    have h1 := raw_many hk
    have h2 := raw_lead hk
    omega
  | crash _ hk =>
    have h1 := raw_many hk
    have h2 := raw_lead hk
    simp only [reportsIn_append, reportsIn, toksMany]
    omega

/-! ### trees -/

def slotCount : List Child → Nat
  | [] => 0
  | .slot _ :: cs => slotCount cs + 1
  | _ :: cs => slotCount cs

/-- the errors of children, slots and others, and one for each slot -/
def childrenFew (cs : List Child) : Nat := reportsIn (nodesIssues cs) + reportsIn (slotsIssues cs) + slotCount cs

def blockFew : Option (List Child) → Nat
  | some cs => childrenFew cs
  | none => 0

theorem path_few (p : Path) : reportsIn p.issues = 0 := by
  unfold Path.issues
  induction p.segs with
  | nil => rfl
  | cons seg segs ih =>
    rw [List.flatMap_cons, reportsIn_append, ih]
    split <;> rfl

theorem method_few (cs : List Child) : reportsIn (methodIssues cs) = 0 := by
  unfold methodIssues; split <;> rfl

theorem selector_few (sels : List Selector) :
    reportsIn (if sels.isEmpty then [] else [.report .selectorOnSlot]) ≤ 1 := by
  split <;> simp [reportsIn]

theorem element_few (tag : Tag) (sels : List Selector) (attrs : List Attr) (args : Option Toks)
    (block : Option (List Child)) (b : Bool) :
    reportsIn ((Element.mk tag sels attrs args block).issues b) ≤ attrsFew attrs + blockFew block + if b then 1 else 0 := by
  have h1 := flatMap_few onComponent_few attrs
  have h2 := flatMap_few onSlot_few attrs
  have h3 := flatMap_few (onElement_few tag.kind) attrs
  have h4 := selector_few sels
  cases block with
  | none =>
    unfold Element.issues
    split <;> simp only [reportsIn_append, path_few, reportsIn, blockFew, if_true] <;> omega
  | some cs =>
    unfold Element.issues
    split <;> simp only [reportsIn_append, path_few, method_few, reportsIn, blockFew, childrenFew, if_true] <;> omega

theorem child_few (tag : Tag) (sels : List Selector) (attrs : List Attr) (args : Option Toks)
    (block : Option (List Child)) (b : Bool) (cs : List Child) :
    childrenFew (asChild b (.mk tag sels attrs args block) :: cs) ≤
      attrsFew attrs + blockFew block + (if b then 2 else 0) + childrenFew cs := by
  have h := element_few tag sels attrs args block b
  cases b with
  | false =>
    simp only [asChild, Bool.false_eq_true, if_false, childrenFew, nodesIssues, slotsIssues, reportsIn_append, slotCount] at h ⊢
    omega
  | true =>
    simp only [asChild, if_true, childrenFew, nodesIssues, slotsIssues, reportsIn_append, slotCount] at h ⊢
    have : reportsIn (if (Element.mk tag sels attrs args block).tag.isPath then
        if (Element.mk tag sels attrs args block).slotName.isSome then (Element.mk tag sels attrs args block).issues true
        else [.report .slotNameIsPath] else [.crash]) ≤ attrsFew attrs + blockFew block + 1 := by
      split
      · split
        · exact h
        · simp [reportsIn]
      · simp [reportsIn]
    omega

/-- no element starts here -/
def Spare (ts : Toks) : Prop := ts ≠ [] ∧ ∀ i r, ts ≠ .ident i :: r

/-- what is left of the budget after reading children: it may start with an error already in the bank -/
structure Few (ts : Toks) (n : Nat) : Prop where
  few : 2 * n ≤ 3 * toksMany ts
  spare : Spare ts → 2 * n + 1 ≤ 3 * toksMany ts
  lead : 2 * n + 2 * leadRaws ts ≤ 3 * toksMany ts + 3

theorem start_lead {ts r0 : Toks} {b : Bool} (h : ElemStart ts b r0) : b = true ∧ leadRaws ts = 0 ∨ r0 = ts := by
  cases h with
  | slot => left; exact ⟨rfl, rfl⟩
  | elem => right; rfl

theorem noTag_lead {ts r0 rest : Toks} {b : Bool} {e : Err} (h : ElemStart ts b r0) (hn : NoTag pp r0 e rest) :
    leadRaws ts = 0 := by
  cases h with
  | slot => rfl
  | elem =>
    cases hn with
    | path hp => exact path_lead hp
    | name _ h => exact absurd ⟨_, _, rfl, .inl rfl⟩ h

theorem children_few {ts : Toks} {is : List Issue} {cs : List Child} (h : ReadsChildren pp ts is cs) :
    Few ts (reportsIn is + childrenFew cs) := by
  refine ReadsChildren.rec
    (motive_1 := fun x ei _ block r4 _ =>
      2 * reportsIn ei + 2 * blockFew block + lead x + 3 * toksMany r4 ≤ 3 * toksMany x + 3 ∨
      r4 = x ∧ x ≠ [] ∧ 2 * reportsIn ei + 2 * blockFew block + lead x ≤ 4)
    (motive_2 := fun ts is cs _ => Few ts (reportsIn is + childrenFew cs))
    ?_ ?_ ?_ ?_ ?_ ?_ ?_ ?_ ?_ ?_ ?_ ?_ ?_ ?_ ?_ h
  · intros; left; simp only [reportsIn, blockFew, lead, toksMany]; omega
  · intro d c r4 is cs hd hc ih
    left
    have h1 := ih.lead
    have h2 : lead (.group d c :: r4) ≤ 2 * leadRaws c := by cases d <;> simp [lead]
    simp only [blockFew, toksMany, TT.many]
    omega
  · intro s args s' d c r4 is cs hn hd hc ih
    left
    have h1 := ih.few
    simp only [blockFew, lead, toksMany, many_append, TT.many]
    omega
  · left; simp [reportsIn, blockFew, lead, toksMany]
  · intro s args s' rest _ _
    left
    simp only [reportsIn, blockFew, lead, toksMany, many_append, TT.many]
    omega
  · intro t r _ _ h3
    have : lead (t :: r) = 0 := by
      unfold lead
      split
      · rename_i he
        cases he
        exact absurd (h3 _ _ rfl) (by decide)
      · rfl
    right
    refine ⟨rfl, by simp, ?_⟩
    simp only [reportsIn, blockFew, this]
    omega
  · exact ⟨by simp [reportsIn, childrenFew, nodesIssues, slotsIssues, slotCount],
      fun h => absurd rfl h.1, by simp [reportsIn, childrenFew, nodesIssues, slotsIssues, slotCount, leadRaws]⟩
  · intro v rest is cs _ _ _ ih
    have h1 := value_toks v
    have h2 := value_few v.ast
    have h3 := value_lead v rest
    obtain ⟨i1, -, i3⟩ := ih
    constructor <;> intros <;>
      simp only [childrenFew, nodesIssues, slotsIssues, reportsIn_append, many_append, slotCount] at i1 i3 ⊢ <;> omega
  · intro v rest is cs _ _ _ ih
    have h1 := value_toks v
    have h2 : reportsIn (Value.lit (.tok (.str []))).issues = 0 := rfl
    have h3 := value_lead v rest
    obtain ⟨i1, -, i3⟩ := ih
    constructor <;> intros <;>
      simp only [childrenFew, nodesIssues, slotsIssues, reportsIn_append, many_append, slotCount, reportsIn] at i1 i3 ⊢ <;> omega
  · intro ts isSlot r0 ti tag r1 si sels r2 ai attrs r3 ei args block r4 is cs hst ht hs ha _ _ ih1 ih2
    have h1 := tag_few ht
    have h2 := sels_few hs
    have h3 := attrs_few ha
    have h4 := child_few tag sels attrs args block isSlot cs
    have h5 : 3 * toksMany r0 + (if isSlot then 6 else 0) ≤ 3 * toksMany ts := by
      cases hst with
      | slot => simp only [toksMany, TT.many, if_true]; omega
      | elem => simp
    have h6 : 2 * reportsIn ei + 2 * blockFew block + lead r3 + 2 * (reportsIn is + childrenFew cs) ≤ 3 * toksMany r3 + 3 := by
      have i1 := ih2.few
      rcases ih1 with h | ⟨rfl, hx, h⟩
      · omega
      · have := ih2.spare ⟨hx, attrs_noIdent ha⟩
        omega
    have h7 : (if isSlot then 4 else 0) ≤ (if isSlot then 6 else 0) := by split <;> omega
    have h8 : 2 * (if isSlot then 2 else 0) = (if isSlot then 4 else 0) := by split <;> rfl
    have h9 := start_lead hst
    refine ⟨?_, ?_, ?_⟩
    · simp only [reportsIn_append]; omega
    · rintro ⟨-, hn⟩
      cases hst <;> exact absurd rfl (hn _ _)
    · simp only [reportsIn_append]
      rcases h9 with ⟨rfl, h9⟩ | rfl
      · rw [h9]; simp only [if_true] at *; omega
      · omega
  · intro ts isSlot r0 ti tag r1 si sels r2 ai attrs s args hst ht hs ha _
    have h1 := tag_few ht
    have h2 := sels_few hs
    have h3 := attrs_few ha
    have h5 := suffix_many hst.suffix
    have h9 := start_lead hst
    simp only [lead, toksMany, TT.many] at h3
    refine ⟨?_, ?_, ?_⟩
    · simp only [reportsIn_append, childrenFew, nodesIssues, slotsIssues, reportsIn, slotCount]; omega
    · rintro ⟨-, hn⟩
      cases hst <;> exact absurd rfl (hn _ _)
    · simp only [reportsIn_append, childrenFew, nodesIssues, slotsIssues, reportsIn, slotCount]
      rcases h9 with ⟨rfl, h9⟩ | rfl
      · rw [h9]; omega
      · omega
  · intro ts isSlot r0 e s rest is cs hst hn _ ih
    have h1 := suffix_many hst.suffix
    have h2 := suffix_many hn.suffix
    have h3 := ih.few
    have h4 := noTag_lead hst hn
    simp only [toksMany, TT.many] at h2
    refine ⟨?_, ?_, ?_⟩
    · simp only [reportsIn]; omega
    · simp only [reportsIn]; omega
    · simp only [reportsIn]; omega
  · intro ts isSlot r0 e rest hst hn _
    have h1 : 1 ≤ toksMany ts := by
      refine Nat.le_trans ?_ (length_many _)
      cases hst <;> simp
    have h4 := lead_many ts
    refine ⟨?_, ?_, ?_⟩ <;> intros <;> simp only [reportsIn, childrenFew, nodesIssues, slotsIssues, slotCount] <;> omega
  · intro s rest is cs _ ih
    have h1 := ih.few
    have h4 : leadRaws (.punct ';' s :: rest) = 0 := rfl
    refine ⟨?_, ?_, ?_⟩ <;> intros <;> simp only [reportsIn, toksMany, TT.many, h4] <;> omega
  · intro t r _ _ _
    have h1 := one_many t
    have h4 := lead_many (t :: r)
    simp only [toksMany] at h4
    refine ⟨?_, ?_, ?_⟩ <;> intros <;> simp only [reportsIn, childrenFew, nodesIssues, slotsIssues, slotCount, toksMany] <;> omega

theorem root_few (cs : List Child) : reportsIn (rootIssues cs) ≤ childrenFew cs := by
  unfold rootIssues
  split
  · rename_i h
    have : 1 ≤ slotCount cs := by
      induction cs with
      | nil => cases h
      | cons c cs ih =>
        cases c with
        | slot => simp [slotCount]
        | _ => exact ih h
    simp only [reportsIn, reduceCtorEq, if_false, childrenFew]
    omega
  · simp only [childrenFew]; omega

theorem verdict_few : ∀ {is : List Issue} {ds : List Diag}, (verdict is).list = some ds →
    ds.length ≤ reportsIn is + if .functionGenerics ∈ ds then 1 else 0
  | [], ds, h => by cases h; simp
  | .crash :: is, ds, h => by cases h
  | .stop d :: is, ds, h => by
    cases h
    simp only [reportsIn, List.length_cons, List.length_nil, List.mem_singleton, eq_comm]
    split <;> omega
  | .report d :: is, ds, h => by
    simp only [verdict, add_list] at h
    cases hv : (verdict is).list with
    | none => rw [hv] at h; cases h
    | some l =>
      rw [hv] at h
      simp only [Option.map_some, Option.some.injEq] at h
      have h1 := verdict_few hv
      rw [← h]
      have h2 : (if .functionGenerics ∈ l then 1 else 0) ≤ (if .functionGenerics ∈ d :: l then 1 else 0) := by
        split
        · rename_i hm
          rw [if_pos (List.mem_cons_of_mem _ hm)]
          exact Nat.le_refl _
        · omega
      simp only [List.length_cons, reportsIn]
      omega

theorem errors_bound {s : Sched} {ts : Toks} (hl : LexicalToks ts) {ds : List Diag}
    (h : (mview pp s ts).reported = some ds) :
    2 * ds.length ≤ 3 * toksMany ts + if .functionGenerics ∈ ds then 2 else 0 := by
  obtain ⟨is, cs, hr⟩ := reading_exists (pp := pp) hl
  rw [is_reported (reading_exact (s := s) hl hr)] at h
  have h1 := (children_few hr).few
  have h2 := root_few cs
  have h4 := verdict_few h
  rw [reportsIn_append] at h4
  split <;> rename_i hm
  · rw [if_pos hm] at h4; omega
  · rw [if_neg hm] at h4; omega

end Mview
