import Verif.Lemmas.Meaning
import Verif.Lemmas.Names
import Verif.Props.Kebab
import Verif.Spec.Tags
import Verif.Model.Lex
/-
Names: how they become identifiers (C05) and which kind of element they are (C14).
-/

namespace Mview
open Lex

/-! ### C05 -/

/-- C05.  A name becomes the raw identifier with `_` for `-`, or the macro crashes for the
few names that have none. -/
theorem snake_ident (k : KebabIdent) (h : 0 < k.spans) :
    k.toSnakeIdent =
      let name := k.repr.map fun c => if c = '-' then '_' else c
      if name ∈ [c!"_", c!"self", c!"Self", c!"super", c!"crate"] then .panic (.rawIdent name)
      else .ret [] ⟨true, name⟩ := by
  have hn : notRaw = [c!"_", c!"self", c!"Self", c!"super", c!"crate"] := rfl
  have hd : dashToUnderscore k.repr = k.repr.map fun c => if c = '-' then '_' else c := rfl
  unfold KebabIdent.toSnakeIdent
  rw [checkSpan_eq h, Out.monad_bind, Out.bind_ret, Out.tell_nil, ← hn]
  simp only [newRaw, hd]
  rfl

/-- C05.  Nothing but dashes changes, so the length is kept. -/
theorem snake_ident_chars {name : Str} {i : Ident} (h : rawIdentOf name = some i) :
    i.raw = true ∧ i.name.length = name.length ∧
      ∀ n (hn : n < name.length), i.name[n]? = some (if name[n] = '-' then '_' else name[n]) := by
  unfold rawIdentOf rawIdent at h
  split at h
  · cases h
  · cases h
    refine ⟨rfl, by simp, ?_⟩
    intro n hn
    simp [hn]

/-- C05.  Two names become the same identifier only if they differ by `-` versus `_`. -/
theorem snake_ident_collision {a b : Str} {i : Ident} (ha : rawIdentOf a = some i)
    (hb : rawIdentOf b = some i) :
    a.length = b.length ∧ ∀ n (h1 : n < a.length) (h2 : n < b.length),
      a[n] = b[n] ∨ (a[n] = '-' ∧ b[n] = '_') ∨ (a[n] = '_' ∧ b[n] = '-') := by
  obtain ⟨-, hla, hca⟩ := snake_ident_chars ha
  obtain ⟨-, hlb, hcb⟩ := snake_ident_chars hb
  refine ⟨by omega, ?_⟩
  intro n h1 h2
  have e1 := hca n h1
  have e2 := hcb n h2
  rw [e1] at e2
  simp only [Option.some.injEq] at e2
  split at e2 <;> split at e2 <;> rename_i x y
  · exact .inl (x.trans y.symm)
  · exact .inr (.inl ⟨x, e2.symm⟩)
  · exact .inr (.inr ⟨e2, y⟩)
  · exact .inl e2

/-- C05.  Every name but six is usable, keywords among them. -/
theorem snake_ident_usable {name : Str}
    (h : name ∉ [c!"-", c!"_", c!"self", c!"Self", c!"super", c!"crate"]) :
    ∃ i, rawIdentOf name = some i := by
  unfold rawIdentOf rawIdent
  split
  · rename_i hc
    have := dash_notRaw (s := name) hc
    simp only [List.mem_cons, List.not_mem_nil, or_false] at this h
    rcases this with h' | h' | h' | h' | h' | h' <;> simp [h'] at h
  · exact ⟨_, rfl⟩

example : rawIdentOf c!"type" = some ⟨true, c!"type"⟩ := rfl
example : rawIdentOf c!"aria-label" = some ⟨true, c!"aria_label"⟩ := rfl
example : rawIdentOf c!"aria_label" = some ⟨true, c!"aria_label"⟩ := rfl
example : rawIdentOf c!"--" = some ⟨true, c!"__"⟩ := rfl
example : rawIdentOf c!"super" = none := rfl

/-! ### C14: the binary search -/

theorem strCmp_eq_iff {a b : Str} : strCmp a b = .eq ↔ a = b := by
  induction a generalizing b with
  | nil => cases b <;> simp [strCmp]
  | cons x xs ih =>
    cases b with
    | nil => simp [strCmp]
    | cons y ys =>
      simp only [strCmp, List.cons.injEq]
      split
      · rename_i h
        simp only [reduceCtorEq, false_iff, not_and]
        rintro rfl
        omega
      · split
        · rename_i h
          simp only [reduceCtorEq, false_iff, not_and]
          rintro rfl
          omega
        · rename_i h1 h2
          have : x = y := Char.toNat_inj.mp (by omega)
          simp [this, ih]

theorem strCmp_self (a : Str) : strCmp a a = .eq := strCmp_eq_iff.mpr rfl

theorem strCmp_swap {a b : Str} : strCmp a b = .gt ↔ strCmp b a = .lt := by
  induction a generalizing b with
  | nil => cases b <;> simp [strCmp]
  | cons x xs ih =>
    cases b with
    | nil => simp [strCmp]
    | cons y ys =>
      simp only [strCmp]
      split
      · rename_i h
        rw [if_neg (by omega)]
        simp
      · split
        · simp
        · exact ih

theorem strCmp_lt_trans {a b c : Str} (h : strCmp a b = .lt) (h' : strCmp b c = .lt) :
    strCmp a c = .lt := by
  induction a generalizing b c with
  | nil =>
    cases c with
    | nil => cases b <;> simp [strCmp] at h'
    | cons => rfl
  | cons x xs ih =>
    cases b with
    | nil => simp [strCmp] at h
    | cons y ys =>
      cases c with
      | nil => simp [strCmp] at h'
      | cons z zs =>
        simp only [strCmp] at h h' ⊢
        split at h
        · split at h'
          · rw [if_pos (by omega)]
          · split at h'
            · simp at h'
            · rw [if_pos (by omega)]
        · split at h
          · simp at h
          · split at h'
            · rw [if_pos (by omega)]
            · split at h'
              · simp at h'
              · rw [if_neg (by omega), if_neg (by omega)]
                exact ih h h'

/-- Strictly increasing. -/
def Sorted (table : List Str) : Prop := table.Pairwise fun a b => strCmp a b = .lt

theorem Sorted.lt {table : List Str} (h : Sorted table) {i j : Nat} (hij : i < j)
    (hj : j < table.length) : strCmp (table[i]'(by omega)) table[j] = .lt :=
  List.pairwise_iff_getElem.mp h i j (by omega) hj hij

theorem binarySearchLoop_spec {table : List Str} (hs : Sorted table) (x : Str) :
    ∀ fuel base size, 1 ≤ size → size ≤ fuel → base + size ≤ table.length →
      binarySearchLoop table x fuel base size < table.length ∧
      ∀ j (hj : j < table.length), table[j] = x → base ≤ j → j < base + size →
        binarySearchLoop table x fuel base size = j := by
  intro fuel
  induction fuel with
  | zero => intro base size h1 h2; omega
  | succ fuel ih =>
    intro base size h1 h2 h3
    unfold binarySearchLoop
    by_cases hsz : size > 1
    · rw [if_pos hsz]
      simp only
      have hmid : base + size / 2 < table.length := by omega
      have hget : table.getD (base + size / 2) [] = table[base + size / 2] := by simp [hmid]
      rw [hget]
      by_cases hc : strCmp table[base + size / 2] x = .gt
      · rw [if_pos hc]
        obtain ⟨ha, hb⟩ := ih base (size - size / 2) (by omega) (by omega) (by omega)
        refine ⟨ha, fun j hj hx hlo hhi => hb j hj hx hlo ?_⟩
        refine Decidable.byContradiction fun hge => ?_
        rcases Nat.lt_or_ge (base + size / 2) j with hlt | hle
        · have := hs.lt hlt hj
          rw [hx] at this
          rw [this] at hc
          cases hc
        · by_cases hjm : j = base + size / 2
          · subst hjm
            rw [hx, strCmp_self] at hc
            cases hc
          · omega
      · rw [if_neg hc]
        obtain ⟨ha, hb⟩ := ih (base + size / 2) (size - size / 2) (by omega) (by omega) (by omega)
        refine ⟨ha, fun j hj hx hlo hhi => hb j hj hx ?_ (by omega)⟩
        refine Decidable.byContradiction fun hge => ?_
        apply hc
        rw [strCmp_swap, ← hx]
        exact hs.lt (by omega) hmid
    · rw [if_neg hsz]
      exact ⟨by omega, fun j hj hx hlo hhi => by omega⟩

/-- C14.  On a sorted table the binary search finds exactly the members. -/
theorem binarySearch_iff {table : List Str} (hs : Sorted table) (x : Str) :
    binarySearchOk table x = true ↔ x ∈ table := by
  unfold binarySearchOk
  split
  · rename_i h
    simp [List.length_eq_zero_iff.mp h]
  · rename_i h
    obtain ⟨ha, hb⟩ := binarySearchLoop_spec hs x table.length 0 table.length (by omega) (by omega)
      (by omega)
    simp only [decide_eq_true_eq]
    rw [strCmp_eq_iff]
    constructor
    · intro he
      rw [← he]
      simp only [List.getD_eq_getElem?_getD, List.getElem?_eq_getElem ha, Option.getD_some]
      exact List.getElem_mem ha
    · intro hm
      obtain ⟨j, hj, hx⟩ := List.mem_iff_getElem.mp hm
      rw [hb j hj hx (by omega) (by omega)]
      simp [hj, hx]

instance (table : List Str) : Decidable (Sorted table) := by
  unfold Sorted; infer_instance

theorem svgTable_sorted : Sorted svgTable := by decide +kernel
theorem mathTable_sorted : Sorted mathTable := by decide +kernel

theorem svgTable_names (x : Str) : x ∈ svgTable ↔ x ∈ svgNames := by
  have h1 : ∀ x ∈ svgTable, x ∈ svgNames := by decide +kernel
  have h2 : ∀ x ∈ svgNames, x ∈ svgTable := by decide +kernel
  exact ⟨h1 x, h2 x⟩
theorem mathTable_names (x : Str) : x ∈ mathTable ↔ x ∈ mathNames := by
  have h1 : ∀ x ∈ mathTable, x ∈ mathNames := by decide +kernel
  have h2 : ∀ x ∈ mathNames, x ∈ mathTable := by decide +kernel
  exact ⟨h1 x, h2 x⟩

theorem isAsciiUpper_iff (c : Char) :
    isAsciiUpper c = true ↔ c ∈ "ABCDEFGHIJKLMNOPQRSTUVWXYZ".toList := by
  constructor
  · intro h
    obtain ⟨k, rfl⟩ := upper_eq h
    revert k
    decide +kernel
  · have : ∀ c ∈ "ABCDEFGHIJKLMNOPQRSTUVWXYZ".toList, isAsciiUpper c = true := by decide +kernel
    exact this c

/-- C14.  The kind of a tag, from its name. -/
theorem tag_kind (name : Str) : TagKind.ofStr name = kindOf name := by
  unfold TagKind.ofStr kindOf
  have h1 : isComponent name = true ↔
      ∃ c, name.head? = some c ∧ c ∈ ("ABCDEFGHIJKLMNOPQRSTUVWXYZ".toList) := by
    cases name with
    | nil => simp [isComponent]
    | cons c cs => simp only [isComponent, isAsciiUpper_iff, List.head?_cons, Option.some.injEq,
        exists_eq_left']
  have h2 : isSvgElement name = true ↔ name ∈ svgNames := by
    rw [isSvgElement, binarySearch_iff svgTable_sorted, svgTable_names]
  have h3 : isWebComponent name = true ↔ '-' ∈ name := by simp [isWebComponent]
  have h4 : isMathMlElement name = true ↔ name ∈ mathNames := by
    rw [isMathMlElement, binarySearch_iff mathTable_sorted, mathTable_names]
  simp only [h1, h2, h3, h4]

example : kindOf c!"feSpotLight" = .svg ∧ kindOf c!"use_" = .svg ∧ kindOf c!"mi" = .math ∧
    kindOf c!"div" = .html ∧ kindOf c!"my-el" = .webComponent ∧ kindOf c!"Button" = .component ∧
    kindOf c!"My-el" = .component ∧ kindOf c!"Éa" = .html ∧ kindOf c!"a" = .html := by
  decide +kernel

/-! ### C14: tags as written -/

theorem peekPunct2_colons {ts : Toks} : peekPunct2 ':' ':' ts = true ↔ StartsColons ts := by
  unfold peekPunct2 StartsColons
  split
  · rename_i a b s r
    simp only [Bool.and_eq_true, decide_eq_true_eq, List.cons.injEq, TT.punct.injEq]
    constructor
    · rintro ⟨rfl, rfl⟩
      exact ⟨s, r, by simp⟩
    · rintro ⟨s', r', ⟨rfl, -⟩, ⟨rfl, -⟩, -⟩
      simp
  · rename_i h
    simp only [Bool.false_eq_true, false_iff, not_exists]
    rintro s r rfl
    exact h _ _ _ _ rfl

theorem peekPunct_angle {ts : Toks} : peekPunct '<' ts = true ↔ StartsAngle ts := by
  unfold peekPunct StartsAngle
  split
  · rename_i c s r
    simp only [decide_eq_true_eq, List.cons.injEq, TT.punct.injEq]
    constructor
    · rintro rfl
      exact ⟨s, r, by simp⟩
    · rintro ⟨s', r', ⟨rfl, -⟩, -⟩
      rfl
  · rename_i h
    simp only [Bool.false_eq_true, false_iff, not_exists]
    rintro s r rfl
    exact h _ _ _ rfl

/-- C14.  A tag `name::..` or `name<..` is a component, with the path as `syn` reads it. -/
theorem tag_path (pp : PathParser) {i : Ident} {r : Toks}
    (h : StartsColons r ∨ StartsAngle r) :
    parseTag pp (.ident i :: r) = match pp.run (.ident i :: r) with
      | (some p, rest) => .ret [] (.ok (.component p) rest)
      | (none, rest) => .ret [] (.err .badPath rest) := by
  have hc : (peekPunct2 ':' ':' (skip (.ident i :: r)) || peekPunct2 ':' ':' (.ident i :: r) ||
      peekPunct '<' (skip (.ident i :: r))) = true := by
    simp only [skip, Bool.or_eq_true]
    rcases h with h | h
    · exact .inl (.inl (peekPunct2_colons.mpr h))
    · exact .inr (peekPunct_angle.mpr h)
  simp only [parseTag, P.bind_apply, inp, Out.bind_ret, Out.tell_nil, hc, if_true, parsePath]
  rcases pp.run (.ident i :: r) with ⟨_ | p, rest⟩ <;> simp

/-- C14, C05.  Any other tag is a name, of the kind the name has.  Components get the name
as a plain identifier, HTML, SVG and MathML elements as a raw one, all with `_` for `-`. -/
theorem tag_name (pp : PathParser) {i : Ident} {r run rest : Toks}
    (h : ¬ (StartsColons r ∨ StartsAngle r))
    (hlex : ∀ j, .ident j ∈ .ident i :: r → j.Lexical)
    (hrun : LongestKebab (.ident i :: r) run rest) :
    (∀ tag, tagOf (kebabOf run) = some tag →
      parseTag pp (.ident i :: r) = .ret ((kebabRaws run).map .rawInKebab) (.ok tag rest)) ∧
    (tagOf (kebabOf run) = none → ∃ name, parseTag pp (.ident i :: r) = .panic (.rawIdent name)) := by
  have hc : (peekPunct2 ':' ':' (skip (.ident i :: r)) || peekPunct2 ':' ':' (.ident i :: r) ||
      peekPunct '<' (skip (.ident i :: r))) = false := by
    rw [← Bool.not_eq_true]
    simp only [skip, Bool.or_eq_true, not_or]
    rw [not_or] at h
    exact ⟨⟨fun h' => h.1 (peekPunct2_colons.mp h'), by simp [peekPunct2]⟩,
      fun h' => h.2 (peekPunct_angle.mp h')⟩
  have hk := kebab_maximal_munch hlex hrun
  have hsp : 0 < (kebabOf run).spans := (kebab_nonempty (fun j hj => hlex j (by
    rw [hrun.split]; exact List.mem_append_left _ hj)) hrun.kebab).2
  have hst := snake_ident (kebabOf run) hsp
  have hraw : rawIdentOf (kebabOf run).repr = if ((kebabOf run).repr.map fun c =>
      if c = '-' then '_' else c) ∈ [c!"_", c!"self", c!"Self", c!"super", c!"crate"] then none
      else some ⟨true, (kebabOf run).repr.map fun c => if c = '-' then '_' else c⟩ := rfl
  simp only [parseTag, P.bind_apply, inp, Out.bind_ret, Out.tell_nil, hc, Bool.false_eq_true,
    if_false, hk, tag_kind]
  unfold tagOf
  simp only at hst
  split at hst
  · rename_i hin
    rw [if_pos hin] at hraw
    cases hkind : kindOf (kebabOf run).repr <;>
      simp [hraw, liftOut, hst, Out.bind, Path.ofIdent]
  · rename_i hin
    rw [if_neg hin] at hraw
    cases hkind : kindOf (kebabOf run).repr <;>
      simp [hraw, liftOut, hst, Out.bind, Path.ofIdent]

/-- C14, C15.  The kind by which the attributes of an element are treated is that of its name. -/
theorem kind_of_name {k : KebabIdent} {tag : Tag} (h : tagOf k = some tag) : tag.kind = kindOf k.repr := by
  unfold tagOf at h
  cases hk : kindOf k.repr <;> rw [hk] at h
  case webComponent => cases h; rfl
  all_goals
    rw [Option.map_eq_some_iff] at h
    obtain ⟨i, _, rfl⟩ := h
    rfl

set_option linter.unusedVariables false in
/-- `foreignObject.x`, `aria-thing {`, `r#type`, `My-thing;` and `a::b::<C> {`. -/
example :
    parseTag simplePaths t!"foreignObject.x" =
      .ret [] (.ok (.svg ⟨true, c!"foreignObject"⟩) t!".x") ∧
    parseTag simplePaths t!"aria-thing {}" =
      .ret [] (.ok (.webComponent ⟨c!"aria-thing", 2⟩) t!"{}") ∧
    parseTag simplePaths t!"r#type;" = .ret [] (.ok (.html ⟨true, c!"type"⟩) t!";") ∧
    parseTag simplePaths t!"My-thing;" =
      .ret [] (.ok (.component ⟨false, [⟨⟨false, c!"My_thing"⟩, .none⟩]⟩) t!";") ∧
    parseTag simplePaths t!"a::B {}" =
      .ret [] (.ok (.component ⟨false, [⟨⟨false, c!"a"⟩, .none⟩, ⟨⟨false, c!"B"⟩, .none⟩]⟩)
        t!"{}") :=
  ⟨rfl, rfl, rfl, rfl, rfl⟩

/-- The hypotheses of `tag_name` on `my-el a`. -/
example : ¬ (StartsColons t!"-el a" ∨ StartsAngle t!"-el a") ∧
    LongestKebab t!"my-el a" t!"my-el" t!"a" ∧ tagOf (kebabOf t!"my-el") =
      some (.webComponent ⟨c!"my-el", 2⟩) := by
  refine ⟨?_, ?_, rfl⟩
  · rintro (⟨s, r, h⟩ | ⟨s, r, h⟩)
    · injection h with h1 h2; injection h1 with h3 h4; revert h3; decide
    · injection h with h1 h2; injection h1 with h3 h4; revert h3; decide
  · apply kebabSplit_longest
    · rintro i r h; simp at h; simp [← h.1]
    · rfl

end Mview
