import Verif.Lemmas.Kebab
import Verif.Model.Lex
/-
C04: kebab-case names are read by maximal munch.
-/

namespace Mview
open Lex

/-- C04.  If the longest prefix of the input that is a kebab-cased name is `run`,
then exactly `run` is consumed, the name's text is that of `run`, and the only
diagnostics are about `r#` identifiers after the first token. -/
theorem kebab_maximal_munch {ts run rest : Toks} (hlex : ∀ i, .ident i ∈ ts → i.Lexical)
    (h : LongestKebab ts run rest) :
    parseKebab ts = .ret ((kebabRaws run).map .rawInKebab) (.ok (kebabOf run) rest) := by
  have hl : HeadLexical ts := by
    rintro i r rfl hi
    have := (hlex i (by simp)).2
    simp [hi] at this
  cases ts with
  | nil =>
    have h1 := h.split
    exact absurd (List.append_eq_nil_iff.mp h1.symm).1 h.kebab.nonempty
  | cons t ts =>
    have hs : t.isIdent = true ∨ t.isDash = true := by
      have h1 := h.split
      cases run with
      | nil => exact absurd rfl h.kebab.nonempty
      | cons t' run => simp at h1; rw [h1.1]; exact h.kebab.start _ rfl
    have e := kebabSplit_eq hl hs
    have u := (kebabSplit_longest hl e).unique h
    rw [parseKebab_eq, e, ← rawDiags_tail, ← u.1, ← u.2]

/-- C04.  Such a longest prefix exists, uniquely, as soon as the input starts with an
identifier or a dash. -/
theorem kebab_longest_exists {ts : Toks} {t : TT} (hlex : ∀ i, .ident i ∈ ts → i.Lexical)
    (h : ts.head? = some t) (hs : t.isIdent = true ∨ t.isDash = true) :
    ∃ run rest, LongestKebab ts run rest ∧
      ∀ run' rest', LongestKebab ts run' rest' → run' = run ∧ rest' = rest := by
  cases ts with
  | nil => simp at h
  | cons t' ts =>
    simp at h; subst h
    have hl : HeadLexical (t' :: ts) := by
      rintro i r hi hn
      have := (hlex i (by rw [hi]; simp)).2
      simp [hn] at this
    have := kebabSplit_longest hl (kebabSplit_eq hl hs)
    exact ⟨_, _, this, fun _ _ h' => h'.unique this⟩

/-- C04.  Otherwise parsing a name fails and consumes nothing. -/
theorem kebab_fails {ts : Toks}
    (h : ∀ t, ts.head? = some t → t.isIdent = false ∧ t.isDash = false) :
    parseKebab ts = .ret [] (.err .expectedKebab ts) := by
  rw [parseKebab_eq, kebabSplit_none h]

/-- The hypotheses are met by `data-0 - --r#type=3`: the run is everything before
`=`, its text `data-0---type`. -/
example : LongestKebab t!"data-0 - --r#type=3" t!"data-0 - --r#type" t!"=3" ∧
    kebabOf t!"data-0 - --r#type" = ⟨c!"data-0---type", 3⟩ ∧
    kebabRaws t!"data-0 - --r#type" = [⟨true, c!"type"⟩] := by
  refine ⟨?_, rfl, rfl⟩
  apply kebabSplit_longest
  · rintro i r h; simp at h; simp [← h.1]
  · rfl

/-- A name has at least one coloured section and a non-empty text. -/
theorem kebab_nonempty {run : Toks} (hlex : ∀ i, .ident i ∈ run → i.Lexical) (h : IsKebab run) :
    (kebabOf run).repr ≠ [] ∧ 0 < (kebabOf run).spans := by
  cases run with
  | nil => exact absurd rfl h.nonempty
  | cons t a =>
    refine ⟨?_, by simp only [kebabOf, kebabSections]; omega⟩
    rcases h.start t rfl with ht | ht
    · cases t <;> simp [TT.isIdent] at ht
      simp [kebabOf, kebabText, TT.text, (hlex _ List.mem_cons_self).1]
    · obtain ⟨s, rfl⟩ := isDash_eq ht
      simp [kebabOf, kebabText, TT.text]

end Mview
