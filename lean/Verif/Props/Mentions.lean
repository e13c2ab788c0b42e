import Verif.Lemmas.NightlyHygiene
import Verif.Lemmas.Mentions
import Verif.Props.Hygiene
import Verif.Props.Nightly
/-
C53: names that are not mentioned in the view are not used by the expansion, in spite of errors.
-/

namespace Mview
open Lex

variable {pp : PathParser} {s : Sched} {ts out : Toks} {is : List Issue} {cs : List Child}
  {ds : List Diag}

/-- C53.  What is generated in spite of errors (on nightly) consists of code and names of the user, of
paths starting with `::leptos` or `::std`, methods, keywords, strings, punctuation, groups, and the name
`__invalid_identifier_found_str`. -/
theorem nightly_absolute_paths (hl : LexicalToks ts) (h : ReadsChildren pp ts is cs)
    (hv : verdict (is ++ rootIssues cs) = .errors ds) :
    ∃ out, mviewNightly pp s ts = .done ds out ∧
      Hygienic (fun u => u ∈ childrenPieces cs ∨ u = invalidName) false out := by
  obtain ⟨out, ho, hr⟩ := nightly_sound (s := s) hl h hv
  exact ⟨out, ho, rootAnyway_hygienic hr⟩

/-- C53.  In an expansion, an identifier that is not directly after `::` or `.` is a keyword (or one of `allow`,
the lints, `__x` and `_`) or mentioned in the input. -/
theorem names_mentioned (hpp : pp.Verbatim) (hl : LexicalToks ts) (h : mview pp s ts = .tokens out) :
    ∀ i ∈ loose .none out, i ∈ ownNames.map plain ∨ Mentions ts i.name := fun i hi => by
  obtain ⟨root, hp, _⟩ := mview_sound h
  have hr := (reading_parses hl).mpr hp
  rcases (absolute_paths hp h).loose_piece .none i hi with h | ⟨u, hu, b, hb⟩
  · exact .inl h
  · exact (children_from hpp hr (by intro i hi; simp at hi) u hu).loose b i hb

/-- C53.  The same for what is generated in spite of errors, whatever the input; in addition there can be
`__invalid_identifier_found_str`. -/
theorem nightly_names_mentioned (hpp : pp.Verbatim) (hl : LexicalToks ts)
    (h : mviewNightly pp s ts = .done ds out) : ∀ i ∈ loose .none out,
      i ∈ ownNames.map plain ∨ i = plain c!"__invalid_identifier_found_str" ∨ Mentions ts i.name := by
  intro i hi
  obtain ⟨is, cs, hr⟩ := reading_exists (pp := pp) hl
  cases hv : verdict (is ++ rootIssues cs) with
  | errors es =>
    obtain ⟨out', ho, hh⟩ := nightly_absolute_paths (s := s) hl hr hv
    rw [h] at ho
    cases ho
    rcases hh.loose_piece .none i hi with h | ⟨u, hu | rfl, b, hb⟩
    · exact .inl h
    · exact ((children_from hpp hr (goes_append.mp (goes_of_errors hv)).1 u hu).loose b i hb).imp id .inr
    · have := loose_idents _ b i hb
      simp only [invalidName, idents, TT.idents, List.append_nil, List.mem_singleton] at this
      exact .inr (.inl this)
  | stopped es =>
    have := nightly_stopped (s := s) hl hr hv
    rw [h] at this
    cases this
    simp [loose, TT.loose] at hi
  | crashed =>
    obtain ⟨p, hp⟩ := nightly_crashed (s := s) hl hr hv
    rw [h] at hp
    cases hp

/-- C53.  A name that is not mentioned in the view can be given to anything without affecting the result: it is
not open to capture, with or without errors. -/
theorem unmentioned_harmless (hpp : pp.Verbatim) (hl : LexicalToks ts) {n : Str} (hn : ¬ Mentions ts n)
    (ho : n ∉ ownNames) (hx : n ≠ c!"__invalid_identifier_found_str") :
    (∀ out, mview pp s ts = .tokens out → ∀ i ∈ loose .none out, i.name ≠ n) ∧
    (∀ ds out, mviewNightly pp s ts = .done ds out → ∀ i ∈ loose .none out, i.name ≠ n) := by
  have own : ∀ i : Ident, i ∈ ownNames.map plain → i.name ∈ ownNames := fun i hi => by
    obtain ⟨m, hm, rfl⟩ := List.mem_map.mp hi
    exact hm
  refine ⟨fun out h i hi he => ?_, fun ds out h i hi he => ?_⟩ <;> subst he
  · exact (names_mentioned hpp hl h i hi).elim (fun h => ho (own i h)) hn
  · rcases nightly_names_mentioned hpp hl h i hi with h | h | h
    · exact ho (own i h)
    · exact hx (by rw [h])
    · exact hn h

/-! ### examples -/

mutual
/-- The characters of the words in a token tree. -/
def TT.letters : TT → Str
  | .ident i => i.name
  | .lit (.int t) => t
  | .group _ t => letters t
  | _ => []
/-- The characters of all words. -/
def letters : Toks → Str
  | [] => []
  | x :: r => x.letters ++ letters r
end

theorem letters_append (a b : Toks) : letters (a ++ b) = letters a ++ letters b := by
  induction a with
  | nil => rfl
  | cons x a ih => simp [letters, ih]

theorem kebabText_letters {run : Toks} (h : ∀ t ∈ run, t.isWord ∨ t.isDash) :
    ∀ c ∈ kebabText run, c = '-' ∨ c ∈ letters run := by
  induction run with
  | nil => simp [kebabText]
  | cons t run ih =>
    intro c hc
    simp only [kebabText, List.flatMap_cons, List.mem_append] at hc
    simp only [letters, List.mem_append]
    rcases hc with hc | hc
    · have ht := h t (by simp)
      cases t with
      | ident i => exact .inr (.inl hc)
      | punct p s =>
        simp only [TT.isWord, Bool.false_eq_true, false_or] at ht
        unfold TT.isDash at ht
        split at ht
        · rename_i he; cases he; simp only [TT.text, List.mem_singleton] at hc; exact .inl hc
        · cases ht
      | lit l => cases l <;> exact .inr (.inl hc)
      | group d t => simp [TT.text] at hc
    · exact (ih (fun t ht => h t (List.mem_cons_of_mem _ ht)) c hc).imp id .inr

/-- A name with a letter that is in none of the words is not mentioned. -/
theorem Mentions.letters {n : Str} (h : Mentions ts n) : ∀ c ∈ n, c = '_' ∨ c ∈ letters ts := by
  induction h with
  | ident => intro c hc; exact .inr (by simp [Mview.letters, TT.letters, hc])
  | name hk =>
    intro c hc
    obtain ⟨d, hd, rfl⟩ := List.mem_map.mp hc
    rw [letters_append, List.mem_append]
    by_cases h : d = '-'
    · simp [h]
    · rw [if_neg h]
      exact (kebabText_letters hk.tokens d hd).elim (fun h' => absurd h' h) fun h => .inr (.inl h)
  | within _ ih => intro c hc; exact (ih c hc).imp id fun h => by simp [Mview.letters, TT.letters, h]
  | later _ ih => intro c hc; exact (ih c hc).imp id fun h => by simp [Mview.letters, h]

/-- `Into` is not mentioned in this view, `data_x` (as `data-x`) and `f` are. -/
example : ¬ Mentions t!"div {data-x} a={f(1)} { \"Into\" }" c!"Into" ∧
    Mentions t!"div {data-x} a={f(1)} { \"Into\" }" c!"data_x" ∧
    Mentions t!"div {data-x} a={f(1)} { \"Into\" }" c!"f" := by
  refine ⟨fun h => ?_, ?_, ?_⟩
  · have := h.letters 'I' (by decide)
    revert this; decide
  · refine .later (.within ?_)
    have := longName (ts := t!"data-x") rfl rfl
    exact .name (run := t!"data-x") (r := []) this.kebab
  · exact .later (.later (.later (.later (.within .ident))))

/-- It can therefore be given to anything. -/
example {out : Toks} (h : mview simplePaths s t!"div {data-x} a={f(1)} { \"Into\" }" = .tokens out) :
    ∀ i ∈ loose .none out, i.name ≠ c!"Into" :=
  (unmentioned_harmless simplePaths_verbatim (lexical_of rfl)
    (fun h => by have := h.letters 'I' (by decide); revert this; decide) (by decide) (by decide)).1 out h

/-- Two errors: a missing value and a string that should be the name of a function.  The placeholder is an absolute
path, the string becomes the invalid name. -/
example : ∃ ds out, mviewNightly simplePaths (fun _ => []) t!"div a= use:\"g\" class={f}; Foo;" = .done ds out ∧
    ds.length = 2 ∧
    loose .none out = idents t!"allow unused_braces f __invalid_identifier_found_str
      allow unreachable_code Foo Foo" :=
  ⟨_, _, rfl, rfl, rfl⟩

end Mview
