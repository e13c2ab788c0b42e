import Verif.Lemmas.Lexical
import Verif.Props.Nightly
/-
C61: all generated identifiers are identifiers.
-/

namespace Mview
open Lex

variable {L : Letters} {pp : PathParser} {s : Sched} {ts out : Toks} {ds : List Diag}

/-- C61.  A kebab-cased name with underscores for dashes is the text of an identifier, also if it starts with a dash or
has numbers in it.  (So `Ident::new_raw` in `to_snake_ident` only crashes for the names of C02.) -/
theorem snake_ident_valid {run rest : Toks} (hl : Lexed L ts) (h : LongestKebab ts run rest) :
    Word L ((kebabText run).map fun c => if c = '-' then '_' else c) := longest_word hl h

/-- C61.  The method of a slot is the text of an identifier. -/
theorem slot_method_valid {n : Str} (h : Word L n) : Word L (upperCamelToSnake n) := by
  rw [snakeCase_eq]; exact snakeCase_word h

/-- C61.  All identifiers in what is generated, with or without errors, are valid. -/
theorem nightly_identifiers_valid (hpp : pp.Verbatim) (hl : Lexed L ts)
    (h : mviewNightly pp s ts = .done ds out) : ∀ i ∈ idents out, Valid L i := by
  have hl' := lexed_lexical hl
  obtain ⟨is, cs, hr⟩ := reading_exists (pp := pp) hl'
  cases hv : verdict (is ++ rootIssues cs) with
  | errors es =>
    obtain ⟨out', ho, hb⟩ := nightly_sound (s := s) hl' hr hv
    rw [h] at ho
    cases ho
    exact rootAnyway_words hb (children_fine hpp hr (goes_append.mp (goes_of_errors hv)).1 hl)
  | stopped es =>
    have := nightly_stopped (s := s) hl' hr hv
    rw [h] at this
    cases this
    intro i hi
    simp [idents, TT.idents] at hi
  | crashed =>
    obtain ⟨p, hp⟩ := nightly_crashed (s := s) hl' hr hv
    rw [h] at hp
    cases hp

/-- C61.  All identifiers in an expansion are valid. -/
theorem identifiers_valid (hpp : pp.Verbatim) (hl : Lexed L ts) (h : mview pp s ts = .tokens out) :
    ∀ i ∈ idents out, Valid L i :=
  nightly_identifiers_valid hpp hl ((nightly_accepts (lexed_lexical hl)).mpr h)

/-! ### examples -/

set_option maxRecDepth 20000

/-- The characters of ASCII identifiers. -/
def asciiLetters : Letters where
  start c := c.isAlpha = true ∨ c = '_'
  cont c := c.isAlpha = true ∨ c = '_' ∨ c.isDigit = true
  later _ h := h.imp id .inl
  alpha _ h := .inl h
  under := .inr rfl
  digit _ h := .inr (.inr h)
  dash := by decide

/-- `-0`, `--a---b_c` and `blue-100` are names; the identifiers made of them are valid. -/
example : (∀ n ∈ [c!"-0", c!"--a---b_c", c!"blue-100"], Word asciiLetters (underscored n)) ∧
    underscored c!"-0" = c!"_0" ∧ ¬ Word asciiLetters c!"-0" ∧ ¬ Word asciiLetters c!"0-a" := by
  refine ⟨?_, rfl, ?_, ?_⟩
  · intro n hn
    simp only [List.mem_cons, List.not_mem_nil, or_false] at hn
    rcases hn with rfl | rfl | rfl <;> exact ascii_word rfl
  · rintro ⟨c, cs, he, h, -⟩
    cases he
    revert h; simp [asciiLetters]
  · rintro ⟨c, cs, he, h, -⟩
    cases he
    revert h; simp [asciiLetters]

mutual
/-- Lexed, in ASCII. -/
def TT.asciiLexed : TT → Bool
  | .ident i => asciiWord i.name && (!i.raw || !(i.name ∈ [c!"_", c!"self", c!"Self", c!"super", c!"crate"]))
  | .lit (.int t) => t.all fun d => d.isAlpha || d == '_' || d.isDigit
  | .group _ t => asciiLexed t
  | _ => true
/-- Lexed, in ASCII. -/
def asciiLexed : Toks → Bool
  | [] => true
  | x :: r => x.asciiLexed && asciiLexed r
end

mutual
theorem tt_lexed_of (x : TT) (h : x.asciiLexed = true) : x.Lexed L := by
  cases x with
  | ident i =>
    simp only [TT.asciiLexed, Bool.and_eq_true, Bool.or_eq_true, Bool.not_eq_true', decide_eq_false_iff_not] at h
    simp only [TT.Lexed]
    exact ⟨ascii_word h.1, fun hr => h.2.resolve_left (by simp [hr])⟩
  | punct c s => simp only [TT.Lexed]
  | lit l =>
    cases l with
    | int t =>
      simp only [TT.asciiLexed, List.all_eq_true, Bool.or_eq_true, beq_iff_eq] at h
      simp only [TT.Lexed]
      intro c hc
      rcases h c hc with (h | rfl) | h
      · exact L.later _ (L.alpha _ h)
      · exact under_cont
      · exact L.digit _ h
    | _ => simp only [TT.Lexed]
  | group d t =>
    simp only [TT.asciiLexed] at h
    simp only [TT.Lexed]
    exact lexed_of t h
theorem lexed_of (t : Toks) (h : asciiLexed t = true) : Lexed L t := by
  cases t with
  | nil => simp only [Lexed]
  | cons x r =>
    simp only [asciiLexed, Bool.and_eq_true] at h
    simp only [Lexed]
    exact ⟨tt_lexed_of x h.1, lexed_of r h.2⟩
end

/-- Names with dashes, numbers and keywords, and a slot: the identifiers of the expansion are valid, whatever is
valid beyond ASCII.  Among them are `r#data_2x`, `r#bar_baz` and `r#_3`. -/
example {out : Toks}
    (h : mview simplePaths s
      t!"Foo data-2x={r#type} r#in=0xff { slot:BarBaz a=1 -3=1 { } }" = .tokens out) :
    ∀ i ∈ idents out, Valid L i := identifiers_valid simplePaths_verbatim (lexed_of _ rfl) h

example : ∃ out, mview simplePaths (fun _ => []) t!"Foo data-2x={r#type} r#in=0xff { slot:BarBaz a=1 -3=1 { } }" =
    .tokens out ∧ ⟨true, c!"data_2x"⟩ ∈ idents out ∧ ⟨true, c!"bar_baz"⟩ ∈ idents out ∧
      ⟨true, c!"_3"⟩ ∈ idents out :=
  ⟨_, rfl, by decide, by decide, by decide⟩

/-- With errors: a string where an identifier is expected, an unknown directive. -/
example {ds : List Diag} {out : Toks}
    (h : mviewNightly simplePaths s t!"A clone:\"x y\"; div on:\"e-e\"={f} foo:a-1;" = .done ds out) :
    ∀ i ∈ idents out, Valid L i := nightly_identifiers_valid simplePaths_verbatim (lexed_of _ rfl) h

example : ∃ ds out, mviewNightly simplePaths (fun _ => []) t!"A clone:\"x y\"; div on:\"e-e\"={f} foo:a-1;" =
    .done ds out ∧ plain c!"invalid_event" ∈ idents out ∧
      ⟨true, c!"a_1"⟩ ∉ idents out := ⟨_, _, rfl, by decide, by decide⟩

end Mview
