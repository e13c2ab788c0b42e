import Verif.Lemmas.Basic
/-
Facts about the two name conversions.
-/

namespace Mview

/-- what a character after the first becomes -/
def snakeChar (c : Char) : Str := if isAsciiUpper c then ['_', asciiLower c] else [asciiLower c]

theorem asciiLower_of_not_upper {c : Char} (h : isAsciiUpper c = false) : asciiLower c = c := by
  simp [asciiLower, h]

theorem snakeLoop_eq (cs : Str) : ∀ {new : Str}, new ≠ [] →
    snakeLoop new cs = new ++ cs.flatMap snakeChar := by
  induction cs with
  | nil => intro new _; simp [snakeLoop]
  | cons c cs ih =>
    intro new h
    have hne : new.isEmpty = false := by cases new <;> simp_all
    unfold snakeLoop
    rw [ih (by simp)]
    cases hu : isAsciiUpper c <;> simp [hne, hu, snakeChar]

theorem upperCamelToSnake_cons (c : Char) (cs : Str) :
    upperCamelToSnake (c :: cs) = asciiLower c :: cs.flatMap snakeChar := by
  unfold upperCamelToSnake snakeLoop
  rw [snakeLoop_eq _ (by simp)]
  simp

theorem upperCamelToSnake_nil : upperCamelToSnake [] = [] := rfl

/-- capital letters are 26 -/
theorem upper_eq {c : Char} (h : isAsciiUpper c = true) :
    ∃ k : Fin 26, c = Char.ofNat (65 + k) := by
  have hA : 'A'.toNat = 65 := rfl
  have hZ : 'Z'.toNat = 90 := rfl
  simp only [isAsciiUpper, hA, hZ, Bool.and_eq_true, decide_eq_true_eq] at h
  refine ⟨⟨c.toNat - 65, by omega⟩, ?_⟩
  have : 65 + (c.toNat - 65) = c.toNat := by omega
  simp only [this, Char.ofNat_toNat]

/-- `char::to_ascii_uppercase`, for the proofs -/
def asciiUp (c : Char) : Char :=
  if 'a'.toNat ≤ c.toNat ∧ c.toNat ≤ 'z'.toNat then Char.ofNat (c.toNat - 32) else c

theorem upper_facts {c : Char} (h : isAsciiUpper c = true) :
    isAsciiUpper (asciiLower c) = false ∧ asciiLower c ≠ '_' ∧ asciiUp (asciiLower c) = c ∧
    asciiLower c ≠ '-' := by
  obtain ⟨k, rfl⟩ := upper_eq h
  revert k
  decide

theorem lower_not_upper (c : Char) : isAsciiUpper (asciiLower c) = false := by
  cases h : isAsciiUpper c
  · rw [asciiLower_of_not_upper h, h]
  · exact (upper_facts h).1

theorem flatMap_snakeChar_eq {cs w : Str} (h : cs.flatMap snakeChar = w) (hw : '_' ∉ w) :
    cs = w := by
  subst h
  induction cs with
  | nil => rfl
  | cons c cs ih =>
    cases hu : isAsciiUpper c
    · have hc : snakeChar c = [c] := by simp [snakeChar, hu, asciiLower_of_not_upper hu]
      simp only [List.flatMap_cons, hc, List.cons_append, List.nil_append, List.mem_cons,
        not_or] at hw ⊢
      rw [← ih hw.2]
    · simp [snakeChar, hu] at hw

theorem asciiLower_eq_iff {c d : Char} (h : asciiLower c = d) : c = d ∨ c = asciiUp d := by
  cases hu : isAsciiUpper c
  · rw [asciiLower_of_not_upper hu] at h; exact Or.inl h
  · right; rw [← h, (upper_facts hu).2.2.1]

theorem snake_notRaw {s : Str} (h : upperCamelToSnake s ∈ notRaw) :
    s ∈ [c!"_", c!"self", c!"super", c!"crate", c!"Self", c!"Super", c!"Crate"] := by
  cases s with
  | nil => simp [upperCamelToSnake_nil, notRaw] at h
  | cons c cs =>
    rw [upperCamelToSnake_cons] at h
    have hup : asciiLower c ≠ 'S' := by
      intro hS
      have := lower_not_upper c
      rw [hS] at this; revert this; decide
    simp only [notRaw, List.mem_cons, List.cons.injEq, List.not_mem_nil, or_false, hup, false_and,
      false_or] at h
    rcases h with ⟨h1, h2⟩ | ⟨h1, h2⟩ | ⟨h1, h2⟩ | ⟨h1, h2⟩ <;>
    · have h2 := flatMap_snakeChar_eq h2 (by decide)
      subst h2
      rcases asciiLower_eq_iff h1 with rfl | h <;> simp_all [asciiUp]

theorem dash_eq {s w : Str} (hw : '_' ∉ w) (h : dashToUnderscore s = w) : s = w := by
  subst h
  induction s with
  | nil => rfl
  | cons c cs ih =>
    simp only [dashToUnderscore, List.map_cons, List.mem_cons, not_or] at hw ⊢
    have h2 : dashToUnderscore cs = cs.map fun c => if c = '-' then '_' else c := rfl
    rw [← h2] at hw ⊢
    rw [← ih hw.2]
    split
    · rename_i hc; simp [hc] at hw
    · rfl

theorem dash_notRaw {s : Str} (h : dashToUnderscore s ∈ notRaw) :
    s ∈ [c!"-", c!"_", c!"self", c!"super", c!"crate", c!"Self"] := by
  simp only [notRaw, List.mem_cons, List.not_mem_nil, or_false] at h
  rcases h with h | h | h | h | h
  · match s, h with
    | [c], h =>
      simp [dashToUnderscore] at h
      by_cases hc : c = '-'
      · simp [hc]
      · simp [h hc]
    | [], h => simp [dashToUnderscore] at h
    | _ :: _ :: _, h => simp [dashToUnderscore] at h
  all_goals (rw [dash_eq (by decide) h]; simp)

theorem snake_dash_notRaw {s : Str} (h : upperCamelToSnake (dashToUnderscore s) ∈ notRaw) :
    s ∈ [c!"-", c!"_", c!"self", c!"super", c!"crate", c!"Self", c!"Super", c!"Crate"] := by
  have h1 := snake_notRaw h
  by_cases h2 : dashToUnderscore s ∈ notRaw
  · have := dash_notRaw h2
    simp only [List.mem_cons, List.not_mem_nil, or_false] at this ⊢
    rcases this with h | h | h | h | h | h <;> simp [h]
  · have h3 : dashToUnderscore s = c!"Super" ∨ dashToUnderscore s = c!"Crate" := by
      simp only [notRaw, List.mem_cons, List.not_mem_nil, or_false, not_or] at h1 h2
      rcases h1 with h | h | h | h | h | h | h <;> simp_all
    rcases h3 with h | h <;> rw [dash_eq (by decide) h] <;> simp

end Mview
