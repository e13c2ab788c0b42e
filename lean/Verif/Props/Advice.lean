import Verif.Lemmas.AdviceIssues
import Verif.Lemmas.AdviceModifiers
import Verif.Lemmas.SimplePaths
/-
C56: the help given with errors works.
-/

namespace Mview
open Lex

variable {pp : PathParser} {s : Sched} {ts : Toks} {A R : List Diag}

theorem Somewhere.mono {E F : Toks → Toks → Prop} (h : ∀ {a b}, E a b → F a b) {a b : Toks}
    (hs : Somewhere E a b) : Somewhere F a b := by
  induction hs with
  | here he => exact .here (h he)
  | inside pre post hd _ ih => exact .inside pre post hd ih

/-- "unterminated element", help: "add a `;` to terminate the element with no children".  Of all the errors that
are reported this one, and only this one, goes away when a `;` is added at the end of the right block. -/
theorem advice_unterminated (hpp : pp.Starts) (hloc : pp.Local) (hfl : pp.FailsLocally) (hl : LexicalToks ts)
    (h : (mview pp s ts).reported = some (A ++ .unterminated :: R)) :
    ∃ ts', Somewhere SemiAtEnd ts ts' ∧ (mview pp s ts').reported = some (A ++ R) := by
  obtain ⟨B, ts', rfl, hs, hr⟩ := semi_fix (ds := []) hpp hloc hfl (D := .unterminated) trivial (by simp)
    (by rintro x (h | h); exact h; cases h) hl (by
      intro y p rest _ _ _ hu
      cases hu
      simp) h
  refine ⟨ts', hs.mono ?_, hr⟩
  rintro a b ⟨pre, post, hu, rfl, rfl⟩
  cases hu
  simp [SemiAtEnd]

/-- "unknown attribute" comes with "child elements not found", help: "add a `;` at the end to terminate the
element".  These two errors, and only these, go away when a `;` is added in the right place. -/
theorem advice_notFound (hpp : pp.Starts) (hloc : pp.Local) (hfl : pp.FailsLocally) (hl : LexicalToks ts)
    (hg : pp.Greedy ts) (h : (mview pp s ts).reported = some (A ++ .unknownAttribute :: R)) :
    ∃ B ts', R = .childrenNotFound :: B ∧ Somewhere SemiBefore ts ts' ∧ (mview pp s ts').reported = some (A ++ B) := by
  obtain ⟨B, ts', rfl, hs, hr⟩ := semi_fix (ds := [.childrenNotFound]) hpp hloc hfl (D := .unknownAttribute) trivial (by simp)
    (by rintro x (h | h); cases h; exact h) hl (by
      intro y p rest hw hp hr _
      exact hg hw hp hr) h
  refine ⟨B, ts', rfl, hs.mono ?_, hr⟩
  rintro a b ⟨pre, post, hu, rfl, rfl⟩
  cases hu with
  | other => exact ⟨pre, _, _, rfl, rfl⟩

/-- "unknown modifier", help: "`:undelegated` is the only known modifier".  This error, and only this one, goes away
when a modifier of this name is replaced by `undelegated` in the right place. -/
theorem advice_modifier (hpp : pp.Starts) (hloc : pp.Local) (hfl : pp.FailsLocally) (hl : LexicalToks ts) {m : Ident}
    (h : (mview pp s ts).reported = some (A ++ .unknownModifier m :: R)) :
    ∃ ts', Somewhere (Undelegated m) ts ts' ∧ (mview pp s ts').reported = some (A ++ R) :=
  modifier_fix hpp hloc hfl hl h

theorem semiAtEnd_lexical {ts ts' : Toks} (h : Somewhere SemiAtEnd ts ts') (hl : LexicalToks ts) : LexicalToks ts' := by
  induction h with
  | here h => rw [h]; exact lexical_append.mpr ⟨hl, lexical_of rfl⟩
  | inside pre post hd _ ih =>
    obtain ⟨h1, h2⟩ := lexical_append.mp hl
    obtain ⟨h3, h4⟩ := (lexical_group hd).mp h2
    exact lexical_append.mpr ⟨h1, (lexical_group hd).mpr ⟨ih h3, h4⟩⟩

/-- As many semicolons as there are unterminated elements are enough, and there is nothing else they change. -/
theorem advice_all_terminated (hpp : pp.Starts) (hloc : pp.Local) (hfl : pp.FailsLocally) {ds : List Diag} :
    ∀ {ts : Toks}, LexicalToks ts → (mview pp s ts).reported = some ds →
    ∃ ts', Edits SemiAtEnd (ds.count .unterminated) ts ts' ∧
      (mview pp s ts').reported = some (ds.filter (· ≠ .unterminated)) := by
  induction hn : ds.count .unterminated generalizing ds with
  | zero =>
    intro ts hl h
    refine ⟨ts, .none, ?_⟩
    rw [h, List.filter_eq_self.mpr]
    intro d hd
    simp only [decide_eq_true_eq]
    rintro rfl
    exact (List.count_eq_zero.mp hn) hd
  | succ n ih =>
    intro ts hl h
    obtain ⟨A, B, rfl⟩ := List.append_of_mem (List.count_pos_iff.mp (by omega : 0 < ds.count .unterminated))
    obtain ⟨t1, h1, h2⟩ := advice_unterminated hpp hloc hfl hl h
    obtain ⟨ts', h3, h4⟩ := ih (ds := A ++ B) (by
      simp only [List.count_append, List.count_cons, beq_self_eq_true, if_true] at hn ⊢
      omega) (semiAtEnd_lexical h1 hl) h2
    exact ⟨ts', .more h1 h3, by rw [h4]; simp⟩

theorem reported_nil (hl : LexicalToks ts) (h2 : (mview pp s ts).reported = some []) :
    ∃ out, mview pp s ts = .tokens out := by
  obtain ⟨is, cs, hr⟩ := reading_exists (pp := pp) hl
  have hi := reading_exact (s := s) hl hr
  cases hm : mview pp s ts with
  | tokens out => exact ⟨out, rfl⟩
  | errors ds out =>
    rw [hm] at hi h2
    simp only [MacroResult.reported, Option.some.injEq] at h2
    subst h2
    exfalso
    generalize hv : verdict (is ++ rootIssues cs) = v at hi
    cases v with
    | errors es => cases es <;> simp [MacroResult.Is] at hi
    | stopped es =>
      simp only [MacroResult.Is] at hi
      rw [← hi.1] at hv
      clear hi hr hm
      generalize is ++ rootIssues cs = l at hv
      cases l with
      | nil => simp [verdict] at hv
      | cons i l =>
        cases i <;> simp [verdict] at hv
        cases hq : verdict l <;> simp [hq, Verdict.add] at hv
    | crashed => exact hi
  | panicked => rw [hm] at h2; simp [MacroResult.reported] at h2
  | hangs => rw [hm] at h2; simp [MacroResult.reported] at h2

/-- If that is all that is wrong, the input is accepted afterwards. -/
theorem advice_accepted (hpp : pp.Starts) (hloc : pp.Local) (hfl : pp.FailsLocally) (hl : LexicalToks ts)
    {n : Nat} (h : (mview pp s ts).reported = some (List.replicate n .unterminated)) :
    ∃ ts' out, Edits SemiAtEnd n ts ts' ∧ mview pp s ts' = .tokens out := by
  obtain ⟨ts', h1, h2⟩ := advice_all_terminated hpp hloc hfl hl h
  rw [List.count_replicate_self] at h1
  have hl' : LexicalToks ts' := by
    clear h2 h
    induction h1 with
    | none => exact hl
    | more hs _ ih => exact ih (semiAtEnd_lexical hs hl)
  rw [List.filter_eq_nil_iff.mpr (by simp [List.mem_replicate])] at h2
  obtain ⟨out, ho⟩ := reported_nil hl' h2
  exact ⟨ts', out, h1, ho⟩

/-- The same for unterminated elements and unknown modifiers in any order: one edit each. -/
theorem advice_both_accepted (hpp : pp.Starts) (hloc : pp.Local) (hfl : pp.FailsLocally) {ds : List Diag}
    (hd : ∀ d ∈ ds, d = .unterminated ∨ ∃ m, d = .unknownModifier m) :
    ∀ {ts : Toks}, LexicalToks ts → (mview pp s ts).reported = some ds →
    ∃ ts' out, Edits (fun a b => SemiAtEnd a b ∨ ∃ m, .unknownModifier m ∈ ds ∧ Undelegated m a b) ds.length ts ts' ∧
      mview pp s ts' = .tokens out := by
  suffices H : ∀ (E : List Diag), (∀ d ∈ E, d ∈ ds) → ∀ {ts : Toks}, LexicalToks ts →
      (mview pp s ts).reported = some E →
      ∃ ts' out, Edits (fun a b => SemiAtEnd a b ∨ ∃ m, .unknownModifier m ∈ ds ∧ Undelegated m a b) E.length ts ts' ∧
        mview pp s ts' = .tokens out by
    intro ts
    exact H ds fun _ h => h
  intro E
  induction E with
  | nil =>
    intro _ ts hl h
    obtain ⟨out, ho⟩ := reported_nil hl h
    exact ⟨ts, out, .none, ho⟩
  | cons d E ih =>
    intro hE ts hl h
    have hE' : ∀ d ∈ E, d ∈ ds := fun d hd => hE d (List.mem_cons_of_mem _ hd)
    rcases hd d (hE d List.mem_cons_self) with rfl | ⟨m, rfl⟩
    · obtain ⟨ts1, hs, h1⟩ := advice_unterminated (A := []) hpp hloc hfl hl h
      obtain ⟨ts', out, he, ho⟩ := ih hE' (semiAtEnd_lexical hs hl) h1
      exact ⟨ts', out, .more (hs.mono .inl) he, ho⟩
    · obtain ⟨ts1, hs, h1⟩ := advice_modifier (A := []) hpp hloc hfl hl h
      obtain ⟨ts', out, he, ho⟩ := ih hE' (recolon_lexical (lexical_of rfl) hs hl) h1
      exact ⟨ts', out, .more (hs.mono fun hu => .inr ⟨m, hE _ List.mem_cons_self, hu⟩) he, ho⟩

/-! ### the assumptions hold -/

theorem simplePaths_failsLocally : simplePaths.FailsLocally := by
  intro used s rest rest' h
  have h : simpleRun (used ++ .punct ';' s :: rest) = (none, .punct ';' s :: rest) := h
  show simpleRun (used ++ .punct ';' s :: rest') = _
  have hu : used = [] := by
    unfold simpleRun at h
    simp only at h
    split at h
    · simp at h
    · simp only [Prod.mk.injEq, true_and] at h
      have := congrArg List.length h
      simp at this
      exact this
  subst hu
  have hp : peekPunct2 ':' ':' ([] ++ .punct ';' s :: rest') = false := by
    cases h : peekPunct2 ':' ':' ([] ++ .punct ';' s :: rest') with
    | false => rfl
    | true => obtain ⟨s, r, h⟩ := peekPunct2_colons.mp h; simp at h
  unfold simpleRun
  rw [hp]
  simp [simpleSegs]

/-- no path that is read here is followed by `:` or `<` -/
def greedyAt (pp : PathParser) (x : Toks) : Bool :=
  match pp.run x with
  | (some _, .punct c _ :: _) => c != ':' && c != '<'
  | _ => true

mutual
def greedyTT (pp : PathParser) : TT → Bool
  | .group _ c => greedyIn pp c
  | _ => true
def greedyIn (pp : PathParser) : List TT → Bool
  | [] => greedyAt pp []
  | t :: ts => greedyAt pp (t :: ts) && greedyTT pp t && greedyIn pp ts
end

theorem greedy_of (h : greedyIn pp ts = true) : pp.Greedy ts := by
  have key : ∀ {x ts : Toks}, Within x ts → greedyIn pp ts = true → greedyAt pp x = true := by
    intro x ts hw
    induction hw with
    | here =>
      intro h
      cases x with
      | nil => simpa only [greedyIn] using h
      | cons t ts => simp only [greedyIn, Bool.and_eq_true] at h; exact h.1.1
    | tail _ ih => intro h; simp only [greedyIn, Bool.and_eq_true] at h; exact ih h.2
    | group _ _ ih => intro h; simp only [greedyIn, greedyTT, Bool.and_eq_true] at h; exact ih h.1.2
  intro x p rest hw _ hr
  have := key hw h
  rw [greedyAt, hr] at this
  constructor <;> (rintro s r rfl; simp at this)

/-! ### examples -/

/-- two elements are not terminated, in different blocks -/
example : (mview simplePaths (fun _ => []) t!"div { p.a b={1} } 3 em { i.c }").reported =
    some [.unterminated, .nonStringChild, .unterminated] := by rfl

/-- the first of them -/
example : ∃ ts', Somewhere SemiAtEnd t!"div { p.a b={1} } 3 em { i.c }" ts' ∧
    (mview simplePaths (fun _ => []) ts').reported = some [.nonStringChild, .unterminated] :=
  advice_unterminated (A := []) simplePaths_starts simplePaths_local simplePaths_failsLocally (lexical_of rfl) rfl

/-- this is the edit -/
example : Somewhere SemiAtEnd t!"div { p.a b={1} } 3 em { i.c }" t!"div { p.a b={1}; } 3 em { i.c }" ∧
    (mview simplePaths (fun _ => []) t!"div { p.a b={1}; } 3 em { i.c }").reported =
      some [.nonStringChild, .unterminated] :=
  ⟨.inside t!"div" t!"3 em { i.c }" (by decide) (.here rfl), rfl⟩

/-- both of them -/
example : ∃ ts', Edits SemiAtEnd 2 t!"div { p.a b={1} } 3 em { i.c }" ts' ∧
    (mview simplePaths (fun _ => []) ts').reported = some [.nonStringChild] :=
  advice_all_terminated simplePaths_starts simplePaths_local simplePaths_failsLocally
    (ds := [.unterminated, .nonStringChild, .unterminated]) (lexical_of rfl) rfl

/-- an element that is followed by a text -/
example : (mview simplePaths (fun _ => []) t!"div { Foo::<A> \"x\" } 3").reported =
    some [.unknownAttribute, .childrenNotFound, .nonStringChild] := by rfl

example : ∃ B ts', [.childrenNotFound, .nonStringChild] = .childrenNotFound :: B ∧
    Somewhere SemiBefore t!"div { Foo::<A> \"x\" } 3" ts' ∧
    (mview simplePaths (fun _ => []) ts').reported = some B :=
  advice_notFound (A := []) simplePaths_starts simplePaths_local simplePaths_failsLocally (lexical_of rfl)
    (greedy_of rfl) rfl

/-- this is the edit -/
example : Somewhere SemiBefore t!"div { Foo::<A> \"x\" } 3" t!"div { Foo::<A> ; \"x\" } 3" ∧
    (mview simplePaths (fun _ => []) t!"div { Foo::<A> ; \"x\" } 3").reported = some [.nonStringChild] :=
  ⟨.inside t!"div" t!"3" (by decide) (.here ⟨t!"Foo::<A>", _, [], rfl, rfl⟩), rfl⟩

/-- modifiers of an element and of an element in a slot, and other errors -/
example : (mview simplePaths (fun _ => [])
      t!"p on:a:capture={f}; Foo { slot:Bar { 3 i on:{b}:once; } em.x }").reported =
    some [.nonStringChild, .unterminated, .unknownModifier (plain c!"capture"),
      .unknownModifier (plain c!"once")] := by rfl

/-- the second of them -/
example : ∃ ts', Somewhere (Undelegated (plain c!"once"))
      t!"p on:a:capture={f}; Foo { slot:Bar { 3 i on:{b}:once; } em.x }" ts' ∧
    (mview simplePaths (fun _ => []) ts').reported =
      some [.nonStringChild, .unterminated, .unknownModifier (plain c!"capture")] :=
  advice_modifier (A := [_, _, _]) simplePaths_starts simplePaths_local simplePaths_failsLocally (lexical_of rfl) rfl

/-- this is the edit -/
example : Somewhere (Undelegated (plain c!"once"))
      t!"p on:a:capture={f}; Foo { slot:Bar { 3 i on:{b}:once; } em.x }"
      t!"p on:a:capture={f}; Foo { slot:Bar { 3 i on:{b}:undelegated; } em.x }" ∧
    (mview simplePaths (fun _ => []) t!"p on:a:capture={f}; Foo { slot:Bar { 3 i on:{b}:undelegated; } em.x }").reported =
      some [.nonStringChild, .unterminated, .unknownModifier (plain c!"capture")] :=
  ⟨.inside t!"p on:a:capture={f}; Foo" [] (by decide) (.inside t!"slot:Bar" t!"em.x" (by decide)
    (.here ⟨t!"3 i on:{b}", _, t!";", rfl, rfl⟩)), rfl⟩

/-- The place matters: on a directive other than `on:` the word is no modifier either. -/
example : (mview simplePaths (fun _ => []) t!"p class:a:once={f} on:b:once={g};").reported =
      some [.modifierNotAllowed (plain c!"once"), .unknownModifier (plain c!"once")] ∧
    (mview simplePaths (fun _ => []) t!"p class:a:undelegated={f} on:b:once={g};").reported =
      some [.modifierNotAllowed (plain c!"undelegated"), .unknownModifier (plain c!"once")] := ⟨rfl, rfl⟩

/-- two edits and there is nothing wrong any more -/
example : ∃ ts' out, Edits (fun a b => SemiAtEnd a b ∨ ∃ m,
        Diag.unknownModifier m ∈ [Diag.unterminated, .unknownModifier (plain c!"once")] ∧ Undelegated m a b) 2
      t!"div { p on:a:once={f} }" ts' ∧ mview simplePaths (fun _ => []) ts' = .tokens out :=
  advice_both_accepted (ds := [.unterminated, .unknownModifier (plain c!"once")]) simplePaths_starts simplePaths_local
    simplePaths_failsLocally (by simp) (lexical_of rfl) rfl

/-- The semicolon has to be added where the error is: at the end of the wrong block it is one too many. -/
example : (mview simplePaths (fun _ => []) t!"div { p.a };").reported = some [.unterminated, .extraSemicolon] := by rfl

end Mview
