import Verif.Lemmas.Messages
/-
C72: what errors say.
-/

namespace Mview.Loc
open Lex

set_option maxRecDepth 100000

variable {σ : Type} [Spans σ] [Ends σ] {ga : ArgParser} {lp : PathParser σ (synPaths ga)} {s : Sched} {ts : Toks σ}
  {path : σ → Str}

/-- C72.  Whatever the input, each error says something of the catalogue, or that a directive, which is named and was
written there, is not supported on slots, or what syn says about a path. -/
theorem errors_say (hl : LexicalToks (eraseToks ts)) (hc : lp.Consumes) (hm : Marked ts) {ds : List (LDiag σ)} {out : Toks σ}
    (h : mview lp s ts = .errors ds out) {d : LDiag σ} (hd : d ∈ ds) :
    d.message path ∈ catalogue ∨
    (∃ i, i ≠ plain c!"clone" ∧ d.message path = notOnSlots i.display ∧
      ∃ sp q r, Has callSite ts (.ident i d.sp :: .punct ':' sp q :: r)) ∨
    (d.diag = .synError .badPath ∧ d.message path = ⟨path d.sp, none⟩ ∧ BadPath lp callSite ts d.sp) := by
  have ho : d.diag.Occurs := reported_occur hl (erase_reported h) (List.mem_map_of_mem hd)
  have ha := errors_about hl hc h d hd
  by_cases hp : d.diag = .synError .badPath
  · rw [hp] at ha
    exact .inr (.inr ⟨hp, by simp [LDiag.message, hp, Diag.message, Err.message], ha⟩)
  · have he : Ends.isEnd d.sp = true → d.diag ≠ .synError .invalidChild ∧ d.diag ≠ .synAbort (.extraTokens .brace) := by
      intro he
      constructor
      · intro hx
        rw [hx] at ha
        obtain ⟨e, t, r, hf, hn, -⟩ := ha
        have := hm.next hf
        rw [← hn, he] at this
        cases this
      · intro hx
        rw [hx] at ha
        obtain ⟨e, dd, q, s, q', c, b, r, run, t, r', hf, ⟨hr, -⟩, hn⟩ := ha
        have h1 : From callSite ts b.closing c := .inside (.next (.next hf))
        have h2 : From callSite ts b.closing (t :: r') := by
          have : ∀ run, From callSite ts b.closing (run ++ t :: r') → From callSite ts b.closing (t :: r') := by
            intro run
            induction run with
            | nil => exact id
            | cons x run ih => exact fun h => ih (.next h)
          exact this run (hr ▸ h1)
        have := hm.next h2
        rw [← hn, he] at this
        cases this
    rcases message_listed ho hp (path d.sp) (Ends.isEnd d.sp) he with h1 | ⟨i, h1, h2⟩
    · exact .inl h1
    · rw [h1] at ha
      exact .inr (.inl ⟨i, ha.1, h2, ha.2⟩)

/-- C72.  Where a name is expected the text says whether there is something else or nothing at all. -/
theorem end_said (hl : LexicalToks (eraseToks ts)) (hc : lp.Consumes) (hm : Marked ts) {ds : List (LDiag σ)} {out : Toks σ}
    (h : mview lp s ts = .errors ds out) {d : LDiag σ} (hd : d ∈ ds) (hx : d.diag ∈ saysEnd) :
    ∃ e r, From callSite ts e r ∧ d.sp = nextPlace e r ∧
      (c!"unexpected end of input, ".isPrefixOf (d.message path).text = true ↔ r = []) := by
  have ha := errors_about hl hc h d hd
  have key : ∀ {e r}, From callSite ts e r → d.sp = nextPlace e r →
      (c!"unexpected end of input, ".isPrefixOf (d.message path).text = true ↔ r = []) := by
    intro e r hf hn
    have h1 := hm.next hf
    rw [← hn] at h1
    simp only [saysEnd, List.mem_cons, List.not_mem_nil, or_false] at hx
    unfold LDiag.message
    rw [h1]
    rcases hx with hx | hx | hx <;> rw [hx] <;> cases r <;> simp [Diag.message, Err.message, inputError]
  simp only [saysEnd, List.mem_cons, List.not_mem_nil, or_false] at hx
  rcases hx with hx | hx | hx <;> rw [hx] at ha
  · obtain ⟨e, r, hf, -, hn⟩ := ha
    exact ⟨e, r, hf, hn, key hf hn⟩
  · obtain ⟨e, r, hf, -, hn⟩ := ha
    exact ⟨e, r, hf, hn, key hf hn⟩
  · obtain ⟨e, s, q, r, hf, hn, -⟩ := ha
    exact ⟨e, r, .next hf, hn, key (.next hf) hn⟩

/-- C72.  What is shown tells what went wrong: if two errors, of the same or of different inputs, look the same, it is
the same mistake.  (Other than with syn's errors about paths, which can be anything.) -/
theorem messages_tell {τ : Type} [Spans τ] [Ends τ] {ga' : ArgParser} {lp' : PathParser τ (synPaths ga')} {s' : Sched}
    {us : Toks τ} {path' : τ → Str} (hl : LexicalToks (eraseToks ts)) (hl' : LexicalToks (eraseToks us))
    {ds : List (LDiag σ)} {out : Toks σ} (h : mview lp s ts = .errors ds out) {d : LDiag σ} (hd : d ∈ ds)
    {es : List (LDiag τ)} {out' : Toks τ} (h' : mview lp' s' us = .errors es out') {e : LDiag τ} (he : e ∈ es)
    (hp : d.diag ≠ .synError .badPath) (hp' : e.diag ≠ .synError .badPath)
    (heq : (d.message path).literal = (e.message path').literal) : d.diag.mistake = e.diag.mistake := by
  have h1 := mistakeOf_message (reported_occur hl (erase_reported h) (List.mem_map_of_mem hd)) hp (path d.sp) (Ends.isEnd d.sp)
  have h2 := mistakeOf_message (reported_occur hl' (erase_reported h') (List.mem_map_of_mem he)) hp' (path' e.sp)
    (Ends.isEnd e.sp)
  have h3 : mistakeOf (d.diag.message (path d.sp) (Ends.isEnd d.sp)).literal =
      mistakeOf (e.diag.message (path' e.sp) (Ends.isEnd e.sp)).literal := congrArg mistakeOf heq
  rw [h1, h2] at h3
  exact Option.some.inj h3

/-- C72.  What the macro returns, on stable Rust, is either code and no errors, or one `compile_error!` for each error, in
order, with what it says, followed by `()`. -/
theorem output_read {pp : Mview.PathParser} {lp : PathParser σ pp} {out : Mview.Toks} (h : macroOutput path lp s ts = some out) :
    (Mview.mview pp s (eraseToks ts) = .tokens out ∧ readErrors out = ([], out)) ∨
    ∃ ds, mview lp s ts = .errors ds [tParen callSite []] ∧ ds ≠ [] ∧
      readErrors out = (ds.map fun d => (d.message path).literal, t!"()") := by
  have he := mview_erase lp s ts
  unfold macroOutput at h
  cases hr : mview lp s ts with
  | tokens o =>
    rw [hr] at h he
    cases h
    refine .inl ⟨he.symm, ?_⟩
    obtain ⟨inner, hi⟩ := output_block he.symm
    rw [hi]
    rfl
  | errors ds o =>
    rw [hr] at h he
    cases h
    have h1 := errors_then_unit he.symm
    refine .inr ⟨ds, ?_, by simpa using h1.1, ?_⟩
    · congr 1
      unfold mview at hr
      split at hr <;> cases hr <;> rfl
    · rw [h1.2]
      have := readErrors_all (ds.map (LDiag.message path)) t!"()" rfl
      rw [List.flatMap_map, List.map_map] at this
      exact this
  | panicked p => rw [hr] at h; cases h
  | hangs => rw [hr] at h; cases h

/-! ### everything in the catalogue is said -/

/-- This is said about some input, whatever the order of hash maps. -/
def IsSaid (ga : ArgParser) (m : Message) : Prop :=
  ∃ ts, LexicalToks ts ∧ ∀ (lp : PathParser Mark (synPaths ga)) (s : Sched) (path : Mark → Str),
    ∃ ms, saidOf path lp s ts = some ms ∧ m ∈ ms

theorem isSaid_diag {d : Diag} {m : Message} (hm : ∀ path e, d.message path e = m) (h : d.Occurs)
    (hl : ∀ i, d.about = some i → i.Lexical) : IsSaid ga m := by
  obtain ⟨ts, h1, h2⟩ := occurs_reported (ga := ga) h hl
  refine ⟨ts, h1, fun lp s path => ?_⟩
  obtain ⟨ds, h3, h4⟩ := h2 s
  have he := mview_erase lp s (mark ts)
  rw [mark_erase] at he
  unfold saidOf
  cases hr : mview lp s (mark ts) with
  | tokens o =>
    rw [hr] at he
    rw [← he] at h3
    cases h3
    cases h4
  | errors es o =>
    rw [hr] at he
    rw [← he] at h3
    cases h3
    obtain ⟨x, hx, rfl⟩ := List.mem_map.mp h4
    exact ⟨_, rfl, List.mem_map.mpr ⟨x, hx, hm _ _⟩⟩
  | panicked p =>
    rw [hr] at he
    rw [← he] at h3
    cases h3
  | hangs =>
    rw [hr] at he
    rw [← he] at h3
    cases h3

theorem isSaid_run {m : Message} (ts : Mview.Toks) (hl : toksLexical ts = true)
    (h : ∀ (lp : PathParser Mark (synPaths ga)) s path, saidOf path lp s ts = some [m]) : IsSaid ga m :=
  ⟨ts, lexical_of hl, fun lp s path => ⟨_, h lp s path, by simp⟩⟩

/-- C72.  Everything in the catalogue is said about some input. -/
theorem catalogue_said {m : Message} (h : m ∈ catalogue) : IsSaid ga m := by
  simp only [catalogue, List.mem_cons, List.not_mem_nil, or_false] at h
  rcases h with rfl | rfl | rfl | rfl | rfl | rfl | rfl | rfl | rfl | rfl | rfl | rfl | rfl | rfl | rfl | rfl | rfl | rfl |
    rfl | rfl | rfl | rfl | rfl | rfl | rfl | rfl | rfl | rfl | rfl
  · exact isSaid_run t!"slot:5" rfl fun _ _ _ => rfl
  · exact isSaid_run t!"slot:" rfl fun _ _ _ => rfl
  · exact isSaid_diag (d := .rawInKebab ⟨true, c!"a"⟩) (fun _ _ => rfl) rfl (by rintro i ⟨⟩; simp [Ident.Lexical])
  · exact isSaid_diag (d := .missingValue false) (fun _ _ => rfl) trivial (by rintro i ⟨⟩)
  · exact isSaid_diag (d := .missingValue true) (fun _ _ => rfl) trivial (by rintro i ⟨⟩)
  · exact isSaid_diag (d := .unsupportedPrefix (plain c!"g")) (fun _ _ => rfl) (by simp [Diag.Occurs, plain])
      (by rintro i ⟨⟩; simp [Ident.Lexical])
  · exact isSaid_diag (d := .unterminated) (fun _ _ => rfl) trivial (by rintro i ⟨⟩)
  · exact isSaid_diag (d := .unknownAttribute) (fun _ _ => rfl) trivial (by rintro i ⟨⟩)
  · exact isSaid_diag (d := .childrenNotFound) (fun _ _ => rfl) trivial (by rintro i ⟨⟩)
  · exact isSaid_diag (d := .synError .closureNotClosed) (fun _ _ => rfl) (by simp [Diag.Occurs]) (by rintro i ⟨⟩)
  · exact isSaid_diag (d := .expectedChildrenBlock) (fun _ _ => rfl) trivial (by rintro i ⟨⟩)
  · exact isSaid_run t!"+" rfl fun _ _ _ => rfl
  · exact isSaid_diag (d := .nonStringChild) (fun _ _ => rfl) trivial (by rintro i ⟨⟩)
  · exact isSaid_diag (d := .extraSemicolon) (fun _ _ => rfl) trivial (by rintro i ⟨⟩)
  · exact isSaid_diag (d := .unknownDirective (plain c!"a")) (fun _ _ => rfl) (by simp [Diag.Occurs, sevenDirectives, plain])
      (by rintro i ⟨⟩; simp [Ident.Lexical])
  · exact isSaid_diag (d := .directiveOnElement (plain c!"attr")) (fun _ _ => rfl) (by simp [Diag.Occurs])
      (by rintro i ⟨⟩; simp [Ident.Lexical])
  · exact isSaid_diag (d := .directiveOnElement (plain c!"clone")) (fun _ _ => rfl) (by simp [Diag.Occurs])
      (by rintro i ⟨⟩; simp [Ident.Lexical])
  · exact isSaid_diag (d := .cloneValue) (fun _ _ => rfl) trivial (by rintro i ⟨⟩)
  · exact isSaid_diag (d := .expectedIdentifier []) (fun _ _ => rfl) trivial (by rintro i ⟨⟩)
  · exact isSaid_diag (d := .eventNotIdent []) (fun _ _ => rfl) trivial (by rintro i ⟨⟩)
  · exact isSaid_run t!"div on:a:5;" rfl fun _ _ _ => rfl
  · exact isSaid_run t!"div on:a:" rfl fun _ _ _ => rfl
  · exact isSaid_run t!"div class:{a b};" rfl fun _ _ _ => rfl
  · exact isSaid_diag (d := .modifierNotAllowed (plain c!"a")) (fun _ _ => rfl) trivial
      (by rintro i ⟨⟩; simp [Ident.Lexical])
  · exact isSaid_diag (d := .unknownModifier (plain c!"a")) (fun _ _ => rfl) (by simp [Diag.Occurs, plain])
      (by rintro i ⟨⟩; simp [Ident.Lexical])
  · exact isSaid_diag (d := .slotNameIsPath) (fun _ _ => rfl) trivial (by rintro i ⟨⟩)
  · exact isSaid_diag (d := .slotAtTopLevel) (fun _ _ => rfl) trivial (by rintro i ⟨⟩)
  · exact isSaid_diag (d := .selectorOnSlot) (fun _ _ => rfl) trivial (by rintro i ⟨⟩)
  · exact isSaid_diag (d := .spreadOnSlot) (fun _ _ => rfl) trivial (by rintro i ⟨⟩)

/-- C72.  And about every directive but `clone:` it is said that slots do not support it. -/
theorem slots_said {i : Ident} (hi : i.Lexical) (h : i ≠ plain c!"clone") : IsSaid ga (notOnSlots i.display) :=
  isSaid_diag (d := .directiveOnSlot i) (fun _ _ => rfl) h (by rintro j ⟨⟩; exact hi)

/-! ### examples -/

/-- Two errors, as Rust gets them. -/
example : macroOutput (fun _ => []) simplePaths (fun _ => []) (mark t!"div { a b=; c d=e } ; p f:g;") = some
    (t!"::core::compile_error! { \"expected value after =\" }" ++
     (⟨c!"expected value after =", some c!"you may have meant to wrap this in braces"⟩ : Message).compileError ++
     (⟨c!"unterminated element", some c!"add a `;` to terminate the element with no children"⟩ : Message).compileError ++
     (⟨c!"extra semi-colon found", some c!"remove this semi-colon"⟩ : Message).compileError ++
     t!"::core::compile_error! { \"unknown directive\" } ()") := rfl

/-- The first of tests/ui/errors/misc_partial.rs, recorded in tests/ui/errors/misc_partial.stderr -/
example : saidOf (fun _ => []) simplePaths (fun _ => []) t!"div class:x={true} { span class=test }" =
    some [⟨c!"expected value after =", some c!"you may have meant to wrap this in braces"⟩,
      ⟨c!"unterminated element", some c!"add a `;` to terminate the element with no children"⟩] := rfl

/-- The second -/
example : saidOf (fun _ => []) simplePaths (fun _ => []) t!"div class:x={true} { span class: }" =
    some [⟨c!"unexpected end of input, expected a kebab-cased ident", none⟩] := rfl

/-- tests/ui/errors/unterminated_element.rs -/
example : saidOf (fun _ => []) simplePaths (fun _ => []) t!"input type=\"text\" \"hi\"" =
    some [⟨c!"unknown attribute", none⟩, ⟨c!"child elements not found", some c!"add a `;` at the end to terminate the element"⟩] :=
  rfl

/-- tests/ui/errors/invalid_directive.rs:12 -/
example : saidOf (fun _ => []) simplePaths (fun _ => []) t!"div class:(\"abcd\") = true {}" =
    some [⟨c!"expected a kebab-cased ident", none⟩] := rfl

/-- tests/ui/errors/slot_unsupported_dirs.rs -/
example : saidOf (fun _ => []) simplePaths (fun _ => []) t!"Foo { slot:Bar on:click={a} r#clone:b {..c}; }" =
    some [notOnSlots c!"on", notOnSlots c!"r#clone", ⟨c!"spread syntax is not supported on slots", none⟩] := rfl

/-- What is said of an unknown directive does not say which; the place of the error does (C70). -/
example : (Diag.unknownDirective (plain c!"a")).mistake = (Diag.unknownDirective (plain c!"b")).mistake := rfl

/-- Different mistakes that are both about a modifier -/
example : (Diag.unknownModifier (plain c!"a")).mistake ≠ (Diag.modifierNotAllowed (plain c!"a")).mistake := by
  simp [Diag.mistake]

end Mview.Loc
