import Verif.Lemmas.Kinds
import Verif.Props.Reads
/-
C65: which errors there are.
-/

namespace Mview
open Lex

set_option maxRecDepth 100000

variable {ga : ArgParser} {s : Sched} {ts : Toks} {ds : List Diag}

/-- C65.  No other errors than those of `Diag.Occurs` are ever reported. -/
theorem reported_occur (hl : LexicalToks ts) (h : (mview (synPaths ga) s ts).reported = some ds) {d : Diag}
    (hd : d ∈ ds) : d.Occurs := by
  have hf := never_function_generics synPaths_plain hl h
  obtain ⟨is, cs, hr⟩ := reading_exists (pp := synPaths ga) hl
  rw [is_reported (reading_exact (s := s) hl hr)] at h
  rcases ((AllOccur.readsChildren hr).append (.root cs)) d (verdict_mem h hd) with h | rfl
  · exact h
  · exact absurd hd hf

/-! ### inputs with an error -/

/-- The error is reported for some input. -/
def HasInput (ga : ArgParser) (d : Diag) : Prop :=
  ∃ ts, LexicalToks ts ∧ ∀ s, ∃ ds, (mview (synPaths ga) s ts).reported = some ds ∧ d ∈ ds

theorem hasInput_of {ts : Toks} (hl : LexicalToks ts) {is : List Issue} {cs : List Child}
    (h : ReadsChildren (synPaths ga) ts is cs) {ds : List Diag} (hv : (verdict (is ++ rootIssues cs)).list = some ds)
    {d : Diag} (hd : d ∈ ds) : HasInput ga d :=
  ⟨ts, hl, fun s => ⟨ds, by rw [is_reported (reading_exact (s := s) hl h), hv], hd⟩⟩

theorem lexical_front {i : Ident} {ts : Toks} (hi : i.Lexical) (h : LexicalToks ts) : LexicalToks (.ident i :: ts) := by
  intro j r hw
  cases hw with
  | here => exact hi
  | tail hw => exact h j r hw

/-- `div` with these attributes -/
theorem hasInput_div {a ats : Toks} {ai : List Issue} {attrs : List Attr} (ha : a = ats ++ t!";")
    (hlex : LexicalToks ats) (hk : ∃ i r, a = .ident i :: r) (h : ReadsAttrs a ai attrs t!";") {ds : List Diag}
    (hv : (verdict (ai ++ attrs.flatMap (Attr.issuesOnElement .html))).list = some ds) {d : Diag} (hd : d ∈ ds) :
    HasInput ga d := by
  have hl : LexicalToks (t!"div" ++ a) := by
    rw [ha]
    exact lexical_append.mpr ⟨lexical_of rfl, lexical_append.mpr ⟨hlex, lexical_of rfl⟩⟩
  obtain ⟨i, r, rfl⟩ := hk
  refine hasInput_of (is := [] ++ ([] ++ (ai ++ ([] ++ [])))) (cs := [.elem (.mk (.html ⟨true, c!"div"⟩) [] attrs none none)])
    (ds := ds) hl ?_ ?_ hd
  · refine .elem (isSlot := false) (r0 := t!"div" ++ .ident i :: r) (r1 := .ident i :: r) (r2 := .ident i :: r)
      (r3 := t!";") (r4 := []) (.elem ?_ (noSlot rfl)) ?_ (.done (by simp)) h .semi .nil
    · exact noVal rfl
    · refine .name (run := t!"div") (noPath ?_) (kebabSplit_longest hl.head rfl) rfl
      rfl
  · rw [← hv]
    simp only [List.nil_append, List.append_nil]
    congr 2
    simp [rootIssues, nodesIssues, Element.issues, Child.isSlot, Tag.kind]

theorem semiDone : ReadsAttrs t!";" [] [] t!";" := .done (noStart (by simp [TT.isIdent, TT.isDash])) (by simp)

theorem noEq {ts : Toks} (h : peekPunct '=' ts = false) : ReadsEq ts [] none ts :=
  .none (by rintro s r rfl; simp [peekPunct] at h)

theorem noColon {ts : Toks} (h : peekPunct ':' ts = false) : ReadsModifier ts none ts :=
  .none (by rintro s r rfl; simp [peekPunct] at h)

/-- `div d:x;` -/
theorem hasInput_directive {d : Ident} {k : Diag} (hl : d.Lexical)
    (h : ((Directive.mk d (.kebab ⟨c!"x", 1⟩) none none).issuesOnElement) = [.report k]) : HasInput ga k := by
  refine hasInput_div (a := .ident d :: t!":x;") (ats := .ident d :: t!":x") (ai := [])
    (attrs := [.directive ⟨d, .kebab ⟨c!"x", 1⟩, none, none⟩]) rfl (lexical_front hl (lexical_of rfl)) ⟨_, _, rfl⟩
    (.dir (ks := []) (js := []) (.name (run := t!"x") (rest := t!";") (longName rfl rfl)) (noColon rfl) (noEq rfl) semiDone)
    (ds := [k]) ?_ (by simp)
  simp [Attr.issuesOnElement, h, verdict, Verdict.list, Verdict.add]

/-- `div d:x:m;` -/
theorem hasInput_modifier {d m : Ident} {k : Diag} (hd : d.Lexical) (hl : m.Lexical)
    (h : ((Directive.mk d (.kebab ⟨c!"x", 1⟩) (some m) none).issuesOnElement) = [.report k]) : HasInput ga k := by
  have hx : LexicalToks (t!"x:" ++ .ident m :: t!";") :=
    lexical_append.mpr ⟨lexical_of rfl, lexical_front hl (lexical_of rfl)⟩
  refine hasInput_div (a := .ident d :: (t!":x:" ++ .ident m :: t!";")) (ats := .ident d :: (t!":x:" ++ [.ident m])) (ai := [])
    (attrs := [.directive ⟨d, .kebab ⟨c!"x", 1⟩, some m, none⟩]) rfl
    (lexical_front hd (lexical_append.mpr ⟨lexical_of rfl, lexical_front hl (lexical_of rfl)⟩)) ⟨_, _, rfl⟩
    (.dir (ks := []) (js := []) (.name (run := t!"x") (rest := t!":" ++ .ident m :: t!";")
      (kebabSplit_longest hx.head rfl)) .some (noEq rfl) semiDone)
    (ds := [k]) ?_ (by simp)
  simp [Attr.issuesOnElement, h, verdict, Verdict.list, Verdict.add]

/-- `div d:"x";` -/
theorem hasInput_string {d : Ident} {x : Str} {k : Diag} (hd : d.Lexical)
    (h : ((Directive.mk d (.str x) none none).issuesOnElement) = [.report k]) : HasInput ga k := by
  refine hasInput_div (a := .ident d :: (t!":" ++ .lit (.str x) :: t!";")) (ats := .ident d :: (t!":" ++ [.lit (.str x)])) (ai := [])
    (attrs := [.directive ⟨d, .str x, none, none⟩]) rfl
    (lexical_front hd (lexical_of rfl)) ⟨_, _, rfl⟩
    (.dir (ks := []) (js := []) .str (noColon rfl) (noEq rfl) semiDone)
    (ds := [k]) ?_ (by simp)
  simp [Attr.issuesOnElement, h, verdict, Verdict.list, Verdict.add]

/-- An input without variables. -/
theorem hasInput_run {ts : Toks} {ds : List Diag} {d : Diag} (hl : toksLexical ts = true)
    (h : (mview (synPaths ga) (fun _ => []) ts).reported = some ds) (hd : d ∈ ds) : HasInput ga d := by
  obtain ⟨is, cs, hr⟩ := reading_exists (pp := synPaths ga) (lexical_of hl)
  have h' := is_reported (reading_exact (s := fun _ => []) (lexical_of hl) hr)
  exact hasInput_of (lexical_of hl) hr (h'.symm.trans h) hd

/-- `div.a-r#i;` -/
theorem hasInput_raw {i : Ident} (hl : i.Lexical) (hr : i.raw = true) : HasInput ga (.rawInKebab i) := by
  have hlex : LexicalToks (t!"div.a-" ++ .ident i :: t!";") :=
    lexical_append.mpr ⟨lexical_of rfl, lexical_front hl (lexical_of rfl)⟩
  have hlex' : LexicalToks (t!"a-" ++ .ident i :: t!";") :=
    lexical_append.mpr ⟨lexical_of rfl, lexical_front hl (lexical_of rfl)⟩
  refine hasInput_of (is := [] ++ ((rawIssues (t!"a-" ++ [.ident i]) ++ []) ++ ([] ++ ([] ++ []))))
    (cs := [.elem (.mk (.html ⟨true, c!"div"⟩) [.cls (kebabOf (t!"a-" ++ [.ident i]))] [] none none)])
    (ds := [.rawInKebab i]) hlex ?_ ?_ (by simp)
  · refine .elem (isSlot := false) (r0 := t!"div.a-" ++ .ident i :: t!";") (r1 := t!".a-" ++ .ident i :: t!";") (r2 := t!";")
      (r3 := t!";") (r4 := []) (.elem (noVal rfl) (noSlot rfl)) ?_ ?_ semiDone .semi .nil
    · exact .name (run := t!"div") (noPath rfl) (kebabSplit_longest hlex.head rfl) rfl
    · exact .cls (run := t!"a-" ++ [.ident i]) (rest := t!";") (kebabSplit_longest hlex'.head rfl)
        (.done (by rintro c s r ⟨⟩ h; simp at h))
  · have : kebabRaws (t!"a-" ++ [.ident i]) = [i] := by simp [kebabRaws, hr]
    simp only [List.cons_append, List.nil_append] at this
    simp [rawIssues, this, rootIssues, nodesIssues, Element.issues, Child.isSlot, verdict, Verdict.list, Verdict.add]

/-- `i[]` -/
theorem hasInput_prefix {i : Ident} (hl : i.Lexical) (hi : i ≠ plain c!"f") : HasInput ga (.unsupportedPrefix i) := by
  refine hasInput_of (ts := (CVal.bracket (some i) []).toks ++ []) (is := []) (cs := [.value (CVal.bracket (some i) []).ast])
    (ds := [.unsupportedPrefix i]) (lexical_front hl (lexical_of rfl)) ?_ ?_ (by simp)
  · exact .value (by simp) trivial .nil
  · simp [rootIssues, nodesIssues, Child.isSlot, CVal.ast, Value.issues, hi, verdict, Verdict.list, Verdict.add]

/-- `Foo { slot:Bar d:x; }` -/
theorem hasInput_slot {d : Ident} (hl : d.Lexical) (hd : d ≠ plain c!"clone") : HasInput ga (.directiveOnSlot d) := by
  have h3 : LexicalToks (t!"Bar" ++ .ident d :: t!":x;") :=
    lexical_append.mpr ⟨lexical_of rfl, lexical_front hl (lexical_of rfl)⟩
  have h1 : LexicalToks (t!"slot:Bar" ++ .ident d :: t!":x;") :=
    lexical_append.mpr ⟨lexical_of rfl, lexical_front hl (lexical_of rfl)⟩
  have h2 : LexicalToks (.ident (plain c!"Foo") :: .group .brace (t!"slot:Bar" ++ .ident d :: t!":x;") :: []) :=
    lexical_front (by simp [Ident.Lexical]) ((lexical_group (by simp)).mpr ⟨h1, lexical_of rfl⟩)
  refine hasInput_of (is := [] ++ ([] ++ ([] ++ (([] ++ ([] ++ (([] ++ ([] ++ [])) ++ ([] ++ [])))) ++ []))))
    (cs := [.elem (.mk (.component (.ofIdent (plain c!"Foo"))) [] [] none
      (some [.slot (.mk (.component (.ofIdent (plain c!"Bar"))) []
        [.directive ⟨d, .kebab ⟨c!"x", 1⟩, none, none⟩] none none)]))])
    (ds := [.directiveOnSlot d]) h2 ?_ ?_ (by simp)
  · refine .elem (isSlot := false) (r0 := .ident (plain c!"Foo") :: .group .brace (t!"slot:Bar" ++ .ident d :: t!":x;") :: [])
      (r1 := .group .brace (t!"slot:Bar" ++ .ident d :: t!":x;") :: [])
      (r2 := .group .brace (t!"slot:Bar" ++ .ident d :: t!":x;") :: [])
      (r3 := .group .brace (t!"slot:Bar" ++ .ident d :: t!":x;") :: []) (r4 := []) (.elem (noVal rfl) (noSlot rfl)) ?_
      (.done (by simp)) ?_ (.block (by simp) ?_) .nil
    · exact .name (run := t!"Foo") (noPath rfl) (kebabSplit_longest h2.head rfl) rfl
    · exact .brace (run := t!"slot") (kebabSplit_longest h1.head rfl)
    · refine .elem (isSlot := true) (r0 := t!"Bar" ++ .ident d :: t!":x;") (r1 := .ident d :: t!":x;")
        (r2 := .ident d :: t!":x;") (r3 := t!";") (r4 := []) (.slot (noColons rfl)) ?_ (.done (by simp)) ?_ .semi .nil
      · exact .name (run := t!"Bar") (noPath rfl) (kebabSplit_longest h3.head rfl) rfl
      · exact .dir (ks := []) (js := []) (.name (run := t!"x") (rest := t!";") (longName rfl rfl)) (noColon rfl) (noEq rfl) semiDone
  · have h1 : methodIssues [.slot (.mk (.component (.ofIdent (plain c!"Bar"))) []
        [.directive ⟨d, .kebab ⟨c!"x", 1⟩, none, none⟩] none none)] = [] := rfl
    simp only [Path.ofIdent] at h1
    simp [rootIssues, nodesIssues, slotsIssues, Element.issues, Child.isSlot, Attr.issuesOnSlot, hd, h1, verdict,
      Verdict.list, Verdict.add, Path.issues, Path.ofIdent, Element.tag, Tag.isPath, Element.slotName]

/-- C65.  Each of the errors of `Diag.Occurs`, whatever it is about, is reported for some input. -/
theorem occurs_reported {d : Diag} (h : d.Occurs) (hl : ∀ i, d.about = some i → i.Lexical) :
    ∃ ts, LexicalToks ts ∧ ∀ s, ∃ ds, (mview (synPaths ga) s ts).reported = some ds ∧ d ∈ ds := by
  show HasInput ga d
  cases d with
  | rawInKebab i => exact hasInput_raw (hl i rfl) h
  | expectedIdentifier x =>
    exact hasInput_string (d := plain c!"use") (x := x) (by simp [Ident.Lexical]) rfl
  | unsupportedPrefix i => exact hasInput_prefix (hl i rfl) h
  | missingValue help =>
    cases help
    · exact hasInput_run (ts := t!"div a=;") (ds := [.missingValue false]) rfl rfl (by simp)
    · exact hasInput_run (ts := t!"div a=b;") (ds := [.missingValue true]) rfl rfl (by simp)
  | unterminated => exact hasInput_run (ts := t!"div") (ds := [.unterminated]) rfl rfl (by simp)
  | expectedChildrenBlock =>
    exact hasInput_run (ts := t!"Foo |a| \"b\"") (ds := [.expectedChildrenBlock]) rfl rfl (by simp)
  | unknownAttribute =>
    exact hasInput_run (ts := t!"div \"b\"") (ds := [.unknownAttribute, .childrenNotFound]) rfl rfl (by simp)
  | childrenNotFound =>
    exact hasInput_run (ts := t!"div \"b\"") (ds := [.unknownAttribute, .childrenNotFound]) rfl rfl (by simp)
  | nonStringChild => exact hasInput_run (ts := t!"5") (ds := [.nonStringChild]) rfl rfl (by simp)
  | extraSemicolon => exact hasInput_run (ts := t!";") (ds := [.extraSemicolon]) rfl rfl (by simp)
  | synError e =>
    simp only [Diag.Occurs, List.mem_cons, List.not_mem_nil, or_false] at h
    rcases h with rfl | rfl | rfl | rfl
    · exact hasInput_run (ts := t!"Foo |a") (ds := [.synError .closureNotClosed]) rfl rfl (by simp)
    · exact hasInput_run (ts := t!"+") (ds := [.synError .invalidChild]) rfl rfl (by simp)
    · exact hasInput_run (ts := t!"slot:5") (ds := [.synError .expectedKebab]) rfl rfl (by simp)
    · exact hasInput_run (ts := t!"a::5") (ds := [.synError .badPath]) rfl rfl (by simp)
  | synAbort e =>
    simp only [Diag.Occurs, List.mem_cons, List.not_mem_nil, or_false] at h
    rcases h with rfl | rfl | rfl
    · exact hasInput_run (ts := t!"div on:5;") (ds := [.synAbort .expectedKebab]) rfl rfl (by simp)
    · exact hasInput_run (ts := t!"div class:{a b};") (ds := [.synAbort (.extraTokens .brace)]) rfl rfl (by simp)
    · exact hasInput_run (ts := t!"div on:a:5;") (ds := [.synAbort .expectedIdent]) rfl rfl (by simp)
  | selectorOnSlot =>
    exact hasInput_run (ts := t!"Foo { slot:Bar.a; }") (ds := [.selectorOnSlot]) rfl rfl (by simp)
  | spreadOnSlot =>
    exact hasInput_run (ts := t!"Foo { slot:Bar {..a}; }") (ds := [.spreadOnSlot]) rfl rfl (by simp)
  | directiveOnSlot i => exact hasInput_slot (hl i rfl) h
  | unknownDirective i =>
    refine hasInput_directive (hl i rfl) ?_
    simp only [Diag.Occurs, sevenDirectives, List.mem_cons, List.not_mem_nil, or_false, not_or] at h
    simp [Directive.issuesOnElement, h]
  | directiveOnElement i =>
    refine hasInput_directive (hl i rfl) ?_
    simp only [Diag.Occurs, List.mem_cons, List.not_mem_nil, or_false] at h
    rcases h with rfl | rfl <;> rfl
  | modifierNotAllowed m =>
    exact hasInput_modifier (d := plain c!"class") (by simp [Ident.Lexical]) (hl m rfl) rfl
  | unknownModifier m =>
    refine hasInput_modifier (d := plain c!"on") (by simp [Ident.Lexical]) (hl m rfl) ?_
    have : nameIssues c!"x" = [] := rfl
    have h : m ≠ plain c!"undelegated" := h
    have h1 : plain c!"on" ∉ [plain c!"class", plain c!"style", plain c!"prop"] := by simp [plain]
    simp [Directive.issuesOnElement, Directive.eventIssues, this, h, h1, optIssues]
  | eventNotIdent x =>
    exact hasInput_string (d := plain c!"on") (x := x) (by simp [Ident.Lexical]) rfl
  | cloneValue => exact hasInput_run (ts := t!"Foo clone:a=\"b\";") (ds := [.cloneValue]) rfl rfl (by simp)
  | slotNameIsPath =>
    exact hasInput_run (ts := t!"Foo { slot:a::Bar; }") (ds := [.slotNameIsPath]) rfl rfl (by simp)
  | functionGenerics => exact h.elim
  | slotAtTopLevel => exact hasInput_run (ts := t!"slot:Bar;") (ds := [.slotAtTopLevel]) rfl rfl (by simp)

/-- C65.  The errors that are reported for some input are exactly those of `Diag.Occurs`. -/
theorem errors_there_are {d : Diag} (hl : ∀ i, d.about = some i → i.Lexical) :
    d.Occurs ↔ ∃ ts s ds, LexicalToks ts ∧ (mview (synPaths ga) s ts).reported = some ds ∧ d ∈ ds := by
  constructor
  · intro h
    obtain ⟨ts, h1, h2⟩ := occurs_reported (ga := ga) h hl
    obtain ⟨ds, h2, h3⟩ := h2 fun _ => []
    exact ⟨ts, _, ds, h1, h2, h3⟩
  · rintro ⟨ts, s, ds, h1, h2, h3⟩
    exact reported_occur h1 h2 h3

/-- Of the errors of the parsers, ten kinds never reach the user: they are taken back, or there is no way to them. -/
example : ∀ e ∈ [Err.expectedPunct ';', .expectedLit, .expectedGroup .brace, .noGroup .brace, .noGroup .paren,
    .extraTokens .paren, .invalidValue, .invalidSpread, .noAttribute, .noSelector],
    ¬ (Diag.synError e).Occurs ∧ ¬ (Diag.synAbort e).Occurs := by simp [Diag.Occurs]

end Mview
