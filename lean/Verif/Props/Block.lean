import Verif.Lemmas.BlockIssues
import Verif.Props.Advice
/-
C64: mistakes in a block of children stay there.
-/

namespace Mview
open Lex

variable {pp : PathParser} {s : Sched} {K : BlockGap} {b : Bool} {x : Toks} {P Q : List Issue} {T : TreeGap}

theorem looked_reports {y : Toks} {j : List Issue} (h : Looked b y j) : OnlyReports j := by
  have : ∀ {run : Toks}, OnlyReports (rawIssues run) := by
    intro run i hi
    obtain ⟨w, -, rfl⟩ := List.mem_map.mp hi
    exact ⟨_, rfl⟩
  cases h with
  | name => exact this
  | _ => intro i hi; cases hi

/-- With any content the block is read as children in the same place: the rest of the tree is the same, and the
errors around those of the block are the same, while reading and while expanding. -/
theorem block_contained (hpp : pp.Starts) (hloc : pp.Local) (hfl : pp.FailsLocally) (h : BlockAt pp K b x P Q T)
    (hP : ∀ i ∈ P, ∃ d, i = .report d) (hl : LexicalToks (K.fill x)) :
    ∃ A r B, ∀ {y j is cs}, LexicalToks y → Looked b y j → ReadsChildren pp y is cs →
      ReadsChildren pp (K.fill y) (P ++ (j ++ (is ++ Q))) (T.fill cs) ∧
      rootIssues (T.fill cs) = A ++ (Role.issues cs r ++ B) ∧
      (mview pp s (K.fill y)).Is (verdict (P ++ (j ++ (is ++ Q)) ++ (A ++ (Role.issues cs r ++ B)))) := by
  obtain ⟨A, r, B, hT⟩ := gap_root h.shape.2
  refine ⟨A, r, B, fun {y j is cs} hy hj hr => ?_⟩
  obtain ⟨jx, hjx, -⟩ := block_read h
  obtain ⟨h', -⟩ := block_swap hpp hloc hfl h hP hjx (looked_reports hjx) hj
  obtain ⟨j', hj', hr'⟩ := block_read h'
  cases looked_unique hj hj'
  have hall := hr' hr
  refine ⟨hall, hT cs, ?_⟩
  have := reading_exact (s := s) ((h.lexical hl).2 hy) hall
  rwa [hT cs] at this

theorem map_report_append {ds : List Diag} {a b : List Issue} (h : a ++ b = ds.map .report) :
    ∃ da db, ds = da ++ db ∧ a = da.map .report ∧ b = db.map .report := by
  obtain ⟨da, db, h1, h2, h3⟩ := List.append_eq_map_iff.mp h
  exact ⟨da, db, h1, h2.symm, h3.symm⟩

/-- If none of the errors is fatal, they are those outside of the block, with those of the block in between; and
with another content in the block the errors outside of it are the same. -/
theorem outside_errors (hpp : pp.Starts) (hloc : pp.Local) (hfl : pp.FailsLocally) (h : BlockAt pp K b x P Q T)
    (hl : LexicalToks (K.fill x)) {ds : List Diag} (hr : (mview pp s (K.fill x)).reported = some ds)
    (hd : ∀ d ∈ ds, ¬ d.Fatal) :
    ∃ p q p' q' r, P = p.map .report ∧ Q = q.map .report ∧
      (∃ dx ex, ds = (p ++ (dx ++ q)) ++ (p' ++ (ex ++ q'))) ∧
      ∀ {y j is cs}, LexicalToks y → Looked b y j → ReadsChildren pp y is cs →
        (mview pp s (K.fill y)).Is
          (verdict (p.map .report ++ (j ++ (is ++ q.map .report)) ++
            (p'.map .report ++ (Role.issues cs r ++ q'.map .report)))) := by
  obtain ⟨jx, hjx, hrx⟩ := block_read h
  obtain ⟨is, cs, hx⟩ := reading_exists (pp := pp) (h.lexical hl).1
  have hall := hrx hx
  have hrep := is_reported (reading_exact (s := s) hl hall)
  rw [hr] at hrep
  have he := all_reported ((StopsFatal.readsChildren hall).append (StopsFatal.root _)) hrep.symm hd
  obtain ⟨A, r, B, hT⟩ := gap_root h.shape.2
  rw [hT cs] at he
  obtain ⟨d1, d2, rfl, h1, h2⟩ := map_report_append he
  obtain ⟨p, d1, rfl, hp, h1⟩ := map_report_append h1
  obtain ⟨dj, d1, rfl, hj, h1⟩ := map_report_append h1
  obtain ⟨di, q, rfl, hi, hq⟩ := map_report_append h1
  obtain ⟨p', d2, rfl, hp', h2⟩ := map_report_append h2
  obtain ⟨ex, q', rfl, hex, hq'⟩ := map_report_append h2
  refine ⟨p, q, p', q', r, hp, hq, ⟨dj ++ di, ex, by simp⟩, fun {y j is cs} hy hj hr => ?_⟩
  have hP : OnlyReports P := by
    rw [hp]
    intro i hi
    obtain ⟨d, -, rfl⟩ := List.mem_map.mp hi
    exact ⟨d, rfl⟩
  obtain ⟨h', -⟩ := block_swap hpp hloc hfl h hP hjx (looked_reports hjx) hj
  obtain ⟨j', hj', hr'⟩ := block_read h'
  cases looked_unique hj hj'
  have := reading_exact (s := s) ((h.lexical hl).2 hy) (hr' hr)
  rw [hT cs, hp, hq, hp', hq'] at this
  exact this

theorem role_fine {cs : List Child} (h : rootIssues cs = []) (r : Role) : Role.issues cs r = [] := by
  unfold rootIssues at h
  split at h
  · cases h
  · rename_i hs
    have key : ∀ {cs : List Child}, ¬ cs.any Child.isSlot = true → slotsIssues cs = [] ∧ slotNames cs = [] := by
      intro cs
      induction cs with
      | nil => intro _; simp [slotsIssues, slotNames]
      | cons c cs ih =>
        intro hs
        cases c with
        | slot e => simp [Child.isSlot] at hs
        | value v =>
          have := ih (by simpa [Child.isSlot] using hs)
          simp only [slotsIssues, slotNames, List.filterMap_cons]
          exact this
        | elem e =>
          have := ih (by simpa [Child.isSlot] using hs)
          simp only [slotsIssues, slotNames, List.filterMap_cons]
          exact this
    obtain ⟨h1, h2⟩ := key hs
    cases r with
    | nodes => exact h
    | component => simp [Role.issues, h, h1, methodIssues, h2]
    | ignored => rfl

/-- C64.  Mistakes in a block do not hide any others.  There is a list of errors, those outside of the block, that is
reported with anything in the block that is accepted alone, for example nothing; and all of these are also reported,
in the same order, whatever is in the block, unless one of its errors is fatal. -/
theorem outside_errors_stay (hpp : pp.Starts) (hloc : pp.Local) (hfl : pp.FailsLocally) (h : BlockAt pp K b x P Q T)
    (hl : LexicalToks (K.fill x)) {ds : List Diag} (hr : (mview pp s (K.fill x)).reported = some ds)
    (hd : ∀ d ∈ ds, ¬ d.Fatal) :
    ∃ outside : List Diag, outside.Sublist ds ∧
      (∀ {y out}, LexicalToks y → Looked b y [] → mview pp s y = .tokens out →
        (mview pp s (K.fill y)).reported = some outside) ∧
      ∀ {y j ds'}, LexicalToks y → Looked b y j → (mview pp s (K.fill y)).reported = some ds' →
        (∀ d ∈ ds', ¬ d.Fatal) → outside.Sublist ds' := by
  obtain ⟨p, q, p', q', r, hp, hq, ⟨dx, ex, rfl⟩, H⟩ := outside_errors hpp hloc hfl h hl hr hd
  have hsub : ∀ {dx ex : List Diag}, ((p ++ q) ++ (p' ++ q')).Sublist ((p ++ (dx ++ q)) ++ (p' ++ (ex ++ q'))) := by
    intro dx ex
    exact ((List.Sublist.refl p).append (List.sublist_append_right dx q)).append
      ((List.Sublist.refl p').append (List.sublist_append_right ex q'))
  refine ⟨(p ++ q) ++ (p' ++ q'), hsub, fun {y out} hy hj ho => ?_, fun {y j ds'} hy hj hr' hd' => ?_⟩
  · obtain ⟨cs, hc, hroot⟩ := (accepted_iff_reading (s := s) hy).mp ⟨out, ho⟩
    have := is_reported (H hy hj hc)
    rw [role_fine hroot] at this
    rw [this]
    have he : p.map Issue.report ++ ([] ++ ([] ++ q.map Issue.report)) ++ (p'.map Issue.report ++ ([] ++ q'.map Issue.report)) =
        ((p ++ q) ++ (p' ++ q')).map Issue.report := by simp
    rw [he, verdict_reports]
    rfl
  · obtain ⟨is, cs, hc⟩ := reading_exists (pp := pp) hy
    have hi := is_reported (H hy hj hc)
    rw [hr'] at hi
    have hrep : ∀ ds : List Diag, StopsFatal (ds.map .report) := fun ds d hm => by simp at hm
    have hjf : StopsFatal j := fun d hm => by obtain ⟨d', h'⟩ := looked_reports hj _ hm; cases h'
    have hrf : StopsFatal (Role.issues cs r) := by
      cases r with
      | nodes => exact .nodes cs
      | component => exact (StopsFatal.nodes cs).append ((StopsFatal.slots cs).append (.method cs))
      | ignored => exact .nil
    have he := all_reported (((hrep p).append (hjf.append ((StopsFatal.readsChildren hc).append (hrep q)))).append
      ((hrep p').append (hrf.append (hrep q')))) hi.symm hd'
    have hinj : ∀ {a b : List Diag}, a.map Issue.report = b.map Issue.report → a = b := by
      intro a b hab
      exact List.map_inj_right (fun _ _ h => Issue.report.inj h) |>.mp hab
    obtain ⟨d1, d2, rfl, h1, h2⟩ := map_report_append he
    obtain ⟨e1, d1, rfl, hp1, h1⟩ := map_report_append h1
    obtain ⟨dj, d1, rfl, -, h1⟩ := map_report_append h1
    obtain ⟨di, e2, rfl, -, hq1⟩ := map_report_append h1
    obtain ⟨e3, d2, rfl, hp1', h2⟩ := map_report_append h2
    obtain ⟨ey, e4, rfl, -, hq1'⟩ := map_report_append h2
    cases hinj hp1
    cases hinj hq1
    cases hinj hp1'
    cases hinj hq1'
    rw [← List.append_assoc dj di q]
    exact hsub

/-- Every block of children is meant: however an input is read, the children of any element or slot in the tree come
from a block in the input. -/
theorem every_block {ts : Toks} {is : List Issue} {cs : List Child} (h : ReadsChildren pp ts is (T.fill cs))
    (hT : T ≠ .here) : ∃ K b x P Q is', ts = BlockGap.fill x K ∧ BlockAt pp K b x P Q T ∧ ReadsChildren pp x is' cs :=
  block_found h T cs hT rfl

/-! ### examples -/

/-- In `3 p { 1 q } ;` the block is reached, after the error `3` and before the superfluous semicolon. -/
theorem exampleBlock : BlockAt simplePaths (.block t!"3 p" .brace .here t!";") true t!"1 q" [.report .nonStringChild]
    [.report .extraSemicolon]
    (.elem [.value (.lit (.tok (.str [])))] false (.html ⟨true, c!"p"⟩) [] [] none .here []) := by
  have h : BlockAt simplePaths (.block ([.ident (plain c!"p")] ++ []) .brace .here t!";") (direct [] .brace) t!"1 q"
      ([] ++ ([] ++ [])) [.report .extraSemicolon] (.elem [] false (.html ⟨true, c!"p"⟩) [] [] none .here []) := by
    refine .block (pre := t!"p") (lead := []) (d := .brace) (x := t!"1 q") (isSlot := false) (r0 := t!"p { 1 q } ;")
      (r1 := t!"{ 1 q } ;") (r2 := t!"{ 1 q } ;") (j := []) (.elem (noVal rfl) (noSlot rfl)) ?_ (.done (by simp)) ?_ .none
      (by simp) (.other ?_ ?_) (.semi .nil)
    · exact .name (run := t!"p") (noPath rfl) (longName rfl rfl) rfl
    · exact .done (noStart (by simp [TT.isIdent, TT.isDash])) (by
        intro c r he
        cases he
        exact ⟨noStart (by simp [TT.isIdent, TT.isDash]), by simp [IsSpread]⟩)
    · exact noStart (by simp [TT.isIdent, TT.isDash])
    · simp [IsSpread]
  exact .literal (v := .lit (.int c!"3")) (by simp) (by simp [CVal.ChildWf]) h

/-- All errors of `3 p { 1 q } ;`. -/
example : mview simplePaths (fun _ => []) t!"3 p { 1 q } ;" =
    .errors [.nonStringChild, .nonStringChild, .unterminated, .extraSemicolon] t!"()" := rfl

/-- Whatever is there instead of `1 q`, `3` and the last semicolon are still reported. -/
example {y : Toks} {j : List Issue} {ds : List Diag} (hl : LexicalToks y) (hy : Looked true y j)
    (hr : (mview simplePaths (fun _ => []) ((BlockGap.block t!"3 p" .brace .here t!";").fill y)).reported = some ds)
    (hd : ∀ d ∈ ds, ¬ d.Fatal) : [Diag.nonStringChild, .extraSemicolon].Sublist ds := by
  obtain ⟨o, -, h1, h2⟩ := outside_errors_stay (s := fun _ => []) simplePaths_starts simplePaths_local
    simplePaths_failsLocally exampleBlock (lexical_of rfl) (ds := [.nonStringChild, .nonStringChild, .unterminated, .extraSemicolon])
    rfl (by simp [Diag.Fatal])
  have h3 := h1 (y := []) (lexical_of rfl) (.other (noStart (by simp)) (by simp [IsSpread])) rfl
  have h4 : (mview simplePaths (fun _ => []) ((BlockGap.block t!"3 p" .brace .here t!";").fill [])).reported =
      some [.nonStringChild, .extraSemicolon] := rfl
  rw [h4] at h3
  cases h3
  exact h2 hl hy hr hd

/-- Errors of the expansion: those of the block come between those of the element before it and after it. -/
example : (mview simplePaths (fun _ => [])
      t!"div on:a:b={c} { p on:a:d={c}; } div on:a:e={c};").reported =
        some [.unknownModifier (plain c!"b"), .unknownModifier (plain c!"d"), .unknownModifier (plain c!"e")] ∧
    (mview simplePaths (fun _ => []) t!"div on:a:b={c} { } div on:a:e={c};").reported =
        some [.unknownModifier (plain c!"b"), .unknownModifier (plain c!"e")] := ⟨rfl, rfl⟩

/-- A fatal error in the block does hide those after it. -/
example : (mview simplePaths (fun _ => []) t!"p { q a:; } ;").reported = some [.synAbort .expectedKebab] ∧
    (mview simplePaths (fun _ => []) t!"p { } ;").reported = some [.extraSemicolon] := ⟨rfl, rfl⟩

/-- Braces that only contain a name are an attribute, no block: the content cannot be replaced by a name. -/
example : (mview simplePaths (fun _ => []) t!"p { 1 }").reported = some [.nonStringChild] ∧
    (mview simplePaths (fun _ => []) t!"p { q }").reported = some [.unterminated] := ⟨rfl, rfl⟩

end Mview
