import Verif.Lemmas.Issues
import Verif.Props.Grammar
/-
C38: the errors of the expansion, exactly and in order.
-/

namespace Mview
open Lex

variable {pp : PathParser} {s : Sched} {ts : Toks} {root : List Child} {ds es : List Diag}

/-- C38.  Once an input is parsed (perhaps with errors `ds`), the result of the macro is determined by the
issues of the tree: it reports exactly these errors, in this order. -/
theorem issues_exact (h : parseChildren pp ts = .ret ds (.ok root [])) :
    (mview pp s ts).Is (verdict (ds.map .report ++ rootIssues root)) := by
  have ok : childrenOk (noAssumption pp) root := by
    have := parseChildren_wp (I := noAssumption pp) (ts := ts) trivial
    rw [h] at this
    exact this.1
  have hr := root_shows s root ok
  have hd : Shows (Out.ret ds ()) (ds.map .report) := by
    unfold Shows
    suffices verdict (ds.map Issue.report) = .errors ds by rw [this]; rfl
    clear h
    induction ds with
    | nil => rfl
    | cons d ds ih => simp only [List.map_cons, verdict, ih, Verdict.add]
  have he : mviewImpl pp s ts = (Out.ret ds ()).bind fun _ => expandRoot s root := by
    simp only [mviewImpl, h, Out.monad_bind, Out.bind]
  have := hd.bind fun _ => hr
  unfold mview
  rw [he]
  unfold Shows at this
  generalize verdict _ = v at this
  generalize (Out.bind _ _) = o at this
  cases o with
  | ret es out =>
    cases v <;> simp only [Out.Is] at this
    subst this
    cases es
    · trivial
    · exact ⟨rfl, rfl⟩
  | abort es =>
    cases v <;> simp only [Out.Is] at this
    subst this
    exact ⟨rfl, rfl⟩
  | panic p => cases v <;> simp only [Out.Is] at this; trivial
  | diverge => cases v <;> simp only [Out.Is] at this

/-- C38.  For syntactically valid inputs there are no other errors. -/
theorem valid_issues_exact {cs : List CChild} (hpp : pp.Starts) (hl : LexicalToks (childrenToks cs))
    (hw : childrenWf pp cs []) :
    (mview pp s (childrenToks cs)).Is (verdict (rootIssues (childrenAst cs))) :=
  issues_exact (ds := []) ((parses_iff hpp hl).mpr ⟨cs, hw, rfl, rfl⟩)

/-! ### examples -/

/-- Errors of attributes come before those of children, those of nodes before those of slots. -/
example : ∃ root,
    Parses simplePaths t!"Foo bar:x a=y[1] { slot:A.b; div attr:z; slot:std::C; Bar on:q:w={e}; }" root ∧
    verdict (rootIssues root) = .errors [.unknownDirective (plain c!"bar"), .unsupportedPrefix (plain c!"y"),
      .directiveOnElement (plain c!"attr"), .unknownModifier (plain c!"w"), .selectorOnSlot,
      .slotNameIsPath] ∧
    mview simplePaths (fun _ => [])
      t!"Foo bar:x a=y[1] { slot:A.b; div attr:z; slot:std::C; Bar on:q:w={e}; }" =
      .errors [.unknownDirective (plain c!"bar"), .unsupportedPrefix (plain c!"y"),
        .directiveOnElement (plain c!"attr"), .unknownModifier (plain c!"w"), .selectorOnSlot,
        .slotNameIsPath] t!"()" := ⟨_, rfl, rfl, rfl⟩

/-- A modifier of `clone:` is reported twice, one of `class:` on a component not at all. -/
example : ∃ root,
    Parses simplePaths t!"Foo clone:x:y; Foo class:x:y;" root ∧
    verdict (rootIssues root) =
      .errors [.modifierNotAllowed (plain c!"y"), .modifierNotAllowed (plain c!"y")] :=
  ⟨_, rfl, rfl⟩

/-- The macro stops at a slot at the top, whatever else is wrong. -/
example : ∃ root,
    Parses simplePaths t!"div bar:x; slot:A;" root ∧
    verdict (rootIssues root) = .stopped [.slotAtTopLevel] := ⟨_, rfl, rfl⟩

/-- A crash hides the errors before it. -/
example : ∃ root,
    Parses simplePaths t!"Foo bar:x; Foo self=1;" root ∧
    verdict (rootIssues root) = .crashed := ⟨_, rfl, rfl⟩

/-- The order matters. -/
example : ¬ (MacroResult.errors [.selectorOnSlot, .spreadOnSlot] t!"()").Is
    (.errors [.spreadOnSlot, .selectorOnSlot]) := fun h => by
  simp [MacroResult.Is] at h

/-- Errors of the parser come first. -/
example : mview simplePaths (fun _ => []) t!"div bar:x a=;" =
    .errors [.missingValue false, .unknownDirective (plain c!"bar")] t!"()" := rfl

end Mview
