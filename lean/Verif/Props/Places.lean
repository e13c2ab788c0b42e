import Verif.Lemmas.LocIssues
import Verif.Props.Issues
import Verif.Loc.Lex
/-
C41: where the errors of the expansion are reported.
-/

namespace Mview.Loc
open Lexer

variable {σ : Type}

variable [Spans σ] {pp : Mview.PathParser} {lp : PathParser σ pp} {s : Sched} {ts : Toks σ}
  {root : List (Child σ)} {ds : List (LDiag σ)}

/-- C41.  Once an input is parsed (perhaps with errors `ds`), the result of the macro is determined by
the issues of the tree: it reports exactly these errors, in this order, at these places. -/
theorem places_exact (h : parseChildren lp ts = .ret ds (.ok root [])) :
    (mview lp s ts).Is (verdict (reports ds ++ rootIssues root)) := by
  have ok : childrenOk (noAssumption pp) (eraseChildren root) := by
    have := parseChildren_wp (I := noAssumption pp) (ts := eraseToks ts) trivial
    rw [← parseChildren_erase lp ts, h] at this
    exact this.1
  have hr := root_shows s root ok
  have hd : Shows (Out.ret ds ()) (reports ds) := by
    unfold Shows reports
    suffices verdict (ds.map fun d => Issue.report d.diag d.sp) = .errors ds by rw [this]; rfl
    clear h
    induction ds with
    | nil => rfl
    | cons d ds ih => simp only [List.map_cons, verdict, ih, Verdict.add]
  have he : mviewImpl lp s ts = (Out.ret ds ()).bind fun _ => expandRoot s root := by
    simp only [mviewImpl, h, Out.monad_bind, Out.bind]
  have := hd.bind fun _ => hr
  unfold mview
  rw [he]
  unfold Shows at this
  generalize verdict _ = v at this
  generalize (Out.bind _ _) = o at this
  cases o with
  | ret es out =>
    cases v <;> simp only [Out.Is] at this
    subst this
    cases es
    · trivial
    · exact ⟨rfl, rfl⟩
  | abort es =>
    cases v <;> simp only [Out.Is] at this
    subst this
    exact ⟨rfl, rfl⟩
  | panic p => cases v <;> simp only [Out.Is] at this; trivial
  | diverge => cases v <;> simp only [Out.Is] at this

/-! ### examples -/

/-- the issues of a text's tree, with excerpts -/
def Source.issues (s : Source) : Option (List (Diag × Option Str)) :=
  match parseChildren (simplePaths : PathParser Rng Mview.simplePaths) s.toks with
  | .ret _ (.ok root _) => some ((rootIssues root).filterMap fun
    | .report d p => some (d, s.excerpt p)
    | .stop d p => some (d, s.excerpt p)
    | .crash => none)
  | _ => none

example : src!"Foo bar:x a=y[1] { slot:A.b; div attr:z; slot:std::C; Bar on:q:w={e}; }".issues =
    some [(.unknownDirective (plain c!"bar"), some c!"bar"),
      (.unsupportedPrefix (plain c!"y"), some c!"y"), (.directiveOnElement (plain c!"attr"), some c!"attr"),
      (.unknownModifier (plain c!"w"), some c!"w"), (.selectorOnSlot, some c!"."),
      (.slotNameIsPath, some c!"std::C")] := rfl

/-- The prediction is what the macro does. -/
example : src!"Foo bar:x a=y[1] { slot:A.b; div attr:z; slot:std::C; Bar on:q:w={e}; }".issues =
    some src!"Foo bar:x a=y[1] { slot:A.b; div attr:z; slot:std::C; Bar on:q:w={e}; }".complaints := rfl

/-- A slot at the top: alone, the error is at the word `slot`, otherwise at the slot's name. -/
example : src!"slot:Foo;".issues = some [(.slotAtTopLevel, some c!"slot")] ∧
    src!"div; slot:std::Foo::<i32>; slot:Bar;".issues =
      some [(.slotAtTopLevel, some c!"std::Foo::<i32>")] ∧
    src!"div; slot:a-b;".issues = some [(.slotAtTopLevel, some c!"a-b")] := ⟨rfl, rfl, rfl⟩

/-- Values of `clone:`, with all of their braces. -/
example : src!"Foo clone:x={1 + 1};".issues = some [(.cloneValue, some c!"{1 + 1}")] ∧
    src!"Foo clone:x=f[\"a\"];".issues = some [(.cloneValue, some c!"[\"a\"]")] := ⟨rfl, rfl⟩

/-- Places matter. -/
example : ¬ (MacroResult.errors [⟨.selectorOnSlot, Rng.range 0 1⟩] [.group .paren [] (.single callSite)]).Is
    (.errors [⟨.selectorOnSlot, .range 0 2⟩]) := fun h => by
  simp [MacroResult.Is] at h

end Mview.Loc
