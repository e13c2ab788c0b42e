import Verif.Lemmas.PathText
import Verif.Props.FewErrors
import Verif.Props.Order
import Verif.Props.Recover
/-
C62: `syn::Path::parse` reads paths as they are written in types, which do not include `Fn(..)`.
What is assumed of it elsewhere is so, if little is assumed of generic arguments.
-/

namespace Mview
open Lex

variable {ga : ArgParser} {s : Sched} {ts : Toks} {ds : List Diag}

/-- It reads the paths of Spec/PathText, as far as they go. -/
theorem syn_paths_grammar (hl : ga.Local) {p : Path} {rest : Toks} : (synPaths ga).run ts = (some p, rest) ↔
    ∃ w : WPath, w.Wf ga ∧ w.EndsBefore rest ∧ ts = w.toks ++ rest ∧ p = w.ast := path_grammar hl

/-- What is assumed of paths is so. -/
theorem syn_paths_assumptions : (synPaths ga).Starts ∧ (synPaths ga).Honest ∧ (synPaths ga).NoFunctions ∧
    (ga.Local → ga.FailsLocally → (synPaths ga).Local ∧ (synPaths ga).FailsLocally) ∧
    (ga.Verbatim → (synPaths ga).Verbatim) ∧ (ga.Sparing → (synPaths ga).Sparing) :=
  ⟨synPaths_starts, synPaths_honest, synPaths_plain,
    fun hl hf => ⟨synPaths_local hl hf, synPaths_failsLocally hl hf⟩, synPaths_verbatim, synPaths_sparing⟩

/-- The error about generics like `Fn(..)` (src/expand/utils.rs:42) is never reported. -/
theorem function_generics_unreachable (hl : LexicalToks ts) (h : (mview (synPaths ga) s ts).reported = some ds) :
    .functionGenerics ∉ ds := never_function_generics synPaths_plain hl h

/-- C57 without exception. -/
theorem few_errors_syn (hl : LexicalToks ts) (h : (mview (synPaths ga) s ts).reported = some ds) :
    2 * ds.length ≤ 3 * toksMany ts := few_errors hl h (function_generics_unreachable hl h)

/-- C31 without exception. -/
theorem siblings_errors_syn {a b : List Child} {tsa tsb : Toks} {sa sb : Sched} (hl : LexicalToks tsa)
    (hp : Parses (synPaths ga) ts (a ++ b)) (ha : Parses (synPaths ga) tsa a) (hb : Parses (synPaths ga) tsb b)
    (hs : ∀ c ∈ a ++ b, c.isSlot = false) {da db : List Diag}
    (hda : (mview (synPaths ga) sa tsa).diags = some da) (hdb : (mview (synPaths ga) sb tsb).diags = some db) :
    (mview (synPaths ga) s ts).diags = some (da ++ db) := by
  rcases siblings_errors (s := s) hp ha hb hs hda hdb with h | ⟨h, -⟩
  · exact h
  · exact absurd h (function_generics_unreachable hl (by
      rw [← hda]; cases mview (synPaths ga) sa tsa <;> rfl))

/-- The assumptions can be met. -/
theorem simple_arguments : simpleArg.Local ∧ simpleArg.FailsLocally ∧ simpleArg.Verbatim ∧ simpleArg.Sparing :=
  ⟨simpleArg_local, simpleArg_failsLocally, simpleArg_verbatim, simpleArg_sparing⟩

/-! ### examples -/

/-- lifetimes are moved to the front -/
example : (synPaths simpleArg).run t!"a::B<C<D>, 'a>.c;" =
    (some ⟨false, [⟨plain c!"a", .none⟩, ⟨plain c!"B", .angle false t!"'a, C<D>,"⟩]⟩, t!".c;") := rfl
/-- a trailing comma -/
example : (synPaths simpleArg).run t!"::B::<C,>::D {}" =
    (some ⟨true, [⟨plain c!"B", .angle true t!"C,"⟩, ⟨plain c!"D", .none⟩]⟩, t!"{}") := rfl
/-- keywords -/
example : (synPaths simpleArg).run t!"a::if::X;" = (none, t!"if::X;") := rfl
example : (synPaths simpleArg).run t!"self::X;" =
    (some ⟨false, [⟨plain c!"self", .none⟩, ⟨plain c!"X", .none⟩]⟩, t!";") := rfl
example : (synPaths simpleArg).run t!"Self<X>;" = (some ⟨false, [⟨plain c!"Self", .angle false t!"X"⟩]⟩, t!";") := rfl
example : (synPaths simpleArg).run t!"self<X>;" = (some ⟨false, [⟨plain c!"self", .none⟩]⟩, t!"<X>;") := rfl
example : (synPaths simpleArg).run t!"self::<X>;" = (none, t!"<X>;") := rfl
/-- no generics -/
example : (synPaths simpleArg).run t!"X<=3" = (some ⟨false, [⟨plain c!"X", .none⟩]⟩, t!"<=3") := rfl
/-- parentheses are children -/
example : (synPaths simpleArg).run t!"a::Fn(x)" = (some ⟨false, [⟨plain c!"a", .none⟩, ⟨plain c!"Fn", .none⟩]⟩, t!"(x)") := rfl
example : (synPaths simpleArg).run t!"a::Fn::(x)" =
    (some ⟨false, [⟨plain c!"a", .none⟩, ⟨plain c!"Fn", .none⟩]⟩, t!"::(x)") := rfl
/-- generics that are not closed, or not separated -/
example : (synPaths simpleArg).run t!"A<B;" = (none, t!";") := rfl
example : (synPaths simpleArg).run t!"A<'a 'b>;" = (none, t!"'b>;") := rfl

/-- a path as it is written -/
def sampleText : WPath := ⟨none, ⟨plain c!"a", none⟩,
  [(.alone, ⟨plain c!"B", some ⟨some .joint, .alone, [(.other t!"C" t!"C", some .alone), (.lifetime (plain c!"x"), none)], .alone⟩⟩)]⟩

example : sampleText.toks = t!"a::B::<C, 'x>" := rfl
example : sampleText.ast = ⟨false, [⟨plain c!"a", .none⟩, ⟨plain c!"B", .angle true t!"'x, C,"⟩]⟩ := rfl

theorem sampleText_wf : sampleText.Wf simpleArg := by
  intro x hx
  simp only [sampleText, WPath.segs, List.map_cons, List.map_nil, List.mem_cons, List.not_mem_nil, or_false] at hx
  rcases hx with rfl | rfl
  · exact .inr ⟨by simp [Ident.Sole, plain], .inr (wordNext_iff.mp rfl)⟩
  · refine ⟨⟨by simp [Ident.Sole, plain], .inr (wordNext_iff.mp rfl)⟩, ?_, ⟨by simp, trivial⟩, by simp⟩
    intro a ha
    simp only [List.mem_cons, List.not_mem_nil, or_false] at ha
    rcases ha with rfl | rfl
    · exact ⟨by simp, by simp, fun _ => rfl⟩
    · trivial

example : (synPaths simpleArg).run t!"a::B::<C, 'x> {}" = (some sampleText.ast, t!"{}") :=
  (syn_paths_grammar simpleArg_local).mpr ⟨sampleText, sampleText_wf, ⟨by simp [colonsText], by
    rintro x hx - - l r h
    simp at h⟩, rfl, rfl⟩

/-- in a view -/
example : mview (synPaths simpleArg) (fun _ => []) t!"a::Fn(\"x\")" =
    mview simplePaths (fun _ => []) t!"a::Fn(\"x\")" := rfl

end Mview
