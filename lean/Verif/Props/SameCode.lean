import Verif.Lemmas.SameCodeTree
import Verif.Props.Whole
/-
C63: two accepted inputs have the same expansion exactly if they are the same view.
-/

namespace Mview
open Lex

variable {pp : PathParser} {s s' : Sched} {ts ts' out out' : Toks} {root root' : List Child}

/-- C63.  Inputs that are the same view have the same expansions. -/
theorem same_view_same_code (h : Parses pp ts root) (h' : Parses pp ts' root')
    (ho : mview pp s ts = .tokens out) (ho' : mview pp s' ts' = .tokens out') (hv : SameView root root') (o : Toks) :
    (∃ s, mview pp s ts = .tokens o) ↔ ∃ s, mview pp s ts' = .tokens o := by
  constructor
  · rintro ⟨s, hs⟩
    exact mview_complete h' (root_same (mview_means h hs) (mview_means h' ho') hv)
  · rintro ⟨s, hs⟩
    exact mview_complete h (root_same (mview_means h' hs) (mview_means h ho) hv.symm)

/-- C63.  Inputs that are different views have no expansion in common. -/
theorem same_code_same_view (h : Parses pp ts root) (h' : Parses pp ts' root') (hs : PlainParts root)
    (hs' : PlainParts root') (ho : mview pp s ts = .tokens out) (ho' : mview pp s' ts' = .tokens out) :
    SameView root root' :=
  root_inj hs hs' (mview_means h ho) (mview_means h' ho')

/-- C63.  Both together: for two accepted inputs, an expansion of one is one of the other iff they are the same
view. -/
theorem same_code_iff (h : Parses pp ts root) (h' : Parses pp ts' root') (hs : PlainParts root)
    (hs' : PlainParts root') (ho : mview pp s ts = .tokens out) (ho' : mview pp s' ts' = .tokens out') :
    (∃ s, mview pp s ts' = .tokens out) ↔ SameView root root' :=
  ⟨fun ⟨_, h2⟩ => same_code_same_view h h' hs hs' ho h2,
    fun hv => (same_view_same_code h h' ho ho' hv out).mp ⟨s, ho⟩⟩

/-! ### examples -/

/-- Selectors on components; the order of attributes of different kinds; `-` and `_` where there is a method. -/
example : ∃ root root', Parses simplePaths t!"C#x.a#y class:b my-prop=1;" root ∧
    Parses simplePaths t!"C my_prop=1 class:a attr:id=\"x y\" class:b=true;" root' ∧ SameView root root' :=
  ⟨_, _, rfl, rfl, rfl⟩
example (s : Sched) : mview simplePaths s t!"C#x.a#y class:b my-prop=1;" =
    mview simplePaths s t!"C my_prop=1 class:a attr:id=\"x y\" class:b=true;" := rfl
example : ∃ root root', Parses simplePaths t!"div.a#x on:click={f} aria-label=\"b\" { \"t\" }" root ∧
    Parses simplePaths t!"div#x.a aria_label=\"b\" on:click={f} |z| { \"t\" slot:S; }" root' ∧ SameView root root' :=
  ⟨_, _, rfl, rfl, rfl⟩

/-- The order of slots of different names, and what is only seen with children. -/
def slotsOne : Toks := t!"C { slot:A; \"x\" slot:B clone:y; slot:A a=1; }"
def slotsTwo : Toks := t!"C { slot:B; slot:A; slot:A a=1; \"x\" }"
example : ∃ root root', Parses simplePaths slotsOne root ∧ Parses simplePaths slotsTwo root' ∧ SameView root root' := by
  refine ⟨_, _, rfl, rfl, ?_⟩
  refine congrArg (fun f => [View.component _ _ _ _ _ f _]) (funext fun n => ?_)
  by_cases h1 : plain c!"A" = n
  · subst h1; rfl
  · by_cases h2 : plain c!"B" = n
    · subst h2; rfl
    · have h : ∀ v w x : View, (([(plain c!"A", v), (plain c!"B", w), (plain c!"A", x)] : List (Ident × View)).filter
            fun s => s.1 = n).map Prod.snd =
          ([(plain c!"B", w), (plain c!"A", v), (plain c!"A", x)].filter fun s => s.1 = n).map Prod.snd := by
        intro v w x
        simp [h1, h2]
      exact h _ _ _
example : ∃ s s' o, mview simplePaths s slotsOne = .tokens o ∧ mview simplePaths s' slotsTwo = .tokens o :=
  ⟨fun _ => [], fun _ => [1], _, rfl, rfl⟩

/-- Different views. -/
example {s s' : Sched} {o : Toks} (h : mview simplePaths s t!"div data-x=1;" = .tokens o)
    (h' : mview simplePaths s' t!"div data_x=1;" = .tokens o) : False := by
  have p1 : Parses simplePaths t!"div data-x=1;" [_] := rfl
  have p2 : Parses simplePaths t!"div data_x=1;" [_] := rfl
  have := same_code_same_view p1 p2 ⟨nofun, trivial⟩ ⟨nofun, trivial⟩ h h'
  simp [SameView, nodeViews, Element.view, viewElement, kvs, KvAttr.view, Unchecked, Tag.kind] at this

/-- The turbofish makes no difference; anything else in a path does. -/
example : ∃ root root', Parses simplePaths t!"a::C<T>;" root ∧ Parses simplePaths t!"a::C::<T>;" root' ∧
    SameView root root' := ⟨_, _, rfl, rfl, rfl⟩
example {s s' : Sched} {o : Toks} (h : mview simplePaths s t!"a::C<Vec<T>>;" = .tokens o)
    (h' : mview simplePaths s' t!"a::C<Vec<U>>;" = .tokens o) : False := by
  have p1 : Parses simplePaths t!"a::C<Vec<T>>;" [_] := rfl
  have p2 : Parses simplePaths t!"a::C<Vec<U>>;" [_] := rfl
  have plain : ∀ n s, (⟨false, [⟨⟨false, c!"a"⟩, .none⟩, ⟨⟨false, c!"C"⟩, .angle false [.ident ⟨false, c!"Vec"⟩,
      .punct '<' .alone, .ident n, .punct '>' s]⟩]⟩ : Path).plain := by
    intro n s x hx t inner he
    simp only [List.mem_cons, List.not_mem_nil, or_false] at hx
    rcases hx with rfl | rfl <;> simp only [PathArgs.angle.injEq, reduceCtorEq] at he
    obtain ⟨-, rfl⟩ := he
    exact .other (by simp) (by simp) (.nested (a := [.ident n]) (.other (by simp) (by simp) .nil) .nil)
  have := same_code_same_view p1 p2 ⟨fun | _, rfl => ⟨plain _ _, by simp [spreads]⟩, trivial⟩
    ⟨fun | _, rfl => ⟨plain _ _, by simp [spreads]⟩, trivial⟩ h h'
  simp [SameView, nodeViews, Element.view, viewElement, Path.view, PathArgs.view] at this

/-- Spreads on components that are several items are not told apart from several spreads. -/
example (s : Sched) : mview simplePaths s t!"C {..a, b};" = mview simplePaths s t!"C {..a} {..b};" := rfl
example : ∃ root root', Parses simplePaths t!"C {..a, b};" root ∧ Parses simplePaths t!"C {..a} {..b};" root' ∧
    ¬ SameView root root' := by
  refine ⟨_, _, rfl, rfl, ?_⟩
  intro h
  simp [SameView, nodeViews, Element.view, viewElement, viewEntries, entries, classes, ids] at h

end Mview
