import Verif.Lemmas.Fewer
import Verif.Props.Run
import Verif.Props.Threads
import Verif.Props.Leave
/-
C76: leaving something out of a view only takes away from the page.
-/

-- the linter does not see variables used inside `q!"..."`
set_option linter.unusedVariables false

namespace Mview.Run
open Lex

variable {V : Type} {R : Rust V} {pp : PathParser} {s s' : Sched} {ts ts' out out' : Toks} {root root' : List Child}

/-- C76.  If something is left out of a view, the page has something left out, and nothing new. -/
theorem left_out_fewer (hR : R.Names) (hp : Parses pp ts root) (hp' : Parses pp ts' root')
    (ho : AllLeftOut root' root) (hu : AllUsual root) (h : mview pp s ts = .tokens out) :
    ∃ out' ds' ds, mview pp s' ts' = .tokens out' ∧ (∃ N, ∀ n ≥ N, run R n out' = some ds') ∧
      (∃ N, ∀ n ≥ N, run R n out = some ds) ∧ AllFewer R ds' ds := by
  obtain ⟨out', h'⟩ := left_out_accepted (s' := s') hp hp' ho ⟨out, h⟩
  obtain ⟨ds, hd, hr⟩ := run_shows hR hp h hu
  obtain ⟨ds', hd', hr'⟩ := run_shows hR hp' h' (allUsual_leftOut ho hu)
  exact ⟨out', ds', ds, h', hr', hr, (children_show_fewer ho).1 ds' ds hd' hd⟩

/-- C76.  Whenever both run to an end, it is so for what they run to. -/
theorem left_out_runs_fewer (hR : R.Names) (hp : Parses pp ts root) (hp' : Parses pp ts' root')
    (ho : AllLeftOut root' root) (hu : AllUsual root) (h : mview pp s ts = .tokens out)
    (h' : mview pp s' ts' = .tokens out') :
    ∃ N, ∀ n ≥ N, ∀ ds' ds, run R n out' = some ds' → run R n out = some ds → AllFewer R ds' ds := by
  obtain ⟨out₁, ds₁', ds₁, h1, ⟨N', hr'⟩, ⟨N, hr⟩, hf⟩ := left_out_fewer (s' := s') hR hp hp' ho hu h
  rw [h'] at h1
  cases h1
  refine ⟨max N N', fun n hn ds' ds e' e => ?_⟩
  rw [hr' n (Nat.le_trans (Nat.le_max_right _ _) hn)] at e'
  rw [hr n (Nat.le_trans (Nat.le_max_left _ _) hn)] at e
  cases e'
  cases e
  exact hf

/-- C76.  Each thread of a view is shown as a part of its page. -/
theorem thread_fewer {t : Child} (hR : R.Names) (hp : Parses pp ts root) (ht : ThreadOf t root)
    (hp' : Parses pp ts' [t]) (hu : AllUsual root) (h : mview pp s ts = .tokens out) :
    ∃ out' ds' ds, mview pp s' ts' = .tokens out' ∧ (∃ N, ∀ n ≥ N, run R n out' = some ds') ∧
      (∃ N, ∀ n ≥ N, run R n out = some ds) ∧ AllFewer R ds' ds := by
  obtain ⟨c, hc, ht⟩ := ht
  exact left_out_fewer hR hp hp' (allLeftOut_single ht.leftOut hc) hu h

/-! ### examples -/

/-- Nothing can be added, moved or renamed. -/
example : ¬ AllFewer demo [.elem .html c!"p" [] []] [] := by
  intro h; cases h
example : ¬ AllFewer demo [.elem .html c!"p" [.cls (.text c!"a")] []] [.elem .html c!"p" [] []] := by
  intro h
  cases h with
  | without h => cases h
  | both hd h => cases hd with | elem hl hd => cases hl
example : ¬ AllFewer demo [.elem .html c!"b" [] []] [.elem .html c!"p" [] [.elem .html c!"b" [] []]] := by
  intro h
  cases h with
  | without h => cases h
  | both hd h => cases hd

set_option maxRecDepth 100000

/-- A view, what is left of it, and their pages: of the two ids of the component one is left in the attribute. -/
example : ran t!"div.a title=\"b\" { Tab #c #d e=1 { p { \"f\" } } \"g\" }" =
      some [.elem .html c!"div" [.attr c!"title" (.text c!"b"), .clsIf (.text c!"a") (.bool true)]
        [.comp t!"Tab" t!"Tab" [.prop c!"e" (.text c!"1"), .children none [] [.elem .html c!"p" [] [.value (.text c!"f")]]]
          [.attr c!"id" (.text c!"c d")], .value (.text c!"g")]] ∧
    ran t!"div.a { Tab #d e=1 { p; } }" =
      some [.elem .html c!"div" [.clsIf (.text c!"a") (.bool true)]
        [.comp t!"Tab" t!"Tab" [.prop c!"e" (.text c!"1"), .children none [] [.elem .html c!"p" [] []]]
          [.attr c!"id" (.text c!"d")]]] := ⟨rfl, rfl⟩

/-- The hypotheses hold for them. -/
example : ∃ root root', Parses simplePaths t!"div.a title=\"b\" { Tab #c #d e=1 { p { \"f\" } } \"g\" }" root ∧
    Parses simplePaths t!"div.a { Tab #d e=1 { p; } }" root' ∧ AllLeftOut root' root ∧ AllUsual root := by
  refine ⟨_, _, rfl, rfl, ?_, ?_⟩
  · exact .both (.elem (.block (.cons_cons _ .slnil) (.cons _ .slnil) (.inl rfl)
      (.both (.elem (.block (.cons _ (.cons_cons _ .slnil)) (.cons_cons _ .slnil) (.inl rfl)
        (.both (.elem (.void .slnil .slnil)) .nil))) (.without .nil)))) .nil
  · simp [AllUsual, Usual, BlockUsual, tagUsual, propUsual, entryUsual, attrUsual, Unchecked, Tag.kind,
      builderMethods, dashToUnderscore]
    exact ⟨by decide, by decide⟩

end Mview.Run
