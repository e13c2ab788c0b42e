import Verif.Lemmas.Template
import Verif.Props.Interchange
/-
C81: a view is a template: one page, on which the values of the user's code are put.
-/

namespace Mview.Run
open Lex

variable {V : Type} {R R' : Rust V} {pp : PathParser} {s s' : Sched} {ts ts' : Toks} {root root' : List Child}
  {out out' : Toks}

/-- C81.  For every accepted input there is one template, that of its tree, with code where values will be; whatever the
code evaluates to, the page is the template with these values. -/
theorem template (hp : Parses pp ts root) (h : mview pp s ts = .tokens out) (hu : AllUsual root) :
    ∃ tpl, Builds written out tpl ∧ AllShow written root tpl ∧
      ∀ (V : Type) (R : Rust V), R.Names → Builds R out (domsMap (Code.eval R) tpl) := by
  obtain ⟨tpl, ht, hr⟩ := run_shows written_names hp h hu
  refine ⟨tpl, hr, ht, fun V R hR => ?_⟩
  obtain ⟨N, hr⟩ := hr
  exact ⟨N, fun n hn => by rw [run_through (written_through hR), hr n hn, Option.map_some]⟩

/-- C81.  The page changes exactly if something changes that is on it: if some code that is in the template evaluates to
something else. -/
theorem page_changes (hp : Parses pp ts root) (h : mview pp s ts = .tokens out) (hu : AllUsual root) (hR : R.Names)
    (hR' : R'.Names) : ∃ tpl page page', Builds written out tpl ∧ Builds R out page ∧ Builds R' out page' ∧
      (page' = page ↔ ∀ c ∈ domsValues tpl, c.eval R' = c.eval R) := by
  obtain ⟨tpl, h1, -, h2⟩ := template hp h hu
  exact ⟨tpl, _, _, h1, h2 V R hR, h2 V R' hR', doms_map_iff tpl⟩

/-- C81.  Two inputs build the same page whatever code evaluates to, exactly if they have the same template. -/
theorem same_template (hp : Parses pp ts root) (h : mview pp s ts = .tokens out) (hu : AllUsual root)
    (hp' : Parses pp ts' root') (h' : mview pp s' ts' = .tokens out') (hu' : AllUsual root') :
    ∃ tpl tpl', Builds written out tpl ∧ Builds written out' tpl' ∧
      (AllSame tpl' tpl ↔ ∀ (V : Type) (R : Rust V), R.Names →
        ∃ page page', Builds R out page ∧ Builds R out' page' ∧ AllSame page' page) := by
  obtain ⟨tpl, h1, -, h2⟩ := template hp h hu
  obtain ⟨tpl', h1', -, h2'⟩ := template hp' h' hu'
  refine ⟨tpl, tpl', h1, h1', fun hs V R hR => ⟨_, _, h2 V R hR, h2' V R hR, allSame_map hs⟩, fun hall => ?_⟩
  obtain ⟨page, page', b, b', hs⟩ := hall Code written written_names
  obtain rfl := b.unique h1
  obtain rfl := b'.unique h1'
  exact hs

/-! ### examples -/

set_option maxRecDepth 100000

/-- The template of an input. -/
def templateOf (ts : Toks) : Option (List (Dom Code)) :=
  match mview simplePaths (fun _ => []) ts with
  | .tokens out => run written 10 out
  | _ => none

example : templateOf t!"div.big-box class:on={a} { \"b\" p title=f[\"{}\", c] { [d + 1] } Foo e=2 { {g} } }" =
    some [.elem .html c!"div"
      [.clsIf (.lit (.str c!"on")) (.block t!"a"), .clsIf (.lit (.str c!"big-box")) (.bool true)]
      [.value (.lit (.str c!"b")),
       .elem .html c!"p" [.attr c!"title" (.format t!"\"{}\", c")] [.value (.lazy t!"d + 1")],
       .comp t!"Foo" t!"Foo" [.prop c!"e" (.lit (.int c!"2")), .children none [] [.value (.block t!"g")]] []]] := rfl

/-- With values on it, it is the page. -/
example : (templateOf t!"div.a class:b={yes} { \"c\" {d} }").map (domsMap (Code.eval demo)) =
    ran t!"div.a class:b={yes} { \"c\" {d} }" := rfl

/-- The code on it, in order. -/
example : (templateOf t!"p title={a} { {b} q; {c} }").map domsValues = some [.block t!"a", .block t!"b", .block t!"c"] := rfl

/-- A string and a variable are the same on some pages, but not in the template. -/
example : ran t!"p { \"a\" }" = ran t!"p { {a} }" := rfl
example : templateOf t!"p { \"a\" }" = some [.elem .html c!"p" [] [.value (.lit (.str c!"a"))]] ∧
    templateOf t!"p { {a} }" = some [.elem .html c!"p" [] [.value (.block t!"a")]] := ⟨rfl, rfl⟩

end Mview.Run
