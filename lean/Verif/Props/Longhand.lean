import Verif.Lemmas.Longhand
import Verif.Props.Run
import Verif.Props.Order
/-
C59: what the documentation says is the same, is the same.
-/

-- the linter does not see variables used inside `q!"..."`
set_option linter.unusedVariables false

namespace Mview.Run
open Lex

variable {V : Type} {R : Rust V} {pp : PathParser} {s s' : Sched} {ts ts' out out' : Toks} {root root' : List Child}

/-- C59.  Inputs that are the same in full are both accepted, or neither is. -/
theorem same_accepted (hp : Parses pp ts root) (hp' : Parses pp ts' root') (he : longhand root = longhand root') :
    (∃ out, mview pp s ts = .tokens out) ↔ ∃ out, mview pp s' ts' = .tokens out := by
  rw [accepted hp, accepted hp', ← root_accepted_long root, he, root_accepted_long]

/-- C59.  The expansion of one shows what the other shows. -/
theorem same_shown (hR : R.Names) (hR' : R.Plain) (hp : Parses pp ts root) (hp' : Parses pp ts' root')
    (he : longhand root = longhand root') (hu : AllUsual root) (h' : mview pp s' ts' = .tokens out') :
    ∃ ds, AllShow R root ds ∧ ∃ N, ∀ n ≥ N, run R n out' = some ds := by
  obtain ⟨ds, h1, h2⟩ := run_shows hR hp' h' (by rwa [← allUsual_long, ← he, allUsual_long])
  exact ⟨ds, by rwa [← allShow_long hR', he, allShow_long hR'], h2⟩

/-- C59.  Both expansions give the same, if no component has slots with different names (these are passed in any
order). -/
theorem same_page (hR : R.Names) (hR' : R.Plain) (hp : Parses pp ts root) (hp' : Parses pp ts' root')
    (he : longhand root = longhand root') (hu : AllUsual root) (hn : AllSimple root)
    (h : mview pp s ts = .tokens out) (h' : mview pp s' ts' = .tokens out') :
    ∃ ds N, ∀ n ≥ N, run R n out = some ds ∧ run R n out' = some ds := by
  obtain ⟨ds, h1, N, h2⟩ := run_shows hR hp h hu
  obtain ⟨ds', h1', N', h2'⟩ := same_shown hR hR' hp hp' he hu h'
  cases allShow_unique root ds ds' hn h1 h1'
  exact ⟨ds, N + N', fun n hn => ⟨h2 n (by omega), h2' n (by omega)⟩⟩

/-- The assumptions about Rust hold for the values of the examples. -/
theorem demo_plain : demo.Plain where
  lit l := by simp [demo, blockText, tokText]
  bool b := by cases b <;> simp [demo, blockText, tokText, plain]
  lazy code := by
    cases code with
    | nil => rfl
    | cons t code =>
      show blockText (_ ++ t :: code) = blockText (t :: code)
      simp only [blockText, List.getLast?_append, List.getLast?_cons, Option.some_or]
  format code := by simp [demo, blockText]
  raw a _ := by simp [demo, blockText, tokText]

/-! ### the examples of the documentation -/

/-- The trees are the same in full. -/
def SameInFull (ts ts' : Toks) : Prop :=
  ∃ root root', Parses simplePaths ts root ∧ Parses simplePaths ts' root' ∧ longhand root = longhand root'

set_option maxRecDepth 100000

-- src/lib.rs:79, 80
example : SameInFull t!"Show when=[!value().is_empty()] fallback=[a] { \"b\" }"
    t!"Show when={move || !value().is_empty()} fallback={move || a} { \"b\" }" := ⟨_, _, rfl, rfl, rfl⟩
-- src/lib.rs:91
example : SameInFull t!"p { \"Is bad: \" f[\"{}\", red_input()] }"
    t!"p { \"Is bad: \" {move || format!(\"{}\", red_input())} }" := ⟨_, _, rfl, rfl, rfl⟩
-- src/lib.rs:303
example : SameInFull t!"p { f[\"{:.2}\", stuff()] }" t!"p { [format!(\"{:.2}\", stuff())] }" := ⟨_, _, rfl, rfl, rfl⟩
-- src/lib.rs:355-358
example : SameInFull t!"LotsOfFlags wide tall red=false curvy count=3;"
    t!"LotsOfFlags wide=true tall=true red=false curvy=true count=3;" := ⟨_, _, rfl, rfl, rfl⟩
-- src/lib.rs:444-450
example : SameInFull t!"Something {some-attribute};" t!"Something {some_attribute};" := ⟨_, _, rfl, rfl, rfl⟩
example : SameInFull t!"Something {some_attribute};" t!"Something some_attribute={some_attribute};" :=
  ⟨_, _, rfl, rfl, rfl⟩
-- src/lib.rs:458-461
example : SameInFull t!"input {aria-label};" t!"input aria-label={aria_label};" := ⟨_, _, rfl, rfl, rfl⟩
-- but a keyword cannot be
example : SameInFull t!"input {type};" t!"input type={r#type};" := ⟨_, _, rfl, rfl, rfl⟩
-- names of attributes of elements are left as they are
example : ¬ longhand [.elem (.mk (.html ⟨true, c!"p"⟩) [] [.kv ⟨⟨c!"a-b", 2⟩, .lit (.bool true)⟩] none none)] =
    longhand [.elem (.mk (.html ⟨true, c!"p"⟩) [] [.kv ⟨⟨c!"a_b", 1⟩, .lit (.bool true)⟩] none none)] := by
  simp [longhand, longElement, longAttrs, longOnElement]

-- nested, and in slots
example : SameInFull t!"A.b my-prop=\"c\" class:d { slot:E x-y=[z] { p { \"f\" } } br on:my-event={g}; }"
    t!"A.b my_prop={\"c\"} class:d=true { slot:E x_y={move || z} { p { {\"f\"} } } br on:my_event={g}; }" :=
  ⟨_, _, rfl, rfl, rfl⟩
example : ran t!"A.b my-prop=\"c\" class:d { slot:E x-y=[z] { p { \"f\" } } br on:my-event={g}; }" =
    ran t!"A.b my_prop={\"c\"} class:d=true { slot:E x_y={move || z} { p { {\"f\"} } } br on:my_event={g}; }" := rfl
-- src/lib.rs:63, which is a matter of rendering
example : page t!"h1.title { \"A great website\" }" = page t!"h1 class=\"title\" { \"A great website\" }" := rfl

end Mview.Run
