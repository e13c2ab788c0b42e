import Verif.Model.Expand
/-
leptos-mview-core/src/lib.rs and leptos-mview-macro/src/lib.rs: the macro itself.
-/

namespace Mview

/-- `{ #[allow(unused_braces)] .. }` (src/lib.rs:40-42, 58-63) -/
def rootBlock (inner : Toks) : Toks :=
  [tBrace ([tP '#', tBracket [tId c!"allow", tParen [tId c!"unused_braces"]]] ++ inner)]

/-- src/lib.rs:34-64: expand the parsed children -/
def expandRoot (s : Sched) (children : List Child) : Out Toks :=
  match children with
  | [.slot _] => abortWith .slotAtTopLevel
  | [c] => do
    let ns ← expandNodes s [c]
    pure (rootBlock ns.flatten)
  | cs =>
    if cs.any Child.isSlot then abortWith .slotAtTopLevel
    else do
      let ns ← expandNodes s cs
      pure (rootBlock (childrenFragmentTokens ns))

/-- src/lib.rs:24-65 `mview_impl`.  (The `Err` branch of src/lib.rs:31 is not
reachable in the model: `Children::parse` never returns `Err` and consumes
everything, see `Props`.  It is reached through state hidden in syn, which is added in `Unread.lean`.) -/
def mviewImpl (pp : PathParser) (s : Sched) (ts : Toks) : Out Toks := do
  let r ← parseChildren pp ts
  match r with
  | .ok children _ => expandRoot s children
  | .err _ _ => pure []

/-- What the compiler sees of one macro invocation. -/
inductive MacroResult where
  /-- the expansion -/
  | tokens (ts : Toks)
  /-- one `compile_error!` per diagnostic, followed by the dummy expansion -/
  | errors (ds : List Diag) (dummy : Toks)
  /-- "proc macro panicked" -/
  | panicked (p : PanicSite)
  /-- does not terminate -/
  | hangs

/-- The dummy set by src/lib.rs:27. -/
def dummy : Toks := [tParen []]

/-- leptos-mview-macro/src/lib.rs:4-9 `mview`: `#[proc_macro_error]` on stable
replaces the expansion by the errors and the dummy if there is any error. -/
def mview (pp : PathParser) (s : Sched) (ts : Toks) : MacroResult :=
  match mviewImpl pp s ts with
  | .ret [] out => .tokens out
  | .ret ds _ => .errors ds dummy
  | .abort ds => .errors ds dummy
  | .panic p => .panicked p
  | .diverge => .hangs

end Mview
