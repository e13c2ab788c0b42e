import Verif.Model.Mview
/-
The feature `nightly` of leptos-mview (Cargo.toml:22-23, leptos-mview-macro/Cargo.toml:20-21): it enables the
feature of the same name of `proc_macro_error2`, with which diagnostics are handed to the compiler as they are
emitted.  The macro then returns its expansion in spite of errors.
-/

namespace Mview

/-- What the compiler sees of one macro invocation with the feature `nightly`. -/
inductive NightlyResult where
  /-- the diagnostics, and the expansion -/
  | done (ds : List Diag) (ts : Toks)
  /-- "proc macro panicked" (the diagnostics reported before that are not modelled) -/
  | panicked (p : PanicSite)
  /-- does not terminate -/
  | hangs

/-- leptos-mview-macro/src/lib.rs:4-9 `mview` with the feature `nightly`: `#[proc_macro_error]` returns what
`mview_impl` returns, or the dummy if it was aborted. -/
def mviewNightly (pp : PathParser) (s : Sched) (ts : Toks) : NightlyResult :=
  match mviewImpl pp s ts with
  | .ret ds out => .done ds out
  | .abort ds => .done ds dummy
  | .panic p => .panicked p
  | .diverge => .hangs

end Mview
