import Verif.Loc.Expand
import Verif.Model.Nightly
/-
The feature `nightly` with spans; see `Model/Nightly.lean`.
-/

namespace Mview.Loc
variable {σ : Type}

/-- What the compiler sees of one macro invocation with the feature `nightly`, with spans. -/
inductive NightlyResult (σ : Type) where
  /-- the diagnostics, and the expansion -/
  | done (ds : List (LDiag σ)) (ts : Toks σ)
  /-- "proc macro panicked" (the diagnostics reported before that are not modelled) -/
  | panicked (p : PanicSite)
  /-- does not terminate -/
  | hangs

variable [Spans σ] {pp : Mview.PathParser}

/-- leptos-mview-macro/src/lib.rs:4-9 `mview` with the feature `nightly`: `#[proc_macro_error]` returns what
`mview_impl` returns, or the dummy if it was aborted. -/
def mviewNightly (lp : PathParser σ pp) (s : Sched) (ts : Toks σ) : NightlyResult σ :=
  match mviewImpl lp s ts with
  | .ret ds out => .done ds out
  | .abort ds => .done ds [tParen callSite []]
  | .panic p => .panicked p
  | .diverge => .hangs

end Mview.Loc
