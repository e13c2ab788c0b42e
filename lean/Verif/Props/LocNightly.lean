import Verif.Loc.Nightly
import Verif.Lemmas.LocNightlyTree
import Verif.Props.LocMeaning
import Verif.Props.Nightly
/-
C52: where every token of what is generated in spite of errors is placed (feature `nightly`).
-/

-- the linter does not see variables used inside `qs!` and `qc!`
set_option linter.unusedVariables false

namespace Mview.Loc
open Lexer

variable {σ : Type} [Spans σ] {pp : Mview.PathParser} {lp : PathParser σ pp} {s : Sched} {ts : Toks σ}
  {is : List (Issue σ)} {cs : List (Child σ)}

omit [Spans σ] in
/-- the result without places -/
def NightlyResult.erase : NightlyResult σ → Mview.NightlyResult
  | .done ds ts => .done (ds.map LDiag.diag) (eraseToks ts)
  | .panicked p => .panicked p
  | .hangs => .hangs

/-- C52.  Forgetting the places afterwards is running the macro on the tokens without places. -/
theorem nightly_erase (lp : PathParser σ pp) (s : Sched) (ts : Toks σ) :
    (mviewNightly lp s ts).erase = Mview.mviewNightly pp s (eraseToks ts) := by
  have h := mviewImpl_erase lp s ts
  unfold mviewNightly Mview.mviewNightly
  rw [← h]
  cases mviewImpl lp s ts with
  | abort ds => simp [Out.erase, NightlyResult.erase, Mview.dummy]
  | _ => rfl

theorem reading_shows (hl : LexicalToks (eraseToks ts)) (h : ReadsChildren lp callSite ts is cs) :
    Shows (mviewImpl lp s ts) (is ++ rootIssues cs) ∧
      ∀ ds out, mviewImpl lp s ts = .ret ds out → RootBecomes cs out := by
  have hg := reading_given hl h
  have hok : ∀ ds q, parseChildren lp ts = .ret ds q →
      q = .ok cs [] ∧ childrenOk (noAssumption pp) (eraseChildren cs) := by
    intro ds q hq
    obtain rfl := hg.2 ds q hq
    have := parseChildren_wp (I := noAssumption pp) (ts := eraseToks ts) trivial
    rw [← parseChildren_erase lp ts, hq] at this
    exact ⟨rfl, this.1⟩
  unfold mviewImpl
  rw [Out.monad_bind]
  constructor
  · refine hg.1.bind' fun ds q hq => ?_
    obtain ⟨rfl, h'⟩ := hok ds q hq
    exact root_shows (I := noAssumption pp) s cs h'
  · intro ds out ho
    have := Out.got_eq_some.mpr ⟨ds, ho⟩
    rw [Out.got_bind, Option.bind_eq_some_iff] at this
    obtain ⟨q, hq, ho⟩ := this
    obtain ⟨ds', hq⟩ := Out.got_eq_some.mp hq
    obtain ⟨rfl, h'⟩ := hok ds' q hq
    obtain ⟨ds'', ho⟩ := Out.got_eq_some.mp ho
    exact expandRoot_becomes h' ho

/-- C52.  Whatever errors are reported, as long as the macro is not stopped, the expansion is that of the tree
the input is read as, with the wrong pieces left out or replaced, and every token is placed where
`RootBecomes` says. -/
theorem nightly_placed {ds : List (LDiag σ)} (hl : LexicalToks (eraseToks ts))
    (h : ReadsChildren lp callSite ts is cs) (hv : verdict (is ++ rootIssues cs) = .errors ds) :
    ∃ out, mviewNightly lp s ts = .done ds out ∧ RootBecomes cs out := by
  obtain ⟨h1, h2⟩ := reading_shows (s := s) hl h
  unfold Shows at h1
  rw [hv] at h1
  unfold mviewNightly
  cases ho : mviewImpl lp s ts with
  | ret es out =>
    rw [ho] at h1
    simp only [Out.Is] at h1
    subst h1
    exact ⟨out, rfl, h2 _ _ ho⟩
  | _ => rw [ho] at h1; simp only [Out.Is] at h1

/-- C52.  Every such expansion can come about (they differ in the order of slots). -/
theorem nightly_placed_complete {ds : List (LDiag σ)} {out : Toks σ} (hl : LexicalToks (eraseToks ts))
    (h : ReadsChildren lp callSite ts is cs) (hv : verdict (is ++ rootIssues cs) = .errors ds)
    (hr : RootBecomes cs out) : ∃ s, mviewNightly lp s ts = .done ds out := by
  have hg := reading_given hl h
  -- some run reaches the end of parsing
  obtain ⟨out', ho', _⟩ := nightly_placed (s := fun _ => []) hl h hv
  have hp : ∃ ds', parseChildren lp ts = .ret ds' (.ok cs []) := by
    unfold mviewNightly mviewImpl at ho'
    rw [Out.monad_bind] at ho'
    cases hq : parseChildren lp ts with
    | ret ds' q => exact ⟨ds', by rw [hg.2 ds' q hq]⟩
    | abort es =>
      exfalso
      have h1 := (reading_shows (s := fun _ => []) hl h).1
      unfold Shows at h1
      rw [hv] at h1
      unfold mviewImpl at h1
      rw [Out.monad_bind, hq] at h1
      simp only [Out.bind, Out.Is] at h1
    | panic p => rw [hq] at ho'; simp [Out.bind] at ho'
    | diverge => rw [hq] at ho'; simp [Out.bind] at ho'
  obtain ⟨ds', hp⟩ := hp
  have h' : childrenOk (noAssumption pp) (eraseChildren cs) := by
    have := parseChildren_wp (I := noAssumption pp) (ts := eraseToks ts) trivial
    rw [← parseChildren_erase lp ts, hp] at this
    exact this.1
  obtain ⟨s, es, hs⟩ := expandRoot_reaches h' hr
  refine ⟨s, ?_⟩
  have : mviewImpl lp s ts = .ret (ds' ++ es) out := by
    unfold mviewImpl
    rw [Out.monad_bind, hp, Out.bind_ret]
    simp only [hs]
    rfl
  obtain ⟨out'', ho, _⟩ := nightly_placed (s := s) hl h hv
  unfold mviewNightly at ho ⊢
  rw [this] at ho ⊢
  simp only [NightlyResult.done.injEq] at ho ⊢
  exact ⟨ho.1, trivial⟩

/-- C52.  If the macro is stopped, `()` at the call site is all that is generated. -/
theorem nightly_stopped {ds : List (LDiag σ)} (hl : LexicalToks (eraseToks ts))
    (h : ReadsChildren lp callSite ts is cs) (hv : verdict (is ++ rootIssues cs) = .stopped ds) :
    mviewNightly lp s ts = .done ds qc!"()" := by
  have h1 := (reading_shows (s := s) hl h).1
  unfold Shows at h1
  rw [hv] at h1
  unfold mviewNightly
  cases ho : mviewImpl lp s ts with
  | abort es => rw [ho] at h1; simp only [Out.Is] at h1; subst h1; rfl
  | _ => rw [ho] at h1; simp only [Out.Is] at h1

/-- C52.  It crashes for the same inputs. -/
theorem nightly_crashed (hl : LexicalToks (eraseToks ts)) (h : ReadsChildren lp callSite ts is cs)
    (hv : verdict (is ++ rootIssues cs) = .crashed) : ∃ p, mviewNightly lp s ts = .panicked p := by
  have h1 := (reading_shows (s := s) hl h).1
  unfold Shows at h1
  rw [hv] at h1
  unfold mviewNightly
  cases ho : mviewImpl lp s ts with
  | panic p => exact ⟨p, rfl⟩
  | _ => rw [ho] at h1; simp only [Out.Is] at h1

omit [Spans σ] in
theorem verdict_stopped_ne {is : List (Issue σ)} {ds : List (LDiag σ)}
    (h : verdict is = .stopped ds) : ds ≠ [] := by
  induction is generalizing ds with
  | nil => simp [verdict] at h
  | cons i is ih =>
    cases i with
    | report d sp =>
      simp only [verdict] at h
      cases hv : verdict is with
      | stopped es => rw [hv] at h; cases h; simp
      | _ => rw [hv] at h; simp [Verdict.add] at h
    | stop d sp => cases h; simp
    | crash => simp [verdict] at h

/-- C52.  Without errors, the feature makes no difference, not even for places. -/
theorem nightly_accepts {out : Toks σ} (hl : LexicalToks (eraseToks ts)) :
    mviewNightly lp s ts = .done [] out ↔ mview lp s ts = .tokens out := by
  obtain ⟨is, cs, h⟩ := reading_exists (lp := lp) hl
  have h1 := (reading_shows (s := s) hl h).1
  unfold Shows at h1
  unfold mviewNightly mview
  cases ho : mviewImpl lp s ts with
  | ret ds o => cases ds <;> simp
  | abort ds =>
    rw [ho] at h1
    cases hv : verdict (is ++ rootIssues cs) with
    | stopped es =>
      rw [hv] at h1
      simp only [Out.Is] at h1
      have := verdict_stopped_ne hv
      simp [h1, this]
    | _ => rw [hv] at h1; simp only [Out.Is] at h1
  | _ => simp

/-- C52.  With errors, the same ones are reported at the same places. -/
theorem nightly_errors {ds : List (LDiag σ)} {t : Toks σ} (h : mview lp s ts = .errors ds t) :
    ∃ out, mviewNightly lp s ts = .done ds out := by
  unfold mviewNightly
  unfold mview at h
  cases ho : mviewImpl lp s ts with
  | ret es o => cases es <;> rw [ho] at h <;> simp at h; exact ⟨o, by rw [h.1]⟩
  | abort es => rw [ho] at h; simp at h; exact ⟨_, by rw [h.1]⟩
  | _ => rw [ho] at h; simp at h

/-! ### examples -/

set_option maxRecDepth 20000

/-- The macro with the feature `nightly` applied to a text. -/
def Source.anyway (s : Source) : NightlyResult Rng := mviewNightly simplePaths (fun _ => []) s.toks

/-- Completion of the name of an attribute whose value is not written yet: the method is where the key is, and
the placeholder where the value should be. -/
example : src!"div val=;".anyway =
    let div : SIdent Rng := ⟨⟨true, c!"div"⟩, .range 0 3⟩
    let key : SIdent Rng := ⟨⟨true, c!"val"⟩, .range 4 7⟩
    let missing := qs! (.range 8 9) "{ ::leptos_mview::MissingValueAfterEq }"
    .done [⟨.missingValue false, .range 8 9⟩]
      qc!"{ #[allow(unused_braces)] ::leptos::prelude::IntoRender::into_render(
        ::leptos::tachys::html::element::#div().#key(#missing)) }" := rfl

/-- An event that is a string is replaced at its place; the unknown modifier is left out, the value stays. -/
example : src!"p on:\"click\":twice={f};".anyway =
    let p : SIdent Rng := ⟨⟨true, c!"p"⟩, .range 0 1⟩
    let on := word c!"on" (.range 2 4)
    let event := word c!"invalid_event" (.range 5 12)
    let value := qs! (.range 20 21) "{ f }"
    .done [⟨.eventNotIdent c!"click", .range 5 12⟩, ⟨.unknownModifier (plain c!"twice"), .range 13 18⟩]
      qc!"{ #[allow(unused_braces)] ::leptos::prelude::IntoRender::into_render(
        ::leptos::tachys::html::element::#p()
          .#on(::leptos::tachys::html::event::#event, #value)) }" := rfl

/-- A slot at the top stops the macro. -/
example : src!"p foo:d; slot:Bar;".anyway = .done [⟨.slotAtTopLevel, .range 14 17⟩] qc!"()" := rfl

end Mview.Loc
