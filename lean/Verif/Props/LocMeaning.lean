import Verif.Lemmas.LocMeaningRoot
import Verif.Props.Located
import Verif.Props.LocReads
import Verif.Props.Whole
/-
C43: where every token of the expansion is placed.
-/

-- the linter does not see variables used inside `qs!` and `qc!`
set_option linter.unusedVariables false

namespace Mview.Loc
open Lexer

variable {σ : Type} [Spans σ] {pp : Mview.PathParser} {lp : PathParser σ pp} {s : Sched}
  {ts out : Toks σ} {root : List (Child σ)}

/-- The parser accepts `ts` without any diagnostic and reads it as `root`. -/
def Parses (lp : PathParser σ pp) (ts : Toks σ) (root : List (Child σ)) : Prop :=
  parseChildren lp ts = .ret [] (.ok root [])

theorem Parses.erase (h : Parses lp ts root) : Mview.Parses pp (eraseToks ts) (eraseChildren root) := by
  unfold Mview.Parses
  rw [← parseChildren_erase lp ts, h]
  rfl

theorem Parses.ok (h : Parses lp ts root) : childrenOk (anyInput pp) (eraseChildren root) :=
  parses_ok h.erase

theorem Parses.unique {r r' : List (Child σ)} (h : Parses lp ts r) (h' : Parses lp ts r') : r = r' := by
  unfold Parses at h h'
  rw [h] at h'
  simpa using h'

theorem mview_tokens_iff :
    mview lp s ts = .tokens out ↔ ∃ root, Parses lp ts root ∧ expandRoot s root = .ret [] out := by
  constructor
  · intro h
    have he := mview_erase lp s ts
    rw [h] at he
    obtain ⟨root', hp, _⟩ := Mview.mview_tokens_iff.mp he.symm
    unfold Mview.Parses at hp
    rw [← parseChildren_erase lp ts] at hp
    unfold mview mviewImpl at h
    rw [Out.monad_bind] at h
    unfold Parses
    cases hq : parseChildren lp ts with
    | ret ds q =>
      rw [hq] at hp h
      simp only [Out.erase, Mview.Out.ret.injEq, List.map_eq_nil_iff] at hp
      obtain ⟨rfl, hp⟩ := hp
      cases q with
      | err e r => simp [PR.erase] at hp
      | ok cs r =>
        simp only [PR.erase, Mview.PR.ok.injEq] at hp
        have hr : r = [] := by
          cases r with
          | nil => rfl
          | cons t ts => simp at hp
        subst hr
        refine ⟨cs, rfl, ?_⟩
        simp only [Out.bind] at h
        cases hx : expandRoot s cs with
        | ret es o =>
          rw [hx] at h
          cases es <;> simp [Out.tell] at h
          rw [h]
        | _ => rw [hx] at h; simp [Out.tell] at h
    | _ => rw [hq] at hp; simp [Out.erase] at hp
  · rintro ⟨root, h1, h2⟩
    unfold mview mviewImpl
    rw [h1, Out.monad_bind]
    simp [Out.bind, h2, Out.tell]

/-- C43.  Whenever the macro returns tokens, they are the code which the tree of the input stands
for, and each of them is placed where that code says. -/
theorem placed_sound (h : mview lp s ts = .tokens out) : ∃ root, Parses lp ts root ∧ RootMeans root out := by
  obtain ⟨root, h1, h2⟩ := mview_tokens_iff.mp h
  exact ⟨root, h1, expandRoot_sound h1.ok h2⟩

/-- C43.  Conversely, the located code which the tree of an accepted input stands for is the
expansion, for some iteration order of the hash maps. -/
theorem placed_complete (h : Parses lp ts root) (hm : RootMeans root out) :
    ∃ s, mview lp s ts = .tokens out := by
  obtain ⟨s, hs⟩ := expandRoot_complete h.ok hm
  exact ⟨s, mview_tokens_iff.mpr ⟨root, h, hs⟩⟩

/-- The tokens returned for an accepted input are what its tree stands for. -/
theorem placed_means (hp : Parses lp ts root) (h : mview lp s ts = .tokens out) : RootMeans root out := by
  obtain ⟨root', h1, h2⟩ := placed_sound h
  rwa [hp.unique h1]

/-- C43.  Without the places this is the meaning of `Spec/Meaning.lean`. -/
theorem placed_erases (hp : Parses lp ts root) (h : RootMeans root out) :
    Mview.RootMeans (eraseChildren root) (eraseToks out) := by
  obtain ⟨s, hs⟩ := placed_complete hp h
  have he := mview_erase lp s ts
  rw [hs] at he
  exact mview_means hp.erase he.symm

/-- C43.  All code without places that the tree stands for arises in this way. -/
theorem placed_covers {t : Mview.Toks} (hp : Parses lp ts root)
    (h : Mview.RootMeans (eraseChildren root) t) : ∃ out, RootMeans root out ∧ eraseToks out = t := by
  obtain ⟨s, hs⟩ := mview_complete hp.erase h
  rw [← mview_erase lp s ts] at hs
  cases hm : mview lp s ts with
  | tokens out =>
    rw [hm] at hs
    simp only [MacroResult.erase, Mview.MacroResult.tokens.injEq] at hs
    exact ⟨out, placed_means hp hm, hs⟩
  | _ => rw [hm] at hs; simp [MacroResult.erase] at hs

/-! ### without the parser -/

omit [Spans σ] in
theorem verdict_none {is : List (Issue σ)} : verdict is = .errors [] ↔ is = [] := by
  cases is with
  | nil => simp [verdict]
  | cons i is =>
    cases i with
    | report d => simp only [verdict]; cases verdict is <;> simp [Verdict.add]
    | stop d => simp [verdict]
    | crash => simp [verdict]

/-- The inputs the parser accepts as they are, are those that have a reading without issues. -/
theorem reading_parses (hl : LexicalToks (eraseToks ts)) :
    ReadsChildren lp callSite ts [] root ↔ Parses lp ts root := by
  constructor
  · intro h
    have hg := reading_given hl h
    have h1 := hg.1
    unfold Shows at h1
    unfold Parses
    generalize parseChildren lp ts = o at *
    cases o with
    | ret ds q =>
      simp only [verdict, Out.Is] at h1
      rw [h1, hg.2 _ _ rfl]
    | _ => simp [verdict, Out.Is] at h1
  · intro h
    obtain ⟨is, cs', h'⟩ := reading_exists (lp := lp) hl
    have hg := reading_given hl h'
    rw [h] at hg
    have h2 := hg.2 _ _ rfl
    simp only [PR.ok.injEq, and_true] at h2
    have h1 := hg.1
    unfold Shows at h1
    have : verdict is = .errors [] := by
      generalize verdict is = v at h1
      cases v <;> simp only [Out.Is] at h1
      rw [h1]
    rw [verdict_none] at this
    subst this h2
    exact h'

/-- C43.  The expansions of an input, with the places of all tokens, are exactly what the trees stand for
as which it can be read without issues. -/
theorem expansion_iff (hl : LexicalToks (eraseToks ts)) :
    (∃ s, mview lp s ts = .tokens out) ↔
      ∃ root, ReadsChildren lp callSite ts [] root ∧ RootMeans root out := by
  constructor
  · rintro ⟨s, h⟩
    obtain ⟨root, h1, h2⟩ := placed_sound h
    exact ⟨root, (reading_parses hl).mpr h1, h2⟩
  · rintro ⟨root, h1, h2⟩
    exact placed_complete ((reading_parses hl).mp h1) h2

/-! ### examples -/

set_option maxRecDepth 20000

/-- An element: its name, the key of its attribute and its value are where they are written.  The class
is called where the dot is; the method for the child is where the child is. -/
example : src!"div.a x={y} { \"t\" }".run =
    let div : SIdent Rng := ⟨⟨true, c!"div"⟩, .range 0 3⟩
    let class_ := word c!"class" (.range 3 4)
    let hover := word c!"__x" (.range 4 5)
    let key : SIdent Rng := ⟨⟨true, c!"x"⟩, .range 6 7⟩
    let value := qs! (.range 9 10) "{ y }"
    let child := word c!"child" (.range 14 17)
    let text : SStr Rng := ⟨c!"t", .range 14 17⟩
    .tokens qc!"{ #[allow(unused_braces)] ::leptos::prelude::IntoRender::into_render(
      ::leptos::tachys::html::element::#div()
        .#key(#value)
        .#class_(({ let #hover = (); \"a\" }, true))
        .#child(::leptos::prelude::IntoRender::into_render(#text))) }" := rfl

/-- A component: the builder and `.build()` are where its name is, the call for an attribute where the whole
attribute is.  The closure of the children is where the first child is, the view in it at the call site. -/
example : src!"Abc x=[y] { \"t\" z; }".run =
    let name := word c!"Abc" (.range 0 3)
    let value := qs! (.range 6 9) "move ||"
    let code := qs! (.range 7 8) "y"
    let body : Toks Rng := [.group .brace code (.single (.range 6 9))]
    let x : SIdent Rng := ⟨⟨true, c!"x"⟩, .range 4 5⟩
    let build := qs! (.range 0 3) ".build()"
    let builder := qs! (.range 0 3) "::leptos::component::component_props_builder(&#name)"
    let prop := qs! (.range 4 9) ".#x(#value #body)"
    let children := word c!"children" (.range 12 15)
    let text : SStr Rng := ⟨c!"t", .range 12 15⟩
    let z : SIdent Rng := ⟨⟨true, c!"z"⟩, .range 16 17⟩
    let view := qc!"::leptos::prelude::View::new((
        ::leptos::prelude::IntoRender::into_render(#text),
        ::leptos::prelude::IntoRender::into_render(::leptos::tachys::html::element::#z()),))"
    let closure := qs! (.range 12 15) "move || #view"
    .tokens qc!"{ #[allow(unused_braces)] ::leptos::prelude::IntoRender::into_render(
      #[allow(unreachable_code)] ::leptos::prelude::View::new(
        ::leptos::component::component_view(&#name, #builder #prop
          .#children({ ::leptos::children::ToChildren::to_children(#closure) })
          #build).add_any_attr(()))) }" := rfl

/-- With arguments the closure and the view are where these are. -/
example : src!"Abc |x| { {x} }".run =
    let name := word c!"Abc" (.range 0 3)
    let build := qs! (.range 0 3) ".build()"
    let builder := qs! (.range 0 3) "::leptos::component::component_props_builder(&#name)"
    let children := word c!"children" (.range 10 13)
    let args : Toks Rng := [.punct '|' .alone (.range 4 5), .ident (plain c!"x") (.range 5 6),
      .punct '|' .alone (.range 6 7)]
    let value := qs! (.range 11 12) "{ x }"
    let child := qc!"::leptos::prelude::IntoRender::into_render(#value)"
    let closure := qs! (.range 4 7) "move #args ::leptos::prelude::View::new((#child,))"
    .tokens qc!"{ #[allow(unused_braces)] ::leptos::prelude::IntoRender::into_render(
      #[allow(unreachable_code)] ::leptos::prelude::View::new(
        ::leptos::component::component_view(&#name, #builder
          .#children({ #closure })
          #build).add_any_attr(()))) }" := rfl

/-- On stable Rust a name of several sections is where its first section is. -/
example : let ts : Toks Stable := [.ident (plain c!"p") ⟨.range 0 1⟩, .ident (plain c!"aria") ⟨.range 2 6⟩,
      .punct '-' .alone ⟨.range 6 7⟩, .ident (plain c!"b") ⟨.range 7 8⟩, .punct '=' .alone ⟨.range 8 9⟩,
      .lit (.int c!"1") ⟨.range 9 10⟩, .punct ';' .alone ⟨.range 10 11⟩]
    let p : SIdent Stable := ⟨⟨true, c!"p"⟩, ⟨.range 0 1⟩⟩
    let key : SIdent Stable := ⟨⟨true, c!"aria_b"⟩, ⟨.range 2 6⟩⟩
    let one : Toks Stable := [.lit (.int c!"1") ⟨.range 9 10⟩]
    mview simplePaths (fun _ => []) ts =
    .tokens qc!"{ #[allow(unused_braces)] ::leptos::prelude::IntoRender::into_render(
      ::leptos::tachys::html::element::#p().#key(#one)) }" := rfl

end Mview.Loc
