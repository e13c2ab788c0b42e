import Verif.Lemmas.PageGap
import Verif.Props.Template
/-
C82: editing the children of an element changes the page in one place.
-/

namespace Mview.Run
open Lex

variable {V : Type} {R : Rust V} {pp : PathParser} {s s' : Sched}

/-- C82.  Take an accepted input with a block of children that can be seen, at any depth, and let what is in the block be
a view of its own.  Then there is one page with a gap such that whatever other view is put in the block, what is built is
that page with the page of the other view in the gap. -/
theorem edit_page (hpp : pp.Starts) (hloc : pp.Local) (hfl : pp.FailsLocally) (hR : R.Names)
    {K : BlockGap} {b : Bool} {x : Toks} {P Q : List Issue} {T : TreeGap} (h : BlockAt pp K b x P Q T) (hs : T.Seen false)
    (hl : LexicalToks (K.fill x)) {o : Toks} (ho : mview pp s (K.fill x) = .tokens o)
    {sx : Sched} {ox : Toks} (hox : mview pp sx x = .tokens ox) {cx : List Child} (hpx : Parses pp x cx)
    (hu : AllUsual (T.fill cx)) :
    ∃ G : PageGap V, ∀ {y : Toks}, LexicalToks y → Looked b y [] → ∀ {sy : Sched} {oy : Toks}, mview pp sy y = .tokens oy →
      ∀ {cy : List Child}, Parses pp y cy → AllUsual cy → ∀ (s' : Sched) {dy : List (Dom V)}, Builds R oy dy →
      ∃ o' D', mview pp s' (K.fill y) = .tokens o' ∧ Builds R o' D' ∧ AllSame D' (G.fill dy) := by
  have hlx := (h.lexical hl).1
  obtain ⟨nx, -⟩ := mview_means hpx hox
  obtain ⟨jx, hjx, hrx⟩ := block_read h
  have hPx : ∀ {c}, Parses pp x c → ReadsChildren pp (K.fill x) _ (T.fill c) := fun hp => hrx ((reading_parses hlx).mpr hp)
  have hnil := accepted_issues hl ho (hPx hpx)
  have hPx' : Parses pp (K.fill x) (T.fill cx) := (reading_parses hl).mp (hnil ▸ hPx hpx)
  obtain ⟨D, hD, hDr⟩ := run_shows hR hPx' ho hu
  obtain ⟨dx, hdx, hdxr⟩ := run_shows hR hpx hox (usual_of_gap hu)
  obtain ⟨G, -, -, -, hG⟩ := gap_page nx T hs hD
  refine ⟨G, fun {y} hy hj {sy oy} hoy {cy} hpy huy s' {dy} hdy => ?_⟩
  obtain ⟨o', D', _, ho', hDr', -, hD', -, hey, -, ny, -⟩ :=
    put_shown (s' := s') hpp hloc hfl hR h hl hy hj ho hox hoy hpx hpy hu huy hdxr hdy
  exact ⟨o', D', ho', hDr', allShow_same _ _ _ hD' (hG cy dy ny hey)⟩

/-! ### examples -/

set_option maxRecDepth 100000

/-- The page of `p { .. } q;`. -/
def examplePage : PageGap Shown := .elem [] .html c!"p" [] .here [.elem .html c!"q" [] []]

/-- What is put there is in the gap. -/
example : ranWith (fun _ => []) t!"p { \"a\" } q;" = some (examplePage.fill [.value (.text c!"a")]) ∧
    ranWith (fun _ => []) t!"p { } q;" = some (examplePage.fill []) ∧
    ranWith (fun _ => []) t!"p { {b} i { \"c\" } } q;" =
      some (examplePage.fill [.value (.text c!"b"), .elem .html c!"i" [] [.value (.text c!"c")]]) := ⟨rfl, rfl, rfl⟩

/-- For all views at once. -/
example : ∃ G : PageGap Shown, ∀ {y : Toks}, LexicalToks y → Looked true y [] → ∀ {sy : Sched} {oy : Toks},
    mview simplePaths sy y = .tokens oy → ∀ {cy : List Child}, Parses simplePaths y cy → AllUsual cy → ∀ (s' : Sched)
    {dy : List (Dom Shown)}, Builds demo oy dy → ∃ o' D',
      mview simplePaths s' ((BlockGap.block t!"p" .brace .here t!"q;").fill y) = .tokens o' ∧ Builds demo o' D' ∧
      AllSame D' (G.fill dy) :=
  edit_page (s := fun _ => []) (sx := fun _ => []) simplePaths_starts simplePaths_local simplePaths_failsLocally demo_names
    exampleEdit trivial (lexical_of rfl) rfl rfl rfl
    (by simp [TreeGap.fill, asChild, AllUsual, Usual, BlockUsual, tagUsual, attrUsual, Tag.kind])

/-- In a slot of a component: no children are passed if there are none. -/
def exampleSlotPage : PageGap Shown :=
  .slot [] t!"If" t!"If" [.prop c!"when" (.text c!"w")] c!"then" [] t!"Then" [] none [] .here []
    [.slots c!"else" [.slot t!"Else" []]] [] []
example : ranWith (fun _ => []) t!"If when={w} { slot:Then { \"a\" } slot:Else; }" =
      some (exampleSlotPage.fill [.value (.text c!"a")]) ∧
    ranWith (fun _ => []) t!"If when={w} { slot:Then { } slot:Else; }" = some (exampleSlotPage.fill []) := ⟨rfl, rfl⟩

end Mview.Run
