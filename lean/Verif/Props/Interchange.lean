import Verif.Lemmas.Seen
import Verif.Props.Edit
import Verif.Props.Pieces
import Verif.Props.Order
import Verif.Props.SamePage
/-
C80: parts of a view that build the same page are interchangeable.
-/

set_option linter.unusedVariables false

namespace Mview
open Lex

/-- Children without slots have code wherever they are, if they have code at the top. -/
theorem kind_code {cs : List Child} {nodes : List Toks} (h : NodesMean cs nodes) (hn : ∀ c ∈ cs, c.isSlot = false) :
    ∀ k : BlockKind, ∃ t, k.Code cs t := by
  have hs : ∀ {cs : List Child}, (∀ c ∈ cs, c.isSlot = false) → SlotsMean cs [] := by
    intro cs
    induction cs with
    | nil => intro _; simp [SlotsMean]
    | cons c cs ih =>
      intro hn
      have := ih fun c hc => hn c (by simp [hc])
      cases c with
      | value v => simpa only [SlotsMean] using this
      | elem e => simpa only [SlotsMean] using this
      | slot e => have := hn (.slot e) (by simp); simp [Child.isSlot] at this
  have hc : SlotCalls [] [] := ⟨[], List.nodup_nil, by simp, rfl⟩
  intro k
  induction k with
  | element => exact ⟨_, nodes, h, rfl⟩
  | component args clones => exact ⟨_, nodes, [], [], h, hs hn, hc, rfl⟩
  | slot args clones => exact ⟨_, nodes, [], [], h, hs hn, hc, rfl⟩
  | unused k ih => exact ⟨[], ih, rfl⟩
  | ignored => exact ⟨[], rfl⟩

namespace Run

variable {V : Type} {R : Rust V} {pp : PathParser} {s s' : Sched}

/-- Running the code (long enough) builds the page. -/
def Builds (R : Rust V) (out : Toks) (page : List (Dom V)) : Prop := ∃ N, ∀ n ≥ N, run R n out = some page

theorem Builds.unique {out : Toks} {d d' : List (Dom V)} (h : Builds R out d) (h' : Builds R out d') : d = d' := by
  obtain ⟨N, h⟩ := h
  obtain ⟨N', h'⟩ := h'
  have h1 := h (max N N') (by omega)
  have h2 := h' (max N N') (by omega)
  rw [h1] at h2
  exact Option.some.inj h2

/-- C80.  To be the same page (up to the order of slots with different names) is an equivalence. -/
theorem same_page_equivalence : Equivalence (AllSame (V := V)) :=
  ⟨allSame_refl, fun {a b} => allSame_symm a b, fun {a b c} => allSame_trans a b c⟩

/-- What is in the block, put there and on its own. -/
theorem put_shown (hpp : pp.Starts) (hloc : pp.Local) (hfl : pp.FailsLocally) (hR : R.Names)
    {K : BlockGap} {b : Bool} {x : Toks} {P Q : List Issue} {T : TreeGap} (h : BlockAt pp K b x P Q T)
    (hl : LexicalToks (K.fill x)) {y : Toks} (hy : LexicalToks y) (hj : Looked b y [])
    {o : Toks} (ho : mview pp s (K.fill x) = .tokens o)
    {sx sy : Sched} {ox oy : Toks} (hox : mview pp sx x = .tokens ox) (hoy : mview pp sy y = .tokens oy)
    {cx cy : List Child} (hpx : Parses pp x cx) (hpy : Parses pp y cy)
    (hu : AllUsual (T.fill cx)) (huy : AllUsual cy)
    {dx dy : List (Dom V)} (hdx : Builds R ox dx) (hdy : Builds R oy dy) :
    ∃ o' D' D, mview pp s' (K.fill y) = .tokens o' ∧ Builds R o' D' ∧ Builds R o D ∧
      AllShow R (T.fill cy) D' ∧ AllShow R (T.fill cx) D ∧ AllShow R cy dy ∧ AllShow R cx dx ∧
      (∀ c ∈ cy, c.isSlot = false) ∧ ∀ c ∈ cx, c.isSlot = false := by
  have hlx := (h.lexical hl).1
  have hly := (h.lexical hl).2 hy
  obtain ⟨nx, -⟩ := mview_means hpx hox
  obtain ⟨ny, nodes, hny, -⟩ := mview_means hpy hoy
  obtain ⟨jx, hjx, hrx⟩ := block_read h
  have hnil := accepted_issues hl ho (hrx ((reading_parses hlx).mpr hpx))
  simp only [List.append_eq_nil_iff] at hnil
  obtain ⟨rfl, rfl, -, rfl⟩ := hnil
  obtain ⟨h', -⟩ := block_swap hpp hloc hfl h (fun i hi => by cases hi) hjx (fun i hi => by cases hi) hj
  obtain ⟨j', hj', hry⟩ := block_read h'
  cases looked_unique hj hj'
  have hPx : Parses pp (K.fill x) (T.fill cx) := (reading_parses hl).mp (hrx ((reading_parses hlx).mpr hpx))
  have hPy : Parses pp (K.fill y) (T.fill cy) := (reading_parses hly).mp (hry ((reading_parses hy).mpr hpy))
  obtain ⟨around, H⟩ := edit_in_place hpp hloc hfl h hl ho
  obtain ⟨_, G, _, _, hG, _, _⟩ := (H hlx hjx).mp ⟨s, ho⟩
  obtain ⟨code, hcode⟩ := kind_code hny ny T.kind
  obtain ⟨s₀, hs₀⟩ := (H hy hj).mpr ⟨cy, G, code, (reading_parses hy).mpr hpy, hG, hcode, rfl⟩
  obtain ⟨o', ho'⟩ := (order_independent pp s₀ s' (K.fill y)).1 ⟨_, hs₀⟩
  obtain ⟨D, hD, hDr⟩ := run_shows hR hPx ho hu
  obtain ⟨D', hD', hDr'⟩ := run_shows hR hPy ho' (usual_gap huy hu)
  obtain ⟨ex, hex, hexr⟩ := run_shows hR hpx hox (usual_of_gap hu)
  obtain ⟨ey, hey, heyr⟩ := run_shows hR hpy hoy huy
  obtain rfl := hdx.unique hexr
  obtain rfl := hdy.unique heyr
  exact ⟨o', D', D, ho', hDr', hDr, hD', hD, hey, hex, ny, nx⟩

/-- C80.  Take an accepted input with a block of children, at any depth, and let what is in the block be a view of its
own.  Any other view can be put there instead.  If it builds the same page, so does the whole; and the other way round, if
the block can be seen at all; if not, it does not matter what is there. -/
theorem part_page (hpp : pp.Starts) (hloc : pp.Local) (hfl : pp.FailsLocally) (hR : R.Names)
    {K : BlockGap} {b : Bool} {x : Toks} {P Q : List Issue} {T : TreeGap} (h : BlockAt pp K b x P Q T)
    (hl : LexicalToks (K.fill x)) {y : Toks} (hy : LexicalToks y) (hj : Looked b y [])
    {o : Toks} (ho : mview pp s (K.fill x) = .tokens o)
    {sx sy : Sched} {ox oy : Toks} (hox : mview pp sx x = .tokens ox) (hoy : mview pp sy y = .tokens oy)
    {cx cy : List Child} (hpx : Parses pp x cx) (hpy : Parses pp y cy)
    (hu : AllUsual (T.fill cx)) (huy : AllUsual cy)
    {dx dy : List (Dom V)} (hdx : Builds R ox dx) (hdy : Builds R oy dy) :
    ∃ o' D' D, mview pp s' (K.fill y) = .tokens o' ∧ Builds R o' D' ∧ Builds R o D ∧
      (T.Seen false → (AllSame D' D ↔ AllSame dy dx)) ∧ (¬ T.Seen false → AllSame D' D) := by
  obtain ⟨o', D', D, ho', hDr', hDr, hD', hD, hey, hex, ny, nx⟩ :=
    put_shown (s' := s') hpp hloc hfl hR h hl hy hj ho hox hoy hpx hpy hu huy hdx hdy
  refine ⟨o', D', D, ho', hDr', hDr, fun hs => ⟨fun hd => ?_, fun hd => ?_⟩, fun hs => ?_⟩
  · obtain ⟨fy, fx, h1, h2, h3⟩ := tells_gap ny nx T false hs hD' hD hd (fun h => nomatch h)
    exact allSame_trans _ _ _ (allShow_same cy _ _ hey h1) (allSame_trans _ _ _ h3 (allShow_same cx _ _ h2 hex))
  · exact (likeAll_gap (likeAll_of ny nx hey hex hd) T).1 _ _ hD' hD
  · exact (unseen_gap T false hs).1 _ _ hD' hD

/-- C80.  In particular, a view that builds the same page can be put there without any difference. -/
theorem part_replaced (hpp : pp.Starts) (hloc : pp.Local) (hfl : pp.FailsLocally) (hR : R.Names)
    {K : BlockGap} {b : Bool} {x : Toks} {P Q : List Issue} {T : TreeGap} (h : BlockAt pp K b x P Q T)
    (hl : LexicalToks (K.fill x)) {y : Toks} (hy : LexicalToks y) (hj : Looked b y [])
    {o : Toks} (ho : mview pp s (K.fill x) = .tokens o)
    {sx sy : Sched} {ox oy : Toks} (hox : mview pp sx x = .tokens ox) (hoy : mview pp sy y = .tokens oy)
    {cx cy : List Child} (hpx : Parses pp x cx) (hpy : Parses pp y cy)
    (hu : AllUsual (T.fill cx)) (huy : AllUsual cy)
    {dx dy : List (Dom V)} (hdx : Builds R ox dx) (hdy : Builds R oy dy) (hd : AllSame dy dx) :
    ∃ o' D' D, mview pp s' (K.fill y) = .tokens o' ∧ Builds R o' D' ∧ Builds R o D ∧ AllSame D' D := by
  obtain ⟨o', D', D, h1, h2, h3, h4, h5⟩ := part_page (s' := s') hpp hloc hfl hR h hl hy hj ho hox hoy hpx hpy hu huy hdx hdy
  refine ⟨o', D', D, h1, h2, h3, ?_⟩
  by_cases hs : T.Seen false
  · exact (h4 hs).mpr hd
  · exact h5 hs

/-- C80.  Views written one after the other build their pages one after the other. -/
theorem joined_page (hpp : pp.Starts) (hloc : pp.Local) (hR : R.Names) {ta tb : Toks} (hl : LexicalToks (ta ++ tb))
    {sa sb : Sched} {oa ob : Toks} (ha : mview pp sa ta = .tokens oa) (hb : mview pp sb tb = .tokens ob)
    {a b : List Child} (hpa : Parses pp ta a) (hpb : Parses pp tb b) (hua : AllUsual a) (hub : AllUsual b)
    {da db : List (Dom V)} (hda : Builds R oa da) (hdb : Builds R ob db) :
    ∃ o D, mview pp s (ta ++ tb) = .tokens o ∧ Builds R o D ∧ AllSame D (da ++ db) := by
  have hp := (joined_parses hpp hloc hl hpa).mpr ⟨b, hpb, rfl⟩
  obtain ⟨o₁, ho₁⟩ := (order_independent pp sb s tb).1 ⟨_, hb⟩
  obtain ⟨o, ho⟩ := (joined_result (s := s) hpp hloc hl ha).1.mpr ⟨_, ho₁⟩
  obtain ⟨D, hD, hDr⟩ := run_shows hR hp ho (allUsual_append.mpr ⟨hua, hub⟩)
  obtain ⟨ea, hea, hear⟩ := run_shows hR hpa ha hua
  obtain ⟨eb, heb, hebr⟩ := run_shows hR hpb hb hub
  obtain rfl := hda.unique hear
  obtain rfl := hdb.unique hebr
  exact ⟨o, D, ho, hDr, allShow_same _ _ _ hD (allShow_append hea heb)⟩

/-! ### examples -/

set_option maxRecDepth 100000

/-- What `"a"` builds. -/
theorem exampleText {o : Toks} (h : mview simplePaths (fun _ => []) t!"\"a\"" = .tokens o) :
    Builds demo o [.value (.text c!"a")] := by
  obtain ⟨d, hd, hr⟩ := run_shows demo_names (pp := simplePaths) (ts := t!"\"a\"") (root := [.value (.lit (.tok (.str c!"a")))]) rfl h
    (by simp [AllUsual])
  simp only [AllShow] at hd
  obtain ⟨x, rfl, rfl⟩ := hd
  exact hr

/-- Whatever builds the same as `"a"` can be written instead of it in `p { "a" } q;`. -/
example {y : Toks} (hy : LexicalToks y) (hj : Looked true y []) {sy : Sched} {oy : Toks} {cy : List Child}
    (hoy : mview simplePaths sy y = .tokens oy) (hpy : Parses simplePaths y cy) (huy : AllUsual cy)
    (hd : Builds demo oy [.value (.text c!"a")]) :
    ∃ o o' D' D, mview simplePaths (fun _ => []) t!"p { \"a\" } q;" = .tokens o ∧
      mview simplePaths s' ((BlockGap.block t!"p" .brace .here t!"q;").fill y) = .tokens o' ∧
      Builds demo o' D' ∧ Builds demo o D ∧ AllSame D' D := by
  obtain ⟨o', D', D, h⟩ := part_replaced (s := fun _ => []) (s' := s') (sx := fun _ => []) simplePaths_starts
    simplePaths_local simplePaths_failsLocally demo_names exampleEdit (lexical_of rfl) hy hj rfl rfl hoy rfl hpy
    (by simp [TreeGap.fill, asChild, AllUsual, Usual, BlockUsual, tagUsual, attrUsual, Tag.kind]) huy (exampleText rfl) hd
    (allSame_refl _)
  exact ⟨_, o', D', D, rfl, h⟩

/-- One that does so is `{a}`, with what the variable is in the examples, and what is built is the same. -/
example : ranWith (fun _ => []) t!"{a}" = some [.value (.text c!"a")] ∧
    ranWith (fun _ => []) t!"\"a\"" = some [.value (.text c!"a")] ∧
    ranWith (fun _ => []) t!"p { {a} } q;" = ranWith (fun _ => []) t!"p { \"a\" } q;" := ⟨rfl, rfl, rfl⟩

/-- It matters that the part is a view of its own: a slot is nothing in itself, and something in a component. -/
example : ranWith (fun _ => []) t!"A { slot:B; }" = some [.comp t!"A" t!"A" [.slots c!"b" [.slot t!"B" []]] []] ∧
    ranWith (fun _ => []) t!"A { }" = some [.comp t!"A" t!"A" [] []] ∧
    ranWith (fun _ => []) t!"slot:B;" = none := ⟨rfl, rfl, rfl⟩

/-- What is in an element, a component or a slot of it can be seen, but not what is in a slot elsewhere. -/
example (T : Tag) (A : Path) (inner : TreeGap) :
    (TreeGap.elem [] false (.html (plain c!"p")) [] [] none (.elem [] false (.component A) [] [] none
      (.elem [] true T [] [] none .here []) []) []).Seen false ∧
    ¬ (TreeGap.elem [] false (.html (plain c!"p")) [] [] none (.elem [] true T [] [] none inner []) []).Seen false := by
  refine ⟨⟨rfl, trivial⟩, fun h => ?_⟩
  simp [TreeGap.Seen] at h

/-- In `p { "a" } q;` it is seen, so that what builds something else makes a difference. -/
example {y : Toks} (hy : LexicalToks y) (hj : Looked true y []) {sy : Sched} {oy : Toks} {cy : List Child}
    (hoy : mview simplePaths sy y = .tokens oy) (hpy : Parses simplePaths y cy) (huy : AllUsual cy)
    (hd : Builds demo oy []) :
    ∃ o o' D' D, mview simplePaths (fun _ => []) t!"p { \"a\" } q;" = .tokens o ∧
      mview simplePaths s' ((BlockGap.block t!"p" .brace .here t!"q;").fill y) = .tokens o' ∧
      Builds demo o' D' ∧ Builds demo o D ∧ ¬ AllSame D' D := by
  obtain ⟨o', D', D, h1, h2, h3, h4, _⟩ := part_page (s := fun _ => []) (s' := s') (sx := fun _ => []) simplePaths_starts
    simplePaths_local simplePaths_failsLocally demo_names exampleEdit (lexical_of rfl) hy hj rfl rfl hoy rfl hpy
    (by simp [TreeGap.fill, asChild, AllUsual, Usual, BlockUsual, tagUsual, attrUsual, Tag.kind]) huy (exampleText rfl) hd
  refine ⟨_, o', D', D, rfl, h1, h2, h3, fun h => ?_⟩
  have := (h4 trivial).mp h
  cases this

/-- One after the other. -/
example : ranWith (fun _ => []) t!"p { \"a\" } {b}" = some [.elem .html c!"p" [] [.value (.text c!"a")], .value (.text c!"b")] ∧
    ranWith (fun _ => []) t!"p { \"a\" }" = some [.elem .html c!"p" [] [.value (.text c!"a")]] ∧
    ranWith (fun _ => []) t!"{b}" = some [.value (.text c!"b")] := ⟨rfl, rfl, rfl⟩

end Run
end Mview
