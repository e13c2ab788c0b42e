import Verif.Lemmas.SelPage
import Verif.Props.AttrPage
/-
C85: editing the shorthands of an element or component changes the page in one place.
-/

namespace Mview.Run
open Lex

variable {V : Type} {R : Rust V} {pp : PathParser} {s : Sched}

/-- C85.  Take an accepted input with an element or component that can be seen, at any depth.  Then there is one page with
a gap, and in the gap an element or component with gaps for classes and ids, such that whatever shorthands `.a` and `#a`
are written instead of some of its shorthands, what is built is that page with these classes and ids in the gaps. -/
theorem edit_sels_page (hR : R.Names) {T : TreeGap} (hs : T.Seen false) {before after : List Child} {tag : Tag}
    {s1 m s2 : List Selector} {attrs : List Attr} {args : Option Toks} {block : Option (List Child)} {ts o : Toks}
    (hp : Parses pp ts (T.fill (before ++ .elem (.mk tag (s1 ++ m ++ s2) attrs args block) :: after)))
    (ho : mview pp s ts = .tokens o)
    (hu : AllUsual (T.fill (before ++ .elem (.mk tag (s1 ++ m ++ s2) attrs args block) :: after))) :
    ∃ (G : PageGap V) (d1 d2 : List (Dom V)) (N : SelGap V),
      Builds R o (G.fill (d1 ++ N.fill R (m.flatMap Selector.addsClass) (m.flatMap Selector.addsId) :: d2)) ∧
      ∀ {m' : List Selector} {ts' : Toks},
        Parses pp ts' (T.fill (before ++ .elem (.mk tag (s1 ++ m' ++ s2) attrs args block) :: after)) →
        AllUsual (T.fill (before ++ .elem (.mk tag (s1 ++ m' ++ s2) attrs args block) :: after)) →
        ∀ {s' : Sched} {o' : Toks}, mview pp s' ts' = .tokens o' →
        ∃ D', Builds R o' D' ∧
          AllSame D' (G.fill (d1 ++ N.fill R (m'.flatMap Selector.addsClass) (m'.flatMap Selector.addsId) :: d2)) := by
  obtain ⟨D, hD, hDr⟩ := run_shows hR hp ho hu
  obtain ⟨G, d1, d2, N, rfl, hG⟩ := sels_page hs hD
  refine ⟨G, d1, d2, N, hDr, fun {m' ts'} hp' hu' {s' o'} ho' => ?_⟩
  obtain ⟨D', hD', hDr'⟩ := run_shows hR hp' ho' hu'
  exact ⟨D', hDr', allShow_same _ _ _ hD' (hG m')⟩

/-- C85 for the tag: another element instead of an element, or another component instead of a component, changes its name
and nothing else. -/
theorem edit_tag_page (hR : R.Names) {T : TreeGap} (hs : T.Seen false) {before after : List Child} {tag : Tag}
    {sels : List Selector} {attrs : List Attr} {args : Option Toks} {block : Option (List Child)} {ts o : Toks}
    (hp : Parses pp ts (T.fill (before ++ .elem (.mk tag sels attrs args block) :: after)))
    (ho : mview pp s ts = .tokens o)
    (hu : AllUsual (T.fill (before ++ .elem (.mk tag sels attrs args block) :: after))) :
    ∃ (G : PageGap V) (d1 d2 : List (Dom V)) (N : TagGap V),
      (∃ d, N.Filled tag d ∧ Builds R o (G.fill (d1 ++ d :: d2))) ∧
      ∀ {tag' : Tag} {ts' : Toks}, tag.isPath = tag'.isPath →
        Parses pp ts' (T.fill (before ++ .elem (.mk tag' sels attrs args block) :: after)) →
        AllUsual (T.fill (before ++ .elem (.mk tag' sels attrs args block) :: after)) →
        ∀ {s' : Sched} {o' : Toks}, mview pp s' ts' = .tokens o' →
        ∃ d' D', N.Filled tag' d' ∧ Builds R o' D' ∧ AllSame D' (G.fill (d1 ++ d' :: d2)) := by
  obtain ⟨D, hD, hDr⟩ := run_shows hR hp ho hu
  obtain ⟨G, d1, d2, d, hd, rfl, hG⟩ := one_page hs hD
  obtain ⟨N, hN, hN'⟩ := tag_gap hd
  refine ⟨G, d1, d2, N, ⟨d, hN, hDr⟩, fun {tag' ts'} hk hp' hu' {s' o'} ho' => ?_⟩
  obtain ⟨D', hD', hDr'⟩ := run_shows hR hp' ho' hu'
  obtain ⟨_, _, _, x, hx, -, -⟩ := one_page hs hD'
  obtain ⟨d', hd'⟩ := tag_filled hN hx hk
  exact ⟨d', D', hd', hDr', allShow_same _ _ _ hD' (hG _ _ (hN' _ _ hd'))⟩

/-- C85 for closure parameters. -/
theorem edit_args_page (hR : R.Names) {T : TreeGap} (hs : T.Seen false) {before after : List Child} {tag : Tag}
    {sels : List Selector} {attrs : List Attr} {args : Option Toks} {block : Option (List Child)} {ts o : Toks}
    (hp : Parses pp ts (T.fill (before ++ .elem (.mk tag sels attrs args block) :: after)))
    (ho : mview pp s ts = .tokens o)
    (hu : AllUsual (T.fill (before ++ .elem (.mk tag sels attrs args block) :: after))) :
    ∃ (G : PageGap V) (d1 d2 : List (Dom V)) (N : ArgsGap V), Builds R o (G.fill (d1 ++ N.fill args :: d2)) ∧
      ∀ {args' : Option Toks} {ts' : Toks},
        Parses pp ts' (T.fill (before ++ .elem (.mk tag sels attrs args' block) :: after)) →
        AllUsual (T.fill (before ++ .elem (.mk tag sels attrs args' block) :: after)) →
        ∀ {s' : Sched} {o' : Toks}, mview pp s' ts' = .tokens o' →
        ∃ D', Builds R o' D' ∧ AllSame D' (G.fill (d1 ++ N.fill args' :: d2)) := by
  obtain ⟨D, hD, hDr⟩ := run_shows hR hp ho hu
  obtain ⟨G, d1, d2, d, hd, rfl, hG⟩ := one_page hs hD
  obtain ⟨N, rfl, hN⟩ := args_gap hd
  refine ⟨G, d1, d2, N, hDr, fun {args' ts'} hp' hu' {s' o'} ho' => ?_⟩
  obtain ⟨D', hD', hDr'⟩ := run_shows hR hp' ho' hu'
  exact ⟨D', hDr', allShow_same _ _ _ hD' (hG _ _ (hN args'))⟩

/-! ### examples -/

set_option maxRecDepth 100000

/-- The page of `p.a .. #k title={t} { "x" }`. -/
def exampleSelPage : SelGap Shown :=
  .elem .html c!"p" [.attr c!"title" (.text c!"t")] [c!"a"] [] [] [c!"k"] [] [.value (.text c!"x")]

example : ranWith (fun _ => []) t!"p.a #k title={t} { \"x\" }" = some [exampleSelPage.fill demo [] []] ∧
    ranWith (fun _ => []) t!"p.a .b-c #h .d #k title={t} { \"x\" }" =
      some [exampleSelPage.fill demo [c!"b-c", c!"d"] [c!"h"]] := ⟨rfl, rfl⟩

/-- On a component the ids are in one attribute, which is not there without any. -/
def exampleSelComp : SelGap Shown := .comp t!"Foo" t!"Foo" [.prop c!"a" (.text c!"u")] [] [] [] [] []
example : ranWith (fun _ => []) t!"Foo a={u};" = some [exampleSelComp.fill demo [] []] ∧
    ranWith (fun _ => []) t!"Foo #h .d #k a={u};" = some [exampleSelComp.fill demo [c!"d"] [c!"h", c!"k"]] ∧
    exampleSelComp.fill demo [c!"d"] [c!"h", c!"k"] = .comp t!"Foo" t!"Foo" [.prop c!"a" (.text c!"u")]
      [.clsIf (.text c!"d") (.bool true), .attr c!"id" (.text c!"h k")] := ⟨rfl, rfl, rfl⟩

/-- For all shorthands at once. -/
example : ∃ (G : PageGap Shown) (d1 d2 : List (Dom Shown)) (N : SelGap Shown),
    ∀ {m' : List Selector} {ts' : Toks},
      Parses simplePaths ts' [.elem (.mk (.html ⟨true, c!"p"⟩) [] [] none
        (some [.elem (.mk (.html ⟨true, c!"i"⟩) (.cls ⟨c!"a", 1⟩ :: m') [] none none)]))] →
      ∀ {s' : Sched} {o' : Toks}, mview simplePaths s' ts' = .tokens o' →
      ∃ D', Builds demo o' D' ∧
        AllSame D' (G.fill (d1 ++ N.fill demo (m'.flatMap Selector.addsClass) (m'.flatMap Selector.addsId) :: d2)) := by
  obtain ⟨G, d1, d2, N, -, h⟩ := edit_sels_page (R := demo) (pp := simplePaths) (s := fun _ => []) demo_names
    (T := .elem [] false (.html ⟨true, c!"p"⟩) [] [] none .here []) trivial (before := []) (after := [])
    (tag := .html ⟨true, c!"i"⟩) (s1 := [.cls ⟨c!"a", 1⟩]) (m := []) (s2 := []) (attrs := []) (args := none)
    (block := none) (ts := t!"p { i.a; }") rfl rfl
    (by simp [TreeGap.fill, asChild, AllUsual, Usual, BlockUsual, tagUsual, Tag.kind])
  refine ⟨G, d1, d2, N, fun {m' ts'} hp {s' o'} ho => h (m' := m') (ts' := ts') ?_ ?_ ho⟩
  · simpa [TreeGap.fill, asChild] using hp
  · simp [TreeGap.fill, asChild, AllUsual, Usual, BlockUsual, tagUsual, Tag.kind]

/-- Tags: elements of all sorts, and components. -/
example : ∀ d, (TagGap.elem (V := Shown) [] []).Filled (.svg ⟨true, c!"circle"⟩) d ↔ d = .elem .svg c!"circle" [] [] := by
  intro d
  simp only [TagGap.Filled, shape, Option.some.injEq, Prod.mk.injEq]
  exact ⟨fun ⟨_, _, ⟨rfl, rfl⟩, h⟩ => h, fun h => ⟨_, _, ⟨rfl, rfl⟩, h⟩⟩
example : ranWith (fun _ => []) t!"p a={u} { \"x\" }" =
      some [.elem .html c!"p" [.attr c!"a" (.text c!"u")] [.value (.text c!"x")]] ∧
    ranWith (fun _ => []) t!"my-tag a={u} { \"x\" }" =
      some [.elem .custom c!"my-tag" [.attr c!"a" (.text c!"u")] [.value (.text c!"x")]] := ⟨rfl, rfl⟩

/-- Closure parameters are for the children. -/
def exampleArgs : ArgsGap Shown := .comp t!"Foo" t!"Foo" [] [] (.value (.text c!"x")) [] [] []
example : ranWith (fun _ => []) t!"Foo { \"x\" }" = some [exampleArgs.fill none] ∧
    ranWith (fun _ => []) t!"Foo |a, b| { \"x\" }" = some [exampleArgs.fill (some t!"|a, b|")] ∧
    ranWith (fun _ => []) t!"Foo |a| { }" = ranWith (fun _ => []) t!"Foo { }" := ⟨rfl, rfl, rfl⟩

end Mview.Run
