import Verif.Lemmas.AttrPage
import Verif.Props.PageGap
/-
C84: editing the attributes of an element or component changes the page in one place.
-/

namespace Mview.Run
open Lex

variable {V : Type} {R : Rust V} {pp : PathParser} {s : Sched}

/-- C84.  Take an accepted input with an element or component that can be seen, at any depth.  Then there is one page with
a gap, and in the gap an element or component with a gap for attributes, such that whatever attributes are written instead
of some of its attributes, what is built is that page with what these attributes add, in that place. -/
theorem edit_attrs_page (hR : R.Names) {T : TreeGap} (hs : T.Seen false) {before after : List Child} {tag : Tag}
    {sels : List Selector} {a1 m a2 : List Attr} {args : Option Toks} {block : Option (List Child)} {ts o : Toks}
    (hp : Parses pp ts (T.fill (before ++ .elem (.mk tag sels (a1 ++ m ++ a2) args block) :: after)))
    (ho : mview pp s ts = .tokens o)
    (hu : AllUsual (T.fill (before ++ .elem (.mk tag sels (a1 ++ m ++ a2) args block) :: after))) :
    ∃ (G : PageGap V) (d1 d2 : List (Dom V)) (N : NodeGap V),
      (∃ x, addAll R tag m = some x ∧ Builds R o (G.fill (d1 ++ N.fill x :: d2))) ∧
      ∀ {m' : List Attr} {ts' : Toks},
        Parses pp ts' (T.fill (before ++ .elem (.mk tag sels (a1 ++ m' ++ a2) args block) :: after)) →
        AllUsual (T.fill (before ++ .elem (.mk tag sels (a1 ++ m' ++ a2) args block) :: after)) →
        ∀ {s' : Sched} {o' : Toks}, mview pp s' ts' = .tokens o' →
        ∃ x' D', addAll R tag m' = some x' ∧ Builds R o' D' ∧ AllSame D' (G.fill (d1 ++ N.fill x' :: d2)) := by
  obtain ⟨D, hD, hDr⟩ := run_shows hR hp ho hu
  obtain ⟨G, d1, d2, N, ⟨x, hx, rfl⟩, hG⟩ := attrs_page hs hD
  refine ⟨G, d1, d2, N, ⟨x, hx, hDr⟩, fun {m' ts'} hp' hu' {s' o'} ho' => ?_⟩
  obtain ⟨D', hD', hDr'⟩ := run_shows hR hp' ho' hu'
  obtain ⟨_, _, _, _, ⟨x', hx', -⟩, -⟩ := attrs_page hs hD'
  exact ⟨x', D', hx', hDr', allShow_same _ _ _ hD' (hG m' x' hx')⟩

/-- C84 for a slot of a component: there is one place for properties and one for cloned variables. -/
theorem edit_slot_attrs_page (hR : R.Names) {T : TreeGap} (hs : T.Seen false) {before after : List Child} {p : Path}
    {sels : List Selector} {attrs : List Attr} {args : Option Toks} {c1 c2 : List Child} {tag : Tag}
    {ssels : List Selector} {a1 m a2 : List Attr} {sargs : Option Toks} {block : Option (List Child)} {ts o : Toks}
    (hp : Parses pp ts (T.fill (before ++ .elem (.mk (.component p) sels attrs args
      (some (c1 ++ .slot (.mk tag ssels (a1 ++ m ++ a2) sargs block) :: c2))) :: after)))
    (ho : mview pp s ts = .tokens o)
    (hu : AllUsual (T.fill (before ++ .elem (.mk (.component p) sels attrs args
      (some (c1 ++ .slot (.mk tag ssels (a1 ++ m ++ a2) sargs block) :: c2))) :: after))) :
    ∃ (G : PageGap V) (d1 d2 : List (Dom V)) (N : SlotGap V),
      Builds R o (G.fill (d1 ++ N.fill (m.map (addsSlot R)) :: d2)) ∧
      ∀ {m' : List Attr} {ts' : Toks},
        Parses pp ts' (T.fill (before ++ .elem (.mk (.component p) sels attrs args
          (some (c1 ++ .slot (.mk tag ssels (a1 ++ m' ++ a2) sargs block) :: c2))) :: after)) →
        AllUsual (T.fill (before ++ .elem (.mk (.component p) sels attrs args
          (some (c1 ++ .slot (.mk tag ssels (a1 ++ m' ++ a2) sargs block) :: c2))) :: after)) →
        ∀ {s' : Sched} {o' : Toks}, mview pp s' ts' = .tokens o' →
        ∃ D', Builds R o' D' ∧ AllSame D' (G.fill (d1 ++ N.fill (m'.map (addsSlot R)) :: d2)) := by
  obtain ⟨D, hD, hDr⟩ := run_shows hR hp ho hu
  obtain ⟨G, d1, d2, N, rfl, hG⟩ := slot_attrs_page hs hD
  refine ⟨G, d1, d2, N, hDr, fun {m' ts'} hp' hu' {s' o'} ho' => ?_⟩
  obtain ⟨D', hD', hDr'⟩ := run_shows hR hp' ho' hu'
  exact ⟨D', hDr', allShow_same _ _ _ hD' (hG m')⟩

/-! ### examples -/

set_option maxRecDepth 100000

/-- The page of `p class="a" .. hidden { "x" } q;`, with attributes in between. -/
def exampleAttrPage : NodeGap Shown :=
  .elem .html c!"p" { attrs := [.cls (.text c!"a")] } { attrs := [.attr c!"hidden" (.bool true)] } []
    [.value (.text c!"x")]

/-- Directives and spreads are not where plain attributes are. -/
example : ranWith (fun _ => []) t!"p class=\"a\" hidden { \"x\" } q;" =
      some [exampleAttrPage.fill {}, .elem .html c!"q" [] []] ∧
    ranWith (fun _ => []) t!"p class=\"a\" on:click={f} title={t} {..r} hidden { \"x\" } q;" =
      some [exampleAttrPage.fill ⟨[.attr c!"title" (.text c!"t")], [.on c!"click" false (.text c!"f")], [.spread t!"r"],
        [], [], []⟩, .elem .html c!"q" [] []] := ⟨rfl, rfl⟩

/-- What they add is what is said by themselves. -/
example : addAll demo (.html ⟨true, c!"p"⟩) [.kv ⟨⟨c!"title", 1⟩, .block t!"t"⟩, .spread t!"r"] =
    some { attrs := [.attr c!"title" (.text c!"t")], spreads := [.spread t!"r"] } := rfl

/-- A component: properties, cloned variables and what is set on its elements. -/
def exampleCompPage : NodeGap Shown :=
  .comp t!"Foo" t!"Foo" { props := [.prop c!"a" (.text c!"u")] } { clones := [c!"k"] }
    [.clsIf (.text c!"b") (.bool true)] none [.value (.text c!"x")] []
example : ranWith (fun _ => []) t!"Foo.b a={u} clone:k { \"x\" }" = some [exampleCompPage.fill {}] ∧
    ranWith (fun _ => []) t!"Foo.b a={u} {..r} clone:h c={v} class:d={w} clone:k { \"x\" }" =
      some [exampleCompPage.fill ⟨[], [], [], [.prop c!"c" (.text c!"v")], [c!"h"],
        [.spread t!"r", .clsIf (.text c!"d") (.text c!"w")]⟩] := ⟨rfl, rfl⟩

/-- The tree of `Foo { slot:Bar; i a={u} ..; "x" }`. -/
def exampleSlotted (m : List Attr) : List Child :=
  [.elem (.mk (.component ⟨false, [⟨⟨false, c!"Foo"⟩, .none⟩]⟩) [] [] none (some
    [.slot (.mk (.component ⟨false, [⟨⟨false, c!"Bar"⟩, .none⟩]⟩) [] [] none none),
      .elem (.mk (.html ⟨true, c!"i"⟩) [] (.kv ⟨⟨c!"a", 1⟩, .block t!"u"⟩ :: m) none none),
      .value (.lit (.tok (.str c!"x")))]))]

/-- For all attributes at once, of an element next to a slot. -/
example : ∃ (G : PageGap Shown) (d1 d2 : List (Dom Shown)) (N : NodeGap Shown),
    ∀ {m' : List Attr} {ts' : Toks}, Parses simplePaths ts' (exampleSlotted m') → AllUsual (exampleSlotted m') →
      ∀ {s' : Sched} {o' : Toks}, mview simplePaths s' ts' = .tokens o' →
      ∃ x' D', addAll demo (.html ⟨true, c!"i"⟩) m' = some x' ∧ Builds demo o' D' ∧
        AllSame D' (G.fill (d1 ++ N.fill x' :: d2)) := by
  obtain ⟨G, d1, d2, N, -, h⟩ := edit_attrs_page (R := demo) (pp := simplePaths) (s := fun _ => []) demo_names
    (T := .elem [] false (.component ⟨false, [⟨⟨false, c!"Foo"⟩, .none⟩]⟩) [] [] none .here []) trivial
    (before := [.slot (.mk (.component ⟨false, [⟨⟨false, c!"Bar"⟩, .none⟩]⟩) [] [] none none)])
    (after := [.value (.lit (.tok (.str c!"x")))]) (tag := .html ⟨true, c!"i"⟩) (sels := [])
    (a1 := [.kv ⟨⟨c!"a", 1⟩, .block t!"u"⟩]) (m := []) (a2 := []) (args := none) (block := none)
    (ts := t!"Foo { slot:Bar; i a={u}; \"x\" }") rfl rfl
    (by simp [TreeGap.fill, asChild, AllUsual, Usual, BlockUsual, tagUsual, attrUsual, slotUsual, Element.tag, Tag.kind]; decide)
  refine ⟨G, d1, d2, N, fun {m' ts'} hp hu {s' o'} ho => h (m' := m') (ts' := ts') ?_ ?_ ho⟩
  · simpa [TreeGap.fill, asChild, exampleSlotted] using hp
  · simpa [TreeGap.fill, asChild, exampleSlotted] using hu

/-- A slot of a component. -/
def exampleSlotAttrs : SlotGap Shown :=
  ⟨t!"If", t!"If", [], c!"then", [], t!"Then", [.prop c!"a" (.text c!"u")], [], none, [], [c!"k"],
    [.value (.text c!"x")], [], [], []⟩
example : ranWith (fun _ => []) t!"If { slot:Then a={u} clone:k { \"x\" } }" = some [exampleSlotAttrs.fill []] ∧
    ranWith (fun _ => []) t!"If { slot:Then a={u} clone:h b-c={v} clone:k { \"x\" } }" =
      some [exampleSlotAttrs.fill [([], [c!"h"]), ([.prop c!"b_c" (.text c!"v")], [])]] := ⟨rfl, rfl⟩

end Mview.Run
