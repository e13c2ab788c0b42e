import Verif.Lemmas.Run
import Verif.Props.Whole
import Verif.Model.Lex
import Verif.Lemmas.SimplePaths
/-
C58: running the expansion gives the elements, attributes, listeners and children that were written.
-/

-- the linter does not see variables used inside `q!"..."`
set_option linter.unusedVariables false

namespace Mview.Run
open Lex

variable {V : Type} {R : Rust V} {pp : PathParser} {s : Sched} {ts out : Toks} {root : List Child}

/-- C58.  Whatever values are, running the expansion gives what the tree shows. -/
theorem run_shows (hR : R.Names) (hp : Parses pp ts root) (h : mview pp s ts = .tokens out) (hu : AllUsual root) :
    ∃ ds, AllShow R root ds ∧ ∃ N, ∀ n ≥ N, run R n out = some ds :=
  root_runs hR (mview_means hp h) hu

mutual
/-- The slots of a component have all the same name, if it has any. -/
def Simple : Element → Prop
  | .mk _ _ _ _ block => BlockSimple block
def BlockSimple : Option (List Child) → Prop
  | none => True
  | some cs => AllSimple cs ∧ ∀ e e', .slot e ∈ cs → .slot e' ∈ cs → e.tag = e'.tag
def AllSimple : List Child → Prop
  | [] => True
  | .value _ :: cs => AllSimple cs
  | .elem e :: cs => Simple e ∧ AllSimple cs
  | .slot e :: cs => Simple e ∧ AllSimple cs
end

theorem grouped_unique {slots : List (Ident × Dom V)} {gs gs' : List (Part V)}
    (hs : ∀ p ∈ slots, ∀ q ∈ slots, p.1 = q.1) (h : Grouped slots gs) (h' : Grouped slots gs') : gs = gs' := by
  obtain ⟨names, h1, h2, rfl⟩ := h
  obtain ⟨names', h1', h2', rfl⟩ := h'
  have key : ∀ names : List Ident, names.Nodup → (∀ n, n ∈ names ↔ n ∈ slots.map Prod.fst) →
      names = (slots.map Prod.fst).take 1 := by
    intro names hn hm
    have heq : ∀ a ∈ names, ∀ b ∈ names, a = b := by
      intro a ha b hb
      obtain ⟨p, hp, rfl⟩ := List.mem_map.mp ((hm a).mp ha)
      obtain ⟨q, hq, rfl⟩ := List.mem_map.mp ((hm b).mp hb)
      exact hs p hp q hq
    match names, hn, hm, heq with
    | [], _, hm, _ =>
      cases slots with
      | nil => rfl
      | cons p ps => exact absurd ((hm p.1).mpr (by simp)) (by simp)
    | [a], _, hm, _ =>
      cases slots with
      | nil => exact absurd ((hm a).mp (by simp)) (by simp)
      | cons p ps =>
        have := (hm p.1).mpr (by simp)
        simp only [List.mem_singleton] at this
        simp [this]
    | a :: b :: _, hn, _, heq =>
      have := heq a (by simp) b (by simp)
      subst this
      simp at hn
  rw [key names h1 h2, key names' h1' h2']

theorem slotsShow_names : ∀ (cs : List Child) (ds : List (Ident × Dom V)), SlotsShow R cs ds →
    ∀ p ∈ ds, ∃ e, .slot e ∈ cs ∧ e.tag = .component ⟨false, [⟨p.1, .none⟩]⟩
  | [], ds, h => by simp only [SlotsShow] at h; subst h; simp
  | .value v :: cs, ds, h => by
    simp only [SlotsShow] at h
    intro p hp
    obtain ⟨e, h1, h2⟩ := slotsShow_names cs ds h p hp
    exact ⟨e, by simp [h1], h2⟩
  | .elem e :: cs, ds, h => by
    simp only [SlotsShow] at h
    intro p hp
    obtain ⟨e, h1, h2⟩ := slotsShow_names cs ds h p hp
    exact ⟨e, by simp [h1], h2⟩
  | .slot e :: cs, ds, h => by
    simp only [SlotsShow] at h
    obtain ⟨name, d, ds', h1, _, h3, rfl⟩ := h
    intro p hp
    rcases List.mem_cons.mp hp with rfl | hp
    · exact ⟨e, by simp, h1⟩
    · obtain ⟨e, h1, h2⟩ := slotsShow_names cs ds' h3 p hp
      exact ⟨e, by simp [h1], h2⟩

theorem slots_alike {block : Option (List Child)} {ds : List (Ident × Dom V)} (hs : BlockSimple block)
    (h : BlockSlots R block ds) : ∀ p ∈ ds, ∀ q ∈ ds, p.1 = q.1 := by
  cases block with
  | none => simp only [BlockSlots] at h; subst h; simp
  | some cs =>
    simp only [BlockSlots, BlockSimple] at h hs
    intro p hp q hq
    obtain ⟨e, h1, h2⟩ := slotsShow_names cs ds h p hp
    obtain ⟨e', h1', h2'⟩ := slotsShow_names cs ds h q hq
    have := hs.2 e e' h1 h1'
    rw [h2, h2'] at this
    simpa using this

mutual
theorem shows_unique : ∀ (e : Element) (d d' : Dom V), Simple e → Shows R e d → Shows R e d' → d = d'
  | .mk tag sels attrs args block, d, d', hn, h, h' => by
    simp only [Simple] at hn
    by_cases hp : ∃ p, tag = .component p
    · obtain ⟨p, rfl⟩ := hp
      simp only [Shows] at h h'
      obtain ⟨path, ls, ds, slots, gs, a1, a2, a3, a4, a5, rfl⟩ := h
      obtain ⟨path', ls', ds', slots', gs', b1, b2, b3, b4, b5, rfl⟩ := h'
      rw [a1] at b1; cases b1
      rw [a2] at b2; cases b2
      rw [blockShows_unique block ds ds' hn a3 b3]
      have := blockSlots_unique block slots slots' hn a4 b4
      subst this
      rw [grouped_unique (slots_alike hn a4) a5 b5]
    · have key : ∀ d, Shows R (.mk tag sels attrs args block) d → ∃ space name ls ds, shape tag = some (space, name) ∧
          looks R sels attrs = some ls ∧ BlockShows R block ds ∧ d = .elem space name ls ds := by
        intro d h
        cases tag <;> first | exact absurd ⟨_, rfl⟩ hp | (simp only [Shows] at h; exact h)
      obtain ⟨sp, nm, ls, ds, a1, a2, a3, rfl⟩ := key d h
      obtain ⟨sp', nm', ls', ds', b1, b2, b3, rfl⟩ := key d' h'
      rw [a1] at b1; cases b1
      rw [a2] at b2; cases b2
      rw [blockShows_unique block ds ds' hn a3 b3]
theorem slotShows_unique (name : Ident) : ∀ (e : Element) (d d' : Dom V), Simple e → SlotShows R e name d →
    SlotShows R e name d' → d = d'
  | .mk tag sels attrs args block, d, d', hn, h, h' => by
    simp only [Simple] at hn
    simp only [SlotShows] at h h'
    obtain ⟨ds, h1, rfl⟩ := h
    obtain ⟨ds', h1', rfl⟩ := h'
    rw [blockShows_unique block ds ds' hn h1 h1']
theorem blockShows_unique : ∀ (b : Option (List Child)) (ds ds' : List (Dom V)), BlockSimple b → BlockShows R b ds →
    BlockShows R b ds' → ds = ds'
  | none, ds, ds', _, h, h' => by simp only [BlockShows] at h h'; rw [h, h']
  | some cs, ds, ds', hn, h, h' => by
    simp only [BlockShows, BlockSimple] at h h' hn
    exact allShow_unique cs ds ds' hn.1 h h'
theorem blockSlots_unique : ∀ (b : Option (List Child)) (ds ds' : List (Ident × Dom V)), BlockSimple b → BlockSlots R b ds →
    BlockSlots R b ds' → ds = ds'
  | none, ds, ds', _, h, h' => by simp only [BlockSlots] at h h'; rw [h, h']
  | some cs, ds, ds', hn, h, h' => by
    simp only [BlockSlots, BlockSimple] at h h' hn
    exact slotsShow_unique cs ds ds' hn.1 h h'
theorem allShow_unique : ∀ (cs : List Child) (ds ds' : List (Dom V)), AllSimple cs → AllShow R cs ds →
    AllShow R cs ds' → ds = ds'
  | [], ds, ds', _, h, h' => by simp only [AllShow] at h h'; rw [h, h']
  | .value v :: cs, ds, ds', hn, h, h' => by
    simp only [AllShow, AllSimple] at h h' hn
    obtain ⟨x, h1, rfl⟩ := h
    obtain ⟨y, h2, rfl⟩ := h'
    rw [allShow_unique cs x y hn h1 h2]
  | .elem e :: cs, ds, ds', hn, h, h' => by
    simp only [AllShow, AllSimple] at h h' hn
    obtain ⟨d, x, h1, h2, rfl⟩ := h
    obtain ⟨d', y, h1', h2', rfl⟩ := h'
    rw [shows_unique e d d' hn.1 h1 h1', allShow_unique cs x y hn.2 h2 h2']
  | .slot e :: cs, ds, ds', hn, h, h' => by
    simp only [AllShow, AllSimple] at h h' hn
    exact allShow_unique cs ds ds' hn.2 h h'
theorem slotsShow_unique : ∀ (cs : List Child) (ds ds' : List (Ident × Dom V)), AllSimple cs → SlotsShow R cs ds →
    SlotsShow R cs ds' → ds = ds'
  | [], ds, ds', _, h, h' => by simp only [SlotsShow] at h h'; rw [h, h']
  | .value v :: cs, ds, ds', hn, h, h' => by
    simp only [SlotsShow, AllSimple] at h h' hn
    exact slotsShow_unique cs ds ds' hn h h'
  | .elem e :: cs, ds, ds', hn, h, h' => by
    simp only [SlotsShow, AllSimple] at h h' hn
    exact slotsShow_unique cs ds ds' hn.2 h h'
  | .slot e :: cs, ds, ds', hn, h, h' => by
    simp only [SlotsShow, AllSimple] at h h' hn
    obtain ⟨n, d, x, h1, h2, h3, rfl⟩ := h
    obtain ⟨n', d', y, h1', h2', h3', rfl⟩ := h'
    rw [h1] at h1'
    cases h1'
    rw [slotShows_unique n e d d' hn.1 h2 h2', slotsShow_unique cs x y hn.2 h3 h3']
end

/-- The tree determines what is seen, if no component has slots with different names (these are passed in any order). -/
theorem run_exactly (hR : R.Names) (hp : Parses pp ts root) (h : mview pp s ts = .tokens out) (hu : AllUsual root)
    (hn : AllSimple root) {ds : List (Dom V)} (hd : AllShow R root ds) : ∃ N, ∀ n ≥ N, run R n out = some ds := by
  obtain ⟨ds', h1, h2⟩ := run_shows hR hp h hu
  rwa [allShow_unique root ds ds' hn hd h1]

/-! ### pages -/

/-- Values of the examples: text, or whether something is there. -/
inductive Shown where
  | text (s : Str)
  | bool (b : Bool)
  deriving DecidableEq

/-- The text of a literal. -/
def litText : Lit → Str
  | .str s => s
  | .int s => s
  | .float s => s
  | .other s => s

/-- A literal, or one of a few variables. -/
def tokText : Option TT → Shown
  | some (.lit l) => .text (litText l)
  | some (.ident i) =>
    if i.name ∈ [c!"yes", c!"true"] then .bool true else if i.name ∈ [c!"no", c!"false"] then .bool false else .text i.name
  | _ => .text []

/-- The last token of a block is its value, or that of what is in parentheses. -/
def blockText (code : Toks) : Shown :=
  match code.getLast? with
  | some (.group .paren inner) => tokText inner.getLast?
  | t => tokText t

/-- What the variables of the examples are. -/
def demo : Rust Shown where
  lit l := .text (litText l)
  bool := .bool
  block := blockText
  lazy := blockText
  format code := tokText code.getLast?

theorem demo_names : demo.Names := by
  intro n name
  simp [demo, blockText, tokText, litText]

/-- What `leptos` renders between the tags of an element: attributes in order, then the classes, then the styles. -/
def attrText : List (Look Shown) → Str
  | [] => []
  | .attr name (.text s) :: ls => c!" " ++ name ++ c!"=\"" ++ s ++ c!"\"" ++ attrText ls
  | .attr name (.bool true) :: ls => c!" " ++ name ++ attrText ls
  | _ :: ls => attrText ls

def classText : List (Look Shown) → List Str
  | [] => []
  | .cls (.text s) :: ls => s :: classText ls
  | .clsIf (.text s) (.bool b) :: ls => (if b then s else []) :: classText ls
  | _ :: ls => classText ls

def styleText : List (Look Shown) → List Str
  | [] => []
  | .style (.text s) :: ls => (s ++ c!";") :: styleText ls
  | .styleOf (.text k) (.text s) :: ls => (k ++ c!":" ++ s ++ c!";") :: styleText ls
  | _ :: ls => styleText ls

/-- Spaces around are dropped. -/
def trimmed (s : Str) : Str := ((s.dropWhile (· = ' ')).reverse.dropWhile (· = ' ')).reverse

def quoted (name : Str) (parts : List Str) (sep : Str) : Str :=
  if parts = [] then [] else c!" " ++ name ++ c!"=\"" ++ trimmed (sep.intercalate parts) ++ c!"\""

/-- Elements without children. -/
def voids : List Str := [c!"br", c!"input", c!"img", c!"hr"]

mutual
def html : Dom Shown → Str
  | .value (.text s) => s
  | .value (.bool b) => if b then c!"true" else c!"false"
  | .elem _ name ls ds =>
    c!"<" ++ name ++ attrText ls ++ quoted c!"class" (classText ls) c!" " ++ quoted c!"style" (styleText ls) [] ++ c!">" ++
      (if name ∈ voids then [] else htmls ds ++ c!"</" ++ name ++ c!">")
  | .comp _ _ _ _ => c!"(component)"
  | .slot _ _ => []
def htmls : List (Dom Shown) → Str
  | [] => []
  | d :: ds => html d ++ htmls ds
end

/-- Expands, runs and renders. -/
def page (ts : Toks) : Option Str :=
  match mview simplePaths (fun _ => []) ts with
  | .tokens out => (run demo 10 out).map htmls
  | _ => none

set_option maxRecDepth 100000

-- tests/html.rs:24
example : page t!"div { \"hi\" }" = some c!"<div>hi</div>" := rfl

-- tests/html.rs:42
example : page t!"\"hi\" span class=\"abc\" data-index={0} { strong { \"d\" } {3} } br; input type=\"checkbox\" checked;" =
    some c!"hi<span data-index=\"0\" class=\"abc\"><strong>d</strong>3</span><br><input type=\"checkbox\" checked>" := rfl

-- tests/html.rs:70, 75
example : page t!"span class:exist=true class=\"dont override\";" = some c!"<span class=\"dont override exist\"></span>" := rfl
example : page t!"span style:color=\"black\" style=\"font-size: 1em;\";" =
    some c!"<span style=\"font-size: 1em;;color:black;\"></span>" := rfl

-- tests/html.rs:86
example : page t!"div class:here={yes} style:color={white} class:not={no} class:also-here=true class=\"normal\"
      style=\"line-height: 1.5;\" style:background-color=\"red\";" =
    some c!"<div class=\"normal here  also-here\" style=\"line-height: 1.5;;color:white;background-color:red;\"></div>" := rfl

-- tests/html.rs:106
example : page t!"div class:\"complex[class]-name\"={yes} style:\"doesn't-exist\"=\"black\" class:\"not-here\"=false;" =
    some c!"<div class=\"complex[class]-name\" style=\"doesn't-exist:black;\"></div>" := rfl

-- tests/html.rs:131
example : page t!"iconify-icon icon=\"a\" class=\"something\" { \"b\" }" =
    some c!"<iconify-icon icon=\"a\" class=\"something\">b</iconify-icon>" := rfl

-- tests/paren_children.rs:10
example : page t!"strong(\"child\") \"go\" em(\"to\" a href=\"#\" (\"nowhere\"))" =
    some c!"<strong>child</strong>go<em>to<a href=\"#\">nowhere</a></em>" := rfl

-- the class and the id of selectors
example : page t!"div.a.b-c #d;" = some c!"<div id=\"d\" class=\"a b-c\"></div>" := rfl

/-- Expands and runs. -/
def ran (ts : Toks) : Option (List (Dom Shown)) :=
  match mview simplePaths (fun _ => []) ts with
  | .tokens out => run demo 10 out
  | _ => none

-- what is passed to a component
example : ran t!"Tab<A, B>.a #b class:c on:click:undelegated={f} {..d} my-prop={e} clone:g |h| { p { \"i\" } {j} }" =
    some [.comp t!"Tab:: <A, B>" t!"Tab:: <A, B>"
      [.prop c!"my_prop" (.text c!"e"),
       .children (some t!"|h|") [c!"g"] [.elem .html c!"p" [] [.value (.text c!"i")], .value (.text c!"j")]]
      [.clsIf (.text c!"a") (.bool true), .attr c!"id" (.text c!"b"), .clsIf (.text c!"c") (.bool true),
       .on c!"click" true (.text c!"f"), .spread t!"d"]] := rfl

-- slots
example : ran t!"If { slot:Then { \"a\" } slot:ElseIf cond={b}; slot:ElseIf cond={c} { \"d\" } }" =
    some [.comp t!"If" t!"If"
      [.slots c!"then" [.slot t!"Then" [.children none [] [.value (.text c!"a")]]],
       .slots c!"else_if" [.slot t!"ElseIf" [.prop c!"cond" (.text c!"b")],
         .slot t!"ElseIf" [.prop c!"cond" (.text c!"c"), .children none [] [.value (.text c!"d")]]]] []] := rfl

/-- The hypotheses hold for ordinary input. -/
example : ∃ root, Parses simplePaths t!"div.a class:b={x} data-n={1} on:click={f} use:g { p aria-label=\"c\" { \"d\" } {e} }" root ∧
    AllUsual root ∧ AllSimple root :=
  ⟨_, rfl, by
    simp [AllUsual, Usual, BlockUsual, tagUsual, kvs, directives, attrUsual, directiveUsual, Unchecked, Tag.kind,
      builderMethods, dashToUnderscore], by simp [AllSimple, Simple, BlockSimple]⟩

example : ∃ root, Parses simplePaths t!"Tab.a class:b on:click={f} my-prop={1} clone:c |h| { p; slot:Head d={2} { \"e\" } }" root ∧
    AllUsual root ∧ AllSimple root :=
  ⟨_, rfl, by
    simp [AllUsual, Usual, BlockUsual, tagUsual, propUsual, entryUsual, slotUsual, kvs, directives, attrUsual,
      directiveUsual, Unchecked, Tag.kind, builderMethods, dashToUnderscore]
    exact ⟨⟨fun _ h => by cases h; exact ⟨by decide, by decide⟩, by decide, by decide⟩, by decide, by decide⟩,
    by simp [AllSimple, Simple, BlockSimple]⟩

/-! ### why names have to be usual -/

-- attributes called like a method of elements that does something else
example : page t!"div child=\"a\";" = none := rfl
-- a directive without a value is an incomplete tuple
example : page t!"div class:a;" = none := rfl
-- there is an element `custom`, as far as the macro is concerned; it is not that of `custom(..)`
example : page t!"custom;" = none := rfl
-- a property that is called like the method that ends the properties
example : ran t!"Tab build={a};" = none := rfl
-- one spread that becomes two
example : ran t!"Tab {..a, b};" = some [.comp t!"Tab" t!"Tab" [] [.spread t!"a", .spread t!"b"]] := rfl

end Mview.Run
