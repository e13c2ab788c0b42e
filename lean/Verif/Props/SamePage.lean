import Verif.Lemmas.SamePage
import Verif.Props.Fewer
import Verif.Props.Longhand
/-
C78: what a page is depends only on the tree of the view, except for the order of slots.
-/

namespace Mview.Run
open Lex

variable {V : Type} {R : Rust V} {pp pp' : PathParser} {s s' : Sched} {ts ts' out out' : Toks} {root : List Child}

/-- C78.  Inputs that are read as the same tree build the same page, whatever the order of the hash sets; only slots
with different names may be passed in another order. -/
theorem tree_page (hR : R.Names) (hp : Parses pp ts root) (hp' : Parses pp' ts' root) (hu : AllUsual root)
    (h : mview pp s ts = .tokens out) (h' : mview pp' s' ts' = .tokens out') :
    ∃ ds' ds, (∃ N, ∀ n ≥ N, run R n out' = some ds') ∧ (∃ N, ∀ n ≥ N, run R n out = some ds) ∧ AllSame ds' ds := by
  obtain ⟨ds, hd, hr⟩ := run_shows hR hp h hu
  obtain ⟨ds', hd', hr'⟩ := run_shows hR hp' h' hu
  exact ⟨ds', ds, hr', hr, allShow_same root ds' ds hd' hd⟩

/-- C78.  In particular for one input and two orders of the hash sets; the second expansion is accepted if the first
is. -/
theorem tree_page_sched (hR : R.Names) (hp : Parses pp ts root) (hu : AllUsual root)
    (h : mview pp s ts = .tokens out) : ∃ out' ds' ds, mview pp s' ts = .tokens out' ∧
      (∃ N, ∀ n ≥ N, run R n out' = some ds') ∧ (∃ N, ∀ n ≥ N, run R n out = some ds) ∧ AllSame ds' ds := by
  obtain ⟨out', h'⟩ : ∃ out', mview pp s' ts = .tokens out' := by
    obtain h := (mview_tokens hp).mp ⟨out, h⟩
    exact (mview_tokens hp).mpr ((accepted_iff_threads (s' := s) hp).mpr
      ((accepted_iff_threads (s' := s) hp).mp h))
  obtain ⟨ds', ds, hr⟩ := tree_page hR hp hp hu h h'
  exact ⟨out', ds', ds, h', hr⟩

/-- C78.  If no component has slots with different names, it is exactly the same. -/
theorem tree_page_exactly (hR : R.Names) (hp : Parses pp ts root) (hp' : Parses pp' ts' root) (hu : AllUsual root)
    (hn : AllSimple root) (h : mview pp s ts = .tokens out) (h' : mview pp' s' ts' = .tokens out') :
    ∃ ds, (∃ N, ∀ n ≥ N, run R n out' = some ds) ∧ ∃ N, ∀ n ≥ N, run R n out = some ds := by
  obtain ⟨ds, hd, hr⟩ := run_shows hR hp h hu
  exact ⟨ds, run_exactly hR hp' h' hu hn hd, hr⟩

/-- C78.  Also for inputs of which one abbreviates what the other spells out (C59). -/
theorem longhand_page {root' : List Child} (hR : R.Names) (hR' : R.Plain) (hp : Parses pp ts root)
    (hp' : Parses pp ts' root') (he : longhand root = longhand root') (hu : AllUsual root)
    (h : mview pp s ts = .tokens out) (h' : mview pp s' ts' = .tokens out') :
    ∃ ds' ds, (∃ N, ∀ n ≥ N, run R n out' = some ds') ∧ (∃ N, ∀ n ≥ N, run R n out = some ds) ∧ AllSame ds' ds := by
  obtain ⟨ds, hd, hr⟩ := run_shows hR hp h hu
  obtain ⟨ds', hd', hr'⟩ := same_shown hR hR' hp hp' he hu h'
  exact ⟨ds', ds, hr', hr, allShow_same root ds' ds hd' hd⟩

/-! ### examples -/

/-- Expands with some order and runs. -/
def ranWith (s : Sched) (ts : Toks) : Option (List (Dom Shown)) :=
  match mview simplePaths s ts with
  | .tokens out => run demo 10 out
  | _ => none

set_option maxRecDepth 100000

/-- The order of the slots differs. -/
example : ranWith (fun _ => []) t!"If { slot:Then { \"a\" } slot:Else; }" =
      some [.comp t!"If" t!"If" [.slots c!"then" [.slot t!"Then" [.children none [] [.value (.text c!"a")]]],
        .slots c!"else" [.slot t!"Else" []]] []] ∧
    ranWith (fun _ => [1]) t!"If { slot:Then { \"a\" } slot:Else; }" =
      some [.comp t!"If" t!"If" [.slots c!"else" [.slot t!"Else" []],
        .slots c!"then" [.slot t!"Then" [.children none [] [.value (.text c!"a")]]]] []] := ⟨rfl, rfl⟩

/-- Two ways to write a view. -/
example : ∃ root, Parses simplePaths t!"Tab x { p(\"a\") slot:Head; slot:Foot; }" root ∧
    Parses simplePaths t!"Tab x=true ( p { \"a\" } slot : Head; slot : Foot; )" root ∧ AllUsual root := by
  refine ⟨_, rfl, rfl, ?_⟩
  simp [AllUsual, Usual, BlockUsual, tagUsual, propUsual, entryUsual, slotUsual, attrUsual, Unchecked, Tag.kind,
    builderMethods, dashToUnderscore]
  exact ⟨⟨fun _ h => by cases h; exact ⟨by decide, by decide⟩, fun _ h => by cases h; exact ⟨by decide, by decide⟩⟩,
    by decide, by decide⟩

/-- That is all that may differ: not the order of properties, nor that of children. -/
example : ¬ AllSame (V := Shown) [.comp t!"A" t!"A" [.prop c!"a" (.bool true), .prop c!"b" (.bool true)] []]
    [.comp t!"A" t!"A" [.prop c!"b" (.bool true), .prop c!"a" (.bool true)] []] := by
  intro h
  cases h with
  | cons hd h =>
    generalize he : (Dom.comp t!"A" t!"A" [.prop c!"b" (.bool true), .prop c!"a" (.bool true)] [] : Dom Shown) = d at hd
    cases hd with
    | comp hp ho hs =>
      rename_i front slots slots'
      injection he with _ _ he _
      have hn : slots = [] := by
        cases slots with
        | nil => rfl
        | cons p ps =>
          have h1 : p ∈ [Part.prop c!"b" (Shown.bool true), .prop c!"a" (.bool true)] := by rw [he]; simp
          have h2 := hs p (by simp)
          simp only [List.mem_cons, List.not_mem_nil, or_false] at h1
          rcases h1 with rfl | rfl <;> cases h2
      subst hn
      rw [List.append_nil] at he
      obtain rfl := List.perm_nil.mp ho
      rw [List.append_nil, ← he] at hp
      cases hp with
      | cons hp _ => cases hp
example : ¬ AllSame (V := Shown) [.value (.text c!"a"), .value (.text c!"b")] [.value (.text c!"b"), .value (.text c!"a")] := by
  intro h
  cases h with
  | cons hd h => cases hd

end Mview.Run
