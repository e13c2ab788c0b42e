import Verif.Lemmas.NightlyCount
import Verif.Props.Count
import Verif.Props.Size
/-
C54: the code written by the user appears at most once in what is generated, in spite of errors.
-/

namespace Mview
open Lex

variable {pp : PathParser} {s : Sched} {ts out : Toks} {is : List Issue} {cs : List Child} {ds : List Diag}

theorem foreign_lit {l : Lit} (hl : ∀ x, l ≠ .str x) : Foreign (fun x => if x = Leaf.lit l then 1 else 0) :=
  ⟨by simp, by simp, fun x => by simp [Ne.symm (hl x)]⟩

theorem rare_lit {l : Lit} (hl : l.Special) : Rare (fun x => if x = Leaf.lit l then 1 else 0) := by
  cases l <;> first | exact hl.elim | exact ⟨⟨by simp, by simp, by simp⟩, by simp, by simp⟩

/-- C54.  With the feature `nightly`, whatever is wrong with the input: a literal that is not a string appears in
what is generated at most as often as in the code of the tree that is read, and twice for each time it is among the
generic arguments of components. -/
theorem nightly_literals_twice {l : Lit} (hl : LexicalToks ts) (hr : ReadsChildren pp ts is cs)
    (h : mviewNightly pp s ts = .done ds out) (hs : ∀ x, l ≠ .str x) :
    occ (.lit l) out ≤ occ (.lit l) (childrenCode cs) + 2 * occ (.lit l) (childrenGenerics cs) := by
  cases hv : verdict (is ++ rootIssues cs) with
  | errors es =>
    obtain ⟨out', ho, hb⟩ := nightly_sound (s := s) hl hr hv
    rw [ho] at h
    cases h
    exact root_weight (foreign_lit hs) hb
  | stopped es =>
    rw [nightly_stopped (s := s) hl hr hv] at h
    cases h
    exact Nat.zero_le _
  | crashed =>
    obtain ⟨p, ho⟩ := nightly_crashed (s := s) hl hr hv
    rw [ho] at h
    cases h

/-- C54.  Without such arguments, at most as often as in the code. -/
theorem nightly_literals_once {l : Lit} (hl : LexicalToks ts) (hr : ReadsChildren pp ts is cs)
    (h : mviewNightly pp s ts = .done ds out) (hs : ∀ x, l ≠ .str x)
    (hg : occ (.lit l) (childrenGenerics cs) = 0) : occ (.lit l) out ≤ occ (.lit l) (childrenCode cs) := by
  have := nightly_literals_twice hl hr h hs
  omega

/-- C54.  With the feature `nightly`, whatever is wrong with the input: a literal other than a string or number
appears in what is generated at most as often as in the input (unless it is in the path of a component, which is
repeated). -/
theorem nightly_specials_once {l : Lit} (hl : LexicalToks ts) (hr : ReadsChildren pp ts is cs)
    (h : mviewNightly pp s ts = .done ds out) (hs : l.Special)
    (hg : occ (.lit l) (childrenGenerics cs) = 0) : occ (.lit l) out ≤ occ (.lit l) ts :=
  Nat.le_trans (nightly_literals_once hl hr h (by rintro x rfl; exact hs) hg)
    (children_weight (rare_lit hs) hr)

/-- C54.  Without that feature, likewise. -/
theorem specials_at_most_once {l : Lit} (hl : LexicalToks ts) (hr : ReadsChildren pp ts is cs)
    (h : mview pp s ts = .tokens out) (hs : l.Special)
    (hg : occ (.lit l) (childrenGenerics cs) = 0) : occ (.lit l) out ≤ occ (.lit l) ts :=
  nightly_specials_once hl hr ((nightly_accepts hl).mpr h) hs hg

/-! ### an example -/

set_option maxRecDepth 20000 in
/-- A missing value, a literal that must not be a child, semicolons too many, an element without an end and
something that is no child: the code that is kept is there once; the literal is dropped, and so is what follows the
point where reading ends. -/
example : ∃ ds out,
    mviewNightly simplePaths (fun _ => [])
      t!"Show when=[a('1')] class:x={b('2')} {..c('3')} x= |d| { {e('4')} '5'; } ;
         div y={f('6')} y={g('7')} z [h('8')] ? {k('9')}" = .done ds out ∧ ds.length = 7 ∧
    occ (.lit (.other c!"'1'")) out = 1 ∧ occ (.lit (.other c!"'2'")) out = 1 ∧
    occ (.lit (.other c!"'3'")) out = 1 ∧ occ (.lit (.other c!"'4'")) out = 1 ∧
    occ (.lit (.other c!"'5'")) out = 0 ∧ occ (.lit (.other c!"'6'")) out = 1 ∧
    occ (.lit (.other c!"'7'")) out = 1 ∧ occ (.lit (.other c!"'8'")) out = 1 ∧
    occ (.lit (.other c!"'9'")) out = 0 :=
  ⟨_, _, rfl, rfl, rfl, rfl, rfl, rfl, rfl, rfl, rfl, rfl, rfl⟩

set_option maxRecDepth 20000 in
/-- With generic arguments: twice, also in spite of an error. -/
example : ∃ ds out, mviewNightly simplePaths (fun _ => []) t!"Foo<'1'> { Bar<'2'> y={'2'}; } ;" = .done ds out ∧
    ds.length = 1 ∧ occ (.lit (.other c!"'1'")) out = 2 ∧ occ (.lit (.other c!"'2'")) out = 3 :=
  ⟨_, _, rfl, rfl, rfl, rfl⟩

end Mview
