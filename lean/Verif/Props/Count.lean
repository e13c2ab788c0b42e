import Verif.Lemmas.Count
import Verif.Lemmas.Twice
import Verif.Props.Grammar
import Verif.Lemmas.Context
/-
C10: the code written by the user appears exactly once in the expansion.
-/

namespace Mview
open Lex

variable {pp : PathParser} {s : Sched} {ts out : Toks} {root : List Child} {cs : List CChild}

/-- C10.  The expansion of a tree has the tokens of the expansion of the tree without any code in it,
and those of the code: each token of the code exactly once, unless the code is dropped. -/
theorem user_code_once (hp : Parses pp ts root) (h : mview pp s ts = .tokens out) :
    ∃ frame, RootMeans (childrenBlank root) frame ∧
      ∀ m, occ m out + occ m (childrenDropped false root) = occ m frame + occ m (childrenCode root) := by
  obtain ⟨t, h1, h2⟩ := root_fill (mview_means hp h)
  exact ⟨t, h1, fun m => h2 _⟩

/-- C10.  A literal that is not a string appears as often as in the code: the macro does not come up
with any itself. -/
theorem literals_once {l : Lit} (hp : Parses pp ts root) (h : mview pp s ts = .tokens out)
    (hl : ∀ x, l ≠ .str x) (hg : occ (.lit l) (childrenGenerics root) = 0) :
    occ (.lit l) out + occ (.lit l) (childrenDropped false root) = occ (.lit l) (childrenCode root) := by
  obtain ⟨t, h1, h2⟩ := user_code_once hp h
  have hw : Foreign (fun x => if x = Leaf.lit l then 1 else 0) :=
    ⟨by simp, by simp, fun x => by simp [Ne.symm (hl x)]⟩
  have := root_zero hw h1 hg
  have h3 := h2 (.lit l)
  unfold occ at *
  omega

/-- C10.  The same for trees with generic arguments: those of a component are written exactly twice,
wherever it is, unless it is in a slot that is dropped. -/
theorem literals_exactly {l : Lit} (hp : Parses pp ts root) (h : mview pp s ts = .tokens out)
    (hl : ∀ x, l ≠ .str x) :
    occ (.lit l) out + occ (.lit l) (childrenDropped false root) =
      occ (.lit l) (childrenCode root) + 2 * occ (.lit l) (childrenKept false root) := by
  obtain ⟨t, h1, h2⟩ := user_code_once hp h
  have hw : Foreign (fun x => if x = Leaf.lit l then 1 else 0) :=
    ⟨by simp, by simp, fun x => by simp [Ne.symm (hl x)]⟩
  have := root_twice hw h1
  have h3 := h2 (.lit l)
  unfold occ at *
  omega

/-- C10.  A literal other than a string or number appears in the expansion exactly as often as in the
input, unless it is in code that is dropped (or in the path of a component, which is repeated). -/
theorem specials_once {l : Lit} (hpp : pp.Starts) (hx : LexicalToks (childrenToks cs))
    (hc : childrenWf pp cs []) (h : mview pp s (childrenToks cs) = .tokens out)
    (hl : l.Special) (hg : occ (.lit l) (childrenPaths cs) = 0) :
    occ (.lit l) out + occ (.lit l) (childrenDropped false (childrenAst cs)) =
      occ (.lit l) (childrenToks cs) := by
  have hp : Parses pp (childrenToks cs) (childrenAst cs) := (parses_iff hpp hx).mpr ⟨cs, hc, rfl, rfl⟩
  have hw : Rare (fun x => if x = Leaf.lit l then 1 else 0) := by
    cases l <;> first | exact hl.elim | exact ⟨⟨by simp, by simp, by simp⟩, by simp, by simp⟩
  rw [literals_once hp h (by rintro x rfl; exact hl)
    (Nat.le_zero.mp (Nat.le_trans (cchildren_generics cs) (Nat.le_of_eq hg)))]
  exact (cchildren_weigh hw cs [] hc hg).symm

/-- C10.  The same with literals in the paths of components: in the expansion there are, besides all that is
written elsewhere in the input and not dropped, the generic arguments twice. -/
theorem specials_exactly {l : Lit} (hpp : pp.Starts) (hx : LexicalToks (childrenToks cs))
    (hc : childrenWf pp cs []) (h : mview pp s (childrenToks cs) = .tokens out) (hl : l.Special) :
    occ (.lit l) out + occ (.lit l) (childrenDropped false (childrenAst cs)) + occ (.lit l) (childrenPathToks cs) =
      occ (.lit l) (childrenToks cs) + 2 * occ (.lit l) (childrenKept false (childrenAst cs)) := by
  have hp : Parses pp (childrenToks cs) (childrenAst cs) := (parses_iff hpp hx).mpr ⟨cs, hc, rfl, rfl⟩
  have hw : Rare (fun x => if x = Leaf.lit l then 1 else 0) := by
    cases l <;> first | exact hl.elim | exact ⟨⟨by simp, by simp, by simp⟩, by simp, by simp⟩
  have h1 := literals_exactly hp h (l := l) (by rintro x rfl; exact hl)
  have h2 := cchildren_split hw cs [] hc
  unfold occ at *
  omega

mutual
theorem element_dropped_le (m : Leaf) (b : Bool) : ∀ e : Element, occ m (e.dropped b) ≤ occ m e.code
  | .mk tag sels attrs args none => by
    simp [occ, Element.dropped, Element.code]
  | .mk tag sels attrs args (some cs) => by
    have h := children_dropped_le m (tag.isPath && !b) cs
    simp only [occ, Element.dropped, Element.code, weigh_append] at h ⊢
    split <;> (try simp only [weigh_nil]) <;> omega
theorem children_dropped_le (m : Leaf) (b : Bool) : ∀ cs : List Child,
    occ m (childrenDropped b cs) ≤ occ m (childrenCode cs)
  | [] => by simp [occ, childrenDropped]
  | .value v :: cs => by
    have h := children_dropped_le m b cs
    simp only [occ, childrenDropped, childrenCode, weigh_append] at h ⊢
    omega
  | .elem e :: cs => by
    have h := children_dropped_le m b cs
    have h1 := element_dropped_le m false e
    simp only [occ, childrenDropped, childrenCode, weigh_append] at h h1 ⊢
    omega
  | .slot e :: cs => by
    have h := children_dropped_le m b cs
    have h1 := element_dropped_le m true e
    simp only [occ, childrenDropped, childrenCode, weigh_append] at h h1 ⊢
    split <;> omega
end

/-- C10.  What is in the expansion is there because of the tree, or in the code; what is in the code and
not only in dropped code is in the expansion. -/
theorem user_code_kept (hp : Parses pp ts root) (h : mview pp s ts = .tokens out) :
    ∃ frame, RootMeans (childrenBlank root) frame ∧ ∀ m,
      (0 < occ m out → 0 < occ m frame ∨ 0 < occ m (childrenCode root)) ∧
      (occ m (childrenDropped false root) < occ m (childrenCode root) → 0 < occ m out) ∧
      occ m frame ≤ occ m out := by
  obtain ⟨t, h1, h2⟩ := user_code_once hp h
  refine ⟨t, h1, fun m => ?_⟩
  have := h2 m
  have := children_dropped_le m false root
  omega

/-! ### an example -/

/-- A component with attributes, closure arguments, children and a slot; an element with closure
arguments and a slot, which are dropped. -/
def countTree : Toks :=
  t!"Show when=[a('1')] class:x={b('2')} {..c('3')} |d| { slot:Foo { {g('4')} } {e('5')} }
     div |h| { f[i('6')] slot:Bar { {j('7')} } }"

set_option maxRecDepth 20000 in
/-- The tokens of the code, other than the closure arguments and the code in the slot of the `div`,
occur exactly once; those do not. -/
example : ∃ out, mview simplePaths (fun _ => []) countTree = .tokens out ∧
    occ (.lit (.other c!"'1'")) out = 1 ∧ occ (.lit (.other c!"'2'")) out = 1 ∧
    occ (.lit (.other c!"'3'")) out = 1 ∧ occ (.lit (.other c!"'4'")) out = 1 ∧
    occ (.lit (.other c!"'5'")) out = 1 ∧ occ (.lit (.other c!"'6'")) out = 1 ∧
    occ (.lit (.other c!"'7'")) out = 0 ∧ occ (.lit (.other c!"'7'")) countTree = 1 ∧
    occ (.ident (plain c!"d")) out = 1 ∧ occ (.ident (plain c!"g")) out = 1 ∧
    occ (.ident (plain c!"h")) out = 0 ∧ occ (.ident (plain c!"j")) out = 0 :=
  ⟨_, rfl, rfl, rfl, rfl, rfl, rfl, rfl, rfl, rfl, rfl, rfl, rfl, rfl⟩

/-- A small tree the last theorem applies to. -/
example {s : Sched} {out : Toks} (h : mview simplePaths s t!"p x={'1'};" = .tokens out) :
    occ (.lit (.other c!"'1'")) out = 1 := by
  have h1 : NameEnds t!"p" t!"x={'1'};" :=
    ((nameEnds_iff (ts := t!"p x={'1'};") (by rintro i r ⟨⟩; decide)).mpr ⟨rfl, rfl⟩).2
  have h2 : NameEnds t!"x" t!"={'1'};" :=
    ((nameEnds_iff (ts := t!"x={'1'};") (by rintro i r ⟨⟩; decide)).mpr ⟨rfl, rfl⟩).2
  have hc : childrenWf simplePaths
      [.elem (.mk (.name t!"p") [] [.full t!"x" .alone (.block t!"'1'")] (.semi .alone))] [] := by
    rw [childrenWf, childrenWf, CChild.Wf, CElem.Wf, CEnd.Wf]
    exact ⟨⟨⟨⟨h1, by decide⟩, trivial, ⟨h2, trivial⟩, trivial⟩, _, _, rfl, by decide, by decide⟩, trivial⟩
  exact specials_once (l := .other c!"'1'") simplePaths_starts (lexical_of rfl) hc h trivial rfl

/-- With a literal in the generic arguments of a component as well. -/
example {s : Sched} {out : Toks} (h : mview simplePaths s t!"Foo<'1'> x={'1'};" = .tokens out) :
    occ (.lit (.other c!"'1'")) out = 3 := by
  have h2 : NameEnds t!"x" t!"={'1'};" :=
    ((nameEnds_iff (ts := t!"x={'1'};") (by rintro i r ⟨⟩; decide)).mpr ⟨rfl, rfl⟩).2
  have hc : childrenWf simplePaths
      [.elem (.mk (.path t!"Foo<'1'>" ⟨false, [⟨⟨false, c!"Foo"⟩, .angle false t!"'1'"⟩]⟩) []
        [.full t!"x" .alone (.block t!"'1'")] (.semi .alone))] [] := by
    rw [childrenWf, childrenWf, CChild.Wf, CElem.Wf, CEnd.Wf]
    exact ⟨⟨⟨⟨.inr ⟨_, _, rfl, .inr ⟨_, _, rfl⟩⟩, rfl⟩, trivial, ⟨h2, trivial⟩, trivial⟩, _, _, rfl, by decide, by decide⟩,
      trivial⟩
  have h3 := specials_exactly (l := .other c!"'1'") simplePaths_starts (lexical_of rfl) hc h trivial
  have e : occ (.lit (.other c!"'1'")) out + 0 + 1 = 2 + 2 * 1 := h3
  omega

/-- That is what is said to be dropped. -/
example : ∃ root, Parses simplePaths countTree root ∧
    childrenDropped false root = t!"|h| j('7')" ∧
    childrenCode root = t!"a('1') b('2') c('3') |d| g('4') e('5') |h| i('6') j('7')" :=
  ⟨_, rfl, rfl, rfl⟩

/-- Components with generic arguments: inside a component, inside a slot, and inside a slot that is
dropped. -/
def genericTree : Toks :=
  t!"Foo<'1'> x={'5'} { Bar<'2'>; slot:A { Baz<'3'> y={'3'}; } } div { slot:B { Qux<'4'> z={'4'}; } }"

/-- Their arguments, and the code that is dropped. -/
example : ∃ root, Parses simplePaths genericTree root ∧ childrenKept false root = t!"'1' '2' '3'" ∧
    childrenCode root = t!"'5' '3' '4'" ∧ childrenDropped false root = t!"'4'" :=
  ⟨_, rfl, rfl, rfl, rfl⟩

set_option maxRecDepth 20000 in
/-- They are written twice, the other code once, and the rest not at all. -/
example : ∃ out, mview simplePaths (fun _ => []) genericTree = .tokens out ∧
    occ (.lit (.other c!"'1'")) out = 2 ∧ occ (.lit (.other c!"'2'")) out = 2 ∧
    occ (.lit (.other c!"'3'")) out = 3 ∧ occ (.lit (.other c!"'4'")) out = 0 ∧
    occ (.lit (.other c!"'5'")) out = 1 := ⟨_, rfl, rfl, rfl, rfl, rfl, rfl⟩

set_option maxRecDepth 20000 in
/-- The names of components are repeated, with their generic arguments: these are not counted. -/
example : ∃ out, mview simplePaths (fun _ => []) t!"Foo::<'1'> { x; }" = .tokens out ∧
    occ (.lit (.other c!"'1'")) out = 2 := ⟨_, rfl, rfl⟩

end Mview
