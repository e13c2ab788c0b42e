import Verif.Lemmas.Leave
import Verif.Props.Threads
/-
C75: what is left if something is left out of a view can be written, too.
-/

namespace Mview
open Lex

variable {pp : PathParser} {s s' : Sched} {ts : Toks} {root root' : List Child}

/-- C75.  Let something be left out of a view whose names neither start nor end with a dash: there is an input for
what is left. -/
theorem left_out_written (hpp : pp.Starts) (hloc : pp.Local) (hl : LexicalToks ts) (h : Parses pp ts root)
    (hf : allFirm root) (ho : AllLeftOut root' root) : ∃ ts', LexicalToks ts' ∧ Parses pp ts' root' := by
  obtain ⟨cs, hw, rfl, rfl⟩ := (parses_iff hpp hl).mp h
  obtain ⟨cs', h1, h2, h3⟩ := ho.writable hpp hloc cs [] rfl hw hf hl
  exact ⟨_, h3, (parses_iff hpp h3).mpr ⟨cs', h2 [], rfl, h1⟩⟩

/-- C75.  So each thread of such a view is a view itself. -/
theorem thread_written (hpp : pp.Starts) (hloc : pp.Local) (hl : LexicalToks ts) (h : Parses pp ts root)
    (hf : allFirm root) {t : Child} (ht : ThreadOf t root) : ∃ ts', LexicalToks ts' ∧ Parses pp ts' [t] := by
  obtain ⟨c, hc, ht⟩ := ht
  exact left_out_written hpp hloc hl h hf (allLeftOut_single ht.leftOut hc)

/-- C75.  The macro takes such a view if and only if it takes every view that is a thread of it. -/
theorem mview_iff_all_threads (hpp : pp.Starts) (hloc : pp.Local) (hl : LexicalToks ts) (h : Parses pp ts root)
    (hf : allFirm root) : (∃ out, mview pp s ts = .tokens out) ↔
    ∀ ts' t, ThreadOf t root → Parses pp ts' [t] → ∃ out, mview pp s' ts' = .tokens out := by
  rw [mview_tokens h, accepted_iff_threads (s' := s') h]
  constructor
  · intro hall ts' t ht hp
    exact (mview_tokens hp).mpr (hall t ht)
  · intro hall t ht
    obtain ⟨ts', -, hp⟩ := thread_written hpp hloc hl h hf ht
    exact (mview_tokens hp).mp (hall ts' t ht hp)

/-- C75.  Leaving things out of an accepted view gives accepted views. -/
theorem left_out_taken (hpp : pp.Starts) (hloc : pp.Local) (hl : LexicalToks ts) (h : Parses pp ts root)
    (hf : allFirm root) (ho : AllLeftOut root' root) (ha : ∃ out, mview pp s ts = .tokens out) :
    ∃ ts' out, Parses pp ts' root' ∧ mview pp s' ts' = .tokens out := by
  obtain ⟨ts', -, hp⟩ := left_out_written hpp hloc hl h hf ho
  obtain ⟨out, hm⟩ := left_out_accepted (s' := s') h hp ho ha
  exact ⟨ts', out, hp, hm⟩

/-! ### examples -/

/-- a view with names of all kinds -/
def exFirm : List Child :=
  [.elem (.mk (.webComponent ⟨c!"my-item", 2⟩) [.cls ⟨c!"big-one", 2⟩]
    [.kv ⟨⟨c!"data-x", 2⟩, .lit (.tok (.int c!"1"))⟩] none (some
    [.elem (.mk (.component ⟨false, [⟨plain c!"Foo", .none⟩]⟩) []
      [.directive ⟨plain c!"on", .kebab ⟨c!"some-event", 2⟩, none, some (.block t!"f")⟩] (some t!"|a|") (some
      [.value (.lit (.tok (.str c!"b"))),
        .slot (.mk (.component ⟨false, [⟨plain c!"Bar", .none⟩]⟩) [] [] none none)]))]))]

theorem exFirm_firm : allFirm exFirm := by
  simp only [exFirm, allFirm, Child.Firm, Element.Firm, List.forall_mem_cons, List.not_mem_nil, false_implies,
    implies_true, and_true, true_and, Selector.Firm, Attr.Firm, Tag.Firm]
  have h1 : ∀ {w : Str} {i : Ident} {r : Str}, Path.mk false [⟨plain w, .none⟩] = ⟨false, [⟨i, .none⟩]⟩ →
      w.getLast? ≠ some '_' → i.name ≠ r ++ ['_'] := by
    intro w i r h hw he
    simp only [Path.mk.injEq, List.cons.injEq, PathSeg.mk.injEq, and_true, true_and] at h
    subst h
    rw [show w = _ from he] at hw
    simp at hw
  refine ⟨⟨?_, firm_of rfl, firm_of rfl⟩, ⟨?_, ?_⟩, ?_⟩
  · intro r h; exact (firm_of (k := ⟨c!"my-item", 2⟩) rfl r).2 h
  · exact fun i r h => h1 h (by simp)
  · rintro k ⟨⟩; exact firm_of rfl
  · exact fun i r h => h1 h (by simp)

/-- A view whose names are all right, and one of its threads. -/
example : Parses simplePaths t!"my-item.big-one data-x=1 { Foo on:some-event={f} |a| { \"b\" slot:Bar; } }" exFirm ∧
    ∃ t, ThreadOf t exFirm ∧ Parses simplePaths t!"my-item { Foo on:some-event={f}; }" [t] :=
  ⟨rfl, _, ⟨_, .head _, .elem (.child (.head _) (.elem (.attr (.head _))))⟩, rfl⟩

/-- The condition on names: without the selector between them, `my-item-` and `b` grow together. -/
example : Parses simplePaths t!"my-item- .a b;"
      [.elem (.mk (.webComponent ⟨c!"my-item-", 2⟩) [.cls ⟨c!"a", 1⟩] [.kv ⟨⟨c!"b", 1⟩, .lit (.bool true)⟩] none none)] ∧
    Parses simplePaths t!"my-item- b;" [.elem (.mk (.webComponent ⟨c!"my-item-b", 3⟩) [] [] none none)] ∧
    ¬ Tag.Firm (.webComponent ⟨c!"my-item-", 2⟩) := by
  refine ⟨rfl, rfl, fun h => h c!"my-item" rfl⟩

/-- So they do with a component, whose name has no dash any more. -/
example : Parses simplePaths t!"Foo- .a b;"
      [.elem (.mk (.component ⟨false, [⟨plain c!"Foo_", .none⟩]⟩) [.cls ⟨c!"a", 1⟩]
        [.kv ⟨⟨c!"b", 1⟩, .lit (.bool true)⟩] none none)] ∧
    Parses simplePaths t!"Foo- b;" [.elem (.mk (.component ⟨false, [⟨plain c!"Foo_b", .none⟩]⟩) [] [] none none)] :=
  ⟨rfl, rfl⟩

end Mview
