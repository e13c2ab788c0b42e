import Verif.Lemmas.Assemble
import Verif.Props.Leave
/-
C77: a tree can be written if its threads can.
-/

namespace Mview
open Lex

variable {pp : PathParser} {s s' : Sched} {ts : Toks} {root : List Child}

/-- C77.  A tree whose names neither start nor end with a dash can be written if and only if all of its threads can,
and its closure arguments. -/
theorem written_iff_threads (hpp : pp.Starts) (hloc : pp.Local) (hf : allFirm root) :
    (∃ ts, LexicalToks ts ∧ Parses pp ts root) ↔
    (∀ t, ThreadOf t root → ∃ ts, LexicalToks ts ∧ Parses pp ts [t]) ∧ allArgsFit root := by
  constructor
  · rintro ⟨ts, hl, hp⟩
    refine ⟨fun t ht => thread_written hpp hloc hl hp hf ht, ?_⟩
    obtain ⟨ccs, hw, rfl, rfl⟩ := (parses_iff hpp hl).mp hp
    exact argsFit_all ccs [] hw hl
  · rintro ⟨hall, hg⟩
    obtain ⟨ccs, h1, h2, h3⟩ := assemble_all hpp hloc root hf hg fun c hc t ht => by
      obtain ⟨ts, hl, hp⟩ := hall t ⟨c, hc, ht⟩
      exact written_of_parses hpp hl hp
    exact ⟨_, h3, (parses_iff hpp h3).mpr ⟨ccs, h2 [], rfl, h1⟩⟩

/-- C77.  It is a view that the macro takes if and only if all of its threads are. -/
theorem view_iff_threads (hpp : pp.Starts) (hloc : pp.Local) (hf : allFirm root) :
    (∃ ts out, LexicalToks ts ∧ Parses pp ts root ∧ mview pp s ts = .tokens out) ↔
    (∀ t, ThreadOf t root → ∃ ts out, LexicalToks ts ∧ Parses pp ts [t] ∧ mview pp s' ts = .tokens out) ∧
      allArgsFit root := by
  constructor
  · rintro ⟨ts, out, hl, hp, hm⟩
    obtain ⟨hall, hg⟩ := (written_iff_threads hpp hloc hf).mp ⟨ts, hl, hp⟩
    refine ⟨fun t ht => ?_, hg⟩
    obtain ⟨ts', hl', hp'⟩ := hall t ht
    obtain ⟨out', hm'⟩ := (mview_iff_all_threads (s' := s') hpp hloc hl hp hf).mp ⟨out, hm⟩ ts' t ht hp'
    exact ⟨ts', out', hl', hp', hm'⟩
  · rintro ⟨hall, hg⟩
    obtain ⟨ts, hl, hp⟩ := (written_iff_threads hpp hloc hf).mpr ⟨fun t ht => by
      obtain ⟨ts, out, hl, hp, -⟩ := hall t ht
      exact ⟨ts, hl, hp⟩, hg⟩
    obtain ⟨out, hm⟩ := (mview_tokens (s := s) hp).mpr ((accepted_iff_threads (s' := s') hp).mpr fun t ht => by
      obtain ⟨ts', out', -, hp', hm'⟩ := hall t ht
      exact (mview_tokens hp').mp ⟨out', hm'⟩)
    exact ⟨ts, out, hl, hp, hm⟩

/-- C77.  So a view can be put together from other views: it is one if each of its threads is in some view that the
macro takes. -/
theorem view_of_views (hpp : pp.Starts) (hloc : pp.Local) (hf : allFirm root) (hg : allArgsFit root)
    (h : ∀ t, ThreadOf t root → ∃ ts' root' out, LexicalToks ts' ∧ Parses pp ts' root' ∧ allFirm root' ∧
      ThreadOf t root' ∧ mview pp s' ts' = .tokens out) :
    ∃ ts out, LexicalToks ts ∧ Parses pp ts root ∧ mview pp s ts = .tokens out := by
  refine (view_iff_threads (s' := s') hpp hloc hf).mpr ⟨fun t ht => ?_, hg⟩
  obtain ⟨ts', root', out, hl, hp, hf', ht', hm⟩ := h t ht
  exact ((view_iff_threads (s' := s') hpp hloc hf').mp ⟨ts', out, hl, hp, hm⟩).1 t ht'

/-! ### examples -/

/-- Two views. -/
def exOne : List Child :=
  [.elem (.mk (.component ⟨false, [⟨plain c!"Foo", .none⟩]⟩) [.cls ⟨c!"a", 1⟩] [] none (some
    [.value (.lit (.tok (.str c!"b")))]))]
def exTwo : List Child :=
  [.elem (.mk (.component ⟨false, [⟨plain c!"Foo", .none⟩]⟩) []
    [.directive ⟨plain c!"on", .kebab ⟨c!"click", 1⟩, none, some (.block t!"f")⟩] none none), .value (.block t!"c")]
/-- What has the threads of both. -/
def exBoth : List Child :=
  [.value (.block t!"c"), .elem (.mk (.component ⟨false, [⟨plain c!"Foo", .none⟩]⟩) [.cls ⟨c!"a", 1⟩, .cls ⟨c!"a", 1⟩]
    [.directive ⟨plain c!"on", .kebab ⟨c!"click", 1⟩, none, some (.block t!"f")⟩] (some t!"|x|") (some
    [.value (.lit (.tok (.str c!"b")))]))]

theorem ex_fooFirm : Tag.Firm (.component ⟨false, [⟨plain c!"Foo", .none⟩]⟩) := by
  intro i r h he
  simp only [Path.mk.injEq, List.cons.injEq, PathSeg.mk.injEq, and_true, true_and] at h
  subst h
  have : (c!"Foo").getLast? = (r ++ ['_']).getLast? := congrArg _ he
  simp at this

theorem ex_clickFirm : Attr.Firm (.directive ⟨plain c!"on", .kebab ⟨c!"click", 1⟩, none, some (.block t!"f")⟩) := by
  rintro k ⟨⟩
  exact firm_of rfl

/-- The theorem finds a way to write what is put together. -/
example : ∃ ts out, LexicalToks ts ∧ Parses simplePaths ts exBoth ∧ mview simplePaths (fun _ => []) ts = .tokens out := by
  have f1 : allFirm exOne := ⟨⟨⟨ex_fooFirm, by simp only [List.mem_singleton, forall_eq]; exact firm_of rfl, by simp⟩,
    trivial, trivial⟩, trivial⟩
  have f2 : allFirm exTwo := ⟨⟨ex_fooFirm, by simp, by simp only [List.mem_singleton, forall_eq]; exact ex_clickFirm⟩,
    trivial, trivial⟩
  have fb : allFirm exBoth := ⟨trivial, ⟨⟨ex_fooFirm, by
    simp only [List.mem_cons, List.not_mem_nil, or_false, or_self, forall_eq]; exact firm_of rfl,
    by simp only [List.mem_singleton, forall_eq]; exact ex_clickFirm⟩, trivial, trivial⟩, trivial⟩
  have gb : allArgsFit exBoth := ⟨trivial, ⟨.inr ⟨rfl, t!"x", rfl, by simp [TT.isPipe], lexical_of rfl⟩,
    trivial, trivial⟩, trivial⟩
  have one : ∀ t, ThreadOf t exOne → ∃ ts' root' out, LexicalToks ts' ∧ Parses simplePaths ts' root' ∧ allFirm root' ∧
      ThreadOf t root' ∧ mview simplePaths (fun _ => []) ts' = .tokens out := fun t ht =>
    ⟨t!"Foo.a { \"b\" }", exOne, _, lexical_of rfl, rfl, f1, ht, rfl⟩
  have two : ∀ t, ThreadOf t exTwo → ∃ ts' root' out, LexicalToks ts' ∧ Parses simplePaths ts' root' ∧ allFirm root' ∧
      ThreadOf t root' ∧ mview simplePaths (fun _ => []) ts' = .tokens out := fun t ht =>
    ⟨t!"Foo on:click={f}; {c}", exTwo, _, lexical_of rfl, rfl, f2, ht, rfl⟩
  refine view_of_views (s' := fun _ => []) simplePaths_starts simplePaths_local fb gb ?_
  rintro t ⟨c, hc, ht⟩
  simp only [exBoth, List.mem_cons, List.not_mem_nil, or_false] at hc
  rcases hc with rfl | rfl
  · cases ht
    exact two _ ⟨_, .tail _ (.head _), .value _⟩
  · cases ht with
    | elem ht =>
      cases ht with
      | tag => exact one _ ⟨_, .head _, .elem .tag⟩
      | sel h =>
        simp only [List.mem_cons, List.not_mem_nil, or_false, or_self] at h
        subst h
        exact one _ ⟨_, .head _, .elem (.sel (.head _))⟩
      | attr h =>
        simp only [List.mem_singleton] at h
        subst h
        exact two _ ⟨_, .head _, .elem (.attr (.head _))⟩
      | child h ht =>
        simp only [List.mem_singleton] at h
        subst h
        exact one _ ⟨_, .head _, .elem (.child (.head _) ht)⟩

/-- It is this. -/
example : Parses simplePaths t!"{c} Foo.a.a on:click={f} |x| { \"b\" }" exBoth := rfl

/-! ### names that end with a dash -/

/-- a class that ends with a dash, and an attribute -/
def exDash : List Child :=
  [.elem (.mk divTag [.cls ⟨c!"a-", 1⟩] [.kv ⟨⟨c!"b", 1⟩, .lit (.bool true)⟩] none none)]

theorem exDash_threads (t : Child) (h : ThreadOf t exDash) : ∃ ts, LexicalToks ts ∧ Parses simplePaths ts [t] := by
  obtain ⟨c, hc, ht⟩ := h
  simp only [exDash, List.mem_singleton] at hc
  subst hc
  cases ht with
  | elem ht =>
    cases ht with
    | tag => exact ⟨t!"div;", lexical_of rfl, rfl⟩
    | sel h =>
      simp only [List.mem_singleton] at h
      subst h
      exact ⟨t!"div.a-;", lexical_of rfl, rfl⟩
    | attr h =>
      simp only [List.mem_singleton] at h
      subst h
      exact ⟨t!"div b;", lexical_of rfl, rfl⟩

theorem exDash_end {run x : Toks} (h : NameEnds run x) (hl : LexicalToks run) (hk : kebabOf run = ⟨c!"a-", 1⟩) :
    ∃ u s, run = u ++ [.punct '-' s] := by
  obtain ⟨t, r, rfl, ht⟩ := h.starts
  simp only [kebabOf, KebabIdent.mk.injEq, kebabSections, Nat.add_eq_left, List.countP_eq_zero] at hk
  by_cases hr : r = []
  · subst hr
    have h1 : t.text = c!"a-" := by simpa [kebabText] using hk.1
    cases t with
    | ident i =>
      have := (hl i [] (.here _)).2
      rw [show i.name = c!"a-" from h1] at this
      simp at this
    | punct c s => cases h1
    | lit l => simp [TT.isIdent, TT.isDash] at ht
    | group d g => simp [TT.isIdent, TT.isDash] at ht
  · obtain ⟨r', d, rfl⟩ : ∃ r' d, r = r' ++ [d] := ⟨_, _, (List.dropLast_append_getLast hr).symm⟩
    have hd : d.isDash = true := by
      rcases h.1.kebab.tokens d (by simp) with h | h
      · exact absurd h (hk.2 d (by simp))
      · exact h
    obtain ⟨s, rfl⟩ := isDash_eq hd
    exact ⟨t :: r', s, rfl⟩

theorem exDash_start {run x : Toks} (h : NameEnds run x) (hk : (kebabOf run).repr = c!"b") :
    ∃ i r, run = .ident i :: r := by
  obtain ⟨t, r, rfl, ht⟩ := h.starts
  rcases ht with ht | ht
  · cases t with
    | ident i => exact ⟨i, r, rfl⟩
    | _ => cases ht
  · obtain ⟨s, rfl⟩ := isDash_eq ht
    rw [kebab_first] at hk
    simp at hk

/-- Each thread can be written, but there is no way to write the attribute after the class. -/
theorem exDash_unwritten : ¬ ∃ ts, LexicalToks ts ∧ Parses simplePaths ts exDash := by
  rintro ⟨ts, hl, hp⟩
  obtain ⟨tag, sels, attrs, fin, hw, -, rfl, h1, h2, h3, h4, h5⟩ := (parses_elem_iff simplePaths_starts hl).mp hp
  obtain ⟨sel, rfl, e2⟩ := List.map_eq_singleton_iff.mp h2
  obtain ⟨attr, rfl, e3⟩ := List.map_eq_singleton_iff.mp h3
  rw [CElem.Wf] at hw
  have ls := lexical_flatMap.mp (lexical_append.mp (lexical_append.mp hl).2).1 sel (by simp)
  have ws := hw.2.1.1
  have wa := hw.2.2.1.1
  have key : ∀ name x, CSel.Wf sel (name ++ x) → (kebabOf name).repr = c!"b" → (∃ y, NameEnds name y) → False := by
    intro name x hs hn hy
    obtain ⟨y, hy⟩ := hy
    obtain ⟨i, r, rfl⟩ := exDash_start hy hn
    cases sel with
    | id s run => cases e2
    | cls s run =>
      obtain ⟨u, s', hu⟩ := exDash_end hs (lexical_append (a := [.punct '.' s]).mp ls).2 (Selector.cls.inj e2)
      exact NameEnds.not_merges hs ⟨u, s', i, r ++ x, hu, rfl⟩
  rw [List.flatMap_nil, List.nil_append, List.flatMap_cons, List.flatMap_nil, List.append_nil] at ws
  cases attr with
  | bare name => exact key name _ ws (by simp only [CAttr.ast, Attr.kv.injEq, KvAttr.mk.injEq] at e3; rw [e3.1]) ⟨_, wa⟩
  | short name => simp [CAttr.ast] at e3
  | full name s v =>
    rw [CAttr.toks, List.append_assoc] at ws
    exact key name _ ws (by simp only [CAttr.ast, Attr.kv.injEq, KvAttr.mk.injEq] at e3; rw [e3.1]) ⟨_, wa⟩
  | dirShort d s name m => cases e3
  | dir d s k m v => cases e3
  | spread s e => cases e3

end Mview
