import Verif.Lemmas.Pieces
import Verif.Props.Order
import Verif.Props.Recover
/-
C49: a piece of a view that is accepted by itself is read the same wherever it is written.
-/

-- the linter does not see variables used inside `q!"..."`
set_option linter.unusedVariables false

namespace Mview
open Lex

variable {pp : PathParser} {s : Sched} {ta tb x y rest : Toks} {a : List Child} {K : Place}

/-- C49.  After an accepted piece, what follows is read as if it stood alone. -/
theorem joined_parses (hpp : pp.Starts) (hloc : pp.Local) (hl : LexicalToks (ta ++ tb))
    (ha : Parses pp ta a) {root : List Child} :
    Parses pp (ta ++ tb) root ↔ ∃ b, Parses pp tb b ∧ root = a ++ b := by
  unfold Parses
  rw [parse_piece hpp hloc hl ha]
  rcases parse_total pp tb with ⟨ds, cs, hp⟩ | ⟨ds, hp⟩ | ⟨p, hp⟩
  · rw [hp]
    cases ds <;> simp [prepend, eq_comm]
  · simp [hp, prepend]
  · simp [hp, prepend]

theorem prepend_gives {o : Out (PR (List Child))} {is : List Issue} {cs : List Child} (a : List Child)
    (h : Gives o is (.ok cs [])) : Gives (prepend a o) is (.ok (a ++ cs) []) := by
  rw [← List.append_nil is]
  exact h.bind (.ret _)

/-- C49.  The same for any input, with its errors: they are those of the second part, and then those of the
expansion of both. -/
theorem joined_reading (hpp : pp.Starts) (hloc : pp.Local) (hl : LexicalToks (ta ++ tb))
    (ha : Parses pp ta a) {is : List Issue} {cs : List Child} (hb : ReadsChildren pp tb is cs) :
    (mview pp s (ta ++ tb)).Is (verdict (is ++ rootIssues (a ++ cs))) := by
  refine given_exact ?_
  rw [parse_piece hpp hloc hl ha]
  exact prepend_gives a (reading_given hl.append hb)

theorem same_verdict {r r' : MacroResult} {v : Verdict} (h : r.Is v) (h' : r'.Is v) :
    ((∃ t, r = .tokens t) ↔ ∃ t, r' = .tokens t) ∧ (∀ ds t, r = .errors ds t ↔ r' = .errors ds t) ∧
    ((∃ p, r = .panicked p) ↔ ∃ p, r' = .panicked p) := by
  rcases v with (_ | _) | _ | _ <;> cases r <;> cases r' <;>
    simp only [MacroResult.Is] at h h' <;> simp [h, h']

/-- C49.  In front of any input whatsoever, a view the macro accepts changes neither whether there is an
expansion nor which errors are reported. -/
theorem joined_result (hpp : pp.Starts) (hloc : pp.Local) (hl : LexicalToks (ta ++ tb)) {out : Toks}
    {s' : Sched} (ha : mview pp s' ta = .tokens out) :
    ((∃ t, mview pp s (ta ++ tb) = .tokens t) ↔ ∃ t, mview pp s tb = .tokens t) ∧
    (∀ ds r, mview pp s (ta ++ tb) = .errors ds r ↔ mview pp s tb = .errors ds r) ∧
    ((∃ p, mview pp s (ta ++ tb) = .panicked p) ↔ ∃ p, mview pp s tb = .panicked p) := by
  obtain ⟨a, h, hr⟩ := (accepted_iff_reading (lexical_append.mp hl).1).mp ⟨out, ha⟩
  have h := (reading_parses (lexical_append.mp hl).1).mp h
  obtain ⟨is, cs, hb⟩ := reading_exists (pp := pp) hl.append
  have h1 := joined_reading (s := s) hpp hloc hl h hb
  rw [rootIssues_append hr] at h1
  exact same_verdict h1 (reading_exact hl.append hb)

/-- Four errors after an accepted view are the same four without it. -/
example (s : Sched) : mview simplePaths s (t!"div.a { \"b\" } C x=1 |y| { {y} }" ++ t!"br foo:x; 3 ; p") =
      .errors [.nonStringChild, .extraSemicolon, .unterminated, .unknownDirective ⟨false, c!"foo"⟩] t!"()" := by
  have ha : ∃ out, mview simplePaths (fun _ => []) t!"div.a { \"b\" } C x=1 |y| { {y} }" = .tokens out := ⟨_, rfl⟩
  obtain ⟨out, ha⟩ := ha
  exact ((joined_result simplePaths_starts simplePaths_local (lexical_of rfl) ha).2.1 _ _).mpr rfl

/-- An unterminated element in front does change what follows. -/
example (s : Sched) : mview simplePaths s (t!"p x" ++ t!"br;") = mview simplePaths s t!"p x br;" ∧
    ¬ ∃ root, Parses simplePaths t!"p x" root := by
  refine ⟨rfl, ?_⟩
  rintro ⟨root, h⟩
  cases h

/-- A view with one child. -/
structure Single (pp : PathParser) (ts : Toks) (x : Toks) : Prop where
  one : ∃ c, Parses pp ts [c]
  expands : ∃ s, mview pp s ts = .tokens (q!"{ #[allow(unused_braces)] #x }")

theorem NodesMean.cons {c : Child} {cs : List Child} {x : Toks} {xs : List Toks}
    (h : NodesMean [c] [x]) (h' : NodesMean cs xs) : NodesMean (c :: cs) (x :: xs) := by
  cases c with
  | value v =>
    rw [NodesMean] at h ⊢
    obtain ⟨t, ts', h1, h2, h3⟩ := h
    rw [NodesMean] at h2
    subst h2
    exact ⟨t, xs, h1, h', by simpa using h3⟩
  | elem e =>
    rw [NodesMean] at h ⊢
    obtain ⟨t, ts', h1, h2, h3⟩ := h
    rw [NodesMean] at h2
    subst h2
    exact ⟨t, xs, h1, h', by simpa using h3⟩
  | slot e => rw [NodesMean, NodesMean] at h; cases h

theorem Single.means {ts x : Toks} (h : Single pp ts x) :
    ∃ c, Parses pp ts [c] ∧ c.isSlot = false ∧ NodesMean [c] [x] := by
  obtain ⟨⟨c, hc⟩, s, hs⟩ := h
  obtain ⟨h1, nodes, h2, h3⟩ := mview_means hc hs
  refine ⟨c, hc, h1 c (by simp), ?_⟩
  have hlen : ∃ y, nodes = [y] := by
    have h1 := h1 c (by simp)
    cases c with
    | value v => rw [NodesMean] at h2; obtain ⟨t, ts', _, h, rfl⟩ := h2; rw [NodesMean] at h; exact ⟨_, by rw [h]⟩
    | elem v => rw [NodesMean] at h2; obtain ⟨t, ts', _, h, rfl⟩ := h2; rw [NodesMean] at h; exact ⟨_, by rw [h]⟩
    | slot v => simp [Child.isSlot] at h1
  obtain ⟨y, rfl⟩ := hlen
  have : x = y := by simpa using h3
  rwa [this]

/-- C49.  Several views of one child each, written one after the other, expand to the view of all of them,
in this order; each is expanded as it would be alone. -/
theorem joined_singles (hpp : pp.Starts) (hloc : pp.Local) (pieces : List (Toks × Toks))
    (hl : LexicalToks (pieces.flatMap Prod.fst)) (h : ∀ p ∈ pieces, Single pp p.1 p.2)
    (hn : pieces.length ≠ 1) :
    let view := viewOf (pieces.map Prod.snd)
    ∃ s, mview pp s (pieces.flatMap Prod.fst) = .tokens (q!"{ #[allow(unused_braces)] #view }") := by
  have key : ∃ root, Parses pp (pieces.flatMap Prod.fst) root ∧ (∀ c ∈ root, c.isSlot = false) ∧
      NodesMean root (pieces.map Prod.snd) := by
    clear hn
    induction pieces with
    | nil =>
      exact ⟨[], rfl, by simp, by rw [NodesMean]; rfl⟩
    | cons p ps ih =>
      rw [List.flatMap_cons] at hl
      obtain ⟨root, h1, h2, h3⟩ := ih hl.append fun q hq => h q (by simp [hq])
      obtain ⟨c, hc, hs, hm⟩ := (h p (by simp)).means
      refine ⟨c :: root, ?_, ?_, NodesMean.cons hm h3⟩
      · rw [List.flatMap_cons, joined_parses hpp hloc hl hc]
        exact ⟨root, h1, rfl⟩
      · simpa [hs] using h2
  obtain ⟨root, h1, h2, h3⟩ := key
  refine mview_complete h1 ⟨h2, _, h3, ?_⟩
  rcases pieces with _ | ⟨p, _ | ⟨q, ps⟩⟩
  · rfl
  · exact absurd rfl hn
  · rfl

/-- A component, a value and an element. -/
example : ∃ s, mview simplePaths s t!"C; {x} br;" = .tokens t!"{ #[allow(unused_braces)]
    ::leptos::prelude::View::new((
      ::leptos::prelude::IntoRender::into_render(
        #[allow(unreachable_code)]
        ::leptos::prelude::View::new(::leptos::component::component_view(&C,
          ::leptos::component::component_props_builder(&C).build()).add_any_attr(()))),
      ::leptos::prelude::IntoRender::into_render({x}),
      ::leptos::prelude::IntoRender::into_render(::leptos::tachys::html::element::r#br()),)) }" := by
  refine joined_singles simplePaths_starts simplePaths_local
    [(t!"C;", t!"::leptos::prelude::IntoRender::into_render(
        #[allow(unreachable_code)]
        ::leptos::prelude::View::new(::leptos::component::component_view(&C,
          ::leptos::component::component_props_builder(&C).build()).add_any_attr(())))"),
     (t!"{x}", t!"::leptos::prelude::IntoRender::into_render({x})"),
     (t!"br;", t!"::leptos::prelude::IntoRender::into_render(::leptos::tachys::html::element::r#br())")]
    (lexical_of rfl) ?_ (by simp)
  intro p hp
  simp only [List.mem_cons, List.not_mem_nil, or_false] at hp
  rcases hp with rfl | rfl | rfl
  · exact ⟨⟨_, rfl⟩, fun _ => [], rfl⟩
  · exact ⟨⟨_, rfl⟩, fun _ => [], rfl⟩
  · exact ⟨⟨_, rfl⟩, fun _ => [], rfl⟩

/-- C49.  Wherever something can be written, an accepted piece can, and it means there what it means by
itself: the input is accepted exactly if what surrounds the piece is, and its tree is that of the surroundings
with the children of the piece at that place. -/
theorem piece_anywhere (hpp : pp.Starts) (hloc : pp.Local) (hl : LexicalToks (K.fill y))
    (hw : K.Wf pp y) (hx : LexicalToks x) (ha : Parses pp x a) {root : List Child} :
    Parses pp (K.fill x) root ↔ K.Tree pp a root := by
  have hn : NotAttr x := by simpa using piece_notAttr hpp hloc (tb := []) (by simpa using hx) ha notAttr_nil
  rw [place_parses hpp (K.lexical hl hx) (K.wf_any hpp hloc hx hn hl hw).1]
  constructor
  · rintro ⟨cs, h1, h2⟩
    cases ha.unique h1
    exact h2
  · exact fun h => ⟨a, ha, h⟩

/-- `p.a; "c"` in `div { "a" <here> } br;` -/
example : ∃ root, Parses simplePaths t!"div { \"a\" p.a; \"c\" } br;" root ∧
    samplePlace.Tree simplePaths
      [.elem (.mk (.html ⟨true, c!"p"⟩) [.cls ⟨c!"a", 1⟩] [] none none), .value (.lit (.tok (.str c!"c")))] root :=
  ⟨_, rfl, (piece_anywhere (K := samplePlace) (y := []) (x := t!"p.a; \"c\"") simplePaths_starts simplePaths_local
    (lexical_of rfl) (samplePlace_wf _) (lexical_of rfl) rfl).mp rfl⟩

/-- C49.  Two pieces that are read as the same children can be exchanged anywhere, also in front of further
children and in inputs with errors: the result of the macro stays the same, with all its errors. -/
theorem pieces_exchanged (hpp : pp.Starts) (hloc : pp.Local) (hl : LexicalToks (K.fill (x ++ rest)))
    (hl' : LexicalToks y) (hw : K.Wf pp (x ++ rest)) (hx : Parses pp x a) (hy : Parses pp y a) :
    mview pp s (K.fill (x ++ rest)) = mview pp s (K.fill (y ++ rest)) := by
  have h1 := K.lexical_at hl
  have h2 : LexicalToks (y ++ rest) := lexical_append.mpr ⟨hl', h1.append⟩
  have hw' : K.Wf pp (y ++ rest) := by
    cases a with
    | nil =>
      rw [piece_nil hpp (lexical_append.mp h1).1 hx] at hw
      rwa [piece_nil hpp hl' hy]
    | cons c a => exact (K.wf_any hpp hloc h2 (piece_notAttr_cons hpp hloc h2 hy) hl hw).1
  have : parseChildren pp (K.fill (x ++ rest)) = parseChildren pp (K.fill (y ++ rest)) := by
    rw [parse_place hpp K hl hw, parse_place hpp K (K.lexical hl h2) hw', parse_piece hpp hloc h1 hx,
      parse_piece hpp hloc h2 hy]
  unfold mview mviewImpl
  rw [this]

/-- Other delimiters, and `x` for `x=true`, inside a block and before errors. -/
example (s : Sched) : mview simplePaths s t!"div { \"a\" p x { \"c\" } , } br;" =
    mview simplePaths s t!"div { \"a\" p x=true (\"c\") , } br;" :=
  pieces_exchanged (K := samplePlace) (x := t!"p x { \"c\" }") (y := t!"p x=true (\"c\")") (rest := t!",")
    simplePaths_starts simplePaths_local (lexical_of rfl) (lexical_of rfl) (samplePlace_wf _) rfl rfl
example (s : Sched) : mview simplePaths s t!"div { \"a\" p x { \"c\" } , } br;" =
    .errors [.synError .invalidChild] t!"()" := rfl

end Mview
