import Verif.Lemmas.Recover
import Verif.Lemmas.SimplePaths
import Verif.Props.Grammar
/-
C26: recovery from errors among children.  C28: closure arguments.  C30: what is a slot.
C34: missing values.  C35: literal children.

All of these hold at every place of the input (`Place`): at any depth, after any well-formed
children, and whatever comes after.
-/

namespace Mview
open Lex

variable {pp : PathParser} {s : Sched} {x rest : Toks} {K : Place}

/-- The macro on input whose parse differs only in errors reported first. -/
theorem mview_tell {ts ts' : Toks} {ds : List Diag} (hds : ds ≠ [])
    (h : parseChildren pp ts = (parseChildren pp ts').tell ds) :
    mview pp s ts = (mview pp s ts').withErrors ds := by
  obtain ⟨d, ds, rfl⟩ := List.exists_cons_of_ne_nil hds
  have hi : mviewImpl pp s ts = (mviewImpl pp s ts').tell (d :: ds) := by
    unfold mviewImpl
    rw [Out.monad_bind, h, Out.tell_bind]
    rfl
  unfold mview
  rw [hi]
  cases mviewImpl pp s ts' with
  | ret es a => cases es <;> simp [MacroResult.withErrors]
  | _ => rfl

/-! A place for the examples: `div { "a" <here> } br;`. -/

/-- `div { "a" <here> } br;` -/
def samplePlace : Place :=
  .inside [] ⟨none, .name t!"div", [], []⟩ none .brace (.here [.value (.lit (.str c!"a"))]) t!"br;"

theorem samplePlace_wf (x : Toks) : samplePlace.Wf simplePaths x := by
  have h1 : NameEnds t!"div" (.group .brace (.lit (.str c!"a") :: x) :: t!"br;") :=
    ((nameEnds_iff (ts := .ident ⟨false, c!"div"⟩ :: .group .brace (.lit (.str c!"a") :: x) :: t!"br;")
      (by rintro i r ⟨⟩; decide)).mpr ⟨rfl, rfl⟩).2
  rw [samplePlace, Place.Wf, Place.Wf, childrenWf, childrenWf, childrenWf, CChild.Wf]
  refine ⟨trivial, ⟨⟨h1, by decide⟩, trivial, trivial, _, _, rfl, by decide, by decide⟩,
    by intro _ _ _ h; simp at h, fun _ _ => ⟨.inl ?_, ?_⟩, trivial, trivial⟩
  · simp [Place.fill, childrenToks, CChild.toks, CVal.toks, TT.isIdent, TT.isDash]
  · simp [Place.fill, childrenToks, CChild.toks, CVal.toks]

/-! ### C26 -/

/-- C26.  A stray `;` among children, at any depth, costs exactly one error: everything else
happens as if it were not there. -/
theorem stray_semicolon {sp : Spacing} (hpp : pp.Starts)
    (hl : LexicalToks (K.fill (.punct ';' sp :: rest))) (hl' : LexicalToks (K.fill rest))
    (hw : K.Wf pp (.punct ';' sp :: rest)) (hw' : K.Wf pp rest) :
    mview pp s (K.fill (.punct ';' sp :: rest)) =
      (mview pp s (K.fill rest)).withErrors [.extraSemicolon] := by
  refine mview_tell (by simp) ?_
  rw [parse_place hpp K hl hw, parse_place hpp K hl' hw', parse_semi, Out.tell_bind]

/-- A stray `;` inside a block, with another error after it. -/
example (s : Sched) : mview simplePaths s t!"div { \"a\"; p 1; } br;" =
    (mview simplePaths s t!"div { \"a\" p 1; } br;").withErrors [.extraSemicolon] :=
  stray_semicolon (K := samplePlace) (sp := .alone) (rest := t!"p 1;") simplePaths_starts
    (lexical_of rfl) (lexical_of rfl) (samplePlace_wf _) (samplePlace_wf _)
example (s : Sched) : mview simplePaths s t!"div { \"a\"; p 1; } br;" =
    .errors [.extraSemicolon, .unknownAttribute, .childrenNotFound, .nonStringChild, .extraSemicolon]
      t!"()" := rfl

/-- C26.  A token that starts no child (and is not `;`) is an error; the rest of the block is
skipped, and everything outside is read as if the block ended before that token. -/
theorem stray_token (hpp : pp.Starts) (hne : x ≠ []) (hv : NoValue x)
    (hi : ∀ i r, x ≠ .ident i :: r) (hs : ∀ sp r, x ≠ .punct ';' sp :: r)
    (hl : LexicalToks (K.fill x)) (hl' : LexicalToks (K.fill []))
    (hw : K.Wf pp x) (hw' : K.Wf pp []) :
    mview pp s (K.fill x) = (mview pp s (K.fill [])).withErrors [.synError .invalidChild] := by
  refine mview_tell (by simp) ?_
  have h0 : parseChildren pp [] = .ret [] (.ok [] []) :=
    parseChildren_eq (N := 1) fun fuel hf => by
      obtain ⟨f, rfl⟩ : ∃ f, fuel = f + 1 := ⟨fuel - 1, by omega⟩
      rw [childrenF]; rfl
  rw [parse_place hpp K hl hw, parse_place hpp K hl' hw', parse_nothing hne hv hi hs, h0]
  simp

/-- A stray `,` inside a block. -/
example (s : Sched) : mview simplePaths s t!"div { \"a\", p 1; } br;" =
    (mview simplePaths s t!"div { \"a\" } br;").withErrors [.synError .invalidChild] :=
  stray_token (K := samplePlace) (x := t!", p 1;") simplePaths_starts (by simp)
    (by intro v r; cases v <;> simp [CVal.toks]; rename_i p c; cases p <;> simp)
    (by simp) (by simp) (lexical_of rfl) (lexical_of rfl) (samplePlace_wf _) (samplePlace_wf _)
example (s : Sched) : mview simplePaths s t!"div { \"a\", p 1; } br;" =
    .errors [.synError .invalidChild] t!"()" := rfl

/-! ### C35 -/

/-- C35.  A literal child that is not a string is an error, at any depth; apart from that
everything happens as if it were the empty string. -/
theorem literal_child {v : CVal} (hpp : pp.Starts) (hv : ¬ v.ChildWf)
    (hend : ∀ b, v = .bool b → ∀ g r, rest ≠ .group .bracket g :: r)
    (hl : LexicalToks (K.fill (v.toks ++ rest))) (hl' : LexicalToks (K.fill (.lit (.str []) :: rest)))
    (hw : K.Wf pp (v.toks ++ rest)) (hw' : K.Wf pp (.lit (.str []) :: rest)) :
    mview pp s (K.fill (v.toks ++ rest)) =
      (mview pp s (K.fill (.lit (.str []) :: rest))).withErrors [.nonStringChild] := by
  refine mview_tell (by simp) ?_
  have h0 : parseChildren pp (.lit (.str []) :: rest) =
      prepend [.value (.lit (.tok (.str [])))] (parseChildren pp rest) :=
    parseChildren_eq (N := fuelFor rest + 2) fun fuel hf => by
      obtain ⟨f, rfl⟩ : ∃ f, fuel = f + 2 := ⟨fuel - 2, by omega⟩
      have hy : Yields parseValue (.lit (.str []) :: rest) (.lit (.tok (.str []))) rest :=
        yields_value.mpr ⟨.lit (.str []), rfl, rfl, by rintro b ⟨⟩⟩
      rw [childrenF_ne (by simp), childF, (yields_rollback_some.mpr hy).bind_eq]
      simp [ childrenF_of_large pp rest (fuel := f + 1) (by omega)]
  rw [parse_place hpp K hl hw, parse_place hpp K hl' hw', parse_literal hv hend, h0, Out.tell_bind]

/-- A number and a boolean inside a block. -/
example (s : Sched) : mview simplePaths s t!"div { \"a\" -1 true } br;" =
    (mview simplePaths s t!"div { \"a\" \"\" true } br;").withErrors [.nonStringChild] :=
  literal_child (K := samplePlace) (v := .neg .alone false c!"1") (rest := t!"true") simplePaths_starts
    (by simp [CVal.ChildWf]) (by simp) (lexical_of rfl) (lexical_of rfl) (samplePlace_wf _)
    (samplePlace_wf _)
example (s : Sched) : mview simplePaths s t!"div { \"a\" -1 true } br;" =
    .errors [.nonStringChild, .nonStringChild] t!"()" := rfl

/-! ### C34 -/

/-- C34.  An attribute or directive with an `=` that no value follows is reported, at any
depth, whatever comes after it. -/
theorem missing_value {h : CHead} {e : CEq} {sp : Spacing} (hpp : pp.Starts)
    (hx : x = h.toks ++ (e.toks ++ .punct '=' sp :: rest))
    (hl : LexicalToks (K.fill x)) (hlx : LexicalToks x) (hw : K.Wf pp x)
    (hh : h.Wf pp (e.toks ++ .punct '=' sp :: rest)) (he : e.Wf (.punct '=' sp :: rest))
    (hn : NoValue rest) :
    ∃ b, Flagged pp s (K.fill x) (.missingValue b) := by
  subst hx
  obtain ⟨b, hb⟩ := tells_eq hlx.append he hn
  exact ⟨b, flagged_of_tells (tells_place hpp hl hw (tells_head hpp hlx hh (CEq.follows he) hb))⟩

/-- `p a=1 class:b= c;` inside a block. -/
example (s : Sched) :
    ∃ b, Flagged simplePaths s t!"div { \"a\" p a=1 class:b= c; } br;" (.missingValue b) := by
  have h1 : NameEnds t!"p" t!"a=1 class:b= c;" :=
    ((nameEnds_iff (ts := t!"p a=1 class:b= c;") (by rintro i r ⟨⟩; decide)).mpr ⟨rfl, rfl⟩).2
  have h2 : NameEnds t!"a" t!"=1 class:b= c;" :=
    ((nameEnds_iff (ts := t!"a=1 class:b= c;") (by rintro i r ⟨⟩; decide)).mpr ⟨rfl, rfl⟩).2
  have h3 : NameEnds t!"b" t!"= c;" :=
    ((nameEnds_iff (ts := t!"b= c;") (by rintro i r ⟨⟩; decide)).mpr ⟨rfl, rfl⟩).2
  refine missing_value (K := samplePlace) (h := ⟨none, .name t!"p", [], [.full t!"a" .alone (.lit (.int c!"1"))]⟩)
    (e := .dir ⟨false, c!"class"⟩ .alone (.name t!"b") none) (sp := .alone) (rest := t!"c;")
    simplePaths_starts rfl (lexical_of rfl) (lexical_of rfl) (samplePlace_wf _)
    ⟨⟨h1, by decide⟩, trivial, ⟨h2, trivial⟩, _, _, rfl, by decide, by decide⟩ h3 ?_
  intro v r
  cases v with
  | bool b => cases b <;> simp [CVal.toks, plain]
  | bracket p c => cases p <;> simp [CVal.toks]
  | _ => simp [CVal.toks]
example (s : Sched) : mview simplePaths s t!"div { \"a\" p a=1 class:b= c; } br;" =
    .errors [.missingValue true] t!"()" := rfl

/-! ### C28 -/

/-- C28.  Closure arguments that are not closed are reported, at any depth. -/
theorem args_not_closed {h : CHead} {args : Toks} {sp : Spacing} (hpp : pp.Starts)
    (hx : x = h.toks ++ .punct '|' sp :: args) (ha : ∀ t ∈ args, ∀ sp, t ≠ .punct '|' sp)
    (hl : LexicalToks (K.fill x)) (hlx : LexicalToks x) (hw : K.Wf pp x)
    (hh : h.Wf pp (.punct '|' sp :: args)) :
    Flagged pp s (K.fill x) (.synError .closureNotClosed) := by
  subst hx
  refine flagged_of_tells (tells_place hpp hl hw ?_)
  rw [parse_open hpp hlx hh fun t ht => by
    cases hp : t.isPipe
    · rfl
    · obtain ⟨sp', rfl⟩ := isPipe_eq hp
      exact absurd rfl (ha _ ht sp')]
  simp [Out.Tells]

/-- `A |x, y { .. }` inside a block. -/
example (s : Sched) : Flagged simplePaths s t!"div { \"a\" A |x, y { p; } } br;"
    (.synError .closureNotClosed) := by
  have h1 : NameEnds t!"A" t!"|x, y { p; }" :=
    ((nameEnds_iff (ts := t!"A |x, y { p; }") (by rintro i r ⟨⟩; decide)).mpr ⟨rfl, rfl⟩).2
  exact args_not_closed (K := samplePlace) (h := ⟨none, .name t!"A", [], []⟩) (sp := .alone)
    (args := t!"x, y { p; }") simplePaths_starts rfl (by simp) (lexical_of rfl) (lexical_of rfl)
    (samplePlace_wf _) ⟨⟨h1, by decide⟩, trivial, trivial, _, _, rfl, by decide, by decide⟩
example (s : Sched) : mview simplePaths s t!"div { \"a\" A |x, y { p; } } br;" =
    .errors [.synError .closureNotClosed] t!"()" := rfl

/-- C28.  The arguments of a block are the tokens up to the next pipe, as they are: an element
with such a head, arguments and block is read as one with these arguments, in accepted input at
any depth. -/
theorem args_verbatim {h : CHead} {sp sp' : Spacing} {args content : Toks} {d : Braces}
    {root : List Child} (hpp : pp.Starts)
    (hx : x = h.toks ++ (.punct '|' sp :: (args ++ .punct '|' sp' :: .group d.delim content :: rest)))
    (ha : ∀ t ∈ args, ∀ sp, t ≠ .punct '|' sp)
    (hl : LexicalToks (K.fill x)) (hlx : LexicalToks x) (hw : K.Wf pp x)
    (hh : h.Wf pp (.punct '|' sp :: (args ++ .punct '|' sp' :: .group d.delim content :: rest))) :
    Parses pp (K.fill x) root ↔ ∃ cs cs', Parses pp content cs ∧ Parses pp rest cs' ∧
      K.Tree pp (h.wrap (.mk h.tag.ast (h.sels.map CSel.ast) (h.attrs.map CAttr.ast)
        (some (.punct '|' .alone :: (args ++ [.punct '|' .alone]))) (some cs)) :: cs') root := by
  subst hx
  rw [place_parses hpp hl hw]
  have e : (.punct '|' sp :: (args ++ .punct '|' sp' :: .group d.delim content :: rest)) =
      argsToks (some (sp, args, sp')) ++ (.group d.delim content :: rest) := by simp [argsToks]
  have haw : argsWf (some (sp, args, sp')) := by
    intro _ _ _ he t ht
    simp only [Option.some.injEq, Prod.mk.injEq] at he
    rw [← he.2.1] at ht
    cases hp : t.isPipe
    · rfl
    · obtain ⟨sp', rfl⟩ := isPipe_eq hp
      exact absurd rfl (ha _ ht sp')
  rw [e] at hlx hh ⊢
  have hK : ∀ cs, Parses pp (h.toks ++ (argsToks (some (sp, args, sp')) ++ (.group d.delim content :: rest))) cs ↔
      ∃ cs0 cs', Parses pp content cs0 ∧ Parses pp rest cs' ∧
        cs = h.wrap (.mk h.tag.ast (h.sels.map CSel.ast) (h.attrs.map CAttr.ast)
        (some (.punct '|' .alone :: (args ++ [.punct '|' .alone]))) (some cs0)) :: cs' := by
    intro cs
    have := place_parses (K := .inside [] h (some (sp, args, sp')) d (.here []) rest) (x := content)
      (root := cs) hpp (by simpa [Place.fill, childrenToks] using hlx)
      (by simp only [Place.Wf, childrenWf, Place.fill, childrenToks, List.nil_append]
          exact ⟨trivial, hh, haw, by simp, trivial⟩)
    simp only [Place.fill, childrenToks, List.nil_append] at this
    rw [this]
    constructor
    · rintro ⟨cs0, h1, h2⟩
      cases h2 with
      | inside h3 h4 => cases h3; exact ⟨_, _, h1, h4, by simp [childrenAst, argsAst]⟩
    · rintro ⟨cs0, cs', h1, h2, rfl⟩
      refine ⟨cs0, h1, ?_⟩
      have := Place.Tree.inside (pp := pp) (before := []) (head := h) (args := some (sp, args, sp')) (d := d)
        (Place.Tree.here (pp := pp) [] cs0) h2
      simpa [childrenAst, argsAst] using this
  constructor
  · rintro ⟨cs, h1, h2⟩
    obtain ⟨cs0, cs', h3, h4, rfl⟩ := (hK cs).mp h1
    exact ⟨cs0, cs', h3, h4, h2⟩
  · rintro ⟨cs0, cs', h3, h4, h2⟩
    exact ⟨_, (hK _).mpr ⟨cs0, cs', h3, h4, rfl⟩, h2⟩

/-- The arguments end at the first pipe, even if a type or a closure contains another. -/
example : Parses simplePaths t!"A |x: B<C>, (y | z)| { p; }"
    [.elem (.mk (.component ⟨false, [⟨⟨false, c!"A"⟩, .none⟩]⟩) [] [] (some t!"|x: B<C>, (y | z)|")
      (some [.elem (.mk (.html ⟨true, c!"p"⟩) [] [] none none)]))] := rfl
example (s : Sched) : mview simplePaths s t!"A |x| |y| { p; }" =
    .errors [.expectedChildrenBlock, .synError .invalidChild] t!"()" := rfl

/-! ### C30 -/

/-- C30.  In accepted input, at any depth: what follows is read as a child that is a slot
exactly if it starts with the word `slot` and a single colon. -/
theorem slot_exactly {root : List Child} (hpp : pp.Starts) (hne : x ≠ [])
    (hl : LexicalToks (K.fill x)) (hw : K.Wf pp x) (h : Parses pp (K.fill x) root) :
    ∃ c cs, K.Tree pp (c :: cs) root ∧ ((∃ e, c = .slot e) ↔ SlotStart x) := by
  obtain ⟨cs, h1, h2⟩ := (place_parses hpp hl hw).mp h
  unfold Parses parseChildren at h1
  obtain ⟨f, hf⟩ : ∃ f, fuelFor x = f + 1 := ⟨3 * toksSize x + 2, rfl⟩
  rw [hf] at h1
  rcases yields_children.mp h1 with ⟨h, _⟩ | ⟨_, c, r, cs', h3, h4, rfl⟩
  · exact absurd h hne
  · exact ⟨c, cs', h2, childF_slot h3⟩

/-- `slot:` in a component; not so: components in a module called `slot`, an element, a value. -/
example : SlotStart t!"slot:Then { p; }" ∧ ¬ SlotStart t!"slot::Then { p; }" ∧
    ¬ SlotStart t!"slot a:b=1;" ∧ ¬ SlotStart t!"r#slot:Then { p; }" ∧ ¬ SlotStart t!"slot[x]" := by
  refine ⟨⟨_, _, rfl, ?_⟩, ?_, ?_, ?_, ?_⟩
  · rintro ⟨s, r, h⟩; simp at h
  · rintro ⟨s, r, h, h'⟩
    simp only [List.cons.injEq, TT.punct.injEq, true_and] at h
    exact h' ⟨.alone, t!"Then { p; }", by rw [← h.1, ← h.2]⟩
  · rintro ⟨s, r, h, h'⟩; simp at h
  · rintro ⟨s, r, h, h'⟩; simp at h
  · rintro ⟨s, r, h, h'⟩; simp at h
example : Parses simplePaths t!"slot::Then { slot; }"
    [.elem (.mk (.component ⟨false, [⟨⟨false, c!"slot"⟩, .none⟩, ⟨⟨false, c!"Then"⟩, .none⟩]⟩) [] [] none
      (some [.elem (.mk (.html ⟨true, c!"slot"⟩) [] [] none none)]))] := rfl

/-- The theorem at a place inside a block. -/
example : ∃ c cs, samplePlace.Tree simplePaths (c :: cs)
    [.elem (.mk (.html ⟨true, c!"div"⟩) [] [] none (some [.value (.lit (.tok (.str c!"a"))),
      .slot (.mk (.component ⟨false, [⟨⟨false, c!"Then"⟩, .none⟩]⟩) [] [] none none)])),
     .elem (.mk (.html ⟨true, c!"br"⟩) [] [] none none)] ∧
    ((∃ e, c = .slot e) ↔ SlotStart t!"slot:Then;") :=
  slot_exactly simplePaths_starts (by simp) (lexical_of rfl) (samplePlace_wf _) rfl

end Mview
