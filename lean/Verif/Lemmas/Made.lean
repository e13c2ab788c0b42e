import Verif.Lemmas.MovesExpand
import Verif.Loc.Lex
/-
No places are made up: the macro also works with spans restricted to those that can be made of the
given ones.
-/

namespace Mview.Loc
variable {σ τ : Type} {m : σ → τ}

/-! ### the places after a change -/

theorem DelimSpan.spans_move (d : DelimSpan σ) : (d.move m).spans = d.spans.map m := rfl

mutual
theorem TT.spans_move (t : TT σ) : (t.move m).spans = t.spans.map m := by
  cases t with
  | group d ts s => simp [TT.move, TT.spans, toksSpans_move ts, DelimSpan.spans_move]
  | _ => simp [TT.move, TT.spans]
theorem toksSpans_move (ts : List (TT σ)) : toksSpans (moveToks m ts) = (toksSpans ts).map m := by
  cases ts with
  | nil => simp [toksSpans]
  | cons t ts => simp [toksSpans, TT.spans_move t, toksSpans_move ts]
end

theorem result_spans_move (r : MacroResult σ) : (r.move m).spans = r.spans.map m := by
  cases r with
  | tokens ts => simp [MacroResult.move, MacroResult.spans, toksSpans_move]
  | errors ds dummy =>
    simp [MacroResult.move, MacroResult.spans, toksSpans_move, Function.comp_def, LDiag.move]
  | panicked p => rfl
  | hangs => rfl

theorem pathRun_erase_move (r : PathRun σ) : (r.move m).erase = r.erase := by
  have ha : ∀ a : PathArgs σ, (a.move m).erase = a.erase := by
    intro a
    rcases a with _ | ⟨_ | _, _, _, _⟩ | _ <;> simp [PathArgs.move, PathArgs.erase, eraseToks_move]
  cases r with
  | path p rest =>
    rcases p with ⟨_ | _, segs⟩ <;>
      simp [PathRun.move, PathRun.erase, Path.move, Path.erase, eraseToks_move, PathSeg.move,
        PathSeg.erase, ha, SIdent.move, Function.comp_def]
  | error sp rest => simp [PathRun.move, PathRun.erase, eraseToks_move]

/-! ### places with a property -/

/-- The places that have the property. -/
abbrev Those (Q : σ → Prop) : Type := { p : σ // Q p }

theorem lift_list {α β : Type} {f : α → β} {Q : β → Prop} {l : List β}
    (hf : ∀ b, Q b → ∃ a, f a = b) (h : ∀ b ∈ l, Q b) : ∃ l' : List α, l'.map f = l := by
  induction l with
  | nil => exact ⟨[], rfl⟩
  | cons b l ih =>
    obtain ⟨a, rfl⟩ := hf b (h b (by simp))
    obtain ⟨l', rfl⟩ := ih fun b hb => h b (by simp [hb])
    exact ⟨a :: l', rfl⟩

variable {Q : σ → Prop}

theorem lift_delim (d : DelimSpan σ) (h : ∀ p ∈ d.spans, Q p) :
    ∃ d' : DelimSpan (Those Q), d'.move Subtype.val = d := by
  simp only [DelimSpan.spans, List.mem_cons, List.not_mem_nil, or_false, forall_eq_or_imp, forall_eq] at h
  exact ⟨⟨⟨_, h.1⟩, ⟨_, h.2.1⟩, ⟨_, h.2.2⟩⟩, rfl⟩

mutual
theorem lift_tt (t : TT σ) (h : ∀ p ∈ t.spans, Q p) : ∃ t' : TT (Those Q), t'.move Subtype.val = t := by
  match t with
  | .ident i s => exact ⟨.ident i ⟨s, h s (by simp [TT.spans])⟩, by simp [TT.move]⟩
  | .punct c j s => exact ⟨.punct c j ⟨s, h s (by simp [TT.spans])⟩, by simp [TT.move]⟩
  | .lit l s => exact ⟨.lit l ⟨s, h s (by simp [TT.spans])⟩, by simp [TT.move]⟩
  | .group d ts s =>
    obtain ⟨s', hs⟩ := lift_delim s fun p hp => h p (by simp [TT.spans, hp])
    obtain ⟨ts', hts⟩ := lift_toks ts fun p hp => h p (by simp [TT.spans, hp])
    exact ⟨.group d ts' s', by simp [TT.move, hs, hts]⟩
theorem lift_toks (ts : List (TT σ)) (h : ∀ p ∈ toksSpans ts, Q p) :
    ∃ ts' : Toks (Those Q), moveToks Subtype.val ts' = ts := by
  match ts with
  | [] => exact ⟨[], by simp⟩
  | t :: ts =>
    obtain ⟨t', ht⟩ := lift_tt t fun p hp => h p (by simp [toksSpans, hp])
    obtain ⟨ts', hts⟩ := lift_toks ts fun p hp => h p (by simp [toksSpans, hp])
    exact ⟨t' :: ts', by simp [ht, hts]⟩
end

theorem lift_args (a : PathArgs σ) (h : ∀ p ∈ a.spans, Q p) :
    ∃ a' : PathArgs (Those Q), a'.move Subtype.val = a := by
  rcases a with _ | ⟨_ | c, lt, inner, gt⟩ | ⟨inner, sp⟩
  · exact ⟨.none, rfl⟩
  · obtain ⟨i', hi⟩ := lift_toks inner fun p hp => h p (by simp [PathArgs.spans, hp])
    exact ⟨.angle Option.none ⟨lt, h _ (by simp [PathArgs.spans])⟩ i'
      ⟨gt, h _ (by simp [PathArgs.spans])⟩, by simp [PathArgs.move, hi]⟩
  · obtain ⟨i', hi⟩ := lift_toks inner fun p hp => h p (by simp [PathArgs.spans, hp])
    exact ⟨.angle (some (⟨c.1, h _ (by simp [PathArgs.spans, colonSpans])⟩,
      ⟨c.2, h _ (by simp [PathArgs.spans, colonSpans])⟩)) ⟨lt, h _ (by simp [PathArgs.spans])⟩ i'
      ⟨gt, h _ (by simp [PathArgs.spans])⟩, by simp [PathArgs.move, hi]⟩
  · obtain ⟨i', hi⟩ := lift_toks inner fun p hp => h p (by simp [PathArgs.spans, hp])
    exact ⟨.paren i' ⟨sp, h _ (by simp [PathArgs.spans])⟩, by simp [PathArgs.move, hi]⟩

theorem lift_seg (s : PathSeg σ) (h : ∀ p ∈ s.spans, Q p) :
    ∃ s' : PathSeg (Those Q), s'.move Subtype.val = s := by
  obtain ⟨a', ha⟩ := lift_args s.args fun p hp => h p (by simp [PathSeg.spans, hp])
  exact ⟨⟨⟨s.ident.id, ⟨s.ident.sp, h _ (by simp [PathSeg.spans])⟩⟩, a',
    (⟨s.sep.1, h _ (by simp [PathSeg.spans, colonSpans])⟩,
      ⟨s.sep.2, h _ (by simp [PathSeg.spans, colonSpans])⟩)⟩, by simp [PathSeg.move, ha, SIdent.move]⟩

theorem lift_path (p : Path σ) (h : ∀ q ∈ p.spans, Q q) :
    ∃ p' : Path (Those Q), p'.move Subtype.val = p := by
  rcases p with ⟨lead, segs⟩
  obtain ⟨ss, hss⟩ := lift_list (Q := fun s : PathSeg σ => ∀ q ∈ s.spans, Q q)
    (f := PathSeg.move Subtype.val) (l := segs) lift_seg
    fun s hs q hq => h q (by simp only [Path.spans, List.mem_append, List.mem_flatMap]
                             exact .inr ⟨s, hs, hq⟩)
  cases lead with
  | none => exact ⟨⟨none, ss⟩, by simp [Path.move, hss]⟩
  | some c =>
    exact ⟨⟨some (⟨c.1, h _ (by simp [Path.spans, colonSpans])⟩,
      ⟨c.2, h _ (by simp [Path.spans, colonSpans])⟩), ss⟩, by simp [Path.move, hss]⟩

theorem lift_pathRun (r : PathRun σ) (h : ∀ q ∈ r.spans, Q q) :
    ∃ r' : PathRun (Those Q), r'.move Subtype.val = r := by
  cases r with
  | path p rest =>
    obtain ⟨p', hp⟩ := lift_path p fun q hq => h q (by simp [PathRun.spans, hq])
    obtain ⟨t', ht⟩ := lift_toks rest fun q hq => h q (by simp [PathRun.spans, hq])
    exact ⟨.path p' t', by simp [PathRun.move, hp, ht]⟩
  | error sp rest =>
    obtain ⟨t', ht⟩ := lift_toks rest fun q hq => h q (by simp [PathRun.spans, hq])
    exact ⟨.error ⟨sp, h _ (by simp [PathRun.spans])⟩ t', by simp [PathRun.move, ht]⟩

/-! ### the places that can be made -/

variable [Spans σ]

theorem Made.trans {l l' : List σ} (h : ∀ p ∈ l, Made l' p) {p : σ} (hp : Made l p) : Made l' p := by
  induction hp with
  | callSite => exact .callSite
  | given hp => exact h _ hp
  | join _ _ e iha ihb => exact .join iha ihb e

/-- Spans as before, of those that can be made of the given ones. -/
instance Made.spans (l : List σ) : Spans (Those (Made l)) where
  callSite := ⟨Loc.callSite, .callSite⟩
  join a b := match h : Spans.join a.1 b.1 with
    | none => none
    | some c => some ⟨c, .join a.2 b.2 h⟩
  join_self a := by
    apply Subtype.ext
    have := Spans.join_self a.1
    split
    · rfl
    · rename_i c h
      rw [h] at this
      exact this

instance Made.move (l : List σ) : Move (Subtype.val : Those (Made l) → σ) where
  callSite := rfl
  joinOr a b := by
    show joinOr a.1 b.1 = ((match h : Spans.join a.1 b.1 with
      | none => none
      | some c => some ⟨c, Made.join a.2 b.2 h⟩ : Option (Those (Made l))).getD a).1
    unfold joinOr
    split <;> rename_i h <;> exact congrArg (·.getD a.1) h

/-- The places in the result are made of those in the input. -/
theorem mview_made {pp : Mview.PathParser} {lp : PathParser σ pp} (h : lp.Honest) (s : Sched)
    (ts : Toks σ) {p : σ} (hp : p ∈ (mview lp s ts).spans) : Made (toksSpans ts) p := by
  obtain ⟨ts', hts⟩ := lift_toks (Q := Made (toksSpans ts)) ts fun p hp => .given hp
  have run : ∀ (sc : Those (Made (toksSpans ts))) (us : Toks (Those (Made (toksSpans ts)))),
      ∃ r : PathRun (Those (Made (toksSpans ts))),
        r.move Subtype.val = lp.run sc.1 (moveToks Subtype.val us) := by
    intro sc us
    refine lift_pathRun _ fun q hq => Made.trans ?_ (h _ _ q hq)
    intro p hp
    rw [toksSpans_move] at hp
    simp only [List.mem_cons, List.mem_map] at hp
    rcases hp with rfl | ⟨a, _, rfl⟩
    · exact sc.2
    · exact a.2
  let lp' : PathParser (Those (Made (toksSpans ts))) pp := {
    run := fun sc us => (run sc us).choose
    erases := fun sc us => by
      rw [← pathRun_erase_move (m := Subtype.val), (run sc us).choose_spec, lp.erases,
        eraseToks_move] }
  have hl : lp'.MovesTo Subtype.val lp := fun sc us => (run sc us).choose_spec.symm
  have e := mview_move_eq hl s ts'
  rw [hts] at e
  rw [e, result_spans_move] at hp
  simp only [List.mem_map] at hp
  obtain ⟨a, _, rfl⟩ := hp
  exact a.2

/-! ### `simplePaths` -/

omit [Spans σ] in
theorem angleBody_move (ts : Toks σ) : ∀ d, angleBody d (moveToks m ts) =
    (angleBody d ts).map fun r => ((moveToks m r.1.1, m r.1.2), moveToks m r.2) := by
  induction ts with
  | nil => intro d; simp [angleBody]
  | cons t ts ih =>
    intro d
    cases t with
    | punct c s p =>
      simp only [moveToks_cons, TT.move, angleBody]
      split
      · cases d with
        | zero => simp
        | succ d => simp only [ih, Option.map_map]; cases angleBody d ts <;> simp [TT.move]
      · split
        · simp only [ih, Option.map_map]; cases angleBody (d + 1) ts <;> simp [TT.move]
        · simp only [ih, Option.map_map]; cases angleBody d ts <;> simp [TT.move]
    | ident i p => simp only [moveToks_cons, TT.move, angleBody, ih, Option.map_map]; cases angleBody d ts <;> simp [TT.move]
    | lit i p => simp only [moveToks_cons, TT.move, angleBody, ih, Option.map_map]; cases angleBody d ts <;> simp [TT.move]
    | group i g p => simp only [moveToks_cons, TT.move, angleBody, ih, Option.map_map]; cases angleBody d ts <;> simp [TT.move]

omit [Spans σ] in
theorem simpleArgs_move (ts : Toks σ) : simpleArgs (moveToks m ts) =
    (simpleArgs ts).map fun r => (r.1.move m, moveToks m r.2) := by
  match ts with
  | [] => simp [simpleArgs, PathArgs.move]
  | .ident .. :: _ => simp [simpleArgs, TT.move, PathArgs.move]
  | .lit .. :: _ => simp [simpleArgs, TT.move, PathArgs.move]
  | .group .. :: _ => simp [simpleArgs, TT.move, PathArgs.move]
  | .punct c s p :: ts =>
    simp only [moveToks_cons, TT.move]
    by_cases h : c = '<'
    · simp only [simpleArgs, if_pos h, angleBody_move, Option.map_map]
      cases angleBody 0 ts <;> simp [PathArgs.move]
    · match ts with
      | [] => simp [simpleArgs, h, TT.move, PathArgs.move]
      | .ident .. :: _ => simp [simpleArgs, h, TT.move, PathArgs.move]
      | .lit .. :: _ => simp [simpleArgs, h, TT.move, PathArgs.move]
      | .group .. :: _ => simp [simpleArgs, h, TT.move, PathArgs.move]
      | [.punct c2 s2 p2] => simp [simpleArgs, h, TT.move, PathArgs.move]
      | .punct c2 s2 p2 :: .ident .. :: _ => simp [simpleArgs, h, TT.move, PathArgs.move]
      | .punct c2 s2 p2 :: .lit .. :: _ => simp [simpleArgs, h, TT.move, PathArgs.move]
      | .punct c2 s2 p2 :: .group .. :: _ => simp [simpleArgs, h, TT.move, PathArgs.move]
      | .punct c2 s2 p2 :: .punct c3 s3 p3 :: ts =>
        simp only [simpleArgs, if_neg h, moveToks_cons, TT.move]
        split
        · simp only [angleBody_move, Option.map_map]
          cases angleBody 0 ts <;> simp [PathArgs.move]
        · simp [PathArgs.move, TT.move]

omit [Spans σ] in
theorem colons_move (ts : Toks σ) : colons (moveToks m ts) =
    (colons ts).map fun r => ((m r.1.1, m r.1.2), moveToks m r.2) := by
  match ts with
  | [] => simp [colons]
  | .ident .. :: _ => simp [colons, TT.move]
  | .lit .. :: _ => simp [colons, TT.move]
  | .group .. :: _ => simp [colons, TT.move]
  | [.punct c s p] => simp [colons, TT.move]
  | .punct c s p :: .ident .. :: _ => simp [colons, TT.move]
  | .punct c s p :: .lit .. :: _ => simp [colons, TT.move]
  | .punct c s p :: .group .. :: _ => simp [colons, TT.move]
  | .punct c s p :: .punct c2 s2 p2 :: ts =>
    simp only [moveToks_cons, TT.move, colons]
    split <;> simp

omit [Spans σ] in
theorem simpleSegs_move (n : Nat) : ∀ ts : Toks σ, simpleSegs n (moveToks m ts) =
    (simpleSegs n ts).map fun r => (r.1.map (PathSeg.move m), moveToks m r.2) := by
  induction n with
  | zero => intro ts; rfl
  | succ n ih =>
    intro ts
    match ts with
    | [] => simp [simpleSegs]
    | .punct .. :: _ => simp [simpleSegs, TT.move]
    | .lit .. :: _ => simp [simpleSegs, TT.move]
    | .group .. :: _ => simp [simpleSegs, TT.move]
    | .ident i sp :: ts =>
      simp only [moveToks_cons, TT.move, simpleSegs, simpleArgs_move]
      cases simpleArgs ts with
      | none => rfl
      | some r =>
        obtain ⟨a, rest⟩ := r
        simp only [Option.map_some, colons_move]
        cases colons rest with
        | none => simp [PathSeg.move, SIdent.move]
        | some c =>
          obtain ⟨c, r⟩ := c
          simp only [Option.map_some, ih, Option.map_map]
          cases simpleSegs n r <;> simp [PathSeg.move, SIdent.move]

omit [Spans σ] in
/-- The path parser of the examples treats all places alike. -/
theorem simplePaths_moves (m : σ → τ) : (simplePaths (σ := σ)).MovesTo m simplePaths := by
  intro sc ts
  show simpleRun (m sc) (moveToks m ts) = (simpleRun sc ts).move m
  unfold simpleRun
  rw [colons_move, moveToks_length]
  cases colons ts with
  | none =>
    simp only [Option.map_none, simpleSegs_move]
    cases simpleSegs (ts.length + 1) ts <;> simp [PathRun.move, Path.move, spanAt_move]
  | some c =>
    obtain ⟨c, r⟩ := c
    simp only [Option.map_some, simpleSegs_move]
    cases simpleSegs (ts.length + 1) r <;> simp [PathRun.move, Path.move, spanAt_move]

omit [Spans σ] in
theorem PathArgs.spans_move (a : PathArgs σ) : (a.move m).spans = a.spans.map m := by
  rcases a with _ | ⟨_ | c, lt, inner, gt⟩ | ⟨inner, sp⟩ <;>
    simp [PathArgs.move, PathArgs.spans, toksSpans_move, colonSpans]

omit [Spans σ] in
theorem pathRun_spans_move (r : PathRun σ) : (r.move m).spans = r.spans.map m := by
  cases r with
  | path p rest =>
    rcases p with ⟨_ | _, segs⟩ <;>
      simp [PathRun.move, PathRun.spans, Path.move, Path.spans, toksSpans_move, PathSeg.move,
        PathSeg.spans, PathArgs.spans_move, SIdent.move, colonSpans, List.map_flatMap, List.flatMap_map]
  | error sp rest => simp [PathRun.move, PathRun.spans, toksSpans_move]

/-- The path parser of the examples makes up no places: it also works on the given places alone. -/
theorem simplePaths_honest : (simplePaths (σ := σ)).Honest := by
  intro sc ts p hp
  obtain ⟨ts', hts⟩ := lift_toks (Q := fun q => q ∈ sc :: toksSpans ts) ts fun p hp => by simp [hp]
  have e := simplePaths_moves (Subtype.val (p := fun q => q ∈ sc :: toksSpans ts)) ⟨sc, by simp⟩ ts'
  rw [hts] at e
  rw [e, pathRun_spans_move] at hp
  simp only [List.mem_map] at hp
  obtain ⟨a, _, rfl⟩ := hp
  exact .given a.2

end Mview.Loc
