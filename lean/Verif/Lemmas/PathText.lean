import Verif.Lemmas.SynPathMore
import Verif.Spec.PathText
/-
C62: `synPaths` reads the paths of Spec/PathText.
-/

namespace Mview
open Lex

variable {ga : ArgParser}

/-! ### printing -/

/-- `printArgs` for all of the arguments -/
def printAll : Bool → List SynArg → Toks × Bool
  | sep, [] => ([], sep)
  | sep, a :: as =>
    ((if sep then [] else [.punct ',' .alone]) ++ a.toks ++
      (if a.comma then [.punct ',' .alone] else []) ++ (printAll a.comma as).1, (printAll a.comma as).2)

theorem printArgs_all (lt : Bool) : ∀ (sep : Bool) (as : List SynArg),
    printArgs lt sep as = printAll sep (as.filter fun a => a.lifetime == lt)
  | _, [] => rfl
  | sep, a :: as => by
    unfold printArgs
    split
    · rename_i h
      simp [h, printAll, printArgs_all lt a.comma as]
    · rename_i h
      simp [h, printArgs_all lt sep as]

theorem printAll_append : ∀ (sep : Bool) (as bs : List SynArg),
    printAll sep (as ++ bs) = ((printAll sep as).1 ++ (printAll (printAll sep as).2 bs).1,
      (printAll (printAll sep as).2 bs).2)
  | _, [], _ => rfl
  | sep, a :: as, bs => by simp [printAll, printAll_append a.comma as bs]

theorem printAll_joined : ∀ (sep : Bool) (as : List SynArg),
    (printAll sep as).1 = (if sep || as.isEmpty then [] else [.punct ',' .alone]) ++
      joined (as.map fun a => (a.toks, a.comma))
  | sep, [] => by simp [printAll, joined]
  | sep, [a] => by simp [printAll, joined]
  | sep, a :: b :: as => by
    have ih := printAll_joined a.comma (b :: as)
    unfold printAll
    rw [ih]
    cases sep <;> cases a.comma <;> simp [joined]

/-- as the parser keeps it -/
def WArgComma.syn (a : WArgComma) : SynArg := ⟨a.1.isLifetime, a.1.printed, a.2.isSome⟩

theorem printed_joined (ws : List WArgComma) : printedArgs (ws.map WArgComma.syn) =
    joined ((lifetimesFirst ws).map fun a => (a.1.printed, a.2.isSome)) := by
  have h := printAll_joined true (((ws.map WArgComma.syn).filter fun a => a.lifetime == true) ++
    ((ws.map WArgComma.syn).filter fun a => a.lifetime == false))
  rw [printAll_append] at h
  simp only [printedArgs, printArgs_all]
  simp only [Bool.true_or, if_true, List.nil_append] at h
  rw [h]
  simp only [lifetimesFirst, List.filter_map, List.map_append, List.map_map]
  have h1 : ((fun a : SynArg => a.lifetime == true) ∘ WArgComma.syn) = fun a => a.1.isLifetime := by
    funext a; simp [WArgComma.syn]
  have h2 : ((fun a : SynArg => a.lifetime == false) ∘ WArgComma.syn) = fun a => !a.1.isLifetime := by
    funext a; simp [WArgComma.syn]
  rw [h1, h2]
  rfl

/-! ### generic arguments -/

theorem endsArg_comma {s : Spacing} : (TT.punct ',' s).EndsArg := ⟨_, _, rfl, .inl rfl⟩
theorem endsArg_gt {s : Spacing} : (TT.punct '>' s).EndsArg := ⟨_, _, rfl, .inr (.inl rfl)⟩

theorem arg_sound (hl : ga.Local) {ts : Toks} {t : TT} {after : Toks} {lt : Bool} {a : Toks} (ht : t.EndsArg)
    (hn : peekPunct '>' ts = false) (h : synArg ga ts = (some (lt, a), t :: after)) :
    ∃ w : WArg, w.Wf ga t ∧ w.isLifetime = lt ∧ w.printed = a ∧ ts = w.toks ++ t :: after := by
  have hga : (∀ i r, ts = .punct '\'' .joint :: .ident i :: r → ∃ s r', r = .punct '+' s :: r') →
      ((ga.run ts).1.map (false, ·), (ga.run ts).2) = (some (lt, a), t :: after) →
      ∃ w : WArg, w.Wf ga t ∧ w.isLifetime = lt ∧ w.printed = a ∧ ts = w.toks ++ t :: after := by
    intro hp h
    match hr : ga.run ts with
    | (none, _) => simp [hr] at h
    | (some a', y) =>
      simp only [hr, Option.map_some, Prod.mk.injEq, Option.some.injEq] at h
      obtain ⟨⟨rfl, rfl⟩, rfl⟩ := h
      obtain ⟨used, hu, rfl⟩ := ga.progress _ _ _ hr
      refine ⟨.other used a', ⟨?_, ?_, ?_⟩, rfl, rfl, rfl⟩
      · rintro s r rfl
        simp [peekPunct] at hn
      · rintro i r rfl
        obtain ⟨s, r', he⟩ := hp i (r ++ t :: after) rfl
        cases r with
        | nil =>
          simp only [List.nil_append, List.cons.injEq] at he
          obtain ⟨c, s', rfl, hc⟩ := ht
          have := he.1
          simp only [TT.punct.injEq] at this
          rw [this.1] at hc
          simp at hc
        | cons x r =>
          simp only [List.cons_append, List.cons.injEq] at he
          exact ⟨s, r, by rw [he.1]⟩
      · intro after'
        exact hl ht hr
  unfold synArg at h
  split at h
  · rename_i i r
    split at h
    · rename_i hp
      refine hga ?_ h
      intro i' r' he
      simp only [List.cons.injEq, true_and] at he
      obtain ⟨s, r'', hr⟩ := synPeek_cons hp
      exact ⟨s, r'', by rw [← he.2, hr]⟩
    · simp only [Prod.mk.injEq, Option.some.injEq] at h
      obtain ⟨⟨rfl, rfl⟩, rfl⟩ := h
      exact ⟨.lifetime i, trivial, rfl, rfl, rfl⟩
  · rename_i hne
    refine hga ?_ h
    intro i r he
    exact absurd he (hne i r)

theorem arg_complete {w : WArg} {t : TT} (ht : t.EndsArg) (h : w.Wf ga t) (after : Toks) :
    synArg ga (w.toks ++ t :: after) = (some (w.isLifetime, w.printed), t :: after) := by
  cases w with
  | lifetime i =>
    obtain ⟨c, s, rfl, hc⟩ := ht
    have : peekPunct '+' (.punct c s :: after) = false := by
      rcases hc with rfl | rfl | rfl <;> simp [peekPunct]
    simp [WArg.toks, synArg, this, WArg.isLifetime, WArg.printed]
  | other used printed =>
    obtain ⟨h1, h2, h3⟩ := h
    have hr := h3 after
    simp only [WArg.toks, WArg.isLifetime, WArg.printed]
    have hu : used ≠ [] := by
      obtain ⟨u, hu, he⟩ := ga.progress _ _ _ hr
      have := List.append_cancel_right he
      rwa [this]
    unfold synArg
    split
    · rename_i i r he
      cases used with
      | nil => exact absurd rfl hu
      | cons x used =>
        cases used with
        | nil =>
          simp only [List.cons_append, List.nil_append, List.cons.injEq] at he
          obtain ⟨c, s, hc, _⟩ := ht
          rw [hc] at he
          simp at he
        | cons y used =>
          simp only [List.cons_append, List.cons.injEq] at he
          obtain ⟨rfl, rfl, rfl⟩ := he
          obtain ⟨s, r', rfl⟩ := h2 i used rfl
          rw [if_pos (by simp [peekPunct])]
          simp only [List.cons_append] at hr ⊢
          rw [hr]
          simp
    · rw [hr]
      simp

theorem peekPunct_false {c : Char} {ts : Toks} : peekPunct c ts = false ↔ ∀ s r, ts ≠ .punct c s :: r := by
  constructor
  · rintro h s r rfl
    simp [peekPunct] at h
  · intro h
    rw [← Bool.not_eq_true]
    intro hp
    obtain ⟨s, r, he⟩ := synPeek_cons hp
    exact h s r he

theorem args_sound (hl : ga.Local) : ∀ {n : Nat} {ts : Toks} {as : List SynArg} {r : Toks},
    synArgs ga n ts = (some as, r) → ∃ (ws : List WArgComma) (gt : Spacing) (r' : Toks),
      r = .punct '>' gt :: r' ∧ (∀ a ∈ ws, a.1.Wf ga (a.next gt)) ∧ Separated ws ∧
      as = ws.map WArgComma.syn ∧ ts = argsText ws ++ r
  | 0, _, _, _, h => by simp [synArgs] at h
  | n + 1, ts, as, r, h => by
    unfold synArgs at h
    split at h
    · rename_i hp
      simp only [Prod.mk.injEq, Option.some.injEq] at h
      obtain ⟨rfl, rfl⟩ := h
      obtain ⟨s, r', rfl⟩ := synPeek_cons hp
      exact ⟨[], s, r', rfl, by simp, trivial, rfl, rfl⟩
    · rename_i hn
      rw [Bool.not_eq_true] at hn
      split at h
      · simp at h
      · rename_i lt a r0 ha
        split at h
        · rename_i hp
          simp only [Prod.mk.injEq, Option.some.injEq] at h
          obtain ⟨rfl, rfl⟩ := h
          obtain ⟨s, r', rfl⟩ := synPeek_cons hp
          obtain ⟨w, hw, rfl, rfl, rfl⟩ := arg_sound hl endsArg_gt hn ha
          refine ⟨[(w, none)], s, r', rfl, by simpa [WArgComma.next] using hw, trivial, rfl, ?_⟩
          simp [argsText, WArgComma.toks]
        · split at h
          · rename_i hc
            obtain ⟨s, r1, rfl⟩ := synPeek_cons hc
            obtain ⟨w, hw, rfl, rfl, rfl⟩ := arg_sound hl endsArg_comma hn ha
            simp only [Prod.mk.injEq, Option.map_eq_some_iff, List.drop_succ_cons, List.drop_zero] at h
            obtain ⟨⟨as', hs, rfl⟩, rfl⟩ := h
            obtain ⟨ws, gt, r', h1, h2, h3, rfl, h5⟩ := args_sound hl (r := (synArgs ga n r1).2) (Prod.ext hs rfl)
            refine ⟨(w, some s) :: ws, gt, r', h1, ?_, ?_, rfl, ?_⟩
            · intro x hx
              rcases List.mem_cons.mp hx with rfl | hx
              · exact hw
              · exact h2 x hx
            · cases ws with
              | nil => trivial
              | cons b ws => exact ⟨by simp, h3⟩
            · conv => lhs; rw [h5]
              simp [argsText, WArgComma.toks]
          · simp at h

theorem args_complete : ∀ {n : Nat} {ws : List WArgComma} {gt : Spacing} {r : Toks},
    (∀ a ∈ ws, a.1.Wf ga (a.next gt)) → Separated ws → (argsText ws ++ .punct '>' gt :: r).length < n →
    synArgs ga n (argsText ws ++ .punct '>' gt :: r) = (some (ws.map WArgComma.syn), .punct '>' gt :: r)
  | 0, _, _, _, _, _, h => absurd h (by omega)
  | n + 1, [], gt, r, _, _, _ => by simp [synArgs, argsText, peekPunct]
  | n + 1, (w, c) :: ws, gt, r, hw, hs, hn => by
    have hw1 := hw (w, c) (by simp)
    have hp : ∀ t after, peekPunct '>' (w.toks ++ t :: after) = false ∨ w.toks = [] := by
      intro t after
      cases w with
      | lifetime i => exact .inl rfl
      | other used printed =>
        cases used with
        | nil => exact .inr rfl
        | cons x used =>
          refine .inl (peekPunct_false.mpr ?_)
          intro s r he
          simp only [WArg.toks, List.cons_append, List.cons.injEq] at he
          exact hw1.1 s used (by rw [he.1])
    have hne : w.toks ≠ [] := by
      cases w with
      | lifetime i => simp [WArg.toks]
      | other used printed =>
        have := hw1.2.2 []
        obtain ⟨u, hu, he⟩ := ga.progress _ _ _ this
        have := List.append_cancel_right he
        simpa [WArg.toks, this] using hu
    cases c with
    | none =>
      cases ws with
      | cons b ws => exact absurd rfl hs.1
      | nil =>
        have ha := arg_complete (endsArg_gt (s := gt)) hw1 r
        simp only [argsText, List.flatMap_cons, List.flatMap_nil, WArgComma.toks, Option.toList_none, List.map_nil,
          List.append_nil, List.map_cons]
        unfold synArgs
        rw [if_neg (by simp [(hp _ r).resolve_right hne]), ha]
        simp only
        rw [if_pos (by simp [peekPunct])]
        rfl
    | some s =>
      have ha := arg_complete (endsArg_comma (s := s)) hw1 (argsText ws ++ .punct '>' gt :: r)
      have he : argsText ((w, some s) :: ws) ++ .punct '>' gt :: r =
          w.toks ++ .punct ',' s :: (argsText ws ++ .punct '>' gt :: r) := by simp [argsText, WArgComma.toks]
      rw [he] at hn ⊢
      have hs' : Separated ws := by
        cases ws with
        | nil => trivial
        | cons b ws => exact hs.2
      have ih := args_complete (n := n) (r := r) (fun a ha => hw a (by simp [ha])) hs' (by
        simp only [List.length_append, List.length_cons] at hn ⊢
        omega)
      unfold synArgs
      rw [if_neg (by simp [(hp _ _).resolve_right hne]), ha]
      simp only
      rw [if_neg (by simp [peekPunct]), if_pos (by simp [peekPunct])]
      simp only [List.drop_succ_cons, List.drop_zero, ih]
      rfl

/-! ### segments -/

theorem sole_iff {i : Ident} : (i.raw = false ∧ i.name ∈ soleWords) ↔ i.Sole := by
  obtain ⟨raw, name⟩ := i
  simp only [Ident.Sole, soleWords, plain, List.map_cons, List.map_nil, List.mem_cons, List.not_mem_nil, or_false,
    Ident.mk.injEq]
  constructor
  · rintro ⟨rfl, h⟩; simpa using h
  · rintro (h | h | h) <;> simp [h]

theorem segment_iff {i : Ident} {r : Toks} (hs : ¬ i.Sole) :
    (i = ⟨false, c!"Self"⟩ ∨ peekIdent (.ident i :: r) = true) ↔ i.Segment := by
  have : peekIdent (.ident i :: r) = peekIdent [.ident i] := rfl
  rw [this, wordNext_iff]
  exact ⟨fun h => ⟨hs, h⟩, fun h => h.2⟩

theorem angle_sound (hl : ga.Local) {b : Bool} {s : Spacing} {ts r : Toks} {a : PathArgs}
    (h : synAngle ga b (.punct '<' s :: ts) = (some a, r)) : ∃ ws gt,
      (∀ a ∈ ws, a.1.Wf ga (WArgComma.next gt a)) ∧ Separated ws ∧ ts = argsText ws ++ .punct '>' gt :: r ∧
      a = .angle b (joined ((lifetimesFirst ws).map fun a => (a.1.printed, a.2.isSome))) := by
  unfold synAngle at h
  split at h
  · simp at h
  · rename_i as r0 hs
    simp only [Prod.mk.injEq, Option.some.injEq] at h
    obtain ⟨rfl, rfl⟩ := h
    obtain ⟨ws, gt, r', rfl, h2, h3, rfl, h5⟩ := args_sound hl hs
    exact ⟨ws, gt, h2, h3, h5, by rw [printed_joined]⟩

theorem angle_complete {b : Bool} {s : Spacing} {r : Toks} {ws : List WArgComma} {gt : Spacing}
    (hw : ∀ a ∈ ws, a.1.Wf ga (a.next gt)) (hs : Separated ws) :
    synAngle ga b (.punct '<' s :: (argsText ws ++ .punct '>' gt :: r)) =
      (some (.angle b (joined ((lifetimesFirst ws).map fun a => (a.1.printed, a.2.isSome)))), r) := by
  unfold synAngle
  simp only [List.drop_succ_cons, List.drop_zero]
  rw [args_complete hw hs (by simp; omega)]
  simp [printed_joined]

theorem peekPunct2_false {a b : Char} {ts : Toks} :
    peekPunct2 a b ts = false ↔ ∀ s r, ts ≠ .punct a .joint :: .punct b s :: r := by
  constructor
  · rintro h s r rfl
    simp [peekPunct2] at h
  · intro h
    rw [← Bool.not_eq_true]
    intro hp
    obtain ⟨s, r, he⟩ := synPeek2_cons hp
    exact h s r he

theorem seg_sound (hl : ga.Local) {ts r : Toks} {seg : PathSeg} (h : synSeg ga ts = (some seg, r)) :
    ∃ w : WSeg, w.Wf ga ∧ seg = w.ast ∧ ts = w.toks ++ r ∧ w.EndsBefore r := by
  unfold synSeg at h
  split at h
  · rename_i i r0
    split at h
    · rename_i hs
      rw [sole_iff] at hs
      simp only [Prod.mk.injEq, Option.some.injEq] at h
      obtain ⟨rfl, rfl⟩ := h
      exact ⟨⟨i, none⟩, .inl hs, rfl, rfl, fun hseg => absurd hs hseg.1⟩
    · rename_i hs
      rw [sole_iff] at hs
      split at h
      · rename_i hi
        rw [segment_iff hs] at hi
        split at h
        · rename_i hc
          obtain ⟨s, r1, rfl⟩ := synPeek_cons (Bool.and_eq_true _ _ ▸ hc).1
          have hc := (Bool.and_eq_true _ _ ▸ hc).2
          rw [Bool.not_eq_true', peekPunct2_false] at hc
          simp only [Prod.mk.injEq, Option.map_eq_some_iff] at h
          obtain ⟨⟨a, ha, rfl⟩, rfl⟩ := h
          obtain ⟨ws, gt, h1, h2, h3, rfl⟩ := angle_sound hl (r := (synAngle ga false _).2) (Prod.ext ha rfl)
          refine ⟨⟨i, some ⟨none, s, ws, gt⟩⟩, ⟨hi, h1, h2, ?_⟩, rfl, ?_, fun _ h => by cases h⟩
          · rintro - rfl s' r' he
            simp only at he
            rw [he] at h3
            exact hc s' _ (by rw [h3]; rfl)
          · conv => lhs; rw [h3]
            simp [WSeg.toks, WGenerics.toks]
        · rename_i hc
          split at h
          · rename_i hc
            obtain ⟨s, r1, rfl⟩ := synPeek2_cons (Bool.and_eq_true _ _ ▸ hc).1
            obtain ⟨s', r2, h2⟩ := synPeek_cons (Bool.and_eq_true _ _ ▸ hc).2
            simp only [List.drop_succ_cons, List.drop_zero] at h2 h
            subst h2
            simp only [Prod.mk.injEq, Option.map_eq_some_iff] at h
            obtain ⟨⟨a, ha, rfl⟩, rfl⟩ := h
            obtain ⟨ws, gt, h1, h2, h3, rfl⟩ := angle_sound hl (r := (synAngle ga true _).2) (Prod.ext ha rfl)
            refine ⟨⟨i, some ⟨some s, s', ws, gt⟩⟩, ⟨hi, h1, h2, by simp⟩, rfl, ?_, fun _ h => by cases h⟩
            conv => lhs; rw [h3]
            simp [WSeg.toks, WGenerics.toks, colonsText]
          · simp only [Prod.mk.injEq, Option.some.injEq] at h
            obtain ⟨rfl, rfl⟩ := h
            refine ⟨⟨i, none⟩, .inr hi, rfl, rfl, ?_⟩
            rintro - - l r rfl
            simp only [Bool.and_eq_true, Bool.not_eq_true', not_and, Bool.not_eq_false] at hc
            obtain ⟨s, r', he⟩ := synPeek2_cons (hc (by simp [peekPunct]))
            simp only [List.cons.injEq, TT.punct.injEq, true_and] at he
            exact ⟨he.1, s, r', he.2⟩
      · simp at h
  · simp at h

theorem seg_complete {w : WSeg} {r : Toks} (hw : w.Wf ga) (he : w.EndsBefore r)
    (hc : ∀ s s' r', r ≠ colonsText s ++ .punct '<' s' :: r') :
    synSeg ga (w.toks ++ r) = (some w.ast, r) := by
  obtain ⟨i, g⟩ := w
  have hr2 : (peekPunct2 ':' ':' r && peekPunct '<' (r.drop 2)) = false := by
    rw [← Bool.not_eq_true]
    intro hp
    simp only [Bool.and_eq_true] at hp
    obtain ⟨s, r1, rfl⟩ := synPeek2_cons hp.1
    obtain ⟨s', r2, h2⟩ := synPeek_cons hp.2
    simp only [List.drop_succ_cons, List.drop_zero] at h2
    exact hc s s' r2 (by rw [h2]; rfl)
  cases g with
  | none =>
    simp only [WSeg.toks, WSeg.ast, List.cons_append, List.nil_append]
    unfold synSeg
    simp only
    by_cases hs : i.Sole
    · rw [if_pos (sole_iff.mpr hs)]
    · rw [if_neg (fun h => hs (sole_iff.mp h))]
      have hi : i.Segment := hw.resolve_left hs
      rw [if_pos ((segment_iff hs).mpr hi)]
      rw [if_neg, hr2]
      · rfl
      · simp only [Bool.and_eq_true, Bool.not_eq_true', not_and, Bool.not_eq_false]
        intro hp
        obtain ⟨l, r', rfl⟩ := synPeek_cons hp
        obtain ⟨rfl, s', r'', rfl⟩ := he hi rfl l r' rfl
        simp [peekPunct2]
  | some g =>
    obtain ⟨hi, h1, h2, h3⟩ := hw
    obtain ⟨colons, lt, args, gt⟩ := g
    simp only [WSeg.toks, WSeg.ast, WGenerics.toks, WGenerics.ast, List.cons_append]
    simp only at hi h1 h2 h3
    unfold synSeg
    simp only
    rw [if_neg (fun h => hi.1 (sole_iff.mp h)), if_pos ((segment_iff hi.1).mpr hi)]
    cases colons with
    | none =>
      simp only [List.nil_append, List.cons_append, List.append_assoc]
      rw [if_pos, angle_complete h1 h2]
      · rfl
      · simp only [Bool.and_eq_true, Bool.not_eq_true']
        refine ⟨by simp [peekPunct], peekPunct2_false.mpr ?_⟩
        intro s r' hx
        simp only [List.cons.injEq, TT.punct.injEq, true_and] at hx
        cases ha : argsText args with
        | nil => rw [ha] at hx; simp at hx
        | cons x xs =>
          rw [ha] at hx
          simp only [List.cons_append, List.cons.injEq] at hx
          exact h3 rfl hx.1 s xs (by rw [ha, hx.2.1])
    | some s =>
      simp only [colonsText, List.nil_append, List.cons_append, List.append_assoc]
      rw [if_neg (by simp [peekPunct]), if_pos (by simp [peekPunct, peekPunct2])]
      simp only [List.drop_succ_cons, List.drop_zero]
      rw [angle_complete h1 h2]
      rfl

/-! ### paths -/

/-- There is no `::`, unless it is `::(`. -/
def NoMore (after : Toks) : Prop := ∀ s r, after = colonsText s ++ r → ∃ c r', r = .group .paren c :: r'

theorem noMore_iff {r : Toks} : (peekPunct2 ':' ':' r && !peekGroup .paren (r.drop 2)) = false ↔ NoMore r := by
  constructor
  · rintro h s r' rfl
    simp only [colonsText, List.cons_append, List.nil_append, peekPunct2, decide_true, Bool.and_self, List.drop_succ_cons,
      List.drop_zero, Bool.true_and, Bool.not_eq_false'] at h
    match r', h with
    | .group d c :: r', h => simp [peekGroup] at h; exact ⟨c, r', by rw [h]⟩
  · intro h
    rw [← Bool.not_eq_true]
    intro hp
    simp only [Bool.and_eq_true, Bool.not_eq_true'] at hp
    obtain ⟨s, r', rfl⟩ := synPeek2_cons hp.1
    obtain ⟨c, r'', rfl⟩ := h s r' rfl
    simp [peekGroup] at hp

theorem segs_sound (hl : ga.Local) : ∀ {n : Nat} {ts r : Toks} {segs : List PathSeg},
    synSegs ga n ts = (some segs, r) → ∃ (first : WSeg) (more : List (Spacing × WSeg)),
      (∀ s ∈ first :: more.map Prod.snd, s.Wf ga) ∧ segs = (first :: more.map Prod.snd).map WSeg.ast ∧
      ts = segsText first more ++ r ∧ NoMore r ∧
      ∀ s, (first :: more.map Prod.snd).getLast? = some s → s.EndsBefore r
  | 0, _, _, _, h => by simp [synSegs] at h
  | n + 1, ts, r, segs, h => by
    unfold synSegs at h
    split at h
    · simp at h
    · rename_i seg r0 ha
      obtain ⟨w, h1, rfl, rfl, h4⟩ := seg_sound hl ha
      split at h
      · rename_i hc
        obtain ⟨s, r1, rfl⟩ := synPeek2_cons (Bool.and_eq_true _ _ ▸ hc).1
        simp only [Prod.mk.injEq, Option.map_eq_some_iff, List.drop_succ_cons, List.drop_zero] at h
        obtain ⟨⟨segs', hs, rfl⟩, rfl⟩ := h
        obtain ⟨first, more, g1, rfl, g3, g4, g5⟩ := segs_sound hl (r := (synSegs ga n r1).2) (Prod.ext hs rfl)
        refine ⟨w, (s, first) :: more, ?_, rfl, ?_, g4, ?_⟩
        · intro x hx
          rcases List.mem_cons.mp hx with rfl | hx
          · exact h1
          · exact g1 x hx
        · conv => lhs; rw [g3]
          simp [segsText, colonsText]
        · intro x hx
          refine g5 x ?_
          rw [← hx]
          simp [List.getLast?_cons]
      · rename_i hc
        rw [Bool.not_eq_true, noMore_iff] at hc
        simp only [Prod.mk.injEq, Option.some.injEq] at h
        obtain ⟨rfl, rfl⟩ := h
        refine ⟨w, [], by simpa using h1, rfl, by simp [segsText], hc, ?_⟩
        intro x hx
        simp at hx
        rw [← hx]
        exact h4

theorem segs_complete : ∀ {n : Nat} {r : Toks} {first : WSeg} {more : List (Spacing × WSeg)},
    (∀ s ∈ first :: more.map Prod.snd, s.Wf ga) → NoMore r →
    (∀ s, (first :: more.map Prod.snd).getLast? = some s → s.EndsBefore r) →
    (segsText first more ++ r).length < n →
    synSegs ga n (segsText first more ++ r) = (some ((first :: more.map Prod.snd).map WSeg.ast), r)
  | 0, _, _, _, _, _, _, h => absurd h (by omega)
  | n + 1, r, first, [], h1, h2, h3, hn => by
    unfold synSegs
    have hs := seg_complete (r := r) (h1 first (by simp)) (h3 first rfl) (by
      rintro s s' r' rfl
      obtain ⟨c, r'', he⟩ := h2 s _ rfl
      simp at he)
    simp only [segsText, List.flatMap_nil, List.append_nil]
    rw [hs]
    simp only
    rw [noMore_iff.mpr h2]
    rfl
  | n + 1, r, first, (s, second) :: more, h1, h2, h3, hn => by
    have he : segsText first ((s, second) :: more) ++ r = first.toks ++ (colonsText s ++ (segsText second more ++ r)) := by
      simp [segsText]
    obtain ⟨x, hx⟩ : ∃ x, segsText second more ++ r = .ident second.ident :: x := ⟨_, rfl⟩
    have hs := seg_complete (r := colonsText s ++ (segsText second more ++ r)) (h1 first (by simp)) (by
      intro _ _ l r' h
      simp [colonsText] at h) (by
      intro s1 s' r' h
      rw [hx] at h
      simp [colonsText] at h)
    have ih := segs_complete (n := n) (r := r) (first := second) (more := more)
      (fun x hx => h1 x (by simp only [List.map_cons, List.mem_cons] at hx ⊢; exact .inr hx)) h2
      (fun x hx => h3 x (by rw [← hx]; simp [List.getLast?_cons])) (by
        rw [he] at hn
        simp only [colonsText, List.length_append, List.length_cons, List.length_nil] at hn ⊢
        omega)
    rw [he]
    unfold synSegs
    rw [hs]
    simp only
    rw [if_pos]
    · simp only [colonsText, List.cons_append, List.nil_append, List.drop_succ_cons, List.drop_zero, ih]
      rfl
    · rw [hx]
      simp [colonsText, peekPunct2, peekGroup]

theorem path_grammar (hl : ga.Local) {ts : Toks} {p : Path} {rest : Toks} : (synPaths ga).run ts = (some p, rest) ↔
    ∃ w : WPath, w.Wf ga ∧ w.EndsBefore rest ∧ ts = w.toks ++ rest ∧ p = w.ast := by
  constructor
  · intro h
    have h : synRun ga ts = (some p, rest) := h
    unfold synRun at h
    simp only [Prod.mk.injEq, Option.map_eq_some_iff] at h
    obtain ⟨⟨segs, hs, rfl⟩, hr⟩ := h
    obtain ⟨first, more, h1, rfl, h3, h4, h5⟩ := segs_sound hl (Prod.ext hs hr)
    by_cases hc : peekPunct2 ':' ':' ts = true
    · rw [if_pos hc] at h3
      obtain ⟨s, r, rfl⟩ := synPeek2_cons hc
      simp only [List.drop_succ_cons, List.drop_zero] at h3
      exact ⟨⟨some s, first, more⟩, h1, ⟨h4, h5⟩, by rw [h3]; rfl, by rw [hc]; rfl⟩
    · rw [if_neg hc] at h3
      rw [Bool.not_eq_true] at hc
      exact ⟨⟨none, first, more⟩, h1, ⟨h4, h5⟩, h3, by rw [hc]; rfl⟩
  · rintro ⟨⟨lead, first, more⟩, h1, ⟨h2, h3⟩, rfl, rfl⟩
    show synRun ga _ = _
    unfold synRun
    obtain ⟨x, hx⟩ : ∃ x, segsText first more ++ rest = .ident first.ident :: x := ⟨_, rfl⟩
    cases lead with
    | none =>
      have hc : peekPunct2 ':' ':' (segsText first more ++ rest) = false := by
        rw [hx]; rfl
      simp only [WPath.toks, List.nil_append, hc, Bool.false_eq_true, if_false]
      rw [segs_complete h1 h2 h3 (by simp)]
      rfl
    | some s =>
      have hc : peekPunct2 ':' ':' (colonsText s ++ (segsText first more ++ rest)) = true := rfl
      simp only [WPath.toks, List.append_assoc, hc, if_true]
      simp only [colonsText, List.cons_append, List.nil_append, List.drop_succ_cons, List.drop_zero]
      rw [segs_complete h1 h2 h3 (by simp; omega)]
      rfl

end Mview
