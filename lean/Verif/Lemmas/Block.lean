import Verif.Lemmas.AdviceEnds
import Verif.Spec.Block
/-
C64: what is in a block does not matter to what is around it.
-/

namespace Mview
open Lex

variable {pp : PathParser}

/-! ### gaps -/

theorem BlockAt.shape {K : BlockGap} {b : Bool} {x : Toks} {P Q : List Issue} {T : TreeGap}
    (h : BlockAt pp K b x P Q T) : K ≠ .here ∧ T ≠ .here := by
  have hK : ∀ {K : BlockGap} {p : Toks}, K ≠ .here → K.after p ≠ .here := by
    intro K p h; cases K with
    | here => exact absurd rfl h
    | block => simp [BlockGap.after]
  have hT : ∀ {T : TreeGap} {p : List Child}, T ≠ .here → T.after p ≠ .here := by
    intro T p h; cases T with
    | here => exact absurd rfl h
    | elem => simp [TreeGap.after]
  induction h with
  | block => simp
  | inside => simp
  | value _ _ _ ih => exact ⟨hK ih.1, hT ih.2⟩
  | literal _ _ _ ih => exact ⟨hK ih.1, hT ih.2⟩
  | elem _ _ _ _ _ _ ih => exact ⟨hK ih.1, hT ih.2⟩
  | noTagSemi _ _ _ ih => exact ⟨hK ih.1, ih.2⟩
  | semi _ ih => exact ⟨hK ih.1, ih.2⟩

theorem BlockGap.fill_after {K : BlockGap} (h : K ≠ .here) (p x : Toks) : (K.after p).fill x = p ++ K.fill x := by
  cases K with
  | here => exact absurd rfl h
  | block => simp [BlockGap.after, BlockGap.fill]

theorem TreeGap.fill_after {T : TreeGap} (h : T ≠ .here) (p cs : List Child) : (T.after p).fill cs = p ++ T.fill cs := by
  cases T with
  | here => exact absurd rfl h
  | elem => simp [TreeGap.after, TreeGap.fill]

theorem Lead.reads {lead : Toks} {args : Option Toks} (h : Lead lead args) {d : Delim} (hd : d ≠ .bracket)
    {c post : Toks} {is : List Issue} {cs : List Child} (hc : ReadsChildren pp c is cs) :
    ReadsEnd pp (lead ++ .group d c :: post) is args (some cs) post := by
  cases h with
  | none => exact .block hd hc
  | @args s args s' hn =>
    have := ReadsEnd.closure (pp := pp) (s := s) (s' := s') hn hd hc (rest := post)
    simpa using this

/-- With any content the block is read in its place. -/
theorem block_read {K : BlockGap} {b : Bool} {x : Toks} {P Q : List Issue} {T : TreeGap}
    (h : BlockAt pp K b x P Q T) : ∃ j, Looked b x j ∧ ∀ {is cs}, ReadsChildren pp x is cs →
      ReadsChildren pp (K.fill x) (P ++ (j ++ (is ++ Q))) (T.fill cs) := by
  induction h with
  | @block pre lead d post x isSlot r0 ti tag r1 si sels r2 ai j attrs args is cs hst ht hs ha hl hd hj hr =>
    refine ⟨j, hj, fun {is' cs'} hx => ?_⟩
    have := ReadsChildren.elem hst ht hs ha (hl.reads hd hx) hr
    simpa [BlockGap.fill, TreeGap.fill] using this
  | @inside pre lead d K post b x P Q T isSlot r0 ti tag r1 si sels r2 ai attrs args is cs hst ht hs ha hl hd _ hr ih =>
    obtain ⟨j, hj, ih⟩ := ih
    refine ⟨j, hj, fun {is' cs'} hx => ?_⟩
    have := ReadsChildren.elem hst ht hs ha (hl.reads hd (ih hx)) hr
    simpa [BlockGap.fill, TreeGap.fill] using this
  | value hb hw h ih =>
    obtain ⟨j, hj, ih⟩ := ih
    refine ⟨j, hj, fun hx => ?_⟩
    rw [BlockGap.fill_after h.shape.1, TreeGap.fill_after h.shape.2]
    exact .value hb hw (ih hx)
  | literal hb hw h ih =>
    obtain ⟨j, hj, ih⟩ := ih
    refine ⟨j, hj, fun hx => ?_⟩
    rw [BlockGap.fill_after h.shape.1, TreeGap.fill_after h.shape.2]
    exact .literal hb hw (ih hx)
  | elem hst ht hs ha hend h ih =>
    obtain ⟨j, hj, ih⟩ := ih
    refine ⟨j, hj, fun hx => ?_⟩
    rw [BlockGap.fill_after h.shape.1, TreeGap.fill_after h.shape.2]
    have := ReadsChildren.elem hst ht hs ha hend (ih hx)
    simpa using this
  | noTagSemi hst hnt h ih =>
    obtain ⟨j, hj, ih⟩ := ih
    refine ⟨j, hj, fun hx => ?_⟩
    rw [BlockGap.fill_after h.shape.1]
    exact .noTagSemi hst hnt (ih hx)
  | semi h ih =>
    obtain ⟨j, hj, ih⟩ := ih
    refine ⟨j, hj, fun hx => ?_⟩
    rw [BlockGap.fill_after h.shape.1]
    exact .semi (ih hx)

/-! ### another content -/

theorem Lead.swap {lead : Toks} {args : Option Toks} (h : Lead lead args) {d : Delim} {c c' post : Toks} :
    Swap (lead ++ .group d c :: post) (lead ++ .group d c' :: post) := by
  cases h with
  | none => exact swap_group
  | args hn => exact swap_punct (.inr rfl)

theorem Lead.first {lead : Toks} {args : Option Toks} (h : Lead lead args) {d : Delim} {c post : Toks} :
    (∀ s r, lead ++ .group d c :: post ≠ .punct ':' s :: r) ∧ ∀ s r, lead ++ .group d c :: post ≠ .punct '<' s :: r := by
  cases h with
  | none => simp
  | args hn => simp

theorem Lead.attrsStop {lead : Toks} {args : Option Toks} (h : Lead lead args) {d : Delim} {c c' post : Toks}
    (hf : Front c c') : AttrsStop (lead ++ .group d c :: post) (lead ++ .group d c' :: post) := by
  cases h with
  | none => exact attrsStop_group (.inr hf)
  | args hn => exact attrsStop_punct (by decide)

theorem Looked.reads {lead : Toks} {args : Option Toks} (hl : Lead lead args) {d : Delim} {x post : Toks} {j : List Issue}
    (h : Looked (direct lead d) x j) :
    ReadsAttrs (lead ++ .group d x :: post) j [] (lead ++ .group d x :: post) := by
  cases hl with
  | none =>
    by_cases hd : d = .brace
    · subst hd
      generalize hb : direct [] .brace = b at h
      cases h with
      | no => simp [direct] at hb
      | name hk => exact .brace hk
      | other h1 h2 => exact .done group_not_name fun c r he => by cases he; exact ⟨h1, h2⟩
    · generalize hb : direct [] d = b at h
      have hb' : b = false := by rw [← hb]; simp [direct, hd]
      subst hb'
      cases h
      exact .done group_not_name fun c r he => by cases he; exact absurd rfl hd
  | args hn =>
    generalize hb : direct _ d = b at h
    have hb' : b = false := by rw [← hb]; simp [direct]
    subst hb'
    cases h
    exact .done (punct_not_name (by decide)) fun c r he => by cases he

theorem looked_unique {b : Bool} {x : Toks} {j j' : List Issue} (h : Looked b x j) (h' : Looked b x j') : j = j' := by
  cases h with
  | no => cases h'; rfl
  | name hk =>
    cases h' with
    | name hk' => rw [(LongestKebab.unique hk hk').1]
    | other h1 h2 => exact absurd hk.nameStart h1
  | other h1 h2 =>
    cases h' with
    | name hk' => exact absurd hk'.nameStart h1
    | other => rfl

theorem looked_of_attrs {lead : Toks} {args : Option Toks} (hl : Lead lead args) {d : Delim} {x post : Toks} {j : List Issue}
    (h : ReadsAttrs (lead ++ .group d x :: post) j [] (lead ++ .group d x :: post)) : Looked (direct lead d) x j := by
  generalize hq : ([] : List Attr) = q at h
  generalize hk : lead ++ TT.group d x :: post = k at h
  cases h with
  | brace hn =>
    cases hl with
    | none => cases hk; exact .name hn
    | args => simp at hk
  | done h1 h2 =>
    cases hl with
    | none =>
      by_cases hd : d = .brace
      · subst hd
        obtain ⟨h3, h4⟩ := h2 x post hk.symm
        exact .other h3 h4
      · have : direct [] d = false := by simp [direct, hd]
        rw [this]; exact .no
    | args => exact .no
  | short | spread | kv | dirShort | dir => cases hq
  | _ => simp_all

/-- What is in the block does not matter to what is around it. -/
theorem block_swap (hpp : pp.Starts) (hloc : pp.Local) (hfl : pp.FailsLocally) {K : BlockGap} {b : Bool} {x : Toks}
    {P Q : List Issue} {T : TreeGap} (h : BlockAt pp K b x P Q T) (hP : OnlyReports P) {jx : List Issue}
    (hjx : Looked b x jx) (hx : OnlyReports jx) {y : Toks} {j : List Issue} (hy : Looked b y j) :
    BlockAt pp K b y P Q T ∧ Front (K.fill x) (K.fill y) := by
  induction h with
  | @block pre lead d post x isSlot r0 ti tag r1 si sels r2 ai j0 attrs args is cs hst ht hs ha hl hd hj hr =>
    obtain ⟨hti, hP⟩ := OnlyReports.append.mp hP
    obtain ⟨hsi, hai⟩ := OnlyReports.append.mp hP
    cases looked_unique hj hjx
    obtain ⟨u, a, j1, r0', r1', r2', hu, he, hj1, hst', ht', hs', ha', hf⟩ := elem_peek hpp hloc hst ht hs ha hti
      (OnlyReports.append.mpr ⟨hai, hx⟩) (hl.swap (c' := y)) (fun _ _ _ => hl.first)
    cases looked_unique hj (looked_of_attrs hl hj1)
    cases List.append_cancel_right he
    cases List.append_cancel_right hu
    refine ⟨.block hst' ht' hs' (ha' j (hy.reads hl)) hl hd hy hr, ?_⟩
    simpa [BlockGap.fill] using hf
  | @inside pre lead d K post b x P Q T isSlot r0 ti tag r1 si sels r2 ai attrs args is cs hst ht hs ha hl hd _ hr ih =>
    obtain ⟨hti, hP⟩ := OnlyReports.append.mp hP
    obtain ⟨hsi, hP⟩ := OnlyReports.append.mp hP
    obtain ⟨hai, hP⟩ := OnlyReports.append.mp hP
    obtain ⟨ih, hfr⟩ := ih hP hjx hy
    obtain ⟨u, r0', r1', r2', hu, hst', ht', hs', ha', hf⟩ := elem_swap hpp hloc hst ht hs ha hti hai
      (hl.swap (c' := K.fill y)) (hl.attrsStop hfr) (fun _ _ _ => hl.first)
    cases List.append_cancel_right hu
    refine ⟨.inside hst' ht' hs' ha' hl hd ih hr, ?_⟩
    simpa [BlockGap.fill] using hf
  | value hb hw h ih =>
    obtain ⟨ih, hf⟩ := ih hP hjx hy
    refine ⟨.value (value_bracket hf hb) hw ih, ?_⟩
    rw [BlockGap.fill_after h.shape.1, BlockGap.fill_after h.shape.1]
    exact value_front hf
  | literal hb hw h ih =>
    obtain ⟨ih, hf⟩ := ih (OnlyReports.append (is := [_]).mp hP).2 hjx hy
    refine ⟨.literal (value_bracket hf hb) hw ih, ?_⟩
    rw [BlockGap.fill_after h.shape.1, BlockGap.fill_after h.shape.1]
    exact value_front hf
  | @elem p K b x P Q T isSlot r0 ti tag r1 si sels r2 ai attrs r3 ei args block hst ht hs ha hend h ih =>
    obtain ⟨hti, hP⟩ := OnlyReports.append.mp hP
    obtain ⟨hsi, hP⟩ := OnlyReports.append.mp hP
    obtain ⟨hai, hP⟩ := OnlyReports.append.mp hP
    obtain ⟨hei, hP⟩ := OnlyReports.append.mp hP
    obtain ⟨ih, hf4⟩ := ih hP hjx hy
    obtain ⟨-, -, hx⟩ := attrs_left ha hai
    obtain ⟨q, hq, hend', hsw, hstop, hc1, hc2⟩ := end_front hend hx hf4
    obtain ⟨u, r0', r1', r2', hu, hst', ht', hs', ha', hf⟩ := elem_swap hpp hloc hst ht hs ha hti hai hsw hstop
      (fun _ _ _ => ⟨hc1, hc2⟩)
    have hp : p = u ++ q := List.append_cancel_right (hu.trans (by rw [hq, List.append_assoc]))
    subst hp
    rw [hq] at hf
    refine ⟨.elem (by simpa using hst') ht' hs' ha' hend' ih, ?_⟩
    rw [BlockGap.fill_after h.shape.1, BlockGap.fill_after h.shape.1]
    simpa using hf
  | @noTagSemi p K b x P Q T isSlot r0 e s hst hnt h ih =>
    obtain ⟨ih, hf⟩ := ih (OnlyReports.append (is := [_]).mp hP).2 hjx hy
    obtain ⟨i, u, r0', hu, hst', hnt'⟩ := noTagSemi_swap hfl hst hnt hf
    have hp : p = .ident i :: u := List.append_cancel_right (hu.trans (by simp))
    subst hp
    refine ⟨.noTagSemi (by simpa using hst') hnt' ih, ?_⟩
    rw [BlockGap.fill_after h.shape.1, BlockGap.fill_after h.shape.1]
    exact hf.prefix (by simp)
  | semi h ih =>
    obtain ⟨ih, hf⟩ := ih (OnlyReports.append (is := [_]).mp hP).2 hjx hy
    refine ⟨.semi ih, ?_⟩
    rw [BlockGap.fill_after h.shape.1, BlockGap.fill_after h.shape.1]
    exact hf.prefix (v := []) (by rintro c s ⟨⟩; exact .inr rfl)

/-! ### every block -/

theorem attrs_looked {ts left : Toks} {is : List Issue} {as : List Attr} (h : ReadsAttrs ts is as left)
    (hl : left ≠ []) : ∃ ai j, is = ai ++ j ∧ ReadsAttrs left j [] left := by
  induction h with
  | @short c _ _ _ _ _ _ ih =>
    obtain ⟨ai, j, rfl, hj⟩ := ih hl
    exact ⟨rawIssues c ++ (nameIssues (kebabText c) ++ ai), j, by simp, hj⟩
  | spread _ ih => exact ih hl
  | @kv _ run _ js _ _ _ _ _ _ _ _ _ ih =>
    obtain ⟨ai, j, rfl, hj⟩ := ih hl
    exact ⟨rawIssues run ++ (js ++ ai), j, by simp, hj⟩
  | @dirShort _ _ c _ _ _ _ _ _ _ _ _ ih =>
    obtain ⟨ai, j, rfl, hj⟩ := ih hl
    exact ⟨rawIssues c ++ (nameIssues (kebabText c) ++ ai), j, by simp, hj⟩
  | @dir _ _ _ ks _ _ _ _ js _ _ _ _ _ _ _ _ _ ih =>
    obtain ⟨ai, j, rfl, hj⟩ := ih hl
    exact ⟨ks ++ (js ++ ai), j, by simp, hj⟩
  | brace hc => exact ⟨[], _, rfl, .brace hc⟩
  | done h1 h2 => exact ⟨[], _, rfl, .done h1 h2⟩
  | _ => exact absurd rfl hl

/-- the block `cs` in the gap of `T` is somewhere in the input -/
def FindsBlock (pp : PathParser) (ts : Toks) (T : TreeGap) (cs : List Child) : Prop :=
  ∃ K b x P Q is, ts = BlockGap.fill x K ∧ BlockAt pp K b x P Q T ∧ ReadsChildren pp x is cs

theorem block_found {ts : Toks} {is : List Issue} {cs : List Child} (h : ReadsChildren pp ts is cs) :
    ∀ (T : TreeGap) (cs' : List Child), T ≠ .here → cs = T.fill cs' → FindsBlock pp ts T cs' := by
  have hafter : ∀ {p rest : Toks} {before after : List Child} {isSlot : Bool} {tag : Tag} {sels : List Selector}
      {attrs : List Attr} {args : Option Toks} {T : TreeGap} {c : Child} {cs cs' : List Child}
      (_ : ∀ (T : TreeGap) (cs' : List Child), T ≠ .here → cs = T.fill cs' → FindsBlock pp rest T cs')
      (_ : ∀ {K b x P Q T}, rest = BlockGap.fill x K → BlockAt pp K b x P Q T →
        ∃ P', BlockAt pp (K.after p) b x P' Q (T.after [c])),
      c :: cs = (TreeGap.elem (c :: before) isSlot tag sels attrs args T after).fill cs' →
      FindsBlock pp (p ++ rest) (.elem (c :: before) isSlot tag sels attrs args T after) cs' := by
    intro p rest before after isSlot tag sels attrs args T c cs cs' ih hb he
    obtain ⟨K, b, x, P, Q, is, rfl, h, hr⟩ := ih (.elem before isSlot tag sels attrs args T after) cs'
      (by simp) (by simpa [TreeGap.fill] using he)
    obtain ⟨P', h'⟩ := hb rfl h
    exact ⟨K.after p, b, x, P', Q, is, (BlockGap.fill_after h.shape.1 _ _).symm, h', hr⟩
  refine ReadsChildren.rec
    (motive_1 := fun x ei args block r4 _ => ∀ (T : TreeGap) (cs' : List Child), block = some (T.fill cs') →
      ∃ lead d c, x = lead ++ .group d c :: r4 ∧ Lead lead args ∧ d ≠ .bracket ∧
        ((T = .here ∧ ReadsChildren pp c ei cs') ∨ FindsBlock pp c T cs'))
    (motive_2 := fun ts is cs _ => ∀ (T : TreeGap) (cs' : List Child), T ≠ .here → cs = T.fill cs' →
      FindsBlock pp ts T cs') ?_ ?_ ?_ ?_ ?_ ?_ ?_ ?_ ?_ ?_ ?_ ?_ ?_ ?_ ?_ h
  · intro s rest T cs' he; cases he
  · intro d c rest is cs hd hc ih T cs' he
    cases he
    refine ⟨[], d, c, rfl, .none, hd, ?_⟩
    by_cases hT : T = .here
    · subst hT; exact .inl ⟨rfl, hc⟩
    · exact .inr (ih _ _ hT rfl)
  · intro s args s' d c rest is cs hn hd hc ih T cs' he
    cases he
    refine ⟨.punct '|' s :: (args ++ [.punct '|' s']), d, c, by simp, .args hn, hd, ?_⟩
    by_cases hT : T = .here
    · subst hT; exact .inl ⟨rfl, hc⟩
    · exact .inr (ih _ _ hT rfl)
  · intro T cs' he; cases he
  · intro s args s' rest _ _ T cs' he; cases he
  · intro t r _ _ _ T cs' he; cases he
  · intro T cs' hT he
    cases T with
    | here => exact absurd rfl hT
    | elem => simp [TreeGap.fill] at he
  · intro v rest is cs hb hw hr ih T cs' hT he
    cases T with
    | here => exact absurd rfl hT
    | elem before isSlot tag sels attrs args T after =>
      cases before with
      | nil => simp only [TreeGap.fill, List.nil_append, List.cons.injEq] at he
               cases isSlot <;> simp [asChild] at he
      | cons c before =>
        obtain rfl : c = .value v.ast := (List.cons.inj he).1.symm
        exact hafter ih (fun hK h => ⟨_, .value (hK ▸ hb) hw h⟩) he
  · intro v rest is cs hb hw hr ih T cs' hT he
    cases T with
    | here => exact absurd rfl hT
    | elem before isSlot tag sels attrs args T after =>
      cases before with
      | nil => simp only [TreeGap.fill, List.nil_append, List.cons.injEq] at he
               cases isSlot <;> simp [asChild] at he
      | cons c before =>
        obtain rfl : c = .value (.lit (.tok (.str []))) := (List.cons.inj he).1.symm
        exact hafter ih (fun hK h => ⟨_, .literal (hK ▸ hb) hw h⟩) he
  · intro ts isSlot r0 ti tag r1 si sels r2 ai attrs r3 ei args block r4 is cs hst ht hs ha hend hr ihe ihr T cs' hT he
    obtain ⟨ua, hua⟩ := ha.suffix
    obtain ⟨us, hus⟩ := hs.suffix
    obtain ⟨ut, hut⟩ := ht.suffix
    obtain ⟨u0, hu0⟩ := hst.suffix
    have hts : ts = (u0 ++ (ut ++ (us ++ ua))) ++ r3 := by rw [hu0, hut, hus, hua]; simp
    cases T with
    | here => exact absurd rfl hT
    | elem before isSlot' tag' sels' attrs' args' T after =>
      cases before with
      | nil =>
        simp only [TreeGap.fill, List.nil_append, List.cons.injEq] at he
        obtain ⟨he, rfl⟩ := he
        have hsame : isSlot' = isSlot ∧ Element.mk tag sels attrs args block = .mk tag' sels' attrs' args' (some (T.fill cs')) := by
          cases isSlot <;> cases isSlot' <;> simp [asChild] at he ⊢ <;> exact he
        clear he
        obtain ⟨rfl, he⟩ := hsame
        cases he
        obtain ⟨lead, d, c, rfl, hl, hd, hor⟩ := ihe _ _ rfl
        rcases hor with ⟨rfl, hc⟩ | ⟨K, b, x, P, Q, isx, rfl, hK, hx⟩
        · obtain ⟨a, j, rfl, hj⟩ := attrs_looked ha (by simp)
          refine ⟨_, _, c, _, _, _, ?_, .block (by rw [← hts]; exact hst) ht hs ha hl hd (looked_of_attrs hl hj) hr, hc⟩
          rw [hts]; simp [BlockGap.fill]
        · refine ⟨_, _, x, _, _, _, ?_, .inside (by rw [← hts]; exact hst) ht hs ha hl hd hK hr, hx⟩
          rw [hts]; simp [BlockGap.fill]
      | cons c before =>
        obtain rfl : c = asChild isSlot (.mk tag sels attrs args block) := (List.cons.inj he).1.symm
        obtain ⟨ue, hue⟩ := hend.suffix
        have hts' : ts = (u0 ++ (ut ++ (us ++ (ua ++ ue)))) ++ r4 := by rw [hts, hue]; simp
        rw [hts']
        refine hafter ihr (fun hK h => ⟨_, .elem ?_ ht hs ha (hK ▸ hend) h⟩) he
        rw [← hK, ← hts']; exact hst
  · intro ts isSlot r0 ti tag r1 si sels r2 ai attrs s args _ _ _ _ _ T cs' hT he
    cases T with
    | here => exact absurd rfl hT
    | elem => simp [TreeGap.fill] at he
  · intro ts isSlot r0 e s rest is cs hst hnt hr ih T cs' hT he
    obtain ⟨K, b, x, P, Q, is, rfl, h, hx⟩ := ih _ _ hT he
    obtain ⟨u0, hu0⟩ := hst.suffix
    obtain ⟨u1, hu1⟩ := hnt.suffix
    have hts : ts = (u0 ++ (u1 ++ [.punct ';' s])) ++ K.fill x := by rw [hu0, hu1]; simp
    refine ⟨_, b, x, _, Q, is, ?_, .noTagSemi (p := u0 ++ (u1 ++ [.punct ';' s])) (by rw [← hts]; exact hst) hnt h, hx⟩
    rw [BlockGap.fill_after h.shape.1]; exact hts
  · intro ts isSlot r0 e rest _ _ _ T cs' hT he
    cases T with
    | here => exact absurd rfl hT
    | elem => simp [TreeGap.fill] at he
  · intro s rest is cs hr ih T cs' hT he
    obtain ⟨K, b, x, P, Q, is, rfl, h, hx⟩ := ih _ _ hT he
    refine ⟨_, b, x, _, Q, is, ?_, .semi (s := s) h, hx⟩
    rw [BlockGap.fill_after h.shape.1]; rfl
  · intro t r _ _ _ T cs' hT he
    cases T with
    | here => exact absurd rfl hT
    | elem => simp [TreeGap.fill] at he

end Mview
