import Verif.Lemmas.Interchange
import Verif.Spec.Seen
/-
What can be told of children from the page they are part of.
-/

namespace Mview.Run

variable {V : Type} {R : Rust V}

/-! ### parts -/

theorem PartsSame.filter {f : Part V → Bool} (hf : ∀ p q, PartSame p q → f p = f q) :
    ∀ {ps qs : List (Part V)}, PartsSame ps qs → PartsSame (ps.filter f) (qs.filter f)
  | _, _, .nil => .nil
  | p :: _, q :: _, .cons hp h => by
    have ih := PartsSame.filter hf h
    have he := hf p q hp
    cases hq : f q
    · rw [List.filter_cons_of_neg (by rw [he, hq]; simp), List.filter_cons_of_neg (by rw [hq]; simp)]
      exact ih
    · rw [List.filter_cons_of_pos (by rw [he, hq]), List.filter_cons_of_pos hq]
      exact .cons hp ih

theorem partsSame_cancel : ∀ {as ps qs : List (Part V)}, PartsSame (as ++ ps) (as ++ qs) → PartsSame ps qs
  | [], _, _, h => h
  | a :: as, ps, qs, h => by
    cases h with
    | cons _ h => exact partsSame_cancel h

theorem PartsSame.mem : ∀ {ps qs : List (Part V)}, PartsSame ps qs → ∀ q ∈ qs, ∃ p ∈ ps, PartSame p q
  | _, _, .nil, _, h => nomatch h
  | p :: _, _, .cons hp h, q, hq => by
    rcases List.mem_cons.mp hq with rfl | hq
    · exact ⟨p, by simp, hp⟩
    · obtain ⟨r, hr, h⟩ := PartsSame.mem h q hq
      exact ⟨r, by simp [hr], h⟩

theorem body_tells {A : List Attr} {g : Option Toks} {ds' ds : List (Dom V)} (h : PartsSame (body A g ds') (body A g ds)) :
    AllSame ds' ds := by
  unfold body at h
  cases ds' with
  | nil =>
    cases ds with
    | nil => exact .nil
    | cons d ds => cases h
  | cons d' ds' =>
    cases ds with
    | nil => cases h
    | cons d ds =>
      cases h with
      | cons hp _ =>
        cases hp with
        | children hd => exact hd

theorem body_plain {A : List Attr} {g : Option Toks} {ds : List (Dom V)} : ∀ p ∈ body A g ds, p.isSlots = false := by
  unfold body
  intro p hp
  split at hp
  · cases hp
  · simp only [List.mem_singleton] at hp
    subst hp
    rfl

/-- The children and the slots that are passed to a component. -/
theorem comp_tells {f b : Toks} {as cs' cs gs' gs : List (Part V)} {ls : List (Look V)}
    (ha : ∀ p ∈ as, p.isSlots = false) (hc' : ∀ p ∈ cs', p.isSlots = false) (hc : ∀ p ∈ cs, p.isSlots = false)
    (hg' : ∀ p ∈ gs', p.isSlots = true) (hg : ∀ p ∈ gs, p.isSlots = true)
    (h : Same (.comp f b (as ++ cs' ++ gs') ls) (.comp f b (as ++ cs ++ gs) ls)) :
    PartsSame cs' cs ∧ ∃ g₁, PartsSame gs' g₁ ∧ g₁.Perm gs := by
  generalize he : as ++ cs ++ gs = qs at h
  cases h with
  | comp hp ho hs =>
    rename_i front slots slots'
    have hs' : ∀ p ∈ slots', p.isSlots = true := fun p hp => hs p (ho.subset hp)
    have none : ∀ {l : List (Part V)}, (∀ p ∈ l, p.isSlots = true) → l.filter (fun p => !p.isSlots) = [] :=
      fun {l} h => List.filter_eq_nil_iff.mpr fun p hp => by simp [h p hp]
    have all : ∀ {l : List (Part V)}, (∀ p ∈ l, p.isSlots = false) → l.filter (fun p => !p.isSlots) = l :=
      fun {l} h => List.filter_eq_self.mpr fun p hp => by simp [h p hp]
    have none' : ∀ {l : List (Part V)}, (∀ p ∈ l, p.isSlots = false) → l.filter (·.isSlots) = [] :=
      fun {l} h => List.filter_eq_nil_iff.mpr fun p hp => by simp [h p hp]
    have all' : ∀ {l : List (Part V)}, (∀ p ∈ l, p.isSlots = true) → l.filter (·.isSlots) = l :=
      fun {l} h => List.filter_eq_self.mpr fun p hp => h p hp
    have h1 := PartsSame.filter (f := fun p => !p.isSlots) (fun p q h => by rw [h.isSlots]) hp
    have h2 := PartsSame.filter (f := (·.isSlots)) (fun p q h => h.isSlots) hp
    have e1 := congrArg (List.filter fun p => !p.isSlots) he
    have e2 := congrArg (List.filter (·.isSlots)) he
    simp only [List.filter_append, none hg', none hs', all ha, all hc', List.append_nil] at h1
    simp only [List.filter_append, none hg, none hs, all ha, all hc, List.append_nil] at e1
    simp only [List.filter_append, none' ha, none' hc', all' hg', all' hs', List.nil_append] at h2
    simp only [List.filter_append, none' ha, none' hc, all' hg, all' hs, List.nil_append] at e2
    rw [← e1] at h1
    refine ⟨partsSame_cancel h1, _, h2, ?_⟩
    rw [e2]
    exact ho.append_left _

/-! ### slots -/

/-- Slots know their names. -/
def Named (ss : List (Ident × Dom V)) : Prop := ∀ s ∈ ss, ∃ ps, s.2 = .slot [.ident s.1] ps

theorem slotsShow_named : ∀ {cs : List Child} {ss}, SlotsShow R cs ss → Named ss
  | [], ss, h => by
    simp only [SlotsShow] at h
    subst h
    exact fun _ h => nomatch h
  | .value _ :: cs, ss, h => by
    simp only [SlotsShow] at h
    exact slotsShow_named h
  | .elem _ :: cs, ss, h => by
    simp only [SlotsShow] at h
    exact slotsShow_named h
  | .slot (.mk _ _ _ _ _) :: cs, ss, h => by
    simp only [SlotsShow, SlotShows] at h
    obtain ⟨n, d, x, -, ⟨ds, -, rfl⟩, h3, rfl⟩ := h
    intro s hs
    rcases List.mem_cons.mp hs with rfl | hs
    · exact ⟨_, rfl⟩
    · exact slotsShow_named h3 s hs

theorem pairsSame_of : ∀ {ss' ss : List (Ident × Dom V)}, ss'.map Prod.fst = ss.map Prod.fst →
    (∀ n, AllSame ((ss'.filter (·.1 = n)).map Prod.snd) ((ss.filter (·.1 = n)).map Prod.snd)) → PairsSame ss' ss
  | [], [], _, _ => .nil
  | [], _ :: _, h, _ => by simp at h
  | _ :: _, [], h, _ => by simp at h
  | (n', d') :: ss', (n, d) :: ss, h, hf => by
    simp only [List.map_cons, List.cons.injEq] at h
    obtain ⟨rfl, h⟩ := h
    have hn := hf n'
    rw [List.filter_cons_of_pos (by simp), List.filter_cons_of_pos (by simp)] at hn
    cases hn with
    | cons hd hn =>
      refine .cons hd (pairsSame_of h fun m => ?_)
      by_cases hm : n' = m
      · subst hm; exact hn
      · have := hf m
        rw [List.filter_cons_of_neg (by simpa using hm), List.filter_cons_of_neg (by simpa using hm)] at this
        exact this

theorem grouped_tells {ss' ss : List (Ident × Dom V)} {gs' gs g₁ : List (Part V)} (hn : ss'.map Prod.fst = ss.map Prod.fst)
    (hs' : Named ss') (hs : Named ss) (hg' : Grouped ss' gs') (hg : Grouped ss gs) (h : PartsSame gs' g₁)
    (ho : g₁.Perm gs) : PairsSame ss' ss := by
  obtain ⟨names', n1', n2', rfl⟩ := hg'
  obtain ⟨names, n1, n2, rfl⟩ := hg
  refine pairsSame_of hn fun n => ?_
  by_cases hm : n ∈ ss.map Prod.fst
  · obtain ⟨p, hp, hpq⟩ := h.mem _ (ho.symm.subset (List.mem_map_of_mem ((n2 n).mpr hm)))
    obtain ⟨m, hm', rfl⟩ := List.mem_map.mp hp
    generalize hx : (Part.slots (snakeCase m.name) ((ss'.filter (·.1 = m)).map Prod.snd) : Part V) = x at hpq
    generalize hy : (Part.slots (snakeCase n.name) ((ss.filter (·.1 = n)).map Prod.snd) : Part V) = y at hpq
    cases hpq with
    | prop => cases hx
    | children => cases hx
    | slots hd =>
      injection hx with _ hx
      injection hy with _ hy
      subst hx
      subst hy
      obtain ⟨⟨n₁, d⟩, hd1, hd2⟩ := List.mem_map.mp hm
      simp only at hd2
      subst hd2
      have key : m = n₁ := by
        cases hl : ss'.filter (·.1 = m) with
        | nil =>
          obtain ⟨s, hs1, hs2⟩ := List.mem_map.mp ((n2' m).mp hm')
          have : s ∈ ss'.filter (·.1 = m) := List.mem_filter.mpr ⟨hs1, by simpa using hs2⟩
          rw [hl] at this
          cases this
        | cons s l =>
          have hsm : s ∈ ss'.filter (·.1 = m) := by rw [hl]; simp
          obtain ⟨hs1, hs2⟩ := List.mem_filter.mp hsm
          rw [hl] at hd
          cases hr : ss.filter (·.1 = n₁) with
          | nil => rw [hr] at hd; cases hd
          | cons t r =>
            have htm : t ∈ ss.filter (·.1 = n₁) := by rw [hr]; simp
            obtain ⟨ht1, ht2⟩ := List.mem_filter.mp htm
            rw [hr] at hd
            simp only [List.map_cons] at hd
            obtain ⟨ps', e'⟩ := hs' s hs1
            obtain ⟨ps, e⟩ := hs t ht1
            rw [e', e] at hd
            simp only [decide_eq_true_eq] at hs2 ht2
            cases hd with
            | cons hd _ =>
              generalize hx : (Dom.slot [.ident s.1] ps' : Dom V) = x at hd
              cases hd with
              | slot _ =>
                injection hx with hx _
                injection hx with hx _
                injection hx with hx
                rw [← hs2, ← ht2, hx]
      rw [key] at hd
      exact hd
  · have e : ∀ {l : List (Ident × Dom V)}, n ∉ l.map Prod.fst → l.filter (·.1 = n) = [] := by
      intro l hl
      refine List.filter_eq_nil_iff.mpr fun s hs he => hl ?_
      simp only [decide_eq_true_eq] at he
      exact List.mem_map.mpr ⟨s, hs, he⟩
    rw [e hm, e (by rw [hn]; exact hm)]
    exact .nil

/-- The names of slots are those that are written. -/
theorem slotsShow_written : ∀ {cs : List Child} {ss : List (Ident × Dom V)}, SlotsShow R cs ss →
    (ss.map Prod.fst).map (fun n => Tag.component ⟨false, [⟨n, .none⟩]⟩) =
      cs.filterMap fun | .slot e => some e.tag | _ => none
  | [], ss, h => by
    simp only [SlotsShow] at h
    subst h
    rfl
  | .value _ :: cs, ss, h => by
    simp only [SlotsShow] at h
    rw [List.filterMap_cons_none rfl]
    exact slotsShow_written h
  | .elem _ :: cs, ss, h => by
    simp only [SlotsShow] at h
    rw [List.filterMap_cons_none rfl]
    exact slotsShow_written h
  | .slot e :: cs, ss, h => by
    simp only [SlotsShow] at h
    obtain ⟨n, d, x, h1, -, h3, rfl⟩ := h
    rw [List.map_cons, List.map_cons, slotsShow_written h3, List.filterMap_cons]
    simp only [h1]

theorem slotNames_gap {cs' cs : List Child} (hn' : ∀ c ∈ cs', c.isSlot = false) (hn : ∀ c ∈ cs, c.isSlot = false)
    {T : TreeGap} {ss' ss : List (Ident × Dom V)} (h' : SlotsShow R (T.fill cs') ss') (h : SlotsShow R (T.fill cs) ss) :
    ss'.map Prod.fst = ss.map Prod.fst := by
  have hi : Function.Injective (fun n : Ident => Tag.component ⟨false, [⟨n, .none⟩]⟩) := by
    intro a b h
    simpa using h
  refine (List.map_injective_iff.mpr hi) ?_
  rw [slotsShow_written h', slotsShow_written h]
  cases T with
  | here =>
    have e : ∀ {l : List Child}, (∀ c ∈ l, c.isSlot = false) →
        l.filterMap (fun | .slot e => some e.tag | _ => none) = ([] : List Tag) := by
      intro l hl
      refine List.filterMap_eq_nil_iff.mpr fun c hc => ?_
      cases c with
      | slot e => have := hl _ hc; simp [Child.isSlot] at this
      | value v => rfl
      | elem e => rfl
    rw [TreeGap.fill, TreeGap.fill, e hn', e hn]
  | elem pre b tag sels attrs args inner post =>
    rw [TreeGap.fill, TreeGap.fill]
    cases b <;> simp [asChild, Element.tag]

/-! ### one step -/

theorem allShow_tells {c' c : Element} {post : List Child} : ∀ {pre : List Child} {ds' ds : List (Dom V)},
    AllShow R (pre ++ .elem c' :: post) ds' → AllShow R (pre ++ .elem c :: post) ds → AllSame ds' ds →
    ∃ d' d, Shows R c' d' ∧ Shows R c d ∧ Same d' d
  | [], ds', ds, h', h, hd => by
    simp only [List.nil_append, AllShow] at h' h
    obtain ⟨d, x, h1, h2, rfl⟩ := h
    obtain ⟨d', y, h1', h2', rfl⟩ := h'
    cases hd with
    | cons hd _ => exact ⟨d', d, h1', h1, hd⟩
  | .value v :: pre, ds', ds, h', h, hd => by
    simp only [List.cons_append, AllShow] at h' h
    obtain ⟨x, h1, rfl⟩ := h
    obtain ⟨y, h1', rfl⟩ := h'
    cases hd with
    | cons _ hd => exact allShow_tells h1' h1 hd
  | .elem v :: pre, ds', ds, h', h, hd => by
    simp only [List.cons_append, AllShow] at h' h
    obtain ⟨_, x, _, h1, rfl⟩ := h
    obtain ⟨_, y, _, h1', rfl⟩ := h'
    cases hd with
    | cons _ hd => exact allShow_tells h1' h1 hd
  | .slot v :: pre, ds', ds, h', h, hd => by
    simp only [List.cons_append, AllShow] at h' h
    exact allShow_tells h' h hd

theorem slotsShow_tells {c' c : Element} {post : List Child} : ∀ {pre : List Child} {ss' ss : List (Ident × Dom V)},
    SlotsShow R (pre ++ .slot c' :: post) ss' → SlotsShow R (pre ++ .slot c :: post) ss → PairsSame ss' ss →
    ∃ n d' d, SlotShows R c' n d' ∧ SlotShows R c n d ∧ Same d' d
  | [], ss', ss, h', h, hd => by
    simp only [List.nil_append, SlotsShow] at h' h
    obtain ⟨n, d, x, -, h1, h2, rfl⟩ := h
    obtain ⟨n', d', y, -, h1', h2', rfl⟩ := h'
    cases hd with
    | cons hd _ => exact ⟨n, d', d, h1', h1, hd⟩
  | .value v :: pre, ss', ss, h', h, hd => by
    simp only [List.cons_append, SlotsShow] at h' h
    exact slotsShow_tells h' h hd
  | .elem v :: pre, ss', ss, h', h, hd => by
    simp only [List.cons_append, SlotsShow] at h' h
    exact slotsShow_tells h' h hd
  | .slot v :: pre, ss', ss, h', h, hd => by
    simp only [List.cons_append, SlotsShow] at h' h
    obtain ⟨_, _, x, _, _, h1, rfl⟩ := h
    obtain ⟨_, _, y, _, _, h1', rfl⟩ := h'
    cases hd with
    | cons _ hd => exact slotsShow_tells h1' h1 hd

theorem grouped_slots {ss : List (Ident × Dom V)} {gs : List (Part V)} (h : Grouped ss gs) : ∀ p ∈ gs, p.isSlots = true := by
  obtain ⟨names, -, -, rfl⟩ := h
  intro p hp
  obtain ⟨n, -, rfl⟩ := List.mem_map.mp hp
  rfl

theorem props_plain {A : List Attr} : ∀ p ∈ props R A, p.isSlots = false := by
  intro p hp
  obtain ⟨n, -, rfl⟩ := List.mem_map.mp hp
  rfl

/-! ### anywhere -/

/-- What is seen of children can be told from the page. -/
theorem tells_gap {cs' cs : List Child} (hn' : ∀ c ∈ cs', c.isSlot = false) (hn : ∀ c ∈ cs, c.isSlot = false) :
    ∀ (T : TreeGap) (b : Bool), T.Seen b → ∀ {ds' ds : List (Dom V)}, AllShow R (T.fill cs') ds' → AllShow R (T.fill cs) ds →
    AllSame ds' ds → (b = true → ∃ ss' ss, SlotsShow R (T.fill cs') ss' ∧ SlotsShow R (T.fill cs) ss ∧ PairsSame ss' ss) →
    ∃ es' es, AllShow R cs' es' ∧ AllShow R cs es ∧ AllSame es' es
  | .here, b, _, ds', ds, h', h, hd, _ => ⟨ds', ds, h', h, hd⟩
  | .elem pre true tag sels attrs args inner post, b, hb, ds', ds, h', h, hd, hs => by
    obtain ⟨hb, hi⟩ := hb
    obtain ⟨ss', ss, s1, s2, s3⟩ := hs hb
    simp only [TreeGap.fill, asChild, if_true] at s1 s2
    obtain ⟨n, d', d, e1, e2, e3⟩ := slotsShow_tells s1 s2 s3
    simp only [SlotShows, BlockShows] at e1 e2
    obtain ⟨x', x1, rfl⟩ := e1
    obtain ⟨x, x2, rfl⟩ := e2
    cases e3 with
    | slot hp => exact tells_gap hn' hn inner false hi x1 x2 (body_tells (partsSame_cancel hp)) (fun h => nomatch h)
  | .elem pre false (.component p) sels attrs args inner post, b, hb, ds', ds, h', h, hd, hs => by
    simp only [TreeGap.fill, asChild, Bool.false_eq_true, if_false] at h' h
    obtain ⟨d', d, e1, e2, e3⟩ := allShow_tells h' h hd
    simp only [Shows, BlockShows, BlockSlots] at e1 e2
    obtain ⟨path, ls, x, slots, gs, a1, a2, a3, a4, a5, rfl⟩ := e2
    obtain ⟨path', ls', x', slots', gs', b1, b2, b3, b4, b5, rfl⟩ := e1
    rw [a1] at b1; cases b1
    rw [a2] at b2; cases b2
    obtain ⟨p1, g₁, p2, p3⟩ := comp_tells props_plain body_plain body_plain (grouped_slots b5) (grouped_slots a5) e3
    exact tells_gap hn' hn inner true hb b3 a3 (body_tells p1) fun _ => ⟨_, _, b4, a4,
      grouped_tells (slotNames_gap hn' hn b4 a4) (slotsShow_named b4) (slotsShow_named a4) b5 a5 p2 p3⟩
  | .elem pre false (.html i) sels attrs args inner post, b, hb, ds', ds, h', h, hd, hs => by
    simp only [TreeGap.fill, asChild, Bool.false_eq_true, if_false] at h' h
    obtain ⟨d', d, e1, e2, e3⟩ := allShow_tells h' h hd
    simp only [Shows, BlockShows] at e1 e2
    obtain ⟨_, _, _, x', _, _, x1, rfl⟩ := e1
    obtain ⟨_, _, _, x, _, _, x2, rfl⟩ := e2
    cases e3 with
    | elem hd => exact tells_gap hn' hn inner false hb x1 x2 hd (fun h => nomatch h)
  | .elem pre false (.svg i) sels attrs args inner post, b, hb, ds', ds, h', h, hd, hs => by
    simp only [TreeGap.fill, asChild, Bool.false_eq_true, if_false] at h' h
    obtain ⟨d', d, e1, e2, e3⟩ := allShow_tells h' h hd
    simp only [Shows, BlockShows] at e1 e2
    obtain ⟨_, _, _, x', _, _, x1, rfl⟩ := e1
    obtain ⟨_, _, _, x, _, _, x2, rfl⟩ := e2
    cases e3 with
    | elem hd => exact tells_gap hn' hn inner false hb x1 x2 hd (fun h => nomatch h)
  | .elem pre false (.math i) sels attrs args inner post, b, hb, ds', ds, h', h, hd, hs => by
    simp only [TreeGap.fill, asChild, Bool.false_eq_true, if_false] at h' h
    obtain ⟨d', d, e1, e2, e3⟩ := allShow_tells h' h hd
    simp only [Shows, BlockShows] at e1 e2
    obtain ⟨_, _, _, x', _, _, x1, rfl⟩ := e1
    obtain ⟨_, _, _, x, _, _, x2, rfl⟩ := e2
    cases e3 with
    | elem hd => exact tells_gap hn' hn inner false hb x1 x2 hd (fun h => nomatch h)
  | .elem pre false (.webComponent i) sels attrs args inner post, b, hb, ds', ds, h', h, hd, hs => by
    simp only [TreeGap.fill, asChild, Bool.false_eq_true, if_false] at h' h
    obtain ⟨d', d, e1, e2, e3⟩ := allShow_tells h' h hd
    simp only [Shows, BlockShows] at e1 e2
    obtain ⟨_, _, _, x', _, _, x1, rfl⟩ := e1
    obtain ⟨_, _, _, x, _, _, x2, rfl⟩ := e2
    cases e3 with
    | elem hd => exact tells_gap hn' hn inner false hb x1 x2 hd (fun h => nomatch h)

/-! ### what is not seen -/

theorem allShow_put {c' c : Element} (h : ∀ d' d, Shows R c' d' → Shows R c d → Same d' d) {post : List Child} :
    ∀ {pre : List Child} {ds' ds : List (Dom V)}, AllShow R (pre ++ .elem c' :: post) ds' →
    AllShow R (pre ++ .elem c :: post) ds → AllSame ds' ds
  | [], ds', ds, h', hd => by
    simp only [List.nil_append, AllShow] at h' hd
    obtain ⟨d, x, h1, h2, rfl⟩ := hd
    obtain ⟨d', y, h1', h2', rfl⟩ := h'
    exact .cons (h _ _ h1' h1) (allShow_same post _ _ h2' h2)
  | .value v :: pre, ds', ds, h', hd => by
    simp only [List.cons_append, AllShow] at h' hd
    obtain ⟨x, h1, rfl⟩ := hd
    obtain ⟨y, h1', rfl⟩ := h'
    exact .cons (.value _) (allShow_put h h1' h1)
  | .elem v :: pre, ds', ds, h', hd => by
    simp only [List.cons_append, AllShow] at h' hd
    obtain ⟨_, x, s, h1, rfl⟩ := hd
    obtain ⟨_, y, s', h1', rfl⟩ := h'
    exact .cons (shows_same v _ _ s' s) (allShow_put h h1' h1)
  | .slot v :: pre, ds', ds, h', hd => by
    simp only [List.cons_append, AllShow] at h' hd
    exact allShow_put h h' hd

/-- The slots are the same whatever is in an element. -/
theorem slotsShow_put {c' c : Element} {post : List Child} :
    ∀ {pre : List Child} {ss' ss : List (Ident × Dom V)}, SlotsShow R (pre ++ .elem c' :: post) ss' →
    SlotsShow R (pre ++ .elem c :: post) ss → PairsSame ss' ss
  | [], ss', ss, h', hd => by
    simp only [List.nil_append, SlotsShow] at h' hd
    exact slotsShow_same post _ _ h' hd
  | .value v :: pre, ss', ss, h', hd => by
    simp only [List.cons_append, SlotsShow] at h' hd
    exact slotsShow_put h' hd
  | .elem v :: pre, ss', ss, h', hd => by
    simp only [List.cons_append, SlotsShow] at h' hd
    exact slotsShow_put h' hd
  | .slot v :: pre, ss', ss, h', hd => by
    simp only [List.cons_append, SlotsShow] at h' hd
    obtain ⟨n, d, x, h1, h2, h3, rfl⟩ := hd
    obtain ⟨n', d', y, h1', h2', h3', rfl⟩ := h'
    rw [h1] at h1'
    cases h1'
    exact .cons (slotShows_same n v _ _ h2' h2) (slotsShow_put h3' h3)

/-- What is shown is the same whatever is in a slot. -/
theorem allShow_aside {c' c : Element} {post : List Child} :
    ∀ {pre : List Child} {ds' ds : List (Dom V)}, AllShow R (pre ++ .slot c' :: post) ds' →
    AllShow R (pre ++ .slot c :: post) ds → AllSame ds' ds
  | [], ds', ds, h', hd => by
    simp only [List.nil_append, AllShow] at h' hd
    exact allShow_same post _ _ h' hd
  | .value v :: pre, ds', ds, h', hd => by
    simp only [List.cons_append, AllShow] at h' hd
    obtain ⟨x, h1, rfl⟩ := hd
    obtain ⟨y, h1', rfl⟩ := h'
    exact .cons (.value _) (allShow_aside h1' h1)
  | .elem v :: pre, ds', ds, h', hd => by
    simp only [List.cons_append, AllShow] at h' hd
    obtain ⟨_, x, s, h1, rfl⟩ := hd
    obtain ⟨_, y, s', h1', rfl⟩ := h'
    exact .cons (shows_same v _ _ s' s) (allShow_aside h1' h1)
  | .slot v :: pre, ds', ds, h', hd => by
    simp only [List.cons_append, AllShow] at h' hd
    exact allShow_aside h' hd

theorem slotsShow_aside {c' c : Element} (ht : c'.tag = c.tag)
    (h : ∀ n d' d, SlotShows R c' n d' → SlotShows R c n d → Same d' d) {post : List Child} :
    ∀ {pre : List Child} {ss' ss : List (Ident × Dom V)}, SlotsShow R (pre ++ .slot c' :: post) ss' →
    SlotsShow R (pre ++ .slot c :: post) ss → PairsSame ss' ss
  | [], ss', ss, h', hd => by
    simp only [List.nil_append, SlotsShow] at h' hd
    obtain ⟨n, d, x, h1, h2, h3, rfl⟩ := hd
    obtain ⟨n', d', y, h1', h2', h3', rfl⟩ := h'
    rw [ht, h1] at h1'
    cases h1'
    exact .cons (h _ _ _ h2' h2) (slotsShow_same post _ _ h3' h3)
  | .value v :: pre, ss', ss, h', hd => by
    simp only [List.cons_append, SlotsShow] at h' hd
    exact slotsShow_aside ht h h' hd
  | .elem v :: pre, ss', ss, h', hd => by
    simp only [List.cons_append, SlotsShow] at h' hd
    exact slotsShow_aside ht h h' hd
  | .slot v :: pre, ss', ss, h', hd => by
    simp only [List.cons_append, SlotsShow] at h' hd
    obtain ⟨n, d, x, h1, h2, h3, rfl⟩ := hd
    obtain ⟨n', d', y, h1', h2', h3', rfl⟩ := h'
    rw [h1] at h1'
    cases h1'
    exact .cons (slotShows_same n v _ _ h2' h2) (slotsShow_aside ht h h3' h3)

/-- What is not seen makes no difference. -/
theorem unseen_gap {cs' cs : List Child} : ∀ (T : TreeGap) (b : Bool), ¬ T.Seen b →
    (∀ ds' ds, AllShow R (T.fill cs') ds' → AllShow R (T.fill cs) ds → AllSame ds' ds) ∧
    (b = true → ∀ ss' ss, SlotsShow R (T.fill cs') ss' → SlotsShow R (T.fill cs) ss → PairsSame ss' ss)
  | .here, b, hb => (hb trivial).elim
  | .elem pre true tag sels attrs args inner post, b, hb => by
    simp only [TreeGap.fill, asChild, if_true]
    refine ⟨fun ds' ds => allShow_aside, fun h ss' ss => slotsShow_aside (by simp only [Element.tag]) fun n d' d h1 h2 => ?_⟩
    have hi := (unseen_gap (cs' := cs') (cs := cs) inner false fun hi => hb ⟨h, hi⟩).1
    simp only [SlotShows, BlockShows] at h1 h2
    obtain ⟨x', x1, rfl⟩ := h1
    obtain ⟨x, x2, rfl⟩ := h2
    exact .slot (partsSame_append (body_same (hi _ _ x1 x2)) (partsSame_refl _))
  | .elem pre false (.component p) sels attrs args inner post, b, hb => by
    simp only [TreeGap.fill, asChild, Bool.false_eq_true, if_false]
    have hi := unseen_gap (cs' := cs') (cs := cs) inner true hb
    exact ⟨fun ds' ds => allShow_put fun d' d => like_elem ⟨hi.1, hi.2 rfl⟩, fun _ ss' ss => slotsShow_put⟩
  | .elem pre false (.html i) sels attrs args inner post, b, hb => by
    simp only [TreeGap.fill, asChild, Bool.false_eq_true, if_false]
    have hi := (unseen_gap (cs' := cs') (cs := cs) inner false hb).1
    refine ⟨fun ds' ds => allShow_put fun d' d h' hd => ?_, fun _ ss' ss => slotsShow_put⟩
    simp only [Shows, BlockShows] at h' hd
    obtain ⟨sp, nm, ls, ds, a1, a2, a3, rfl⟩ := hd
    obtain ⟨sp', nm', ls', ds', b1, b2, b3, rfl⟩ := h'
    rw [a1] at b1; cases b1
    rw [a2] at b2; cases b2
    exact .elem (hi _ _ b3 a3)
  | .elem pre false (.svg i) sels attrs args inner post, b, hb => by
    simp only [TreeGap.fill, asChild, Bool.false_eq_true, if_false]
    have hi := (unseen_gap (cs' := cs') (cs := cs) inner false hb).1
    refine ⟨fun ds' ds => allShow_put fun d' d h' hd => ?_, fun _ ss' ss => slotsShow_put⟩
    simp only [Shows, BlockShows] at h' hd
    obtain ⟨sp, nm, ls, ds, a1, a2, a3, rfl⟩ := hd
    obtain ⟨sp', nm', ls', ds', b1, b2, b3, rfl⟩ := h'
    rw [a1] at b1; cases b1
    rw [a2] at b2; cases b2
    exact .elem (hi _ _ b3 a3)
  | .elem pre false (.math i) sels attrs args inner post, b, hb => by
    simp only [TreeGap.fill, asChild, Bool.false_eq_true, if_false]
    have hi := (unseen_gap (cs' := cs') (cs := cs) inner false hb).1
    refine ⟨fun ds' ds => allShow_put fun d' d h' hd => ?_, fun _ ss' ss => slotsShow_put⟩
    simp only [Shows, BlockShows] at h' hd
    obtain ⟨sp, nm, ls, ds, a1, a2, a3, rfl⟩ := hd
    obtain ⟨sp', nm', ls', ds', b1, b2, b3, rfl⟩ := h'
    rw [a1] at b1; cases b1
    rw [a2] at b2; cases b2
    exact .elem (hi _ _ b3 a3)
  | .elem pre false (.webComponent i) sels attrs args inner post, b, hb => by
    simp only [TreeGap.fill, asChild, Bool.false_eq_true, if_false]
    have hi := (unseen_gap (cs' := cs') (cs := cs) inner false hb).1
    refine ⟨fun ds' ds => allShow_put fun d' d h' hd => ?_, fun _ ss' ss => slotsShow_put⟩
    simp only [Shows, BlockShows] at h' hd
    obtain ⟨sp, nm, ls, ds, a1, a2, a3, rfl⟩ := hd
    obtain ⟨sp', nm', ls', ds', b1, b2, b3, rfl⟩ := h'
    rw [a1] at b1; cases b1
    rw [a2] at b2; cases b2
    exact .elem (hi _ _ b3 a3)

end Mview.Run
