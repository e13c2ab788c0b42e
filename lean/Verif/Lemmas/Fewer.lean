import Verif.Spec.Fewer
/-
Trees with something left out show pages with something left out.
-/

namespace Mview.Run

variable {V : Type} {R : Rust V}

/-! ### lists -/

theorem PartsFewer.none (R : Rust V) : ∀ ps : List (Part V), PartsFewer R [] ps
  | [] => .nil
  | _ :: ps => .without (PartsFewer.none R ps)

theorem AllFewer.none (R : Rust V) : ∀ ps : List (Dom V), AllFewer R [] ps
  | [] => .nil
  | _ :: ps => .without (AllFewer.none R ps)

theorem partsFewer_append {b' b : List (Part V)} (hb : PartsFewer R b' b) :
    ∀ {a' a : List (Part V)}, PartsFewer R a' a → PartsFewer R (a' ++ b') (a ++ b) := by
  intro a' a h
  match h with
  | .nil => exact hb
  | .without h => exact .without (partsFewer_append hb h)
  | .both hp h => exact .both hp (partsFewer_append hb h)

theorem props_fewer {A' A : List KvAttr} (h : A'.Sublist A) :
    PartsFewer R (A'.map fun a => .prop (rustName (.kebab a.key)) (valueOf R a.value))
      (A.map fun a => .prop (rustName (.kebab a.key)) (valueOf R a.value)) := by
  induction h with
  | slnil => exact .nil
  | cons a h ih => exact .without ih
  | cons_cons a h ih => exact .both (.prop _ _) ih

theorem unprefixed_sub {A' A : List Attr} (h : A'.Sublist A) : (unprefixed A').Sublist (unprefixed A) := by
  induction h with
  | slnil => exact .slnil
  | cons a h ih => cases a <;> simp only [unprefixed] <;> first | exact .cons _ ih | exact ih
  | cons_cons a h ih => cases a <;> simp only [unprefixed] <;> first | exact .cons_cons _ ih | exact ih

theorem prefixed_sub {A' A : List Attr} (h : A'.Sublist A) : (prefixed A').Sublist (prefixed A) := by
  induction h with
  | slnil => exact .slnil
  | cons a h ih => cases a <;> simp only [prefixed] <;> first | exact .cons _ ih | exact ih
  | cons_cons a h ih => cases a <;> simp only [prefixed] <;> first | exact .cons_cons _ ih | exact ih

theorem spreadOnto_sub {A' A : List Attr} (h : A'.Sublist A) : (spreadOnto A').Sublist (spreadOnto A) := by
  induction h with
  | slnil => exact .slnil
  | cons a h ih => cases a <;> simp only [spreadOnto] <;> first | exact .cons _ ih | exact ih
  | cons_cons a h ih => cases a <;> simp only [spreadOnto] <;> first | exact .cons_cons _ ih | exact ih

theorem dots_sub {S' S : List Selector} (h : S'.Sublist S) : (dots S').Sublist (dots S) := by
  induction h with
  | slnil => exact .slnil
  | cons a h ih => cases a <;> simp only [dots] <;> first | exact .cons _ ih | exact ih
  | cons_cons a h ih => cases a <;> simp only [dots] <;> first | exact .cons_cons _ ih | exact ih

theorem hashes_sub {S' S : List Selector} (h : S'.Sublist S) : (hashes S').Sublist (hashes S) := by
  induction h with
  | slnil => exact .slnil
  | cons a h ih => cases a <;> simp only [hashes] <;> first | exact .cons _ ih | exact ih
  | cons_cons a h ih => cases a <;> simp only [hashes] <;> first | exact .cons_cons _ ih | exact ih

theorem cloned_sub {A' A : List Attr} (h : A'.Sublist A) : (cloned A').Sublist (cloned A) := by
  induction h with
  | slnil => exact .slnil
  | cons a h ih =>
    cases a <;> simp only [cloned] <;> first | exact ih | (split <;> first | exact .cons _ ih | exact ih)
  | cons_cons a h ih =>
    cases a <;> simp only [cloned] <;> first | exact ih | (split <;> first | exact .cons_cons _ ih | exact ih)

theorem mapM_sub {α β : Type} {f : α → Option β} {as' as : List α} (h : as'.Sublist as) :
    ∀ {bs' bs : List β}, as'.mapM f = some bs' → as.mapM f = some bs → bs'.Sublist bs := by
  induction h with
  | slnil => intro bs' bs h' h; cases h'; cases h; exact .slnil
  | cons a h ih =>
    intro bs' bs h' h
    rw [List.mapM_cons] at h
    cases hf : f a with
    | none => rw [hf] at h; cases h
    | some b =>
      rw [hf] at h
      cases hm : List.mapM f _ with
      | none => rw [hm] at h; cases h
      | some cs => rw [hm] at h; cases h; exact .cons _ (ih h' hm)
  | cons_cons a h ih =>
    intro bs' bs h' h
    rw [List.mapM_cons] at h h'
    cases hf : f a with
    | none => rw [hf] at h; cases h
    | some b =>
      rw [hf] at h h'
      simp only [Option.pure_def, Option.bind_eq_bind, Option.bind_some, Option.bind_eq_some_iff, Option.some.injEq] at h h'
      obtain ⟨cs, hm, rfl⟩ := h
      obtain ⟨cs', hm', rfl⟩ := h'
      exact .cons_cons _ (ih hm' hm)

theorem attrEntries_sub {A' A : List Attr} (h : A'.Sublist A) : ∀ {es' es : List (Look V)},
    attrEntries R A' = some es' → attrEntries R A = some es → es'.Sublist es := by
  induction h with
  | slnil => intro bs' bs h' h; cases h'; cases h; exact .slnil
  | cons a h ih =>
    intro es' es h' h
    cases a with
    | kv a => exact ih h' h
    | spread e =>
      simp only [attrEntries, Option.pure_def, Option.bind_eq_bind, Option.bind_eq_some_iff, Option.some.injEq] at h
      obtain ⟨cs, hm, rfl⟩ := h
      exact .cons _ (ih h' hm)
    | directive d =>
      simp only [attrEntries] at h
      split at h
      · exact ih h' h
      · simp only [Option.pure_def, Option.bind_eq_bind, Option.bind_eq_some_iff, Option.some.injEq] at h
        obtain ⟨c, hc, cs, hm, rfl⟩ := h
        exact .cons _ (ih h' hm)
  | cons_cons a h ih =>
    intro es' es h' h
    cases a with
    | kv a => exact ih h' h
    | spread e =>
      simp only [attrEntries, Option.pure_def, Option.bind_eq_bind, Option.bind_eq_some_iff, Option.some.injEq] at h h'
      obtain ⟨cs, hm, rfl⟩ := h
      obtain ⟨cs', hm', rfl⟩ := h'
      exact .cons_cons _ (ih hm' hm)
    | directive d =>
      simp only [attrEntries] at h h'
      split at h
      · rename_i hd
        rw [if_pos hd] at h'
        exact ih h' h
      · rename_i hd
        rw [if_neg hd] at h'
        simp only [Option.pure_def, Option.bind_eq_bind, Option.bind_eq_some_iff, Option.some.injEq] at h h'
        obtain ⟨c, hc, cs, hm, rfl⟩ := h
        obtain ⟨c', hc', cs', hm', rfl⟩ := h'
        rw [hc] at hc'
        cases hc'
        exact .cons_cons _ (ih hm' hm)

/-! ### parts of elements -/

theorem looks_fewer {S' S : List Selector} {A' A : List Attr} (hs : S'.Sublist S) (ha : A'.Sublist A)
    {ls' ls : List (Look V)} (h' : looks R S' A' = some ls') (h : looks R S A = some ls) : ls'.Sublist ls := by
  simp only [looks, Option.pure_def, Option.bind_eq_bind, Option.bind_eq_some_iff, Option.some.injEq] at h h'
  obtain ⟨es, hm, rfl⟩ := h
  obtain ⟨es', hm', rfl⟩ := h'
  exact (((((unprefixed_sub ha).map _).append (mapM_sub (prefixed_sub ha) hm' hm)).append ((dots_sub hs).map _)).append
    ((hashes_sub hs).map _)).append ((spreadOnto_sub ha).map _)

theorem entryLooks_fewer {S' S : List Selector} {A' A : List Attr} (hs : S'.Sublist S) (ha : A'.Sublist A)
    {ls' ls : List (Look V)} (h' : entryLooks R S' A' = some ls') (h : entryLooks R S A = some ls) :
    FewerLooks R ls' ls := by
  simp only [entryLooks, Option.pure_def, Option.bind_eq_bind, Option.bind_eq_some_iff, Option.some.injEq] at h h'
  obtain ⟨es, hm, rfl⟩ := h
  obtain ⟨es', hm', rfl⟩ := h'
  have h1 := (dots_sub hs).map fun k => Look.clsIf (R.lit (.str k)) (R.bool true)
  have h2 := attrEntries_sub (R := R) ha hm' hm
  by_cases hi : hashes S' = []
  · rw [if_pos hi, List.append_nil]
    refine .inl ?_
    rw [List.append_assoc]
    exact h1.append (h2.trans (List.sublist_append_right _ _))
  · have hi' : hashes S ≠ [] := by
      intro h
      have := hashes_sub hs
      rw [h] at this
      exact hi (List.sublist_nil.mp this)
    rw [if_neg hi, if_neg hi']
    exact .inr ⟨_, _, _, _, _, _, h1, hashes_sub hs, h2, by simp [idLook], by simp [idLook]⟩

theorem body_fewer {A' A : List Attr} {g' g : Option Toks} {ds' ds : List (Dom V)} (ha : A'.Sublist A)
    (hg : g' = none ∨ g' = g) (hd : AllFewer R ds' ds) : PartsFewer R (body A' g' ds') (body A g ds) := by
  unfold body
  cases ds' with
  | nil => exact PartsFewer.none R _
  | cons d' ds' =>
    cases ds with
    | nil => cases hd
    | cons d ds => exact .both (.children hg (cloned_sub ha) hd) .nil

/-! ### slots -/

/-- slots with their names, with something left out -/
inductive PairsFewer (R : Rust V) : List (Ident × Dom V) → List (Ident × Dom V) → Prop
  | nil : PairsFewer R [] []
  | without {p : Ident × Dom V} {ss' ss : List (Ident × Dom V)} (h : PairsFewer R ss' ss) :
    PairsFewer R ss' (p :: ss)
  | both {n : Ident} {d' d : Dom V} {ss' ss : List (Ident × Dom V)} (hd : Fewer R d' d) (h : PairsFewer R ss' ss) :
    PairsFewer R ((n, d') :: ss') ((n, d) :: ss)

theorem PairsFewer.none (R : Rust V) : ∀ ss : List (Ident × Dom V), PairsFewer R [] ss
  | [] => .nil
  | _ :: ss => .without (PairsFewer.none R ss)

theorem PairsFewer.names {ss' ss : List (Ident × Dom V)} (h : PairsFewer R ss' ss) :
    ∀ n ∈ ss'.map Prod.fst, n ∈ ss.map Prod.fst := by
  induction h with
  | nil => exact fun _ h => h
  | without h ih => exact fun n hn => List.mem_cons_of_mem _ (ih n hn)
  | both hd h ih =>
    intro n hn
    simp only [List.map_cons, List.mem_cons] at hn ⊢
    exact hn.imp id (ih n)

theorem PairsFewer.filter {ss' ss : List (Ident × Dom V)} (h : PairsFewer R ss' ss) (n : Ident) :
    AllFewer R ((ss'.filter (·.1 = n)).map Prod.snd) ((ss.filter (·.1 = n)).map Prod.snd) := by
  induction h with
  | nil => exact .nil
  | @without p ss' ss h ih =>
    by_cases hp : p.1 = n
    · rw [List.filter_cons_of_pos (by simpa using hp)]; exact .without ih
    · rw [List.filter_cons_of_neg (by simpa using hp)]; exact ih
  | @both m d' d ss' ss hd h ih =>
    by_cases hp : m = n
    · rw [List.filter_cons_of_pos (by simpa using hp), List.filter_cons_of_pos (by simpa using hp)]
      exact .both hd ih
    · rw [List.filter_cons_of_neg (by simpa using hp), List.filter_cons_of_neg (by simpa using hp)]; exact ih

theorem groups_fewer {ss' ss : List (Ident × Dom V)} (h : PairsFewer R ss' ss) : ∀ names : List Ident,
    PartsFewer R (names.map fun n => .slots (snakeCase n.name) ((ss'.filter (·.1 = n)).map Prod.snd))
      (names.map fun n => .slots (snakeCase n.name) ((ss.filter (·.1 = n)).map Prod.snd))
  | [] => .nil
  | n :: names => .both (.slots (h.filter n)) (groups_fewer h names)

theorem grouped_fewer {ss' ss : List (Ident × Dom V)} {gs' gs : List (Part V)} (h : PairsFewer R ss' ss)
    (hg' : Grouped ss' gs') (hg : Grouped ss gs) : ∃ gs₁, PartsFewer R gs' gs₁ ∧ gs₁.Perm gs ∧
      ∀ p ∈ gs, p.isSlots = true := by
  obtain ⟨names', n1', n2', rfl⟩ := hg'
  obtain ⟨names, n1, n2, rfl⟩ := hg
  let G : Ident → Part V := fun n => .slots (snakeCase n.name) ((ss.filter (·.1 = n)).map Prod.snd)
  let rest := names.filter (fun n => decide (n ∉ names'))
  refine ⟨names'.map G ++ rest.map G, ?_, ?_, ?_⟩
  · have h1 := groups_fewer h names'
    have := partsFewer_append (PartsFewer.none R (rest.map G)) h1
    rw [List.append_nil] at this
    exact this
  · rw [← List.map_append]
    refine List.Perm.map G ?_
    refine (List.perm_ext_iff_of_nodup ?_ n1).mpr ?_
    · rw [List.nodup_append]
      refine ⟨n1', n1.sublist List.filter_sublist, ?_⟩
      rintro a ha b hb rfl
      simp only [rest, List.mem_filter, decide_eq_true_eq] at hb
      exact hb.2 ha
    · intro n
      simp only [rest, List.mem_append, List.mem_filter, decide_eq_true_eq]
      constructor
      · rintro (hn | hn)
        · exact (n2 n).mpr (h.names n ((n2' n).mp hn))
        · exact hn.1
      · intro hn
        by_cases h : n ∈ names'
        · exact .inl h
        · exact .inr ⟨hn, h⟩
  · intro p hp
    obtain ⟨n, -, rfl⟩ := List.mem_map.mp hp
    rfl

/-! ### trees -/

/-- What is shown of the one is less than of the other. -/
def ShowsFewer (R : Rust V) (e' e : Element) : Prop :=
  (∀ d' d, Shows R e' d' → Shows R e d → Fewer R d' d) ∧
  ∀ n d' d, SlotShows R e' n d' → SlotShows R e n d → Fewer R d' d

def AllShowFewer (R : Rust V) (cs' cs : List Child) : Prop :=
  (∀ ds' ds, AllShow R cs' ds' → AllShow R cs ds → AllFewer R ds' ds) ∧
  ∀ ss' ss, SlotsShow R cs' ss' → SlotsShow R cs ss → PairsFewer R ss' ss

/-- An element, given its children. -/
theorem elem_shows_fewer {T : Tag} {S' S : List Selector} {A' A : List Attr} {g' g : Option Toks}
    {k' k : Option (List Child)} (hs : S'.Sublist S) (ha : A'.Sublist A) (hg : g' = none ∨ g' = g)
    (hd : ∀ ds' ds, BlockShows R k' ds' → BlockShows R k ds → AllFewer R ds' ds)
    (hp : ∀ ss' ss, BlockSlots R k' ss' → BlockSlots R k ss → PairsFewer R ss' ss) :
    ShowsFewer R (.mk T S' A' g' k') (.mk T S A g k) := by
  refine ⟨fun d' d h' h => ?_, fun n d' d h' h => ?_⟩
  · cases T with
    | component p =>
      simp only [Shows] at h h'
      obtain ⟨path, ls, ds, slots, gs, hp1, hl, hb, hq, hgr, rfl⟩ := h
      obtain ⟨path', ls', ds', slots', gs', hp1', hl', hb', hq', hgr', rfl⟩ := h'
      rw [hp1] at hp1'
      cases hp1'
      obtain ⟨gs₁, g1, g2, g3⟩ := grouped_fewer (hp _ _ hq' hq) hgr' hgr
      exact .comp (entryLooks_fewer hs ha hl' hl) (partsFewer_append g1 (partsFewer_append
        (body_fewer ha hg (hd _ _ hb' hb)) (props_fewer (unprefixed_sub ha)))) g2 g3
    | _ =>
      simp only [Shows] at h h'
      obtain ⟨space, name, ls, ds, hs1, hl, hb, rfl⟩ := h
      obtain ⟨space', name', ls', ds', hs1', hl', hb', rfl⟩ := h'
      rw [hs1] at hs1'
      cases hs1'
      exact .elem (looks_fewer hs ha hl' hl) (hd _ _ hb' hb)
  · simp only [SlotShows] at h h'
    obtain ⟨ds, hb, rfl⟩ := h
    obtain ⟨ds', hb', rfl⟩ := h'
    exact .slot (partsFewer_append (body_fewer ha hg (hd _ _ hb' hb)) (props_fewer (unprefixed_sub ha)))

mutual
theorem child_shows_fewer {c' c : Child} (h : LeftOut c' c) : (∃ v, c' = .value v ∧ c = .value v) ∨
    (∃ e' e, c' = .elem e' ∧ c = .elem e ∧ ShowsFewer R e' e) ∨
    ∃ e' e, c' = .slot e' ∧ c = .slot e ∧ e'.tag = e.tag ∧ ShowsFewer R e' e := by
  match h with
  | .value v => exact .inl ⟨v, rfl, rfl⟩
  | .elem h => exact .inr (.inl ⟨_, _, rfl, rfl, (element_shows_fewer h).1⟩)
  | .slot h => exact .inr (.inr ⟨_, _, rfl, rfl, (element_shows_fewer h).2, (element_shows_fewer h).1⟩)
theorem element_shows_fewer {e' e : Element} (h : ElemLeftOut e' e) : ShowsFewer R e' e ∧ e'.tag = e.tag := by
  match h with
  | .void hs ha =>
    refine ⟨elem_shows_fewer hs ha (.inl rfl) ?_ ?_, rfl⟩
    · intro ds' ds h' h
      simp only [BlockShows] at h'
      subst h'
      exact AllFewer.none R ds
    · intro ss' ss h' h
      simp only [BlockSlots] at h'
      subst h'
      exact PairsFewer.none R ss
  | .block hs ha hg hc =>
    have ih := children_show_fewer hc
    refine ⟨elem_shows_fewer hs ha hg ?_ ?_, rfl⟩
    · intro ds' ds h' h
      simp only [BlockShows] at h h'
      exact ih.1 _ _ h' h
    · intro ss' ss h' h
      simp only [BlockSlots] at h h'
      exact ih.2 _ _ h' h
theorem children_show_fewer {cs' cs : List Child} (h : AllLeftOut cs' cs) : AllShowFewer R cs' cs := by
  match h with
  | .nil =>
    refine ⟨fun ds' ds h' h => ?_, fun ss' ss h' h => ?_⟩
    · simp only [AllShow] at h h'; subst h; subst h'; exact .nil
    · simp only [SlotsShow] at h h'; subst h; subst h'; exact .nil
  | .without (c := c) h =>
    have ih := children_show_fewer h
    refine ⟨fun ds' ds h' h => ?_, fun ss' ss h' h => ?_⟩
    · cases c with
      | value v => simp only [AllShow] at h; obtain ⟨ds₁, h, rfl⟩ := h; exact .without (ih.1 _ _ h' h)
      | elem e => simp only [AllShow] at h; obtain ⟨d, ds₁, -, h, rfl⟩ := h; exact .without (ih.1 _ _ h' h)
      | slot e => simp only [AllShow] at h; exact ih.1 _ _ h' h
    · cases c with
      | value v => simp only [SlotsShow] at h; exact ih.2 _ _ h' h
      | elem e => simp only [SlotsShow] at h; exact ih.2 _ _ h' h
      | slot e => simp only [SlotsShow] at h; obtain ⟨n, d, ds₁, -, -, h, rfl⟩ := h; exact .without (ih.2 _ _ h' h)
  | .both hc h =>
    have ih := children_show_fewer h
    rcases child_shows_fewer hc with ⟨v, rfl, rfl⟩ | ⟨e', e, rfl, rfl, he⟩ | ⟨e', e, rfl, rfl, ht, he⟩
    · refine ⟨fun ds' ds h' h => ?_, fun ss' ss h' h => ?_⟩
      · simp only [AllShow] at h h'
        obtain ⟨ds₁, h, rfl⟩ := h
        obtain ⟨ds₁', h', rfl⟩ := h'
        exact .both (.value _) (ih.1 _ _ h' h)
      · simp only [SlotsShow] at h h'; exact ih.2 _ _ h' h
    · refine ⟨fun ds' ds h' h => ?_, fun ss' ss h' h => ?_⟩
      · simp only [AllShow] at h h'
        obtain ⟨d, ds₁, hd, h, rfl⟩ := h
        obtain ⟨d', ds₁', hd', h', rfl⟩ := h'
        exact .both (he.1 _ _ hd' hd) (ih.1 _ _ h' h)
      · simp only [SlotsShow] at h h'; exact ih.2 _ _ h' h
    · refine ⟨fun ds' ds h' h => ?_, fun ss' ss h' h => ?_⟩
      · simp only [AllShow] at h h'; exact ih.1 _ _ h' h
      · simp only [SlotsShow] at h h'
        obtain ⟨n, d, ds₁, hn, hd, h, rfl⟩ := h
        obtain ⟨n', d', ds₁', hn', hd', h', rfl⟩ := h'
        rw [ht, hn] at hn'
        simp only [Tag.component.injEq, Path.mk.injEq, List.cons.injEq, PathSeg.mk.injEq, and_true, true_and] at hn'
        subst hn'
        exact .both (he.2 _ _ _ hd' hd) (ih.2 _ _ h' h)
end

/-! ### names that exist -/

theorem leftOut_tag {e' e : Element} (h : ElemLeftOut e' e) : e'.tag = e.tag := by
  cases h <;> rfl

mutual
theorem usual_leftOut {e' e : Element} (h : ElemLeftOut e' e) : Usual e → Usual e' := by
  match h with
  | .void (T := T) hs ha =>
    intro hu
    cases T with
    | component p =>
      simp only [Usual, BlockUsual, true_and] at hu ⊢
      exact ⟨fun a h => hu.2.1 a (ha.subset h), fun a h => hu.2.2 a (ha.subset h)⟩
    | _ =>
      simp only [Usual, BlockUsual, true_and] at hu ⊢
      exact ⟨hu.2.1, fun a h => hu.2.2.1 a (ha.subset h), fun a h => hu.2.2.2 a (ha.subset h)⟩
  | .block (T := T) hs ha hg hc =>
    have ih := allUsual_leftOut hc
    intro hu
    cases T with
    | component p =>
      simp only [Usual, BlockUsual] at hu ⊢
      exact ⟨ih hu.1, fun a h => hu.2.1 a (ha.subset h), fun a h => hu.2.2 a (ha.subset h)⟩
    | _ =>
      simp only [Usual, BlockUsual] at hu ⊢
      exact ⟨ih hu.1, hu.2.1, fun a h => hu.2.2.1 a (ha.subset h), fun a h => hu.2.2.2 a (ha.subset h)⟩
theorem childUsual_leftOut {c' c : Child} (h : LeftOut c' c) : AllUsual [c] → AllUsual [c'] := by
  match h with
  | .value v => exact id
  | .elem h =>
    have ih := usual_leftOut h
    intro hu
    simp only [AllUsual, and_true] at hu ⊢
    exact ih hu
  | .slot h =>
    have ih := usual_leftOut h
    have ht := leftOut_tag h
    intro hu
    simp only [AllUsual, and_true] at hu ⊢
    exact ⟨fun n hn => hu.1 n (by rw [← ht]; exact hn), ih hu.2⟩
theorem allUsual_leftOut {cs' cs : List Child} (h : AllLeftOut cs' cs) : AllUsual cs → AllUsual cs' := by
  match h with
  | .nil => exact id
  | .without (c := c) h =>
    have ih := allUsual_leftOut h
    intro hu
    cases c <;> simp only [AllUsual] at hu
    · exact ih hu
    · exact ih hu.2
    · exact ih hu.2.2
  | .both (c' := c') (c := c) hc h =>
    have ih := allUsual_leftOut h
    have ih1 := childUsual_leftOut hc
    intro hu
    have key : ∀ (c : Child) (cs : List Child), AllUsual (c :: cs) ↔ AllUsual [c] ∧ AllUsual cs := by
      intro c cs
      cases c <;> simp [AllUsual, and_assoc]
    rw [key] at hu ⊢
    exact ⟨ih1 hu.1, ih hu.2⟩
end

end Mview.Run
