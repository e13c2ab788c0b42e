import Verif.Lemmas.PageGap
import Verif.Spec.AttrPage
/-
What attributes add to a page.
-/

namespace Mview.Run

variable {V : Type} {R : Rust V}

theorem addAll_append {tag : Tag} : ∀ {a b : List Attr} {x : Added V}, addAll R tag (a ++ b) = some x ↔
    ∃ y z, addAll R tag a = some y ∧ addAll R tag b = some z ∧ x = y.and z
  | [], b, x => by
    constructor
    · intro h
      exact ⟨{}, x, rfl, h, by cases x; simp [Added.and]⟩
    · rintro ⟨y, z, h1, h2, rfl⟩
      cases h1
      rw [List.nil_append, h2]
      simp [Added.and]
  | a :: as, b, x => by
    simp only [List.cons_append, addAll, Option.bind_eq_bind, Option.bind_eq_some_iff, Option.pure_def, Option.some.injEq]
    constructor
    · rintro ⟨u, h1, v, h2, rfl⟩
      obtain ⟨y, z, h3, h4, rfl⟩ := addAll_append.mp h2
      exact ⟨_, z, ⟨u, h1, y, h3, rfl⟩, h4, by simp [Added.and]⟩
    · rintro ⟨y, z, ⟨u, h1, v, h2, rfl⟩, h4, rfl⟩
      exact ⟨u, h1, _, addAll_append.mpr ⟨v, z, h2, h4, rfl⟩, by simp [Added.and]⟩

/-- On elements. -/
theorem addAll_element {tag : Tag} (ht : ∀ p, tag ≠ .component p) : ∀ {as : List Attr} {x : Added V},
    addAll R tag as = some x ↔ ∃ ds, (prefixed as).mapM (directiveLook R) = some ds ∧
      x = { attrs := (unprefixed as).map (attrLook R), dirs := ds, spreads := (spreadOnto as).map .spread }
  | [], x => by simp [addAll, prefixed, unprefixed, spreadOnto, eq_comm]
  | .kv a :: as, x => by
    have e : adds R tag (.kv a) = some { attrs := [attrLook R a] } := by
      cases tag <;> first | rfl | exact absurd rfl (ht _)
    simp only [addAll, e, Option.bind_eq_bind, Option.bind_eq_some_iff, Option.pure_def, Option.some.injEq, prefixed,
      unprefixed, spreadOnto, addAll_element ht (as := as)]
    constructor
    · rintro ⟨_, rfl, _, ⟨ds, h, rfl⟩, rfl⟩
      exact ⟨ds, h, by simp [Added.and]⟩
    · rintro ⟨ds, h, rfl⟩
      exact ⟨_, rfl, _, ⟨ds, h, rfl⟩, by simp [Added.and]⟩
  | .directive d :: as, x => by
    have e : adds R tag (.directive d) = (directiveLook R d).map fun l => { dirs := [l] } := by
      cases tag <;> first | rfl | exact absurd rfl (ht _)
    simp only [addAll, e, Option.bind_eq_bind, Option.bind_eq_some_iff, Option.pure_def, Option.some.injEq, prefixed,
      unprefixed, spreadOnto, addAll_element ht (as := as), Option.map_eq_some_iff, List.mapM_cons]
    constructor
    · rintro ⟨_, ⟨l, hl, rfl⟩, _, ⟨ds, h, rfl⟩, rfl⟩
      exact ⟨_, ⟨l, hl, ds, h, rfl⟩, by simp [Added.and]⟩
    · rintro ⟨_, ⟨l, hl, ds, h, rfl⟩, rfl⟩
      exact ⟨_, ⟨l, hl, rfl⟩, _, ⟨ds, h, rfl⟩, by simp [Added.and]⟩
  | .spread a :: as, x => by
    have e : adds R tag (.spread a) = some { spreads := [.spread a] } := by
      cases tag <;> first | rfl | exact absurd rfl (ht _)
    simp only [addAll, e, Option.bind_eq_bind, Option.bind_eq_some_iff, Option.pure_def, Option.some.injEq, prefixed,
      unprefixed, spreadOnto, addAll_element ht (as := as)]
    constructor
    · rintro ⟨_, rfl, _, ⟨ds, h, rfl⟩, rfl⟩
      exact ⟨ds, h, by simp [Added.and]⟩
    · rintro ⟨ds, h, rfl⟩
      exact ⟨_, rfl, _, ⟨ds, h, rfl⟩, by simp [Added.and]⟩

/-- On components. -/
theorem addAll_component {p : Path} : ∀ {as : List Attr} {x : Added V},
    addAll R (.component p) as = some x ↔ ∃ es, attrEntries R as = some es ∧
      x = { props := props R as, clones := cloned as, entries := es }
  | [], x => by simp [addAll, attrEntries, props, unprefixed, cloned, eq_comm]
  | .kv a :: as, x => by
    simp only [addAll, adds, Option.bind_eq_bind, Option.bind_eq_some_iff, Option.pure_def, Option.some.injEq, attrEntries,
      props, unprefixed, cloned, addAll_component (as := as)]
    constructor
    · rintro ⟨_, rfl, _, ⟨ds, h, rfl⟩, rfl⟩
      exact ⟨ds, h, by simp [Added.and]⟩
    · rintro ⟨ds, h, rfl⟩
      exact ⟨_, rfl, _, ⟨ds, h, rfl⟩, by simp [Added.and]⟩
  | .directive d :: as, x => by
    by_cases hd : d.dir = plain c!"clone"
    · simp only [addAll, adds, if_pos hd, Option.bind_eq_bind, Option.bind_eq_some_iff, Option.pure_def, Option.some.injEq,
        attrEntries, props, unprefixed, cloned, addAll_component (as := as)]
      constructor
      · rintro ⟨_, rfl, _, ⟨ds, h, rfl⟩, rfl⟩
        exact ⟨ds, h, by simp [Added.and]⟩
      · rintro ⟨ds, h, rfl⟩
        exact ⟨_, rfl, _, ⟨ds, h, rfl⟩, by simp [Added.and]⟩
    · simp only [addAll, adds, if_neg hd, Option.bind_eq_bind, Option.bind_eq_some_iff, Option.pure_def, Option.some.injEq,
        attrEntries, props, unprefixed, cloned, addAll_component (as := as), Option.map_eq_some_iff]
      constructor
      · rintro ⟨_, ⟨l, hl, rfl⟩, _, ⟨ds, h, rfl⟩, rfl⟩
        exact ⟨_, ⟨l, hl, ds, h, rfl⟩, by simp [Added.and]⟩
      · rintro ⟨_, ⟨l, hl, ds, h, rfl⟩, rfl⟩
        exact ⟨_, ⟨l, hl, rfl⟩, _, ⟨ds, h, rfl⟩, by simp [Added.and]⟩
  | .spread a :: as, x => by
    simp only [addAll, adds, Option.bind_eq_bind, Option.bind_eq_some_iff, Option.pure_def, Option.some.injEq, attrEntries,
      props, unprefixed, cloned, addAll_component (as := as)]
    constructor
    · rintro ⟨_, rfl, _, ⟨ds, h, rfl⟩, rfl⟩
      exact ⟨_, ⟨ds, h, rfl⟩, by simp [Added.and]⟩
    · rintro ⟨_, ⟨ds, h, rfl⟩, rfl⟩
      exact ⟨_, rfl, _, ⟨ds, h, rfl⟩, by simp [Added.and]⟩

/-- What is seen of an element, for all attributes. -/
theorem shows_element {tag : Tag} (ht : ∀ p, tag ≠ .component p) {sels : List Selector} {attrs : List Attr}
    {args : Option Toks} {block : Option (List Child)} {d : Dom V} :
    Shows R (.mk tag sels attrs args block) d ↔ ∃ space name ls ds, shape tag = some (space, name) ∧
      looks R sels attrs = some ls ∧ BlockShows R block ds ∧ d = .elem space name ls ds := by
  cases tag <;> first | exact absurd rfl (ht _) | simp only [Shows]

/-- Changing the attributes of an element or component. -/
theorem attrs_gap {tag : Tag} {sels : List Selector} {a1 m a2 : List Attr} {args : Option Toks}
    {block : Option (List Child)} {d : Dom V} (h : Shows R (.mk tag sels (a1 ++ m ++ a2) args block) d) :
    ∃ N : NodeGap V, (∃ x, addAll R tag m = some x ∧ d = N.fill x) ∧ ∀ m' x', addAll R tag m' = some x' →
      Shows R (.mk tag sels (a1 ++ m' ++ a2) args block) (N.fill x') := by
  by_cases ht : ∃ p, tag = .component p
  · obtain ⟨p, rfl⟩ := ht
    simp only [Shows, entryLooks, Option.bind_eq_bind, Option.bind_eq_some_iff, Option.pure_def, Option.some.injEq] at h
    obtain ⟨path, _, ds, slots, gs, h1, ⟨es, h2, rfl⟩, h3, h4, h5, rfl⟩ := h
    obtain ⟨_, z, hy, hz, e⟩ := addAll_append.mp (addAll_component (p := p).mpr ⟨es, h2, rfl⟩)
    obtain ⟨u, v, hu, hv, rfl⟩ := addAll_append.mp hy
    refine ⟨.comp path path u z ((dots sels).map (fun k => .clsIf (R.lit (.str k)) (R.bool true)) ++
      (if hashes sels = [] then [] else [.attr c!"id" (R.lit (.str ([' '].intercalate (hashes sels))))])) args ds gs,
      ⟨v, hv, ?_⟩, fun m' x' hm => ?_⟩
    · rw [NodeGap.fill, body_passed]
      simp only [Added.and, Added.mk.injEq] at e
      obtain ⟨-, -, -, e1, e2, e3⟩ := e
      rw [e1, e2, e3]
    · obtain ⟨es', g, e'⟩ := addAll_component.mp (addAll_append.mpr ⟨_, z, addAll_append.mpr ⟨u, x', hu, hm, rfl⟩, hz, rfl⟩)
      simp only [Shows, entryLooks, Option.bind_eq_bind, Option.bind_eq_some_iff, Option.pure_def, Option.some.injEq]
      refine ⟨path, _, ds, slots, gs, h1, ⟨es', g, rfl⟩, h3, h4, h5, ?_⟩
      rw [NodeGap.fill, body_passed]
      simp only [Added.and, Added.mk.injEq] at e'
      obtain ⟨-, -, -, e1, e2, e3⟩ := e'
      rw [e1, e2, e3]
  · have ht : ∀ p, tag ≠ .component p := fun p hp => ht ⟨p, hp⟩
    rw [shows_element ht] at h
    simp only [looks, Option.bind_eq_bind, Option.bind_eq_some_iff, Option.pure_def, Option.some.injEq] at h
    obtain ⟨space, name, _, ds, h1, ⟨es, h2, rfl⟩, h3, rfl⟩ := h
    obtain ⟨_, z, hy, hz, e⟩ := addAll_append.mp ((addAll_element ht).mpr ⟨es, h2, rfl⟩)
    obtain ⟨u, v, hu, hv, rfl⟩ := addAll_append.mp hy
    refine ⟨.elem space name u z ((dots sels).map (fun k => .clsIf (R.lit (.str k)) (R.bool true)) ++
      (hashes sels).map (fun k => .attr c!"id" (R.lit (.str k)))) ds, ⟨v, hv, ?_⟩, fun m' x' hm => ?_⟩
    · rw [NodeGap.fill]
      simp only [Added.and, Added.mk.injEq] at e
      obtain ⟨e1, e2, e3, -⟩ := e
      rw [e1, e2, e3]
      simp only [List.append_assoc]
    · obtain ⟨es', g, e'⟩ := (addAll_element ht).mp
        (addAll_append.mpr ⟨_, z, addAll_append.mpr ⟨u, x', hu, hm, rfl⟩, hz, rfl⟩)
      rw [shows_element ht]
      simp only [looks, Option.bind_eq_bind, Option.bind_eq_some_iff, Option.pure_def, Option.some.injEq]
      refine ⟨space, name, _, ds, h1, ⟨es', g, rfl⟩, h3, ?_⟩
      rw [NodeGap.fill]
      simp only [Added.and, Added.mk.injEq] at e'
      obtain ⟨e1, e2, e3, -⟩ := e'
      rw [e1, e2, e3]
      simp only [List.append_assoc]

/-- The attributes of an element or component that is seen. -/
theorem attrs_page {T : TreeGap} (hs : T.Seen false) {before after : List Child} {tag : Tag} {sels : List Selector}
    {a1 m a2 : List Attr} {args : Option Toks} {block : Option (List Child)} {D : List (Dom V)}
    (h : AllShow R (T.fill (before ++ .elem (.mk tag sels (a1 ++ m ++ a2) args block) :: after)) D) :
    ∃ (G : PageGap V) (d1 d2 : List (Dom V)) (N : NodeGap V),
      (∃ x, addAll R tag m = some x ∧ D = G.fill (d1 ++ N.fill x :: d2)) ∧
      ∀ m' x', addAll R tag m' = some x' →
        AllShow R (T.fill (before ++ .elem (.mk tag sels (a1 ++ m' ++ a2) args block) :: after))
          (G.fill (d1 ++ N.fill x' :: d2)) := by
  obtain ⟨G, dx, h1, rfl, h2⟩ := gap_page_as T hs h
  obtain ⟨d1, _, rfl, h3, h4⟩ := allShow_split h1
  simp only [AllShow] at h4
  obtain ⟨d, d2, h5, h6, rfl⟩ := h4
  obtain ⟨N, ⟨x, hx, rfl⟩, hN⟩ := attrs_gap h5
  refine ⟨G, d1, d2, N, ⟨x, hx, rfl⟩, fun m' x' hm => h2 _ _ (fun ss hss => ?_) (allShow_append h3 ?_)⟩
  · obtain ⟨sa, sb, rfl, g1, g2⟩ := slotsShow_split hss
    refine slotsShow_append g1 ?_
    simp only [SlotsShow] at g2 ⊢
    exact g2
  · simp only [AllShow]
    exact ⟨_, d2, hN m' x' hm, h6, rfl⟩

theorem props_added : ∀ (as : List Attr), props R as = ((as.map (addsSlot R)).map Prod.fst).flatten
  | [] => rfl
  | .kv a :: as => by
    have := props_added as
    simp only [props] at this
    simp [props, unprefixed, addsSlot, this]
  | .directive d :: as => by
    have := props_added as
    simp only [props] at this
    simp [props, unprefixed, addsSlot, this]
  | .spread e :: as => by
    have := props_added as
    simp only [props] at this
    simp [props, unprefixed, addsSlot, this]

theorem cloned_added (R : Rust V) : ∀ (as : List Attr), cloned as = ((as.map (addsSlot R)).map Prod.snd).flatten
  | [] => rfl
  | .kv a :: as => by simp [cloned, addsSlot, cloned_added R as]
  | .directive d :: as => by
    by_cases h : d.dir = plain c!"clone" <;> simp [cloned, addsSlot, h, cloned_added R as]
  | .spread e :: as => by simp [cloned, addsSlot, cloned_added R as]

/-- The attributes of a slot of a component that is seen. -/
theorem slot_attrs_page {T : TreeGap} (hs : T.Seen false) {before after : List Child} {p : Path} {sels : List Selector}
    {attrs : List Attr} {args : Option Toks} {c1 c2 : List Child} {tag : Tag} {ssels : List Selector}
    {a1 m a2 : List Attr} {sargs : Option Toks} {block : Option (List Child)} {D : List (Dom V)}
    (h : AllShow R (T.fill (before ++ .elem (.mk (.component p) sels attrs args
      (some (c1 ++ .slot (.mk tag ssels (a1 ++ m ++ a2) sargs block) :: c2))) :: after)) D) :
    ∃ (G : PageGap V) (d1 d2 : List (Dom V)) (N : SlotGap V),
      D = G.fill (d1 ++ N.fill (m.map (addsSlot R)) :: d2) ∧
      ∀ m', AllShow R (T.fill (before ++ .elem (.mk (.component p) sels attrs args
        (some (c1 ++ .slot (.mk tag ssels (a1 ++ m' ++ a2) sargs block) :: c2))) :: after))
          (G.fill (d1 ++ N.fill (m'.map (addsSlot R)) :: d2)) := by
  obtain ⟨G, dx, h1, rfl, h2⟩ := gap_page_as T hs h
  obtain ⟨d1, _, rfl, h3, h4⟩ := allShow_split h1
  simp only [AllShow, Shows, BlockShows, BlockSlots] at h4
  obtain ⟨_, d2, ⟨path, ls, ds, slots, gs, g1, g2, g3, g4, g5, rfl⟩, h6, rfl⟩ := h4
  obtain ⟨s1, _, rfl, b1, b2⟩ := slotsShow_split g4
  simp only [SlotsShow, Element.tag, SlotShows] at b2
  obtain ⟨n, _, s3, e1, ⟨ds2, e2, rfl⟩, e3, rfl⟩ := b2
  obtain ⟨ga, f1, f2, gb, rfl, hg⟩ := grouped_at g5
  refine ⟨G, d1, d2, ⟨path, path, props R attrs ++ body attrs args ds ++ ga, snakeCase n.name, f1, [.ident n],
    props R a1, props R a2, sargs, cloned a1, cloned a2, ds2, f2, gb, ls⟩, ?_, fun m' => ?_⟩
  · simp only [SlotGap.fill, ← props_added, ← cloned_added, body_passed]
    simp only [props_added, cloned_added R, List.map_append, List.flatten_append, List.append_assoc]
  · refine h2 _ _ (fun ss hss => ?_) (allShow_append h3 ?_)
    · obtain ⟨sa, sb, rfl, k1, k2⟩ := slotsShow_split hss
      refine slotsShow_append k1 ?_
      simp only [SlotsShow] at k2 ⊢
      exact k2
    · simp only [AllShow, Shows, BlockShows, BlockSlots]
      refine ⟨_, d2, ⟨path, ls, ds, _, _, g1, g2, ?_, slotsShow_append b1 ?_, hg (.slot [.ident n]
        (props R (a1 ++ m' ++ a2) ++ body (a1 ++ m' ++ a2) sargs ds2)), ?_⟩, h6, rfl⟩
      · obtain ⟨x1, x2, rfl, x3, x4⟩ := allShow_split g3
        refine allShow_append x3 ?_
        simp only [AllShow] at x4 ⊢
        exact x4
      · simp only [SlotsShow, Element.tag, SlotShows]
        exact ⟨n, _, s3, e1, ⟨_, e2, rfl⟩, e3, rfl⟩
      · simp only [SlotGap.fill, ← props_added, ← cloned_added, body_passed]
        simp only [props_added, cloned_added R, List.map_append, List.flatten_append, List.append_assoc]

end Mview.Run
