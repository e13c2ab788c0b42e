import Verif.Lemmas.AttrPage
import Verif.Spec.SelPage
/-
What shorthands add to a page.
-/

namespace Mview.Run

variable {V : Type} {R : Rust V}

theorem dots_added : ∀ (ss : List Selector), dots ss = ss.flatMap Selector.addsClass
  | [] => rfl
  | .cls k :: r => by simp [dots, Selector.addsClass, dots_added r]
  | .id k :: r => by simp [dots, Selector.addsClass, dots_added r]

theorem hashes_added : ∀ (ss : List Selector), hashes ss = ss.flatMap Selector.addsId
  | [] => rfl
  | .cls k :: r => by simp [hashes, Selector.addsId, hashes_added r]
  | .id k :: r => by simp [hashes, Selector.addsId, hashes_added r]

theorem spaced : ∀ (i : Str) (r : List Str), [' '].intercalate (i :: r) = i ++ r.flatMap (' ' :: ·)
  | i, [] => by simp [List.intercalate]
  | i, j :: r => by
    have := spaced j r
    simp only [List.intercalate] at this ⊢
    simp [this]

theorem ids_together (l : List Str) :
    (if l = [] then [] else [Look.attr c!"id" (R.lit (.str ([' '].intercalate l)))]) =
      (match l with
        | [] => []
        | i :: r => [idOf R (i ++ r.flatMap (' ' :: ·))]) := by
  cases l with
  | nil => rfl
  | cons i r => simp only [reduceCtorEq, if_false, spaced, idOf]

/-- Changing the shorthands of an element or component. -/
theorem sels_gap {tag : Tag} {s1 m s2 : List Selector} {attrs : List Attr} {args : Option Toks}
    {block : Option (List Child)} {d : Dom V} (h : Shows R (.mk tag (s1 ++ m ++ s2) attrs args block) d) :
    ∃ N : SelGap V, d = N.fill R (m.flatMap Selector.addsClass) (m.flatMap Selector.addsId) ∧
      ∀ m', Shows R (.mk tag (s1 ++ m' ++ s2) attrs args block)
        (N.fill R (m'.flatMap Selector.addsClass) (m'.flatMap Selector.addsId)) := by
  by_cases ht : ∃ p, tag = .component p
  · obtain ⟨p, rfl⟩ := ht
    simp only [Shows, entryLooks, Option.bind_eq_bind, Option.bind_eq_some_iff, Option.pure_def, Option.some.injEq] at h
    obtain ⟨path, _, ds, slots, gs, h1, ⟨es, h2, rfl⟩, h3, h4, h5, rfl⟩ := h
    refine ⟨.comp path path (props R attrs ++ body attrs args ds ++ gs) (dots s1) (dots s2) (hashes s1) (hashes s2) es,
      ?_, fun m' => ?_⟩
    · rw [ids_together]
      simp only [SelGap.fill, dots_added, hashes_added, List.flatMap_append]
      rfl
    · simp only [Shows, entryLooks, Option.bind_eq_bind, Option.bind_eq_some_iff, Option.pure_def, Option.some.injEq]
      refine ⟨path, _, ds, slots, gs, h1, ⟨es, h2, rfl⟩, h3, h4, h5, ?_⟩
      rw [ids_together]
      simp only [SelGap.fill, dots_added, hashes_added, List.flatMap_append]
      rfl
  · have ht : ∀ p, tag ≠ .component p := fun p hp => ht ⟨p, hp⟩
    rw [shows_element ht] at h
    simp only [looks, Option.bind_eq_bind, Option.bind_eq_some_iff, Option.pure_def, Option.some.injEq] at h
    obtain ⟨space, name, _, ds, h1, ⟨es, h2, rfl⟩, h3, rfl⟩ := h
    refine ⟨.elem space name ((unprefixed attrs).map (attrLook R) ++ es) (dots s1) (dots s2) (hashes s1) (hashes s2)
      ((spreadOnto attrs).map .spread) ds, ?_, fun m' => ?_⟩
    · simp only [SelGap.fill, dots_added, hashes_added, List.flatMap_append]
      rfl
    · rw [shows_element ht]
      simp only [looks, Option.bind_eq_bind, Option.bind_eq_some_iff, Option.pure_def, Option.some.injEq]
      refine ⟨space, name, _, ds, h1, ⟨es, h2, rfl⟩, h3, ?_⟩
      simp only [SelGap.fill, dots_added, hashes_added, List.flatMap_append]
      rfl

/-- The shorthands of an element or component that is seen. -/
theorem sels_page {T : TreeGap} (hs : T.Seen false) {before after : List Child} {tag : Tag} {s1 m s2 : List Selector}
    {attrs : List Attr} {args : Option Toks} {block : Option (List Child)} {D : List (Dom V)}
    (h : AllShow R (T.fill (before ++ .elem (.mk tag (s1 ++ m ++ s2) attrs args block) :: after)) D) :
    ∃ (G : PageGap V) (d1 d2 : List (Dom V)) (N : SelGap V),
      D = G.fill (d1 ++ N.fill R (m.flatMap Selector.addsClass) (m.flatMap Selector.addsId) :: d2) ∧
      ∀ m', AllShow R (T.fill (before ++ .elem (.mk tag (s1 ++ m' ++ s2) attrs args block) :: after))
          (G.fill (d1 ++ N.fill R (m'.flatMap Selector.addsClass) (m'.flatMap Selector.addsId) :: d2)) := by
  obtain ⟨G, dx, h1, rfl, h2⟩ := gap_page_as T hs h
  obtain ⟨d1, _, rfl, h3, h4⟩ := allShow_split h1
  simp only [AllShow] at h4
  obtain ⟨d, d2, h5, h6, rfl⟩ := h4
  obtain ⟨N, rfl, hN⟩ := sels_gap h5
  refine ⟨G, d1, d2, N, rfl, fun m' => h2 _ _ (fun ss hss => ?_) (allShow_append h3 ?_)⟩
  · obtain ⟨sa, sb, rfl, g1, g2⟩ := slotsShow_split hss
    refine slotsShow_append g1 ?_
    simp only [SlotsShow] at g2 ⊢
    exact g2
  · simp only [AllShow]
    exact ⟨_, d2, hN m', h6, rfl⟩

/-- An element or component that is seen can be exchanged. -/
theorem one_page {T : TreeGap} (hs : T.Seen false) {before after : List Child} {e : Element} {D : List (Dom V)}
    (h : AllShow R (T.fill (before ++ .elem e :: after)) D) :
    ∃ (G : PageGap V) (d1 d2 : List (Dom V)) (d : Dom V), Shows R e d ∧ D = G.fill (d1 ++ d :: d2) ∧
      ∀ e' d', Shows R e' d' → AllShow R (T.fill (before ++ .elem e' :: after)) (G.fill (d1 ++ d' :: d2)) := by
  obtain ⟨G, dx, h1, rfl, h2⟩ := gap_page_as T hs h
  obtain ⟨d1, _, rfl, h3, h4⟩ := allShow_split h1
  simp only [AllShow] at h4
  obtain ⟨d, d2, h5, h6, rfl⟩ := h4
  refine ⟨G, d1, d2, d, h5, rfl, fun e' d' h => h2 _ _ (fun ss hss => ?_) (allShow_append h3 ?_)⟩
  · obtain ⟨sa, sb, rfl, g1, g2⟩ := slotsShow_split hss
    refine slotsShow_append g1 ?_
    simp only [SlotsShow] at g2 ⊢
    exact g2
  · simp only [AllShow]
    exact ⟨_, d2, h, h6, rfl⟩

/-- Changing the tag. -/
theorem tag_gap {tag : Tag} {sels : List Selector} {attrs : List Attr} {args : Option Toks} {block : Option (List Child)}
    {d : Dom V} (h : Shows R (.mk tag sels attrs args block) d) :
    ∃ N : TagGap V, N.Filled tag d ∧ ∀ tag' d', N.Filled tag' d' → Shows R (.mk tag' sels attrs args block) d' := by
  by_cases ht : ∃ p, tag = .component p
  · obtain ⟨p, rfl⟩ := ht
    simp only [Shows] at h
    obtain ⟨path, ls, ds, slots, gs, h1, h2, h3, h4, h5, rfl⟩ := h
    refine ⟨.comp (props R attrs ++ body attrs args ds ++ gs) ls, ⟨p, path, rfl, h1, rfl⟩, ?_⟩
    rintro _ _ ⟨p', path', rfl, h1', rfl⟩
    simp only [Shows]
    exact ⟨path', ls, ds, slots, gs, h1', h2, h3, h4, h5, rfl⟩
  · have ht : ∀ p, tag ≠ .component p := fun p hp => ht ⟨p, hp⟩
    rw [shows_element ht] at h
    obtain ⟨space, name, ls, ds, h1, h2, h3, rfl⟩ := h
    refine ⟨.elem ls ds, ⟨space, name, h1, rfl⟩, ?_⟩
    rintro tag' _ ⟨space', name', h1', rfl⟩
    have ht' : ∀ p, tag' ≠ .component p := by
      rintro p rfl
      simp [shape] at h1'
    rw [shows_element ht']
    exact ⟨space', name', ls, ds, h1', h2, h3, rfl⟩

/-- A tag of the same sort has a name. -/
theorem tag_filled {tag tag' : Tag} {sels : List Selector} {attrs : List Attr} {args : Option Toks}
    {block : Option (List Child)} {d d' : Dom V} {N : TagGap V} (hN : N.Filled tag d)
    (h' : Shows R (.mk tag' sels attrs args block) d') (hk : tag.isPath = tag'.isPath) : ∃ x, N.Filled tag' x := by
  by_cases ht : ∃ p, tag' = .component p
  · obtain ⟨p, rfl⟩ := ht
    simp only [Shows] at h'
    obtain ⟨path, -, -, -, -, h1, -⟩ := h'
    cases N with
    | elem ls ds =>
      obtain ⟨_, _, h, -⟩ := hN
      cases tag <;> simp [shape, Tag.isPath] at h hk
    | comp parts ls => exact ⟨_, p, path, rfl, h1, rfl⟩
  · have ht : ∀ p, tag' ≠ .component p := fun p hp => ht ⟨p, hp⟩
    rw [shows_element ht] at h'
    obtain ⟨space, name, -, -, h1, -⟩ := h'
    cases N with
    | elem ls ds => exact ⟨_, space, name, h1, rfl⟩
    | comp parts ls =>
      obtain ⟨p, _, rfl, -⟩ := hN
      cases tag' <;> first | exact absurd rfl (ht _) | cases hk

/-- Changing the closure parameters. -/
theorem args_gap {tag : Tag} {sels : List Selector} {attrs : List Attr} {args : Option Toks} {block : Option (List Child)}
    {d : Dom V} (h : Shows R (.mk tag sels attrs args block) d) :
    ∃ N : ArgsGap V, d = N.fill args ∧ ∀ args', Shows R (.mk tag sels attrs args' block) (N.fill args') := by
  by_cases ht : ∃ p, tag = .component p
  · obtain ⟨p, rfl⟩ := ht
    simp only [Shows] at h ⊢
    obtain ⟨path, ls, ds, slots, gs, h1, h2, h3, h4, h5, rfl⟩ := h
    cases ds with
    | nil =>
      exact ⟨.without (.comp path path (props R attrs ++ gs) ls), by simp [ArgsGap.fill, body],
        fun args' => ⟨path, ls, [], slots, gs, h1, h2, h3, h4, h5, by simp [ArgsGap.fill, body]⟩⟩
    | cons d ds =>
      exact ⟨.comp path path (props R attrs) (cloned attrs) d ds gs ls, by simp [ArgsGap.fill, body],
        fun args' => ⟨path, ls, d :: ds, slots, gs, h1, h2, h3, h4, h5, by simp [ArgsGap.fill, body]⟩⟩
  · have ht : ∀ p, tag ≠ .component p := fun p hp => ht ⟨p, hp⟩
    exact ⟨.without d, rfl, fun args' => (shows_element ht).mpr ((shows_element ht).mp h)⟩

end Mview.Run
