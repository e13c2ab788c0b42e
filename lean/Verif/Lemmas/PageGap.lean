import Verif.Lemmas.Seen
import Verif.Spec.PageGap
/-
A gap in a tree is a gap on the page.
-/

namespace Mview.Run

variable {V : Type} {R : Rust V}

theorem body_passed (A : List Attr) (g : Option Toks) (ds : List (Dom V)) : body A g ds = passed g (cloned A) ds := by
  cases ds <;> rfl

theorem allShow_split : ∀ {a b : List Child} {ds : List (Dom V)}, AllShow R (a ++ b) ds →
    ∃ da db, ds = da ++ db ∧ AllShow R a da ∧ AllShow R b db
  | [], b, ds, h => ⟨[], ds, rfl, by simp only [AllShow], h⟩
  | .value v :: a, b, ds, h => by
    simp only [List.cons_append, AllShow] at h
    obtain ⟨x, h1, rfl⟩ := h
    obtain ⟨da, db, rfl, h2, h3⟩ := allShow_split h1
    exact ⟨_ :: da, db, rfl, by simp only [AllShow]; exact ⟨da, h2, rfl⟩, h3⟩
  | .elem v :: a, b, ds, h => by
    simp only [List.cons_append, AllShow] at h
    obtain ⟨d, x, h0, h1, rfl⟩ := h
    obtain ⟨da, db, rfl, h2, h3⟩ := allShow_split h1
    exact ⟨d :: da, db, rfl, by simp only [AllShow]; exact ⟨d, da, h0, h2, rfl⟩, h3⟩
  | .slot v :: a, b, ds, h => by
    simp only [List.cons_append, AllShow] at h
    obtain ⟨da, db, rfl, h2, h3⟩ := allShow_split h
    exact ⟨da, db, rfl, by simp only [AllShow]; exact h2, h3⟩

theorem slotsShow_split : ∀ {a b : List Child} {ss : List (Ident × Dom V)}, SlotsShow R (a ++ b) ss →
    ∃ sa sb, ss = sa ++ sb ∧ SlotsShow R a sa ∧ SlotsShow R b sb
  | [], b, ss, h => ⟨[], ss, rfl, by simp only [SlotsShow], h⟩
  | .value v :: a, b, ss, h => by
    simp only [List.cons_append, SlotsShow] at h
    obtain ⟨sa, sb, rfl, h2, h3⟩ := slotsShow_split h
    exact ⟨sa, sb, rfl, by simp only [SlotsShow]; exact h2, h3⟩
  | .elem v :: a, b, ss, h => by
    simp only [List.cons_append, SlotsShow] at h
    obtain ⟨sa, sb, rfl, h2, h3⟩ := slotsShow_split h
    exact ⟨sa, sb, rfl, by simp only [SlotsShow]; exact h2, h3⟩
  | .slot v :: a, b, ss, h => by
    simp only [List.cons_append, SlotsShow] at h
    obtain ⟨n, d, x, h0, h1, h2, rfl⟩ := h
    obtain ⟨sa, sb, rfl, h3, h4⟩ := slotsShow_split h2
    exact ⟨(n, d) :: sa, sb, rfl, by simp only [SlotsShow]; exact ⟨n, d, sa, h0, h1, h3, rfl⟩, h4⟩

theorem slotsShow_append : ∀ {a b : List Child} {sa sb : List (Ident × Dom V)}, SlotsShow R a sa → SlotsShow R b sb →
    SlotsShow R (a ++ b) (sa ++ sb)
  | [], b, sa, sb, ha, hb => by
    simp only [SlotsShow] at ha
    subst ha
    exact hb
  | .value v :: a, b, sa, sb, ha, hb => by
    simp only [List.cons_append, SlotsShow] at ha ⊢
    exact slotsShow_append ha hb
  | .elem v :: a, b, sa, sb, ha, hb => by
    simp only [List.cons_append, SlotsShow] at ha ⊢
    exact slotsShow_append ha hb
  | .slot v :: a, b, sa, sb, ha, hb => by
    simp only [List.cons_append, SlotsShow] at ha ⊢
    obtain ⟨n, d, x, h1, h2, h3, rfl⟩ := ha
    exact ⟨n, d, x ++ sb, h1, h2, slotsShow_append h3 hb, rfl⟩

theorem slotsShow_nil : ∀ {cs : List Child}, (∀ c ∈ cs, c.isSlot = false) → SlotsShow R cs []
  | [], _ => by simp only [SlotsShow]
  | .value v :: cs, hn => by
    simp only [SlotsShow]
    exact slotsShow_nil fun c hc => hn c (by simp [hc])
  | .elem v :: cs, hn => by
    simp only [SlotsShow]
    exact slotsShow_nil fun c hc => hn c (by simp [hc])
  | .slot e :: cs, hn => by
    have := hn (.slot e) (by simp)
    simp [Child.isSlot] at this

/-- Slots of different names are grouped the same, whatever one of them is. -/
theorem grouped_at {s1 s2 : List (Ident × Dom V)} {n : Ident} {d : Dom V} {gs : List (Part V)}
    (h : Grouped (s1 ++ (n, d) :: s2) gs) : ∃ ga f1 f2 gb, gs = ga ++ .slots (snakeCase n.name) (f1 ++ d :: f2) :: gb ∧
      ∀ d', Grouped (s1 ++ (n, d') :: s2) (ga ++ .slots (snakeCase n.name) (f1 ++ d' :: f2) :: gb) := by
  obtain ⟨names, hd, hm, rfl⟩ := h
  obtain ⟨na, nb, rfl⟩ := List.append_of_mem ((hm n).mpr (by simp))
  have ha : n ∉ na := fun hn => (List.nodup_append.mp hd).2.2 n hn n (by simp) rfl
  have hb : n ∉ nb := (List.nodup_cons.mp (List.nodup_append.mp hd).2.1).1
  have key : ∀ (d' : Dom V) (m : Ident), m ≠ n →
      (s1 ++ (n, d') :: s2).filter (·.1 = m) = (s1 ++ s2).filter (·.1 = m) := by
    intro d' m hmn
    rw [List.filter_append, List.filter_cons_of_neg (by simpa using fun h => hmn h.symm), List.filter_append]
  have keyn : ∀ d' : Dom V, ((s1 ++ (n, d') :: s2).filter (·.1 = n)).map Prod.snd =
      (s1.filter (·.1 = n)).map Prod.snd ++ d' :: (s2.filter (·.1 = n)).map Prod.snd := by
    intro d'
    rw [List.filter_append, List.filter_cons_of_pos (by simp), List.map_append, List.map_cons]
  have hl : ∀ (d' : Dom V) (l : List Ident), n ∉ l →
      l.map (fun m => Part.slots (snakeCase m.name) (((s1 ++ (n, d') :: s2).filter (·.1 = m)).map Prod.snd)) =
        l.map fun m => Part.slots (snakeCase m.name) (((s1 ++ s2).filter (·.1 = m)).map Prod.snd) := by
    intro d' l hnl
    refine List.map_congr_left fun m hml => ?_
    rw [key d' m (fun h => hnl (h ▸ hml))]
  have e : ∀ d' : Dom V, (na ++ n :: nb).map (fun m => Part.slots (snakeCase m.name)
      (((s1 ++ (n, d') :: s2).filter (·.1 = m)).map Prod.snd)) =
      na.map (fun m => Part.slots (snakeCase m.name) (((s1 ++ s2).filter (·.1 = m)).map Prod.snd)) ++
        .slots (snakeCase n.name) ((s1.filter (·.1 = n)).map Prod.snd ++ d' :: (s2.filter (·.1 = n)).map Prod.snd) ::
        nb.map (fun m => Part.slots (snakeCase m.name) (((s1 ++ s2).filter (·.1 = m)).map Prod.snd)) := by
    intro d'
    rw [List.map_append, List.map_cons, keyn, hl d' na ha, hl d' nb hb]
  refine ⟨_, _, _, _, e d, fun d' => ⟨na ++ n :: nb, hd, fun m => ?_, (e d').symm⟩⟩
  rw [hm m]
  simp

/-- The other children have the same slots. -/
def SlotsAs (R : Rust V) (cx cy : List Child) : Prop := ∀ ss : List (Ident × Dom V), SlotsShow R cx ss → SlotsShow R cy ss

theorem slotsAs_none {cx cy : List Child} (hx : ∀ c ∈ cx, c.isSlot = false) (hy : ∀ c ∈ cy, c.isSlot = false) :
    SlotsAs R cx cy := by
  intro ss h
  have : ss = [] := slotsShow_none hx h
  subst this
  exact slotsShow_nil hy

/-- An element. -/
theorem elem_gap {cx : List Child} {e : List Child → Element} {space : Space} {name : Str} {ls : List (Look V)}
    {inner : List Child → List Child} (hs : ∀ cs d, Shows R (e cs) d ↔ ∃ ds, AllShow R (inner cs) ds ∧ d = .elem space name ls ds)
    {pre post : List Child} {D : List (Dom V)} (h : AllShow R (pre ++ .elem (e cx) :: post) D)
    (ih : ∀ {D}, AllShow R (inner cx) D → ∃ G : PageGap V, ∃ dx, AllShow R cx dx ∧ D = G.fill dx ∧
      ∀ cy dy, SlotsAs R cx cy → AllShow R cy dy → AllShow R (inner cy) (G.fill dy)) :
    ∃ G : PageGap V, ∃ dx, AllShow R cx dx ∧ D = G.fill dx ∧
      ∀ cy dy, SlotsAs R cx cy → AllShow R cy dy → AllShow R (pre ++ .elem (e cy) :: post) (G.fill dy) := by
  obtain ⟨da, db, rfl, h1, h2⟩ := allShow_split h
  simp only [AllShow] at h2
  obtain ⟨d, x, h3, h4, rfl⟩ := h2
  obtain ⟨ds, h5, rfl⟩ := (hs _ _).mp h3
  obtain ⟨G, dx, i1, rfl, i2⟩ := ih h5
  refine ⟨.elem da space name ls G x, dx, i1, rfl, fun cy dy hn hy => ?_⟩
  refine allShow_append h1 ?_
  simp only [AllShow]
  exact ⟨_, x, (hs _ _).mpr ⟨_, i2 cy dy hn hy, rfl⟩, h4, rfl⟩

/-- The slots do not depend on what is in an element. -/
theorem slots_beside {cx cy : List Child} (hy : SlotsAs R cx cy) :
    ∀ {T : TreeGap}, T.Seen false → ∀ {ss : List (Ident × Dom V)}, SlotsShow R (T.fill cx) ss → SlotsShow R (T.fill cy) ss
  | .here, _, ss, h => hy ss h
  | .elem pre true tag sels attrs args inner post, hs, ss, h => by
    have := hs.1
    cases this
  | .elem pre false tag sels attrs args inner post, hs, ss, h => by
    simp only [TreeGap.fill, asChild, Bool.false_eq_true, if_false] at h ⊢
    obtain ⟨sa, sb, rfl, h1, h2⟩ := slotsShow_split h
    refine slotsShow_append h1 ?_
    simp only [SlotsShow] at h2 ⊢
    exact h2

theorem seen_beside : ∀ {T : TreeGap}, T.Seen true → T.Seen false ∨
    ∃ pre tag sels attrs args inner post, T = .elem pre true tag sels attrs args inner post ∧ inner.Seen false
  | .here, _ => .inl trivial
  | .elem pre true tag sels attrs args inner post, h => .inr ⟨_, _, _, _, _, _, _, rfl, h.2⟩
  | .elem pre false (.component _) sels attrs args inner post, h => .inl h
  | .elem pre false (.html _) sels attrs args inner post, h => .inl h
  | .elem pre false (.svg _) sels attrs args inner post, h => .inl h
  | .elem pre false (.math _) sels attrs args inner post, h => .inl h
  | .elem pre false (.webComponent _) sels attrs args inner post, h => .inl h

def TreeGapSize : TreeGap → Nat
  | .here => 0
  | .elem _ _ _ _ _ _ inner _ => TreeGapSize inner + 1

/-- What is in the gap of a tree that can be seen is in one gap of the page. -/
theorem gap_page_as {cx : List Child} : ∀ (T : TreeGap), T.Seen false →
    ∀ {D : List (Dom V)}, AllShow R (T.fill cx) D → ∃ G : PageGap V, ∃ dx, AllShow R cx dx ∧ D = G.fill dx ∧
      ∀ cy dy, SlotsAs R cx cy → AllShow R cy dy → AllShow R (T.fill cy) (G.fill dy)
  | .here, _, D, h => ⟨.here, D, h, rfl, fun _ _ _ h => h⟩
  | .elem pre true tag sels attrs args inner post, hs, D, h => by
    have := hs.1
    cases this
  | .elem pre false (.html i) sels attrs args inner post, hs, D, h => by
    simp only [TreeGap.fill, asChild, Bool.false_eq_true, if_false] at h ⊢
    have h0 := allShow_split h
    obtain ⟨_, _, -, -, h0⟩ := h0
    simp only [AllShow, Shows] at h0
    obtain ⟨_, _, ⟨sp, nm, ls, _, a1, a2, -, -⟩, -, -⟩ := h0
    refine elem_gap (e := fun cs => .mk (.html i) sels attrs args (some (inner.fill cs))) (inner := fun cs => inner.fill cs)
      (space := sp) (name := nm) (ls := ls) (fun cs d => ?_) h (gap_page_as inner hs)
    simp only [Shows, BlockShows]
    exact ⟨fun ⟨_, _, _, ds, b1, b2, b3, e⟩ => by
      rw [a1] at b1; cases b1; rw [a2] at b2; cases b2; exact ⟨ds, b3, e⟩, fun ⟨ds, b3, e⟩ => ⟨_, _, _, ds, a1, a2, b3, e⟩⟩
  | .elem pre false (.svg i) sels attrs args inner post, hs, D, h => by
    simp only [TreeGap.fill, asChild, Bool.false_eq_true, if_false] at h ⊢
    have h0 := allShow_split h
    obtain ⟨_, _, -, -, h0⟩ := h0
    simp only [AllShow, Shows] at h0
    obtain ⟨_, _, ⟨sp, nm, ls, _, a1, a2, -, -⟩, -, -⟩ := h0
    refine elem_gap (e := fun cs => .mk (.svg i) sels attrs args (some (inner.fill cs))) (inner := fun cs => inner.fill cs)
      (space := sp) (name := nm) (ls := ls) (fun cs d => ?_) h (gap_page_as inner hs)
    simp only [Shows, BlockShows]
    exact ⟨fun ⟨_, _, _, ds, b1, b2, b3, e⟩ => by
      rw [a1] at b1; cases b1; rw [a2] at b2; cases b2; exact ⟨ds, b3, e⟩, fun ⟨ds, b3, e⟩ => ⟨_, _, _, ds, a1, a2, b3, e⟩⟩
  | .elem pre false (.math i) sels attrs args inner post, hs, D, h => by
    simp only [TreeGap.fill, asChild, Bool.false_eq_true, if_false] at h ⊢
    have h0 := allShow_split h
    obtain ⟨_, _, -, -, h0⟩ := h0
    simp only [AllShow, Shows] at h0
    obtain ⟨_, _, ⟨sp, nm, ls, _, a1, a2, -, -⟩, -, -⟩ := h0
    refine elem_gap (e := fun cs => .mk (.math i) sels attrs args (some (inner.fill cs))) (inner := fun cs => inner.fill cs)
      (space := sp) (name := nm) (ls := ls) (fun cs d => ?_) h (gap_page_as inner hs)
    simp only [Shows, BlockShows]
    exact ⟨fun ⟨_, _, _, ds, b1, b2, b3, e⟩ => by
      rw [a1] at b1; cases b1; rw [a2] at b2; cases b2; exact ⟨ds, b3, e⟩, fun ⟨ds, b3, e⟩ => ⟨_, _, _, ds, a1, a2, b3, e⟩⟩
  | .elem pre false (.webComponent i) sels attrs args inner post, hs, D, h => by
    simp only [TreeGap.fill, asChild, Bool.false_eq_true, if_false] at h ⊢
    have h0 := allShow_split h
    obtain ⟨_, _, -, -, h0⟩ := h0
    simp only [AllShow, Shows] at h0
    obtain ⟨_, _, ⟨sp, nm, ls, _, a1, a2, -, -⟩, -, -⟩ := h0
    refine elem_gap (e := fun cs => .mk (.webComponent i) sels attrs args (some (inner.fill cs)))
      (inner := fun cs => inner.fill cs) (space := sp) (name := nm) (ls := ls) (fun cs d => ?_) h (gap_page_as inner hs)
    simp only [Shows, BlockShows]
    exact ⟨fun ⟨_, _, _, ds, b1, b2, b3, e⟩ => by
      rw [a1] at b1; cases b1; rw [a2] at b2; cases b2; exact ⟨ds, b3, e⟩, fun ⟨ds, b3, e⟩ => ⟨_, _, _, ds, a1, a2, b3, e⟩⟩
  | .elem pre false (.component p) sels attrs args inner post, hs, D, h => by
    simp only [TreeGap.fill, asChild, Bool.false_eq_true, if_false] at h ⊢
    obtain ⟨da, db, rfl, h1, h2⟩ := allShow_split h
    simp only [AllShow, Shows, BlockShows, BlockSlots] at h2
    obtain ⟨_, x, ⟨path, ls, ds, slots, gs, a1, a2, a3, a4, a5, rfl⟩, h4, rfl⟩ := h2
    rcases seen_beside hs with hi | ⟨pre2, tag2, sels2, attrs2, args2, inner2, post2, rfl, hi⟩
    · obtain ⟨G, dx, i1, rfl, i2⟩ := gap_page_as inner hi a3
      refine ⟨.comp da path path (props R attrs) args (cloned attrs) G gs ls x, dx, i1, ?_, fun cy dy hn hy => ?_⟩
      · rw [PageGap.fill, body_passed]
      · rw [PageGap.fill, ← body_passed]
        refine allShow_append h1 ?_
        simp only [AllShow, Shows, BlockShows, BlockSlots]
        exact ⟨_, x, ⟨path, ls, _, slots, gs, a1, a2, i2 cy dy hn hy, slots_beside hn hi a4, a5, rfl⟩, h4, rfl⟩
    · simp only [TreeGap.fill, asChild, if_true] at a3 a4 ⊢
      obtain ⟨s1, s2, rfl, b1, b2⟩ := slotsShow_split a4
      simp only [SlotsShow, Element.tag, SlotShows, BlockShows] at b2
      obtain ⟨n, _, s3, c1, ⟨ds2, c2, rfl⟩, c3, rfl⟩ := b2
      obtain ⟨G, dx, i1, rfl, i2⟩ := gap_page_as inner2 hi c2
      obtain ⟨ga, f1, f2, gb, rfl, hg⟩ := grouped_at a5
      refine ⟨.slot da path path (props R attrs ++ body attrs args ds ++ ga) (snakeCase n.name) f1 [.ident n]
        (props R attrs2) args2 (cloned attrs2) G f2 gb ls x, dx, i1, ?_, fun cy dy hn hy => ?_⟩
      · rw [PageGap.fill, body_passed attrs2]
        simp only [List.append_assoc]
      · rw [PageGap.fill, ← body_passed attrs2]
        refine allShow_append h1 ?_
        simp only [AllShow, Shows, BlockShows, BlockSlots]
        refine ⟨_, x, ⟨path, ls, ds, _, _, a1, a2, ?_, slotsShow_append b1 ?_, hg _, by simp only [List.append_assoc]; rfl⟩,
          h4, rfl⟩
        · obtain ⟨e1, e2, rfl, e3, e4⟩ := allShow_split a3
          refine allShow_append e3 ?_
          simp only [AllShow] at e4 ⊢
          exact e4
        · simp only [SlotsShow, Element.tag, SlotShows, BlockShows]
          exact ⟨n, _, s3, c1, ⟨_, i2 cy dy hn hy, rfl⟩, c3, rfl⟩
termination_by T => TreeGapSize T
decreasing_by all_goals simp_wf; subst_vars; simp only [TreeGapSize]; omega

theorem gap_page {cx : List Child} (hx : ∀ c ∈ cx, c.isSlot = false) (T : TreeGap) (hs : T.Seen false)
    {D : List (Dom V)} (h : AllShow R (T.fill cx) D) : ∃ G : PageGap V, ∃ dx, AllShow R cx dx ∧ D = G.fill dx ∧
      ∀ cy dy, (∀ c ∈ cy, c.isSlot = false) → AllShow R cy dy → AllShow R (T.fill cy) (G.fill dy) := by
  obtain ⟨G, dx, h1, h2, h3⟩ := gap_page_as T hs h
  exact ⟨G, dx, h1, h2, fun cy dy hy => h3 cy dy (slotsAs_none hx hy)⟩

end Mview.Run
