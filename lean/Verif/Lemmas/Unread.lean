import Verif.Spec.Unread
import Verif.Props.Reads
/-
Lemmas for Props/Unread.
-/

namespace Mview

theorem gives_nil {α : Type} {x : Out α} {a : α} (h : Gives x [] a) : x = .ret [] a := by
  have h1 := h.1
  unfold Shows at h1
  cases x with
  | ret ds q =>
    simp only [verdict, Out.Is] at h1
    rw [h1, h.2 _ _ rfl]
  | _ => simp [verdict, Out.Is] at h1

theorem reports_nil : GoesOn [] := fun _ h => absurd h (by simp)

theorem reports_append {is js : List Issue} : GoesOn (is ++ js) ↔ GoesOn is ∧ GoesOn js := by
  simp only [GoesOn, List.mem_append]
  exact ⟨fun h => ⟨fun i hi => h i (.inl hi), fun i hi => h i (.inr hi)⟩,
    fun h i hi => hi.elim (h.1 i) (h.2 i)⟩

theorem verdict_of_reports : (is : List Issue) → GoesOn is → ∃ ds, verdict is = .errors ds
  | [], _ => ⟨[], rfl⟩
  | i :: is, h => by
    obtain ⟨d, rfl⟩ := h i (by simp)
    obtain ⟨ds, hd⟩ := verdict_of_reports is fun j hj => h j (by simp [hj])
    exact ⟨d :: ds, by rw [verdict, hd]; rfl⟩

theorem gives_reports {α : Type} {x : Out α} {a : α} {is : List Issue} (h : Gives x is a) (hr : GoesOn is) :
    ∃ ds, x = .ret ds a := by
  have h1 := h.1
  unfold Shows at h1
  obtain ⟨ds, hd⟩ := verdict_of_reports is hr
  rw [hd] at h1
  cases x with
  | ret es q => exact ⟨es, by rw [h.2 _ _ rfl]⟩
  | _ => simp [Out.Is] at h1

/-- the parts in front of the block -/
theorem elementHead_gives {pp : PathParser} {r0 r1 r2 r3 : Toks} {ti si ai : List Issue}
    {tag : Tag} {sels : List Selector} {attrs : List Attr} (hl : LexicalToks r0)
    (ht : ReadsTag pp r0 ti tag r1) (hs : ReadsSels r1 si sels r2) (ha : ReadsAttrs r2 ai attrs r3) :
    Gives (elementHead pp r0) (ti ++ (si ++ ai)) (.ok attrs r3) := by
  obtain ⟨u1, h1⟩ := ht.suffix
  obtain ⟨u2, h2⟩ := hs.suffix
  have hl1 : LexicalToks r1 := (h1 ▸ hl).append
  have hl2 : LexicalToks r2 := (h2 ▸ hl1).append
  unfold elementHead
  refine (tag_gives ht hl).pbind ?_
  refine (?_ : Gives (parseSelectors r1) si (.ok sels r2)).pbind ?_
  · unfold parseSelectors
    rw [inp_bind]
    exact selectors_give hs hl1 _ [] (Nat.lt_succ_self _)
  · unfold parseAttrs
    rw [inp_bind]
    exact attrs_give ha hl2 _ [] (Nat.lt_succ_self _)

theorem elementHead_nil {pp : PathParser} {r0 r1 r2 r3 : Toks}
    {tag : Tag} {sels : List Selector} {attrs : List Attr} (hl : LexicalToks r0)
    (ht : ReadsTag pp r0 [] tag r1) (hs : ReadsSels r1 [] sels r2) (ha : ReadsAttrs r2 [] attrs r3) :
    elementHead pp r0 = .ret [] (.ok attrs r3) :=
  gives_nil (elementHead_gives hl ht hs ha)

theorem closure_eq {s s' : Spacing} {args rest : Toks} (hp : NoPipe args) :
    parseClosureArgs (.punct '|' s :: (args ++ .punct '|' s' :: rest)) = .ret [] (.ok (piped args) rest) := by
  have := closure_complete (c := (s, args, s')) (rest := rest) (by
    rintro _ _ _ ⟨⟩
    exact noPipe_iff.mp hp)
  simp only [argsToks] at this
  simpa [Yields, piped] using this

theorem closure_open {s : Spacing} {args : Toks} (h : NoPipe args) :
    parseClosureArgs (.punct '|' s :: args) = .ret [] (.err .closureNotClosed []) := by
  unfold parseClosureArgs
  rw [Yields.bind_eq (a := ()) (yields_punct.mpr ⟨s, rfl⟩), inp_bind]
  exact closureLoop_open _ _ _ (noPipe_iff.mp h) (by omega)

theorem elementEnd_eq {ts c rest : Toks} (h : EndAt ts c rest) : elementEnd ts = some (c, rest) := by
  cases h with
  | semi => rfl
  | @block d c rest hd => cases d <;> first | rfl | exact absurd rfl hd
  | @closure s args s' d c rest hp hd =>
    simp only [elementEnd, closure_eq hp]
    cases d <;> first | rfl | exact absurd rfl hd
  | nothing => rfl
  | @noBlock s args s' rest hp hr =>
    simp only [elementEnd, closure_eq hp]
    cases rest with
    | nil => rfl
    | cons t r =>
      cases t with
      | group d x => obtain rfl := hr d x r rfl; rfl
      | _ => rfl
  | @other t r h1 h2 h3 =>
    cases t with
    | group d x => obtain rfl := h3 d x rfl; rfl
    | punct p sp =>
      unfold elementEnd
      split <;> simp_all
    | _ => rfl

theorem elementEnd_open {s : Spacing} {args : Toks} (h : NoPipe args) : elementEnd (.punct '|' s :: args) = none := by
  simp only [elementEnd, closure_open h]

theorem end_at {pp : PathParser} {ts rest : Toks} {args : Option Toks} {block : Option (List Child)}
    (h : ReadsEnd pp ts [] args block rest) :
    ∃ c, EndAt ts c rest ∧ ReadsChildren pp c [] (block.getD []) := by
  cases h with
  | semi => exact ⟨_, .semi, .nil⟩
  | block hd h => exact ⟨_, .block hd, h⟩
  | closure hp hd h => exact ⟨_, .closure hp hd, h⟩

/-- the start of an element -/
theorem unread_start {pp : PathParser} {u : Leaves} {n : Nat} {ts r0 : Toks} {b : Bool} (h0 : ElemStart ts b r0) :
    unreadF pp u (n + 1) ts = (tagUnread u r0 <|>
      match elementHead pp r0 with
      | .ret _ (.ok _ end') =>
        match elementEnd end' with
        | some (content, rest) => unreadF pp u n content <|> unreadF pp u n rest
        | none => none
      | .ret _ (.err _ rest) => if peekPunct ';' rest then unreadF pp u n (rest.drop 1) else none
      | _ => none) := by
  rw [unreadF]
  cases h0 with
  | @slot s r hs =>
    have hv : rollback parseValue (.ident (plain c!"slot") :: .punct ':' s :: r0) = _ :=
      rollback_fails (value_fails_of noValue_slot)
    rw [if_neg (by simp [isEmpty]), hv]
    dsimp only
    rw [if_pos (by simp [peekIdentAny])]
    have e := slotStart_iff.mpr ⟨s, _, rfl, hs⟩
    simp only [e, if_true, List.drop]; rfl
  | @elem i r hv hs =>
    have hv' : rollback parseValue (.ident i :: r) = _ := rollback_fails (value_fails_of hv)
    rw [if_neg (by simp [isEmpty]), hv']
    dsimp only
    rw [if_pos (by simp [peekIdentAny])]
    have e : ¬ (_ = true) := fun h => hs (slotStart_iff.mp h)
    simp only [if_neg e]; rfl

/-- one element -/
theorem unread_elem {pp : PathParser} {u : Leaves} {n : Nat} {ts r0 r3 c r4 : Toks} {b : Bool}
    {ds : List Diag} {attrs : List Attr} (h0 : ElemStart ts b r0)
    (hh : elementHead pp r0 = .ret ds (.ok attrs r3)) (he : EndAt r3 c r4) :
    unreadF pp u (n + 1) ts = (tagUnread u r0 <|> (unreadF pp u n c <|> unreadF pp u n r4)) := by
  rw [unread_start h0, hh]
  dsimp only
  rw [elementEnd_eq he]

/-- a value -/
theorem unread_value {pp : PathParser} {u : Leaves} {n : Nat} {v : CVal} {rest : Toks}
    (he : ∀ b, v = .bool b → ∀ c r, rest ≠ .group .bracket c :: r) :
    unreadF pp u (n + 1) (v.toks ++ rest) = unreadF pp u n rest := by
  rw [unreadF]
  have h : rollback parseValue (v.toks ++ rest) = _ :=
    yields_rollback_some.mpr (yields_value.mpr ⟨v, rfl, rfl, he⟩)
  rw [if_neg (by
    have := value_ne (v := v) (rest := rest)
    cases hh : v.toks ++ rest <;> simp_all [isEmpty]), h]

theorem tagUnread_path {u : Leaves} {ts : Toks} (h : PathStart ts) : tagUnread u ts = u ts :=
  if_pos (pathStart_iff.mpr h)

theorem tagUnread_name {u : Leaves} {ts : Toks} (h : ¬ PathStart ts) : tagUnread u ts = none :=
  if_neg (fun h' => h (pathStart_iff.mp h'))

/-- a tag for the strict parser is a tag of which nothing is left -/
theorem strict_tag {pp : PathParser} {u : Leaves} {ts rest : Toks} {tag : Tag} :
    ReadsTag (pp.strict u) ts [] tag rest ↔ ReadsTag pp ts [] tag rest ∧ tagUnread u ts = none := by
  constructor
  · intro h
    generalize hi : ([] : List Issue) = is at h
    cases h with
    | path hp h =>
      rw [tagUnread_path hp]
      simp only [PathParser.strict] at h
      split at h
      · cases h
      · rename_i hu
        exact ⟨.path hp h, by simpa using hu⟩
    | name hp hk ht => exact ⟨.name hp hk ht, tagUnread_name hp⟩
    | crash hp hk ht => simp at hi
  · rintro ⟨h, hu⟩
    generalize hi : ([] : List Issue) = is at h ⊢
    cases h with
    | path hp h =>
      rw [tagUnread_path hp] at hu
      refine .path hp ?_
      simp [PathParser.strict, hu, h]
    | name hp hk ht => exact .name hp hk ht
    | crash hp hk ht => simp at hi

theorem orElse_none {α : Type} {a b : Option α} : (a <|> b) = none ↔ a = none ∧ b = none := by
  cases a <;> simp

theorem EndAt.smaller {ts c rest : Toks} (h : EndAt ts c rest) :
    toksSize c ≤ toksSize ts ∧ toksSize rest ≤ toksSize ts := by
  cases h with
  | semi => simp [TT.size]
  | block => simp [TT.size]; omega
  | closure => simp [TT.size, toksSize_append]; omega
  | nothing => simp
  | noBlock => simp [TT.size, toksSize_append]; omega
  | other => simp

theorem EndAt.lexical {ts c rest : Toks} (h : EndAt ts c rest) (hl : LexicalToks ts) :
    LexicalToks c ∧ LexicalToks rest := by
  cases h with
  | semi => exact ⟨lexical_of rfl, hl.tail⟩
  | block hd => exact ⟨hl.group hd, hl.tail⟩
  | closure _ hd => exact ⟨hl.tail.append.tail.group hd, hl.tail.append.tail.tail⟩
  | nothing => exact ⟨hl, hl⟩
  | noBlock => exact ⟨lexical_of rfl, hl.tail.append.tail⟩
  | other => exact ⟨lexical_of rfl, hl⟩

theorem head_size {pp : PathParser} {ts r0 r1 r2 r3 : Toks} {b : Bool} {ti si ai : List Issue} {tag : Tag}
    {sels : List Selector} {attrs : List Attr}
    (h0 : ElemStart ts b r0) (ht : ReadsTag pp r0 ti tag r1) (hs : ReadsSels r1 si sels r2)
    (ha : ReadsAttrs r2 ai attrs r3) : toksSize r3 < toksSize ts := by
  have := suffix_size h0.suffix
  have := ht.smaller
  have := suffix_size hs.suffix
  have := suffix_size ha.suffix
  omega

theorem end_children {pp pp' : PathParser} {ts rest : Toks} {args : Option Toks} {block : Option (List Child)}
    (h : ReadsEnd pp ts [] args block rest)
    (hc : ∀ c, EndAt ts c rest → ReadsChildren pp c [] (block.getD []) → ReadsChildren pp' c [] (block.getD [])) :
    ReadsEnd pp' ts [] args block rest := by
  cases h with
  | semi => exact .semi
  | block hd h => exact .block hd (hc _ (.block hd) h)
  | closure hp hd h => exact .closure hp hd (hc _ (.closure hp hd) h)

theorem strict_children {pp : PathParser} {u : Leaves} : ∀ (n : Nat) (ts : Toks), toksSize ts < n → LexicalToks ts →
    ∀ cs, ReadsChildren (pp.strict u) ts [] cs ↔ ReadsChildren pp ts [] cs ∧ unreadF pp u n ts = none
  | 0, ts, hn, _, cs => absurd hn (by omega)
  | n + 1, ts, hn, hl, cs => by
    constructor
    · intro h
      generalize hi : ([] : List Issue) = is at h
      cases h with
      | nil => exact ⟨.nil, by rw [unreadF]; rfl⟩
      | @value v rest is cs he hw h =>
        subst hi
        have hs := value_size hn
        have ih := (strict_children n rest hs hl.append _).mp h
        exact ⟨.value he hw ih.1, by rw [unread_value he]; exact ih.2⟩
      | @elem ts b r0 ti tag r1 si sels r2 ai attrs r3 ei args block r4 is cs h0 ht hs ha he h =>
        simp only [List.append_eq_nil_iff, List.nil_eq] at hi
        obtain ⟨rfl, rfl, rfl, rfl, rfl⟩ := hi
        have hl0 := h0.lexical hl
        have hl3 := ReadsAttrs.lexical hl0 ht hs ha
        have hz := head_size h0 ht hs ha
        obtain ⟨ht', hu⟩ := strict_tag.mp ht
        obtain ⟨c, hc, hr⟩ := end_at he
        have hcs := hc.smaller
        have hcl := hc.lexical hl3
        have ih1 := (strict_children n c (by omega) hcl.1 _).mp hr
        have ih2 := (strict_children n r4 (by omega) hcl.2 _).mp h
        refine ⟨.elem (ti := []) (si := []) (ai := []) (ei := []) h0 ht' hs ha
          (end_children he fun c' hc' h' => ?_) ih2.1, ?_⟩
        · have e := (elementEnd_eq hc').symm.trans (elementEnd_eq hc)
          simp only [Option.some.injEq, Prod.mk.injEq] at e
          rw [e.1]; exact ih1.1
        · rw [unread_elem h0 (elementHead_nil hl0 ht' hs ha) hc, orElse_none, orElse_none]
          exact ⟨hu, ih1.2, ih2.2⟩
      | _ => simp at hi
    · rintro ⟨h, hu⟩
      generalize hi : ([] : List Issue) = is at h ⊢
      cases h with
      | nil => exact .nil
      | @value v rest is cs he hw h =>
        subst hi
        have hs := value_size hn
        rw [unread_value he] at hu
        exact .value he hw ((strict_children n rest hs hl.append _).mpr ⟨h, hu⟩)
      | @elem ts b r0 ti tag r1 si sels r2 ai attrs r3 ei args block r4 is cs h0 ht hs ha he h =>
        simp only [List.append_eq_nil_iff, List.nil_eq] at hi
        obtain ⟨rfl, rfl, rfl, rfl, rfl⟩ := hi
        have hl0 := h0.lexical hl
        have hl3 := ReadsAttrs.lexical hl0 ht hs ha
        have hz := head_size h0 ht hs ha
        obtain ⟨c, hc, hr⟩ := end_at he
        have hcs := hc.smaller
        have hcl := hc.lexical hl3
        rw [unread_elem h0 (elementHead_nil hl0 ht hs ha) hc, orElse_none, orElse_none] at hu
        have ih1 := (strict_children n c (by omega) hcl.1 _).mpr ⟨hr, hu.2.1⟩
        have ih2 := (strict_children n r4 (by omega) hcl.2 _).mpr ⟨h, hu.2.2⟩
        refine .elem h0 (strict_tag.mpr ⟨ht, hu.1⟩) hs ha (end_children he fun c' hc' h' => ?_) ih2
        have e := (elementEnd_eq hc').symm.trans (elementEnd_eq hc)
        simp only [Option.some.injEq, Prod.mk.injEq] at e
        rw [e.1]; exact ih1
      | _ => simp at hi
where
  value_size {n : Nat} {v : CVal} {rest : Toks} (hn : toksSize (v.toks ++ rest) < n + 1) : toksSize rest < n := by
    have : toksSize rest < toksSize (v.toks ++ rest) :=
      rest_smaller (by have := value_ne (v := v) (rest := []); simpa using this)
    omega

theorem within_behind {pos rest used : Toks} (h : Within pos rest) : Within pos (used ++ rest) := by
  induction used with
  | nil => exact h
  | cons t used ih => exact .tail ih

theorem EndAt.within {ts c rest pos : Toks} (h : EndAt ts c rest) (hp : Within pos c ∨ Within pos rest) :
    pos = [] ∨ Within pos ts := by
  have nil : Within pos [] → pos = [] := fun h => by cases h; rfl
  cases h with
  | semi => exact hp.imp nil .tail
  | block hd => exact .inr (hp.elim (.group hd) .tail)
  | closure _ hd =>
    refine .inr (.tail (within_behind (.tail ?_)))
    exact hp.elim (.group hd) .tail
  | nothing => exact hp.imp nil id
  | noBlock => exact hp.imp nil fun h => .tail (within_behind (.tail h))
  | other => exact hp.imp nil id

theorem TagPath.start {ts p : Toks} {ps : List Toks} (h : TagPath ts ps) (hp : p ∈ ps) : p = ts ∧ PathStart p := by
  cases h with
  | path h => simp only [List.mem_singleton] at hp; subst hp; exact ⟨rfl, h⟩
  | name => cases hp

theorem tagPath_exists (ts : Toks) : ∃ ps, TagPath ts ps := by
  by_cases h : PathStart ts
  · exact ⟨_, .path h⟩
  · exact ⟨_, .name h⟩

theorem TagPath.unread {u : Leaves} {ts : Toks} {ps : List Toks} (h : TagPath ts ps) :
    tagUnread u ts = ps.findSome? u := by
  cases h with
  | path h => rw [tagUnread_path h]; simp
  | name h => rw [tagUnread_name h]; rfl

theorem pathStart_ne {ts : Toks} (h : PathStart ts) : ts ≠ [] := by
  rintro rfl
  exact absurd h (by simp [PathStart, StartsColons, StartsAngle, afterFirst])

/-- the paths in an input are paths in the input -/
theorem paths_within {pp : PathParser} {ts : Toks} {ps : List Toks} (h : PathsIn pp ts ps) :
    ∀ p ∈ ps, Within p ts ∧ PathStart p := by
  have first : ∀ {ts r0 p : Toks} {b : Bool} {ps : List Toks}, ElemStart ts b r0 → TagPath r0 ps → p ∈ ps →
      Within p ts ∧ PathStart p := by
    intro ts r0 p b ps h0 hp hm
    obtain ⟨rfl, h⟩ := hp.start hm
    obtain ⟨u, hu⟩ := h0.suffix
    exact ⟨hu ▸ within_behind (.here _), h⟩
  induction h with
  | nil => intro p hp; cases hp
  | value _ _ ih => exact fun p hp => ⟨within_behind (ih p hp).1, (ih p hp).2⟩
  | @elem ts b r0 ti tag r1 si sels r2 ai attrs r3 ps c qs r4 rs h0 ht hs ha _ hp hc _ _ ih1 ih2 =>
    intro p hm
    rcases List.mem_append.mp hm with hm | hm
    · exact first h0 hp hm
    · have key : (Within p c ∨ Within p r4) ∧ PathStart p := by
        rcases List.mem_append.mp hm with hm | hm
        · exact ⟨.inl (ih1 p hm).1, (ih1 p hm).2⟩
        · exact ⟨.inr (ih2 p hm).1, (ih2 p hm).2⟩
      refine ⟨?_, key.2⟩
      rcases hc.within key.1 with h | hw
      · exact absurd h (pathStart_ne key.2)
      · obtain ⟨u0, h0'⟩ := h0.suffix
        obtain ⟨u1, h1'⟩ := ht.suffix
        obtain ⟨u2, h2'⟩ := hs.suffix
        obtain ⟨u3, h3'⟩ := ha.suffix
        rw [h0', h1', h2', h3']
        exact within_behind (within_behind (within_behind (within_behind hw)))
  | unclosed h0 _ _ _ _ _ hp => exact fun p hm => first h0 hp hm
  | @noTagSemi ts b r0 e s rest ps qs h0 hn hp _ ih =>
    intro p hm
    rcases List.mem_append.mp hm with hm | hm
    · exact first h0 hp hm
    · obtain ⟨u0, h0'⟩ := h0.suffix
      obtain ⟨u1, h1'⟩ := hn.suffix
      refine ⟨?_, (ih p hm).2⟩
      rw [h0', h1']
      exact within_behind (within_behind (.tail (ih p hm).1))
  | noTag h0 _ _ hp => exact fun p hm => first h0 hp hm
  | semi _ ih => exact fun p hp => ⟨.tail (ih p hp).1, (ih p hp).2⟩
  | other => intro p hp; cases hp

theorem orElse_or {α : Type} (a b : Option α) : (a <|> b) = a.or b := by cases a <;> rfl

theorem value_toks_ne {v : CVal} : v.toks ≠ [] := by
  have := value_ne (v := v) (rest := [])
  simpa using this

/-- what is in the cell is about the first path that leaves something -/
theorem unread_first {pp : PathParser} {u : Leaves} {ts : Toks} {ps : List Toks} (h : PathsIn pp ts ps) :
    ∀ n, toksSize ts < n → LexicalToks ts → unreadF pp u n ts = ps.findSome? u := by
  induction h with
  | nil => intro n hn _; obtain ⟨n, rfl⟩ : ∃ m, n = m + 1 := ⟨n - 1, by omega⟩; rw [unreadF]; rfl
  | @value v rest ps he _ ih =>
    intro n hn hl
    obtain ⟨n, rfl⟩ : ∃ m, n = m + 1 := ⟨n - 1, by omega⟩
    have := rest_smaller (used := v.toks) (rest := rest) value_toks_ne
    rw [unread_value he]
    exact ih n (by omega) hl.append
  | @elem ts b r0 ti tag r1 si sels r2 ai attrs r3 ps c qs r4 rs h0 ht hs ha hr hp hc _ _ ih1 ih2 =>
    intro n hn hl
    obtain ⟨n, rfl⟩ : ∃ m, n = m + 1 := ⟨n - 1, by omega⟩
    have hl0 := h0.lexical hl
    obtain ⟨ds, hh⟩ := gives_reports (elementHead_gives hl0 ht hs ha) hr
    have hz := head_size h0 ht hs ha
    have hcs := hc.smaller
    have hcl := hc.lexical (ReadsAttrs.lexical hl0 ht hs ha)
    rw [unread_elem h0 hh hc, ih1 n (by omega) hcl.1, ih2 n (by omega) hcl.2, hp.unread, orElse_or, orElse_or,
      List.findSome?_append, List.findSome?_append]
  | @unclosed ts b r0 ti tag r1 si sels r2 ai attrs s args ps h0 ht hs ha hr hn hp =>
    intro n hm hl
    obtain ⟨n, rfl⟩ : ∃ m, n = m + 1 := ⟨n - 1, by omega⟩
    obtain ⟨ds, hh⟩ := gives_reports (elementHead_gives (h0.lexical hl) ht hs ha) hr
    rw [unread_start h0, hh]
    dsimp only
    rw [elementEnd_open hn, hp.unread, orElse_or]
    simp
  | @noTagSemi ts b r0 e s rest ps qs h0 hn hp _ ih =>
    intro n hm hl
    obtain ⟨n, rfl⟩ : ∃ m, n = m + 1 := ⟨n - 1, by omega⟩
    have hl0 := h0.lexical hl
    have h1 := suffix_size h0.suffix
    have h2 := suffix_size hn.suffix
    simp only [toksSize_cons (.punct ';' s), TT.size] at h2
    rw [unread_start h0, noTag_head hn]
    dsimp only
    rw [if_pos (by simp [peekPunct]), List.drop_succ_cons, List.drop_zero,
      ih n (by omega) (by obtain ⟨v, hv⟩ := hn.suffix; exact (hv ▸ hl0).append.tail),
      hp.unread, orElse_or, List.findSome?_append]
  | @noTag ts b r0 e rest ps h0 hn hs hp =>
    intro n hm hl
    obtain ⟨n, rfl⟩ : ∃ m, n = m + 1 := ⟨n - 1, by omega⟩
    rw [unread_start h0, noTag_head hn]
    dsimp only
    rw [if_neg (by rw [peekPunct_iff]; rintro ⟨s, r, h⟩; exact hs s r h), hp.unread, orElse_or]
    simp
  | @semi s rest ps _ ih =>
    intro n hm hl
    obtain ⟨n, rfl⟩ : ∃ m, n = m + 1 := ⟨n - 1, by omega⟩
    simp only [toksSize_cons, TT.size] at hm
    rw [← ih n (by omega) hl.tail, unreadF]
    have hv : rollback parseValue (.punct ';' s :: rest) = _ := rollback_fails (value_fails_of
      (by intro v r; cases v <;> simp [CVal.toks]; rename_i p c; cases p <;> simp))
    rw [if_neg (by simp [isEmpty]), hv]
    rfl
  | @other t r hv hi hs =>
    intro n hm hl
    obtain ⟨n, rfl⟩ : ∃ m, n = m + 1 := ⟨n - 1, by omega⟩
    have hv' : rollback parseValue (t :: r) = _ := rollback_fails (value_fails_of hv)
    rw [unreadF, if_neg (by simp [isEmpty]), hv']
    dsimp only
    rw [if_neg (by cases t <;> simp_all [peekIdentAny, TT.isIdent]), if_neg (by
      rw [peekPunct_iff]; rintro ⟨s, r, h⟩; simp only [List.cons.injEq] at h; exact hs s h.1)]
    rfl
where
  noTag_head {pp : PathParser} {ts : Toks} {e : Err} {rest : Toks} (h : NoTag pp ts e rest) :
      elementHead pp ts = .ret [] (.err e rest) := by
    unfold elementHead
    rw [P.bind_apply, noTag_eq h]
    rfl

/-! ### an input that can be read has paths -/

mutual
theorem paths_exist {pp : PathParser} {ts : Toks} {is : List Issue} {cs : List Child}
    (h : ReadsChildren pp ts is cs) (hr : GoesOn is) : ∃ ps, PathsIn pp ts ps :=
  match h with
  | .nil => ⟨_, .nil⟩
  | .value he _ h => (paths_exist h hr).imp fun _ => .value he
  | .literal he _ h => (paths_exist h fun i hi => hr i (.tail _ hi)).imp fun _ => .value he
  | .elem (r0 := r0) h0 ht hs ha he h => by
    simp only [reports_append] at hr
    obtain ⟨ps, hp⟩ := tagPath_exists r0
    obtain ⟨c, qs, hc, hq⟩ := paths_end he hr.2.2.2.1
    obtain ⟨rs, hrs⟩ := paths_exist h hr.2.2.2.2
    exact ⟨_, .elem h0 ht hs ha (by simp only [reports_append]; exact ⟨hr.1, hr.2.1, hr.2.2.1⟩) hp hc hq hrs⟩
  | .unclosed (r0 := r0) h0 ht hs ha hn => by
    simp only [reports_append] at hr
    obtain ⟨ps, hp⟩ := tagPath_exists r0
    exact ⟨_, .unclosed h0 ht hs ha (by simp only [reports_append]; exact ⟨hr.1, hr.2.1, hr.2.2.1⟩) hn hp⟩
  | .noTagSemi (r0 := r0) h0 hn h => by
    obtain ⟨ps, hp⟩ := tagPath_exists r0
    obtain ⟨qs, hq⟩ := paths_exist h fun i hi => hr i (.tail _ hi)
    exact ⟨_, .noTagSemi h0 hn hp hq⟩
  | .noTag (r0 := r0) h0 hn hs => by
    obtain ⟨ps, hp⟩ := tagPath_exists r0
    exact ⟨_, .noTag h0 hn hs hp⟩
  | .semi h => (paths_exist h fun i hi => hr i (.tail _ hi)).imp fun _ => .semi
  | .other hv hi hs => ⟨_, .other hv hi hs⟩

theorem paths_end {pp : PathParser} {ts rest : Toks} {is : List Issue} {args : Option Toks}
    {block : Option (List Child)} (h : ReadsEnd pp ts is args block rest) (hr : GoesOn is) :
    ∃ c ps, EndAt ts c rest ∧ PathsIn pp c ps :=
  match h with
  | .semi => ⟨_, _, .semi, .nil⟩
  | .block hd h => (paths_exist h hr).elim fun _ hp => ⟨_, _, .block hd, hp⟩
  | .closure hn hd h => (paths_exist h hr).elim fun _ hp => ⟨_, _, .closure hn hd, hp⟩
  | .nothing => ⟨_, _, .nothing, .nil⟩
  | .noBlock hn h => ⟨_, _, .noBlock hn h, .nil⟩
  | .other h1 h2 h3 => ⟨_, _, .other h1 h2 h3, .nil⟩
end

end Mview
