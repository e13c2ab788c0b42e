import Verif.Lemmas.Hygiene
import Verif.Spec.Mentions
import Verif.Lemmas.SimplePaths
import Verif.Lemmas.Accept
/-
C53: the names in the tree an input is read as are mentioned in the input.
-/

namespace Mview
open Lex

theorem Mentions.prepend {r : Toks} {n : Str} (u : Toks) (h : Mentions r n) : Mentions (u ++ r) n := by
  induction u with
  | nil => exact h
  | cons x u ih => exact .later ih

theorem Mentions.append {t : Toks} {n : Str} (r : Toks) (h : Mentions t n) : Mentions (t ++ r) n := by
  induction h with
  | ident => exact .ident
  | name hk => rw [List.append_assoc]; exact .name hk
  | within h => exact .within h
  | later _ ih => exact .later ih

mutual
theorem tt_mentions (x : TT) (r : Toks) : ∀ i ∈ x.idents, Mentions (x :: r) i.name := by
  cases x with
  | ident j =>
    intro i hi
    simp only [TT.idents, List.mem_singleton] at hi
    subst hi; exact .ident
  | group d t =>
    intro i hi
    simp only [TT.idents] at hi
    exact .within (mentions_of_idents t i hi)
  | punct c s => simp [TT.idents]
  | lit l => simp [TT.idents]
theorem mentions_of_idents (t : Toks) : ∀ i ∈ idents t, Mentions t i.name := by
  cases t with
  | nil => simp [idents]
  | cons x r =>
    intro i hi
    simp only [idents, List.mem_append] at hi
    rcases hi with hi | hi
    · exact tt_mentions x r i hi
    · exact .later (mentions_of_idents r i hi)
end

theorem idents_append (a b : Toks) : idents (a ++ b) = idents a ++ idents b := by
  induction a with
  | nil => rfl
  | cons x a ih => simp [idents, ih]

/-- What is read instead of a missing value. -/
def missing : Toks := t!"::leptos_mview::MissingValueAfterEq"

/-- The code or name comes from the tokens. -/
def From (ts u : Toks) : Prop :=
  u = missing ∨ ∀ i ∈ idents u, i ∈ ownNames.map plain ∨ Mentions ts i.name

theorem From.prepend {r v : Toks} (u : Toks) (h : From r v) : From (u ++ r) v :=
  h.imp id fun h i hi => (h i hi).imp id (·.prepend u)

theorem From.later {r v : Toks} {x : TT} (h : From r v) : From (x :: r) v := h.prepend [x]

theorem From.within {t v r : Toks} {d : Delim} (h : From t v) : From (.group d t :: r) v :=
  h.imp id fun h i hi => (h i hi).imp id .within

theorem From.append {t v : Toks} (r : Toks) (h : From t v) : From (t ++ r) v :=
  h.imp id fun h i hi => (h i hi).imp id (·.append r)

theorem From.self (t : Toks) : From t t := .inr fun i hi => .inr (mentions_of_idents t i hi)

theorem rawIdentOf_name {n : Str} {i : Ident} (h : rawIdentOf n = some i) :
    i.name = n.map fun c => if c = '-' then '_' else c := by
  unfold rawIdentOf rawIdent at h
  split at h
  · simp at h
  · cases h; rfl

theorem From.key {ts run rest : Toks} {i : Ident} (hk : LongestKebab ts run rest)
    (h : rawIdentOf (kebabText run) = some i) : Mentions ts i.name := by
  rw [rawIdentOf_name h, hk.split]
  exact .name hk.kebab

theorem From.one {ts : Toks} {i : Ident} (h : Mentions ts i.name) : From ts [.ident i] :=
  .inr fun j hj => by
    simp only [idents, TT.idents, List.append_nil, List.mem_singleton] at hj
    subst hj; exact .inr h

theorem bool_from (ts : Toks) (b : Bool) : From ts (Value.lit (.bool b)).code := .inr fun i hi => by
  cases b <;> simp [Value.code, idents, TT.idents] at hi <;> subst hi <;> left <;>
    simp [ownNames, keywords]

theorem cval_from (v : CVal) : From v.toks v.ast.code := by
  cases v with
  | lit l => exact .inr (by simp [CVal.ast, Value.code, idents, TT.idents])
  | bool b => exact bool_from _ b
  | neg s f text => exact .inr (by simp [CVal.ast, Value.code, idents, TT.idents])
  | block code => exact (From.self code).within
  | bracket p code =>
    cases p with
    | none => exact (From.self code).within
    | some p => exact (From.self code).within.later

theorem value_from {ts : Toks} {is : List Issue} {v : Value} {rest : Toks} (h : ReadsValue ts is v rest) :
    From ts v.code ∧ ∃ u, ts = u ++ rest := by
  cases h with
  | value h => exact ⟨(cval_from _).append _, _, rfl⟩
  | missing => exact ⟨.inl rfl, [], rfl⟩

theorem eq_from {ts : Toks} {is : List Issue} {v : Option Value} {rest : Toks} (h : ReadsEq ts is v rest) :
    (∀ w, v = some w → From ts w.code) ∧ ∃ u, ts = u ++ rest := by
  cases h with
  | some h =>
    obtain ⟨h1, u, rfl⟩ := value_from h
    exact ⟨fun w hw => by cases hw; exact h1.later, _ :: u, rfl⟩
  | none => exact ⟨by simp, [], rfl⟩

theorem modifier_split {ts : Toks} {m : Option Ident} {rest : Toks} (h : ReadsModifier ts m rest) :
    ∃ u, ts = u ++ rest := by
  cases h with
  | some => exact ⟨[_, _], rfl⟩
  | none => exact ⟨[], rfl⟩

theorem key_from {ts : Toks} {is : List Issue} {k : KebabOrStr} {rest : Toks} (h : ReadsKey ts is k rest) :
    (∀ i, k.asIdent = some i → Mentions ts i.name) ∧ ∃ u, ts = u ++ rest := by
  cases h with
  | str => exact ⟨by simp [KebabOrStr.asIdent], [_], rfl⟩
  | name h => exact ⟨fun i hi => From.key h hi, _, h.split⟩

theorem shortValue_from {c : Toks} (h : AllName c) (hc : Issue.crash ∉ nameIssues (kebabText c)) :
    From c (shortValue c).code := by
  cases hr : rawIdentOf (kebabText c) with
  | some i =>
    simp only [shortValue, Value.code, identOf, hr, Option.getD_some]
    exact .one (From.key h hr)
  | none =>
    have : ¬ Str.Identlike (kebabText c) := fun h' => by
      obtain ⟨i, hi⟩ := (def_rawIdentOf _).mpr h'
      simp [hr] at hi
    exact absurd (by simp [nameIssues, this]) hc

theorem names_from {ts : Toks} {d : Directive} (h : ∀ i, d.key.asIdent = some i → Mentions ts i.name) :
    ∀ u ∈ d.names, From ts u := by
  intro u hu
  unfold Directive.names at hu
  split at hu
  · split at hu
    · rename_i i hi
      simp only [List.mem_singleton] at hu
      subst hu; exact .one (h i hi)
    · simp at hu
  · simp at hu

theorem sels_split {ts : Toks} {is : List Issue} {sels : List Selector} {rest : Toks}
    (h : ReadsSels ts is sels rest) : ∃ u, ts = u ++ rest := by
  induction h with
  | @cls s _ run _ _ _ _ hk _ ih =>
    obtain ⟨u, rfl⟩ := ih
    exact ⟨.punct '.' s :: (run ++ u), by rw [hk.split]; simp⟩
  | @id s _ run _ _ _ _ hk _ ih =>
    obtain ⟨u, rfl⟩ := ih
    exact ⟨.punct '#' s :: (run ++ u), by rw [hk.split]; simp⟩
  | done => exact ⟨[], rfl⟩

/-- Unless the macro stops. -/
def Goes (is : List Issue) : Prop := ∀ i ∈ is, ∃ d, i = .report d

theorem goes_append {a b : List Issue} : Goes (a ++ b) ↔ Goes a ∧ Goes b := by
  simp only [Goes, List.mem_append]
  exact ⟨fun h => ⟨fun i hi => h i (.inl hi), fun i hi => h i (.inr hi)⟩,
    fun h i hi => hi.elim (h.1 i) (h.2 i)⟩

theorem Goes.noCrash {is : List Issue} (h : Goes is) : Issue.crash ∉ is := fun hc => by
  obtain ⟨d, hd⟩ := h _ hc; cases hd

theorem not_goes {d : Diag} : ¬ Goes [.stop d] := fun h => by
  obtain ⟨d, hd⟩ := h _ (List.mem_singleton_self _); cases hd

theorem Goes.tail {i : Issue} {is : List Issue} (h : Goes (i :: is)) : Goes is :=
  fun j hj => h j (List.mem_cons_of_mem _ hj)

theorem goes_of_errors {is : List Issue} {ds : List Diag} (h : verdict is = .errors ds) : Goes is := by
  induction is generalizing ds with
  | nil => intro i hi; simp at hi
  | cons i is ih =>
    cases i with
    | report d =>
      simp only [verdict] at h
      cases hv : verdict is with
      | errors es =>
        intro j hj
        rcases List.mem_cons.mp hj with rfl | hj
        · exact ⟨_, rfl⟩
        · exact ih hv j hj
      | stopped es => simp [hv, Verdict.add] at h
      | crashed => simp [hv, Verdict.add] at h
    | stop d => simp [verdict] at h
    | crash => simp [verdict] at h

theorem attrs_from {ts : Toks} {is : List Issue} {as : List Attr} {rest : Toks}
    (h : ReadsAttrs ts is as rest) (hg : Goes is) :
    (∀ u ∈ as.flatMap Attr.pieces, From ts u) ∧ ∃ u, ts = u ++ rest := by
  induction h with
  | @short c rest is as left hk _ ih =>
    simp only [goes_append] at hg
    obtain ⟨h1, u, rfl⟩ := ih hg.2.2
    refine ⟨fun v hv => ?_, _ :: u, rfl⟩
    simp only [List.flatMap_cons, Attr.pieces, List.mem_append, List.mem_singleton] at hv
    rcases hv with rfl | hv
    · exact (shortValue_from hk hg.2.1.noCrash).within
    · exact (h1 v hv).later
  | @spread s e rest is as left _ ih =>
    obtain ⟨h1, u, rfl⟩ := ih hg
    refine ⟨fun v hv => ?_, _ :: u, rfl⟩
    simp only [List.flatMap_cons, Attr.pieces, List.mem_append, List.mem_singleton] at hv
    rcases hv with rfl | hv
    · exact (From.self _).later.later.within
    · exact (h1 v hv).later
  | @kv ts run rest js v rest' is as left hk _ he _ ih =>
    simp only [goes_append] at hg
    obtain ⟨h1, u, rfl⟩ := ih hg.2.2
    obtain ⟨h2, w, rfl⟩ := eq_from he
    rw [hk.split]
    refine ⟨fun x hx => From.prepend _ ?_, run ++ (w ++ u), by simp⟩
    simp only [List.flatMap_cons, Attr.pieces, List.mem_append, List.mem_singleton] at hx
    rcases hx with rfl | hx
    · cases v with
      | none => exact bool_from _ true
      | some v => exact h2 v rfl
    · exact (h1 x hx).prepend _
  | @dirShort d s c rest m rest' is as left hk hm _ ih =>
    simp only [goes_append] at hg
    obtain ⟨h1, u, rfl⟩ := ih hg.2.2
    obtain ⟨w, rfl⟩ := modifier_split hm
    refine ⟨fun x hx => ?_, .ident d :: .punct ':' s :: .group .brace c :: (w ++ u), by simp⟩
    simp only [List.flatMap_cons, Attr.pieces, List.mem_append, Option.map_some, Option.toList_some,
      List.mem_singleton] at hx
    refine From.later (From.later ?_)
    rcases hx with (rfl | hx) | hx
    · exact (shortValue_from hk hg.2.1.noCrash).within
    · exact From.within (names_from (d := ⟨d, .kebab (kebabOf c), m, some (shortValue c)⟩)
        (fun i hi => From.key hk hi) x hx)
    · exact ((h1 x hx).prepend w).later
  | @dir d s ts ks key r1 m r2 js v r3 is as left hk hm he _ ih =>
    simp only [goes_append] at hg
    obtain ⟨h1, u, rfl⟩ := ih hg.2.2
    obtain ⟨h2, w, rfl⟩ := eq_from he
    obtain ⟨y, rfl⟩ := modifier_split hm
    obtain ⟨h3, z, rfl⟩ := key_from hk
    refine ⟨fun x hx => ?_, .ident d :: .punct ':' s :: (z ++ (y ++ (w ++ u))), by simp⟩
    simp only [List.flatMap_cons, Attr.pieces, List.mem_append] at hx
    refine From.later (From.later ?_)
    rcases hx with (hx | hx) | hx
    · cases v with
      | none => simp at hx
      | some v =>
        simp only [Option.map_some, Option.toList_some, List.mem_singleton] at hx
        subst hx
        exact ((h2 v rfl).prepend y).prepend z
    · exact names_from h3 x hx
    · exact (((h1 x hx).prepend w).prepend y).prepend z
  | dirMore => simp only [goes_append] at hg; exact absurd hg.2 not_goes
  | dirNoName => exact absurd hg not_goes
  | dirNoKey => exact absurd hg not_goes
  | dirShortNoModifier => simp only [goes_append] at hg; exact absurd hg.2.2 not_goes
  | dirNoModifier => simp only [goes_append] at hg; exact absurd hg.2 not_goes
  | brace => exact ⟨by simp, [], rfl⟩
  | done => exact ⟨by simp, [], rfl⟩

theorem joinColons_idents : ∀ xs : List Toks, ∀ i ∈ idents (joinColons xs), ∃ x ∈ xs, i ∈ idents x
  | [], i, h => by simp [joinColons, idents] at h
  | [x], i, h => ⟨x, by simp, h⟩
  | x :: y :: xs, i, h => by
    have h : i ∈ idents (x ++ (.punct ':' .joint :: .punct ':' .alone :: joinColons (y :: xs))) := by
      simpa [joinColons, splice_toks] using h
    rw [idents_append, List.mem_append] at h
    rcases h with h | h
    · exact ⟨x, by simp, h⟩
    · simp only [idents, TT.idents, List.nil_append] at h
      obtain ⟨z, hz, hi⟩ := joinColons_idents (y :: xs) i h
      exact ⟨z, List.mem_cons_of_mem _ hz, hi⟩

theorem seg_idents {s : PathSeg} {t : Toks} (h : s.means = some t) :
    ∀ i ∈ idents t, i ∈ s.ident :: s.args.idents := by
  obtain ⟨j, a⟩ := s
  cases a with
  | none =>
    cases h
    intro i hi
    simpa [splice_toks, splice_ident, idents, TT.idents, PathArgs.idents] using hi
  | angle c inner =>
    cases h
    intro i hi
    simpa [splice_toks, splice_ident, idents, TT.idents, idents_append, PathArgs.idents] using hi
  | paren _ => cases h

theorem mapM_mem {α β : Type} {f : α → Option β} : ∀ {xs : List α} {ys : List β}, xs.mapM f = some ys →
    ∀ y ∈ ys, ∃ x ∈ xs, f x = some y
  | [], ys, h, y, hy => by
    simp only [List.mapM_nil, Option.pure_def, Option.some.injEq] at h
    subst h; simp at hy
  | x :: xs, ys, h, y, hy => by
    simp only [List.mapM_cons, Option.bind_eq_bind, Option.bind_eq_some_iff, Option.pure_def,
      Option.some.injEq] at h
    obtain ⟨z, hz, zs, hzs, rfl⟩ := h
    rcases List.mem_cons.mp hy with rfl | hy
    · exact ⟨x, by simp, hz⟩
    · obtain ⟨x', hx', h'⟩ := mapM_mem hzs y hy
      exact ⟨x', List.mem_cons_of_mem _ hx', h'⟩

theorem path_idents {p : Path} {t : Toks} (h : p.means = some t) : ∀ i ∈ idents t, i ∈ p.idents := by
  intro i hi
  simp only [Path.means, Option.bind_eq_bind, Option.bind_eq_some_iff, Option.pure_def,
    Option.some.injEq] at h
  obtain ⟨segs, hs, rfl⟩ := h
  rw [idents_append, List.mem_append] at hi
  rcases hi with hi | hi
  · split at hi <;> simp [idents, TT.idents] at hi
  · obtain ⟨x, hx, hi⟩ := joinColons_idents _ i hi
    obtain ⟨s, hs', hm⟩ := mapM_mem hs x hx
    exact List.mem_flatMap.mpr ⟨s, hs', seg_idents hm i hi⟩

theorem tag_from {pp : PathParser} (hpp : pp.Verbatim) {ts : Toks} {is : List Issue} {tag : Tag} {rest : Toks}
    (h : ReadsTag pp ts is tag rest) (hg : Goes is) :
    (∀ u ∈ tag.pieces, From ts u) ∧ ∃ u, ts = u ++ rest := by
  cases h with
  | path _ hr =>
    obtain ⟨used, _, hu⟩ := pp.progress _ _ _ hr
    refine ⟨fun u hu => .inr fun i hi => .inr ?_, used, hu⟩
    simp only [Tag.pieces, Option.mem_toList] at hu
    exact mentions_of_idents _ _ (hpp hr i (path_idents hu i hi))
  | name _ hk ht =>
    refine ⟨fun u hu => .inr fun i hi => .inr ?_, _, hk.split⟩
    unfold tagOf at ht
    split at ht
    case h_3 => cases ht; simp [Tag.pieces] at hu
    all_goals
      rw [Option.map_eq_some_iff] at ht
      obtain ⟨j, h1, rfl⟩ := ht
      first
      | (simp [Tag.pieces] at hu; done)
      | (simp only [Tag.pieces, Option.mem_toList] at hu
         have := path_idents hu i hi
         simp only [Path.idents, PathArgs.idents, List.flatMap_cons, List.flatMap_nil, List.append_nil,
           List.mem_singleton] at this
         subst this
         exact From.key (i := j) hk h1)
  | crash => simp only [goes_append] at hg; exact absurd (by simp) hg.2.noCrash

theorem start_split {ts : Toks} {b : Bool} {r : Toks} (h : ElemStart ts b r) : ∃ u, ts = u ++ r := by
  cases h with
  | slot => exact ⟨[_, _], rfl⟩
  | elem => exact ⟨[], rfl⟩

theorem noTag_split {pp : PathParser} {ts : Toks} {e : Err} {rest : Toks} (h : NoTag pp ts e rest) :
    ∃ u, ts = u ++ rest := by
  cases h with
  | path _ hr => exact pp.suffix _ _ hr
  | name => exact ⟨[], rfl⟩

/-- The code and names in a block. -/
def blockPieces : Option (List Child) → List Toks
  | none => []
  | some cs => childrenPieces cs

theorem Element.pieces_eq (tag : Tag) (sels : List Selector) (attrs : List Attr) (args : Option Toks)
    (block : Option (List Child)) : (Element.mk tag sels attrs args block).pieces =
      tag.pieces ++ attrs.flatMap Attr.pieces ++ args.toList ++ blockPieces block := by
  cases block <;> simp [Element.pieces, blockPieces]

theorem piped_from {args : Toks} {s s' : Spacing} (r : Toks) :
    From (.punct '|' s :: (args ++ .punct '|' s' :: r)) (piped args) := .inr fun i hi => .inr <| by
  simp only [piped, idents, TT.idents, idents_append, List.nil_append, List.append_nil] at hi
  exact .later ((mentions_of_idents _ i hi).append _)

mutual
theorem end_from {pp : PathParser} (hpp : pp.Verbatim) {ts : Toks} {is : List Issue} {args : Option Toks}
    {block : Option (List Child)} {rest : Toks} (h : ReadsEnd pp ts is args block rest) (hg : Goes is) :
    (∀ u ∈ args.toList ++ blockPieces block, From ts u) ∧ ∃ u, ts = u ++ rest := by
  match h with
  | .semi => exact ⟨by simp [blockPieces], [_], rfl⟩
  | .block _ h =>
    refine ⟨fun u hu => ?_, [_], rfl⟩
    simp only [Option.toList_none, List.nil_append, blockPieces] at hu
    exact (children_from hpp h hg u hu).within
  | .closure (s := s) (args := args) (s' := s') (d := d) (c := c) _ _ h =>
    refine ⟨fun u hu => ?_, .punct '|' s :: (args ++ [.punct '|' s', .group d c]), by simp⟩
    simp only [Option.toList_some, blockPieces, List.mem_append, List.mem_singleton] at hu
    rcases hu with rfl | hu
    · exact piped_from _
    · exact ((children_from hpp h hg u hu).within.later.prepend args).later
  | .nothing => exact ⟨by simp [blockPieces], [], rfl⟩
  | .noBlock (s := s) (args := args) (s' := s') _ _ =>
    refine ⟨fun u hu => ?_, .punct '|' s :: (args ++ [.punct '|' s']), by simp⟩
    simp only [Option.toList_some, blockPieces, List.append_nil, List.mem_singleton] at hu
    subst hu
    exact piped_from _
  | .other _ _ _ => exact ⟨by simp [blockPieces], [], rfl⟩

theorem children_from {pp : PathParser} (hpp : pp.Verbatim) {ts : Toks} {is : List Issue} {cs : List Child}
    (h : ReadsChildren pp ts is cs) (hg : Goes is) : ∀ u ∈ childrenPieces cs, From ts u := by
  match h with
  | .nil => simp [childrenPieces]
  | .value (v := v) _ hv h =>
    intro u hu
    simp only [childrenPieces, List.mem_cons] at hu
    rcases hu with rfl | hu
    · exact (cval_from v).append _
    · exact (children_from hpp h hg u hu).prepend _
  | .literal (v := v) _ hv h =>
    intro u hu
    simp only [childrenPieces, List.mem_cons] at hu
    rcases hu with rfl | hu
    · exact .inr (by simp [Value.code, idents, TT.idents])
    · exact (children_from hpp h hg.tail u hu).prepend _
  | .elem (isSlot := b) (tag := tag) (sels := sels) (attrs := attrs) (args := args) (block := block)
      (cs := cs) hs ht hsel ha he h =>
    simp only [goes_append] at hg
    obtain ⟨u0, rfl⟩ := start_split hs
    obtain ⟨h1, u1, rfl⟩ := tag_from hpp ht hg.1
    obtain ⟨u2, rfl⟩ := sels_split hsel
    obtain ⟨h3, u3, rfl⟩ := attrs_from ha hg.2.2.1
    obtain ⟨h4, u4, rfl⟩ := end_from hpp he hg.2.2.2.1
    have h5 := children_from hpp h hg.2.2.2.2
    intro u hu
    have hu : u ∈ tag.pieces ++ attrs.flatMap Attr.pieces ++ args.toList ++ blockPieces block ∨
        u ∈ childrenPieces cs := by
      cases b <;> simpa only [asChild, childrenPieces, Element.pieces_eq, if_true, if_false,
        Bool.false_eq_true, List.mem_append] using hu
    refine From.prepend _ ?_
    simp only [List.append_assoc, List.mem_append] at hu
    rcases hu with (hu | hu | hu) | hu
    · exact h1 u hu
    · exact ((h3 u hu).prepend _).prepend _
    · exact (((h4 u (List.mem_append.mpr hu)).prepend _).prepend _).prepend _
    · exact ((((h5 u hu).prepend _).prepend _).prepend _).prepend _
  | .unclosed _ _ _ _ _ => simp [childrenPieces]
  | .noTagSemi hs ht h =>
    obtain ⟨u0, rfl⟩ := start_split hs
    obtain ⟨u1, rfl⟩ := noTag_split ht
    exact fun u hu => (((children_from hpp h hg.tail u hu).later).prepend _).prepend _
  | .noTag _ _ _ => simp [childrenPieces]
  | .semi h => exact fun u hu => (children_from hpp h hg.tail u hu).later
  | .other _ _ _ => simp [childrenPieces]
end

/-! ### the placeholder -/

/-- The placeholder is an absolute path. -/
theorem missing_loose (b : Before) : loose b missing = [] := by
  cases b <;> rfl

/-- What is loose in a piece is mentioned. -/
theorem From.loose {ts u : Toks} (h : From ts u) (b : Before) :
    ∀ i ∈ loose b u, i ∈ ownNames.map plain ∨ Mentions ts i.name := by
  intro i hi
  rcases h with rfl | h
  · simp [missing_loose] at hi
  · exact h i (loose_idents _ b i hi)

/-! ### `simplePaths` -/

theorem angleBody_idents (ts : Toks) : ∀ d a b, angleBody d ts = some (a, b) →
    (∀ i ∈ idents a, i ∈ idents ts) := by
  induction ts with
  | nil => intro d a b h; simp [angleBody] at h
  | cons t ts ih =>
    intro d a b h
    unfold angleBody at h
    split at h
    · cases d with
      | zero => simp at h; rw [h.1]; simp [idents]
      | succ d =>
        simp only [Option.map_eq_some_iff, Prod.exists, Prod.mk.injEq] at h
        obtain ⟨a', b', h1, rfl, _⟩ := h
        have := ih _ _ _ h1
        simpa [idents, TT.idents] using this
    · simp only [Option.map_eq_some_iff, Prod.exists, Prod.mk.injEq] at h
      obtain ⟨a', b', h1, rfl, _⟩ := h
      have := ih _ _ _ h1
      simpa [idents, TT.idents] using this
    · simp only [Option.map_eq_some_iff, Prod.exists, Prod.mk.injEq] at h
      obtain ⟨a', b', h1, rfl, _⟩ := h
      have := ih _ _ _ h1
      intro i hi
      simp only [idents, List.mem_append] at hi ⊢
      exact hi.imp id (this i)

theorem drop_idents (n : Nat) (ts : Toks) : ∀ i ∈ idents (ts.drop n), i ∈ idents ts := by
  intro i hi
  rw [← List.take_append_drop n ts, idents_append, List.mem_append]
  exact .inr hi

theorem simpleArgs_idents {ts a b} (h : simpleArgs ts = some (a, b)) : ∀ i ∈ a.idents, i ∈ idents ts := by
  unfold simpleArgs at h
  split at h
  · simp only [Option.map_eq_some_iff, Prod.exists, Prod.mk.injEq] at h
    obtain ⟨a', b', h1, rfl, rfl⟩ := h
    exact fun i hi => drop_idents 1 ts i (angleBody_idents _ _ _ _ h1 i hi)
  · split at h
    · simp only [Option.map_eq_some_iff, Prod.exists, Prod.mk.injEq] at h
      obtain ⟨a', b', h1, rfl, rfl⟩ := h
      exact fun i hi => drop_idents 3 ts i (angleBody_idents _ _ _ _ h1 i hi)
    · simp at h; rw [← h.1]; simp [PathArgs.idents]

theorem simpleSegs_idents : ∀ n ts ss rest, simpleSegs n ts = some (ss, rest) →
    ∀ i ∈ ss.flatMap fun s => s.ident :: s.args.idents, i ∈ idents ts := by
  intro n
  induction n with
  | zero => intro ts ss rest h; simp [simpleSegs] at h
  | succ n ih =>
    intro ts ss rest h
    match ts, h with
    | .ident j :: ts, h =>
      simp only [simpleSegs] at h
      split at h
      · simp at h
      · rename_i a r ha
        have h1 := simpleArgs_idents ha
        obtain ⟨u, hu⟩ := simpleArgs_suffix ha
        split at h
        · simp only [Option.map_eq_some_iff, Prod.exists, Prod.mk.injEq] at h
          obtain ⟨a', b', h2, rfl, rfl⟩ := h
          have := ih _ _ _ h2
          intro i hi
          simp only [List.flatMap_cons, List.mem_append, List.mem_cons, idents, TT.idents,
            List.not_mem_nil, or_false] at hi ⊢
          rcases hi with (hi | hi) | hi
          · exact .inl hi
          · exact .inr (h1 i hi)
          · refine .inr ?_
            rw [hu, idents_append, List.mem_append]
            exact .inr (drop_idents 2 r i (this i hi))
        · simp at h
          rw [← h.1]
          intro i hi
          simp only [List.flatMap_cons, List.flatMap_nil, List.append_nil, List.mem_cons, idents,
            TT.idents, List.mem_append, List.not_mem_nil, or_false] at hi ⊢
          exact hi.imp id (h1 i)
    | [], h => simp [simpleSegs] at h
    | .punct _ _ :: _, h => simp [simpleSegs] at h
    | .lit _ :: _, h => simp [simpleSegs] at h
    | .group _ _ :: _, h => simp [simpleSegs] at h

theorem simplePaths_verbatim : simplePaths.Verbatim := by
  intro ts p rest h
  have h : simpleRun ts = (some p, rest) := h
  unfold simpleRun at h
  simp only at h
  split at h
  · rename_i ss r hs
    simp only [Prod.mk.injEq, Option.some.injEq] at h
    obtain ⟨rfl, rfl⟩ := h
    have := simpleSegs_idents _ _ _ _ hs
    simp only [Path.idents]
    split at this
    · exact fun i hi => drop_idents 2 ts i (this i hi)
    · exact this
  · simp at h

end Mview
