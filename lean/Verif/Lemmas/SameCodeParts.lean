import Verif.Lemmas.SameCodeEntry
import Verif.Lemmas.SameCodePath
/-
C63: elements, components and slots, given their children.
-/

set_option linter.unusedVariables false

namespace Mview
open Lex

/-! ### elements -/

/-- which part of an element a call is for -/
def callSort (c : Call) : Nat :=
  if c.name.raw = true ∨ c.name = plain c!"node_ref" ∨ c.name = plain c!"attr" then 0
  else if c.name = plain c!"id" then 3
  else if c.name = plain c!"add_any_attr" then 4
  else if c.name = plain c!"child" then 5
  else match c.args with
    | [.group .paren (.group .brace _ :: _)] => 2
    | _ => 1

theorem sort_attr (a : ViewAttr) : callSort a.code = 0 := by
  cases a <;> simp [callSort, ViewAttr.code, plain]

theorem sort_directive {d : ViewDirective} (h : d.ok) : callSort d.code = 1 := by
  cases d with
  | text dir key v => rcases h.1 with rfl | rfl | rfl <;> simp [callSort, ViewDirective.code, plain]
  | on n u v => cases u <;> simp [callSort, ViewDirective.code, plain, eventCode]
  | use n v => cases v <;> simp [callSort, ViewDirective.code, plain, useCode]

theorem sort_class (k : KebabIdent) : callSort (classCall k) = 2 := by
  simp [callSort, classCall, plain, KebabIdent.coloured]
theorem sort_id (k : KebabIdent) : callSort (idCall k) = 3 := by simp [callSort, idCall, plain]
theorem sort_spread (e : Toks) : callSort (spreadCall e) = 4 := by simp [callSort, spreadCall, plain]
theorem sort_child (t : Toks) : callSort (childCall t) = 5 := by simp [callSort, childCall, plain]

theorem colours_inj : ∀ {n m : Nat}, colours n = colours m → n = m
  | 0, 0, _ => rfl
  | 0, m + 1, h => by simp [colours] at h
  | n + 1, 0, h => by simp [colours] at h
  | n + 1, m + 1, h => by
    simp [colours] at h
    rw [colours_inj h]

theorem coloured_inj {j k : KebabIdent} (h : j.coloured = k.coloured) : j = k := by
  simp [KebabIdent.coloured] at h
  obtain ⟨h1, h2⟩ := h
  have := colours_inj h1
  cases j; cases k
  simp_all

theorem classCall_inj {j k : KebabIdent} (h : classCall j = classCall k) : j = k := by
  simp [classCall] at h
  exact coloured_inj h
theorem idCall_inj {j k : KebabIdent} (h : idCall j = idCall k) : j = k := by
  simp [idCall] at h
  exact coloured_inj h
theorem spreadCall_inj {a b : Toks} (h : spreadCall a = spreadCall b) : a = b := by simpa [spreadCall] using h
theorem childCall_inj {a b : Toks} (h : childCall a = childCall b) : a = b := by simpa [childCall] using h

theorem map_inj {α β : Type} {f : α → β} (hf : ∀ a b, f a = f b → a = b) {as bs : List α} (h : as.map f = bs.map f) :
    as = bs := map_inj_on (p := fun _ => True) (fun a b _ _ => hf a b) (by simp) (by simp) h

/-- the heads are told apart, and from what follows -/
theorem head_inj {tag tag' : Tag} {a b x y : Toks} (h : tag.head = some a) (h' : tag'.head = some b)
    (he : a ++ x = b ++ y) : tag.view = tag'.view ∧ tag.kind = tag'.kind ∧ x = y := by
  cases tag <;> cases tag' <;> simp only [Tag.head, Option.some.injEq, reduceCtorEq] at h h' <;>
    subst h <;> subst h' <;> simp at he <;> simp_all [Tag.view, Tag.kind]

theorem xml_inj {tag tag' : Tag} {sels sels' : List Selector} {attrs attrs' : List Attr} {nodes nodes' : List Toks}
    {t : Toks} (h : xmlMeans tag sels attrs nodes = some t) (h' : xmlMeans tag' sels' attrs' nodes' = some t) :
    (tag.view = tag'.view ∧ tag.kind = tag'.kind) ∧
    (kvs attrs).map (KvAttr.view tag.kind) = (kvs attrs').map (KvAttr.view tag'.kind) ∧
    (directives attrs).map Directive.view = (directives attrs').map Directive.view ∧
    classes sels = classes sels' ∧ ids sels = ids sels' ∧ spreads attrs = spreads attrs' ∧ nodes = nodes' := by
  simp only [xmlMeans, Option.bind_eq_bind, Option.bind_eq_some_iff, Option.pure_def, Option.some.injEq, splice_toks]
    at h h'
  obtain ⟨hd, hhd, as, has, ds, hds, h⟩ := h
  obtain ⟨hd', hhd', as', has', ds', hds', h'⟩ := h'
  rw [← h'] at h
  obtain ⟨h1, h2, h⟩ := head_inj hhd hhd' h
  obtain ⟨a1, rfl⟩ := mapM_view (v := KvAttr.view tag.kind) (fun a b => attr_view) has
  obtain ⟨a2, rfl⟩ := mapM_view (v := KvAttr.view tag'.kind) (fun a b => attr_view) has'
  obtain ⟨d1, rfl⟩ := mapM_view (fun a b => directive_view) hds
  obtain ⟨d2, rfl⟩ := mapM_view (fun a b => directive_view) hds'
  have h := chain_inj h
  simp only [List.append_assoc] at h
  have m : ∀ {α : Type} {f : α → Call} {n : Nat} {as : List α}, (∀ a ∈ as, callSort (f a) = n) →
      ∀ c ∈ as.map f, callSort c = n := by
    intro α f n as h c hc
    obtain ⟨a, ha, rfl⟩ := List.mem_map.mp hc
    exact h a ha
  have r : ∀ {n : Nat} {x y : List Call}, (∀ c ∈ x, n < callSort c) → (∀ c ∈ y, n < callSort c) →
      ∀ c ∈ x ++ y, n < callSort c := by
    intro n x y hx hy c hc
    rcases List.mem_append.mp hc with h | h
    · exact hx c h
    · exact hy c h
  have w : ∀ {n k : Nat} {x : List Call}, (∀ c ∈ x, callSort c = k) → n < k → ∀ c ∈ x, n < callSort c := by
    intro n k x hx hk c hc
    rw [hx c hc]; exact hk
  have sep : ∀ (n : Nat) {a a' b b' : List Call}, (∀ c ∈ a, callSort c = n) → (∀ c ∈ a', callSort c = n) →
      (∀ c ∈ b, n < callSort c) → (∀ c ∈ b', n < callSort c) → a ++ b = a' ++ b' → a = a' ∧ b = b' := by
    intro n a a' b b' ha ha' hb hb' h
    refine sorted_inj (p := fun c => callSort c == n) ?_ ?_ ?_ ?_ h
    · intro x hx; simpa using ha x hx
    · intro x hx; simpa using ha' x hx
    · intro x hx; have := hb x hx; simp; omega
    · intro x hx; have := hb' x hx; simp; omega
  have s1 := fun (ds : List ViewDirective) (h : ∀ d ∈ ds, d.ok) => m (f := ViewDirective.code) fun d hd => sort_directive (h d hd)
  have s2 := fun (ks : List KebabIdent) => m (f := classCall) (as := ks) fun k _ => sort_class k
  have s3 := fun (ks : List KebabIdent) => m (f := idCall) (as := ks) fun k _ => sort_id k
  have s4 := fun (ks : List Toks) => m (f := spreadCall) (as := ks) fun k _ => sort_spread k
  have s5 := fun (ks : List Toks) => m (f := childCall) (as := ks) fun k _ => sort_child k
  obtain ⟨e0, h⟩ := sep 0 (m fun a _ => sort_attr a) (m fun a _ => sort_attr a)
    (r (w (s1 _ d1) (by omega)) (r (w (s2 _) (by omega)) (r (w (s3 _) (by omega)) (r (w (s4 _) (by omega)) (w (s5 _) (by omega))))))
    (r (w (s1 _ d2) (by omega)) (r (w (s2 _) (by omega)) (r (w (s3 _) (by omega)) (r (w (s4 _) (by omega)) (w (s5 _) (by omega)))))) h
  obtain ⟨e1, h⟩ := sep 1 (s1 _ d1) (s1 _ d2)
    (r (w (s2 _) (by omega)) (r (w (s3 _) (by omega)) (r (w (s4 _) (by omega)) (w (s5 _) (by omega)))))
    (r (w (s2 _) (by omega)) (r (w (s3 _) (by omega)) (r (w (s4 _) (by omega)) (w (s5 _) (by omega))))) h
  obtain ⟨e2, h⟩ := sep 2 (s2 _) (s2 _)
    (r (w (s3 _) (by omega)) (r (w (s4 _) (by omega)) (w (s5 _) (by omega))))
    (r (w (s3 _) (by omega)) (r (w (s4 _) (by omega)) (w (s5 _) (by omega)))) h
  obtain ⟨e3, h⟩ := sep 3 (s3 _) (s3 _) (r (w (s4 _) (by omega)) (w (s5 _) (by omega)))
    (r (w (s4 _) (by omega)) (w (s5 _) (by omega))) h
  obtain ⟨e4, e5⟩ := sep 4 (s4 _) (s4 _) (w (s5 _) (by omega)) (w (s5 _) (by omega)) h
  exact ⟨⟨h1, h2⟩, map_inj_on (p := ViewAttr.ok) (fun _ _ => attr_inj) a1 a2 e0,
    map_inj_on (p := ViewDirective.ok) (fun _ _ => directive_inj) d1 d2 e1, map_inj (fun _ _ => classCall_inj) e2,
    map_inj (fun _ _ => idCall_inj) e3, map_inj (fun _ _ => spreadCall_inj) e4, map_inj (fun _ _ => childCall_inj) e5⟩

theorem head_view {tag tag' : Tag} (h : tag.view = tag'.view) : tag.head = tag'.head ∧ tag.kind = tag'.kind := by
  cases tag <;> cases tag' <;> simp [Tag.view] at h <;> simp_all [Tag.head, Tag.kind]

/-- conversely -/
theorem xml_same {tag tag' : Tag} {sels sels' : List Selector} {attrs attrs' : List Attr} {nodes nodes' : List Toks}
    {t t' : Toks} (h : xmlMeans tag sels attrs nodes = some t) (h' : xmlMeans tag' sels' attrs' nodes' = some t')
    (e0 : tag.view = tag'.view)
    (e1 : (kvs attrs).map (KvAttr.view tag.kind) = (kvs attrs').map (KvAttr.view tag'.kind))
    (e2 : (directives attrs).map Directive.view = (directives attrs').map Directive.view)
    (e3 : classes sels = classes sels') (e4 : ids sels = ids sels') (e5 : spreads attrs = spreads attrs') :
    xmlMeans tag' sels' attrs' nodes = some t := by
  simp only [xmlMeans, Option.bind_eq_bind, Option.bind_eq_some_iff, Option.pure_def, Option.some.injEq, splice_toks]
    at h h' ⊢
  obtain ⟨hd, hhd, as, has, ds, hds, h⟩ := h
  obtain ⟨hd', hhd', as', has', ds', hds', h'⟩ := h'
  obtain ⟨a1, rfl⟩ := mapM_view (v := KvAttr.view tag.kind) (fun a b => attr_view) has
  obtain ⟨a2, rfl⟩ := mapM_view (v := KvAttr.view tag'.kind) (fun a b => attr_view) has'
  obtain ⟨d1, rfl⟩ := mapM_view (fun a b => directive_view) hds
  obtain ⟨d2, rfl⟩ := mapM_view (fun a b => directive_view) hds'
  rw [(head_view e0).1, hhd'] at hhd
  cases hhd
  exact ⟨_, hhd', _, has', _, hds', by rw [← h, e1, e2, e3, e4, e5]⟩

/-! ### components -/

/-- the call of a property -/
def propCode (p : Str × Value) : Call := ⟨⟨true, p.1⟩, p.2.text⟩
/-- the value is accepted -/
def propOk (p : Str × Value) : Prop := p.2.means.isSome

theorem prop_view {a : KvAttr} {c : Call} (h : a.onComponent = some c) : propOk a.prop ∧ c = propCode a.prop := by
  simp only [KvAttr.onComponent, Option.bind_eq_bind, Option.bind_eq_some_iff, Option.pure_def] at h
  obtain ⟨i, hi, v, hv, h⟩ := h
  cases h
  simp [propOk, propCode, KvAttr.prop, hv, code_of hv, rawIdentOf_some hi]

theorem prop_inj {p q : Str × Value} (hp : propOk p) (hq : propOk q) (h : propCode p = propCode q) : p = q := by
  obtain ⟨n, v⟩ := p
  obtain ⟨m, w⟩ := q
  simp [propCode] at h
  obtain ⟨rfl, h⟩ := h
  exact congrArg (Prod.mk n) (code_inj hp hq h)

/-- the statement of a `clone:` -/
def cloneCode (name : Str) : Toks :=
  let x : Ident := ⟨true, name⟩
  q!"let #x = #x.clone();"

theorem clone_view {d : Directive} {t : Toks} (h : d.cloneStmt = some t) :
    True ∧ t = cloneCode (underscored d.key.text) := by
  unfold Directive.cloneStmt at h
  obtain ⟨-, h⟩ := bind_guard h
  simp only [Option.bind_eq_bind, Option.bind_eq_some_iff, Option.pure_def] at h
  obtain ⟨i, hi, h⟩ := h
  cases h
  rw [asIdent_some hi]
  exact ⟨trivial, rfl⟩

/-- not the start of a `clone:` statement -/
def noLet (x : Toks) : Prop := ∀ r, x ≠ .ident (plain c!"let") :: r

theorem clones_inj : ∀ {ns ms : List Str} {x y : Toks}, noLet x → noLet y →
    (ns.map cloneCode).flatten ++ x = (ms.map cloneCode).flatten ++ y → ns = ms ∧ x = y
  | [], [], _, _, _, _, h => ⟨rfl, h⟩
  | [], m :: ms, x, y, hx, _, h => by
    simp [cloneCode] at h
    exact absurd h (hx _)
  | n :: ns, [], x, y, _, hy, h => by
    simp [cloneCode] at h
    exact absurd h.symm (hy _)
  | n :: ns, m :: ms, x, y, hx, hy, h => by
    simp [cloneCode] at h
    obtain ⟨rfl, h⟩ := h
    obtain ⟨rfl, rfl⟩ := clones_inj hx hy (by simpa [cloneCode] using h)
    exact ⟨rfl, rfl⟩

theorem viewOf_length (xs ys : List Toks) : (viewOf xs).length = (viewOf ys).length := by simp [viewOf]

theorem viewOf_inj {xs ys : List Toks} (hx : ∀ t ∈ xs, Run.NoComma t) (hy : ∀ t ∈ ys, Run.NoComma t)
    (h : viewOf xs = viewOf ys) : xs = ys := by
  simp [viewOf] at h
  exact commaAfter_inj hx hy h

theorem childrenCall_inj {a b : Option Toks} {ns ms : List Str} {xs ys : List Toks}
    (hx : ∀ t ∈ xs, Run.NoComma t) (hy : ∀ t ∈ ys, Run.NoComma t)
    (h : childrenCall a (ns.map cloneCode).flatten xs = childrenCall b (ms.map cloneCode).flatten ys) :
    xs = ys ∧ (xs ≠ [] → ns = ms ∧ a = b) := by
  unfold childrenCall at h
  by_cases hxs : xs = []
  · by_cases hys : ys = []
    · exact ⟨by rw [hxs, hys], fun h => absurd hxs h⟩
    · simp only [hxs, if_true, if_neg hys] at h
      split at h <;> simp at h
  · by_cases hys : ys = []
    · simp only [hys, if_true, if_neg hxs] at h
      split at h <;> simp at h
    · simp only [if_neg hxs, if_neg hys] at h
      have h1 : ∀ (args view : Toks), noLet (TT.ident (plain c!"move") :: (args ++ view)) := by
        intro args view r hr; simp [plain] at hr
      have h2 : ∀ (x : Toks), noLet (TT.punct ':' .joint :: x) := by intro x r hr; simp at hr
      cases a with
      | none =>
        cases b with
        | none =>
          simp only [splice_toks, List.cons.injEq, Call.mk.injEq, TT.group.injEq, and_true, true_and] at h
          obtain ⟨h3, h4⟩ := clones_inj (h2 _) (h2 _) h
          simp at h4
          exact ⟨viewOf_inj hx hy h4, fun _ => ⟨h3, rfl⟩⟩
        | some b =>
          simp only [splice_toks, List.cons.injEq, Call.mk.injEq, TT.group.injEq, and_true, true_and] at h
          obtain ⟨h3, h4⟩ := clones_inj (h2 _) (h1 _ _) h
          simp at h4
      | some a =>
        cases b with
        | none =>
          simp only [splice_toks, List.cons.injEq, Call.mk.injEq, TT.group.injEq, and_true, true_and] at h
          obtain ⟨h3, h4⟩ := clones_inj (h1 _ _) (h2 _) h
          simp at h4
        | some b =>
          simp only [splice_toks, List.cons.injEq, Call.mk.injEq, TT.group.injEq, and_true, true_and] at h
          obtain ⟨h3, h4⟩ := clones_inj (h1 _ _) (h1 _ _) h
          have h5 : a ++ viewOf xs = b ++ viewOf ys := by simpa using h4
          obtain ⟨h6, h7⟩ := List.append_inj' h5 (viewOf_length _ _)
          exact ⟨viewOf_inj hx hy h7, fun _ => ⟨h3, by rw [h6]⟩⟩

/-- which part of a component a call is for -/
def partSort (c : Call) : Nat :=
  if c.name.raw = true then
    match c.args with
    | .punct _ _ :: _ => 2
    | _ => 0
  else 1

theorem partSort_prop {p : Str × Value} (h : propOk p) : partSort (propCode p) = 0 := by
  obtain ⟨t, ht⟩ := Option.isSome_iff_exists.mp h
  obtain ⟨x, r, rfl, hx⟩ := value_first ht
  simp only [partSort, propCode, code_of ht, if_true]
  split
  · rename_i h; cases h; exact absurd rfl (hx _ _)
  · rfl

theorem partSort_children {a : Option Toks} {cl : Toks} {ns : List Toks} :
    ∀ c ∈ childrenCall a cl ns, partSort c = 1 := by
  intro c hc
  unfold childrenCall at hc
  split at hc
  · simp at hc
  · split at hc <;> (rcases List.mem_singleton.mp hc with rfl; simp [partSort])

/-- what calls of slots look like -/
def SlotLike (calls : List Call) : Prop := ∀ c ∈ calls, partSort c = 2

theorem calls_inj {ps qs : List (Str × Value)} {a b : Option Toks} {ns ms : List Str} {xs ys : List Toks}
    {cs ds : List Call} (hp : ∀ p ∈ ps, propOk p) (hq : ∀ p ∈ qs, propOk p)
    (hx : ∀ t ∈ xs, Run.NoComma t) (hy : ∀ t ∈ ys, Run.NoComma t) (hc : SlotLike cs) (hd : SlotLike ds)
    (h : ps.map propCode ++ childrenCall a (ns.map cloneCode).flatten xs ++ cs =
      qs.map propCode ++ childrenCall b (ms.map cloneCode).flatten ys ++ ds) :
    ps = qs ∧ (xs = ys ∧ (xs ≠ [] → ns = ms ∧ a = b)) ∧ cs = ds := by
  have m : ∀ {ps : List (Str × Value)}, (∀ p ∈ ps, propOk p) → ∀ c ∈ ps.map propCode, partSort c = 0 := by
    intro ps h c hc
    obtain ⟨p, hp, rfl⟩ := List.mem_map.mp hc
    exact partSort_prop (h p hp)
  rw [List.append_assoc, List.append_assoc] at h
  have k : ∀ {a : Option Toks} {cl : Toks} {ns : List Toks} {cs : List Call}, SlotLike cs →
      ∀ c ∈ childrenCall a cl ns ++ cs, (partSort c == 0) = false := by
    intro a cl ns cs hs c hc
    rcases List.mem_append.mp hc with h | h
    · rw [partSort_children c h]; rfl
    · rw [hs c h]; rfl
  obtain ⟨h1, h⟩ := sorted_inj (p := fun c => partSort c == 0) (fun c hc => by rw [m hp c hc]; rfl)
    (fun c hc => by rw [m hq c hc]; rfl) (k hc) (k hd) h
  obtain ⟨h2, h3⟩ := sorted_inj (p := fun c => partSort c == 1) (fun c hc => by rw [partSort_children c hc]; rfl)
    (fun c hc => by rw [partSort_children c hc]; rfl) (fun c h => by rw [hc c h]; rfl) (fun c h => by rw [hd c h]; rfl) h
  exact ⟨map_inj_on (p := propOk) (fun _ _ => prop_inj) hp hq h1, childrenCall_inj hx hy h2, h3⟩

/-- the entries of a component, and that they are accepted -/
theorem entries_view {sels : List Selector} {attrs : List Attr} {es : List Toks}
    (h : (entries attrs).mapM Attr.entry = some es) : (∀ e ∈ viewEntries sels attrs, e.ok) ∧
    (classes sels).map classEntry ++ idEntry (ids sels) ++ es = (viewEntries sels attrs).map ViewEntry.code := by
  have hv : ∀ a t, Attr.entry a = some t → a.viewEntry.ok ∧ t = a.viewEntry.code := by
    intro a t h
    cases a with
    | kv a => simp [Attr.entry] at h
    | directive d => exact entry_view h
    | spread e => cases h; exact ⟨trivial, rfl⟩
  obtain ⟨h1, h2⟩ := mapM_view hv h
  subst h2
  constructor
  · intro e he
    simp only [viewEntries, List.mem_append, List.mem_map] at he
    rcases he with (⟨k, _, rfl⟩ | he) | ⟨a, ha, rfl⟩
    · exact ⟨.inl rfl, rfl⟩
    · split at he
      · simp at he
      · rcases List.mem_singleton.mp he with rfl
        rfl
    · exact h1 _ (List.mem_map_of_mem ha)
  · simp only [viewEntries, List.map_append, List.map_map]
    congr 1
    congr 1
    unfold idEntry
    split
    · rfl
    · simp [ViewEntry.code, Value.text, Value.means]

theorem entries_plain {sels : List Selector} {attrs : List Attr} (h : ∀ e ∈ spreads attrs, plainSpread e) :
    ∀ e ∈ viewEntries sels attrs, e.plain := by
  intro e he
  simp only [viewEntries, List.mem_append, List.mem_map] at he
  rcases he with (⟨k, _, rfl⟩ | he) | ⟨a, ha, rfl⟩
  · trivial
  · split at he
    · simp at he
    · rcases List.mem_singleton.mp he with rfl
      trivial
  · cases a with
    | kv a => simp [entries] at ha
    | directive d =>
      simp only [Attr.viewEntry, Directive.viewEntry]
      repeat' split
      all_goals trivial
    | spread e =>
      refine h e ?_
      unfold spreads
      exact List.mem_filterMap.mpr ⟨_, (List.mem_filter.mp ha).1, rfl⟩

theorem component_inj {p p' : Path} {sels sels' : List Selector} {attrs attrs' : List Attr} {args args' : Option Toks}
    {nodes nodes' : List Toks} {calls calls' : List Call} {t : Toks}
    (h : componentMeans p sels attrs args nodes calls = some t)
    (h' : componentMeans p' sels' attrs' args' nodes' calls' = some t)
    (hs : ∀ e ∈ spreads attrs, plainSpread e) (hs' : ∀ e ∈ spreads attrs', plainSpread e)
    (hn : ∀ t ∈ nodes, Run.NoComma t) (hn' : ∀ t ∈ nodes', Run.NoComma t) (hc : SlotLike calls) (hc' : SlotLike calls') :
    p.means = p'.means ∧ (kvs attrs).map KvAttr.prop = (kvs attrs').map KvAttr.prop ∧
    (nodes = nodes' ∧ (nodes ≠ [] → ((clones attrs).map fun d => underscored d.key.text) =
      ((clones attrs').map fun d => underscored d.key.text) ∧ args = args')) ∧ calls = calls' ∧
    viewEntries sels attrs = viewEntries sels' attrs' := by
  simp only [componentMeans, Option.bind_eq_bind, Option.bind_eq_some_iff, Option.pure_def, Option.some.injEq] at h h'
  obtain ⟨q, hq, as, has, es, hes, cl, hcl, h⟩ := h
  obtain ⟨q', hq', as', has', es', hes', cl', hcl', h'⟩ := h'
  obtain ⟨a1, rfl⟩ := mapM_view (fun a b => prop_view) has
  obtain ⟨a2, rfl⟩ := mapM_view (fun a b => prop_view) has'
  obtain ⟨-, rfl⟩ := mapM_view (ok := fun _ => True) (v := fun d : Directive => underscored d.key.text) (fun a b => clone_view) hcl
  obtain ⟨-, rfl⟩ := mapM_view (ok := fun _ => True) (v := fun d : Directive => underscored d.key.text) (fun a b => clone_view) hcl'
  obtain ⟨e1, e2⟩ := entries_view (sels := sels) hes
  obtain ⟨e3, e4⟩ := entries_view (sels := sels') hes'
  rw [e2] at h
  rw [e4] at h'
  rw [← h'] at h
  clear h'
  generalize hX : _ ++ [(⟨plain c!"build", []⟩ : Call)] = X at h
  generalize hY : _ ++ [(⟨plain c!"build", []⟩ : Call)] = Y at h
  have l1 := Run.chain_noComma X
  have l2 := Run.chain_noComma Y
  have key : ∀ (q : Toks) (X : List Call), Run.lastComma (.punct '&' .alone :: (q ++ .punct ',' .alone ::
      (let ch := chain X; q!"::leptos::component::component_props_builder(& #q) #ch"))) =
      some (.punct '&' .alone :: q, let ch := chain X; q!"::leptos::component::component_props_builder(& #q) #ch") := by
    intro q X
    refine Run.lastComma_of (x := .punct '&' .alone :: q) ?_
    intro s hs
    simp at hs
    exact Run.chain_noComma X s hs
  simp at h
  obtain ⟨g1, g2⟩ := h
  have k1 := key q X
  have k2 := key q' Y
  simp at k1 k2
  rw [g1, k2] at k1
  simp at k1
  obtain ⟨rfl, g3⟩ := k1
  have g4 := chain_inj g3
  rw [← hX, ← hY] at g4
  have g5 := (List.append_inj' g4 rfl).1
  obtain ⟨f1, f2, f3⟩ := calls_inj a2 a1 hn' hn hc' hc g5
  refine ⟨by rw [hq, hq'], f1.symm, ⟨f2.1.symm, fun hne => ?_⟩, f3.symm, ?_⟩
  · have := f2.2 (by rw [f2.1]; exact hne)
    exact ⟨this.1.symm, this.2.symm⟩
  · have p1 := entries_plain (sels := sels) hs
    have p2 := entries_plain (sels := sels') hs'
    have m : ∀ {es : List ViewEntry}, (∀ e ∈ es, e.plain) → ∀ t ∈ es.map ViewEntry.code, Run.NoComma t := by
      intro es h t ht
      obtain ⟨e, he, rfl⟩ := List.mem_map.mp ht
      exact entry_noComma (h e he)
    exact map_inj_on (p := fun e => e.ok ∧ e.plain) (fun a b ha hb => entry_inj ha.1 hb.1 ha.2 hb.2)
      (fun e he => ⟨e1 e he, p1 e he⟩) (fun e he => ⟨e3 e he, p2 e he⟩) (commaAfter_inj (m p1) (m p2) g2)

/-- the children's call depends on closure arguments and `clone:` only if there are children -/
theorem childrenCall_same {a b : Option Toks} {cl cl' : Toks} {xs : List Toks} (h : xs ≠ [] → cl = cl' ∧ a = b) :
    childrenCall a cl xs = childrenCall b cl' xs := by
  by_cases hx : xs = []
  · simp [childrenCall, hx]
  · obtain ⟨rfl, rfl⟩ := h hx
    rfl

theorem component_same {p p' : Path} {sels sels' : List Selector} {attrs attrs' : List Attr} {args args' : Option Toks}
    {nodes nodes' : List Toks} {calls calls' : List Call} {t t' : Toks}
    (h : componentMeans p sels attrs args nodes calls = some t)
    (h' : componentMeans p' sels' attrs' args' nodes' calls' = some t')
    (e1 : p.means = p'.means) (e2 : (kvs attrs).map KvAttr.prop = (kvs attrs').map KvAttr.prop)
    (e3 : nodes ≠ [] → ((clones attrs).map fun d => underscored d.key.text) =
      ((clones attrs').map fun d => underscored d.key.text) ∧ args = args')
    (e4 : viewEntries sels attrs = viewEntries sels' attrs') :
    componentMeans p' sels' attrs' args' nodes calls = some t := by
  simp only [componentMeans, Option.bind_eq_bind, Option.bind_eq_some_iff, Option.pure_def, Option.some.injEq] at h h' ⊢
  obtain ⟨q, hq, as, has, es, hes, cl, hcl, h⟩ := h
  obtain ⟨q', hq', as', has', es', hes', cl', hcl', h'⟩ := h'
  refine ⟨_, hq', _, has', _, hes', _, hcl', ?_⟩
  rw [← h, (entries_view hes).2, (entries_view hes').2, e4]
  obtain ⟨a1, rfl⟩ := mapM_view (fun a b => prop_view) has
  obtain ⟨a2, rfl⟩ := mapM_view (fun a b => prop_view) has'
  obtain ⟨-, rfl⟩ := mapM_view (ok := fun _ => True) (v := fun d : Directive => underscored d.key.text) (fun a b => clone_view) hcl
  obtain ⟨-, rfl⟩ := mapM_view (ok := fun _ => True) (v := fun d : Directive => underscored d.key.text) (fun a b => clone_view) hcl'
  rw [e1, hq'] at hq
  cases hq
  rw [e2, childrenCall_same (a := args) (b := args') (cl := _)
    (cl' := (((clones attrs').map fun d => underscored d.key.text).map cloneCode).flatten)
    (fun hne => ⟨by rw [(e3 hne).1], (e3 hne).2⟩)]

theorem component_path {p : Path} {sels : List Selector} {attrs : List Attr} {args : Option Toks} {nodes : List Toks}
    {calls : List Call} {t : Toks} (h : componentMeans p sels attrs args nodes calls = some t) : ∃ q, p.means = some q := by
  simp only [componentMeans, Option.bind_eq_bind, Option.bind_eq_some_iff] at h
  obtain ⟨q, hq, -⟩ := h
  exact ⟨q, hq⟩

/-! ### slots -/

/-- what follows a name in the code of a slot -/
theorem slot_tail {p : Path} {n : Ident} (hp : p = ⟨false, [⟨n, .none⟩]⟩) : p.means = some [.ident n] := by
  subst hp
  simp [Path.means, PathSeg.means, PathArgs.means, joinColons]

theorem slot_inj {n n' : Ident} {sels sels' : List Selector} {attrs attrs' : List Attr} {args args' : Option Toks}
    {nodes nodes' : List Toks} {t : Toks}
    (h : slotMeans ⟨false, [⟨n, .none⟩]⟩ sels attrs args nodes = some t)
    (h' : slotMeans ⟨false, [⟨n', .none⟩]⟩ sels' attrs' args' nodes' = some t)
    (hn : ∀ t ∈ nodes, Run.NoComma t) (hn' : ∀ t ∈ nodes', Run.NoComma t) :
    n = n' ∧ (kvs attrs).map KvAttr.prop = (kvs attrs').map KvAttr.prop ∧
    (nodes = nodes' ∧ (nodes ≠ [] → ((clones attrs).map fun d => underscored d.key.text) =
      ((clones attrs').map fun d => underscored d.key.text) ∧ args = args')) := by
  unfold slotMeans at h h'
  obtain ⟨-, h⟩ := bind_guard h
  obtain ⟨-, h'⟩ := bind_guard h'
  simp only [slot_tail rfl, Option.bind_eq_bind, Option.bind_eq_some_iff, Option.pure_def, Option.some.injEq] at h h'
  obtain ⟨q, rfl, as, has, cl, hcl, h⟩ := h
  obtain ⟨q', rfl, as', has', cl', hcl', h'⟩ := h'
  obtain ⟨a1, rfl⟩ := mapM_view (fun a b => prop_view) has
  obtain ⟨a2, rfl⟩ := mapM_view (fun a b => prop_view) has'
  obtain ⟨-, rfl⟩ := mapM_view (ok := fun _ => True) (v := fun d : Directive => underscored d.key.text) (fun a b => clone_view) hcl
  obtain ⟨-, rfl⟩ := mapM_view (ok := fun _ => True) (v := fun d : Directive => underscored d.key.text) (fun a b => clone_view) hcl'
  rw [← h'] at h
  generalize hX : _ ++ [(⟨plain c!"build", []⟩ : Call)] = X at h
  generalize hY : _ ++ [(⟨plain c!"build", []⟩ : Call)] = Y at h
  simp at h
  obtain ⟨rfl, h⟩ := h
  have h := chain_inj h
  rw [← hX, ← hY] at h
  have h := (List.append_inj' h rfl).1
  obtain ⟨f1, f2, -⟩ := calls_inj (cs := []) (ds := []) a1 a2 hn hn' (by simp [SlotLike]) (by simp [SlotLike])
    (by rw [List.append_nil, List.append_nil]; exact h)
  exact ⟨rfl, f1, f2⟩

theorem slot_same {p p' : Path} {sels sels' : List Selector} {attrs attrs' : List Attr} {args args' : Option Toks}
    {nodes nodes' : List Toks} {t t' : Toks}
    (h : slotMeans p sels attrs args nodes = some t) (h' : slotMeans p' sels' attrs' args' nodes' = some t')
    (e1 : p.means = p'.means) (e2 : (kvs attrs).map KvAttr.prop = (kvs attrs').map KvAttr.prop)
    (e3 : nodes ≠ [] → ((clones attrs).map fun d => underscored d.key.text) =
      ((clones attrs').map fun d => underscored d.key.text) ∧ args = args') :
    slotMeans p' sels' attrs' args' nodes = some t := by
  unfold slotMeans at h h' ⊢
  obtain ⟨-, h⟩ := bind_guard h
  obtain ⟨g, h'⟩ := bind_guard h'
  rw [show (guard (sels' = [] ∧ entries attrs' = []) : Option Unit) = some () by simp [guard, g]]
  simp only [Option.bind_eq_bind, Option.bind_eq_some_iff, Option.pure_def, Option.some.injEq] at h h' ⊢
  obtain ⟨q, hq, as, has, cl, hcl, h⟩ := h
  obtain ⟨q', hq', as', has', cl', hcl', h'⟩ := h'
  refine ⟨(), trivial, _, hq', _, has', _, hcl', ?_⟩
  rw [← h]
  obtain ⟨a1, rfl⟩ := mapM_view (fun a b => prop_view) has
  obtain ⟨a2, rfl⟩ := mapM_view (fun a b => prop_view) has'
  obtain ⟨-, rfl⟩ := mapM_view (ok := fun _ => True) (v := fun d : Directive => underscored d.key.text) (fun a b => clone_view) hcl
  obtain ⟨-, rfl⟩ := mapM_view (ok := fun _ => True) (v := fun d : Directive => underscored d.key.text) (fun a b => clone_view) hcl'
  rw [e1, hq'] at hq
  cases hq
  rw [e2, childrenCall_same (a := args) (b := args') (cl := _)
    (cl' := (((clones attrs').map fun d => underscored d.key.text).map cloneCode).flatten)
    (fun hne => ⟨by rw [(e3 hne).1], (e3 hne).2⟩)]

end Mview
