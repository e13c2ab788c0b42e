import Verif.Lemmas.Places
/-
Every value that takes part in the output can be found there.
-/

namespace Mview
open Lex

theorem mem_kvs {attrs : List Attr} {a : KvAttr} : a ∈ kvs attrs ↔ .kv a ∈ attrs := by
  unfold kvs
  rw [List.mem_filterMap]
  constructor
  · rintro ⟨x, hx, h⟩
    cases x <;> simp at h
    subst h; exact hx
  · intro h; exact ⟨_, h, rfl⟩

theorem mem_directives {attrs : List Attr} {d : Directive} :
    d ∈ directives attrs ↔ .directive d ∈ attrs := by
  unfold directives
  rw [List.mem_filterMap]
  constructor
  · rintro ⟨x, hx, h⟩
    cases x <;> simp at h
    subst h; exact hx
  · intro h; exact ⟨_, h, rfl⟩

theorem mem_spreads {attrs : List Attr} {e : Toks} : e ∈ spreads attrs ↔ .spread e ∈ attrs := by
  unfold spreads
  rw [List.mem_filterMap]
  constructor
  · rintro ⟨x, hx, h⟩
    cases x <;> simp at h
    subst h; exact hx
  · intro h; exact ⟨_, h, rfl⟩

theorem mem_clones {attrs : List Attr} {d : Directive} :
    d ∈ clones attrs ↔ .directive d ∈ attrs ∧ d.dir = plain c!"clone" := by
  simp [clones, mem_directives]

theorem mem_entries_directive {attrs : List Attr} {d : Directive} :
    .directive d ∈ entries attrs ↔ .directive d ∈ attrs ∧ d.dir ≠ plain c!"clone" := by
  simp [entries]

theorem mem_entries_spread {attrs : List Attr} {e : Toks} :
    .spread e ∈ entries attrs ↔ .spread e ∈ attrs := by
  simp [entries]

theorem kv_not_mem_entries {attrs : List Attr} {a : KvAttr} : .kv a ∉ entries attrs := by
  simp [entries]

/-- the call of an attribute of an element contains its value -/
theorem onElement_occurs {kind : TagKind} {a : KvAttr} {c : Call}
    (h : a.onElement kind = some c) : ∃ t, a.value.means = some t ∧ Occurs t c.args := by
  unfold KvAttr.onElement at h
  simp only [Option.bind_eq_bind, Option.bind_eq_some_iff] at h
  obtain ⟨t, ht, h⟩ := h
  refine ⟨t, ht, ?_⟩
  split at h
  · simp at h; subst h; exact Occurs.refl t
  · split at h
    · simp at h; subst h
      exact Occurs.inside [_, _, _, _, _, _, _, _, _, _, _, _, _, _] _ [] (Occurs.refl t)
    · simp only [Option.bind_eq_some_iff, Option.pure_def, Option.some.injEq] at h
      obtain ⟨i, _, rfl⟩ := h
      exact Occurs.refl t

theorem onComponent_occurs {a : KvAttr} {c : Call}
    (h : a.onComponent = some c) : ∃ t, a.value.means = some t ∧ Occurs t c.args := by
  unfold KvAttr.onComponent at h
  simp only [Option.bind_eq_bind, Option.bind_eq_some_iff, Option.pure_def,
    Option.some.injEq] at h
  obtain ⟨i, _, t, ht, rfl⟩ := h
  exact ⟨t, ht, Occurs.refl t⟩

/-- the value of a directive, if it has one, is in the code -/
def ValueIn (d : Directive) (x : Toks) : Prop :=
  ∀ v, d.value = some v → ∃ t, v.means = some t ∧ Occurs t x

theorem optMeans_in {d : Directive} {t x : Toks} (h : optMeans d.value = some t)
    (ho : Occurs t x) : ValueIn d x := by
  intro v hv
  rw [hv] at h
  exact ⟨t, h, ho⟩

theorem trueMeans_in {d : Directive} {t x : Toks} (h : trueMeans d.value = some t)
    (ho : Occurs t x) : ValueIn d x := by
  intro v hv
  rw [hv] at h
  exact ⟨t, h, ho⟩

theorem useArgs_in {d : Directive} {x : Toks} (h : d.useArgs = some x) : ValueIn d x := by
  intro v hv
  unfold Directive.useArgs at h
  obtain ⟨_, h⟩ := bind_guard h
  simp only [Option.bind_eq_bind, Option.bind_eq_some_iff, hv, Option.pure_def,
    Option.some.injEq] at h
  obtain ⟨f, _, t, ht, rfl⟩ := h
  exact ⟨t, ht, Occurs.append_right _ (Occurs.inside [_, _, _, _, _, _, _, _, _, _, _, _, _] _ []
    (Occurs.refl t))⟩

theorem ValueIn.mono {d : Directive} {x y : Toks} (h : ValueIn d x) (ho : Occurs x y) :
    ValueIn d y := by
  intro v hv
  obtain ⟨t, h1, h2⟩ := h v hv
  exact ⟨t, h1, h2.trans ho⟩

theorem directive_onElement_in {d : Directive} {c : Call} (h : d.onElement = some c) :
    ValueIn d c.args := by
  unfold Directive.onElement at h
  simp only at h
  split at h
  · obtain ⟨_, h⟩ := bind_guard h
    simp only [Option.bind_eq_bind, Option.bind_eq_some_iff, Option.pure_def,
      Option.some.injEq] at h
    obtain ⟨t, ht, rfl⟩ := h
    exact optMeans_in ht (Occurs.inside [] _ [] (((Occurs.refl t).cons _).cons _))
  · split at h
    · obtain ⟨_, h⟩ := bind_guard h
      simp only [Option.bind_eq_bind, Option.bind_eq_some_iff, Option.pure_def,
        Option.some.injEq] at h
      obtain ⟨t, ht, rfl⟩ := h
      exact optMeans_in ht (((Occurs.refl t).cons _).cons _)
    · split at h
      · simp only [Option.bind_eq_bind, Option.bind_eq_some_iff, Option.pure_def,
          Option.some.injEq] at h
        obtain ⟨ev, _, t, ht, rfl⟩ := h
        exact optMeans_in ht (Occurs.append_right _ (Occurs.append_right [_] (Occurs.refl t)))
      · split at h
        · simp only [Option.bind_eq_bind, Option.bind_eq_some_iff, Option.pure_def,
            Option.some.injEq] at h
          obtain ⟨x, hx, rfl⟩ := h
          exact useArgs_in hx
        · simp at h

theorem directive_onComponent_in {d : Directive} {x : Toks} (h : d.onComponent = some x) :
    ValueIn d x := by
  unfold Directive.onComponent at h
  simp only at h
  split at h
  · simp only [Option.bind_eq_bind, Option.bind_eq_some_iff, Option.pure_def,
      Option.some.injEq] at h
    obtain ⟨t, ht, rfl⟩ := h
    refine trueMeans_in ht (Occurs.append_right _ (Occurs.append_right _ (Occurs.append_right _
      (Occurs.append_right _ ?_))))
    exact Occurs.inside [] _ [] (Occurs.inside [] _ [] (((Occurs.refl t).cons _).cons _))
  · split at h
    · split at h
      · simp only [Option.bind_eq_bind, Option.bind_eq_some_iff, Option.pure_def,
          Option.some.injEq] at h
        obtain ⟨f, _, t, ht, rfl⟩ := h
        refine trueMeans_in ht (Occurs.append_right _ (Occurs.append_right _ (Occurs.append_right _
          (Occurs.append_right _ ?_))))
        exact Occurs.inside [] _ [] (Occurs.refl t)
      · split at h
        · simp only [Option.bind_eq_bind, Option.bind_eq_some_iff, Option.pure_def,
            Option.some.injEq] at h
          obtain ⟨t, ht, rfl⟩ := h
          refine trueMeans_in ht ?_
          exact Occurs.inside [_, _, _, _, _, _, _, _, _, _, _, _, _, _, _, _, _, _] _ []
            (((Occurs.refl t).cons _).cons _)
        · simp only [Option.bind_eq_bind, Option.bind_eq_some_iff, Option.pure_def,
            Option.some.injEq] at h
          obtain ⟨f, _, t, ht, rfl⟩ := h
          refine trueMeans_in ht (Occurs.append_right _ (Occurs.append_right _ ?_))
          exact Occurs.inside [] _ [] (Occurs.refl t)
    · split at h
      · simp only [Option.bind_eq_bind, Option.bind_eq_some_iff, Option.pure_def,
          Option.some.injEq] at h
        obtain ⟨f, _, t, ht, rfl⟩ := h
        refine trueMeans_in ht (Occurs.append_right _ (Occurs.append_right _ ?_))
        exact Occurs.inside [] _ [] (Occurs.refl t)
      · split at h
        · simp only [Option.bind_eq_bind, Option.bind_eq_some_iff, Option.pure_def,
            Option.some.injEq] at h
          obtain ⟨ev, _, t, ht, rfl⟩ := h
          refine optMeans_in ht ?_
          exact Occurs.inside [_, _, _, _, _, _, _, _, _, _, _, _, _, _, _] _ []
            (Occurs.append_right _ (Occurs.append_right [_] (Occurs.refl t)))
        · split at h
          · simp only [Option.bind_eq_bind, Option.bind_eq_some_iff, Option.pure_def,
              Option.some.injEq] at h
            obtain ⟨a, ha, rfl⟩ := h
            refine (useArgs_in ha).mono ?_
            exact Occurs.inside [_, _, _, _, _, _, _, _, _, _, _, _, _, _, _] _ [] (Occurs.refl a)
          · simp at h

/-- The calls of attributes and directives of an element occur in its code. -/
theorem calls_occur_xml {tag : Tag} {sels : List Selector} {attrs : List Attr} {nodes : List Toks}
    {t : Toks} (h : xmlMeans tag sels attrs nodes = some t) :
    (∀ a, .kv a ∈ attrs → ∃ c, a.onElement tag.kind = some c ∧ Occurs (chain [c]) t) ∧
    (∀ d, .directive d ∈ attrs → ∃ c, d.onElement = some c ∧ Occurs (chain [c]) t) ∧
    (∀ e, .spread e ∈ attrs → Occurs (chain [spreadCall e]) t) ∧
    (∀ k, .cls k ∈ sels → Occurs (chain [classCall k]) t) ∧
    (∀ k, .id k ∈ sels → Occurs (chain [idCall k]) t) := by
  obtain ⟨head, as, ds, _, h2, h3, rfl⟩ := xmlMeans_some.mp h
  refine ⟨?_, ?_, ?_, ?_, ?_⟩
  · intro a ha
    obtain ⟨c, hc, he⟩ := mapM_some_mem h2 (mem_kvs.mpr ha)
    exact ⟨c, he, Occurs.append_right _ (occurs_chain (by simp [hc]))⟩
  · intro d hd
    obtain ⟨c, hc, he⟩ := mapM_some_mem h3 (mem_directives.mpr hd)
    exact ⟨c, he, Occurs.append_right _ (occurs_chain (by simp [hc]))⟩
  · intro e he
    refine Occurs.append_right _ (occurs_chain ?_)
    simp only [List.mem_append, List.mem_map]
    exact Or.inl (Or.inr ⟨e, mem_spreads.mpr he, rfl⟩)
  · intro k hk
    refine Occurs.append_right _ (occurs_chain ?_)
    simp only [List.mem_append, List.mem_map]
    exact Or.inl (Or.inl (Or.inl (Or.inr ⟨k, List.mem_filterMap.mpr ⟨_, hk, rfl⟩, rfl⟩)))
  · intro k hk
    refine Occurs.append_right _ (occurs_chain ?_)
    simp only [List.mem_append, List.mem_map]
    exact Or.inl (Or.inl (Or.inr ⟨k, List.mem_filterMap.mpr ⟨_, hk, rfl⟩, rfl⟩))

/-- The entries of a component occur in its code. -/
theorem entries_occur_component {path : Path} {sels : List Selector} {attrs : List Attr}
    {args : Option Toks} {nodes : List Toks} {calls : List Call} {t : Toks}
    (h : componentMeans path sels attrs args nodes calls = some t) :
    ∃ es, (entries attrs).mapM Attr.entry = some es ∧
      ∃ en, en = commaAfter ((classes sels).map classEntry ++ idEntry (ids sels) ++ es) ∧
      Occurs q!".add_any_attr((#en))" t := by
  obtain ⟨p, as, es, cl, _, _, h3, _, cs, rfl, en, rfl, rfl⟩ := componentMeans_some.mp h
  refine ⟨es, h3, _, rfl, ?_⟩
  simp only [splice_toks]
  refine Occurs.inside [_, _, _, _, _, _, _, _, _, _, _, _, _, _] _ [] ?_
  exact Occurs.append_right [_, _, _, _, _, _, _, _, _, _] (Occurs.refl _)

/-- the values written directly in an element -/
inductive Direct : Element → Value → Prop where
  | child {tag : Tag} {sels : List Selector} {attrs : List Attr} {args : Option Toks}
      {cs : List Child} {v : Value} :
    .value v ∈ cs → Direct (.mk tag sels attrs args (some cs)) v
  | attr {tag : Tag} {sels : List Selector} {attrs : List Attr} {args : Option Toks}
      {cs : Option (List Child)} {a : KvAttr} :
    .kv a ∈ attrs → Direct (.mk tag sels attrs args cs) a.value
  | directive {tag : Tag} {sels : List Selector} {attrs : List Attr} {args : Option Toks}
      {cs : Option (List Child)} {d : Directive} {v : Value} :
    .directive d ∈ attrs → d.value = some v → Direct (.mk tag sels attrs args cs) v

theorem clone_no_value {attrs : List Attr} {d : Directive} {v : Value} (hd : .directive d ∈ attrs)
    (hv : d.value = some v) {cl : List Toks}
    (hcl : (clones attrs).mapM Directive.cloneStmt = some cl) : d.dir ≠ plain c!"clone" := by
  intro hdir
  obtain ⟨x, _, hx⟩ := mapM_some_mem hcl (mem_clones.mpr ⟨hd, hdir⟩)
  unfold Directive.cloneStmt at hx
  have := (bind_guard hx).1.2
  rw [hv] at this
  simp at this

/-- the values written in an element are in its code -/
theorem direct_means {b : Bool} {e : Element} {t' : Toks} (ht' : e.Means b t') {v : Value}
    (h : Direct e v) : ∃ t, v.means = some t ∧ Occurs t t' := by
  cases h with
  | child hv =>
    obtain ⟨nodes, hn, ho⟩ := means_nodes ht'
    obtain ⟨t, ht, x, hx, rfl⟩ := nodesMean_mem hn hv rfl
    exact ⟨x, hx, (occurs_rendered x).trans (ho _ ht)⟩
  | @attr tag sels attrs args cs a ha =>
    cases b with
    | true =>
      obtain ⟨p, rfl, nodes, _, _, _, _, _, hm⟩ := means_some_slot ht'
      obtain ⟨as, cl, h1, _, ho⟩ := chain_occurs_slot hm
      obtain ⟨c, hc, he⟩ := mapM_some_mem h1 (mem_kvs.mpr ha)
      obtain ⟨t, ht, hot⟩ := onComponent_occurs he
      exact ⟨t, ht, ((hot.trans (occurs_call_args c)).trans
        ((occurs_chain (by simp [hc])).trans ho))⟩
    | false =>
      by_cases hk : ∀ p, tag ≠ .component p
      · obtain ⟨nodes, _, hm⟩ := means_some_xml hk ht'
        obtain ⟨c, he, hc⟩ := (calls_occur_xml hm).1 a ha
        obtain ⟨t, ht, hot⟩ := onElement_occurs he
        exact ⟨t, ht, ((hot.trans (occurs_call_args c)).trans hc)⟩
      · simp only [not_forall, not_not] at hk
        obtain ⟨p, rfl⟩ := hk
        obtain ⟨nodes, _, _, _, _, _, hm⟩ := means_some_component ht'
        obtain ⟨as, cl, h1, _, ho⟩ := call_occurs_component hm
        obtain ⟨c, hc, he⟩ := mapM_some_mem h1 (mem_kvs.mpr ha)
        obtain ⟨t, ht, hot⟩ := onComponent_occurs he
        exact ⟨t, ht, ((hot.trans (occurs_call_args c)).trans
          ((occurs_chain (by simp [hc])).trans ho))⟩
  | @directive tag sels attrs args cs d v hd hv =>
    cases b with
    | true =>
      obtain ⟨p, rfl, nodes, _, _, _, _, _, hm⟩ := means_some_slot ht'
      obtain ⟨_, he, _, as, cl, _, _, h4, _⟩ := slotMeans_some.mp hm
      have := mem_entries_directive.mpr ⟨hd, clone_no_value hd hv h4⟩
      rw [he] at this; simp at this
    | false =>
      by_cases hk : ∀ p, tag ≠ .component p
      · obtain ⟨nodes, _, hm⟩ := means_some_xml hk ht'
        obtain ⟨c, he, hc⟩ := (calls_occur_xml hm).2.1 d hd
        obtain ⟨t, ht, hot⟩ := directive_onElement_in he v hv
        exact ⟨t, ht, ((hot.trans (occurs_call_args c)).trans hc)⟩
      · simp only [not_forall, not_not] at hk
        obtain ⟨p, rfl⟩ := hk
        obtain ⟨nodes, _, _, _, _, _, hm⟩ := means_some_component ht'
        obtain ⟨_, _, _, cl, _, _, _, h4, _⟩ := componentMeans_some.mp hm
        have hdir := clone_no_value hd hv h4
        obtain ⟨es, h1, en, rfl, ho⟩ := entries_occur_component hm
        obtain ⟨x, hx, he⟩ := mapM_some_mem h1 (mem_entries_directive.mpr ⟨hd, hdir⟩)
        obtain ⟨t, ht, hot⟩ := directive_onComponent_in he v hv
        refine ⟨t, ht, Occurs.trans (hot.trans ?_) ho⟩
        have : Occurs x (commaAfter ((classes sels).map classEntry ++ idEntry (ids sels) ++ es)) :=
          occurs_commaAfter (by simp [hx])
        exact Occurs.inside [_, _] _ [] (Occurs.inside [] _ [] this)

theorem Used.cases' {root : List Child} {R : Bool → Element → Prop} {v : Value}
    (h : Used root R v) : .value v ∈ root ∨ ∃ b e, R b e ∧ Direct e v := by
  cases h with
  | root hv => exact Or.inl hv
  | child hr hv => exact Or.inr ⟨_, _, hr, .child hv⟩
  | @attr b e a hr ha => obtain ⟨_, _, _, _, _⟩ := e; exact Or.inr ⟨_, _, hr, .attr ha⟩
  | @directive b e d v hr hd hv =>
    obtain ⟨_, _, _, _, _⟩ := e; exact Or.inr ⟨_, _, hr, .directive hd hv⟩

/-- Every value that takes part in the output is there. -/
theorem used_means {root : List Child} {out : Toks} (h : RootMeans root out)
    {v : Value} (hp : Used root (Placed root) v) : ∃ t, v.means = some t ∧ Occurs t out := by
  rcases hp.cases' with hv | ⟨b, e, hp, hd⟩
  · obtain ⟨nodes, hn, ho⟩ := rootMeans_nodes h
    obtain ⟨t, ht, x, hx, rfl⟩ := nodesMean_mem hn hv rfl
    exact ⟨x, hx, (occurs_rendered x).trans (ho _ ht)⟩
  · obtain ⟨t', ht', ho'⟩ := placed_means h hp
    obtain ⟨t, ht, ho⟩ := direct_means ht' hd
    exact ⟨t, ht, ho.trans ho'⟩

/-- Every value the macro looks at has a meaning. -/
theorem reached_value_means {root : List Child} {out : Toks} (h : RootMeans root out)
    {v : Value} (hp : Used root (Reached root) v) : ∃ t, v.means = some t := by
  rcases hp.cases' with hv | ⟨b, e, hp, hd⟩
  · obtain ⟨t, ht, _⟩ := used_means h (.root hv)
    exact ⟨t, ht⟩
  · obtain ⟨t', ht'⟩ := reached_means h hp
    obtain ⟨t, ht, _⟩ := direct_means ht' hd
    exact ⟨t, ht⟩

end Mview
