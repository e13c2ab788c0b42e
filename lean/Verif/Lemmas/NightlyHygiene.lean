import Verif.Lemmas.Hygiene
import Verif.Spec.Recovery
/-
Proofs for C53.
-/

set_option linter.unusedVariables false
set_option linter.unusedSimpArgs false

namespace Mview
open Lex

variable {U : Toks → Prop} {t r : Toks}

/-- what replaces a string that should be an identifier -/
def invalidName : Toks := [.ident (plain c!"__invalid_identifier_found_str")]

theorem anyway_hygienic {v : Value} (hu : U v.code) : Hygienic U false v.anyway := by
  unfold Value.anyway
  cases h : v.means with
  | none => exact .nil
  | some t => exact value_hygienic h hu

theorem optAnyway_hygienic {v : Option Value} (hu : ∀ x, v = some x → U x.code) :
    Hygienic U false (optAnyway v) := by
  cases v with
  | none => exact .nil
  | some v => exact anyway_hygienic (hu _ rfl)

theorem trueAnyway_hygienic {v : Option Value} (hu : ∀ x, v = some x → U x.code) :
    Hygienic U false (trueAnyway v) := by
  cases v with
  | none => simp only [trueAnyway]; hygienic
  | some v => exact anyway_hygienic (hu _ rfl)

theorem kvElementAnyway_hygienic {kind : TagKind} {a : KvAttr} {c : Call} (h : a.onElementAnyway kind = some c)
    (hu : U a.value.code) : Hygienic U false c.args := by
  obtain ⟨key, value⟩ := a
  have hz := anyway_hygienic hu
  simp only [KvAttr.onElementAnyway] at h
  by_cases h1 : key.repr = c!"ref"
  · simp [h1] at h; subst h; exact hz
  by_cases h2 : Unchecked kind key.repr
  · simp only [h1, h2, if_true, if_false, Option.some.injEq] at h; subst h; hygienic
  · simp only [h1, h2, if_false, Option.map_eq_some_iff] at h
    obtain ⟨n, _, rfl⟩ := h
    exact hz

theorem kvComponentAnyway_hygienic {a : KvAttr} {c : Call} (h : a.onComponentAnyway = some c)
    (hu : U a.value.code) : Hygienic U false c.args := by
  simp only [KvAttr.onComponentAnyway, Option.map_eq_some_iff] at h
  obtain ⟨n, _, rfl⟩ := h
  exact anyway_hygienic hu

theorem eventAnyway_hygienic {d : Directive} (h : d.eventAnyway = some t) : Hygienic U false t := by
  have key : ∀ i : Ident, (if d.modifier = some (plain c!"undelegated") then
        some q!"::leptos::tachys::html::event::undelegated(::leptos::tachys::html::event::#i)"
      else some q!"::leptos::tachys::html::event::#i") = some t → Hygienic U false t := by
    intro i h
    split at h <;> cases h <;> hygienic
  unfold Directive.eventAnyway at h
  cases hk : d.key with
  | kebab k =>
    simp only [hk, Option.bind_eq_bind, Option.bind_eq_some_iff] at h
    obtain ⟨n, _, h⟩ := h
    exact key n h
  | str x =>
    rw [hk] at h
    exact key _ h

theorem identAnyway_piece {d : Directive} {n : Ident} (h : d.key.identAnyway = some n)
    (hd : d.dir = plain c!"use" ∨ d.dir = plain c!"clone") (hi : U invalidName)
    (hu : ∀ x ∈ Attr.pieces (.directive d), U x) : U [.ident n] := by
  obtain ⟨dir, key, m, v⟩ := d
  simp only at h hd
  cases key with
  | kebab k =>
    apply hu
    have : KebabOrStr.asIdent (.kebab k) = some n := h
    simp only [Attr.pieces, Directive.names, hd, if_true, this, List.mem_append, List.mem_singleton, or_true]
  | str x => cases h; exact hi

theorem useArgsAnyway_hygienic {d : Directive} (h : d.useArgsAnyway = some t) (hd : d.dir = plain c!"use")
    (hi : U invalidName) (hu : ∀ x ∈ Attr.pieces (.directive d), U x) : Hygienic U false t := by
  have hp := @identAnyway_piece U d
  obtain ⟨dir, key, m, v⟩ := d
  simp only [Directive.useArgsAnyway, Option.bind_eq_bind, Option.bind_eq_some_iff] at h
  obtain ⟨n, hn, h⟩ := h
  have hf : Hygienic U false [.ident n] := .of (hp hn (.inl hd) hi hu)
  cases v with
  | none =>
    cases h
    refine Hygienic.append (t := [.ident n]) hf ?_
    hygienic
  | some v =>
    cases h
    have hv := anyway_hygienic (U := U) (hu v.code (by simp [Attr.pieces]))
    simp only [splice_ident]
    refine Hygienic.append (t := [.ident n]) hf ?_
    hygienic

theorem onElementAnyway_hygienic {d : Directive} {cs : List Call} (h : d.onElementAnyway = some cs)
    (hi : U invalidName) (hu : ∀ x ∈ Attr.pieces (.directive d), U x) :
    ∀ c ∈ cs, Hygienic U false c.args := by
  have hv := optAnyway_hygienic (directive_value hu)
  unfold Directive.onElementAnyway at h
  simp only at h
  split at h
  · cases h
    simp only [List.mem_singleton]; rintro c rfl
    hygienic
  split at h
  · cases h
    simp only [List.mem_singleton]; rintro c rfl
    hygienic
  split at h
  · simp only [Option.map_eq_some_iff] at h
    obtain ⟨ev, he, rfl⟩ := h
    have := eventAnyway_hygienic (U := U) he
    simp only [List.mem_singleton]; rintro c rfl
    hygienic
  split at h
  · rename_i hd
    simp only [Option.map_eq_some_iff] at h
    obtain ⟨a, ha, rfl⟩ := h
    simp only [List.mem_singleton]; rintro c rfl
    exact useArgsAnyway_hygienic ha hd hi hu
  · cases h; simp

theorem onComponentAnyway_hygienic {d : Directive} {es : List Toks} (h : d.onComponentAnyway = some es)
    (hi : U invalidName) (hu : ∀ x ∈ Attr.pieces (.directive d), U x) :
    ∀ t ∈ es, Hygienic U false t := by
  have hv := trueAnyway_hygienic (directive_value hu)
  have hv' := optAnyway_hygienic (directive_value hu)
  unfold Directive.onComponentAnyway at h
  simp only at h
  split at h
  · cases h
    simp only [List.mem_singleton]; rintro c rfl
    hygienic
  split at h
  · split at h
    · simp only [Option.map_eq_some_iff] at h
      obtain ⟨f, _, rfl⟩ := h
      simp only [List.mem_singleton]; rintro c rfl
      hygienic
    split at h
    · cases h
      simp only [List.mem_singleton]; rintro c rfl
      hygienic
    · simp only [Option.map_eq_some_iff] at h
      obtain ⟨f, _, rfl⟩ := h
      simp only [List.mem_singleton]; rintro c rfl
      hygienic
  split at h
  · simp only [Option.map_eq_some_iff] at h
    obtain ⟨f, _, rfl⟩ := h
    simp only [List.mem_singleton]; rintro c rfl
    hygienic
  split at h
  · simp only [Option.map_eq_some_iff] at h
    obtain ⟨ev, he, rfl⟩ := h
    have := eventAnyway_hygienic (U := U) he
    simp only [List.mem_singleton]; rintro c rfl
    hygienic
  split at h
  · rename_i hd
    simp only [Option.map_eq_some_iff] at h
    obtain ⟨a, ha, rfl⟩ := h
    have := useArgsAnyway_hygienic ha hd hi hu
    simp only [List.mem_singleton]; rintro c rfl
    hygienic
  · cases h; simp

theorem cloneAnyway_hygienic {d : Directive} (h : d.cloneAnyway = some t) (hd : d.dir = plain c!"clone")
    (hi : U invalidName) (hu : ∀ x ∈ Attr.pieces (.directive d), U x) : Hygienic U false t := by
  simp only [Directive.cloneAnyway, Option.map_eq_some_iff] at h
  obtain ⟨x, hx, rfl⟩ := h
  have hf : U [.ident x] := identAnyway_piece hx (.inr hd) hi hu
  simp only [splice_ident, List.cons_append, List.nil_append]
  refine .keyword (by simp [keywords]) ?_
  refine Hygienic.user (u := [.ident x]) hf ?_
  refine .punct ?_
  refine Hygienic.user (u := [.ident x]) hf ?_
  hygienic

theorem xmlAnyway_hygienic {tag : Tag} {sels : List Selector} {attrs : List Attr} {ns : List Toks}
    (h : xmlAnyway tag sels attrs ns = some t) (hi : U invalidName) (hn : ∀ n ∈ ns, Hygienic U false n)
    (hu : ∀ x ∈ attrs.flatMap Attr.pieces, U x) : Hygienic U false t := by
  have hu' : ∀ a ∈ attrs, ∀ x ∈ a.pieces, U x := fun a ha x hx => hu x (List.mem_flatMap.mpr ⟨a, ha, hx⟩)
  simp only [xmlAnyway, Option.bind_eq_bind, Option.bind_eq_some_iff, Option.pure_def, Option.some.injEq] at h
  obtain ⟨hd, hhd, as, has, ds, hds, rfl⟩ := h
  have h0 : Hygienic U false hd := by
    cases tag <;> cases hhd <;> hygienic
  simp only [splice_toks]
  refine Hygienic.append h0 (chain_hygienic ?_)
  intro c hc
  simp only [List.mem_append] at hc
  rcases hc with ((((hc | hc) | hc) | hc) | hc) | hc
  · refine mapM_all (P := fun c => Hygienic U false c.args) has ?_ c hc
    intro a ha b hb
    simp only [kvs, List.mem_filterMap] at ha
    obtain ⟨x, hx, hxa⟩ := ha
    cases x <;> simp at hxa
    subst hxa
    exact kvElementAnyway_hygienic hb (hu' _ hx _ (by simp [Attr.pieces]))
  · obtain ⟨l, hl, hc⟩ := List.mem_flatten.mp hc
    refine mapM_all (P := fun l => ∀ c ∈ l, Hygienic U false c.args) hds ?_ l hl c hc
    intro a ha b hb
    simp only [directives, List.mem_filterMap] at ha
    obtain ⟨x, hx, hxa⟩ := ha
    cases x <;> simp at hxa
    subst hxa
    exact onElementAnyway_hygienic hb hi (hu' _ hx)
  · obtain ⟨k, _, rfl⟩ := List.mem_map.mp hc
    have := coloured_hygienic (U := U) k
    simp only [classCall]
    hygienic
  · obtain ⟨k, _, rfl⟩ := List.mem_map.mp hc
    exact coloured_hygienic k
  · obtain ⟨k, hk, rfl⟩ := List.mem_map.mp hc
    simp only [spreads, List.mem_filterMap] at hk
    obtain ⟨x, hx, hxa⟩ := hk
    cases x <;> simp at hxa
    subst hxa
    exact .of (hu' _ hx _ (by simp [Attr.pieces, spreadCall]))
  · obtain ⟨k, hk, rfl⟩ := List.mem_map.mp hc
    exact hn k hk

theorem clonesAnyway_hygienic {attrs : List Attr} {cl : List Toks}
    (h : (clones attrs).mapM Directive.cloneAnyway = some cl) (hi : U invalidName) (hu : ∀ a ∈ attrs, ∀ x ∈ a.pieces, U x) :
    Hygienic U false cl.flatten := by
  have h1 := mapM_all (P := fun c => Hygienic U false c) h fun a ha b hb => by
    simp only [clones, directives, List.mem_filter, List.mem_filterMap] at ha
    obtain ⟨⟨x, hx, hxa⟩, hd⟩ := ha
    cases x <;> simp at hxa
    subst hxa
    exact cloneAnyway_hygienic hb (by simpa using hd) hi (hu _ hx)
  clear h
  induction cl with
  | nil => exact .nil
  | cons c cl ih => exact (h1 c (by simp)).append (ih fun b hb => h1 b (by simp [hb]))

theorem kvsComponentAnyway_hygienic {attrs : List Attr} {as : List Call}
    (has : (kvs attrs).mapM KvAttr.onComponentAnyway = some as) (hu : ∀ a ∈ attrs, ∀ x ∈ a.pieces, U x) :
    ∀ c ∈ as, Hygienic U false c.args := by
  refine mapM_all (P := fun c => Hygienic U false c.args) has ?_
  intro a ha b hb
  simp only [kvs, List.mem_filterMap] at ha
  obtain ⟨x, hx, hxa⟩ := ha
  cases x <;> simp at hxa
  subst hxa
  exact kvComponentAnyway_hygienic hb (hu _ hx _ (by simp [Attr.pieces]))

theorem componentAnyway_hygienic {p : Path} {sels : List Selector} {attrs : List Attr} {args : Option Toks}
    {ns : List Toks} {calls : List Call}
    (h : componentAnyway p sels attrs args ns calls = some t)
    (hi : U invalidName) (hn : ∀ n ∈ ns, Hygienic U false n) (hc : ∀ c ∈ calls, Hygienic U false c.args)
    (hp : ∀ x ∈ p.means.toList, U x) (hu : ∀ x ∈ attrs.flatMap Attr.pieces, U x)
    (ha : ∀ a ∈ args.toList, U a) : Hygienic U false t := by
  have hu' : ∀ a ∈ attrs, ∀ x ∈ a.pieces, U x := fun a ha x hx => hu x (List.mem_flatMap.mpr ⟨a, ha, hx⟩)
  simp only [componentAnyway, Option.bind_eq_bind, Option.bind_eq_some_iff, Option.pure_def,
    Option.some.injEq] at h
  obtain ⟨pt, hpt, as, has, es, hes, cl, hcl, rfl⟩ := h
  have h0 : Hygienic U false pt := .of (hp pt (by simp [hpt]))
  have h1 : Hygienic U false (chain (as ++ childrenCall args cl.flatten ns ++ calls ++
      [⟨plain c!"build", []⟩])) := by
    apply chain_hygienic
    intro c hc'
    simp only [List.mem_append, List.mem_singleton] at hc'
    rcases hc' with ((hc' | hc') | hc') | rfl
    · exact kvsComponentAnyway_hygienic has hu' c hc'
    · exact children_hygienic hn (clonesAnyway_hygienic hcl hi hu') ha c hc'
    · exact hc c hc'
    · exact .nil
  have h2 : Hygienic U false (commaAfter ((classes sels).map classEntry ++ idEntry (ids sels) ++ es.flatten)) := by
    apply commaAfter_hygienic
    intro c hc'
    simp only [List.mem_append] at hc'
    rcases hc' with (hc' | hc') | hc'
    · obtain ⟨k, _, rfl⟩ := List.mem_map.mp hc'
      simp only [classEntry]
      hygienic
    · unfold idEntry at hc'
      split at hc'
      · simp at hc'
      · simp only [List.mem_singleton] at hc'; subst hc'; hygienic
    · obtain ⟨l, hl, hc'⟩ := List.mem_flatten.mp hc'
      refine mapM_all (P := fun l => ∀ c ∈ l, Hygienic U false c) hes ?_ l hl c hc'
      intro a ha' b hb
      simp only [entries, List.mem_filter] at ha'
      cases a with
      | kv a => cases hb; simp
      | directive d => exact onComponentAnyway_hygienic hb hi (hu' _ ha'.1)
      | spread e => cases hb; simp only [List.mem_singleton]; rintro c rfl; exact .of (hu' _ ha'.1 _ (by simp [Attr.pieces]))
  generalize chain _ = x at *
  generalize commaAfter _ = y at *
  hygienic

theorem slotAnyway_hygienic {p : Path} {attrs : List Attr} {args : Option Toks}
    {ns : List Toks}
    (h : slotAnyway p attrs args ns = some t)
    (hi : U invalidName) (hn : ∀ n ∈ ns, Hygienic U false n)
    (hp : ∀ x ∈ p.means.toList, U x) (hu : ∀ x ∈ attrs.flatMap Attr.pieces, U x)
    (ha : ∀ a ∈ args.toList, U a) : Hygienic U false t := by
  have hu' : ∀ a ∈ attrs, ∀ x ∈ a.pieces, U x := fun a ha x hx => hu x (List.mem_flatMap.mpr ⟨a, ha, hx⟩)
  simp only [slotAnyway, Option.bind_eq_bind, Option.bind_eq_some_iff, Option.pure_def,
    Option.some.injEq] at h
  obtain ⟨pt, hpt, as, has, cl, hcl, rfl⟩ := h
  have h0 : U pt := hp pt (by simp [hpt])
  have h1 : Hygienic U false (chain (as ++ childrenCall args cl.flatten ns ++
      [⟨plain c!"build", []⟩])) := by
    apply chain_hygienic
    intro c hc'
    simp only [List.mem_append, List.mem_singleton] at hc'
    rcases hc' with (hc' | hc') | rfl
    · exact kvsComponentAnyway_hygienic has hu' c hc'
    · exact children_hygienic hn (clonesAnyway_hygienic hcl hi hu') ha c hc'
    · exact .nil
  generalize chain _ = x at *
  have h2 : ∀ r, Hygienic U false r → Hygienic U false
      (pt ++ (.punct ':' .joint :: .punct ':' .alone :: .ident (plain c!"builder") :: r)) :=
    fun r hr => .builder h0 hr
  simp only [splice_toks, List.append_assoc, List.cons_append, List.nil_append]
  refine .root (by simp) (.seg (.seg (.seg (.fin (.group (h2 _ ?_) .nil)))))
  hygienic

mutual
theorem elementAnyway_hygienic (hi : U invalidName) (asSlot : Bool) : ∀ (e : Element) (t : Toks),
    e.Becomes asSlot t → (∀ x ∈ e.pieces, U x) → Hygienic U false t
  | .mk tag sels attrs args none, t, h, hu => by
    simp only [Element.pieces, List.mem_append] at hu
    by_cases hp : ∃ p, tag = .component p
    · obtain ⟨p, rfl⟩ := hp
      cases asSlot with
      | false =>
        simp only [Element.Becomes] at h
        exact componentAnyway_hygienic h hi (by simp) (by simp) (fun x hx => hu x (.inl (.inl hx)))
          (fun x hx => hu x (.inl (.inr hx))) (fun x hx => hu x (.inr hx))
      | true =>
        simp only [Element.Becomes] at h
        exact slotAnyway_hygienic h hi (by simp) (fun x hx => hu x (.inl (.inl hx)))
          (fun x hx => hu x (.inl (.inr hx))) (fun x hx => hu x (.inr hx))
    · cases asSlot with
      | false =>
        have hx : xmlAnyway tag sels attrs [] = some t := by
          cases tag <;> first | exact absurd ⟨_, rfl⟩ hp | simpa only [Element.Becomes] using h
        exact xmlAnyway_hygienic hx hi (by simp) (fun x hx => hu x (.inl (.inr hx)))
      | true => cases tag <;> first | exact absurd ⟨_, rfl⟩ hp | (simp only [Element.Becomes] at h)
  | .mk tag sels attrs args (some cs), t, h, hu => by
    simp only [Element.pieces, List.mem_append] at hu
    by_cases hp : ∃ p, tag = .component p
    · obtain ⟨p, rfl⟩ := hp
      cases asSlot with
      | false =>
        simp only [Element.Becomes] at h
        obtain ⟨ns, ss, calls, hns, hss, hcalls, h⟩ := h
        exact componentAnyway_hygienic h hi (nodesAnyway_hygienic hi cs ns hns fun x hx => hu x (.inr hx))
          (slotCalls_hygienic hcalls (slotsAnyway_hygienic hi cs ss hss fun x hx => hu x (.inr hx)))
          (fun x hx => hu x (.inl (.inl (.inl hx))))
          (fun x hx => hu x (.inl (.inl (.inr hx)))) (fun x hx => hu x (.inl (.inr hx)))
      | true =>
        simp only [Element.Becomes] at h
        obtain ⟨ns, ss, calls, hns, hss, hcalls, h⟩ := h
        exact slotAnyway_hygienic h hi (nodesAnyway_hygienic hi cs ns hns fun x hx => hu x (.inr hx))
          (fun x hx => hu x (.inl (.inl (.inl hx))))
          (fun x hx => hu x (.inl (.inl (.inr hx)))) (fun x hx => hu x (.inl (.inr hx)))
    · cases asSlot with
      | false =>
        have hx : ∃ ns, NodesBecome cs ns ∧ xmlAnyway tag sels attrs ns = some t := by
          cases tag <;> first | exact absurd ⟨_, rfl⟩ hp | simpa only [Element.Becomes] using h
        obtain ⟨ns, hns, hx⟩ := hx
        exact xmlAnyway_hygienic hx hi (nodesAnyway_hygienic hi cs ns hns fun x hx => hu x (.inr hx))
          (fun x hx => hu x (.inl (.inl (.inr hx))))
      | true => cases tag <;> first | exact absurd ⟨_, rfl⟩ hp | (simp only [Element.Becomes] at h)

theorem nodesAnyway_hygienic (hi : U invalidName) : ∀ (cs : List Child) (ns : List Toks),
    NodesBecome cs ns → (∀ x ∈ childrenPieces cs, U x) → ∀ n ∈ ns, Hygienic U false n
  | [], ns, h, _ => by
    simp only [NodesBecome] at h
    subst h; simp
  | .value v :: cs, ns, h, hu => by
    simp only [NodesBecome] at h
    obtain ⟨ns, hns, rfl⟩ := h
    simp only [childrenPieces, List.mem_cons] at hu
    intro n hn
    rcases List.mem_cons.mp hn with rfl | hn
    · exact rendered_hygienic (anyway_hygienic (hu _ (.inl rfl)))
    · exact nodesAnyway_hygienic hi cs ns hns (fun x hx => hu x (.inr hx)) n hn
  | .elem e :: cs, ns, h, hu => by
    simp only [NodesBecome] at h
    obtain ⟨t, ns, ht, hns, rfl⟩ := h
    simp only [childrenPieces, List.mem_append] at hu
    intro n hn
    rcases List.mem_cons.mp hn with rfl | hn
    · exact rendered_hygienic (elementAnyway_hygienic hi false e t ht fun x hx => hu x (.inl hx))
    · exact nodesAnyway_hygienic hi cs ns hns (fun x hx => hu x (.inr hx)) n hn
  | .slot e :: cs, ns, h, hu => by
    simp only [NodesBecome] at h
    simp only [childrenPieces, List.mem_append] at hu
    exact nodesAnyway_hygienic hi cs ns h (fun x hx => hu x (.inr hx))

theorem slotsAnyway_hygienic (hi : U invalidName) : ∀ (cs : List Child) (ss : List (Ident × Toks)),
    SlotsBecome cs ss → (∀ x ∈ childrenPieces cs, U x) → ∀ p ∈ ss, Hygienic U false p.2
  | [], ss, h, _ => by
    simp only [SlotsBecome] at h
    subst h; simp
  | .value v :: cs, ss, h, hu => by
    simp only [SlotsBecome] at h
    simp only [childrenPieces, List.mem_cons] at hu
    exact slotsAnyway_hygienic hi cs ss h (fun x hx => hu x (.inr hx))
  | .elem e :: cs, ss, h, hu => by
    simp only [SlotsBecome] at h
    simp only [childrenPieces, List.mem_append] at hu
    exact slotsAnyway_hygienic hi cs ss h (fun x hx => hu x (.inr hx))
  | .slot e :: cs, ss, h, hu => by
    simp only [SlotsBecome] at h
    simp only [childrenPieces, List.mem_append] at hu
    split at h
    · obtain ⟨t, ss, ht, hss, rfl⟩ := h
      intro p hp
      rcases List.mem_cons.mp hp with rfl | hp
      · exact elementAnyway_hygienic hi true e t ht fun x hx => hu x (.inl hx)
      · exact slotsAnyway_hygienic hi cs ss hss (fun x hx => hu x (.inr hx)) p hp
    · exact slotsAnyway_hygienic hi cs ss h (fun x hx => hu x (.inr hx))
    · exact h.elim
end

theorem rootAnyway_hygienic {root : List Child} (h : RootBecomes root t) :
    Hygienic (fun u => u ∈ childrenPieces root ∨ u = invalidName) false t := by
  obtain ⟨_, ns, hns, h⟩ := h
  have hz := nodesAnyway_hygienic (U := fun u => u ∈ childrenPieces root ∨ u = invalidName) (.inr rfl) root ns hns
    fun x hx => .inl hx
  have hv := view_hygienic hz
  rcases ns with _ | ⟨x, _ | ⟨y, ns⟩⟩
  · subst h; hygienic
  · have := hz x (by simp)
    subst h; hygienic
  · subst h; hygienic

end Mview
