import Verif.Spec.Template
import Verif.Lemmas.SameEquiv
/-
Running code does not look at values.
-/

namespace Mview.Run

variable {V W : Type}

/-- The values of `R'` are those of `R`, seen through `f`. -/
structure Through (f : V → W) (R : Rust V) (R' : Rust W) : Prop where
  lit : ∀ l, R'.lit l = f (R.lit l)
  bool : ∀ b, R'.bool b = f (R.bool b)
  block : ∀ c, R'.block c = f (R.block c)
  lazy : ∀ c, R'.lazy c = f (R.lazy c)
  format : ∀ c, R'.format c = f (R.format c)

variable {f : V → W} {R : Rust V} {R' : Rust W}

theorem domsMap_eq (ds : List (Dom V)) : domsMap f ds = ds.map (Dom.map f) := by
  induction ds with
  | nil => rfl
  | cons d ds ih => rw [domsMap, ih, List.map_cons]

theorem partsMap_eq (ps : List (Part V)) : partsMap f ps = ps.map (Part.map f) := by
  induction ps with
  | nil => rfl
  | cons d ds ih => rw [partsMap, ih, List.map_cons]

theorem mapM_through {α β γ : Type} {g : α → Option β} {g' : α → Option γ} {k : β → γ} (h : ∀ a, g' a = (g a).map k) :
    ∀ l : List α, l.mapM g' = (l.mapM g).map (List.map k)
  | [] => by simp
  | a :: l => by
    rw [List.mapM_cons, List.mapM_cons, h a, mapM_through h l]
    cases g a <;> simp
    cases l.mapM g <;> simp

theorem val_through (h : Through f R R') (ts : Toks) : val R' ts = (val R ts).map f := by
  unfold val
  repeat' split
  all_goals simp_all [h.lit, h.bool, h.block, h.lazy, h.format]

theorem look_through (h : Through f R R') (m : Str) (ts : Toks) : look R' m ts = (look R m ts).map (Look.map f) := by
  have hv := val_through h
  unfold look
  split
  · split
    · simp only [hv, Option.bind_eq_bind, Option.pure_def]
      cases pair _ <;> simp
      rename_i p
      cases val R p.1 <;> simp
      cases val R p.2 <;> simp [Look.map]
    · simp only [hv, Option.bind_eq_bind, Option.pure_def]
      cases val R ts <;> simp [Look.map]
  split
  · split
    · simp only [hv, Option.bind_eq_bind, Option.pure_def]
      cases pair _ <;> simp
      rename_i p
      cases val R p.1 <;> simp
      cases val R p.2 <;> simp [Look.map]
    · simp only [hv, Option.bind_eq_bind, Option.pure_def]
      cases val R ts <;> simp [Look.map]
  split
  · simp only [hv, Option.bind_eq_bind, Option.pure_def]
    cases pair _ <;> simp
    split
    · split
      · rename_i v _ _ _
        cases val R _ <;> simp [Look.map]
      · rfl
    · rfl
  split
  · simp only [hv, Option.bind_eq_bind, Option.pure_def]
    cases pair _ <;> simp
    rename_i p
    cases val R p.1 <;> simp
    cases val R p.2 <;> simp [Look.map]
  split
  · simp only [hv, Option.bind_eq_bind, Option.pure_def]
    cases pair _ <;> simp
    rename_i p
    cases event p.1 <;> simp
    cases val R p.2 <;> simp [Look.map]
  split
  · simp only [hv, Option.bind_eq_bind, Option.pure_def]
    cases pair _ <;> simp
    split
    · split <;> simp [Look.map]
    · split
      · split
        · cases val R _ <;> simp [Look.map]
        · rfl
      · rfl
    · rfl
  split
  · simp only [hv, Option.bind_eq_bind, Option.pure_def]
    cases val R ts <;> simp [Look.map]
  split
  · rfl
  split
  · rfl
  · simp only [hv, Option.bind_eq_bind, Option.pure_def]
    cases val R ts <;> simp [Look.map]

theorem entry_through (h : Through f R R') (ts : Toks) : entry R' ts = (entry R ts).map (Look.map f) := by
  have hv := val_through h
  have hl := look_through h
  unfold entry
  split
  · split
    · split
      · exact hl _ _
      split
      · exact hl _ _
      split
      · exact hl _ _
      split
      · exact hl _ _
      split
      · simp only [hv, Option.bind_eq_bind, Option.pure_def]
        cases pair _ <;> simp
        split
        · cases val R _ <;> simp [Look.map]
        · rfl
      split
      · split
        · simp only [hv, Option.bind_eq_bind, Option.pure_def]
          cases val R _ <;> simp [Look.map]
        split
        · simp only [hv, Option.bind_eq_bind, Option.pure_def, h.lit]
          cases val R _ <;> simp [Look.map]
        · rfl
      · rfl
    · rfl
  · rfl

section
variable {child : Toks → Option (Dom V)} {child' : Toks → Option (Dom W)} (hc : ∀ ts, child' ts = (child ts).map (Dom.map f))
include hc

theorem view_through (ts : Toks) : view child' ts = (view child ts).map (domsMap f) := by
  unfold view
  split
  · split
    · simp only [Option.bind_eq_bind]
      cases tuple _ <;> simp [mapM_through hc, funext domsMap_eq]
    · rfl
  · rfl

theorem childrenPart_through (code : Toks) : childrenPart child' code = (childrenPart child code).map (Part.map f) := by
  unfold childrenPart
  simp only [view_through hc, Option.bind_eq_bind, Option.pure_def]
  split
  · cases view child _ <;> simp
    split <;> simp [Part.map]
  · cases call _ <;> simp
    split
    · split
      · cases view child _ <;> simp
        split <;> simp [Part.map]
      · rfl
    · rfl

theorem part_through (h : Through f R R') {slots : Toks → Option (List (Dom V))} {slots' : Toks → Option (List (Dom W))}
    (hs : ∀ ts, slots' ts = (slots ts).map (domsMap f)) (m : Str × Toks) :
    part R' child' slots' m = (part R child slots m).map (Part.map f) := by
  unfold part
  split
  · rfl
  split
  · split
    · exact childrenPart_through hc _
    · rfl
  · rw [val_through h]
    cases val R m.2 with
    | some v => simp [Part.map]
    | none =>
      simp only [Option.map_none, hs]
      cases slots m.2 <;> simp [Part.map]

theorem parts_through (h : Through f R R') {slots : Toks → Option (List (Dom V))} {slots' : Toks → Option (List (Dom W))}
    (hs : ∀ ts, slots' ts = (slots ts).map (domsMap f)) (ms : List (Str × Toks)) :
    parts R' child' slots' ms = (parts R child slots ms).map (partsMap f) := by
  unfold parts
  split
  · split
    · rw [mapM_through (part_through hc h hs), funext partsMap_eq]
    · rfl
  · rfl

theorem slot_through (h : Through f R R') (ts : Toks) : slot R' child' ts = (slot R child ts).map (Dom.map f) := by
  unfold slot
  have hp := parts_through hc h (slots := fun _ => none) (slots' := fun _ => none) (fun _ => rfl)
  simp only [hp, Option.bind_eq_bind, Option.pure_def]
  cases call ts <;> simp
  split
  · split
    · cases call _ <;> simp
      split
      · cases methods _ <;> simp
        cases parts R child _ _ <;> simp [Dom.map]
      · rfl
    · rfl
  · rfl

theorem slotArgs_through (h : Through f R R') (ts : Toks) : slotArgs R' child' ts = (slotArgs R child ts).map (domsMap f) := by
  have hs := slot_through hc h
  unfold slotArgs
  simp only [Option.bind_eq_bind, Option.pure_def]
  split
  · cases call _ <;> simp
    cases call _ <;> simp
    split
    · split
      · rw [mapM_through hs, funext domsMap_eq]
      · rfl
    · rfl
  · rw [hs]
    cases slot R child _ <;> simp [domsMap]

theorem component_through (h : Through f R R') (ts : Toks) : component R' child' ts = (component R child ts).map (Dom.map f) := by
  have hp := parts_through hc h (slotArgs_through hc h)
  have he := mapM_through (entry_through h)
  unfold component
  simp only [hp, he, Option.bind_eq_bind, Option.pure_def]
  cases call ts <;> simp
  cases call _ <;> simp
  split
  · cases methods _ <;> simp
    cases lastComma _ <;> simp
    split
    · cases call _ <;> simp
      split
      · split
        · cases methods _ <;> simp
          cases parts R child _ _ <;> simp
          cases tuple _ <;> simp
          cases List.mapM (entry R) _ <;> simp [Dom.map]
        · rfl
      · rfl
    · rfl
  · rfl

theorem built_through (h : Through f R R') (ts : Toks) : built R' child' ts = (built R child ts).map (Dom.map f) := by
  unfold built
  rw [val_through h]
  cases val R ts with
  | some v => simp [Dom.map]
  | none =>
    simp only [Option.map_none]
    split
    · exact component_through hc h _
    · have hl := mapM_through fun m : Str × Toks => look_through h m.1 m.2
      have hd := mapM_through fun m : Str × Toks => hc m.2
      simp only [hl, hd, Option.bind_eq_bind, Option.pure_def]
      cases element ts <;> simp
      cases methods _ <;> simp
      cases List.mapM (fun m : Str × Toks => look R m.1 m.2) _ <;> simp
      cases List.mapM (fun m : Str × Toks => child m.2) _ <;> simp [Dom.map, domsMap_eq]
end

theorem node_through (h : Through f R R') : ∀ (n : Nat) (ts : Toks), node R' n ts = (node R n ts).map (Dom.map f)
  | 0, _ => rfl
  | n + 1, ts => by
    unfold node
    simp only [Option.bind_eq_bind]
    cases call ts <;> simp
    split
    · exact built_through (node_through h n) h _
    · rfl

/-- Running code in `R'` is running it in `R`, and then looking through `f`. -/
theorem run_through (h : Through f R R') (n : Nat) (ts : Toks) : run R' n ts = (run R n ts).map (domsMap f) := by
  unfold run
  split
  · simp only [Option.bind_eq_bind, Option.pure_def, node_through h, view_through (node_through h n)]
    cases call _ <;> simp
    split
    · rfl
    · cases node R n _ <;> simp [domsMap]
  · rfl

/-! ### code that is not run -/

theorem nameIn_colours (name : Str) : ∀ n, nameIn (colours n ++ [.lit (.str name)]) = some name
  | 0 => rfl
  | n + 1 => by
    have : colours (n + 1) ++ [.lit (.str name)] = .ident (plain c!"let") :: .ident (plain c!"__x") :: .punct '=' .alone ::
        .group .paren [] :: .punct ';' .alone :: (colours n ++ [.lit (.str name)]) := by
      simp [colours, Lex.splice_toks, plain]
    rw [this, nameIn, if_pos ⟨rfl, rfl⟩]
    exact nameIn_colours name n

theorem colours_of_name {name : Str} : ∀ {code : Toks}, nameIn code = some name →
    ∃ n, code = colours n ++ [.lit (.str name)] := by
  intro code h
  fun_induction nameIn code with
  | case1 s => cases h; exact ⟨0, rfl⟩
  | case2 a x r hax ih =>
    obtain ⟨n, rfl⟩ := ih h
    obtain ⟨rfl, rfl⟩ := hax
    exact ⟨n + 1, by simp [colours, Lex.splice_toks, plain]⟩
  | case3 => cases h
  | case4 => cases h

theorem written_names : written.Names := by
  intro n name
  simp only [written, nameIn_colours]

theorem written_through (hR : R.Names) : Through (Code.eval R) written R where
  lit _ := rfl
  bool _ := rfl
  lazy _ := rfl
  format _ := rfl
  block code := by
    simp only [written]
    cases h : nameIn code with
    | none => rfl
    | some name =>
      obtain ⟨n, rfl⟩ := colours_of_name h
      exact hR n name

/-! ### values -/

theorem looks_map_iff {f g : V → W} (ls : List (Look V)) :
    ls.map (Look.map f) = ls.map (Look.map g) ↔ ∀ v ∈ ls.flatMap Look.values, f v = g v := by
  induction ls with
  | nil => simp
  | cons l ls ih =>
    rw [List.map_cons, List.map_cons, List.cons.injEq, ih, List.flatMap_cons]
    simp only [List.mem_append, or_imp, forall_and]
    refine and_congr ?_ Iff.rfl
    cases l <;> simp [Look.map, Look.values]
    rename_i v
    cases v <;> simp

mutual
theorem dom_map_iff {f g : V → W} : ∀ d : Dom V, d.map f = d.map g ↔ ∀ v ∈ d.values, f v = g v
  | .value v => by simp [Dom.map, Dom.values]
  | .elem _ _ ls ds => by
    simp only [Dom.map, Dom.values, Dom.elem.injEq, true_and, looks_map_iff ls, doms_map_iff ds, List.mem_append, or_imp,
      forall_and]
  | .comp _ _ ps ls => by
    simp only [Dom.map, Dom.values, Dom.comp.injEq, true_and, looks_map_iff ls, parts_map_iff ps, List.mem_append, or_imp,
      forall_and]
  | .slot _ ps => by simp only [Dom.map, Dom.values, Dom.slot.injEq, true_and, parts_map_iff ps]
theorem part_map_iff {f g : V → W} : ∀ p : Part V, p.map f = p.map g ↔ ∀ v ∈ p.values, f v = g v
  | .prop _ v => by simp [Part.map, Part.values]
  | .children _ _ ds => by simp only [Part.map, Part.values, Part.children.injEq, true_and, doms_map_iff ds]
  | .slots _ ds => by simp only [Part.map, Part.values, Part.slots.injEq, true_and, doms_map_iff ds]
theorem doms_map_iff {f g : V → W} : ∀ ds : List (Dom V), domsMap f ds = domsMap g ds ↔ ∀ v ∈ domsValues ds, f v = g v
  | [] => by simp [domsMap, domsValues]
  | d :: ds => by
    simp only [domsMap, domsValues, List.cons.injEq, dom_map_iff d, doms_map_iff ds, List.mem_append, or_imp, forall_and]
theorem parts_map_iff {f g : V → W} : ∀ ps : List (Part V), partsMap f ps = partsMap g ps ↔ ∀ v ∈ partsValues ps, f v = g v
  | [] => by simp [partsMap, partsValues]
  | p :: ps => by
    simp only [partsMap, partsValues, List.cons.injEq, part_map_iff p, parts_map_iff ps, List.mem_append, or_imp, forall_and]
end

/-! ### the same page -/

theorem partsMap_append (ps qs : List (Part V)) : partsMap f (ps ++ qs) = partsMap f ps ++ partsMap f qs := by
  simp only [partsMap_eq, List.map_append]

mutual
theorem same_map : ∀ {d' d : Dom V}, Same d' d → Same (d'.map f) (d.map f)
  | _, _, .value v => .value _
  | _, _, .elem hd => by
    simp only [Dom.map]
    exact .elem (allSame_map hd)
  | _, _, .comp hp ho hs => by
    have h := partsSame_map hp
    simp only [Dom.map]
    rw [partsMap_append] at h ⊢
    refine .comp h (by simp only [partsMap_eq]; exact ho.map _) ?_
    intro p hp
    rw [partsMap_eq] at hp
    obtain ⟨q, hq, rfl⟩ := List.mem_map.mp hp
    have := hs q hq
    cases q <;> simp_all [Part.map, Part.isSlots]
  | _, _, .slot hp => by
    simp only [Dom.map]
    exact .slot (partsSame_map hp)
theorem allSame_map : ∀ {ds' ds : List (Dom V)}, AllSame ds' ds → AllSame (domsMap f ds') (domsMap f ds)
  | _, _, .nil => .nil
  | _, _, .cons hd h => by
    simp only [domsMap]
    exact .cons (same_map hd) (allSame_map h)
theorem partsSame_map : ∀ {ps' ps : List (Part V)}, PartsSame ps' ps → PartsSame (partsMap f ps') (partsMap f ps)
  | _, _, .nil => .nil
  | _, _, .cons hp h => by
    simp only [partsMap]
    exact .cons (partSame_map hp) (partsSame_map h)
theorem partSame_map : ∀ {p' p : Part V}, PartSame p' p → PartSame (p'.map f) (p.map f)
  | _, _, .prop _ _ => by simp only [Part.map]; exact .prop _ _
  | _, _, .children hd => by simp only [Part.map]; exact .children (allSame_map hd)
  | _, _, .slots hd => by simp only [Part.map]; exact .slots (allSame_map hd)
end

end Mview.Run
