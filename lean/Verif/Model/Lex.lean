import Verif.Model.Mview
import Verif.Spec.Quote
/-
`simplePaths`, a concrete instance of `PathParser` for the examples.
-/

namespace Mview

/-- The tokens of a generic argument list after its `<`, up to the matching `>`,
and what follows. -/
def angleBody : Nat → Toks → Option (Toks × Toks)
  | _, [] => none
  | d, t :: ts =>
    match t with
    | .punct '>' s =>
      match d with
      | 0 => some ([], ts)
      | d + 1 => (angleBody d ts).map fun (a, b) => (.punct '>' s :: a, b)
    | .punct '<' s => (angleBody (d + 1) ts).map fun (a, b) => (.punct '<' s :: a, b)
    | t => (angleBody d ts).map fun (a, b) => (t :: a, b)

/-- Generic arguments, if any. -/
def simpleArgs (ts : Toks) : Option (PathArgs × Toks) :=
  if peekPunct '<' ts then
    (angleBody 0 (ts.drop 1)).map fun (a, b) => (.angle false a, b)
  else if peekPunct2 ':' ':' ts && peekPunct '<' (ts.drop 2) then
    (angleBody 0 (ts.drop 3)).map fun (a, b) => (.angle true a, b)
  else some (.none, ts)

/-- Segments separated by `::`. -/
def simpleSegs : Nat → Toks → Option (List PathSeg × Toks)
  | 0, _ => none
  | n + 1, .ident i :: ts =>
    match simpleArgs ts with
    | none => none
    | some (a, rest) =>
      if peekPunct2 ':' ':' rest then
        (simpleSegs n (rest.drop 2)).map fun (ss, r) => (⟨i, a⟩ :: ss, r)
      else some ([⟨i, a⟩], rest)
  | _ + 1, _ => none

/-- Paths of plain identifiers with balanced generic arguments. -/
def simpleRun (ts : Toks) : Option Path × Toks :=
  let lead := peekPunct2 ':' ':' ts
  match simpleSegs (ts.length + 1) (if lead then ts.drop 2 else ts) with
  | some (ss, rest) => (some ⟨lead, ss⟩, rest)
  | none => (none, ts)

theorem angleBody_suffix (ts : Toks) : ∀ d a b, angleBody d ts = some (a, b) →
    ∃ u, ts = u ++ b := by
  induction ts with
  | nil => intro d a b h; simp [angleBody] at h
  | cons t ts ih =>
    intro d a b h
    unfold angleBody at h
    split at h
    · cases d with
      | zero => simp at h; exact ⟨[.punct '>' _], by rw [h.2]; rfl⟩
      | succ d =>
        simp only [Option.map_eq_some_iff, Prod.exists, Prod.mk.injEq] at h
        obtain ⟨a', b', h1, _, h2⟩ := h
        obtain ⟨u, hu⟩ := ih _ _ _ h1
        exact ⟨_ :: u, by rw [hu, ← h2]; rfl⟩
    · simp only [Option.map_eq_some_iff, Prod.exists, Prod.mk.injEq] at h
      obtain ⟨a', b', h1, _, h2⟩ := h
      obtain ⟨u, hu⟩ := ih _ _ _ h1
      exact ⟨_ :: u, by rw [hu, ← h2]; rfl⟩
    · simp only [Option.map_eq_some_iff, Prod.exists, Prod.mk.injEq] at h
      obtain ⟨a', b', h1, _, h2⟩ := h
      obtain ⟨u, hu⟩ := ih _ _ _ h1
      exact ⟨_ :: u, by rw [hu, ← h2]; rfl⟩

theorem drop_suffix (n : Nat) (ts : Toks) : ∃ u, ts = u ++ ts.drop n :=
  ⟨ts.take n, (List.take_append_drop n ts).symm⟩

theorem simpleArgs_suffix {ts a b} (h : simpleArgs ts = some (a, b)) : ∃ u, ts = u ++ b := by
  unfold simpleArgs at h
  split at h
  · simp only [Option.map_eq_some_iff, Prod.exists, Prod.mk.injEq] at h
    obtain ⟨a', b', h1, _, h2⟩ := h
    obtain ⟨u, hu⟩ := angleBody_suffix _ _ _ _ h1
    obtain ⟨v, hv⟩ := drop_suffix 1 ts
    exact ⟨v ++ u, by rw [List.append_assoc, ← h2, ← hu, ← hv]⟩
  · split at h
    · simp only [Option.map_eq_some_iff, Prod.exists, Prod.mk.injEq] at h
      obtain ⟨a', b', h1, _, h2⟩ := h
      obtain ⟨u, hu⟩ := angleBody_suffix _ _ _ _ h1
      obtain ⟨v, hv⟩ := drop_suffix 3 ts
      exact ⟨v ++ u, by rw [List.append_assoc, ← h2, ← hu, ← hv]⟩
    · simp at h; exact ⟨[], by simp [h.2]⟩

theorem simpleSegs_suffix : ∀ n ts ss rest, simpleSegs n ts = some (ss, rest) →
    ∃ u, u ≠ [] ∧ ts = u ++ rest := by
  intro n
  induction n with
  | zero => intro ts ss rest h; simp [simpleSegs] at h
  | succ n ih =>
    intro ts ss rest h
    match ts, h with
    | .ident i :: ts, h =>
      simp only [simpleSegs] at h
      split at h
      · simp at h
      · rename_i a r ha
        obtain ⟨u, hu⟩ := simpleArgs_suffix ha
        split at h
        · simp only [Option.map_eq_some_iff, Prod.exists, Prod.mk.injEq] at h
          obtain ⟨a', b', h1, _, h2⟩ := h
          obtain ⟨v, _, hv⟩ := ih _ _ _ h1
          obtain ⟨w, hw⟩ := drop_suffix 2 r
          refine ⟨.ident i :: (u ++ w ++ v), by simp, ?_⟩
          rw [hu, ← h2]
          simp only [List.cons_append, List.append_assoc]
          rw [← hv, ← hw]
        · simp at h
          exact ⟨.ident i :: u, by simp, by rw [hu, ← h.2]; rfl⟩
    | [], h => simp [simpleSegs] at h
    | .punct _ _ :: _, h => simp [simpleSegs] at h
    | .lit _ :: _, h => simp [simpleSegs] at h
    | .group _ _ :: _, h => simp [simpleSegs] at h

/-- A concrete path parser. -/
def simplePaths : PathParser where
  run := simpleRun
  progress := by
    intro ts p rest h
    unfold simpleRun at h
    simp only at h
    split at h
    · rename_i ss r hs
      obtain ⟨u, hu, hr⟩ := simpleSegs_suffix _ _ _ _ hs
      simp only [Prod.mk.injEq] at h
      rw [← h.2]
      split at hr
      · obtain ⟨v, hv⟩ := drop_suffix 2 ts
        exact ⟨v ++ u, by simp [hu], by rw [List.append_assoc, ← hr, ← hv]⟩
      · exact ⟨u, hu, hr⟩
    · simp at h
  suffix := by
    intro ts rest h
    unfold simpleRun at h
    simp only at h
    split at h
    · simp at h
    · simp at h; exact ⟨[], by simp [h]⟩

end Mview
