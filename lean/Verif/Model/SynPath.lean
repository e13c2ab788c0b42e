import Verif.Model.Syn
/-
`impl Parse for syn::Path` of syn 2 (path.rs) without the feature `full`
(leptos-mview-core/Cargo.toml:13), as an instance of `PathParser`.  It is called at
src/ast/tag.rs:69.

A single generic argument that is not a lifetime (a type, a constant, `Item = T` ..) is left as a
parameter; everything else is as in syn.
-/

namespace Mview

/-- `syn::GenericArgument::parse`, for what is not a lifetime: the tokens it prints, or `none`, and
where the stream is left. -/
structure ArgParser where
  run : Toks → Option Toks × Toks
  progress : ∀ ts a rest, run ts = (some a, rest) → ∃ used, used ≠ [] ∧ ts = used ++ rest
  suffix : ∀ ts rest, run ts = (none, rest) → ∃ used, ts = used ++ rest

/-- A generic argument: whether it is a lifetime, its tokens, and whether a comma follows. -/
structure SynArg where
  lifetime : Bool
  toks : Toks
  comma : Bool

/-- The words that `PathSegment::parse_helper` takes by themselves, without arguments. -/
def soleWords : List Str := [c!"super", c!"self", c!"crate"]

/-- `GenericArgument::parse`: `'a` not followed by `+` is a lifetime, all else is left to `ga`. -/
def synArg (ga : ArgParser) (ts : Toks) : Option (Bool × Toks) × Toks :=
  match ts with
  | .punct '\'' .joint :: .ident i :: r =>
    if peekPunct '+' r then ((ga.run ts).1.map (false, ·), (ga.run ts).2)
    else (some (true, [.punct '\'' .joint, .ident i]), r)
  | _ => ((ga.run ts).1.map (false, ·), (ga.run ts).2)

/-- The loop of `AngleBracketedGenericArguments::do_parse`, up to but without the `>`. -/
def synArgs (ga : ArgParser) : Nat → Toks → Option (List SynArg) × Toks
  | 0, ts => (none, ts)
  | n + 1, ts =>
    if peekPunct '>' ts then (some [], ts)
    else
      match synArg ga ts with
      | (none, r) => (none, r)
      | (some (lt, a), r) =>
        if peekPunct '>' r then (some [⟨lt, a, false⟩], r)
        else if peekPunct ',' r then
          let (as, r') := synArgs ga n (r.drop 1)
          (as.map (⟨lt, a, true⟩ :: ·), r')
        else (none, r)

/-- The two loops of `AngleBracketedGenericArguments::to_tokens`: the arguments that are (`lt`) or
are not lifetimes, with a comma in between where one is missing.  `sep` is `trailing_or_empty`. -/
def printArgs (lt : Bool) : Bool → List SynArg → Toks × Bool
  | sep, [] => ([], sep)
  | sep, a :: as =>
    if a.lifetime = lt then
      let (ts, sep') := printArgs lt a.comma as
      ((if sep then [] else [.punct ',' .alone]) ++ a.toks ++
        (if a.comma then [.punct ',' .alone] else []) ++ ts, sep')
    else printArgs lt sep as

/-- `AngleBracketedGenericArguments::to_tokens`: lifetimes are printed first.  (Between lifetimes
there is always a comma, so that the commas put in by `printArgs` are those of syn.) -/
def printedArgs (as : List SynArg) : Toks :=
  let (a, sep) := printArgs true true as
  a ++ (printArgs false sep as).1

/-- `AngleBracketedGenericArguments::parse` at the `<`. -/
def synAngle (ga : ArgParser) (turbofish : Bool) (ts : Toks) : Option PathArgs × Toks :=
  match synArgs ga (ts.length + 1) (ts.drop 1) with
  | (none, r) => (none, r)
  | (some as, r) => (some (.angle turbofish (printedArgs as)), r.drop 1)

/-- `PathSegment::parse_helper(input, false)`. -/
def synSeg (ga : ArgParser) (ts : Toks) : Option PathSeg × Toks :=
  match ts with
  | .ident i :: r =>
    if i.raw = false ∧ i.name ∈ soleWords then (some ⟨i, .none⟩, r)
    else if i = ⟨false, c!"Self"⟩ ∨ peekIdent ts = true then
      if peekPunct '<' r && !peekPunct2 '<' '=' r then
        let (a, rest) := synAngle ga false r
        (a.map (⟨i, ·⟩), rest)
      else if peekPunct2 ':' ':' r && peekPunct '<' (r.drop 2) then
        let (a, rest) := synAngle ga true (r.drop 2)
        (a.map (⟨i, ·⟩), rest)
      else (some ⟨i, .none⟩, r)
    else (none, ts)
  | _ => (none, ts)

/-- `Path::parse_helper` after a leading `::`, with the loop of `Path::parse_rest`. -/
def synSegs (ga : ArgParser) : Nat → Toks → Option (List PathSeg) × Toks
  | 0, ts => (none, ts)
  | n + 1, ts =>
    match synSeg ga ts with
    | (none, r) => (none, r)
    | (some seg, r) =>
      if peekPunct2 ':' ':' r && !peekGroup .paren (r.drop 2) then
        let (segs, r') := synSegs ga n (r.drop 2)
        (segs.map (seg :: ·), r')
      else (some [seg], r)

/-- `Path::parse_helper(input, false)`. -/
def synRun (ga : ArgParser) (ts : Toks) : Option Path × Toks :=
  let lead := peekPunct2 ':' ':' ts
  let (segs, r) := synSegs ga (ts.length + 1) (if lead then ts.drop 2 else ts)
  (segs.map (⟨lead, ·⟩), r)


/-! ### consumption -/

theorem suffix_drop (n : Nat) (ts : Toks) : ∃ u, ts = u ++ ts.drop n :=
  ⟨ts.take n, (List.take_append_drop n ts).symm⟩

theorem synArg_suffix {ga : ArgParser} {ts r : Toks} {o : Option (Bool × Toks)} (h : synArg ga ts = (o, r)) :
    ∃ u, ts = u ++ r ∧ (o ≠ none → u ≠ []) := by
  have hga : ((ga.run ts).1.map (false, ·), (ga.run ts).2) = (o, r) →
      ∃ u, ts = u ++ r ∧ (o ≠ none → u ≠ []) := by
    intro h
    simp only [Prod.mk.injEq] at h
    obtain ⟨rfl, rfl⟩ := h
    match hr : ga.run ts with
    | (none, r) =>
      obtain ⟨u, hu⟩ := ga.suffix _ _ hr
      exact ⟨u, hu, by simp⟩
    | (some a, r) =>
      obtain ⟨u, h1, h2⟩ := ga.progress _ _ _ hr
      exact ⟨u, h2, fun _ => h1⟩
  unfold synArg at h
  split at h
  · split at h
    · exact hga h
    · simp only [Prod.mk.injEq] at h
      exact ⟨_ :: _ :: [], by rw [← h.2]; rfl, by simp⟩
  · exact hga h

theorem synArgs_suffix {ga : ArgParser} : ∀ {n : Nat} {ts r : Toks} {o : Option (List SynArg)},
    synArgs ga n ts = (o, r) → ∃ u, ts = u ++ r ∧ (o ≠ none → peekPunct '>' r = true) := by
  intro n
  induction n with
  | zero => intro ts r o h; simp [synArgs] at h; exact ⟨[], by simp [h.2], by simp [h.1]⟩
  | succ n ih =>
    intro ts r o h
    unfold synArgs at h
    split at h
    · rename_i hp
      simp only [Prod.mk.injEq] at h
      exact ⟨[], by simp [h.2], fun _ => by rw [← h.2]; exact hp⟩
    · split at h
      · rename_i r0 ha
        simp only [Prod.mk.injEq] at h
        obtain ⟨u, hu, _⟩ := synArg_suffix ha
        exact ⟨u, by rw [hu, h.2], by simp [← h.1]⟩
      · rename_i lt a r0 ha
        obtain ⟨u, hu, _⟩ := synArg_suffix ha
        split at h
        · rename_i hp
          simp only [Prod.mk.injEq] at h
          exact ⟨u, by rw [hu, h.2], fun _ => by rw [← h.2]; exact hp⟩
        · split at h
          · simp only at h
            match hs : synArgs ga n (r0.drop 1) with
            | (as, r') =>
              rw [hs] at h
              simp only [Prod.mk.injEq] at h
              obtain ⟨rfl, rfl⟩ := h
              obtain ⟨v, hv, hp⟩ := ih hs
              obtain ⟨w, hw⟩ := suffix_drop 1 r0
              refine ⟨u ++ w ++ v, ?_, fun h => hp (by rintro rfl; exact h rfl)⟩
              rw [List.append_assoc, ← hv, List.append_assoc, ← hw, ← hu]
          · simp only [Prod.mk.injEq] at h
            exact ⟨u, by rw [hu, h.2], by simp [← h.1]⟩

theorem synAngle_suffix {ga : ArgParser} {b : Bool} {t : TT} {ts r : Toks} {o : Option PathArgs}
    (h : synAngle ga b (t :: ts) = (o, r)) : ∃ u, ts = u ++ r ∧ (o ≠ none → u ≠ []) := by
  unfold synAngle at h
  split at h
  · rename_i r0 hs
    simp only [Prod.mk.injEq] at h
    obtain ⟨u, hu, _⟩ := synArgs_suffix hs
    exact ⟨u, by simpa [h.2] using hu, by simp [← h.1]⟩
  · rename_i as r0 hs
    simp only [Prod.mk.injEq] at h
    obtain ⟨u, hu, hp⟩ := synArgs_suffix hs
    have hp := hp (by simp)
    match r0, hp with
    | t' :: r0, _ =>
      simp only [List.drop_succ_cons, List.drop_zero] at h hu
      exact ⟨u ++ [t'], by rw [hu, h.2]; simp, by simp⟩

theorem synPeek_cons {c : Char} {ts : Toks} (h : peekPunct c ts = true) :
    ∃ s r, ts = .punct c s :: r := by
  match ts, h with
  | .punct c' s :: r, h => simp [peekPunct] at h; exact ⟨s, r, by rw [h]⟩

theorem synPeek2_cons {a b : Char} {ts : Toks} (h : peekPunct2 a b ts = true) :
    ∃ s r, ts = .punct a .joint :: .punct b s :: r := by
  match ts, h with
  | .punct a' .joint :: .punct b' s :: r, h => simp [peekPunct2] at h; exact ⟨s, r, by rw [h.1, h.2]⟩

theorem synSeg_suffix {ga : ArgParser} {ts r : Toks} {o : Option PathSeg} (h : synSeg ga ts = (o, r)) :
    ∃ u, ts = u ++ r ∧ (o ≠ none → u ≠ []) := by
  unfold synSeg at h
  split at h
  · rename_i i r0
    split at h
    · simp only [Prod.mk.injEq] at h
      exact ⟨[.ident i], by simp [h.2], by simp⟩
    · split at h
      · split at h
        · rename_i hp
          obtain ⟨s, r1, rfl⟩ := synPeek_cons (Bool.and_eq_true _ _ ▸ hp).1
          simp only [Prod.mk.injEq] at h
          obtain ⟨u, hu, _⟩ := synAngle_suffix (ga := ga) (b := false) (t := .punct '<' s) (ts := r1)
            (Prod.ext rfl rfl)
          exact ⟨.ident i :: .punct '<' s :: u, by rw [← h.2]; exact congrArg (.ident i :: .punct '<' s :: ·) hu, by simp⟩
        · split at h
          · rename_i hp
            obtain ⟨s, r1, rfl⟩ := synPeek2_cons (Bool.and_eq_true _ _ ▸ hp).1
            obtain ⟨s', r2, h2⟩ := synPeek_cons (Bool.and_eq_true _ _ ▸ hp).2
            simp only [List.drop_succ_cons, List.drop_zero] at h2
            subst h2
            simp only [Prod.mk.injEq, List.drop_succ_cons, List.drop_zero] at h
            obtain ⟨u, hu, _⟩ := synAngle_suffix (ga := ga) (b := true) (t := .punct '<' s') (ts := r2)
              (Prod.ext rfl rfl)
            exact ⟨.ident i :: .punct ':' .joint :: .punct ':' s :: .punct '<' s' :: u,
              by rw [← h.2]; exact congrArg (.ident i :: .punct ':' .joint :: .punct ':' s :: .punct '<' s' :: ·) hu, by simp⟩
          · simp only [Prod.mk.injEq] at h
            exact ⟨[.ident i], by simp [h.2], by simp⟩
      · simp only [Prod.mk.injEq] at h
        exact ⟨[], by simp [h.2], by simp [← h.1]⟩
  · simp only [Prod.mk.injEq] at h
    exact ⟨[], by simp [h.2], by simp [← h.1]⟩

theorem synSegs_suffix {ga : ArgParser} : ∀ {n : Nat} {ts r : Toks} {o : Option (List PathSeg)},
    synSegs ga n ts = (o, r) → ∃ u, ts = u ++ r ∧ (o ≠ none → u ≠ []) := by
  intro n
  induction n with
  | zero => intro ts r o h; simp [synSegs] at h; exact ⟨[], by simp [h.2], by simp [h.1]⟩
  | succ n ih =>
    intro ts r o h
    unfold synSegs at h
    split at h
    · rename_i r0 ha
      simp only [Prod.mk.injEq] at h
      obtain ⟨u, hu, _⟩ := synSeg_suffix ha
      exact ⟨u, by rw [hu, h.2], by simp [← h.1]⟩
    · rename_i seg r0 ha
      obtain ⟨u, hu, hn⟩ := synSeg_suffix ha
      have hn := hn (by simp)
      split at h
      · simp only at h
        match hs : synSegs ga n (r0.drop 2) with
        | (as, r') =>
          rw [hs] at h
          simp only [Prod.mk.injEq] at h
          obtain ⟨rfl, rfl⟩ := h
          obtain ⟨v, hv, _⟩ := ih hs
          obtain ⟨w, hw⟩ := suffix_drop 2 r0
          refine ⟨u ++ w ++ v, ?_, fun _ => by simp [hn]⟩
          rw [List.append_assoc, ← hv, List.append_assoc, ← hw, ← hu]
      · simp only [Prod.mk.injEq] at h
        exact ⟨u, by rw [hu, h.2], fun _ => hn⟩

theorem synRun_suffix {ga : ArgParser} {ts r : Toks} {o : Option Path} (h : synRun ga ts = (o, r)) :
    ∃ u, ts = u ++ r ∧ (o ≠ none → u ≠ []) := by
  unfold synRun at h
  simp only [Prod.mk.injEq] at h
  obtain ⟨rfl, rfl⟩ := h
  match hs : synSegs ga (ts.length + 1) (if peekPunct2 ':' ':' ts then ts.drop 2 else ts) with
  | (o, r) =>
    obtain ⟨u, hu, hn⟩ := synSegs_suffix hs
    simp only
    have hn : Option.map (Path.mk (peekPunct2 ':' ':' ts)) o ≠ none → u ≠ [] := fun h => hn (by rintro rfl; exact h rfl)
    split at hu
    · obtain ⟨w, hw⟩ := suffix_drop 2 ts
      exact ⟨w ++ u, by rw [List.append_assoc, ← hu, ← hw], fun h => by simp [hn h]⟩
    · exact ⟨u, hu, hn⟩

/-- `syn::Path::parse`, up to generic arguments. -/
def synPaths (ga : ArgParser) : PathParser where
  run := synRun ga
  progress := by
    intro ts p rest h
    obtain ⟨u, hu, hn⟩ := synRun_suffix h
    exact ⟨u, hn (by simp), hu⟩
  suffix := by
    intro ts rest h
    obtain ⟨u, hu, _⟩ := synRun_suffix h
    exact ⟨u, hu⟩

end Mview
