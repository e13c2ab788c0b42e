import Verif.Model.Nightly
import Verif.Lemmas.NightlyTree
import Verif.Props.Reads
/-
C47: what the macro generates in spite of errors (feature `nightly`).
-/

namespace Mview
open Lex

variable {pp : PathParser} {s : Sched} {ts : Toks} {is : List Issue} {cs : List Child}

/-! ### correct pieces stand for the same -/

theorem Value.anyway_of_means {v : Value} {t : Toks} (h : v.means = some t) : v.anyway = t := by
  simp [Value.anyway, h]

theorem optAnyway_of_means {v : Option Value} {t : Toks} (h : optMeans v = some t) :
    optAnyway v = t := by
  cases v with
  | none => cases h; rfl
  | some v => exact Value.anyway_of_means h

theorem trueAnyway_of_means {v : Option Value} {t : Toks} (h : trueMeans v = some t) :
    trueAnyway v = t := by
  cases v with
  | none => cases h; rfl
  | some v => exact Value.anyway_of_means h

theorem identAnyway_of_asIdent {k : KebabOrStr} {i : Ident} (h : k.asIdent = some i) :
    k.identAnyway = some i := by
  cases k with
  | kebab k => exact h
  | str s => simp [KebabOrStr.asIdent] at h

theorem onElementAnyway_of {kind : TagKind} {a : KvAttr} {c : Call} (h : a.onElement kind = some c) :
    a.onElementAnyway kind = some c := by
  unfold KvAttr.onElement at h
  unfold KvAttr.onElementAnyway
  cases hv : a.value.means with
  | none => simp [hv] at h
  | some v =>
    rw [Value.anyway_of_means hv]
    simp only [hv, Option.bind_eq_bind, Option.bind_some] at h
    dsimp only at h ⊢
    split at h
    · rename_i hr; simpa [hr] using h
    · rename_i hr
      split at h
      · rename_i hu; simpa [hr, hu] using h
      · rename_i hu
        simp only [hr, hu, if_false]
        cases hi : rawIdentOf a.key.repr with
        | none => simp [hi] at h
        | some i => simpa [hi] using h

theorem onComponentAnyway_of {a : KvAttr} {c : Call} (h : a.onComponent = some c) :
    a.onComponentAnyway = some c := by
  unfold KvAttr.onComponent at h
  unfold KvAttr.onComponentAnyway
  cases hi : rawIdentOf a.key.repr with
  | none => simp [hi] at h
  | some i =>
    cases hv : a.value.means with
    | none => simp [hi, hv] at h
    | some v => rw [Value.anyway_of_means hv]; simpa [hi, hv] using h

theorem eventAnyway_of {d : Directive} {t : Toks} (h : d.event = some t) :
    d.eventAnyway = some t := by
  unfold Directive.event at h
  unfold Directive.eventAnyway
  cases hk : d.key with
  | str s => simp [hk, KebabOrStr.asIdent] at h
  | kebab k =>
    simp only [hk, KebabOrStr.asIdent] at h
    cases hi : rawIdentOf k.repr with
    | none => simp [hi] at h
    | some i =>
      cases hm : d.modifier with
      | none => simpa [hi, hm] using h
      | some m =>
        by_cases hmm : m = plain c!"undelegated"
        · simpa [hi, hm, hmm] using h
        · simp [hi, hm, hmm] at h

theorem useArgsAnyway_of {d : Directive} {t : Toks} (h : d.useArgs = some t) :
    d.useArgsAnyway = some t := by
  unfold Directive.useArgs at h
  unfold Directive.useArgsAnyway
  cases hm : d.modifier with
  | some m => simp [hm] at h
  | none =>
    cases hi : d.key.asIdent with
    | none => simp [hi] at h
    | some i =>
      rw [identAnyway_of_asIdent hi]
      cases hv : d.value with
      | none => simpa [hm, hi, hv] using h
      | some v =>
        cases hv' : v.means with
        | none => simp [hm, hi, hv, hv'] at h
        | some x => simpa [hm, hi, hv, hv', Value.anyway_of_means hv'] using h

theorem directiveAnyway_of {d : Directive} {c : Call} (h : d.onElement = some c) :
    d.onElementAnyway = some [c] := by
  unfold Directive.onElement at h
  unfold Directive.onElementAnyway
  dsimp only at h ⊢
  split at h
  · rename_i h1
    rw [if_pos h1]
    cases hm : d.modifier with
    | some m => simp [hm] at h
    | none =>
      cases hv : optMeans d.value with
      | none => simp [hm, hv] at h
      | some v => rw [optAnyway_of_means hv]; simpa [hm, hv] using h
  rename_i h1
  rw [if_neg h1]
  split at h
  · rename_i h1
    rw [if_pos h1]
    cases hm : d.modifier with
    | some m => simp [hm] at h
    | none =>
      cases hv : optMeans d.value with
      | none => simp [hm, hv] at h
      | some v => rw [optAnyway_of_means hv]; simpa [hm, hv] using h
  rename_i h1
  rw [if_neg h1]
  split at h
  · rename_i h1
    rw [if_pos h1]
    cases he : d.event with
    | none => simp [he] at h
    | some e =>
      cases hv : optMeans d.value with
      | none => simp [he, hv] at h
      | some v => rw [optAnyway_of_means hv, eventAnyway_of he]; simpa [he, hv] using h
  rename_i h1
  rw [if_neg h1]
  split at h
  · rename_i h1
    rw [if_pos h1]
    cases he : d.useArgs with
    | none => simp [he] at h
    | some e => rw [useArgsAnyway_of he]; simpa [he] using h
  · simp at h

theorem entryAnyway_of_directive {d : Directive} {t : Toks} (h : d.onComponent = some t) :
    d.onComponentAnyway = some [t] := by
  unfold Directive.onComponent at h
  unfold Directive.onComponentAnyway
  dsimp only at h ⊢
  split at h
  · rename_i h1
    rw [if_pos h1]
    cases hv : trueMeans d.value with
    | none => simp [hv] at h
    | some v => rw [trueAnyway_of_means hv]; simpa [hv] using h
  rename_i h1
  rw [if_neg h1]
  split at h
  · rename_i h1
    rw [if_pos h1]
    split at h
    · rename_i h2
      rw [if_pos h2]
      cases hi : d.key.asIdent with
      | none => simp [hi] at h
      | some i =>
        cases hv : trueMeans d.value with
        | none => simp [hi, hv] at h
        | some v =>
          rw [trueAnyway_of_means hv, identAnyway_of_asIdent hi]
          have : i.name = d.key.text := by
            cases hk : d.key with
            | str s => simp [hk, KebabOrStr.asIdent] at hi
            | kebab k =>
              simp only [hk, KebabOrStr.asIdent, KebabOrStr.text] at hi h2 ⊢
              rcases h2 with h2 | h2 <;> rw [h2] at hi ⊢ <;> cases hi <;> rfl
          rw [← this] at h
          simpa [hi, hv] using h
    · rename_i h2
      rw [if_neg h2]
      split at h
      · rename_i h3
        rw [if_pos h3]
        cases hv : trueMeans d.value with
        | none => simp [hv] at h
        | some v => rw [trueAnyway_of_means hv]; simpa [hv] using h
      · rename_i h3
        rw [if_neg h3]
        cases hi : d.key.asIdent with
        | none => simp [hi] at h
        | some i =>
          cases hv : trueMeans d.value with
          | none => simp [hi, hv] at h
          | some v =>
            rw [trueAnyway_of_means hv, identAnyway_of_asIdent hi]
            simpa [hi, hv] using h
  rename_i h1
  rw [if_neg h1]
  split at h
  · rename_i h1
    rw [if_pos h1]
    cases hi : d.key.asIdent with
    | none => simp [hi] at h
    | some i =>
      cases hv : trueMeans d.value with
      | none => simp [hi, hv] at h
      | some v =>
        rw [trueAnyway_of_means hv, identAnyway_of_asIdent hi]
        simpa [hi, hv] using h
  rename_i h1
  rw [if_neg h1]
  split at h
  · rename_i h1
    rw [if_pos h1]
    cases he : d.event with
    | none => simp [he] at h
    | some e =>
      cases hv : optMeans d.value with
      | none => simp [he, hv] at h
      | some v => rw [optAnyway_of_means hv, eventAnyway_of he]; simpa [he, hv] using h
  rename_i h1
  rw [if_neg h1]
  split at h
  · rename_i h1
    rw [if_pos h1]
    cases he : d.useArgs with
    | none => simp [he] at h
    | some e => rw [useArgsAnyway_of he]; simpa [he] using h
  · simp at h

theorem cloneAnyway_of {d : Directive} {t : Toks} (h : d.cloneStmt = some t) :
    d.cloneAnyway = some t := by
  unfold Directive.cloneStmt at h
  unfold Directive.cloneAnyway
  simp only [Option.bind_eq_bind, Option.bind_eq_some_iff] at h
  obtain ⟨_, _, i, hi, h⟩ := h
  rw [identAnyway_of_asIdent hi]
  exact h

theorem mapM_of {α β γ : Type} {f : α → Option β} {g : α → Option γ} {w : β → γ} {xs : List α}
    (h : ∀ x ∈ xs, ∀ y, f x = some y → g x = some (w y)) :
    ∀ {ys}, xs.mapM f = some ys → xs.mapM g = some (ys.map w) := by
  induction xs with
  | nil => intro ys hy; simp only [List.mapM_nil, Option.pure_def, Option.some.injEq] at hy; subst hy; rfl
  | cons x xs ih =>
    intro ys hy
    simp only [List.mapM_cons, Option.bind_eq_bind, Option.bind_eq_some_iff] at hy
    obtain ⟨y, h1, ys', h2, h3⟩ := hy
    cases h3
    rw [List.mapM_cons, h x (by simp) y h1, ih (fun x hx => h x (by simp [hx])) h2]
    rfl

theorem mapM_same {α β : Type} {f g : α → Option β} {xs : List α}
    (h : ∀ x ∈ xs, ∀ y, f x = some y → g x = some y) {ys : List β} (hy : xs.mapM f = some ys) :
    xs.mapM g = some ys := by
  have := mapM_of (w := id) h hy
  simpa using this

theorem flatten_singles {α : Type} (xs : List α) : (xs.map fun x => [x]).flatten = xs := by
  induction xs with
  | nil => rfl
  | cons x xs ih => simp [ih]

theorem xmlAnyway_of {tag : Tag} {sels : List Selector} {attrs : List Attr} {nodes : List Toks}
    {t : Toks} (h : xmlMeans tag sels attrs nodes = some t) :
    xmlAnyway tag sels attrs nodes = some t := by
  simp only [xmlMeans, Option.bind_eq_bind, Option.bind_eq_some_iff] at h
  obtain ⟨head, h1, as, h2, ds, h3, h4⟩ := h
  simp only [xmlAnyway, h1, mapM_same (fun a _ c => onElementAnyway_of) h2,
    mapM_of (w := fun c => [c]) (fun d _ c => directiveAnyway_of) h3, Option.bind_eq_bind,
    Option.bind_some, flatten_singles]
  exact h4

theorem componentAnyway_of {path : Path} {sels : List Selector} {attrs : List Attr}
    {args : Option Toks} {nodes : List Toks} {calls : List Call} {t : Toks}
    (h : componentMeans path sels attrs args nodes calls = some t) :
    componentAnyway path sels attrs args nodes calls = some t := by
  simp only [componentMeans, Option.bind_eq_bind, Option.bind_eq_some_iff] at h
  obtain ⟨p, h1, as, h2, es, h3, cl, h4, h5⟩ := h
  have he : ∀ a ∈ entries attrs, ∀ e, Attr.entry a = some e → a.entryAnyway = some [e] := by
    intro a _ e h
    cases a with
    | kv a => simp [Attr.entry] at h
    | directive d => exact entryAnyway_of_directive h
    | spread e' => cases h; rfl
  simp only [componentAnyway, h1, mapM_same (fun a _ c => onComponentAnyway_of) h2,
    mapM_of (w := fun c => [c]) he h3, mapM_same (fun a _ c => cloneAnyway_of) h4,
    Option.bind_eq_bind, Option.bind_some, flatten_singles]
  exact h5

theorem slotAnyway_of {path : Path} {sels : List Selector} {attrs : List Attr}
    {args : Option Toks} {nodes : List Toks} {t : Toks}
    (h : slotMeans path sels attrs args nodes = some t) :
    slotAnyway path attrs args nodes = some t := by
  simp only [slotMeans, Option.bind_eq_bind, Option.bind_eq_some_iff] at h
  obtain ⟨_, _, p, h1, as, h2, cl, h4, h5⟩ := h
  simp only [slotAnyway, h1, mapM_same (fun a _ c => onComponentAnyway_of) h2,
    mapM_same (fun a _ c => cloneAnyway_of) h4, Option.bind_eq_bind, Option.bind_some]
  exact h5

mutual
theorem becomes_of_means (asSlot : Bool) : ∀ (e : Element) (t : Toks), e.Means asSlot t →
    e.Becomes asSlot t
  | .mk tag sels attrs args none, t, h => by
    unfold Element.Means at h
    unfold Element.Becomes
    cases asSlot <;> cases tag
    all_goals first
      | exact componentAnyway_of h
      | exact slotAnyway_of h
      | exact xmlAnyway_of h
      | exact h
  | .mk tag sels attrs args (some cs), t, h => by
    unfold Element.Means at h
    unfold Element.Becomes
    cases asSlot <;> cases tag
    case false.component p =>
      obtain ⟨ns, ss, calls, h1, h2, h3, h4⟩ := h
      exact ⟨ns, ss, calls, nodesBecome_of_mean cs ns h1, slotsBecome_of_mean cs ss h2, h3,
        componentAnyway_of h4⟩
    case true.component p =>
      obtain ⟨ns, ss, calls, h1, h2, h3, h4⟩ := h
      exact ⟨ns, ss, calls, nodesBecome_of_mean cs ns h1, slotsBecome_of_mean cs ss h2, h3,
        slotAnyway_of h4⟩
    all_goals first
      | exact h.elim
      | obtain ⟨ns, h1, h2⟩ := h
        exact ⟨ns, nodesBecome_of_mean cs ns h1, xmlAnyway_of h2⟩

theorem nodesBecome_of_mean : ∀ (cs : List Child) (ts : List Toks), NodesMean cs ts →
    NodesBecome cs ts
  | [], ts, h => by unfold NodesMean at h; unfold NodesBecome; exact h
  | .value v :: cs, ts, h => by
    unfold NodesMean at h; unfold NodesBecome
    obtain ⟨t, ts', h1, h2, rfl⟩ := h
    exact ⟨ts', nodesBecome_of_mean cs ts' h2, by rw [Value.anyway_of_means h1]⟩
  | .elem e :: cs, ts, h => by
    unfold NodesMean at h; unfold NodesBecome
    obtain ⟨t, ts', h1, h2, rfl⟩ := h
    exact ⟨t, ts', becomes_of_means false e t h1, nodesBecome_of_mean cs ts' h2, rfl⟩
  | .slot e :: cs, ts, h => by
    unfold NodesMean at h; unfold NodesBecome
    exact nodesBecome_of_mean cs ts h

theorem slotsBecome_of_mean : ∀ (cs : List Child) (ts : List (Ident × Toks)), SlotsMean cs ts →
    SlotsBecome cs ts
  | [], ts, h => by unfold SlotsMean at h; unfold SlotsBecome; exact h
  | .value v :: cs, ts, h => by
    unfold SlotsMean at h; unfold SlotsBecome
    exact slotsBecome_of_mean cs ts h
  | .elem e :: cs, ts, h => by
    unfold SlotsMean at h; unfold SlotsBecome
    exact slotsBecome_of_mean cs ts h
  | .slot e :: cs, ts, h => by
    rw [slotsMean_slot] at h
    rw [slotsBecome_slot]
    obtain ⟨name, hp, t, ts', h1, h2, rfl⟩ := h
    exact ⟨_, hp, Or.inl ⟨name, rfl, t, ts', becomes_of_means true e t h1,
      slotsBecome_of_mean cs ts' h2, rfl⟩⟩
end

/-- C47.  What a correct tree stands for is also what is generated for it in spite of errors. -/
theorem rootBecomes_of_means {cs : List Child} {t : Toks} (h : RootMeans cs t) :
    RootBecomes cs t := by
  obtain ⟨h1, ns, h2, h3⟩ := h
  exact ⟨h1, ns, nodesBecome_of_mean cs ns h2, h3⟩

/-! ### the macro -/

theorem reading_shows (hl : LexicalToks ts) (h : ReadsChildren pp ts is cs) :
    Shows (mviewImpl pp s ts) (is ++ rootIssues cs) ∧
      ∀ ds out, mviewImpl pp s ts = .ret ds out → RootBecomes cs out := by
  have hg := reading_given hl h
  have hok : ∀ ds q, parseChildren pp ts = .ret ds q →
      q = .ok cs [] ∧ childrenOk (noAssumption pp) cs := by
    intro ds q hq
    obtain rfl := hg.2 ds q hq
    have := parseChildren_wp (I := noAssumption pp) (ts := ts) trivial
    rw [hq] at this
    exact ⟨rfl, this.1⟩
  unfold mviewImpl
  rw [Out.monad_bind]
  constructor
  · refine hg.1.bind' fun ds q hq => ?_
    obtain ⟨rfl, h'⟩ := hok ds q hq
    exact root_shows (I := noAssumption pp) s cs h'
  · intro ds out ho
    have := Out.got_eq_some.mpr ⟨ds, ho⟩
    rw [Out.got_bind, Option.bind_eq_some_iff] at this
    obtain ⟨q, hq, ho⟩ := this
    obtain ⟨ds', hq⟩ := Out.got_eq_some.mp hq
    obtain ⟨rfl, h'⟩ := hok ds' q hq
    obtain ⟨ds'', ho⟩ := Out.got_eq_some.mp ho
    exact expandRoot_becomes h' ho

/-- C47.  Whatever errors are reported, as long as the macro is not stopped, the expansion is that of the tree
the input is read as, with the wrong pieces left out or replaced. -/
theorem nightly_sound {ds : List Diag} (hl : LexicalToks ts) (h : ReadsChildren pp ts is cs)
    (hv : verdict (is ++ rootIssues cs) = .errors ds) :
    ∃ out, mviewNightly pp s ts = .done ds out ∧ RootBecomes cs out := by
  obtain ⟨h1, h2⟩ := reading_shows (s := s) hl h
  unfold Shows at h1
  rw [hv] at h1
  unfold mviewNightly
  cases ho : mviewImpl pp s ts with
  | ret es out =>
    rw [ho] at h1
    simp only [Out.Is] at h1
    subst h1
    exact ⟨out, rfl, h2 _ _ ho⟩
  | _ => rw [ho] at h1; simp only [Out.Is] at h1

/-- C47.  Every such expansion can come about (they differ in the order of slots). -/
theorem nightly_complete {ds : List Diag} {out : Toks} (hl : LexicalToks ts)
    (h : ReadsChildren pp ts is cs) (hv : verdict (is ++ rootIssues cs) = .errors ds)
    (hr : RootBecomes cs out) : ∃ s, mviewNightly pp s ts = .done ds out := by
  have hg := reading_given hl h
  -- some run reaches the end of parsing
  obtain ⟨out', ho', _⟩ := nightly_sound (s := fun _ => []) hl h hv
  have hp : ∃ ds', parseChildren pp ts = .ret ds' (.ok cs []) := by
    unfold mviewNightly mviewImpl at ho'
    rw [Out.monad_bind] at ho'
    cases hq : parseChildren pp ts with
    | ret ds' q => exact ⟨ds', by rw [hg.2 ds' q hq]⟩
    | abort es =>
      exfalso
      have h1 := (reading_shows (s := fun _ => []) hl h).1
      unfold Shows at h1
      rw [hv] at h1
      unfold mviewImpl at h1
      rw [Out.monad_bind, hq] at h1
      simp only [Out.bind, Out.Is] at h1
    | panic p => rw [hq] at ho'; simp [Out.bind] at ho'
    | diverge => rw [hq] at ho'; simp [Out.bind] at ho'
  obtain ⟨ds', hp⟩ := hp
  have h' : childrenOk (noAssumption pp) cs := by
    have := parseChildren_wp (I := noAssumption pp) (ts := ts) trivial
    rw [hp] at this
    exact this.1
  obtain ⟨s, es, hs⟩ := expandRoot_reaches h' hr
  refine ⟨s, ?_⟩
  have : mviewImpl pp s ts = .ret (ds' ++ es) out := by
    unfold mviewImpl
    rw [Out.monad_bind, hp, Out.bind_ret]
    simp only [hs]
    rfl
  obtain ⟨out'', ho, _⟩ := nightly_sound (s := s) hl h hv
  unfold mviewNightly at ho ⊢
  rw [this] at ho ⊢
  simp only [NightlyResult.done.injEq] at ho ⊢
  exact ⟨ho.1, trivial⟩

/-- C47.  If the macro is stopped, `()` is all that is generated. -/
theorem nightly_stopped {ds : List Diag} (hl : LexicalToks ts) (h : ReadsChildren pp ts is cs)
    (hv : verdict (is ++ rootIssues cs) = .stopped ds) : mviewNightly pp s ts = .done ds t!"()" := by
  have h1 := (reading_shows (s := s) hl h).1
  unfold Shows at h1
  rw [hv] at h1
  unfold mviewNightly
  cases ho : mviewImpl pp s ts with
  | abort es => rw [ho] at h1; simp only [Out.Is] at h1; subst h1; rfl
  | _ => rw [ho] at h1; simp only [Out.Is] at h1

/-- C47.  It crashes for the same inputs. -/
theorem nightly_crashed (hl : LexicalToks ts) (h : ReadsChildren pp ts is cs)
    (hv : verdict (is ++ rootIssues cs) = .crashed) : ∃ p, mviewNightly pp s ts = .panicked p := by
  have h1 := (reading_shows (s := s) hl h).1
  unfold Shows at h1
  rw [hv] at h1
  unfold mviewNightly
  cases ho : mviewImpl pp s ts with
  | panic p => exact ⟨p, rfl⟩
  | _ => rw [ho] at h1; simp only [Out.Is] at h1

/-- C47.  It never hangs. -/
theorem nightly_ends (hl : LexicalToks ts) : mviewNightly pp s ts ≠ .hangs := by
  obtain ⟨is, cs, h⟩ := reading_exists (pp := pp) hl
  intro hh
  cases hv : verdict (is ++ rootIssues cs) with
  | errors ds => obtain ⟨out, ho, _⟩ := nightly_sound (s := s) hl h hv; simp [hh] at ho
  | stopped ds => have := nightly_stopped (s := s) hl h hv; simp [hh] at this
  | crashed => obtain ⟨p, ho⟩ := nightly_crashed (s := s) hl h hv; simp [hh] at ho

theorem verdict_stopped_ne {is : List Issue} {ds : List Diag} (h : verdict is = .stopped ds) :
    ds ≠ [] := by
  induction is generalizing ds with
  | nil => simp [verdict] at h
  | cons i is ih =>
    cases i with
    | report d =>
      simp only [verdict] at h
      cases hv : verdict is with
      | stopped es => rw [hv] at h; cases h; simp
      | _ => rw [hv] at h; simp [Verdict.add] at h
    | stop d => cases h; simp
    | crash => simp [verdict] at h

/-- C47.  Without errors, the feature makes no difference. -/
theorem nightly_accepts {out : Toks} (hl : LexicalToks ts) :
    mviewNightly pp s ts = .done [] out ↔ mview pp s ts = .tokens out := by
  obtain ⟨is, cs, h⟩ := reading_exists (pp := pp) hl
  have h1 := (reading_shows (s := s) hl h).1
  unfold Shows at h1
  unfold mviewNightly mview
  cases ho : mviewImpl pp s ts with
  | ret ds o => cases ds <;> simp
  | abort ds =>
    rw [ho] at h1
    cases hv : verdict (is ++ rootIssues cs) with
    | stopped es =>
      rw [hv] at h1
      simp only [Out.Is] at h1
      have := verdict_stopped_ne hv
      simp [h1, this]
    | _ => rw [hv] at h1; simp only [Out.Is] at h1
  | _ => simp

/-- C47.  With errors, the same ones are reported. -/
theorem nightly_errors {ds : List Diag} {t : Toks} (h : mview pp s ts = .errors ds t) :
    ∃ out, mviewNightly pp s ts = .done ds out := by
  unfold mviewNightly
  unfold mview at h
  cases ho : mviewImpl pp s ts with
  | ret es o => cases es <;> rw [ho] at h <;> simp at h; exact ⟨o, by rw [h.1]⟩
  | abort es => rw [ho] at h; simp at h; exact ⟨_, by rw [h.1]⟩
  | _ => rw [ho] at h; simp at h

/-! ### examples -/

/-- Five mistakes on an element, and what is generated anyway: a value with an unknown prefix, an event that is
a string, a modifier that is unknown, a directive that is unknown and one that is for components. -/
example : mviewNightly simplePaths (fun _ => [])
      t!"div a=x[b] on:\"click\":twice={c} foo:d={e} clone:g { {1} }" =
    .done [.unsupportedPrefix (plain c!"x"), .eventNotIdent c!"click", .unknownModifier (plain c!"twice"),
        .unknownDirective (plain c!"foo"), .directiveOnElement (plain c!"clone")]
      t!"{ #[allow(unused_braces)] ::leptos::prelude::IntoRender::into_render(
        ::leptos::tachys::html::element::r#div().r#a()
          .on(::leptos::tachys::html::event::invalid_event, {c})
          .child(::leptos::prelude::IntoRender::into_render({1}))) }" := rfl

/-- On a component: the string is replaced by an identifier, unknown directives are left out; of the slots, the
one whose name is a path is left out, and the class and the spread of the other. -/
example : mviewNightly simplePaths (fun _ => [])
      t!"Foo attr:\"id\"=1 foo:d={e} { slot:a::B; slot:Bar.c x=3 {..d}; }" =
    .done [.expectedIdentifier c!"id", .unknownDirective (plain c!"foo"), .slotNameIsPath, .selectorOnSlot,
        .spreadOnSlot]
      t!"{ #[allow(unused_braces)] ::leptos::prelude::IntoRender::into_render(
        #[allow(unreachable_code)] ::leptos::prelude::View::new(
          ::leptos::component::component_view(&Foo,
            ::leptos::component::component_props_builder(&Foo)
              .r#bar(::std::convert::Into::into(Bar::builder().r#x(3).build())).build()
          ).add_any_attr((::leptos::tachys::html::attribute::__invalid_identifier_found_str(1),)))) }" := rfl

/-- A slot at the top stops the macro. -/
example : mviewNightly simplePaths (fun _ => []) t!"div foo:d; slot:Bar;" =
    .done [.slotAtTopLevel] t!"()" := rfl

end Mview
