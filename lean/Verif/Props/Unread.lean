import Verif.Lemmas.Unread
import Verif.Model.Lex
/-
C71: paths of which syn leaves tokens unread.
-/

namespace Mview
open Lex

variable {pp : PathParser} {u : Leaves} {s : Sched} {ts out : Toks}

/-- The strict path parser leads to the same tree, provided that nothing is left unread. -/
theorem strict_parses (hl : LexicalToks ts) {cs : List Child} :
    Parses (pp.strict u) ts cs ↔ Parses pp ts cs ∧ unread pp u ts = none := by
  rw [← reading_parses hl, ← reading_parses hl]
  exact strict_children _ ts (Nat.lt_succ_self _) hl cs

/-- What is in syn's cell at the end is about the first path, in the order of the input, that leaves something. -/
theorem unread_paths (hl : LexicalToks ts) {ps : List Toks} (hp : PathsIn pp ts ps) :
    unread pp u ts = ps.findSome? u :=
  unread_first hp _ (Nat.lt_succ_self _) hl

theorem impl_read (h : unread pp u ts = none) : mviewImplUnread pp u s ts = mviewImpl pp s ts := by
  unfold mviewImplUnread mviewImpl
  rw [h]
  rfl

theorem impl_unread {msg : Str} (h : unread pp u ts = some msg) :
    mviewImplUnread pp u s ts = (parseChildren pp ts).bind fun _ => .ret [] (compileError msg) := by
  unfold mviewImplUnread
  rw [h]
  rfl

theorem unread_nothing (h : unread pp u ts = none) : mviewUnread pp u s ts = mview pp s ts := by
  unfold mviewUnread mview
  rw [impl_read h]
  generalize mviewImpl pp s ts = o
  cases o with
  | ret ds out => cases ds <;> rfl
  | _ => rfl

/-- C71.  The code generated is what the macro with the strict path parser generates, or else the error of syn, and
then the strict path parser does not read the input without errors although `pp` does. -/
theorem unread_tokens (hl : LexicalToks ts) :
    mviewUnread pp u s ts = .tokens out ↔ mview (pp.strict u) s ts = .tokens out ∨
      ∃ msg ps, (∃ cs, Parses pp ts cs) ∧ (∀ cs, ¬ Parses (pp.strict u) ts cs) ∧
        PathsIn pp ts ps ∧ ps.findSome? u = some msg ∧ out = compileError msg := by
  cases hu : unread pp u ts with
  | none =>
    rw [unread_nothing hu, mview_tokens_iff, mview_tokens_iff]
    constructor
    · rintro ⟨cs, h1, h2⟩
      exact .inl ⟨cs, (strict_parses hl).mpr ⟨h1, hu⟩, h2⟩
    · rintro (⟨cs, h1, h2⟩ | ⟨msg, ps, -, -, hp, h, -⟩)
      · exact ⟨cs, ((strict_parses hl).mp h1).1, h2⟩
      · rw [← unread_paths hl hp, hu] at h
        cases h
  | some msg =>
    have hno : ∀ cs, ¬ Parses (pp.strict u) ts cs := by
      intro cs h
      have := ((strict_parses hl).mp h).2
      rw [hu] at this
      cases this
    unfold mviewUnread
    rw [impl_unread hu]
    constructor
    · intro h
      cases hp : parseChildren pp ts with
      | ret ds q =>
        rw [hp] at h
        cases ds with
        | nil =>
          have h : MacroResult.tokens (compileError msg) = .tokens out := h
          cases h
          obtain ⟨is, cs, hr⟩ := reading_exists (pp := pp) hl
          have hq := (reading_given hl hr).2 _ _ hp
          subst hq
          obtain ⟨ps, hps⟩ := paths_exist ((reading_parses hl).mpr hp) reports_nil
          exact .inr ⟨msg, ps, ⟨cs, hp⟩, hno, hps, by rw [← unread_paths hl hps, hu], rfl⟩
        | cons d ds => simp [Out.bind] at h
      | _ => rw [hp] at h; simp [Out.bind] at h
    · rintro (h | ⟨msg', ps, ⟨cs, h1⟩, -, hp, h2, rfl⟩)
      · obtain ⟨cs, h1, -⟩ := mview_tokens_iff.mp h
        exact absurd h1 (hno cs)
      · rw [← unread_paths hl hp, hu] at h2
        cases h2
        unfold Parses at h1
        rw [h1]
        rfl

/-- C71.  If no path leaves anything, the macro is the one that all other properties are about. -/
theorem unread_none (hl : LexicalToks ts) {ps : List Toks} (hp : PathsIn pp ts ps) (h : ∀ p ∈ ps, u p = none) :
    mviewUnread pp u s ts = mview pp s ts :=
  unread_nothing (by rw [unread_paths hl hp]; exact List.findSome?_eq_none_iff.mpr h)

/-- C71.  Unless the macro stops or crashes, there is a list of the paths in the input. -/
theorem unread_where {is : List Issue} {cs : List Child} (h : ReadsChildren pp ts is cs)
    (hr : GoesOn is) : ∃ ps, PathsIn pp ts ps ∧ ∀ p ∈ ps, Within p ts ∧ PathStart p :=
  (paths_exist h hr).imp fun _ hp => ⟨hp, paths_within hp⟩

/-- C71.  An input that is read without errors is either read by the strict path parser as well, with the same
result, or the result is the error of syn about the first path that leaves something. -/
theorem unread_reads (hl : LexicalToks ts) {cs : List Child} (h : Parses pp ts cs) :
    ∃ ps, PathsIn pp ts ps ∧
      ((ps.findSome? u = none ∧ Parses (pp.strict u) ts cs ∧
          mviewUnread pp u s ts = mview (pp.strict u) s ts) ∨
        ∃ msg, ps.findSome? u = some msg ∧ (∀ cs', ¬ Parses (pp.strict u) ts cs') ∧
          mviewUnread pp u s ts = .tokens (compileError msg) ∧
          mviewNightlyUnread pp u s ts = .done [] (compileError msg)) := by
  obtain ⟨ps, hp⟩ := paths_exist ((reading_parses hl).mpr h) reports_nil
  refine ⟨ps, hp, ?_⟩
  rw [← unread_paths hl hp]
  cases hu : unread pp u ts with
  | none =>
    have hs := (strict_parses (u := u) hl).mpr ⟨h, hu⟩
    refine .inl ⟨rfl, hs, ?_⟩
    rw [unread_nothing hu]
    unfold mview mviewImpl
    unfold Parses at h hs
    rw [h, hs]
  | some msg =>
    refine .inr ⟨msg, rfl, fun cs' h' => ?_, ?_⟩
    · have := ((strict_parses hl).mp h').2
      rw [hu] at this
      cases this
    · unfold Parses at h
      refine ⟨?_, ?_⟩
      · unfold mviewUnread
        rw [impl_unread hu, h]
        rfl
      · unfold mviewNightlyUnread
        rw [impl_unread hu, h]
        rfl

/-- C71.  If the input has issues and something is left unread, the errors are those of the issues: what the tree
would be reported for is not. -/
theorem unread_errors (hl : LexicalToks ts) {is : List Issue} {cs : List Child} (h : ReadsChildren pp ts is cs)
    {ps : List Toks} (hp : PathsIn pp ts ps) {p : Toks} (hm : p ∈ ps) (hu : u p ≠ none) :
    (mviewUnread pp u s ts).Is (verdict is) := by
  obtain ⟨msg, hu⟩ : ∃ msg, unread pp u ts = some msg := by
    rw [unread_paths hl hp]
    cases hf : ps.findSome? u with
    | some msg => exact ⟨msg, rfl⟩
    | none => exact absurd (List.findSome?_eq_none_iff.mp hf p hm) hu
  have hg := reading_given hl h
  have h1 := hg.1
  unfold Shows at h1
  unfold mviewUnread
  rw [impl_unread hu]
  generalize verdict is = v at h1
  generalize parseChildren pp ts = o at h1
  cases o with
  | ret es q =>
    cases v <;> simp only [Out.Is] at h1
    subst h1
    cases es with
    | nil => trivial
    | cons e es =>
      refine ⟨?_, rfl⟩
      simp
  | abort es =>
    cases v <;> simp only [Out.Is] at h1
    subst h1
    exact ⟨rfl, rfl⟩
  | panic p =>
    cases v <;> simp only [Out.Is] at h1
    trivial
  | diverge => cases v <;> simp only [Out.Is] at h1

/-- C71.  With the feature `nightly` the error of syn comes on top of the errors of the issues. -/
theorem unread_nightly (hl : LexicalToks ts) {is : List Issue} {cs : List Child} (h : ReadsChildren pp ts is cs)
    {ps : List Toks} (hp : PathsIn pp ts ps) {msg : Str} (hu : ps.findSome? u = some msg) {ds : List Diag}
    (hv : verdict is = .errors ds) : mviewNightlyUnread pp u s ts = .done ds (compileError msg) := by
  rw [← unread_paths hl hp] at hu
  have hg := reading_given hl h
  have h1 := hg.1
  unfold Shows at h1
  unfold mviewNightlyUnread
  rw [impl_unread hu]
  rw [hv] at h1
  generalize parseChildren pp ts = o at h1
  cases o with
  | ret es q =>
    simp only [Out.Is] at h1
    subst h1
    simp [Out.bind]
  | _ => simp only [Out.Is] at h1

/-! ### examples -/

/-- as syn does for `Name<[u8; 4 5]>` -/
def leavesArray : Leaves
  | .ident _ :: .punct '<' _ :: .group .bracket [_, _, _, .lit _] :: _ => some c!"unexpected token"
  | _ => none

set_option maxRecDepth 4000 in
/-- Only syn's error is seen. -/
example : mviewUnread simplePaths leavesArray (fun _ => []) t!"div { Name<[u8; 4 5]> a=1; \"x\" }" =
    .tokens (compileError c!"unexpected token") := rfl

set_option maxRecDepth 4000 in
/-- The errors of the parser hide it, and there are none about the slot at the top. -/
example : mviewUnread simplePaths leavesArray (fun _ => []) t!"slot:Name<[u8; 4 5]>; 1" =
    .errors [.nonStringChild] dummy ∧
    mview simplePaths (fun _ => []) t!"slot:Name<[u8; 4 5]>; 1" =
      .errors [.nonStringChild, .slotAtTopLevel] dummy := ⟨rfl, rfl⟩

/-- the same, with the name for a message -/
def leavesSize : Leaves
  | .ident i :: .punct '<' _ :: .group .bracket [_, _, _, .lit _] :: _ => some i.name
  | _ => none

set_option maxRecDepth 4000 in
/-- The first path counts: the one of the tag, then those in its block, then those after it. -/
example :
    mviewUnread simplePaths leavesSize (fun _ => []) t!"p; A<u8> |x| { B<[u8; 4 5]>; } C<[u8; 4 5]>;" =
      .tokens (compileError c!"B") ∧
    mviewUnread simplePaths leavesSize (fun _ => []) t!"A<[u8; 4 5]> { B<[u8; 4 5]>; }" =
      .tokens (compileError c!"A") := ⟨rfl, rfl⟩

set_option maxRecDepth 4000 in
/-- There are two paths here, and a list of them. -/
example : ∃ ps, PathsIn simplePaths t!"p; A<u8> |x| { a::B; }" ps ∧
    ∀ p ∈ ps, Within p t!"p; A<u8> |x| { a::B; }" ∧ PathStart p :=
  unread_where (is := []) (cs := _) ((reading_parses (lexical_of rfl)).mpr rfl) reports_nil

set_option maxRecDepth 4000 in
/-- Nothing is left of an array with the right length. -/
example : mviewUnread simplePaths leavesArray (fun _ => []) t!"Name<[u8; 4]>;" =
    mview (simplePaths.strict leavesArray) (fun _ => []) t!"Name<[u8; 4]>;" := rfl

set_option maxRecDepth 4000 in
/-- The strict parser has an error where syn leaves tokens. -/
example : mview (simplePaths.strict leavesArray) (fun _ => []) t!"div { Name<[u8; 4 5]> a=1; \"x\" }" =
    .errors [.synError .badPath] dummy := rfl

end Mview
