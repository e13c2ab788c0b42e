import Verif.Spec.Messages
import Verif.Props.About
import Verif.Props.Kinds
import Verif.Props.Whole
/-
Lemmas for C72.
-/

namespace Mview
open Lex

set_option maxRecDepth 100000

/-- The mistake that is told by a text. -/
def mistakeOf (x : Str) : Option Diag :=
  if c!":` is not supported on slots".isSuffixOf x then
    some (.directiveOnSlot (plain ((x.drop 1).take (x.length - 29))))
  else if x = c!"expected a kebab-cased ident" then some (.synError .expectedKebab)
  else if x = c!"unexpected end of input, expected a kebab-cased ident" then some (.synError .expectedKebab)
  else if x = c!"expected ident" then some (.synError .expectedIdent)
  else if x = c!"unexpected end of input, expected ident" then some (.synError .expectedIdent)
  else if x = c!"invalid child: expected literal, block, bracket or element" then some (.synError .invalidChild)
  else if x = c!"unexpected end of input, invalid child: expected literal, block, bracket or element" then
    some (.synError .invalidChild)
  else if x = c!"found extra tokens trying to parse braced expression" then some (.synError (.extraTokens .brace))
  else if x = c!"unexpected end of input, found extra tokens trying to parse braced expression" then
    some (.synError (.extraTokens .brace))
  else
    ([.rawInKebab (plain []), .expectedIdentifier [], .unsupportedPrefix (plain []), .missingValue true, .missingValue false,
      .unterminated, .expectedChildrenBlock, .unknownAttribute, .childrenNotFound, .nonStringChild, .extraSemicolon,
      .synError .closureNotClosed, .selectorOnSlot, .spreadOnSlot, .unknownDirective (plain []),
      .directiveOnElement (plain c!"attr"), .directiveOnElement (plain c!"clone"), .modifierNotAllowed (plain []),
      .unknownModifier (plain []), .eventNotIdent [], .cloneValue, .slotNameIsPath, .slotAtTopLevel] : List Diag).find?
      fun d => (d.message [] false).literal = x

theorem mistakeOf_slot (n : Str) : mistakeOf (notOnSlots n).literal = some (.directiveOnSlot (plain n)) := by
  have h : (notOnSlots n).literal = '`' :: (n ++ c!":` is not supported on slots") := rfl
  rw [h]
  have h1 : c!":` is not supported on slots".isSuffixOf ('`' :: (n ++ c!":` is not supported on slots")) = true :=
    List.isSuffixOf_iff_suffix.mpr ((List.suffix_append _ _).trans (List.suffix_cons _ _))
  have h2 : ('`' :: (n ++ c!":` is not supported on slots")).length - 29 = n.length := by simp
  unfold mistakeOf
  rw [if_pos h1, h2]
  simp

theorem mistakeOf_message {d : Diag} (h : d.Occurs) (hp : d ≠ .synError .badPath) (path : Str) (e : Bool) :
    mistakeOf (d.message path e).literal = some d.mistake := by
  cases d with
  | directiveOnSlot d => exact mistakeOf_slot _
  | missingValue b => cases b <;> rfl
  | synError er =>
    simp only [Diag.Occurs, List.mem_cons, List.not_mem_nil, or_false] at h
    rcases h with rfl | rfl | rfl | rfl
    · rfl
    · cases e <;> rfl
    · cases e <;> rfl
    · exact absurd rfl hp
  | synAbort er =>
    simp only [Diag.Occurs, List.mem_cons, List.not_mem_nil, or_false] at h
    rcases h with rfl | rfl | rfl <;> cases e <;> rfl
  | directiveOnElement d =>
    simp only [Diag.Occurs, List.mem_cons, List.not_mem_nil, or_false] at h
    rcases h with rfl | rfl <;> rfl
  | functionGenerics => exact h.elim
  | _ => rfl

theorem listed_of {m : Message} (h : catalogue.elem m = true) : m ∈ catalogue := List.elem_iff.mp h

/-- What is said, unless at an end. -/
theorem message_listed {d : Diag} (h : d.Occurs) (hp : d ≠ .synError .badPath) (path : Str) (e : Bool)
    (he : e = true → d ≠ .synError .invalidChild ∧ d ≠ .synAbort (.extraTokens .brace)) :
    d.message path e ∈ catalogue ∨ ∃ i, d = .directiveOnSlot i ∧ d.message path e = notOnSlots i.display := by
  cases d with
  | directiveOnSlot d => exact .inr ⟨d, rfl, rfl⟩
  | missingValue b => left; cases b <;> exact listed_of rfl
  | synError er =>
    left
    simp only [Diag.Occurs, List.mem_cons, List.not_mem_nil, or_false] at h
    rcases h with rfl | rfl | rfl | rfl
    · exact listed_of rfl
    · cases e
      · exact listed_of rfl
      · exact absurd rfl (he rfl).1
    · cases e <;> exact listed_of rfl
    · exact absurd rfl hp
  | synAbort er =>
    left
    simp only [Diag.Occurs, List.mem_cons, List.not_mem_nil, or_false] at h
    rcases h with rfl | rfl | rfl
    · cases e <;> exact listed_of rfl
    · cases e
      · exact listed_of rfl
      · exact absurd rfl (he rfl).2
    · cases e <;> exact listed_of rfl
  | directiveOnElement d =>
    left
    simp only [Diag.Occurs, List.mem_cons, List.not_mem_nil, or_false] at h
    rcases h with rfl | rfl <;> exact listed_of rfl
  | functionGenerics => exact h.elim
  | _ => left; exact listed_of rfl

theorem readErrors_one (m : Message) (rest : Toks) :
    readErrors (m.compileError ++ rest) = (m.literal :: (readErrors rest).1, (readErrors rest).2) := by
  simp [Message.compileError, tAbs, tColon2, tId, tP, tBrace, tStr, readErrors, plain]

theorem readErrors_all (ms : List Message) (rest : Toks) (h : (readErrors rest).1 = []) :
    readErrors (ms.flatMap Message.compileError ++ rest) = (ms.map Message.literal, (readErrors rest).2) := by
  induction ms with
  | nil => simp [← h]
  | cons m ms ih => rw [List.flatMap_cons, List.append_assoc, readErrors_one, ih]; rfl

/-- The expansion is one block. -/
theorem output_block {pp : PathParser} {s : Sched} {ts out : Toks} (h : mview pp s ts = .tokens out) :
    ∃ inner, out = [.group .brace inner] := by
  obtain ⟨root, hp, -⟩ := mview_sound h
  obtain ⟨codes, -, ⟨x, -, rfl⟩ | ⟨-, xs, -, rfl⟩⟩ := expansion_shape hp h
  · exact ⟨_, rfl⟩
  · exact ⟨_, rfl⟩

end Mview

namespace Mview.Loc
open Lex

variable {σ : Type}

mutual
theorem markTT_erase : ∀ t : Mview.TT, (markTT t).erase = t
  | .ident _ => rfl
  | .punct _ _ => rfl
  | .lit _ => rfl
  | .group d ts => by simp [markTT, TT.erase, mark_erase ts]
theorem mark_erase : ∀ ts : Mview.Toks, eraseToks (mark ts) = ts
  | [] => rfl
  | t :: ts => by simp [mark, eraseToks, markTT_erase t, mark_erase ts]
end

/-- What `mark` does marks the ends. -/
theorem mark_marked (ts : Mview.Toks) : Marked (mark ts) := by
  have key : ∀ {e r}, From callSite (mark ts) e r → e = .fin ∧ ∃ ts', r = mark ts' := by
    intro e r h
    induction h with
    | start => exact ⟨rfl, ts, rfl⟩
    | next _ ih =>
      obtain ⟨rfl, ts', h⟩ := ih
      refine ⟨rfl, ?_⟩
      cases ts' with
      | nil => cases h
      | cons t ts' => cases h; exact ⟨ts', rfl⟩
    | inside _ ih =>
      obtain ⟨rfl, ts', h⟩ := ih
      cases ts' with
      | nil => cases h
      | cons t ts' =>
        cases t with
        | group d c => cases h; exact ⟨rfl, c, rfl⟩
        | ident i => cases h
        | punct c s => cases h
        | lit l => cases h
  constructor
  · intro e r h
    rw [(key h).1]
    rfl
  · intro e t r h
    obtain ⟨-, ts', h⟩ := key h
    cases ts' with
    | nil => cases h
    | cons t' ts' =>
      cases h
      cases t' <;> rfl

theorem next_openSpan (e : σ) (t : TT σ) (r : Toks σ) : nextPlace e (t :: r) = t.openSpan := by
  cases t <;> rfl

theorem Marked.next [Spans σ] [Ends σ] {ts : Toks σ} (h : Marked ts) {e : σ} {r : Toks σ} (hf : From callSite ts e r) :
    Ends.isEnd (nextPlace e r) = r.isEmpty := by
  cases r with
  | nil => exact h.ends hf
  | cons t r => rw [next_openSpan]; exact h.tokens hf

theorem erase_reported [Spans σ] {pp : Mview.PathParser} {lp : PathParser σ pp} {s : Sched} {ts : Toks σ} {ds : List (LDiag σ)}
    {out : Toks σ} (h : mview lp s ts = .errors ds out) :
    (Mview.mview pp s (eraseToks ts)).reported = some (ds.map LDiag.diag) := by
  rw [← mview_erase lp, h]
  rfl

end Mview.Loc
