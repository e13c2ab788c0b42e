import Verif.Model.Unread
import Verif.Spec.Reads
/-
What it should mean that the macro does not accept paths of which syn leaves some tokens unread: it is the macro
with a path parser that fails on them.  For which path there is an error: the first one, in the order of the input.
-/

namespace Mview

/-- The path parser that fails where `pp` leaves something. -/
def PathParser.strict (pp : PathParser) (u : Leaves) : PathParser where
  run ts := if (u ts).isSome then (none, ts) else pp.run ts
  progress ts p rest h := by
    split at h
    · cases h
    · exact pp.progress ts p rest h
  suffix ts rest h := by
    split at h
    · cases h; exact ⟨[], rfl⟩
    · exact pp.suffix ts rest h

/-- The macro neither stops nor crashes. -/
def GoesOn (is : List Issue) : Prop := ∀ i ∈ is, ∃ d, i = .report d

/-- The end of an element: the tokens in its block (none if there is no block) and those after the element. -/
inductive EndAt : Toks → Toks → Toks → Prop
  | semi {s rest} : EndAt (.punct ';' s :: rest) [] rest
  | block {d c rest} : d ≠ .bracket → EndAt (.group d c :: rest) c rest
  | closure {s args s' d c rest} : NoPipe args → d ≠ .bracket →
      EndAt (.punct '|' s :: (args ++ .punct '|' s' :: .group d c :: rest)) c rest
  | nothing : EndAt [] [] []
  | noBlock {s args s' rest} : NoPipe args → (∀ d c r, rest = .group d c :: r → d = .bracket) →
      EndAt (.punct '|' s :: (args ++ .punct '|' s' :: rest)) [] rest
  | other {t r} : (∀ s, t ≠ .punct ';' s) → (∀ s, t ≠ .punct '|' s) → (∀ d c, t = .group d c → d = .bracket) →
      EndAt (t :: r) [] (t :: r)

/-- The path that a tag is. -/
inductive TagPath : Toks → List Toks → Prop
  | path {ts} : PathStart ts → TagPath ts [ts]
  | name {ts} : ¬ PathStart ts → TagPath ts []

/-- The paths in an input, in order: where they start. -/
inductive PathsIn (pp : PathParser) : Toks → List Toks → Prop
  | nil : PathsIn pp [] []
  | value {v : CVal} {rest ps} : (∀ b, v = .bool b → ∀ c r, rest ≠ .group .bracket c :: r) →
      PathsIn pp rest ps → PathsIn pp (v.toks ++ rest) ps
  | elem {ts b r0 ti tag r1 si sels r2 ai attrs r3 ps c qs r4 rs} :
      ElemStart ts b r0 → ReadsTag pp r0 ti tag r1 → ReadsSels r1 si sels r2 → ReadsAttrs r2 ai attrs r3 →
      GoesOn (ti ++ (si ++ ai)) → TagPath r0 ps → EndAt r3 c r4 → PathsIn pp c qs → PathsIn pp r4 rs →
      PathsIn pp ts (ps ++ (qs ++ rs))
  | unclosed {ts b r0 ti tag r1 si sels r2 ai attrs s args ps} :
      ElemStart ts b r0 → ReadsTag pp r0 ti tag r1 → ReadsSels r1 si sels r2 →
      ReadsAttrs r2 ai attrs (.punct '|' s :: args) → GoesOn (ti ++ (si ++ ai)) → NoPipe args → TagPath r0 ps →
      PathsIn pp ts ps
  | noTagSemi {ts b r0 e s rest ps qs} : ElemStart ts b r0 → NoTag pp r0 e (.punct ';' s :: rest) →
      TagPath r0 ps → PathsIn pp rest qs → PathsIn pp ts (ps ++ qs)
  | noTag {ts b r0 e rest ps} : ElemStart ts b r0 → NoTag pp r0 e rest → (∀ s r, rest ≠ .punct ';' s :: r) →
      TagPath r0 ps → PathsIn pp ts ps
  | semi {s rest ps} : PathsIn pp rest ps → PathsIn pp (.punct ';' s :: rest) ps
  | other {t r} : NoValue (t :: r) → t.isIdent = false → (∀ s, t ≠ .punct ';' s) → PathsIn pp (t :: r) []

end Mview
