import Verif.Loc.Expand
/-
C44: places are only passed on.  Changing all places of the input changes those of the result
accordingly, and no places are made up.
-/

namespace Mview.Loc
variable {σ τ : Type}

/-! ### changing places -/

/-- A change of places that respects the call site and joining (src/span.rs:11). -/
class Move [Spans σ] [Spans τ] (m : σ → τ) : Prop where
  callSite : m callSite = callSite
  joinOr : ∀ a b, joinOr (m a) (m b) = m (joinOr a b)

/-- Change places. -/
def DelimSpan.move (m : σ → τ) (d : DelimSpan σ) : DelimSpan τ := ⟨m d.opening, m d.closing, m d.whole⟩

mutual
/-- Change places. -/
def TT.move (m : σ → τ) : TT σ → TT τ
  | .ident i s => .ident i (m s)
  | .punct c j s => .punct c j (m s)
  | .lit l s => .lit l (m s)
  | .group d ts s => .group d (moveToks m ts) (s.move m)
/-- Change places. -/
def moveToks (m : σ → τ) : List (TT σ) → List (TT τ)
  | [] => []
  | t :: ts => t.move m :: moveToks m ts
end

/-- Change places. -/
def LDiag.move (m : σ → τ) (d : LDiag σ) : LDiag τ := ⟨d.diag, m d.sp⟩

/-- Change places. -/
def MacroResult.move (m : σ → τ) : MacroResult σ → MacroResult τ
  | .tokens ts => .tokens (moveToks m ts)
  | .errors ds dummy => .errors (ds.map (LDiag.move m)) (moveToks m dummy)
  | .panicked p => .panicked p
  | .hangs => .hangs

/-- Change places. -/
def SIdent.move (m : σ → τ) (i : SIdent σ) : SIdent τ := ⟨i.id, m i.sp⟩
/-- Change places. -/
def PathArgs.move (m : σ → τ) : PathArgs σ → PathArgs τ
  | .none => .none
  | .angle t lt inner gt => .angle (t.map fun c => (m c.1, m c.2)) (m lt) (moveToks m inner) (m gt)
  | .paren inner sp => .paren (moveToks m inner) (m sp)
/-- Change places. -/
def PathSeg.move (m : σ → τ) (s : PathSeg σ) : PathSeg τ :=
  ⟨s.ident.move m, s.args.move m, (m s.sep.1, m s.sep.2)⟩
/-- Change places. -/
def Path.move (m : σ → τ) (p : Path σ) : Path τ :=
  ⟨p.leading.map fun c => (m c.1, m c.2), p.segs.map (PathSeg.move m)⟩
/-- Change places. -/
def PathRun.move (m : σ → τ) : PathRun σ → PathRun τ
  | .path p rest => .path (p.move m) (moveToks m rest)
  | .error sp rest => .error (m sp) (moveToks m rest)

/-- The two path parsers do the same up to a change of places. -/
def PathParser.MovesTo {pp : Mview.PathParser} (lp : PathParser σ pp) (m : σ → τ)
    (lp' : PathParser τ pp) : Prop :=
  ∀ sc ts, lp'.run (m sc) (moveToks m ts) = (lp.run sc ts).move m

/-! ### all places -/

/-- The places. -/
def DelimSpan.spans (d : DelimSpan σ) : List σ := [d.opening, d.closing, d.whole]

mutual
/-- The places in a token. -/
def TT.spans : TT σ → List σ
  | .ident _ s => [s]
  | .punct _ _ s => [s]
  | .lit _ s => [s]
  | .group _ ts s => s.spans ++ toksSpans ts
/-- The places in tokens. -/
def toksSpans : List (TT σ) → List σ
  | [] => []
  | t :: ts => t.spans ++ toksSpans ts
end

/-- The places in the result: of the tokens of the expansion, or of the errors. -/
def MacroResult.spans : MacroResult σ → List σ
  | .tokens ts => toksSpans ts
  | .errors ds dummy => ds.map LDiag.sp ++ toksSpans dummy
  | .panicked _ => []
  | .hangs => []

/-- The places of `::` -/
def colonSpans (c : σ × σ) : List σ := [c.1, c.2]

/-- The places. -/
def PathArgs.spans : PathArgs σ → List σ
  | .none => []
  | .angle (some c) lt inner gt => colonSpans c ++ lt :: toksSpans inner ++ [gt]
  | .angle Option.none lt inner gt => lt :: toksSpans inner ++ [gt]
  | .paren inner sp => toksSpans inner ++ [sp]
/-- The places. -/
def PathSeg.spans (s : PathSeg σ) : List σ := s.ident.sp :: s.args.spans ++ colonSpans s.sep
/-- The places. -/
def Path.spans (p : Path σ) : List σ :=
  (match p.leading with | some c => colonSpans c | none => []) ++ p.segs.flatMap PathSeg.spans
/-- The places. -/
def PathRun.spans : PathRun σ → List σ
  | .path p rest => p.spans ++ toksSpans rest
  | .error sp rest => sp :: toksSpans rest

/-- The places that can be made of those in a list: these, the call site, and any two joined. -/
inductive Made [Spans σ] (l : List σ) : σ → Prop
  | callSite : Made l callSite
  | given {p : σ} (h : p ∈ l) : Made l p
  | join {a b c : σ} (ha : Made l a) (hb : Made l b) (h : Spans.join a b = some c) : Made l c

/-- The path parser makes up no places. -/
def PathParser.Honest [Spans σ] {pp : Mview.PathParser} (lp : PathParser σ pp) : Prop :=
  ∀ sc ts, ∀ p ∈ (lp.run sc ts).spans, Made (sc :: toksSpans ts) p

end Mview.Loc
