import Verif.Loc.EraseExpand
import Verif.Model.Lex
/-
For the examples: spans that are ranges of a text, `src!"..."` (a text and its tokens with their
places) and `simplePaths` with spans.
-/

namespace Mview.Loc

/-- A range of the text (from, to), or the call site. -/
inductive Rng where
  | callSite
  | range (lo hi : Nat)
  deriving DecidableEq, Repr

/-- Joining as on nightly: the smallest range covering both. -/
instance : Spans Rng where
  callSite := .callSite
  join
    | .range a b, .range c d => some (.range (min a c) (max b d))
    | _, _ => none
  join_self a := by cases a <;> simp

/-- A text and its tokens. -/
structure Source where
  text : Str
  toks : Toks Rng

/-- What a range covers; nothing for the call site. -/
def Source.excerpt (s : Source) : Rng → Option Str
  | .callSite => none
  | .range lo hi => some ((s.text.drop lo).take (hi - lo))

namespace Lexer
open Lean

private inductive LTree where
  | ident (raw : Bool) (s : String) (lo hi : Nat)
  | punct (c : Char) (joint : Bool) (lo : Nat)
  | lit (kind : Name) (s : String) (lo hi : Nat)
  | group (d : Char) (ts : Array LTree) (lo hi : Nat)
  deriving Inhabited

private def isIdStart (c : Char) : Bool := c.isAlpha || c == '_'
private def isIdCont (c : Char) : Bool := c.isAlphanum || c == '_'

/-- the trees, the rest after the closing delimiter, and its position -/
private partial def lexAux (p : Nat) (cs : List Char) (acc : Array LTree) :
    Array LTree × List Char × Nat :=
  match cs with
  | [] => (acc, [], p)
  | c :: r =>
    if c.isWhitespace then lexAux (p + 1) r acc
    else if c == ')' || c == ']' || c == '}' then (acc, r, p + 1)
    else if c == '(' || c == '[' || c == '{' then
      let (inner, rest, q) := lexAux (p + 1) r #[]
      lexAux q rest (acc.push (.group c inner p q))
    else if c == 'r' && r.head? == some '#' && (r.drop 1).head?.any isIdStart then
      let w := (r.drop 1).takeWhile isIdCont
      let q := p + 2 + w.length
      lexAux q ((r.drop 1).dropWhile isIdCont) (acc.push (.ident true (String.ofList w) p q))
    else if isIdStart c then
      let w := cs.takeWhile isIdCont
      let q := p + w.length
      lexAux q (cs.dropWhile isIdCont) (acc.push (.ident false (String.ofList w) p q))
    else if c.isDigit then
      let w := cs.takeWhile isIdCont
      let rest := cs.dropWhile isIdCont
      if rest.head? == some '.' && (rest.drop 1).head?.any Char.isDigit then
        let w2 := (rest.drop 1).takeWhile isIdCont
        let q := p + w.length + 1 + w2.length
        lexAux q ((rest.drop 1).dropWhile isIdCont)
          (acc.push (.lit ``Mview.Lit.float (String.ofList (w ++ ['.'] ++ w2)) p q))
      else
        let q := p + w.length
        lexAux q rest (acc.push (.lit ``Mview.Lit.int (String.ofList w) p q))
    else if c == '"' then
      let w := r.takeWhile (· != '"')
      let q := p + 2 + w.length
      lexAux q ((r.dropWhile (· != '"')).drop 1)
        (acc.push (.lit ``Mview.Lit.str (String.ofList w) p q))
    else if c == '\'' && (r.drop 1).head? == some '\'' then
      lexAux (p + 3) (r.drop 2)
        (acc.push (.lit ``Mview.Lit.other (String.ofList ('\'' :: r.take 2)) p (p + 3)))
    else
      let joint := match r with
        | d :: _ => !(d.isWhitespace || isIdCont d || "()[]{}\"".toList.contains d) || c == '\''
        | [] => false
      lexAux (p + 1) r (acc.push (.punct c joint p))

private def quoteChars (s : String) : MacroM (TSyntax `term) := do
  let cs := s.toList.toArray.map Syntax.mkCharLit
  `(([$cs,*] : List Char))

private def quoteRng (lo hi : Nat) : MacroM (TSyntax `term) :=
  `(Mview.Loc.Rng.range $(quote lo) $(quote hi))

mutual
private partial def quoteLTree (t : LTree) : MacroM (TSyntax `term) :=
  match t with
  | .ident raw s lo hi => do
    let r ← if raw then `(true) else `(false)
    `(Mview.Loc.TT.ident ⟨$r, $(← quoteChars s)⟩ $(← quoteRng lo hi))
  | .punct c joint lo => do
    let j ← if joint then `(Mview.Spacing.joint) else `(Mview.Spacing.alone)
    `(Mview.Loc.TT.punct $(Syntax.mkCharLit c) $j $(← quoteRng lo (lo + 1)))
  | .lit k s lo hi => do
    `(Mview.Loc.TT.lit ($(Lean.mkIdent k) $(← quoteChars s)) $(← quoteRng lo hi))
  | .group d ts lo hi => do
    let inner ← quoteLTrees ts
    let dl ← if d == '(' then `(Mview.Delim.paren) else if d == '[' then `(Mview.Delim.bracket)
      else `(Mview.Delim.brace)
    `(Mview.Loc.TT.group $dl $inner ⟨$(← quoteRng lo (lo + 1)), $(← quoteRng (hi - 1) hi),
      $(← quoteRng lo hi)⟩)

private partial def quoteLTrees (ts : Array LTree) : MacroM (TSyntax `term) := do
  let ts ← ts.mapM quoteLTree
  `(([$ts,*] : List (Mview.Loc.TT Mview.Loc.Rng)))
end

/-- A text and its tokens. -/
macro:max "src!" s:str : term => do
  let (trees, _, _) := lexAux 0 s.getString.toList #[]
  `(Mview.Loc.Source.mk $(← quoteChars s.getString) $(← quoteLTrees trees))

end Lexer

/-! ### `simplePaths` with spans -/

section
variable {σ : Type}

/-- see `Mview.angleBody`; also the span of the closing `>` -/
def angleBody : Nat → Toks σ → Option ((Toks σ × σ) × Toks σ)
  | _, [] => none
  | d, .punct c s p :: ts =>
    if c = '>' then
      match d with
      | 0 => some (([], p), ts)
      | d + 1 => (angleBody d ts).map fun ((a, q), b) => ((.punct c s p :: a, q), b)
    else if c = '<' then
      (angleBody (d + 1) ts).map fun ((a, q), b) => ((.punct c s p :: a, q), b)
    else (angleBody d ts).map fun ((a, q), b) => ((.punct c s p :: a, q), b)
  | d, t :: ts => (angleBody d ts).map fun ((a, q), b) => ((t :: a, q), b)

/-- see `Mview.simpleArgs` -/
def simpleArgs : Toks σ → Option (PathArgs σ × Toks σ)
  | .punct c s p :: ts =>
    if c = '<' then (angleBody 0 ts).map fun ((a, q), b) => (.angle none p a q, b)
    else
      match ts with
      | .punct c2 _ p2 :: .punct c3 _ p3 :: ts' =>
        if c = ':' ∧ s = .joint ∧ c2 = ':' ∧ c3 = '<' then
          (angleBody 0 ts').map fun ((a, q), b) => (.angle (some (p, p2)) p3 a q, b)
        else some (.none, .punct c s p :: ts)
      | _ => some (.none, .punct c s p :: ts)
  | ts => some (.none, ts)

/-- a leading `::` -/
def colons : Toks σ → Option ((σ × σ) × Toks σ)
  | .punct c s p :: .punct c2 _ p2 :: ts =>
    if s = .joint ∧ c = ':' ∧ c2 = ':' then some ((p, p2), ts) else none
  | _ => none

/-- see `Mview.simpleSegs` -/
def simpleSegs : Nat → Toks σ → Option (List (PathSeg σ) × Toks σ)
  | 0, _ => none
  | n + 1, .ident i sp :: ts =>
    match simpleArgs ts with
    | none => none
    | some (a, rest) =>
      match colons rest with
      | some (c, rest') => (simpleSegs n rest').map fun (ss, r) => (⟨⟨i, sp⟩, a, c⟩ :: ss, r)
      | none => some ([⟨⟨i, sp⟩, a, (sp, sp)⟩], rest)
  | _ + 1, _ => none

/-- see `Mview.simpleRun`; errors are at the beginning -/
def simpleRun (sc : σ) (ts : Toks σ) : PathRun σ :=
  match colons ts with
  | some (c, ts') =>
    match simpleSegs (ts.length + 1) ts' with
    | some (ss, rest) => .path ⟨some c, ss⟩ rest
    | none => .error (spanAt sc ts) ts
  | none =>
    match simpleSegs (ts.length + 1) ts with
    | some (ss, rest) => .path ⟨none, ss⟩ rest
    | none => .error (spanAt sc ts) ts

theorem angleBody_erase (ts : Toks σ) : ∀ d, Mview.angleBody d (eraseToks ts) =
    (angleBody d ts).map fun r => (eraseToks r.1.1, eraseToks r.2) := by
  induction ts with
  | nil => intro d; cases d <;> rfl
  | cons t ts ih =>
    intro d
    cases t with
    | punct c s p =>
      simp only [eraseToks, TT.erase, angleBody, Mview.angleBody]
      by_cases h : c = '>'
      · subst h
        cases d with
        | zero => rfl
        | succ d => simp only [ih, if_true, Option.map_map]; rfl
      · rw [if_neg h]
        by_cases h' : c = '<'
        · subst h'; simp only [ih, if_true, Option.map_map]; rfl
        · rw [if_neg h']
          split
          · rename_i hh; simp at hh; exact absurd hh.1 h
          · rename_i hh; simp at hh; exact absurd hh.1 h'
          · simp only [ih, Option.map_map]; rfl
    | ident i p => simp only [eraseToks, TT.erase, angleBody, Mview.angleBody, ih, Option.map_map]; rfl
    | lit l p => simp only [eraseToks, TT.erase, angleBody, Mview.angleBody, ih, Option.map_map]; rfl
    | group d' g p => simp only [eraseToks, TT.erase, angleBody, Mview.angleBody, ih, Option.map_map]; rfl

theorem simpleArgs_erase (ts : Toks σ) : Mview.simpleArgs (eraseToks ts) =
    (simpleArgs ts).map fun r => (r.1.erase, eraseToks r.2) := by
  unfold Mview.simpleArgs
  match ts with
  | [] => rfl
  | .ident .. :: _ => rfl
  | .lit .. :: _ => rfl
  | .group .. :: _ => rfl
  | .punct c s p :: ts =>
    simp only [eraseToks, TT.erase, simpleArgs, Mview.peekPunct, decide_eq_true_eq]
    by_cases h : c = '<'
    · subst h
      simp only [if_true, List.drop_succ_cons, List.drop_zero, angleBody_erase, Option.map_map]; rfl
    · rw [if_neg h, if_neg h]
      match ts with
      | [] => cases s <;> rfl
      | .ident .. :: _ => cases s <;> rfl
      | .lit .. :: _ => cases s <;> rfl
      | .group .. :: _ => cases s <;> rfl
      | [.punct c2 s2 p2] => cases s <;> simp [eraseToks, TT.erase, Mview.peekPunct2, PathArgs.erase]
      | .punct c2 s2 p2 :: .ident .. :: _ => cases s <;> simp [eraseToks, TT.erase, Mview.peekPunct2, PathArgs.erase]
      | .punct c2 s2 p2 :: .lit .. :: _ => cases s <;> simp [eraseToks, TT.erase, Mview.peekPunct2, PathArgs.erase]
      | .punct c2 s2 p2 :: .group .. :: _ => cases s <;> simp [eraseToks, TT.erase, Mview.peekPunct2, PathArgs.erase]
      | .punct c2 s2 p2 :: .punct c3 s3 p3 :: ts =>
        cases s with
        | alone => simp [eraseToks, TT.erase, Mview.peekPunct2, PathArgs.erase]
        | joint =>
          simp only [eraseToks, TT.erase, Mview.peekPunct2, List.drop_succ_cons,
            List.drop_zero, Bool.and_eq_true, decide_eq_true_eq, true_and, and_assoc]
          split
          · simp only [angleBody_erase, Option.map_map]; rfl
          · simp [eraseToks, TT.erase, PathArgs.erase]

theorem colons_erase (ts : Toks σ) :
    (∀ c r, colons ts = some (c, r) →
      Mview.peekPunct2 ':' ':' (eraseToks ts) = true ∧ (eraseToks ts).drop 2 = eraseToks r) ∧
    (colons ts = none → Mview.peekPunct2 ':' ':' (eraseToks ts) = false) := by
  match ts with
  | [] => simp [colons, eraseToks, Mview.peekPunct2]
  | .ident .. :: _ => simp [colons, eraseToks, TT.erase, Mview.peekPunct2]
  | .lit .. :: _ => simp [colons, eraseToks, TT.erase, Mview.peekPunct2]
  | .group .. :: _ => simp [colons, eraseToks, TT.erase, Mview.peekPunct2]
  | [.punct c s p] => cases s <;> simp [colons, eraseToks, TT.erase, Mview.peekPunct2]
  | .punct c s p :: .ident .. :: _ => cases s <;> simp [colons, eraseToks, TT.erase, Mview.peekPunct2]
  | .punct c s p :: .lit .. :: _ => cases s <;> simp [colons, eraseToks, TT.erase, Mview.peekPunct2]
  | .punct c s p :: .group .. :: _ => cases s <;> simp [colons, eraseToks, TT.erase, Mview.peekPunct2]
  | .punct c s p :: .punct c2 s2 p2 :: ts =>
    cases s with
    | alone => simp [colons, eraseToks, TT.erase, Mview.peekPunct2]
    | joint =>
      simp only [colons, eraseToks, TT.erase, Mview.peekPunct2]
      by_cases h1 : c = ':' <;> by_cases h2 : c2 = ':' <;> simp [h1, h2]

theorem simpleSegs_erase (n : Nat) : ∀ ts : Toks σ, Mview.simpleSegs n (eraseToks ts) =
    (simpleSegs n ts).map fun r => (r.1.map PathSeg.erase, eraseToks r.2) := by
  induction n with
  | zero => intro ts; rfl
  | succ n ih =>
    intro ts
    match ts with
    | [] => rfl
    | .punct .. :: _ => rfl
    | .lit .. :: _ => rfl
    | .group .. :: _ => rfl
    | .ident i sp :: ts =>
      simp only [eraseToks, TT.erase, simpleSegs, Mview.simpleSegs, simpleArgs_erase]
      cases simpleArgs ts with
      | none => rfl
      | some r =>
        obtain ⟨a, rest⟩ := r
        simp only [Option.map_some]
        cases hc : colons rest with
        | none =>
          rw [(colons_erase rest).2 hc]
          simp [PathSeg.erase]
        | some c =>
          obtain ⟨c, r⟩ := c
          have := (colons_erase rest).1 c r hc
          rw [this.1, this.2, if_pos rfl, ih]
          simp only [Option.map_map]
          cases simpleSegs n r <;> rfl

theorem length_eraseToks (ts : Toks σ) : (eraseToks ts).length = ts.length := by
  induction ts with
  | nil => rfl
  | cons t ts ih => simp [eraseToks, ih]

theorem simpleRun_erase (sc : σ) (ts : Toks σ) :
    (simpleRun sc ts).erase = Mview.simpleRun (eraseToks ts) := by
  unfold simpleRun Mview.simpleRun
  simp only [length_eraseToks]
  cases hc : colons ts with
  | none =>
    rw [(colons_erase ts).2 hc]
    simp only [Bool.false_eq_true, if_false, simpleSegs_erase]
    cases simpleSegs (ts.length + 1) ts <;> rfl
  | some c =>
    obtain ⟨c, r⟩ := c
    have := (colons_erase ts).1 c r hc
    rw [this.1, this.2]
    simp only [if_true, simpleSegs_erase]
    cases simpleSegs (ts.length + 1) r <;> rfl

/-- `simplePaths` with spans -/
def simplePaths : PathParser σ Mview.simplePaths where
  run := simpleRun
  erases := simpleRun_erase

end

/-- The macro applied to a text. -/
def Source.run (s : Source) : MacroResult Rng := mview simplePaths (fun _ => []) s.toks

/-- The errors reported about a text, each with the excerpt it points at. -/
def Source.complaints (s : Source) : List (Diag × Option Str) :=
  match s.run with
  | .errors ds _ => ds.map fun d => (d.diag, s.excerpt d.sp)
  | _ => []

mutual
/-- The tokens with the excerpts they point at, in order; groups are flattened. -/
def Source.marksTT (s : Source) : TT Rng → List (Mview.TT × Option Str)
  | .group d ts p => (.group d [], s.excerpt p.whole) :: s.marks ts
  | .ident i p => [(.ident i, s.excerpt p)]
  | .punct c j p => [(.punct c j, s.excerpt p)]
  | .lit l p => [(.lit l, s.excerpt p)]
/-- The tokens with the excerpts they point at, in order; groups are flattened. -/
def Source.marks (s : Source) : List (TT Rng) → List (Mview.TT × Option Str)
  | [] => []
  | t :: ts => s.marksTT t ++ s.marks ts
end

end Mview.Loc
