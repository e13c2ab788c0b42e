import Verif.Spec.SynPath
import Verif.Spec.Reads
/-
C62: paths as they are written (The Rust Reference, "Paths in types"; without `Fn(..)`).  The tokens
of one generic argument that is not a lifetime are given by `ga`.
-/

namespace Mview
open Lex

/-- A generic argument: a lifetime, or something else, with the tokens that stand for it. -/
inductive WArg where
  | lifetime (i : Ident)
  | other (used printed : Toks)

def WArg.isLifetime : WArg → Bool
  | .lifetime _ => true
  | .other .. => false

/-- As written. -/
def WArg.toks : WArg → Toks
  | .lifetime i => [.punct '\'' .joint, .ident i]
  | .other used _ => used

/-- As generated. -/
def WArg.printed : WArg → Toks
  | .lifetime i => [.punct '\'' .joint, .ident i]
  | .other _ printed => printed

/-- The tokens are a generic argument if `t` comes next, whatever follows that. -/
def WArg.Wf (ga : ArgParser) (t : TT) : WArg → Prop
  | .lifetime _ => True
  | .other used printed =>
    (∀ s r, used ≠ .punct '>' s :: r) ∧
    (∀ i r, used = .punct '\'' .joint :: .ident i :: r → ∃ s r', r = .punct '+' s :: r') ∧
    ∀ after, ga.run (used ++ t :: after) = (some printed, t :: after)

/-- An argument, perhaps with a comma after it. -/
abbrev WArgComma := WArg × Option Spacing

def WArgComma.toks (a : WArgComma) : Toks := a.1.toks ++ a.2.toList.map (.punct ',' ·)

/-- The token after the argument. -/
def WArgComma.next (gt : Spacing) (a : WArgComma) : TT :=
  match a.2 with
  | some s => .punct ',' s
  | none => .punct '>' gt

def argsText (as : List WArgComma) : Toks := as.flatMap WArgComma.toks

/-- There are commas between the arguments; there may be one after the last. -/
def Separated : List WArgComma → Prop
  | [] => True
  | [_] => True
  | a :: as => a.2 ≠ none ∧ Separated as

/-- Tokens with commas in between, and after the last if there was one. -/
def joined : List (Toks × Bool) → Toks
  | [] => []
  | [(a, c)] => a ++ if c then [.punct ',' .alone] else []
  | (a, _) :: as => a ++ .punct ',' .alone :: joined as

/-- Lifetimes first. -/
def lifetimesFirst (as : List WArgComma) : List WArgComma :=
  as.filter (fun a => a.1.isLifetime) ++ as.filter (fun a => !a.1.isLifetime)

/-- `<..>` or `::<..>` -/
structure WGenerics where
  colons : Option Spacing
  lt : Spacing
  args : List WArgComma
  gt : Spacing

def colonsText (s : Spacing) : Toks := [.punct ':' .joint, .punct ':' s]

def WGenerics.toks (g : WGenerics) : Toks :=
  (match g.colons with | none => [] | some s => colonsText s) ++
    .punct '<' g.lt :: (argsText g.args ++ [.punct '>' g.gt])

def WGenerics.Wf (ga : ArgParser) (g : WGenerics) : Prop :=
  (∀ a ∈ g.args, a.1.Wf ga (a.next g.gt)) ∧ Separated g.args ∧
    (g.colons = none → g.lt = .joint → ∀ s r, argsText g.args ≠ .punct '=' s :: r)

def WGenerics.ast (g : WGenerics) : PathArgs :=
  .angle g.colons.isSome (joined ((lifetimesFirst g.args).map fun a => (a.1.printed, a.2.isSome)))

/-- A segment. -/
structure WSeg where
  ident : Ident
  generics : Option WGenerics

def WSeg.toks (s : WSeg) : Toks := .ident s.ident :: (match s.generics with | none => [] | some g => g.toks)

/-- `super`, `self` and `crate` do not have generics. -/
def Ident.Sole (i : Ident) : Prop := i ∈ [c!"super", c!"self", c!"crate"].map plain

/-- A name of a segment otherwise: no keyword, but `Self`. -/
def Ident.Segment (i : Ident) : Prop := ¬ i.Sole ∧ (i = plain c!"Self" ∨ WordNext [.ident i])

def WSeg.Wf (ga : ArgParser) (s : WSeg) : Prop :=
  match s.generics with
  | none => s.ident.Sole ∨ s.ident.Segment
  | some g => s.ident.Segment ∧ g.Wf ga

def WSeg.ast (s : WSeg) : PathSeg := ⟨s.ident, match s.generics with | none => .none | some g => g.ast⟩

/-- No generics come next: `<` is taken for such unless it is `<=`. -/
def WSeg.EndsBefore (s : WSeg) (after : Toks) : Prop :=
  s.ident.Segment → s.generics = none → ∀ l r, after = .punct '<' l :: r →
    l = .joint ∧ ∃ s' r', r = .punct '=' s' :: r'

/-- Segments with `::` in front of all but the first. -/
def segsText (first : WSeg) (more : List (Spacing × WSeg)) : Toks :=
  first.toks ++ more.flatMap fun x => colonsText x.1 ++ x.2.toks

/-- A path. -/
structure WPath where
  lead : Option Spacing
  first : WSeg
  more : List (Spacing × WSeg)

def WPath.segs (w : WPath) : List WSeg := w.first :: w.more.map Prod.snd

def WPath.toks (w : WPath) : Toks :=
  (match w.lead with | none => [] | some s => colonsText s) ++ segsText w.first w.more

def WPath.Wf (ga : ArgParser) (w : WPath) : Prop := ∀ s ∈ w.segs, s.Wf ga

def WPath.ast (w : WPath) : Path := ⟨w.lead.isSome, w.segs.map WSeg.ast⟩

/-- The path does not go on: there is no `::`, unless it is `::(`, and no generics. -/
def WPath.EndsBefore (w : WPath) (after : Toks) : Prop :=
  (∀ s r, after = colonsText s ++ r → ∃ c r', r = .group .paren c :: r') ∧
    ∀ s, w.segs.getLast? = some s → s.EndsBefore after

end Mview
