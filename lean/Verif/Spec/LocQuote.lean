import Verif.Spec.Quote
import Verif.Loc.Syn
/-
Writing located token lists as text.  In `qs! sp "f(#x)"` every token written in the text is at
`sp`; in `qc!"f(#x)"` it is at the call site.  What is spliced in keeps its place.  Like
`q!"..."` these are macros that expand to the explicit list.
-/

namespace Mview.Loc
open Lean

/-- Things that can be spliced into `qs!` and `qc!`. -/
class Splice (α : Type) (σ : outParam Type) where
  /-- the tokens -/
  splice : α → Toks σ

variable {σ : Type}

instance : Splice (List (TT σ)) σ := ⟨id⟩
instance : Splice (SIdent σ) σ := ⟨fun i => [.ident i.id i.sp]⟩
/-- text is spliced as a string literal -/
instance : Splice (SStr σ) σ := ⟨fun s => [.lit (.str s.str) s.sp]⟩

@[simp] theorem splice_toks (ts : List (TT σ)) : Splice.splice ts = ts := rfl
@[simp] theorem splice_ident (i : SIdent σ) : Splice.splice i = [.ident i.id i.sp] := rfl
@[simp] theorem splice_str (s : SStr σ) : Splice.splice s = [.lit (.str s.str) s.sp] := rfl

mutual
private partial def quoteTree (sp : TSyntax `term) (t : Lex.Tree) : MacroM (TSyntax `term) :=
  let chars (s : String) : MacroM (TSyntax `term) := do
    let cs := s.toList.toArray.map Syntax.mkCharLit
    `(([$cs,*] : List Char))
  match t with
  | .ident true s => do `(Mview.Loc.TT.ident ⟨true, $(← chars s)⟩ $sp)
  | .ident false s => do `(Mview.Loc.TT.ident ⟨false, $(← chars s)⟩ $sp)
  | .punct c true => `(Mview.Loc.TT.punct $(Syntax.mkCharLit c) Mview.Spacing.joint $sp)
  | .punct c false => `(Mview.Loc.TT.punct $(Syntax.mkCharLit c) Mview.Spacing.alone $sp)
  | .str s => do `(Mview.Loc.TT.lit (Mview.Lit.str $(← chars s)) $sp)
  | .int s => do `(Mview.Loc.TT.lit (Mview.Lit.int $(← chars s)) $sp)
  | .float s => do `(Mview.Loc.TT.lit (Mview.Lit.float $(← chars s)) $sp)
  | .other s => do `(Mview.Loc.TT.lit (Mview.Lit.other $(← chars s)) $sp)
  | .group d ts => do
    let inner ← quoteTrees sp ts
    let dl ← if d == '(' then `(Mview.Delim.paren) else if d == '[' then `(Mview.Delim.bracket)
      else `(Mview.Delim.brace)
    `(Mview.Loc.TT.group $dl $inner (Mview.Loc.DelimSpan.single $sp))
  | .hole _ => Macro.throwError "hole"

private partial def quoteTrees (sp : TSyntax `term) (ts : Array Lex.Tree) :
    MacroM (TSyntax `term) := do
  let mut parts : Array (TSyntax `term) := #[]
  let mut run : Array (TSyntax `term) := #[]
  for t in ts do
    match t with
    | .hole s =>
      if !run.isEmpty then
        parts := parts.push (← `(([$run,*] : Mview.Loc.Toks _)))
        run := #[]
      let id := mkIdentFrom (← MonadRef.getRef) s.toName (canonical := true)
      parts := parts.push (← `((Splice.splice $id : Mview.Loc.Toks _)))
    | t => run := run.push (← quoteTree sp t)
  if !run.isEmpty || parts.isEmpty then
    parts := parts.push (← `(([$run,*] : Mview.Loc.Toks _)))
  let last := parts.back!
  parts.pop.foldrM (fun p acc => `($p ++ $acc)) last
end

/-- The tokens of a text, all at the given place, with `#x` replaced by the value of `x`. -/
macro:max "qs! " sp:term:max s:str : term => do
  let (trees, _) := Lex.lexAux true s.getString.toList #[]
  let t ← quoteTrees sp trees
  `(($t : Mview.Loc.Toks _))

/-- The tokens of a text, all at the call site, with `#x` replaced by the value of `x`. -/
macro:max "qc!" s:str : term => do
  let (trees, _) := Lex.lexAux true s.getString.toList #[]
  let t ← quoteTrees (← `(Mview.Loc.Spans.callSite)) trees
  `(($t : Mview.Loc.Toks _))

end Mview.Loc
