import Verif.Model.Tok
/-
Writing token lists as text.  `t!"div .a { 1 }"` is the token list of the text;
`q!"f(#x)"` is the same with the value of the Lean variable `x` spliced in.  Both are
macros that expand to the explicit list at elaboration time, so no theorem depends
on the lexer.
-/

namespace Mview.Lex
open Lean

/-- Things that can be spliced into `q!"..."`. -/
class Splice (α : Type) where
  /-- the tokens -/
  splice : α → Toks

instance : Splice (List TT) := ⟨id⟩
instance : Splice Ident := ⟨fun i => [.ident i]⟩
/-- text is spliced as a string literal -/
instance : Splice (List Char) := ⟨fun s => [.lit (.str s)]⟩

@[simp] theorem splice_toks (ts : List TT) : Splice.splice ts = ts := rfl
@[simp] theorem splice_ident (i : Ident) : Splice.splice i = [.ident i] := rfl
@[simp] theorem splice_str (s : List Char) : Splice.splice s = [.lit (.str s)] := rfl

/-- Token trees of the lexer. -/
inductive Tree where
  | ident (raw : Bool) (s : String)
  | punct (c : Char) (joint : Bool)
  | str (s : String)
  | int (s : String)
  | float (s : String)
  | other (s : String)
  | group (d : Char) (ts : Array Tree)
  | hole (s : String)
  deriving Inhabited

private def isIdStart (c : Char) : Bool := c.isAlpha || c == '_'
private def isIdCont (c : Char) : Bool := c.isAlphanum || c == '_'

/-- whether a hole starts here -/
def atHole (holes : Bool) (cs : List Char) : Bool :=
  match cs with
  | '#' :: c :: _ => holes && isIdStart c
  | _ => false

/-- The trees of a text and what is left of it; with `holes`, `#x` is a hole. -/
partial def lexAux (holes : Bool) (cs : List Char) (acc : Array Tree) :
    Array Tree × List Char :=
  match cs with
  | [] => (acc, [])
  | c :: r =>
    if c.isWhitespace then lexAux holes r acc
    else if atHole holes cs then
      lexAux holes (r.dropWhile isIdCont) (acc.push (.hole (String.ofList (r.takeWhile isIdCont))))
    else if c == ')' || c == ']' || c == '}' then (acc, r)
    else if c == '(' || c == '[' || c == '{' then
      let (inner, rest) := lexAux holes r #[]
      lexAux holes rest (acc.push (.group c inner))
    else if c == 'r' && r.head? == some '#' && (r.drop 1).head?.any isIdStart then
      let w := (r.drop 1).takeWhile isIdCont
      lexAux holes ((r.drop 1).dropWhile isIdCont) (acc.push (.ident true (String.ofList w)))
    else if isIdStart c then
      lexAux holes (cs.dropWhile isIdCont)
        (acc.push (.ident false (String.ofList (cs.takeWhile isIdCont))))
    else if c.isDigit then
      let w := cs.takeWhile isIdCont
      let rest := cs.dropWhile isIdCont
      if rest.head? == some '.' && (rest.drop 1).head?.any Char.isDigit then
        let w2 := (rest.drop 1).takeWhile isIdCont
        lexAux holes ((rest.drop 1).dropWhile isIdCont)
          (acc.push (.float (String.ofList (w ++ ['.'] ++ w2))))
      else lexAux holes rest (acc.push (.int (String.ofList w)))
    else if c == '"' then
      let w := r.takeWhile (· != '"')
      lexAux holes ((r.dropWhile (· != '"')).drop 1) (acc.push (.str (String.ofList w)))
    else if c == '\'' && (r.drop 1).head? == some '\'' then
      lexAux holes (r.drop 2) (acc.push (.other (String.ofList ('\'' :: r.take 2))))
    else
      let joint := match r with
        | d :: _ => !(d.isWhitespace || isIdCont d || "()[]{}\"".toList.contains d ||
            atHole holes r) || c == '\''
        | [] => false
      lexAux holes r (acc.push (.punct c joint))

mutual
private partial def quoteTree (t : Tree) : MacroM (TSyntax `term) :=
  let chars (s : String) : MacroM (TSyntax `term) := do
    let cs := s.toList.toArray.map Syntax.mkCharLit
    `(([$cs,*] : List Char))
  match t with
  | .ident true s => do `(Mview.TT.ident ⟨true, $(← chars s)⟩)
  | .ident false s => do `(Mview.TT.ident ⟨false, $(← chars s)⟩)
  | .punct c true => `(Mview.TT.punct $(Syntax.mkCharLit c) Mview.Spacing.joint)
  | .punct c false => `(Mview.TT.punct $(Syntax.mkCharLit c) Mview.Spacing.alone)
  | .str s => do `(Mview.TT.lit (Mview.Lit.str $(← chars s)))
  | .int s => do `(Mview.TT.lit (Mview.Lit.int $(← chars s)))
  | .float s => do `(Mview.TT.lit (Mview.Lit.float $(← chars s)))
  | .other s => do `(Mview.TT.lit (Mview.Lit.other $(← chars s)))
  | .group d ts => do
    let inner ← quoteTrees ts
    let dl ← if d == '(' then `(Mview.Delim.paren) else if d == '[' then `(Mview.Delim.bracket)
      else `(Mview.Delim.brace)
    `(Mview.TT.group $dl $inner)
  | .hole _ => Macro.throwError "hole"

private partial def quoteTrees (ts : Array Tree) : MacroM (TSyntax `term) := do
  -- maximal runs without holes, right-associated appends
  let mut parts : Array (TSyntax `term) := #[]
  let mut run : Array (TSyntax `term) := #[]
  for t in ts do
    match t with
    | .hole s =>
      if !run.isEmpty then
        parts := parts.push (← `(([$run,*] : Mview.Toks)))
        run := #[]
      let id := mkIdentFrom (← MonadRef.getRef) s.toName (canonical := true)
      parts := parts.push (← `((Splice.splice $id : Mview.Toks)))
    | t => run := run.push (← quoteTree t)
  if !run.isEmpty || parts.isEmpty then
    parts := parts.push (← `(([$run,*] : Mview.Toks)))
  let last := parts.back!
  parts.pop.foldrM (fun p acc => `($p ++ $acc)) last
end

/-- The tokens of a text. -/
macro:max "t!" s:str : term => do
  let (trees, _) := lexAux false s.getString.toList #[]
  quoteTrees trees

/-- The tokens of a text with `#x` replaced by the value of `x`. -/
macro:max "q!" s:str : term => do
  let (trees, _) := lexAux true s.getString.toList #[]
  let t ← quoteTrees trees
  `(($t : Mview.Toks))

end Mview.Lex
