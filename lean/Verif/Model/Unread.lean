import Verif.Model.Nightly
/-
syn's bookkeeping of groups that were not read to their end.  A nested `ParseBuffer` that is dropped with tokens
left in it records this in a cell that it shares with the buffers around it, unless something is recorded
already; `parse2` looks into the cell at the end and returns `Err`, which is the `Err` branch of src/lib.rs:31.

All groups that leptos-mview opens itself are read to their end, or belong to a fork that is thrown away with its
own cell.  What remains is `syn::Path::parse` (src/ast/tag.rs:69), which opens groups within generic arguments:
`Foo<[u8; 4 5]>` leaves the `5`.
-/

namespace Mview

/-- What `syn::Path::parse` leaves: the message if, started at these tokens, it leaves some unread in a group. -/
abbrev Leaves := Toks → Option Str

/-- src/ast/tag.rs:63-71: what is recorded while the tag is parsed -/
def tagUnread (u : Leaves) (ts : Toks) : Option Str :=
  if peekPunct2 ':' ':' (skip ts) || peekPunct2 ':' ':' ts || peekPunct '<' (skip ts) then u ts else none

/-- src/ast/element.rs:54-60: the parts of an element in front of its block -/
def elementHead (pp : PathParser) : P (List Attr) := do
  let _ ← parseTag pp
  let _ ← parseSelectors
  parseAttrs

/-- src/ast/element.rs:61-106: the tokens in the block of children (empty if there is none) and those after the
element -/
def elementEnd (ts : Toks) : Option (Toks × Toks) :=
  match ts with
  | .punct ';' _ :: rest => some ([], rest)
  | .group .brace c :: rest => some (c, rest)
  | .group .paren c :: rest => some (c, rest)
  | .punct '|' _ :: _ =>
    match parseClosureArgs ts with
    | .ret _ (.ok _ (.group .brace c :: rest)) => some (c, rest)
    | .ret _ (.ok _ (.group .paren c :: rest)) => some (c, rest)
    | .ret _ (.ok _ rest) => some ([], rest)
    | _ => none
  | _ => some ([], ts)

/-- src/ast/children.rs:99-129: what is recorded while children are parsed; the first thing recorded stays. -/
def unreadF (pp : PathParser) (u : Leaves) : Nat → Toks → Option Str
  | 0, _ => none
  | fuel + 1, ts =>
    if isEmpty ts then none
    else
      match rollback parseValue ts with
      | .ret _ (.ok (some _) rest) => unreadF pp u fuel rest
      | _ =>
        if peekIdentAny ts then
          let start :=
            if peekKw c!"slot" ts && peekPunct ':' (skip ts) && !(peekPunct2 ':' ':' (skip ts)) then ts.drop 2
            else ts
          tagUnread u start <|>
            match elementHead pp start with
            | .ret _ (.ok _ end') =>
              match elementEnd end' with
              | some (content, rest) => unreadF pp u fuel content <|> unreadF pp u fuel rest
              | none => none
            | .ret _ (.err _ rest) => if peekPunct ';' rest then unreadF pp u fuel (rest.drop 1) else none
            | _ => none
        else if peekPunct ';' ts then unreadF pp u fuel (ts.drop 1)
        else none

/-- what is in the cell at the end -/
def unread (pp : PathParser) (u : Leaves) (ts : Toks) : Option Str := unreadF pp u (toksSize ts + 1) ts

/-- `syn::Error::to_compile_error` (src/lib.rs:31) -/
def compileError (msg : Str) : Toks :=
  tColon2 ++ tId c!"core" :: (tColon2 ++ [tId c!"compile_error", tP '!', tBrace [tStr msg]])

/-- src/lib.rs:24-65 `mview_impl` with the `Err` branch of src/lib.rs:31 -/
def mviewImplUnread (pp : PathParser) (u : Leaves) (s : Sched) (ts : Toks) : Out Toks := do
  let r ← parseChildren pp ts
  match unread pp u ts with
  | some msg => pure (compileError msg)
  | none =>
    match r with
    | .ok children _ => expandRoot s children
    | .err _ _ => pure []

/-- leptos-mview-macro/src/lib.rs:4-9 `mview` -/
def mviewUnread (pp : PathParser) (u : Leaves) (s : Sched) (ts : Toks) : MacroResult :=
  match mviewImplUnread pp u s ts with
  | .ret [] out => .tokens out
  | .ret ds _ => .errors ds dummy
  | .abort ds => .errors ds dummy
  | .panic p => .panicked p
  | .diverge => .hangs

/-- leptos-mview-macro/src/lib.rs:4-9 `mview` with the feature `nightly` -/
def mviewNightlyUnread (pp : PathParser) (u : Leaves) (s : Sched) (ts : Toks) : NightlyResult :=
  match mviewImplUnread pp u s ts with
  | .ret ds out => .done ds out
  | .abort ds => .done ds dummy
  | .panic p => .panicked p
  | .diverge => .hangs

end Mview
