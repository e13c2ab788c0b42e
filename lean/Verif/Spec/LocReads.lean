import Verif.Spec.Reads
import Verif.Spec.LocIssues
/-
C42: how any input with source spans is read, and where the errors found on the way are reported.

The rules are those of `Spec/Reads.lean` with places: `ReadsX sc ts is x rest` says that at the
beginning of `ts` there is an `x`, with issues `is`, and that `rest` is what follows; `sc` is where
errors about the end of the input are reported.  Conditions that have nothing to do with places are
those of `Spec/Reads.lean` about the tokens without spans.
-/

namespace Mview.Loc
open Lex

variable {σ : Type}

/-- A place for an error about what comes next: the next token (of a group, its opening
delimiter), or, if there is none, `sc`. -/
def nextPlace (sc : σ) : Toks σ → σ
  | [] => sc
  | .group _ _ b :: _ => b.opening
  | .ident _ p :: _ => p
  | .punct _ _ p :: _ => p
  | .lit _ p :: _ => p

/-! ### names -/

/-- `run` is a name, as long as possible, and `rest` what follows. -/
structure LongName (ts run rest : Toks σ) : Prop where
  split : ts = run ++ rest
  longest : LongestKebab (eraseToks ts) (eraseToks run) (eraseToks rest)

/-- The braces contain a name and nothing else. -/
def AllName (c : Toks σ) : Prop := LongName c c []

/-- Parts of a name must not be written `r#..`; each is reported where it is. -/
def rawIssues : Toks σ → List (Issue σ)
  | [] => []
  | _ :: run => run.filterMap fun
    | .ident i p => if i.raw then some (.report (.rawInKebab i) p) else none
    | _ => none

variable [Spans σ]

/-- The places of the words of a name: dashes have none.  (A minus directly before a number belongs to the
number if it is not the only dash there.) -/
def wordPlaces : Toks σ → List σ
  | .punct _ _ _ :: .punct _ _ p :: .lit (.int _) q :: run => joinOr p q :: wordPlaces run
  | .punct _ _ _ :: run => wordPlaces run
  | .ident _ p :: run => p :: wordPlaces run
  | .lit _ p :: run => p :: wordPlaces run
  | .group _ _ b :: run => b.whole :: wordPlaces run
  | [] => []

/-- The name and its places: that of the first token, also if it is a dash, and of the later words. -/
def kebabOf (run : Toks σ) : KebabIdent σ :=
  ⟨kebabText (eraseToks run), match run with | [] => [] | t :: run => t.place :: wordPlaces run⟩

/-! ### selectors -/

/-- Shorthands for classes and ids: as many as there are. -/
inductive ReadsSels : Toks σ → List (Issue σ) → List (Selector σ) → Toks σ → Prop
  | cls {s p ts run rest is sels left} : LongName ts run rest → ReadsSels rest is sels left →
      ReadsSels (.punct '.' s p :: ts) (rawIssues run ++ is) (.cls p (kebabOf run) :: sels) left
  | id {s p ts run rest is sels left} : LongName ts run rest → ReadsSels rest is sels left →
      ReadsSels (.punct '#' s p :: ts) (rawIssues run ++ is) (.id p (kebabOf run) :: sels) left
  | done {ts} : (∀ c s p r, ts = .punct c s p :: r → c = '.' ∨ c = '#' → ¬ NameStart (eraseToks r)) →
      ReadsSels ts [] [] ts

/-! ### values -/

/-- The tokens are a value. -/
inductive IsValue : Toks σ → Value σ → Prop
  | lit {l p} : IsValue [.lit l p] (.lit ⟨.tok l, p⟩)
  | true {p} : IsValue [.ident (plain c!"true") p] (.lit ⟨.bool true, p⟩)
  | false {p} : IsValue [.ident (plain c!"false") p] (.lit ⟨.bool false, p⟩)
  /-- a negative number is where both its tokens are -/
  | negInt {s p x q} : IsValue [.punct '-' s p, .lit (.int x) q] (.lit ⟨.tok (.int ('-' :: x)), joinOr p q⟩)
  | negFloat {s p x q} :
      IsValue [.punct '-' s p, .lit (.float x) q] (.lit ⟨.tok (.float ('-' :: x)), joinOr p q⟩)
  | block {c b} : IsValue [.group .brace c b] (.block c b)
  | bracket {c b} : IsValue [.group .bracket c b] (.bracket none c b)
  | pfx {i p c b} : IsValue [.ident i p, .group .bracket c b] (.bracket (some ⟨i, p⟩) c b)

/-- There is a value at the beginning of `ts`, and `rest` is what follows. -/
inductive ValueNext : Toks σ → Value σ → Toks σ → Prop
  | mk {used v rest} : IsValue used v →
      (∀ i p c b r, used = [.ident i p] → rest ≠ .group .bracket c b :: r) → ValueNext (used ++ rest) v rest

/-- `::leptos_mview::MissingValueAfterEq`, with every token at `p` -/
def placeholder (p : σ) : Toks σ :=
  [.punct ':' .joint p, .punct ':' .alone p, .ident (plain c!"leptos_mview") p,
   .punct ':' .joint p, .punct ':' .alone p, .ident (plain c!"MissingValueAfterEq") p]

/-- What follows an `=` (which is at `eq`): a value, or nothing that is one.  That is reported at the next
token, or at the `=` if there is none, and a placeholder there is read. -/
inductive ReadsValue (eq : σ) : Toks σ → List (Issue σ) → Value σ → Toks σ → Prop
  | value {ts v rest} : ValueNext ts v rest → ReadsValue eq ts [] v rest
  | missing {ts help} : NoValue (eraseToks ts) → (help = true ↔ WordNext (eraseToks ts)) →
      ReadsValue eq ts [.report (.missingValue help) (nextPlace eq ts)]
        (.block (placeholder (nextPlace eq ts)) (.single (nextPlace eq ts))) ts

/-- Perhaps `=value`. -/
inductive ReadsEq : Toks σ → List (Issue σ) → Option (Value σ) → Toks σ → Prop
  | some {s p ts is v rest} : ReadsValue p ts is v rest → ReadsEq (.punct '=' s p :: ts) is (some v) rest
  | none {ts} : (∀ s p r, ts ≠ .punct '=' s p :: r) → ReadsEq ts [] none ts

/-! ### attributes -/

omit [Spans σ] in
/-- Perhaps `:modifier`. -/
inductive ReadsModifier : Toks σ → Option (SIdent σ) → Toks σ → Prop
  | some {s p m q rest} : ReadsModifier (.punct ':' s p :: .ident m q :: rest) (some ⟨m, q⟩) rest
  | none {ts} : (∀ s p r, ts ≠ .punct ':' s p :: r) → ReadsModifier ts none ts

/-- The key of a directive. -/
inductive ReadsKey : Toks σ → List (Issue σ) → KebabOrStr σ → Toks σ → Prop
  | str {x p rest} : ReadsKey (.lit (.str x) p :: rest) [] (.str ⟨x, p⟩) rest
  | name {ts run rest} : LongName ts run rest → ReadsKey ts (rawIssues run) (.kebab (kebabOf run)) rest

/-- The value in `{name}`: the braces are kept, the variable is where the name is. -/
def shortValue (c : Toks σ) (b : DelimSpan σ) : Value σ :=
  .block [.ident (identOf (eraseToks c)) (kebabOf c).place] b

/-- Attributes: as many as there are. -/
inductive ReadsAttrs (sc : σ) : Toks σ → List (Issue σ) → List (Attr σ) → Toks σ → Prop
  /-- `{name}` -/
  | short {c b rest is as left} : AllName c → ReadsAttrs sc rest is as left →
      ReadsAttrs sc (.group .brace c b :: rest) (rawIssues c ++ (nameIssues (kebabText (eraseToks c)) ++ is))
        (.kv ⟨kebabOf c, shortValue c b⟩ :: as) left
  /-- `{..expr}` -/
  | spread {p s q e b rest is as left} : ReadsAttrs sc rest is as left →
      ReadsAttrs sc (.group .brace (.punct '.' .joint p :: .punct '.' s q :: e) b :: rest) is
        (.spread ⟨b, (p, q), e⟩ :: as) left
  /-- `name` or `name=value`; if there is no value, it is `true`, which is nowhere in the source -/
  | kv {ts run rest js v rest' is as left} : LongName ts run rest →
      (∀ d p s q r, ts ≠ .ident d p :: .punct ':' s q :: r) → ReadsEq rest js v rest' →
      ReadsAttrs sc rest' is as left →
      ReadsAttrs sc ts (rawIssues run ++ (js ++ is))
        (.kv ⟨kebabOf run, v.getD (.lit ⟨.bool true, callSite⟩)⟩ :: as) left
  /-- `directive:{name}` -/
  | dirShort {d p s q c b rest m rest' is as left} : AllName c → ReadsModifier rest m rest' →
      ReadsAttrs sc rest' is as left →
      ReadsAttrs sc (.ident d p :: .punct ':' s q :: .group .brace c b :: rest)
        (rawIssues c ++ (nameIssues (kebabText (eraseToks c)) ++ is))
        (.directive ⟨⟨d, p⟩, .kebab (kebabOf c), m, some (shortValue c b)⟩ :: as) left
  /-- `directive:key` or `directive:key=value` -/
  | dir {d p s q ts ks key r1 m r2 js v r3 is as left} : ReadsKey ts ks key r1 → ReadsModifier r1 m r2 →
      ReadsEq r2 js v r3 → ReadsAttrs sc r3 is as left →
      ReadsAttrs sc (.ident d p :: .punct ':' s q :: ts) (ks ++ (js ++ is))
        (.directive ⟨⟨d, p⟩, key, m, v⟩ :: as) left
  /-- `directive:{name ..}`: the macro stops, at what is after the name -/
  | dirMore {d p s q c b run t r rest} : LongName c run (t :: r) →
      ReadsAttrs sc (.ident d p :: .punct ':' s q :: .group .brace c b :: rest)
        (rawIssues run ++ [.stop (.synAbort (.extraTokens .brace)) (nextPlace b.closing (t :: r))]) [] []
  /-- `directive:{..}` otherwise: the macro stops, at the first token between the braces or at the closing
  brace -/
  | dirNoName {d p s q c b rest} : ¬ NameStart (eraseToks c) →
      ReadsAttrs sc (.ident d p :: .punct ':' s q :: .group .brace c b :: rest)
        [.stop (.synAbort .expectedKebab) (nextPlace b.closing c)] [] []
  /-- `directive:` without a key: the macro stops, at what is there instead -/
  | dirNoKey {d p s q ts} : ¬ NameStart (eraseToks ts) → (∀ x p' r, ts ≠ .lit (.str x) p' :: r) →
      (∀ c b r, ts ≠ .group .brace c b :: r) →
      ReadsAttrs sc (.ident d p :: .punct ':' s q :: ts)
        [.stop (.synAbort .expectedKebab) (nextPlace sc ts)] [] []
  /-- `directive:{name}:` without a modifier: the macro stops, at what is there instead -/
  | dirShortNoModifier {d p s q c b s' q' rest} : AllName c → (∀ i p' r, rest ≠ .ident i p' :: r) →
      ReadsAttrs sc (.ident d p :: .punct ':' s q :: .group .brace c b :: .punct ':' s' q' :: rest)
        (rawIssues c ++ (nameIssues (kebabText (eraseToks c)) ++
          [.stop (.synAbort .expectedIdent) (nextPlace sc rest)])) [] []
  /-- `directive:key:` without a modifier: the macro stops, at what is there instead -/
  | dirNoModifier {d p s q ts ks key s' q' rest} : ReadsKey ts ks key (.punct ':' s' q' :: rest) →
      (∀ i p' r, rest ≠ .ident i p' :: r) →
      ReadsAttrs sc (.ident d p :: .punct ':' s q :: ts)
        (ks ++ [.stop (.synAbort .expectedIdent) (nextPlace sc rest)]) [] []
  /-- other braces that start with a name: the name is looked at in vain -/
  | brace {c b run t r rest} : LongName c run (t :: r) →
      ReadsAttrs sc (.group .brace c b :: rest) (rawIssues run) [] (.group .brace c b :: rest)
  /-- anything else -/
  | done {ts} : ¬ NameStart (eraseToks ts) →
      (∀ c b r, ts = .group .brace c b :: r → ¬ NameStart (eraseToks c) ∧ ¬ IsSpread (eraseToks c)) →
      ReadsAttrs sc ts [] [] ts

/-! ### tags -/

/-- The tag a name stands for; it is where the name is. -/
def tagOf (k : KebabIdent σ) : Option (Tag σ) :=
  match kindOf k.repr with
  | .component => (rawIdentOf k.repr).map fun i => .component (.ofIdent ⟨plain i.name, k.place⟩)
  | .svg => (rawIdentOf k.repr).map fun i => .svg ⟨i, k.place⟩
  | .webComponent => some (.webComponent k)
  | .math => (rawIdentOf k.repr).map fun i => .math ⟨i, k.place⟩
  | .html => (rawIdentOf k.repr).map fun i => .html ⟨i, k.place⟩

variable {pp : Mview.PathParser}

/-- A tag. -/
inductive ReadsTag (lp : PathParser σ pp) (sc : σ) : Toks σ → List (Issue σ) → Tag σ → Toks σ → Prop
  | path {ts p rest} : PathStart (eraseToks ts) → lp.run sc ts = .path p rest →
      ReadsTag lp sc ts [] (.component p) rest
  | name {ts run rest tag} : ¬ PathStart (eraseToks ts) → LongName ts run rest →
      tagOf (kebabOf run) = some tag → ReadsTag lp sc ts (rawIssues run) tag rest
  /-- the name cannot be an identifier -/
  | crash {ts run rest tag} : ¬ PathStart (eraseToks ts) → LongName ts run rest →
      tagOf (kebabOf run) = none → ReadsTag lp sc ts (rawIssues run ++ [.crash]) tag []

omit [Spans σ] in
/-- No tag: the error, its place, and the tokens at which it is noticed. -/
inductive NoTag (lp : PathParser σ pp) (sc : σ) : Toks σ → Err → σ → Toks σ → Prop
  | path {ts p rest} : PathStart (eraseToks ts) → lp.run sc ts = .error p rest → NoTag lp sc ts .badPath p rest
  | name {ts} : ¬ PathStart (eraseToks ts) → ¬ NameStart (eraseToks ts) →
      NoTag lp sc ts .expectedKebab (nextPlace sc ts) ts

/-! ### children -/

omit [Spans σ] in
/-- An element (`none`) or slot (with the place of that word) starts here; the tag comes next. -/
inductive ElemStart : Toks σ → Option σ → Toks σ → Prop
  | slot {p s q r} : ¬ StartsColons (.punct ':' s :: eraseToks r) →
      ElemStart (.ident (plain c!"slot") p :: .punct ':' s q :: r) (some p) r
  | elem {i p r} : NoValue (.ident i :: eraseToks r) → ¬ SlotStart (.ident i :: eraseToks r) →
      ElemStart (.ident i p :: r) none (.ident i p :: r)

omit [Spans σ] in
/-- The child. -/
def asChild (slot : Option σ) (e : Element σ) : Child σ :=
  match slot with
  | some p => .slot p e
  | none => .elem e

omit [Spans σ] in
/-- There is no pipe among these tokens. -/
def NoPipe (ts : Toks σ) : Prop := ∀ t ∈ ts, ∀ s p, t ≠ .punct '|' s p

omit [Spans σ] in
/-- Closure arguments are kept with their pipes. -/
def piped (p : σ) (args : Toks σ) (q : σ) : Toks σ := .punct '|' .alone p :: (args ++ [.punct '|' .alone q])

mutual
/-- The end of an element: closure arguments and children.  The tag is at `tp`. -/
inductive ReadsEnd (lp : PathParser σ pp) :
    σ → σ → Toks σ → List (Issue σ) → Option (Toks σ) → Option (List (Child σ)) → Toks σ → Prop
  | semi {sc tp s p rest} : ReadsEnd lp sc tp (.punct ';' s p :: rest) [] none none rest
  | block {sc tp d c b rest is cs} : d ≠ .bracket → ReadsChildren lp b.closing c is cs →
      ReadsEnd lp sc tp (.group d c b :: rest) is none (some cs) rest
  | closure {sc tp s p args s' p' d c b rest is cs} : NoPipe args → d ≠ .bracket →
      ReadsChildren lp b.closing c is cs →
      ReadsEnd lp sc tp (.punct '|' s p :: (args ++ .punct '|' s' p' :: .group d c b :: rest)) is
        (some (piped p args p')) (some cs) rest
  /-- the input is over: reported at the tag -/
  | nothing {sc tp} : ReadsEnd lp sc tp [] [.report .unterminated tp] none none []
  /-- no block after the arguments: reported at what is there instead -/
  | noBlock {sc tp s p args s' p' rest} : NoPipe args →
      (∀ d c b r, rest = .group d c b :: r → d = .bracket) →
      ReadsEnd lp sc tp (.punct '|' s p :: (args ++ .punct '|' s' p' :: rest))
        [.report .expectedChildrenBlock (nextPlace sc rest)] (some (piped p args p')) none rest
  /-- anything else: reported there, and from the tag up to there -/
  | other {sc tp t r} : (∀ s p, t ≠ .punct ';' s p) → (∀ s p, t ≠ .punct '|' s p) →
      (∀ d c b, t = .group d c b → d = .bracket) →
      ReadsEnd lp sc tp (t :: r) [.report .unknownAttribute (nextPlace sc (t :: r)),
        .report .childrenNotFound (joinOr tp (nextPlace sc (t :: r)))] none none (t :: r)

/-- All children. -/
inductive ReadsChildren (lp : PathParser σ pp) : σ → Toks σ → List (Issue σ) → List (Child σ) → Prop
  | nil {sc} : ReadsChildren lp sc [] [] []
  | value {sc ts v rest is cs} : ValueNext ts v rest →
      (∀ l p, v = .lit ⟨l, p⟩ → ∃ x, l = .tok (.str x)) → ReadsChildren lp sc rest is cs →
      ReadsChildren lp sc ts is (.value v :: cs)
  /-- a literal that is not a string is reported, and read as an empty one that is nowhere in the source -/
  | literal {sc ts l p rest is cs} : ValueNext ts (.lit ⟨l, p⟩) rest → (∀ x, l ≠ .tok (.str x)) →
      ReadsChildren lp sc rest is cs →
      ReadsChildren lp sc ts (.report .nonStringChild p :: is)
        (.value (.lit ⟨.tok (.str []), callSite⟩) :: cs)
  /-- an element or slot -/
  | elem {sc ts slot r0 ti tag r1 si sels r2 ai attrs r3 ei args block r4 is cs} :
      ElemStart ts slot r0 → ReadsTag lp sc r0 ti tag r1 → ReadsSels r1 si sels r2 →
      ReadsAttrs sc r2 ai attrs r3 → ReadsEnd lp sc tag.place r3 ei args block r4 →
      ReadsChildren lp sc r4 is cs →
      ReadsChildren lp sc ts (ti ++ (si ++ (ai ++ (ei ++ is))))
        (asChild slot (.mk tag sels attrs args block) :: cs)
  /-- closure arguments that are not closed: reported at the first pipe, the rest is not read -/
  | unclosed {sc ts slot r0 ti tag r1 si sels r2 ai attrs s p args} :
      ElemStart ts slot r0 → ReadsTag lp sc r0 ti tag r1 → ReadsSels r1 si sels r2 →
      ReadsAttrs sc r2 ai attrs (.punct '|' s p :: args) → NoPipe args →
      ReadsChildren lp sc ts (ti ++ (si ++ (ai ++ [.report (.synError .closureNotClosed) p]))) []
  /-- no tag, before a semicolon: only that is reported, where there should be a tag -/
  | noTagSemi {sc ts slot r0 e p s q rest is cs} :
      ElemStart ts slot r0 → NoTag lp sc r0 e p (.punct ';' s q :: rest) → ReadsChildren lp sc rest is cs →
      ReadsChildren lp sc ts (.report .extraSemicolon p :: is) cs
  /-- no tag otherwise: the rest is not read -/
  | noTag {sc ts slot r0 e p rest} :
      ElemStart ts slot r0 → NoTag lp sc r0 e p rest → (∀ s q r, rest ≠ .punct ';' s q :: r) →
      ReadsChildren lp sc ts [.report (.synError e) p] []
  /-- a stray semicolon -/
  | semi {sc s p rest is cs} : ReadsChildren lp sc rest is cs →
      ReadsChildren lp sc (.punct ';' s p :: rest) (.report .extraSemicolon p :: is) cs
  /-- anything else: the rest is not read -/
  | other {sc t r} : NoValue (eraseToks (t :: r)) → t.erase.isIdent = false → (∀ s p, t ≠ .punct ';' s p) →
      ReadsChildren lp sc (t :: r) [.report (.synError .invalidChild) (nextPlace sc (t :: r))] []
end

end Mview.Loc
