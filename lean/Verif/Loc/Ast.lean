import Verif.Loc.Syn
/-
The ASTs of leptos-mview-core/src/ast with spans; see `Model/Ast.lean`.
-/

namespace Mview.Loc
variable {σ : Type}

/-- src/ast/ident.rs:40-44 `KebabIdent` -/
structure KebabIdent (σ : Type) where
  repr : Str
  spans : List σ

/-- src/ast/ident.rs:186-190 `KebabIdentOrStr` -/
inductive KebabOrStr (σ : Type) where
  | kebab (k : KebabIdent σ)
  | str (s : SStr σ)

/-- `syn::Ident::new_raw(name, span)` -/
def newRaw (name : Str) (sp : σ) : Out σ (SIdent σ) :=
  if name ∈ notRaw then .panic (.rawIdent name) else pure ⟨⟨true, name⟩, sp⟩

/-- the panic of src/ast/ident.rs:57-62 -/
def KebabIdent.checkSpan (k : KebabIdent σ) : Out σ Unit :=
  if k.spans.length = 0 then .panic .emptyKebab else pure ()

/-- src/ast/ident.rs:210-215 `to_unspanned_string` -/
def KebabOrStr.toUnspannedString : KebabOrStr σ → Str
  | .kebab k => k.repr
  | .str s => s.str

variable [Spans σ]

/-- src/ast/ident.rs:57-62 `KebabIdent::span`: from the first to the last section; without
sections it panics (`checkSpan`) -/
def KebabIdent.span (k : KebabIdent σ) : σ :=
  match k.spans with
  | [] => callSite
  | s :: ss => joinOr s ((s :: ss).getLast (by simp))

/-- src/ast/ident.rs:99-106 `KebabIdent::to_snake_ident` -/
def KebabIdent.toSnakeIdent (k : KebabIdent σ) : Out σ (SIdent σ) := do
  k.checkSpan
  newRaw (dashToUnderscore k.repr) k.span

/-- src/ast/ident.rs:72, 193-198 `to_lit_str` -/
def KebabOrStr.toLitStr : KebabOrStr σ → Out σ (SStr σ)
  | .kebab k => do k.checkSpan; pure ⟨k.repr, k.span⟩
  | .str s => pure s

/-- src/ast/ident.rs:200-208 `to_ident_or_emit` -/
def KebabOrStr.toIdentOrEmit : KebabOrStr σ → Out σ (SIdent σ)
  | .kebab k => k.toSnakeIdent
  | .str s => do
    emit (.expectedIdentifier s.str) s.sp
    pure ⟨⟨false, c!"__invalid_identifier_found_str"⟩, s.sp⟩

/-- src/ast/value.rs:28-42 `Value` -/
inductive Value (σ : Type) where
  | lit (l : SLit σ)
  | block (tokens : Toks σ) (braces : DelimSpan σ)
  | bracket (pfx : Option (SIdent σ)) (tokens : Toks σ) (brackets : DelimSpan σ)

/-- src/ast/value.rs:154 `Value::new_true`: "with no span" -/
def Value.newTrue : Value σ := .lit ⟨.bool true, callSite⟩

omit [Spans σ] in
/-- src/ast/value.rs:114-120 `Value::span` -/
def Value.span : Value σ → σ
  | .lit l => l.sp
  | .block _ b => b.whole
  | .bracket _ _ b => b.whole

/-- src/ast/tag.rs:29-36 `Tag` -/
inductive Tag (σ : Type) where
  | html (i : SIdent σ)
  | component (p : Path σ)
  | svg (i : SIdent σ)
  | math (i : SIdent σ)
  | webComponent (k : KebabIdent σ)

omit [Spans σ] in
/-- src/ast/tag.rs:51-59 `Tag::kind` -/
def Tag.kind : Tag σ → TagKind
  | .html _ => .html
  | .component _ => .component
  | .svg _ => .svg
  | .math _ => .math
  | .webComponent _ => .webComponent

omit [Spans σ] in
/-- `::` -/
def tColon2 (sp : σ × σ) : Toks σ := [.punct ':' .joint sp.1, .punct ':' .alone sp.2]

omit [Spans σ] in
/-- `syn::PathArguments::to_tokens` (the parenthesized form is never printed) -/
def PathArgs.toToks : PathArgs σ → Toks σ
  | .none => []
  | .angle (some c) lt inner gt =>
    tColon2 c ++ [.punct '<' .alone lt] ++ inner ++ [.punct '>' .alone gt]
  | .angle Option.none lt inner gt => [.punct '<' .alone lt] ++ inner ++ [.punct '>' .alone gt]
  | .paren inner sp => [.group .paren inner (.single sp)]

omit [Spans σ] in
/-- `syn::PathSegment::to_tokens` -/
def PathSeg.toToks (s : PathSeg σ) : Toks σ := .ident s.ident.id s.ident.sp :: s.args.toToks

omit [Spans σ] in
/-- the segments of a path, separated by `::` -/
def segsToks : List (PathSeg σ) → Toks σ
  | [] => []
  | [s] => s.toToks
  | s :: ss => s.toToks ++ tColon2 s.sep ++ segsToks ss

omit [Spans σ] in
/-- `syn::Path::to_tokens` -/
def Path.toToks (p : Path σ) : Toks σ :=
  (match p.leading with | some c => tColon2 c | none => []) ++ segsToks p.segs

/-- `Spanned::span` of a path -/
def Path.span (p : Path σ) : σ := toksSpan p.toToks

/-- src/ast/tag.rs:42-48 `Tag::span` -/
def Tag.span : Tag σ → σ
  | .html i | .svg i | .math i => i.sp
  | .webComponent k => k.span
  | .component p => p.span

/-- src/ast/attribute/selector.rs:24-33 `SelectorShorthand`, with the span of the `#` or `.` -/
inductive Selector (σ : Type) where
  | id (pound : σ) (k : KebabIdent σ)
  | cls (dot : σ) (k : KebabIdent σ)

/-- src/ast/attribute/kv.rs:26-29 `KvAttr` -/
structure KvAttr (σ : Type) where
  key : KebabIdent σ
  value : Value σ

/-- src/ast/attribute/directive.rs:32-37 `Directive` -/
structure Directive (σ : Type) where
  dir : SIdent σ
  key : KebabOrStr σ
  modifier : Option (SIdent σ)
  value : Option (Value σ)

/-- src/ast/attribute/spread_attrs.rs:13-17 `SpreadAttr` -/
structure Spread (σ : Type) where
  braces : DelimSpan σ
  dotdot : σ × σ
  expr : Toks σ

/-- src/ast/attribute.rs:16-20 `Attr` -/
inductive Attr (σ : Type) where
  | kv (a : KvAttr σ)
  | directive (d : Directive σ)
  | spread (s : Spread σ)

mutual
/-- src/ast/element.rs:45-51 `Element` -/
inductive Element (σ : Type) where
  | mk (tag : Tag σ) (selectors : List (Selector σ)) (attrs : List (Attr σ))
      (childrenArgs : Option (Toks σ)) (children : Option (List (Child σ)))
/-- src/ast/children.rs:21-24, 54-57; a slot has the span of the word `slot` -/
inductive Child (σ : Type) where
  | value (v : Value σ)
  | elem (e : Element σ)
  | slot (kw : σ) (e : Element σ)
end

omit [Spans σ] in
/-- src/ast/element.rs:134 `Element::tag` -/
def Element.tag : Element σ → Tag σ
  | .mk t _ _ _ _ => t

omit [Spans σ] in
/-- src/ast/children.rs:143-148: whether a child is a slot -/
def Child.isSlot : Child σ → Bool
  | .slot _ _ => true
  | _ => false

end Mview.Loc
