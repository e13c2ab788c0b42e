import Verif.Lemmas.Rewrites
import Verif.Lemmas.SimplePaths
import Verif.Props.Whole
/-
C03: the accepted language is the documented grammar (`Spec/Grammar.lean`).
C06, C07, C08: shorthands and delimiters.
-/

-- the linter does not see variables used inside `q!"..."`
set_option linter.unusedVariables false

namespace Mview
open Lex

variable {pp : PathParser} {s : Sched} {ts out : Toks} {root : List Child} {cs cs' : List CChild}

/-- C03.  The parser accepts a token stream without any diagnostic, as the tree `root`,
exactly when the stream is the concrete syntax of children that stand for `root`. -/
theorem parses_iff (hpp : pp.Starts) (hl : LexicalToks ts) :
    Parses pp ts root ↔
      ∃ cs, childrenWf pp cs [] ∧ childrenToks cs = ts ∧ childrenAst cs = root := by
  constructor
  · intro h
    obtain ⟨cs, h1, h2, h3, _⟩ := (tree_sound hpp _).2.2 ts root [] hl h
    exact ⟨cs, h3, h1.symm, h2⟩
  · rintro ⟨cs, hw, rfl, rfl⟩
    obtain ⟨N, hN⟩ := children_complete hpp cs
    exact parseChildren_eq (hN hl hw)

/-- C03.  The grammar is unambiguous: the same tokens cannot be read as two trees. -/
theorem grammar_unambiguous (hpp : pp.Starts) (hl : LexicalToks (childrenToks cs))
    (h : childrenWf pp cs []) (h' : childrenWf pp cs' [])
    (he : childrenToks cs = childrenToks cs') : childrenAst cs = childrenAst cs' :=
  ((parses_iff hpp hl).mpr ⟨cs, h, rfl, rfl⟩).unique
    ((parses_iff hpp hl).mpr ⟨cs', h', he.symm, rfl⟩)

/-- C03.  The whole macro, without reference to how it works: what it expands to is what
the tree written down stands for, and everything a tree stands for is what it expands to (for some
order of the hash maps). -/
theorem mview_spec (hpp : pp.Starts) (hl : LexicalToks ts) :
    (∃ s, mview pp s ts = .tokens out) ↔
      ∃ cs, childrenWf pp cs [] ∧ childrenToks cs = ts ∧ RootMeans (childrenAst cs) out := by
  constructor
  · rintro ⟨s, h⟩
    obtain ⟨root, h1, h2⟩ := mview_sound h
    obtain ⟨cs, hw, ht, rfl⟩ := (parses_iff hpp hl).mp h1
    exact ⟨cs, hw, ht, h2⟩
  · rintro ⟨cs, hw, ht, hm⟩
    exact mview_complete ((parses_iff hpp hl).mpr ⟨cs, hw, ht, rfl⟩) hm

/-- A tree with selectors, all kinds of attributes, a slot, closure arguments and nested children. -/
def sampleTree : List CChild :=
  [.elem (.mk (.name t!"My-Comp") [.cls .alone t!"a-1", .id .alone t!"b"]
    [.bare t!"r#type", .short t!"x-y", .full t!"n" .joint (.neg .alone false c!"1"),
      .dir (plain c!"on") .alone (.name t!"click") (some (.alone, plain c!"undelegated"))
        (some (.alone, .block t!"f")),
      .dirShort (plain c!"class") .alone t!"red" none,
      .dir (plain c!"class") .alone (.str c!"w-1/2") none none,
      .spread .alone t!"rest"]
    (.block (some (.alone, t!"a, b", .alone)) .brace
      [.slot .alone (.mk (.name t!"Then") [] [] (.block none .paren
        [.value (.bracket (some (plain c!"f")) t!"x")])),
       .value (.lit (.str c!"hi")),
       .elem (.mk (.name t!"br") [] [] (.semi .alone))]))]

/-- It is written like this, .. -/
example : childrenToks sampleTree =
    t!"My-Comp.a-1#b r#type {x-y} n=-1 on:click:undelegated={f} class:{red} class:\"w-1/2\" {..rest}
      |a, b| { slot:Then (f[x]) \"hi\" br; }" := rfl

/-- .. and read back. -/
example : Parses simplePaths
    t!"My-Comp.a-1#b r#type {x-y} n=-1 on:click:undelegated={f} class:{red} class:\"w-1/2\" {..rest}
      |a, b| { slot:Then (f[x]) \"hi\" br; }" (childrenAst sampleTree) := rfl

/-- A small well-formed tree, checked against the definition. -/
example : childrenWf simplePaths
    [.elem (.mk (.name t!"p") [] [.bare t!"x"] (.semi .alone))] [] := by
  have h1 : NameEnds t!"p" t!"x;" :=
    ((nameEnds_iff (ts := t!"p x;") (by rintro i r ⟨⟩; decide)).mpr ⟨rfl, rfl⟩).2
  have h2 : NameEnds t!"x" t!";" :=
    ((nameEnds_iff (ts := t!"x;") (by rintro i r ⟨⟩; decide)).mpr ⟨rfl, rfl⟩).2
  rw [childrenWf, childrenWf, CChild.Wf, CElem.Wf, CEnd.Wf]
  exact ⟨⟨⟨⟨h1, by decide⟩, trivial, ⟨h2, trivial⟩, trivial⟩, _, _, rfl, by decide, by decide⟩, trivial⟩

/-- Not accepted: an element without end, an attribute without value, a stray semicolon, a number,
a colon too many, arguments without a block. -/
example : ∀ ts ∈ [t!"div", t!"div a= ;", t!"div;;", t!"1", t!"div on:click:a:b;", t!"div |a|;"],
    ∀ root, ¬ Parses simplePaths ts root := by
  intro ts h root hp
  simp only [List.mem_cons, List.not_mem_nil, or_false] at h
  rcases h with rfl | rfl | rfl | rfl | rfl | rfl <;>
    (unfold Parses at hp; exact absurd hp (by intro h; cases h))

/-- Both ways of writing a tree are accepted as the same tree, hence give the same result. -/
theorem same_result (hpp : pp.Starts) (hl : LexicalToks (childrenToks cs))
    (hl' : LexicalToks (childrenToks cs')) (hw : childrenWf pp cs []) (hw' : childrenWf pp cs' [])
    (h : childrenAst cs = childrenAst cs') :
    mview pp s (childrenToks cs) = mview pp s (childrenToks cs') := by
  have h1 : Parses pp (childrenToks cs) (childrenAst cs) := (parses_iff hpp hl).mpr ⟨cs, hw, rfl, rfl⟩
  have h2 : Parses pp (childrenToks cs') (childrenAst cs') :=
    (parses_iff hpp hl').mpr ⟨cs', hw', rfl, rfl⟩
  unfold Parses at h1 h2
  unfold mview mviewImpl
  rw [h1, h2, h]

/-- C06.  Writing bare attributes of an accepted input as `name=true`, anywhere, is accepted and
changes nothing. -/
theorem bool_attr (hpp : pp.Starts) (hloc : pp.Local) (hl : LexicalToks (childrenToks cs))
    (hl' : LexicalToks (childrenToks cs')) (hw : childrenWf pp cs []) (h : BoolsWritten cs cs') :
    childrenWf pp cs' [] ∧ mview pp s (childrenToks cs') = mview pp s (childrenToks cs) := by
  have hw' := childrenSame.wf hpp hloc keeps_bool _ _ h [] [] hw
  exact ⟨hw', same_result hpp hl' hl hw' hw (childrenSame.ast keeps_bool.ast _ _ h).symm⟩

/-- C06, the other direction: `name=true` may be shortened whenever that is still accepted. -/
theorem bool_attr_short (hpp : pp.Starts) (hl : LexicalToks (childrenToks cs))
    (hl' : LexicalToks (childrenToks cs')) (hw : childrenWf pp cs []) (hw' : childrenWf pp cs' [])
    (h : BoolsWritten cs cs') :
    mview pp s (childrenToks cs') = mview pp s (childrenToks cs) :=
  same_result hpp hl' hl hw' hw (childrenSame.ast keeps_bool.ast _ _ h).symm

/-- Nested; and `a=true -b` where shortening would be something else. -/
example (s : Sched) :
    mview simplePaths s t!"div { input checked; }" = mview simplePaths s t!"div { input checked=true; }" ∧
    Parses simplePaths t!"p a=true -b;" [.elem (.mk (.html ⟨true, c!"p"⟩) []
      [.kv ⟨⟨c!"a", 1⟩, .lit (.bool true)⟩, .kv ⟨⟨c!"-b", 2⟩, .lit (.bool true)⟩] none none)] ∧
    Parses simplePaths t!"p a -b;" [.elem (.mk (.html ⟨true, c!"p"⟩) []
      [.kv ⟨⟨c!"a-b", 2⟩, .lit (.bool true)⟩] none none)] := ⟨rfl, rfl, rfl⟩

/-- C07.  Shorthands and long forms give the same result whenever both are accepted. -/
theorem shorthands (hpp : pp.Starts) (hl : LexicalToks (childrenToks cs))
    (hl' : LexicalToks (childrenToks cs')) (hw : childrenWf pp cs []) (hw' : childrenWf pp cs' [])
    (h : ShorthandsWritten cs cs') :
    mview pp s (childrenToks cs') = mview pp s (childrenToks cs) :=
  same_result hpp hl' hl hw' hw (childrenSame.ast BraceLong.ast _ _ h).symm

/-- Dashes become underscores in the value only; directives; and a shorthand that would merge
with the name before it. -/
example (s : Sched) :
    mview simplePaths s t!"div { p {data-x} class:{a-b}; }" =
      mview simplePaths s t!"div { p data-x={r#data_x} class:a-b={r#a_b}; }" ∧
    Parses simplePaths t!"p a {-b};" [.elem (.mk (.html ⟨true, c!"p"⟩) []
      [.kv ⟨⟨c!"a", 1⟩, .lit (.bool true)⟩, .kv ⟨⟨c!"-b", 2⟩, .block t!"r#_b"⟩] none none)] ∧
    Parses simplePaths t!"p a -b={r#_b};" [.elem (.mk (.html ⟨true, c!"p"⟩) []
      [.kv ⟨⟨c!"a-b", 2⟩, .block t!"r#_b"⟩] none none)] := ⟨rfl, rfl, rfl⟩

/-- C07.  Long forms (of names that have an identifier) can always be shortened. -/
theorem shorten (hpp : pp.Starts) (hloc : pp.Local) (hl : LexicalToks (childrenToks cs))
    (hl' : LexicalToks (childrenToks cs')) (hw : childrenWf pp cs [])
    (h : childrenSame BraceShort Eq cs cs') :
    childrenWf pp cs' [] ∧ mview pp s (childrenToks cs') = mview pp s (childrenToks cs) := by
  have hw' := childrenSame.wf hpp hloc keeps_short _ _ h [] [] hw
  exact ⟨hw', same_result hpp hl' hl hw' hw (childrenSame.ast keeps_short.ast _ _ h).symm⟩

/-- C08.  Exchanging parentheses and braces around children of an accepted input, anywhere,
is accepted and changes nothing. -/
theorem delimiters (hpp : pp.Starts) (hloc : pp.Local) (hl : LexicalToks (childrenToks cs))
    (hl' : LexicalToks (childrenToks cs')) (hw : childrenWf pp cs []) (h : BlocksExchanged cs cs') :
    childrenWf pp cs' [] ∧ mview pp s (childrenToks cs') = mview pp s (childrenToks cs) := by
  have hw' := childrenSame.wf hpp hloc keeps_eq _ _ h [] [] hw
  exact ⟨hw', same_result hpp hl' hl hw' hw (childrenSame.ast keeps_eq.ast _ _ h).symm⟩

/-- With closure arguments and nested. -/
example : BlocksExchanged
    [.elem (.mk (.name t!"A") [] [] (.block (some (.alone, t!"x", .alone)) .brace
      [.elem (.mk (.name t!"p") [] [] (.block none .paren [.value (.block t!"x")]))]))]
    [.elem (.mk (.name t!"A") [] [] (.block (some (.alone, t!"x", .alone)) .paren
      [.elem (.mk (.name t!"p") [] [] (.block none .brace [.value (.block t!"x")]))]))] := by
  simp [BlocksExchanged, childrenSame, CChild.Same, CElem.Same, CEnd.Same]
example : mview simplePaths (fun _ => []) t!"A |x| { p ({x}) }" =
    mview simplePaths (fun _ => []) t!"A |x| ( p {{x}} )" := rfl

/-- The block of an input that is not accepted may change its meaning: an attribute in braces. -/
example (s : Sched) : mview simplePaths s t!"div (p)" = .errors [.unterminated] t!"()" ∧
    mview simplePaths s t!"div {p} {..r};" = mview simplePaths s t!"div p={r#p} {..r};" := ⟨rfl, rfl⟩

end Mview
