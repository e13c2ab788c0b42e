# Formal model of leptos-mview

The macro `mview!` is a function from token streams to token streams (plus
diagnostics).  The model in `lean/Verif/Model` is that function, ported from
`/repo/leptos-mview-core/src` one Rust function at a time at the level of token
trees, and executable.  The properties of `properties.jsonl` are theorems about it.

## Layout

| directory | content |
|---|---|
| `Verif/Model/Tok.lean` | token trees (`proc_macro2`) |
| `Verif/Model/Out.lean` | outcomes: value + diagnostics, abort, panic, divergence (`proc_macro_error2`) |
| `Verif/Model/Syn.lean` | the part of `syn` the parsers use, and `src/parse.rs` |
| `Verif/Model/Ast.lean` | `src/ast/*`: the trees, tag tables, name conversions |
| `Verif/Model/Parse.lean` | `src/ast/*`: every `impl Parse` |
| `Verif/Model/Expand.lean` | `src/expand.rs`, `src/expand/*`, every `impl ToTokens`, `src/span.rs` |
| `Verif/Model/Mview.lean` | `src/lib.rs`, `leptos-mview-macro/src/lib.rs` |
| `Verif/Model/Nightly.lean`, `Verif/Loc/Nightly.lean` | the same with the feature `nightly`: errors do not replace the expansion (without and with spans) |
| `Verif/Model/Lex.lean` | a lexer used only to write example inputs as text |
| `Verif/Loc/*` | all of it again with source spans, and the proof that these do not matter |
| `Verif/Steps/Parse.lean` | the parsers again, counting their steps |
| `Verif/Spec/*` | the vocabulary theorems are stated in: concrete syntax trees, well-formedness, readers of the output. Mentions the token and AST types but none of the parsers and expanders |
| `Verif/Lemmas/*` | proofs' internals |
| `Verif/Props/*` | the theorems listed in `MANIFEST.json`, each with a concrete example |
| `Verif/Props/RepoTests.lean` | every `mview!` in the repository (tests, recorded error messages, documentation) run through the model |

## How the code is modelled

* A `ParseStream` is the list of tokens left; a parser returns a value or a
  `syn::Error` *with the position it stopped at* (the code looks at the stream
  after an error), in the monad `Out` of diagnostics.  `rollback_err` rewinds the
  stream but not the diagnostics, exactly as the global error list behaves.
* `emit_error!`, `abort!`, `unwrap`/`expect`/`assert!` and `Ident::new_raw` are
  explicit outcomes.  Every panic site of the code is a constructor of
  `PanicSite`, so "cannot panic there" is a statement about the model.
* Loops and the mutual recursion `Element`/`Child`/`Children` of the parser take a
  number of steps they may use and yield `diverge` when it runs out. The entry
  point gives a budget linear in the input size and C01 shows that it never runs
  out, so no property is affected by it.
* `quote!` templates are written out token by token (spacing of punctuation
  included).
* `HashMap` iteration order is a parameter (`Sched`): one arbitrary order for every
  map built during a run. Theorems quantify over it. `permute` reaches every
  permutation (proved).
* `syn::Path::parse` (Rust's type grammar) is a parameter (`PathParser`): any
  function of the tokens that consumes from the front, and at least one token if
  it succeeds. Theorems quantify over it. `simplePaths` is a concrete instance for
  examples. The grammar theorems assume a little more, as hypotheses, proved of
  `simplePaths`: `PathParser.Starts` (a path starts with an identifier or `::`; C03,
  C06–C08), and `PathParser.Local` (tokens after the path do not matter unless they
  are `:` or `<`; C06–C08). `Model/SynPath.lean` models `impl Parse for syn::Path` of syn 2 (written from
  knowledge of syn, whose source is not in /repo), up to a single generic argument, which is a
  parameter (`ArgParser`); the assumptions are proved of it (C62). It reads `(..)` after a segment only
  inside generic arguments (`TypePath`).
* The grammar theorems assume `LexicalToks`: no identifier token contains a dash,
  which a Rust lexer guarantees.
* The standard library's binary search is modelled as its loop, not as
  membership.

## Spans

`Verif/Loc` ports the same functions a second time with spans: tokens and diagnostics carry one, a
parse stream has the span that syn reports errors about its end at. `Spans σ` is all that is assumed
about them: a call site, and a partial `join` with `join a a = a` where defined. (Stable Rust joins
nothing, nightly covers.) `mview_erase` shows that forgetting the spans gives `Verif/Model`.
`Loc/Lex.lean` instantiates spans with ranges of a text; `Props/RepoSpans.lean` compares with the
recorded error messages of the repository. Where `quote!` would interpolate a path whose generic
arguments are parsed types, the spans of these tokens are those written.

## Simplifications (not modelled)

* Source spans are left out of `Verif/Model` and added in `Verif/Loc` (below). A span is an
  opaque value there, except for `Span::call_site()` and joining; `span.resolved_at` is not used
  by the code. What the compiler makes of a span (hygiene, IDE) is not modelled.
* Invisible (`None`) delimiters, which appear when another macro passes captured
  fragments to `mview!`.
* String literals are identified with their value, so spelling (raw, escaped) and
  suffix are not distinguished.
* Identifiers are arbitrary text in the model, and `Ident::new`/`new_raw` do not panic on text that is not an
  identifier at all; C61 shows that they are never given such a text.
* Generic arguments of paths are kept as the tokens they print to.
* syn's bookkeeping of unconsumed nested groups is left out of `Mview.lean` and added in `Unread.lean` (C71). Which
  paths leave tokens unread is a parameter there. The cell is computed beside the parser rather than threaded
  through it, which is the same because nothing reads it before the end. All other properties are about the macro
  without it, which is the same macro for all inputs whose paths leave nothing (`unread_none`).
* The texts of errors are in `Loc/Messages.lean` only (C72); everywhere else an error is a constructor. How
  `proc_macro_error2` writes an error and its help as `compile_error!`, and that syn prefixes messages at the end of a
  group, is taken from those crates, which are not in the repository. The texts of `syn::Path::parse` are a parameter.
* `proc_macro_error2` is modelled as on stable Rust in `Mview.lean`. With the feature `nightly` it hands
  diagnostics to the compiler and also returns the expansion; that is `Nightly.lean` (C47), where the
  diagnostics reported before a panic are left out.
* Nothing is said about what leptos does with the generated code, nor about
  whether it type checks.

## Trusted base

* Lean 4's kernel; theorems use at most the axioms `propext`, `Classical.choice`,
  `Quot.sound` (listed per theorem by `Verif/Props/Axioms.lean`, printed during the
  build). No axiom is declared, no `sorry`, no `native_decide`, no `bv_decide`.
* That the definitions in `Verif/Model` say what the Rust code does (by reading; each
  cites file and lines), and the description of `syn`, `quote`, `proc_macro2`,
  `proc_macro_error2` in `Syn.lean`, `Out.lean`, `Mview.lean`.

## Plan per property

* C01 termination — measure argument: every loop iteration consumes a token;
  `3 * size + 3` steps suffice for the recursive descent. For every input,
  `mview ≠ hangs`.
* C02 panics — an invariant over all parsers and expanders: the only panic outcomes
  are `rawIdent` of one of five names and `slotNotComponent`. The unconditional
  "never panics" is false; witnesses are proved, and a theorem that inputs without
  the triggers never panic.
* C03 grammar — concrete syntax trees `Cst` with `toks` (printing) and `ast`
  (meaning) and a well-formedness predicate stated on neighbouring tokens. Both
  directions: printing a well-formed tree parses back to its meaning; every
  diagnostic-free parse comes from a well-formed tree.
* C04 — the run as a declarative longest-prefix predicate; equality with the parser.
* C05 — direct, on all names; injectivity up to dash/underscore.
* C06, C07, C08 — transformations on `Cst` that preserve `ast`; with C03 they give
  equality of macro results.
* C09, C12, C13, C15–C18, C29 — for all arguments, the exact tokens.
* C10 — every token is counted, at every depth: the expansion of a tree against that of the tree
  without code, and input versus output for literals that only occur in code; by induction
  over the tree. Generic arguments of components are not code: they are written twice.
* C11, C23, C24 — the output is read back as a head followed by a chain of method
  calls; names and arguments of the calls are stated.
* C14 — sortedness of the tables, correctness of binary search on sorted tables.
* C19, C20, C33 — permutation arguments over all `Sched`.
* C21 — true at top level only; the failures inside HTML elements and slots are proved
  as theorems with witnesses, the rest is `_partial`.
* C22, C25, C34, C35 — implications about diagnostics for all inputs.
* C26, C31, C32 — equations between runs.
* C27 — on all paths.
* C28, C30 — exact characterisation on token streams.
* C36 — predicate `Accept` on trees, both directions.
* C37 — an inductive predicate `Hygienic` on tokens with user parts cut out; from it, every
  identifier not after `::` or `.` is a keyword or the user's. (`clone:x` and `use:f` refer to
  `r#x` and `r#f`; raw and plain spelling name the same thing.)
* C38 — a recursive list of issues of a tree, and what a list of issues amounts to; the macro
  does exactly this.
* C39 — inductive reading rules for children, elements, attributes, values and names that cover
  malformed input too (`Spec/Reads.lean`); every input has a reading, and what the parser
  does is the reading. With C38 this fixes the result of the macro up to the tokens of the
  expansion, for every input.
* C40 — simulation between the model with spans and the one without.
* C41 — the list of C38 with a place in the source for every issue, for the model with spans
  (`Spec/LocIssues.lean`).
* C42 — the rules of C39 with a place for every error (`Spec/LocReads.lean`). With C41 this fixes
  every reported error and its place, for every input.
* C43 — `Spec/Meaning.lean` with a place for every token (`Spec/LocMeaning.lean`). Together with C41
  and C42 the result of the macro with spans is fixed for every input, up to the order of slots.
* C44 — a change of places (`Spec/Moves.lean`) before running the macro is the same change afterwards;
  that no places are made up follows by running the macro on the places that can be made of the given
  ones only. The path parser is a parameter and assumed to behave so as well.
* C45 — a fragment of the syntax of Rust expressions on token trees (`Spec/Syntax.lean`) in which valid
  code of the user can be embedded, as far as the expansion needs one; everything it accepts is
  meant to be accepted by Rust (the rules follow the Reference).  Which characters make an identifier
  is not modelled.  That the fragment is not too liberal is only shown for some examples (`not_rust`).
* C46 — a relation between syntax trees that differ in code and between tokens that differ in it
  (`Spec/Opaque.lean`), for arbitrary related pairs of code; the grammar (C03) is insensitive to it and
  expanding preserves it. The version with marked gaps follows with C10.
* C47 — `Model/Nightly.lean` is the entry point with the feature `nightly`; `Spec/Recovery.lean` says what
  is generated for a tree with errors, in the manner of `Spec/Meaning.lean` but total on errors. Both
  directions as for C24, on top of the readings of C39.
* C48 — the grammar of C45 (`Spec/Syntax.lean`) applied to what C47 says is generated. The hypothesis
  `childrenSound` is about the tree that is read, including what the parser puts in place of missing values
  (`missing_sound`).
* C49 — pieces are token streams the parser accepts (`Parses`), surroundings are places (`Place`,
  `Spec/Context.lean`). `joined_result` and `pieces_exchanged` are about the result of the macro alone.
  The path parser must be `Local` (what follows a path does not matter unless it starts with `:` or `<`).
* C50 — `childrenTrim` (`Spec/Ignored.lean`) removes everything that makes no difference; two trees are
  `Equivalent` if what remains is equal. Several of these things are arguably mistakes the macro should report
  (see C18, C21, C22). Since slots are visited in the order of a hash map, expansions are compared as sets.
* C51 — sizes are counted by `TT.len` (`Spec/Size.lean`): one for each token plus the characters of names and
  literals. The theorem assumes that the parser of paths does not invent anything (`PathParser.Sparing`: the path
  and what remains are together not larger than what it was given); `simplePaths_sparing` shows that this is
  satisfiable. The constant (1000) is not meant to be the best one; a single component without attributes
  costs 319.
* C52 — `Loc/Nightly.lean` is the entry point with the feature `nightly` on tokens with spans;
  `Spec/LocRecovery.lean` is `Spec/Recovery.lean` with the place of every token. `nightly_erase` shows that it
  is C47's model when the spans are forgotten.
* C53 — `Mentions` (`Spec/Mentions.lean`) is about the input tokens only: an identifier or kebab-cased name at any
  depth. It extends C37 from pieces of the tree to the input, and to inputs with errors. Of `syn::Path::parse` it is
  assumed that the identifiers of a path are in the tokens (`PathParser.Verbatim`).
* C54 — extends the upper bound of C10 to inputs with errors. Occurrences are counted with `occ` of
  `Spec/Count.lean`. Literals stand for the code: identifiers and punctuation cannot be told from what the macro
  generates itself.
* C55 — `Like` in `Spec/Loose.lean` relates inputs, `Alike (Loose R)` results. `syn` does look at spacing within
  types (`->`, `>=`), so the statement asks that the path parser reads the same at corresponding places where
  there may be a path; for the path parser of the examples this is proved (`simplePaths_same`).
* C56 — the edits are in `Spec/Advice.lean` (`Somewhere` of `SemiAtEnd`, `SemiBefore` or
  `Undelegated m`). The theorems say that a place for the edit exists, not that it is the one the message points at (locations are not in this model).
  Assumed of `syn::Path::parse`: `Starts`, `Local`, `FailsLocally`, and for "unknown attribute" also `Greedy` of the
  input: no path in it is followed by a left-over `:` or `<`. All are proved or checked for `simplePaths`.
* C57 — tokens are counted by `toksMany` (`Spec/FewErrors.lean`), a group as one token and its content. The one more
  error is due to how little is assumed of `syn::Path::parse`: that a path has at least one token.
* C58 — `Spec/Run.lean` has an interpreter of generated code, which reads tokens and knows the builder methods of
  `leptos`, but nothing of the macro; and, separately, what a tree looks like. What `leptos` does is described from
  its documentation and the rendered strings in `/repo/tests`, not from its code: this is trusted, for C58 only. The
  code of the user is interpreted arbitrarily. A component is shown as its path and what is passed to it, since what it
  does is up to the user; groups of slots may be passed in any order (`HashMap`). The theorem is by induction over the
  tree, from `mview_means`.
* C59 — `Spec/Longhand.lean` writes a tree in full; inputs are the same if their trees are the same in full. What they
  do is compared with the interpreter of C58, since the expansions are different tokens. That `{"a"}` evaluates to
  `"a"`, `{move || a}` to the closure of `[a]`, and so on, is a hypothesis about the interpretation of user code.
* C60 — `Steps/Parse.lean` is the parser once more, with a counter that also survives rollbacks; without the counter
  it is proved to be the parser of `Model/Parse.lean`. Peeks of a chain of `if`s are all counted. Not counted: the
  time inside one call of `syn` (which does not depend on the input), converting the input to a buffer, comparing and
  appending names, and the expansion.
* C61 — `Letters` (`Spec/Lexical.lean`) is what is assumed of identifier characters: ASCII letters, digits, `_`
  and `-` are as in Rust, the rest of Unicode is arbitrary. Stated for what is generated on nightly, which is more.
  Identifiers that are made but appear nowhere in the output are covered by `snake_ident_valid` and
  `slot_method_valid`, as all others are constants of the code.
* C62 — `Spec/PathText.lean` is a grammar of written paths; `syn_paths_grammar` says that the model of
  `syn::Path::parse` accepts exactly these. A generic argument that is not a lifetime is whatever the parameter
  `ga` accepts; `ga.Local` etc. (`Spec/SynPath.lean`) are assumed of it, and proved of an example.
* C63 — `Spec/SameCode.lean` maps a tree to a `View`, in which the ways to write the same thing are identified
  (slots are a function from names to lists, so that their order does not matter). The theorems say that trees have
  an expansion in common iff the views are equal. Spreads are arbitrary tokens: on components `{..a, b}` is the same
  code as `{..a} {..b}`, which `PlainParts` excludes. It also says that angle brackets in generics are balanced, which
  a path parser ensures.
* C64 — `BlockAt` (`Spec/Block.lean`) says that the gap in an input is read as the children of an element, with
  what is reported before and after; `every_block` proves that this covers the children of every element in the tree.
  A block in braces directly after the attributes is tried as an attribute first; what is reported then (`r#` inside
  of a name) belongs to the block (`Looked`).
* C65 — errors are identified by the place in the code that reports them (`Diag`, `Err`), not by their text: the text
  of a `syn::Error` is prefixed at the end of the input, and that of `syn::Path::parse` is syn's own.
* C66 — about the tokens, not about their spans; and without the `nightly` feature.
* C67 — the counterpart of C66 with the feature `nightly`, also about tokens and not their spans.
* C68 — stated for inputs given by how they are read (`ReadsChildren`), not by inserting tokens: whether tokens are
  further attributes depends on what is around them, which C39 describes.
* C69 — stated like C68.  The path of a component is not covered: it occurs twice in the code, and for slots it also
  names the method.
* C70 — `About` (`Spec/About.lean`) lists, for every kind of error, the tokens it is about.  `syn::Path::parse` is a
  parameter; it has to leave a suffix of its input (`Consumes`), and the place of its own errors is whatever it says.
* C71 — the right-hand side is the ordinary macro with the path parser `strict`, which fails where something would be
  left.  Which error of syn is seen is said with `PathsIn`, the places of the paths of an input in order.
* C72 — the catalogue is a list of texts; `readErrors` reads `compile_error!` invocations back from tokens. Which
  mistake is told by a text is stated for pairs of errors of arbitrary inputs, up to what the error is about
  (`Diag.mistake`).
* C73 — the statement uses `Parses` only: a part is what `div` followed by it is accepted as. Proved through the
  grammar of C03, where completeness of a name depends on its last token and the next one.
* C74 — `Thread` and `LeftOut` speak of syntax trees; the theorems are about the expansion of trees that are read
  from some input, and about the macro where the threads are written down. Proved through the exact list of errors
  of C38.
* C75 — the condition on names is about the syntax tree (`allFirm`), so it excludes components whose name ends with
  `_`, whichever way they are written. Without it the claim is false: examples beside the theorems.
* C76 — `AllFewer` bounds the new page from above: it says that nothing appears that was not there. That everything
  that is left of the view is also left of the page is C58. As in C58, running is that of `Verif/Spec/Run.lean`.
* C77 — inputs are token streams whose identifiers have no dashes (`LexicalToks`), as everywhere. Threads have no
  closure arguments, so these are a condition of their own (`allArgsFit`). `exDash_unwritten` is the counterexample
  for names that end with a dash.
* C78 — pages are as in C58 (`Dom`, `run`). `Same` relates two pages by recursion on them; the only freedom is that
  the slot groups of a component may be permuted.
* C79 — which errors are about something that is too much is a list in `Spec/Mend.lean` (`isExtra`), and `mend` leaves
  these things out of a tree; neither mentions the expansion. A modifier on a component's `class:`, `style:`, `attr:` or
  `prop:` is not an error in the code, so it stays.
* C80 — the page of a part is what the generated code of that part alone builds (C58), and the same page is that of
  C78; places are those of C66. The part has to be a view of its own: a slot at the top is not accepted, so a block with
  slots is replaced only through what is around it or inside the slots.
  Which blocks can be seen on the page is a small function on trees with a gap (`Spec/Seen.lean`).
* C81 — a template is a page (C58) whose values are code (`Code`, `written` in `Spec/Template.lean`); the only thing that
  is known of code there is that `{ let __x = (); .. "name" }` is `"name"`. That running code does not look at values is
  proved of the interpreter of C58 as a whole, for any tokens.
* C82 — pages with a gap are a datatype of their own (`Spec/PageGap.lean`). The gap is where elements, components or slots
  have children; a component or slot whose gap is filled with nothing is passed no children. As in C78 up to the order of
  slots with different names, which the gap fixes and another expansion may have otherwise.
* C83 — C10 for pages instead of code. What a page is made of and what is written in a tree are two lists
  (`Spec/Ingredients.lean`); the first is a permutation of the second after strings and booleans are taken out of both,
  since names on the page are strings and what is left out is `true`. Values are as in C58, or expressions as in C81.
* C84 — C68 for pages, along the lines of C82. What an attribute adds is said for each attribute by itself
  (`Spec/AttrPage.lean`); an element or component with a gap has one place for each sort of thing that attributes add. The
  attributes edited may be of several sorts at once, which C68 does not allow. Slots have
  places for properties and cloned variables only.
* C85 — C69 for pages, along the lines of C84. Classes and ids are said for each shorthand by itself
  (`Spec/SelPage.lean`). Names and closure parameters have gaps of their own. An element instead of a component is not
  covered, since almost everything is then somewhere else.
* C86 — C68 for `nightly`, as C67 is C66 for it. What is generated for an attribute is said for each attribute by
  itself (`Spec/AttrAnyway.lean`); the inputs are given by their readings, which need not be free of errors.
* C87 — C69 for `nightly`, along the lines of C86. What is generated for selectors and closure arguments is that of C69,
  only that selectors of slots are left out (`Spec/SelAnyway.lean`).
* C88 — ties what is generated in spite of errors (`Spec/Recovery.lean`) to what correct views stand for
  (`Spec/Meaning.lean`), one element at a time: the mistakes of an input do not reach its correct elements.
* C89 — compares the errors of three inputs: one with some children added, the same without them, and these alone.
  Where children are not looked at is said by `TreeGap.expanded` (`Spec/AddUp.lean`). It is assumed
  that what is added is read in the same way on its own and there, with the same mistakes in the syntax (C49 says when, for what has none).

Nothing in the list is inexpressible in the model; what is excluded is under
"Simplifications".
