{"id": "C01", "title": "The macro always terminates", "statement": "For every token stream given to mview!, every parser loop and the recursive expansion finish: the macro returns tokens, reports errors or panics, but never loops forever, however malformed the input.", "quantifier": "all token streams (any length and nesting), all iteration orders of the internal hash maps, all behaviours of syn's path parser that consume input from the front", "why_tests_cant": "The parser is full of try-and-rollback loops (`while let Some(..) = rollback_err(..)`, `loop {}`); a test only shows that particular inputs terminate, not that no input makes an iteration that consumes nothing.", "anchors": ["leptos-mview-core/src/ast/ident.rs: KebabIdent::parse", "leptos-mview-core/src/ast/children.rs: Children::parse", "leptos-mview-core/src/ast/attribute.rs: Attrs::parse", "leptos-mview-core/src/ast/attribute/selector.rs: SelectorShorthands::parse", "leptos-mview-core/src/ast/element.rs: parse_closure_args"]}
{"id": "C02", "title": "Where the macro can panic", "statement": "The only ways mview! can crash with 'proc macro panicked' (instead of a compile error) are a name that cannot be a raw identifier (`_`, `self`, `Self`, `super`, `crate`) and a `slot:` whose tag is not a component. Every other unwrap/expect/assert in the macro is unreachable, for every input; an input containing none of the named triggers never crashes the macro.", "quantifier": "all token streams, valid or not", "why_tests_cant": "Unreachability of a dozen unwrap/expect/assert sites has to hold for every malformed input; tests sample malformed inputs.", "anchors": ["leptos-mview-core/src/ast/ident.rs: to_snake_ident, span", "leptos-mview-core/src/ast/value.rs: Value::parse", "leptos-mview-core/src/parse.rs: braced, parenthesized", "leptos-mview-core/src/ast/children.rs: Child::parse", "leptos-mview-core/src/expand.rs: component_to_tokens, slots_to_tokens", "leptos-mview-core/src/expand/subroutines.rs: use_directive_fn_value, event_listener_event_path"]}
{"id": "C03", "title": "The accepted language is the documented grammar", "statement": "The parser accepts a token stream without any diagnostic exactly when it is the concrete syntax of some tree of elements, attributes, selectors, slots and children as documented (tag, selectors, attributes, then `;` or a children block, optionally preceded by closure arguments), and the tree it builds is the one that syntax denotes; no token is skipped, invented or attached elsewhere.", "quantifier": "all token streams and all syntax trees", "why_tests_cant": "Both directions are unbounded: every tree's syntax must parse back to that tree, and nothing else may be silently accepted.", "anchors": ["leptos-mview-core/src/ast/element.rs: Element::parse", "leptos-mview-core/src/ast/children.rs: Child::parse, Children::parse", "leptos-mview-core/src/ast/attribute.rs: Attr::parse", "leptos-mview-core/src/ast/tag.rs: Tag::parse"]}
{"id": "C04", "title": "Kebab-case names are read by maximal munch", "statement": "A kebab-cased name is the longest run of identifiers, dashes and integers that starts with an identifier or dash and never has two words in a row; its text is the concatenation of those tokens whatever the whitespace between them, and the raw prefix of a leading `r#` is dropped. It fails only if the next token is neither identifier nor dash, and then consumes nothing.", "quantifier": "all token streams and all positions", "why_tests_cant": "Names are unboundedly long mixtures of dashes, words and numbers; tests list a dozen.", "anchors": ["leptos-mview-core/src/ast/ident.rs: KebabIdent::parse"]}
{"id": "C05", "title": "Kebab names become raw snake_case identifiers", "statement": "Wherever a name has to become a Rust identifier (HTML tags, checked attributes, component props, events, use: functions, shorthands), it becomes the raw identifier with every dash replaced by an underscore and nothing else changed; so Rust keywords are usable as names, the length is kept, and two names collide only if they differ by dash versus underscore.", "quantifier": "all kebab names", "why_tests_cant": "Universally quantified over names, including keywords and names mixing dashes, digits and underscores.", "anchors": ["leptos-mview-core/src/ast/ident.rs: to_snake_ident"]}
{"id": "C06", "title": "A boolean attribute means =true", "statement": "In an input the parser accepts, replacing any attributes written as a bare name by `name=true`, anywhere in the tree, is again accepted and leaves the result of the macro unchanged; the converse replacement too, whenever it is accepted (`a=true -b` cannot be shortened, it would read as the name `a-b`).", "quantifier": "all valid inputs, every subset of their attributes", "why_tests_cant": "Equivalence of all contexts in which the attribute can appear (element kind, nesting, neighbours).", "anchors": ["leptos-mview-core/src/ast/attribute/kv.rs: KvAttr::parse", "leptos-mview-core/src/ast/value.rs: Value::new_true"]}
{"id": "C07", "title": "Attribute and directive shorthands", "statement": "`{name}` as an attribute means `name={r#name}` and `dir:{name}` as a directive argument means `dir:name={r#name}`, with dashes of the name turned into underscores in the value only: two accepted inputs that differ only in this give the same result, and shortening the long form is always accepted.", "quantifier": "all valid inputs, every subset of their shorthands", "why_tests_cant": "Same: a contextual equivalence over all inputs.", "anchors": ["leptos-mview-core/src/ast/ident.rs: BracedKebabIdent", "leptos-mview-core/src/ast/attribute/kv.rs: KvAttr::parse", "leptos-mview-core/src/ast/attribute/directive.rs: Directive::parse"]}
{"id": "C08", "title": "Parentheses and braces are interchangeable around children", "statement": "In an input the parser accepts, writing any of the children blocks `(...)` instead of `{...}` or the reverse is accepted and gives the same result. (A brace block holding nothing but one name, or starting with `..`, is a shorthand or spread, and in parentheses not a children block at all.)", "quantifier": "all valid inputs, every subset of their children blocks", "why_tests_cant": "Contextual equivalence; and the exceptions are a property of all possible block contents.", "anchors": ["leptos-mview-core/src/ast/element.rs: Element::parse", "leptos-mview-core/src/ast/attribute.rs: Attr::parse"]}
{"id": "C09", "title": "Values are interpolated verbatim", "statement": "A literal value is emitted as that literal; `{code}` as the block with exactly those tokens; `[code]` as `move || {code}`; `f[args]` as `move || ::std::format!(args)`. Any other prefix before the bracket is reported as an error.", "quantifier": "all values, whatever tokens they contain", "why_tests_cant": "Values contain arbitrary token trees.", "anchors": ["leptos-mview-core/src/ast/value.rs: Value::to_tokens"]}
{"id": "C10", "title": "User code is emitted exactly once", "statement": "In a successful expansion, every piece of code the user wrote in an attribute value, directive value, spread, child value or closure arguments appears exactly once: never duplicated (so side effects run once) and never lost, except for the places the macro is known to drop (slots that are not directly inside a component, closure arguments of blocks without node children or on HTML elements).", "quantifier": "all valid inputs, all tokens in them", "why_tests_cant": "Counting occurrences over all inputs and all nesting; tests compare a few outputs.", "anchors": ["leptos-mview-core/src/expand.rs: xml_to_tokens, component_to_tokens, slots_to_tokens", "leptos-mview-core/src/expand/subroutines.rs"]}
{"id": "C11", "title": "Order of builder calls on elements", "statement": "On HTML/SVG/MathML/custom elements the method calls are, in this order: attributes in source order, directives in source order, class shorthands then id shorthands each in source order, spreads in source order, children in source order; however these are interleaved in the source.", "quantifier": "all elements with any number and interleaving of selectors, attributes, directives, spreads, children", "why_tests_cant": "All interleavings of five kinds of parts.", "anchors": ["leptos-mview-core/src/expand.rs: xml_to_tokens", "leptos-mview-core/src/expand/subroutines.rs: xml_selectors_tokens, xml_child_methods_tokens"]}
{"id": "C12", "title": "Selector shorthands on elements", "statement": "Each `.name` on an element adds the call `.class((\"name\", true))` and each `#name` adds `.id(\"name\")` with the name's exact text.", "quantifier": "all elements and selector lists", "why_tests_cant": "Quantified over all names and numbers of selectors.", "anchors": ["leptos-mview-core/src/expand/subroutines.rs: xml_selectors_tokens", "leptos-mview-core/src/ast/ident.rs: to_str_colored"]}
{"id": "C13", "title": "Selector shorthands on components", "statement": "On a component each `.name` becomes one `class((\"name\", true))` attribute in source order; all `#id`s are joined into a single `id(\"a b c\")` attribute placed after the classes (none if there are no ids); these come before the attributes from directives and spreads, in source order.", "quantifier": "all components and selector lists", "why_tests_cant": "Quantified over all numbers and interleavings of selectors.", "anchors": ["leptos-mview-core/src/expand.rs: component_to_tokens"]}
{"id": "C14", "title": "Element kind is decided by the tag name", "statement": "A tag starting with an ASCII capital, or written as a path or with generics, is a component; otherwise a name in the SVG list is SVG, a name with a dash is a custom element, a name in the MathML list is MathML and anything else is HTML. In particular the binary search finds exactly the members of the lists.", "quantifier": "all tag names", "why_tests_cant": "Binary search over a hand-maintained list is only correct if the list is sorted in byte order; a test checks a few names.", "anchors": ["leptos-mview-core/src/ast/tag.rs: TagKind::from, is_svg_element, is_math_ml_element, Tag::parse"]}
{"id": "C15", "title": "Checked and unchecked attributes", "statement": "On HTML and MathML elements an attribute is passed unchecked by name (`.attr(\"name\", ..)`) exactly when its name contains a dash and does not start with `aria-`; on SVG and custom elements exactly when it is not `class` or `style`; in every other case it is the method of that name, and `ref` is always `node_ref`.", "quantifier": "all attribute names, all element kinds", "why_tests_cant": "All names, including those with odd mixtures of dashes.", "anchors": ["leptos-mview-core/src/expand/subroutines.rs: AttributeKind, xml_kv_attribute_tokens"]}
{"id": "C16", "title": "Directives on elements", "statement": "On elements `class:`/`style:` give `.class((\"name\", value))`/`.style(..)`, `prop:` gives `.prop(\"name\", value)`, `on:` gives `.on(event, value)` and `use:` gives `.directive(function, value)`; `attr:` and `clone:` and unknown directives are always reported as errors, never silently dropped.", "quantifier": "all directives with any key, modifier and value", "why_tests_cant": "All directive names, keys and values.", "anchors": ["leptos-mview-core/src/expand/subroutines.rs: xml_directive_tokens, event_listener_event_path, use_directive_fn_value"]}
{"id": "C17", "title": "Directives on components", "statement": "On components every directive other than `clone:` contributes exactly one entry to `.add_any_attr((..))` in source order among spreads: `class:`/`style:`/`attr:`/`prop:` with the value defaulting to `true`, `on:` and `use:` as on elements; unknown directives are always reported.", "quantifier": "all directives with any key, modifier and value", "why_tests_cant": "All directive names, keys and values.", "anchors": ["leptos-mview-core/src/expand/subroutines.rs: directive_to_any_attr_path", "leptos-mview-core/src/expand.rs: component_to_tokens"]}
{"id": "C18", "title": "Modifiers are only accepted on events", "statement": "A modifier is accepted only as `:undelegated` on `on:`, where it wraps the event; any other modifier is reported as an error.", "quantifier": "all directives with modifiers, on elements, components and slots", "why_tests_cant": "All modifiers on all directives; the corresponding UI tests for components are disabled in the repository.", "anchors": ["leptos-mview-core/src/expand/utils.rs: emit_error_if_modifier", "leptos-mview-core/src/expand/subroutines.rs"]}
{"id": "C19", "title": "Slots are grouped by name whatever the hash order", "statement": "For every iteration order of the hash map, a component receives exactly one call per distinct slot name among its direct slots, named by the snake_case of the slot's name, carrying all slots of that name in source order: the slot itself if there is one, a vector of them otherwise. Different orders only permute these calls.", "quantifier": "all components with any number of slots, all hash iteration orders", "why_tests_cant": "Hash iteration order is nondeterministic (random seed): no finite number of runs covers it.", "anchors": ["leptos-mview-core/src/expand.rs: slots_to_tokens"]}
{"id": "C20", "title": "Slot method names do not collide", "statement": "The snake_case conversion of slot names maps distinct UpperCamelCase names without underscores to distinct method names, and produces no uppercase letter; with underscores, collisions exist.", "quantifier": "all pairs of slot names", "why_tests_cant": "Injectivity over all names.", "anchors": ["leptos-mview-core/src/expand/utils.rs: upper_camel_to_snake_case"]}
{"id": "C21", "title": "Slots must be inside a component", "statement": "A slot that is not a direct child of a component is never accepted silently: at the top level, inside an HTML element or directly inside another slot the macro reports an error.", "quantifier": "all inputs containing slots", "why_tests_cant": "Every nesting of slots.", "anchors": ["leptos-mview-core/src/lib.rs: mview_impl", "leptos-mview-core/src/expand.rs: xml_to_tokens, component_to_tokens"]}
{"id": "C22", "title": "What slots may carry", "statement": "A slot with selector shorthands, spreads, any directive other than `clone:`, or a path as its name is always reported as an error.", "quantifier": "all slots", "why_tests_cant": "All combinations of attributes.", "anchors": ["leptos-mview-core/src/expand.rs: component_to_tokens, slots_to_tokens"]}
{"id": "C23", "title": "Children of components", "statement": "A component or slot gets a `.children(..)` call exactly when its block contains a child that is not a slot; it consists of the `clone:` statements in source order followed by either `ToChildren::to_children(move || view)` or, with closure arguments, `move |args| view`, where view holds the node children in source order.", "quantifier": "all components and slots", "why_tests_cant": "All children lists, interleavings with slots, clones and arguments.", "anchors": ["leptos-mview-core/src/expand/subroutines.rs: component_children_tokens, component_clone_tokens", "leptos-mview-core/src/expand.rs: component_to_tokens"]}
{"id": "C24", "title": "Shape of the whole expansion", "statement": "A successful expansion is a single braced block: of the one child if there is exactly one, and of `View::new((child, child, ...,))` with all children in source order otherwise, including none.", "quantifier": "all valid inputs", "why_tests_cant": "Any number of top-level children.", "anchors": ["leptos-mview-core/src/lib.rs: mview_impl", "leptos-mview-core/src/expand.rs: children_fragment_tokens"]}
{"id": "C25", "title": "Errors are all-or-nothing", "statement": "If anything at all is diagnosed while parsing or expanding, at any depth, the result is the list of all errors followed by `()`, and no part of the expansion; if nothing is diagnosed the result contains no error.", "quantifier": "all inputs", "why_tests_cant": "Every place where an error can be reported, at every depth.", "anchors": ["leptos-mview-macro/src/lib.rs: mview", "leptos-mview-core/src/lib.rs: mview_impl", "leptos-mview-core/src/error_ext.rs"]}
{"id": "C26", "title": "Errors keep siblings", "statement": "A stray `;` among children is reported once and skipped: the children before and after it are parsed as if it were not there, and their own errors are still reported. A token that cannot start a child is reported, with the children before it kept.", "quantifier": "all children lists, all positions", "why_tests_cant": "All positions and all surrounding children.", "anchors": ["leptos-mview-core/src/ast/children.rs: Children::parse"]}
{"id": "C27", "title": "Generics always use the turbofish", "statement": "A component path is emitted with `::` before every generic argument list, each exactly once, whether or not the user wrote it, and otherwise unchanged; writing or omitting the turbofish makes no difference.", "quantifier": "all component paths", "why_tests_cant": "Paths have any number of segments with any generics.", "anchors": ["leptos-mview-core/src/expand/utils.rs: turbofishify", "leptos-mview-core/src/expand.rs: component_to_tokens"]}
{"id": "C28", "title": "Closure arguments are delimited by pipes", "statement": "The arguments of a children block are exactly the tokens between the first pipe and the next pipe at the same nesting level, kept verbatim; if there is no second pipe the input is rejected.", "quantifier": "all token streams", "why_tests_cant": "Arbitrary patterns in between.", "anchors": ["leptos-mview-core/src/ast/element.rs: parse_closure_args"]}
{"id": "C29", "title": "Spreads are passed on verbatim", "statement": "`{..expr}` on an element becomes `.add_any_attr(expr)` and on a component one entry of the `.add_any_attr((..))` tuple, with exactly the tokens after the `..`.", "quantifier": "all expressions", "why_tests_cant": "Arbitrary expressions.", "anchors": ["leptos-mview-core/src/ast/attribute/spread_attrs.rs: SpreadAttr::parse", "leptos-mview-core/src/expand/subroutines.rs: xml_spread_tokens, component_spread_tokens"]}
{"id": "C30", "title": "slot: versus slot::", "statement": "A child is a slot exactly when it starts with the plain word `slot` followed by a colon that is not the start of `::`; so components in a module named slot, elements called `slot` and raw `r#slot` are never taken for slots.", "quantifier": "all inputs", "why_tests_cant": "All continuations after the word.", "anchors": ["leptos-mview-core/src/ast/children.rs: Child::parse"]}
{"id": "C31", "title": "Siblings are expanded independently", "statement": "The expansion of a list of children is the sequence of the expansions of its members: inserting, removing or changing one child does not alter the code generated for the others, and errors of siblings are reported in source order.", "quantifier": "all lists of children, all splits", "why_tests_cant": "All lists.", "anchors": ["leptos-mview-core/src/ast/children.rs: Children::parse, NodeChild::to_tokens", "leptos-mview-core/src/expand.rs: children_fragment_tokens"]}
{"id": "C32", "title": "Interleaving of attribute kinds does not matter", "statement": "On an element, moving attributes, directives and spreads past each other (keeping the order within each kind) does not change the expansion; on a component, the same for attributes versus directives and spreads, and `clone:` versus everything else.", "quantifier": "all attribute lists and all their reorderings that keep the order within a kind", "why_tests_cant": "All interleavings.", "anchors": ["leptos-mview-core/src/expand.rs: xml_to_tokens, component_to_tokens"]}
{"id": "C33", "title": "The hash order never affects success", "statement": "Whether the macro succeeds, the diagnostics it reports and their order do not depend on the iteration order of the hash map; and if no component has slots of two different names, neither does the output.", "quantifier": "all inputs, all pairs of iteration orders", "why_tests_cant": "Nondeterminism of the hash seed.", "anchors": ["leptos-mview-core/src/expand.rs: slots_to_tokens"]}
{"id": "C34", "title": "A missing value is always an error", "statement": "An `=` after an attribute name or directive that is not followed by a literal, block or bracket is always reported; the placeholder inserted to keep going never reaches a successful expansion.", "quantifier": "all inputs", "why_tests_cant": "All continuations after the `=`.", "anchors": ["leptos-mview-core/src/ast/value.rs: Value::parse_or_emit_err"]}
{"id": "C35", "title": "Only strings are literal children", "statement": "A literal child that is not a string (number, boolean, char, byte string) is always reported as an error; a string child is emitted as is.", "quantifier": "all inputs", "why_tests_cant": "All literals in all positions.", "anchors": ["leptos-mview-core/src/ast/children.rs: Child::parse"]}
{"id": "C36", "title": "Expansion succeeds exactly on well-formed trees", "statement": "A syntactically valid input expands successfully exactly when an explicit, recursive well-formedness condition holds on its tree (no slot at top level, known directives and modifiers in their allowed places, identifier keys where identifiers are needed, usable names, `f` the only prefix, ...); otherwise it is an error or crash.", "quantifier": "all syntax trees", "why_tests_cant": "An if-and-only-if over all trees.", "anchors": ["leptos-mview-core/src/expand.rs", "leptos-mview-core/src/expand/subroutines.rs"]}
{"id": "C37", "title": "Generated code only uses absolute paths", "statement": "Apart from the code and names written by the user, everything the expansion refers to is either a method called with `.`, a keyword, or a path starting with `::leptos` or `::std`, so that user definitions cannot capture it. The only other identifiers are in `#[allow(..)]`, the unused variable of `let __x = ();`, `<[_]>::into_vec`, and `::builder` on the type of a slot.", "quantifier": "all valid inputs", "why_tests_cant": "Every template in every combination.", "anchors": ["leptos-mview-core/src/expand.rs", "leptos-mview-core/src/expand/subroutines.rs", "leptos-mview-core/src/ast/children.rs"]}
{"id": "C38", "title": "Exactly which errors are reported, in order", "statement": "Once an input is parsed into a tree, the errors reported by the expansion are exactly those of an explicit list of issues of the tree, each once per occurrence (a modifier of `clone:` twice), in this order: per element first the path, then selectors and attributes as written, then the nodes inside, then the slots inside. If there is no issue, the macro expands; after a function-like generic or a slot at the top nothing further is reported; a name that cannot be an identifier crashes the macro. Errors of the parser come before all of these.", "quantifier": "all parsed inputs", "why_tests_cant": "All combinations and orders of errors in trees of any size.", "anchors": ["leptos-mview-core/src/expand.rs", "leptos-mview-core/src/expand/subroutines.rs", "leptos-mview-core/src/expand/utils.rs", "leptos-mview-core/src/lib.rs: mview_impl"]}
{"id": "C39", "title": "How any input is read, malformed or not, and all errors of the macro", "statement": "A set of reading rules assigns to every input a tree and a list of issues found on the way (a missing value, a stray semicolon, a literal that is not a string, an unterminated element, unclosed closure arguments, ...): which input counts as which error, what is read in place of the erroneous part, and where reading resumes. Every input has such a reading. The macro reports exactly the issues of the reading followed by the issues of the tree it is read as, in order, up to one that stops the macro; it expands if and only if there are none.", "quantifier": "all token streams", "why_tests_cant": "Malformed inputs are unbounded in number and nesting, and what is reported for one error depends on how reading went on after the errors before it; compile-fail tests fix a few single errors.", "anchors": ["leptos-mview-core/src/ast/children.rs", "leptos-mview-core/src/ast/element.rs", "leptos-mview-core/src/ast/attribute.rs", "leptos-mview-core/src/ast/attribute/directive.rs", "leptos-mview-core/src/ast/attribute/kv.rs", "leptos-mview-core/src/ast/value.rs", "leptos-mview-core/src/parse.rs", "leptos-mview-core/src/lib.rs: mview_impl"]}
{"id": "C40", "title": "Where code is written does not influence what is generated", "statement": "Source spans never influence which code is generated, which errors are reported, in which order, or whether the macro panics: two inputs with the same tokens give the same result up to the spans in it, whatever the spans of their tokens are and whether or not the compiler can join spans (stable or nightly).", "quantifier": "all token streams with all assignments of spans", "why_tests_cant": "Every place a span is computed or joined, for every input.", "anchors": ["leptos-mview-core/src/span.rs", "leptos-mview-core/src/expand.rs", "leptos-mview-core/src/expand/subroutines.rs", "leptos-mview-core/src/ast"]}
{"id": "C41", "title": "Where each error of a tree is reported", "statement": "Every error the expansion finds in a parsed tree is reported at a definite place of the source, and the places are listed by a recursive description of the tree independent of the expansion: an attribute that is not allowed is reported at its own name or prefix, an unsupported modifier at the modifier, a slot outside a component at its tag, a value without braces or parentheses at the value, and so on. If an input parses, the macro reports exactly those errors at exactly those places, in that order, up to one that stops the macro.", "quantifier": "all token streams that parse, with all assignments of spans, whether or not spans can be joined", "why_tests_cant": "The recorded compile-fail outputs fix a place for some twenty errors; each error can occur at any depth, with any name and after any other.", "anchors": ["leptos-mview-core/src/span.rs", "leptos-mview-core/src/expand.rs", "leptos-mview-core/src/expand/subroutines.rs", "leptos-mview-core/src/expand/utils.rs", "leptos-mview-core/src/ast"]}
{"id": "C42", "title": "Where each error of any input is reported", "statement": "Every input, however malformed, can be read by rules that recover from errors, and each rule says where its error is reported: at the next token, at the closing delimiter if there is none (at the call site at the top), at the equals sign for a value missing at the end, at the first pipe for arguments that are not closed, from the tag to the unexpected token for missing children, and so on. The macro reports exactly the errors of the reading and then those of the tree that is read, in order, each at the place that the rules give it, up to one that stops the macro.", "quantifier": "all token streams the lexer can produce, with all assignments of spans, whether or not spans can be joined", "why_tests_cant": "The recorded compile-fail outputs show single mistakes; here any number of mistakes at any depth.", "anchors": ["leptos-mview-core/src/ast", "leptos-mview-core/src/error_ext.rs", "leptos-mview-core/src/parse.rs", "leptos-mview-core/src/span.rs", "leptos-mview-core/src/lib.rs"]}
{"id": "C43", "title": "Where every token of the expansion is placed", "statement": "The expansion of an accepted input is the code which its tree stands for, each token of which is at a definite place: what the user wrote is where it was written (including the code in values, spreads, closure arguments and generics), a method generated for a key, a directive, a selector, a slot or a child is where that is, the builder of a component where its name is, the call for a property of a component where the whole attribute is, the closure for children where the first child or the arguments are, and the rest is at the call site. Conversely all code so placed is the expansion for some order of the slots; without places it is the code of the plain description.", "quantifier": "all token streams the parser accepts, with all assignments of spans, whether or not spans can be joined, and all iteration orders of hash maps", "why_tests_cant": "Tests of a macro see spans only through the positions of errors of the compiler about the generated code, of which the repository records a handful.", "anchors": ["leptos-mview-core/src/span.rs", "leptos-mview-core/src/expand.rs", "leptos-mview-core/src/expand/subroutines.rs", "leptos-mview-core/src/expand/utils.rs", "leptos-mview-core/src/ast"]}
{"id": "C44", "title": "Places are only passed on", "statement": "The macro never looks at where its input is, and makes up no places. If the places in the input are changed in any way that respects the call site and joining (in particular if the macro is used further down in the file), those of the tokens and errors of the result change in the same way and nothing else changes. Each place in the result is the call site, or a place in the input, or several of these joined; where nothing can be joined (stable Rust) it is the call site or that of a token of the input, and where places are ranges of a text it begins where a token begins and ends where a token ends.", "quantifier": "all token streams, valid or not, all assignments of spans, all changes of places and all iteration orders of hash maps", "why_tests_cant": "A test uses the macro in one place of one file; that nothing depends on the places is a statement about pairs of runs, over all spans.", "anchors": ["leptos-mview-core/src/span.rs", "leptos-mview-core/src/lib.rs", "leptos-mview-core/src/expand.rs", "leptos-mview-core/src/expand/subroutines.rs", "leptos-mview-core/src/ast", "leptos-mview-core/src/parse.rs"]}
{"id": "C45", "title": "The expansion is valid Rust syntax", "statement": "If the macro accepts its input and the pieces of Rust that end up in the expansion (block contents, spread expressions, closure parameters, component paths with their generic arguments) are syntactically valid, then the expansion is a syntactically valid block expression: paths with turbofish, calls, method calls, tuples, arrays, closures, let statements and outer attributes only where Rust allows them, and no keyword where a name is needed, whatever names elements, attributes and directives have. If there are errors, what stands in for the expansion is an expression too.", "quantifier": "all token streams, all pieces of user code, all trees of any depth and all iteration orders of hash maps", "why_tests_cant": "Tests compile a few dozen inputs; a missing comma or turbofish, or a keyword as a name, may need a particular combination of attributes, slots and children to show.", "anchors": ["leptos-mview-core/src/expand.rs", "leptos-mview-core/src/expand/subroutines.rs", "leptos-mview-core/src/expand/utils.rs", "leptos-mview-core/src/ast/ident.rs", "leptos-mview-core/src/ast/tag.rs", "leptos-mview-core/src/lib.rs"]}
{"id": "C46", "title": "The macro does not look at the user's code", "statement": "Take an accepted input and replace the code in it (the contents of blocks and brackets, spread expressions, closure arguments, literals) by any other code. The macro then does the same: it reports the same errors, panics at the same place, or returns the same tokens with the new code in the places of the old. So the expansion is a template: marking the code pieces, expanding, and filling in the code afterwards gives the same as filling it in before. The only condition is that closure arguments contain no pipe.", "quantifier": "all inputs of the grammar, all replacements of all pieces of code at once, all iteration orders of hash maps", "why_tests_cant": "It compares runs on infinitely many inputs that differ in arbitrary tokens; a test can only try some code.", "anchors": ["leptos-mview-core/src/ast/value.rs", "leptos-mview-core/src/ast/attribute/spread_attrs.rs", "leptos-mview-core/src/ast/element.rs", "leptos-mview-core/src/expand.rs", "leptos-mview-core/src/expand/subroutines.rs"]}
{"id": "C47", "title": "What is generated in spite of errors (feature nightly)", "statement": "With the feature `nightly`, errors do not replace the expansion. The macro then reports the same errors as without it, and returns the expansion of the tree the input is read as, in which each wrong piece has a fixed replacement and everything else stands for what it stands for in a correct input: a value with an unknown prefix is left out, a string where an identifier is needed becomes `__invalid_identifier_found_str` (an event: `invalid_event`), modifiers that are not allowed or unknown are ignored, directives that are unknown or not for elements are left out, `clone:` values are ignored, on slots the selectors, spreads and directives other than `clone:` are left out, and slots whose name is a path are left out. If an error stops the macro, `()` is returned. Without errors the feature makes no difference.", "quantifier": "all token streams, all iteration orders of hash maps, all path parsers", "why_tests_cant": "It describes the output for every malformed input, whatever combination of mistakes it contains.", "anchors": ["leptos-mview-macro/src/lib.rs", "leptos-mview-core/src/lib.rs", "leptos-mview-core/src/expand.rs", "leptos-mview-core/src/expand/subroutines.rs", "leptos-mview-core/src/ast/ident.rs", "leptos-mview-core/src/ast/value.rs", "Cargo.toml"]}
{"id": "C48", "title": "What is generated in spite of errors is valid syntax", "statement": "With the feature `nightly`, whatever errors are reported, the tokens returned are still a valid Rust expression (`()` or a block), provided the pieces of user code that the macro read (blocks, spreads, closure parameters, component paths) are valid themselves. So a mistake in the view never causes an additional syntax error inside generated code: a value that is left out leaves no stray comma or empty operand, and names that replace strings are identifiers.", "quantifier": "all token streams, all iteration orders of hash maps, all path parsers, all notions of valid user code", "why_tests_cant": "All combinations of mistakes; each leaves a hole in another template.", "anchors": ["leptos-mview-core/src/expand.rs", "leptos-mview-core/src/expand/subroutines.rs", "leptos-mview-core/src/ast/value.rs", "leptos-mview-core/src/ast/ident.rs"]}
{"id": "C49", "title": "A complete piece of a view is read the same wherever it is written", "statement": "Input that is accepted by itself can be written in front of any other input, or in any block of children, and is read there exactly as by itself: it does not change how the rest is read or which errors are reported for it; views of one child each, written one after the other, expand to the view of all their expansions in order; and two pieces that are read as the same children can be exchanged anywhere, even in inputs with errors, without any change of the result.", "quantifier": "all accepted pieces, all surroundings, all iteration orders of hash maps, all path parsers that do not look behind the path", "why_tests_cant": "All pairs of pieces and surroundings.", "anchors": ["leptos-mview-core/src/ast/children.rs: Children::parse", "leptos-mview-core/src/ast/element.rs: Element::parse", "leptos-mview-core/src/ast/attribute.rs: Attrs::parse", "leptos-mview-core/src/lib.rs: mview_impl"]}
{"id": "C50", "title": "What makes no difference", "statement": "The following do not influence the result of the macro, neither the expansion nor the errors: closure arguments on HTML elements and on blocks without children other than slots; slots inside HTML elements, with everything in them; an empty block instead of `;`; modifiers of `class:`, `style:`, `attr:` and `prop:` on components, and for these leaving out the value instead of writing `=true`; and whether a key that is only used as text (`class:`, `style:`, `prop:` on elements, `class:`, `style:` and dashed `attr:` on components) is a name or a string. Slots directly inside slots are checked, but the expansion is that without them.", "quantifier": "all inputs (also malformed ones), all combinations of these changes at any depth, all iteration orders of hash maps", "why_tests_cant": "A statement about all pairs of inputs.", "anchors": ["leptos-mview-core/src/expand.rs: xml_to_tokens, component_to_tokens, slots_to_tokens", "leptos-mview-core/src/expand/subroutines.rs: component_children_tokens, directive_to_any_attr_path, xml_directive_tokens"]}
{"id": "C51", "title": "The expansion is at most linear in the input", "statement": "The code generated for a view is at most a constant factor larger than the view (counted in tokens and the characters of names and literals), on stable and with the nightly feature; in particular no part of the input is repeated once per nesting level or per sibling.", "quantifier": "all inputs, well-formed or (nightly) malformed, of any size and nesting depth; all parsers of paths that do not invent tokens; all iteration orders of hash maps", "why_tests_cant": "Asymptotic; duplication per nesting level only shows in deeply nested views, which no test contains.", "anchors": ["leptos-mview-core/src/expand.rs: root_children_tokens, xml_to_tokens, component_to_tokens, children_fragment_tokens", "leptos-mview-core/src/expand/subroutines.rs: component_children_tokens, slots_to_tokens", "leptos-mview-core/src/lib.rs: mview_impl"]}
{"id": "C52", "title": "Where every token generated in spite of errors is placed (feature nightly)", "statement": "With the feature `nightly`, for every input that does not stop the macro, every token of the returned expansion has a determined span: what is kept has the span it has in a correct input, and what replaces a wrong piece has the span of that piece (`invalid_event` and `__invalid_identifier_found_str` are where the string is, the placeholder for a missing value is where the value is missing). The errors are those reported without the feature, at the same places. If the macro is stopped, `()` at the call site is returned; without errors the feature makes no difference, not even for spans.", "quantifier": "all token streams with any spans, any behaviour of joining spans, all iteration orders of hash maps, all path parsers", "why_tests_cant": "Spans of recovered code decide what an IDE offers while one is typing; there are no tests of spans, and the malformed inputs are infinitely many.", "anchors": ["leptos-mview-macro/src/lib.rs", "leptos-mview-core/src/lib.rs", "leptos-mview-core/src/expand.rs", "leptos-mview-core/src/expand/subroutines.rs", "leptos-mview-core/src/ast/ident.rs", "leptos-mview-core/src/ast/value.rs", "leptos-mview-core/src/error_ext.rs"]}
{"id": "C53", "title": "Names that are not mentioned in a view cannot interfere with it", "statement": "Every identifier of the generated code that could refer to something of the user (it is not directly after `::` or `.`) is written in the input, as an identifier or as a name whose dashes are replaced by underscores; the only others are the keywords `move`, `let`, `true`, `false`, the names in `#[allow(..)]`, `__x` and `_`. So a variable, function, trait or module of the user whose name is not mentioned in the view does not affect its meaning. This is also the case for what is generated in spite of errors (feature `nightly`), where there can in addition be `__invalid_identifier_found_str`; all other generated paths start with `::leptos` or `::std`, and the placeholder for a missing value with `::leptos_mview`.", "quantifier": "all token streams (valid or not), all names, all iteration orders of hash maps, all path parsers whose paths consist of identifiers in the input", "why_tests_cant": "Tests use the names they use; the claim is about all names that could be in scope, and about malformed inputs as well.", "anchors": ["leptos-mview-core/src/expand.rs", "leptos-mview-core/src/expand/subroutines.rs", "leptos-mview-core/src/expand/utils.rs", "leptos-mview-core/src/ast/ident.rs", "leptos-mview-core/src/ast/value.rs"]}
{"id": "C54", "title": "No code of the user is generated twice, even in spite of errors", "statement": "Whatever the input, valid or not, code written by the user (values, spreads, closure arguments, children) is in the generated code at most as often as in the input: a literal such as `'c'` or `b\"xyz\"`, wherever it is, does not occur more often in what the macro generates (with the feature `nightly` also in spite of errors) than in the tokens it is given, unless it is among the generic arguments of a component, whose path is repeated. So a side effect in the view is not run twice and a moved variable is not moved twice because of the macro, however the elements are nested and whatever is repeated or missing.", "quantifier": "all token streams (valid or not), all literals other than strings and numbers (for the code of the tree: other than strings), all iteration orders of hash maps, all path parsers", "why_tests_cant": "Tests of malformed inputs only look at the messages; the claim is about what is generated besides them, for all combinations of errors and nestings.", "anchors": ["leptos-mview-core/src/lib.rs", "leptos-mview-core/src/expand.rs", "leptos-mview-core/src/expand/subroutines.rs", "leptos-mview-core/src/expand/utils.rs", "leptos-mview-core/src/ast/value.rs", "leptos-mview-core/src/ast/children.rs"]}
{"id": "C55", "title": "Code and formatting are not looked at even when the input is wrong", "statement": "Take any input, valid or not, and change anywhere in it: what is in square brackets, the block or literal after an `=`, the expression in `{..expr}`, literals such as `'a'`, and whether punctuation other than `:`, `.` and `'` is written together with what follows (`;;` or `; ;`, `=|x|` or `= |x|`). The macro then does the same: it reports the same errors in the same order, or panics at the same place, or returns the same tokens with the new code in the places of the old; with the feature `nightly` also what is generated in spite of errors is the same. The only condition is that `syn` still reads the same paths for component names.", "quantifier": "all pairs of token streams that differ in these things, at any depth and in any number of places, all iteration orders of hash maps, all path parsers that read the same paths in both", "why_tests_cant": "It compares runs on infinitely many pairs of inputs with arbitrary errors and arbitrary replaced code; the UI tests pin a few messages for one formatting each.", "anchors": ["leptos-mview-core/src/parse.rs", "leptos-mview-core/src/ast/value.rs", "leptos-mview-core/src/ast/attribute/spread_attrs.rs", "leptos-mview-core/src/ast/attribute/kv.rs", "leptos-mview-core/src/ast/attribute/directive.rs", "leptos-mview-core/src/ast/element.rs", "leptos-mview-core/src/ast/children.rs", "leptos-mview-core/src/expand.rs"]}
{"id": "C56", "title": "The help given with errors works", "statement": "If the errors reported for an input include \"unterminated element\", whose help is to add a `;`, there is a block (or the whole input) at whose end a `;` can be added so that exactly this error disappears: all the others are still reported, in the same order, and no new one appears. So as many semicolons as there are such errors remove all of them, and an input with no other errors is then accepted. \"unknown attribute\" is always followed by \"child elements not found\", and adding one `;` in front of some token removes exactly these two, provided no component path is directly followed by a `:` or `<` that `syn` left over. \"unknown modifier\" of an `on:` directive goes away, and no other error changes, when this modifier is replaced by `undelegated` in one place; an input with only unterminated elements and unknown modifiers is accepted after one such edit for each error.", "quantifier": "all token streams with any number of errors of any kind at any depth, as long as the macro does not panic, all iteration orders of hash maps, all path parsers with the stated locality", "why_tests_cant": "The UI tests pin the text of the help but never apply it; that following it removes this error and has no other effect is a claim about pairs of runs on unboundedly many inputs.", "anchors": ["leptos-mview-core/src/ast/element.rs", "leptos-mview-core/src/ast/children.rs", "leptos-mview-core/src/ast/attribute.rs", "leptos-mview-core/src/lib.rs", "leptos-mview-core/src/expand/subroutines.rs"]}
{"id": "C57", "title": "At most three errors for every two tokens", "statement": "However wrong the input, and however deeply its elements are nested, the number of errors reported is at most 3/2 of the number of tokens in it (those inside groups included), or one more if one of the errors is about generics written `Fn(..)`. Errors are not multiplied by nesting or by the recovery after earlier ones. The bound is the best possible: `p 3` repeated n times has 2n tokens and 3n errors.", "quantifier": "all token streams for which the macro does not panic, all iteration orders of hash maps, all path parsers", "why_tests_cant": "A bound on the number of errors relative to the size of the input ranges over all inputs; a test with a few wrong inputs cannot exclude that deeper nesting or longer inputs lead to a flood of errors.", "anchors": ["leptos-mview-core/src/ast/element.rs", "leptos-mview-core/src/ast/children.rs", "leptos-mview-core/src/ast/attribute.rs", "leptos-mview-core/src/ast/ident.rs", "leptos-mview-core/src/lib.rs"]}
{"id": "C58", "title": "Running the expansion builds the page that was written", "statement": "Running the code generated for an accepted input builds exactly what was written, in the written nesting and order. Each element has its own name and namespace (HTML, SVG, MathML or custom), its attributes under the names they were written with, its class and style toggles, properties, event listeners (undelegated if so marked), `use:` functions, reference, and after these its shorthand classes, shorthand ids and spreads; values are children in between. Each component is the function at the written path, and gets each property under its name with underscores, the elements in its block as children (with the parameters written between bars, and clones of what was given with `clone:`), the slots in its block grouped by their names (in written order within a group), and its shorthand classes, ids, directives and spreads as attributes. Assumed are what the builder methods of leptos do; that attributes, properties and slots are not named like another builder method, and attributes of elements contain no `_`; that directives other than `use:` have a value (on components, only `on:`); that no HTML element is called `custom`; and that spreads on components have no commas outside of brackets.", "quantifier": "all accepted token streams with usual names, all iteration orders of hash maps, all path parsers, all interpretations of user code and all types of values", "why_tests_cant": "Tests render a few fixed views to strings. The claim is about every combination and nesting of elements, attributes and directives, and about listeners, properties and references, which do not show up in rendered strings at all.", "anchors": ["leptos-mview-core/src/expand.rs", "leptos-mview-core/src/expand/utils.rs", "leptos-mview-core/src/expand/subroutines.rs", "leptos-mview-core/src/lib.rs"]}
{"id": "C59", "title": "What is documented to be the same is the same", "statement": "Inputs that differ only in how the following are written are accepted alike, and running their expansions gives the same: `[code]` for `{move || code}`, `f[args]` for `{move || format!(args)}`, a literal for the literal in braces; a name with hyphens for the one with underscores, for properties of components and slots, `clone:`, events, `use:` functions and `prop:` on components; no value for `=true` on attributes and (on components) `class:`, `style:`, `attr:` and `prop:`; `{name}` for `name={name}` and `dir:{name}` for `dir:name={name}`, with underscores in the variable. This is so for any number of differences anywhere in the input.", "quantifier": "all pairs of inputs whose trees are the same when written in full, with usual names; all iteration orders of hash maps, path parsers and interpretations of user code for which `{\"a\"}` is `\"a\"` and so on", "why_tests_cant": "The documentation shows each equivalence once. The claim is that they can be used together, at any depth, on every kind of element, component and slot.", "anchors": ["src/lib.rs", "leptos-mview-core/src/expand/subroutines.rs", "leptos-mview-core/src/expand.rs", "leptos-mview-core/src/ast/value.rs", "leptos-mview-core/src/ast/attribute/kv.rs"]}
{"id": "C60", "title": "Parsing takes linear time", "statement": "Parsing the input of the macro takes a number of calls of `syn` (peeks, forks, tokens parsed or not found) and copied tokens that is at most 76 for each token, plus 40, whatever the tokens are, however deeply they are nested and whether or not they are correct: what is tried and rolled back is never a block of children. It also takes at least one for every two tokens.", "quantifier": "all token streams and all path parsers (a path counts as one call and one for each token)", "why_tests_cant": "A parser that tries something and rolls back is exponential as soon as what it tries can contain itself; on the small nesting depths of tests this is not noticed, and tests do not measure time.", "anchors": ["leptos-mview-core/src/parse.rs", "leptos-mview-core/src/ast/attribute.rs", "leptos-mview-core/src/ast/attribute/kv.rs", "leptos-mview-core/src/ast/children.rs", "leptos-mview-core/src/ast/element.rs", "leptos-mview-core/src/ast/ident.rs"]}
{"id": "C61", "title": "Generated identifiers are identifiers", "statement": "If the identifiers and integers of the input are as a Rust lexer produces them, then every identifier the macro generates (methods made of attribute names like `data-2x` or `-0`, elements, events, slot methods made of `UpperCamelCase` names, placeholders for wrong names) is the text of a Rust identifier, and one for which `r#` is allowed if it is raw. In particular a kebab-cased name always becomes an identifier when its dashes are replaced, so `Ident::new_raw` cannot crash on account of the text. This holds for the expansion in spite of errors (nightly) too.", "quantifier": "all token streams as a lexer produces them, all notions of identifier characters that agree with Rust on ASCII, all orders of slots, all path parsers that do not invent identifiers", "why_tests_cant": "`Ident::new` panics at compile time of the user's crate on a text that is no identifier; tests only try some combinations of dashes, numbers, keywords and capitals.", "anchors": ["leptos-mview-core/src/ast/ident.rs", "leptos-mview-core/src/expand/utils.rs", "leptos-mview-core/src/expand/subroutines.rs", "leptos-mview-core/src/expand.rs"]}
{"id": "C62", "title": "Component paths are Rust paths, and never function types", "statement": "The path of a component is read as a Rust type path: segments separated by `::` (an optional leading `::`), each a non-keyword or `Self` with optional generics `<..>` or `::<..>`, or one of `self`, `super`, `crate` without generics; it extends as far as possible, but ends before `<=` and `::(`. In the generated code lifetimes among the generics come first and commas are kept or added in between. Parentheses after a path are children and never generics, so the macro's error about generics like `Fn(..)` cannot occur: with it go the exceptions in C31 (errors of siblings are always concatenated) and C57 (there are never more than 3/2 errors per token). The path consists of what was written, and what comes after it does not matter, if that holds of each generic argument.", "quantifier": "all token streams, all parsers of single generic arguments that are not lifetimes, all iteration orders of hash maps", "why_tests_cant": "The recovery of the macro and the bounds on its errors rely on how a third-party parser stops, on every input; tests try a few well-formed paths.", "anchors": ["leptos-mview-core/src/ast/tag.rs", "leptos-mview-core/src/expand/utils.rs"]}
{"id": "C63", "title": "The expansion tells exactly what the view is", "statement": "Two inputs that the macro accepts have an expansion in common if and only if they are the same view, and then they have all in common. They are the same view if they differ at most in: the order of attributes of different kinds, and of selectors of different kinds; the order of slots of different names, and of slots relative to other children; `-` or `_` in names that become Rust identifiers; on components, `.a` or `class:a`, `#a #b` or `attr:id=\"a b\"`, and `=true` or no value; `clone:` and closure arguments where there are no children; the turbofish; and what C50 lists. In particular nothing else that is written is lost or confused with something else.", "quantifier": "all accepted inputs, all iteration orders of hash maps; for the direction from code to view, spreads on components without a comma at top level that do not begin with `::`, and generics with balanced angle brackets", "why_tests_cant": "It compares every pair of inputs, also those no one would think of as similar.", "anchors": ["leptos-mview-core/src/expand.rs", "leptos-mview-core/src/expand/subroutines.rs", "leptos-mview-core/src/expand/utils.rs"]}
{"id": "C64", "title": "Mistakes in a block of children stay there", "statement": "In any input, valid or not, the content of a block that is read as the children of an element can be replaced by anything (in braces directly after the attributes: by anything that is not itself an attribute, `{name}` or `{..spread}`), and it is again read as the children of that element: everything outside of the block is understood in the same way, and the errors outside of it are the same, in the same order. So mistakes in a block never hide or cause errors elsewhere: if the block is replaced by one that is accepted alone, or emptied, then exactly the errors outside of it are left. Only errors that stop the macro (a directive without a key or modifier, generics like `Fn(..)`, slots at the top) hide what comes later.", "quantifier": "all token streams, all blocks of children at any depth, all contents, all iteration orders of hash maps", "why_tests_cant": "It concerns every pair of contents of every block of every input, and errors that interfere with each other only in certain combinations.", "anchors": ["leptos-mview-core/src/ast/element.rs", "leptos-mview-core/src/ast/children.rs", "leptos-mview-core/src/expand.rs"]}
{"id": "C65", "title": "Which errors there are", "statement": "The errors that are reported for some input are exactly these: `r#` inside of a name; a string where a function or an event is expected; a prefix of brackets other than `f`; a missing value, with the advice to use braces or without; an element without end; closure arguments that are not closed or without children; an unknown attribute; a literal child that is not a string; a superfluous semicolon; something that is not a child, a tag or a path; a directive without key or with extra tokens; a modifier that is not an identifier, not allowed or not known; selectors, spreads and directives other than `clone:` on slots; directives other than the seven; `attr:` and `clone:` on elements; a value of `clone:`; the path of a slot; a slot at the top. Each of them, whichever identifier or string it is about, is reported for some input. All other errors of the parsers (`no attribute found`, `invalid spread attribute`, `invalid value ..`, `no brace found`, `function generics are not allowed` and so on) are never seen.", "quantifier": "all token streams, all identifiers and strings, all iteration orders of hash maps", "why_tests_cant": "That an error message is never reported says something about all inputs.", "anchors": ["leptos-mview-core/src/ast/element.rs", "leptos-mview-core/src/ast/children.rs", "leptos-mview-core/src/ast/value.rs", "leptos-mview-core/src/ast/attribute.rs", "leptos-mview-core/src/ast/attribute/spread_attrs.rs", "leptos-mview-core/src/ast/attribute/directive.rs", "leptos-mview-core/src/parse.rs", "leptos-mview-core/src/expand/subroutines.rs", "leptos-mview-core/src/expand/utils.rs"]}
{"id": "C66", "title": "Editing the children of an element changes the code in one place", "statement": "For each block of children in an accepted input, at any depth, there is generated code with one gap that does not depend on the content of the block, such that with any other accepted content the generated code is that code with the code for the new children in the gap. The code for the children only depends on them and on what kind of element they belong to: the calls `.child(..)` for an element; the call `.children(..)`, with the closure arguments and `clone:` statements of the component, followed by the calls for the slots, for a component; only the call `.children(..)` for a slot. The children of something in a slot in a slot have to be valid but no code is generated for them, those of something in a slot in an element are not even expanded. If the order in which a hash map of slots is iterated matters, there are several such gaps, which also do not depend on the content.", "quantifier": "all accepted token streams, all blocks of children at any depth, all contents, all iteration orders of hash maps", "why_tests_cant": "It compares the expansions of all inputs that differ in one block, at any depth.", "anchors": ["leptos-mview-core/src/expand.rs", "leptos-mview-core/src/expand/subroutines.rs", "leptos-mview-core/src/ast/element.rs", "leptos-mview-core/src/ast/children.rs"]}
{"id": "C67", "title": "Mistakes in the children of an element affect the generated code in one place (feature nightly)", "statement": "With the feature `nightly` code is also generated in spite of errors. For each block of children, at any depth, in any input none of whose errors are fatal, there is generated code with one gap that does not depend on the content of the block: with any other content, correct or not, as long as none of its errors are fatal, what is generated is that code with what is generated for the new children in the gap. What is generated for the children depends only on them and on the kind of element they belong to, as for correct inputs (C66); children of slots whose name is a path are left out together with the slot. So everything outside of the block, for example for the compiler and IDEs, stays the same while its content is being edited. With a fatal error (a directive without key or modifier, slots at the top) only `()` is generated.", "quantifier": "all token streams with no fatal errors, all blocks of children at any depth, all contents, all iteration orders of hash maps", "why_tests_cant": "It compares what is generated for all pairs of inputs that differ in one block, with any combination of mistakes.", "anchors": ["leptos-mview-core/src/lib.rs", "leptos-mview-core/src/expand.rs", "leptos-mview-core/src/expand/subroutines.rs", "leptos-mview-core/src/ast/element.rs", "leptos-mview-core/src/ast/children.rs"]}
{"id": "C68", "title": "Editing attributes changes the code in one place", "statement": "For each position among the attributes of an element, component or slot anywhere in a view there is generated code with one gap, such that with any attributes of one kind written at that position, what is generated is the code for these attributes, one after the other in source order, in that gap. The kinds are: plain attributes; directives and spreads, separately on elements and together on components; `clone:` on components and slots. The code for one attribute only depends on the attribute and on the element, component or slot it is on: a method call, an argument of `.add_any_attr((..))`, or a `let` statement. So nothing else in the expansion changes when an attribute is added, removed or changed. `clone:` has to be valid but is not used if there are no children other than slots. The input is accepted if and only if all of these attributes have code and the rest is fine. Slots in elements are ignored together with their attributes.", "quantifier": "all accepted token streams that are read as a view with these attributes, all elements at any depth, all lists of attributes of one kind, all iteration orders of hash maps", "why_tests_cant": "It compares the expansions of all inputs that differ in some attributes of one element, at any depth.", "anchors": ["leptos-mview-core/src/expand.rs", "leptos-mview-core/src/expand/subroutines.rs", "leptos-mview-core/src/ast/attribute.rs"]}
{"id": "C69", "title": "Editing selectors, closure arguments or the tag changes the code in one place", "statement": "For each position among the selectors of an element, component or slot anywhere in a view there is generated code with one gap, such that with any classes (or any ids) written at that position, what is generated is the code for these in that gap: on elements one `.class((.., true))` or `.id(..)` call per selector in source order, on components one argument of `.add_any_attr((..))` per class and a single one for all ids of the component together. A slot with a selector is not accepted. The same holds for closure arguments: they are in one place, exactly as written, if they are those of a component or slot with children other than slots, and have no effect on the expansion otherwise. The same holds for the tag of an element, as long as it stays HTML, SVG, MathML or custom: only the expression that makes the element changes. So nothing else in the expansion changes with such an edit.", "quantifier": "all accepted token streams that are read as such a view, all elements at any depth, all lists of class or id names, all closure arguments, all tags of one kind, all iteration orders of hash maps", "why_tests_cant": "It compares the expansions of all inputs that differ in the selectors, closure arguments or tag of one element, at any depth.", "anchors": ["leptos-mview-core/src/expand.rs", "leptos-mview-core/src/expand/subroutines.rs", "leptos-mview-core/src/ast/attribute/selector.rs"]}
{"id": "C70", "title": "Each error is reported at what it is about", "statement": "Every error the macro reports for an input, however malformed, is at the place of tokens of that input that are what the error says: an unknown directive at a word before a colon that is not a directive, a modifier at the word after the second colon, a missing value at what comes after an `=` (or at the `=`) when that is not a value, an unclosed closure at a pipe that no other pipe follows, a superfluous selector at its `.` or `#`, a literal child at a literal that is not a string, unexpected braces content at the token after the name, a missing block at what follows the second pipe, a stray semicolon at a semicolon, function generics at the parenthesised arguments of a path, and so on for all kinds of errors. At the end of a group the place is its closing delimiter, at the end of the input the call site.", "quantifier": "all token streams with any spans, all ways of joining spans, all path parsers that leave a suffix of what they are given, all reported errors of every input", "why_tests_cant": "It relates every error of every malformed input, at any depth and with any number of other errors around it, to tokens of the input.", "anchors": ["leptos-mview-core/src/ast/children.rs", "leptos-mview-core/src/ast/element.rs", "leptos-mview-core/src/ast/value.rs", "leptos-mview-core/src/ast/attribute/directive.rs", "leptos-mview-core/src/expand/subroutines.rs", "leptos-mview-core/src/error_ext.rs"]}
{"id": "C71", "title": "Paths that syn reads only partly are not accepted", "statement": "If `syn::Path::parse` leaves tokens unread in a group within the generics of a tag (as in `Foo<[u8; 4 5]>`), the input is not expanded: the macro generates code for exactly the inputs, and the same code, as with a path parser that fails on such paths. If the rest of the input is read without errors the result is syn's error alone, with the message for the first such path in the input; otherwise the result is the errors of the parser, without those of the expansion. On nightly both are seen. If no path leaves tokens, the bookkeeping changes nothing.", "quantifier": "all token streams, all path parsers, all assignments of leftovers to positions, all hash map orders", "why_tests_cant": "It holds for every tree around the path and for every path parser; the branch of the code involved is reached only through state hidden in syn.", "anchors": ["leptos-mview-core/src/lib.rs", "leptos-mview-core/src/ast/tag.rs", "leptos-mview-core/src/ast/children.rs", "leptos-mview-core/src/ast/element.rs"]}
{"id": "C72", "title": "What errors say", "statement": "Each error that is reported, whatever the input, says one of a fixed list of 29 texts (with or without help), or names a directive that is written there and says that slots do not support it, or says what syn says about a path. Each of these is said about some input. Where a name is expected the text begins with `unexpected end of input` exactly if nothing follows there in the group. Two errors that look the same are the same mistake. On stable Rust the macro returns either code, or one invocation of `::core::compile_error!` for each error, in order, with its text and help, followed by `()`; which of the two can be told from the tokens.", "quantifier": "all token streams with any spans, all path parsers that agree with syn's, all texts of syn's errors about paths, all hash map orders", "why_tests_cant": "It is about every input and every pair of inputs; the recordings in tests/ui cover about half of the texts.", "anchors": ["leptos-mview-core/src/ast/ident.rs", "leptos-mview-core/src/ast/value.rs", "leptos-mview-core/src/ast/element.rs", "leptos-mview-core/src/ast/children.rs", "leptos-mview-core/src/expand.rs", "leptos-mview-core/src/expand/subroutines.rs", "leptos-mview-core/src/expand/utils.rs", "leptos-mview-core/src/error_ext.rs", "leptos-mview-core/src/parse.rs", "leptos-mview-core/src/lib.rs"]}
{"id": "C73", "title": "Parts of an element combine freely", "statement": "Let `t ;` be accepted as an element with just a tag, `div s ;` as a `div` with just selectors, `div a ;` as one with just attributes, `div e` as one with just closure arguments and children. Then `t s a e` is accepted as the element with that tag, those selectors, attributes, arguments and children, unless a dash at the end of one part meets a word at the start of what follows; the same after `slot:`. Attributes or selectors accepted on their own can be written one after the other. Conversely every accepted element, every accepted list of attributes and every accepted list of selectors comes apart in this way, except that attributes starting with a dash cannot stand right after `div`.", "quantifier": "all token streams for each of the parts, all path parsers of the documented kind", "why_tests_cant": "The number of combinations is unbounded; tests try the parts in a few combinations only.", "anchors": ["leptos-mview-core/src/ast/element.rs", "leptos-mview-core/src/ast/attribute.rs", "leptos-mview-core/src/ast/attribute/selector.rs", "leptos-mview-core/src/ast/tag.rs", "leptos-mview-core/src/ast/ident.rs"]}
{"id": "C74", "title": "Every mistake is made at one place", "statement": "A thread of a view is what remains if one goes down to one single thing (a value, a tag, a selector or an attribute) and leaves out everything except the tags around it. The macro takes a syntactically valid view if and only if it takes each of its threads. If only errors are reported, then the errors reported for the view are exactly those reported for its threads; if the macro stops or crashes, so it does for one of the threads. So leaving out attributes, selectors, closure arguments or children anywhere in a view that is accepted never makes it wrong, and in any other view it never leads to a new error.", "quantifier": "all syntactically valid views, all their threads and all ways to leave something out, all orders of the hash sets", "why_tests_cant": "No finite set of views shows that errors never need two things together or go away because of what stands next to them.", "anchors": ["leptos-mview-core/src/expand.rs", "leptos-mview-core/src/expand/subroutines.rs", "leptos-mview-core/src/expand/utils.rs", "leptos-mview-core/src/ast/children.rs"]}
{"id": "C75", "title": "What is left can be written", "statement": "Take a syntactically valid view in which no name of a selector, attribute or directive starts or ends with a dash and no tag ends with one (`_` for a component, which is what the macro reads a dash as). If attributes, selectors, closure arguments, children or whole blocks are left out of its syntax tree anywhere, there is an input that the macro reads as exactly what is left; it is accepted if the view was. In particular each thread of the view is a view, and the macro takes the view if and only if it takes every input that is read as one of its threads.", "quantifier": "all syntactically valid views with such names, all ways to leave something out, all path parsers of the documented kind, all orders of the hash sets", "why_tests_cant": "Whether the remaining parts still read the same side by side depends on every pair of parts that can come to stand next to each other.", "anchors": ["leptos-mview-core/src/ast/element.rs", "leptos-mview-core/src/ast/children.rs", "leptos-mview-core/src/ast/ident.rs", "leptos-mview-core/src/ast/tag.rs", "leptos-mview-core/src/ast/attribute.rs"]}
{"id": "C76", "title": "Leaving something out of a view only takes away from the page", "statement": "Take an accepted view in which the names of tags, attributes and directives mean what they usually mean (as for C58), and an input that is read as this view with attributes, selectors, closure arguments, children or blocks left out anywhere. It is accepted, and running its expansion gives what running that of the view gives with something left out: nothing is added, moved, renamed or given another value. The only things that look different are the `id` of a component, which is made of fewer ids, and the order in which slots of different names are passed. In particular each thread of the view (C74) is shown as a part of its page.", "quantifier": "all syntactically valid views with usual names, all ways to leave something out, all meanings of Rust code, all path parsers, all orders of the hash sets", "why_tests_cant": "Tests render single views; that no part of a view changes what another part is rendered as is about all pairs of a view and what is left of it.", "anchors": ["leptos-mview-core/src/expand.rs", "leptos-mview-core/src/expand/subroutines.rs", "leptos-mview-core/src/expand/utils.rs"]}
{"id": "C77", "title": "Views are exactly what can be put together from threads", "statement": "Take any syntax tree in which no name of a selector, attribute or directive starts or ends with a dash and no tag ends with one (as for C75). There is an input that the macro reads as it if and only if there is one for each of its threads (C74: one thing and what it is in) and its closure arguments are of the form `|..|` before a block. There is one that the macro accepts if and only if this is so for each of its threads. So any tree whose threads each occur in some accepted view is an accepted view: parts of views can be combined, repeated and reordered freely, at any depth. With names that end with a dash this is false: a class `a-` and an attribute `b` can each be written on a `div`, but not both.", "quantifier": "all syntax trees with such names, all path parsers of the documented kind, all orders of the hash sets", "why_tests_cant": "It is about all trees, also those that nobody has written: that no combination of parts that are fine on their own is out of reach of the grammar or rejected later.", "anchors": ["leptos-mview-core/src/ast/element.rs", "leptos-mview-core/src/ast/children.rs", "leptos-mview-core/src/ast/ident.rs", "leptos-mview-core/src/ast/tag.rs", "leptos-mview-core/src/ast/attribute.rs", "leptos-mview-core/src/expand.rs"]}
{"id": "C78", "title": "What a page is depends only on the tree of the view", "statement": "Take two inputs that the macro reads as the same syntax tree, for instance `p(\"a\")` and `p { \"a\" }`, both accepted, with component and attribute names as in C58. Running the two expansions builds the same page: the same elements, components, texts, attributes, properties, closures and children in the same order, whatever the iteration order of the hash sets in the two builds. Only slots with different names may be passed to a component in another order, at any depth. For one input and another order, the second expansion is accepted, too. If no component has slots with different names, the two pages are exactly the same. All but the last holds likewise for inputs of which one abbreviates what the other spells out (C59, where the last is shown).", "quantifier": "all pairs of accepted inputs with the same tree and such names, all path parsers of the documented kind, all orders of the hash sets, all meanings of the host language as in C58", "why_tests_cant": "A test sees one spelling and one iteration order; the order differs from process to process and its effect can be far down in the page.", "anchors": ["leptos-mview-core/src/expand.rs", "leptos-mview-core/src/expand/subroutines.rs", "leptos-mview-core/src/expand/utils.rs", "leptos-mview-core/src/ast/element.rs"]}
{"id": "C79", "title": "What is generated in spite of something that is too much is the view without it (feature nightly)", "statement": "Some mistakes are about something that has no place where it is written: a directive that does not exist or is not for this kind of element, a modifier that is not allowed or not known, a value of `clone:`, selectors, spreads and directives on slots, and slots whose name is a path. With the feature `nightly`, an invocation whose only errors are such ones expands, besides the errors, to exactly what the same view without these things expands to, in some order of the hash sets; in general it expands to the same as that view and has the same other errors in the same order. If names do not begin or end with a dash, there is an input for that view, and it is accepted. Also if there are syntax errors besides, the expansion is one of the tree that was read without these things, and running it shows the page of that tree.", "quantifier": "all inputs of tokens that can be read, all path parsers (for the existence of the input: those of the documented kind), all orders of the hash sets; pages for names and meanings of the host language as in C58", "why_tests_cant": "Tests with errors compare messages; what else is generated is thrown away with them, but rust-analyzer works on it, and the combinations of places are unlimited.", "anchors": ["leptos-mview-core/src/expand.rs", "leptos-mview-core/src/expand/subroutines.rs", "leptos-mview-core/src/expand/utils.rs", "leptos-mview-macro/src/lib.rs"]}
{"id": "C80", "title": "A part of a view can be exchanged for another exactly if both build the same page", "statement": "Let the content of a block of children, at any depth of an accepted invocation, be a view of its own. Any other view can be written there instead, however different its tokens are: the invocation is accepted as well, and it builds the same page as before if and only if the two views build the same page, whatever the orders of the hash sets are. The only exception are blocks in slots that are not directly in a component: what is there makes no difference. Views written one after the other are accepted together and build their pages one after the other. What the same page means here, the order of slots with different names aside, is an equivalence.", "quantifier": "all inputs of lexical tokens, all blocks at any depth, all replacements that are accepted on their own, all path parsers of the documented kind, all orders of the hash sets; names and meanings of the host language as in C58", "why_tests_cant": "Two views can build the same page in unlimitedly many ways and be put in unlimitedly many places; a test compares one pair in one place.", "anchors": ["leptos-mview-core/src/expand.rs", "leptos-mview-core/src/expand/subroutines.rs", "leptos-mview-core/src/ast/element.rs", "leptos-mview-core/src/ast/children.rs"]}
{"id": "C81", "title": "A view is a template", "statement": "For every accepted invocation there is one page with code of the user, not run, at the places of values. Whatever that code evaluates to, now or later, running the expansion builds this page with the values at their places: which elements, components, attributes, children and slots there are does not depend on values. The page changes exactly if some code on it evaluates to something else. Two invocations build the same page whatever their code evaluates to if and only if they have the same template.", "quantifier": "all accepted inputs with names as in C58, all types of values and all meanings of the host language for which a block that ends in a string is that string where the macro writes it, all orders of the hash sets", "why_tests_cant": "Tests run a view with a few values; that nothing but the values changes is about all values at once.", "anchors": ["leptos-mview-core/src/expand.rs", "leptos-mview-core/src/expand/subroutines.rs", "leptos-mview-core/src/expand/utils.rs", "leptos-mview-core/src/ast/value.rs"]}
{"id": "C82", "title": "Editing the children of an element changes the page in one place", "statement": "For a block of children at any depth of an accepted invocation, unless it is in a slot that is not directly in a component, there is one page with a gap such that, whatever view is written in the block instead, the expansion builds this page with the page of that view in the gap. In particular the rest of the page stays as it was, and what is in the gap is the page the view would build on its own.", "quantifier": "all inputs of lexical tokens, all blocks at any depth whose content is a view of its own, all replacements that are accepted on their own, all path parsers of the documented kind, all orders of the hash sets; names and meanings of the host language as in C58", "why_tests_cant": "One statement about all replacements at all places.", "anchors": ["leptos-mview-core/src/expand.rs", "leptos-mview-core/src/expand/subroutines.rs", "leptos-mview-core/src/ast/element.rs", "leptos-mview-core/src/ast/children.rs"]}
{"id": "C83", "title": "What is written in a view is used on the page exactly once", "statement": "Running the expansion of an accepted view builds a page on which every value, spread, closure parameter and cloned variable of the view is used exactly as often as it is written, and on which there is nothing else but names, strings and booleans. Only slots that are not directly in a component, and the parameters and cloned variables for children that there are not, are left out. So no value is shown, set or passed twice, none is lost, and none comes from elsewhere, however elements, components and slots are nested.", "quantifier": "all accepted inputs, all path parsers, all orders of the hash sets, all selections of values other than strings and booleans; names and meanings of the host language as in C58", "why_tests_cant": "Counting over all views and all ways a value can reach the page; tests compare a few pages.", "anchors": ["leptos-mview-core/src/expand.rs", "leptos-mview-core/src/expand/subroutines.rs", "leptos-mview-core/src/expand/utils.rs"]}
{"id": "C84", "title": "Editing the attributes of an element or component changes the page in one place", "statement": "Take an accepted view with an element or component at any depth, and write any other attributes instead of some neighbouring ones of it, so that the view is still accepted. What running the expansion builds changes only at that element or component, and only by what the attributes in question add there: plain attributes among the plain ones, directives among the directives and spreads among the spreads of an element; properties, cloned variables, and directives and spreads of a component each in one place. What they add is that for each of them by itself, in the order written, and neither the other attributes nor the shorthands, children, slots and surroundings matter or change.", "quantifier": "all accepted inputs, all depths, all lists of attributes before, instead and after, all path parsers, all orders of the hash sets; elements, components and slots of components that can be seen, names and meanings of the host language as in C58", "why_tests_cant": "It is about all trees, all attributes and all edits; tests compare a few expansions.", "anchors": ["leptos-mview-core/src/expand.rs", "leptos-mview-core/src/expand/subroutines.rs"]}
{"id": "C85", "title": "Editing the shorthands, closure parameters or tag of an element or component changes the page in one place", "statement": "Take an accepted view with an element or component at any depth, and write any other shorthands .a and #a instead of some neighbouring ones of it. What running the expansion builds changes only at that element or component, and only by the classes and ids: every class is set among the classes of the shorthands in the order written; on an element every id is set, and on a component the ids are one attribute with spaces in between, which is not there if there are no ids. No attribute, property, child or slot there or anywhere else changes. In the same way other closure parameters change only those of the children of that component, if it has any, and nothing for an element; and another tag, of an element instead of an element or of a component instead of a component, changes only its name and sort.", "quantifier": "all accepted inputs, all depths, all lists of shorthands before, instead and after, all closure parameters and tags, all path parsers, all orders of the hash sets; elements and components that can be seen, names and meanings of the host language as in C58", "why_tests_cant": "It is about all trees, all shorthands and all edits; tests compare a few expansions.", "anchors": ["leptos-mview-core/src/expand.rs", "leptos-mview-core/src/expand/subroutines.rs"]}
{"id": "C86", "title": "Mistakes in attributes affect the generated code in one place (feature nightly)", "statement": "With the feature `nightly` code is also generated in spite of errors. For each element, component or slot at any depth, and each place between its attributes, there is generated code with one gap that does not depend on the attributes of one kind written there: with any such attributes, correct or not, as long as none of the errors of the input are fatal, what is generated is that code with what is generated for these attributes, one after the other, in the gap. What is generated for an attribute depends only on it and on the tag: unknown directives are left out and unknown modifiers do not matter. Spreads and directives other than clone: of slots are left out, and so are all attributes of slots that are left out themselves, without any effect on the rest.", "quantifier": "all token streams with no fatal errors, all elements, components and slots at any depth, all lists of attributes before, there and after, all iteration orders of hash maps", "why_tests_cant": "It compares what is generated for all pairs of inputs that differ in some attributes, with any combination of mistakes there and elsewhere.", "anchors": ["leptos-mview-core/src/lib.rs", "leptos-mview-core/src/expand.rs", "leptos-mview-core/src/expand/subroutines.rs", "leptos-mview-core/src/ast/attribute/directive.rs"]}
{"id": "C87", "title": "Editing selectors, closure arguments or the tag in an input with mistakes changes the generated code in one place (feature nightly)", "statement": "With the feature `nightly` code is also generated in spite of errors. For each position among the selectors of an element, component or slot anywhere in an input none of whose errors are fatal, there is generated code with one gap, such that with any classes (or any ids) written at that position, what is generated is the code for these in that gap, the same as in correct inputs. Selectors of slots, which are errors, are left out and have no effect on the rest. The same holds for closure arguments, and for the tag of an element as long as it stays of the same kind.", "quantifier": "all token streams with no fatal errors, all elements, components and slots at any depth, all lists of class or id names, all closure arguments, all tags of one kind, all iteration orders of hash maps", "why_tests_cant": "It compares what is generated for all pairs of inputs that differ in this way, with any combination of mistakes there and elsewhere.", "anchors": ["leptos-mview-core/src/lib.rs", "leptos-mview-core/src/expand.rs", "leptos-mview-core/src/expand/subroutines.rs", "leptos-mview-core/src/ast/attribute/selector.rs"]}
{"id": "C88", "title": "Mistakes elsewhere do not affect the code generated for a correct element (feature nightly)", "statement": "If an element or component is accepted when it is the whole input, then in any input that has it somewhere (at any depth, among anything) and none of whose errors are fatal, the feature `nightly` generates for it exactly the code that it stands for on its own: what is generated is some code around it, which depends only on the rest of the input, with that code in one place. Conversely whatever stands in that place can be generated for the element on its own. The same holds for correct slots. The only exceptions are places where nothing is used, such as inside of slots of elements.", "quantifier": "all correct elements, components and slots, all token streams with no fatal errors that contain them, all iteration orders of hash maps", "why_tests_cant": "It is about every correct element with every combination of mistakes around it.", "anchors": ["leptos-mview-core/src/lib.rs", "leptos-mview-core/src/expand.rs", "leptos-mview-core/src/expand/subroutines.rs", "leptos-mview-core/src/ast/children.rs"]}
{"id": "C89", "title": "The errors of the parts of an input add up", "statement": "Take an input without fatal errors, and children (values, elements, components) that have no fatal errors either. If these children are added anywhere in the input and are read there as they are on their own, exactly the errors they have as an input of their own are reported in addition. Their mistakes in the syntax are together at one place, their other errors together at one place, and the other errors stay the same and in the same order. So what is accepted on its own adds no errors, and the number of errors is the sum. The only exception are slots that cannot be there (slots of elements, and slots whose name is a path): what is inside of them is never looked at.", "quantifier": "all token streams with no fatal errors, all places in them at any depth, all children that can be added there, all iteration orders of hash maps", "why_tests_cant": "It compares the errors of all triples of a view, something added to it, and that on its own.", "anchors": ["leptos-mview-core/src/lib.rs", "leptos-mview-core/src/expand.rs", "leptos-mview-core/src/expand/subroutines.rs", "leptos-mview-core/src/ast/children.rs"]}
