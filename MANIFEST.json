{
 "claims": [
  {
   "property": "C01",
   "status": "proved",
   "theorems": [
    "Mview.mview_terminates",
    "Mview.parse_total"
   ],
   "note": "for every input, path parser and hash order"
  },
  {
   "property": "C02",
   "status": "proved",
   "theorems": [
    "Mview.mview_panics_only",
    "Mview.mview_tame_no_panic",
    "Mview.mview_can_panic",
    "Mview.simplePaths_honest"
   ],
   "note": "only two kinds of panic for any input; none for inputs without the triggers; witnesses that the triggers do crash"
  },
  {
   "property": "C03",
   "status": "proved",
   "theorems": [
    "Mview.parses_iff",
    "Mview.grammar_unambiguous",
    "Mview.mview_spec"
   ],
   "note": "both directions against printed concrete syntax trees with a well-formedness condition on neighbouring tokens; for every path parser that needs a path start to succeed (PathParser.Starts) and streams a Rust lexer can produce (LexicalToks)"
  },
  {
   "property": "C04",
   "status": "proved",
   "theorems": [
    "Mview.kebab_maximal_munch",
    "Mview.kebab_longest_exists",
    "Mview.kebab_fails",
    "Mview.kebab_nonempty"
   ],
   "note": ""
  },
  {
   "property": "C05",
   "status": "proved",
   "theorems": [
    "Mview.snake_ident",
    "Mview.snake_ident_chars",
    "Mview.snake_ident_collision",
    "Mview.snake_ident_usable",
    "Mview.tag_name",
    "Mview.attribute_on_element"
   ],
   "note": ""
  },
  {
   "property": "C06",
   "status": "proved",
   "theorems": [
    "Mview.bool_attr",
    "Mview.bool_attr_short"
   ],
   "note": "bare to =true is always accepted and equal; the converse whenever the short form is accepted as that tree (`a=true -b` would merge to `a-b`)"
  },
  {
   "property": "C07",
   "status": "proved",
   "theorems": [
    "Mview.shorthands",
    "Mview.shorten"
   ],
   "note": "equal whenever both forms are accepted as such; long to short always is, short to long not when the name merges with what precedes (`a {-b}`)"
  },
  {
   "property": "C08",
   "status": "proved",
   "theorems": [
    "Mview.delimiters"
   ],
   "note": "exchanging delimiters of any subset of the children blocks of an accepted input; blocks that would be shorthands or spreads are not children blocks of an accepted input"
  },
  {
   "property": "C09",
   "status": "proved",
   "theorems": [
    "Mview.value_verbatim",
    "Mview.bad_prefix_rejected",
    "Mview.bad_prefix_reported",
    "Mview.child_value_reported",
    "Mview.attr_value_reported"
   ],
   "note": ""
  },
  {
   "property": "C10",
   "status": "proved",
   "theorems": [
    "Mview.user_code_once",
    "Mview.user_code_kept",
    "Mview.literals_once",
    "Mview.literals_exactly",
    "Mview.specials_once",
    "Mview.specials_exactly"
   ],
   "note": "Counting tokens at every depth, for every tree, path parser and hash order: expansion + dropped code = expansion of the tree without code + code. For literals other than strings the expansion of the tree without code has each literal exactly twice per generic argument of a component that is not dropped, and otherwise none (literals_exactly); for literals other than strings and numbers the count is that of the input, except for the paths of components (specials_exactly). The dropped places are a function on trees (childrenDropped)."
  },
  {
   "property": "C11",
   "status": "proved",
   "theorems": [
    "Mview.element_order",
    "Mview.placed_xml",
    "Mview.element_constructor"
   ],
   "note": ""
  },
  {
   "property": "C12",
   "status": "proved",
   "theorems": [
    "Mview.selectors_on_element"
   ],
   "note": ""
  },
  {
   "property": "C13",
   "status": "proved",
   "theorems": [
    "Mview.selectors_on_component",
    "Mview.component_shape",
    "Mview.entries_in_order"
   ],
   "note": ""
  },
  {
   "property": "C14",
   "status": "proved",
   "theorems": [
    "Mview.tag_kind",
    "Mview.kind_of_name",
    "Mview.binarySearch_iff",
    "Mview.tag_name",
    "Mview.tag_path"
   ],
   "note": ""
  },
  {
   "property": "C15",
   "status": "proved",
   "theorems": [
    "Mview.attribute_on_element",
    "Mview.kind_of_name"
   ],
   "note": ""
  },
  {
   "property": "C16",
   "status": "proved",
   "theorems": [
    "Mview.directive_on_element",
    "Mview.directive_reported_on_element",
    "Mview.element_directive_reported"
   ],
   "note": ""
  },
  {
   "property": "C17",
   "status": "proved",
   "theorems": [
    "Mview.directive_on_component",
    "Mview.attribute_on_component",
    "Mview.entries_in_order",
    "Mview.unknown_directive_on_component",
    "Mview.component_attr_reported"
   ],
   "note": ""
  },
  {
   "property": "C18",
   "status": "partial",
   "theorems": [
    "Mview.modifier_reported_on_element",
    "Mview.modifier_reported_on_component_partial",
    "Mview.modifier_ignored_on_component"
   ],
   "note": "proved for elements and for on:/use:/clone: on components; false for class:/style:/attr:/prop: on components, where modifiers are ignored (modifier_ignored_on_component)"
  },
  {
   "property": "C19",
   "status": "proved",
   "theorems": [
    "Mview.slots_grouped",
    "Mview.slot_shape"
   ],
   "note": ""
  },
  {
   "property": "C20",
   "status": "proved",
   "theorems": [
    "Mview.slot_methods_distinct",
    "Mview.slot_method_lower",
    "Mview.slot_method_collision"
   ],
   "note": ""
  },
  {
   "property": "C21",
   "status": "partial",
   "theorems": [
    "Mview.slot_at_top_level_partial",
    "Mview.slot_dropped"
   ],
   "note": "proved at the top level; false inside HTML elements and directly inside slots, where slots are dropped without a diagnostic (slot_dropped)"
  },
  {
   "property": "C22",
   "status": "partial",
   "theorems": [
    "Mview.slot_contents_reported_partial",
    "Mview.slot_path_reported_partial",
    "Mview.slot_in_element_unchecked"
   ],
   "note": "proved for slots the expansion reaches; slots inside elements are dropped unchecked (slot_in_element_unchecked)"
  },
  {
   "property": "C23",
   "status": "proved",
   "theorems": [
    "Mview.children_of_component",
    "Mview.slot_shape"
   ],
   "note": ""
  },
  {
   "property": "C24",
   "status": "proved",
   "theorems": [
    "Mview.expansion_shape",
    "Mview.mview_sound",
    "Mview.mview_complete"
   ],
   "note": ""
  },
  {
   "property": "C25",
   "status": "proved",
   "theorems": [
    "Mview.errors_all_or_nothing",
    "Mview.errors_then_unit"
   ],
   "note": ""
  },
  {
   "property": "C26",
   "status": "proved",
   "theorems": [
    "Mview.stray_semicolon",
    "Mview.stray_token"
   ],
   "note": "at every place: any depth, after any well-formed children, whatever follows; the result differs from that of the input without the token exactly by the one error"
  },
  {
   "property": "C27",
   "status": "proved",
   "theorems": [
    "Mview.turbofish_everywhere",
    "Mview.turbofish_irrelevant"
   ],
   "note": ""
  },
  {
   "property": "C28",
   "status": "proved",
   "theorems": [
    "Mview.args_verbatim",
    "Mview.args_not_closed"
   ],
   "note": ""
  },
  {
   "property": "C29",
   "status": "proved",
   "theorems": [
    "Mview.spread_on_element",
    "Mview.entry_occurs",
    "Mview.component_shape"
   ],
   "note": ""
  },
  {
   "property": "C30",
   "status": "proved",
   "theorems": [
    "Mview.slot_exactly"
   ],
   "note": "accepted input, any depth; childF_slot (Lemmas/Recover) is the same for children read from input with errors"
  },
  {
   "property": "C31",
   "status": "proved",
   "theorems": [
    "Mview.sibling_replaced",
    "Mview.siblings_errors",
    "Mview.siblings_accepted",
    "Mview.expansion_shape"
   ],
   "note": "Replacing a child anywhere in the tree (not inside a slot) changes only what it stands for; errors of siblings are concatenated in source order (unless the macro stopped at function generics, which `syn::Path::parse` never produces)."
  },
  {
   "property": "C32",
   "status": "proved",
   "theorems": [
    "Mview.reordered"
   ],
   "note": ""
  },
  {
   "property": "C33",
   "status": "proved",
   "theorems": [
    "Mview.order_independent",
    "Mview.order_irrelevant"
   ],
   "note": ""
  },
  {
   "property": "C34",
   "status": "proved",
   "theorems": [
    "Mview.missing_value",
    "Mview.accepted"
   ],
   "note": "always reported (or the macro crashes for another reason); acceptance means no error was reported (accepted), so the placeholder only occurs with an error"
  },
  {
   "property": "C35",
   "status": "proved",
   "theorems": [
    "Mview.literal_child",
    "Mview.value_verbatim"
   ],
   "note": ""
  },
  {
   "property": "C36",
   "status": "proved",
   "theorems": [
    "Mview.accepted",
    "Mview.rejected"
   ],
   "note": ""
  },
  {
   "property": "C37",
   "status": "proved",
   "theorems": [
    "Mview.absolute_paths",
    "Mview.no_capture",
    "Mview.shadowing_harmless"
   ],
   "note": ""
  },
  {
   "property": "C38",
   "status": "proved",
   "theorems": [
    "Mview.issues_exact",
    "Mview.valid_issues_exact"
   ],
   "note": "errors that the parser itself reports are taken from the parser; which these are is the subject of C03, C22, C25, C34, C35"
  },
  {
   "property": "C39",
   "status": "proved",
   "theorems": [
    "Mview.reading_exists",
    "Mview.reading_exact",
    "Mview.reading_parses",
    "Mview.accepted_iff_reading",
    "Mview.expansion_iff"
   ],
   "note": "the rules are in Spec/Reads.lean; for inputs as the lexer produces them (a path parser of syn is a parameter)"
  },
  {
   "property": "C40",
   "status": "proved",
   "theorems": [
    "Mview.Loc.located_agrees",
    "Mview.Loc.spans_do_not_matter"
   ],
   "note": "A second model of the whole macro with spans (Verif/Loc); forgetting spans gives the first."
  },
  {
   "property": "C41",
   "status": "proved",
   "theorems": [
    "Mview.Loc.places_exact"
   ],
   "note": "the list of issues with their places is in Spec/LocIssues.lean"
  },
  {
   "property": "C42",
   "status": "proved",
   "theorems": [
    "Mview.Loc.reading_exists",
    "Mview.Loc.reading_exact"
   ],
   "note": "the rules are in Spec/LocReads.lean; for inputs as the lexer produces them (a path parser of syn with spans is a parameter)"
  },
  {
   "property": "C43",
   "status": "proved",
   "theorems": [
    "Mview.Loc.placed_sound",
    "Mview.Loc.placed_complete",
    "Mview.Loc.placed_erases",
    "Mview.Loc.placed_covers",
    "Mview.Loc.expansion_iff"
   ],
   "note": "the placed code is in Spec/LocMeaning.lean; the path parser of syn with spans is a parameter; expansion_iff refers to the reading rules of C42 instead of the parser"
  },
  {
   "property": "C44",
   "status": "proved",
   "theorems": [
    "Mview.Loc.places_move",
    "Mview.Loc.places_made",
    "Mview.Loc.places_given",
    "Mview.Loc.ranges_given",
    "Mview.Loc.places_shift"
   ],
   "note": "For the model with spans (Verif/Loc). The path parser is assumed to treat places alike (MovesTo) and to make up none (Honest); both are proved for that of the examples."
  },
  {
   "property": "C45",
   "status": "proved",
   "theorems": [
    "Mview.expansion_block",
    "Mview.expansion_valid",
    "Mview.dummy_valid"
   ],
   "note": "Against a fragment of Rust's expression syntax (Spec/Syntax.lean), parametrised by what counts as valid code of the user. An example shows that an empty spread on a component, {..}, is accepted by the macro but expands to the invalid (,)."
  },
  {
   "property": "C46",
   "status": "proved",
   "theorems": [
    "Mview.code_opaque",
    "Mview.code_fills"
   ],
   "note": "For inputs the parser accepts (C03). Replaced literals must stay literals, string or not. `PathParser.Local` is assumed of syn's path parser, as in C06-C08."
  },
  {
   "property": "C47",
   "status": "proved",
   "theorems": [
    "Mview.nightly_sound",
    "Mview.nightly_complete",
    "Mview.nightly_stopped",
    "Mview.nightly_crashed",
    "Mview.nightly_ends",
    "Mview.nightly_accepts",
    "Mview.nightly_errors",
    "Mview.rootBecomes_of_means"
   ],
   "note": "Complete characterisation on top of reading_exists (C39). RootBecomes (Spec/Recovery.lean) gives the replacement of each wrong piece. Diagnostics reported before a panic are not modelled."
  },
  {
   "property": "C48",
   "status": "proved",
   "theorems": [
    "Mview.nightly_block",
    "Mview.nightly_valid",
    "Mview.missing_sound",
    "Mview.rootBecomes_rust",
    "Mview.messy_sound",
    "Mview.nightly_identifiers_valid"
   ],
   "note": "Rust.* is the grammar fragment of C45, on tokens; that identifiers are lexically such is nightly_identifiers_valid (C61). Unconditional in pp, the schedule and the notion of valid user code. Inputs for which the macro panics are excluded by the hypothesis that it returns."
  },
  {
   "property": "C49",
   "status": "proved",
   "theorems": [
    "Mview.joined_parses",
    "Mview.joined_reading",
    "Mview.joined_result",
    "Mview.joined_singles",
    "Mview.piece_anywhere",
    "Mview.pieces_exchanged"
   ],
   "note": "Pieces are streams the parser accepts without errors; surroundings are arbitrary (`joined_result`: any token stream may follow) or places at any depth. Examples beside the theorems, among them an unterminated element, for which the claim would be false."
  },
  {
   "property": "C50",
   "status": "proved",
   "theorems": [
    "Mview.ignored_errors",
    "Mview.ignored_expansion",
    "Mview.ignored_nightly",
    "Mview.slots_in_slots"
   ],
   "note": "For malformed inputs the two readings (C39) must have the same issues. Expansions are compared as sets over all orders of the hash maps, because removing a slot shifts them."
  },
  {
   "property": "C51",
   "status": "proved",
   "theorems": [
    "Mview.expansion_linear",
    "Mview.nightly_linear",
    "Mview.simplePaths_sparing"
   ],
   "note": "Assumes that the parser of paths does not invent tokens (PathParser.Sparing)."
  },
  {
   "property": "C52",
   "status": "proved",
   "theorems": [
    "Mview.Loc.nightly_placed",
    "Mview.Loc.nightly_placed_complete",
    "Mview.Loc.nightly_stopped",
    "Mview.Loc.nightly_crashed",
    "Mview.Loc.nightly_accepts",
    "Mview.Loc.nightly_errors",
    "Mview.Loc.nightly_erase"
   ],
   "note": ""
  },
  {
   "property": "C53",
   "status": "proved",
   "theorems": [
    "Mview.names_mentioned",
    "Mview.nightly_names_mentioned",
    "Mview.nightly_absolute_paths",
    "Mview.unmentioned_harmless"
   ],
   "note": ""
  },
  {
   "property": "C54",
   "status": "proved",
   "theorems": [
    "Mview.nightly_literals_twice",
    "Mview.nightly_literals_once",
    "Mview.nightly_specials_once",
    "Mview.specials_at_most_once"
   ],
   "note": "At most as often as in the code of the tree that is read (any literal but strings) and as in the input (any literal but strings and numbers, since `-1` becomes one token), for every input. Generic arguments of components count twice: the path of a component is generated twice (nightly_literals_twice)."
  },
  {
   "property": "C55",
   "status": "proved",
   "theorems": [
    "Mview.unseen_opaque",
    "Mview.nightly_unseen_opaque",
    "Mview.simplePaths_same"
   ],
   "note": "For every pair of inputs related by `Like`, valid or not. The path parser is assumed to read the same at corresponding places where a path may start."
  },
  {
   "property": "C56",
   "status": "proved",
   "theorems": [
    "Mview.advice_unterminated",
    "Mview.advice_notFound",
    "Mview.advice_modifier",
    "Mview.advice_all_terminated",
    "Mview.advice_accepted",
    "Mview.advice_both_accepted"
   ],
   "note": "Existence of the place for the edit, for inputs on which the macro reports errors (does not panic). advice_notFound additionally assumes pp.Greedy ts: no path in the input is followed by a left-over `:` or `<`."
  },
  {
   "property": "C57",
   "status": "proved",
   "theorems": [
    "Mview.few_errors",
    "Mview.few_errors_all",
    "Mview.few_errors_nil",
    "Mview.few_errors_sharp"
   ],
   "note": "errors per token, with a family of inputs that reaches the bound"
  },
  {
   "property": "C58",
   "status": "proved",
   "theorems": [
    "Mview.Run.run_shows",
    "Mview.Run.shows_unique",
    "Mview.Run.allShow_unique",
    "Mview.Run.run_exactly"
   ],
   "note": "an interpreter of generated code, for an arbitrary interpretation of user code; what leptos builders do is trusted; a component is what is passed to it"
  },
  {
   "property": "C59",
   "status": "proved",
   "theorems": [
    "Mview.Run.same_accepted",
    "Mview.Run.same_shown",
    "Mview.Run.same_page"
   ],
   "note": "compared by running the expansions with the interpreter of C58"
  },
  {
   "property": "C60",
   "status": "proved",
   "theorems": [
    "Mview.Steps.linear_steps",
    "Mview.Steps.counted_parser",
    "Mview.Steps.counted_all"
   ],
   "note": ""
  },
  {
   "property": "C61",
   "status": "proved",
   "theorems": [
    "Mview.identifiers_valid",
    "Mview.nightly_identifiers_valid",
    "Mview.snake_ident_valid",
    "Mview.slot_method_valid"
   ],
   "note": ""
  },
  {
   "property": "C62",
   "status": "proved",
   "theorems": [
    "Mview.syn_paths_grammar",
    "Mview.syn_paths_assumptions",
    "Mview.function_generics_unreachable",
    "Mview.few_errors_syn",
    "Mview.siblings_errors_syn",
    "Mview.simple_arguments"
   ],
   "note": "syn's path parser is modelled up to single generic arguments; the hypotheses on path parsers in other claims are theorems about it"
  },
  {
   "property": "C63",
   "status": "proved",
   "theorems": [
    "Mview.same_code_iff",
    "Mview.same_code_same_view",
    "Mview.same_view_same_code",
    "Mview.path_inj"
   ],
   "note": "the spreads and generics of components are restricted in one direction; examples show why for spreads, and that the turbofish makes no difference"
  },
  {
   "property": "C64",
   "status": "proved",
   "theorems": [
    "Mview.outside_errors_stay",
    "Mview.outside_errors",
    "Mview.block_contained",
    "Mview.every_block"
   ],
   "note": "assumes of the path parser what C56 does (it only looks at the path); fatal errors are excluded, with an example"
  },
  {
   "property": "C65",
   "status": "proved",
   "theorems": [
    "Mview.errors_there_are",
    "Mview.reported_occur",
    "Mview.occurs_reported"
   ],
   "note": "for syn's paths, with any parser of generic arguments; identifiers of witnesses are only required to be non-empty without dashes"
  },
  {
   "property": "C66",
   "status": "proved",
   "theorems": [
    "Mview.edit_in_place",
    "Mview.edit_keeps_rest"
   ],
   "note": ""
  },
  {
   "property": "C67",
   "status": "proved",
   "theorems": [
    "Mview.mistakes_in_place",
    "Mview.mistakes_keep_rest"
   ],
   "note": ""
  },
  {
   "property": "C68",
   "status": "proved",
   "theorems": [
    "Mview.attrs_in_place",
    "Mview.attrs_keep_rest"
   ],
   "note": "The kind and the code of an attribute are Spec/EditAttr; what becomes of the code of an element in a slot is Use, as in C66. Inputs are given by their reading (ReadsChildren)."
  },
  {
   "property": "C69",
   "status": "proved",
   "theorems": [
    "Mview.selectors_in_place",
    "Mview.selectors_keep_rest",
    "Mview.args_in_place",
    "Mview.args_keep_rest",
    "Mview.tag_in_place"
   ],
   "note": "At any depth, for all lists of class or id names, all closure arguments and all tags of one kind. Stated for inputs given by how they are read."
  },
  {
   "property": "C70",
   "status": "proved",
   "theorems": [
    "Mview.Loc.errors_about",
    "Mview.Loc.simplePaths_consumes"
   ],
   "note": "For every error of every input, the tokens it is about."
  },
  {
   "property": "C71",
   "status": "proved",
   "theorems": [
    "Mview.unread_tokens",
    "Mview.unread_reads",
    "Mview.unread_errors",
    "Mview.unread_nightly",
    "Mview.unread_none",
    "Mview.unread_where",
    "Mview.unread_paths",
    "Mview.strict_parses"
   ],
   "note": "The branch of mview_impl for an error from parse2; syn's cell is modelled, what a path leaves is a parameter."
  },
  {
   "property": "C72",
   "status": "proved",
   "theorems": [
    "Mview.Loc.errors_say",
    "Mview.Loc.end_said",
    "Mview.Loc.messages_tell",
    "Mview.Loc.output_read",
    "Mview.Loc.catalogue_said",
    "Mview.Loc.slots_said"
   ],
   "note": "The rendering by proc_macro_error2 and syn's prefix at the end of input are taken from those crates; syn's texts about paths are a parameter."
  },
  {
   "property": "C73",
   "status": "proved",
   "theorems": [
    "Mview.parts_combine",
    "Mview.slot_combine",
    "Mview.parts_split",
    "Mview.attrs_combine",
    "Mview.attrs_come_apart",
    "Mview.sels_combine",
    "Mview.sels_come_apart"
   ],
   "note": ""
  },
  {
   "property": "C74",
   "status": "proved",
   "theorems": [
    "Mview.accepted_iff_threads",
    "Mview.mview_iff_threads",
    "Mview.errors_of_threads",
    "Mview.ends_iff_threads",
    "Mview.left_out_accepted",
    "Mview.left_out_errors"
   ],
   "note": "Threads and leaving out are inductive relations on syntax trees; all orders of the hash sets, even different ones for the view and its threads."
  },
  {
   "property": "C75",
   "status": "proved",
   "theorems": [
    "Mview.left_out_written",
    "Mview.thread_written",
    "Mview.mview_iff_all_threads",
    "Mview.left_out_taken"
   ],
   "note": "Names that start or end with a dash are excluded, since they grow together with what comes to stand next to them."
  },
  {
   "property": "C76",
   "status": "proved",
   "theorems": [
    "Mview.Run.left_out_fewer",
    "Mview.Run.left_out_runs_fewer",
    "Mview.Run.thread_fewer"
   ],
   "note": "For names that mean what they usually mean (AllUsual, as in C58); pages are compared up to the order of slots of different names and with the ids of a component joined."
  },
  {
   "property": "C77",
   "status": "proved",
   "theorems": [
    "Mview.written_iff_threads",
    "Mview.view_iff_threads",
    "Mview.view_of_views",
    "Mview.exDash_threads",
    "Mview.exDash_unwritten"
   ],
   "note": "For names that neither start nor end with a dash (allFirm); exDash_unwritten shows that the condition is needed."
  },
  {
   "property": "C78",
   "status": "proved",
   "theorems": [
    "Mview.Run.tree_page",
    "Mview.Run.tree_page_sched",
    "Mview.Run.tree_page_exactly",
    "Mview.Run.longhand_page"
   ],
   "note": "Unbounded: all accepted inputs with the same tree, all hash orders. Page equality is the relation `AllSame` of Spec/SamePage.lean. Names as in C58 (`AllUsual`, `R.Names`)."
  },
  {
   "property": "C79",
   "status": "proved",
   "theorems": [
    "Mview.mended_nightly",
    "Mview.mended_code",
    "Mview.mended_written",
    "Mview.mended_means",
    "Mview.Run.mended_page"
   ],
   "note": "Unbounded: all inputs, all trees. `mended_nightly` needs that there is no slot at the top (then nothing is generated at all); `mended_written` needs names without a dash at their ends, as C75. Pages as in C58."
  },
  {
   "property": "C80",
   "status": "proved",
   "theorems": [
    "Mview.Run.part_page",
    "Mview.Run.part_replaced",
    "Mview.Run.joined_page",
    "Mview.Run.same_page_equivalence"
   ],
   "note": "For the model of running generated code (C58), up to the order in which slots of different names are passed (C78). The part that is replaced and its replacement are accepted on their own, so neither has slots at its top."
  },
  {
   "property": "C81",
   "status": "proved",
   "theorems": [
    "Mview.Run.template",
    "Mview.Run.page_changes",
    "Mview.Run.same_template"
   ],
   "note": "For the model of running generated code (C58) and inputs whose names are as there. The same template is meant up to the order in which slots of different names are passed (C78)."
  },
  {
   "property": "C82",
   "status": "proved",
   "theorems": [
    "Mview.Run.edit_page"
   ],
   "note": "For the model of running generated code (C58), up to the order in which slots of different names are passed (C78). The content of the block and its replacement are accepted on their own, so neither has slots at its top."
  },
  {
   "property": "C83",
   "status": "proved",
   "theorems": [
    "Mview.Run.every_ingredient",
    "Mview.Run.every_expression"
   ],
   "note": "A permutation between what is on the page and what is written in the tree, for every selection of ingredients that leaves out strings and booleans (names, selectors and attributes without a value become those); with expressions instead of values in every_expression. Conditions on names as in C58 (AllUsual)."
  },
  {
   "property": "C84",
   "status": "proved",
   "theorems": [
    "Mview.Run.edit_attrs_page",
    "Mview.Run.edit_slot_attrs_page"
   ],
   "note": "Pages as in C58 and C82, up to the order of groups of slots of different names; elements, components and slots of components that can be seen."
  },
  {
   "property": "C85",
   "status": "proved",
   "theorems": [
    "Mview.Run.edit_sels_page",
    "Mview.Run.edit_tag_page",
    "Mview.Run.edit_args_page"
   ],
   "note": "Pages as in C58 and C82, up to the order of groups of slots of different names; elements and components that can be seen."
  },
  {
   "property": "C86",
   "status": "proved",
   "theorems": [
    "Mview.attr_mistakes_in_place",
    "Mview.attr_mistakes_keep_rest"
   ],
   "note": "For inputs without fatal errors, given by their readings; attributes of one kind (plain, directives, spreads, clone:) at a time."
  },
  {
   "property": "C87",
   "status": "proved",
   "theorems": [
    "Mview.selector_mistakes_in_place",
    "Mview.selector_mistakes_keep_rest",
    "Mview.arg_mistakes_in_place",
    "Mview.tag_mistakes_in_place",
    "Mview.element_mistaken_rest"
   ],
   "note": "For inputs without fatal errors, given by their readings. The tag is that of an element, which cannot be a slot."
  },
  {
   "property": "C88",
   "status": "proved",
   "theorems": [
    "Mview.correct_in_mistaken",
    "Mview.correct_stays",
    "Mview.correct_comes_from",
    "Mview.correct_becomes",
    "Mview.correct_block_in_mistaken"
   ],
   "note": "For any element, component or slot that stands for some code on its own, in any place of any input without fatal errors. `correct_stays` compares with the input that consists of the element only. `correct_block_in_mistaken` is the same for the content of a block, as tokens."
  },
  {
   "property": "C89",
   "status": "proved",
   "theorems": [
    "Mview.all_errors_add_up",
    "Mview.errors_together",
    "Mview.errors_add_up",
    "Mview.correct_adds_none",
    "Mview.mistakes_heard"
   ],
   "note": "For children added at any place of any tree, where both may have any mistakes that are not fatal. `errors_add_up` is the case that what is added has no mistakes in the syntax."
  }
 ]
}
