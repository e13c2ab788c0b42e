import Verif.Props.Kebab
import Verif.Props.Safety
import Verif.Props.Whole
import Verif.Props.Values
import Verif.Props.Elements
import Verif.Props.Components
import Verif.Props.Slots
import Verif.Props.Names
import Verif.Props.Grammar
import Verif.Props.Order
import Verif.Props.Recover
import Verif.Props.Count
import Verif.Props.Hygiene
import Verif.Props.Issues
import Verif.Props.Reads
import Verif.Props.RepoTests
import Verif.Props.RepoSpans
import Verif.Props.Located
import Verif.Props.Places
import Verif.Props.LocReads
import Verif.Props.LocMeaning
import Verif.Props.Moves
import Verif.Props.Syntax
import Verif.Props.Opaque
import Verif.Props.Nightly
import Verif.Props.NightlySyntax
import Verif.Props.Pieces
import Verif.Props.Ignored
import Verif.Props.Size
import Verif.Props.LocNightly
import Verif.Props.Mentions
import Verif.Props.NightlyCount
import Verif.Props.Loose
import Verif.Props.Advice
import Verif.Props.FewErrors
import Verif.Props.Run
import Verif.Props.Longhand
import Verif.Props.Steps
import Verif.Props.Lexical
import Verif.Props.SynPath
import Verif.Props.SameCode
import Verif.Props.Block
import Verif.Props.Kinds
import Verif.Props.Edit
import Verif.Props.EditAnyway
import Verif.Props.EditAttr
import Verif.Props.EditSel
import Verif.Props.About
import Verif.Props.Unread
import Verif.Props.Messages
import Verif.Props.Combine
import Verif.Props.Threads
import Verif.Props.Leave
import Verif.Props.Fewer
import Verif.Props.Assemble
import Verif.Props.SamePage
import Verif.Props.Mend
import Verif.Props.Interchange
import Verif.Props.Template
import Verif.Props.PageGap
import Verif.Props.Ingredients
import Verif.Props.AttrPage
import Verif.Props.SelPage
import Verif.Props.AttrAnyway
import Verif.Props.SelAnyway
import Verif.Props.Outside
import Verif.Props.AddUp
/-
The axioms every theorem of MANIFEST.json depends on, printed during the build.
-/

#print axioms Mview.mview_terminates
#print axioms Mview.parse_total
#print axioms Mview.mview_panics_only
#print axioms Mview.mview_tame_no_panic
#print axioms Mview.mview_can_panic
#print axioms Mview.simplePaths_honest
#print axioms Mview.parses_iff
#print axioms Mview.grammar_unambiguous
#print axioms Mview.mview_spec
#print axioms Mview.kebab_maximal_munch
#print axioms Mview.kebab_longest_exists
#print axioms Mview.kebab_fails
#print axioms Mview.kebab_nonempty
#print axioms Mview.snake_ident
#print axioms Mview.snake_ident_chars
#print axioms Mview.snake_ident_collision
#print axioms Mview.snake_ident_usable
#print axioms Mview.tag_name
#print axioms Mview.attribute_on_element
#print axioms Mview.bool_attr
#print axioms Mview.bool_attr_short
#print axioms Mview.shorthands
#print axioms Mview.shorten
#print axioms Mview.delimiters
#print axioms Mview.value_verbatim
#print axioms Mview.bad_prefix_rejected
#print axioms Mview.bad_prefix_reported
#print axioms Mview.child_value_reported
#print axioms Mview.attr_value_reported
#print axioms Mview.user_code_once
#print axioms Mview.user_code_kept
#print axioms Mview.literals_once
#print axioms Mview.literals_exactly
#print axioms Mview.specials_once
#print axioms Mview.specials_exactly
#print axioms Mview.element_order
#print axioms Mview.placed_xml
#print axioms Mview.element_constructor
#print axioms Mview.selectors_on_element
#print axioms Mview.selectors_on_component
#print axioms Mview.component_shape
#print axioms Mview.entries_in_order
#print axioms Mview.tag_kind
#print axioms Mview.kind_of_name
#print axioms Mview.binarySearch_iff
#print axioms Mview.tag_path
#print axioms Mview.directive_on_element
#print axioms Mview.directive_reported_on_element
#print axioms Mview.element_directive_reported
#print axioms Mview.directive_on_component
#print axioms Mview.attribute_on_component
#print axioms Mview.unknown_directive_on_component
#print axioms Mview.component_attr_reported
#print axioms Mview.modifier_reported_on_element
#print axioms Mview.modifier_reported_on_component_partial
#print axioms Mview.modifier_ignored_on_component
#print axioms Mview.slots_grouped
#print axioms Mview.slot_shape
#print axioms Mview.slot_methods_distinct
#print axioms Mview.slot_method_lower
#print axioms Mview.slot_method_collision
#print axioms Mview.slot_at_top_level_partial
#print axioms Mview.slot_dropped
#print axioms Mview.slot_contents_reported_partial
#print axioms Mview.slot_path_reported_partial
#print axioms Mview.slot_in_element_unchecked
#print axioms Mview.children_of_component
#print axioms Mview.expansion_shape
#print axioms Mview.mview_sound
#print axioms Mview.mview_complete
#print axioms Mview.errors_all_or_nothing
#print axioms Mview.errors_then_unit
#print axioms Mview.stray_semicolon
#print axioms Mview.stray_token
#print axioms Mview.turbofish_everywhere
#print axioms Mview.turbofish_irrelevant
#print axioms Mview.args_verbatim
#print axioms Mview.args_not_closed
#print axioms Mview.spread_on_element
#print axioms Mview.entry_occurs
#print axioms Mview.slot_exactly
#print axioms Mview.sibling_replaced
#print axioms Mview.siblings_errors
#print axioms Mview.siblings_accepted
#print axioms Mview.reordered
#print axioms Mview.order_independent
#print axioms Mview.order_irrelevant
#print axioms Mview.missing_value
#print axioms Mview.accepted
#print axioms Mview.literal_child
#print axioms Mview.rejected
#print axioms Mview.absolute_paths
#print axioms Mview.no_capture
#print axioms Mview.shadowing_harmless
#print axioms Mview.issues_exact
#print axioms Mview.valid_issues_exact
#print axioms Mview.reading_exists
#print axioms Mview.reading_exact
#print axioms Mview.reading_parses
#print axioms Mview.accepted_iff_reading
#print axioms Mview.expansion_iff
#print axioms Mview.Loc.located_agrees
#print axioms Mview.Loc.spans_do_not_matter
#print axioms Mview.Loc.places_exact
#print axioms Mview.Loc.reading_exists
#print axioms Mview.Loc.reading_exact
#print axioms Mview.Loc.placed_sound
#print axioms Mview.Loc.placed_complete
#print axioms Mview.Loc.placed_erases
#print axioms Mview.Loc.placed_covers
#print axioms Mview.Loc.expansion_iff
#print axioms Mview.Loc.places_move
#print axioms Mview.Loc.places_made
#print axioms Mview.Loc.places_given
#print axioms Mview.Loc.ranges_given
#print axioms Mview.Loc.places_shift
#print axioms Mview.expansion_block
#print axioms Mview.expansion_valid
#print axioms Mview.dummy_valid
#print axioms Mview.code_opaque
#print axioms Mview.code_fills
#print axioms Mview.nightly_sound
#print axioms Mview.nightly_complete
#print axioms Mview.nightly_stopped
#print axioms Mview.nightly_crashed
#print axioms Mview.nightly_ends
#print axioms Mview.nightly_accepts
#print axioms Mview.nightly_errors
#print axioms Mview.rootBecomes_of_means
#print axioms Mview.nightly_block
#print axioms Mview.nightly_valid
#print axioms Mview.missing_sound
#print axioms Mview.rootBecomes_rust
#print axioms Mview.messy_sound
#print axioms Mview.nightly_identifiers_valid
#print axioms Mview.joined_parses
#print axioms Mview.joined_reading
#print axioms Mview.joined_result
#print axioms Mview.joined_singles
#print axioms Mview.piece_anywhere
#print axioms Mview.pieces_exchanged
#print axioms Mview.ignored_errors
#print axioms Mview.ignored_expansion
#print axioms Mview.ignored_nightly
#print axioms Mview.slots_in_slots
#print axioms Mview.expansion_linear
#print axioms Mview.nightly_linear
#print axioms Mview.simplePaths_sparing
#print axioms Mview.Loc.nightly_placed
#print axioms Mview.Loc.nightly_placed_complete
#print axioms Mview.Loc.nightly_stopped
#print axioms Mview.Loc.nightly_crashed
#print axioms Mview.Loc.nightly_accepts
#print axioms Mview.Loc.nightly_errors
#print axioms Mview.Loc.nightly_erase
#print axioms Mview.names_mentioned
#print axioms Mview.nightly_names_mentioned
#print axioms Mview.nightly_absolute_paths
#print axioms Mview.unmentioned_harmless
#print axioms Mview.nightly_literals_twice
#print axioms Mview.nightly_literals_once
#print axioms Mview.nightly_specials_once
#print axioms Mview.specials_at_most_once
#print axioms Mview.unseen_opaque
#print axioms Mview.nightly_unseen_opaque
#print axioms Mview.simplePaths_same
#print axioms Mview.advice_unterminated
#print axioms Mview.advice_notFound
#print axioms Mview.advice_modifier
#print axioms Mview.advice_all_terminated
#print axioms Mview.advice_accepted
#print axioms Mview.advice_both_accepted
#print axioms Mview.few_errors
#print axioms Mview.few_errors_all
#print axioms Mview.few_errors_nil
#print axioms Mview.few_errors_sharp
#print axioms Mview.Run.run_shows
#print axioms Mview.Run.shows_unique
#print axioms Mview.Run.allShow_unique
#print axioms Mview.Run.run_exactly
#print axioms Mview.Run.same_accepted
#print axioms Mview.Run.same_shown
#print axioms Mview.Run.same_page
#print axioms Mview.Steps.linear_steps
#print axioms Mview.Steps.counted_parser
#print axioms Mview.Steps.counted_all
#print axioms Mview.identifiers_valid
#print axioms Mview.snake_ident_valid
#print axioms Mview.slot_method_valid
#print axioms Mview.syn_paths_grammar
#print axioms Mview.syn_paths_assumptions
#print axioms Mview.function_generics_unreachable
#print axioms Mview.few_errors_syn
#print axioms Mview.siblings_errors_syn
#print axioms Mview.simple_arguments
#print axioms Mview.same_code_iff
#print axioms Mview.same_code_same_view
#print axioms Mview.same_view_same_code
#print axioms Mview.path_inj
#print axioms Mview.outside_errors_stay
#print axioms Mview.outside_errors
#print axioms Mview.block_contained
#print axioms Mview.every_block
#print axioms Mview.errors_there_are
#print axioms Mview.reported_occur
#print axioms Mview.occurs_reported
#print axioms Mview.edit_in_place
#print axioms Mview.edit_keeps_rest
#print axioms Mview.mistakes_in_place
#print axioms Mview.mistakes_keep_rest
#print axioms Mview.attrs_in_place
#print axioms Mview.attrs_keep_rest
#print axioms Mview.selectors_in_place
#print axioms Mview.selectors_keep_rest
#print axioms Mview.args_in_place
#print axioms Mview.args_keep_rest
#print axioms Mview.tag_in_place
#print axioms Mview.Loc.errors_about
#print axioms Mview.Loc.simplePaths_consumes
#print axioms Mview.unread_tokens
#print axioms Mview.unread_reads
#print axioms Mview.unread_errors
#print axioms Mview.unread_nightly
#print axioms Mview.unread_none
#print axioms Mview.unread_where
#print axioms Mview.unread_paths
#print axioms Mview.strict_parses
#print axioms Mview.Loc.errors_say
#print axioms Mview.Loc.end_said
#print axioms Mview.Loc.messages_tell
#print axioms Mview.Loc.output_read
#print axioms Mview.Loc.catalogue_said
#print axioms Mview.Loc.slots_said
#print axioms Mview.parts_combine
#print axioms Mview.slot_combine
#print axioms Mview.parts_split
#print axioms Mview.attrs_combine
#print axioms Mview.attrs_come_apart
#print axioms Mview.sels_combine
#print axioms Mview.sels_come_apart
#print axioms Mview.accepted_iff_threads
#print axioms Mview.mview_iff_threads
#print axioms Mview.errors_of_threads
#print axioms Mview.ends_iff_threads
#print axioms Mview.left_out_accepted
#print axioms Mview.left_out_errors
#print axioms Mview.left_out_written
#print axioms Mview.thread_written
#print axioms Mview.mview_iff_all_threads
#print axioms Mview.left_out_taken
#print axioms Mview.Run.left_out_fewer
#print axioms Mview.Run.left_out_runs_fewer
#print axioms Mview.Run.thread_fewer
#print axioms Mview.written_iff_threads
#print axioms Mview.view_iff_threads
#print axioms Mview.view_of_views
#print axioms Mview.exDash_threads
#print axioms Mview.exDash_unwritten
#print axioms Mview.Run.tree_page
#print axioms Mview.Run.tree_page_sched
#print axioms Mview.Run.tree_page_exactly
#print axioms Mview.Run.longhand_page
#print axioms Mview.mended_nightly
#print axioms Mview.mended_code
#print axioms Mview.mended_written
#print axioms Mview.mended_means
#print axioms Mview.Run.mended_page
#print axioms Mview.Run.part_page
#print axioms Mview.Run.part_replaced
#print axioms Mview.Run.joined_page
#print axioms Mview.Run.same_page_equivalence
#print axioms Mview.Run.template
#print axioms Mview.Run.page_changes
#print axioms Mview.Run.same_template
#print axioms Mview.Run.edit_page
#print axioms Mview.Run.every_ingredient
#print axioms Mview.Run.every_expression
#print axioms Mview.Run.edit_attrs_page
#print axioms Mview.Run.edit_slot_attrs_page
#print axioms Mview.Run.edit_sels_page
#print axioms Mview.Run.edit_tag_page
#print axioms Mview.Run.edit_args_page
#print axioms Mview.attr_mistakes_in_place
#print axioms Mview.attr_mistakes_keep_rest
#print axioms Mview.selector_mistakes_in_place
#print axioms Mview.selector_mistakes_keep_rest
#print axioms Mview.arg_mistakes_in_place
#print axioms Mview.tag_mistakes_in_place
#print axioms Mview.element_mistaken_rest
#print axioms Mview.correct_in_mistaken
#print axioms Mview.correct_stays
#print axioms Mview.correct_comes_from
#print axioms Mview.correct_becomes
#print axioms Mview.correct_block_in_mistaken
#print axioms Mview.all_errors_add_up
#print axioms Mview.errors_together
#print axioms Mview.errors_add_up
#print axioms Mview.correct_adds_none
#print axioms Mview.mistakes_heard
