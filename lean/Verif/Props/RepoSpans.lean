import Verif.Loc.Lex
import Verif.Spec.Meaning
/-
Where the errors of the repository's own tests of error messages are reported: the recordings in
`tests/ui/errors/*.stderr` compared with the model with spans.  (Not proofs of anything: a check of
the model against the code's authors.  See `RepoTests.lean` on the differences.)
-/

namespace Mview.Loc
open Lexer

set_option maxRecDepth 100000

-- tests/ui/errors/invalid_child.rs:6
example : src!"(a)".complaints = [(.synError .invalidChild, some c!"(")] := rfl

-- tests/ui/errors/invalid_child.rs:37
example : src!"div { \"hi there\" }; span;".complaints = [(.extraSemicolon, some c!";")] := rfl

example : src!"div { \"hi there\" }; span;".run =
  .errors [⟨.extraSemicolon, .range 18 19⟩] [tParen .callSite []] := rfl

-- tests/ui/errors/invalid_directive.rs:6
example : src!"div something:yes=\"b\" {}".complaints =
  [(.unknownDirective (plain c!"something"), some c!"something")] := rfl

-- tests/ui/errors/invalid_directive.rs:12
example : src!"div class:(\"abcd\") = true {}".complaints =
  [(.synAbort .expectedKebab, some c!"(")] := rfl

-- tests/ui/errors/invalid_directive.rs:18
example : src!"div style:[1, 2]=\"black\" {}".complaints =
  [(.synAbort .expectedKebab, some c!"[")] := rfl

-- tests/ui/errors/invalid_directive.rs:30
example : src!"button on:click:delegated={|_| ()};".complaints =
  [(.unknownModifier (plain c!"delegated"), some c!"delegated")] := rfl

-- tests/ui/errors/invalid_directive.rs:41
example : src!"div class:this:undelegated=true;".complaints =
  [(.modifierNotAllowed (plain c!"undelegated"), some c!"undelegated")] := rfl

-- tests/ui/errors/invalid_directive.rs:44
example : src!"div style:position:undelegated=\"absolute\";".complaints =
  [(.modifierNotAllowed (plain c!"undelegated"), some c!"undelegated")] := rfl

-- tests/ui/errors/invalid_directive.rs:47
example : src!"input prop:value:something=\"input something\";".run =
  .errors [⟨.modifierNotAllowed (plain c!"something"), .range 17 26⟩] [tParen .callSite []] := rfl

-- tests/ui/errors/invalid_directive.rs:50
example : src!"button use:directive:another;".complaints =
  [(.modifierNotAllowed (plain c!"another"), some c!"another")] := rfl

-- tests/ui/errors/invalid_directive.rs:53
example : src!"button attr:type=\"submit\";".complaints =
  [(.directiveOnElement (plain c!"attr"), some c!"attr")] := rfl

-- tests/ui/errors/invalid_directive.rs:58
example : src!"Com clone:to_clone:undelegated;".complaints =
  [(.modifierNotAllowed (plain c!"undelegated"), some c!"undelegated"),
   (.modifierNotAllowed (plain c!"undelegated"), some c!"undelegated")] := rfl

-- tests/ui/errors/invalid_directive.rs:61
example : src!"Com clone:{to_clone};".complaints = [(.cloneValue, some c!"{to_clone}")] := rfl

-- tests/ui/errors/invalid_value.rs:5
example : src!"div a=a {}".run = .errors [⟨.missingValue true, .range 6 7⟩] [tParen .callSite []] := rfl

-- tests/ui/errors/invalid_value.rs:19
example : src!"a href={}; a href=(); a href=[];".complaints =
  [(.missingValue false, some c!"("), (.extraSemicolon, some c!";")] := rfl

-- tests/ui/errors/invalid_value.rs:27
example : src!"a href=".complaints =
  [(.missingValue false, some c!"="), (.unterminated, some c!"a")] := rfl

-- tests/ui/errors/misc_partial.rs:6
example : src!"div class:x={true} { span class=test }".complaints =
  [(.missingValue true, some c!"test"), (.unterminated, some c!"span")] := rfl

-- tests/ui/errors/misc_partial.rs:15
example : src!"div class:x={true} { span class: }".run =
  .errors [⟨.synAbort .expectedKebab, .range 33 34⟩] [tParen .callSite []] := rfl

-- tests/ui/errors/no_children_after_closure.rs:8
example : src!"Await future=[async { 1 }] |data| \"no\"".complaints =
  [(.expectedChildrenBlock, some c!"\"no\"")] := rfl

-- tests/ui/errors/non_str_child.rs:5
example : src!"div { 3 }".complaints = [(.nonStringChild, some c!"3")] := rfl

-- tests/ui/errors/return_expression.rs:6
example : src!"div class=;".complaints = [(.missingValue false, some c!";")] := rfl

-- tests/ui/errors/slot_unsupported_dirs.rs:14
example : src!"TakesNothing { slot:Nothing {..attrs}; }".complaints =
  [(.spreadOnSlot, some c!"{..attrs}")] := rfl

-- tests/ui/errors/slot_unsupported_dirs.rs:20
example : src!"TakesNothing { slot:Nothing on:click={|_| ()}; }".complaints =
  [(.directiveOnSlot (plain c!"on"), some c!"on")] := rfl

-- tests/ui/errors/slot_unsupported_dirs.rs:26
example : src!"TakesNothing { slot:Nothing attr:something=\"something\"; }".complaints =
  [(.directiveOnSlot (plain c!"attr"), some c!"attr")] := rfl

-- tests/ui/errors/slot_unsupported_dirs.rs:33
example : src!"TakesNothing { slot:Nothing use:a_directive; }".complaints =
  [(.directiveOnSlot (plain c!"use"), some c!"use")] := rfl

-- tests/ui/errors/slot_unsupported_dirs.rs:39
example : src!"TakesNothing { slot:Nothing prop:value=\"1\"; }".complaints =
  [(.directiveOnSlot (plain c!"prop"), some c!"prop")] := rfl

-- tests/ui/errors/unsupported_attrs.rs:18
example : src!"input attr:class=\"no\" type=\"text\";".complaints =
  [(.directiveOnElement (plain c!"attr"), some c!"attr")] := rfl

-- tests/ui/errors/unsupported_attrs.rs:26
example : src!"div { span clone:notcopy { {notcopy.clone()} } }".complaints =
  [(.directiveOnElement (plain c!"clone"), some c!"clone")] := rfl

-- tests/ui/errors/unterminated_element.rs:6
example : src!"input type=\"text\" \"hi\"".complaints =
  [(.unknownAttribute, some c!"\"hi\""), (.childrenNotFound, some c!"input type=\"text\" \"hi\"")] := rfl

-- tests/ui/errors/unterminated_element_error.rs:7
example : src!"div { \"something\" input.input type=\"text\" }".run =
  .errors [⟨.unterminated, .range 18 23⟩] [tParen .callSite []] := rfl

/-! ### spans of the generated code that the recordings show -/

/-- Where the words of this name in the expansion are attributed to, in order; `none` is the call
site. -/
def Source.placesOf (s : Source) (name : Str) : List (Option Str) :=
  match s.run with
  | .tokens ts => (s.marks ts).filterMap fun
    | (.ident i, p) => if i.name = name then some p else none
    | _ => none
  | _ => []

-- tests/ui/errors/com_builder_spans.rs:10
example : src!"For each=[[1, 2, 3]] |i| { {i} }".placesOf c!"build" = [some c!"For"] := rfl

-- tests/ui/errors/com_builder_spans.rs:17 (the method and the function that takes the props)
example : src!"Show when={\"no\"} { \"hi\" }".placesOf c!"when" = [some c!"when"] := rfl
example : src!"Show when={\"no\"} { \"hi\" }".placesOf c!"component_props_builder" =
  [some c!"Show"] := rfl

-- tests/ui/errors/com_builder_spans.rs:18
example : src!"Show when={\"no\"} { \"hi\" }".placesOf c!"children" = [some c!"\"hi\"", none] := rfl

-- tests/ui/errors/com_builder_spans.rs:37 (the method, the closure)
example : src!"Thing label=[false];".placesOf c!"label" = [some c!"label"] := rfl
example : src!"Thing label=[false];".placesOf c!"move" = [some c!"[false]"] := rfl

-- tests/ui/errors/com_builder_spans.rs:48
example : src!"Thing |s| { \"hello\" }".placesOf c!"move" = [some c!"|s|"] := rfl

-- tests/ui/errors/com_dyn_classes.rs:34 and :40, as it is now: the function, not its module
example : src!"Nothing class:red=[true];".placesOf c!"class" = [none, some c!"class"] := rfl
example : src!"Nothing.red;".placesOf c!"class" = [none, some c!"."] := rfl
-- :46
example : src!"Nothing #unique;".placesOf c!"id" = [some c!"#"] := rfl

-- tests/ui/errors/invalid_directive.rs:24
example : src!"button on:clicky-click={move |_| ()};".placesOf c!"clicky_click" =
  [some c!"clicky-click"] := rfl

-- tests/ui/errors/invalid_value.rs:11
example : src!"div {..};".placesOf c!"add_any_attr" = [some c!".."] := rfl

-- tests/ui/errors/slot_builder_spans.rs:22
example : src!"TakesSChildren { slot:SChildren { \"hi\" } }".placesOf c!"build" =
  [some c!"SChildren", some c!"TakesSChildren"] := rfl

-- tests/ui/errors/slot_builder_spans.rs:29
example : src!"TakesSChildren { slot:SChildren an_attr=\"no\" { \"what\" } }".placesOf c!"an_attr" =
  [some c!"an_attr"] := rfl

-- tests/ui/errors/slot_builder_spans.rs:37
example : src!"TakesSChildren { slot:SChildren an_attr=1 |s| { \"this is \" {s} } }".placesOf c!"move" =
  [some c!"|s|"] := rfl

-- tests/ui/errors/slot_builder_spans.rs:73
example : src!"TakesSClosureChildren { slot:SClosureChildren { \"hey!\" } }".placesOf c!"move" =
  [some c!"\"hey!\""] := rfl

-- tests/ui/errors/use_directive.rs:10
example : src!"div use:arg_dir;".placesOf c!"into" = [some c!"arg_dir"] := rfl

end Mview.Loc
