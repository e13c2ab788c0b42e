import Verif.Model.Lex
import Verif.Spec.Meaning
/-
Every `mview!` of the repository's own tests and documentation, run through the model:
the tests that pass expand; the tests of error messages (`tests/ui/errors`) give the diagnostics
recorded there.  (Not proofs of anything: a check of the model against the code's authors.)

The recordings are of an older version and not compared any more (`tests/ui.rs:10`).  They differ in
that `style:`, `prop:` and modifiers of `class:` used to be errors on components; and the compiler
shows repeated messages only once.
-/

namespace Mview
open Lex

set_option maxRecDepth 100000

/-- The macro expands without errors. -/
def Expands (ts : Toks) : Prop := ∃ out, mview simplePaths (fun _ => []) ts = .tokens out

/-- The macro reports these errors. -/
def Reports (ts : Toks) (ds : List Diag) : Prop :=
  mview simplePaths (fun _ => []) ts = .errors ds dummy

/-! ### tests/component.rs -/

-- tests/component.rs:14
example : Expands
    t!"div class=\"my-component\" data-my-attribute={my_attribute} data-another=f[\"{another_attribute:?}\"] { {children()} }" :=
  ⟨_, rfl⟩

-- tests/component.rs:32
example : Expands
    t!"div { {children()} }" :=
  ⟨_, rfl⟩

-- tests/component.rs:36
example : Expands
    t!"Owning { Owning clone:notcopy { {notcopy.clone()} } }" :=
  ⟨_, rfl⟩

-- tests/component.rs:49
example : Expands
    t!"Await future={async { 3 }} |data| { p { {*data} \" little monkeys, jumping on the bed.\" } }" :=
  ⟨_, rfl⟩

-- tests/component.rs:57
example : Expands
    t!"Await future={async {\"hi\".to_string()}} clone:name |greeting| { {greeting.clone()} \" \" {name.clone()} }" :=
  ⟨_, rfl⟩

-- tests/component.rs:77
example : Expands
    t!"GenericComponent<String> ty={PhantomData}; GenericComponent<usize> ty={PhantomData}; GenericComponent<i32> ty={PhantomData};" :=
  ⟨_, rfl⟩

-- tests/component.rs:86
example : Expands
    t!"GenericComponent::<String> ty={PhantomData}; GenericComponent::<usize> ty={PhantomData}; GenericComponent::<i32> ty={PhantomData};" :=
  ⟨_, rfl⟩

-- tests/component.rs:97
example : Expands
    t!"leptos::control_flow::Show when=[true] { \"a\" } leptos::control_flow::Show when=[false] { \"b\" }" :=
  ⟨_, rfl⟩

-- tests/component.rs:120
example : Expands
    t!"slot::NotASlot;" :=
  ⟨_, rfl⟩

-- tests/component.rs:129
example : Expands
    t!"For each=[letters.into_iter().enumerate()] key={|(i, _)| *i} |(i, letter)| { \"letter \" {i+1} \" is \" {letter} }" :=
  ⟨_, rfl⟩

-- tests/component.rs:142
example : Expands
    t!"div class=\"takes-class\" { \"I take more classes!\" }" :=
  ⟨_, rfl⟩

-- tests/component.rs:151
example : Expands
    t!"div class=\"i-take-ids\";" :=
  ⟨_, rfl⟩

-- tests/component.rs:158
example : Expands
    t!"TakesClass.test1.test-2;" :=
  ⟨_, rfl⟩

-- tests/component.rs:170
example : Expands
    t!"TakesClass.test1.test-2 class:not-this={no} class:this=[yes.get()] class:\"complicated\"=[yes.get()];" :=
  ⟨_, rfl⟩

-- tests/component.rs:181
example : Expands
    t!"TakesIds #id-1 #id-number-two;" :=
  ⟨_, rfl⟩

/-! ### tests/html.rs -/

-- tests/html.rs:12
example : Expands
    t!"\"hello there!\"" :=
  ⟨_, rfl⟩

-- tests/html.rs:24
example : Expands
    t!"div { \"hi\" }" :=
  ⟨_, rfl⟩

-- tests/html.rs:34
example : Expands
    t!"div { \"a\" } span { \"b\" }" :=
  ⟨_, rfl⟩

-- tests/html.rs:42
example : Expands
    t!"\"hi\" span class=\"abc\" data-index={0} { strong { \"d\" } {3} } br; input type=\"checkbox\" checked;" :=
  ⟨_, rfl⟩

-- tests/html.rs:70
example : Expands
    t!"span class:exist=true class=\"dont override\";" :=
  ⟨_, rfl⟩

-- tests/html.rs:75
example : Expands
    t!"span style:color=\"black\" style=\"font-size: 1em;\";" :=
  ⟨_, rfl⟩

-- tests/html.rs:86
example : Expands
    t!"div class:here={yes} style:color={color} class:not={no} class:also-here=true class=\"normal\" style=\"line-height: 1.5;\" style:background-color=\"red\";" :=
  ⟨_, rfl⟩

-- tests/html.rs:106
example : Expands
    t!"div class:\"complex[class]-name\"={yes} style:\"doesn't-exist\"=\"black\" class:\"not-here\"=false;" :=
  ⟨_, rfl⟩

-- tests/html.rs:122
example : Expands
    t!"div.always-here class=[class.get()];" :=
  ⟨_, rfl⟩

-- tests/html.rs:131
example : Expands
    t!"iconify-icon icon=\"a\" class=\"something\" { \"b\" }" :=
  ⟨_, rfl⟩

-- tests/html.rs:146
example : Expands
    t!"div ref={node_ref};" :=
  ⟨_, rfl⟩

/-! ### tests/paren_children.rs -/

-- tests/paren_children.rs:10
example : Expands
    t!"strong(\"child\") \"go\" em(\"to\" a href=\"#\" (\"nowhere\"))" :=
  ⟨_, rfl⟩

-- tests/paren_children.rs:24
example : Expands
    t!"For each={|| [1, 2, 3]} key={|i| *i} |index| ( \"i is \" {index} )" :=
  ⟨_, rfl⟩

-- tests/paren_children.rs:37
example : Expands
    t!"Show when={|| true} ( \"hello!\" )" :=
  ⟨_, rfl⟩

/-! ### tests/slots.rs -/

-- tests/slots.rs:31
example : Expands
    t!"HelloComponent { slot:HelloSlot { \"Hello, World!\" } }" :=
  ⟨_, rfl⟩

-- tests/slots.rs:88
example : Expands
    t!"SlotIf cond={is_even} { slot:Then { \"even\" } slot:ElseIf cond={is_div5} { \"x5\" } slot:ElseIf cond={is_div7} { \"x7\" } slot:Fallback { \"odd\" } }" :=
  ⟨_, rfl⟩

-- tests/slots.rs:106
example : Expands
    t!"SlotIf cond=false { slot:Then { \"no!\" } slot:ElseIf cond=true { \"yes!\" } slot:Fallback { \"absolutely not\" } }" :=
  ⟨_, rfl⟩

-- tests/slots.rs:119
example : Expands
    t!"SlotIf cond=true { slot:Then { \"yay!\" } }" :=
  ⟨_, rfl⟩

-- tests/slots.rs:127
example : Expands
    t!"div { SlotIf cond=false { slot:Then { \"not here\" } slot:ElseIf cond=false { \"not this either\" } } }" :=
  ⟨_, rfl⟩

-- tests/slots.rs:161
example : Expands
    t!"ChildThenIf cond=true { \"here\" slot:ElseIf cond=true { \"not :(\" } }" :=
  ⟨_, rfl⟩

-- tests/slots.rs:173
example : Expands
    t!"div { ChildThenIf cond=false { \"not :(\" slot:ElseIf cond=true { \"yes!\" } } }" :=
  ⟨_, rfl⟩

-- tests/slots.rs:187
example : Expands
    t!"div { ChildThenIf cond=true { \"here 1\" slot:ElseIf cond=false { \"not this\" } \"here 2\" span { \"here 3\" } slot:ElseIf cond=true { \"still not here\" } ChildThenIf cond=false { \"nested not here\" slot:Fallback { \"nested is here!\" } } slot:Fallback { \"this one is not present\" } \"yet another shown\" } }" :=
  ⟨_, rfl⟩

-- tests/slots.rs:232
example : Expands
    t!"ChildThenIf cond=true { \"yes\" slot:Fallback { ChildThenIf cond=true { \"no\" slot:Fallback clone:notcopy { {notcopy.clone()} } } } }" :=
  ⟨_, rfl⟩

/-! ### tests/spread.rs -/

-- tests/spread.rs:9
example : Expands
    t!"div {..attrs} data-yet-another-thing=\"z\" { \"children\" }" :=
  ⟨_, rfl⟩

-- tests/spread.rs:24
example : Expands
    t!"div;" :=
  ⟨_, rfl⟩

-- tests/spread.rs:29
example : Expands
    t!"Spreadable attr:class=\"b\" attr:contenteditable=true attr:data-index=0;" :=
  ⟨_, rfl⟩

-- tests/spread.rs:49
example : Expands
    t!"Spreadable attr:contenteditable=true {..attrs};" :=
  ⟨_, rfl⟩

/-! ### tests/ui/errors/com_builder_spans.rs -/

-- tests/ui/errors/com_builder_spans.rs:9
example : Expands
    t!"For each=[[1, 2, 3]] |i| { {i} }" :=
  ⟨_, rfl⟩

-- tests/ui/errors/com_builder_spans.rs:16
example : Expands
    t!"Show when={\"no\"} { \"hi\" }" :=
  ⟨_, rfl⟩

-- tests/ui/errors/com_builder_spans.rs:24
example : Expands
    t!"Show when={true} { \"hi\" }" :=
  ⟨_, rfl⟩

-- tests/ui/errors/com_builder_spans.rs:36
example : Expands
    t!"Thing label=[false];" :=
  ⟨_, rfl⟩

-- tests/ui/errors/com_builder_spans.rs:47
example : Expands
    t!"Thing |s| { \"hello\" }" :=
  ⟨_, rfl⟩

-- tests/ui/errors/com_builder_spans.rs:56
example : Expands
    t!"Await future=[async { 3 }] { \"no args\" }" :=
  ⟨_, rfl⟩

/-! ### tests/ui/errors/com_dyn_classes.rs -/

-- tests/ui/errors/com_dyn_classes.rs:9
example : Expands
    t!"div class=f[\"my-class {}\", class.get()] {id};" :=
  ⟨_, rfl⟩

-- tests/ui/errors/com_dyn_classes.rs:15
example : Expands
    t!"AComponent class:red=true;" :=
  ⟨_, rfl⟩

-- tests/ui/errors/com_dyn_classes.rs:21
example : Expands
    t!"AComponent class:red=[\"not this\"];" :=
  ⟨_, rfl⟩

-- tests/ui/errors/com_dyn_classes.rs:33
example : Expands
    t!"Nothing class:red=[true];" :=
  ⟨_, rfl⟩

-- tests/ui/errors/com_dyn_classes.rs:39
example : Expands
    t!"Nothing.red;" :=
  ⟨_, rfl⟩

-- tests/ui/errors/com_dyn_classes.rs:45
example : Expands
    t!"Nothing #unique;" :=
  ⟨_, rfl⟩

/-! ### tests/ui/errors/invalid_child.rs -/

-- tests/ui/errors/invalid_child.rs:5
example : Reports
    t!"(a)"
    [.synError (.invalidChild)] := rfl

-- tests/ui/errors/invalid_child.rs:15
example : Expands
    t!"span ( {value} )" :=
  ⟨_, rfl⟩

-- tests/ui/errors/invalid_child.rs:23
example : Expands
    t!"ul { {values .into_iter() .map(|val: &str| { mview! { li({val}) } }) } }" :=
  ⟨_, rfl⟩

-- tests/ui/errors/invalid_child.rs:28
example : Expands
    t!"li({val})" :=
  ⟨_, rfl⟩

-- tests/ui/errors/invalid_child.rs:36
example : Reports
    t!"div { \"hi there\" }; span;"
    [.extraSemicolon] := rfl

-- tests/ui/errors/invalid_child.rs:44
example : Expands
    t!"div { {todo!()} }" :=
  ⟨_, rfl⟩

/-! ### tests/ui/errors/invalid_directive.rs -/

-- tests/ui/errors/invalid_directive.rs:5
example : Reports
    t!"div something:yes=\"b\" {}"
    [.unknownDirective (plain c!"something")] := rfl

-- tests/ui/errors/invalid_directive.rs:11
example : Reports
    t!"div class:(\"abcd\") = true {}"
    [.synAbort (.expectedKebab)] := rfl

-- tests/ui/errors/invalid_directive.rs:17
example : Reports
    t!"div style:[1, 2]=\"black\" {}"
    [.synAbort (.expectedKebab)] := rfl

-- tests/ui/errors/invalid_directive.rs:23
example : Expands
    t!"button on:clicky-click={move |_| ()};" :=
  ⟨_, rfl⟩

-- tests/ui/errors/invalid_directive.rs:29
example : Reports
    t!"button on:click:delegated={|_| ()};"
    [.unknownModifier (plain c!"delegated")] := rfl

-- tests/ui/errors/invalid_directive.rs:40
example : Reports
    t!"div class:this:undelegated=true;"
    [.modifierNotAllowed (plain c!"undelegated")] := rfl

-- tests/ui/errors/invalid_directive.rs:43
example : Reports
    t!"div style:position:undelegated=\"absolute\";"
    [.modifierNotAllowed (plain c!"undelegated")] := rfl

-- tests/ui/errors/invalid_directive.rs:46
example : Reports
    t!"input prop:value:something=\"input something\";"
    [.modifierNotAllowed (plain c!"something")] := rfl

-- tests/ui/errors/invalid_directive.rs:49
example : Reports
    t!"button use:directive:another;"
    [.modifierNotAllowed (plain c!"another")] := rfl

-- tests/ui/errors/invalid_directive.rs:52
example : Reports
    t!"button attr:type=\"submit\";"
    [.directiveOnElement (plain c!"attr")] := rfl

-- tests/ui/errors/invalid_directive.rs:57
example : Reports
    t!"Com clone:to_clone:undelegated;"
    [.modifierNotAllowed (plain c!"undelegated"), .modifierNotAllowed (plain c!"undelegated")] := rfl

-- tests/ui/errors/invalid_directive.rs:60
example : Reports
    t!"Com clone:{to_clone};"
    [.cloneValue] := rfl

-- tests/ui/errors/invalid_directive.rs:63
example : Expands
    t!"Com class:aaa:undelegated=[false];" :=
  ⟨_, rfl⟩

/-! ### tests/ui/errors/invalid_value.rs -/

-- tests/ui/errors/invalid_value.rs:4
example : Reports
    t!"div a=a {}"
    [.missingValue true] := rfl

-- tests/ui/errors/invalid_value.rs:10
example : Expands
    t!"div {..};" :=
  ⟨_, rfl⟩

-- tests/ui/errors/invalid_value.rs:17
example : Reports
    t!"a href={}; a href=(); a href=[];"
    [.missingValue false, .extraSemicolon] := rfl

-- tests/ui/errors/invalid_value.rs:26
example : Reports
    t!"a href="
    [.missingValue false, .unterminated] := rfl

/-! ### tests/ui/errors/misc_partial.rs -/

-- tests/ui/errors/misc_partial.rs:4
example : Reports
    t!"div class:x={true} { span class=test }"
    [.missingValue true, .unterminated] := rfl

-- tests/ui/errors/misc_partial.rs:12
example : Reports
    t!"div class:x={true} { span class: }"
    [.synAbort (.expectedKebab)] := rfl

/-! ### tests/ui/errors/no_children_after_closure.rs -/

-- tests/ui/errors/no_children_after_closure.rs:5
example : Reports
    t!"Await future=[async { 1 }] |data| \"no\""
    [.expectedChildrenBlock] := rfl

/-! ### tests/ui/errors/non_str_child.rs -/

-- tests/ui/errors/non_str_child.rs:4
example : Reports
    t!"div { 3 }"
    [.nonStringChild] := rfl

/-! ### tests/ui/errors/return_expression.rs -/

-- tests/ui/errors/return_expression.rs:5
example : Reports
    t!"div class=;"
    [.missingValue false] := rfl

/-! ### tests/ui/errors/slot_builder_spans.rs -/

-- tests/ui/errors/slot_builder_spans.rs:20
example : Expands
    t!"TakesSChildren { slot:SChildren { \"hi\" } }" :=
  ⟨_, rfl⟩

-- tests/ui/errors/slot_builder_spans.rs:28
example : Expands
    t!"TakesSChildren { slot:SChildren an_attr=\"no\" { \"what\" } }" :=
  ⟨_, rfl⟩

-- tests/ui/errors/slot_builder_spans.rs:35
example : Expands
    t!"TakesSChildren { slot:SChildren an_attr=1 |s| { \"this is \" {s} } }" :=
  ⟨_, rfl⟩

-- tests/ui/errors/slot_builder_spans.rs:51
example : Expands
    t!"TakesSNoChildren { slot:SNoChildren an_attr=5 { \"hey!\" } }" :=
  ⟨_, rfl⟩

-- tests/ui/errors/slot_builder_spans.rs:71
example : Expands
    t!"TakesSClosureChildren { slot:SClosureChildren { \"hey!\" } }" :=
  ⟨_, rfl⟩

/-! ### tests/ui/errors/slot_unsupported_dirs.rs -/

-- tests/ui/errors/slot_unsupported_dirs.rs:12
example : Reports
    t!"TakesNothing { slot:Nothing {..attrs}; }"
    [.spreadOnSlot] := rfl

-- tests/ui/errors/slot_unsupported_dirs.rs:18
example : Reports
    t!"TakesNothing { slot:Nothing on:click={|_| ()}; }"
    [.directiveOnSlot (plain c!"on")] := rfl

-- tests/ui/errors/slot_unsupported_dirs.rs:24
example : Reports
    t!"TakesNothing { slot:Nothing attr:something=\"something\"; }"
    [.directiveOnSlot (plain c!"attr")] := rfl

-- tests/ui/errors/slot_unsupported_dirs.rs:31
example : Reports
    t!"TakesNothing { slot:Nothing use:a_directive; }"
    [.directiveOnSlot (plain c!"use")] := rfl

-- tests/ui/errors/slot_unsupported_dirs.rs:37
example : Reports
    t!"TakesNothing { slot:Nothing prop:value=\"1\"; }"
    [.directiveOnSlot (plain c!"prop")] := rfl

/-! ### tests/ui/errors/unsupported_attrs.rs -/

-- tests/ui/errors/unsupported_attrs.rs:5
example : Expands
    t!"Component style:color=\"white\";" :=
  ⟨_, rfl⟩

-- tests/ui/errors/unsupported_attrs.rs:11
example : Expands
    t!"Component prop:value=\"1\";" :=
  ⟨_, rfl⟩

-- tests/ui/errors/unsupported_attrs.rs:17
example : Reports
    t!"input attr:class=\"no\" type=\"text\";"
    [.directiveOnElement (plain c!"attr")] := rfl

-- tests/ui/errors/unsupported_attrs.rs:24
example : Reports
    t!"div { span clone:notcopy { {notcopy.clone()} } }"
    [.directiveOnElement (plain c!"clone")] := rfl

-- tests/ui/errors/unsupported_attrs.rs:35
example : Expands
    t!"button;" :=
  ⟨_, rfl⟩

/-! ### tests/ui/errors/unterminated_element.rs -/

-- tests/ui/errors/unterminated_element.rs:4
example : Reports
    t!"input type=\"text\" \"hi\""
    [.unknownAttribute, .childrenNotFound] := rfl

/-! ### tests/ui/errors/unterminated_element_error.rs -/

-- tests/ui/errors/unterminated_element_error.rs:4
example : Reports
    t!"div { \"something\" input.input type=\"text\" }"
    [.unterminated] := rfl

/-! ### tests/ui/errors/use_directive.rs -/

-- tests/ui/errors/use_directive.rs:9
example : Expands
    t!"div use:arg_dir;" :=
  ⟨_, rfl⟩

-- tests/ui/errors/use_directive.rs:15
example : Expands
    t!"span use:no_arg_dir=2;" :=
  ⟨_, rfl⟩

/-! ### tests/ui/pass/many_braces.rs -/

-- tests/ui/pass/many_braces.rs:6
example : Expands
    t!"div a={3} b={\"aaaaa\"} { {1234} span class={\"braces not needed\"} { \"hi\" } }" :=
  ⟨_, rfl⟩

-- tests/ui/pass/many_braces.rs:13
example : Expands
    t!"button class:primary-200={true}; button on:click={move |_| println!(\"hi\")} { span style:background-color={\"black\"} style:color=\"white\" { \"inverted\" } }" :=
  ⟨_, rfl⟩

/-! ### tests/ui/pass/use_directive.rs -/

-- tests/ui/pass/use_directive.rs:9
example : Expands
    t!"div use:no_arg_dir { span use:arg_dir=10; }" :=
  ⟨_, rfl⟩

-- tests/ui/pass/use_directive.rs:15
example : Expands
    t!"Component use:no_arg_dir; Component use:arg_dir=300;" :=
  ⟨_, rfl⟩

-- tests/ui/pass/use_directive.rs:23
example : Expands
    t!"button { \"hi\" }" :=
  ⟨_, rfl⟩

-- tests/ui/pass/use_directive.rs:28
example : Expands
    t!"div {..attrs};" :=
  ⟨_, rfl⟩

/-! ### tests/values.rs -/

-- tests/values.rs:10
example : Expands
    t!"div aria-selected=f[\"{}\", yes()] data-not-selected=f[\"{}\", no()];" :=
  ⟨_, rfl⟩

-- tests/values.rs:17
example : Expands
    t!"input type=\"number\" value=f[\"{number:.2}\"];" :=
  ⟨_, rfl⟩

/-! ### src/lib.rs -/

-- src/lib.rs:17
example : Expands
    t!"h1.title { \"A great website\" } br; input type=\"text\" data-index=0 class:red={red_input} prop:{value} on:change={move |ev| { set_value(event_target_value(&ev)) }}; Show when=[!value().is_empty()] fallback=[mview! { \"...\" }] { Await future={fetch_from_db(value())} blocking |db_info| { p { \"Things found: \" strong { {*db_info} } \"!\" } p { \"Is bad: \" f[\"{}\", red_input()] } } }" :=
  ⟨_, rfl⟩

-- src/lib.rs:32
example : Expands
    t!"\"...\"" :=
  ⟨_, rfl⟩

-- src/lib.rs:139
example : Expands
    t!"div.primary { strong { \"hello world\" } } input type=\"text\" on:input={handle_input}; MyComponent data=3 other=\"hi\";" :=
  ⟨_, rfl⟩

-- src/lib.rs:158
example : Expands
    t!"GenericComponent::<String> ty={PhantomData}; GenericComponent<usize> ty={PhantomData}; GenericComponent<i32> ty={PhantomData};" :=
  ⟨_, rfl⟩

-- src/lib.rs:170
example : Expands
    t!"nav #primary { \"...\" }" :=
  ⟨_, rfl⟩

-- src/lib.rs:197
example : Expands
    t!"SlotIf cond={is_even} { slot:Then { \"even\" } slot:ElseIf cond={is_div5} { \"divisible by 5\" } slot:ElseIf cond={is_div7} { \"divisible by 7\" } slot:Fallback { \"odd\" } }" :=
  ⟨_, rfl⟩

-- src/lib.rs:239
example : Reports
    t!"p { \"this works \" 0 \" times: \" true }"
    [.nonStringChild, .nonStringChild] := rfl

-- src/lib.rs:248
example : Expands
    t!"input class=\"main\" checked=true data-index=3 type={input_type} on:input={move |_| handle_input(1)};" :=
  ⟨_, rfl⟩

-- src/lib.rs:264
example : Reports
    t!"input type=input_type"
    [.missingValue true, .unterminated] := rfl

-- src/lib.rs:272
example : Expands
    t!"Show fallback=[()] when=[number() % 2 == 0] { \"number + 1 = \" [number() + 1] }" :=
  ⟨_, rfl⟩

-- src/lib.rs:287
example : Expands
    t!"input type=\"text\" on:click=[log!(\"THIS DOESNT WORK\")];" :=
  ⟨_, rfl⟩

-- src/lib.rs:296
example : Expands
    t!"input type=\"text\" on:click={|_| log!(\"THIS WORKS!\")};" :=
  ⟨_, rfl⟩

-- src/lib.rs:325
example : Expands
    t!"Something some-attribute=5;" :=
  ⟨_, rfl⟩

-- src/lib.rs:336
example : Expands
    t!"div {class} {id} { \"this has 3 classes and id='primary'\" }" :=
  ⟨_, rfl⟩

-- src/lib.rs:355
example : Expands
    t!"LotsOfFlags wide tall red=false curvy count=3;" :=
  ⟨_, rfl⟩

-- src/lib.rs:358
example : Expands
    t!"LotsOfFlags wide=true tall=true red=false curvy=true count=3;" :=
  ⟨_, rfl⟩

-- src/lib.rs:380
example : Expands
    t!"div style:{color} class:{disabled};" :=
  ⟨_, rfl⟩

-- src/lib.rs:390
example : Expands
    t!"div class:\"complex-[class]-name\"={yes} style:\"doesn't-exist\"=\"white\";" :=
  ⟨_, rfl⟩

-- src/lib.rs:407
example : Expands
    t!"Await future={async { 3 }} |monkeys| { p { {*monkeys} \" little monkeys, jumping on the bed.\" } }" :=
  ⟨_, rfl⟩

-- src/lib.rs:422
example : Expands
    t!"p { \"my \" strong(\"bold\") \" and \" em(\"fancy\") \" text.\" }" :=
  ⟨_, rfl⟩

-- src/lib.rs:444
example : Expands
    t!"Something {some-attribute};" :=
  ⟨_, rfl⟩

-- src/lib.rs:447
example : Expands
    t!"Something {some_attribute};" :=
  ⟨_, rfl⟩

-- src/lib.rs:450
example : Expands
    t!"Something some_attribute={some_attribute};" :=
  ⟨_, rfl⟩

-- src/lib.rs:458
example : Expands
    t!"input {aria-label};" :=
  ⟨_, rfl⟩

-- src/lib.rs:461
example : Expands
    t!"input aria-label={aria_label};" :=
  ⟨_, rfl⟩

-- src/lib.rs:480
example : Expands
    t!"input type=\"checkbox\" checked=[boolean_signal().to_string()];" :=
  ⟨_, rfl⟩

-- src/lib.rs:483
example : Expands
    t!"input type=\"checkbox\" checked=f[\"{}\", boolean_signal()];" :=
  ⟨_, rfl⟩

/-! ### unit tests in leptos-mview-core/src -/

/-- `syn::parse_str`: everything is consumed. -/
def ParsesTo {α : Type} (p : P α) (ts : Toks) (a : α) : Prop := p ts = .ret [] (.ok a [])

/-- The text of the name. -/
def ReadsName (ts : Toks) (s : Str) : Prop := ∃ n, ParsesTo parseKebab ts ⟨s, n⟩

-- src/ast/ident.rs `valid_reprs`
example : ReadsName t!"word" c!"word" := ⟨_, rfl⟩
example : ReadsName t!"two-words" c!"two-words" := ⟨_, rfl⟩
example : ReadsName t!"--var-abc" c!"--var-abc" := ⟨_, rfl⟩
example : ReadsName t!"-a-b" c!"-a-b" := ⟨_, rfl⟩
example : ReadsName t!"let--a" c!"let--a" := ⟨_, rfl⟩
example : ReadsName t!"struct-b-" c!"struct-b-" := ⟨_, rfl⟩
example : ReadsName t!"blue-100" c!"blue-100" := ⟨_, rfl⟩
example : ReadsName t!"blue-100a" c!"blue-100a" := ⟨_, rfl⟩
example : ReadsName t!"number-0xa1b2" c!"number-0xa1b2" := ⟨_, rfl⟩
example : ReadsName t!"-" c!"-" := ⟨_, rfl⟩
example : ReadsName t!"-_-_a" c!"-_-_a" := ⟨_, rfl⟩
example : ReadsName t!"for" c!"for" := ⟨_, rfl⟩

-- src/ast/ident.rs `invalid_reprs`
example : ∀ s, ¬ ReadsName t!"data-thing- =" s := by rintro s ⟨n, h⟩; cases h
example : ∀ s, ¬ ReadsName t!"distinct idents" s := by rintro s ⟨n, h⟩; cases h

-- src/ast/ident.rs `different_reprs`
example : ReadsName t!"two - words" c!"two-words" := ⟨_, rfl⟩
example : ReadsName t!"- - a - b" c!"--a-b" := ⟨_, rfl⟩

-- src/ast/ident.rs `raw`
example : ReadsName t!"r#move" c!"move" := ⟨_, rfl⟩
example : ReadsName t!"move" c!"move" := ⟨_, rfl⟩
example : ReadsName t!"r#some-thing" c!"some-thing" := ⟨_, rfl⟩

-- src/ast/value.rs `value_conversion`
example : ∃ l, ParsesTo parseValue t!"\"hi\"" (.lit l) := ⟨_, rfl⟩
example : ∃ l, ParsesTo parseValue t!"1" (.lit l) := ⟨_, rfl⟩
example : ∃ l, ParsesTo parseValue t!"true" (.lit l) := ⟨_, rfl⟩
example : ∃ c, ParsesTo parseValue t!"{value}" (.block c) := ⟨_, rfl⟩
example : ∃ c, ParsesTo parseValue t!"{value; value2; value3}" (.block c) := ⟨_, rfl⟩
example : ∃ p c, ParsesTo parseValue t!"[abc.get()]" (.bracket p c) := ⟨_, _, rfl⟩
example : ∃ c, ParsesTo parseValue t!"{(aa,)}" (.block c) := ⟨_, rfl⟩
example : ∃ p c, ParsesTo parseValue t!"[{a; b}]" (.bracket p c) := ⟨_, _, rfl⟩

-- src/ast/element.rs `full_element`, `no_child_element`, `no_child_or_attrs`
example : ∃ tag a b c x y, ParsesTo (elementF simplePaths 99)
    t!"div class=\"test\" checked data-index=[index] { \"child\" span { \"child2\" } }"
    (.mk tag [] [a, b, c] none (some [x, y])) := ⟨_, _, _, _, _, _, rfl⟩
example : ∃ tag a, ParsesTo (elementF simplePaths 99) t!"input type=\"text\";"
    (.mk tag [] [a] none none) := ⟨_, _, rfl⟩
example : ∃ tag, ParsesTo (elementF simplePaths 99) t!"br;" (.mk tag [] [] none none) := ⟨_, rfl⟩

-- src/ast/attribute.rs `simple_kv_attr`, `parse_complex_attrs`
example : ∃ n l, ParsesTo parseKv t!"key = \"value\"" ⟨⟨c!"key", n⟩, .lit l⟩ := ⟨_, _, rfl⟩
example : ∃ a b c d e f, ParsesTo parseAttrs
    t!"key-1 = \"value\" a-long-thing=[some()] style:--var-2={move || true} class:{disabled}
      {checked} {..spread}"
    [.kv a, .kv b, .directive c, .directive d, .kv e, .spread f] := ⟨_, _, _, _, _, _, rfl⟩

-- src/ast/attribute/selector.rs `multiple`
example : ∃ a b c d e f, ParsesTo parseSelectors t!".class.another-class #id #id2 .wow-class #ida"
    [.cls ⟨c!"class", a⟩, .cls ⟨c!"another-class", b⟩, .id ⟨c!"id", c⟩, .id ⟨c!"id2", d⟩,
      .cls ⟨c!"wow-class", e⟩, .id ⟨c!"ida", f⟩] := ⟨_, _, _, _, _, _, rfl⟩

-- src/ast/attribute/spread_attrs.rs `compiles`
example : ParsesTo parseSpread t!"{ ..a }" t!"a" := rfl

-- src/expand/utils.rs `add_turbofish`, `leave_turbofish`
example : ∃ p q, simplePaths.run t!"std::vec::Vec<i32>" = (some p, []) ∧
    turbofishify p = .ret [] q ∧ q.toToks = t!"std::vec::Vec:: <i32>" := ⟨_, _, rfl, rfl, rfl⟩
example : ∃ p q, simplePaths.run t!"std::vec::Vec::<i32>" = (some p, []) ∧
    turbofishify p = .ret [] q ∧ q.toToks = t!"std::vec::Vec:: <i32>" := ⟨_, _, rfl, rfl, rfl⟩

end Mview
