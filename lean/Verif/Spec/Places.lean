import Verif.Spec.Meaning
import Verif.Model.Mview
/-
Talking about parts of the input tree and of the output.
-/

namespace Mview

/-- The tokens `x` appear in a row somewhere in the output, at any nesting depth. -/
inductive Occurs (x : Toks) : Toks → Prop where
  | here (pre post : Toks) : Occurs x (pre ++ x ++ post)
  | inside (pre : Toks) (d : Delim) {inner : Toks} (post : Toks) :
    Occurs x inner → Occurs x (pre ++ .group d inner :: post)

/-- The parser accepts `ts` without any diagnostic and reads it as `root`. -/
def Parses (pp : PathParser) (ts : Toks) (root : List Child) : Prop :=
  parseChildren pp ts = .ret [] (.ok root [])

/-- The parser reads `ts` as `root`, perhaps reporting some errors on the way. -/
def Reads (pp : PathParser) (ts : Toks) (root : List Child) : Prop :=
  ∃ ds, parseChildren pp ts = .ret ds (.ok root [])

/-- The name of a slot: a single identifier. -/
def Element.slotName (e : Element) : Option Ident :=
  match e.tag with
  | .component ⟨false, [⟨name, .none⟩]⟩ => some name
  | _ => none

/-- The elements (`false`) and slots (`true`) of a tree that the macro expands: all but
slots of HTML elements, slots without a proper name, and what is inside of them. -/
inductive Reached (root : List Child) : Bool → Element → Prop where
  | root {e : Element} : .elem e ∈ root → Reached root false e
  | child {b : Bool} {tag : Tag} {sels : List Selector} {attrs : List Attr} {args : Option Toks}
      {cs : List Child} {e : Element} :
    Reached root b (.mk tag sels attrs args (some cs)) → .elem e ∈ cs → Reached root false e
  | slot {b : Bool} {p : Path} {sels : List Selector} {attrs : List Attr} {args : Option Toks}
      {cs : List Child} {e : Element} :
    Reached root b (.mk (.component p) sels attrs args (some cs)) → .slot e ∈ cs →
      e.slotName.isSome → Reached root true e

/-- The elements (`false`) and slots (`true`) of a tree that take part in the output:
all elements, and the slots directly inside components. -/
inductive Placed (root : List Child) : Bool → Element → Prop where
  | root {e : Element} : .elem e ∈ root → Placed root false e
  | child {b : Bool} {tag : Tag} {sels : List Selector} {attrs : List Attr} {args : Option Toks}
      {cs : List Child} {e : Element} :
    Placed root b (.mk tag sels attrs args (some cs)) → .elem e ∈ cs → Placed root false e
  | slot {p : Path} {sels : List Selector} {attrs : List Attr} {args : Option Toks}
      {cs : List Child} {e : Element} :
    Placed root false (.mk (.component p) sels attrs args (some cs)) → .slot e ∈ cs →
      Placed root true e

/-- The values written in the elements and slots `R`, and at the root: as children, as
values of attributes or as values of directives. -/
inductive Used (root : List Child) (R : Bool → Element → Prop) : Value → Prop where
  | root {v : Value} : .value v ∈ root → Used root R v
  | child {b : Bool} {tag : Tag} {sels : List Selector} {attrs : List Attr} {args : Option Toks}
      {cs : List Child} {v : Value} :
    R b (.mk tag sels attrs args (some cs)) → .value v ∈ cs → Used root R v
  | attr {b : Bool} {e : Element} {a : KvAttr} :
    R b e → .kv a ∈ e.attrs → Used root R a.value
  | directive {b : Bool} {e : Element} {d : Directive} {v : Value} :
    R b e → .directive d ∈ e.attrs → d.value = some v → Used root R v

/-- The children of an element that are not slots; none if there is no block. -/
def nodeChildren (cs : Option (List Child)) : List Child :=
  (cs.getD []).filter fun c => !c.isSlot

/-- The slots directly inside an element. -/
def slotChildren (cs : Option (List Child)) : List Element :=
  (cs.getD []).filterMap fun | .slot e => some e | _ => none

/-- What a child that is not a slot stands for. -/
def Child.Means : Child → Toks → Prop
  | .value v, t => ∃ x, v.means = some x ∧ t = rendered x
  | .elem e, t => ∃ x, e.Means false x ∧ t = rendered x
  | .slot _, _ => False

/-- The macro does not accept the input, and reports `d` among its errors unless it
crashed or stopped early because of one of two other errors. -/
def Reported (pp : PathParser) (s : Sched) (ts : Toks) (d : Diag) : Prop :=
  match mview pp s ts with
  | .errors ds _ => d ∈ ds ∨ .functionGenerics ∈ ds ∨ .slotAtTopLevel ∈ ds
  | .panicked _ => True
  | _ => False

end Mview
