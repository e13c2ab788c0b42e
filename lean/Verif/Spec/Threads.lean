import Verif.Model.Ast
/-
C74: the threads of a view, and views with something left out.
-/

namespace Mview

mutual
/-- `Thread t c`: `t` is what is left of the child `c` if one goes down to one single thing and leaves out
everything else. -/
inductive Thread : Child → Child → Prop
  | value (v : Value) : Thread (.value v) (.value v)
  | elem {e' e : Element} (h : ElemThread e' e) : Thread (.elem e') (.elem e)
  | slot {e' e : Element} (h : ElemThread e' e) : Thread (.slot e') (.slot e)
/-- The single thing is the tag itself, a selector, an attribute, or in one of the children. -/
inductive ElemThread : Element → Element → Prop
  | tag {T : Tag} {S : List Selector} {A : List Attr} {g : Option Toks} {k : Option (List Child)} :
    ElemThread (.mk T [] [] none none) (.mk T S A g k)
  | sel {T : Tag} {S : List Selector} {A : List Attr} {g : Option Toks} {k : Option (List Child)} {s : Selector}
    (h : s ∈ S) : ElemThread (.mk T [s] [] none none) (.mk T S A g k)
  | attr {T : Tag} {S : List Selector} {A : List Attr} {g : Option Toks} {k : Option (List Child)} {a : Attr}
    (h : a ∈ A) : ElemThread (.mk T [] [a] none none) (.mk T S A g k)
  | child {T : Tag} {S : List Selector} {A : List Attr} {g : Option Toks} {cs : List Child} {c c' : Child}
    (h : c ∈ cs) (ht : Thread c' c) : ElemThread (.mk T [] [] none (some [c'])) (.mk T S A g (some cs))
end

/-- A thread of a view. -/
def ThreadOf (t : Child) (root : List Child) : Prop := ∃ c ∈ root, Thread t c

mutual
/-- The same child with something left out inside. -/
inductive LeftOut : Child → Child → Prop
  | value (v : Value) : LeftOut (.value v) (.value v)
  | elem {e' e : Element} (h : ElemLeftOut e' e) : LeftOut (.elem e') (.elem e)
  | slot {e' e : Element} (h : ElemLeftOut e' e) : LeftOut (.slot e') (.slot e)
/-- The same element with some selectors, attributes, the closure arguments, some or all children left out, or
changed like this. -/
inductive ElemLeftOut : Element → Element → Prop
  | void {T : Tag} {S' S : List Selector} {A' A : List Attr} {g : Option Toks} {k : Option (List Child)}
    (hs : S'.Sublist S) (ha : A'.Sublist A) : ElemLeftOut (.mk T S' A' none none) (.mk T S A g k)
  | block {T : Tag} {S' S : List Selector} {A' A : List Attr} {g' g : Option Toks} {cs' cs : List Child}
    (hs : S'.Sublist S) (ha : A'.Sublist A) (hg : g' = none ∨ g' = g) (hc : AllLeftOut cs' cs) :
    ElemLeftOut (.mk T S' A' g' (some cs')) (.mk T S A g (some cs))
/-- Some of the children left out, the others changed like this. -/
inductive AllLeftOut : List Child → List Child → Prop
  | nil : AllLeftOut [] []
  | without {c : Child} {cs' cs : List Child} (h : AllLeftOut cs' cs) : AllLeftOut cs' (c :: cs)
  | both {c' c : Child} {cs' cs : List Child} (hc : LeftOut c' c) (h : AllLeftOut cs' cs) :
    AllLeftOut (c' :: cs') (c :: cs)
end

end Mview
