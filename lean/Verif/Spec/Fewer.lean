import Verif.Spec.Run
import Verif.Spec.Threads
/-
C76: pages with something left out.
-/

namespace Mview.Run

variable {V : Type}

/-- The slots of one name. -/
def Part.isSlots : Part V → Bool
  | .slots _ _ => true
  | _ => false

/-- The attribute `id` of a component with these ids. -/
def idLook (R : Rust V) (ids : List Str) : Look V := .attr c!"id" (R.lit (.str ([' '].intercalate ids)))

/-- Less is set on the elements of a component: some of it, and perhaps fewer ids. -/
def FewerLooks (R : Rust V) (ls' ls : List (Look V)) : Prop :=
  ls'.Sublist ls ∨ ∃ a' a ids' ids b' b, a'.Sublist a ∧ ids'.Sublist ids ∧ b'.Sublist b ∧
    ls' = a' ++ idLook R ids' :: b' ∧ ls = a ++ idLook R ids :: b

mutual
/-- The same thing on a page, with something left out inside. -/
inductive Fewer (R : Rust V) : Dom V → Dom V → Prop
  | value (v : V) : Fewer R (.value v) (.value v)
  | elem {space : Space} {name : Str} {ls' ls : List (Look V)} {ds' ds : List (Dom V)} (hl : ls'.Sublist ls)
    (hd : AllFewer R ds' ds) : Fewer R (.elem space name ls' ds') (.elem space name ls ds)
  /-- The slots come last, in any order. -/
  | comp {f b : Toks} {ps' front slots slots' : List (Part V)} {ls' ls : List (Look V)} (hl : FewerLooks R ls' ls)
    (hp : PartsFewer R ps' (front ++ slots')) (ho : slots'.Perm slots) (hs : ∀ p ∈ slots, p.isSlots = true) :
    Fewer R (.comp f b ps' ls') (.comp f b (front ++ slots) ls)
  | slot {t : Toks} {ps' ps : List (Part V)} (hp : PartsFewer R ps' ps) : Fewer R (.slot t ps') (.slot t ps)
/-- Some things left out, the others changed like this. -/
inductive AllFewer (R : Rust V) : List (Dom V) → List (Dom V) → Prop
  | nil : AllFewer R [] []
  | without {d : Dom V} {ds' ds : List (Dom V)} (h : AllFewer R ds' ds) : AllFewer R ds' (d :: ds)
  | both {d' d : Dom V} {ds' ds : List (Dom V)} (hd : Fewer R d' d) (h : AllFewer R ds' ds) :
    AllFewer R (d' :: ds') (d :: ds)
/-- Less is passed to a component or slot. -/
inductive PartsFewer (R : Rust V) : List (Part V) → List (Part V) → Prop
  | nil : PartsFewer R [] []
  | without {p : Part V} {ps' ps : List (Part V)} (h : PartsFewer R ps' ps) : PartsFewer R ps' (p :: ps)
  | both {p' p : Part V} {ps' ps : List (Part V)} (hp : PartFewer R p' p) (h : PartsFewer R ps' ps) :
    PartsFewer R (p' :: ps') (p :: ps)
/-- The same property, children or slots with something left out. -/
inductive PartFewer (R : Rust V) : Part V → Part V → Prop
  | prop (name : Str) (v : V) : PartFewer R (.prop name v) (.prop name v)
  | children {args' args : Option Toks} {clones' clones : List Str} {ds' ds : List (Dom V)}
    (ha : args' = none ∨ args' = args) (hc : clones'.Sublist clones) (hd : AllFewer R ds' ds) :
    PartFewer R (.children args' clones' ds') (.children args clones ds)
  | slots {name : Str} {ds' ds : List (Dom V)} (hd : AllFewer R ds' ds) :
    PartFewer R (.slots name ds') (.slots name ds)
end

end Mview.Run
