import Verif.Spec.Fewer
/-
C78: the same page, up to the order in which slots of different names are passed.
-/

namespace Mview.Run

variable {V : Type}

mutual
/-- The same thing on a page. -/
inductive Same : Dom V → Dom V → Prop
  | value (v : V) : Same (.value v) (.value v)
  | elem {space : Space} {name : Str} {ls : List (Look V)} {ds' ds : List (Dom V)} (hd : AllSame ds' ds) :
    Same (.elem space name ls ds') (.elem space name ls ds)
  /-- The slots come last, in any order. -/
  | comp {f b : Toks} {ps' front slots slots' : List (Part V)} {ls : List (Look V)}
    (hp : PartsSame ps' (front ++ slots')) (ho : slots'.Perm slots) (hs : ∀ p ∈ slots, p.isSlots = true) :
    Same (.comp f b ps' ls) (.comp f b (front ++ slots) ls)
  | slot {t : Toks} {ps' ps : List (Part V)} (hp : PartsSame ps' ps) : Same (.slot t ps') (.slot t ps)
/-- The same things in the same order. -/
inductive AllSame : List (Dom V) → List (Dom V) → Prop
  | nil : AllSame [] []
  | cons {d' d : Dom V} {ds' ds : List (Dom V)} (hd : Same d' d) (h : AllSame ds' ds) : AllSame (d' :: ds') (d :: ds)
/-- The same is passed, in the same order. -/
inductive PartsSame : List (Part V) → List (Part V) → Prop
  | nil : PartsSame [] []
  | cons {p' p : Part V} {ps' ps : List (Part V)} (hp : PartSame p' p) (h : PartsSame ps' ps) :
    PartsSame (p' :: ps') (p :: ps)
/-- The same property, children or slots. -/
inductive PartSame : Part V → Part V → Prop
  | prop (name : Str) (v : V) : PartSame (.prop name v) (.prop name v)
  | children {args : Option Toks} {clones : List Str} {ds' ds : List (Dom V)} (hd : AllSame ds' ds) :
    PartSame (.children args clones ds') (.children args clones ds)
  | slots {name : Str} {ds' ds : List (Dom V)} (hd : AllSame ds' ds) : PartSame (.slots name ds') (.slots name ds)
end

end Mview.Run
