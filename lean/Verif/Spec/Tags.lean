import Verif.Spec.Meaning
/-
Which names are which kind of element.
-/

namespace Mview

/-- The SVG elements (those whose name is not also an HTML element): graphics and text,
containers, paint and gradients, animation, filters. -/
def svgNames : List Str :=
  [c!"circle", c!"ellipse", c!"line", c!"path", c!"polygon", c!"polyline", c!"rect", c!"image",
   c!"text", c!"textPath", c!"tspan", c!"use", c!"use_", c!"foreignObject",
   c!"svg", c!"g", c!"defs", c!"symbol", c!"marker", c!"mask", c!"switch", c!"view",
   c!"clipPath", c!"pattern", c!"desc", c!"metadata",
   c!"linearGradient", c!"radialGradient", c!"stop", c!"hatch", c!"hatchpath",
   c!"animate", c!"animateMotion", c!"animateTransform", c!"mpath", c!"set", c!"discard",
   c!"filter", c!"feBlend", c!"feColorMatrix", c!"feComponentTransfer", c!"feComposite",
   c!"feConvolveMatrix", c!"feDiffuseLighting", c!"feDisplacementMap", c!"feDistantLight",
   c!"feDropShadow", c!"feFlood", c!"feFuncR", c!"feFuncG", c!"feFuncB", c!"feFuncA",
   c!"feGaussianBlur", c!"feImage", c!"feMerge", c!"feMergeNode", c!"feMorphology",
   c!"feOffset", c!"fePointLight", c!"feSpecularLighting", c!"feSpotLight", c!"feTile",
   c!"feTurbulence"]

/-- The MathML elements: top level, tokens, layout, scripts, tables, the rest. -/
def mathNames : List Str :=
  [c!"math", c!"mi", c!"mn", c!"mo", c!"ms", c!"mtext", c!"mspace",
   c!"mrow", c!"mfrac", c!"msqrt", c!"mroot", c!"mstyle", c!"merror", c!"mpadded", c!"mphantom",
   c!"mfenced", c!"menclose",
   c!"msub", c!"msup", c!"msubsup", c!"munder", c!"mover", c!"munderover", c!"mmultiscripts",
   c!"mprescripts", c!"mtable", c!"mtr", c!"mtd", c!"maction", c!"semantics", c!"annotation"]

/-- C14: the kind of the element with a given name. -/
def kindOf (name : Str) : TagKind :=
  if ∃ c, name.head? = some c ∧ c ∈ ("ABCDEFGHIJKLMNOPQRSTUVWXYZ".toList) then .component
  else if name ∈ svgNames then .svg
  else if '-' ∈ name then .webComponent
  else if name ∈ mathNames then .math
  else .html

/-- The stream starts with `::`. -/
def StartsColons (ts : Toks) : Prop := ∃ s r, ts = .punct ':' .joint :: .punct ':' s :: r
/-- The stream starts with `<`. -/
def StartsAngle (ts : Toks) : Prop := ∃ s r, ts = .punct '<' s :: r

/-- The tag a name stands for. -/
def tagOf (k : KebabIdent) : Option Tag :=
  match kindOf k.repr with
  | .component => (rawIdentOf k.repr).map fun i => .component ⟨false, [⟨⟨false, i.name⟩, .none⟩]⟩
  | .svg => (rawIdentOf k.repr).map .svg
  | .webComponent => some (.webComponent k)
  | .math => (rawIdentOf k.repr).map .math
  | .html => (rawIdentOf k.repr).map .html

end Mview
