import Verif.Loc.Erase
/-
Forgetting the spans: the located expansion agrees with that of `Verif/Model`.
-/

namespace Mview.Loc
variable {σ : Type}

theorem Er.ite {α β : Type} {f : α → β} {c : Prop} [Decidable c] {x x' : Out σ α}
    {y y' : Mview.Out β} (h : Er f x y) (h' : Er f x' y') :
    Er f (if c then x else x') (if c then y else y') := by
  split
  · exact h
  · exact h'

/-! ### templates -/

@[simp] theorem tId_erase (c : σ) (n : Str) : (tId c n).erase = Mview.tId n := rfl
@[simp] theorem tIdent_erase (i : SIdent σ) : (tIdent i).erase = .ident i.id := rfl
@[simp] theorem ident_erase (i : Ident) (c : σ) : (TT.ident i c).erase = .ident i := rfl
@[simp] theorem tP_erase (c : σ) (p : Char) : (tP c p).erase = Mview.tP p := rfl
@[simp] theorem tStr_erase (c : σ) (s : Str) : (tStr c s).erase = Mview.tStr s := rfl
@[simp] theorem tParen_erase (c : σ) (ts : Toks σ) :
    (tParen c ts).erase = Mview.tParen (eraseToks ts) := by simp [tParen, TT.erase, Mview.tParen]
@[simp] theorem tBrace_erase (c : σ) (ts : Toks σ) :
    (tBrace c ts).erase = Mview.tBrace (eraseToks ts) := by simp [tBrace, TT.erase, Mview.tBrace]
@[simp] theorem tBracket_erase (c : σ) (ts : Toks σ) :
    (tBracket c ts).erase = Mview.tBracket (eraseToks ts) := by
  simp [tBracket, TT.erase, Mview.tBracket]
@[simp] theorem tColon2_erase (c : σ × σ) : eraseToks (tColon2 c) = Mview.tColon2 := rfl
@[simp] theorem tColons_erase (c : σ) : eraseToks (tColons c) = Mview.tColon2 := rfl
@[simp] theorem tOrOr_erase (c : σ) : eraseToks (tOrOr c) = Mview.tOrOr := rfl
@[simp] theorem tAbs_erase (c : σ) (segs : List Str) : eraseToks (tAbs c segs) = Mview.tAbs segs := by
  induction segs with
  | nil => rfl
  | cons s ss ih =>
    have e1 : tAbs c (s :: ss) = (tColons c ++ [tId c s]) ++ tAbs c ss := by simp [tAbs]
    have e2 : Mview.tAbs (s :: ss) = (Mview.tColon2 ++ [Mview.tId s]) ++ Mview.tAbs ss := by
      simp [Mview.tAbs]
    rw [e1, e2, eraseToks_append, ih]
    rfl
@[simp] theorem tCall_erase (c : σ) (m : SIdent σ) (args : Toks σ) :
    eraseToks (tCall c m args) = Mview.tCall m.id (eraseToks args) := by
  simp [tCall, Mview.tCall]
@[simp] theorem mkIdent_id (n : Str) (s : σ) : (mkIdent n s).id = ⟨false, n⟩ := rfl
@[simp] theorem eraseToks_flatten (xs : List (Toks σ)) :
    eraseToks xs.flatten = (xs.map eraseToks).flatten := by
  induction xs with
  | nil => rfl
  | cons x xs ih => simp [ih]
theorem eraseToks_flatMap {α : Type} (xs : List α) (f : α → Toks σ) :
    eraseToks (xs.flatMap f) = xs.flatMap fun x => eraseToks (f x) := by
  induction xs with
  | nil => rfl
  | cons x xs ih => simp [ih]
@[simp] theorem tTerminated_erase (c : σ) (xs : List (Toks σ)) :
    eraseToks (tTerminated c xs) = Mview.tTerminated (xs.map eraseToks) := by
  simp [tTerminated, Mview.tTerminated, eraseToks_flatMap, List.flatMap_map]
@[simp] theorem tSeparated_erase (c : σ) (xs : List (Toks σ)) :
    eraseToks (tSeparated c xs) = Mview.tSeparated (xs.map eraseToks) := by
  match xs with
  | [] => rfl
  | [x] => rfl
  | x :: y :: ys =>
    have ih := tSeparated_erase c (y :: ys)
    simp only [tSeparated, Mview.tSeparated, List.map_cons, eraseToks_append, eraseToks_cons,
      tP_erase, eraseToks_nil] at ih ⊢
    rw [ih]

/-! ### src/expand/utils.rs -/

theorem emitIfModifier_erase (m : Option (SIdent σ)) :
    Er id (emitIfModifier m) (Mview.emitIfModifier (m.map SIdent.id)) := by
  cases m with
  | none => exact Er.pure rfl
  | some m => exact Er.emit _ _

variable [Spans σ]

theorem turbofishSeg_erase (s : PathSeg σ) :
    Er PathSeg.erase (turbofishSeg s) (Mview.turbofishSeg s.erase) := by
  rcases s with ⟨i, _ | _ | _, sep⟩
  · exact Er.pure rfl
  · exact Er.pure rfl
  · exact Er.abort _ _

theorem turbofishSegs_erase (ss : List (PathSeg σ)) :
    Er (List.map PathSeg.erase) (turbofishSegs ss) (Mview.turbofishSegs (ss.map PathSeg.erase)) := by
  induction ss with
  | nil => exact Er.pure rfl
  | cons s ss ih =>
    exact Er.bind (turbofishSeg_erase s) fun s' => Er.bind ih fun ss' => Er.pure rfl

theorem turbofishify_erase (p : Path σ) : Er Path.erase (turbofishify p) (Mview.turbofishify p.erase) :=
  Er.bind (turbofishSegs_erase p.segs) fun _ => Er.pure rfl

omit [Spans σ] in
theorem pathArgs_toToks_erase (a : PathArgs σ) : eraseToks a.toToks = a.erase.toToks := by
  rcases a with _ | ⟨_ | _, _, _, _⟩ | _ <;>
    simp [PathArgs.toToks, PathArgs.erase, Mview.PathArgs.toToks, TT.erase, Mview.tP, Mview.tParen]

omit [Spans σ] in
theorem segsToks_erase (ss : List (PathSeg σ)) :
    eraseToks (segsToks ss) = Mview.segsToks (ss.map PathSeg.erase) := by
  match ss with
  | [] => rfl
  | [s] => simp [segsToks, Mview.segsToks, PathSeg.toToks, PathSeg.erase, Mview.PathSeg.toToks,
      pathArgs_toToks_erase]
  | s :: t :: ss =>
    have ih := segsToks_erase (t :: ss)
    simp only [List.map_cons] at ih
    simp [segsToks, Mview.segsToks, PathSeg.toToks, PathSeg.erase, Mview.PathSeg.toToks,
      pathArgs_toToks_erase] at ih ⊢
    rw [ih]

omit [Spans σ] in
@[simp] theorem path_toToks_erase (p : Path σ) : eraseToks p.toToks = p.erase.toToks := by
  rcases p with ⟨_ | _, segs⟩ <;>
    simp [Path.toToks, Mview.Path.toToks, Path.erase, segsToks_erase]

omit [Spans σ] in
theorem getIdent_erase (p : Path σ) : p.erase.getIdent = p.getIdent.map SIdent.id := by
  rcases p with ⟨_ | _, _ | ⟨⟨i, _ | ⟨_ | _, _, _, _⟩ | _, sep⟩, _ | _⟩⟩ <;> rfl

/-! ### strings and values -/

theorem colorAll_erase (l : List σ) : eraseToks (colorAll l) = Mview.colorAll l.length := by
  induction l with
  | nil => rfl
  | cons s ss ih =>
    have e1 : colorAll (s :: ss) = [tId callSite c!"let", tId s c!"__x", tP callSite '=',
      tParen callSite [], tP callSite ';'] ++ colorAll ss := by simp [colorAll]
    have e2 : Mview.colorAll (s :: ss).length = [Mview.tId c!"let", Mview.tId c!"__x", Mview.tP '=',
      Mview.tParen [], Mview.tP ';'] ++ Mview.colorAll ss.length := by
      simp [Mview.colorAll, List.replicate_succ]
    rw [e1, e2, eraseToks_append, ih]
    simp

@[simp] theorem toStrColored_erase (k : KebabIdent σ) :
    eraseToks k.toStrColored = k.erase.toStrColored := by
  simp [KebabIdent.toStrColored, Mview.KebabIdent.toStrColored, KebabIdent.erase, colorAll_erase]

omit [Spans σ] in
theorem slit_toToks_erase (l : SLit σ) : eraseToks l.toToks = l.lit.toToks := by
  rcases l with ⟨_ | (_ | _), sp⟩ <;> rfl

theorem value_toToks_erase (v : Value σ) : Er eraseToks v.toToks v.erase.toToks := by
  rcases v with l | ⟨ts, b⟩ | ⟨_ | p, ts, b⟩
  · exact Er.pure (slit_toToks_erase l)
  · exact Er.pure (by simp)
  · exact Er.pure (by simp)
  · exact Er.ite (c := p.id = ⟨false, c!"f"⟩) (Er.pure (by simp))
      (Er.bind (Er.emit _ _) fun _ => Er.pure rfl)

theorem optValueToks_erase (v : Option (Value σ)) :
    Er eraseToks (optValueToks v) (Mview.optValueToks (v.map Value.erase)) := by
  cases v with
  | none => exact Er.pure rfl
  | some v => exact value_toToks_erase v

theorem valueOrTrue_erase (v : Option (Value σ)) :
    Mview.valueOrTrue (v.map Value.erase) = (valueOrTrue v).erase := by
  cases v <;> rfl

/-! ### src/expand/subroutines.rs -/

/-- Forget spans. -/
def erasePair (r : SIdent σ × Toks σ) : Ident × Mview.Toks := (r.1.id, eraseToks r.2)

theorem useDirectiveFnValue_erase (d : Directive σ) :
    Er erasePair (useDirectiveFnValue d) (Mview.useDirectiveFnValue d.erase) := by
  unfold useDirectiveFnValue Mview.useDirectiveFnValue
  refine Er.ite (c := d.dir.id ≠ ⟨false, c!"use"⟩) rfl ?_
  refine Er.bind (toIdentOrEmit_erase d.key) fun fn => ?_
  refine Er.bind (emitIfModifier_erase d.modifier) fun _ => ?_
  cases hv : d.value with
  | none =>
    simp only [Directive.erase, hv]
    exact Er.pure (by simp [erasePair])
  | some v =>
    simp only [Directive.erase, hv]
    exact Er.bind (value_toToks_erase v) fun t => Er.pure (by simp [erasePair])

@[simp] theorem eventMod_erase : eraseToks (eventMod (σ := σ)) = Mview.eventMod := by
  simp [eventMod, Mview.eventMod]

theorem eventListenerEventPath_erase (d : Directive σ) :
    Er eraseToks (eventListenerEventPath d) (Mview.eventListenerEventPath d.erase) := by
  rcases d with ⟨dir, key, m, v⟩
  refine Er.ite (c := dir.id ≠ ⟨false, c!"on"⟩) rfl ?_
  have rest : ∀ ev : SIdent σ, Er eraseToks
      (match m with
        | some m =>
          if m.id = ⟨false, c!"undelegated"⟩ then
            pure (eventMod ++ tColons callSite ++ [tIdent m,
              tParen callSite (eventMod ++ tColons callSite ++ [tIdent ev])])
          else do
            emit (.unknownModifier m.id) m.sp
            pure (eventMod ++ tColons callSite ++ [tIdent ev])
        | none => pure (eventMod ++ tColons callSite ++ [tIdent ev]))
      (match m.map SIdent.id with
        | some m =>
          if m = ⟨false, c!"undelegated"⟩ then
            pure (Mview.eventMod ++ Mview.tColon2 ++ [.ident m,
              Mview.tParen (Mview.eventMod ++ Mview.tColon2 ++ [.ident ev.id])])
          else do
            Mview.emit (.unknownModifier m)
            pure (Mview.eventMod ++ Mview.tColon2 ++ [.ident ev.id])
        | none => pure (Mview.eventMod ++ Mview.tColon2 ++ [.ident ev.id])) := by
    intro ev
    cases m with
    | none => exact Er.pure (by simp)
    | some m =>
      refine Er.ite (c := m.id = ⟨false, c!"undelegated"⟩) (Er.pure (by simp)) ?_
      exact Er.bind (Er.emit _ _) fun _ => Er.pure (by simp)
  cases key with
  | kebab k => exact Er.bind (toSnakeIdent_erase k) rest
  | str s =>
    exact Er.bind (Er.emit _ _) fun _ =>
      Er.bind (f := SIdent.id) (Er.pure rfl) rest

theorem xmlSelectorsTokens_erase (ss : List (Selector σ)) :
    eraseToks (xmlSelectorsTokens ss) = Mview.xmlSelectorsTokens (ss.map Selector.erase) := by
  unfold xmlSelectorsTokens Mview.xmlSelectorsTokens
  have hc : ∀ s : Selector σ, s.erase.isClass = s.isClass := by intro s; cases s <;> rfl
  have hi : ∀ s : Selector σ, s.erase.ident = s.ident.erase := by intro s; cases s <;> rfl
  simp only [List.partition_eq_filter_filter, List.filter_map, eraseToks_append, eraseToks_flatMap,
    List.flatMap_map]
  congr 1
  · have : (Mview.Selector.isClass ∘ Selector.erase (σ := σ)) = Selector.isClass := funext hc
    rw [this]
    simp [hi]
  · have : ((not ∘ Mview.Selector.isClass) ∘ Selector.erase (σ := σ)) = (not ∘ Selector.isClass) := by
      funext s; simp [hc]
    rw [this]
    simp [hi]

theorem xmlKvAttributeTokens_erase (a : KvAttr σ) (t : TagKind) :
    Er eraseToks (xmlKvAttributeTokens a t) (Mview.xmlKvAttributeTokens a.erase t) := by
  rcases a with ⟨k, v⟩
  refine Er.ite (c := k.repr = c!"ref") ?_ ?_
  · refine Er.bind (checkSpan_erase k) fun _ => ?_
    exact Er.bind (value_toToks_erase v) fun _ => Er.pure (by simp)
  · refine Er.ite (c := (((decide (t = .svg) || decide (t = .webComponent)) ||
        (AttributeKind.ofStr k.repr).isCustom) && !(AttributeKind.ofStr k.repr).isClassOrStyle) = true) ?_ ?_
    · refine Er.bind (value_toToks_erase v) fun _ => Er.pure ?_
      simp [KvAttr.erase, KebabIdent.erase]
    · refine Er.bind (toSnakeIdent_erase k) fun _ => ?_
      exact Er.bind (value_toToks_erase v) fun _ => Er.pure (by simp)

theorem xmlDirectiveTokens_erase (d : Directive σ) :
    Er eraseToks (xmlDirectiveTokens d) (Mview.xmlDirectiveTokens d.erase) := by
  refine Er.ite (c := d.dir.id = ⟨false, c!"class"⟩ ∨ d.dir.id = ⟨false, c!"style"⟩) ?_ ?_
  · refine Er.bind (toLitStr_erase d.key) fun k => ?_
    refine Er.bind (emitIfModifier_erase d.modifier) fun _ => ?_
    exact Er.bind (optValueToks_erase d.value) fun v => Er.pure (by simp [Directive.erase])
  refine Er.ite (c := d.dir.id = ⟨false, c!"prop"⟩) ?_ ?_
  · refine Er.bind (toLitStr_erase d.key) fun k => ?_
    refine Er.bind (emitIfModifier_erase d.modifier) fun _ => ?_
    exact Er.bind (optValueToks_erase d.value) fun v => Er.pure (by simp [Directive.erase])
  refine Er.ite (c := d.dir.id = ⟨false, c!"on"⟩) ?_ ?_
  · refine Er.bind (eventListenerEventPath_erase d) fun p => ?_
    exact Er.bind (optValueToks_erase d.value) fun v => Er.pure (by simp [Directive.erase])
  refine Er.ite (c := d.dir.id = ⟨false, c!"use"⟩) ?_ ?_
  · exact Er.bind (useDirectiveFnValue_erase d) fun r => Er.pure (by simp)
  refine Er.ite (c := d.dir.id = ⟨false, c!"attr"⟩ ∨ d.dir.id = ⟨false, c!"clone"⟩) ?_ ?_
  · exact Er.bind (Er.emit _ _) fun _ => Er.pure rfl
  · exact Er.bind (Er.emit _ _) fun _ => Er.pure rfl

theorem componentKvAttributeTokens_erase (a : KvAttr σ) :
    Er eraseToks (componentKvAttributeTokens a) (Mview.componentKvAttributeTokens a.erase) := by
  refine Er.bind (toSnakeIdent_erase a.key) fun k => ?_
  exact Er.bind (value_toToks_erase a.value) fun v => Er.pure (by simp)

theorem componentCloneTokens_erase (d : Directive σ) :
    Er eraseToks (componentCloneTokens d) (Mview.componentCloneTokens d.erase) := by
  rcases d with ⟨dir, key, m, v⟩
  refine Er.bind (toIdentOrEmit_erase key) fun i => ?_
  refine Er.bind (emitIfModifier_erase m) fun _ => ?_
  cases v with
  | none => exact Er.pure (by simp)
  | some v => exact Er.bind (Er.emit _ _) fun _ => Er.pure (by simp)

/-- Forget spans. -/
def eraseNodes (ns : List (Node σ)) : List Mview.Toks := ns.map fun n => eraseToks n.toks

omit [Spans σ] in
theorem childrenFragmentTokens_erase (ns : List (Node σ)) (s : σ) :
    eraseToks (childrenFragmentTokens ns s) = Mview.childrenFragmentTokens (eraseNodes ns) := by
  simp [childrenFragmentTokens, Mview.childrenFragmentTokens, eraseNodes, Function.comp_def]

theorem xmlChildMethodsTokens_erase (ns : List (Node σ)) :
    eraseToks (xmlChildMethodsTokens ns) = Mview.xmlChildMethodsTokens (eraseNodes ns) := by
  simp [xmlChildMethodsTokens, Mview.xmlChildMethodsTokens, eraseNodes, eraseToks_flatMap,
    List.flatMap_map]

theorem componentChildrenTokens_erase (c : σ) (ns : List (Node σ)) (args : Option (Toks σ))
    (clones : Toks σ) :
    eraseToks (componentChildrenTokens c ns args clones) =
      Mview.componentChildrenTokens (eraseNodes ns) (args.map eraseToks) (eraseToks clones) := by
  cases args <;>
    simp [componentChildrenTokens, Mview.componentChildrenTokens, childrenFragmentTokens_erase]

theorem directiveToAnyAttrPath_erase (d : Directive σ) :
    Er (Option.map eraseToks) (directiveToAnyAttrPath d) (Mview.directiveToAnyAttrPath d.erase) := by
  have hv := valueOrTrue_erase d.value
  have hv' : Er eraseToks (valueOrTrue d.value).toToks (Mview.valueOrTrue d.erase.value).toToks := by
    show Er _ _ (Mview.valueOrTrue (d.value.map Value.erase)).toToks
    rw [hv]
    exact value_toToks_erase _
  have hk : d.erase.key.toUnspannedString = d.key.toUnspannedString := by
    show d.key.erase.toUnspannedString = _
    cases d.key <;> rfl
  unfold directiveToAnyAttrPath Mview.directiveToAnyAttrPath
  refine Er.ite (c := d.dir.id = ⟨false, c!"class"⟩ ∨ d.dir.id = ⟨false, c!"style"⟩) ?_ ?_
  · exact Er.bind hv' fun v => Er.pure (by simp [hk]; simp [Directive.erase])
  refine Er.ite (c := d.dir.id = ⟨false, c!"attr"⟩) ?_ ?_
  · refine Er.bind (toLitStr_erase d.key) fun k => ?_
    cases AttributeKind.ofStr k.str with
    | cls =>
      refine Er.bind (toIdentOrEmit_erase d.key) fun i => ?_
      exact Er.bind hv' fun v => Er.pure (by simp)
    | style =>
      refine Er.bind (toIdentOrEmit_erase d.key) fun i => ?_
      exact Er.bind hv' fun v => Er.pure (by simp)
    | custom => exact Er.bind hv' fun v => Er.pure (by simp [hk])
    | otherChecked =>
      refine Er.bind (toIdentOrEmit_erase d.key) fun i => ?_
      exact Er.bind hv' fun v => Er.pure (by simp)
  refine Er.ite (c := d.dir.id = ⟨false, c!"prop"⟩) ?_ ?_
  · refine Er.bind (toIdentOrEmit_erase d.key) fun i => ?_
    exact Er.bind hv' fun v => Er.pure (by simp)
  refine Er.ite (c := d.dir.id = ⟨false, c!"on"⟩) ?_ ?_
  · refine Er.bind (eventListenerEventPath_erase d) fun p => ?_
    exact Er.bind (optValueToks_erase d.value) fun v => Er.pure (by simp)
  refine Er.ite (c := d.dir.id = ⟨false, c!"use"⟩) ?_ ?_
  · refine Er.bind (useDirectiveFnValue_erase d) fun r => Er.pure ?_
    simp [Mview.tAbs]
  · exact Er.pure rfl

/-! ### src/expand.rs -/

/-- Forget spans. -/
def XmlBufs.erase (b : XmlBufs σ) : Mview.XmlBufs :=
  ⟨eraseToks b.attrs, eraseToks b.spreadAttrs, eraseToks b.directives⟩

theorem xmlAttrsLoop_erase (kind : TagKind) (as : List (Attr σ)) (b : XmlBufs σ) :
    Er XmlBufs.erase (xmlAttrsLoop kind b as) (Mview.xmlAttrsLoop kind b.erase (as.map Attr.erase)) := by
  induction as generalizing b with
  | nil => exact Er.pure rfl
  | cons a as ih =>
    cases a with
    | kv a =>
      refine Er.bind (xmlKvAttributeTokens_erase a kind) fun t => ?_
      have := ih { b with attrs := b.attrs ++ t }
      simp only [XmlBufs.erase, eraseToks_append] at this
      exact this
    | directive d =>
      refine Er.bind (xmlDirectiveTokens_erase d) fun t => ?_
      have := ih { b with directives := b.directives ++ t }
      simp only [XmlBufs.erase, eraseToks_append] at this
      exact this
    | spread s =>
      have := ih { b with spreadAttrs := b.spreadAttrs ++ xmlSpreadTokens s }
      simp only [XmlBufs.erase, eraseToks_append, xmlSpreadTokens, tCall_erase] at this
      exact this

/-- Relating two computations that need not be there. -/
def ErO {α β : Type} (f : α → β) (x : Option (Out σ α)) (y : Option (Mview.Out β)) : Prop :=
  match x, y with
  | none, none => True
  | some x, some y => Er f x y
  | _, _ => False

omit [Spans σ] in
theorem optOut_erase {α β : Type} {f : α → β} {x : Option (Out σ α)} {y : Option (Mview.Out β)}
    (h : ErO f x y) : Er (Option.map f) (optOut x) (Mview.optOut y) := by
  cases x <;> cases y
  · exact Er.pure rfl
  · exact h.elim
  · exact h.elim
  · exact Er.bind h fun _ => Er.pure rfl

theorem xmlTagPath_erase (t : Tag σ) : ErO eraseToks (xmlTagPath t) (Mview.xmlTagPath t.erase) := by
  cases t with
  | component p => trivial
  | html i => exact Er.pure (by simp)
  | svg i => exact Er.pure (by simp)
  | math i => exact Er.pure (by simp)
  | webComponent k =>
    exact Er.bind (checkSpan_erase k) fun _ => Er.pure (by simp [Mview.tAbs, KebabIdent.erase])

omit [Spans σ] in
theorem kind_erase (t : Tag σ) : t.erase.kind = t.kind := by cases t <;> rfl

theorem xmlToTokens_erase (t : Tag σ) (ss : List (Selector σ)) (as : List (Attr σ))
    {x : Option (Out σ (List (Node σ)))} {y : Option (Mview.Out (List Mview.Toks))}
    (h : ErO eraseNodes x y) :
    ErO eraseToks (xmlToTokens t ss as x)
      (Mview.xmlToTokens t.erase (ss.map Selector.erase) (as.map Attr.erase) y) := by
  have ht := xmlTagPath_erase t
  unfold xmlToTokens Mview.xmlToTokens
  rw [kind_erase]
  cases h1 : xmlTagPath t with
  | none =>
    cases h2 : Mview.xmlTagPath t.erase with
    | none => trivial
    | some o => rw [h1, h2] at ht; exact ht.elim
  | some o =>
    cases h2 : Mview.xmlTagPath t.erase with
    | none => rw [h1, h2] at ht; exact ht.elim
    | some o' =>
      rw [h1, h2] at ht
      refine Er.bind ht fun tp => ?_
      refine Er.bind (xmlAttrsLoop_erase t.kind as ⟨[], [], []⟩) fun b => ?_
      refine Er.bind (optOut_erase h) fun cs => Er.pure ?_
      cases cs <;>
        simp [XmlBufs.erase, xmlSelectorsTokens_erase, xmlChildMethodsTokens_erase]

omit [Spans σ] in
theorem expectSome_erase {α β : Type} {f : α → β} (site : PanicSite) (x : Option α) :
    Er (σ := σ) f (expectSome site x) (Mview.expectSome site (x.map f)) := by
  cases x with
  | none => exact Er.panic _
  | some a => exact Er.pure rfl

/-- Forget spans. -/
def eraseIds (r : List (σ × KebabIdent σ) × List (Toks σ)) : List Mview.KebabIdent × List Mview.Toks :=
  (r.1.map fun i => i.2.erase, r.2.map eraseToks)

theorem selectorsToPaths_erase (ss : List (Selector σ)) (ids : List (σ × KebabIdent σ))
    (paths : List (Toks σ)) :
    Er eraseIds (selectorsToPaths ids paths ss)
      (Mview.selectorsToPaths (ids.map fun i => i.2.erase) (paths.map eraseToks)
        (ss.map Selector.erase)) := by
  induction ss generalizing ids paths with
  | nil => exact Er.pure rfl
  | cons s ss ih =>
    cases s with
    | id sp k =>
      have := ih (ids ++ [(sp, k)]) paths
      rw [List.map_append] at this
      exact this
    | cls sp k =>
      refine Er.bind (directiveToAnyAttrPath_erase ⟨mkIdent c!"class" sp, .kebab k, none, none⟩) fun r => ?_
      refine Er.bind (expectSome_erase _ r) fun p => ?_
      have := ih ids (paths ++ [p])
      rw [List.map_append] at this
      exact this

theorem componentSelectors_erase (isSlot : Bool) (ss : List (Selector σ)) :
    Er (List.map eraseToks) (componentSelectors isSlot ss)
      (Mview.componentSelectors isSlot (ss.map Selector.erase)) := by
  cases isSlot with
  | true =>
    cases ss with
    | nil => exact Er.pure rfl
    | cons s ss => exact Er.bind (Er.emit _ _) fun _ => Er.pure rfl
  | false =>
    refine Er.bind (selectorsToPaths_erase ss [] []) fun r => ?_
    rcases r with ⟨ids, paths⟩
    cases ids with
    | nil => exact Er.pure rfl
    | cons i ids =>
      rcases i with ⟨sp, k⟩
      have e := directiveToAnyAttrPath_erase ⟨mkIdent c!"attr" (callSite : σ), .kebab ⟨c!"id", [sp]⟩, none,
        some (.lit ⟨.tok (.str (joinSpace (((sp, k) :: ids).map (·.2.repr)))), callSite⟩)⟩
      have e' : (((sp, k) :: ids).map (fun i => i.2.erase)).map (·.repr) =
          ((sp, k) :: ids).map (·.2.repr) := by simp [KebabIdent.erase]
      simp only [eraseIds]
      rw [e']
      refine Er.bind e fun r => ?_
      refine Er.bind (expectSome_erase _ r) fun p => Er.pure ?_
      simp

/-- Forget spans. -/
def CompBufs.erase (b : CompBufs σ) : Mview.CompBufs :=
  ⟨eraseToks b.attrs, b.directivePaths.map eraseToks, eraseToks b.clones⟩

theorem componentAttrsLoop_erase (isSlot : Bool) (as : List (Attr σ)) (b : CompBufs σ) :
    Er CompBufs.erase (componentAttrsLoop isSlot b as)
      (Mview.componentAttrsLoop isSlot b.erase (as.map Attr.erase)) := by
  induction as generalizing b with
  | nil => exact Er.pure rfl
  | cons a as ih =>
    cases a with
    | kv a =>
      refine Er.bind (componentKvAttributeTokens_erase a) fun t => ?_
      have := ih { b with attrs := b.attrs ++ t }
      simp only [CompBufs.erase, eraseToks_append] at this
      exact this
    | spread s =>
      refine Er.ite (c := isSlot = true) ?_ ?_
      · exact Er.bind (Er.emit _ _) fun _ => ih b
      · have := ih { b with directivePaths := b.directivePaths ++ [componentSpreadTokens s] }
        simp only [CompBufs.erase, List.map_append] at this
        exact this
    | directive d =>
      refine Er.ite (c := d.dir.id = ⟨false, c!"clone"⟩) ?_ ?_
      · refine Er.bind (emitIfModifier_erase d.modifier) fun _ => ?_
        refine Er.bind (componentCloneTokens_erase d) fun t => ?_
        have := ih { b with clones := b.clones ++ t }
        simp only [CompBufs.erase, eraseToks_append] at this
        exact this
      refine Er.ite (c := isSlot = true) ?_ ?_
      · exact Er.bind (Er.emit _ _) fun _ => ih b
      · refine Er.bind (directiveToAnyAttrPath_erase d) fun r => ?_
        cases r with
        | some p =>
          have := ih { b with directivePaths := b.directivePaths ++ [p] }
          simp only [CompBufs.erase, List.map_append] at this
          exact this
        | none => exact Er.bind (Er.emit _ _) fun _ => ih b

theorem componentToTokens_erase (isSlot : Bool) (t : Tag σ) (ss : List (Selector σ))
    (as : List (Attr σ)) (args : Option (Toks σ))
    {x : Option (Out σ (List (Node σ)))} {y : Option (Mview.Out (List Mview.Toks))}
    (h : ErO eraseNodes x y)
    {u : Option (Out σ (Toks σ))} {v : Option (Mview.Out Mview.Toks)} (hu : ErO eraseToks u v) :
    ErO eraseToks (componentToTokens isSlot t ss as args x u)
      (Mview.componentToTokens isSlot t.erase (ss.map Selector.erase) (as.map Attr.erase)
        (args.map eraseToks) y v) := by
  cases t with
  | component p =>
    refine Er.bind (turbofishify_erase p) fun p => ?_
    refine Er.bind (componentSelectors_erase isSlot ss) fun paths => ?_
    refine Er.bind (componentAttrsLoop_erase isSlot as ⟨[], paths, []⟩) fun b => ?_
    refine Er.bind (optOut_erase h) fun cs => ?_
    refine Er.bind (optOut_erase hu) fun sl => ?_
    refine Er.ite (c := isSlot = true) (Er.pure ?_) (Er.pure ?_)
    · rcases cs with _ | (_ | ⟨n, ns⟩) <;>
        simp [CompBufs.erase, tBuild, Mview.tBuild, componentChildrenTokens_erase, eraseNodes]
    · rcases cs with _ | (_ | ⟨n, ns⟩) <;> cases sl <;>
        simp [CompBufs.erase, tBuild, Mview.tBuild, componentChildrenTokens_erase, eraseNodes]
  | html i => trivial
  | svg i => trivial
  | math i => trivial
  | webComponent k => trivial

/-! ### slots -/

/-- Forget spans. -/
def eraseEntry (e : SIdent σ × List (Toks σ)) : Ident × List Mview.Toks :=
  (e.1.id, e.2.map eraseToks)

omit [Spans σ] in
theorem pushSlot_erase (n : SIdent σ) (t : Toks σ) (m : List (SIdent σ × List (Toks σ))) :
    (pushSlot n t m).map eraseEntry = Mview.pushSlot n.id (eraseToks t) (m.map eraseEntry) := by
  induction m with
  | nil => rfl
  | cons e m ih =>
    rcases e with ⟨n', ts⟩
    simp only [pushSlot, Mview.pushSlot, List.map_cons, eraseEntry]
    split
    · simp [eraseEntry]
    · simp only [List.map_cons, eraseEntry, ih]

omit [Spans σ] in
theorem groupSlots_erase (ss : List (SIdent σ × Toks σ)) (m : List (SIdent σ × List (Toks σ))) :
    (groupSlots ss m).map eraseEntry = Mview.groupSlots (ss.map erasePair) (m.map eraseEntry) := by
  induction ss generalizing m with
  | nil => rfl
  | cons s ss ih =>
    rcases s with ⟨n, t⟩
    simp only [groupSlots, Mview.groupSlots, List.map_cons, erasePair]
    rw [ih, pushSlot_erase]

theorem slotMethod_erase (e : SIdent σ × List (Toks σ)) :
    Er eraseToks (slotMethod e) (Mview.slotMethod (eraseEntry e)) := by
  rcases e with ⟨n, ts⟩
  refine Er.bind (newRaw_erase _ _) fun m => ?_
  rcases ts with _ | ⟨t, _ | ⟨u, ts⟩⟩
  · exact Er.pure (by simp [eraseEntry])
  · exact Er.pure (by simp)
  · exact Er.pure (by simp)

theorem slotMethods_erase (es : List (SIdent σ × List (Toks σ))) :
    Er eraseToks (slotMethods es) (Mview.slotMethods (es.map eraseEntry)) := by
  induction es with
  | nil => exact Er.pure rfl
  | cons e es ih =>
    refine Er.bind (slotMethod_erase e) fun t => ?_
    exact Er.bind ih fun ts => Er.pure (by simp)

theorem map_insertAt {α β : Type} (f : α → β) (a : α) (n : Nat) (xs : List α) :
    (insertAt a n xs).map f = insertAt (f a) n (xs.map f) := by
  induction xs generalizing n with
  | nil => cases n <;> rfl
  | cons x xs ih => cases n <;> simp [insertAt, ih]

theorem map_permute {α β : Type} (f : α → β) (ns : List Nat) (xs : List α) :
    (permute ns xs).map f = permute ns (xs.map f) := by
  induction xs generalizing ns with
  | nil => cases ns <;> rfl
  | cons x xs ih => cases ns <;> simp [permute, map_insertAt, ih]

theorem slotsToTokens_erase (order : List Nat) {x : Out σ (List (SIdent σ × Toks σ))}
    {y : Mview.Out (List (Ident × Mview.Toks))} (h : Er (List.map erasePair) x y) :
    Er eraseToks (slotsToTokens order x) (Mview.slotsToTokens order y) := by
  refine Er.bind h fun ss => ?_
  have := slotMethods_erase (permute order (groupSlots ss []))
  rw [map_permute, groupSlots_erase] at this
  exact this

/-! ### the tree -/

theorem intoRender_erase (t : Toks σ) : eraseToks (intoRender t) = Mview.intoRender (eraseToks t) := by
  simp [intoRender, Mview.intoRender]

omit [Spans σ] in
theorem tag_erase (e : Element σ) : e.erase.tag = e.tag.erase := by
  rcases e with ⟨t, ss, as, args, _ | cs⟩ <;> simp [Element.erase, Mview.Element.tag, Element.tag]

/-- The part of the expansion that does not recurse. -/
theorem element_erase (asSlot : Bool) (t : Tag σ) (ss : List (Selector σ))
    (as : List (Attr σ)) (args : Option (Toks σ))
    {x : Option (Out σ (List (Node σ)))} {y : Option (Mview.Out (List Mview.Toks))}
    (h : ErO eraseNodes x y)
    {u : Option (Out σ (Toks σ))} {v : Option (Mview.Out Mview.Toks)} (hu : ErO eraseToks u v) :
    Er eraseToks
      (match (if asSlot then componentToTokens true t ss as args x u
        else match xmlToTokens t ss as x with
          | some o => some o
          | none => componentToTokens false t ss as args x u) with
      | some o => o
      | none => .panic (if asSlot then .slotChecked else .elementNotComponent))
      (match (if asSlot then Mview.componentToTokens true t.erase (ss.map Selector.erase)
          (as.map Attr.erase) (args.map eraseToks) y v
        else match Mview.xmlToTokens t.erase (ss.map Selector.erase) (as.map Attr.erase) y with
          | some o => some o
          | none => Mview.componentToTokens false t.erase (ss.map Selector.erase)
              (as.map Attr.erase) (args.map eraseToks) y v) with
      | some o => o
      | none => .panic (if asSlot then .slotChecked else .elementNotComponent)) := by
  have fin : ∀ {a : Option (Out σ (Toks σ))} {b : Option (Mview.Out Mview.Toks)} (p : PanicSite),
      ErO eraseToks a b → Er eraseToks (match a with | some o => o | none => .panic p)
        (match b with | some o => o | none => .panic p) := by
    intro a b p hab
    cases a <;> cases b
    · exact Er.panic _
    · exact hab.elim
    · exact hab.elim
    · exact hab
  apply fin
  cases asSlot with
  | true => exact componentToTokens_erase true t ss as args h hu
  | false =>
    have h1 := xmlToTokens_erase t ss as h
    show ErO _ (match xmlToTokens t ss as x with
          | some o => some o
          | none => componentToTokens false t ss as args x u)
      (match Mview.xmlToTokens t.erase (ss.map Selector.erase) (as.map Attr.erase) y with
          | some o => some o
          | none => Mview.componentToTokens false t.erase (ss.map Selector.erase)
              (as.map Attr.erase) (args.map eraseToks) y v)
    cases hx : xmlToTokens t ss as x <;>
      cases hy : Mview.xmlToTokens t.erase (ss.map Selector.erase) (as.map Attr.erase) y <;>
      rw [hx, hy] at h1
    · exact componentToTokens_erase false t ss as args h hu
    · exact h1.elim
    · exact h1.elim
    · exact h1

mutual
theorem expandElement_erase (asSlot : Bool) (s : Sched) (e : Element σ) :
    Er eraseToks (expandElement asSlot s e) (Mview.expandElement asSlot s e.erase) := by
  match e with
  | .mk t ss as args none =>
    unfold expandElement Element.erase Mview.expandElement
    exact element_erase asSlot t ss as args (x := none) (y := none) trivial (u := none) (v := none) trivial
  | .mk t ss as args (some cs) =>
    unfold expandElement Element.erase Mview.expandElement
    exact element_erase asSlot t ss as args (x := some _) (y := some _) (expandNodes_erase s.l cs)
      (u := some _) (v := some _) (slotsToTokens_erase s.here (expandSlots_erase s.r cs))

theorem expandNodes_erase (s : Sched) (cs : List (Child σ)) :
    Er eraseNodes (expandNodes s cs) (Mview.expandNodes s (eraseChildren cs)) := by
  match cs with
  | [] => unfold expandNodes eraseChildren Mview.expandNodes; exact Er.pure rfl
  | .value v :: cs =>
    unfold expandNodes eraseChildren Child.erase Mview.expandNodes
    refine Er.bind (value_toToks_erase v) fun t => ?_
    refine Er.bind (expandNodes_erase s.r cs) fun ts => Er.pure ?_
    simp [eraseNodes, intoRender_erase]
  | .elem e :: cs =>
    unfold expandNodes eraseChildren Child.erase Mview.expandNodes
    refine Er.bind (expandElement_erase false s.l e) fun t => ?_
    refine Er.bind (expandNodes_erase s.r cs) fun ts => Er.pure ?_
    simp [eraseNodes, intoRender_erase]
  | .slot k e :: cs =>
    unfold expandNodes eraseChildren Child.erase Mview.expandNodes
    exact expandNodes_erase s.r cs

theorem expandSlots_erase (s : Sched) (cs : List (Child σ)) :
    Er (List.map erasePair) (expandSlots s cs) (Mview.expandSlots s (eraseChildren cs)) := by
  match cs with
  | [] => unfold expandSlots eraseChildren Mview.expandSlots; exact Er.pure rfl
  | .value v :: cs =>
    unfold expandSlots eraseChildren Child.erase Mview.expandSlots
    exact expandSlots_erase s.r cs
  | .elem e :: cs =>
    unfold expandSlots eraseChildren Child.erase Mview.expandSlots
    exact expandSlots_erase s.r cs
  | .slot k e :: cs =>
    unfold expandSlots eraseChildren Child.erase Mview.expandSlots
    simp only [tag_erase]
    cases ht : e.tag with
    | component p =>
      simp only [Tag.erase, getIdent_erase]
      cases hp : p.getIdent with
      | some n =>
        refine Er.bind (expandElement_erase true s.l e) fun t => ?_
        exact Er.bind (expandSlots_erase s.r cs) fun ts => Er.pure rfl
      | none => exact Er.bind (Er.emit _ _) fun _ => expandSlots_erase s.r cs
    | html i => exact Er.panic _
    | svg i => exact Er.panic _
    | math i => exact Er.panic _
    | webComponent i => exact Er.panic _
end

omit [Spans σ] in
theorem firstSlot_erase (cs : List (Child σ)) :
    (firstSlot cs).isSome = (eraseChildren cs).any Mview.Child.isSlot := by
  induction cs with
  | nil => simp [firstSlot, eraseChildren]
  | cons c cs ih =>
    cases c <;> simp [firstSlot, eraseChildren, Child.erase, Mview.Child.isSlot, ih]

theorem rootBlock_erase (t : Toks σ) : eraseToks (rootBlock t) = Mview.rootBlock (eraseToks t) := by
  simp [rootBlock, Mview.rootBlock]

omit [Spans σ] in
theorem flatten_nodes_erase (ns : List (Node σ)) :
    eraseToks (ns.map Node.toks).flatten = (eraseNodes ns).flatten := by
  simp [eraseNodes, Function.comp_def]

theorem expandRoot_many_erase (s : Sched) (cs : List (Child σ)) :
    Er eraseToks
      (match firstSlot cs with
        | some e => abortWith .slotAtTopLevel e.tag.span
        | none => do
          let ns ← expandNodes s cs
          pure (rootBlock (childrenFragmentTokens ns callSite)))
      (if (eraseChildren cs).any Mview.Child.isSlot then Mview.abortWith .slotAtTopLevel
        else do
          let ns ← Mview.expandNodes s (eraseChildren cs)
          pure (Mview.rootBlock (Mview.childrenFragmentTokens ns))) := by
  rw [← firstSlot_erase]
  cases firstSlot cs with
  | some e => exact Er.abort _ _
  | none =>
    refine Er.bind (expandNodes_erase s cs) fun ns => Er.pure ?_
    rw [rootBlock_erase, childrenFragmentTokens_erase]

theorem expandRoot_erase (s : Sched) (cs : List (Child σ)) :
    Er eraseToks (expandRoot s cs) (Mview.expandRoot s (eraseChildren cs)) := by
  match cs with
  | [] =>
    have := expandRoot_many_erase s ([] : List (Child σ))
    simp only [eraseChildren] at this ⊢
    exact this
  | [.slot k e] => simp only [eraseChildren, Child.erase]; exact Er.abort _ _
  | [.value v] =>
    have := expandNodes_erase s [Child.value v]
    simp only [eraseChildren, Child.erase] at this ⊢
    refine Er.bind this fun ns => Er.pure ?_
    rw [rootBlock_erase, flatten_nodes_erase]
  | [.elem e] =>
    have := expandNodes_erase s [Child.elem e]
    simp only [eraseChildren, Child.erase] at this ⊢
    refine Er.bind this fun ns => Er.pure ?_
    rw [rootBlock_erase, flatten_nodes_erase]
  | c :: d :: cs =>
    have := expandRoot_many_erase s (c :: d :: cs)
    simp only [eraseChildren] at this ⊢
    have e1 : expandRoot s (c :: d :: cs) = (match firstSlot (c :: d :: cs) with
        | some e => abortWith .slotAtTopLevel e.tag.span
        | none => do
          let ns ← expandNodes s (c :: d :: cs)
          pure (rootBlock (childrenFragmentTokens ns callSite))) := by
      cases c <;> rfl
    have e2 : Mview.expandRoot s (c.erase :: d.erase :: eraseChildren cs) =
        (if (c.erase :: d.erase :: eraseChildren cs).any Mview.Child.isSlot then
            Mview.abortWith .slotAtTopLevel
        else do
          let ns ← Mview.expandNodes s (c.erase :: d.erase :: eraseChildren cs)
          pure (Mview.rootBlock (Mview.childrenFragmentTokens ns))) := by
      generalize c.erase = c'
      cases c' <;> rfl
    rw [e1, e2]
    exact this

variable {pp : Mview.PathParser}

theorem mviewImpl_erase (lp : PathParser σ pp) (s : Sched) (ts : Toks σ) :
    Er eraseToks (mviewImpl lp s ts) (Mview.mviewImpl pp s (eraseToks ts)) := by
  refine Er.bind (parseChildren_erase lp ts) fun r => ?_
  cases r with
  | ok cs rest => exact expandRoot_erase s cs
  | err e rest => exact Er.pure rfl

/-- Forgetting the spans afterwards is running the macro on the tokens without spans. -/
theorem mview_erase (lp : PathParser σ pp) (s : Sched) (ts : Toks σ) :
    (mview lp s ts).erase = Mview.mview pp s (eraseToks ts) := by
  have h := mviewImpl_erase lp s ts
  unfold mview Mview.mview
  rw [← h]
  cases mviewImpl lp s ts with
  | ret ds a => cases ds <;> simp [Out.erase, MacroResult.erase, Mview.dummy]
  | abort ds => simp [Out.erase, MacroResult.erase, Mview.dummy]
  | panic p => rfl
  | diverge => rfl

end Mview.Loc
