import Verif.Lemmas.Moves
/-
A change of places commutes with expanding.  (The proofs are those of `Loc/EraseExpand.lean`.)
-/

namespace Mview.Loc
variable {σ τ : Type} {m : σ → τ}

theorem Mv.ite {α β : Type} {f : α → β} {c : Prop} [Decidable c] {x x' : Out σ α}
    {y y' : Out τ β} (h : Mv m f x y) (h' : Mv m f x' y') :
    Mv m f (if c then x else x') (if c then y else y') := by
  split
  · exact h
  · exact h'

/-! ### templates -/

@[simp] theorem tId_move (c : σ) (n : Str) : (tId c n).move m = tId (m c) n := by simp [tId, TT.move]
@[simp] theorem tIdent_move (i : SIdent σ) : (tIdent i).move m = tIdent (i.move m) := by
  simp [tIdent, TT.move, SIdent.move]
@[simp] theorem ident_move (i : Ident) (c : σ) : (TT.ident i c).move m = .ident i (m c) := by
  simp [TT.move]
@[simp] theorem lit_move (l : Lit) (c : σ) : (TT.lit l c).move m = .lit l (m c) := by simp [TT.move]
@[simp] theorem tP_move (c : σ) (p : Char) : (tP c p).move m = tP (m c) p := by simp [tP, TT.move]
@[simp] theorem tStr_move (c : σ) (s : Str) : (tStr c s).move m = tStr (m c) s := by
  simp [tStr]
@[simp] theorem tParen_move (c : σ) (ts : Toks σ) :
    (tParen c ts).move m = tParen (m c) (moveToks m ts) := by
  simp [tParen, TT.move, DelimSpan.move, DelimSpan.single]
@[simp] theorem tBrace_move (c : σ) (ts : Toks σ) :
    (tBrace c ts).move m = tBrace (m c) (moveToks m ts) := by
  simp [tBrace, TT.move, DelimSpan.move, DelimSpan.single]
@[simp] theorem tBracket_move (c : σ) (ts : Toks σ) :
    (tBracket c ts).move m = tBracket (m c) (moveToks m ts) := by
  simp [tBracket, TT.move, DelimSpan.move, DelimSpan.single]
@[simp] theorem tColons_move (c : σ) : moveToks m (tColons c) = tColons (m c) := by
  simp [tColons]
@[simp] theorem tOrOr_move (c : σ) : moveToks m (tOrOr c) = tOrOr (m c) := by
  simp [tOrOr, TT.move]
theorem moveToks_flatMap {α : Type} (xs : List α) (f : α → Toks σ) :
    moveToks m (xs.flatMap f) = xs.flatMap fun x => moveToks m (f x) := by
  induction xs with
  | nil => simp
  | cons x xs ih => simp [ih]
@[simp] theorem tAbs_move (c : σ) (segs : List Str) : moveToks m (tAbs c segs) = tAbs (m c) segs := by
  simp [tAbs, moveToks_flatMap]
@[simp] theorem mkIdent_move (n : Str) (s : σ) : (mkIdent n s).move m = mkIdent n (m s) := rfl
@[simp] theorem sident_move_id (i : SIdent σ) : (i.move m).id = i.id := rfl
@[simp] theorem sident_move_sp (i : SIdent σ) : (i.move m).sp = m i.sp := rfl
@[simp] theorem tCall_move (c : σ) (i : SIdent σ) (args : Toks σ) :
    moveToks m (tCall c i args) = tCall (m c) (i.move m) (moveToks m args) := by
  simp [tCall]
@[simp] theorem moveToks_flatten (xs : List (Toks σ)) :
    moveToks m xs.flatten = (xs.map (moveToks m)).flatten := by
  induction xs with
  | nil => simp
  | cons x xs ih => simp [ih]
@[simp] theorem tTerminated_move (c : σ) (xs : List (Toks σ)) :
    moveToks m (tTerminated c xs) = tTerminated (m c) (xs.map (moveToks m)) := by
  simp [tTerminated, moveToks_flatMap, List.flatMap_map]
@[simp] theorem tSeparated_move (c : σ) (xs : List (Toks σ)) :
    moveToks m (tSeparated c xs) = tSeparated (m c) (xs.map (moveToks m)) := by
  match xs with
  | [] => simp [tSeparated]
  | [x] => simp [tSeparated]
  | x :: y :: ys =>
    have ih := tSeparated_move c (y :: ys)
    simp only [tSeparated, List.map_cons, moveToks_append, moveToks_cons,
      tP_move, moveToks_nil] at ih ⊢
    rw [ih]

/-! ### src/expand/utils.rs -/

theorem emitIfModifier_move (i : Option (SIdent σ)) :
    Mv m id (emitIfModifier i) (emitIfModifier (i.map (SIdent.move m))) := by
  cases i with
  | none => exact Mv.pure rfl
  | some i => exact Mv.emit rfl

variable [Spans σ] [Spans τ] [Move m]

theorem turbofishSeg_move (s : PathSeg σ) :
    Mv m (PathSeg.move m) (turbofishSeg s) (turbofishSeg (s.move m)) := by
  rcases s with ⟨i, _ | ⟨_ | _, _, _, _⟩ | _, sep⟩
  · exact Mv.pure rfl
  · exact Mv.pure (by simp [PathSeg.move, PathArgs.move, Move.callSite (m := m)])
  · exact Mv.pure rfl
  · exact Mv.abort rfl

theorem turbofishSegs_move (ss : List (PathSeg σ)) :
    Mv m (List.map (PathSeg.move m)) (turbofishSegs ss) (turbofishSegs (ss.map (PathSeg.move m))) := by
  induction ss with
  | nil => exact Mv.pure rfl
  | cons s ss ih =>
    exact Mv.bind (turbofishSeg_move s) fun s' => Mv.bind ih fun ss' => Mv.pure rfl

theorem turbofishify_move (p : Path σ) : Mv m (Path.move m) (turbofishify p) (turbofishify (p.move m)) :=
  Mv.bind (turbofishSegs_move p.segs) fun _ => Mv.pure rfl

omit [Spans σ] [Spans τ] [Move m] in
theorem getIdent_move (p : Path σ) : (p.move m).getIdent = p.getIdent.map (SIdent.move m) := by
  rcases p with ⟨_ | _, _ | ⟨⟨i, _ | ⟨_ | _, _, _, _⟩ | _, sep⟩, _ | _⟩⟩ <;> rfl

/-! ### strings and values -/

@[simp] theorem colorAll_move (l : List σ) : moveToks m (colorAll l) = colorAll (l.map m) := by
  simp [colorAll, Function.comp_def, Move.callSite (m := m)]

@[simp] theorem toStrColored_move (k : KebabIdent σ) :
    moveToks m k.toStrColored = (k.move m).toStrColored := by
  simp [KebabIdent.toStrColored, KebabIdent.move, Move.callSite (m := m)]

omit [Spans σ] [Spans τ] [Move m] in
theorem slit_toToks_move (l : SLit σ) : moveToks m l.toToks = (l.move m).toToks := by
  rcases l with ⟨_ | (_ | _), sp⟩ <;> simp [SLit.toToks, SLit.move]

theorem value_toToks_move (v : Value σ) : Mv m (moveToks m) v.toToks (v.move m).toToks := by
  rcases v with l | ⟨ts, b⟩ | ⟨_ | p, ts, b⟩
  · exact Mv.pure (slit_toToks_move l)
  · refine Mv.pure ?_
    cases ts with
    | nil => simp [DelimSpan.move]
    | cons t ts =>
      have e := toksSpan_move (m := m) (t :: ts)
      simp only [moveToks_cons] at e
      simp [e]
  · exact Mv.pure (by simp [DelimSpan.move])
  · exact Mv.ite (c := p.id = ⟨false, c!"f"⟩) (Mv.pure (by simp [DelimSpan.move]))
      (Mv.bind (Mv.emit rfl) fun _ => Mv.pure (by simp))

theorem optValueToks_move (v : Option (Value σ)) :
    Mv m (moveToks m) (optValueToks v) (optValueToks (v.map (Value.move m))) := by
  cases v with
  | none => exact Mv.pure (by simp)
  | some v => exact value_toToks_move v

theorem valueOrTrue_move (v : Option (Value σ)) :
    valueOrTrue (v.map (Value.move m)) = (valueOrTrue v).move m := by
  cases v <;> simp [valueOrTrue]

/-! ### src/expand/subroutines.rs -/

/-- Change places. -/
def movePair (m : σ → τ) (r : SIdent σ × Toks σ) : SIdent τ × Toks τ := (r.1.move m, moveToks m r.2)

theorem useDirectiveFnValue_move (d : Directive σ) :
    Mv m (movePair m) (useDirectiveFnValue d) (useDirectiveFnValue (d.move m)) := by
  unfold useDirectiveFnValue
  refine Mv.ite (c := d.dir.id ≠ ⟨false, c!"use"⟩) rfl ?_
  refine Mv.bind (toIdentOrEmit_move d.key) fun fn => ?_
  refine Mv.bind (emitIfModifier_move d.modifier) fun _ => ?_
  cases hv : d.value with
  | none =>
    simp only [Directive.move, hv]
    exact Mv.pure (by simp [movePair])
  | some v =>
    simp only [Directive.move, hv]
    exact Mv.bind (value_toToks_move v) fun t => Mv.pure (by simp [movePair, Move.callSite (m := m)])

@[simp] theorem eventMod_move : moveToks m (eventMod (σ := σ)) = eventMod := by
  simp [eventMod, Move.callSite (m := m)]

theorem eventListenerEventPath_move (d : Directive σ) :
    Mv m (moveToks m) (eventListenerEventPath d) (eventListenerEventPath (d.move m)) := by
  rcases d with ⟨dir, key, i, v⟩
  refine Mv.ite (c := dir.id ≠ ⟨false, c!"on"⟩) rfl ?_
  have rest : ∀ ev : SIdent σ, Mv m (moveToks m)
      (match i with
        | some m =>
          if m.id = ⟨false, c!"undelegated"⟩ then
            pure (eventMod ++ tColons callSite ++ [tIdent m,
              tParen callSite (eventMod ++ tColons callSite ++ [tIdent ev])])
          else do
            emit (.unknownModifier m.id) m.sp
            pure (eventMod ++ tColons callSite ++ [tIdent ev])
        | none => pure (eventMod ++ tColons callSite ++ [tIdent ev]))
      (match i.map (SIdent.move m) with
        | some i =>
          if i.id = ⟨false, c!"undelegated"⟩ then
            pure (eventMod ++ tColons callSite ++ [tIdent i,
              tParen callSite (eventMod ++ tColons callSite ++ [tIdent (ev.move m)])])
          else do
            emit (.unknownModifier i.id) i.sp
            pure (eventMod ++ tColons callSite ++ [tIdent (ev.move m)])
        | none => pure (eventMod ++ tColons callSite ++ [tIdent (ev.move m)])) := by
    intro ev
    cases i with
    | none => exact Mv.pure (by simp [Move.callSite (m := m)])
    | some i =>
      refine Mv.ite (c := i.id = ⟨false, c!"undelegated"⟩)
        (Mv.pure (by simp [Move.callSite (m := m)])) ?_
      exact Mv.bind (Mv.emit rfl) fun _ => Mv.pure (by simp [Move.callSite (m := m)])
  cases key with
  | kebab k => exact Mv.bind (toSnakeIdent_move k) rest
  | str s =>
    exact Mv.bind (Mv.emit rfl) fun _ =>
      Mv.bind (f := SIdent.move m) (Mv.pure rfl) rest

theorem xmlSelectorsTokens_move (ss : List (Selector σ)) :
    moveToks m (xmlSelectorsTokens ss) = xmlSelectorsTokens (ss.map (Selector.move m)) := by
  unfold xmlSelectorsTokens
  have hc : ∀ s : Selector σ, (s.move m).isClass = s.isClass := by intro s; cases s <;> rfl
  have hi : ∀ s : Selector σ, (s.move m).ident = s.ident.move m := by intro s; cases s <;> rfl
  have hp : ∀ s : Selector σ, (s.move m).pfx = m s.pfx := by intro s; cases s <;> rfl
  simp only [List.partition_eq_filter_filter, List.filter_map, moveToks_append, moveToks_flatMap,
    List.flatMap_map]
  congr 1
  · have : (Selector.isClass ∘ Selector.move m) = Selector.isClass := funext hc
    rw [this]
    simp [hi, hp, Move.callSite (m := m)]
  · have : ((not ∘ Selector.isClass) ∘ Selector.move m) = (not ∘ Selector.isClass) := by
      funext s; simp [hc]
    rw [this]
    simp [hi, hp, Move.callSite (m := m)]

theorem xmlKvAttributeTokens_move (a : KvAttr σ) (t : TagKind) :
    Mv m (moveToks m) (xmlKvAttributeTokens a t) (xmlKvAttributeTokens (a.move m) t) := by
  rcases a with ⟨k, v⟩
  refine Mv.ite (c := k.repr = c!"ref") ?_ ?_
  · refine Mv.bind (checkSpan_move k) fun _ => ?_
    refine Mv.bind (value_toToks_move v) fun _ => Mv.pure ?_
    simp [KvAttr.move, Move.callSite (m := m)]
  · refine Mv.ite (c := (((decide (t = .svg) || decide (t = .webComponent)) ||
        (AttributeKind.ofStr k.repr).isCustom) && !(AttributeKind.ofStr k.repr).isClassOrStyle) = true) ?_ ?_
    · refine Mv.bind (value_toToks_move v) fun _ => Mv.pure ?_
      simp [KvAttr.move, KebabIdent.move, Move.callSite (m := m)]
    · refine Mv.bind (toSnakeIdent_move k) fun _ => ?_
      exact Mv.bind (value_toToks_move v) fun _ => Mv.pure (by simp [Move.callSite (m := m)])

theorem xmlDirectiveTokens_move (d : Directive σ) :
    Mv m (moveToks m) (xmlDirectiveTokens d) (xmlDirectiveTokens (d.move m)) := by
  refine Mv.ite (c := d.dir.id = ⟨false, c!"class"⟩ ∨ d.dir.id = ⟨false, c!"style"⟩) ?_ ?_
  · refine Mv.bind (toLitStr_move d.key) fun k => ?_
    refine Mv.bind (emitIfModifier_move d.modifier) fun _ => ?_
    exact Mv.bind (optValueToks_move d.value) fun v =>
      Mv.pure (by simp [Directive.move, SStr.move, Move.callSite (m := m)])
  refine Mv.ite (c := d.dir.id = ⟨false, c!"prop"⟩) ?_ ?_
  · refine Mv.bind (toLitStr_move d.key) fun k => ?_
    refine Mv.bind (emitIfModifier_move d.modifier) fun _ => ?_
    exact Mv.bind (optValueToks_move d.value) fun v =>
      Mv.pure (by simp [Directive.move, SStr.move, Move.callSite (m := m)])
  refine Mv.ite (c := d.dir.id = ⟨false, c!"on"⟩) ?_ ?_
  · refine Mv.bind (eventListenerEventPath_move d) fun p => ?_
    exact Mv.bind (optValueToks_move d.value) fun v =>
      Mv.pure (by simp [Directive.move, Move.callSite (m := m)])
  refine Mv.ite (c := d.dir.id = ⟨false, c!"use"⟩) ?_ ?_
  · exact Mv.bind (useDirectiveFnValue_move d) fun r =>
      Mv.pure (by simp [Directive.move, Move.callSite (m := m)])
  refine Mv.ite (c := d.dir.id = ⟨false, c!"attr"⟩ ∨ d.dir.id = ⟨false, c!"clone"⟩) ?_ ?_
  · exact Mv.bind (Mv.emit rfl) fun _ => Mv.pure (by simp)
  · exact Mv.bind (Mv.emit rfl) fun _ => Mv.pure (by simp)

omit [Spans σ] [Spans τ] [Move m] in
@[simp] theorem slitSpan_move (l : SLit σ) : (l.move m).sp = m l.sp := rfl

omit [Spans σ] [Spans τ] [Move m] in
@[simp] theorem valueSpan_move (v : Value σ) : (v.move m).span = m v.span := by
  rcases v with l | ⟨ts, b⟩ | ⟨_ | p, ts, b⟩ <;>
    simp [Value.span, Value.move, SLit.move, DelimSpan.move, SIdent.move]

@[simp] theorem kvSpan_move (a : KvAttr σ) : (a.move m).span = m a.span := by
  simp only [KvAttr.span, KvAttr.move, kebabSpan_move, valueSpan_move, joinOr_move]

theorem componentKvAttributeTokens_move (a : KvAttr σ) :
    Mv m (moveToks m) (componentKvAttributeTokens a) (componentKvAttributeTokens (a.move m)) := by
  refine Mv.bind (toSnakeIdent_move a.key) fun k => ?_
  exact Mv.bind (value_toToks_move a.value) fun v => Mv.pure (by simp)

theorem componentCloneTokens_move (d : Directive σ) :
    Mv m (moveToks m) (componentCloneTokens d) (componentCloneTokens (d.move m)) := by
  rcases d with ⟨dir, key, i, v⟩
  refine Mv.bind (toIdentOrEmit_move key) fun i => ?_
  refine Mv.bind (emitIfModifier_move _) fun _ => ?_
  cases v with
  | none => exact Mv.pure (by simp [Move.callSite (m := m)])
  | some v =>
    exact Mv.bind (Mv.emit (valueSpan_move v).symm) fun _ =>
      Mv.pure (by simp [Move.callSite (m := m)])

/-- Change places. -/
def Node.move (m : σ → τ) (n : Node σ) : Node τ := ⟨m n.sp, moveToks m n.toks⟩

omit [Spans σ] [Spans τ] [Move m] in
@[simp] theorem childrenFragmentTokens_move (ns : List (Node σ)) (s : σ) :
    moveToks m (childrenFragmentTokens ns s) =
      childrenFragmentTokens (ns.map (Node.move m)) (m s) := by
  simp [childrenFragmentTokens, Function.comp_def, Node.move]

theorem xmlChildMethodsTokens_move (ns : List (Node σ)) :
    moveToks m (xmlChildMethodsTokens ns) = xmlChildMethodsTokens (ns.map (Node.move m)) := by
  simp [xmlChildMethodsTokens, Node.move, moveToks_flatMap, List.flatMap_map,
    Move.callSite (m := m)]

theorem componentChildrenTokens_move (c : σ) (ns : List (Node σ)) (args : Option (Toks σ))
    (clones : Toks σ) :
    moveToks m (componentChildrenTokens c ns args clones) =
      componentChildrenTokens (m c) (ns.map (Node.move m)) (args.map (moveToks m))
        (moveToks m clones) := by
  cases args <;>
    simp [componentChildrenTokens, Move.callSite (m := m)]

theorem directiveToAnyAttrPath_move (d : Directive σ) :
    Mv m (Option.map (moveToks m)) (directiveToAnyAttrPath d) (directiveToAnyAttrPath (d.move m)) := by
  have cs := Move.callSite (m := m)
  have hv := valueOrTrue_move (m := m) d.value
  have hv' : Mv m (moveToks m) (valueOrTrue d.value).toToks (valueOrTrue (d.move m).value).toToks := by
    show Mv m _ _ (valueOrTrue (d.value.map (Value.move m))).toToks
    rw [hv]
    exact value_toToks_move _
  have hk : (d.move m).key.toUnspannedString = d.key.toUnspannedString := by
    show (d.key.move m).toUnspannedString = _
    cases d.key <;> rfl
  unfold directiveToAnyAttrPath
  refine Mv.ite (c := d.dir.id = ⟨false, c!"class"⟩ ∨ d.dir.id = ⟨false, c!"style"⟩) ?_ ?_
  · exact Mv.bind hv' fun v => Mv.pure (by simp [hk, cs]; simp [Directive.move])
  refine Mv.ite (c := d.dir.id = ⟨false, c!"attr"⟩) ?_ ?_
  · refine Mv.bind (toLitStr_move d.key) fun k => ?_
    rw [show (k.move m).str = k.str from rfl]
    cases AttributeKind.ofStr k.str with
    | cls =>
      refine Mv.bind (toIdentOrEmit_move d.key) fun i => ?_
      exact Mv.bind hv' fun v => Mv.pure (by simp [cs])
    | style =>
      refine Mv.bind (toIdentOrEmit_move d.key) fun i => ?_
      exact Mv.bind hv' fun v => Mv.pure (by simp [cs])
    | custom => exact Mv.bind hv' fun v => Mv.pure (by simp [hk, cs])
    | otherChecked =>
      refine Mv.bind (toIdentOrEmit_move d.key) fun i => ?_
      exact Mv.bind hv' fun v => Mv.pure (by simp [cs])
  refine Mv.ite (c := d.dir.id = ⟨false, c!"prop"⟩) ?_ ?_
  · refine Mv.bind (toIdentOrEmit_move d.key) fun i => ?_
    exact Mv.bind hv' fun v => Mv.pure (by simp [cs])
  refine Mv.ite (c := d.dir.id = ⟨false, c!"on"⟩) ?_ ?_
  · refine Mv.bind (eventListenerEventPath_move d) fun p => ?_
    exact Mv.bind (optValueToks_move d.value) fun v => Mv.pure (by simp [cs])
  refine Mv.ite (c := d.dir.id = ⟨false, c!"use"⟩) ?_ ?_
  · refine Mv.bind (useDirectiveFnValue_move d) fun r => Mv.pure ?_
    simp [Directive.move, cs]
  · exact Mv.pure rfl

/-! ### src/expand.rs -/

/-- Change places. -/
def XmlBufs.move (m : σ → τ) (b : XmlBufs σ) : XmlBufs τ :=
  ⟨moveToks m b.attrs, moveToks m b.spreadAttrs, moveToks m b.directives⟩

@[simp] theorem xmlSpreadTokens_move (s : Spread σ) :
    moveToks m (xmlSpreadTokens s) = xmlSpreadTokens (s.move m) := by
  simp [xmlSpreadTokens, Spread.move, joinOr_move, Move.callSite (m := m)]

theorem xmlAttrsLoop_move (kind : TagKind) (as : List (Attr σ)) (b : XmlBufs σ) :
    Mv m (XmlBufs.move m) (xmlAttrsLoop kind b as)
      (xmlAttrsLoop kind (b.move m) (as.map (Attr.move m))) := by
  induction as generalizing b with
  | nil => exact Mv.pure rfl
  | cons a as ih =>
    cases a with
    | kv a =>
      refine Mv.bind (xmlKvAttributeTokens_move a kind) fun t => ?_
      have := ih { b with attrs := b.attrs ++ t }
      simp only [XmlBufs.move, moveToks_append] at this
      exact this
    | directive d =>
      refine Mv.bind (xmlDirectiveTokens_move d) fun t => ?_
      have := ih { b with directives := b.directives ++ t }
      simp only [XmlBufs.move, moveToks_append] at this
      exact this
    | spread s =>
      have := ih { b with spreadAttrs := b.spreadAttrs ++ xmlSpreadTokens s }
      simp only [XmlBufs.move, moveToks_append, xmlSpreadTokens_move] at this
      exact this

/-- Relating two computations that need not be there. -/
def MvO (m : σ → τ) {α β : Type} (f : α → β) (x : Option (Out σ α)) (y : Option (Out τ β)) : Prop :=
  match x, y with
  | none, none => True
  | some x, some y => Mv m f x y
  | _, _ => False

omit [Spans σ] [Spans τ] [Move m] in
theorem optOut_move {α β : Type} {f : α → β} {x : Option (Out σ α)} {y : Option (Out τ β)}
    (h : MvO m f x y) : Mv m (Option.map f) (optOut x) (optOut y) := by
  cases x <;> cases y
  · exact Mv.pure rfl
  · exact h.elim
  · exact h.elim
  · exact Mv.bind h fun _ => Mv.pure rfl

theorem xmlTagPath_move (t : Tag σ) : MvO m (moveToks m) (xmlTagPath t) (xmlTagPath (t.move m)) := by
  have cs := Move.callSite (m := m)
  cases t with
  | component p => trivial
  | html i => exact Mv.pure (by simp [cs])
  | svg i => exact Mv.pure (by simp [cs])
  | math i => exact Mv.pure (by simp [cs])
  | webComponent k =>
    refine Mv.bind (checkSpan_move k) fun _ => Mv.pure ?_
    simp only [kebabSpan_move]
    simp [KebabIdent.move, cs]

omit [Spans σ] [Spans τ] [Move m] in
theorem kind_move (t : Tag σ) : (t.move m).kind = t.kind := by cases t <;> rfl

theorem xmlToTokens_move (t : Tag σ) (ss : List (Selector σ)) (as : List (Attr σ))
    {x : Option (Out σ (List (Node σ)))} {y : Option (Out τ (List (Node τ)))}
    (h : MvO m (List.map (Node.move m)) x y) :
    MvO m (moveToks m) (xmlToTokens t ss as x)
      (xmlToTokens (t.move m) (ss.map (Selector.move m)) (as.map (Attr.move m)) y) := by
  have ht := xmlTagPath_move (m := m) t
  unfold xmlToTokens
  rw [kind_move]
  cases h1 : xmlTagPath t with
  | none =>
    cases h2 : xmlTagPath (t.move m) with
    | none => trivial
    | some o => rw [h1, h2] at ht; exact ht.elim
  | some o =>
    cases h2 : xmlTagPath (t.move m) with
    | none => rw [h1, h2] at ht; exact ht.elim
    | some o' =>
      rw [h1, h2] at ht
      refine Mv.bind ht fun tp => ?_
      refine Mv.bind (xmlAttrsLoop_move t.kind as ⟨[], [], []⟩) fun b => ?_
      refine Mv.bind (optOut_move h) fun cs => Mv.pure ?_
      cases cs <;>
        simp [XmlBufs.move, xmlSelectorsTokens_move, xmlChildMethodsTokens_move]

omit [Spans σ] [Spans τ] [Move m] in
theorem expectSome_move {α β : Type} {f : α → β} (site : PanicSite) (x : Option α) :
    Mv m f (expectSome site x) (expectSome site (x.map f)) := by
  cases x with
  | none => exact Mv.panic _
  | some a => exact Mv.pure rfl

/-- Change places. -/
def moveIds (m : σ → τ) (r : List (σ × KebabIdent σ) × List (Toks σ)) :
    List (τ × KebabIdent τ) × List (Toks τ) :=
  (r.1.map fun i => (m i.1, i.2.move m), r.2.map (moveToks m))

theorem selectorsToPaths_move (ss : List (Selector σ)) (ids : List (σ × KebabIdent σ))
    (paths : List (Toks σ)) :
    Mv m (moveIds m) (selectorsToPaths ids paths ss)
      (selectorsToPaths (ids.map fun i => (m i.1, i.2.move m)) (paths.map (moveToks m))
        (ss.map (Selector.move m))) := by
  induction ss generalizing ids paths with
  | nil => exact Mv.pure rfl
  | cons s ss ih =>
    cases s with
    | id sp k =>
      have := ih (ids ++ [(sp, k)]) paths
      rw [List.map_append] at this
      exact this
    | cls sp k =>
      refine Mv.bind (directiveToAnyAttrPath_move ⟨mkIdent c!"class" sp, .kebab k, none, none⟩) fun r => ?_
      refine Mv.bind (expectSome_move _ r) fun p => ?_
      have := ih ids (paths ++ [p])
      rw [List.map_append] at this
      exact this

theorem componentSelectors_move (isSlot : Bool) (ss : List (Selector σ)) :
    Mv m (List.map (moveToks m)) (componentSelectors isSlot ss)
      (componentSelectors isSlot (ss.map (Selector.move m))) := by
  cases isSlot with
  | true =>
    cases ss with
    | nil => exact Mv.pure rfl
    | cons s ss =>
      refine Mv.bind (Mv.emit ?_) fun _ => Mv.pure rfl
      cases s <;> rfl
  | false =>
    refine Mv.bind (selectorsToPaths_move ss [] []) fun r => ?_
    rcases r with ⟨ids, paths⟩
    cases ids with
    | nil => exact Mv.pure rfl
    | cons i ids =>
      rcases i with ⟨sp, k⟩
      have e := directiveToAnyAttrPath_move (m := m) ⟨mkIdent c!"attr" (callSite : σ), .kebab ⟨c!"id", [sp]⟩, none,
        some (.lit ⟨.tok (.str (joinSpace (((sp, k) :: ids).map (·.2.repr)))), callSite⟩)⟩
      simp only [Directive.move, KebabOrStr.move, KebabIdent.move, mkIdent_move, Option.map_none,
        Option.map_some, Value.move, SLit.move, List.map_cons, List.map_nil,
        Move.callSite (m := m)] at e
      have e' : (ids.map fun i => (m i.1, i.2.move m)).map (·.2.repr) =
          ids.map (·.2.repr) := by simp [KebabIdent.move]
      simp only [moveIds, List.map_cons]
      rw [e']
      refine Mv.bind e fun r => ?_
      refine Mv.bind (expectSome_move _ r) fun p => Mv.pure ?_
      simp

/-- Change places. -/
def CompBufs.move (m : σ → τ) (b : CompBufs σ) : CompBufs τ :=
  ⟨moveToks m b.attrs, b.directivePaths.map (moveToks m), moveToks m b.clones⟩

theorem componentAttrsLoop_move (isSlot : Bool) (as : List (Attr σ)) (b : CompBufs σ) :
    Mv m (CompBufs.move m) (componentAttrsLoop isSlot b as)
      (componentAttrsLoop isSlot (b.move m) (as.map (Attr.move m))) := by
  induction as generalizing b with
  | nil => exact Mv.pure rfl
  | cons a as ih =>
    cases a with
    | kv a =>
      refine Mv.bind (componentKvAttributeTokens_move a) fun t => ?_
      have := ih { b with attrs := b.attrs ++ t }
      simp only [CompBufs.move, moveToks_append] at this
      exact this
    | spread s =>
      refine Mv.ite (c := isSlot = true) ?_ ?_
      · exact Mv.bind (Mv.emit rfl) fun _ => ih b
      · have := ih { b with directivePaths := b.directivePaths ++ [componentSpreadTokens s] }
        simp only [CompBufs.move, List.map_append] at this
        exact this
    | directive d =>
      refine Mv.ite (c := d.dir.id = ⟨false, c!"clone"⟩) ?_ ?_
      · refine Mv.bind (emitIfModifier_move d.modifier) fun _ => ?_
        refine Mv.bind (componentCloneTokens_move d) fun t => ?_
        have := ih { b with clones := b.clones ++ t }
        simp only [CompBufs.move, moveToks_append] at this
        exact this
      refine Mv.ite (c := isSlot = true) ?_ ?_
      · exact Mv.bind (Mv.emit rfl) fun _ => ih b
      · refine Mv.bind (directiveToAnyAttrPath_move d) fun r => ?_
        cases r with
        | some p =>
          have := ih { b with directivePaths := b.directivePaths ++ [p] }
          simp only [CompBufs.move, List.map_append] at this
          exact this
        | none => exact Mv.bind (Mv.emit rfl) fun _ => ih b

theorem componentToTokens_move (isSlot : Bool) (t : Tag σ) (ss : List (Selector σ))
    (as : List (Attr σ)) (args : Option (Toks σ))
    {x : Option (Out σ (List (Node σ)))} {y : Option (Out τ (List (Node τ)))}
    (h : MvO m (List.map (Node.move m)) x y)
    {u : Option (Out σ (Toks σ))} {v : Option (Out τ (Toks τ))} (hu : MvO m (moveToks m) u v) :
    MvO m (moveToks m) (componentToTokens isSlot t ss as args x u)
      (componentToTokens isSlot (t.move m) (ss.map (Selector.move m)) (as.map (Attr.move m))
        (args.map (moveToks m)) y v) := by
  have cs := Move.callSite (m := m)
  cases t with
  | component p =>
    refine Mv.bind (turbofishify_move p) fun p => ?_
    refine Mv.bind (componentSelectors_move isSlot ss) fun paths => ?_
    refine Mv.bind (componentAttrsLoop_move isSlot as ⟨[], paths, []⟩) fun b => ?_
    refine Mv.bind (optOut_move h) fun ch => ?_
    refine Mv.bind (optOut_move hu) fun sl => ?_
    refine Mv.ite (c := isSlot = true) (Mv.pure ?_) (Mv.pure ?_)
    · rcases ch with _ | (_ | ⟨n, ns⟩) <;>
        simp [CompBufs.move, tBuild, componentChildrenTokens_move, cs] <;> rfl
    · rcases ch with _ | (_ | ⟨n, ns⟩) <;> cases sl <;>
        simp [CompBufs.move, tBuild, componentChildrenTokens_move, cs] <;> rfl
  | html i => trivial
  | svg i => trivial
  | math i => trivial
  | webComponent k => trivial

/-! ### slots -/

/-- Change places. -/
def moveEntry (m : σ → τ) (e : SIdent σ × List (Toks σ)) : SIdent τ × List (Toks τ) :=
  (e.1.move m, e.2.map (moveToks m))

omit [Spans σ] [Spans τ] [Move m] in
theorem pushSlot_move (n : SIdent σ) (t : Toks σ) (es : List (SIdent σ × List (Toks σ))) :
    (pushSlot n t es).map (moveEntry m) =
      pushSlot (n.move m) (moveToks m t) (es.map (moveEntry m)) := by
  induction es with
  | nil => rfl
  | cons e es ih =>
    rcases e with ⟨n', ts⟩
    simp only [pushSlot, List.map_cons, moveEntry, sident_move_id]
    by_cases h : n'.id = n.id
    · simp [moveEntry, h]
    · simp only [h, if_false, List.map_cons, moveEntry]
      rw [← ih]

omit [Spans σ] [Spans τ] [Move m] in
theorem groupSlots_move (ss : List (SIdent σ × Toks σ)) (es : List (SIdent σ × List (Toks σ))) :
    (groupSlots ss es).map (moveEntry m) = groupSlots (ss.map (movePair m)) (es.map (moveEntry m)) := by
  induction ss generalizing es with
  | nil => rfl
  | cons s ss ih =>
    rcases s with ⟨n, t⟩
    simp only [groupSlots, List.map_cons, movePair]
    rw [ih, pushSlot_move]

theorem slotMethod_move (e : SIdent σ × List (Toks σ)) :
    Mv m (moveToks m) (slotMethod e) (slotMethod (moveEntry m e)) := by
  have cs := Move.callSite (m := m)
  rcases e with ⟨n, ts⟩
  refine Mv.bind (newRaw_move rfl) fun i => ?_
  rcases ts with _ | ⟨t, _ | ⟨u, ts⟩⟩
  · exact Mv.pure (by simp [moveEntry, cs])
  · exact Mv.pure (by simp [cs])
  · exact Mv.pure (by simp [cs])

theorem slotMethods_move (es : List (SIdent σ × List (Toks σ))) :
    Mv m (moveToks m) (slotMethods es) (slotMethods (es.map (moveEntry m))) := by
  induction es with
  | nil => exact Mv.pure (by simp)
  | cons e es ih =>
    refine Mv.bind (slotMethod_move e) fun t => ?_
    exact Mv.bind ih fun ts => Mv.pure (by simp)

omit [Spans σ] [Spans τ] [Move m] in
theorem insertAt_move {α β : Type} (f : α → β) (a : α) (n : Nat) (xs : List α) :
    (insertAt a n xs).map f = insertAt (f a) n (xs.map f) := by
  induction xs generalizing n with
  | nil => cases n <;> rfl
  | cons x xs ih => cases n <;> simp [insertAt, ih]

omit [Spans σ] [Spans τ] [Move m] in
theorem permute_move {α β : Type} (f : α → β) (ns : List Nat) (xs : List α) :
    (permute ns xs).map f = permute ns (xs.map f) := by
  induction xs generalizing ns with
  | nil => cases ns <;> rfl
  | cons x xs ih => cases ns <;> simp [permute, insertAt_move, ih]

theorem slotsToTokens_move (order : List Nat) {x : Out σ (List (SIdent σ × Toks σ))}
    {y : Out τ (List (SIdent τ × Toks τ))} (h : Mv m (List.map (movePair m)) x y) :
    Mv m (moveToks m) (slotsToTokens order x) (slotsToTokens order y) := by
  refine Mv.bind h fun ss => ?_
  have := slotMethods_move (m := m) (permute order (groupSlots ss []))
  rw [permute_move, groupSlots_move] at this
  exact this

/-! ### the tree -/

@[simp] theorem intoRender_move (t : Toks σ) : moveToks m (intoRender t) = intoRender (moveToks m t) := by
  simp [intoRender, Move.callSite (m := m)]

omit [Spans σ] [Spans τ] [Move m] in
theorem tag_move (e : Element σ) : (e.move m).tag = e.tag.move m := by
  rcases e with ⟨t, ss, as, args, _ | cs⟩ <;> simp [Element.move, Element.tag]

/-- The part of the expansion that does not recurse. -/
theorem element_move (asSlot : Bool) (t : Tag σ) (ss : List (Selector σ))
    (as : List (Attr σ)) (args : Option (Toks σ))
    {x : Option (Out σ (List (Node σ)))} {y : Option (Out τ (List (Node τ)))}
    (h : MvO m (List.map (Node.move m)) x y)
    {u : Option (Out σ (Toks σ))} {v : Option (Out τ (Toks τ))} (hu : MvO m (moveToks m) u v) :
    Mv m (moveToks m)
      (match (if asSlot then componentToTokens true t ss as args x u
        else match xmlToTokens t ss as x with
          | some o => some o
          | none => componentToTokens false t ss as args x u) with
      | some o => o
      | none => .panic (if asSlot then .slotChecked else .elementNotComponent))
      (match (if asSlot then componentToTokens true (t.move m) (ss.map (Selector.move m))
          (as.map (Attr.move m)) (args.map (moveToks m)) y v
        else match xmlToTokens (t.move m) (ss.map (Selector.move m)) (as.map (Attr.move m)) y with
          | some o => some o
          | none => componentToTokens false (t.move m) (ss.map (Selector.move m))
              (as.map (Attr.move m)) (args.map (moveToks m)) y v) with
      | some o => o
      | none => .panic (if asSlot then .slotChecked else .elementNotComponent)) := by
  have fin : ∀ {a : Option (Out σ (Toks σ))} {b : Option (Out τ (Toks τ))} (p : PanicSite),
      MvO m (moveToks m) a b → Mv m (moveToks m) (match a with | some o => o | none => .panic p)
        (match b with | some o => o | none => .panic p) := by
    intro a b p hab
    cases a <;> cases b
    · exact Mv.panic _
    · exact hab.elim
    · exact hab.elim
    · exact hab
  apply fin
  cases asSlot with
  | true => exact componentToTokens_move true t ss as args h hu
  | false =>
    have h1 := xmlToTokens_move t ss as h
    show MvO m _ (match xmlToTokens t ss as x with
          | some o => some o
          | none => componentToTokens false t ss as args x u)
      (match xmlToTokens (t.move m) (ss.map (Selector.move m)) (as.map (Attr.move m)) y with
          | some o => some o
          | none => componentToTokens false (t.move m) (ss.map (Selector.move m))
              (as.map (Attr.move m)) (args.map (moveToks m)) y v)
    cases hx : xmlToTokens t ss as x <;>
      cases hy : xmlToTokens (t.move m) (ss.map (Selector.move m)) (as.map (Attr.move m)) y <;>
      rw [hx, hy] at h1
    · exact componentToTokens_move false t ss as args h hu
    · exact h1.elim
    · exact h1.elim
    · exact h1

mutual
theorem expandElement_move (asSlot : Bool) (s : Sched) (e : Element σ) :
    Mv m (moveToks m) (expandElement asSlot s e) (expandElement asSlot s (e.move m)) := by
  match e with
  | .mk t ss as args none =>
    unfold Element.move expandElement
    exact element_move asSlot t ss as args (x := none) (y := none) trivial (u := none) (v := none) trivial
  | .mk t ss as args (some cs) =>
    unfold Element.move expandElement
    exact element_move asSlot t ss as args (x := some _) (y := some _) (expandNodes_move s.l cs)
      (u := some _) (v := some _) (slotsToTokens_move s.here (expandSlots_move s.r cs))

theorem expandNodes_move (s : Sched) (cs : List (Child σ)) :
    Mv m (List.map (Node.move m)) (expandNodes s cs) (expandNodes s (moveChildren m cs)) := by
  match cs with
  | [] => unfold moveChildren expandNodes; exact Mv.pure rfl
  | .value v :: cs =>
    unfold moveChildren Child.move expandNodes
    refine Mv.bind (value_toToks_move v) fun t => ?_
    refine Mv.bind (expandNodes_move s.r cs) fun ts => Mv.pure ?_
    simp [Node.move]
  | .elem e :: cs =>
    unfold moveChildren Child.move expandNodes
    refine Mv.bind (expandElement_move false s.l e) fun t => ?_
    refine Mv.bind (expandNodes_move s.r cs) fun ts => Mv.pure ?_
    simp [Node.move, tag_move]
  | .slot k e :: cs =>
    unfold moveChildren Child.move expandNodes
    exact expandNodes_move s.r cs

theorem expandSlots_move (s : Sched) (cs : List (Child σ)) :
    Mv m (List.map (movePair m)) (expandSlots s cs) (expandSlots s (moveChildren m cs)) := by
  match cs with
  | [] => unfold moveChildren expandSlots; exact Mv.pure rfl
  | .value v :: cs =>
    unfold moveChildren Child.move expandSlots
    exact expandSlots_move s.r cs
  | .elem e :: cs =>
    unfold moveChildren Child.move expandSlots
    exact expandSlots_move s.r cs
  | .slot k e :: cs =>
    unfold moveChildren Child.move expandSlots
    simp only [tag_move]
    cases ht : e.tag with
    | component p =>
      simp only [Tag.move, getIdent_move]
      cases hp : p.getIdent with
      | some n =>
        refine Mv.bind (expandElement_move true s.l e) fun t => ?_
        exact Mv.bind (expandSlots_move s.r cs) fun ts => Mv.pure rfl
      | none =>
        exact Mv.bind (Mv.emit (pathSpan_move p).symm) fun _ => expandSlots_move s.r cs
    | html i => exact Mv.panic _
    | svg i => exact Mv.panic _
    | math i => exact Mv.panic _
    | webComponent i => exact Mv.panic _
end

omit [Spans σ] [Spans τ] [Move m] in
theorem firstSlot_move (cs : List (Child σ)) :
    firstSlot (moveChildren m cs) = (firstSlot cs).map (Element.move m) := by
  induction cs with
  | nil => simp [firstSlot, moveChildren]
  | cons c cs ih =>
    cases c <;> simp [firstSlot, moveChildren, Child.move, ih]

@[simp] theorem rootBlock_move (t : Toks σ) : moveToks m (rootBlock t) = rootBlock (moveToks m t) := by
  simp [rootBlock, Move.callSite (m := m)]

omit [Spans σ] [Spans τ] [Move m] in
theorem flatten_nodes_move (ns : List (Node σ)) :
    moveToks m (ns.map Node.toks).flatten = ((ns.map (Node.move m)).map Node.toks).flatten := by
  simp [Node.move, Function.comp_def]

theorem expandRoot_many_move (s : Sched) (cs : List (Child σ)) :
    Mv m (moveToks m)
      (match firstSlot cs with
        | some e => abortWith .slotAtTopLevel e.tag.span
        | none => do
          let ns ← expandNodes s cs
          pure (rootBlock (childrenFragmentTokens ns callSite)))
      (match firstSlot (moveChildren m cs) with
        | some e => abortWith .slotAtTopLevel e.tag.span
        | none => do
          let ns ← expandNodes s (moveChildren m cs)
          pure (rootBlock (childrenFragmentTokens ns callSite))) := by
  rw [firstSlot_move]
  cases firstSlot cs with
  | some e => exact Mv.abort (by simp [tag_move])
  | none =>
    refine Mv.bind (expandNodes_move s cs) fun ns => Mv.pure ?_
    rw [rootBlock_move, childrenFragmentTokens_move, Move.callSite (m := m)]

theorem expandRoot_move (s : Sched) (cs : List (Child σ)) :
    Mv m (moveToks m) (expandRoot s cs) (expandRoot s (moveChildren m cs)) := by
  match cs with
  | [] =>
    have := expandRoot_many_move (m := m) s ([] : List (Child σ))
    simp only [moveChildren] at this ⊢
    exact this
  | [.slot k e] => simp only [moveChildren, Child.move]; exact Mv.abort rfl
  | [.value v] =>
    have := expandNodes_move (m := m) s [Child.value v]
    simp only [moveChildren, Child.move] at this ⊢
    refine Mv.bind this fun ns => Mv.pure ?_
    rw [rootBlock_move, flatten_nodes_move]
  | [.elem e] =>
    have := expandNodes_move (m := m) s [Child.elem e]
    simp only [moveChildren, Child.move] at this ⊢
    refine Mv.bind this fun ns => Mv.pure ?_
    rw [rootBlock_move, flatten_nodes_move]
  | c :: d :: cs =>
    have := expandRoot_many_move (m := m) s (c :: d :: cs)
    simp only [moveChildren] at this ⊢
    have e1 : ∀ {ρ : Type} [Spans ρ] (c d : Child ρ) (cs : List (Child ρ)),
        expandRoot s (c :: d :: cs) = (match firstSlot (c :: d :: cs) with
        | some e => abortWith .slotAtTopLevel e.tag.span
        | none => do
          let ns ← expandNodes s (c :: d :: cs)
          pure (rootBlock (childrenFragmentTokens ns callSite))) := by
      intro ρ _ c d cs
      cases c <;> rfl
    rw [e1, e1]
    exact this

variable {pp : Mview.PathParser}

theorem mviewImpl_move {lp : PathParser σ pp} {lp' : PathParser τ pp} (hl : lp.MovesTo m lp')
    (s : Sched) (ts : Toks σ) :
    Mv m (moveToks m) (mviewImpl lp s ts) (mviewImpl lp' s (moveToks m ts)) := by
  refine Mv.bind (parseChildren_move hl ts) fun r => ?_
  cases r with
  | ok cs rest => exact expandRoot_move s cs
  | err e rest => exact Mv.pure (by simp)

/-- Changing the places in the input changes those in the result. -/
theorem mview_move_eq {lp : PathParser σ pp} {lp' : PathParser τ pp} (hl : lp.MovesTo m lp')
    (s : Sched) (ts : Toks σ) :
    mview lp' s (moveToks m ts) = (mview lp s ts).move m := by
  have h := mviewImpl_move hl s ts
  unfold mview
  rw [← h]
  cases mviewImpl lp s ts with
  | ret ds a => cases ds <;> simp [Out.move, MacroResult.move, Move.callSite (m := m)]
  | abort ds => simp [Out.move, MacroResult.move, Move.callSite (m := m)]
  | panic p => rfl
  | diverge => rfl

end Mview.Loc
