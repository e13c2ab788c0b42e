import Verif.Spec.Moves
import Verif.Loc.Erase
/-
A change of places commutes with parsing.  (The proofs are those of `Loc/Erase.lean`.)
-/

namespace Mview.Loc
variable {σ τ : Type}

/-! ### changing places in outcomes and syntax trees -/

/-- Change the places of the diagnostics and those in the value. -/
def Out.move {α β : Type} (m : σ → τ) (f : α → β) : Out σ α → Out τ β
  | .ret ds a => .ret (ds.map (LDiag.move m)) (f a)
  | .abort ds => .abort (ds.map (LDiag.move m))
  | .panic p => .panic p
  | .diverge => .diverge

/-- Change places. -/
def LErr.move (m : σ → τ) (e : LErr σ) : LErr τ := ⟨e.err, m e.sp⟩
/-- Change places. -/
def PR.move {α β : Type} (m : σ → τ) (f : α → β) : PR σ α → PR τ β
  | .ok a rest => .ok (f a) (moveToks m rest)
  | .err e rest => .err (e.move m) (moveToks m rest)

/-- Change places. -/
def SStr.move (m : σ → τ) (s : SStr σ) : SStr τ := ⟨s.str, m s.sp⟩
/-- Change places. -/
def SLit.move (m : σ → τ) (l : SLit σ) : SLit τ := ⟨l.lit, m l.sp⟩
/-- Change places. -/
def Inner.move (m : σ → τ) (i : Inner σ) : Inner τ := ⟨moveToks m i.toks, i.sp.move m⟩
/-- Change places. -/
def KebabIdent.move (m : σ → τ) (k : KebabIdent σ) : KebabIdent τ := ⟨k.repr, k.spans.map m⟩
/-- Change places. -/
def KebabOrStr.move (m : σ → τ) : KebabOrStr σ → KebabOrStr τ
  | .kebab k => .kebab (k.move m)
  | .str s => .str (s.move m)
/-- Change places. -/
def Value.move (m : σ → τ) : Value σ → Value τ
  | .lit l => .lit (l.move m)
  | .block ts b => .block (moveToks m ts) (b.move m)
  | .bracket p ts b => .bracket (p.map (SIdent.move m)) (moveToks m ts) (b.move m)
/-- Change places. -/
def Tag.move (m : σ → τ) : Tag σ → Tag τ
  | .html i => .html (i.move m)
  | .component p => .component (p.move m)
  | .svg i => .svg (i.move m)
  | .math i => .math (i.move m)
  | .webComponent k => .webComponent (k.move m)
/-- Change places. -/
def Selector.move (m : σ → τ) : Selector σ → Selector τ
  | .id s k => .id (m s) (k.move m)
  | .cls s k => .cls (m s) (k.move m)
/-- Change places. -/
def KvAttr.move (m : σ → τ) (a : KvAttr σ) : KvAttr τ := ⟨a.key.move m, a.value.move m⟩
/-- Change places. -/
def Directive.move (m : σ → τ) (d : Directive σ) : Directive τ :=
  ⟨d.dir.move m, d.key.move m, d.modifier.map (SIdent.move m), d.value.map (Value.move m)⟩
/-- Change places. -/
def Spread.move (m : σ → τ) (s : Spread σ) : Spread τ :=
  ⟨s.braces.move m, (m s.dotdot.1, m s.dotdot.2), moveToks m s.expr⟩
/-- Change places. -/
def Attr.move (m : σ → τ) : Attr σ → Attr τ
  | .kv a => .kv (a.move m)
  | .directive d => .directive (d.move m)
  | .spread s => .spread (s.move m)

mutual
/-- Change places. -/
def Element.move (m : σ → τ) : Element σ → Element τ
  | .mk t ss as args none =>
    .mk (t.move m) (ss.map (Selector.move m)) (as.map (Attr.move m)) (args.map (moveToks m)) none
  | .mk t ss as args (some cs) =>
    .mk (t.move m) (ss.map (Selector.move m)) (as.map (Attr.move m)) (args.map (moveToks m))
      (some (moveChildren m cs))
/-- Change places. -/
def Child.move (m : σ → τ) : Child σ → Child τ
  | .value v => .value (v.move m)
  | .elem e => .elem (e.move m)
  | .slot s e => .slot (m s) (e.move m)
/-- Change places. -/
def moveChildren (m : σ → τ) : List (Child σ) → List (Child τ)
  | [] => []
  | c :: cs => c.move m :: moveChildren m cs
end

/-! ### the relation "equal up to the change of places" -/

variable {m : σ → τ}

theorem moveToks_eq_map (ts : Toks σ) : moveToks m ts = ts.map (TT.move m) := by
  induction ts with
  | nil => simp [moveToks]
  | cons t ts ih => simp [moveToks, ih]

@[simp] theorem moveToks_nil : moveToks m ([] : Toks σ) = [] := by simp [moveToks]
@[simp] theorem moveToks_cons (t : TT σ) (ts : Toks σ) :
    moveToks m (t :: ts) = t.move m :: moveToks m ts := by simp [moveToks]
@[simp] theorem moveToks_append (xs ys : Toks σ) :
    moveToks m (xs ++ ys) = moveToks m xs ++ moveToks m ys := by simp [moveToks_eq_map]
@[simp] theorem moveToks_length (ts : Toks σ) : (moveToks m ts).length = ts.length := by
  simp [moveToks_eq_map]

mutual
theorem TT.erase_move (t : TT σ) : (t.move m).erase = t.erase := by
  cases t with
  | group d ts s => simp [TT.move, TT.erase, eraseToks_move ts]
  | _ => simp [TT.move, TT.erase]
theorem eraseToks_move (ts : List (TT σ)) : eraseToks (moveToks m ts) = eraseToks ts := by
  cases ts with
  | nil => simp
  | cons t ts => simp [TT.erase_move t, eraseToks_move ts]
end

/-- `y` is `x` with other places; `f` changes them in the value. -/
def Mv (m : σ → τ) {α β : Type} (f : α → β) (x : Out σ α) (y : Out τ β) : Prop := x.move m f = y

theorem Mv.ret {α β : Type} {f : α → β} {ds : List (LDiag σ)} {es : List (LDiag τ)} {a : α} {b : β}
    (hd : ds.map (LDiag.move m) = es) (h : f a = b) : Mv m f (.ret ds a) (.ret es b) := by
  subst hd h; rfl

theorem Mv.pure {α β : Type} {f : α → β} {a : α} {b : β} (h : f a = b) :
    Mv m f (Pure.pure a : Out σ α) (Pure.pure b) := Mv.ret rfl h

theorem Mv.bind' {α β γ δ : Type} {f : α → β} {g : γ → δ} {x : Out σ α} {y : Out τ β}
    {k : α → Out σ γ} {l : β → Out τ δ} (hx : Mv m f x y) (hk : ∀ a, Mv m g (k a) (l (f a))) :
    Mv m g (Out.bind x k) (Out.bind y l) := by
  subst hx
  cases x with
  | ret ds a =>
    simp only [Mv, Out.bind, Out.move]
    have h := hk a
    unfold Mv at h
    rw [← h]
    cases k a <;> simp [Out.tell, Out.move]
  | abort ds => rfl
  | panic p => rfl
  | diverge => rfl

theorem Mv.bind {α β γ δ : Type} {f : α → β} {g : γ → δ} {x : Out σ α} {y : Out τ β}
    {k : α → Out σ γ} {l : β → Out τ δ} (hx : Mv m f x y) (hk : ∀ a, Mv m g (k a) (l (f a))) :
    Mv m g (x >>= k) (y >>= l) := Mv.bind' hx hk

theorem Mv.emit {d : Diag} {sp : σ} {sp' : τ} (h : m sp = sp') : Mv m id (Loc.emit d sp) (Loc.emit d sp') := by
  subst h; rfl
theorem Mv.abort {α β : Type} {f : α → β} {d : Diag} {sp : σ} {sp' : τ} (h : m sp = sp') :
    Mv m f (Loc.abortWith d sp) (Loc.abortWith d sp') := by subst h; rfl
theorem Mv.panic {α β : Type} {f : α → β} (p : PanicSite) :
    Mv m f (.panic p : Out σ α) (.panic p) := rfl

/-- The parser `lp'` does what `lp` does with other places. -/
def MvP (m : σ → τ) {α β : Type} (f : α → β) (lp : P σ α) (lp' : P τ β) : Prop :=
  ∀ sc ts, Mv m (PR.move m f) (lp sc ts) (lp' (m sc) (moveToks m ts))

theorem MvP.pure {α β : Type} {f : α → β} {a : α} {b : β} (h : f a = b) :
    MvP m f (Pure.pure a : P σ α) (Pure.pure b) := fun _ _ => Mv.ret rfl (by subst h; rfl)

theorem MvP.bind {α β γ δ : Type} {f : α → β} {g : γ → δ} {x : P σ α} {y : P τ β}
    {k : α → P σ γ} {l : β → P τ δ} (hx : MvP m f x y) (hk : ∀ a, MvP m g (k a) (l (f a))) :
    MvP m g (x >>= k) (y >>= l) := by
  intro sc ts
  refine Mv.bind' (hx sc ts) fun r => ?_
  cases r with
  | ok a rest => exact hk a sc rest
  | err e rest => exact Mv.ret rfl rfl

theorem MvP.bind_inp {γ δ : Type} {g : γ → δ}
    {k : Toks σ → P σ γ} {l : Toks τ → P τ δ} (hk : ∀ ts, MvP m g (k ts) (l (moveToks m ts))) :
    MvP m g (Loc.inp >>= k) (Loc.inp >>= l) :=
  MvP.bind (f := moveToks m) (fun _ _ => Mv.ret rfl rfl) hk

theorem openSpan_move (t : TT σ) : (t.move m).openSpan = m t.openSpan := by
  cases t <;> simp [TT.move, TT.openSpan, TT.span, DelimSpan.move]

theorem span_move (t : TT σ) : (t.move m).span = m t.span := by
  cases t <;> simp [TT.move, TT.span, DelimSpan.move]

theorem spanAt_move (sc : σ) (ts : Toks σ) : spanAt (m sc) (moveToks m ts) = m (spanAt sc ts) := by
  cases ts with
  | nil => simp [spanAt]
  | cons t ts => simp [spanAt, openSpan_move]

theorem MvP.bind_inpSpan {γ δ : Type} {g : γ → δ} {k : σ → P σ γ} {l : τ → P τ δ}
    (hk : ∀ s, MvP m g (k s) (l (m s))) : MvP m g (Loc.inpSpan >>= k) (Loc.inpSpan >>= l) :=
  MvP.bind (f := m) (fun sc ts => Mv.ret rfl (by simp [PR.move, spanAt_move])) hk

theorem MvP.fail {α β : Type} {f : α → β} (e : Err) :
    MvP m f (Loc.fail e : P σ α) (Loc.fail e) :=
  fun _ _ => Mv.ret rfl (by simp [PR.move, LErr.move, spanAt_move])
theorem MvP.failAt {α β : Type} {f : α → β} {e : Err} {sp : σ} {sp' : τ} (h : m sp = sp') :
    MvP m f (Loc.failAt e sp : P σ α) (Loc.failAt e sp') := fun _ _ => Mv.ret rfl (by subst h; rfl)

theorem MvP.liftOut {α β : Type} {f : α → β} {x : Out σ α} {y : Out τ β} (h : Mv m f x y) :
    MvP m f (Loc.liftOut x) (Loc.liftOut y) := fun _ _ =>
  Mv.bind' h fun _ => Mv.ret rfl rfl

theorem MvP.emitP {d : Diag} {sp : σ} {sp' : τ} (h : m sp = sp') :
    MvP m id (Loc.emitP d sp) (Loc.emitP d sp') :=
  MvP.liftOut (Mv.emit h)

theorem MvP.unwrapP {α β : Type} {f : α → β} {x : P σ α} {y : P τ β} (site : PanicSite)
    (h : MvP m f x y) : MvP m f (Loc.unwrapP site x) (Loc.unwrapP site y) := fun sc ts =>
  Mv.bind' (h sc ts) fun r => by
    cases r with
    | ok a rest => exact Mv.ret rfl rfl
    | err e rest => exact Mv.panic _

theorem MvP.rollback {α β : Type} {f : α → β} {x : P σ α} {y : P τ β} (h : MvP m f x y) :
    MvP m (Option.map f) (Loc.rollback x) (Loc.rollback y) := fun sc ts =>
  Mv.bind' (h sc ts) fun r => by
    cases r with
    | ok a rest => exact Mv.ret rfl rfl
    | err e rest => exact Mv.ret rfl rfl

theorem MvP.diverge {α β : Type} {f : α → β} :
    MvP m f (fun _ _ => .diverge : P σ α) (fun _ _ => .diverge) := fun _ _ => rfl

/-! ### peeking: the same on both sides, as it only looks at the tokens -/

@[simp] theorem isEmpty_move (ts : Toks σ) : isEmpty (moveToks m ts) = isEmpty ts := by
  rw [← isEmpty_erase, ← isEmpty_erase, eraseToks_move]

theorem skip_move (ts : Toks σ) : skip (moveToks m ts) = moveToks m (skip ts) := by
  fun_cases skip ts
  · simp [TT.move, skip]
  · rename_i t r hn
    cases t with
    | punct c s sp =>
      cases r with
      | nil => simp [TT.move, skip]
      | cons u r =>
        cases u with
        | ident i sp' =>
          simp only [moveToks_cons, TT.move]
          unfold skip
          split
          · rename_i heq
            simp only [List.cons.injEq, TT.punct.injEq] at heq
            exact (hn sp i sp' r (by rw [heq.1.1, heq.1.2.1]) rfl).elim
          · rename_i heq
            simp only [List.cons.injEq] at heq
            exact heq.2.symm
          · rename_i heq; simp at heq
        | punct c s sp' => simp [TT.move, skip]
        | lit l sp' => simp [TT.move, skip]
        | group d g sp' => simp [TT.move, skip]
    | ident i sp => simp [TT.move, skip]
    | lit l sp => simp [TT.move, skip]
    | group d g sp => simp [TT.move, skip]
  · simp [skip]

theorem peekIdentAny_move (ts : Toks σ) : peekIdentAny (moveToks m ts) = peekIdentAny ts := by
  rw [← peekIdentAny_erase, ← peekIdentAny_erase, eraseToks_move]
theorem peekIdent_move (ts : Toks σ) : peekIdent (moveToks m ts) = peekIdent ts := by
  rw [← peekIdent_erase, ← peekIdent_erase, eraseToks_move]
theorem peekKw_move (kw : Str) (ts : Toks σ) : peekKw kw (moveToks m ts) = peekKw kw ts := by
  rw [← peekKw_erase, ← peekKw_erase, eraseToks_move]
theorem peekPunct_move (c : Char) (ts : Toks σ) : peekPunct c (moveToks m ts) = peekPunct c ts := by
  rw [← peekPunct_erase, ← peekPunct_erase, eraseToks_move]
theorem peekGroup_move (d : Delim) (ts : Toks σ) : peekGroup d (moveToks m ts) = peekGroup d ts := by
  rw [← peekGroup_erase, ← peekGroup_erase, eraseToks_move]
theorem peekPunct2_move (a b : Char) (ts : Toks σ) :
    peekPunct2 a b (moveToks m ts) = peekPunct2 a b ts := by
  rw [← peekPunct2_erase, ← peekPunct2_erase, eraseToks_move]

/-! ### token parsers -/

theorem parseIdentAny_move : MvP m (SIdent.move m) parseIdentAny parseIdentAny := by
  intro sc ts
  rcases ts with _ | ⟨_ | _ | _ | _, ts⟩ <;> rfl

theorem parsePunct_move (c : Char) : MvP m m (parsePunct c) (parsePunct c) := by
  intro sc ts
  rcases ts with _ | ⟨_ | _ | _ | _, ts⟩ <;> try rfl
  rename_i c' s sp
  show Mv m _ (parsePunct c sc (.punct c' s sp :: ts))
    (parsePunct c (m sc) (.punct c' s (m sp) :: moveToks m ts))
  simp only [parsePunct]
  split
  · exact Mv.ret rfl rfl
  · exact Mv.ret rfl (by simp [PR.move, LErr.move, spanAt, TT.openSpan, TT.span, TT.move])

theorem parseKw_move (kw : Str) : MvP m m (parseKw kw) (parseKw kw) := by
  intro sc ts
  rcases ts with _ | ⟨_ | _ | _ | _, ts⟩ <;> try rfl
  rename_i i sp
  show Mv m _ (parseKw kw sc (.ident i sp :: ts)) (parseKw kw (m sc) (.ident i (m sp) :: moveToks m ts))
  simp only [parseKw]
  split
  · exact Mv.ret rfl rfl
  · exact Mv.ret rfl (by simp [PR.move, LErr.move, spanAt, TT.openSpan, TT.span, TT.move])

theorem parseTT_move : MvP m (TT.move m) parseTT parseTT := by
  intro sc ts
  rcases ts with _ | ⟨t, ts⟩
  · exact Mv.ret rfl rfl
  · rw [moveToks_cons]; exact Mv.ret rfl rfl

theorem extractGroup_move (d : Delim) : MvP m (Inner.move m) (extractGroup d) (extractGroup d) := by
  intro sc ts
  rcases ts with _ | ⟨_ | _ | _ | _, ts⟩ <;> try rfl
  rename_i d' inner sp
  show Mv m _ (extractGroup d sc (.group d' inner sp :: ts))
    (extractGroup d (m sc) (.group d' (moveToks m inner) (sp.move m) :: moveToks m ts))
  simp only [extractGroup]
  split
  · exact Mv.ret rfl rfl
  · exact Mv.ret rfl (by simp [PR.move, LErr.move, spanAt, TT.openSpan, TT.move, DelimSpan.move])

/-- Change places. -/
def moveIn {α β : Type} (m : σ → τ) (f : α → β) (r : DelimSpan σ × α) : DelimSpan τ × β :=
  (r.1.move m, f r.2)

theorem inGroup_move {α β : Type} {f : α → β} (d : Delim) {x : P σ α} {y : P τ β}
    (h : MvP m f x y) : MvP m (moveIn m f) (inGroup d x) (inGroup d y) := by
  intro sc ts
  unfold inGroup
  rw [peekGroup_move]
  split
  · refine Mv.bind' (MvP.unwrapP _ (extractGroup_move d) sc ts) fun r => ?_
    cases r with
    | ok inner rest =>
      refine Mv.bind' (h _ _) fun q => ?_
      cases q with
      | ok a left =>
        simp only [PR.move, isEmpty_move]
        split
        · exact Mv.ret rfl rfl
        · refine Mv.ret rfl ?_
          simp only [PR.move, LErr.move, Inner.move, DelimSpan.move, spanAt_move]
      | err e rest => exact Mv.ret rfl rfl
    | err e rest => exact Mv.ret rfl rfl
  · exact Mv.ret rfl (by simp [PR.move, LErr.move, spanAt_move])

variable {pp : Mview.PathParser}

theorem parsePath_move {lp : PathParser σ pp} {lp' : PathParser τ pp} (hl : lp.MovesTo m lp') :
    MvP m (Path.move m) (parsePath lp) (parsePath lp') := by
  intro sc ts
  have h := hl sc ts
  unfold parsePath
  rw [h]
  cases lp.run sc ts with
  | path p rest => exact Mv.ret rfl rfl
  | error sp rest => exact Mv.ret rfl rfl

variable [Spans σ] [Spans τ] [Move m]

theorem joinOr_move (a b : σ) : joinOr (m a) (m b) = m (joinOr a b) := Move.joinOr a b

theorem parseLit_move : MvP m (SLit.move m) parseLit parseLit := by
  intro sc ts
  rcases ts with _ | ⟨_ | ⟨c, s, sp⟩ | _ | _, ts⟩ <;> try rfl
  · rename_i i sp
    show Mv m _ (parseLit sc (.ident i sp :: ts)) (parseLit (m sc) (.ident i (m sp) :: moveToks m ts))
    simp only [parseLit]
    split
    · exact Mv.ret rfl rfl
    · split
      · exact Mv.ret rfl rfl
      · exact Mv.ret rfl (by simp [PR.move, LErr.move, spanAt, TT.openSpan, TT.span, TT.move])
  · by_cases hc : c = '-'
    · subst hc
      rcases ts with _ | ⟨_ | _ | ⟨l, sp'⟩ | _, ts⟩ <;> try rfl
      cases l with
      | int x =>
        show Mv m _ (Out.ret [] (PR.ok (⟨.tok (.int ('-' :: x)), joinOr sp sp'⟩ : SLit σ) ts))
          (Out.ret [] (PR.ok (⟨.tok (.int ('-' :: x)), joinOr (m sp) (m sp')⟩ : SLit τ) (moveToks m ts)))
        exact Mv.ret rfl (by simp [PR.move, SLit.move, joinOr_move])
      | float x =>
        show Mv m _ (Out.ret [] (PR.ok (⟨.tok (.float ('-' :: x)), joinOr sp sp'⟩ : SLit σ) ts))
          (Out.ret [] (PR.ok (⟨.tok (.float ('-' :: x)), joinOr (m sp) (m sp')⟩ : SLit τ) (moveToks m ts)))
        exact Mv.ret rfl (by simp [PR.move, SLit.move, joinOr_move])
      | str x => rfl
      | other x => rfl
    · have h1 : ∀ {ρ : Type} [Spans ρ] (sc sp : ρ) (ts : Toks ρ), parseLit sc (.punct c s sp :: ts) =
          .ret [] (.err ⟨.expectedLit, sp⟩ (.punct c s sp :: ts)) := by
        intro ρ _ sc sp ts
        unfold parseLit
        split <;> simp_all [spanAt, TT.openSpan, TT.span]
      simp only [moveToks_cons, TT.move, h1]
      exact Mv.ret rfl (by simp [PR.move, LErr.move, TT.move])

omit [Move m] in
theorem peekLit_move (ts : Toks σ) : peekLit (moveToks m ts) = peekLit ts := by
  rw [← peekLit_erase, ← peekLit_erase, eraseToks_move]

theorem parseLitInt_move : MvP m (SStr.move m) parseLitInt parseLitInt := by
  refine MvP.bind parseLit_move fun l => ?_
  rcases l with ⟨⟨l⟩ | b, sp⟩
  · cases l <;> first | exact MvP.pure rfl | exact MvP.fail _
  · exact MvP.fail _

theorem parseLitStr_move : MvP m (SStr.move m) parseLitStr parseLitStr := by
  refine MvP.bind parseLit_move fun l => ?_
  rcases l with ⟨⟨l⟩ | b, sp⟩
  · cases l <;> first | exact MvP.pure rfl | exact MvP.fail _
  · exact MvP.fail _

/-! ### identifiers -/

omit [Spans σ] [Spans τ] [Move m] in
theorem newRaw_move {name : Str} {sp : σ} {sp' : τ} (h : m sp = sp') :
    Mv m (SIdent.move m) (newRaw name sp) (newRaw name sp') := by
  unfold newRaw
  split
  · exact Mv.panic _
  · exact Mv.pure (by subst h; rfl)

omit [Spans σ] [Spans τ] [Move m] in
theorem checkSpan_move (k : KebabIdent σ) : Mv m id k.checkSpan (k.move m).checkSpan := by
  unfold KebabIdent.checkSpan
  simp only [KebabIdent.move, List.length_map]
  split
  · exact Mv.panic _
  · exact Mv.pure rfl

@[simp] theorem kebabSpan_move (k : KebabIdent σ) : (k.move m).span = m k.span := by
  rcases k with ⟨r, _ | ⟨s, ss⟩⟩
  · simp [KebabIdent.span, KebabIdent.move, Move.callSite]
  · simp only [KebabIdent.span, KebabIdent.move, List.map_cons, ← joinOr_move]
    congr 1
    rw [← List.getLast_map (f := m)]
    · rfl

theorem toSnakeIdent_move (k : KebabIdent σ) : Mv m (SIdent.move m) k.toSnakeIdent (k.move m).toSnakeIdent :=
  Mv.bind (checkSpan_move k) fun _ => newRaw_move (kebabSpan_move k).symm

theorem toLitStr_move (k : KebabOrStr σ) : Mv m (SStr.move m) k.toLitStr (k.move m).toLitStr := by
  cases k with
  | kebab k => exact Mv.bind (checkSpan_move k) fun _ => Mv.pure (by simp only [SStr.move, kebabSpan_move]; rfl)
  | str s => exact Mv.pure rfl

theorem toIdentOrEmit_move (k : KebabOrStr σ) :
    Mv m (SIdent.move m) k.toIdentOrEmit (k.move m).toIdentOrEmit := by
  cases k with
  | kebab k => exact toSnakeIdent_move k
  | str s => exact Mv.bind (Mv.emit rfl) fun _ => Mv.pure rfl

theorem kebabLoop_move (fuel : Nat) (b : Bool) (k : KebabIdent σ) :
    MvP m (KebabIdent.move m) (kebabLoop fuel b k) (kebabLoop fuel b (k.move m)) := by
  induction fuel generalizing b k with
  | zero => exact MvP.diverge
  | succ fuel ih =>
    unfold kebabLoop
    refine MvP.bind (MvP.rollback (parsePunct_move '-')) fun dash => ?_
    have hs : (Option.map m dash).isSome = dash.isSome := by cases dash <;> rfl
    rw [hs]
    show MvP m _ _ (if (dash.isSome || (b && decide (k.repr = c!"-"))) = true then _ else _)
    split
    · generalize hk : (if dash.isSome = true then { k with repr := k.repr ++ c!"-" } else k) = k'
      have hk' : (if dash.isSome = true then { k.move m with repr := (k.move m).repr ++ c!"-" } else k.move m)
          = k'.move m := by
        rw [← hk]; cases dash <;> rfl
      simp only [hk']
      refine MvP.bind (MvP.rollback parseIdentAny_move) fun i => ?_
      cases i with
      | some i =>
        show MvP m _ (if i.id.raw = true then _ else _) (if i.id.raw = true then _ else _)
        have hn : KebabIdent.move m (⟨k'.repr ++ i.id.name, k'.spans ++ [i.sp]⟩ : KebabIdent σ) =
            ⟨(k'.move m).repr ++ i.id.name, (k'.move m).spans ++ [m i.sp]⟩ := by
          simp [KebabIdent.move]
        split
        · refine MvP.bind (MvP.emitP rfl) fun _ => ?_
          have := ih false ⟨k'.repr ++ i.id.name, k'.spans ++ [i.sp]⟩
          rw [hn] at this
          exact this
        · have := ih false ⟨k'.repr ++ i.id.name, k'.spans ++ [i.sp]⟩
          rw [hn] at this
          exact this
      | none =>
        refine MvP.bind (MvP.rollback parseLitInt_move) fun s => ?_
        cases s with
        | some s =>
          have hn : KebabIdent.move m (⟨k'.repr ++ s.str, k'.spans ++ [s.sp]⟩ : KebabIdent σ) =
              ⟨(k'.move m).repr ++ s.str, (k'.move m).spans ++ [m s.sp]⟩ := by
            simp [KebabIdent.move]
          have := ih false ⟨k'.repr ++ s.str, k'.spans ++ [s.sp]⟩
          rw [hn] at this
          exact this
        | none => exact ih false k'
    · exact MvP.pure rfl

theorem parseKebab_move : MvP m (KebabIdent.move m) parseKebab parseKebab := by
  refine MvP.bind (MvP.rollback parseIdentAny_move) fun i => ?_
  cases i with
  | some i =>
    refine MvP.bind_inp fun ts => ?_
    rw [moveToks_length]
    exact kebabLoop_move _ true ⟨i.id.name, [i.sp]⟩
  | none =>
    refine MvP.bind (MvP.rollback (parsePunct_move '-')) fun dash => ?_
    cases dash with
    | some s =>
      refine MvP.bind_inp fun ts => ?_
      rw [moveToks_length]
      exact kebabLoop_move _ true ⟨c!"-", [s]⟩
    | none => exact MvP.fail _

theorem parseKebabOrStr_move : MvP m (KebabOrStr.move m) parseKebabOrStr parseKebabOrStr := by
  refine MvP.bind (MvP.rollback parseLitStr_move) fun s => ?_
  cases s with
  | some s => exact MvP.pure rfl
  | none => exact MvP.bind parseKebab_move fun k => MvP.pure rfl

theorem parseBracedKebab_move : MvP m (moveIn m (KebabIdent.move m)) parseBracedKebab parseBracedKebab :=
  inGroup_move .brace parseKebab_move

theorem intoBlockValue_move (b : DelimSpan σ × KebabIdent σ) :
    Mv m (Value.move m) (intoBlockValue b) (intoBlockValue (moveIn m (KebabIdent.move m) b)) :=
  Mv.bind (toSnakeIdent_move b.2) fun i =>
    Mv.pure (by simp [Value.move, TT.move, SIdent.move, moveIn])

/-! ### values -/

theorem parseValue_move : MvP m (Value.move m) parseValue parseValue := by
  refine MvP.bind_inp fun ts => ?_
  simp only [peekGroup_move, peekIdentAny_move, skip_move, peekLit_move]
  split
  · exact MvP.bind (MvP.unwrapP _ (extractGroup_move .bracket)) fun g => MvP.pure rfl
  · split
    · refine MvP.bind (MvP.unwrapP _ parseIdentAny_move) fun i => ?_
      exact MvP.bind (MvP.unwrapP _ (extractGroup_move .bracket)) fun g => MvP.pure rfl
    · split
      · exact MvP.bind (MvP.unwrapP _ (extractGroup_move .brace)) fun g => MvP.pure rfl
      · split
        · exact MvP.bind (MvP.unwrapP _ parseLit_move) fun l => MvP.pure rfl
        · exact MvP.fail _

theorem parseValueOrEmit_move (fb : σ) :
    MvP m (Value.move m) (parseValueOrEmit fb) (parseValueOrEmit (m fb)) := by
  refine MvP.bind (MvP.rollback parseValue_move) fun v => ?_
  cases v with
  | some v => exact MvP.pure rfl
  | none =>
    refine MvP.bind_inp fun ts => ?_
    refine MvP.bind_inpSpan fun s => ?_
    simp only [peekIdent_move, isEmpty_move]
    cases isEmpty ts with
    | true => exact MvP.bind (MvP.emitP rfl) fun _ => MvP.pure rfl
    | false => exact MvP.bind (MvP.emitP rfl) fun _ => MvP.pure rfl

@[simp] theorem newTrue_move : (Value.newTrue : Value σ).move m = Value.newTrue := by
  simp [Value.newTrue, Value.move, SLit.move, Move.callSite]

/-! ### attributes -/

theorem parseKv_move : MvP m (KvAttr.move m) parseKv parseKv := by
  refine MvP.bind_inp fun ts => ?_
  rw [peekGroup_move]
  split
  · refine MvP.bind parseBracedKebab_move fun b => ?_
    exact MvP.bind (MvP.liftOut (intoBlockValue_move b)) fun v => MvP.pure rfl
  · refine MvP.bind parseKebab_move fun k => ?_
    refine MvP.bind (MvP.rollback (parsePunct_move '=')) fun eq => ?_
    cases eq with
    | some s => exact MvP.bind (parseValueOrEmit_move s) fun v => MvP.pure rfl
    | none => exact MvP.pure (by simp [KvAttr.move])

omit [Spans σ] [Spans τ] [Move m] in
theorem parseModifier_move : MvP m (Option.map (SIdent.move m)) parseModifier parseModifier := by
  refine MvP.bind (MvP.rollback (parsePunct_move ':')) fun c => ?_
  cases c with
  | some s => exact MvP.bind parseIdentAny_move fun i => MvP.pure rfl
  | none => exact MvP.pure rfl

theorem parseDirective_move : MvP m (Directive.move m) parseDirective parseDirective := by
  refine MvP.bind parseIdentAny_move fun name => ?_
  refine MvP.bind (parsePunct_move ':') fun _ => ?_
  refine MvP.bind_inp fun ts => ?_
  rw [peekGroup_move]
  split
  · refine MvP.bind parseBracedKebab_move fun b => ?_
    refine MvP.bind (MvP.liftOut (intoBlockValue_move b)) fun v => ?_
    exact MvP.bind parseModifier_move fun m => MvP.pure rfl
  · refine MvP.bind parseKebabOrStr_move fun k => ?_
    refine MvP.bind parseModifier_move fun m => ?_
    refine MvP.bind (MvP.rollback (parsePunct_move '=')) fun eq => ?_
    cases eq with
    | some s => exact MvP.bind (parseValueOrEmit_move s) fun v => MvP.pure rfl
    | none => exact MvP.pure rfl

omit [Spans σ] [Spans τ] [Move m] in
theorem spreadParts_move (ts : Toks σ) :
    spreadParts (moveToks m ts) =
      (spreadParts ts).map fun r => ((m r.1.1, m r.1.2), moveToks m r.2) := by
  fun_cases spreadParts ts
  · simp [TT.move, spreadParts]
  · rename_i hn
    rcases ts with _ | ⟨t, ts⟩
    · simp [spreadParts]
    rcases ts with _ | ⟨u, ts⟩
    · cases t <;> simp [spreadParts, TT.move]
    · simp only [moveToks_cons]
      unfold spreadParts
      split
      · rename_i heq
        cases t <;> cases u <;> simp [TT.move] at heq
        obtain ⟨⟨rfl, rfl, rfl⟩, ⟨rfl, rfl, rfl⟩, rfl⟩ := heq
        exact absurd rfl (hn _ _ _ _)
      · rfl

omit [Spans σ] [Spans τ] [Move m] in
theorem parseSpread_move : MvP m (Spread.move m) parseSpread parseSpread := by
  refine MvP.bind (extractGroup_move .brace) fun g => ?_
  show MvP m _ _ (match spreadParts (moveToks m g.toks) with | some (d, e) => _ | none => _)
  rw [spreadParts_move]
  cases spreadParts g.toks with
  | some r => exact MvP.pure rfl
  | none => exact MvP.fail _

omit [Spans σ] [Spans τ] [Move m] in
theorem unwrapOrAbort_move {α β : Type} {f : α → β} {x : P σ α} {y : P τ β} (h : MvP m f x y) :
    MvP m f (unwrapOrAbort x) (unwrapOrAbort y) := fun sc ts =>
  Mv.bind' (h sc ts) fun r => by
    cases r with
    | ok a rest => exact Mv.ret rfl rfl
    | err e rest => exact rfl

theorem parseAttr_move : MvP m (Attr.move m) parseAttr parseAttr := by
  refine MvP.bind_inp fun ts => ?_
  simp only [peekIdentAny_move, skip_move, peekPunct_move, peekIdent_move]
  split
  · exact MvP.bind (unwrapOrAbort_move parseDirective_move) fun d => MvP.pure rfl
  · split
    · exact MvP.bind parseKv_move fun kv => MvP.pure rfl
    · refine MvP.bind (MvP.rollback parseKv_move) fun kv => ?_
      cases kv with
      | some kv => exact MvP.pure rfl
      | none =>
        refine MvP.bind (MvP.rollback parseSpread_move) fun sp => ?_
        cases sp with
        | some e => exact MvP.pure rfl
        | none => exact MvP.fail _

theorem attrsLoop_move (fuel : Nat) (vec : List (Attr σ)) :
    MvP m (List.map (Attr.move m)) (attrsLoop fuel vec) (attrsLoop fuel (vec.map (Attr.move m))) := by
  induction fuel generalizing vec with
  | zero => exact MvP.diverge
  | succ fuel ih =>
    refine MvP.bind (MvP.rollback parseAttr_move) fun a => ?_
    cases a with
    | some a =>
      have := ih (vec ++ [a])
      rw [List.map_append] at this
      exact this
    | none => exact MvP.pure rfl

theorem parseAttrs_move : MvP m (List.map (Attr.move m)) parseAttrs parseAttrs := by
  refine MvP.bind_inp fun ts => ?_
  rw [moveToks_length]
  exact attrsLoop_move _ []

theorem parseSelector_move : MvP m (Selector.move m) parseSelector parseSelector := by
  refine MvP.bind (MvP.rollback (parsePunct_move '.')) fun d => ?_
  cases d with
  | some s => exact MvP.bind parseKebab_move fun k => MvP.pure rfl
  | none =>
    refine MvP.bind (MvP.rollback (parsePunct_move '#')) fun d => ?_
    cases d with
    | some s => exact MvP.bind parseKebab_move fun k => MvP.pure rfl
    | none => exact MvP.fail _

theorem selectorsLoop_move (fuel : Nat) (vec : List (Selector σ)) :
    MvP m (List.map (Selector.move m)) (selectorsLoop fuel vec)
      (selectorsLoop fuel (vec.map (Selector.move m))) := by
  induction fuel generalizing vec with
  | zero => exact MvP.diverge
  | succ fuel ih =>
    refine MvP.bind (MvP.rollback parseSelector_move) fun a => ?_
    cases a with
    | some a =>
      have := ih (vec ++ [a])
      rw [List.map_append] at this
      exact this
    | none => exact MvP.pure rfl

theorem parseSelectors_move : MvP m (List.map (Selector.move m)) parseSelectors parseSelectors := by
  refine MvP.bind_inp fun ts => ?_
  rw [moveToks_length]
  exact selectorsLoop_move _ []

theorem parseTag_move {lp : PathParser σ pp} {lp' : PathParser τ pp} (hl : lp.MovesTo m lp') :
    MvP m (Tag.move m) (parseTag lp) (parseTag lp') := by
  refine MvP.bind_inp fun ts => ?_
  simp only [peekPunct2_move, skip_move, peekPunct_move]
  split
  · exact MvP.bind (parsePath_move hl) fun p => MvP.pure rfl
  · refine MvP.bind parseKebab_move fun k => ?_
    show MvP m _ _ (match TagKind.ofStr k.repr with | .html => _ | .component => _ | .svg => _ | .math => _ | .webComponent => _)
    cases TagKind.ofStr k.repr with
    | html => exact MvP.bind (MvP.liftOut (toSnakeIdent_move k)) fun i => MvP.pure rfl
    | component => exact MvP.bind (MvP.liftOut (toSnakeIdent_move k)) fun i => MvP.pure rfl
    | svg => exact MvP.bind (MvP.liftOut (toSnakeIdent_move k)) fun i => MvP.pure rfl
    | math => exact MvP.bind (MvP.liftOut (toSnakeIdent_move k)) fun i => MvP.pure rfl
    | webComponent => exact MvP.pure rfl

/-! ### elements and children -/

omit [Spans σ] [Spans τ] [Move m] in
theorem closureArgsLoop_move (first : σ) (fuel : Nat) (ts : Toks σ) :
    MvP m (moveToks m) (closureArgsLoop first fuel ts) (closureArgsLoop (m first) fuel (moveToks m ts)) := by
  induction fuel generalizing ts with
  | zero => exact MvP.diverge
  | succ fuel ih =>
    refine MvP.bind (MvP.rollback (parsePunct_move '|')) fun p => ?_
    cases p with
    | some s => exact MvP.pure (by simp [pipeTok, TT.move])
    | none =>
      refine MvP.bind (MvP.rollback parseTT_move) fun t => ?_
      cases t with
      | some t =>
        have := ih (ts ++ [t])
        rw [moveToks_append] at this
        exact this
      | none => exact MvP.failAt rfl

omit [Spans σ] [Spans τ] [Move m] in
theorem parseClosureArgs_move : MvP m (moveToks m) parseClosureArgs parseClosureArgs := by
  refine MvP.bind (parsePunct_move '|') fun s => ?_
  refine MvP.bind_inp fun ts => ?_
  rw [moveToks_length]
  exact closureArgsLoop_move s _ [pipeTok s]

omit [Spans σ] [Spans τ] [Move m] in
theorem PathArgs_toToks_move (a : PathArgs σ) : (a.move m).toToks = moveToks m a.toToks := by
  rcases a with _ | ⟨_ | _, _, _, _⟩ | _ <;>
    simp [PathArgs.toToks, PathArgs.move, tColon2, TT.move, DelimSpan.move, DelimSpan.single]

omit [Spans σ] [Spans τ] [Move m] in
@[simp] theorem tColon2_move (c : σ × σ) : moveToks m (tColon2 c) = tColon2 (m c.1, m c.2) := by
  simp [tColon2, TT.move]

omit [Spans σ] [Spans τ] [Move m] in
theorem segsToks_move (ss : List (PathSeg σ)) :
    segsToks (ss.map (PathSeg.move m)) = moveToks m (segsToks ss) := by
  match ss with
  | [] => simp [segsToks]
  | [s] => simp [segsToks, PathSeg.toToks, PathSeg.move, PathArgs_toToks_move, TT.move, SIdent.move]
  | s :: t :: ss =>
    have ih := segsToks_move (t :: ss)
    simp only [List.map_cons] at ih
    simp [segsToks, PathSeg.toToks, PathSeg.move, PathArgs_toToks_move, TT.move, SIdent.move] at ih ⊢
    rw [ih]

omit [Spans σ] [Spans τ] [Move m] in
@[simp] theorem path_toToks_move (p : Path σ) : (p.move m).toToks = moveToks m p.toToks := by
  rcases p with ⟨_ | _, segs⟩ <;>
    simp [Path.toToks, Path.move, segsToks_move]

@[simp] theorem toksSpan_move (ts : Toks σ) : toksSpan (moveToks m ts) = m (toksSpan ts) := by
  match ts with
  | [] => simp [toksSpan, Move.callSite]
  | [t] => simp [toksSpan, span_move]
  | t :: u :: ts =>
    simp only [toksSpan, moveToks_cons, ← joinOr_move, span_move]
    congr 1
    rw [← span_move (m := m), ← List.getLast_map (f := TT.move m) (by simp)]
    congr 2
    simp [moveToks_eq_map]

@[simp] theorem pathSpan_move (p : Path σ) : (p.move m).span = m p.span := by
  simp [Path.span]

@[simp] theorem tagSpan_move (t : Tag σ) : (t.move m).span = m t.span := by
  cases t <;> simp [Tag.span, Tag.move, SIdent.move]

theorem parse_move {lp : PathParser σ pp} {lp' : PathParser τ pp} (hl : lp.MovesTo m lp') : ∀ fuel,
    MvP m (Element.move m) (elementF lp fuel) (elementF lp' fuel) ∧
    MvP m (Child.move m) (childF lp fuel) (childF lp' fuel) ∧
    MvP m (moveChildren m) (childrenF lp fuel) (childrenF lp' fuel) := by
  intro fuel
  induction fuel with
  | zero =>
    refine ⟨?_, ?_, ?_⟩
    · unfold elementF; exact MvP.diverge
    · unfold childF; exact MvP.diverge
    · unfold childrenF; exact MvP.diverge
  | succ fuel ih =>
    obtain ⟨ihE, ihC, ihL⟩ := ih
    refine ⟨?_, ?_, ?_⟩
    · unfold elementF
      refine MvP.bind (parseTag_move hl) fun tag => ?_
      refine MvP.bind parseSelectors_move fun sels => ?_
      refine MvP.bind parseAttrs_move fun attrs => ?_
      refine MvP.bind (MvP.rollback (parsePunct_move ';')) fun semi => ?_
      cases semi with
      | some s => exact MvP.pure (by simp [Element.move])
      | none =>
        refine MvP.bind_inp fun ts => ?_
        simp only [isEmpty_move, peekGroup_move, peekPunct_move]
        split
        · exact MvP.bind (MvP.emitP (by simp)) fun _ => MvP.pure (by simp [Element.move])
        · split
          · split
            · exact MvP.bind (inGroup_move .brace ihL) fun cs => MvP.pure (by simp [Element.move, moveIn])
            · exact MvP.bind (inGroup_move .paren ihL) fun cs => MvP.pure (by simp [Element.move, moveIn])
          · split
            · refine MvP.bind parseClosureArgs_move fun args => ?_
              refine MvP.bind_inp fun ts => ?_
              simp only [peekGroup_move]
              split
              · exact MvP.bind (inGroup_move .brace ihL) fun cs => MvP.pure (by simp [Element.move, moveIn])
              · split
                · exact MvP.bind (inGroup_move .paren ihL) fun cs => MvP.pure (by simp [Element.move, moveIn])
                · refine MvP.bind_inpSpan fun s => ?_
                  exact MvP.bind (MvP.emitP rfl) fun _ => MvP.pure (by simp [Element.move])
            · refine MvP.bind_inpSpan fun s => ?_
              refine MvP.bind (MvP.emitP rfl) fun _ => ?_
              exact MvP.bind (MvP.emitP (by simp [joinOr_move])) fun _ => MvP.pure (by simp [Element.move])
    · unfold childF
      refine MvP.bind (MvP.rollback parseValue_move) fun v => ?_
      cases v with
      | some v =>
        cases v with
        | lit l =>
          rcases l with ⟨⟨l⟩ | b, sp⟩
          · cases l <;> first
              | exact MvP.pure (by simp [Child.move, Value.move, SLit.move])
              | exact MvP.bind (MvP.emitP rfl) fun _ =>
                  MvP.pure (by simp [Child.move, Value.move, SLit.move, Move.callSite])
          · exact MvP.bind (MvP.emitP rfl) fun _ =>
              MvP.pure (by simp [Child.move, Value.move, SLit.move, Move.callSite])
        | block ts b => exact MvP.pure (by simp [Child.move, Value.move])
        | bracket p ts b => exact MvP.pure (by simp [Child.move, Value.move])
      | none =>
        refine MvP.bind_inp fun ts => ?_
        simp only [peekKw_move, peekPunct_move, skip_move, peekPunct2_move, peekIdentAny_move]
        split
        · refine MvP.bind (MvP.unwrapP _ (parseKw_move _)) fun s => ?_
          refine MvP.bind (MvP.unwrapP _ (parsePunct_move ':')) fun _ => ?_
          exact MvP.bind ihE fun e => MvP.pure (by simp [Child.move])
        · split
          · exact MvP.bind ihE fun e => MvP.pure (by simp [Child.move])
          · exact MvP.fail _
    · unfold childrenF
      intro sc ts
      simp only [isEmpty_move]
      split
      · exact Mv.ret rfl (by simp [PR.move, moveChildren])
      · refine Mv.bind' (ihC sc ts) fun r => ?_
        cases r with
        | ok c rest =>
          refine Mv.bind' (ihL sc rest) fun q => ?_
          cases q with
          | ok cs rest' => exact Mv.ret rfl (by simp [PR.move, moveChildren])
          | err e rest' => exact Mv.ret rfl rfl
        | err e rest =>
          simp only [PR.move, peekPunct_move]
          split
          · refine Mv.bind' (Mv.emit rfl) fun _ => ?_
            refine Mv.bind' (MvP.unwrapP _ (parsePunct_move ';') sc rest) fun q => ?_
            cases q with
            | ok a rest' => exact ihL sc rest'
            | err e rest' => exact Mv.ret rfl rfl
          · refine Mv.bind' (Mv.emit rfl) fun _ => ?_
            exact ihL sc []

/-- Changing places before parsing is changing them afterwards. -/
theorem parseChildren_move {lp : PathParser σ pp} {lp' : PathParser τ pp} (hl : lp.MovesTo m lp')
    (ts : Toks σ) :
    Mv m (PR.move m (moveChildren m)) (parseChildren lp ts) (parseChildren lp' (moveToks m ts)) := by
  have := (parse_move hl (fuelFor (eraseToks ts))).2.2 callSite ts
  rw [Move.callSite (m := m)] at this
  unfold parseChildren
  rw [eraseToks_move]
  exact this

end Mview.Loc
