import Verif.Loc.Expand
/-
Forgetting the spans: the located parsers agree with those of `Verif/Model`.
-/

namespace Mview.Loc
variable {σ : Type}

/-! ### forgetting spans in outcomes and syntax trees -/

/-- Forget the spans of the diagnostics and those of the value. -/
def Out.erase {α β : Type} (f : α → β) : Out σ α → Mview.Out β
  | .ret ds a => .ret (ds.map LDiag.diag) (f a)
  | .abort ds => .abort (ds.map LDiag.diag)
  | .panic p => .panic p
  | .diverge => .diverge

/-- Forget spans. -/
def PR.erase {α β : Type} (f : α → β) : PR σ α → Mview.PR β
  | .ok a rest => .ok (f a) (eraseToks rest)
  | .err e rest => .err e.err (eraseToks rest)

/-- Forget spans. -/
def KebabIdent.erase (k : KebabIdent σ) : Mview.KebabIdent := ⟨k.repr, k.spans.length⟩
/-- Forget spans. -/
def KebabOrStr.erase : KebabOrStr σ → Mview.KebabOrStr
  | .kebab k => .kebab k.erase
  | .str s => .str s.str
/-- Forget spans. -/
def Value.erase : Value σ → Mview.Value
  | .lit l => .lit l.lit
  | .block ts _ => .block (eraseToks ts)
  | .bracket p ts _ => .bracket (p.map SIdent.id) (eraseToks ts)
/-- Forget spans. -/
def Tag.erase : Tag σ → Mview.Tag
  | .html i => .html i.id
  | .component p => .component p.erase
  | .svg i => .svg i.id
  | .math i => .math i.id
  | .webComponent k => .webComponent k.erase
/-- Forget spans. -/
def Selector.erase : Selector σ → Mview.Selector
  | .id _ k => .id k.erase
  | .cls _ k => .cls k.erase
/-- Forget spans. -/
def KvAttr.erase (a : KvAttr σ) : Mview.KvAttr := ⟨a.key.erase, a.value.erase⟩
/-- Forget spans. -/
def Directive.erase (d : Directive σ) : Mview.Directive :=
  ⟨d.dir.id, d.key.erase, d.modifier.map SIdent.id, d.value.map Value.erase⟩
/-- Forget spans. -/
def Attr.erase : Attr σ → Mview.Attr
  | .kv a => .kv a.erase
  | .directive d => .directive d.erase
  | .spread s => .spread (eraseToks s.expr)

mutual
/-- Forget spans. -/
def Element.erase : Element σ → Mview.Element
  | .mk t ss as args none => .mk t.erase (ss.map Selector.erase) (as.map Attr.erase) (args.map eraseToks) none
  | .mk t ss as args (some cs) =>
    .mk t.erase (ss.map Selector.erase) (as.map Attr.erase) (args.map eraseToks) (some (eraseChildren cs))
/-- Forget spans. -/
def Child.erase : Child σ → Mview.Child
  | .value v => .value v.erase
  | .elem e => .elem e.erase
  | .slot _ e => .slot e.erase
/-- Forget spans. -/
def eraseChildren : List (Child σ) → List Mview.Child
  | [] => []
  | c :: cs => c.erase :: eraseChildren cs
end

/-- Forget spans. -/
def MacroResult.erase : MacroResult σ → Mview.MacroResult
  | .tokens ts => .tokens (eraseToks ts)
  | .errors ds dummy => .errors (ds.map LDiag.diag) (eraseToks dummy)
  | .panicked p => .panicked p
  | .hangs => .hangs

/-! ### the relation "equal up to spans" -/

theorem eraseToks_eq_map (ts : Toks σ) : eraseToks ts = ts.map TT.erase := by
  induction ts with
  | nil => simp [eraseToks]
  | cons t ts ih => simp [eraseToks, ih]

@[simp] theorem eraseToks_nil : eraseToks ([] : Toks σ) = [] := by simp [eraseToks]
@[simp] theorem eraseToks_cons (t : TT σ) (ts : Toks σ) :
    eraseToks (t :: ts) = t.erase :: eraseToks ts := by simp [eraseToks]
@[simp] theorem eraseToks_append (xs ys : Toks σ) :
    eraseToks (xs ++ ys) = eraseToks xs ++ eraseToks ys := by simp [eraseToks_eq_map]
@[simp] theorem eraseToks_length (ts : Toks σ) : (eraseToks ts).length = ts.length := by
  simp [eraseToks_eq_map]

/-- `x` is `y` with spans; `f` forgets them in the value. -/
def Er {α β : Type} (f : α → β) (x : Out σ α) (y : Mview.Out β) : Prop := x.erase f = y

theorem Er.ret {α β : Type} {f : α → β} {ds : List (LDiag σ)} {es : List Diag} {a : α} {b : β}
    (hd : ds.map LDiag.diag = es) (h : f a = b) : Er f (.ret ds a) (.ret es b) := by
  subst hd h; rfl

theorem Er.pure {α β : Type} {f : α → β} {a : α} {b : β} (h : f a = b) :
    Er f (Pure.pure a : Out σ α) (Pure.pure b) := Er.ret rfl h

theorem Er.bind' {α β γ δ : Type} {f : α → β} {g : γ → δ} {x : Out σ α} {y : Mview.Out β}
    {k : α → Out σ γ} {l : β → Mview.Out δ} (hx : Er f x y) (hk : ∀ a, Er g (k a) (l (f a))) :
    Er g (Out.bind x k) (Mview.Out.bind y l) := by
  subst hx
  cases x with
  | ret ds a =>
    simp only [Er, Out.bind, Out.erase, Mview.Out.bind]
    have h := hk a
    unfold Er at h
    rw [← h]
    cases k a <;> simp [Out.tell, Out.erase, Mview.Out.tell]
  | abort ds => rfl
  | panic p => rfl
  | diverge => rfl

theorem Er.bind {α β γ δ : Type} {f : α → β} {g : γ → δ} {x : Out σ α} {y : Mview.Out β}
    {k : α → Out σ γ} {l : β → Mview.Out δ} (hx : Er f x y) (hk : ∀ a, Er g (k a) (l (f a))) :
    Er g (x >>= k) (y >>= l) := Er.bind' hx hk

theorem Er.emit (d : Diag) (sp : σ) : Er id (Loc.emit d sp) (Mview.emit d) := rfl
theorem Er.abort {α β : Type} {f : α → β} (d : Diag) (sp : σ) :
    Er f (Loc.abortWith d sp) (Mview.abortWith d) := rfl
theorem Er.panic {α β : Type} {f : α → β} (p : PanicSite) :
    Er f (.panic p : Out σ α) (.panic p) := rfl

/-- The parser `lp` is `p` with spans. -/
def ErP {α β : Type} (f : α → β) (lp : P σ α) (p : Mview.P β) : Prop :=
  ∀ sc ts, Er (PR.erase f) (lp sc ts) (p (eraseToks ts))

theorem ErP.pure {α β : Type} {f : α → β} {a : α} {b : β} (h : f a = b) :
    ErP f (Pure.pure a : P σ α) (Pure.pure b) := fun _ _ => Er.ret rfl (by subst h; rfl)

theorem ErP.bind {α β γ δ : Type} {f : α → β} {g : γ → δ} {x : P σ α} {y : Mview.P β}
    {k : α → P σ γ} {l : β → Mview.P δ} (hx : ErP f x y) (hk : ∀ a, ErP g (k a) (l (f a))) :
    ErP g (x >>= k) (y >>= l) := by
  intro sc ts
  refine Er.bind' (hx sc ts) fun r => ?_
  cases r with
  | ok a rest => exact hk a sc rest
  | err e rest => exact Er.ret rfl rfl

/-- As `ErP.bind`, with the plain parser returning nothing of interest. -/
theorem ErP.bind_inp {γ δ : Type} {g : γ → δ}
    {k : Toks σ → P σ γ} {l : Mview.Toks → Mview.P δ} (hk : ∀ ts, ErP g (k ts) (l (eraseToks ts))) :
    ErP g (Loc.inp >>= k) (Mview.inp >>= l) :=
  ErP.bind (f := eraseToks) (fun _ _ => Er.ret rfl rfl) hk

/-- Taking the position of the stream changes nothing. -/
theorem ErP.bind_inpSpan {γ δ : Type} {g : γ → δ} {k : σ → P σ γ} {p : Mview.P δ}
    (hk : ∀ s, ErP g (k s) p) : ErP g (Loc.inpSpan >>= k) p := by
  intro sc ts
  have h := hk (spanAt sc ts) sc ts
  have e : (inpSpan >>= k) sc ts = (k (spanAt sc ts) sc ts).tell [] := rfl
  rw [e]
  cases h' : k (spanAt sc ts) sc ts <;> rw [h'] at h <;> exact h

theorem ErP.fail {α β : Type} {f : α → β} (e : Err) :
    ErP f (Loc.fail e : P σ α) (Mview.fail e) := fun _ _ => Er.ret rfl rfl
theorem ErP.failAt {α β : Type} {f : α → β} (e : Err) (sp : σ) :
    ErP f (Loc.failAt e sp : P σ α) (Mview.fail e) := fun _ _ => Er.ret rfl rfl

theorem ErP.liftOut {α β : Type} {f : α → β} {x : Out σ α} {y : Mview.Out β} (h : Er f x y) :
    ErP f (Loc.liftOut x) (Mview.liftOut y) := fun _ _ =>
  Er.bind' h fun _ => Er.ret rfl rfl

theorem ErP.emitP (d : Diag) (sp : σ) : ErP id (Loc.emitP d sp) (Mview.emitP d) :=
  ErP.liftOut (Er.emit d sp)

theorem ErP.unwrapP {α β : Type} {f : α → β} {x : P σ α} {y : Mview.P β} (site : PanicSite)
    (h : ErP f x y) : ErP f (Loc.unwrapP site x) (Mview.unwrapP site y) := fun sc ts =>
  Er.bind' (h sc ts) fun r => by
    cases r with
    | ok a rest => exact Er.ret rfl rfl
    | err e rest => exact Er.panic _

theorem ErP.rollback {α β : Type} {f : α → β} {x : P σ α} {y : Mview.P β} (h : ErP f x y) :
    ErP (Option.map f) (Loc.rollback x) (Mview.rollback y) := fun sc ts =>
  Er.bind' (h sc ts) fun r => by
    cases r with
    | ok a rest => exact Er.ret rfl rfl
    | err e rest => exact Er.ret rfl rfl

theorem ErP.diverge {α β : Type} {f : α → β} :
    ErP f (fun _ _ => .diverge : P σ α) (fun _ => .diverge) := fun _ _ => rfl

/-! ### peeking -/

@[simp] theorem isEmpty_erase (ts : Toks σ) : Mview.isEmpty (eraseToks ts) = isEmpty ts := by
  cases ts <;> simp [Mview.isEmpty, isEmpty]

theorem skip_erase (ts : Toks σ) : Mview.skip (eraseToks ts) = eraseToks (skip ts) := by
  fun_cases skip ts
  · rfl
  · rename_i t r hn
    cases t with
    | punct c s sp =>
      cases r with
      | nil => simp [TT.erase, Mview.skip]
      | cons u r =>
        cases u with
        | ident i sp' =>
          simp only [eraseToks_cons, TT.erase]
          unfold Mview.skip
          split
          · rename_i heq
            simp only [List.cons.injEq, Mview.TT.punct.injEq] at heq
            exact (hn sp i sp' r (by rw [heq.1.1, heq.1.2]) rfl).elim
          · rename_i heq
            simp only [List.cons.injEq] at heq
            exact heq.2.symm
          · rename_i heq; simp at heq
        | punct c s sp' => simp [TT.erase, Mview.skip]
        | lit l sp' => simp [TT.erase, Mview.skip]
        | group d g sp' => simp [TT.erase, Mview.skip]
    | ident i sp => simp [TT.erase, Mview.skip]
    | lit l sp => simp [TT.erase, Mview.skip]
    | group d g sp => simp [TT.erase, Mview.skip]
  · rfl

theorem peekIdentAny_erase (ts : Toks σ) : Mview.peekIdentAny (eraseToks ts) = peekIdentAny ts := by
  rcases ts with _ | ⟨_ | _ | _ | _, ts⟩ <;> rfl
theorem peekIdent_erase (ts : Toks σ) : Mview.peekIdent (eraseToks ts) = peekIdent ts := by
  rcases ts with _ | ⟨_ | _ | _ | _, ts⟩ <;> rfl
theorem peekKw_erase (kw : Str) (ts : Toks σ) : Mview.peekKw kw (eraseToks ts) = peekKw kw ts := by
  rcases ts with _ | ⟨_ | _ | _ | _, ts⟩ <;> rfl
theorem peekPunct_erase (c : Char) (ts : Toks σ) :
    Mview.peekPunct c (eraseToks ts) = peekPunct c ts := by
  rcases ts with _ | ⟨_ | _ | _ | _, ts⟩ <;> rfl
theorem peekGroup_erase (d : Delim) (ts : Toks σ) :
    Mview.peekGroup d (eraseToks ts) = peekGroup d ts := by
  rcases ts with _ | ⟨_ | _ | _ | _, ts⟩ <;> rfl
theorem peekPunct2_erase (a b : Char) (ts : Toks σ) :
    Mview.peekPunct2 a b (eraseToks ts) = peekPunct2 a b ts := by
  rcases ts with _ | ⟨_ | ⟨_, _ | _, _⟩ | _ | _, _ | ⟨_ | _ | _ | _, ts⟩⟩ <;> rfl

/-! ### token parsers -/

theorem parseIdentAny_erase : ErP SIdent.id (parseIdentAny (σ := σ)) Mview.parseIdentAny := by
  intro sc ts
  rcases ts with _ | ⟨_ | _ | _ | _, ts⟩ <;> rfl

theorem parsePunct_erase (c : Char) :
    ErP (fun _ => ()) (parsePunct (σ := σ) c) (Mview.parsePunct c) := by
  intro sc ts
  rcases ts with _ | ⟨_ | _ | _ | _, ts⟩ <;> try rfl
  rename_i c' s sp
  show Er _ (parsePunct c sc (.punct c' s sp :: ts)) (Mview.parsePunct c (.punct c' s :: eraseToks ts))
  simp only [parsePunct, Mview.parsePunct]
  split
  · exact Er.ret rfl rfl
  · exact Er.ret rfl rfl

theorem parseKw_erase (kw : Str) :
    ErP (fun _ => ()) (parseKw (σ := σ) kw) (Mview.parseKw kw) := by
  intro sc ts
  rcases ts with _ | ⟨_ | _ | _ | _, ts⟩ <;> try rfl
  rename_i i sp
  show Er _ (parseKw kw sc (.ident i sp :: ts)) (Mview.parseKw kw (.ident i :: eraseToks ts))
  have e : parseKw kw sc (.ident i sp :: ts) = if i = ⟨false, kw⟩ then .ret [] (.ok sp ts)
      else .ret [] (.err ⟨.expectedIdent, sp⟩ (.ident i sp :: ts)) := rfl
  rw [e]
  unfold Mview.parseKw
  by_cases h : i = ⟨false, kw⟩
  · have h' : Mview.peekKw kw (.ident i :: eraseToks ts) = true := decide_eq_true h
    rw [h', if_pos rfl, if_pos h]; exact Er.ret rfl rfl
  · have h' : Mview.peekKw kw (.ident i :: eraseToks ts) = false := decide_eq_false h
    rw [if_neg h, h', if_neg Bool.false_ne_true]; exact Er.ret rfl rfl

theorem parseTT_erase : ErP TT.erase (parseTT (σ := σ)) Mview.parseTT := by
  intro sc ts
  rcases ts with _ | ⟨t, ts⟩ <;> exact Er.ret rfl rfl

theorem extractGroup_erase (d : Delim) :
    ErP (fun i : Inner σ => eraseToks i.toks) (extractGroup d) (Mview.extractGroup d) := by
  intro sc ts
  rcases ts with _ | ⟨_ | _ | _ | _, ts⟩ <;> try rfl
  rename_i d' inner sp
  show Er _ (extractGroup d sc (.group d' inner sp :: ts))
    (Mview.extractGroup d (.group d' (eraseToks inner) :: eraseToks ts))
  simp only [extractGroup, Mview.extractGroup]
  split
  · exact Er.ret rfl rfl
  · exact Er.ret rfl rfl

theorem inGroup_erase {α β : Type} {f : α → β} (d : Delim) {x : P σ α} {y : Mview.P β}
    (h : ErP f x y) : ErP (fun r => f r.2) (inGroup d x) (Mview.inGroup d y) := by
  intro sc ts
  unfold inGroup Mview.inGroup
  rw [peekGroup_erase]
  split
  · refine Er.bind' (ErP.unwrapP _ (extractGroup_erase d) sc ts) fun r => ?_
    cases r with
    | ok inner rest =>
      refine Er.bind' (h _ _) fun q => ?_
      cases q with
      | ok a left =>
        simp only [PR.erase, isEmpty_erase]
        split
        · exact Er.ret rfl rfl
        · exact Er.ret rfl rfl
      | err e rest => exact Er.ret rfl rfl
    | err e rest => exact Er.ret rfl rfl
  · exact Er.ret rfl rfl

variable {pp : Mview.PathParser}

theorem parsePath_erase (lp : PathParser σ pp) : ErP Path.erase (parsePath lp) (Mview.parsePath pp) := by
  intro sc ts
  have h := lp.erases sc ts
  unfold parsePath Mview.parsePath
  cases hr : lp.run sc ts with
  | path p rest =>
    rw [hr] at h
    rw [← h]
    exact Er.ret rfl rfl
  | error sp rest =>
    rw [hr] at h
    rw [← h]
    exact Er.ret rfl rfl

variable [Spans σ]

theorem parseLit_erase : ErP SLit.lit (parseLit (σ := σ)) Mview.parseLit := by
  intro sc ts
  rcases ts with _ | ⟨_ | ⟨c, s, sp⟩ | _ | _, ts⟩ <;> try rfl
  · rename_i i sp
    show Er _ (parseLit sc (.ident i sp :: ts)) (Mview.parseLit (.ident i :: eraseToks ts))
    simp only [parseLit, Mview.parseLit]
    split
    · exact Er.ret rfl rfl
    · split
      · exact Er.ret rfl rfl
      · exact Er.ret rfl rfl
  · by_cases hc : c = '-'
    · subst hc
      rcases ts with _ | ⟨_ | _ | ⟨l, sp'⟩ | _, ts⟩ <;> try rfl
      cases l <;> rfl
    · have h1 : parseLit sc (.punct c s sp :: ts) =
          .ret [] (.err ⟨.expectedLit, sp⟩ (.punct c s sp :: ts)) := by
        unfold parseLit
        split <;> simp_all [spanAt, TT.openSpan, TT.span]
      have h2 : Mview.parseLit (eraseToks (.punct c s sp :: ts)) =
          .ret [] (.err .expectedLit (eraseToks (.punct c s sp :: ts))) := by
        simp only [eraseToks_cons, TT.erase]
        unfold Mview.parseLit
        split <;> simp_all
      rw [h1, h2]
      exact Er.ret rfl rfl

theorem peekLit_erase (ts : Toks σ) : Mview.peekLit (eraseToks ts) = peekLit ts := by
  have h : (parseLit callSite ts).erase (PR.erase SLit.lit) = _ := parseLit_erase callSite ts
  unfold Mview.peekLit peekLit
  rw [← h]
  cases parseLit callSite ts with
  | ret ds r => cases r <;> rfl
  | abort ds => rfl
  | panic p => rfl
  | diverge => rfl

theorem parseLitInt_erase : ErP SStr.str (parseLitInt (σ := σ)) Mview.parseLitInt := by
  refine ErP.bind parseLit_erase fun l => ?_
  rcases l with ⟨⟨l⟩ | b, sp⟩
  · cases l <;> first | exact ErP.pure rfl | exact ErP.fail _
  · exact ErP.fail _

theorem parseLitStr_erase : ErP SStr.str (parseLitStr (σ := σ)) Mview.parseLitStr := by
  refine ErP.bind parseLit_erase fun l => ?_
  rcases l with ⟨⟨l⟩ | b, sp⟩
  · cases l <;> first | exact ErP.pure rfl | exact ErP.fail _
  · exact ErP.fail _

/-! ### identifiers -/

omit [Spans σ] in
theorem newRaw_erase (name : Str) (sp : σ) : Er SIdent.id (newRaw name sp) (Mview.newRaw name) := by
  unfold newRaw Mview.newRaw
  split
  · exact Er.panic _
  · exact Er.pure rfl

omit [Spans σ] in
theorem checkSpan_erase (k : KebabIdent σ) : Er id k.checkSpan k.erase.checkSpan := by
  unfold KebabIdent.checkSpan Mview.KebabIdent.checkSpan
  show Er id _ (if k.spans.length = 0 then _ else _)
  split
  · exact Er.panic _
  · exact Er.pure rfl

theorem toSnakeIdent_erase (k : KebabIdent σ) : Er SIdent.id k.toSnakeIdent k.erase.toSnakeIdent :=
  Er.bind (checkSpan_erase k) fun _ => newRaw_erase _ _

theorem toLitStr_erase (k : KebabOrStr σ) : Er SStr.str k.toLitStr k.erase.toLitStr := by
  cases k with
  | kebab k => exact Er.bind (checkSpan_erase k) fun _ => Er.pure rfl
  | str s => exact Er.pure rfl

theorem toIdentOrEmit_erase (k : KebabOrStr σ) :
    Er SIdent.id k.toIdentOrEmit k.erase.toIdentOrEmit := by
  cases k with
  | kebab k => exact toSnakeIdent_erase k
  | str s => exact Er.bind (Er.emit _ _) fun _ => Er.pure rfl

theorem kebabLoop_erase (fuel : Nat) (b : Bool) (k : KebabIdent σ) :
    ErP KebabIdent.erase (kebabLoop fuel b k) (Mview.kebabLoop fuel b k.erase) := by
  induction fuel generalizing b k with
  | zero => exact ErP.diverge
  | succ fuel ih =>
    unfold kebabLoop Mview.kebabLoop
    refine ErP.bind (ErP.rollback (parsePunct_erase '-')) fun dash => ?_
    have hs : (Option.map (fun _ => ()) dash).isSome = dash.isSome := by cases dash <;> rfl
    rw [hs]
    show ErP _ _ (if (dash.isSome || (b && decide (k.repr = c!"-"))) = true then _ else _)
    split
    · generalize hk : (if dash.isSome = true then { k with repr := k.repr ++ c!"-" } else k) = k'
      have hk' : (if dash.isSome = true then { k.erase with repr := k.erase.repr ++ c!"-" } else k.erase)
          = k'.erase := by
        rw [← hk]; cases dash <;> rfl
      simp only [hk']
      refine ErP.bind (ErP.rollback parseIdentAny_erase) fun i => ?_
      cases i with
      | some i =>
        show ErP _ (if i.id.raw = true then _ else _) (if i.id.raw = true then _ else _)
        have hn : KebabIdent.erase (⟨k'.repr ++ i.id.name, k'.spans ++ [i.sp]⟩ : KebabIdent σ) =
            ⟨k'.erase.repr ++ i.id.name, k'.erase.spans + 1⟩ := by
          simp [KebabIdent.erase]
        split
        · refine ErP.bind (ErP.emitP _ _) fun _ => ?_
          have := ih false ⟨k'.repr ++ i.id.name, k'.spans ++ [i.sp]⟩
          rw [hn] at this
          exact this
        · have := ih false ⟨k'.repr ++ i.id.name, k'.spans ++ [i.sp]⟩
          rw [hn] at this
          exact this
      | none =>
        refine ErP.bind (ErP.rollback parseLitInt_erase) fun s => ?_
        cases s with
        | some s =>
          have hn : KebabIdent.erase (⟨k'.repr ++ s.str, k'.spans ++ [s.sp]⟩ : KebabIdent σ) =
              ⟨k'.erase.repr ++ s.str, k'.erase.spans + 1⟩ := by
            simp [KebabIdent.erase]
          have := ih false ⟨k'.repr ++ s.str, k'.spans ++ [s.sp]⟩
          rw [hn] at this
          exact this
        | none => exact ih false k'
    · exact ErP.pure rfl

theorem parseKebab_erase : ErP KebabIdent.erase (parseKebab (σ := σ)) Mview.parseKebab := by
  refine ErP.bind (ErP.rollback parseIdentAny_erase) fun i => ?_
  cases i with
  | some i =>
    refine ErP.bind_inp fun ts => ?_
    rw [eraseToks_length]
    exact kebabLoop_erase _ true ⟨i.id.name, [i.sp]⟩
  | none =>
    refine ErP.bind (ErP.rollback (parsePunct_erase '-')) fun dash => ?_
    cases dash with
    | some s =>
      refine ErP.bind_inp fun ts => ?_
      rw [eraseToks_length]
      exact kebabLoop_erase _ true ⟨c!"-", [s]⟩
    | none => exact ErP.fail _

theorem parseKebabOrStr_erase :
    ErP KebabOrStr.erase (parseKebabOrStr (σ := σ)) Mview.parseKebabOrStr := by
  refine ErP.bind (ErP.rollback parseLitStr_erase) fun s => ?_
  cases s with
  | some s => exact ErP.pure rfl
  | none => exact ErP.bind parseKebab_erase fun k => ErP.pure rfl

theorem parseBracedKebab_erase :
    ErP (fun b => b.2.erase) (parseBracedKebab (σ := σ)) Mview.parseBracedKebab :=
  inGroup_erase .brace parseKebab_erase

theorem intoBlockValue_erase (b : DelimSpan σ × KebabIdent σ) :
    Er Value.erase (intoBlockValue b) (Mview.intoBlockValue b.2.erase) :=
  Er.bind (toSnakeIdent_erase b.2) fun i => Er.pure (by simp [Value.erase, TT.erase])

/-! ### values -/

theorem parseValue_erase : ErP Value.erase (parseValue (σ := σ)) Mview.parseValue := by
  refine ErP.bind_inp fun ts => ?_
  simp only [peekGroup_erase, peekIdentAny_erase, skip_erase, peekLit_erase]
  split
  · exact ErP.bind (ErP.unwrapP _ (extractGroup_erase .bracket)) fun g => ErP.pure rfl
  · split
    · refine ErP.bind (ErP.unwrapP _ parseIdentAny_erase) fun i => ?_
      exact ErP.bind (ErP.unwrapP _ (extractGroup_erase .bracket)) fun g => ErP.pure rfl
    · split
      · exact ErP.bind (ErP.unwrapP _ (extractGroup_erase .brace)) fun g => ErP.pure rfl
      · split
        · exact ErP.bind (ErP.unwrapP _ parseLit_erase) fun l => ErP.pure rfl
        · exact ErP.fail _

theorem parseValueOrEmit_erase (fb : σ) :
    ErP Value.erase (parseValueOrEmit fb) Mview.parseValueOrEmit := by
  refine ErP.bind (ErP.rollback parseValue_erase) fun v => ?_
  cases v with
  | some v => exact ErP.pure rfl
  | none =>
    refine ErP.bind_inp fun ts => ?_
    refine ErP.bind_inpSpan fun s => ?_
    rw [peekIdent_erase]
    refine ErP.bind (ErP.emitP _ _) fun _ => ErP.pure ?_
    rfl

/-! ### attributes -/

theorem parseKv_erase : ErP KvAttr.erase (parseKv (σ := σ)) Mview.parseKv := by
  refine ErP.bind_inp fun ts => ?_
  rw [peekGroup_erase]
  split
  · refine ErP.bind parseBracedKebab_erase fun b => ?_
    exact ErP.bind (ErP.liftOut (intoBlockValue_erase b)) fun v => ErP.pure rfl
  · refine ErP.bind parseKebab_erase fun k => ?_
    refine ErP.bind (ErP.rollback (parsePunct_erase '=')) fun eq => ?_
    cases eq with
    | some s => exact ErP.bind (parseValueOrEmit_erase s) fun v => ErP.pure rfl
    | none => exact ErP.pure rfl

omit [Spans σ] in
theorem parseModifier_erase :
    ErP (Option.map SIdent.id) (parseModifier (σ := σ)) Mview.parseModifier := by
  refine ErP.bind (ErP.rollback (parsePunct_erase ':')) fun c => ?_
  cases c with
  | some s => exact ErP.bind parseIdentAny_erase fun i => ErP.pure rfl
  | none => exact ErP.pure rfl

theorem parseDirective_erase : ErP Directive.erase (parseDirective (σ := σ)) Mview.parseDirective := by
  refine ErP.bind parseIdentAny_erase fun name => ?_
  refine ErP.bind (parsePunct_erase ':') fun _ => ?_
  refine ErP.bind_inp fun ts => ?_
  rw [peekGroup_erase]
  split
  · refine ErP.bind parseBracedKebab_erase fun b => ?_
    refine ErP.bind (ErP.liftOut (intoBlockValue_erase b)) fun v => ?_
    exact ErP.bind parseModifier_erase fun m => ErP.pure rfl
  · refine ErP.bind parseKebabOrStr_erase fun k => ?_
    refine ErP.bind parseModifier_erase fun m => ?_
    refine ErP.bind (ErP.rollback (parsePunct_erase '=')) fun eq => ?_
    cases eq with
    | some s => exact ErP.bind (parseValueOrEmit_erase s) fun v => ErP.pure rfl
    | none => exact ErP.pure rfl

omit [Spans σ] in
theorem spreadParts_erase (ts : Toks σ) :
    (spreadParts ts).map (fun r => eraseToks r.2) =
      if Mview.peekPunct2 '.' '.' (eraseToks ts) then some ((eraseToks ts).drop 2) else none := by
  rw [peekPunct2_erase]
  by_cases h : peekPunct2 '.' '.' ts = true
  · rw [if_pos h]
    unfold peekPunct2 at h
    split at h
    · simp only [Bool.and_eq_true, decide_eq_true_eq] at h
      obtain ⟨rfl, rfl⟩ := h
      rfl
    · simp at h
  · rw [if_neg h]
    unfold spreadParts
    split
    · exact absurd rfl h
    · rfl

omit [Spans σ] in
theorem parseSpread_erase :
    ErP (fun s => eraseToks s.expr) (parseSpread (σ := σ)) Mview.parseSpread := by
  refine ErP.bind (extractGroup_erase .brace) fun g => ?_
  have h := spreadParts_erase g.toks
  cases hs : spreadParts g.toks with
  | some r =>
    rw [hs] at h
    split at h
    · rename_i hp
      rw [if_pos hp]
      refine ErP.pure ?_
      simpa using h
    · simp at h
  | none =>
    rw [hs] at h
    split at h
    · simp at h
    · rename_i hp
      rw [if_neg hp]
      exact ErP.fail _

omit [Spans σ] in
theorem unwrapOrAbort_erase {α β : Type} {f : α → β} {x : P σ α} {y : Mview.P β} (h : ErP f x y) :
    ErP f (unwrapOrAbort x) (Mview.unwrapOrAbort y) := fun sc ts =>
  Er.bind' (h sc ts) fun r => by
    cases r with
    | ok a rest => exact Er.ret rfl rfl
    | err e rest => exact rfl

theorem parseAttr_erase : ErP Attr.erase (parseAttr (σ := σ)) Mview.parseAttr := by
  refine ErP.bind_inp fun ts => ?_
  simp only [peekIdentAny_erase, skip_erase, peekPunct_erase, peekIdent_erase]
  split
  · exact ErP.bind (unwrapOrAbort_erase parseDirective_erase) fun d => ErP.pure rfl
  · split
    · exact ErP.bind parseKv_erase fun kv => ErP.pure rfl
    · refine ErP.bind (ErP.rollback parseKv_erase) fun kv => ?_
      cases kv with
      | some kv => exact ErP.pure rfl
      | none =>
        refine ErP.bind (ErP.rollback parseSpread_erase) fun sp => ?_
        cases sp with
        | some e => exact ErP.pure rfl
        | none => exact ErP.fail _

theorem attrsLoop_erase (fuel : Nat) (vec : List (Attr σ)) :
    ErP (List.map Attr.erase) (attrsLoop fuel vec) (Mview.attrsLoop fuel (vec.map Attr.erase)) := by
  induction fuel generalizing vec with
  | zero => exact ErP.diverge
  | succ fuel ih =>
    refine ErP.bind (ErP.rollback parseAttr_erase) fun a => ?_
    cases a with
    | some a =>
      have := ih (vec ++ [a])
      rw [List.map_append] at this
      exact this
    | none => exact ErP.pure rfl

theorem parseAttrs_erase : ErP (List.map Attr.erase) (parseAttrs (σ := σ)) Mview.parseAttrs := by
  refine ErP.bind_inp fun ts => ?_
  rw [eraseToks_length]
  exact attrsLoop_erase _ []

theorem parseSelector_erase : ErP Selector.erase (parseSelector (σ := σ)) Mview.parseSelector := by
  refine ErP.bind (ErP.rollback (parsePunct_erase '.')) fun d => ?_
  cases d with
  | some s => exact ErP.bind parseKebab_erase fun k => ErP.pure rfl
  | none =>
    refine ErP.bind (ErP.rollback (parsePunct_erase '#')) fun d => ?_
    cases d with
    | some s => exact ErP.bind parseKebab_erase fun k => ErP.pure rfl
    | none => exact ErP.fail _

theorem selectorsLoop_erase (fuel : Nat) (vec : List (Selector σ)) :
    ErP (List.map Selector.erase) (selectorsLoop fuel vec)
      (Mview.selectorsLoop fuel (vec.map Selector.erase)) := by
  induction fuel generalizing vec with
  | zero => exact ErP.diverge
  | succ fuel ih =>
    refine ErP.bind (ErP.rollback parseSelector_erase) fun a => ?_
    cases a with
    | some a =>
      have := ih (vec ++ [a])
      rw [List.map_append] at this
      exact this
    | none => exact ErP.pure rfl

theorem parseSelectors_erase :
    ErP (List.map Selector.erase) (parseSelectors (σ := σ)) Mview.parseSelectors := by
  refine ErP.bind_inp fun ts => ?_
  rw [eraseToks_length]
  exact selectorsLoop_erase _ []

theorem parseTag_erase (lp : PathParser σ pp) : ErP Tag.erase (parseTag lp) (Mview.parseTag pp) := by
  refine ErP.bind_inp fun ts => ?_
  simp only [peekPunct2_erase, skip_erase, peekPunct_erase]
  split
  · exact ErP.bind (parsePath_erase lp) fun p => ErP.pure rfl
  · refine ErP.bind parseKebab_erase fun k => ?_
    show ErP _ _ (match TagKind.ofStr k.repr with | .html => _ | .component => _ | .svg => _ | .math => _ | .webComponent => _)
    cases TagKind.ofStr k.repr with
    | html => exact ErP.bind (ErP.liftOut (toSnakeIdent_erase k)) fun i => ErP.pure rfl
    | component => exact ErP.bind (ErP.liftOut (toSnakeIdent_erase k)) fun i => ErP.pure rfl
    | svg => exact ErP.bind (ErP.liftOut (toSnakeIdent_erase k)) fun i => ErP.pure rfl
    | math => exact ErP.bind (ErP.liftOut (toSnakeIdent_erase k)) fun i => ErP.pure rfl
    | webComponent => exact ErP.pure rfl

/-! ### elements and children -/

omit [Spans σ] in
theorem closureArgsLoop_erase (first : σ) (fuel : Nat) (ts : Toks σ) :
    ErP eraseToks (closureArgsLoop first fuel ts) (Mview.closureArgsLoop fuel (eraseToks ts)) := by
  induction fuel generalizing ts with
  | zero => exact ErP.diverge
  | succ fuel ih =>
    refine ErP.bind (ErP.rollback (parsePunct_erase '|')) fun p => ?_
    cases p with
    | some s => exact ErP.pure (by simp [pipeTok, TT.erase, Mview.pipeTok])
    | none =>
      refine ErP.bind (ErP.rollback parseTT_erase) fun t => ?_
      cases t with
      | some t =>
        have := ih (ts ++ [t])
        rw [eraseToks_append] at this
        exact this
      | none => exact ErP.failAt _ _

omit [Spans σ] in
theorem parseClosureArgs_erase : ErP eraseToks (parseClosureArgs (σ := σ)) Mview.parseClosureArgs := by
  refine ErP.bind (parsePunct_erase '|') fun s => ?_
  refine ErP.bind_inp fun ts => ?_
  rw [eraseToks_length]
  exact closureArgsLoop_erase s _ [pipeTok s]

theorem parse_erase (lp : PathParser σ pp) : ∀ fuel,
    ErP Element.erase (elementF lp fuel) (Mview.elementF pp fuel) ∧
    ErP Child.erase (childF lp fuel) (Mview.childF pp fuel) ∧
    ErP eraseChildren (childrenF lp fuel) (Mview.childrenF pp fuel) := by
  intro fuel
  induction fuel with
  | zero =>
    refine ⟨?_, ?_, ?_⟩
    · unfold elementF Mview.elementF; exact ErP.diverge
    · unfold childF Mview.childF; exact ErP.diverge
    · unfold childrenF Mview.childrenF; exact ErP.diverge
  | succ fuel ih =>
    obtain ⟨ihE, ihC, ihL⟩ := ih
    refine ⟨?_, ?_, ?_⟩
    · unfold elementF Mview.elementF
      refine ErP.bind (parseTag_erase lp) fun tag => ?_
      refine ErP.bind parseSelectors_erase fun sels => ?_
      refine ErP.bind parseAttrs_erase fun attrs => ?_
      refine ErP.bind (ErP.rollback (parsePunct_erase ';')) fun semi => ?_
      cases semi with
      | some s => exact ErP.pure (by simp [Element.erase])
      | none =>
        refine ErP.bind_inp fun ts => ?_
        simp only [isEmpty_erase, peekGroup_erase, peekPunct_erase]
        split
        · exact ErP.bind (ErP.emitP _ _) fun _ => ErP.pure (by simp [Element.erase])
        · split
          · split
            · exact ErP.bind (inGroup_erase .brace ihL) fun cs => ErP.pure (by simp [Element.erase])
            · exact ErP.bind (inGroup_erase .paren ihL) fun cs => ErP.pure (by simp [Element.erase])
          · split
            · refine ErP.bind parseClosureArgs_erase fun args => ?_
              refine ErP.bind_inp fun ts => ?_
              simp only [peekGroup_erase]
              split
              · exact ErP.bind (inGroup_erase .brace ihL) fun cs => ErP.pure (by simp [Element.erase])
              · split
                · exact ErP.bind (inGroup_erase .paren ihL) fun cs => ErP.pure (by simp [Element.erase])
                · refine ErP.bind_inpSpan fun s => ?_
                  exact ErP.bind (ErP.emitP _ _) fun _ => ErP.pure (by simp [Element.erase])
            · refine ErP.bind_inpSpan fun s => ?_
              refine ErP.bind (ErP.emitP _ _) fun _ => ?_
              exact ErP.bind (ErP.emitP _ _) fun _ => ErP.pure (by simp [Element.erase])
    · unfold childF Mview.childF
      refine ErP.bind (ErP.rollback parseValue_erase) fun v => ?_
      cases v with
      | some v =>
        cases v with
        | lit l =>
          rcases l with ⟨⟨l⟩ | b, sp⟩
          · cases l <;> first
              | exact ErP.pure (by simp [Child.erase, Value.erase])
              | exact ErP.bind (ErP.emitP _ _) fun _ => ErP.pure (by simp [Child.erase, Value.erase])
          · exact ErP.bind (ErP.emitP _ _) fun _ => ErP.pure (by simp [Child.erase, Value.erase])
        | block ts b => exact ErP.pure (by simp [Child.erase, Value.erase])
        | bracket p ts b => exact ErP.pure (by simp [Child.erase, Value.erase])
      | none =>
        refine ErP.bind_inp fun ts => ?_
        simp only [peekKw_erase, peekPunct_erase, skip_erase, peekPunct2_erase, peekIdentAny_erase]
        split
        · refine ErP.bind (ErP.unwrapP _ (parseKw_erase _)) fun s => ?_
          refine ErP.bind (ErP.unwrapP _ (parsePunct_erase ':')) fun _ => ?_
          exact ErP.bind ihE fun e => ErP.pure (by simp [Child.erase])
        · split
          · exact ErP.bind ihE fun e => ErP.pure (by simp [Child.erase])
          · exact ErP.fail _
    · unfold childrenF Mview.childrenF
      intro sc ts
      simp only [isEmpty_erase]
      split
      · exact Er.ret rfl (by simp [PR.erase, eraseChildren])
      · refine Er.bind' (ihC sc ts) fun r => ?_
        cases r with
        | ok c rest =>
          refine Er.bind' (ihL sc rest) fun q => ?_
          cases q with
          | ok cs rest' => exact Er.ret rfl (by simp [PR.erase, eraseChildren])
          | err e rest' => exact Er.ret rfl rfl
        | err e rest =>
          simp only [PR.erase, peekPunct_erase]
          split
          · refine Er.bind' (Er.emit _ _) fun _ => ?_
            refine Er.bind' (ErP.unwrapP _ (parsePunct_erase ';') sc rest) fun q => ?_
            cases q with
            | ok a rest' => exact ihL sc rest'
            | err e rest' => exact Er.ret rfl rfl
          · refine Er.bind' (Er.emit _ _) fun _ => ?_
            exact ihL sc []

/-- Forgetting the spans after parsing is parsing the tokens without spans. -/
theorem parseChildren_erase (lp : PathParser σ pp) (ts : Toks σ) :
    Er (PR.erase eraseChildren) (parseChildren lp ts) (Mview.parseChildren pp (eraseToks ts)) :=
  (parse_erase lp _).2.2 callSite ts

end Mview.Loc
