import Verif.Spec.Run
/-
Running the code that trees stand for (C58).
-/

-- the linter does not see variables used inside `q!"..."`
set_option linter.unusedVariables false

namespace Mview.Run
open Lex

variable {V : Type} {R : Rust V}

/-! ### commas -/

/-- No commas, except within brackets. -/
def NoComma (ts : Toks) : Prop := ∀ s, TT.punct ',' s ∉ ts

theorem commaSplit_ne (ts : Toks) : commaSplit ts ≠ [] := by
  cases ts with
  | nil => simp [commaSplit]
  | cons t r =>
    simp only [commaSplit]
    split
    · simp
    · split <;> simp

theorem commaSplit_step {t : TT} {r : Toks} (h : ∀ s, t ≠ .punct ',' s) :
    commaSplit (t :: r) = (t :: (commaSplit r).headD []) :: (commaSplit r).tail := by
  have hc : comma t = false := by
    cases t with
    | punct c s => simp only [comma, decide_eq_false_iff_not]; rintro rfl; exact h s rfl
    | _ => rfl
  simp only [commaSplit, hc, Bool.false_eq_true, if_false]
  split
  · rename_i h; rw [h]; rfl
  · rename_i h; exact absurd h (commaSplit_ne r)

theorem commaSplit_one {x : Toks} (h : NoComma x) : commaSplit x = [x] := by
  induction x with
  | nil => rfl
  | cons t r ih =>
    rw [commaSplit_step (fun s hs => h s (by simp [hs])), ih fun s hs => h s (by simp [hs])]
    rfl

theorem commaSplit_comma {x r : Toks} {s : Spacing} (h : NoComma x) :
    commaSplit (x ++ .punct ',' s :: r) = x :: commaSplit r := by
  induction x with
  | nil => rfl
  | cons t x ih =>
    rw [List.cons_append, commaSplit_step (fun s hs => h s (by simp [hs])), ih fun s hs => h s (by simp [hs])]
    rfl

theorem pair_of {x y : Toks} {s : Spacing} (hx : NoComma x) (hy : NoComma y) :
    pair (x ++ .punct ',' s :: y) = some (x, y) := by
  simp only [pair, commaSplit_comma hx, commaSplit_one hy]

theorem tuple_commaAfter {ts : List Toks} (h : ∀ t ∈ ts, NoComma t) : tuple (commaAfter ts) = some ts := by
  have key : commaSplit (commaAfter ts) = ts ++ [[]] := by
    induction ts with
    | nil => rfl
    | cons t ts ih =>
      have := commaSplit_comma (r := commaAfter ts) (s := .alone) (h t (by simp))
      simp only [commaAfter]
      refine Eq.trans ?_ (this.trans ?_)
      · simp
      · rw [ih fun x hx => h x (by simp [hx])]; rfl
  simp only [tuple, key, List.getLast?_concat, List.dropLast_concat]

/-! ### values -/

theorem val_means {v : Value} {t : Toks} (h : v.means = some t) :
    val R t = some (valueOf R v) ∧ NoComma t ∧ ∀ x, t ≠ [.group .paren x] := by
  cases v with
  | lit l =>
    cases l with
    | tok l =>
      simp only [Value.means, Option.some.injEq] at h
      subst h
      exact ⟨rfl, by simp [NoComma], by simp⟩
    | bool b =>
      cases b <;>
      · simp only [Value.means, Option.some.injEq] at h
        subst h
        exact ⟨rfl, by simp [NoComma], by simp⟩
  | block code =>
    simp only [Value.means, Option.some.injEq] at h
    subst h
    exact ⟨by simp [val, valueOf], by simp [NoComma], by simp⟩
  | bracket pfx code =>
    cases pfx with
    | none =>
      simp only [Value.means, Option.some.injEq] at h
      subst h
      exact ⟨by simp [val, valueOf], by simp [NoComma], by simp⟩
    | some p =>
      simp only [Value.means] at h
      split at h
      · cases h
        exact ⟨by simp [val, valueOf, absPath], by simp [NoComma], by simp⟩
      · exact absurd h (by simp)

/-! ### method calls -/

theorem methods_chain (cs : List Call) : methods (chain cs) = some (cs.map fun c => (c.name.name, c.args)) := by
  induction cs with
  | nil => rfl
  | cons c cs ih => simp [chain, methods, ih]

/-- The calls do this to an element. -/
def Does (R : Rust V) (cs : List Call) (ls : List (Look V)) : Prop :=
  (∀ c ∈ cs, c.name.name ≠ c!"child") ∧ cs.mapM (fun c => look R c.name.name c.args) = some ls

theorem Does.append {cs cs' : List Call} {ls ls' : List (Look V)} (h : Does R cs ls) (h' : Does R cs' ls') :
    Does R (cs ++ cs') (ls ++ ls') := by
  refine ⟨fun c hc => (List.mem_append.mp hc).elim (h.1 c) (h'.1 c), ?_⟩
  rw [List.mapM_append, h.2, h'.2]
  rfl

theorem does_map {α : Type} {f : α → Call} {g : α → Look V} {xs : List α}
    (h : ∀ x ∈ xs, (f x).name.name ≠ c!"child" ∧ look R (f x).name.name (f x).args = some (g x)) :
    Does R (xs.map f) (xs.map g) := by
  induction xs with
  | nil => exact ⟨by simp, rfl⟩
  | cons x xs ih =>
    have h1 := h x (by simp)
    have h2 := ih fun y hy => h y (by simp [hy])
    refine ⟨?_, ?_⟩
    · intro c hc
      simp only [List.map_cons, List.mem_cons] at hc
      rcases hc with rfl | hc
      · exact h1.1
      · exact h2.1 c hc
    · rw [List.map_cons, List.mapM_cons, h1.2, h2.2]; rfl

theorem does_mapM {α : Type} {f : α → Option Call} {g : α → Option (Look V)} :
    ∀ {xs : List α} {cs : List Call}, xs.mapM f = some cs →
      (∀ x ∈ xs, ∀ c, f x = some c → ∃ l, g x = some l ∧ c.name.name ≠ c!"child" ∧ look R c.name.name c.args = some l) →
      ∃ ls, xs.mapM g = some ls ∧ Does R cs ls
  | [], cs, h, _ => by cases h; exact ⟨[], rfl, by simp, rfl⟩
  | x :: xs, cs, h, hf => by
    rw [List.mapM_cons] at h
    simp only [Option.bind_eq_bind, Option.bind_eq_some_iff] at h
    obtain ⟨c, h1, cs', h2, h3⟩ := h
    cases h3
    obtain ⟨l, hl, hc, hlook⟩ := hf x (by simp) c h1
    obtain ⟨ls, hls, hd⟩ := does_mapM h2 fun y hy => hf y (by simp [hy])
    refine ⟨l :: ls, ?_, ?_, ?_⟩
    · rw [List.mapM_cons, hl, hls]; rfl
    · intro c' hc'
      rcases List.mem_cons.mp hc' with rfl | hc'
      · exact hc
      · exact hd.1 c' hc'
    · rw [List.mapM_cons, hlook, hd.2]; rfl

/-! ### attributes -/

theorem look_cls {args : Toks} (h : ∀ x, args ≠ [.group .paren x]) : look R c!"class" args = (val R args).map .cls := by
  simp only [look, if_true]
  cases val R args <;> rfl

theorem look_style {args : Toks} (h : ∀ x, args ≠ [.group .paren x]) : look R c!"style" args = (val R args).map .style := by
  simp only [look, if_neg (show c!"style" ≠ c!"class" by decide), if_true]
  cases val R args <;> rfl

theorem look_other {m : Str} {args : Toks} (h : m ∉ builderMethods) :
    look R m args = (val R args).map (.attr (attrName m)) := by
  have hn : ∀ x ∈ builderMethods, m ≠ x := fun x hx he => h (he ▸ hx)
  simp only [look, if_neg (hn c!"class" (by decide)), if_neg (hn c!"style" (by decide)), if_neg (hn c!"attr" (by decide)),
    if_neg (hn c!"prop" (by decide)), if_neg (hn c!"on" (by decide)), if_neg (hn c!"directive" (by decide)),
    if_neg (hn c!"node_ref" (by decide)), if_neg (hn c!"add_any_attr" (by decide)), if_neg h]
  cases val R args <;> rfl

theorem look_attr {name : Str} {t : Toks} {v : V} (h : val R t = some v) :
    look R c!"attr" q!"#name, ::leptos::prelude::IntoAttributeValue::into_attribute_value(#t)" = some (.attr name v) := by
  unfold look
  rw [if_neg (by decide), if_neg (by decide), if_pos rfl]
  have hp := pair_of (x := [.lit (.str name)]) (s := .alone)
    (y := q!"::leptos::prelude::IntoAttributeValue::into_attribute_value(#t)") (by simp [NoComma]) (by simp [NoComma])
  refine (congrArg (· >>= _) hp).trans ?_
  simp [call, absPath, h]

theorem map_noDash {s : Str} (h : '-' ∉ s) : s.map (fun c => if c = '-' then '_' else c) = s := by
  refine (List.map_congr_left fun c hc => ?_).trans (List.map_id s)
  have : c ≠ '-' := fun he => h (he ▸ hc)
  simp [this]

theorem map_back {s : Str} (h : '_' ∉ s) :
    (s.map fun c => if c = '-' then '_' else c).map (fun c => if c = '_' then '-' else c) = s := by
  rw [List.map_map]
  refine (List.map_congr_left fun c hc => ?_).trans (List.map_id s)
  have h1 : c ≠ '_' := fun he => h (he ▸ hc)
  simp only [Function.comp, id]
  by_cases h2 : c = '-'
  · simp [h2]
  · simp [h1, h2]

theorem rawIdentOf_name {s : Str} {i : Ident} (h : rawIdentOf s = some i) :
    i.name = s.map fun c => if c = '-' then '_' else c := by
  simp only [rawIdentOf, rawIdent] at h
  split at h
  · exact absurd h (by simp)
  · cases h; rfl

theorem unchecked_special {kind : TagKind} {s : Str} (h : s = c!"class" ∨ s = c!"style") : ¬ Unchecked kind s := by
  rcases h with rfl | rfl <;> cases kind <;> decide

theorem attr_does {kind : TagKind} {a : KvAttr} {c : Call} (h : a.onElement kind = some c) (hu : attrUsual kind a) :
    c.name.name ≠ c!"child" ∧ look R c.name.name c.args = some (attrLook R a) := by
  simp only [KvAttr.onElement, Option.bind_eq_bind, Option.bind_eq_some_iff, Option.pure_def] at h
  obtain ⟨v, hv, h⟩ := h
  obtain ⟨h1, h2, h3⟩ := val_means (R := R) hv
  by_cases hr : a.key.repr = c!"ref"
  · rw [if_pos hr] at h
    cases h
    refine ⟨by simp, ?_⟩
    simp only [attrLook, if_pos hr]
    simp [look, h1]
  rw [if_neg hr] at h
  by_cases hun : Unchecked kind a.key.repr
  · rw [if_pos hun] at h
    cases h
    have hc : a.key.repr ≠ c!"class" := fun he => unchecked_special (.inl he) hun
    have hs : a.key.repr ≠ c!"style" := fun he => unchecked_special (.inr he) hun
    refine ⟨by simp, ?_⟩
    simp only [attrLook, if_neg hr, if_neg hc, if_neg hs]
    exact look_attr h1
  rw [if_neg hun] at h
  simp only [Option.bind_eq_some_iff] at h
  obtain ⟨i, hi, h⟩ := h
  cases h
  have hn := rawIdentOf_name hi
  by_cases hc : a.key.repr = c!"class"
  · have hm : i.name = c!"class" := by rw [hn, hc]; rfl
    refine ⟨by rw [hm]; decide, ?_⟩
    simp only [hm, look_cls h3, h1, attrLook, if_neg hr, if_pos hc]; rfl
  by_cases hs : a.key.repr = c!"style"
  · have hm : i.name = c!"style" := by rw [hn, hs]; rfl
    refine ⟨by rw [hm]; decide, ?_⟩
    simp only [hm, look_style h3, h1, attrLook, if_neg hr, if_neg hc, if_pos hs]; rfl
  rcases hu with hu | hu | hu | hu | ⟨hb, hu⟩
  · exact absurd hu hr
  · exact absurd hu hc
  · exact absurd hu hs
  · exact absurd hu hun
  have key : i.name ∉ builderMethods ∧ attrName i.name = a.key.repr := by
    by_cases hd : '-' ∈ a.key.repr
    · have ha : c!"aria-" <+: a.key.repr := by
        cases kind <;> simp only [Unchecked] at hun <;>
          first | exact absurd (And.intro hc hs) hun | exact Decidable.not_not.mp fun h => hun ⟨hd, h⟩
      obtain ⟨r, hr'⟩ := ha
      have hm : c!"aria_" <+: i.name := by
        rw [hn, ← hr', List.map_append]
        exact ⟨_, rfl⟩
      refine ⟨?_, ?_⟩
      · intro hx
        have : ∀ x ∈ builderMethods, ¬ c!"aria_" <+: x := by decide
        exact this _ hx hm
      · rw [attrName, if_pos hm, hn, map_back hu]
    · rw [map_noDash hd] at hn
      rw [hn]
      refine ⟨hb, ?_⟩
      rw [attrName, if_neg]
      rintro ⟨r, hr'⟩
      exact hu (by rw [← hr']; simp)
  refine ⟨?_, ?_⟩
  · intro he
    exact key.1 (by rw [he]; decide)
  · simp only [look_other key.1, h1, key.2, attrLook, if_neg hr, if_neg hc, if_neg hs]; rfl

/-! ### directives -/

theorem look_clsIf {k t : Toks} {kv v : V} (hk : val R k = some kv) (hc : NoComma k) (h : val R t = some v) (ht : NoComma t) :
    look R c!"class" q!"(#k, #t)" = some (.clsIf kv v) := by
  have hp := pair_of (s := .alone) hc ht
  unfold look
  rw [if_pos rfl]
  have he : Splice.splice k ++ (TT.punct ',' .alone :: Splice.splice t) = k ++ TT.punct ',' .alone :: t := rfl
  simp [he, hp, hk, h]

theorem look_styleOf {k t : Toks} {kv v : V} (hk : val R k = some kv) (hc : NoComma k) (h : val R t = some v)
    (ht : NoComma t) : look R c!"style" q!"(#k, #t)" = some (.styleOf kv v) := by
  have hp := pair_of (s := .alone) hc ht
  unfold look
  rw [if_neg (by decide), if_pos rfl]
  have he : Splice.splice k ++ (TT.punct ',' .alone :: Splice.splice t) = k ++ TT.punct ',' .alone :: t := rfl
  simp [he, hp, hk, h]

theorem look_prop {k t : Toks} {kv v : V} (hk : val R k = some kv) (hc : NoComma k) (h : val R t = some v)
    (ht : NoComma t) : look R c!"prop" q!"#k, #t" = some (.prop kv v) := by
  have hp := pair_of (s := .alone) hc ht
  unfold look
  rw [if_neg (by decide), if_neg (by decide), if_neg (by decide), if_pos rfl]
  refine (congrArg (· >>= _) hp).trans ?_
  simp [hk, h]

theorem look_on {k t : Toks} {name : Str} {b : Bool} {v : V} (hk : event k = some (name, b)) (hc : NoComma k)
    (h : val R t = some v) (ht : NoComma t) : look R c!"on" q!"#k, #t" = some (.on name b v) := by
  have hp := pair_of (s := .alone) hc ht
  unfold look
  rw [if_neg (by decide), if_neg (by decide), if_neg (by decide), if_neg (by decide), if_pos rfl]
  refine (congrArg (· >>= _) hp).trans ?_
  simp [hk, h]

theorem look_use {f : Ident} : look R c!"directive" q!"#f, ().into()" = some (.use f.name none) := by
  have hp := pair_of (x := [.ident f]) (s := .alone) (y := q!"().into()") (by simp [NoComma]) (by simp [NoComma])
  unfold look
  rw [if_neg (by decide), if_neg (by decide), if_neg (by decide), if_neg (by decide), if_neg (by decide), if_pos rfl]
  refine (congrArg (· >>= _) hp).trans ?_
  rfl

theorem look_useWith {f : Ident} {t : Toks} {v : V} (h : val R t = some v) :
    look R c!"directive" q!"#f, ::std::convert::Into::into(#t)" = some (.use f.name (some v)) := by
  have hp := pair_of (x := [.ident f]) (s := .alone) (y := q!"::std::convert::Into::into(#t)") (by simp [NoComma])
    (by simp [NoComma])
  unfold look
  rw [if_neg (by decide), if_neg (by decide), if_neg (by decide), if_neg (by decide), if_neg (by decide), if_pos rfl]
  refine (congrArg (· >>= _) hp).trans ?_
  simp [call, absPath, h]

theorem asIdent_name {k : KebabOrStr} {i : Ident} (h : k.asIdent = some i) : i.name = rustName k := by
  cases k with
  | kebab k => exact rawIdentOf_name h
  | str s => exact absurd h (by simp [KebabOrStr.asIdent])

theorem event_means {d : Directive} {t : Toks} (h : d.event = some t) :
    event t = some (rustName d.key, d.modifier.isSome) ∧ NoComma t := by
  simp only [Directive.event, Option.bind_eq_bind, Option.bind_eq_some_iff, Option.pure_def] at h
  obtain ⟨i, hi, h⟩ := h
  rw [← asIdent_name hi]
  cases hm : d.modifier with
  | none =>
    rw [hm] at h
    cases h
    exact ⟨by simp [event, absPath], by simp [NoComma]⟩
  | some m =>
    rw [hm] at h
    dsimp only at h
    split at h
    · cases h
      exact ⟨by simp [event, absPath], by simp [NoComma]⟩
    · exact absurd h (by simp)

theorem directive_does {d : Directive} {c : Call} (h : d.onElement = some c) (hu : directiveUsual d) :
    ∃ l, directiveLook R d = some l ∧ c.name.name ≠ c!"child" ∧ look R c.name.name c.args = some l := by
  have hkey : ∀ s : Str, val R [.lit (.str s)] = some (R.lit (.str s)) ∧ NoComma [.lit (.str s)] :=
    fun s => ⟨rfl, by simp [NoComma]⟩
  have hval : d.dir ≠ plain c!"use" → ∀ t, optMeans d.value = some t →
      ∃ v, d.value = some v ∧ val R t = some (valueOf R v) ∧ NoComma t := by
    intro hd t ht
    rcases hu with hu | hu
    · exact absurd hu hd
    · obtain ⟨v, hv⟩ := Option.isSome_iff_exists.mp hu
      rw [hv] at ht
      exact ⟨v, hv, (val_means ht).1, (val_means (R := R) ht).2.1⟩
  simp only [Directive.onElement, Option.bind_eq_bind, Option.pure_def] at h
  by_cases hc : d.dir = plain c!"class"
  · rw [if_pos (.inl hc)] at h
    simp only [Option.bind_eq_some_iff] at h
    obtain ⟨_, _, t, ht, h⟩ := h
    cases h
    obtain ⟨v, hv, h1, h2⟩ := hval (by rw [hc]; decide) t ht
    refine ⟨.clsIf (R.lit (.str d.key.text)) (valueOf R v), ?_, ?_, ?_⟩
    · simp [directiveLook, hc, hv]
    · simp [hc]
    · simp only [hc]
      exact look_clsIf (hkey _).1 (hkey _).2 h1 h2
  by_cases hs : d.dir = plain c!"style"
  · rw [if_pos (.inr hs)] at h
    simp only [Option.bind_eq_some_iff] at h
    obtain ⟨_, _, t, ht, h⟩ := h
    cases h
    obtain ⟨v, hv, h1, h2⟩ := hval (by rw [hs]; decide) t ht
    refine ⟨.styleOf (R.lit (.str d.key.text)) (valueOf R v), ?_, ?_, ?_⟩
    · simp [directiveLook, hs, hv]
    · simp [hs]
    · simp only [hs]
      exact look_styleOf (hkey _).1 (hkey _).2 h1 h2
  rw [if_neg (fun h => h.elim hc hs)] at h
  by_cases hp : d.dir = plain c!"prop"
  · rw [if_pos hp] at h
    simp only [Option.bind_eq_some_iff] at h
    obtain ⟨_, _, t, ht, h⟩ := h
    cases h
    obtain ⟨v, hv, h1, h2⟩ := hval (by rw [hp]; decide) t ht
    refine ⟨.prop (R.lit (.str d.key.text)) (valueOf R v), ?_, ?_, ?_⟩
    · simp [directiveLook, hp, hv]
    · simp [hp]
    · simp only [hp]
      exact look_prop (hkey _).1 (hkey _).2 h1 h2
  rw [if_neg hp] at h
  by_cases ho : d.dir = plain c!"on"
  · rw [if_pos ho] at h
    simp only [Option.bind_eq_some_iff] at h
    obtain ⟨e, he, t, ht, h⟩ := h
    cases h
    obtain ⟨v, hv, h1, h2⟩ := hval (by rw [ho]; decide) t ht
    refine ⟨.on (rustName d.key) d.modifier.isSome (valueOf R v), ?_, ?_, ?_⟩
    · simp [directiveLook, ho, hv]
    · simp [ho]
    · simp only [ho]
      exact look_on (event_means he).1 (event_means he).2 h1 h2
  rw [if_neg ho] at h
  by_cases hus : d.dir = plain c!"use"
  · rw [if_pos hus] at h
    simp only [Option.bind_eq_some_iff] at h
    obtain ⟨a, ha, h⟩ := h
    cases h
    refine ⟨.use (rustName d.key) (d.value.map (valueOf R)), ?_, by simp, ?_⟩
    · simp [directiveLook, hus]
    simp only [Directive.useArgs, Option.bind_eq_bind, Option.bind_eq_some_iff, Option.pure_def] at ha
    obtain ⟨_, _, f, hf, ha⟩ := ha
    rw [← asIdent_name hf]
    cases hv : d.value with
    | none =>
      rw [hv] at ha
      cases ha
      exact look_use
    | some v =>
      rw [hv] at ha
      simp only [Option.bind_eq_some_iff] at ha
      obtain ⟨t, ht, ha⟩ := ha
      cases ha
      exact look_useWith (val_means ht).1
  · rw [if_neg hus] at h
    exact absurd h (by simp)

/-! ### selectors -/

theorem coloured_val (hR : R.Names) (k : KebabIdent) : val R k.coloured = some (R.lit (.str k.repr)) ∧ NoComma k.coloured := by
  refine ⟨?_, by simp [NoComma, KebabIdent.coloured]⟩
  have h := hR k.spans k.repr
  have he : k.coloured = [.group .brace (colours k.spans ++ [.lit (.str k.repr)])] := rfl
  rw [he, val, h]

theorem class_does (hR : R.Names) (k : KebabIdent) : (classCall k).name.name ≠ c!"child" ∧
    look R (classCall k).name.name (classCall k).args = some (.clsIf (R.lit (.str k.repr)) (R.bool true)) :=
  ⟨by simp [classCall], look_clsIf (coloured_val hR k).1 (coloured_val hR k).2 rfl (by simp [NoComma])⟩

theorem id_does (hR : R.Names) (k : KebabIdent) : (idCall k).name.name ≠ c!"child" ∧
    look R (idCall k).name.name (idCall k).args = some (.attr c!"id" (R.lit (.str k.repr))) := by
  refine ⟨by simp [idCall], ?_⟩
  have := look_other (R := R) (m := c!"id") (args := k.coloured) (by decide)
  rw [(coloured_val hR k).1] at this
  exact this

theorem spread_does (e : Toks) : (spreadCall e).name.name ≠ c!"child" ∧
    look R (spreadCall e).name.name (spreadCall e).args = some (.spread e) := by
  refine ⟨by simp [spreadCall], ?_⟩
  simp [spreadCall, look]

/-! ### picking attributes -/

theorem dots_eq : ∀ sels : List Selector, dots sels = (classes sels).map (·.repr)
  | [] => rfl
  | .cls k :: r => by rw [dots, dots_eq r]; rfl
  | .id k :: r => by rw [dots, dots_eq r]; rfl

theorem hashes_eq : ∀ sels : List Selector, hashes sels = (ids sels).map (·.repr)
  | [] => rfl
  | .cls k :: r => by rw [hashes, hashes_eq r]; rfl
  | .id k :: r => by rw [hashes, hashes_eq r]; rfl

theorem unprefixed_eq : ∀ attrs : List Attr, unprefixed attrs = kvs attrs
  | [] => rfl
  | .kv a :: r => by rw [unprefixed, unprefixed_eq r]; rfl
  | .directive d :: r => by rw [unprefixed, unprefixed_eq r]; rfl
  | .spread e :: r => by rw [unprefixed, unprefixed_eq r]; rfl

theorem prefixed_eq : ∀ attrs : List Attr, prefixed attrs = directives attrs
  | [] => rfl
  | .kv a :: r => by rw [prefixed, prefixed_eq r]; rfl
  | .directive d :: r => by rw [prefixed, prefixed_eq r]; rfl
  | .spread e :: r => by rw [prefixed, prefixed_eq r]; rfl

theorem spreadOnto_eq : ∀ attrs : List Attr, spreadOnto attrs = spreads attrs
  | [] => rfl
  | .kv a :: r => by rw [spreadOnto, spreadOnto_eq r]; rfl
  | .directive d :: r => by rw [spreadOnto, spreadOnto_eq r]; rfl
  | .spread e :: r => by rw [spreadOnto, spreadOnto_eq r]; rfl

theorem kvs_in {attrs : List Attr} {P : KvAttr → Prop} (h : ∀ a, .kv a ∈ attrs → P a) : ∀ a ∈ kvs attrs, P a := by
  intro a ha
  simp only [kvs, List.mem_filterMap] at ha
  obtain ⟨x, hx, he⟩ := ha
  cases x <;> cases he
  exact h _ hx

theorem directives_in {attrs : List Attr} {P : Directive → Prop} (h : ∀ d, .directive d ∈ attrs → P d) :
    ∀ d ∈ directives attrs, P d := by
  intro a ha
  simp only [directives, List.mem_filterMap] at ha
  obtain ⟨x, hx, he⟩ := ha
  cases x <;> cases he
  exact h _ hx

/-- A directive or spread of a component. -/
def attrEntry (R : Rust V) : Attr → Option (Look V)
  | .directive d => directiveEntry R d
  | .spread e => some (.spread e)
  | .kv _ => none

theorem attrEntries_eq : ∀ attrs : List Attr, attrEntries R attrs = (entries attrs).mapM (attrEntry R)
  | [] => rfl
  | .kv a :: r => by rw [attrEntries, attrEntries_eq r]; rfl
  | .spread e :: r => by
    rw [attrEntries, attrEntries_eq r]
    show _ = (Attr.spread e :: entries r).mapM (attrEntry R)
    rw [List.mapM_cons]; rfl
  | .directive d :: r => by
    rw [attrEntries, attrEntries_eq r]
    split
    · rename_i h
      have : entries (.directive d :: r) = entries r := by simp [entries, h]
      rw [this]
    · rename_i h
      have : entries (.directive d :: r) = .directive d :: entries r := by simp [entries, h]
      rw [this, List.mapM_cons]; rfl

theorem cloned_eq : ∀ attrs : List Attr, cloned attrs = (clones attrs).map fun d => rustName d.key
  | [] => rfl
  | .kv a :: r => by rw [cloned, cloned_eq r]; rfl
  | .spread e :: r => by rw [cloned, cloned_eq r]; rfl
  | .directive d :: r => by
    rw [cloned, cloned_eq r]
    split <;> rename_i h <;> simp [clones, directives, h]

theorem segCode_eq : ∀ s : PathSeg, segCode s = s.means
  | ⟨i, .none⟩ => rfl
  | ⟨i, .angle _ inner⟩ => by simp [segCode, PathSeg.means, PathArgs.means]
  | ⟨_, .paren _⟩ => rfl

theorem segsCode_eq : ∀ ss : List PathSeg, segsCode ss = (ss.mapM PathSeg.means).map joinColons
  | [] => rfl
  | [x] => by
    rw [segsCode, segCode_eq, List.mapM_cons]
    cases x.means <;> rfl
  | x :: y :: r => by
    rw [segsCode, segCode_eq, segsCode_eq (y :: r), List.mapM_cons (a := x), List.mapM_cons (a := y)]
    cases x.means with
    | none => rfl
    | some a =>
      cases y.means with
      | none => rfl
      | some b =>
        cases r.mapM PathSeg.means with
        | none => rfl
        | some c => simp [joinColons]

theorem pathCode_eq (p : Path) : pathCode p = p.means := by
  rw [pathCode, Path.means, segsCode_eq]
  cases p.segs.mapM PathSeg.means <;> rfl

/-! ### elements -/

theorem looks_does (hR : R.Names) {kind : TagKind} {sels : List Selector} {attrs : List Attr} {as ds : List Call}
    (ha : (kvs attrs).mapM (KvAttr.onElement kind) = some as) (hd : (directives attrs).mapM Directive.onElement = some ds)
    (hua : ∀ a ∈ kvs attrs, attrUsual kind a) (hud : ∀ d ∈ directives attrs, directiveUsual d) :
    ∃ ls, looks R sels attrs = some ls ∧
      Does R (as ++ ds ++ (classes sels).map classCall ++ (ids sels).map idCall ++ (spreads attrs).map spreadCall) ls := by
  obtain ⟨l1, h1, d1⟩ := does_mapM (R := R) (g := fun a => some (attrLook R a)) ha
    fun a hm c hc => ⟨_, rfl, attr_does hc (hua a hm)⟩
  obtain ⟨l2, h2, d2⟩ := does_mapM (R := R) (g := directiveLook R) hd fun d hm c hc => directive_does hc (hud d hm)
  have h1' : l1 = (kvs attrs).map (attrLook R) := by
    have h := List.mapM_pure (m := Option) (l := kvs attrs) (f := attrLook R)
    exact Option.some.inj (h1.symm.trans h)
  subst h1'
  refine ⟨_, ?_, (((d1.append d2).append (does_map fun k _ => class_does hR k)).append
    (does_map fun k _ => id_does hR k)).append (does_map fun e _ => spread_does e)⟩
  simp only [looks, prefixed_eq, unprefixed_eq, dots_eq, hashes_eq, spreadOnto_eq, List.map_map, h2, Option.bind_eq_bind, Option.bind_some, Option.pure_def]
  rfl

theorem element_head {tag : Tag} {space : Space} {name : Str} {head r : Toks} (hs : shape tag = some (space, name))
    (hh : tag.head = some head) (hu : tagUsual tag) :
    element (head ++ r) = some (space, name, r) ∧ val R (head ++ r) = none ∧
      ∃ s x, head ++ r = .punct ':' s :: x := by
  cases tag with
  | html i =>
    cases hs; cases hh
    refine ⟨?_, rfl, _, _, rfl⟩
    simp only [tagUsual] at hu
    simp [element, call, absPath, hu]
  | svg i => cases hs; cases hh; exact ⟨by simp [element, call, absPath], rfl, _, _, rfl⟩
  | math i => cases hs; cases hh; exact ⟨by simp [element, call, absPath], rfl, _, _, rfl⟩
  | webComponent k => cases hs; cases hh; exact ⟨by simp [element, call, absPath], rfl, _, _, rfl⟩
  | component p => cases hs

theorem node_rendered (n : Nat) (t : Toks) : node R (n + 1) (rendered t) = built R (node R n) t := by
  have hc : call (rendered t) = some ([c!"leptos", c!"prelude", c!"IntoRender", c!"into_render"], t, []) := by
    simp [call, rendered, absPath]
  simp only [node, hc, Option.bind_eq_bind, Option.bind_some, and_self, if_true]

theorem built_element {child : Toks → Option (Dom V)} {t r : Toks} {space : Space} {name : Str} {s : Spacing} {x : Toks}
    (h1 : element t = some (space, name, r)) (h2 : val R t = none) (h3 : t = .punct ':' s :: x) :
    built R child t = (do
      let ms ← methods r
      let looks ← (ms.filter (·.1 ≠ c!"child")).mapM fun m => look R m.1 m.2
      let children ← (ms.filter (·.1 = c!"child")).mapM fun m => child m.2
      return .elem space name looks children) := by
  subst h3
  simp only [built, h2, h1, Option.bind_eq_bind, Option.bind_some, Option.pure_def]
  rfl

theorem xml_runs (hR : R.Names) {tag : Tag} {space : Space} {name : Str} {sels : List Selector} {attrs : List Attr}
    {nodes : List Toks} {t : Toks} {n : Nat} {ds : List (Dom V)} (h : xmlMeans tag sels attrs nodes = some t)
    (hs : shape tag = some (space, name)) (hu : tagUsual tag) (hua : ∀ a ∈ kvs attrs, attrUsual tag.kind a)
    (hud : ∀ d ∈ directives attrs, directiveUsual d) :
    ∃ ls, looks R sels attrs = some ls ∧
      (nodes.mapM (node R n) = some ds → node R (n + 1) (rendered t) = some (.elem space name ls ds)) := by
  simp only [xmlMeans, Option.bind_eq_bind, Option.bind_eq_some_iff, Option.pure_def] at h
  obtain ⟨head, h1, as, h2, dcs, h3, h⟩ := h
  obtain ⟨ls, hl, hd⟩ := looks_does hR (sels := sels) h2 h3 hua hud
  refine ⟨ls, hl, fun hn => ?_⟩
  generalize as ++ dcs ++ (classes sels).map classCall ++ (ids sels).map idCall ++
    (spreads attrs).map spreadCall = cs at h hd
  have ht : t = head ++ chain (cs ++ nodes.map childCall) := (Option.some.inj h).symm
  obtain ⟨e1, e2, s, x, e3⟩ := element_head (R := R) (r := chain (cs ++ nodes.map childCall)) hs h1 hu
  rw [← ht] at e1 e2 e3
  have f1 : ((cs ++ nodes.map childCall).map fun c => (c.name.name, c.args)).filter (·.1 ≠ c!"child") =
      cs.map fun c => (c.name.name, c.args) := by
    rw [List.map_append, List.filter_append, List.filter_eq_self.mpr, List.filter_eq_nil_iff.mpr, List.append_nil]
    · intro a ha
      simp only [List.map_map, List.mem_map] at ha
      obtain ⟨y, _, rfl⟩ := ha
      simp [childCall]
    · intro a ha
      obtain ⟨c, hc, rfl⟩ := List.mem_map.mp ha
      simpa using hd.1 c hc
  have f2 : ((cs ++ nodes.map childCall).map fun c => (c.name.name, c.args)).filter (·.1 = c!"child") =
      nodes.map fun t => (c!"child", t) := by
    rw [List.map_append, List.filter_append, List.filter_eq_nil_iff.mpr, List.filter_eq_self.mpr, List.nil_append]
    · simp [childCall, Function.comp_def]
    · intro a ha
      simp only [List.map_map, List.mem_map] at ha
      obtain ⟨y, _, rfl⟩ := ha
      simp [childCall]
    · intro a ha
      obtain ⟨c, hc, rfl⟩ := List.mem_map.mp ha
      simpa using hd.1 c hc
  have g1 : (cs.map fun c => (c.name.name, c.args)).mapM (fun m => look R m.1 m.2) = some ls := by
    rw [List.mapM_map]; exact hd.2
  have g2 : (nodes.map fun t => (c!"child", t)).mapM (fun m => node R n m.2) = some ds := by
    rw [List.mapM_map]; exact hn
  rw [node_rendered, built_element e1 e2 e3]
  simp only [methods_chain, f1, f2, g1, g2, Option.bind_eq_bind, Option.bind_some, Option.pure_def]

/-! ### components: what is set on their elements -/

theorem entry_spread {e : Toks} (h : (absPath e).1.head? ≠ some c!"leptos") : entry R e = some (.spread e) := by
  unfold entry
  split
  · rename_i c1 c2 c3 p args hc
    rw [if_neg]
    intro he
    simp only [List.cons.injEq] at he
    refine h ?_
    simp only [call] at hc
    split at hc
    · rename_i ha
      cases hc
      rw [ha, he.1]; rfl
    · cases hc
  · rfl

theorem true_val : val R q!"true" = some (R.bool true) := rfl

/-- A value that is `true` if left out. -/
theorem trueMeans_val {v : Option Value} {t : Toks} (h : trueMeans v = some t) :
    val R t = some (orTrue R v) ∧ NoComma t ∧
      ∀ x, t ≠ [.group .paren x] := by
  cases v with
  | none =>
    cases h
    exact ⟨rfl, by simp [NoComma], by simp⟩
  | some v => exact val_means h

theorem entry_class (args : Toks) : entry R q!"::leptos::tachys::html::class::class(#args)" = look R c!"class" args := by
  simp [entry, call, absPath]
theorem entry_style (args : Toks) : entry R q!"::leptos::tachys::html::style::style(#args)" = look R c!"style" args := by
  simp [entry, call, absPath]
theorem entry_attr (f : Ident) (args : Toks) : entry R q!"::leptos::tachys::html::attribute::#f(#args)" =
    (val R args).map (.attr (attrName f.name)) := by
  simp [entry, call, absPath]
  cases val R args <;> rfl
theorem entry_prop (f : Ident) (args : Toks) : entry R q!"::leptos::tachys::html::property::#f(#args)" =
    (val R args).map (.prop (R.lit (.str f.name))) := by
  simp [entry, call, absPath]
  cases val R args <;> rfl
theorem entry_on (args : Toks) : entry R q!"::leptos::tachys::html::event::on(#args)" = look R c!"on" args := by
  simp [entry, call, absPath]
theorem entry_directive (args : Toks) : entry R q!"::leptos::tachys::html::directive::directive(#args)" =
    look R c!"directive" args := by
  simp [entry, call, absPath]
theorem entry_custom {name : Str} {t : Toks} {v : V} (h : val R t = some v) (ht : NoComma t) :
    entry R q!"::leptos::tachys::html::attribute::custom::custom_attribute(#name, #t)" = some (.attr name v) := by
  have hp := pair_of (x := [.lit (.str name)]) (s := .alone) (by simp [NoComma]) ht
  have hc : call q!"::leptos::tachys::html::attribute::custom::custom_attribute(#name, #t)" =
    some ([c!"leptos", c!"tachys", c!"html", c!"attribute", c!"custom", c!"custom_attribute"],
      [.lit (.str name)] ++ .punct ',' .alone :: t, []) := by
    simp [call, absPath]
  simp only [List.cons_append, List.nil_append] at hp
  unfold entry
  rw [hc]
  simp [hp, h]

theorem attrName_checked {s : Str} (h : ¬ ('-' ∈ s ∧ ¬ c!"aria-" <+: s)) (hu : '_' ∉ s) :
    attrName (s.map fun c => if c = '-' then '_' else c) = s := by
  by_cases hd : '-' ∈ s
  · have ha : c!"aria-" <+: s := Decidable.not_not.mp fun h' => h ⟨hd, h'⟩
    have hm : c!"aria_" <+: s.map fun c => if c = '-' then '_' else c := by
      obtain ⟨r, hr⟩ := ha
      rw [← hr, List.map_append]
      exact ⟨_, rfl⟩
    rw [attrName, if_pos hm, map_back hu]
  · rw [map_noDash hd, attrName, if_neg]
    rintro ⟨r, hr⟩
    exact hu (by rw [← hr]; simp)

theorem directive_entry {d : Directive} {t : Toks} (h : d.onComponent = some t) (hu : entryUsual (.directive d)) :
    ∃ l, directiveEntry R d = some l ∧ entry R t = some l ∧ NoComma t := by
  have hkey : ∀ s : Str, val R [.lit (.str s)] = some (R.lit (.str s)) ∧ NoComma [.lit (.str s)] :=
    fun s => ⟨rfl, by simp [NoComma]⟩
  simp only [Directive.onComponent, Option.bind_eq_bind, Option.pure_def] at h
  by_cases hc : d.dir = plain c!"class"
  · rw [if_pos (.inl hc)] at h
    simp only [Option.bind_eq_some_iff] at h
    obtain ⟨v, hv, h⟩ := h
    cases h
    obtain ⟨h1, h2, _⟩ := trueMeans_val (R := R) hv
    refine ⟨_, by simp only [directiveEntry, if_pos hc]; rfl, ?_, by simp [NoComma]⟩
    simp only [hc]
    exact (entry_class _).trans (look_clsIf (hkey _).1 (hkey _).2 h1 h2)
  by_cases hs : d.dir = plain c!"style"
  · rw [if_pos (.inr hs)] at h
    simp only [Option.bind_eq_some_iff] at h
    obtain ⟨v, hv, h⟩ := h
    cases h
    obtain ⟨h1, h2, _⟩ := trueMeans_val (R := R) hv
    refine ⟨_, by simp only [directiveEntry, if_neg hc, if_pos hs]; rfl, ?_, by simp [NoComma]⟩
    simp only [hs]
    exact (entry_style _).trans (look_styleOf (hkey _).1 (hkey _).2 h1 h2)
  rw [if_neg (fun h => h.elim hc hs)] at h
  by_cases ha : d.dir = plain c!"attr"
  · rw [if_pos ha] at h
    have hu' := hu.1 ha
    refine ⟨_, by simp only [directiveEntry, if_neg hc, if_neg hs, if_pos ha]; rfl, ?_⟩
    by_cases hkc : d.key.text = c!"class"
    · rw [if_pos (.inl hkc)] at h
      simp only [Option.bind_eq_some_iff] at h
      obtain ⟨f, hf, v, hv, h⟩ := h
      cases h
      obtain ⟨h1, h2, h3⟩ := trueMeans_val (R := R) hv
      refine ⟨?_, by simp [NoComma]⟩
      have hn : f.name = c!"class" := by
        rw [asIdent_name hf, rustName, hkc]; rfl
      obtain ⟨raw, name⟩ := f
      simp only at hn
      subst hn
      rw [if_pos hkc, hkc]
      refine Eq.trans ?_ ((look_cls h3).trans (by rw [h1]; rfl))
      simp [entry, call, absPath]
    by_cases hks : d.key.text = c!"style"
    · rw [if_pos (.inr hks)] at h
      simp only [Option.bind_eq_some_iff] at h
      obtain ⟨f, hf, v, hv, h⟩ := h
      cases h
      obtain ⟨h1, h2, h3⟩ := trueMeans_val (R := R) hv
      refine ⟨?_, by simp [NoComma]⟩
      have hn : f.name = c!"style" := by
        rw [asIdent_name hf, rustName, hks]; rfl
      obtain ⟨raw, name⟩ := f
      simp only at hn
      subst hn
      rw [if_neg hkc, if_pos hks, hks]
      refine Eq.trans ?_ ((look_style h3).trans (by rw [h1]; rfl))
      simp [entry, call, absPath]
    rw [if_neg (fun h => h.elim hkc hks)] at h
    rw [if_neg hkc, if_neg hks]
    by_cases hcu : '-' ∈ d.key.text ∧ ¬ c!"aria-" <+: d.key.text
    · rw [if_pos hcu] at h
      simp only [Option.bind_eq_some_iff] at h
      obtain ⟨v, hv, h⟩ := h
      cases h
      obtain ⟨h1, h2, h3⟩ := trueMeans_val (R := R) hv
      exact ⟨entry_custom h1 h2, by simp [NoComma]⟩
    · rw [if_neg hcu] at h
      simp only [Option.bind_eq_some_iff] at h
      obtain ⟨f, hf, v, hv, h⟩ := h
      cases h
      obtain ⟨h1, h2, h3⟩ := trueMeans_val (R := R) hv
      refine ⟨(entry_attr f v).trans ?_, by simp [NoComma]⟩
      rw [h1, asIdent_name hf, rustName, attrName_checked hcu hu']; rfl
  rw [if_neg ha] at h
  by_cases hp : d.dir = plain c!"prop"
  · rw [if_pos hp] at h
    simp only [Option.bind_eq_some_iff] at h
    obtain ⟨f, hf, v, hv, h⟩ := h
    cases h
    obtain ⟨h1, h2, h3⟩ := trueMeans_val (R := R) hv
    refine ⟨_, by simp only [directiveEntry, if_neg hc, if_neg hs, if_neg ha, if_pos hp]; rfl, (entry_prop f v).trans ?_,
      by simp [NoComma]⟩
    rw [h1, asIdent_name hf]; rfl
  rw [if_neg hp] at h
  by_cases ho : d.dir = plain c!"on"
  · rw [if_pos ho] at h
    simp only [Option.bind_eq_some_iff] at h
    obtain ⟨e, he, v, hv, h⟩ := h
    cases h
    obtain ⟨x, hx⟩ := Option.isSome_iff_exists.mp (hu.2 ho)
    rw [hx] at hv
    obtain ⟨h1, h2, h3⟩ := val_means (R := R) hv
    refine ⟨_, by simp only [directiveEntry, if_neg hc, if_neg hs, if_neg ha, if_neg hp, if_pos ho, hx, Option.map_some]; rfl,
      ?_, by simp [NoComma]⟩
    exact (entry_on _).trans (look_on (event_means he).1 (event_means he).2 h1 h2)
  rw [if_neg ho] at h
  by_cases hus : d.dir = plain c!"use"
  · rw [if_pos hus] at h
    simp only [Option.bind_eq_some_iff] at h
    obtain ⟨a, haa, h⟩ := h
    cases h
    refine ⟨_, by simp only [directiveEntry, if_neg hc, if_neg hs, if_neg ha, if_neg hp, if_neg ho, if_pos hus]; rfl,
      (entry_directive a).trans ?_, by simp [NoComma]⟩
    simp only [Directive.useArgs, Option.bind_eq_bind, Option.bind_eq_some_iff, Option.pure_def] at haa
    obtain ⟨_, _, f, hf, haa⟩ := haa
    rw [← asIdent_name hf]
    cases hv : d.value with
    | none =>
      rw [hv] at haa
      cases haa
      exact look_use
    | some v =>
      rw [hv] at haa
      simp only [Option.bind_eq_some_iff] at haa
      obtain ⟨t, ht, haa⟩ := haa
      cases haa
      exact look_useWith (val_means ht).1
  · rw [if_neg hus] at h
    exact absurd h (by simp)

theorem entries_mapM {sel : Attr → Option (Look V)} : ∀ {as : List Attr} {es : List Toks}, as.mapM Attr.entry = some es →
    (∀ a ∈ as, ∀ t, a.entry = some t → ∃ l, sel a = some l ∧ entry R t = some l ∧ NoComma t) →
    ∃ ls, as.mapM sel = some ls ∧ es.mapM (entry R) = some ls ∧ ∀ t ∈ es, NoComma t
  | [], es, h, _ => by cases h; exact ⟨[], rfl, rfl, by simp⟩
  | a :: as, es, h, hf => by
    rw [List.mapM_cons] at h
    simp only [Option.bind_eq_bind, Option.bind_eq_some_iff] at h
    obtain ⟨t, h1, es', h2, h3⟩ := h
    cases h3
    obtain ⟨l, e1, e2, e3⟩ := hf a (by simp) t h1
    obtain ⟨ls, f1, f2, f3⟩ := entries_mapM h2 fun y hy => hf y (by simp [hy])
    refine ⟨l :: ls, ?_, ?_, ?_⟩
    · rw [List.mapM_cons, e1, f1]; rfl
    · rw [List.mapM_cons, e2, f2]; rfl
    · intro x hx
      rcases List.mem_cons.mp hx with rfl | hx
      · exact e3
      · exact f3 x hx

theorem entryLooks_runs {sels : List Selector} {attrs : List Attr} {es : List Toks}
    (h : (entries attrs).mapM Attr.entry = some es) (hu : ∀ a ∈ attrs, entryUsual a) :
    ∃ ls, entryLooks R sels attrs = some ls ∧
      tuple (commaAfter ((classes sels).map classEntry ++ idEntry (ids sels) ++ es)) =
        some ((classes sels).map classEntry ++ idEntry (ids sels) ++ es) ∧
      ((classes sels).map classEntry ++ idEntry (ids sels) ++ es).mapM (entry R) = some ls := by
  obtain ⟨ls, h1, h2, h3⟩ := entries_mapM (R := R) (sel := attrEntry R) h (by
      intro a ha t ht
      have hua := hu a (List.mem_filter.mp ha).1
      cases a with
      | kv _ => cases ht
      | directive d => exact directive_entry ht hua
      | spread e =>
        cases ht
        exact ⟨_, rfl, entry_spread hua.2, hua.1⟩)
  have hcl : ((classes sels).map classEntry).mapM (entry R) =
      some ((classes sels).map fun k => .clsIf (R.lit (.str k.repr)) (R.bool true)) := by
    generalize classes sels = ks
    induction ks with
    | nil => rfl
    | cons k ks ih =>
      have : entry R (classEntry k) = some (.clsIf (R.lit (.str k.repr)) (R.bool true)) :=
        (entry_class _).trans (look_clsIf (k := [.lit (.str k.repr)]) rfl (by simp [NoComma]) rfl (by simp [NoComma]))
      rw [List.map_cons, List.mapM_cons, this, ih]; rfl
  have hid : (idEntry (ids sels)).mapM (entry R) = some (if ids sels = [] then [] else
      [.attr c!"id" (R.lit (.str ([' '].intercalate ((ids sels).map (·.repr)))))]) := by
    simp only [idEntry]
    split
    · rfl
    · rw [List.mapM_cons]
      refine (congrArg (· >>= _) (entry_attr ⟨true, c!"id"⟩ _)).trans ?_
      rfl
  refine ⟨_, by simp only [entryLooks, attrEntries_eq, dots_eq, hashes_eq, List.map_map, List.map_eq_nil_iff, h1, Option.bind_eq_bind, Option.bind_some, Option.pure_def]; rfl,
    tuple_commaAfter ?_, ?_⟩
  · intro t ht
    rcases List.mem_append.mp ht with ht | ht
    · rcases List.mem_append.mp ht with ht | ht
      · obtain ⟨k, _, rfl⟩ := List.mem_map.mp ht
        simp [classEntry, NoComma]
      · simp only [idEntry] at ht
        split at ht
        · cases ht
        · rw [List.mem_singleton] at ht
          subst ht
          simp [NoComma]
    · exact h3 t ht
  · rw [List.mapM_append, List.mapM_append, hcl, hid, h2]
    rfl

/-! ### components: what is passed to them -/

theorem lastComma_none {y : Toks} (h : NoComma y) : lastComma y = none := by
  induction y with
  | nil => rfl
  | cons t r ih =>
    have hc : comma t = false := by
      cases t with
      | punct c s =>
        simp only [comma, decide_eq_false_iff_not]
        rintro rfl
        exact h s (by simp)
      | _ => rfl
    simp only [lastComma, ih fun s hs => h s (by simp [hs]), hc, Bool.false_eq_true, if_false]

theorem lastComma_of {x y : Toks} {s : Spacing} (h : NoComma y) : lastComma (x ++ .punct ',' s :: y) = some (x, y) := by
  induction x with
  | nil => simp only [List.nil_append, lastComma, lastComma_none h]; rfl
  | cons t x ih => simp only [List.cons_append, lastComma, ih]

theorem chain_noComma (cs : List Call) : NoComma (chain cs) := by
  induction cs with
  | nil => simp [chain, NoComma]
  | cons c cs ih =>
    intro s hs
    simp only [chain] at hs
    simp at hs
    exact ih s hs

variable {child : Toks → Option (Dom V)} {slots : Toks → Option (List (Dom V))}

theorem parts_of {cs : List Call} {ps : List (Part V)}
    (h : cs.mapM (fun c => part R child slots (c.name.name, c.args)) = some ps) :
    parts R child slots ((cs ++ [(⟨plain c!"build", []⟩ : Call)]).map fun c => (c.name.name, c.args)) = some ps := by
  rw [List.map_append]
  simp only [parts, List.map_cons, List.map_nil, List.getLast?_concat, List.dropLast_concat, if_true]
  rw [List.mapM_map]
  exact h

theorem part_prop {a : KvAttr} {c : Call} (h : a.onComponent = some c) (hu : propUsual a) :
    part R child slots (c.name.name, c.args) = some (.prop (rustName (.kebab a.key)) (valueOf R a.value)) := by
  simp only [KvAttr.onComponent, Option.bind_eq_bind, Option.bind_eq_some_iff, Option.pure_def] at h
  obtain ⟨i, hi, v, hv, h⟩ := h
  cases h
  have hn : i.name = rustName (.kebab a.key) := rawIdentOf_name hi
  simp only [part, hn, if_neg hu.1, if_neg hu.2, (val_means hv).1]

theorem mapM_to {α β γ : Type} {f : α → Option β} {g : β → Option γ} {k : α → γ} : ∀ {xs : List α} {ys : List β},
    xs.mapM f = some ys → (∀ x ∈ xs, ∀ y, f x = some y → g y = some (k x)) → ys.mapM g = some (xs.map k)
  | [], ys, h, _ => by cases h; rfl
  | x :: xs, ys, h, hf => by
    rw [List.mapM_cons] at h
    simp only [Option.bind_eq_bind, Option.bind_eq_some_iff] at h
    obtain ⟨y, h1, ys', h2, h3⟩ := h
    cases h3
    rw [List.mapM_cons, hf x (by simp) y h1, mapM_to h2 fun z hz => hf z (by simp [hz])]
    rfl

theorem props_run {attrs : List Attr} {as : List Call} (h : (kvs attrs).mapM KvAttr.onComponent = some as)
    (hu : ∀ a ∈ kvs attrs, propUsual a) :
    as.mapM (fun c => part R child slots (c.name.name, c.args)) = some (props R attrs) := by
  rw [props, unprefixed_eq]
  exact mapM_to h fun a ha _ hc => part_prop hc (hu a ha)

/-- What follows the clones does not begin like one of them. -/
theorem clonesIn_end {r : Toks} (h : ∀ a x r', r = .ident a :: .ident x :: r' → a ≠ plain c!"let") : clonesIn r = ([], r) := by
  unfold clonesIn
  split
  · rw [if_neg]
    rintro ⟨rfl, _⟩
    exact h _ _ _ rfl rfl
  · rfl

theorem clones_run {ds : List Directive} {cl : List Toks} {r : Toks} (h : ds.mapM Directive.cloneStmt = some cl)
    (hr : clonesIn r = ([], r)) : clonesIn (cl.flatten ++ r) = (ds.map fun d => rustName d.key, r) := by
  induction ds generalizing cl with
  | nil => cases h; exact hr
  | cons d ds ih =>
    rw [List.mapM_cons] at h
    simp only [Option.bind_eq_bind, Option.bind_eq_some_iff] at h
    obtain ⟨t, h1, cl', h2, h3⟩ := h
    cases h3
    simp only [Directive.cloneStmt, Option.bind_eq_bind, Option.bind_eq_some_iff, Option.pure_def] at h1
    obtain ⟨_, _, x, hx, h1⟩ := h1
    cases h1
    have := ih h2
    simp only [List.flatten_cons, List.append_assoc]
    simp [clonesIn, this, asIdent_name hx]

theorem view_of {nodes : List Toks} {ds : List (Dom V)} (hn : ∀ t ∈ nodes, NoComma t) (h : nodes.mapM child = some ds) :
    view child (viewOf nodes) = some ds := by
  have hc : call (viewOf nodes) = some ([c!"leptos", c!"prelude", c!"View", c!"new"], [.group .paren (commaAfter nodes)], []) := by
    simp [call, viewOf, absPath]
  simp only [view, hc, if_true, tuple_commaAfter hn, Option.bind_eq_bind, Option.bind_some, h]

theorem mapM_length {α β : Type} {f : α → Option β} : ∀ {xs : List α} {ys : List β}, xs.mapM f = some ys → ys.length = xs.length
  | [], ys, h => by cases h; rfl
  | x :: xs, ys, h => by
    rw [List.mapM_cons] at h
    simp only [Option.bind_eq_bind, Option.bind_eq_some_iff] at h
    obtain ⟨y, _, ys', h2, h3⟩ := h
    cases h3
    rw [List.length_cons, List.length_cons, mapM_length h2]

theorem body_runs {attrs : List Attr} {args : Option Toks} {cl nodes : List Toks} {ds : List (Dom V)}
    (hcl : (clones attrs).mapM Directive.cloneStmt = some cl) (hn : ∀ t ∈ nodes, NoComma t)
    (h : nodes.mapM child = some ds) :
    (childrenCall args cl.flatten nodes).mapM (fun c => part R child slots (c.name.name, c.args)) =
      some (body attrs args ds) := by
  have hlen := mapM_length h
  cases nodes with
  | nil => cases h; rfl
  | cons n nodes =>
    obtain ⟨d, ds, rfl⟩ : ∃ d ds', ds = d :: ds' := by
      cases ds with
      | nil => simp at hlen
      | cons d ds => exact ⟨d, ds, rfl⟩
    have hv := view_of hn h
    generalize hns : n :: nodes = ns at hv hn h
    have hne : ns ≠ [] := by rw [← hns]; simp
    have hp : ∀ code, part R child slots (c!"children", [.group .brace code]) = childrenPart child code := fun _ => rfl
    have hb : body attrs args (d :: ds) = [.children args ((clones attrs).map fun d => rustName d.key) (d :: ds)] := by
      rw [← cloned_eq]; rfl
    have key : ∀ (c : Call) code, childrenCall args cl.flatten ns = [c] → c = ⟨plain c!"children", [.group .brace code]⟩ →
        childrenPart child code = some (.children args ((clones attrs).map fun d => rustName d.key) (d :: ds)) →
        (childrenCall args cl.flatten ns).mapM (fun c => part R child slots (c.name.name, c.args)) =
          some (body attrs args (d :: ds)) := by
      rintro c code h1 rfl h2
      rw [h1, hb, List.mapM_cons, hp, h2]; rfl
    cases args with
    | none =>
      refine key _ (cl.flatten ++ (let view := viewOf ns; q!"::leptos::children::ToChildren::to_children(move || #view)"))
        (by simp only [childrenCall, if_neg hne]; rfl) rfl ?_
      have hc := clones_run hcl (r := let view := viewOf ns; q!"::leptos::children::ToChildren::to_children(move || #view)")
        (clonesIn_end fun _ _ _ he => by cases he)
      simp only [childrenPart, hc]
      simp [call, absPath, hv]
    | some args =>
      refine key _ (cl.flatten ++ (let view := viewOf ns; q!"move #args #view"))
        (by simp only [childrenCall, if_neg hne]; rfl) rfl ?_
      have hc := clones_run hcl (r := let view := viewOf ns; q!"move #args #view")
        (clonesIn_end fun a _ _ he => by
          simp only [List.cons_append, List.cons.injEq, TT.ident.injEq] at he
          rw [← he.1]; decide)
      have hl : (args ++ viewOf ns).length - 13 = args.length := by
        rw [List.length_append, show (viewOf ns).length = 13 from rfl]; omega
      simp only [childrenPart, hc]
      have e1 : (args ++ viewOf ns).drop ((args ++ viewOf ns).length - 13) = viewOf ns := by rw [hl, List.drop_left]
      have e2 : (args ++ viewOf ns).take ((args ++ viewOf ns).length - 13) = args := by rw [hl, List.take_left]
      show (do
        let ds ← view child ((args ++ viewOf ns).drop ((args ++ viewOf ns).length - 13))
        if plain c!"move" = plain c!"move" then
          return Part.children (some ((args ++ viewOf ns).take ((args ++ viewOf ns).length - 13))) _ ds
        else none) = _
      rw [e1, e2, hv]
      rfl

/-! ### slots -/

theorem slot_runs {name : Ident} {sels : List Selector} {attrs : List Attr} {args : Option Toks} {nodes : List Toks}
    {ds : List (Dom V)} {t : Toks} (h : slotMeans ⟨false, [⟨name, .none⟩]⟩ sels attrs args nodes = some t)
    (hu : ∀ a ∈ kvs attrs, propUsual a) (hn : ∀ t ∈ nodes, NoComma t) (hc : nodes.mapM child = some ds) :
    slot R child t = some (.slot [.ident name] (props R attrs ++ body attrs args ds)) ∧ NoComma t ∧
      ∃ s x, t = .punct ':' s :: x := by
  simp only [slotMeans, Option.bind_eq_bind, Option.bind_eq_some_iff, Option.pure_def] at h
  obtain ⟨_, _, path, hp, as, has, cl, hcl, h⟩ := h
  cases h
  cases hp
  refine ⟨?_, by simp [NoComma], _, _, rfl⟩
  have h1 := props_run (R := R) (child := child) (slots := fun _ => none) has hu
  have h2 := body_runs (R := R) (slots := fun _ => none) (args := args) hcl hn hc
  have h3 := parts_of (R := R) (child := child) (slots := fun _ => none) (cs := as ++ childrenCall args cl.flatten nodes)
    (ps := props R attrs ++ body attrs args ds) (by rw [List.mapM_append, h1, h2]; rfl)
  have h4 := methods_chain (as ++ childrenCall args cl.flatten nodes ++ [⟨plain c!"build", []⟩])
  simp [slot, call, absPath, joinColons] at h3 h4 ⊢
  simp [h4, h3]

theorem slotArg_run {ts : List Toks} {ds : List (Dom V)} (hne : ts ≠ [])
    (h : ts.mapM (slot R child) = some ds) (hn : ∀ t ∈ ts, NoComma t ∧ ∃ s x, t = .punct ':' s :: x) :
    slotArgs R child (slotArg ts) = some ds ∧ val R (slotArg ts) = none := by
  have hsplit : ∀ ts : List Toks, ts ≠ [] → (∀ t ∈ ts, NoComma t) → commaSplit (commaBetween ts) = ts := by
    intro ts
    induction ts with
    | nil => intro h; exact absurd rfl h
    | cons x xs ih =>
      intro _ hn
      cases xs with
      | nil => exact commaSplit_one (hn x (by simp))
      | cons y ys =>
        have := commaSplit_comma (r := commaBetween (y :: ys)) (s := .alone) (hn x (by simp))
        rw [ih (by simp) fun t ht => hn t (by simp only [List.mem_cons] at ht ⊢; exact .inr ht)] at this
        exact this
  cases ts with
  | nil => exact absurd rfl hne
  | cons t ts =>
    cases ts with
    | nil =>
      obtain ⟨_, s, x, rfl⟩ := hn t (by simp)
      rw [List.mapM_cons] at h
      simp only [slotArg]
      refine ⟨?_, ?_⟩
      · cases hs : slot R child (.punct ':' s :: x) with
        | none => rw [hs] at h; cases h
        | some d =>
          rw [hs] at h
          cases h
          unfold slotArgs
          split
          · rename_i he; cases he
          · rw [hs]; rfl
      · cases x <;> rfl
    | cons t' ts =>
      have hs := hsplit (t :: t' :: ts) (by simp) fun t ht => (hn t ht).1
      generalize hts : t :: t' :: ts = all at h hs
      have ha : slotArg all = (let xs := commaBetween all; q!"<[_]> ::into_vec(::std::boxed::Box::new([#xs]))") := by
        rw [← hts]; rfl
      rw [ha]
      refine ⟨?_, rfl⟩
      simp [slotArgs, call, absPath, hs, h]

theorem slots_filter {slots : List (Ident × Toks)} {shown : List (Ident × Dom V)} (n : Ident)
    (h : slots.mapM (fun p => (slot R child p.2).map (Prod.mk p.1)) = some shown) :
    ((slots.filter (·.1 = n)).map Prod.snd).mapM (slot R child) = some ((shown.filter (·.1 = n)).map Prod.snd) ∧
      shown.map Prod.fst = slots.map Prod.fst := by
  induction slots generalizing shown with
  | nil => cases h; exact ⟨rfl, rfl⟩
  | cons p slots ih =>
    rw [List.mapM_cons] at h
    simp only [Option.bind_eq_bind, Option.bind_eq_some_iff, Option.map_eq_some_iff] at h
    obtain ⟨q, ⟨d, hd, rfl⟩, shown', h2, h3⟩ := h
    cases h3
    obtain ⟨i1, i2⟩ := ih h2
    refine ⟨?_, by simp [i2]⟩
    by_cases hp : p.1 = n
    · simp only [List.filter_cons, hp, decide_true, if_true, List.map_cons, List.mapM_cons, hd, i1]; rfl
    · simp only [List.filter_cons, hp, decide_false, Bool.false_eq_true, if_false, i1]

theorem slotCalls_run {slots : List (Ident × Toks)} {shown : List (Ident × Dom V)} {calls : List Call}
    (hc : SlotCalls slots calls) (hf : shown.map Prod.fst = slots.map Prod.fst)
    (hn : ∀ p ∈ slots, NoComma p.2 ∧ ∃ s x, p.2 = .punct ':' s :: x)
    (hu : ∀ p ∈ slots, snakeCase p.1.name ≠ c!"children" ∧ snakeCase p.1.name ≠ c!"build") :
    ∃ gs, Grouped shown gs ∧ ∀ child : Toks → Option (Dom V),
      slots.mapM (fun p => (slot R child p.2).map (Prod.mk p.1)) = some shown →
      calls.mapM (fun c => part R child (slotArgs R child) (c.name.name, c.args)) = some gs := by
  obtain ⟨names, hnd, hm, hcalls⟩ := hc
  refine ⟨_, ⟨names, hnd, by rw [hf]; exact hm, rfl⟩, fun child h => mapM_to hcalls fun n hn' c hcn => ?_⟩
  simp only [Option.bind_eq_bind, Option.bind_eq_some_iff, Option.pure_def] at hcn
  obtain ⟨i, hi, hcn⟩ := hcn
  cases hcn
  obtain ⟨p, hp, rfl⟩ := List.mem_map.mp ((hm n).mp hn')
  have hname : i.name = snakeCase p.1.name := by
    simp only [slotMethodName, rawIdent] at hi
    split at hi
    · cases hi
    · cases hi; rfl
  obtain ⟨a1, a2⟩ := slotArg_run (R := R) (child := child) (ts := (slots.filter (·.1 = p.1)).map Prod.snd)
    (by
      intro he
      have : p.2 ∈ (slots.filter (·.1 = p.1)).map Prod.snd :=
        List.mem_map.mpr ⟨p, List.mem_filter.mpr ⟨hp, by simp⟩, rfl⟩
      rw [he] at this
      cases this) (slots_filter p.1 h).1 (by
      intro t ht
      obtain ⟨q, hq, rfl⟩ := List.mem_map.mp ht
      exact hn q (List.mem_filter.mp hq).1)
  simp only [part, hname, if_neg (hu p hp).1, if_neg (hu p hp).2, a2, a1]
  rfl

theorem component_runs {path : Path} {sels : List Selector} {attrs : List Attr} {args : Option Toks}
    {nodes : List Toks} {calls : List Call} {t : Toks} {ds : List (Dom V)} {gs : List (Part V)}
    (h : componentMeans path sels attrs args nodes calls = some t)
    (hup : ∀ a ∈ kvs attrs, propUsual a) (hue : ∀ a ∈ attrs, entryUsual a) (hn : ∀ t ∈ nodes, NoComma t)
    (hc : nodes.mapM child = some ds)
    (hs : calls.mapM (fun c => part R child (slotArgs R child) (c.name.name, c.args)) = some gs) :
    ∃ p ls, pathCode path = some p ∧ entryLooks R sels attrs = some ls ∧
      built R child t = some (.comp p p (props R attrs ++ body attrs args ds ++ gs) ls) := by
  simp only [componentMeans, Option.bind_eq_bind, Option.bind_eq_some_iff, Option.pure_def] at h
  obtain ⟨p, hp, as, has, es, hes, cl, hcl, h⟩ := h
  obtain ⟨ls, l1, l2, l3⟩ := entryLooks_runs (R := R) (sels := sels) hes hue
  refine ⟨p, ls, (pathCode_eq path).trans hp, l1, ?_⟩
  have h1 := props_run (R := R) (child := child) (slots := slotArgs R child) has hup
  have h2 := body_runs (R := R) (slots := slotArgs R child) (args := args) hcl hn hc
  have h3 := parts_of (R := R) (child := child) (slots := slotArgs R child)
    (cs := as ++ childrenCall args cl.flatten nodes ++ calls) (ps := props R attrs ++ body attrs args ds ++ gs)
    (by rw [List.mapM_append, List.mapM_append, h1, h2, hs]; rfl)
  have h4 := methods_chain (as ++ childrenCall args cl.flatten nodes ++ calls ++ [⟨plain c!"build", []⟩])
  have h5 := chain_noComma (as ++ childrenCall args cl.flatten nodes ++ calls ++ [⟨plain c!"build", []⟩])
  generalize chain (as ++ childrenCall args cl.flatten nodes ++ calls ++ [⟨plain c!"build", []⟩]) = ch at h h4 h5
  generalize (as ++ childrenCall args cl.flatten nodes ++ calls ++ [(⟨plain c!"build", []⟩ : Call)]).map
    (fun c => (c.name.name, c.args)) = ms at h3 h4
  generalize (classes sels).map classEntry ++ idEntry (ids sels) ++ es = ees at h l2 l3
  generalize hce : commaAfter ees = ce at h l2
  cases h
  have h6 : lastComma (.punct '&' .alone :: (p ++ .punct ',' .alone ::
      q!"::leptos::component::component_props_builder(& #p) #ch")) =
      some (.punct '&' .alone :: p, q!"::leptos::component::component_props_builder(& #p) #ch") := by
    refine lastComma_of (x := .punct '&' .alone :: p) ?_
    intro s hs
    simp at hs
    exact h5 s hs
  simp [built, val, component, call, absPath, methods] at h6 ⊢
  simp [h6, h4, h3, l2, l3, absPath]

/-! ### the tree -/

theorem rendered_noComma (t : Toks) : NoComma (rendered t) := by simp [NoComma, rendered]

theorem nodes_rendered : ∀ (cs : List Child) (ns : List Toks), NodesMean cs ns → ∀ t ∈ ns, ∃ x, t = rendered x
  | [], ns, h => by simp only [NodesMean] at h; subst h; simp
  | .value v :: cs, ns, h => by
    simp only [NodesMean] at h
    obtain ⟨t, ns', ht, hns, rfl⟩ := h
    intro x hx
    rcases List.mem_cons.mp hx with rfl | hx
    · exact ⟨_, rfl⟩
    · exact nodes_rendered cs ns' hns x hx
  | .elem e :: cs, ns, h => by
    simp only [NodesMean] at h
    obtain ⟨t, ns', ht, hns, rfl⟩ := h
    intro x hx
    rcases List.mem_cons.mp hx with rfl | hx
    · exact ⟨_, rfl⟩
    · exact nodes_rendered cs ns' hns x hx
  | .slot e :: cs, ns, h => by
    simp only [NodesMean] at h
    exact nodes_rendered cs ns h

theorem nodes_noComma {cs : List Child} {ns : List Toks} (h : NodesMean cs ns) : ∀ t ∈ ns, NoComma t := by
  intro t ht
  obtain ⟨x, rfl⟩ := nodes_rendered cs ns h t ht
  exact rendered_noComma x

/-- What the children of a block are, also if there is none. -/
theorem means_component {p : Path} {sels : List Selector} {attrs : List Attr} {args : Option Toks}
    {cs : Option (List Child)} {t : Toks} (h : (Element.mk (.component p) sels attrs args cs).Means false t) :
    ∃ nodes slots calls, NodesMean (cs.getD []) nodes ∧ SlotsMean (cs.getD []) slots ∧ SlotCalls slots calls ∧
      componentMeans p sels attrs args nodes calls = some t := by
  cases cs with
  | none =>
    simp only [Element.Means] at h
    exact ⟨[], [], [], rfl, rfl, ⟨[], by simp, by simp, rfl⟩, h⟩
  | some cs => simpa only [Element.Means, Option.getD_some] using h

theorem means_slot {p : Path} {sels : List Selector} {attrs : List Attr} {args : Option Toks}
    {cs : Option (List Child)} {t : Toks} (h : (Element.mk (.component p) sels attrs args cs).Means true t) :
    ∃ nodes, NodesMean (cs.getD []) nodes ∧ slotMeans p sels attrs args nodes = some t := by
  cases cs with
  | none =>
    simp only [Element.Means] at h
    exact ⟨[], rfl, h⟩
  | some cs =>
    simp only [Element.Means] at h
    obtain ⟨nodes, _, _, h1, _, _, h2⟩ := h
    exact ⟨nodes, h1, h2⟩

theorem means_xml {tag : Tag} {sels : List Selector} {attrs : List Attr} {args : Option Toks}
    {cs : Option (List Child)} {t : Toks} (hp : ∀ p, tag ≠ .component p)
    (h : (Element.mk tag sels attrs args cs).Means false t) :
    ∃ nodes, NodesMean (cs.getD []) nodes ∧ xmlMeans tag sels attrs nodes = some t := by
  cases cs with
  | none => exact ⟨[], rfl, by cases tag <;> first | exact absurd rfl (hp _) | simpa only [Element.Means] using h⟩
  | some cs => cases tag <;> first | exact absurd rfl (hp _) | simpa only [Element.Means, Option.getD_some] using h

theorem shape_some {tag : Tag} (hp : ∀ p, tag ≠ .component p) : ∃ space name, shape tag = some (space, name) := by
  cases tag <;> first | exact absurd rfl (hp _) | exact ⟨_, _, rfl⟩

theorem usual_xml {tag : Tag} {sels : List Selector} {attrs : List Attr} {args : Option Toks}
    {cs : Option (List Child)} (hp : ∀ p, tag ≠ .component p) (h : Usual (.mk tag sels attrs args cs)) :
    tagUsual tag ∧ (∀ a ∈ kvs attrs, attrUsual tag.kind a) ∧ ∀ d ∈ directives attrs, directiveUsual d := by
  cases tag <;> first | exact absurd rfl (hp _) | (simp only [Usual] at h; exact ⟨h.2.1, kvs_in h.2.2.1, directives_in h.2.2.2⟩)

theorem shows_xml {tag : Tag} {space : Space} {name : Str} {sels : List Selector} {attrs : List Attr}
    {args : Option Toks} {cs : Option (List Child)} {ls : List (Look V)} {ds : List (Dom V)}
    (hs : shape tag = some (space, name)) (hl : looks R sels attrs = some ls) (hd : BlockShows R cs ds) :
    Shows R (.mk tag sels attrs args cs) (.elem space name ls ds) := by
  cases tag <;> first | cases hs; done | (simp only [Shows]; exact ⟨space, name, ls, ds, hs, hl, hd, rfl⟩)

mutual
theorem element_runs (hR : R.Names) : ∀ (e : Element) (t : Toks), e.Means false t → Usual e →
    ∃ d, Shows R e d ∧ ∃ N, ∀ n ≥ N, node R n (rendered t) = some d
  | .mk tag sels attrs args block, t, h, hu => by
    by_cases hp : ∃ p, tag = .component p
    · obtain ⟨p, rfl⟩ := hp
      obtain ⟨nodes, slots, calls, h1, h2, h3, h4⟩ := means_component h
      simp only [Usual] at hu
      obtain ⟨hb, hup, hue⟩ := hu
      have hup := kvs_in hup
      obtain ⟨ds, hds, N, hN⟩ := block_runs hR block nodes h1 hb
      obtain ⟨shown, hsh, hf, hsl, M, hM⟩ := block_slots hR block slots h2 hb
      obtain ⟨gs, hg, hgs⟩ := slotCalls_run (R := R) h3 hf (fun p hp => (hsl p hp).1) (fun p hp => (hsl p hp).2)
      obtain ⟨path, ls, l1, l2, _⟩ := component_runs h4 hup hue (nodes_noComma h1) (hN (N + M) (by omega))
        (hgs _ (hM (N + M) (by omega)))
      refine ⟨.comp path path (props R attrs ++ body attrs args ds ++ gs) ls, ?_, N + M + 1, fun n hn => ?_⟩
      · simp only [Shows]
        exact ⟨path, ls, ds, shown, gs, l1, l2, hds, hsh, hg, rfl⟩
      · obtain ⟨m, rfl⟩ : ∃ m, n = m + 1 := ⟨n - 1, by omega⟩
        obtain ⟨path', ls', l1', l2', l3⟩ := component_runs h4 hup hue (nodes_noComma h1) (hN m (by omega))
          (hgs _ (hM m (by omega)))
        rw [l1] at l1'; cases l1'
        rw [l2] at l2'; cases l2'
        rw [node_rendered]
        exact l3
    · have hp' : ∀ p, tag ≠ .component p := fun p he => hp ⟨p, he⟩
      obtain ⟨nodes, h1, h2⟩ := means_xml hp' h
      obtain ⟨space, name, hs⟩ := shape_some hp'
      obtain ⟨u1, u2, u3⟩ := usual_xml hp' hu
      simp only [Usual] at hu
      obtain ⟨ds, hds, N, hN⟩ := block_runs hR block nodes h1 hu.1
      obtain ⟨ls, hl, _⟩ := xml_runs hR (n := 0) (ds := []) h2 hs u1 u2 u3
      refine ⟨.elem space name ls ds, shows_xml hs hl hds, N + 1, fun n hn => ?_⟩
      obtain ⟨m, rfl⟩ : ∃ m, n = m + 1 := ⟨n - 1, by omega⟩
      obtain ⟨ls', hl', hr⟩ := xml_runs hR (n := m) (ds := ds) h2 hs u1 u2 u3
      rw [hl] at hl'; cases hl'
      exact hr (hN m (by omega))

theorem slot_element_runs (hR : R.Names) (name : Ident) : ∀ (e : Element) (t : Toks),
    e.tag = .component ⟨false, [⟨name, .none⟩]⟩ → e.Means true t → Usual e →
    ∃ d, SlotShows R e name d ∧ (NoComma t ∧ ∃ s x, t = .punct ':' s :: x) ∧
      ∃ N, ∀ n ≥ N, slot R (node R n) t = some d
  | .mk tag sels attrs args block, t, htag, h, hu => by
    simp only [Element.tag] at htag
    subst htag
    obtain ⟨nodes, h1, h2⟩ := means_slot h
    simp only [Usual] at hu
    obtain ⟨hb, hup, hue⟩ := hu
    have hup := kvs_in hup
    obtain ⟨ds, hds, N, hN⟩ := block_runs hR block nodes h1 hb
    refine ⟨_, by simp only [SlotShows]; exact ⟨ds, hds, rfl⟩,
      (slot_runs (R := R) h2 hup (nodes_noComma h1) (hN N (Nat.le_refl N))).2, N, fun n hn => ?_⟩
    exact (slot_runs (R := R) h2 hup (nodes_noComma h1) (hN n hn)).1

theorem block_runs (hR : R.Names) : ∀ (b : Option (List Child)) (ns : List Toks), NodesMean (b.getD []) ns → BlockUsual b →
    ∃ ds, BlockShows R b ds ∧ ∃ N, ∀ n ≥ N, ns.mapM (node R n) = some ds
  | none, ns, h, _ => by
    simp only [Option.getD_none, NodesMean] at h
    subst h
    exact ⟨[], by simp [BlockShows], 0, fun _ _ => rfl⟩
  | some cs, ns, h, hu => by
    simp only [BlockUsual] at hu
    obtain ⟨ds, hds, hN⟩ := nodes_run hR cs ns h hu
    exact ⟨ds, by simpa only [BlockShows] using hds, hN⟩

theorem block_slots (hR : R.Names) : ∀ (b : Option (List Child)) (slots : List (Ident × Toks)),
    SlotsMean (b.getD []) slots → BlockUsual b →
    ∃ shown, BlockSlots R b shown ∧ shown.map Prod.fst = slots.map Prod.fst ∧
      (∀ p ∈ slots, (NoComma p.2 ∧ ∃ s x, p.2 = .punct ':' s :: x) ∧
        snakeCase p.1.name ≠ c!"children" ∧ snakeCase p.1.name ≠ c!"build") ∧
      ∃ N, ∀ n ≥ N, slots.mapM (fun p => (slot R (node R n) p.2).map (Prod.mk p.1)) = some shown
  | none, ss, h, _ => by
    simp only [Option.getD_none, SlotsMean] at h
    subst h
    exact ⟨[], by simp [BlockSlots], rfl, by simp, 0, fun _ _ => rfl⟩
  | some cs, ss, h, hu => by
    simp only [BlockUsual] at hu
    obtain ⟨ds, hds, hN⟩ := slots_run hR cs ss h hu
    exact ⟨ds, by simpa only [BlockSlots] using hds, hN⟩

theorem nodes_run (hR : R.Names) : ∀ (cs : List Child) (ns : List Toks), NodesMean cs ns → AllUsual cs →
    ∃ ds, AllShow R cs ds ∧ ∃ N, ∀ n ≥ N, ns.mapM (node R n) = some ds
  | [], ns, h, _ => by
    simp only [NodesMean] at h
    subst h
    exact ⟨[], by simp [AllShow], 0, fun _ _ => rfl⟩
  | .value v :: cs, ns, h, hu => by
    simp only [NodesMean] at h
    obtain ⟨t, ns', ht, hns, rfl⟩ := h
    simp only [AllUsual] at hu
    obtain ⟨ds, hds, N, hN⟩ := nodes_run hR cs ns' hns hu
    refine ⟨.value (valueOf R v) :: ds, by simp only [AllShow]; exact ⟨ds, hds, rfl⟩, N + 1, fun n hn => ?_⟩
    have h1 : node R n (rendered t) = some (.value (valueOf R v)) := by
      obtain ⟨m, rfl⟩ : ∃ m, n = m + 1 := ⟨n - 1, by omega⟩
      rw [node_rendered]; unfold built; rw [(val_means ht).1]
    rw [List.mapM_cons, h1, hN n (by omega)]; rfl
  | .elem e :: cs, ns, h, hu => by
    simp only [NodesMean] at h
    obtain ⟨t, ns', ht, hns, rfl⟩ := h
    simp only [AllUsual] at hu
    obtain ⟨d, hd, M, hM⟩ := element_runs hR e t ht hu.1
    obtain ⟨ds, hds, N, hN⟩ := nodes_run hR cs ns' hns hu.2
    refine ⟨d :: ds, by simp only [AllShow]; exact ⟨d, ds, hd, hds, rfl⟩, M + N, fun n hn => ?_⟩
    rw [List.mapM_cons, hM n (by omega), hN n (by omega)]; rfl
  | .slot e :: cs, ns, h, hu => by
    simp only [NodesMean] at h
    simp only [AllUsual] at hu
    obtain ⟨ds, hds, N, hN⟩ := nodes_run hR cs ns h hu.2.2
    exact ⟨ds, by simpa only [AllShow] using hds, N, hN⟩

theorem slots_run (hR : R.Names) : ∀ (cs : List Child) (slots : List (Ident × Toks)), SlotsMean cs slots → AllUsual cs →
    ∃ shown, SlotsShow R cs shown ∧ shown.map Prod.fst = slots.map Prod.fst ∧
      (∀ p ∈ slots, (NoComma p.2 ∧ ∃ s x, p.2 = .punct ':' s :: x) ∧
        snakeCase p.1.name ≠ c!"children" ∧ snakeCase p.1.name ≠ c!"build") ∧
      ∃ N, ∀ n ≥ N, slots.mapM (fun p => (slot R (node R n) p.2).map (Prod.mk p.1)) = some shown
  | [], ss, h, _ => by
    simp only [SlotsMean] at h
    subst h
    exact ⟨[], by simp [SlotsShow], rfl, by simp, 0, fun _ _ => rfl⟩
  | .value v :: cs, ss, h, hu => by
    simp only [SlotsMean] at h
    simp only [AllUsual] at hu
    obtain ⟨ds, hds, hN⟩ := slots_run hR cs ss h hu
    exact ⟨ds, by simpa only [SlotsShow] using hds, hN⟩
  | .elem e :: cs, ss, h, hu => by
    simp only [SlotsMean] at h
    simp only [AllUsual] at hu
    obtain ⟨ds, hds, hN⟩ := slots_run hR cs ss h hu.2
    exact ⟨ds, by simpa only [SlotsShow] using hds, hN⟩
  | .slot e :: cs, ss, h, hu => by
    simp only [SlotsMean] at h
    simp only [AllUsual] at hu
    split at h
    · rename_i name htag
      obtain ⟨t, ss', ht, hss, rfl⟩ := h
      obtain ⟨d, hd, hc, M, hM⟩ := slot_element_runs hR name e t htag ht hu.2.1
      obtain ⟨ds, hds, hf, hsl, N, hN⟩ := slots_run hR cs ss' hss hu.2.2
      refine ⟨(name, d) :: ds, by simp only [SlotsShow]; exact ⟨name, d, ds, htag, hd, hds, rfl⟩, by simp [hf], ?_, M + N,
        fun n hn => ?_⟩
      · intro p hp
        rcases List.mem_cons.mp hp with rfl | hp
        · exact ⟨hc, hu.1 name htag⟩
        · exact hsl p hp
      · rw [List.mapM_cons]
        simp only [hM n (by omega), hN n (by omega)]
        rfl
    · exact absurd h (by simp)
end

theorem run_one (n : Nat) (x : Toks) :
    run R n q!"{ #[allow(unused_braces)] ::leptos::prelude::IntoRender::into_render(#x) }" =
      (node R n (rendered x)).map ([·]) := by
  have hc : call (rendered x) = some ([c!"leptos", c!"prelude", c!"IntoRender", c!"into_render"], x, []) := by
    simp [call, rendered, absPath]
  show (do
    let (p, _, _) ← call (rendered x)
    if p = [c!"leptos", c!"prelude", c!"View", c!"new"] then view (node R n) (rendered x)
    else return [← node R n (rendered x)]) = _
  rw [hc]
  simp only [Option.bind_eq_bind, Option.bind_some]
  rw [if_neg (by simp)]
  cases node R n (rendered x) <;> rfl

theorem run_many (n : Nat) (xs : List Toks) (ds : List (Dom V)) (hx : ∀ x ∈ xs, NoComma x)
    (h : xs.mapM (node R n) = some ds) :
    run R n (let view := viewOf xs; q!"{ #[allow(unused_braces)] #view }") = some ds := by
  have hc : call (viewOf xs) = some ([c!"leptos", c!"prelude", c!"View", c!"new"], [.group .paren (commaAfter xs)], []) := by
    simp [call, viewOf, absPath]
  show (do
    let (p, _, _) ← call (viewOf xs)
    if p = [c!"leptos", c!"prelude", c!"View", c!"new"] then view (node R n) (viewOf xs)
    else return [← node R n (viewOf xs)]) = _
  rw [hc]
  simp only [Option.bind_eq_bind, Option.bind_some, if_true, view_of hx h]

theorem root_runs (hR : R.Names) {cs : List Child} {t : Toks} (h : RootMeans cs t) (hu : AllUsual cs) :
    ∃ ds, AllShow R cs ds ∧ ∃ N, ∀ n ≥ N, run R n t = some ds := by
  obtain ⟨_, ns, hns, h⟩ := h
  obtain ⟨ds, hds, N, hN⟩ := nodes_run hR cs ns hns hu
  refine ⟨ds, hds, N, fun n hn => ?_⟩
  have hN := hN n hn
  have hr := nodes_rendered cs ns hns
  split at h
  · obtain ⟨y, rfl⟩ := hr _ (List.mem_singleton.mpr rfl)
    subst h
    refine (run_one n y).trans ?_
    rw [List.mapM_cons] at hN
    cases hx : node R n (rendered y) with
    | none => rw [hx] at hN; cases hN
    | some d => rw [hx] at hN; cases hN; rfl
  · subst h
    exact run_many n ns ds (nodes_noComma hns) hN

end Mview.Run
