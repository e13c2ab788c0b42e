import Verif.Lemmas.GrammarTree
import Verif.Spec.Rewrites
/-
Rewriting shorthands and delimiters keeps the tree and its well-formedness.
-/

namespace Mview

variable {pp : PathParser}

/-! ### the tree meant -/

theorem BoolLong.ast {a b : CAttr} (h : BoolLong a b) : a.ast = b.ast := by
  cases h <;> rfl

theorem BraceLong.ast {a b : CAttr} (h : BraceLong a b) : a.ast = b.ast := by
  cases h <;> rfl

section
variable {R : CAttr → CAttr → Prop} {D : Braces → Braces → Prop}

theorem attrs_ast (hR : ∀ {a b}, R a b → a.ast = b.ast) {as bs : List CAttr}
    (h : List.Forall₂ R as bs) : as.map CAttr.ast = bs.map CAttr.ast := by
  induction h with
  | nil => rfl
  | cons h _ ih => simp [hR h, ih]

mutual
theorem CElem.Same.ast (hR : ∀ {a b}, R a b → a.ast = b.ast) :
    (e e' : CElem) → e.Same R D e' → e.ast = e'.ast
  | .mk tag sels attrs fin, .mk tag' sels' attrs' fin', h => by
    rw [CElem.Same] at h
    obtain ⟨rfl, rfl, ha, hf⟩ := h
    rw [CElem.ast, CElem.ast, attrs_ast hR ha, (CEnd.Same.ast hR fin fin' hf).1,
      (CEnd.Same.ast hR fin fin' hf).2]
theorem CEnd.Same.ast (hR : ∀ {a b}, R a b → a.ast = b.ast) :
    (e e' : CEnd) → e.Same R D e' → e.args = e'.args ∧ e.children = e'.children
  | .semi s, .semi s', h => by simp [CEnd.args, CEnd.children]
  | .block args d cs, .block args' d' cs', h => by
    rw [CEnd.Same] at h
    obtain ⟨rfl, _, hc⟩ := h
    simp only [CEnd.args, CEnd.children, true_and]
    rw [childrenSame.ast hR cs cs' hc]
  | .semi s, .block args d cs, h => by simp [CEnd.Same] at h
  | .block args d cs, .semi s, h => by simp [CEnd.Same] at h
theorem CChild.Same.ast (hR : ∀ {a b}, R a b → a.ast = b.ast) :
    (e e' : CChild) → e.Same R D e' → e.ast = e'.ast
  | .value v, .value v', h => by rw [CChild.Same] at h; rw [h]
  | .elem e, .elem e', h => by
    rw [CChild.Same] at h; rw [CChild.ast, CChild.ast, CElem.Same.ast hR e e' h]
  | .slot s e, .slot s' e', h => by
    rw [CChild.Same] at h; rw [CChild.ast, CChild.ast, CElem.Same.ast hR e e' h.2]
  | .value _, .elem _, h => by simp [CChild.Same] at h
  | .value _, .slot _ _, h => by simp [CChild.Same] at h
  | .elem _, .value _, h => by simp [CChild.Same] at h
  | .elem _, .slot _ _, h => by simp [CChild.Same] at h
  | .slot _ _, .value _, h => by simp [CChild.Same] at h
  | .slot _ _, .elem _, h => by simp [CChild.Same] at h
theorem childrenSame.ast (hR : ∀ {a b}, R a b → a.ast = b.ast) :
    (cs cs' : List CChild) → childrenSame R D cs cs' → childrenAst cs = childrenAst cs'
  | [], [], _ => rfl
  | c :: cs, c' :: cs', h => by
    rw [childrenSame] at h
    rw [childrenAst, childrenAst, CChild.Same.ast hR c c' h.1, childrenSame.ast hR cs cs' h.2]
  | [], _ :: _, h => by simp [childrenSame] at h
  | _ :: _, [], h => by simp [childrenSame] at h
end
end

/-! ### well-formedness -/

theorem munch_is_longest {t : TT} (h : t.isIdent = true ∨ t.isDash = true) (ts : Toks) :
    LongestKebab (t :: ts) (t :: (munch t.isWord ts).1) (munch t.isWord ts).2 := by
  refine ⟨by simp [munch_append], (isKebab_cons_iff _ _).mpr ⟨h, munch_chainOk _ _⟩, ?_⟩
  intro run' rest' he hk
  cases run' with
  | nil => simp
  | cons t' run' =>
    simp at he
    obtain ⟨rfl, rfl⟩ := he
    have := munch_longest (rest := rest') ((isKebab_cons_iff _ _).mp hk).2
    simpa using this

/-- Whether a name is complete depends on the next token only. -/
theorem nameEnds_stops {t : TT} {r rest : Toks} : NameEnds (t :: r) rest ↔
    IsKebab (t :: r) ∧ kebabRaws (t :: r) = [] ∧ Stops (endsWord t.isWord r) rest := by
  unfold NameEnds
  constructor
  · rintro ⟨h, hr⟩
    have hm := munch_is_longest (h.kebab.start t rfl) (r ++ rest)
    obtain ⟨h1, h2⟩ := LongestKebab.unique h hm
    have := munch_rest_stops t.isWord (r ++ rest)
    simp only [List.cons.injEq, true_and] at h1
    rw [← h1, ← h2] at this
    exact ⟨h.kebab, hr, this⟩
  · rintro ⟨hk, hr, hs⟩
    refine ⟨?_, hr⟩
    have hm := munch_is_longest (hk.start t rfl) (r ++ rest)
    rwa [munch_append_of ((isKebab_cons_iff t r).mp hk).2 hs] at hm

/-- Names complete before `x` are complete before `y`. -/
def Softer (x y : Toks) : Prop := ∀ pw, Stops pw x → Stops pw y

theorem NameEnds.softer {run x y : Toks} (h : NameEnds run x) (hs : Softer x y) : NameEnds run y := by
  cases run with
  | nil => exact absurd rfl h.1.kebab.nonempty
  | cons t r =>
    obtain ⟨h1, h2, h3⟩ := nameEnds_stops.mp h
    exact nameEnds_stops.mpr ⟨h1, h2, hs _ h3⟩

theorem Softer.of_head {t : TT} {x r r' : Toks} : Softer (t :: r) (t :: r') := by
  intro pw h t' ht'
  exact h t' ht'

theorem Softer.of_neither {x r : Toks} {t : TT} (h1 : t.isDash = false) (h2 : t.isWord = false) :
    Softer x (t :: r) := by
  intro pw h t' ht'
  simp only [List.head?_cons, Option.some.injEq] at ht'
  subst ht'
  simp [h1, h2]

theorem Softer.nil {x : Toks} : Softer x [] := by
  intro pw h t' ht'
  simp at ht'

theorem Softer.refl (x : Toks) : Softer x x := fun _ h => h

/-- Same first token. -/
theorem Softer.append {a x y : Toks} (h : a ≠ []) : Softer (a ++ x) (a ++ y) := by
  cases a with
  | nil => exact absurd rfl h
  | cons t a => exact .of_head (x := [])

theorem Softer.append_left {a x y : Toks} (h : Softer x y) : Softer (a ++ x) (a ++ y) := by
  cases a with
  | nil => exact h
  | cons t a => exact .of_head (x := [])

theorem CKey.Wf.softer {k : CKey} {x y : Toks} (h : k.Wf x) (hs : Softer x y) : k.Wf y := by
  cases k with
  | name run => exact NameEnds.softer h hs
  | str s => trivial

theorem CAttr.Wf.softer {a : CAttr} {x y : Toks} (h : a.Wf x) (hs : Softer x y) : a.Wf y := by
  cases a with
  | bare name => exact NameEnds.softer h hs
  | short name => exact h
  | full name s v => exact NameEnds.softer h (.of_head (x := []))
  | dirShort d s name m => exact h
  | dir d s key m v =>
    have h : key.Wf (modifierToks m ++ eqToks v ++ x) := h
    exact CKey.Wf.softer h (.append_left hs)
  | spread s e => trivial

theorem CSel.Wf.softer {a : CSel} {x y : Toks} (h : a.Wf x) (hs : Softer x y) : a.Wf y := by
  cases a with
  | cls s name => exact NameEnds.softer h hs
  | id s name => exact NameEnds.softer h hs

theorem sels_softer {cs : List CSel} {x y : Toks} (h : listWf CSel.toks CSel.Wf cs x)
    (hs : Softer x y) : listWf CSel.toks CSel.Wf cs y := by
  induction cs with
  | nil => trivial
  | cons c cs ih => exact ⟨h.1.softer hs.append_left, ih h.2⟩

/-- A rewriting of attributes that can be done without looking at the surroundings. -/
structure Keeps (R : CAttr → CAttr → Prop) : Prop where
  ast : ∀ {a b}, R a b → a.ast = b.ast
  wf : ∀ {a b x}, R a b → a.Wf x → b.Wf x
  first : ∀ {a b x y}, R a b → a.Wf x → Softer (a.toks ++ x) (b.toks ++ y)

theorem CAttr.toks_ne_nil {a : CAttr} {x : Toks} (h : a.Wf x) : a.toks ≠ [] := by
  obtain ⟨t, r, he, _⟩ := CAttr.follows h
  simp [he]

theorem keeps_eq : Keeps Eq where
  ast := by rintro a b rfl; rfl
  wf := by rintro a b x rfl h; exact h
  first := by rintro a b x y rfl h; exact .append (CAttr.toks_ne_nil h)

theorem NameEnds.before_eq {run x y : Toks} {s : Spacing} (h : NameEnds run x) :
    NameEnds run (.punct '=' s :: y) :=
  h.softer (.of_neither rfl rfl)

theorem keeps_bool : Keeps BoolLong where
  ast := BoolLong.ast
  wf := by
    rintro a b x (_ | _) h
    · exact h
    · exact NameEnds.before_eq h
  first := by
    rintro a b x y (_ | ⟨name, s⟩) h
    · exact .append (CAttr.toks_ne_nil h)
    · have := CAttr.toks_ne_nil h
      simp only [CAttr.toks, List.append_assoc] at this ⊢
      exact .append this

/-- Long forms whose name has an identifier can be shortened. -/
def BraceShort (a b : CAttr) : Prop :=
  BraceLong b a ∧ ∀ name, ((∃ s, a = .full name s (.block [.ident (identOf name)])) ∨
    (∃ d s m v, a = .dir d s (.name name) m v)) → HasIdent name

theorem keeps_short : Keeps BraceShort where
  ast := fun h => h.1.ast.symm
  wf := by
    rintro a b x ⟨h, hi⟩ hw
    cases h with
    | refl => exact hw
    | attr name s => exact ⟨NameEnds.softer hw .nil, hi name (.inl ⟨s, rfl⟩)⟩
    | dir d s name m s' => exact ⟨NameEnds.softer hw .nil, hi name (.inr ⟨d, s, m, _, rfl⟩)⟩
  first := by
    rintro a b x y ⟨h, _⟩ hw
    cases h with
    | refl => exact .append (CAttr.toks_ne_nil hw)
    | attr name s => exact .of_neither rfl rfl
    | dir d s name m s' => exact .of_head (x := [])

/-! ### transport -/

section
variable {R : CAttr → CAttr → Prop} {D : Braces → Braces → Prop}

theorem attrs_transport (hR : Keeps R) {as bs : List CAttr} (h : List.Forall₂ R as bs) {x y : Toks}
    (hs : Softer x y) (hw : listWf CAttr.toks CAttr.Wf as x) :
    listWf CAttr.toks CAttr.Wf bs y ∧
      Softer (as.flatMap CAttr.toks ++ x) (bs.flatMap CAttr.toks ++ y) := by
  induction h with
  | nil => exact ⟨trivial, hs⟩
  | cons h _ ih =>
    obtain ⟨h1, h2⟩ := ih hw.2
    refine ⟨⟨CAttr.Wf.softer (hR.wf h hw.1) h2, h1⟩, ?_⟩
    simp only [List.flatMap_cons, List.append_assoc]
    exact hR.first h hw.1

theorem fin_softer (fin : CEnd) {x y : Toks} : Softer x (fin.toks ++ y) := by
  cases fin with
  | semi s => simp only [CEnd.toks]; exact .of_neither rfl rfl
  | block args d cs =>
    cases args with
    | none => simp only [CEnd.toks, argsToks]; exact .of_neither rfl rfl
    | some a => simp only [CEnd.toks, argsToks]; exact .of_neither rfl rfl

theorem followsTag_ne {t : TT} {r : Toks} (h : t.followsTag = true) {c : Char}
    (hc : c = ':' ∨ c = '<') : ∀ s r', t :: r ≠ .punct c s :: r' := by
  intro s r' he
  simp only [List.cons.injEq] at he
  rw [he.1] at h
  rcases hc with rfl | rfl <;> simp [TT.followsTag] at h

theorem PathLike.transport {used : Toks} {x y : Toks} {t : TT} (hu : used ≠ [])
    (hx : ∀ s r, x ≠ .punct ':' s :: r) (hx' : ∀ s r, x ≠ .punct '<' s :: r)
    (h : PathLike (used ++ x)) : PathLike (used ++ y) := by
  have hc : ∀ {u : Toks}, StartsColons (u ++ x) → StartsColons (u ++ y) := by
    rintro u ⟨s, r, he⟩
    rcases u with _ | ⟨a, _ | ⟨b, u⟩⟩
    · exact absurd he (hx _ _)
    · simp only [List.cons_append, List.nil_append, List.cons.injEq] at he
      exact absurd he.2 (hx _ _)
    · simp only [List.cons_append, List.cons.injEq] at he
      exact ⟨s, u ++ y, by simp [he]⟩
  rcases h with h | ⟨i, r, he, h⟩
  · exact .inl (hc h)
  · cases used with
    | nil => exact absurd rfl hu
    | cons a used =>
      simp only [List.cons_append, List.cons.injEq] at he
      obtain ⟨rfl, rfl⟩ := he
      refine .inr ⟨i, used ++ y, rfl, ?_⟩
      rcases h with h | ⟨s, r, h⟩
      · exact .inl (hc h)
      · right
        cases used with
        | nil => exact absurd h (hx' _ _)
        | cons b used =>
          simp only [List.cons_append, List.cons.injEq] at h
          exact ⟨s, used ++ y, by simp [h]⟩

theorem tag_transport (hloc : pp.Local) {tag : CTag} {x y : Toks} (hs : Softer x y)
    (hx : ∃ t r, x = t :: r ∧ t.followsTag = true) (hy : ∃ t r, y = t :: r ∧ t.followsTag = true)
    (h : tag.Wf pp x) : tag.Wf pp y := by
  obtain ⟨t, r, rfl, ht⟩ := hx
  obtain ⟨t', r', rfl, ht'⟩ := hy
  cases tag with
  | name run => exact ⟨h.1.softer hs, h.2⟩
  | path used p =>
    obtain ⟨h1, h2⟩ := h
    obtain ⟨u, hu, he⟩ := pp.progress _ _ _ h2
    have := List.append_cancel_right he
    subst this
    exact ⟨h1.transport (t := t) hu (followsTag_ne ht (.inl rfl)) (followsTag_ne ht (.inr rfl)),
      hloc h2 (followsTag_ne ht (.inl rfl)) (followsTag_ne ht (.inr rfl))
        (followsTag_ne ht' (.inl rfl)) (followsTag_ne ht' (.inr rfl))⟩

theorem elem_head {e e' : CElem} (h : e.Same R D e') {t : TT} {r : Toks} (hne : ∀ {tag sels attrs fin},
    e = .mk tag sels attrs fin → tag.toks ≠ []) (he : e.toks = t :: r) : ∃ r', e'.toks = t :: r' := by
  cases e with
  | mk tag sels attrs fin =>
    cases e' with
    | mk tag' sels' attrs' fin' =>
      rw [CElem.Same] at h
      obtain ⟨rfl, _, _, _⟩ := h
      have := hne rfl
      rw [CElem.toks] at he ⊢
      cases hq : tag.toks with
      | nil => exact absurd hq this
      | cons a u =>
        rw [hq, List.cons_append, List.cons.injEq] at he
        exact ⟨u ++ _, by rw [he.1, List.cons_append]⟩

theorem elem_tag_ne_nil (hpp : pp.Starts) {e : CElem} {x : Toks} (h : e.Wf pp x)
    {tag sels attrs fin} (he : e = .mk tag sels attrs fin) : tag.toks ≠ [] := by
  subst he
  rw [CElem.Wf] at h
  obtain ⟨t, r, ht⟩ := CTag.toks_ne_nil hpp h.1
  simp [ht]

mutual
theorem CElem.Same.wf (hpp : pp.Starts) (hloc : pp.Local) (hR : Keeps R) :
    (e e' : CElem) → e.Same R D e' → (x y : Toks) → e.Wf pp x → e'.Wf pp y
  | .mk tag sels attrs fin, .mk tag' sels' attrs' fin', h, x, y, hw => by
    rw [CElem.Same] at h
    obtain ⟨rfl, rfl, ha, hf⟩ := h
    rw [CElem.Wf] at hw ⊢
    obtain ⟨h1, h2, h3, h4⟩ := hw
    obtain ⟨h5, h6⟩ := attrs_transport hR ha (fin_softer fin' (x := fin.toks ++ x) (y := y)) h3
    have hx := attrs_follows h3 (fin_follows fin x)
    have hy := attrs_follows h5 (fin_follows fin' y)
    exact ⟨tag_transport hloc h6.append_left (sels_followsTag hx) (sels_followsTag hy) h1,
      sels_softer h2 h6, h5, CEnd.Same.wf hpp hloc hR fin fin' hf h4⟩
theorem CEnd.Same.wf (hpp : pp.Starts) (hloc : pp.Local) (hR : Keeps R) :
    (e e' : CEnd) → e.Same R D e' → e.Wf pp → e'.Wf pp
  | .semi s, .semi s', h, _ => by rw [CEnd.Wf]; trivial
  | .block args d cs, .block args' d' cs', h, hw => by
    rw [CEnd.Same] at h
    obtain ⟨rfl, _, hc⟩ := h
    rw [CEnd.Wf] at hw ⊢
    exact ⟨hw.1, childrenSame.wf hpp hloc hR cs cs' hc [] [] hw.2⟩
  | .semi s, .block args d cs, h, _ => by simp [CEnd.Same] at h
  | .block args d cs, .semi s, h, _ => by simp [CEnd.Same] at h
theorem CChild.Same.wf (hpp : pp.Starts) (hloc : pp.Local) (hR : Keeps R) :
    (e e' : CChild) → e.Same R D e' → (x y : Toks) → e.Wf pp x → e'.Wf pp y
  | .value v, .value v', h, _, _, hw => by
    rw [CChild.Same] at h; subst h; rw [CChild.Wf] at hw ⊢; exact hw
  | .elem e, .elem e', h, x, y, hw => by
    rw [CChild.Same] at h
    rw [CChild.Wf] at hw ⊢
    obtain ⟨hw, i, r, he, hi⟩ := hw
    obtain ⟨r', he'⟩ := elem_head h (elem_tag_ne_nil hpp hw) he
    exact ⟨CElem.Same.wf hpp hloc hR e e' h x y hw, i, r', he', hi⟩
  | .slot s e, .slot s' e', h, x, y, hw => by
    rw [CChild.Same] at h
    obtain ⟨rfl, h⟩ := h
    rw [CChild.Wf] at hw ⊢
    obtain ⟨hw, hns⟩ := hw
    obtain ⟨t, r, he⟩ := CElem.toks_ne_nil hpp hw
    obtain ⟨r', he'⟩ := elem_head h (elem_tag_ne_nil hpp hw) he
    refine ⟨CElem.Same.wf hpp hloc hR e e' h x y hw, ?_⟩
    rintro ⟨rfl, s', r'', hx⟩
    rw [he', List.cons.injEq] at hx
    exact hns ⟨rfl, s', r, by rw [he, hx.1]⟩
  | .value _, .elem _, h, _, _, _ => by simp [CChild.Same] at h
  | .value _, .slot _ _, h, _, _, _ => by simp [CChild.Same] at h
  | .elem _, .value _, h, _, _, _ => by simp [CChild.Same] at h
  | .elem _, .slot _ _, h, _, _, _ => by simp [CChild.Same] at h
  | .slot _ _, .value _, h, _, _, _ => by simp [CChild.Same] at h
  | .slot _ _, .elem _, h, _, _, _ => by simp [CChild.Same] at h
theorem childrenSame.wf (hpp : pp.Starts) (hloc : pp.Local) (hR : Keeps R) :
    (cs cs' : List CChild) → childrenSame R D cs cs' → (x y : Toks) → childrenWf pp cs x →
      childrenWf pp cs' y
  | [], [], _, _, _, _ => by rw [childrenWf]; trivial
  | c :: cs, c' :: cs', h, x, y, hw => by
    rw [childrenSame] at h
    rw [childrenWf] at hw ⊢
    exact ⟨CChild.Same.wf hpp hloc hR c c' h.1 _ _ hw.1,
      childrenSame.wf hpp hloc hR cs cs' h.2 _ _ hw.2⟩
  | [], _ :: _, h, _, _, _ => by simp [childrenSame] at h
  | _ :: _, [], h, _, _, _ => by simp [childrenSame] at h
end
end

end Mview
