import Verif.Lemmas.Opaque
import Verif.Props.Count
/-
C46: the macro does not look at the user's code.
-/

-- the linter does not see variables used inside `q!"..."`
set_option linter.unusedVariables false

namespace Mview
open Lex

variable {pp : PathParser} {s : Sched} {R : Toks → Toks → Prop} {cs cs' : List CChild}
  {f : Str → Option Toks} {out : Toks}

/-- C46.  Two inputs that are the same but for pieces of code, whatever these are, have the same result
but for these pieces: the same errors, or expansions that are the same everywhere else. -/
theorem code_opaque (hpp : pp.Starts) (hloc : pp.Local) (hx : LexicalToks (childrenToks cs))
    (hx' : LexicalToks (childrenToks cs')) (hc : childrenWf pp cs []) (h : childrenAlike R cs cs') :
    (mview pp s (childrenToks cs)).Alike R (mview pp s (childrenToks cs')) := by
  have hp : Parses pp (childrenToks cs) (childrenAst cs) := (parses_iff hpp hx).mpr ⟨cs, hc, rfl, rfl⟩
  have hp' : Parses pp (childrenToks cs') (childrenAst cs') :=
    (parses_iff hpp hx').mpr ⟨cs', childrenAlike.wf hpp hloc cs cs' h [] [] hc, rfl, rfl⟩
  have ht := mview_terminates pp s (childrenToks cs)
  have hr := root_alike s (childrenAlike.ast cs cs' h)
  unfold Parses at hp hp'
  simp only [mview, mviewImpl, hp, hp', Bind.bind, Out.bind] at ht ⊢
  generalize expandRoot s (childrenAst cs) = x, expandRoot s (childrenAst cs') = y at hr ht ⊢
  cases hr with
  | ret ds h =>
    cases ds with
    | nil => exact .tokens h
    | cons d ds => exact .errors _ _
  | abort ds => exact .errors _ _
  | panic p => exact .panicked p
  | diverge => exact absurd rfl ht

theorem fill_append (a b : Toks) : fill f (a ++ b) = fill f a ++ fill f b := by
  induction a with
  | nil => simp [fill]
  | cons t a ih => simp [fill, ih]

theorem NoMarks.cons {t : TT} {ts : Toks} (h : NoMarks f (t :: ts)) : NoMarks f [t] ∧ NoMarks f ts := by
  constructor <;> intro x hx <;> have := h x hx <;> simp only [occ, weigh] at this ⊢ <;> omega

theorem NoMarks.group {d : Delim} {ts : Toks} (h : NoMarks f [.group d ts]) : NoMarks f ts := by
  intro x hx
  have := h x hx
  simpa only [occ, weigh, TT.weight, Nat.add_zero] using this

theorem NoMarks.append {a b : Toks} (h : NoMarks f (a ++ b)) : NoMarks f a ∧ NoMarks f b := by
  constructor <;> intro x hx <;> have := h x hx <;> simp only [occ, weigh_append] at this ⊢ <;> omega

mutual
theorem TT.fill_none : (t : TT) → NoMarks f [t] → t.fill f = [t]
  | .ident i, _ => rfl
  | .punct c s, _ => rfl
  | .lit (.str _), _ => rfl
  | .lit (.int _), _ => rfl
  | .lit (.float _), _ => rfl
  | .lit (.other x), h => by
    cases hf : f x with
    | none => simp [TT.fill, hf]
    | some a =>
      have := h x (by simp [hf])
      simp [occ, weigh, TT.weight] at this
  | .group d ts, h => by rw [TT.fill, fill_none ts h.group]
theorem fill_none : (ts : Toks) → NoMarks f ts → fill f ts = ts
  | [], _ => rfl
  | t :: ts, h => by rw [fill, TT.fill_none t h.cons.1, fill_none ts h.cons.2]; rfl
end

theorem Alike.fill {a a' : Toks} (h : Alike (GapFor f) a a') (hn : NoMarks f a') : a' = fill f a := by
  induction h with
  | nil => rfl
  | tok t _ ih => rw [Mview.fill, TT.fill_none t hn.cons.1, ih hn.cons.2]; rfl
  | group d _ _ ih ih' => rw [Mview.fill, TT.fill, ← ih hn.cons.1.group, ih' hn.cons.2]; rfl
  | code h _ ih =>
    obtain ⟨x, rfl, hx⟩ := h
    rw [fill_append, ← ih hn.append.2]
    simp [Mview.fill, TT.fill, hx]

/-- C46.  The expansion is a template for code: filling the gaps marked in the code of an input
and expanding is the same as filling the gaps marked in its expansion. -/
theorem code_fills (hpp : pp.Starts) (hloc : pp.Local) (hx : LexicalToks (childrenToks cs))
    (hx' : LexicalToks (childrenToks cs')) (hc : childrenWf pp cs [])
    (h : childrenAlike (GapFor f) cs cs') (hn : NoMarks f (childrenToks cs'))
    (hg : NoMarks f (childrenPaths cs')) (ho : mview pp s (childrenToks cs) = .tokens out) :
    mview pp s (childrenToks cs') = .tokens (fill f out) := by
  have ha := code_opaque (s := s) hpp hloc hx hx' hc h
  rw [ho] at ha
  generalize hy : mview pp s (childrenToks cs') = y at ha
  cases ha with
  | tokens ha =>
    rw [ha.fill]
    intro x hf
    have := specials_once hpp hx' (childrenAlike.wf hpp hloc cs cs' h [] [] hc) hy (l := .other x)
      trivial (hg x hf)
    have := hn x hf
    omega

/-! ### an example -/

/-- A component with gaps in its attributes, closure arguments and children. -/
def gaps : List CChild :=
  [.elem (.mk (.name t!"Show") [.cls .alone t!"a"]
    [.full t!"when" .alone (.bracket none t!"'1'"),
      .dir (plain c!"on") .alone (.name t!"click") none (some (.alone, .block t!"'2'")),
      .spread .alone t!"'3'"]
    (.block (some (.alone, t!"'4'", .alone)) .brace
      [.value (.lit (.str c!"hi")), .value (.block t!"'5'")]))]

/-- The gaps filled. -/
def filled (a b c d e : Toks) : List CChild :=
  [.elem (.mk (.name t!"Show") [.cls .alone t!"a"]
    [.full t!"when" .alone (.bracket none a),
      .dir (plain c!"on") .alone (.name t!"click") none (some (.alone, .block b)),
      .spread .alone c]
    (.block (some (.alone, d, .alone)) .brace
      [.value (.lit (.str c!"hi")), .value (.block e)]))]

/-- What goes into the gaps. -/
def gapCode (a b c d e : Toks) (x : Str) : Option Toks :=
  if x = c!"'1'" then some a else if x = c!"'2'" then some b else if x = c!"'3'" then some c
  else if x = c!"'4'" then some d else if x = c!"'5'" then some e else none

example : childrenToks gaps = t!"Show.a when=['1'] on:click={'2'} {.. '3'} | '4'| { \"hi\" {'5'} }" := rfl

example (a b c d e : Toks) : childrenToks (filled a b c d e) =
    q!"Show.a when=[#a] on:click={#b} {.. #c} | #d| { \"hi\" {#e} }" := by
  simp [filled, childrenToks, CChild.toks, CElem.toks, CTag.toks, CSel.toks, CAttr.toks, CVal.toks, CKey.toks,
    CEnd.toks, argsToks, modifierToks, eqToks, Braces.delim]

theorem gaps_filled {a b c d e : Toks} (hd : ∀ t ∈ d, t.isPipe = false) :
    childrenAlike (GapFor (gapCode a b c d e)) gaps (filled a b c d e) := by
  unfold gaps filled
  simp only [childrenAlike, CChild.Alike, CElem.Alike, CEnd.Alike, and_true, true_and]
  exact ⟨.cons (.full _ _ (.bracket _ ⟨c!"'1'", rfl, rfl⟩)) (.cons (.dir _ _ _ _ _ (.block ⟨c!"'2'", rfl, rfl⟩))
    (.cons (.spread _ ⟨c!"'3'", rfl, rfl⟩) .nil)), .code _ _ ⟨c!"'4'", rfl, rfl⟩ hd, .refl _,
    .block ⟨c!"'5'", rfl, rfl⟩⟩

/-- The expansion with gaps. -/
def gapsOut : Toks :=
  t!"{ #[allow(unused_braces)] ::leptos::prelude::IntoRender::into_render(
    #[allow(unreachable_code)] ::leptos::prelude::View::new(
      ::leptos::component::component_view(& Show,
        ::leptos::component::component_props_builder(& Show)
          .r#when(move || { '1' })
          .children({ move | '4'| ::leptos::prelude::View::new((
            ::leptos::prelude::IntoRender::into_render(\"hi\"),
            ::leptos::prelude::IntoRender::into_render({ '5' }),)) })
          .build()
      ).add_any_attr((
        ::leptos::tachys::html::class::class((\"a\", true)),
        ::leptos::tachys::html::event::on(::leptos::tachys::html::event::r#click, { '2' }),
        '3',)))) }"

set_option maxRecDepth 20000 in
theorem gaps_expand : mview simplePaths (fun _ => []) (childrenToks gaps) = .tokens gapsOut := rfl

theorem gaps_wf : childrenWf simplePaths gaps [] := by
  have h {run after : Toks} {i : Ident} {r : Toks} (he : run ++ after = .ident i :: r) (hi : i.name ≠ ['-'])
      (hk : kebabSplit (run ++ after) = some (run, after)) (hr : kebabRaws run = []) :
      NameEnds run after :=
    ((nameEnds_iff (by rintro i r hx; rw [he, List.cons.injEq] at hx; cases hx.1; exact hi)).mpr ⟨hk, hr⟩).2
  unfold gaps
  rw [childrenWf, childrenWf, CChild.Wf, CElem.Wf, CEnd.Wf]
  refine ⟨⟨⟨⟨h rfl (by decide) rfl rfl, by decide⟩, ⟨h rfl (by decide) rfl rfl, trivial⟩,
    ⟨h rfl (by decide) rfl rfl, h rfl (by decide) rfl rfl, trivial, trivial⟩, ?_, ?_⟩,
    _, _, rfl, by decide, by decide⟩, trivial⟩
  · rintro _ _ _ ⟨⟩ t ht
    simp only [List.mem_singleton] at ht
    subst ht
    rfl
  · rw [childrenWf, childrenWf, childrenWf, CChild.Wf, CChild.Wf]
    exact ⟨trivial, trivial, trivial⟩

/-- Whatever code is put into the gaps (without dashes in identifiers or pipes in the arguments, and
without the marks), the expansion is this. -/
example {a b c d e : Toks} (hl : LexicalToks (childrenToks (filled a b c d e)))
    (hd : ∀ t ∈ d, t.isPipe = false)
    (hn : NoMarks (gapCode a b c d e) (childrenToks (filled a b c d e))) :
    mview simplePaths (fun _ => []) (childrenToks (filled a b c d e)) =
      .tokens (fill (gapCode a b c d e) gapsOut) :=
  code_fills simplePaths_starts simplePaths_local (lexical_of rfl) hl gaps_wf (gaps_filled hd) hn
    (fun _ _ => rfl) gaps_expand

/-- Without code there is no difference. -/
theorem alike_eq {a b : Toks} (h : Alike (fun _ _ => False) a b) : a = b := by
  induction h with
  | nil => rfl
  | tok t _ ih => rw [ih]
  | group d _ _ ih ih' => rw [ih, ih']
  | code h => exact h.elim

/-- The macro does look for pipes among the arguments: these cannot be any code. -/
example : (∃ out, mview simplePaths (fun _ => []) t!"Show |'4'| { \"hi\" }" = .tokens out) ∧
    ∃ ds d, mview simplePaths (fun _ => []) t!"Show |a | b| { \"hi\" }" = .errors ds d :=
  ⟨⟨_, rfl⟩, _, _, rfl⟩

end Mview
