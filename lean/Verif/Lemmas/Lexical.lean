import Verif.Spec.Lexical
import Verif.Lemmas.Mentions
import Verif.Lemmas.NightlyHygiene
import Verif.Lemmas.MeaningTree
/-
Proofs for C61.
-/

set_option linter.unusedVariables false
set_option linter.unusedSimpArgs false

namespace Mview
open Lex

variable {L : Letters} {t r : Toks}

/-! ### names -/

/-- A text of characters of identifiers and dashes. -/
def Parts (L : Letters) (n : Str) : Prop := ∀ c ∈ n, L.cont c ∨ c = '-'

theorem under_cont : L.cont '_' := L.later _ L.under

theorem parts_underscored {n : Str} (h : Parts L n) : ∀ c ∈ underscored n, L.cont c := by
  intro c hc
  obtain ⟨d, hd, rfl⟩ := List.mem_map.mp hc
  split
  · exact under_cont
  · rename_i hne; exact (h d hd).resolve_right hne

theorem Word.cont {n : Str} (h : Word L n) : ∀ c ∈ n, L.cont c := by
  obtain ⟨c, cs, rfl, h1, h2⟩ := h
  intro d hd
  rcases List.mem_cons.mp hd with rfl | hd
  · exact L.later _ h1
  · exact h2 d hd

theorem text_parts {x : TT} (h : x.Lexed L) (hx : x.isWord ∨ x.isDash) : Parts L x.text := by
  intro c hc
  cases x with
  | ident i => exact .inl (h.1.cont c hc)
  | punct p s =>
    simp only [TT.isWord, Bool.false_eq_true, false_or] at hx
    unfold TT.isDash at hx
    split at hx
    · rename_i he; cases he; simp only [TT.text, List.mem_singleton] at hc; exact .inr hc
    · cases hx
  | lit l =>
    cases l with
    | int t => exact .inl (h c hc)
    | _ => simp [TT.text] at hc
  | group d t => simp [TT.text] at hc

theorem lexed_append (a b : Toks) : Lexed L (a ++ b) ↔ Lexed L a ∧ Lexed L b := by
  induction a with
  | nil => simp [Lexed]
  | cons x a ih => simp [Lexed, ih, and_assoc]

theorem lexed_mem (h : Lexed L t) {x : TT} (hx : x ∈ t) : x.Lexed L := by
  induction t with
  | nil => simp at hx
  | cons y t ih =>
    simp only [Lexed] at h
    rcases List.mem_cons.mp hx with rfl | hx
    · exact h.1
    · exact ih h.2 hx

theorem kebab_parts {run : Toks} (h : Lexed L run) (hk : ∀ x ∈ run, x.isWord ∨ x.isDash) :
    Parts L (kebabText run) := by
  intro c hc
  obtain ⟨x, hx, hc⟩ := List.mem_flatMap.mp hc
  exact text_parts (lexed_mem h hx) (hk x hx) c hc

theorem kebab_word {run : Toks} (h : Lexed L run) (hk : IsKebab run) : Word L (underscored (kebabText run)) := by
  have hp := parts_underscored (kebab_parts h hk.tokens)
  cases run with
  | nil => exact absurd rfl hk.nonempty
  | cons x run =>
    have hs := hk.start x rfl
    simp only [Lexed] at h
    cases x with
    | ident i =>
      obtain ⟨c, cs, hi, h1, h2⟩ := h.1.1
      have he : underscored (kebabText (.ident i :: run)) =
          (if c = '-' then '_' else c) :: underscored (cs ++ kebabText run) := by
        simp [underscored, kebabText, TT.text, hi]
      rw [he] at hp ⊢
      refine ⟨_, _, rfl, ?_, fun d hd => hp d (List.mem_cons_of_mem _ hd)⟩
      split
      · exact L.under
      · exact h1
    | punct p s =>
      simp only [TT.isIdent, Bool.false_eq_true, false_or] at hs
      unfold TT.isDash at hs
      split at hs
      · rename_i he
        cases he
        exact ⟨'_', underscored (kebabText run), by simp [underscored, kebabText, TT.text], L.under,
          fun d hd => hp d (by
            have he : underscored (kebabText (.punct '-' s :: run)) = '_' :: underscored (kebabText run) := by
              simp [underscored, kebabText, TT.text]
            rw [he]; exact List.mem_cons_of_mem _ hd)⟩
      · cases hs
    | lit l => simp [TT.isIdent, TT.isDash] at hs
    | group d t => simp [TT.isIdent, TT.isDash] at hs

theorem longest_word {ts run rest : Toks} (h : Lexed L ts) (hk : LongestKebab ts run rest) :
    Word L (underscored (kebabText run)) :=
  kebab_word ((lexed_append _ _).mp (hk.split ▸ h)).1 hk.kebab


theorem toLower_start {c : Char} (h : L.start c) : L.start c.toLower := by
  rw [← lower_eq]
  cases hu : isAsciiUpper c with
  | false => rwa [asciiLower_of_not_upper hu]
  | true =>
    refine L.alpha _ ?_
    obtain ⟨k, rfl⟩ := upper_eq hu
    clear hu h
    revert k
    decide

theorem toLower_cont {c : Char} (h : L.cont c) : L.cont c.toLower := by
  rw [← lower_eq]
  cases hu : isAsciiUpper c with
  | false => rwa [asciiLower_of_not_upper hu]
  | true =>
    refine L.later _ (L.alpha _ ?_)
    obtain ⟨k, rfl⟩ := upper_eq hu
    clear hu h
    revert k
    decide

theorem snakeCase_word {n : Str} (h : Word L n) : Word L (snakeCase n) := by
  obtain ⟨c, cs, rfl, h1, h2⟩ := h
  refine ⟨_, _, rfl, toLower_start h1, fun d hd => ?_⟩
  obtain ⟨e, he, hd⟩ := List.mem_flatMap.mp hd
  have hc := h2 e he
  split at hd
  · simp only [List.mem_cons, List.not_mem_nil, or_false] at hd
    rcases hd with rfl | rfl
    · exact under_cont
    · exact toLower_cont hc
  · simp only [List.mem_singleton] at hd; subst hd; exact hc

theorem rawIdent_valid {n : Str} {i : Ident} (hw : Word L n) (h : rawIdent n = some i) : Valid L i := by
  unfold rawIdent at h
  split at h
  · cases h
  · cases h; exact ⟨hw, fun _ => by assumption⟩

theorem rawIdentOf_valid {n : Str} {i : Ident} (hw : Word L (underscored n)) (h : rawIdentOf n = some i) :
    Valid L i := rawIdent_valid hw h

/-- Text in ASCII that is an identifier. -/
def asciiWord : Str → Bool
  | [] => false
  | c :: cs => (c.isAlpha || c == '_') && cs.all fun d => d.isAlpha || d == '_' || d.isDigit

theorem ascii_word {n : Str} (h : asciiWord n = true) : Word L n := by
  cases n with
  | nil => cases h
  | cons c cs =>
    simp only [asciiWord, Bool.and_eq_true, Bool.or_eq_true, beq_iff_eq, List.all_eq_true] at h
    refine ⟨c, cs, rfl, ?_, fun d hd => ?_⟩
    · rcases h.1 with h | rfl
      · exact L.alpha _ h
      · exact L.under
    · rcases h.2 d hd with (h | rfl) | h
      · exact L.later _ (L.alpha _ h)
      · exact under_cont
      · exact L.digit _ h

theorem plain_valid {n : Str} (h : asciiWord n = true) : Valid L (plain n) := ⟨ascii_word h, by simp⟩

theorem id_valid : Valid L ⟨true, c!"id"⟩ := ⟨ascii_word rfl, by decide⟩

/-! ### all identifiers of some tokens -/

/-- All identifiers are valid. -/
def Words (L : Letters) (t : Toks) : Prop := ∀ i ∈ idents t, Valid L i

theorem words_nil : Words L [] ↔ True := by simp [Words, idents]
theorem words_ident {i : Ident} : Words L (.ident i :: r) ↔ Valid L i ∧ Words L r := by
  simp [Words, idents, TT.idents]
theorem words_punct {c : Char} {s : Spacing} : Words L (.punct c s :: r) ↔ Words L r := by
  simp [Words, idents, TT.idents]
theorem words_lit {l : Lit} : Words L (.lit l :: r) ↔ Words L r := by
  simp [Words, idents, TT.idents]
theorem words_group {d : Delim} : Words L (.group d t :: r) ↔ Words L t ∧ Words L r := by
  simp only [Words, idents, TT.idents, List.mem_append]
  exact ⟨fun h => ⟨fun i hi => h i (.inl hi), fun i hi => h i (.inr hi)⟩,
    fun h i hi => hi.elim (h.1 i) (h.2 i)⟩
theorem words_append : Words L (t ++ r) ↔ Words L t ∧ Words L r := by
  simp only [Words, idents_append, List.mem_append]
  exact ⟨fun h => ⟨fun i hi => h i (.inl hi), fun i hi => h i (.inr hi)⟩,
    fun h i hi => hi.elim (h.1 i) (h.2 i)⟩

mutual
theorem tt_lexed_words (x : TT) (h : x.Lexed L) : ∀ i ∈ x.idents, Valid L i := by
  cases x with
  | ident j =>
    simp only [TT.Lexed] at h
    simpa [TT.idents] using h
  | group d t =>
    simp only [TT.Lexed] at h
    simp only [TT.idents]
    exact lexed_words t h
  | punct c s => simp [TT.idents]
  | lit l => simp [TT.idents]
theorem lexed_words (t : Toks) (h : Lexed L t) : Words L t := by
  cases t with
  | nil => simp [Words, idents]
  | cons x r =>
    simp only [Lexed] at h
    intro i hi
    simp only [idents, List.mem_append] at hi
    exact hi.elim (tt_lexed_words x h.1 i) (lexed_words r h.2 i)
end

/-- work through generated code -/
macro "words" : tactic => `(tactic|
  (try simp only [splice_toks, splice_str, splice_ident, List.append_assoc, List.cons_append,
     List.nil_append, List.append_nil, words_nil, words_ident, words_punct, words_lit, words_group, words_append,
     and_true, true_and]
   repeat' (with_reducible first
     | assumption
     | exact trivial
     | exact id_valid
     | exact plain_valid rfl
     | refine And.intro ?_ ?_)))

/-! ### trees -/

/-- Names of attributes make identifiers. -/
def KvAttr.Fine (L : Letters) (a : KvAttr) : Prop := Word L (underscored a.key.repr) ∧ Words L a.value.code

/-- The key of a directive makes an identifier, unless it is a string. -/
def KebabOrStr.Fine (L : Letters) : KebabOrStr → Prop
  | .kebab k => Word L (underscored k.repr)
  | .str _ => True

def Attr.Fine (L : Letters) : Attr → Prop
  | .kv a => a.Fine L
  | .directive d => d.key.Fine L ∧ ∀ v, d.value = some v → Words L v.code
  | .spread e => Words L e

def Tag.Fine (L : Letters) : Tag → Prop
  | .html i | .svg i | .math i => Valid L i
  | .webComponent _ => True
  | .component p => ∀ i ∈ p.idents, Valid L i

mutual
def Element.Fine (L : Letters) : Element → Prop
  | .mk tag _ attrs args none => tag.Fine L ∧ (∀ a ∈ attrs, a.Fine L) ∧ (∀ a, args = some a → Words L a)
  | .mk tag _ attrs args (some cs) =>
    tag.Fine L ∧ (∀ a ∈ attrs, a.Fine L) ∧ (∀ a, args = some a → Words L a) ∧ ChildrenFine L cs
def ChildrenFine (L : Letters) : List Child → Prop
  | [] => True
  | .value v :: cs => Words L v.code ∧ ChildrenFine L cs
  | .elem e :: cs => e.Fine L ∧ ChildrenFine L cs
  | .slot e :: cs => e.Fine L ∧ ChildrenFine L cs
end

/-! ### what is generated -/

theorem chain_words {cs : List Call} (h : ∀ c ∈ cs, Valid L c.name ∧ Words L c.args) : Words L (chain cs) := by
  induction cs with
  | nil => simp [chain, words_nil]
  | cons c cs ih =>
    obtain ⟨n, a⟩ := c
    have h1 := h _ (List.mem_cons_self ..)
    have h2 := ih fun c hc => h c (List.mem_cons_of_mem _ hc)
    obtain ⟨h3, h4⟩ := h1
    simp only at h3 h4
    simp only [chain]
    words

theorem commaAfter_words {cs : List Toks} (h : ∀ c ∈ cs, Words L c) : Words L (commaAfter cs) := by
  induction cs with
  | nil => simp [commaAfter, words_nil]
  | cons c cs ih =>
    have h1 := h _ (List.mem_cons_self ..)
    have h2 := ih fun c hc => h c (List.mem_cons_of_mem _ hc)
    simp only [commaAfter]
    words

theorem commaBetween_words {cs : List Toks} (h : ∀ c ∈ cs, Words L c) : Words L (commaBetween cs) := by
  induction cs with
  | nil => simp [commaBetween, words_nil]
  | cons c cs ih =>
    have h1 := h _ (List.mem_cons_self ..)
    have h2 := ih fun c hc => h c (List.mem_cons_of_mem _ hc)
    cases cs with
    | nil => simpa [commaBetween] using h1
    | cons d cs => simp only [commaBetween]; words

theorem anyway_words {v : Value} (hu : Words L v.code) : Words L v.anyway := by
  unfold Value.anyway
  cases h : v.means with
  | none => simp [words_nil]
  | some t =>
    simp only [Option.getD_some]
    cases v with
    | lit l =>
      cases l with
      | tok l => cases h; words
      | bool b => cases b <;> cases h <;> words
    | block c => cases h; simp only [Value.code] at hu; words
    | bracket p c =>
      simp only [Value.code] at hu
      cases p with
      | none => cases h; words
      | some p =>
        simp only [Value.means] at h
        split at h
        · cases h; words
        · cases h

theorem optAnyway_words {v : Option Value} (hu : ∀ x, v = some x → Words L x.code) : Words L (optAnyway v) := by
  cases v with
  | none => simp [optAnyway, words_nil]
  | some v => exact anyway_words (hu _ rfl)

theorem trueAnyway_words {v : Option Value} (hu : ∀ x, v = some x → Words L x.code) : Words L (trueAnyway v) := by
  cases v with
  | none => simp only [trueAnyway]; words
  | some v => exact anyway_words (hu _ rfl)

theorem kvElementAnyway_words {kind : TagKind} {a : KvAttr} {c : Call} (h : a.onElementAnyway kind = some c)
    (hu : a.Fine L) : Valid L c.name ∧ Words L c.args := by
  obtain ⟨key, value⟩ := a
  have hz := anyway_words hu.2
  simp only [KvAttr.onElementAnyway] at h
  by_cases h1 : key.repr = c!"ref"
  · simp [h1] at h; subst h; exact ⟨plain_valid rfl, hz⟩
  by_cases h2 : Unchecked kind key.repr
  · simp only [h1, h2, if_true, if_false, Option.some.injEq] at h; subst h
    refine ⟨plain_valid rfl, ?_⟩
    words
  · simp only [h1, h2, if_false, Option.map_eq_some_iff] at h
    obtain ⟨n, hn, rfl⟩ := h
    exact ⟨rawIdentOf_valid hu.1 hn, hz⟩

theorem kvComponentAnyway_words {a : KvAttr} {c : Call} (h : a.onComponentAnyway = some c)
    (hu : a.Fine L) : Valid L c.name ∧ Words L c.args := by
  simp only [KvAttr.onComponentAnyway, Option.map_eq_some_iff] at h
  obtain ⟨n, hn, rfl⟩ := h
  exact ⟨rawIdentOf_valid hu.1 hn, anyway_words hu.2⟩

theorem identAnyway_valid {k : KebabOrStr} {n : Ident} (h : k.identAnyway = some n) (hk : k.Fine L) :
    Valid L n := by
  cases k with
  | kebab k => exact rawIdentOf_valid hk h
  | str x => cases h; exact plain_valid rfl

theorem eventAnyway_words {d : Directive} (h : d.eventAnyway = some t) (hk : d.key.Fine L) : Words L t := by
  have key : ∀ i : Ident, Valid L i → (if d.modifier = some (plain c!"undelegated") then
        some q!"::leptos::tachys::html::event::undelegated(::leptos::tachys::html::event::#i)"
      else some q!"::leptos::tachys::html::event::#i") = some t → Words L t := by
    intro i hi h
    split at h <;> cases h <;> words
  unfold Directive.eventAnyway at h
  cases hk' : d.key with
  | kebab k =>
    simp only [hk', Option.bind_eq_bind, Option.bind_eq_some_iff] at h
    obtain ⟨n, hn, h⟩ := h
    rw [hk'] at hk
    exact key n (rawIdentOf_valid hk hn) h
  | str x =>
    rw [hk'] at h
    exact key _ (plain_valid rfl) h

theorem useArgsAnyway_words {d : Directive} (h : d.useArgsAnyway = some t) (hk : d.key.Fine L)
    (hu : ∀ v, d.value = some v → Words L v.code) : Words L t := by
  obtain ⟨dir, key, m, v⟩ := d
  simp only [Directive.useArgsAnyway, Option.bind_eq_bind, Option.bind_eq_some_iff] at h
  obtain ⟨n, hn, h⟩ := h
  have hf := identAnyway_valid hn hk
  cases v with
  | none => cases h; words
  | some v =>
    cases h
    have hv := anyway_words (hu v rfl)
    words

theorem onElementAnyway_words {d : Directive} {cs : List Call} (h : d.onElementAnyway = some cs)
    (hu : Attr.Fine L (.directive d)) : ∀ c ∈ cs, Valid L c.name ∧ Words L c.args := by
  have hv := optAnyway_words hu.2
  unfold Directive.onElementAnyway at h
  simp only at h
  split at h
  · rename_i hd
    cases h
    simp only [List.mem_singleton]; rintro c rfl
    refine ⟨?_, by words⟩
    rcases hd with hd | hd <;> rw [hd] <;> exact plain_valid rfl
  split at h
  · rename_i hd
    cases h
    simp only [List.mem_singleton]; rintro c rfl
    exact ⟨by rw [hd]; exact plain_valid rfl, by words⟩
  split at h
  · rename_i hd
    simp only [Option.map_eq_some_iff] at h
    obtain ⟨ev, he, rfl⟩ := h
    have := eventAnyway_words he hu.1
    simp only [List.mem_singleton]; rintro c rfl
    exact ⟨by rw [hd]; exact plain_valid rfl, by words⟩
  split at h
  · rename_i hd
    simp only [Option.map_eq_some_iff] at h
    obtain ⟨a, ha, rfl⟩ := h
    simp only [List.mem_singleton]; rintro c rfl
    exact ⟨plain_valid rfl, useArgsAnyway_words ha hu.1 hu.2⟩
  · cases h; simp

theorem onComponentAnyway_words {d : Directive} {es : List Toks} (h : d.onComponentAnyway = some es)
    (hu : Attr.Fine L (.directive d)) : ∀ t ∈ es, Words L t := by
  have hv := trueAnyway_words hu.2
  have hv' := optAnyway_words hu.2
  have hk := hu.1
  unfold Directive.onComponentAnyway at h
  simp only at h
  split at h
  · rename_i hd
    have hdir : Valid L d.dir := by rcases hd with hd | hd <;> rw [hd] <;> exact plain_valid rfl
    cases h
    simp only [List.mem_singleton]; rintro c rfl
    words
  split at h
  · split at h
    · simp only [Option.map_eq_some_iff] at h
      obtain ⟨f, hf, rfl⟩ := h
      have hf := identAnyway_valid hf hk
      have hf' : Valid L (plain f.name) := ⟨hf.1, by simp⟩
      simp only [List.mem_singleton]; rintro c rfl
      words
    split at h
    · cases h
      simp only [List.mem_singleton]; rintro c rfl
      words
    · simp only [Option.map_eq_some_iff] at h
      obtain ⟨f, hf, rfl⟩ := h
      have hf := identAnyway_valid hf hk
      simp only [List.mem_singleton]; rintro c rfl
      words
  split at h
  · simp only [Option.map_eq_some_iff] at h
    obtain ⟨f, hf, rfl⟩ := h
    have hf := identAnyway_valid hf hk
    simp only [List.mem_singleton]; rintro c rfl
    words
  split at h
  · simp only [Option.map_eq_some_iff] at h
    obtain ⟨ev, he, rfl⟩ := h
    have := eventAnyway_words he hk
    simp only [List.mem_singleton]; rintro c rfl
    words
  split at h
  · simp only [Option.map_eq_some_iff] at h
    obtain ⟨a, ha, rfl⟩ := h
    have := useArgsAnyway_words ha hk hu.2
    simp only [List.mem_singleton]; rintro c rfl
    words
  · cases h; simp

theorem cloneAnyway_words {d : Directive} (h : d.cloneAnyway = some t) (hk : d.key.Fine L) : Words L t := by
  simp only [Directive.cloneAnyway, Option.map_eq_some_iff] at h
  obtain ⟨x, hx, rfl⟩ := h
  have hf := identAnyway_valid hx hk
  words

theorem coloured_words (k : KebabIdent) : Words L k.coloured := by
  have hc : ∀ n, Words L (colours n) := by
    intro n
    induction n with
    | zero => simp [colours, words_nil]
    | succ n ih => simp only [colours]; words
  have := hc k.spans
  simp only [KebabIdent.coloured]
  words

theorem kvs_fine {attrs : List Attr} (hu : ∀ a ∈ attrs, a.Fine L) : ∀ a ∈ kvs attrs, a.Fine L := by
  intro a ha
  simp only [kvs, List.mem_filterMap] at ha
  obtain ⟨x, hx, hxa⟩ := ha
  cases x <;> simp at hxa
  subst hxa
  exact hu _ hx

theorem directives_fine {attrs : List Attr} (hu : ∀ a ∈ attrs, a.Fine L) :
    ∀ d ∈ directives attrs, Attr.Fine L (.directive d) := by
  intro a ha
  simp only [directives, List.mem_filterMap] at ha
  obtain ⟨x, hx, hxa⟩ := ha
  cases x <;> simp at hxa
  subst hxa
  exact hu _ hx

theorem spreads_words {attrs : List Attr} (hu : ∀ a ∈ attrs, a.Fine L) : ∀ e ∈ spreads attrs, Words L e := by
  intro a ha
  simp only [spreads, List.mem_filterMap] at ha
  obtain ⟨x, hx, hxa⟩ := ha
  cases x <;> simp at hxa
  subst hxa
  exact hu _ hx

theorem xmlAnyway_words {tag : Tag} {sels : List Selector} {attrs : List Attr} {ns : List Toks}
    (h : xmlAnyway tag sels attrs ns = some t) (hn : ∀ n ∈ ns, Words L n) (ht : tag.Fine L)
    (hu : ∀ a ∈ attrs, a.Fine L) : Words L t := by
  simp only [xmlAnyway, Option.bind_eq_bind, Option.bind_eq_some_iff, Option.pure_def, Option.some.injEq] at h
  obtain ⟨hd, hhd, as, has, ds, hds, rfl⟩ := h
  have h0 : Words L hd := by
    cases tag <;> cases hhd <;> simp only [Tag.Fine] at ht <;> words
  have h1 : Words L (chain (as ++ ds.flatten ++ (classes sels).map classCall ++ (ids sels).map idCall ++
      (spreads attrs).map spreadCall ++ ns.map childCall)) := by
    apply chain_words
    intro c hc
    simp only [List.mem_append] at hc
    rcases hc with ((((hc | hc) | hc) | hc) | hc) | hc
    · exact mapM_all (P := fun c => Valid L c.name ∧ Words L c.args) has
        (fun a ha b hb => kvElementAnyway_words hb (kvs_fine hu a ha)) c hc
    · obtain ⟨l, hl, hc⟩ := List.mem_flatten.mp hc
      exact mapM_all (P := fun l => ∀ c ∈ l, Valid L c.name ∧ Words L c.args) hds
        (fun a ha b hb => onElementAnyway_words hb (directives_fine hu a ha)) l hl c hc
    · obtain ⟨k, _, rfl⟩ := List.mem_map.mp hc
      have := coloured_words (L := L) k
      simp only [classCall]
      exact ⟨plain_valid rfl, by words⟩
    · obtain ⟨k, _, rfl⟩ := List.mem_map.mp hc
      exact ⟨plain_valid rfl, coloured_words k⟩
    · obtain ⟨k, hk, rfl⟩ := List.mem_map.mp hc
      exact ⟨plain_valid rfl, spreads_words hu k hk⟩
    · obtain ⟨k, hk, rfl⟩ := List.mem_map.mp hc
      exact ⟨plain_valid rfl, hn k hk⟩
  generalize chain _ = x at *
  words

theorem clonesAnyway_words {attrs : List Attr} {cl : List Toks}
    (h : (clones attrs).mapM Directive.cloneAnyway = some cl) (hu : ∀ a ∈ attrs, a.Fine L) :
    Words L cl.flatten := by
  have h1 := mapM_all (P := fun c => Words L c) h fun a ha b hb => by
    simp only [clones, List.mem_filter] at ha
    exact cloneAnyway_words hb (directives_fine hu a ha.1).1
  clear h
  induction cl with
  | nil => simp [words_nil]
  | cons c cl ih =>
    rw [List.flatten_cons, words_append]
    exact ⟨h1 c (by simp), ih fun b hb => h1 b (by simp [hb])⟩

theorem kvsComponentAnyway_words {attrs : List Attr} {as : List Call}
    (has : (kvs attrs).mapM KvAttr.onComponentAnyway = some as) (hu : ∀ a ∈ attrs, a.Fine L) :
    ∀ c ∈ as, Valid L c.name ∧ Words L c.args :=
  mapM_all (P := fun c => Valid L c.name ∧ Words L c.args) has
    fun a ha b hb => kvComponentAnyway_words hb (kvs_fine hu a ha)

theorem view_words {ns : List Toks} (hn : ∀ n ∈ ns, Words L n) : Words L (viewOf ns) := by
  have := commaAfter_words hn
  simp only [viewOf]
  words

theorem children_words {args : Option Toks} {cl : Toks} {ns : List Toks} (hn : ∀ n ∈ ns, Words L n)
    (hcl : Words L cl) (ha : ∀ a, args = some a → Words L a) :
    ∀ c ∈ childrenCall args cl ns, Valid L c.name ∧ Words L c.args := by
  have hv := view_words hn
  intro c hc
  unfold childrenCall at hc
  simp only at hc
  split at hc
  · simp at hc
  · cases args with
    | none =>
      simp only [List.mem_singleton] at hc; subst hc
      exact ⟨plain_valid rfl, by words⟩
    | some a =>
      have := ha a rfl
      simp only [List.mem_singleton] at hc; subst hc
      exact ⟨plain_valid rfl, by words⟩

theorem path_words {p : Path} (h : p.means = some t) (hp : ∀ i ∈ p.idents, Valid L i) : Words L t :=
  fun i hi => hp i (path_idents h i hi)

theorem componentAnyway_words {p : Path} {sels : List Selector} {attrs : List Attr} {args : Option Toks}
    {ns : List Toks} {calls : List Call} (h : componentAnyway p sels attrs args ns calls = some t)
    (hn : ∀ n ∈ ns, Words L n) (hc : ∀ c ∈ calls, Valid L c.name ∧ Words L c.args)
    (hp : ∀ i ∈ p.idents, Valid L i) (hu : ∀ a ∈ attrs, a.Fine L) (ha : ∀ a, args = some a → Words L a) :
    Words L t := by
  simp only [componentAnyway, Option.bind_eq_bind, Option.bind_eq_some_iff, Option.pure_def,
    Option.some.injEq] at h
  obtain ⟨pt, hpt, as, has, es, hes, cl, hcl, rfl⟩ := h
  have h0 := path_words hpt hp
  have h1 : Words L (chain (as ++ childrenCall args cl.flatten ns ++ calls ++ [⟨plain c!"build", []⟩])) := by
    apply chain_words
    intro c hc'
    simp only [List.mem_append, List.mem_singleton] at hc'
    rcases hc' with ((hc' | hc') | hc') | rfl
    · exact kvsComponentAnyway_words has hu c hc'
    · exact children_words hn (clonesAnyway_words hcl hu) ha c hc'
    · exact hc c hc'
    · exact ⟨plain_valid rfl, by words⟩
  have h2 : Words L (commaAfter ((classes sels).map classEntry ++ idEntry (ids sels) ++ es.flatten)) := by
    apply commaAfter_words
    intro c hc'
    simp only [List.mem_append] at hc'
    rcases hc' with (hc' | hc') | hc'
    · obtain ⟨k, _, rfl⟩ := List.mem_map.mp hc'
      simp only [classEntry]
      words
    · unfold idEntry at hc'
      split at hc'
      · simp at hc'
      · simp only [List.mem_singleton] at hc'; subst hc'; words
    · obtain ⟨l, hl, hc'⟩ := List.mem_flatten.mp hc'
      refine mapM_all (P := fun l => ∀ c ∈ l, Words L c) hes ?_ l hl c hc'
      intro a ha' b hb
      simp only [entries, List.mem_filter] at ha'
      cases a with
      | kv a => cases hb; simp
      | directive d => exact onComponentAnyway_words hb (hu _ ha'.1)
      | spread e => cases hb; simp only [List.mem_singleton]; rintro c rfl; exact hu _ ha'.1
  generalize chain _ = x at *
  generalize commaAfter _ = y at *
  words

theorem slotAnyway_words {p : Path} {attrs : List Attr} {args : Option Toks} {ns : List Toks}
    (h : slotAnyway p attrs args ns = some t) (hn : ∀ n ∈ ns, Words L n)
    (hp : ∀ i ∈ p.idents, Valid L i) (hu : ∀ a ∈ attrs, a.Fine L) (ha : ∀ a, args = some a → Words L a) :
    Words L t := by
  simp only [slotAnyway, Option.bind_eq_bind, Option.bind_eq_some_iff, Option.pure_def,
    Option.some.injEq] at h
  obtain ⟨pt, hpt, as, has, cl, hcl, rfl⟩ := h
  have h0 := path_words hpt hp
  have h1 : Words L (chain (as ++ childrenCall args cl.flatten ns ++ [⟨plain c!"build", []⟩])) := by
    apply chain_words
    intro c hc'
    simp only [List.mem_append, List.mem_singleton] at hc'
    rcases hc' with (hc' | hc') | rfl
    · exact kvsComponentAnyway_words has hu c hc'
    · exact children_words hn (clonesAnyway_words hcl hu) ha c hc'
    · exact ⟨plain_valid rfl, by words⟩
  generalize chain _ = x at *
  words

theorem slotCalls_words {ss : List (Ident × Toks)} {calls : List Call} (h : SlotCalls ss calls)
    (hs : ∀ p ∈ ss, Valid L p.1 ∧ Words L p.2) : ∀ c ∈ calls, Valid L c.name ∧ Words L c.args := by
  obtain ⟨names, _, hm, h⟩ := h
  refine mapM_all (P := fun c => Valid L c.name ∧ Words L c.args) h ?_
  intro n hn c hc
  simp only [Option.bind_eq_bind, Option.bind_eq_some_iff, Option.pure_def, Option.some.injEq] at hc
  obtain ⟨m, hm', rfl⟩ := hc
  refine ⟨?_, ?_⟩
  · obtain ⟨p, hp, rfl⟩ := List.mem_map.mp ((hm n).mp hn)
    exact rawIdent_valid (snakeCase_word (hs p hp).1.1) hm'
  · have hz : ∀ x ∈ (ss.filter (·.1 = n)).map Prod.snd, Words L x := by
      intro x hx
      obtain ⟨p, hp, rfl⟩ := List.mem_map.mp hx
      exact (hs p (List.mem_filter.mp hp).1).2
    generalize (ss.filter (·.1 = n)).map Prod.snd = xs at hz
    have hb := commaBetween_words hz
    unfold slotArg
    split
    · exact hz _ (by simp)
    · words

theorem rendered_words (h : Words L t) : Words L (rendered t) := by
  simp only [rendered]
  words

mutual
theorem elementAnyway_words (asSlot : Bool) : ∀ (e : Element) (t : Toks),
    e.Becomes asSlot t → e.Fine L → Words L t
  | .mk tag sels attrs args none, t, h, hu => by
    simp only [Element.Fine] at hu
    by_cases hp : ∃ p, tag = .component p
    · obtain ⟨p, rfl⟩ := hp
      cases asSlot with
      | false =>
        simp only [Element.Becomes] at h
        exact componentAnyway_words h (by simp) (by simp) hu.1 hu.2.1 hu.2.2
      | true =>
        simp only [Element.Becomes] at h
        exact slotAnyway_words h (by simp) hu.1 hu.2.1 hu.2.2
    · cases asSlot with
      | false =>
        have hx : xmlAnyway tag sels attrs [] = some t := by
          cases tag <;> first | exact absurd ⟨_, rfl⟩ hp | simpa only [Element.Becomes] using h
        exact xmlAnyway_words hx (by simp) hu.1 hu.2.1
      | true => cases tag <;> first | exact absurd ⟨_, rfl⟩ hp | (simp only [Element.Becomes] at h)
  | .mk tag sels attrs args (some cs), t, h, hu => by
    simp only [Element.Fine] at hu
    by_cases hp : ∃ p, tag = .component p
    · obtain ⟨p, rfl⟩ := hp
      cases asSlot with
      | false =>
        simp only [Element.Becomes] at h
        obtain ⟨ns, ss, calls, hns, hss, hcalls, h⟩ := h
        exact componentAnyway_words h (nodesAnyway_words cs ns hns hu.2.2.2)
          (slotCalls_words hcalls (slotsAnyway_words cs ss hss hu.2.2.2)) hu.1 hu.2.1 hu.2.2.1
      | true =>
        simp only [Element.Becomes] at h
        obtain ⟨ns, ss, calls, hns, hss, hcalls, h⟩ := h
        exact slotAnyway_words h (nodesAnyway_words cs ns hns hu.2.2.2) hu.1 hu.2.1 hu.2.2.1
    · cases asSlot with
      | false =>
        have hx : ∃ ns, NodesBecome cs ns ∧ xmlAnyway tag sels attrs ns = some t := by
          cases tag <;> first | exact absurd ⟨_, rfl⟩ hp | simpa only [Element.Becomes] using h
        obtain ⟨ns, hns, hx⟩ := hx
        exact xmlAnyway_words hx (nodesAnyway_words cs ns hns hu.2.2.2) hu.1 hu.2.1
      | true => cases tag <;> first | exact absurd ⟨_, rfl⟩ hp | (simp only [Element.Becomes] at h)

theorem nodesAnyway_words : ∀ (cs : List Child) (ns : List Toks),
    NodesBecome cs ns → ChildrenFine L cs → ∀ n ∈ ns, Words L n
  | [], ns, h, _ => by
    simp only [NodesBecome] at h
    subst h; simp
  | .value v :: cs, ns, h, hu => by
    simp only [NodesBecome] at h
    obtain ⟨ns, hns, rfl⟩ := h
    simp only [ChildrenFine] at hu
    intro n hn
    rcases List.mem_cons.mp hn with rfl | hn
    · exact rendered_words (anyway_words hu.1)
    · exact nodesAnyway_words cs ns hns hu.2 n hn
  | .elem e :: cs, ns, h, hu => by
    simp only [NodesBecome] at h
    obtain ⟨t, ns, ht, hns, rfl⟩ := h
    simp only [ChildrenFine] at hu
    intro n hn
    rcases List.mem_cons.mp hn with rfl | hn
    · exact rendered_words (elementAnyway_words false e t ht hu.1)
    · exact nodesAnyway_words cs ns hns hu.2 n hn
  | .slot e :: cs, ns, h, hu => by
    simp only [NodesBecome] at h
    simp only [ChildrenFine] at hu
    exact nodesAnyway_words cs ns h hu.2

theorem slotsAnyway_words : ∀ (cs : List Child) (ss : List (Ident × Toks)),
    SlotsBecome cs ss → ChildrenFine L cs → ∀ p ∈ ss, Valid L p.1 ∧ Words L p.2
  | [], ss, h, _ => by
    simp only [SlotsBecome] at h
    subst h; simp
  | .value v :: cs, ss, h, hu => by
    simp only [SlotsBecome] at h
    simp only [ChildrenFine] at hu
    exact slotsAnyway_words cs ss h hu.2
  | .elem e :: cs, ss, h, hu => by
    simp only [SlotsBecome] at h
    simp only [ChildrenFine] at hu
    exact slotsAnyway_words cs ss h hu.2
  | .slot e :: cs, ss, h, hu => by
    simp only [SlotsBecome] at h
    simp only [ChildrenFine] at hu
    have htag : e.tag.Fine L := by
      obtain ⟨tag, _, _, _, _ | _⟩ := e <;> simp only [Element.Fine] at hu <;> exact hu.1.1
    split at h
    · rename_i name heq
      obtain ⟨t, ss, ht, hss, rfl⟩ := h
      intro p hp
      rcases List.mem_cons.mp hp with rfl | hp
      · refine ⟨?_, elementAnyway_words true e t ht hu.1⟩
        rw [heq] at htag
        exact htag name (by simp [Path.idents])
      · exact slotsAnyway_words cs ss hss hu.2 p hp
    · exact slotsAnyway_words cs ss h hu.2
    · exact h.elim
end

theorem rootAnyway_words {root : List Child} (h : RootBecomes root t) (hf : ChildrenFine L root) : Words L t := by
  obtain ⟨_, ns, hns, h⟩ := h
  have hz := nodesAnyway_words root ns hns hf
  have hv := view_words hz
  rcases ns with _ | ⟨x, _ | ⟨y, ns⟩⟩
  · subst h; words
  · have := hz x (by simp)
    subst h; words
  · subst h; words


/-! ### what is read -/

theorem kebabOf_fine {ts run rest : Toks} (h : Lexed L ts) (hk : LongestKebab ts run rest) :
    Word L (underscored (kebabOf run).repr) := longest_word h hk

theorem lexed_suffix {u : Toks} (h : Lexed L (u ++ r)) : Lexed L r := ((lexed_append _ _).mp h).2

theorem bool_words (b : Bool) : Words L (Value.lit (.bool b)).code := by
  cases b <;> simp only [Value.code] <;> words

theorem cval_words (v : CVal) (h : Lexed L v.toks) : Words L v.ast.code := by
  cases v with
  | lit l => simp only [CVal.ast, Value.code]; words
  | bool b => exact bool_words b
  | neg s f text => simp only [CVal.ast, Value.code]; words
  | block code =>
    simp only [CVal.toks, Lexed, TT.Lexed] at h
    exact lexed_words _ h.1
  | bracket p code =>
    cases p with
    | none =>
      simp only [CVal.toks, Lexed, TT.Lexed] at h
      exact lexed_words _ h.1
    | some p =>
      simp only [CVal.toks, Lexed, TT.Lexed] at h
      exact lexed_words _ h.2.1

theorem value_words {ts : Toks} {is : List Issue} {v : Value} {rest : Toks} (h : ReadsValue ts is v rest)
    (hl : Lexed L ts) : Words L v.code := by
  cases h with
  | value h => exact cval_words _ ((lexed_append _ _).mp hl).1
  | missing => simp only [Value.code]; words

theorem eq_words {ts : Toks} {is : List Issue} {v : Option Value} {rest : Toks} (h : ReadsEq ts is v rest)
    (hl : Lexed L ts) : ∀ w, v = some w → Words L w.code := by
  cases h with
  | some h => intro w hw; cases hw; exact value_words h hl.2
  | none => simp

theorem key_fine {ts : Toks} {is : List Issue} {k : KebabOrStr} {rest : Toks} (h : ReadsKey ts is k rest)
    (hl : Lexed L ts) : k.Fine L := by
  cases h with
  | str => trivial
  | name h => exact kebabOf_fine hl h

theorem shortValue_words {c : Toks} (hl : Lexed L c) (h : AllName c)
    (hc : Issue.crash ∉ nameIssues (kebabText c)) : Words L (shortValue c).code := by
  cases hr : rawIdentOf (kebabText c) with
  | some i =>
    have := rawIdentOf_valid (longest_word hl h) hr
    simp only [shortValue, Value.code, identOf, hr, Option.getD_some]
    words
  | none =>
    have : ¬ Str.Identlike (kebabText c) := fun h' => by
      obtain ⟨i, hi⟩ := (def_rawIdentOf _).mpr h'
      simp [hr] at hi
    exact absurd (by simp [nameIssues, this]) hc

theorem attrs_fine {ts : Toks} {is : List Issue} {as : List Attr} {rest : Toks}
    (h : ReadsAttrs ts is as rest) (hg : Goes is) (hl : Lexed L ts) : ∀ a ∈ as, a.Fine L := by
  induction h with
  | @short c rest is as left hk _ ih =>
    simp only [goes_append] at hg
    simp only [Lexed, TT.Lexed] at hl
    intro a ha
    rcases List.mem_cons.mp ha with rfl | ha
    · exact ⟨kebabOf_fine hl.1 hk, shortValue_words hl.1 hk hg.2.1.noCrash⟩
    · exact ih hg.2.2 hl.2 a ha
  | @spread s e rest is as left _ ih =>
    simp only [Lexed, TT.Lexed] at hl
    intro a ha
    rcases List.mem_cons.mp ha with rfl | ha
    · exact lexed_words _ hl.1.2.2
    · exact ih hg hl.2 a ha
  | @kv ts run rest js v rest' is as left hk _ he _ ih =>
    simp only [goes_append] at hg
    have hl1 : Lexed L rest := lexed_suffix (hk.split ▸ hl)
    obtain ⟨_, w, rfl⟩ := eq_from he
    intro a ha
    rcases List.mem_cons.mp ha with rfl | ha
    · refine ⟨kebabOf_fine hl hk, ?_⟩
      cases v with
      | none => exact bool_words true
      | some v => exact eq_words he hl1 v rfl
    · exact ih hg.2.2 (lexed_suffix hl1) a ha
  | @dirShort d s c rest m rest' is as left hk hm _ ih =>
    simp only [goes_append] at hg
    obtain ⟨w, rfl⟩ := modifier_split hm
    simp only [Lexed, TT.Lexed] at hl
    intro a ha
    rcases List.mem_cons.mp ha with rfl | ha
    · exact ⟨kebabOf_fine hl.2.2.1 hk, fun v hv => by
        cases hv; exact shortValue_words hl.2.2.1 hk hg.2.1.noCrash⟩
    · exact ih hg.2.2 (lexed_suffix hl.2.2.2) a ha
  | @dir d s ts ks key r1 m r2 js v r3 is as left hk hm he _ ih =>
    simp only [goes_append] at hg
    simp only [Lexed, TT.Lexed] at hl
    have hl0 := hl.2.2
    obtain ⟨_, z, rfl⟩ := key_from hk
    have hl1 := lexed_suffix hl0
    obtain ⟨y, rfl⟩ := modifier_split hm
    have hl2 := lexed_suffix hl1
    obtain ⟨_, w, rfl⟩ := eq_from he
    intro a ha
    rcases List.mem_cons.mp ha with rfl | ha
    · exact ⟨key_fine hk hl0, eq_words he hl2⟩
    · exact ih hg.2.2 (lexed_suffix hl2) a ha
  | dirMore => simp only [goes_append] at hg; exact absurd hg.2 not_goes
  | dirNoName => exact absurd hg not_goes
  | dirNoKey => exact absurd hg not_goes
  | dirShortNoModifier => simp only [goes_append] at hg; exact absurd hg.2.2 not_goes
  | dirNoModifier => simp only [goes_append] at hg; exact absurd hg.2 not_goes
  | brace => simp
  | done => simp

theorem tag_fine {pp : PathParser} (hpp : pp.Verbatim) {ts : Toks} {is : List Issue} {tag : Tag} {rest : Toks}
    (h : ReadsTag pp ts is tag rest) (hg : Goes is) (hl : Lexed L ts) : tag.Fine L := by
  cases h with
  | path _ hr => exact fun i hi => lexed_words _ hl i (hpp hr i hi)
  | name _ hk ht =>
    have hw := longest_word hl hk
    unfold tagOf at ht
    split at ht
    case h_3 => cases ht; trivial
    all_goals
      rw [Option.map_eq_some_iff] at ht
      obtain ⟨j, h1, rfl⟩ := ht
      have hj := rawIdentOf_valid hw h1
      first
      | exact hj
      | (intro i hi
         simp only [Path.idents, PathArgs.idents, List.flatMap_cons, List.flatMap_nil, List.append_nil,
           List.mem_singleton] at hi
         subst hi
         exact ⟨hj.1, by simp⟩)
  | crash => simp only [goes_append] at hg; exact absurd (by simp) hg.2.noCrash

theorem piped_words {args : Toks} (h : Lexed L args) : Words L (piped args) := by
  have := lexed_words _ h
  simp only [piped]
  words

/-- The children in a block, if there is one. -/
def BlockFine (L : Letters) : Option (List Child) → Prop
  | none => True
  | some cs => ChildrenFine L cs

theorem element_fine {tag : Tag} {sels : List Selector} {attrs : List Attr} {args : Option Toks}
    {block : Option (List Child)} (h1 : tag.Fine L) (h2 : ∀ a ∈ attrs, a.Fine L)
    (h3 : ∀ a, args = some a → Words L a) (h4 : BlockFine L block) :
    (Element.mk tag sels attrs args block).Fine L := by
  cases block with
  | none => simp only [Element.Fine]; exact ⟨h1, h2, h3⟩
  | some cs => simp only [Element.Fine]; exact ⟨h1, h2, h3, h4⟩

mutual
theorem end_fine {pp : PathParser} (hpp : pp.Verbatim) {ts : Toks} {is : List Issue} {args : Option Toks}
    {block : Option (List Child)} {rest : Toks} (h : ReadsEnd pp ts is args block rest) (hg : Goes is)
    (hl : Lexed L ts) : (∀ a, args = some a → Words L a) ∧ BlockFine L block := by
  match h with
  | .semi => exact ⟨by simp, trivial⟩
  | .block _ h =>
    simp only [Lexed, TT.Lexed] at hl
    exact ⟨by simp, children_fine hpp h hg hl.1⟩
  | .closure _ _ h =>
    simp only [Lexed, TT.Lexed, lexed_append] at hl
    exact ⟨fun a ha => by cases ha; exact piped_words hl.2.1, children_fine hpp h hg hl.2.2.2.1⟩
  | .nothing => exact ⟨by simp, trivial⟩
  | .noBlock _ _ =>
    simp only [Lexed, TT.Lexed, lexed_append] at hl
    exact ⟨fun a ha => by cases ha; exact piped_words hl.2.1, trivial⟩
  | .other _ _ _ => exact ⟨by simp, trivial⟩

theorem children_fine {pp : PathParser} (hpp : pp.Verbatim) {ts : Toks} {is : List Issue} {cs : List Child}
    (h : ReadsChildren pp ts is cs) (hg : Goes is) (hl : Lexed L ts) : ChildrenFine L cs := by
  match h with
  | .nil => simp only [ChildrenFine]
  | .value _ hv h =>
    simp only [ChildrenFine]
    rw [lexed_append] at hl
    exact ⟨cval_words _ hl.1, children_fine hpp h hg hl.2⟩
  | .literal _ hv h =>
    simp only [ChildrenFine]
    rw [lexed_append] at hl
    refine ⟨?_, children_fine hpp h hg.tail hl.2⟩
    simp only [Value.code]; words
  | .elem (isSlot := b) hs ht hsel ha he h =>
    simp only [goes_append] at hg
    obtain ⟨u0, rfl⟩ := start_split hs
    have hl0 := lexed_suffix hl
    have h1 := tag_fine hpp ht hg.1 hl0
    obtain ⟨_, u1, rfl⟩ := tag_from hpp ht hg.1
    have hl1 := lexed_suffix hl0
    obtain ⟨u2, rfl⟩ := sels_split hsel
    have hl2 := lexed_suffix hl1
    have h3 := attrs_fine ha hg.2.2.1 hl2
    obtain ⟨_, u3, rfl⟩ := attrs_from ha hg.2.2.1
    have hl3 := lexed_suffix hl2
    have h4 := end_fine hpp he hg.2.2.2.1 hl3
    obtain ⟨_, u4, rfl⟩ := end_from hpp he hg.2.2.2.1
    have h5 := children_fine hpp h hg.2.2.2.2 (lexed_suffix hl3)
    cases b <;> simp only [asChild, if_true, if_false, Bool.false_eq_true, ChildrenFine] <;>
      exact ⟨element_fine h1 h3 h4.1 h4.2, h5⟩
  | .unclosed _ _ _ _ _ => simp only [ChildrenFine]
  | .noTagSemi hs ht h =>
    obtain ⟨u0, rfl⟩ := start_split hs
    obtain ⟨u1, rfl⟩ := noTag_split ht
    exact children_fine hpp h hg.tail (lexed_suffix (lexed_suffix hl)).2
  | .noTag _ _ _ => simp only [ChildrenFine]
  | .semi h => exact children_fine hpp h hg.tail hl.2
  | .other _ _ _ => simp only [ChildrenFine]
end

/-! ### tokens of a lexer have no dashes -/

theorem Valid.lexical {i : Ident} (h : Valid L i) : i.Lexical := by
  refine ⟨?_, fun hd => L.dash (h.1.cont _ hd)⟩
  obtain ⟨c, cs, he, _⟩ := h.1
  simp [he]

theorem lexed_within {u : Toks} (hw : Within u t) (h : Lexed L t) : Lexed L u := by
  induction hw with
  | here => exact h
  | tail _ ih => exact ih h.2
  | group _ _ ih =>
    simp only [Lexed, TT.Lexed] at h
    exact ih h.1

theorem lexed_lexical (h : Lexed L t) : LexicalToks t := fun i r hw => by
  have := lexed_within hw h
  simp only [Lexed, TT.Lexed] at this
  exact this.1.lexical

end Mview
