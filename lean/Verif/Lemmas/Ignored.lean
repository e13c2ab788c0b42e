import Verif.Spec.Ignored
import Verif.Spec.Issues
import Verif.Spec.Recovery
/-
Dropping what makes no difference.
-/

set_option linter.unusedVariables false

namespace Mview
open Lex

/-! ### picking -/

section
variable (comp : Bool) (attrs : List Attr)

/-- a directive, trimmed -/
def Directive.trim (d : Directive) : Directive := if comp then d.trimOnComponent else d.trimOnElement

theorem Directive.trim_dir (d : Directive) : (d.trim comp).dir = d.dir := by
  unfold Directive.trim Directive.trimOnComponent Directive.trimOnElement
  split <;> (repeat' split) <;> rfl

theorem Directive.trim_clone {d : Directive} (h : d.dir = plain c!"clone") : d.trim comp = d := by
  unfold Directive.trim Directive.trimOnComponent Directive.trimOnElement
  split <;> simp [h, plain]

theorem kvs_trim : kvs (attrs.map (Attr.trim comp)) = kvs attrs := by
  unfold kvs
  induction attrs with
  | nil => rfl
  | cons a attrs ih => cases a <;> simpa [Attr.trim] using ih

theorem spreads_trim : spreads (attrs.map (Attr.trim comp)) = spreads attrs := by
  unfold spreads
  induction attrs with
  | nil => rfl
  | cons a attrs ih => cases a <;> simpa [Attr.trim] using ih

theorem directives_trim :
    directives (attrs.map (Attr.trim comp)) = (directives attrs).map (Directive.trim comp) := by
  unfold directives
  induction attrs with
  | nil => rfl
  | cons a attrs ih => cases a <;> simpa [Attr.trim, Directive.trim] using ih

theorem clones_trim : clones (attrs.map (Attr.trim comp)) = clones attrs := by
  unfold clones
  rw [directives_trim]
  generalize directives attrs = ds
  induction ds with
  | nil => rfl
  | cons d ds ih =>
    simp only [List.map_cons, List.filter_cons, Directive.trim_dir]
    split
    · rename_i h
      rw [ih, Directive.trim_clone comp (by simpa using h)]
    · exact ih

theorem entries_trim :
    entries (attrs.map (Attr.trim comp)) = (entries attrs).map (Attr.trim comp) := by
  unfold entries
  induction attrs with
  | nil => rfl
  | cons a attrs ih =>
    cases a with
    | kv a => simpa [Attr.trim] using ih
    | spread e => simpa [Attr.trim] using ih
    | directive d =>
      have := Directive.trim_dir comp d
      unfold Directive.trim at this
      simp only [List.map_cons, Attr.trim, List.filter_cons, this]
      split
      · rw [ih]; rfl
      · exact ih
end

/-! ### attributes -/

theorem trueMeans_orTrue (v : Option Value) : trueMeans (orTrue v) = trueMeans v := by
  cases v <;> rfl

theorem trueAnyway_orTrue (v : Option Value) : trueAnyway (orTrue v) = trueAnyway v := by
  cases v <;> rfl

theorem optIssues_orTrue (v : Option Value) : optIssues (orTrue v) = optIssues v := by
  cases v <;> rfl

theorem text_str (s : Str) : (KebabOrStr.str s).text = s := rfl

theorem dash_text {s : Str} (h : '-' ∈ s) : s ≠ c!"class" ∧ s ≠ c!"style" := by
  constructor <;> rintro rfl <;> simp at h

theorem onElement_trim (d : Directive) : (d.trim false).onElement = d.onElement := by
  unfold Directive.trim Directive.trimOnElement
  simp only [Bool.false_eq_true, if_false]
  split
  · rename_i h
    unfold Directive.onElement
    rcases h with h | h | h <;> simp [h, plain, KebabOrStr.text]
  · rfl

theorem onElementAnyway_trim (d : Directive) : (d.trim false).onElementAnyway = d.onElementAnyway := by
  unfold Directive.trim Directive.trimOnElement
  simp only [Bool.false_eq_true, if_false]
  split
  · rename_i h
    unfold Directive.onElementAnyway
    rcases h with h | h | h <;> simp [h, plain, KebabOrStr.text]
  · rfl

theorem issuesOnElement_trim (d : Directive) : (d.trim false).issuesOnElement = d.issuesOnElement := by
  unfold Directive.trim Directive.trimOnElement
  simp only [Bool.false_eq_true, if_false]
  split
  · rename_i h
    unfold Directive.issuesOnElement
    rcases h with h | h | h <;> simp [h, plain]
  · rfl

theorem onComponent_trim (d : Directive) : (d.trim true).onComponent = d.onComponent := by
  unfold Directive.trim Directive.trimOnComponent
  simp only [if_true]
  split
  · rename_i h
    unfold Directive.onComponent
    rcases h with h | h <;> simp [h, plain, KebabOrStr.text, trueMeans_orTrue]
  · split
    · rename_i h
      unfold Directive.onComponent
      by_cases hk : '-' ∈ d.key.text ∧ ¬ c!"aria-" <+: d.key.text
      · obtain ⟨h1, h2⟩ := dash_text hk.1
        simp [h, plain, text_str, trueMeans_orTrue, hk, h1, h2]
      · simp [h, plain, trueMeans_orTrue, hk]
    · split
      · rename_i h
        unfold Directive.onComponent
        simp [h, plain, trueMeans_orTrue]
      · rfl

theorem onComponentAnyway_trim (d : Directive) : (d.trim true).onComponentAnyway = d.onComponentAnyway := by
  unfold Directive.trim Directive.trimOnComponent
  simp only [if_true]
  split
  · rename_i h
    unfold Directive.onComponentAnyway
    rcases h with h | h <;> simp [h, plain, KebabOrStr.text, trueAnyway_orTrue]
  · split
    · rename_i h
      unfold Directive.onComponentAnyway
      by_cases hk : '-' ∈ d.key.text ∧ ¬ c!"aria-" <+: d.key.text
      · obtain ⟨h1, h2⟩ := dash_text hk.1
        simp [h, plain, text_str, trueAnyway_orTrue, hk, h1, h2]
      · simp [h, plain, trueAnyway_orTrue, hk]
    · split
      · rename_i h
        unfold Directive.onComponentAnyway
        simp [h, plain, trueAnyway_orTrue]
      · rfl

theorem issuesOnComponent_trim (d : Directive) : (d.trim true).issuesOnComponent = d.issuesOnComponent := by
  unfold Directive.trim Directive.trimOnComponent
  simp only [if_true]
  split
  · rename_i h
    unfold Directive.issuesOnComponent
    rcases h with h | h <;> simp [h, plain, optIssues_orTrue]
  · split
    · rename_i h
      unfold Directive.issuesOnComponent
      by_cases hk : '-' ∈ d.key.text ∧ ¬ c!"aria-" <+: d.key.text
      · simp [h, plain, text_str, optIssues_orTrue, hk]
      · simp [h, plain, optIssues_orTrue, hk]
    · split
      · rename_i h
        unfold Directive.issuesOnComponent
        simp [h, plain, optIssues_orTrue]
      · rfl

/-! ### elements, given their children -/

section
variable (path : Path) (tag : Tag) (sels : List Selector) (attrs : List Attr) (args args' : Option Toks)
  (nodes : List Toks) (calls : List Call)

theorem mapM_trim {α : Type} {f : Directive → Option α} {comp : Bool} (h : ∀ d, f (d.trim comp) = f d)
    (ds : List Directive) : (ds.map (Directive.trim comp)).mapM f = ds.mapM f := by
  rw [List.mapM_map]
  exact congrArg (List.mapM · ds) (funext h)

theorem mapM_entry_trim : (((entries attrs).map (Attr.trim true)).mapM Attr.entry) =
    (entries attrs).mapM Attr.entry := by
  rw [List.mapM_map]
  refine congrArg (List.mapM · _) (funext fun a => ?_)
  cases a with
  | directive d => exact onComponent_trim d
  | _ => rfl

theorem mapM_entryAnyway_trim : (((entries attrs).map (Attr.trim true)).mapM Attr.entryAnyway) =
    (entries attrs).mapM Attr.entryAnyway := by
  rw [List.mapM_map]
  refine congrArg (List.mapM · _) (funext fun a => ?_)
  cases a with
  | directive d => exact onComponentAnyway_trim d
  | _ => rfl

theorem xmlMeans_trim : xmlMeans tag sels (attrs.map (Attr.trim false)) nodes = xmlMeans tag sels attrs nodes := by
  unfold xmlMeans
  rw [kvs_trim, spreads_trim, directives_trim, mapM_trim onElement_trim]

theorem xmlAnyway_trim :
    xmlAnyway tag sels (attrs.map (Attr.trim false)) nodes = xmlAnyway tag sels attrs nodes := by
  unfold xmlAnyway
  rw [kvs_trim, spreads_trim, directives_trim, mapM_trim onElementAnyway_trim]

theorem componentMeans_trim : componentMeans path sels (attrs.map (Attr.trim true)) args nodes calls =
    componentMeans path sels attrs args nodes calls := by
  unfold componentMeans
  rw [kvs_trim, clones_trim, entries_trim, mapM_entry_trim]

theorem componentAnyway_trim : componentAnyway path sels (attrs.map (Attr.trim true)) args nodes calls =
    componentAnyway path sels attrs args nodes calls := by
  unfold componentAnyway
  rw [kvs_trim, clones_trim, entries_trim, mapM_entryAnyway_trim]

theorem slotMeans_trim : slotMeans path sels (attrs.map (Attr.trim true)) args nodes =
    slotMeans path sels attrs args nodes := by
  unfold slotMeans
  rw [kvs_trim, clones_trim, entries_trim]
  simp only [List.map_eq_nil_iff]

theorem slotAnyway_trim : slotAnyway path (attrs.map (Attr.trim true)) args nodes =
    slotAnyway path attrs args nodes := by
  unfold slotAnyway
  rw [kvs_trim, clones_trim]

/-- Without children, arguments do not matter. -/
theorem componentMeans_args : componentMeans path sels attrs args [] calls =
    componentMeans path sels attrs args' [] calls := by simp [componentMeans, childrenCall]
theorem componentAnyway_args : componentAnyway path sels attrs args [] calls =
    componentAnyway path sels attrs args' [] calls := by simp [componentAnyway, childrenCall]
theorem slotMeans_args : slotMeans path sels attrs args [] = slotMeans path sels attrs args' [] := by
  simp [slotMeans, childrenCall]
theorem slotAnyway_args : slotAnyway path attrs args [] = slotAnyway path attrs args' [] := by
  simp [slotAnyway, childrenCall]

theorem issues_trim (asSlot : Bool) :
    (attrs.map (Attr.trim true)).flatMap Attr.issuesOnComponent = attrs.flatMap Attr.issuesOnComponent ∧
    (attrs.map (Attr.trim true)).flatMap Attr.issuesOnSlot = attrs.flatMap Attr.issuesOnSlot ∧
    ∀ kind, (attrs.map (Attr.trim false)).flatMap (Attr.issuesOnElement kind) =
      attrs.flatMap (Attr.issuesOnElement kind) := by
  simp only [List.flatMap_map]
  refine ⟨?_, ?_, fun kind => ?_⟩ <;> refine congrArg (List.flatMap · attrs) (funext fun a => ?_)
  · cases a with
    | directive d => exact issuesOnComponent_trim d
    | _ => rfl
  · cases a with
    | directive d =>
      have h1 : (d.trim true).dir = d.dir := d.trim_dir true
      have h2 : d.dir = plain c!"clone" → d.trim true = d := Directive.trim_clone true
      show (if (d.trim true).dir = plain c!"clone" then (d.trim true).cloneIssues
        else [.report (.directiveOnSlot (d.trim true).dir)]) = _
      rw [h1]
      by_cases h : d.dir = plain c!"clone"
      · rw [h2 h]; rfl
      · rw [if_neg h]; simp only [Attr.issuesOnSlot, if_neg h]
    | _ => rfl
  · cases a with
    | directive d => exact issuesOnElement_trim d
    | _ => rfl
end

/-! ### trees -/

theorem slotCalls_nil {calls : List Call} : SlotCalls [] calls ↔ calls = [] := by
  constructor
  · rintro ⟨names, -, h, he⟩
    have : names = [] := List.eq_nil_iff_forall_not_mem.mpr fun n hn => by simpa using (h n).mp hn
    subst this
    simpa using he.symm
  · rintro rfl
    exact ⟨[], by simp, by simp, rfl⟩

theorem nodesMean_noNodes : ∀ {cs : List Child} {ns : List Toks}, (¬ ∃ c ∈ cs, c.isSlot = false) →
    NodesMean cs ns → ns = []
  | [], ns, _, h => by rwa [NodesMean] at h
  | .value v :: cs, ns, hn, _ => absurd ⟨_, List.mem_cons_self, rfl⟩ hn
  | .elem v :: cs, ns, hn, _ => absurd ⟨_, List.mem_cons_self, rfl⟩ hn
  | .slot v :: cs, ns, hn, h => by
    rw [NodesMean] at h
    exact nodesMean_noNodes (fun ⟨c, hc, hs⟩ => hn ⟨c, by simp [hc], hs⟩) h

theorem nodesBecome_noNodes : ∀ {cs : List Child} {ns : List Toks}, (¬ ∃ c ∈ cs, c.isSlot = false) →
    NodesBecome cs ns → ns = []
  | [], ns, _, h => by rwa [NodesBecome] at h
  | .value v :: cs, ns, hn, _ => absurd ⟨_, List.mem_cons_self, rfl⟩ hn
  | .elem v :: cs, ns, hn, _ => absurd ⟨_, List.mem_cons_self, rfl⟩ hn
  | .slot v :: cs, ns, hn, h => by
    rw [NodesBecome] at h
    exact nodesBecome_noNodes (fun ⟨c, hc, hs⟩ => hn ⟨c, by simp [hc], hs⟩) h

theorem Element.trim_tag (deep asSlot : Bool) (e : Element) : (e.trim deep asSlot).tag = e.tag := by
  cases e with
  | mk tag sels attrs args block => cases block <;> simp [Element.trim, Element.tag]

/-- An empty block is no block. -/
theorem means_blockOf {asSlot : Bool} {tag : Tag} {sels : List Selector} {attrs : List Attr}
    {args : Option Toks} {cs : List Child} {t : Toks} :
    (Element.mk tag sels attrs args (blockOf cs)).Means asSlot t ↔
      (Element.mk tag sels attrs args (some cs)).Means asSlot t := by
  cases cs with
  | cons c cs => rfl
  | nil =>
    rw [blockOf]
    cases asSlot <;> cases tag <;> simp [Element.Means, NodesMean, SlotsMean, slotCalls_nil]

theorem becomes_blockOf {asSlot : Bool} {tag : Tag} {sels : List Selector} {attrs : List Attr}
    {args : Option Toks} {cs : List Child} {t : Toks} :
    (Element.mk tag sels attrs args (blockOf cs)).Becomes asSlot t ↔
      (Element.mk tag sels attrs args (some cs)).Becomes asSlot t := by
  cases cs with
  | cons c cs => rfl
  | nil =>
    rw [blockOf]
    cases asSlot <;> cases tag <;> simp [Element.Becomes, NodesBecome, SlotsBecome, slotCalls_nil]

theorem issues_blockOf {asSlot : Bool} {tag : Tag} {sels : List Selector} {attrs : List Attr}
    {args args' : Option Toks} {cs : List Child} :
    (Element.mk tag sels attrs args (blockOf cs)).issues asSlot =
      (Element.mk tag sels attrs args' (some cs)).issues asSlot := by
  cases cs with
  | cons c cs =>
    have : blockOf (c :: cs) = some (c :: cs) := rfl
    rw [this]
    cases asSlot <;> cases tag <;> simp only [Element.issues]
  | nil =>
    rw [blockOf]
    cases asSlot <;> cases tag <;> simp [Element.issues, nodesIssues, slotsIssues, methodIssues, slotNames]

mutual
/-- What an element stands for does not change. -/
theorem trim_means : (asSlot : Bool) → (e : Element) → (t : Toks) →
    ((e.trim false asSlot).Means asSlot t ↔ e.Means asSlot t)
  | asSlot, .mk tag sels attrs args none, t => by
    rw [Element.trim]
    cases asSlot <;> cases tag <;> simp only [Element.Means, Tag.isPath, xmlMeans_trim, componentMeans_trim, slotMeans_trim]
    · rw [componentMeans_args]
    · rw [slotMeans_args]
  | asSlot, .mk tag sels attrs args (some cs), t => by
    rw [Element.trim, means_blockOf]
    have hs := slotsTrim_mean cs
    cases asSlot <;> cases tag <;>
      simp only [Element.Means, Bool.false_and, Bool.not_false, Bool.and_true, nodesTrim_mean, Tag.isPath, xmlMeans_trim, componentMeans_trim, slotMeans_trim, hs, true_and]
    · constructor <;> rintro ⟨nodes, slots, calls, h1, h2, h3, h4⟩ <;> refine ⟨nodes, slots, calls, h1, h2, h3, ?_⟩
      · split at h4
        · exact h4
        · rename_i hn
          obtain rfl := nodesMean_noNodes hn h1
          rw [← h4, componentMeans_args]
      · split
        · exact h4
        · rename_i hn
          obtain rfl := nodesMean_noNodes hn h1
          rw [← h4, componentMeans_args]
    · constructor <;> rintro ⟨nodes, slots, calls, h1, h2, h3, h4⟩ <;> refine ⟨nodes, slots, calls, h1, h2, h3, ?_⟩
      · split at h4
        · exact h4
        · rename_i hn
          obtain rfl := nodesMean_noNodes hn h1
          rw [← h4, slotMeans_args]
      · split
        · exact h4
        · rename_i hn
          obtain rfl := nodesMean_noNodes hn h1
          rw [← h4, slotMeans_args]
theorem nodesTrim_mean : (slots : Bool) → (cs : List Child) → (ns : List Toks) →
    (NodesMean (childrenTrim false slots cs) ns ↔ NodesMean cs ns)
  | slots, [], ns => by rw [childrenTrim]
  | slots, .value v :: cs, ns => by
    rw [childrenTrim, NodesMean, NodesMean]
    simp only [nodesTrim_mean slots cs]
  | slots, .elem e :: cs, ns => by
    rw [childrenTrim, NodesMean, NodesMean]
    simp only [nodesTrim_mean slots cs, trim_means false e]
  | slots, .slot e :: cs, ns => by
    rw [childrenTrim, NodesMean]
    cases slots
    · simp only [Bool.false_eq_true, if_false]
      exact nodesTrim_mean false cs ns
    · simp only [if_true, NodesMean]
      exact nodesTrim_mean true cs ns
theorem slotsTrim_mean : (cs : List Child) → (ns : List (Ident × Toks)) →
    (SlotsMean (childrenTrim false true cs) ns ↔ SlotsMean cs ns)
  | [], ns => by rw [childrenTrim]
  | .value v :: cs, ns => by
    rw [childrenTrim, SlotsMean, SlotsMean]
    exact slotsTrim_mean cs ns
  | .elem e :: cs, ns => by
    rw [childrenTrim, SlotsMean, SlotsMean]
    exact slotsTrim_mean cs ns
  | .slot e :: cs, ns => by
    rw [childrenTrim, if_pos rfl, SlotsMean, SlotsMean, Element.trim_tag]
    simp only [slotsTrim_mean cs, trim_means true e]
end


mutual
/-- What is generated for an element in spite of errors does not change. -/
theorem trim_becomes : (asSlot : Bool) → (e : Element) → (t : Toks) →
    ((e.trim false asSlot).Becomes asSlot t ↔ e.Becomes asSlot t)
  | asSlot, .mk tag sels attrs args none, t => by
    rw [Element.trim]
    cases asSlot <;> cases tag <;> simp only [Element.Becomes, Tag.isPath, xmlAnyway_trim, componentAnyway_trim, slotAnyway_trim]
    · rw [componentAnyway_args]
    · rw [slotAnyway_args]
  | asSlot, .mk tag sels attrs args (some cs), t => by
    rw [Element.trim, becomes_blockOf]
    have hs := slotsTrim_become cs
    cases asSlot <;> cases tag <;>
      simp only [Element.Becomes, Bool.false_and, Bool.not_false, Bool.and_true, nodesTrim_become, Tag.isPath, xmlAnyway_trim, componentAnyway_trim, slotAnyway_trim, hs, true_and]
    · constructor <;> rintro ⟨nodes, slots, calls, h1, h2, h3, h4⟩ <;> refine ⟨nodes, slots, calls, h1, h2, h3, ?_⟩
      · split at h4
        · exact h4
        · rename_i hn
          obtain rfl := nodesBecome_noNodes hn h1
          rw [← h4, componentAnyway_args]
      · split
        · exact h4
        · rename_i hn
          obtain rfl := nodesBecome_noNodes hn h1
          rw [← h4, componentAnyway_args]
    · constructor <;> rintro ⟨nodes, slots, calls, h1, h2, h3, h4⟩ <;> refine ⟨nodes, slots, calls, h1, h2, h3, ?_⟩
      · split at h4
        · exact h4
        · rename_i hn
          obtain rfl := nodesBecome_noNodes hn h1
          rw [← h4, slotAnyway_args]
      · split
        · exact h4
        · rename_i hn
          obtain rfl := nodesBecome_noNodes hn h1
          rw [← h4, slotAnyway_args]
theorem nodesTrim_become : (slots : Bool) → (cs : List Child) → (ns : List Toks) →
    (NodesBecome (childrenTrim false slots cs) ns ↔ NodesBecome cs ns)
  | slots, [], ns => by rw [childrenTrim]
  | slots, .value v :: cs, ns => by
    rw [childrenTrim, NodesBecome, NodesBecome]
    simp only [nodesTrim_become slots cs]
  | slots, .elem e :: cs, ns => by
    rw [childrenTrim, NodesBecome, NodesBecome]
    simp only [nodesTrim_become slots cs, trim_becomes false e]
  | slots, .slot e :: cs, ns => by
    rw [childrenTrim, NodesBecome]
    cases slots
    · simp only [Bool.false_eq_true, if_false]
      exact nodesTrim_become false cs ns
    · simp only [if_true, NodesBecome]
      exact nodesTrim_become true cs ns
theorem slotsTrim_become : (cs : List Child) → (ns : List (Ident × Toks)) →
    (SlotsBecome (childrenTrim false true cs) ns ↔ SlotsBecome cs ns)
  | [], ns => by rw [childrenTrim]
  | .value v :: cs, ns => by
    rw [childrenTrim, SlotsBecome, SlotsBecome]
    exact slotsTrim_become cs ns
  | .elem e :: cs, ns => by
    rw [childrenTrim, SlotsBecome, SlotsBecome]
    exact slotsTrim_become cs ns
  | .slot e :: cs, ns => by
    rw [childrenTrim, if_pos rfl, SlotsBecome, SlotsBecome, Element.trim_tag]
    simp only [slotsTrim_become cs, trim_becomes true e]
end


mutual
/-- The errors of an element do not change. -/
theorem trim_issues : (asSlot : Bool) → (e : Element) → (e.trim false asSlot).issues asSlot = e.issues asSlot
  | asSlot, .mk tag sels attrs args none => by
    rw [Element.trim]
    cases asSlot <;> cases tag <;> simp only [Element.issues, Tag.isPath, Tag.kind, issues_trim attrs false]
  | asSlot, .mk tag sels attrs args (some cs) => by
    rw [Element.trim, issues_blockOf (args' := args)]
    have hs := slotsTrim_issues cs
    cases asSlot <;> cases tag <;> simp only [Element.issues, Bool.false_and, Bool.not_false, Bool.and_true,
      nodesTrim_issues, methodIssues, Tag.isPath, Tag.kind, issues_trim attrs false, hs]
theorem nodesTrim_issues : (slots : Bool) → (cs : List Child) →
    nodesIssues (childrenTrim false slots cs) = nodesIssues cs
  | slots, [] => by rw [childrenTrim]
  | slots, .value v :: cs => by
    rw [childrenTrim, nodesIssues, nodesIssues, nodesTrim_issues slots cs]
  | slots, .elem e :: cs => by
    rw [childrenTrim, nodesIssues, nodesIssues, nodesTrim_issues slots cs, trim_issues false e]
  | slots, .slot e :: cs => by
    rw [childrenTrim, nodesIssues]
    cases slots
    · simp only [Bool.false_eq_true, if_false]
      exact nodesTrim_issues false cs
    · simp only [if_true, nodesIssues]
      exact nodesTrim_issues true cs
theorem slotsTrim_issues : (cs : List Child) →
    slotsIssues (childrenTrim false true cs) = slotsIssues cs ∧
      slotNames (childrenTrim false true cs) = slotNames cs
  | [] => by rw [childrenTrim]; exact ⟨rfl, rfl⟩
  | .value v :: cs => by
    obtain ⟨h1, h2⟩ := slotsTrim_issues cs
    rw [childrenTrim, slotsIssues, slotsIssues]
    exact ⟨h1, by simpa [slotNames] using h2⟩
  | .elem e :: cs => by
    obtain ⟨h1, h2⟩ := slotsTrim_issues cs
    rw [childrenTrim, slotsIssues, slotsIssues]
    exact ⟨h1, by simpa [slotNames] using h2⟩
  | .slot e :: cs => by
    obtain ⟨h1, h2⟩ := slotsTrim_issues cs
    have h3 : (e.trim false true).slotName = e.slotName := by
      unfold Element.slotName; rw [Element.trim_tag]
    rw [childrenTrim, if_pos rfl, slotsIssues, slotsIssues, Element.trim_tag, h3, trim_issues true e, h1]
    refine ⟨rfl, ?_⟩
    simp only [slotNames, List.filterMap_cons, h3] at h2 ⊢
    rw [h2]
end

theorem isSlot_trim (deep : Bool) : (cs : List Child) →
    (childrenTrim deep true cs).any Child.isSlot = cs.any Child.isSlot
  | [] => by rw [childrenTrim]
  | .value v :: cs => by simp [childrenTrim, Child.isSlot, isSlot_trim deep cs]
  | .elem v :: cs => by simp [childrenTrim, Child.isSlot, isSlot_trim deep cs]
  | .slot v :: cs => by simp [childrenTrim, Child.isSlot]

theorem noSlot_trim (deep : Bool) (cs : List Child) :
    (∀ c ∈ childrenTrim deep true cs, c.isSlot = false) ↔ ∀ c ∈ cs, c.isSlot = false := by
  have h := isSlot_trim deep cs
  rw [Bool.eq_iff_iff] at h
  simp only [List.any_eq_true] at h
  constructor
  · intro h1 c hc
    cases hs : c.isSlot with
    | false => rfl
    | true =>
      obtain ⟨c', h2, h3⟩ := h.mpr ⟨c, hc, hs⟩
      rw [h1 c' h2] at h3
      simp at h3
  · intro h1 c hc
    cases hs : c.isSlot with
    | false => rfl
    | true =>
      obtain ⟨c', h2, h3⟩ := h.mp ⟨c, hc, hs⟩
      rw [h1 c' h2] at h3
      simp at h3

/-- C50 for trees. -/
theorem rootMeans_trim {cs : List Child} {t : Toks} : RootMeans (childrenTrim false true cs) t ↔ RootMeans cs t := by
  unfold RootMeans
  simp only [noSlot_trim, nodesTrim_mean]

theorem rootBecomes_trim {cs : List Child} {t : Toks} :
    RootBecomes (childrenTrim false true cs) t ↔ RootBecomes cs t := by
  unfold RootBecomes
  simp only [noSlot_trim, nodesTrim_become]

theorem rootIssues_trim (cs : List Child) : rootIssues (childrenTrim false true cs) = rootIssues cs := by
  unfold rootIssues
  rw [isSlot_trim, nodesTrim_issues]

/-! ### slots in slots -/

mutual
/-- Also without slots in slots an element stands for the same. -/
theorem deep_means : (asSlot : Bool) → (e : Element) → (t : Toks) → e.Means asSlot t →
    (e.trim true asSlot).Means asSlot t
  | asSlot, .mk tag sels attrs args none, t, h => by
    rw [Element.trim]
    revert h
    cases asSlot <;> cases tag <;> simp only [Element.Means, Tag.isPath, xmlMeans_trim, componentMeans_trim, slotMeans_trim] <;>
      intro h <;> first | exact h | rw [← h, componentMeans_args] | rw [← h, slotMeans_args]
  | asSlot, .mk tag sels attrs args (some cs), t, h => by
    rw [Element.trim, means_blockOf]
    have hm : ∀ (p : Prop) [Decidable p] (nodes : List Toks) (path : Path) (calls : List Call),
        (¬ p → nodes = []) →
        componentMeans path sels attrs (if p then args else none) nodes calls =
          componentMeans path sels attrs args nodes calls ∧
        slotMeans path sels attrs (if p then args else none) nodes = slotMeans path sels attrs args nodes := by
      intro p _ nodes path calls hp
      split
      · exact ⟨rfl, rfl⟩
      · rename_i hn
        obtain rfl := hp hn
        exact ⟨componentMeans_args .., slotMeans_args ..⟩
    cases tag with
    | component p =>
      have hn : ∀ {nodes}, NodesMean cs nodes →
          (¬ (True ∧ ∃ c ∈ cs, c.isSlot = false)) → nodes = [] := by
        intro nodes h hn
        exact nodesMean_noNodes (fun h => hn ⟨trivial, h⟩) h
      cases asSlot with
      | false =>
        simp only [Element.Means] at h ⊢
        obtain ⟨nodes, slots, calls, h1, h2, h3, h4⟩ := h
        refine ⟨nodes, slots, calls, deep_nodes _ cs nodes h1, deep_slots cs slots h2, h3, ?_⟩
        simp only [Tag.isPath, componentMeans_trim]
        rw [(hm _ nodes p calls (hn h1)).1, h4]
      | true =>
        simp only [Element.Means] at h ⊢
        obtain ⟨nodes, slots, calls, h1, h2, h3, h4⟩ := h
        refine ⟨nodes, [], [], deep_nodes _ cs nodes h1, deep_noSlots cs, slotCalls_nil.mpr rfl, ?_⟩
        simp only [Tag.isPath, slotMeans_trim]
        rw [(hm _ nodes p calls (hn h1)).2, h4]
    | _ =>
      cases asSlot with
      | false =>
        simp only [Element.Means] at h ⊢
        obtain ⟨nodes, h1, h2⟩ := h
        exact ⟨nodes, deep_nodes _ cs nodes h1, by simp only [Tag.isPath, xmlMeans_trim]; exact h2⟩
      | true => simp only [Element.Means] at h
theorem deep_nodes : (slots : Bool) → (cs : List Child) → (ns : List Toks) → NodesMean cs ns →
    NodesMean (childrenTrim true slots cs) ns
  | slots, [], ns, h => by rwa [childrenTrim]
  | slots, .value v :: cs, ns, h => by
    rw [NodesMean] at h
    rw [childrenTrim, NodesMean]
    obtain ⟨t, ts', h1, h2, h3⟩ := h
    exact ⟨t, ts', h1, deep_nodes slots cs ts' h2, h3⟩
  | slots, .elem e :: cs, ns, h => by
    rw [NodesMean] at h
    rw [childrenTrim, NodesMean]
    obtain ⟨t, ts', h1, h2, h3⟩ := h
    exact ⟨t, ts', deep_means false e t h1, deep_nodes slots cs ts' h2, h3⟩
  | slots, .slot e :: cs, ns, h => by
    rw [NodesMean] at h
    rw [childrenTrim]
    cases slots
    · simp only [Bool.false_eq_true, if_false]
      exact deep_nodes false cs ns h
    · simp only [if_true, NodesMean]
      exact deep_nodes true cs ns h
theorem deep_slots : (cs : List Child) → (ns : List (Ident × Toks)) → SlotsMean cs ns →
    SlotsMean (childrenTrim true true cs) ns
  | [], ns, h => by rwa [childrenTrim]
  | .value v :: cs, ns, h => by
    rw [SlotsMean] at h
    rw [childrenTrim, SlotsMean]
    exact deep_slots cs ns h
  | .elem e :: cs, ns, h => by
    rw [SlotsMean] at h
    rw [childrenTrim, SlotsMean]
    exact deep_slots cs ns h
  | .slot e :: cs, ns, h => by
    rw [SlotsMean] at h
    rw [childrenTrim, if_pos rfl, SlotsMean, Element.trim_tag]
    revert h
    split
    · rintro ⟨t, ts', h1, h2, h3⟩
      exact ⟨t, ts', deep_means true e t h1, deep_slots cs ts' h2, h3⟩
    · exact id
theorem deep_noSlots : (cs : List Child) → SlotsMean (childrenTrim true false cs) []
  | [] => by rw [childrenTrim, SlotsMean]
  | .value v :: cs => by rw [childrenTrim, SlotsMean]; exact deep_noSlots cs
  | .elem e :: cs => by rw [childrenTrim, SlotsMean]; exact deep_noSlots cs
  | .slot e :: cs => by
    rw [childrenTrim]
    simp only [Bool.false_eq_true, if_false]
    exact deep_noSlots cs
end

theorem rootMeans_deep {cs : List Child} {t : Toks} (h : RootMeans cs t) :
    RootMeans (childrenTrim true true cs) t := by
  obtain ⟨h1, nodes, h2, h3⟩ := h
  exact ⟨(noSlot_trim true cs).mpr h1, nodes, deep_nodes true cs nodes h2, h3⟩

end Mview
