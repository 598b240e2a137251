import Verif.Grammar.Productions
import Verif.Basic.Counter
import Verif.Basic.StrLemmas
import Mathlib.Algebra.Field.Rat
import Mathlib.Data.Rat.Cast.Defs
import Mathlib.Algebra.BigOperators.Ring.List
import Mathlib.Algebra.Order.Ring.Rat
import Mathlib.Tactic.FieldSimp
import Mathlib.Tactic.Linarith
/-!
# C21: `treebankgrammar` and `sortgrammar` (grammar.py:100-117, 677-696)

Simplification: weights are exact rational numbers (the counts are integers; only `extrarules` may bring in floats).
-/
namespace Disco.TBGrammar
open PTree Prods Dict

/-- `'}<' in s`. -/
def isBinMark (s : Str) : Bool := (Str.find ['}', '<'] s).isSome

/-- `sortkey(rule)` (grammar.py:684-688). A missing second nonterminal is an IndexError, a production with `Epsilon` and a yield
function instead of a word gives a key that cannot be compared (TypeError). -/
def sortkey (r : Rule) : Option (Str × Bool × Str) :=
  match r.nts, r.yf with
  | l :: e :: _, .word w => if e = epsilon then some (w, isBinMark l, l) else some ([], isBinMark l, l)
  | l :: e :: _, .spans _ => if e = epsilon then none else some ([], isBinMark l, l)
  | _, _ => none

/-- `a <= b` for strings: comparison by code points. -/
def leStr (a b : Str) : Bool := decide (a ≤ b)

/-- `a <= b` for the tuples that serve as keys. -/
def leKey (a b : Str × Bool × Str) : Bool :=
  if a.1 ≠ b.1 then leStr a.1 b.1 else if a.2.1 ≠ b.2.1 then !a.2.1 else leStr a.2.2 b.2.2

/-- `sorted(grammar, key=sortkey)` (grammar.py:690-691): the keys are computed first, one per rule. -/
def sortgrammar {V : Type} (g : List (Rule × V)) : Option (List (Rule × V)) :=
  (g.mapM (fun x => (sortkey x.1).map (fun k => (k, x)))).map (fun ks => (stableSort (fun a b => leKey a.1 b.1) ks).map Prod.snd)

/-- The productions of the trees, in order (grammar.py:108-109). -/
def allProductions : List (PTree Str × List (Option Str)) → Option (List Rule)
  | [] => some []
  | (t, s) :: rest => do
    let r ← lcfrsproductions t s false
    let rs ← allProductions rest
    pure (r ++ rs)

/-- `treebankgrammar(trees, sents, extrarules)` (grammar.py:100-113). -/
def treebankgrammar (trees : List (PTree Str)) (sents : List (List (Option Str))) (extrarules : Dict Rule ℚ) : Option (List (Rule × ℚ)) := do
  let rules ← allProductions (trees.zip sents)
  let grammar := addAll (addAll [] (rules.map (fun r => (r, 1)))) extrarules
  sortgrammar grammar

/-! ### Specification -/

/-- The number of constituents with label `l` in the treebank. -/
def Spec.occurrences (trees : List (PTree Str)) (l : Str) : Nat := ((trees.flatMap subtrees).filter (fun c => decide (c.label? = some l))).length

/-- The left-hand side of a rule. -/
def Spec.lhs (r : Rule) : Option Str := r.nts.head?

/-- The part of the rules with a given left-hand side. -/
def Spec.mass (g : List (Rule × ℚ)) (l : Str) : ℚ := ((g.filter (fun x => decide (Spec.lhs x.1 = some l))).map Prod.snd).sum

/-- The word of a lexical rule. -/
def Spec.word (r : Rule) : Option Str := match r.yf with
  | .word w => if r.nts[1]? = some epsilon then some w else none
  | .spans _ => none

/-- The clusters of `sortgrammar`: phrasal rules (0), rules from the binarization of fragments (1), lexical rules (2). -/
def Spec.cluster (r : Rule) : Nat :=
  if (Spec.word r).isSome then 2 else if ∃ l, Spec.lhs r = some l ∧ ['}', '<'] <:+: l then 1 else 0

/-- The order of the documentation: by cluster; phrasal rules by left-hand side, lexical rules by word and then by left-hand side
(those whose left-hand side looks binarized after the others). -/
def Spec.InOrder (x y : Rule) : Prop :=
  Spec.cluster x < Spec.cluster y ∨ Spec.cluster x = Spec.cluster y ∧
    (Spec.cluster x < 2 → ∀ a b, Spec.lhs x = some a → Spec.lhs y = some b → a ≤ b) ∧
    (∀ u v, Spec.word x = some u → Spec.word y = some v → u ≤ v)

/-! ### Sorting -/

theorem leStr_total (a b : Str) : leStr a b = true ∨ leStr b a = true := by
  simp only [leStr, decide_eq_true_eq]; exact List.le_total a b

theorem leStr_trans {a b c : Str} (h1 : leStr a b = true) (h2 : leStr b c = true) : leStr a c = true := by
  simp only [leStr, decide_eq_true_eq] at *; exact List.le_trans h1 h2

theorem leStr_antisymm {a b : Str} (h1 : leStr a b = true) (h2 : leStr b a = true) : a = b := by
  simp only [leStr, decide_eq_true_eq] at *; exact List.le_antisymm h1 h2

theorem leKey_total (a b : Str × Bool × Str) : leKey a b = true ∨ leKey b a = true := by
  obtain ⟨a1, a2, a3⟩ := a
  obtain ⟨b1, b2, b3⟩ := b
  by_cases h1 : a1 = b1
  · subst h1
    by_cases h2 : a2 = b2
    · subst h2; simpa [leKey] using leStr_total a3 b3
    · cases a2 <;> cases b2 <;> simp_all [leKey]
  · simpa [leKey, h1, Ne.symm h1] using leStr_total a1 b1

theorem leKey_trans (a b c : Str × Bool × Str) (h1 : leKey a b = true) (h2 : leKey b c = true) : leKey a c = true := by
  obtain ⟨a1, a2, a3⟩ := a
  obtain ⟨b1, b2, b3⟩ := b
  obtain ⟨c1, c2, c3⟩ := c
  by_cases e1 : a1 = b1
  · subst e1
    by_cases e2 : a1 = c1
    · subst e2
      simp only [leKey, ne_eq, not_true_eq_false, if_false] at *
      cases a2 <;> cases b2 <;> cases c2 <;> simp_all
      · exact leStr_trans h1 h2
      · exact leStr_trans h1 h2
    · simp only [leKey, ne_eq, e2, not_false_eq_true, if_true, not_true_eq_false, if_false] at *
      exact h2
  · by_cases e2 : b1 = c1
    · subst e2
      simp only [leKey, ne_eq, e1, not_false_eq_true, if_true] at *
      exact h1
    · simp only [leKey, ne_eq, e1, e2, not_false_eq_true, if_true] at h1 h2
      by_cases e3 : a1 = c1
      · subst e3
        exact absurd (leStr_antisymm h1 h2) e1
      · simp only [leKey, ne_eq, e3, not_false_eq_true, if_true]
        exact leStr_trans h1 h2

theorem mapM_keys {V : Type} {g : List (Rule × V)} {ks : List ((Str × Bool × Str) × Rule × V)}
    (h : g.mapM (fun x => (sortkey x.1).map (fun k => (k, x))) = some ks) :
    ks.map Prod.snd = g ∧ ∀ x ∈ ks, sortkey x.2.1 = some x.1 := by
  induction g generalizing ks with
  | nil => simp at h; subst h; simp
  | cons x g ih =>
    rw [List.mapM_cons] at h
    cases hk : sortkey x.1 with
    | none => simp [hk] at h
    | some k =>
      cases hr : g.mapM (fun x => (sortkey x.1).map (fun k => (k, x))) with
      | none => simp [hk, hr] at h
      | some r =>
        simp [hk, hr] at h
        subst h
        obtain ⟨h1, h2⟩ := ih hr
        refine ⟨by simp [h1], fun y hy => ?_⟩
        rcases List.mem_cons.1 hy with rfl | hy
        · exact hk
        · exact h2 y hy

theorem sortgrammar_spec {V : Type} {g s : List (Rule × V)} (h : sortgrammar g = some s) :
    s.Perm g ∧ s.Pairwise (fun x y => ∃ a b, sortkey x.1 = some a ∧ sortkey y.1 = some b ∧ leKey a b = true) := by
  rw [sortgrammar] at h
  cases hk : g.mapM (fun x => (sortkey x.1).map (fun k => (k, x))) with
  | none => simp [hk] at h
  | some ks =>
    simp only [hk, Option.map_some, Option.some.injEq] at h
    subst h
    obtain ⟨h1, h2⟩ := mapM_keys hk
    constructor
    · have := (StableSort.perm (le := fun a b : (Str × Bool × Str) × Rule × V => leKey a.1 b.1) ks).map Prod.snd
      rwa [h1] at this
    · rw [List.pairwise_map]
      have hp := StableSort.pairwise (le := fun a b : (Str × Bool × Str) × Rule × V => leKey a.1 b.1)
        (fun a b c => leKey_trans a.1 b.1 c.1) (fun a b => by simpa using leKey_total a.1 b.1) ks
      refine hp.imp_of_mem (fun {a b} ha hb hab => ?_)
      exact ⟨a.1, b.1, h2 a (StableSort.mem.1 ha), h2 b (StableSort.mem.1 hb), hab⟩

theorem mapM_some {α β : Type} {f : α → Option β} {l : List α} (h : ∀ x ∈ l, ∃ y, f x = some y) : ∃ r, l.mapM f = some r := by
  induction l with
  | nil => exact ⟨[], rfl⟩
  | cons a l ih =>
    obtain ⟨y, hy⟩ := h a (by simp)
    obtain ⟨r, hr⟩ := ih (fun x hx => h x (by simp [hx]))
    exact ⟨y :: r, by simp [List.mapM_cons, hy, hr]⟩

theorem sortgrammar_total {V : Type} {g : List (Rule × V)} (h : ∀ x ∈ g, ∃ k, sortkey x.1 = some k) : ∃ s, sortgrammar g = some s := by
  obtain ⟨r, hr⟩ := mapM_some (f := fun x : Rule × V => (sortkey x.1).map (fun k => (k, x))) (l := g)
    (fun x hx => by obtain ⟨k, hk⟩ := h x hx; exact ⟨(k, x), by simp [hk]⟩)
  exact ⟨_, by rw [sortgrammar, hr]; rfl⟩

theorem sortkey_eq {r : Rule} {k : Str × Bool × Str} (h : sortkey r = some k) :
    Spec.lhs r = some k.2.2 ∧ (k.2.1 = true ↔ ['}', '<'] <:+: k.2.2) ∧
      ((Spec.word r = none ∧ k.1 = []) ∨ Spec.word r = some k.1) := by
  obtain ⟨nts, yf⟩ := r
  rw [sortkey] at h
  split at h
  · rename_i l e rest w h1 h2
    simp only at h1 h2
    subst h1 h2
    split at h
    · rename_i he
      simp only [Option.some.injEq] at h
      subst h he
      exact ⟨rfl, by simp only [isBinMark]; exact Str.find_isSome_iff _ _, .inr (by simp [Spec.word])⟩
    · rename_i he
      simp only [Option.some.injEq] at h
      subst h
      exact ⟨rfl, by simp only [isBinMark]; exact Str.find_isSome_iff _ _, .inl (by simp [Spec.word, he])⟩
  · rename_i l e rest w h1 h2
    simp only at h1 h2
    subst h1 h2
    split at h
    · simp at h
    · simp only [Option.some.injEq] at h
      subst h
      exact ⟨rfl, by simp only [isBinMark]; exact Str.find_isSome_iff _ _, .inl (by simp [Spec.word])⟩
  · simp at h

theorem inOrder_of_leKey {x y : Rule} {a b : Str × Bool × Str} (hx : sortkey x = some a) (hy : sortkey y = some b) (h : leKey a b = true)
    (nx : Spec.word x ≠ some []) (ny : Spec.word y ≠ some []) : Spec.InOrder x y := by
  obtain ⟨lx, bx, wx⟩ := sortkey_eq hx
  obtain ⟨ly, by', wy⟩ := sortkey_eq hy
  obtain ⟨a1, a2, a3⟩ := a
  obtain ⟨b1, b2, b3⟩ := b
  simp only at lx bx wx ly by' wy
  have cx : (Spec.word x).isSome = false → Spec.cluster x = if a2 then 1 else 0 := by
    intro e
    rw [Spec.cluster, e, if_neg (by simp)]
    by_cases h : a2 = true
    · simp only [h, if_true]; exact if_pos ⟨_, lx, bx.1 h⟩
    · rw [if_neg h, if_neg]; rintro ⟨l, hl, hb⟩; rw [lx] at hl; cases hl; exact h (bx.2 hb)
  have cy : (Spec.word y).isSome = false → Spec.cluster y = if b2 then 1 else 0 := by
    intro e
    rw [Spec.cluster, e, if_neg (by simp)]
    by_cases h : b2 = true
    · simp only [h, if_true]; exact if_pos ⟨_, ly, by'.1 h⟩
    · rw [if_neg h, if_neg]; rintro ⟨l, hl, hb⟩; rw [ly] at hl; cases hl; exact h (by'.2 hb)
  have c2x : (Spec.word x).isSome = true → Spec.cluster x = 2 := fun e => by rw [Spec.cluster, if_pos e]
  have c2y : (Spec.word y).isSome = true → Spec.cluster y = 2 := fun e => by rw [Spec.cluster, if_pos e]
  rcases wx with ⟨wx, rfl⟩ | wx <;> rcases wy with ⟨wy, rfl⟩ | wy
  · have ex := cx (by simp [wx])
    have ey := cy (by simp [wy])
    simp only [leKey, ne_eq, not_true_eq_false, if_false] at h
    rw [Spec.InOrder, ex, ey]
    cases a2 <;> cases b2 <;> simp_all [leStr]
  · have ex := cx (by simp [wx])
    left
    rw [ex, c2y (by simp [wy])]
    split <;> simp
  · exfalso
    have hne : a1 ≠ [] := by rintro rfl; exact nx wx
    simp only [leKey, ne_eq, hne, not_false_eq_true, if_true, leStr, decide_eq_true_eq] at h
    cases a1 with
    | nil => exact hne rfl
    | cons c a1 => exact h (List.Lex.nil)
  · right
    rw [c2x (by simp [wx]), c2y (by simp [wy])]
    refine ⟨rfl, by simp, fun u v hu hv => ?_⟩
    rw [wx] at hu; rw [wy] at hv
    cases hu; cases hv
    by_cases e : a1 = b1
    · subst e; exact List.le_refl _
    · simpa only [leKey, ne_eq, e, not_false_eq_true, if_true, leStr, decide_eq_true_eq] using h

/-- **C21.** `sortgrammar` permutes the rules into the documented order, whatever the rules, if no word is empty. -/
theorem C21_sortgrammar {V : Type} (g s : List (Rule × V)) (h : sortgrammar g = some s) (hw : ∀ x ∈ g, Spec.word x.1 ≠ some []) :
    s.Perm g ∧ s.Pairwise (fun x y => Spec.InOrder x.1 y.1) := by
  obtain ⟨h1, h2⟩ := sortgrammar_spec h
  refine ⟨h1, h2.imp_of_mem (fun {x y} hx hy hxy => ?_)⟩
  obtain ⟨a, b, ha, hb, hab⟩ := hxy
  exact inOrder_of_leKey ha hb hab (hw x (h1.mem_iff.1 hx)) (hw y (h1.mem_iff.1 hy))

theorem escape_ne {w : Str} (h : w ≠ []) : Escape.escape (some w) ≠ [] := by
  have aux : ∀ (a b : Char) (rep w : Str), w ≠ [] → Escape.replace [a] (b :: rep) w ≠ [] := by
    intro a b rep w h
    rw [Escape.replace_char]
    cases w with
    | nil => exact absurd rfl h
    | cons c w => rw [List.flatMap_cons]; split <;> simp
  rw [Escape.escape]
  exact aux _ _ _ _ (aux _ _ _ _ h)

/-! ### Counting -/

theorem incrementsOf_ones (r : Rule) (rules : List Rule) : incrementsOf r (rules.map (fun r => (r, (1 : ℚ)))) = rules.count r := by
  induction rules with
  | nil => simp [incrementsOf]
  | cons x rules ih =>
    rw [incrementsOf] at ih
    by_cases h : x = r
    · subst h; simp [incrementsOf, ih, add_comm]
    · simp [incrementsOf, ih, h]

theorem describes_lhs {sent : List (Option Str)} {t : PTree Str} {r : Rule} (h : Spec.Describes sent t r) : r.nts.head? = t.label? := by
  unfold Spec.Describes at h
  split at h
  · obtain ⟨w, _, rfl⟩ := h; rfl
  · obtain ⟨_, yf, rfl, _⟩ := h; rfl
  · exact h.elim

theorem describes_key {sent : List (Option Str)} {t : PTree Str} {r : Rule} (h : Spec.Describes sent t r) (hl : ∀ c ∈ t.children, c.label? ≠ some epsilon)
    (hne : t.children ≠ []) : ∃ k, sortkey r = some k := by
  unfold Spec.Describes at h
  split at h
  · obtain ⟨w, _, rfl⟩ := h; exact ⟨_, rfl⟩
  · rename_i l cs _
    obtain ⟨hn, yf, rfl, _⟩ := h
    cases cs with
    | nil => simp [PTree.children] at hne
    | cons c cs =>
      cases c with
      | leaf i => have := hn (.leaf i) (by simp); simp [isNode] at this
      | node m ds =>
        have := hl (.node m ds) (by simp [PTree.children])
        simp only [label?, ne_eq, Option.some.injEq] at this
        exact ⟨_, by simp [sortkey, label?, this]; rfl⟩
  · exact h.elim

theorem describes_word {sent : List (Option Str)} {t : PTree Str} {r : Rule} (h : Spec.Describes sent t r) (hw : ∀ w, some w ∈ sent → w ≠ []) :
    Spec.word r ≠ some [] := by
  unfold Spec.Describes at h
  split at h
  · obtain ⟨w, hs, rfl⟩ := h
    simp only [Spec.word, List.getElem?_cons_succ, List.getElem?_cons_zero, if_true, ne_eq, Option.some.injEq]
    exact escape_ne (hw w (List.mem_of_getElem? hs))
  · obtain ⟨_, yf, rfl, _⟩ := h
    simp [Spec.word]
  · exact h.elim

theorem forall₂_count {sent : List (Option Str)} {sts : List (PTree Str)} {rules : List Rule} (h : List.Forall₂ (Spec.Describes sent) sts rules) (l : Str) :
    (rules.filter (fun r => decide (Spec.lhs r = some l))).length = (sts.filter (fun c => decide (c.label? = some l))).length := by
  induction h with
  | nil => rfl
  | cons h _ ih =>
    rw [List.filter_cons, List.filter_cons, Spec.lhs, describes_lhs h]
    split <;> simp [ih]

/-- All trees of the treebank are well-formed input with their sentences; words are not empty, and no constituent has the reserved label `Epsilon`. -/
structure Spec.Treebank (trees : List (PTree Str)) (sents : List (List (Option Str))) : Prop where
  len : trees.length = sents.length
  input : ∀ x ∈ trees.zip sents, Prods.Spec.Input x.1 x.2
  words : ∀ s ∈ sents, ∀ w, some w ∈ s → w ≠ []
  noEps : ∀ t ∈ trees, ∀ c ∈ subtrees t, c.label? ≠ some epsilon

theorem allProductions_spec {xs : List (PTree Str × List (Option Str))} (h : ∀ x ∈ xs, Prods.Spec.Input x.1 x.2) :
    ∃ rules, allProductions xs = some rules ∧
      (∀ l, (rules.filter (fun r => decide (Spec.lhs r = some l))).length =
        ((xs.flatMap (fun x => subtrees x.1)).filter (fun c => decide (c.label? = some l))).length) ∧
      ∀ r ∈ rules, ∃ x ∈ xs, ∃ c ∈ subtrees x.1, Prods.Spec.Describes x.2 c r := by
  induction xs with
  | nil => exact ⟨[], rfl, by simp, by simp⟩
  | cons x xs ih =>
    obtain ⟨t, s⟩ := x
    obtain ⟨rs, h1, h2, h3⟩ := ih (fun x hx => h x (by simp [hx]))
    obtain ⟨r, hr, hd⟩ := C20_productions t s false (h (t, s) (by simp))
    refine ⟨r ++ rs, by rw [allProductions, hr, h1]; rfl, fun l => ?_, fun q hq => ?_⟩
    · rw [List.filter_append, List.length_append, forall₂_count hd l, h2 l, List.flatMap_cons, List.filter_append, List.length_append]
    · rcases List.mem_append.1 hq with hq | hq
      · obtain ⟨i, hi, rfl⟩ := List.mem_iff_getElem.1 hq
        have hl := hd.length_eq
        exact ⟨(t, s), by simp, (subtrees t)[i], List.getElem_mem _, List.forall₂_iff_get.1 hd |>.2 i (by omega) hi⟩
      · obtain ⟨x, hx, c⟩ := h3 q hq
        exact ⟨x, by simp [hx], c⟩

/-- The productions of all trees of the treebank, in order. -/
def Spec.productions (trees : List (PTree Str)) (sents : List (List (Option Str))) : List Rule :=
  (trees.zip sents).flatMap (fun x => (lcfrsproductions x.1 x.2 false).getD [])

theorem allProductions_eq {xs : List (PTree Str × List (Option Str))} {rules : List Rule} (h : allProductions xs = some rules) :
    rules = xs.flatMap (fun x => (lcfrsproductions x.1 x.2 false).getD []) := by
  induction xs generalizing rules with
  | nil => simp [allProductions] at h; exact h
  | cons x xs ih =>
    obtain ⟨t, s⟩ := x
    rw [allProductions] at h
    cases hr : lcfrsproductions t s false with
    | none => simp [hr] at h
    | some r =>
      cases hrs : allProductions xs with
      | none => simp [hr, hrs] at h
      | some rs =>
        simp [hr, hrs] at h
        subst h
        rw [List.flatMap_cons, ← ih hrs, hr]
        rfl

theorem zip_fst_subtrees {trees : List (PTree Str)} {sents : List (List (Option Str))} (h : trees.length = sents.length) :
    (trees.zip sents).flatMap (fun x => subtrees x.1) = trees.flatMap subtrees := by
  have : (trees.zip sents).map Prod.fst = trees := List.map_fst_zip (by omega)
  conv_rhs => rw [← this, List.flatMap_map]

theorem WF_nil {K V : Type} [DecidableEq K] : WF ([] : Dict K V) := by simp [WF, keys]

theorem mass_total (g : Dict Rule ℚ) (l : Str) : Spec.mass g l = total (fun r => decide (Spec.lhs r = some l)) g := rfl

/-- **C21.** The treebank grammar exists for every well-formed treebank; each rule occurs once; its weight is the number of its occurrences
among the productions of the trees; the weights for a left-hand side add up to the number of constituents with that label; the rules come
sorted in the three documented clusters. -/
theorem C21_treebankgrammar (trees : List (PTree Str)) (sents : List (List (Option Str))) (h : Spec.Treebank trees sents) :
    ∃ g, treebankgrammar trees sents [] = some g ∧ (g.map Prod.fst).Nodup ∧
      (∀ r w, (r, w) ∈ g ↔ r ∈ Spec.productions trees sents ∧ w = (Spec.productions trees sents).count r) ∧
      (∀ l, Spec.mass g l = Spec.occurrences trees l) ∧
      g.Pairwise (fun x y => Spec.InOrder x.1 y.1) := by
  obtain ⟨rules, h1, h2, h3⟩ := allProductions_spec h.input
  have hw : WF (addAll ([] : Dict Rule ℚ) (rules.map (fun r => (r, 1)))) := WF_nil.addAll _
  have hkeys : ∀ r, r ∈ keys (addAll ([] : Dict Rule ℚ) (rules.map (fun r => (r, 1)))) ↔ r ∈ rules := by
    intro r
    rw [mem_keys_addAll]
    simp [keys, Function.comp_def]
  have hk : ∀ x ∈ addAll ([] : Dict Rule ℚ) (rules.map (fun r => (r, 1))), ∃ k, sortkey x.1 = some k := by
    intro x hx
    have hr : x.1 ∈ rules := (hkeys x.1).1 (List.mem_map_of_mem hx)
    obtain ⟨y, hy, c, hc, hd⟩ := h3 x.1 hr
    have hy1 : y.1 ∈ trees := (List.of_mem_zip hy).1
    refine describes_key hd (fun d hdc => ?_) ?_
    · cases d with
      | leaf i => simp [label?]
      | node m ds =>
        refine h.noEps y.1 hy1 (.node m ds) ?_
        refine subtrees_trans ?_ hc
        cases c with
        | leaf i => simp [PTree.children] at hdc
        | node l cs =>
          rw [subtrees_node, subtreesL_eq_flatMap]
          refine List.mem_cons_of_mem _ (List.mem_flatMap.2 ⟨_, hdc, ?_⟩)
          simp
    · obtain ⟨l, cs, rfl⟩ := mem_subtrees_self_isNode hc
      intro e
      simp only [PTree.children] at e
      subst e
      exact (h.input y hy).wf.noEmpty _ hc
  obtain ⟨g, hg⟩ := sortgrammar_total hk
  obtain ⟨hperm, hsort⟩ := C21_sortgrammar _ _ hg (fun x hx => by
    have hr : x.1 ∈ rules := (hkeys x.1).1 (List.mem_map_of_mem hx)
    obtain ⟨y, hy, c, hc, hd⟩ := h3 x.1 hr
    exact describes_word hd (fun w hw => h.words y.2 (List.of_mem_zip hy).2 w hw))
  have hprod : Spec.productions trees sents = rules := (allProductions_eq h1).symm
  refine ⟨g, ?_, ?_, ?_, ?_, hsort⟩
  · rw [treebankgrammar, h1]
    exact hg
  · exact (hperm.map Prod.fst).nodup_iff.2 hw
  · intro r w
    rw [hperm.mem_iff, hprod]
    have hc : cnt (addAll ([] : Dict Rule ℚ) (rules.map (fun r => (r, 1)))) r = rules.count r := by
      rw [cnt_addAll, incrementsOf_ones]; simp [cnt, get?]
    constructor
    · intro hm
      refine ⟨(hkeys r).1 (List.mem_map_of_mem hm), ?_⟩
      rw [← hc, cnt_of_mem hw hm]
    · rintro ⟨hr, rfl⟩
      have := mem_keys.1 ((hkeys r).2 hr)
      obtain ⟨v, hv⟩ := Option.isSome_iff_exists.1 this
      have hm := mem_of_get? hv
      rw [← hc, cnt_of_mem hw hm]
      exact hm
  · intro l
    rw [Spec.mass, ((hperm.filter _).map _).sum_eq]
    have := total_addAll (fun r => decide (Spec.lhs r = some l)) (rules.map (fun r => (r, (1 : ℚ)))) []
    rw [total] at this
    rw [this]
    have e : ∀ rs : List Rule, (((rs.map (fun r => (r, (1 : ℚ)))).filter (fun x => decide (Spec.lhs x.1 = some l))).map Prod.snd).sum =
        (rs.filter (fun r => decide (Spec.lhs r = some l))).length := by
      intro rs
      induction rs with
      | nil => simp
      | cons r rs ih => by_cases hh : Spec.lhs r = some l <;> simp [hh, ih, add_comm]
    rw [e, h2 l, Spec.occurrences, zip_fst_subtrees h.len]
    simp [total]

/-- **C21.** Hence dividing each weight by the sum for its left-hand side gives the relative frequency of the rule among the constituents with that label. -/
theorem C21_relative_frequency (trees : List (PTree Str)) (sents : List (List (Option Str))) (h : Spec.Treebank trees sents) (g : List (Rule × ℚ))
    (hg : treebankgrammar trees sents [] = some g) (r : Rule) (w : ℚ) (hr : (r, w) ∈ g) :
    ∃ l, Spec.lhs r = some l ∧ w / Spec.mass g l = (Spec.productions trees sents).count r / Spec.occurrences trees l ∧
      0 < Spec.mass g l ∧ ((g.filter (fun x => decide (Spec.lhs x.1 = some l))).map (fun x => x.2 / Spec.mass g l)).sum = 1 := by
  obtain ⟨g', hg', hn, hm, hs, _⟩ := C21_treebankgrammar trees sents h
  rw [hg] at hg'
  obtain rfl := Option.some.inj hg'
  have hr' := (hm r w).1 hr
  obtain ⟨rules, h1, h2, h3⟩ := allProductions_spec h.input
  have hprod : Spec.productions trees sents = rules := (allProductions_eq h1).symm
  rw [hprod] at hr'
  obtain ⟨x, hx, c, hc, hd⟩ := h3 r hr'.1
  obtain ⟨l, cs, rfl⟩ := mem_subtrees_self_isNode hc
  have hl : Spec.lhs r = some l := describes_lhs hd
  have hpos : 0 < Spec.occurrences trees l := by
    rw [Spec.occurrences, List.length_pos_iff]
    intro e
    have : PTree.node l cs ∈ (trees.flatMap subtrees).filter (fun c => decide (c.label? = some l)) := by
      rw [List.mem_filter]
      exact ⟨List.mem_flatMap.2 ⟨x.1, (List.of_mem_zip hx).1, hc⟩, by simp [label?]⟩
    rw [e] at this
    simp at this
  have hpos' : 0 < Spec.mass g l := by rw [hs l]; exact_mod_cast hpos
  refine ⟨l, hl, by rw [hs l, hr'.2, hprod], hpos', ?_⟩
  have : ∀ (ys : List (Rule × ℚ)) (m : ℚ), (ys.map (fun x => x.2 / m)).sum = (ys.map Prod.snd).sum / m := by
    intro ys m
    induction ys with
    | nil => simp
    | cons y ys ih => simp [ih, add_div]
  rw [this]
  exact div_self (ne_of_gt hpos')

/-- **C21.** With extra rules, their pseudo-frequencies are added to the counts (whatever the trees, if the grammar exists at all). -/
theorem C21_extrarules (trees : List (PTree Str)) (sents : List (List (Option Str))) (extra : Dict Rule ℚ) (he : WF extra) (g : List (Rule × ℚ))
    (hg : treebankgrammar trees sents extra = some g) :
    (g.map Prod.fst).Nodup ∧ ∀ r w, (r, w) ∈ g ↔ (r ∈ Spec.productions trees sents ∨ r ∈ extra.map Prod.fst) ∧
      w = (Spec.productions trees sents).count r + (get? extra r).getD 0 := by
  rw [treebankgrammar] at hg
  cases h1 : allProductions (trees.zip sents) with
  | none => simp [h1] at hg
  | some rules =>
    simp only [h1, Option.bind_eq_bind, Option.bind_some] at hg
    have hprod : Spec.productions trees sents = rules := (allProductions_eq h1).symm
    have hw : WF (addAll (addAll ([] : Dict Rule ℚ) (rules.map (fun r => (r, 1)))) extra) := (WF_nil.addAll _).addAll _
    obtain ⟨hperm, _⟩ := sortgrammar_spec hg
    refine ⟨(hperm.map Prod.fst).nodup_iff.2 hw, fun r w => ?_⟩
    rw [hperm.mem_iff, hprod]
    have hkeys : r ∈ keys (addAll (addAll ([] : Dict Rule ℚ) (rules.map (fun r => (r, 1)))) extra) ↔ r ∈ rules ∨ r ∈ extra.map Prod.fst := by
      rw [mem_keys_addAll, mem_keys_addAll]
      simp [keys, Function.comp_def]
    have hinc : incrementsOf r extra = (get? extra r).getD 0 := by
      rw [← show cnt extra r = (get? extra r).getD 0 from rfl]
      clear hg hperm hkeys hw
      induction extra with
      | nil => simp [incrementsOf, cnt, get?]
      | cons x extra ih =>
        obtain ⟨k, v⟩ := x
        simp only [WF, keys, List.map_cons, List.nodup_cons] at he
        replace ih := ih he.2
        by_cases hk : k = r
        · subst hk
          have h0 : get? extra k = none := by
            by_contra hc
            exact he.1 (mem_keys.2 (Option.isSome_iff_ne_none.2 hc))
          rw [cnt, h0] at ih
          simp only [incrementsOf] at ih
          simp [incrementsOf, cnt, get?, ih]
        · simp only [incrementsOf] at ih
          simp [incrementsOf, cnt, get?, hk] at ih ⊢
          exact ih
    have hc : cnt (addAll (addAll ([] : Dict Rule ℚ) (rules.map (fun r => (r, 1)))) extra) r = rules.count r + (get? extra r).getD 0 := by
      rw [cnt_addAll, cnt_addAll, incrementsOf_ones, hinc]; simp [cnt, get?]
    constructor
    · intro hm
      exact ⟨hkeys.1 (List.mem_map_of_mem hm), by rw [← hc, cnt_of_mem hw hm]⟩
    · rintro ⟨hr, rfl⟩
      obtain ⟨v, hv⟩ := Option.isSome_iff_exists.1 (mem_keys.1 (hkeys.2 hr))
      have hm := mem_of_get? hv
      rw [← hc, cnt_of_mem hw hm]
      exact hm

/-- A treebank of two trees, one of them discontinuous. -/
def exTree2 : PTree Str := .node ['S'] [.node ['N','P'] [.leaf 0], .node ['V'] [.leaf 1]]
def exSent2 : List (Option Str) := [some ['M','a','r','y'], some ['i','s']]

theorem exTreebank : Spec.Treebank [exTree, exTree2] [exSent, exSent2] := by
  refine ⟨rfl, ?_, ?_, ?_⟩
  · intro x hx
    simp only [List.zip_cons_cons, List.zip_nil_right, List.mem_cons, List.not_mem_nil, or_false] at hx
    rcases hx with rfl | rfl
    · exact exTree_input
    · refine ⟨⟨?_, ?_, by decide +kernel⟩, ?_⟩
      · intro l cs h
        simp [exTree2] at h
        rcases h with ⟨_, rfl⟩ | ⟨_, rfl⟩ | ⟨_, rfl⟩ <;> simp [isNode]
      · intro l h
        simp [exTree2] at h
      · intro i hi
        simp [exTree2] at hi
        rcases hi with rfl | rfl <;> exact ⟨_, rfl⟩
  · intro s hs w hw
    simp only [List.mem_cons, List.not_mem_nil, or_false] at hs
    rcases hs with rfl | rfl
    · simp [exSent] at hw
      rcases hw with rfl | rfl | rfl <;> simp
    · simp [exSent2] at hw
      rcases hw with rfl | rfl <;> simp
  · intro t ht c hc
    simp only [List.mem_cons, List.not_mem_nil, or_false] at ht
    rcases ht with rfl | rfl
    · simp [exTree] at hc
      rcases hc with rfl | rfl | rfl | rfl | rfl <;> simp [label?, epsilon]
    · simp [exTree2] at hc
      rcases hc with rfl | rfl | rfl <;> simp [label?, epsilon]

example : Spec.Treebank [exTree, exTree2] [exSent, exSent2] ∧ Spec.occurrences [exTree, exTree2] ['V'] = 2 ∧
    Spec.cluster ⟨[['S'], ['N','P'], ['V']], .spans [[0, 1]]⟩ = 0 ∧ Spec.cluster ⟨[['V'], epsilon], .word ['i','s']⟩ = 2 := by
  refine ⟨exTreebank, by decide +kernel, ?_, ?_⟩
  · simp [Spec.cluster, Spec.word, Spec.lhs]; decide +kernel
  · simp [Spec.cluster, Spec.word, epsilon]

end Disco.TBGrammar
