import Verif.Basic.Tree
import Verif.Basic.Str
import Verif.Basic.Counter
import Mathlib.Algebra.BigOperators.Ring.List
import Mathlib.Algebra.Order.BigOperators.Group.List
import Mathlib.Algebra.Order.Field.Rat
import Mathlib.Algebra.Field.Rat
import Mathlib.Algebra.Order.Field.Basic
import Mathlib.Tactic.FieldSimp
import Mathlib.Tactic.Linarith
import Mathlib.Tactic.Ring
import Mathlib.Data.List.Dedup
/-!
# C87: the weights of a DOP grammar made from fragments

`dopgrammar` (discodop/grammar.py:225-321) computes for each fragment its frequency, its share in the equal weights
estimate (`ewe`), and its weight according to Bonnema (`bon`).
Weights are exact rationals; Python has floats.
-/
namespace Disco.DopW
open Disco Dict

/-! ## Model -/

/-- `frag[1:frag.index(' ')]` (grammar.py:243). Simplification: a fragment without a space raises ValueError; here the result is the rest. -/
def rootOf (frag : Str) : Str := (frag.drop 1).takeWhile (· ≠ ' ')

/-- `frag.count('(') - 1` (grammar.py:244). -/
def nonterms (frag : Str) : Nat := frag.count '(' - 1

/-- A dictionary of fragments with their occurrences: sentence numbers with repetitions (grammar.py:236-237). -/
abbrev Frags := List (Str × List Nat)

/-- `for indices in fragments.values(): for idx in indices: fragmentcount[idx] += 1` (grammar.py:258-261). -/
def fragmentcount (fr : Frags) : Dict Nat Nat := addAll [] ((fr.flatMap Prod.snd).map fun i => (i, 1))

/-- `Counter(node.label for tree in trees for node in tree.subtrees())` (grammar.py:263). -/
def ntfd (trees : List (PTree Str)) : Dict Str Nat :=
  addAll [] (((trees.flatMap PTree.subtrees).filterMap PTree.label?).map fun l => (l, 1))

/-- `sum(1 / fragmentcount[idx] for idx in fragments[frag])` (grammar.py:247). -/
def ewe (fr : Frags) (occ : List Nat) : ℚ := (occ.map fun i => 1 / ((cnt (fragmentcount fr) i : Nat) : ℚ)).sum

/-- `2 ** -nonterms * (freq / ntfd[root])` (grammar.py:249). A root that is not in the treebank
raises ZeroDivisionError in Python. -/
def bon (trees : List (PTree Str)) (frag : Str) (occ : List Nat) : ℚ :=
  (1 / 2) ^ nonterms frag * ((occ.length : ℚ) / ((cnt (ntfd trees) (rootOf frag) : Nat) : ℚ))

/-- `getweight(frag)` (grammar.py:240-251): frequency, ewe, bon, weight for the shortest derivation. -/
def getweight (trees : List (PTree Str)) (fr : Frags) (x : Str × List Nat) : Nat × ℚ × ℚ × ℚ :=
  (x.2.length, ewe fr x.2, bon trees x.1 x.2, 1 / 2)

/-- `ntsumsewe[rule[0][0]] += ewe` and the division (grammar.py:310-314), for a grammar given as a list of left-hand
sides with their ewe weight. -/
def eweweights (rules : List (Str × ℚ)) : List (Str × ℚ) :=
  rules.map fun r => (r.1, r.2 / cnt (addAll [] rules) r.1)

/-! ## Specification: fragments of a tree -/

/-- A fragment: words, substitution sites (with the text that shows their position), constituents. -/
inductive Pat where
  | word (txt : Str)
  | site (lab txt : Str)
  | node (lab : Str) (cs : List Pat)
deriving Repr

mutual
/-- The fragments below a child: a word stays; a constituent becomes a substitution site or is kept. -/
def opts (wd : Nat → Str) (sp : PTree Str → Str) : PTree Str → List Pat
  | .leaf i => [.word (wd i)]
  | .node l cs => .site l (sp (.node l cs)) :: (optsL wd sp cs).map (.node l)
/-- All combinations for a list of children. -/
def optsL (wd : Nat → Str) (sp : PTree Str → Str) : List (PTree Str) → List (List Pat)
  | [] => [[]]
  | c :: cs => (opts wd sp c).flatMap fun p => (optsL wd sp cs).map (p :: ·)
end

/-- The fragments rooted in a constituent. -/
def cutsAt (wd : Nat → Str) (sp : PTree Str → Str) : PTree Str → List Pat
  | .leaf _ => []
  | .node l cs => (optsL wd sp cs).map (.node l)

/-- All occurrences of fragments in a treebank (trees with their words). -/
def occurrences (sp : PTree Str → Str) (ts : List (PTree Str × (Nat → Str))) : List Pat :=
  ts.flatMap fun x => x.1.subtrees.flatMap (cutsAt x.2 sp)

/-- Root label. -/
def Pat.lab : Pat → Str
  | .word _ => []
  | .site l _ => l
  | .node l _ => l

mutual
/-- Number of constituents including substitution sites. -/
def Pat.size : Pat → Nat
  | .word _ => 0
  | .site _ _ => 1
  | .node _ cs => 1 + Pat.sizeL cs
/-- of a list -/
def Pat.sizeL : List Pat → Nat
  | [] => 0
  | c :: cs => Pat.size c + Pat.sizeL cs
end

mutual
/-- The fragment in bracket notation. -/
def Pat.render : Pat → Str
  | .word t => t
  | .site l t => ['('] ++ l ++ [' '] ++ t ++ [')']
  | .node l cs => ['('] ++ l ++ Pat.renderL cs ++ [')']
/-- the children, each preceded by a space -/
def Pat.renderL : List Pat → Str
  | [] => []
  | c :: cs => [' '] ++ Pat.render c ++ Pat.renderL cs
end

/-! ## Counting -/

theorem incrementsOf_ones {K : Type} [DecidableEq K] [BEq K] [LawfulBEq K] (k : K) (xs : List K) :
    incrementsOf k (xs.map fun i => (i, 1)) = xs.count k := by
  induction xs with
  | nil => simp [incrementsOf]
  | cons x xs ih =>
    unfold incrementsOf at ih ⊢
    rw [List.map_cons, List.filter_cons, List.count_cons]
    by_cases h : x = k
    · simp only [h, decide_true, if_true, List.map_cons, List.sum_cons, beq_self_eq_true]
      rw [ih, Nat.add_comm]
    · have : (x == k) = false := by simpa using h
      simp only [h, decide_false, Bool.false_eq_true, if_false, this]
      rw [ih, Nat.add_zero]

theorem fragmentcount_eq (fr : Frags) (i : Nat) :
    cnt (fragmentcount fr) i = (fr.flatMap Prod.snd).count i := by
  rw [fragmentcount, cnt_addAll, incrementsOf_ones]; simp [cnt, get?]

theorem ntfd_eq (trees : List (PTree Str)) (l : Str) :
    cnt (ntfd trees) l = ((trees.flatMap PTree.subtrees).filterMap PTree.label?).count l := by
  rw [ntfd, cnt_addAll, incrementsOf_ones]; simp [cnt, get?]

/-- Each value of a list contributes one in total when weighted by the inverse of its count. -/
theorem sum_inv_count (xs ds : List Nat) (hd : ds.Nodup) (hs : ∀ x ∈ xs, x ∈ ds) (c : Nat → ℚ) :
    (xs.map c).sum = (ds.map fun i => (xs.count i : ℚ) * c i).sum := by
  induction xs with
  | nil => simp
  | cons x xs ih =>
    have ih := ih (fun y hy => hs y (by simp [hy]))
    rw [List.map_cons, List.sum_cons, ih]
    have hx := hs x (by simp)
    have e : ∀ ds : List Nat, ds.Nodup → (ds.map fun i => ((x :: xs).count i : ℚ) * c i).sum
        = (if x ∈ ds then c x else 0) + (ds.map fun i => (xs.count i : ℚ) * c i).sum := by
      intro ds
      induction ds with
      | nil => simp
      | cons d ds ihd =>
        intro hn
        have hn' := List.nodup_cons.1 hn
        rw [List.map_cons, List.sum_cons, List.map_cons, List.sum_cons, ihd hn'.2]
        by_cases h : x = d
        · subst h
          simp [hn'.1]
          ring
        · simp [h]
          ring
    rw [e ds hd, if_pos hx]

/-! ## Equal weights estimate -/

/-- **C87.** The equal weights estimate gives each tree the same weight: over all fragments, the occurrences in
tree `i` get one in total, for every tree in which fragments occur. -/
theorem C87_ewe_per_tree (fr : Frags) (i : Nat) (hi : ∃ x ∈ fr, i ∈ x.2) :
    (fr.map fun x => ((x.2.filter (· = i)).map fun j => 1 / ((cnt (fragmentcount fr) j : Nat) : ℚ)).sum).sum = 1 := by
  have h1 : ∀ (f : Nat → ℚ) (l : Frags), (l.map fun x => ((x.2.filter (· = i)).map f).sum).sum
      = ((l.flatMap Prod.snd).count i : ℚ) * f i := by
    intro f l
    induction l with
    | nil => simp
    | cons x l ih =>
      rw [List.map_cons, List.sum_cons, ih, List.flatMap_cons, List.count_append]
      have : ∀ ys : List Nat, ((ys.filter (· = i)).map f).sum = (ys.count i : ℚ) * f i := by
        intro ys
        induction ys with
        | nil => simp
        | cons y ys ihy =>
          by_cases h : y = i
          · subst h
            rw [List.filter_cons_of_pos (by simp), List.map_cons, List.sum_cons, ihy,
              List.count_cons_self]
            push_cast; ring
          · rw [List.filter_cons_of_neg (by simpa using h), ihy, List.count_cons_of_ne (by exact h)]
      rw [this]
      push_cast; ring
  rw [h1, fragmentcount_eq]
  have hpos : 0 < (fr.flatMap Prod.snd).count i := by
    rw [List.count_pos_iff, List.mem_flatMap]
    exact hi
  have : ((fr.flatMap Prod.snd).count i : ℚ) ≠ 0 := by exact_mod_cast hpos.ne'
  field_simp

/-- **C87.** Hence the ewe weights of all fragments add up to the number of trees in which fragments occur. -/
theorem C87_ewe_total (fr : Frags) :
    (fr.map fun x => ewe fr x.2).sum = ((fr.flatMap Prod.snd).dedup.length : ℚ) := by
  have h1 : ∀ (f : Nat → ℚ) (l : Frags), (l.map fun x => (x.2.map f).sum).sum = ((l.flatMap Prod.snd).map f).sum := by
    intro f l
    induction l with
    | nil => simp
    | cons x l ih => rw [List.map_cons, List.sum_cons, ih, List.flatMap_cons, List.map_append, List.sum_append]
  unfold ewe
  rw [h1, sum_inv_count _ (fr.flatMap Prod.snd).dedup (List.nodup_dedup _) (fun x hx => List.mem_dedup.2 hx)]
  have : ∀ ds : List Nat, (∀ d ∈ ds, d ∈ fr.flatMap Prod.snd) →
      (ds.map fun i => ((fr.flatMap Prod.snd).count i : ℚ) * (1 / ((cnt (fragmentcount fr) i : Nat) : ℚ))).sum
        = ds.length := by
    intro ds
    induction ds with
    | nil => simp
    | cons d ds ih =>
      intro h
      rw [List.map_cons, List.sum_cons, ih (fun x hx => h x (by simp [hx])), fragmentcount_eq]
      have hpos : 0 < (fr.flatMap Prod.snd).count d := List.count_pos_iff.2 (h d (by simp))
      have : ((fr.flatMap Prod.snd).count d : ℚ) ≠ 0 := by exact_mod_cast hpos.ne'
      rw [mul_one_div_cancel this]
      push_cast [List.length_cons]; ring
  exact this _ (fun d hd => List.mem_dedup.1 hd)

/-- **C87.** After normalisation the ewe weights of the rules with the same left-hand side add up to one, for every
left-hand side of a rule, when the weights are positive. -/
theorem C87_ewe_normalised (rules : List (Str × ℚ)) (hpos : ∀ r ∈ rules, 0 < r.2) (l : Str)
    (hl : l ∈ rules.map Prod.fst) :
    (((eweweights rules).filter fun r => decide (r.1 = l)).map Prod.snd).sum = 1 := by
  have hc : cnt (addAll [] rules) l = incrementsOf l rules := by
    rw [cnt_addAll]; simp [cnt, get?]
  have h1 : ∀ (d : ℚ) (rs : List (Str × ℚ)), (∀ r ∈ rs, r ∈ rules) → d = cnt (addAll [] rules) l →
      (((rs.map fun r => (r.1, r.2 / cnt (addAll [] rules) r.1)).filter fun r => decide (r.1 = l)).map Prod.snd).sum
        = incrementsOf l rs / d := by
    intro d rs
    induction rs with
    | nil => intro _ _; simp [incrementsOf]
    | cons r rs ih =>
      intro hrs hd
      have ih := ih (fun x hx => hrs x (by simp [hx])) hd
      rw [List.map_cons]
      unfold incrementsOf at ih ⊢
      by_cases h : r.1 = l
      · rw [List.filter_cons_of_pos (by simpa using h), List.filter_cons_of_pos (by simpa using h),
          List.map_cons, List.sum_cons, ih, List.map_cons, List.sum_cons]
        simp only [h]
        rw [← hd, add_div]
      · rw [List.filter_cons_of_neg (by simpa using h), List.filter_cons_of_neg (by simpa using h), ih]
  unfold eweweights
  rw [h1 _ rules (fun _ h => h) rfl, hc]
  have hp : 0 < incrementsOf l rules := by
    have key : ∀ rs : List (Str × ℚ), (∀ r ∈ rs, 0 < r.2) → 0 ≤ incrementsOf l rs ∧
        (l ∈ rs.map Prod.fst → 0 < incrementsOf l rs) := by
      intro rs
      induction rs with
      | nil => intro _; simp [incrementsOf]
      | cons r rs ih =>
        intro hr
        have ih := ih (fun x hx => hr x (by simp [hx]))
        have hr0 := hr r (by simp)
        unfold incrementsOf at ih ⊢
        by_cases h : r.1 = l
        · rw [List.filter_cons_of_pos (by simpa using h), List.map_cons, List.sum_cons]
          constructor
          · linarith [ih.1]
          · intro _; linarith [ih.1]
        · rw [List.filter_cons_of_neg (by simpa using h)]
          refine ⟨ih.1, fun hm => ih.2 ?_⟩
          rw [List.map_cons, List.mem_cons] at hm
          rcases hm with hm | hm
          · exact absurd hm.symm h
          · exact hm
    exact (key rules hpos).2 hl
  exact div_self hp.ne'

/-- The ewe weight of a fragment that occurs is positive, as is the weight of the other rules. -/
theorem C87_ewe_positive (fr : Frags) (x : Str × List Nat) (hx : x ∈ fr) (hocc : x.2 ≠ []) : 0 < ewe fr x.2 := by
  unfold ewe
  have key : ∀ occ : List Nat, (∀ i ∈ occ, i ∈ fr.flatMap Prod.snd) → occ ≠ [] →
      0 < (occ.map fun i => 1 / ((cnt (fragmentcount fr) i : Nat) : ℚ)).sum := by
    intro occ
    induction occ with
    | nil => intro _ h; exact absurd rfl h
    | cons i occ ih =>
      intro h _
      have hpos : 0 < (fr.flatMap Prod.snd).count i := List.count_pos_iff.2 (h i (by simp))
      have h1 : (0 : ℚ) < 1 / ((cnt (fragmentcount fr) i : Nat) : ℚ) := by
        rw [fragmentcount_eq]
        apply one_div_pos.2
        exact_mod_cast hpos
      rw [List.map_cons, List.sum_cons]
      by_cases h0 : occ = []
      · subst h0; simpa using h1
      · exact add_pos h1 (ih (fun j hj => h j (by simp [hj])) h0)
  exact key x.2 (fun i hi => List.mem_flatMap.2 ⟨x, hx, hi⟩) hocc

/-! ## Bonnema weights -/

mutual
theorem opts_sum (wd : Nat → Str) (sp : PTree Str → Str) (t : PTree Str) :
    ((opts wd sp t).map fun p => ((1 : ℚ) / 2) ^ p.size).sum = 1 := by
  cases t with
  | leaf i => simp [opts, Pat.size]
  | node l cs =>
    have ih := optsL_sum wd sp cs
    rw [opts, List.map_cons, List.sum_cons, List.map_map]
    have e : ((fun p : Pat => ((1 : ℚ) / 2) ^ p.size) ∘ Pat.node l)
        = fun ps => (1 / 2) * ((1 : ℚ) / 2) ^ Pat.sizeL ps := by
      funext ps
      simp only [Function.comp, Pat.size, pow_add, pow_one]
    rw [e, List.sum_map_mul_left, ih]
    norm_num [Pat.size]
theorem optsL_sum (wd : Nat → Str) (sp : PTree Str → Str) (cs : List (PTree Str)) :
    ((optsL wd sp cs).map fun ps => ((1 : ℚ) / 2) ^ Pat.sizeL ps).sum = 1 := by
  cases cs with
  | nil => simp [optsL, Pat.sizeL]
  | cons c cs =>
    have ih1 := opts_sum wd sp c
    have ih2 := optsL_sum wd sp cs
    rw [optsL]
    have key : ∀ ps : List Pat, (((ps.flatMap fun p => (optsL wd sp cs).map (p :: ·)).map
        fun qs => ((1 : ℚ) / 2) ^ Pat.sizeL qs)).sum = (ps.map fun p => ((1 : ℚ) / 2) ^ p.size).sum := by
      intro ps
      induction ps with
      | nil => simp
      | cons p ps ih =>
        rw [List.flatMap_cons, List.map_append, List.sum_append, ih, List.map_cons, List.sum_cons, List.map_map]
        congr 1
        have e : ((fun qs : List Pat => ((1 : ℚ) / 2) ^ Pat.sizeL qs) ∘ (p :: ·))
            = fun qs => ((1 : ℚ) / 2) ^ p.size * ((1 : ℚ) / 2) ^ Pat.sizeL qs := by
          funext qs
          simp only [Function.comp, Pat.sizeL, pow_add]
        rw [e, List.sum_map_mul_left, ih2, mul_one]
    rw [key, ih1]
end

/-- The fragments rooted in a constituent. -/
theorem cuts_sum (wd : Nat → Str) (sp : PTree Str → Str) (l : Str) (cs : List (PTree Str)) :
    ((cutsAt wd sp (.node l cs)).map fun p => ((1 : ℚ) / 2) ^ (p.size - 1)).sum = 1 := by
  rw [cutsAt, List.map_map]
  have e : ((fun p : Pat => ((1 : ℚ) / 2) ^ (p.size - 1)) ∘ Pat.node l)
      = fun ps => ((1 : ℚ) / 2) ^ Pat.sizeL ps := by
    funext ps
    simp only [Function.comp, Pat.size, Nat.add_sub_cancel_left]
  rw [e, optsL_sum]

/-- Occurrences rooted in a label: as many units as constituents with that label. -/
theorem occ_sum (sp : PTree Str → Str) (ts : List (PTree Str × (Nat → Str))) (X : Str) :
    (((occurrences sp ts).filter fun c => decide (c.lab = X)).map fun p => ((1 : ℚ) / 2) ^ (p.size - 1)).sum
      = ((((ts.map Prod.fst).flatMap PTree.subtrees).filterMap PTree.label?).count X : ℚ) := by
  have node1 : ∀ (wd : Nat → Str) (us : List (PTree Str)),
      (((us.flatMap (cutsAt wd sp)).filter fun c => decide (c.lab = X)).map
        fun p => ((1 : ℚ) / 2) ^ (p.size - 1)).sum = ((us.filterMap PTree.label?).count X : ℚ) := by
    intro wd us
    induction us with
    | nil => simp
    | cons u us ih =>
      rw [List.flatMap_cons, List.filter_append, List.map_append, List.sum_append, ih]
      cases u with
      | leaf i => simp [cutsAt, PTree.label?, List.filterMap_cons]
      | node l cs =>
        have hall : ∀ c ∈ cutsAt wd sp (.node l cs), c.lab = l := by
          intro c hc
          rw [cutsAt, List.mem_map] at hc
          obtain ⟨ps, -, rfl⟩ := hc
          rfl
        rw [List.filterMap_cons_some (b := l) (by rfl)]
        by_cases h : l = X
        · have : (cutsAt wd sp (.node l cs)).filter (fun c => decide (c.lab = X)) = cutsAt wd sp (.node l cs) := by
            rw [List.filter_eq_self]
            intro c hc
            simp [hall c hc, h]
          rw [this, cuts_sum, h, List.count_cons_self]
          push_cast; ring
        · have : (cutsAt wd sp (.node l cs)).filter (fun c => decide (c.lab = X)) = [] := by
            rw [List.filter_eq_nil_iff]
            intro c hc
            simp [hall c hc, h]
          rw [this, List.count_cons_of_ne (by simpa using h)]
          simp
  unfold occurrences
  induction ts with
  | nil => simp
  | cons x ts ih =>
    rw [List.flatMap_cons, List.filter_append, List.map_append, List.sum_append, ih, List.map_cons,
      List.flatMap_cons, List.filterMap_append, List.count_append, node1]
    push_cast; ring

/-- Summing over distinct names, with multiplicity, is summing over the named things. -/
theorem sum_by_name {α : Type} (name : α → Str) (g : Str → ℚ) (K : List Str) (hK : K.Nodup) (L : List α) :
    (K.map fun f => g f * ((L.filter fun c => decide (name c = f)).length : ℚ)).sum
      = ((L.filter fun c => decide (name c ∈ K)).map fun c => g (name c)).sum := by
  induction L with
  | nil => simp
  | cons c L ih =>
    have e : ∀ K : List Str, K.Nodup →
        (K.map fun f => g f * (((c :: L).filter fun c => decide (name c = f)).length : ℚ)).sum
        = (if name c ∈ K then g (name c) else 0)
          + (K.map fun f => g f * ((L.filter fun c => decide (name c = f)).length : ℚ)).sum := by
      intro K
      induction K with
      | nil => simp
      | cons k K ihK =>
        intro hn
        have hn' := List.nodup_cons.1 hn
        rw [List.map_cons, List.sum_cons, List.map_cons, List.sum_cons, ihK hn'.2]
        by_cases h : name c = k
        · rw [List.filter_cons_of_pos (by simpa using h), List.length_cons]
          rw [if_neg (by rw [h]; exact hn'.1), if_pos (by rw [h]; simp), ← h]
          push_cast; ring
        · rw [List.filter_cons_of_neg (by simpa using h)]
          have : name c ∈ k :: K ↔ name c ∈ K := by simp [h]
          simp only [this]
          ring
    rw [e K hK, ih]
    by_cases h : name c ∈ K
    · rw [if_pos h, List.filter_cons_of_pos (by simpa using h), List.map_cons, List.sum_cons]
    · rw [if_neg h, List.filter_cons_of_neg (by simpa using h), zero_add]

/-- `name c` is the text of an occurrence: it shows the root label and has one opening bracket per constituent
(`C87_render` shows this of bracket notation). -/
def Faithful (name : Pat → Str) (c : Pat) : Prop := rootOf (name c) = c.lab ∧ nonterms (name c) = c.size - 1

theorem bon_sum_eq (trees : List (PTree Str)) (fr : Frags) (X : Str) :
    ((fr.filter fun x => decide (rootOf x.1 = X)).map fun x => bon trees x.1 x.2).sum
      = ((fr.filter fun x => decide (rootOf x.1 = X)).map fun x =>
          (1 / 2) ^ nonterms x.1 * (x.2.length : ℚ)).sum / ((cnt (ntfd trees) X : Nat) : ℚ) := by
  induction fr with
  | nil => simp
  | cons x fr ih =>
    by_cases h : rootOf x.1 = X
    · rw [List.filter_cons_of_pos (by simpa using h), List.map_cons, List.sum_cons, ih, List.map_cons,
        List.sum_cons, bon, h, add_div, mul_div_assoc]
    · rw [List.filter_cons_of_neg (by simpa using h), ih]

theorem names_sum (sp : PTree Str → Str) (ts : List (PTree Str × (Nat → Str))) (name : Pat → Str)
    (hname : ∀ c ∈ occurrences sp ts, Faithful name c) (fr : Frags) (hfr : (fr.map Prod.fst).Nodup) (X : Str) :
    ((fr.filter fun x => decide (rootOf x.1 = X)).map fun x => ((1 : ℚ) / 2) ^ nonterms x.1 *
        (((occurrences sp ts).filter fun c => decide (name c = x.1)).length : ℚ)).sum
      = (((occurrences sp ts).filter fun c => decide (c.lab = X ∧ name c ∈ fr.map Prod.fst)).map
          fun p => ((1 : ℚ) / 2) ^ (p.size - 1)).sum := by
  have hK : ((fr.filter fun x => decide (rootOf x.1 = X)).map Prod.fst).Nodup :=
    hfr.sublist (List.filter_sublist.map _)
  have := sum_by_name name (fun f => ((1 : ℚ) / 2) ^ nonterms f) _ hK (occurrences sp ts)
  rw [List.map_map] at this
  refine Eq.trans ?_ (this.trans ?_)
  · rfl
  · have hf : (occurrences sp ts).filter (fun c => decide (name c ∈ (fr.filter fun x => decide (rootOf x.1 = X)).map Prod.fst))
        = (occurrences sp ts).filter (fun c => decide (c.lab = X ∧ name c ∈ fr.map Prod.fst)) := by
      apply List.filter_congr
      intro c hc
      have hr := (hname c hc).1
      apply decide_eq_decide.2
      constructor
      · intro h
        obtain ⟨x, hx, he⟩ := List.mem_map.1 h
        have hx' := List.mem_filter.1 hx
        refine ⟨?_, List.mem_map.2 ⟨x, hx'.1, he⟩⟩
        rw [← hr, ← he]
        simpa using hx'.2
      · rintro ⟨h1, h2⟩
        obtain ⟨x, hx, he⟩ := List.mem_map.1 h2
        refine List.mem_map.2 ⟨x, List.mem_filter.2 ⟨hx, ?_⟩, he⟩
        rw [he, hr]
        simpa using h1
    rw [hf]
    congr 1
    apply List.map_congr_left
    intro c hc
    rw [(hname c (List.mem_filter.1 hc).1).2]

theorem sum_filter_le {α : Type} (g : α → ℚ) (hg : ∀ a, 0 ≤ g a) (p q : α → Bool) (h : ∀ a, p a → q a) (L : List α) :
    ((L.filter p).map g).sum ≤ ((L.filter q).map g).sum := by
  induction L with
  | nil => simp
  | cons a L ih =>
    by_cases hp : p a
    · rw [List.filter_cons_of_pos hp, List.filter_cons_of_pos (h a hp), List.map_cons, List.sum_cons,
        List.map_cons, List.sum_cons]
      linarith
    · rw [List.filter_cons_of_neg hp]
      by_cases hq : q a
      · rw [List.filter_cons_of_pos hq, List.map_cons, List.sum_cons]
        linarith [hg a]
      · rw [List.filter_cons_of_neg hq]
        exact ih

/-- **C87.** Bonnema's weights of fragments with the same root label add up to at most one, for any set of distinct
fragments that are listed with at most as many occurrences as they have in the treebank. -/
theorem C87_bon_le_one (sp : PTree Str → Str) (ts : List (PTree Str × (Nat → Str))) (name : Pat → Str)
    (hname : ∀ c ∈ occurrences sp ts, Faithful name c) (fr : Frags) (hfr : (fr.map Prod.fst).Nodup)
    (hocc : ∀ x ∈ fr, x.2.length ≤ ((occurrences sp ts).filter fun c => decide (name c = x.1)).length) (X : Str) :
    ((fr.filter fun x => decide (rootOf x.1 = X)).map fun x => bon (ts.map Prod.fst) x.1 x.2).sum ≤ 1 := by
  rw [bon_sum_eq]
  apply div_le_one_of_le₀ _ (by positivity)
  have h1 : ((fr.filter fun x => decide (rootOf x.1 = X)).map fun x =>
          ((1 : ℚ) / 2) ^ nonterms x.1 * (x.2.length : ℚ)).sum ≤
      ((fr.filter fun x => decide (rootOf x.1 = X)).map fun x => ((1 : ℚ) / 2) ^ nonterms x.1 *
        (((occurrences sp ts).filter fun c => decide (name c = x.1)).length : ℚ)).sum := by
    apply List.sum_le_sum
    intro x hx
    apply mul_le_mul_of_nonneg_left _ (by positivity)
    exact_mod_cast hocc x (List.mem_filter.1 hx).1
  refine h1.trans ?_
  rw [names_sum sp ts name hname fr hfr X, ntfd_eq, ← occ_sum sp ts X]
  apply sum_filter_le _ (fun a => by positivity)
  intro a h
  simp only [decide_eq_true_eq] at h ⊢
  exact h.1

/-- **C87.** They add up to exactly one when all fragments of the treebank with that root label are listed with
all their occurrences. -/
theorem C87_bon_eq_one (sp : PTree Str → Str) (ts : List (PTree Str × (Nat → Str))) (name : Pat → Str)
    (hname : ∀ c ∈ occurrences sp ts, Faithful name c) (fr : Frags) (hfr : (fr.map Prod.fst).Nodup)
    (hocc : ∀ x ∈ fr, x.2.length = ((occurrences sp ts).filter fun c => decide (name c = x.1)).length) (X : Str)
    (hall : ∀ c ∈ occurrences sp ts, c.lab = X → name c ∈ fr.map Prod.fst)
    (hX : ∃ t ∈ ts, ∃ cs, PTree.node X cs ∈ t.1.subtrees) :
    ((fr.filter fun x => decide (rootOf x.1 = X)).map fun x => bon (ts.map Prod.fst) x.1 x.2).sum = 1 := by
  rw [bon_sum_eq]
  have h1 : ((fr.filter fun x => decide (rootOf x.1 = X)).map fun x =>
          ((1 : ℚ) / 2) ^ nonterms x.1 * (x.2.length : ℚ)).sum =
      ((fr.filter fun x => decide (rootOf x.1 = X)).map fun x => ((1 : ℚ) / 2) ^ nonterms x.1 *
        (((occurrences sp ts).filter fun c => decide (name c = x.1)).length : ℚ)).sum := by
    congr 1
    apply List.map_congr_left
    intro x hx
    rw [hocc x (List.mem_filter.1 hx).1]
  have h2 : (occurrences sp ts).filter (fun c => decide (c.lab = X ∧ name c ∈ fr.map Prod.fst))
      = (occurrences sp ts).filter (fun c => decide (c.lab = X)) := by
    apply List.filter_congr
    intro c hc
    apply decide_eq_decide.2
    exact ⟨fun h => h.1, fun h => ⟨h, hall c hc h⟩⟩
  rw [h1, names_sum sp ts name hname fr hfr X, h2, occ_sum, ntfd_eq]
  apply div_self
  obtain ⟨t, ht, cs, hcs⟩ := hX
  have : X ∈ ((ts.map Prod.fst).flatMap PTree.subtrees).filterMap PTree.label? := by
    rw [List.mem_filterMap]
    exact ⟨_, List.mem_flatMap.2 ⟨t.1, List.mem_map.2 ⟨t, ht, rfl⟩, hcs⟩, rfl⟩
  have := List.count_pos_iff.2 this
  exact_mod_cast this.ne'

mutual
/-- No label contains a bracket or a space, no text a bracket. -/
def Pat.Plain : Pat → Prop
  | .word t => '(' ∉ t
  | .site l t => '(' ∉ l ∧ ' ' ∉ l ∧ '(' ∉ t
  | .node l cs => '(' ∉ l ∧ ' ' ∉ l ∧ Pat.PlainL cs
/-- children -/
def Pat.PlainL : List Pat → Prop
  | [] => True
  | c :: cs => Pat.Plain c ∧ Pat.PlainL cs
end

mutual
theorem count_render : ∀ p : Pat, p.Plain → p.render.count '(' = p.size
  | .word t, h => by simp only [Pat.Plain] at h; simp [Pat.render, Pat.size, List.count_eq_zero.2 h]
  | .site l t, h => by
    simp only [Pat.Plain] at h
    simp [Pat.render, Pat.size, List.count_append, List.count_eq_zero.2 h.1, List.count_eq_zero.2 h.2.2]
  | .node l cs, h => by
    simp only [Pat.Plain] at h
    have := count_renderL cs h.2.2
    simp [Pat.render, Pat.size, List.count_append, List.count_eq_zero.2 h.1, this]
    omega
theorem count_renderL : ∀ ps : List Pat, Pat.PlainL ps → (Pat.renderL ps).count '(' = Pat.sizeL ps
  | [], _ => by simp [Pat.renderL, Pat.sizeL]
  | c :: cs, h => by
    simp only [Pat.PlainL] at h
    have h1 := count_render c h.1
    have h2 := count_renderL cs h.2
    simp [Pat.renderL, Pat.sizeL, List.count_append, h1, h2]
end

/-- **C87.** The text of a fragment in bracket notation has the root label and number of constituents that the weights
are computed with, when labels and words contain no brackets or spaces. -/
theorem C87_render (l : Str) (c : Pat) (cs : List Pat) (h : (Pat.node l (c :: cs)).Plain) :
    Faithful Pat.render (.node l (c :: cs)) := by
  refine ⟨?_, ?_⟩
  · have hl : ' ' ∉ l := by simp only [Pat.Plain] at h; exact h.2.1
    simp only [Pat.render, Pat.renderL, rootOf, Pat.lab, List.cons_append, List.nil_append, List.drop_succ_cons,
      List.drop_zero, List.append_assoc]
    rw [List.takeWhile_append_of_pos]
    · simp
    · intro a ha
      simp only [ne_eq, decide_not, Bool.not_eq_eq_eq_not, Bool.not_true, decide_eq_false_iff_not]
      rintro rfl
      exact hl ha
  · rw [nonterms, count_render _ h]

/-! ## Example -/

/-- Two trees, `(S (NP 0=a) (VP 1=b))` and `(S (NP 0=a) (NP 1=c))`. -/
def exTs : List (PTree Str × (Nat → Str)) :=
  [(.node "S".toList [.node "NP".toList [.leaf 0], .node "VP".toList [.leaf 1]],
      fun i => if i = 0 then "0=a".toList else "1=b".toList),
   (.node "S".toList [.node "NP".toList [.leaf 0], .node "NP".toList [.leaf 1]],
      fun i => if i = 0 then "0=a".toList else "1=c".toList)]

/-- Substitution sites are shown with the leaves below them. -/
def exSp (t : PTree Str) : Str := Str.join [','] (t.leaves.map fun i => (toString i).toList)

/-- All fragments with the sentences in which they occur. -/
def exFr : Frags :=
  let occ := exTs.zipIdx.flatMap fun x => (x.1.1.subtrees.flatMap (cutsAt x.1.2 exSp)).map fun c => (c.render, x.2)
  (occ.map Prod.fst).dedup.map fun f => (f, (occ.filter fun o => decide (o.1 = f)).map Prod.snd)

set_option maxRecDepth 10000 in
/-- Non-vacuity: the 11 fragments have 12 occurrences (`(NP 0=a)` occurs in both trees). -/
example : exFr.length = 11 ∧ (exFr.map fun x => x.2.length).sum = 12 ∧ (exFr.map Prod.fst).Nodup ∧
    (∀ c ∈ occurrences exSp exTs, Faithful Pat.render c) ∧
    (∀ x ∈ exFr, x.2.length = ((occurrences exSp exTs).filter fun c => decide (c.render = x.1)).length) ∧
    (∀ c ∈ occurrences exSp exTs, c.render ∈ exFr.map Prod.fst) ∧
    (exFr.map fun x => ewe exFr x.2).sum = 2 ∧
    bon (exTs.map Prod.fst) "(S (NP 0=a) (VP 1))".toList [0] = 1 / 8 := by
  unfold Faithful
  decide +kernel
end Disco.DopW
