import Mathlib.Data.Multiset.Count
import Mathlib.Algebra.Order.Field.Rat
import Mathlib.Algebra.Order.Field.Basic
import Mathlib.Algebra.BigOperators.Group.Finset.Basic
import Mathlib.Algebra.Order.BigOperators.Group.Multiset
import Mathlib.Tactic.Linarith
import Mathlib.Tactic.FieldSimp
import Mathlib.Tactic.Ring
/-!
# C27: PARSEVAL scores (eval.py:943-1006) and C42: the corpus scores of the accumulator (eval.py:546-560)

A `Counter` with positive counts is a multiset: `c[a]` is `count a c`, `c & d` the intersection, `sum(c.values())` the cardinality,
iteration visits each distinct element once. `Decimal` numbers are exact rational numbers (rounding to 28 digits is left out);
`Decimal('NaN')` is `none`: arithmetic with it gives `none`, comparing it with 0 gives `False`.
-/
namespace Disco.Parseval

open Multiset

variable {α : Type} [DecidableEq α]

/-- `Decimal` -/
abbrev Dec := Option Rat

/-- `x / y` for `Decimal`s; division by zero raises an exception in Python, which does not occur below (the denominator is a positive sum). -/
def Dec.div (x y : Dec) : Dec := do let a ← x; let b ← y; pure (a / b)
/-- `x + y` -/
def Dec.add (x y : Dec) : Dec := do let a ← x; let b ← y; pure (a + b)

/-- `sum(min(reference[a], candidate[a]) for a in reference & candidate)` (eval.py:947-948, 955-956). -/
def matched (reference candidate : Multiset α) : Nat :=
  ∑ a ∈ (reference ∩ candidate).toFinset, min (reference.count a) (candidate.count a)

/-- `recall(reference, candidate)` (eval.py:943-948). -/
def recall (reference candidate : Multiset α) : Dec :=
  if reference = 0 then none else some ((matched reference candidate : Rat) / (reference.card : Rat))

/-- `precision(reference, candidate)` (eval.py:951-956). -/
def precision (reference candidate : Multiset α) : Dec :=
  if candidate = 0 then none else some ((matched reference candidate : Rat) / (candidate.card : Rat))

/-- `f_measure(reference, candidate, alpha)` (eval.py:959-967). -/
def f_measure (reference candidate : Multiset α) (alpha : Rat := 1 / 2) : Dec :=
  let p := precision reference candidate
  let r := recall reference candidate
  if p = some 0 ∨ r = some 0 then none
  else Dec.div (some 1) (Dec.add (Dec.div (some alpha) p) (Dec.div (some (1 - alpha)) r))

/-- `accuracy(reference, candidate)` (eval.py:970-978); `error`: `ValueError`, or `InvalidOperation` (0/0) for empty sequences. -/
def accuracy (reference candidate : List α) : Except String Rat :=
  if reference.length ≠ candidate.length then .error "ValueError"
  else if reference.length = 0 then .error "InvalidOperation"
  else .ok (((List.zip reference candidate).countP (fun p => decide (p.1 = p.2)) : Rat) / reference.length)

/-- `mean(seq)` (eval.py:996-1006). -/
def mean (seq : List Rat) : Dec :=
  let numden := seq.foldl (fun nd a => (nd.1 + a, nd.2 + 1)) ((0 : Rat), (0 : Rat))
  if numden.2 = 0 then none else some (numden.1 / numden.2)

/-! ### Lemmas -/

theorem matched_eq (a b : Multiset α) : matched a b = (a ∩ b).card := by
  rw [matched, ← Multiset.toFinset_sum_count_eq (a ∩ b)]
  exact Finset.sum_congr rfl (fun x _ => (count_inter x a b).symm)

theorem matched_symm (a b : Multiset α) : matched a b = matched b a := by rw [matched_eq, matched_eq, inter_comm]

theorem matched_le_left (a b : Multiset α) : matched a b ≤ a.card := by rw [matched_eq]; exact card_le_card inter_le_left
theorem matched_le_right (a b : Multiset α) : matched a b ≤ b.card := by rw [matched_eq]; exact card_le_card inter_le_right

theorem matched_eq_left_iff (a b : Multiset α) : matched a b = a.card ↔ a ≤ b := by
  rw [matched_eq]
  constructor
  · intro h
    have := eq_of_le_of_card_le (inter_le_left (s := a) (t := b)) h.ge
    rw [← this]; exact inter_le_right
  · intro h
    rw [(show a ∩ b = a from inf_eq_left.2 h)]

omit [DecidableEq α] in
theorem card_pos_of_ne {a : Multiset α} (h : a ≠ 0) : (0 : Rat) < a.card := by
  exact_mod_cast card_pos.2 h

/-! ### C27 -/

/-- **C27.** Recall is the share of the reference brackets that the candidate has too, counted with multiplicity; it is undefined exactly
when there are no reference brackets. Precision is the same with the roles swapped. -/
theorem C27_recall (a b : Multiset α) : (a ≠ 0 → recall a b = some (((a ∩ b).card : Rat) / a.card)) ∧ (recall a b = none ↔ a = 0) ∧
    recall a b = precision b a := by
  refine ⟨fun h => by rw [recall, if_neg h, matched_eq], ?_, ?_⟩
  · rw [recall]; split_ifs <;> simp [*]
  · rw [recall, precision, matched_symm]

/-- **C27.** Precision and recall lie between 0 and 1. Recall is 1 exactly when the reference is contained in the candidate, precision is 1
exactly when the candidate is contained in the reference, and they are 0 exactly when nothing matches. -/
theorem C27_bounds (a b : Multiset α) (r : Rat) (h : recall a b = some r) :
    0 ≤ r ∧ r ≤ 1 ∧ (r = 1 ↔ a ≤ b) ∧ (r = 0 ↔ a ∩ b = 0) := by
  rw [recall] at h
  split_ifs at h with h0
  injection h with h
  subst h
  have hp := card_pos_of_ne h0
  refine ⟨div_nonneg (by exact_mod_cast Nat.zero_le _) hp.le, (div_le_one hp).2 (by exact_mod_cast matched_le_left a b), ?_, ?_⟩
  · rw [div_eq_one_iff_eq (ne_of_gt hp), ← matched_eq_left_iff]
    exact_mod_cast Iff.rfl
  · rw [div_eq_zero_iff, or_iff_left (ne_of_gt hp), matched_eq, Nat.cast_eq_zero, card_eq_zero]

/-- **C27.** The F-measure with the default `alpha` is `2|A ∩ B| / (|A| + |B|)` if something matches, and NaN otherwise. -/
theorem C27_f1 (a b : Multiset α) :
    f_measure a b = if a ∩ b = 0 then none else some (2 * ((a ∩ b).card : Rat) / (a.card + b.card)) := by
  by_cases hi : a ∩ b = 0
  · rw [if_pos hi, f_measure]
    have hm : matched a b = 0 := by rw [matched_eq, hi, card_zero]
    by_cases ha : a = 0
    · simp [precision, recall, ha, Dec.div, Dec.add]
    · simp only [recall, if_neg ha, hm]
      rw [if_pos (Or.inr (by simp))]
  · rw [if_neg hi, f_measure]
    have ha : a ≠ 0 := fun h => hi (by rw [h]; exact Multiset.zero_inter b)
    have hb : b ≠ 0 := fun h => hi (by rw [h]; exact Multiset.inter_zero a)
    have hm : (0 : Rat) < (a ∩ b).card := card_pos_of_ne hi
    have hpa := card_pos_of_ne ha
    have hpb := card_pos_of_ne hb
    simp only [precision, recall, if_neg ha, if_neg hb, matched_eq, Option.some.injEq]
    rw [if_neg (by rw [not_or]; exact ⟨ne_of_gt (div_pos hm hpb), ne_of_gt (div_pos hm hpa)⟩)]
    simp only [Dec.div, Dec.add, Bind.bind, Option.bind, pure]
    congr 1
    have : (a.card : Rat) + b.card ≠ 0 := ne_of_gt (add_pos hpa hpb)
    field_simp
    ring

/-- **C27.** The F-measure is symmetric, lies between 0 and 1, and is 1 exactly when the two multisets are equal. -/
theorem C27_f1_proper (a b : Multiset α) :
    f_measure a b = f_measure b a ∧ (∀ f, f_measure a b = some f → 0 < f ∧ f ≤ 1) ∧ (f_measure a b = some 1 ↔ a = b ∧ a ≠ 0) := by
  have key : ∀ f, f_measure a b = some f → 0 < f ∧ f ≤ 1 ∧ (f = 1 → a = b ∧ a ≠ 0) := by
    intro f h
    rw [C27_f1] at h
    split_ifs at h with hi
    injection h with h
    subst h
    have ha : a ≠ 0 := fun h => hi (by rw [h]; exact Multiset.zero_inter b)
    have hb : b ≠ 0 := fun h => hi (by rw [h]; exact Multiset.inter_zero a)
    have hm : (0 : Rat) < (a ∩ b).card := card_pos_of_ne hi
    have hs : (0 : Rat) < a.card + b.card := add_pos (card_pos_of_ne ha) (card_pos_of_ne hb)
    have l1 : ((a ∩ b).card : Rat) ≤ a.card := by exact_mod_cast card_le_card inter_le_left
    have l2 : ((a ∩ b).card : Rat) ≤ b.card := by exact_mod_cast card_le_card inter_le_right
    refine ⟨div_pos (by linarith) hs, (div_le_one hs).2 (by linarith), fun h1 => ⟨?_, ha⟩⟩
    rw [div_eq_one_iff_eq (ne_of_gt hs)] at h1
    have e1 : ((a ∩ b).card : Rat) = a.card := by linarith
    have e2 : ((a ∩ b).card : Rat) = b.card := by linarith
    have f1 := eq_of_le_of_card_le (inter_le_left (s := a) (t := b)) (by exact_mod_cast e1.ge)
    have f2 := eq_of_le_of_card_le (inter_le_right (s := a) (t := b)) (by exact_mod_cast e2.ge)
    rw [← f1, f2]
  refine ⟨?_, fun f h => ⟨(key f h).1, (key f h).2.1⟩, fun h => (key 1 h).2.2 rfl, ?_⟩
  · rw [C27_f1, C27_f1, inter_comm, add_comm]
  · rintro ⟨rfl, h⟩
    have hi : a ∩ a = a := inf_eq_left.2 le_rfl
    rw [C27_f1, hi, if_neg h]
    have := card_pos_of_ne h
    congr 1
    rw [div_eq_one_iff_eq (by linarith)]; ring

/-- **C27.** For any weight `0 ≤ alpha ≤ 1` the F-measure lies between precision and recall. -/
theorem C27_f_between (a b : Multiset α) (alpha p r f : Rat) (h0 : 0 ≤ alpha) (h1 : alpha ≤ 1) (hp : precision a b = some p)
    (hr : recall a b = some r) (hf : f_measure a b alpha = some f) : min p r ≤ f ∧ f ≤ max p r := by
  rw [f_measure] at hf
  simp only [hp, hr] at hf
  split_ifs at hf with hz
  rw [not_or] at hz
  simp only [Option.some.injEq] at hz
  simp only [Dec.div, Dec.add, Bind.bind, Option.bind, pure, Option.some.injEq] at hf
  have p0 : 0 < p := by
    have := (C27_bounds b a p (by rw [(C27_recall b a).2.2]; exact hp)).1
    exact lt_of_le_of_ne this (Ne.symm hz.1)
  have r0 : 0 < r := lt_of_le_of_ne (C27_bounds a b r hr).1 (Ne.symm hz.2)
  have hden : 0 < alpha / p + (1 - alpha) / r := by
    rcases h0.lt_or_eq with h | h
    · have : 0 ≤ (1 - alpha) / r := div_nonneg (by linarith) r0.le
      have := div_pos h p0
      linarith
    · subst h; simp; exact r0
  subst hf
  have up : ∀ m, p ≤ m → r ≤ m → 0 < m → 1 / (alpha / p + (1 - alpha) / r) ≤ m := by
    intro m hpm hrm m0
    rw [div_le_iff₀ hden]
    have e1 : alpha ≤ m * (alpha / p) := by
      rw [mul_div_assoc', le_div_iff₀ p0, mul_comm m]
      exact mul_le_mul_of_nonneg_left hpm h0
    have e2 : 1 - alpha ≤ m * ((1 - alpha) / r) := by
      rw [mul_div_assoc', le_div_iff₀ r0, mul_comm m]
      exact mul_le_mul_of_nonneg_left hrm (by linarith)
    rw [mul_add]; linarith
  have lo : ∀ m, m ≤ p → m ≤ r → m ≤ 1 / (alpha / p + (1 - alpha) / r) := by
    intro m hpm hrm
    rw [le_div_iff₀ hden]
    have e1 : m * (alpha / p) ≤ alpha := by
      rw [mul_div_assoc', div_le_iff₀ p0, mul_comm m]
      exact mul_le_mul_of_nonneg_left hpm h0
    have e2 : m * ((1 - alpha) / r) ≤ 1 - alpha := by
      rw [mul_div_assoc', div_le_iff₀ r0, mul_comm m]
      exact mul_le_mul_of_nonneg_left hrm (by linarith)
    rw [mul_add]; linarith
  exact ⟨lo _ (min_le_left _ _) (min_le_right _ _), up _ (le_max_left _ _) (le_max_right _ _) (lt_of_lt_of_le p0 (le_max_left _ _))⟩

/-- **C27.** Accuracy lies between 0 and 1 and is 1 exactly when the sequences are equal. -/
theorem C27_accuracy (a b : List α) (x : Rat) (h : accuracy a b = .ok x) : 0 ≤ x ∧ x ≤ 1 ∧ (x = 1 ↔ a = b) := by
  rw [accuracy] at h
  split_ifs at h with h1 h2
  injection h with h
  subst h
  have h1' : a.length = b.length := by simpa using h1
  have hp : (0 : Rat) < a.length := by exact_mod_cast Nat.pos_of_ne_zero h2
  have hlen : (List.zip a b).length = a.length := by simp [h1']
  have hle : (List.zip a b).countP (fun p => decide (p.1 = p.2)) ≤ a.length := hlen ▸ List.countP_le_length
  refine ⟨div_nonneg (by exact_mod_cast Nat.zero_le _) hp.le, (div_le_one hp).2 (by exact_mod_cast hle), ?_⟩
  rw [div_eq_one_iff_eq (ne_of_gt hp), Nat.cast_inj, ← hlen, List.countP_eq_length]
  constructor
  · intro hall
    apply List.ext_getElem h1'
    intro i hi hi'
    have := hall (a[i], b[i]) (List.mem_iff_getElem.2 ⟨i, by simp [hi, hi'], by simp⟩)
    simpa using this
  · rintro rfl p hp
    obtain ⟨i, hi, rfl⟩ := List.mem_iff_getElem.1 hp
    simp

/-- **C27.** The mean is the sum over the number, and NaN only for the empty sequence. -/
theorem C27_mean (seq : List Rat) : mean seq = if seq = [] then none else some (seq.sum / seq.length) := by
  have : ∀ (s : List Rat) (n d : Rat), s.foldl (fun nd a => (nd.1 + a, nd.2 + 1)) (n, d) = (n + s.sum, d + s.length) := by
    intro s
    induction s with
    | nil => intro n d; simp
    | cons x s ih => intro n d; rw [List.foldl_cons, ih]; simp; constructor <;> ring
  rw [mean]
  simp only [this, zero_add]
  by_cases h : seq = []
  · simp [h]
  · have : (seq.length : Rat) ≠ 0 := by
      exact_mod_cast fun h' => h (List.length_eq_zero_iff.1 h')
    rw [if_neg this, if_neg h]

/-- Gold brackets with a repeated bracket; the candidate has one of them and another one. -/
example : f_measure ({1, 1, 2} : Multiset Nat) {1, 3} = some (2 / 5) := by
  rw [C27_f1, if_neg (by decide)]
  have : (({1, 1, 2} : Multiset Nat) ∩ {1, 3}).card = 1 := by decide
  rw [this]; norm_num

/-! ### C42: corpus scores -/

/-- The evaluated sentences: number of the sentence, gold and candidate brackets (`pair.n`, `pair.gbrack`, `pair.cbrack`). -/
abbrev Pairs (α : Type) := List (Nat × Multiset α × Multiset α)

/-- `self.goldb.update((pair.n, a) for a in pair.gbrack.elements())` (eval.py:560), over all calls of `add`. -/
def goldb (ps : Pairs α) : Multiset (Nat × α) := ps.foldl (fun acc p => acc + p.2.1.map (fun a => (p.1, a))) 0
/-- `self.candb.update((pair.n, a) for a in pair.cbrack.elements())` (eval.py:559). -/
def candb (ps : Pairs α) : Multiset (Nat × α) := ps.foldl (fun acc p => acc + p.2.2.map (fun a => (p.1, a))) 0

omit [DecidableEq α] in
theorem foldl_sum (f : (Nat × Multiset α × Multiset α) → Multiset (Nat × α)) (ps : Pairs α) : ∀ acc,
    ps.foldl (fun acc p => acc + f p) acc = acc + (ps.map f).sum := by
  induction ps with
  | nil => intro acc; simp
  | cons p ps ih => intro acc; rw [List.foldl_cons, ih, List.map_cons, List.sum_cons, add_assoc]

theorem count_tagged (n m : Nat) (s : Multiset α) (x : α) : (s.map (fun a => (n, a))).count (m, x) = if n = m then s.count x else 0 := by
  split_ifs with h
  · subst h
    exact count_map_eq_count' _ s (fun a b h => by injection h) x
  · rw [count_eq_zero]
    simp [h]

theorem tagged_inter (n : Nat) (s t : Multiset α) : s.map (fun a => (n, a)) ∩ t.map (fun a => (n, a)) = (s ∩ t).map (fun a => (n, a)) := by
  ext ⟨m, x⟩
  rw [count_inter, count_tagged, count_tagged, count_tagged, count_inter]
  split_ifs <;> simp

theorem sum_tag_count (f : (Nat × Multiset α × Multiset α) → Multiset α) (ps : Pairs α) (m : Nat) (x : α) (h : m ∉ ps.map Prod.fst) :
    ((ps.map (fun p => (f p).map (fun a => (p.1, a)))).sum).count (m, x) = 0 := by
  induction ps with
  | nil => simp
  | cons p ps ih =>
    simp only [List.map_cons, List.mem_cons, not_or] at h
    rw [List.map_cons, List.sum_cons, count_add, ih h.2, count_tagged, if_neg (Ne.symm h.1)]

theorem inter_sum (ps : Pairs α) (hn : (ps.map Prod.fst).Nodup) :
    (ps.map (fun p => p.2.1.map (fun a => (p.1, a)))).sum ∩ (ps.map (fun p => p.2.2.map (fun a => (p.1, a)))).sum =
    (ps.map (fun p => (p.2.1 ∩ p.2.2).map (fun a => (p.1, a)))).sum := by
  induction ps with
  | nil => simp
  | cons p ps ih =>
    obtain ⟨h1, h2⟩ := List.nodup_cons.1 hn
    have ih := ih h2
    simp only [List.map_cons, List.sum_cons]
    ext ⟨m, x⟩
    have hc := congrArg (count (m, x)) ih
    rw [count_inter] at hc
    simp only [count_inter, count_add, count_tagged, ← hc]
    by_cases hm : p.1 = m
    · subst hm
      rw [sum_tag_count (fun p => p.2.1) ps p.1 x h1, sum_tag_count (fun p => p.2.2) ps p.1 x h1]
      simp
    · simp [hm]

omit [DecidableEq α] in
theorem card_sum_tag (f : (Nat × Multiset α × Multiset α) → Multiset α) (ps : Pairs α) :
    ((ps.map (fun p => (f p).map (fun a => (p.1, a)))).sum).card = (ps.map (fun p => (f p).card)).sum := by
  induction ps with
  | nil => simp
  | cons p ps ih => simp [ih]

/-- **C42.** With distinct sentence numbers, the corpus recall and precision are micro averages: the number of matching brackets over all
sentences divided by the number of gold (candidate) brackets over all sentences; brackets of different sentences never match. -/
theorem C42_micro_average (ps : Pairs α) (hn : (ps.map Prod.fst).Nodup) :
    recall (goldb ps) (candb ps) = (if (ps.map (fun p => p.2.1.card)).sum = 0 then none else
      some (((ps.map (fun p => (p.2.1 ∩ p.2.2).card)).sum : Nat) / ((ps.map (fun p => p.2.1.card)).sum : Nat) : Rat)) ∧
    precision (goldb ps) (candb ps) = (if (ps.map (fun p => p.2.2.card)).sum = 0 then none else
      some (((ps.map (fun p => (p.2.1 ∩ p.2.2).card)).sum : Nat) / ((ps.map (fun p => p.2.2.card)).sum : Nat) : Rat)) := by
  have hg : goldb ps = (ps.map (fun p => p.2.1.map (fun a => (p.1, a)))).sum := by
    rw [goldb, foldl_sum (fun p => p.2.1.map (fun a => (p.1, a))), zero_add]
  have hc : candb ps = (ps.map (fun p => p.2.2.map (fun a => (p.1, a)))).sum := by
    rw [candb, foldl_sum (fun p => p.2.2.map (fun a => (p.1, a))), zero_add]
  have hi : (goldb ps ∩ candb ps).card = (ps.map (fun p => (p.2.1 ∩ p.2.2).card)).sum := by
    rw [hg, hc, inter_sum ps hn, card_sum_tag (fun p => p.2.1 ∩ p.2.2)]
  have cg : (goldb ps).card = (ps.map (fun p => p.2.1.card)).sum := by rw [hg, card_sum_tag (fun p => p.2.1)]
  have cc : (candb ps).card = (ps.map (fun p => p.2.2.card)).sum := by rw [hc, card_sum_tag (fun p => p.2.2)]
  constructor
  · rw [recall, matched_eq, hi, cg]
    simp only [← card_eq_zero, cg]
  · rw [precision, matched_eq, hi, cc]
    simp only [← card_eq_zero, cc]

/-- Two sentences with the same bracket; with the numbers 1 and 2 they do not match each other. -/
example : ([(1, {0}, 0), (2, 0, {0})] : Pairs Nat).map Prod.fst = [1, 2] ∧
    recall (goldb ([(1, {0}, 0), (2, 0, {0})] : Pairs Nat)) (candb [(1, {0}, 0), (2, 0, {0})]) = some 0 := by
  refine ⟨rfl, ?_⟩
  rw [(C42_micro_average _ (by simp)).1]; simp

end Disco.Parseval
