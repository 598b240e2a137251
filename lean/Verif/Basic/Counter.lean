import Verif.Basic.Dict
import Mathlib.Algebra.BigOperators.Group.List.Basic
import Mathlib.Algebra.Group.Defs
import Mathlib.Tactic.Abel
/-!
# Dictionaries with default 0 (`Counter`, `defaultdict(int)`)
-/
namespace Disco.Dict

variable {K V : Type} [DecidableEq K]

section
variable [AddCommMonoid V]

/-- `d[k]` for a dictionary with default 0. -/
def cnt (d : Dict K V) (k : K) : V := (get? d k).getD 0

/-- `d[k] += v`. -/
def incr (d : Dict K V) (k : K) (v : V) : Dict K V := set d k (cnt d k + v)

/-- The sum of the values of the keys that satisfy `p`. -/
def total (p : K → Bool) (d : Dict K V) : V := ((d.filter (fun x => p x.1)).map Prod.snd).sum

theorem cnt_incr (d : Dict K V) (k j : K) (v : V) : cnt (incr d k v) j = if j = k then cnt d k + v else cnt d j := by
  rw [cnt, incr, get?_set]
  by_cases h : j = k
  · simp [h]
  · simp [h, Ne.symm h, cnt]

theorem WF.incr {d : Dict K V} (h : WF d) (k : K) (v : V) : WF (incr d k v) := h.set k _

theorem mem_keys_incr {d : Dict K V} {k j : K} {v : V} : j ∈ keys (incr d k v) ↔ j = k ∨ j ∈ keys d := mem_keys_set

theorem cnt_of_mem {d : Dict K V} (h : WF d) {k : K} {v : V} (hm : (k, v) ∈ d) : cnt d k = v := by
  rw [cnt, get?_of_mem h hm]; rfl

theorem total_incr (p : K → Bool) (d : Dict K V) (k : K) (v : V) : total p (incr d k v) = total p d + (if p k then v else 0) := by
  have key : ∀ (d : Dict K V), total p (set d k (cnt d k + v)) = total p d + (if p k then v else 0) := by
    intro d
    induction d with
    | nil =>
      by_cases hp : p k <;> simp [total, set, cnt, get?, hp]
    | cons x d ih =>
      obtain ⟨j, w⟩ := x
      by_cases hj : j = k
      · subst hj
        by_cases hp : p j
        · simp [total, set, cnt, get?, hp]; abel
        · simp [total, set, get?, hp]
      · have e : cnt ((j, w) :: d) k = cnt d k := by simp [cnt, get?, hj]
        rw [e, set, if_neg hj]
        by_cases hp : p j
        · simp only [total, List.filter_cons, hp, if_true, List.map_cons, List.sum_cons] at ih ⊢
          rw [ih, add_assoc]
        · simpa only [total, List.filter_cons, hp, if_false, Bool.false_eq_true] using ih
  exact key d

/-- Add up a sequence of increments. -/
def addAll (d : Dict K V) : List (K × V) → Dict K V
  | [] => d
  | (k, v) :: xs => addAll (incr d k v) xs

/-- The sum of the increments for key `k`. -/
def incrementsOf (k : K) (xs : List (K × V)) : V := ((xs.filter (fun x => decide (x.1 = k))).map Prod.snd).sum

theorem cnt_addAll (xs : List (K × V)) (d : Dict K V) (k : K) : cnt (addAll d xs) k = cnt d k + incrementsOf k xs := by
  induction xs generalizing d with
  | nil => simp [addAll, incrementsOf]
  | cons x xs ih =>
    obtain ⟨j, v⟩ := x
    rw [addAll, ih, cnt_incr]
    by_cases h : k = j
    · simp [h, incrementsOf, add_assoc]
    · simp [h, Ne.symm h, incrementsOf]

theorem total_addAll (p : K → Bool) (xs : List (K × V)) (d : Dict K V) :
    total p (addAll d xs) = total p d + ((xs.filter (fun x => p x.1)).map Prod.snd).sum := by
  induction xs generalizing d with
  | nil => simp [addAll]
  | cons x xs ih =>
    obtain ⟨j, v⟩ := x
    rw [addAll, ih, total_incr]
    by_cases h : p j <;> simp [h, add_assoc]

theorem WF.addAll {d : Dict K V} (h : WF d) (xs : List (K × V)) : WF (addAll d xs) := by
  induction xs generalizing d with
  | nil => exact h
  | cons x xs ih => exact ih (h.incr _ _)

theorem mem_keys_addAll {xs : List (K × V)} {d : Dict K V} {k : K} : k ∈ keys (addAll d xs) ↔ k ∈ keys d ∨ k ∈ xs.map Prod.fst := by
  induction xs generalizing d with
  | nil => simp [addAll]
  | cons x xs ih =>
    obtain ⟨j, v⟩ := x
    rw [addAll, ih, mem_keys_incr]
    simp only [List.map_cons, List.mem_cons]
    tauto

theorem addAll_append (d : Dict K V) (xs ys : List (K × V)) : addAll d (xs ++ ys) = addAll (addAll d xs) ys := by
  induction xs generalizing d with
  | nil => rfl
  | cons x xs ih => exact ih _
end

end Disco.Dict
