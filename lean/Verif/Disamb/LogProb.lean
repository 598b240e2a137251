import Mathlib.Analysis.SpecialFunctions.Log.Basic
import Mathlib.Tactic.Linarith
import Mathlib.Tactic.NormNum
/-!
# C57, C59: arithmetic with log probabilities (containers.pxd:784-837)

The numbers are exact reals; `-inf` is `none`.
-/
namespace Disco.LogProb
open Real

/-! ### Model -/

/-- `logprobadd(x, y)` (containers.pxd:784-807). The test `isinf(exp(diff))` is about the overflow of floats and never succeeds, since
`diff ≤ 460` at that point. -/
noncomputable def logprobadd : Option ℝ → Option ℝ → Option ℝ
  | none, y => y
  | x, none => x
  | some x, some y => if x < y - 460 then some y else if y < x - 460 then some x else some (x + log (1 + exp (y - x)))

/-- The loop of `logprobsum` (containers.pxd:828-836) with its variables `maxprob` and `result`. -/
noncomputable def sumLoop : ℝ → ℝ → List ℝ → ℝ
  | m, r, [] => exp m * r
  | m, r, x :: xs => if x ≤ m then sumLoop m (r + exp (x - m)) xs else sumLoop x (r * exp (m - x) + 1) xs

/-- `logprobsum(logprobs)` (containers.pxd:811-837). -/
noncomputable def logprobsum (xs : List ℝ) : ℝ := sumLoop (-800) 0 xs

/-! ### Theorems -/

/-- The probability of a log probability. -/
noncomputable def Spec.prob : Option ℝ → ℝ
  | none => 0
  | some x => exp x

theorem sumLoop_eq (m r : ℝ) (xs : List ℝ) : sumLoop m r xs = exp m * r + (xs.map exp).sum := by
  induction xs generalizing m r with
  | nil => simp [sumLoop]
  | cons x xs ih =>
    rw [sumLoop]
    split
    · rw [ih, mul_add, ← exp_add]
      simp only [List.map_cons, List.sum_cons]
      rw [add_sub_cancel]
      ring
    · rw [ih]
      simp only [List.map_cons, List.sum_cons]
      rw [mul_add, mul_comm r, ← mul_assoc, ← exp_add, add_sub_cancel]
      ring

/-- **C57 (sum).** The streaming algorithm gives the sum of the probabilities, for any number of log probabilities in any order. -/
theorem C57_logprobsum (xs : List ℝ) : logprobsum xs = (xs.map exp).sum := by
  rw [logprobsum, sumLoop_eq]; simp

example : logprobsum [log (1 / 4), log (1 / 4), log (1 / 4)] = 3 / 4 := by
  rw [C57_logprobsum]
  simp only [List.map_cons, List.map_nil, List.sum_cons, List.sum_nil]
  rw [exp_log (by norm_num)]
  norm_num

/-- The sum in log space is never too large, and too small by a factor of at most `1 - exp(-460)`; it is exact unless one probability is less
than `exp(-460)` times the other. -/
theorem logprobadd_spec (x y : Option ℝ) :
    Spec.prob (logprobadd x y) ≤ Spec.prob x + Spec.prob y ∧
    (Spec.prob x + Spec.prob y) * (1 - exp (-460)) ≤ Spec.prob (logprobadd x y) := by
  have h0 : ∀ z, 0 ≤ Spec.prob z := by intro z; cases z <;> simp [Spec.prob, exp_nonneg]
  have hw : ∀ a : ℝ, 0 ≤ a → a * (1 - exp (-460)) ≤ a := fun a ha => by
    have := exp_pos (-460)
    nlinarith
  have hbig : ∀ a b : ℝ, a < b - 460 → (exp a + exp b) * (1 - exp (-460)) ≤ exp b := by
    intro a b hab
    have h1 : exp a ≤ exp b * exp (-460) := by
      rw [← exp_add]; exact exp_le_exp.2 (by linarith)
    have := exp_pos (-460)
    have := exp_pos a
    have : exp (-460 : ℝ) ≤ 1 := by rw [← exp_zero]; exact exp_le_exp.2 (by norm_num)
    nlinarith
  cases x with
  | none =>
    rw [logprobadd]
    refine ⟨by simp [Spec.prob], ?_⟩
    rw [Spec.prob, zero_add]
    exact hw _ (h0 _)
  | some x =>
    cases y with
    | none =>
      rw [logprobadd]
      · refine ⟨by simp [Spec.prob], ?_⟩
        rw [Spec.prob, Spec.prob, add_zero]
        exact hw _ (exp_nonneg _)
      · intro h; cases h
    | some y =>
      rw [logprobadd]
      by_cases h1 : x < y - 460
      · rw [if_pos h1]
        exact ⟨by have := exp_pos x; simp only [Spec.prob]; linarith, hbig x y h1⟩
      · rw [if_neg h1]
        by_cases h2 : y < x - 460
        · rw [if_pos h2]
          refine ⟨by have := exp_pos y; simp only [Spec.prob]; linarith, ?_⟩
          rw [add_comm]; exact hbig y x h2
        · rw [if_neg h2]
          have e : exp (x + log (1 + exp (y - x))) = exp x + exp y := by
            rw [exp_add, exp_log (by have := exp_pos (y - x); linarith), mul_add, ← exp_add]
            simp
          simp only [Spec.prob, e]
          exact ⟨le_rfl, hw _ (by have := exp_pos x; have := exp_pos y; linarith)⟩

end Disco.LogProb
