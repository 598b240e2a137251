import Verif.Parse.Posterior
import Mathlib.Analysis.SpecialFunctions.Log.Basic
/-!
# C55, continued: the lexical probabilities in `posteriorthreshold` (coarsetofine.pyx:187-195, 235-236; containers.pyx:141-147)

`posteriorthreshold` replaces the weights of the grammar by probabilities with `chart.grammar.switch(…, logprob=False)`. But `lexprob` looks at `chart.logprob`, which says how the chart was made;
charts are made with `logprob=True` (pcfg.pyx:53, 234; plcfrs.pyx:22) by the parsers, which require a grammar with log probabilities (pcfg.pyx:424).
-/
namespace Disco.Inside

/-- `Chart.lexprob` (containers.pyx:141-147), with the weight that the grammar has for the lexical rule at this moment. -/
noncomputable def lexprob (chartlogprob : Bool) (prob : ℝ) : ℝ := if chartlogprob then Real.exp (-prob) else prob

/-- `grammar.switch(…, logprob)` for one rule with relative frequency `p` (_grammar.pxi:714-730). -/
noncomputable def weight (logprob : Bool) (p : ℝ) : ℝ := if logprob then |Real.log p| else p

/-- The probability which `getinside` takes for a lexical edge in `posteriorthreshold`, for a rule with relative frequency `p`. -/
noncomputable def edgeLexprob (chartlogprob : Bool) (p : ℝ) : ℝ := lexprob chartlogprob (weight false p)

/-- **C55**: the parsers and the chart agree: outside `posteriorthreshold`, `lexprob` is the relative frequency of the rule. -/
theorem C55_lexprob {p : ℝ} (h : 0 < p) (h1 : p ≤ 1) (logprob : Bool) : lexprob logprob (weight logprob p) = p := by
  cases logprob with
  | false => rfl
  | true =>
    simp only [lexprob, weight, if_true]
    rw [abs_of_nonpos (Real.log_nonpos h.le h1), neg_neg, Real.exp_log h]

/-- A word with tags 1 and 2; the root 3 has one unary rule for each of them. -/
noncomputable def Examples.tags (chartlogprob : Bool) : Forest Nat ℝ
  | 1 => [.lex (edgeLexprob chartlogprob (9 / 10))]
  | 2 => [.lex (edgeLexprob chartlogprob (1 / 10))]
  | 3 => [.un (1 / 2) 1, .un (1 / 2) 2]
  | _ => []

/-- **C55**: In a chart made by the parsers, `posteriorthreshold` takes `exp(-p)` instead of `p` as the probability of a lexical rule. A tag with 9/10 of the probability of the sentence is pruned by a threshold
of 1/2, and the tag with the remaining 1/10 is kept. -/
theorem C55_lexprob_disagreement :
    posteriorthreshold (Examples.tags false) [1, 2, 3] 3 [1, 2, 3] (1 / 2) = some [1, 3] ∧
    posteriorthreshold (Examples.tags true) [1, 2, 3] 3 [1, 2, 3] (1 / 2) = some [2, 3] := by
  have key : ∀ (c : Bool) (a b : ℝ), edgeLexprob c (9 / 10) = a → edgeLexprob c 10⁻¹ = b → 0 < a → 0 < b →
      posteriorthreshold (Examples.tags c) [1, 2, 3] 3 [1, 2, 3] (1 / 2) = some ([1, 2, 3].filter fun i => decide (i = 1 ∧ b < a ∨ i = 2 ∧ a < b ∨ i = 3)) := by
    intro c a b ha hb ha0 hb0
    have i1 : getinside (Examples.tags c) [1, 2, 3] 1 = a := by
      simp [getinside, insideItem, Examples.tags, edgeInside, ha]
    have i2 : getinside (Examples.tags c) [1, 2, 3] 2 = b := by
      simp [getinside, insideItem, Examples.tags, edgeInside, hb]
    have i3 : getinside (Examples.tags c) [1, 2, 3] 3 = 1 / 2 * a + 1 / 2 * b := by
      simp [getinside, insideItem, Examples.tags, edgeInside, ha, hb]
    have o : ∀ ins : Nat → ℝ, getoutside (Examples.tags c) [1, 2, 3] 3 ins 1 = 1 / 2 ∧ getoutside (Examples.tags c) [1, 2, 3] 3 ins 2 = 1 / 2 ∧
        getoutside (Examples.tags c) [1, 2, 3] 3 ins 3 = 1 := by
      intro ins
      refine ⟨?_, ?_, ?_⟩ <;> simp [getoutside, outsideEdge, Examples.tags]
    unfold posteriorthreshold
    rw [if_neg (by norm_num)]
    dsimp only
    rw [if_neg (by rw [i3]; positivity)]
    congr 1
    refine List.filter_congr fun i hi => ?_
    simp only [List.mem_cons, List.not_mem_nil, or_false] at hi
    rw [decide_eq_decide]
    obtain ⟨o1, o2, o3⟩ := o (getinside (Examples.tags c) [1, 2, 3])
    rcases hi with rfl | rfl | rfl
    · rw [i1, i3, o1]; simp; constructor <;> intro h <;> linarith
    · rw [i2, i3, o2]; simp; constructor <;> intro h <;> linarith
    · rw [i3, o3]; simp; linarith
  constructor
  · rw [key false (9 / 10) (1 / 10) rfl (by simp [edgeLexprob, lexprob, weight]) (by norm_num) (by norm_num)]
    have h : ∀ i : Nat, decide (i = 1 ∧ (1 / 10 : ℝ) < 9 / 10 ∨ i = 2 ∧ (9 / 10 : ℝ) < 1 / 10 ∨ i = 3) = decide (i = 1 ∨ i = 3) := by
      intro i; rw [decide_eq_decide]; norm_num
    simp only [h]; decide
  · have hlt : Real.exp (-(9 / 10)) < Real.exp (-(1 / 10)) := Real.exp_lt_exp.2 (by norm_num)
    rw [key true (Real.exp (-(9 / 10))) (Real.exp (-(1 / 10))) rfl (by simp [edgeLexprob, lexprob, weight]) (Real.exp_pos _) (Real.exp_pos _)]
    have h : ∀ i : Nat, decide (i = 1 ∧ Real.exp (-(1 / 10)) < Real.exp (-(9 / 10)) ∨ i = 2 ∧ Real.exp (-(9 / 10)) < Real.exp (-(1 / 10)) ∨ i = 3) = decide (i = 2 ∨ i = 3) := by
      intro i; rw [decide_eq_decide]; simp only [hlt, not_lt.2 hlt.le, and_false, false_or, and_true]
    simp only [h]; decide

end Disco.Inside
