import Verif.Trees.PunctRoot
/-!
# C48: the hypotheses are met; disagreements
-/
namespace Disco.Punct
open PTree

/-- A sentence with a comma, quotes and a period. -/
def exSent : List Str := ["He", ",", "\"", "yes", "\"", "said", "."].map String.toList

/-- A preterminal. -/
def pt (l : String) (i : Nat) : PTree Str := .node l.toList [.leaf i]

/-- Its tree, with the punctuation under the root, and one quote already in the phrase. -/
def exTree : PTree Str :=
  .node "ROOT".toList [.node "S".toList [pt "N" 0, .node "VP".toList [.node "NP".toList [pt "$(" 2, pt "A" 3], pt "V" 5]], pt "$," 1, pt "$(" 4, pt "$." 6]

theorem constituent_iff_pt (l : String) (i : Nat) : Spec.Constituent (pt l i) := .preterminal _ _

theorem exTree_ok : Spec.TreeFor exSent.length exTree := by
  refine ⟨⟨_, _, rfl, ?_⟩, by decide +kernel⟩
  intro c hc
  simp only [List.mem_cons, List.not_mem_nil, or_false] at hc
  rcases hc with rfl | rfl | rfl | rfl
  · refine .phrase _ _ _ (.preterminal _ _) ?_
    intro d hd
    simp only [List.mem_cons, List.not_mem_nil, or_false] at hd
    subst hd
    refine .phrase _ _ _ (.phrase _ _ _ (.preterminal _ _) ?_) ?_
    · intro d hd
      simp only [List.mem_cons, List.not_mem_nil, or_false] at hd
      subst hd
      exact .preterminal _ _
    · intro d hd
      simp only [List.mem_cons, List.not_mem_nil, or_false] at hd
      subst hd
      exact .preterminal _ _
  · exact .preterminal _ _
  · exact .preterminal _ _
  · exact .preterminal _ _

/-- The comma gets next to the VP, the second quote next to the verb; the period stays. -/
def exRaised : PTree Str :=
  .node "ROOT".toList [.node "S".toList [pt "N" 0, .node "VP".toList [.node "NP".toList [pt "$(" 2, pt "A" 3], pt "V" 5, pt "$(" 4], pt "$," 1], pt "$." 6]

example : punctraise id false exTree exSent = some exRaised := by decide +kernel

/-- The second quote is moved to the parent of the first. -/
def exBalanced : PTree Str :=
  .node "ROOT".toList [.node "S".toList [pt "N" 0, .node "VP".toList [.node "NP".toList [pt "$(" 2, pt "A" 3, pt "$(" 4], pt "V" 5], pt "$," 1], pt "$." 6]

example : balancedpunctraise id exRaised exSent = some exBalanced := by decide +kernel

/-- After sorting, the tree is ordered. -/
example : applymove id false exTree exSent = some (.node "ROOT".toList [.node "S".toList [pt "N" 0, pt "$," 1,
    .node "VP".toList [.node "NP".toList [pt "$(" 2, pt "A" 3, pt "$(" 4], pt "V" 5]], pt "$." 6]) := by decide +kernel

/-- The hypotheses of `C48_punctraise_position` are met by the comma. -/
example : Spec.TreeFor exSent.length exTree ∧ Spec.MarksInOrder exTree ∧ Spec.Movable id exSent false exTree 1 ∧ 1 + 1 < exSent.length := by
  refine ⟨exTree_ok, ?_, ⟨"$,".toList, ",".toList, by decide +kernel, by decide +kernel, Or.inr (Or.inl (by decide +kernel))⟩, by decide +kernel⟩
  show List.Pairwise _ [_, _, _, _]
  simp only [List.pairwise_cons, List.mem_cons, List.not_mem_nil, or_false, forall_eq_or_imp, forall_eq, pt, PTree.node.injEq, List.cons.injEq, PTree.leaf.injEq,
    and_true, reduceCtorEq, false_and, IsEmpty.forall_iff, implies_true, List.Pairwise.nil]
  refine ⟨⟨?_, ?_, ?_⟩, ⟨?_, ?_⟩, ?_⟩ <;> intro l l' i j h h' <;> simp_all <;> omega

/-- The hypotheses of `C48_balanced_pair` are met by the quotes of `exRaised`. -/
example : ∃ (ds1 ds2 : List (PTree Str)), .node "NP".toList ds1 ∈ subtrees exRaised ∧ pt "$(" 2 ∈ ds1 ∧ .node "VP".toList ds2 ∈ subtrees exRaised ∧ pt "$(" 4 ∈ ds2 ∧
    ("\"".toList, "\"".toList) ∈ BALANCED ∧ exSent[2]? = some "\"".toList ∧ exSent[4]? = some "\"".toList ∧ "$(".toList ∈ PUNCTTAGS ∧ (leavesL ds1).max? = some (4 - 1) := by
  refine ⟨[pt "$(" 2, pt "A" 3], [.node "NP".toList [pt "$(" 2, pt "A" 3], pt "V" 5, pt "$(" 4], ?_⟩
  repeat' apply And.intro
  all_goals decide +kernel

example : punctroot id exTree exSent = some (.node "ROOT".toList [.node "S".toList [pt "N" 0, .node "VP".toList [.node "NP".toList [pt "A" 3], pt "V" 5]],
    pt "$." 6, pt "$(" 4, pt "$," 1, pt "$(" 2]) := by decide +kernel

example : punctremove exTree exSent false = some (.node "ROOT".toList [.node "S".toList [pt "N" 0, .node "VP".toList [.node "NP".toList [pt "A" 1], pt "V" 2]]],
    ["He", "yes", "said"].map String.toList) := by decide +kernel

example : punctremove exTree exSent true = some (.node "ROOT".toList [.node "S".toList [pt "N" 0, .node "VP".toList [.node "NP".toList [pt "$(" 1, pt "A" 2], pt "V" 3]]],
    ["He", "\"", "yes", "said"].map String.toList) := by decide +kernel

example : punctpruneSent (["\"", "yes", ".", "no", ".", "\""].map String.toList) = some (["yes", ".", "no"].map String.toList) := by decide +kernel

example : punctprune (.node "ROOT".toList [pt "$(" 0, .node "S".toList [pt "N" 1, pt "$." 2]]) (["\"", "He", "."].map String.toList) =
    some (.node "ROOT".toList [.node "S".toList [pt "N" 0]], [some "He".toList]) := by decide +kernel

/-! ### Disagreements -/

/-- `punctprune` raises `IndexError` on an empty sentence. -/
theorem C48_prune_empty (l : Str) : punctprune (.node l []) [] = none ∧ punctpruneSent [] = none := ⟨rfl, rfl⟩

/-- `punctlower` loses a mark that follows all phrases: the period is deleted, and the loop of `lower` ends without inserting it. -/
theorem C48_lower_loses_period : punctlower id (.node "ROOT".toList [.node "S".toList [pt "N" 0], pt "$." 1]) (["He", "."].map String.toList) =
    some (.node "ROOT".toList [.node "S".toList [pt "N" 0]]) := by decide +kernel

/-- `punctlower` uses positions that were computed before nodes are deleted: with two marks under the root it raises `IndexError`. -/
theorem C48_lower_stale_positions : punctlower id (.node "ROOT".toList [.node "S".toList [pt "N" 0], pt "$," 1, pt "$." 2]) (["He", ",", "."].map String.toList) =
    none := by decide +kernel

/-- Guillemets are not recognized as a pair, nor as punctuation: the tables have the bytes of their UTF-8 encoding as separate characters. -/
theorem C48_guillemets : ¬ Spec.Balancing "«".toList ∧ ¬ Spec.Balancing "»".toList := by
  constructor <;> (rintro ⟨x, hx, h⟩; revert x; decide +kernel)

/-- The marks stay where they are: `( » )` under the root is not attached to the NP of the left mark. -/
theorem C48_guillemets_not_moved : balancedpunctraise id (.node "ROOT".toList [.node "NP".toList [pt "$(" 0, pt "N" 1], pt "$(" 2]) (["«", "a", "»"].map String.toList) =
      some (.node "ROOT".toList [.node "NP".toList [pt "$(" 0, pt "N" 1], pt "$(" 2]) ∧
    balancedpunctraise id (.node "ROOT".toList [.node "NP".toList [pt "$(" 0, pt "N" 1], pt "$(" 2]) (["(", "a", ")"].map String.toList) =
      some (.node "ROOT".toList [.node "NP".toList [pt "$(" 0, pt "N" 1, pt "$(" 2]]) := by decide +kernel

/-- When the words under the root are not in order, a mark may end up apart from the next word: here the first mark is put next to the second under the root, after
which the second is moved into the S. -/
theorem C48_raise_out_of_order : ∃ u, punctraise id false (.node "ROOT".toList [pt "$(" 2, .node "S".toList [pt "N" 0, .node "VP".toList [pt "V" 3]], pt "$(" 1])
      (["a", "\"", "\"", "b"].map String.toList) = some u ∧
    u = .node "ROOT".toList [.node "S".toList [pt "N" 0, .node "VP".toList [pt "V" 3], pt "$(" 2], pt "$(" 1] ∧
    ¬ ∃ s ∈ subtrees u, pt "$(" 1 ∈ s.children ∧ ∃ x ∈ s.children, x.leaves.min? = some 2 :=
  ⟨_, rfl, by decide +kernel, by decide +kernel⟩

end Disco.Punct
