import Verif.Frag.Treebank
/-!
# Fragments: a concrete treebank, and two cases where the code does not do what its documentation says
-/
namespace Disco.Frag.Ex

/-- (S (NP (DT the) (N cat)) (VP (V sleeps))); productions: 0 S → NP VP, 1 NP → DT N, 2 VP → V, 3 DT → the, 4 N → cat, 5 V → sleeps, 6 N → dog. -/
def a : List Node := [⟨0, 1, 2⟩, ⟨1, 3, 4⟩, ⟨2, 5, -1⟩, ⟨3, -1, -1⟩, ⟨4, -2, -1⟩, ⟨5, -3, -1⟩]
/-- (S (NP (DT the) (N dog)) (VP (V sleeps))) -/
def b : List Node := [⟨0, 1, 2⟩, ⟨1, 3, 5⟩, ⟨2, 4, -1⟩, ⟨3, -1, -1⟩, ⟨5, -3, -1⟩, ⟨6, -2, -1⟩]

def s : BTree := .bin 0 0 (.bin 1 1 (.term 3 3) (.term 4 4)) (.un 2 2 (.term 5 5))
def t : BTree := .bin 0 0 (.bin 1 1 (.term 3 3) (.term 5 6)) (.un 2 2 (.term 4 5))

theorem sorted_of {a : List Node} (h : ∀ j < a.length, ∀ i < j + 1, (nd a i).prod ≤ (nd a j).prod) : Spec.Sorted a := fun i j hij hj => h j hj i (by omega)

theorem tree_s : Spec.Tree a s := by
  refine ⟨?_, by decide +kernel, sorted_of (by decide +kernel)⟩
  exact .bin (a := a) (i := 0) (by decide) (by decide) (by decide) (.bin (i := 1) (by decide) (by decide) (by decide) (.term (i := 3) (by decide) (by decide))
    (.term (i := 4) (by decide) (by decide))) (.un (i := 2) (by decide) (by decide) (by decide) (.term (i := 5) (by decide) (by decide)))

theorem tree_t : Spec.Tree b t := by
  refine ⟨?_, by decide +kernel, sorted_of (by decide +kernel)⟩
  exact .bin (a := b) (i := 0) (by decide) (by decide) (by decide) (.bin (i := 1) (by decide) (by decide) (by decide) (.term (i := 3) (by decide) (by decide))
    (.term (i := 5) (by decide) (by decide))) (.un (i := 2) (by decide) (by decide) (by decide) (.term (i := 4) (by decide) (by decide)))

theorem sameArity : ∀ x ∈ [s, t], ∀ y ∈ [s, t], Spec.SameArity x y := by
  unfold Spec.SameArity; decide +kernel

/-- The treebank. -/
def bank : Bank := [(a, 0), (b, 0)]

theorem bank_spec : Spec.Bank bank [s, t] := .cons ⟨tree_s, rfl⟩ (.cons ⟨tree_t, rfl⟩ .nil)

/-- The one maximal common fragment of the two trees is (S (NP (DT the) (N )) (VP (V sleeps))); C49 and C52 apply. -/
example : extractfrompair a b t.idx 0 0 [] = [⟨0b101111, 0, 0⟩] ∧ Spec.Tree a s ∧ Spec.Tree b t ∧ Spec.SameArity s t ∧
    (workload 2 1 4).flatMap (fun x => extractfragments bank x.1 x.2 none 0 0) = [⟨0b101111, 0, 0⟩] :=
  ⟨by decide +kernel, tree_s, tree_t, sameArity s (by simp) t (by simp), by decide +kernel⟩

/-- The index of productions. -/
def index : List (Option (List Nat)) := [some [0, 1], some [0, 1], some [0, 1], some [0, 1], some [0], some [0, 1], some [1]]

theorem index_spec : Spec.Index [s, t] index := by
  constructor
  · intro p l h
    have hp : p < 7 := by
      have := (List.getElem?_eq_some_iff.1 h).1
      exact this
    have key : ∀ (p : Nat), p < 7 → ∀ l ∈ (index[p]?.getD none).toList, l.Pairwise (· < ·) ∧ (∀ m ∈ l, m < 2) ∧ ∀ m < 2, l.contains m = (([s, t][m]?).toList.any fun x => x.subs.any fun v => decide (v.prod = (p : Int))) := by decide +kernel
    obtain ⟨k1, k2, k3⟩ := key p hp l (by rw [h]; simp)
    refine ⟨k1, fun m => ?_⟩
    by_cases hm : m < 2
    · rw [← List.contains_iff_mem, k3 m hm]; simp only [List.any_eq_true, decide_eq_true_eq, Option.mem_toList, Option.mem_def]
    · constructor
      · intro h'; exact absurd (k2 m h') hm
      · rintro ⟨x, hx, -⟩
        have := (List.getElem?_eq_some_iff.1 hx).1
        simp at this; omega
  · intro p h
    by_cases hp : p < 7
    · have : ∀ (p : Nat), p < 7 → index[p]? ≠ none ∧ index[p]? ≠ some none := by decide +kernel
      rcases h with h | h
      · exact absurd h (this p hp).1
      · exact absurd h (this p hp).2
    · have : ∀ x ∈ [s, t], ∀ v ∈ x.subs, v.prod < 7 := by decide +kernel
      intro x hx v hv e
      have := this x hx v hv
      omega

/-- C50 applies: the fragment (NP (DT the) (N )) is a fragment of the first tree and occurs once in each tree. -/
example : Spec.IsFragment (.bin 1 1 (.term 3 3) (.term 4 4)) 0b1010 ∧ Spec.Index [s, t] index ∧
    occurrences a ⟨0b1010, 1, 0⟩ [a, b] index = [(0, 1), (1, 1)] := by
  refine ⟨(metrics_of_fragOf (d := 2) (c := 1) (.binL (i := 1) (p := 1) .term) (by decide +kernel)).elim fun _ h => h.elim fun _ h => h.1.frag, index_spec, by decide +kernel⟩

/-- C51: the first tree has 24 fragments in all. -/
example : (allfragments1 a 0 0 9 99).1.length = 24 ∧ (allfragments1 a 0 0 1 99).1.length = 6 := by decide +kernel

/-- **C49 (disagreement)**: `twoterms` is documented as returning the fragments with at least two terminals. The fragment (S (NP (DT the) (N )) (VP (V sleeps)))
has two terminals, but it is not returned: terminals below a unary node are not counted (`extractat`, _fragments.pyx:316-317). -/
theorem C49_twoterms_unary : (∀ r, r ∈ extractfrompair a b t.idx 0 0 [] ↔ r = ⟨0b101111, 0, 0⟩) ∧
    (∀ k ∈ [3, 5], (0b101111 : Nat).testBit k = true ∧ (nd a k).left < 0) ∧ extractfrompair a b t.idx 0 2 [] = [] := by
  refine ⟨fun r => ?_, by decide +kernel, by decide +kernel⟩
  have : extractfrompair a b t.idx 0 0 [] = [⟨0b101111, 0, 0⟩] := by decide +kernel
  rw [this, List.mem_singleton]

/-- **C51 (disagreement)**: `maxfrontier=0` is documented as giving the fragments that bottom out in terminals, and the limit is on the number of frontier
non-terminals. The complete tree has none, but it is not returned with limit 0: each only child in the fragment is counted as well (`traverse`,
_fragments.pyx:736-746). -/
theorem C51_unary_frontiers : (∃ u ∈ s.subs, u.idx = 0 ∧ Spec.IsFragment u 0b111111 ∧ Spec.Count (Spec.Frontier u 0b111111) 0 ∧
      ∀ p, Spec.InFragment u 0b111111 p → p.length < 9) ∧ ⟨0b111111, 0, 0⟩ ∉ (allfragments1 a s.idx 0 9 0).1 ∧ ⟨0b111111, 0, 0⟩ ∈ (allfragments1 a s.idx 0 9 1).1 := by
  refine ⟨⟨s, self_mem_subs s, rfl, ?_⟩, by decide +kernel, by decide +kernel⟩
  obtain ⟨kf, ku, m, hk⟩ := metrics_of_fragOf (u := s) (b := 0b111111) (d := 3) (c := 1)
    (.binLR (i := 0) (p := 0) (d := 2) (d' := 2) (.binLR (i := 1) (p := 1) .term .term) (.unL (i := 2) (p := 2) .term)) (by decide +kernel)
  have hu : Spec.Count (Spec.OnlyChild s 0b111111) 1 := by
    have hin : Spec.InFragment s 0b111111 [true, false] := by
      rw [inFragment_cons]
      refine ⟨by decide +kernel, _, rfl, ?_⟩
      rw [inFragment_cons]
      exact ⟨by decide +kernel, _, rfl, inFragment_nil.2 (by decide +kernel)⟩
    refine ⟨[[true, false]], by simp, fun p => ?_, rfl⟩
    rw [List.mem_singleton]
    constructor
    · rintro rfl
      exact ⟨[true], 2, 2, _, rfl, rfl, hin⟩
    · rintro ⟨q, i, pr, l, rfl, h, -⟩
      have hq : q = [true] := by
        have hmem := (mem_subs_iff_sub s _).2 ⟨q, h⟩
        have hi : i = 2 := by
          simp [s, BTree.subs] at hmem
          exact hmem.1
        exact path_unique s (by decide +kernel) q [true] _ (.un 2 2 (.term 5 5)) h rfl hi
      rw [hq]; rfl
  have : ku = 1 := count_unique m.only hu
  have : kf = 0 := by omega
  subst this
  exact ⟨m.frag, m.fro, fun p hp => by have := (m.depth 3).1 (Nat.le_refl _) p hp; omega⟩

end Disco.Frag.Ex
