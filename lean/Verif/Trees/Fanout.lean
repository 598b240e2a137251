import Verif.Basic.Tree
import Verif.Basic.Sort
import Verif.Bits.Runs
import Mathlib.Data.List.Dedup
/-!
# C07: fan-out markers

`discodop/treetransforms.py:618-632` (`addfanoutmarkers`, `removefanoutmarkers`).
-/
namespace Disco.FanoutMark
open PTree

/-- `len([a for a in sorted(leaves) if a - 1 not in leaves])` with `leaves = set(st.leaves())`
(treetransforms.py:621-622). `a - 1` is `-1` for `a = 0`, which is never in the set. -/
def thisfanout (ls : List Nat) : Nat :=
  ((stableSort (fun a b : Nat => decide (a ≤ b)) ls.dedup).filter
    (fun a => !(a ≠ 0 && ls.contains (a - 1)))).length

/-- `'_%d' % n`. -/
def marker (n : Nat) : Str := '_' :: Nat.toDigits 10 n

/-- The new label of a constituent (treetransforms.py:623-624). -/
def newlabel (label : Str) (ls : List Nat) : Str :=
  if thisfanout ls > 1 ∧ ¬ (marker (thisfanout ls)).isSuffixOf label then label ++ marker (thisfanout ls)
  else label

mutual
/-- `addfanoutmarkers` (treetransforms.py:618-625); each iteration of the loop changes the label of one node only. -/
def addfanoutmarkers : PTree Str → PTree Str
  | .leaf i => .leaf i
  | .node l cs => .node (newlabel l (leavesL cs)) (addfanoutmarkersL cs)
/-- The same for a list of sisters. -/
def addfanoutmarkersL : List (PTree Str) → List (PTree Str)
  | [] => []
  | c :: cs => addfanoutmarkers c :: addfanoutmarkersL cs
end

/-- `s.rsplit('_', 1)[0]`: the part before the last underscore, all of `s` when there is none. -/
def rsplit1 : Str → Str
  | [] => []
  | c :: s => if c = '_' ∧ ¬ s.contains '_' then [] else c :: rsplit1 s

/-- `removefanoutmarkers` (treetransforms.py:628-632). -/
def removefanoutmarkers (t : PTree Str) : PTree Str :=
  t.mapLabel (fun l => if l.contains '_' then rsplit1 l else l)

/-! ### Specification -/

/-- `n` is the number of maximal contiguous blocks of the terminals `ls`. -/
def Spec.Blocks (ls : List Nat) (n : Nat) : Prop :=
  ∃ runs, Bits.Spec.ListsRuns (· ∈ ls) runs ∧ n = runs.length

mutual
/-- `u` is `t` with `_n` appended to the label of each constituent that covers `n > 1` blocks. -/
inductive Spec.Marked : PTree Str → PTree Str → Prop
  | leaf (i : Nat) : Spec.Marked (.leaf i) (.leaf i)
  | cont (l : Str) (cs ds : List (PTree Str)) (n : Nat) : Spec.Blocks (leavesL cs) n → n ≤ 1 →
      Spec.MarkedL cs ds → Spec.Marked (.node l cs) (.node l ds)
  | disc (l : Str) (cs ds : List (PTree Str)) (n : Nat) : Spec.Blocks (leavesL cs) n → 1 < n →
      Spec.MarkedL cs ds → Spec.Marked (.node l cs) (.node (l ++ '_' :: (toString n).toList) ds)
/-- Pointwise. -/
inductive Spec.MarkedL : List (PTree Str) → List (PTree Str) → Prop
  | nil : Spec.MarkedL [] []
  | cons {c d : PTree Str} {cs ds : List (PTree Str)} :
      Spec.Marked c d → Spec.MarkedL cs ds → Spec.MarkedL (c :: cs) (d :: ds)
end

/-- No label contains an underscore. -/
def Spec.NoUnderscore (t : PTree Str) : Prop := ∀ l cs, .node l cs ∈ subtrees t → '_' ∉ l

/-! ### Lemmas -/

theorem thisfanout_blocks (ls : List Nat) : Spec.Blocks ls (thisfanout ls) := by
  have hS : (fun k => (Bits.bitsetOf ls.dedup).testBit k = true) = (· ∈ ls) := by
    funext k
    exact propext ((Bits.C09_bitsetOf _ (List.nodup_dedup ls) k).trans List.mem_dedup)
  have hr := Bits.C32_intervals (Bits.bitsetOf ls.dedup)
  rw [hS] at hr
  refine ⟨_, hr, ?_⟩
  generalize Bits.intervals (Bits.bitsetOf ls.dedup) = runs at hr
  rw [thisfanout, ← List.length_map (f := Prod.fst) (as := runs)]
  apply List.Perm.length_eq
  rw [List.perm_ext_iff_of_nodup]
  · intro a
    rw [List.mem_filter, StableSort.mem, List.mem_dedup, List.mem_map]
    constructor
    · rintro ⟨ha, hp⟩
      -- the block that starts at `a`
      have hfin : ∃ b, a ≤ b ∧ (∀ k, a ≤ k → k ≤ b → k ∈ ls) ∧ b + 1 ∉ ls := by
        obtain ⟨m, hm⟩ : ∃ m, ∀ x ∈ ls, x ≤ m := by
          clear hp ha hr hS
          induction ls with
          | nil => exact ⟨0, by simp⟩
          | cons x ls ih =>
            obtain ⟨m, hm⟩ := ih
            refine ⟨max x m, fun y hy => ?_⟩
            rcases List.mem_cons.1 hy with rfl | hy
            · omega
            · have := hm y hy; omega
        have : ∀ d c, a ≤ c → m - c = d → c ∈ ls → (∀ k, a ≤ k → k ≤ c → k ∈ ls) →
            ∃ b, a ≤ b ∧ (∀ k, a ≤ k → k ≤ b → k ∈ ls) ∧ b + 1 ∉ ls := by
          intro d
          induction d with
          | zero =>
            intro c hac hd hc hk
            refine ⟨c, hac, hk, fun h => ?_⟩
            have := hm _ h; omega
          | succ d ih =>
            intro c hac hd hc hk
            by_cases h : c + 1 ∈ ls
            · refine ih (c + 1) (by omega) (by omega) h (fun k h1 h2 => ?_)
              by_cases hkc : k = c + 1
              · rw [hkc]; exact h
              · exact hk k h1 (by omega)
            · exact ⟨c, hac, hk, h⟩
        exact this _ a (Nat.le_refl _) rfl ha (fun k h1 h2 => by
          have : k = a := by omega
          rw [this]; exact ha)
      obtain ⟨b, h1, h2, h3⟩ := hfin
      refine ⟨(a, b), (hr.2 _).2 ⟨h1, h2, fun k hk hm => ?_, h3⟩, rfl⟩
      simp only [Bool.not_eq_true', Bool.and_eq_false_iff] at hp
      simp only [] at hk
      rcases hp with hp | hp
      · simp at hp; omega
      · rw [← hk] at hp
        simp at hp
        exact hp hm
    · rintro ⟨⟨a', b⟩, hm, rfl⟩
      obtain ⟨h1, h2, h3, _⟩ := (hr.2 _).1 hm
      refine ⟨h2 _ (Nat.le_refl _) h1, ?_⟩
      by_cases h0 : a' = 0
      · simp [h0]
      · have := h3 (a' - 1) (by simp only []; omega)
        simp [this]
  · exact ((StableSort.perm _).nodup_iff.2 (List.nodup_dedup ls)).filter _
  · have : (runs.map Prod.fst).Pairwise (· < ·) := by
      rw [List.pairwise_map]
      refine hr.1.imp_of_mem ?_
      intro p q hp _ hpq
      have := ((hr.2 p).1 hp).1
      omega
    exact this.imp fun h => Nat.ne_of_lt h

theorem blocks_unique {ls : List Nat} {n m : Nat} (h1 : Spec.Blocks ls n) (h2 : Spec.Blocks ls m) : n = m := by
  obtain ⟨r, hr, rfl⟩ := h1
  obtain ⟨s, hs, rfl⟩ := h2
  have nd : ∀ l : List (Nat × Nat), Bits.Spec.ListsRuns (· ∈ ls) l → l.Nodup := by
    intro l hl
    refine List.Pairwise.imp_of_mem ?_ hl.1
    intro p q hp _ hpq heq
    have := ((hl.2 p).1 hp).1
    subst heq; omega
  exact ((List.perm_ext_iff_of_nodup (nd _ hr) (nd _ hs)).2
    (fun a => (hr.2 a).trans (hs.2 a).symm)).length_eq

theorem NoUnderscore.child {l : Str} {cs : List (PTree Str)} (h : Spec.NoUnderscore (.node l cs)) :
    ∀ c ∈ cs, Spec.NoUnderscore c :=
  fun c hc l' cs' hm => h l' cs' (by
    rw [subtrees_node]; exact List.mem_cons_of_mem _ (mem_subtreesL.2 ⟨c, hc, hm⟩))

theorem newlabel_clean {l : Str} (h : '_' ∉ l) (ls : List Nat) :
    newlabel l ls = if thisfanout ls > 1 then l ++ marker (thisfanout ls) else l := by
  have : ¬ (marker (thisfanout ls)).isSuffixOf l = true := by
    rw [List.isSuffixOf_iff_suffix]
    rintro ⟨s, hs⟩
    exact h (by rw [← hs]; simp [marker])
  rw [newlabel]; simp [this]

theorem leaves_add (t : PTree Str) : (addfanoutmarkers t).leaves = t.leaves := by
  induction t using PTree.ind with
  | hleaf i => simp [addfanoutmarkers]
  | hnode l cs ih =>
    rw [addfanoutmarkers, leaves_node, leaves_node]
    induction cs with
    | nil => simp [addfanoutmarkersL]
    | cons c cs ih2 =>
      rw [addfanoutmarkersL, leavesL_cons, leavesL_cons, ih c (by simp), ih2 (fun c hc => ih c (by simp [hc]))]

theorem leavesL_add (cs : List (PTree Str)) : leavesL (addfanoutmarkersL cs) = leavesL cs := by
  induction cs with
  | nil => simp [addfanoutmarkersL]
  | cons c cs ih => rw [addfanoutmarkersL, leavesL_cons, leavesL_cons, leaves_add, ih]

theorem rsplit1_append {a b : Str} (hb : '_' ∉ b) : rsplit1 (a ++ '_' :: b) = a := by
  induction a with
  | nil => simp [rsplit1, hb]
  | cons c a ih =>
    rw [List.cons_append, rsplit1, if_neg, ih]
    simp

/-! ### Properties -/

/-- **C07.** `addfanoutmarkers` appends `_n` exactly to the constituents whose terminals form `n > 1` maximal
contiguous blocks (labels without underscore). -/
theorem C07_addfanoutmarkers (t : PTree Str) (h : Spec.NoUnderscore t) : Spec.Marked t (addfanoutmarkers t) := by
  induction t using PTree.ind with
  | hleaf i => rw [addfanoutmarkers]; exact .leaf i
  | hnode l cs ih =>
    rw [addfanoutmarkers, newlabel_clean (h l cs (by simp))]
    have hL : Spec.MarkedL cs (addfanoutmarkersL cs) := by
      have : ∀ c ∈ cs, Spec.Marked c (addfanoutmarkers c) := fun c hc => ih c hc (NoUnderscore.child h c hc)
      clear h ih
      induction cs with
      | nil => rw [addfanoutmarkersL]; exact .nil
      | cons c cs ih2 =>
        rw [addfanoutmarkersL]
        exact .cons (this c (by simp)) (ih2 fun c hc => this c (by simp [hc]))
    split
    · rename_i hf
      have : marker (thisfanout (leavesL cs)) = '_' :: (toString (thisfanout (leavesL cs))).toList := by
        rw [marker]
        congr 1
        rw [Nat.toString_eq_repr, Nat.toList_repr]
      rw [this]
      exact .disc l cs _ _ (thisfanout_blocks _) hf hL
    · rename_i hf
      exact .cont l cs _ _ (thisfanout_blocks _) (by omega) hL

/-- **C07.** `removefanoutmarkers` undoes `addfanoutmarkers`. -/
theorem C07_remove_add (t : PTree Str) (h : Spec.NoUnderscore t) : removefanoutmarkers (addfanoutmarkers t) = t := by
  induction t using PTree.ind with
  | hleaf i => simp [addfanoutmarkers, removefanoutmarkers]
  | hnode l cs ih =>
    have hl := h l cs (by simp)
    rw [addfanoutmarkers, newlabel_clean hl, removefanoutmarkers, mapLabel_node, mapLabelL_eq]
    congr 1
    · split
      · rw [if_pos (by simp [marker])]
        exact rsplit1_append Nat.underscore_not_in_toDigits
      · rw [if_neg (by simpa using hl)]
    · have : ∀ c ∈ cs, removefanoutmarkers (addfanoutmarkers c) = c :=
        fun c hc => ih c hc (NoUnderscore.child h c hc)
      clear h ih
      induction cs with
      | nil => simp [addfanoutmarkersL]
      | cons c cs ih2 =>
        rw [addfanoutmarkersL, List.map_cons, ih2 fun c hc => this c (by simp [hc])]
        congr 1
        exact this c (by simp)

/-- **C07.** Adding the markers a second time changes nothing, whatever the labels. -/
theorem C07_add_idempotent (t : PTree Str) : addfanoutmarkers (addfanoutmarkers t) = addfanoutmarkers t := by
  induction t using PTree.ind with
  | hleaf i => simp [addfanoutmarkers]
  | hnode l cs ih =>
    rw [addfanoutmarkers, addfanoutmarkers, leavesL_add]
    congr 1
    · generalize leavesL cs = ls
      rw [newlabel]
      by_cases hf : thisfanout ls > 1
      · by_cases hs : (marker (thisfanout ls)).isSuffixOf l = true
        · rw [newlabel]; simp [hs]
        · have e : newlabel l ls = l ++ marker (thisfanout ls) := by rw [newlabel]; simp [hs, hf]
          have : (marker (thisfanout ls)).isSuffixOf (newlabel l ls) = true := by
            rw [e, List.isSuffixOf_iff_suffix]
            exact List.suffix_append _ _
          simp [this]
      · rw [if_neg (by simp [hf])]
    · induction cs with
      | nil => simp [addfanoutmarkersL]
      | cons c cs ih2 =>
        rw [addfanoutmarkersL, addfanoutmarkersL, ih c (by simp), ih2 fun c hc => ih c (by simp [hc])]

/-- Labels that contain an underscore are not restored: the documented pair is not inverse on them. -/
theorem C07_underscore_lost :
    removefanoutmarkers (addfanoutmarkers (.node "N_P".toList [.leaf 0])) ≠ .node "N_P".toList [.leaf 0] := by
  decide +kernel

/-- Hypotheses met by a tree with a constituent in three blocks. -/
def exTree : PTree Str :=
  .node ['S'] [.node ['V','P'] [.leaf 0, .leaf 2, .leaf 4], .node ['V'] [.leaf 1], .node ['N'] [.leaf 3]]

example : Spec.NoUnderscore exTree ∧ addfanoutmarkers exTree =
    .node ['S'] [.node ['V','P','_','3'] [.leaf 0, .leaf 2, .leaf 4], .node ['V'] [.leaf 1], .node ['N'] [.leaf 3]] := by
  refine ⟨?_, by decide +kernel⟩
  intro l cs h
  simp [exTree] at h
  rcases h with ⟨rfl, _⟩ | ⟨rfl, _⟩ | ⟨rfl, _⟩ | ⟨rfl, _⟩ <;> decide

end Disco.FanoutMark
