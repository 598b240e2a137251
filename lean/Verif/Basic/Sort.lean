/-!
# Python's stable sort

`list.sort` / `sorted` return the unique stable sorted permutation; it is modelled by a structurally recursive insertion sort
(so that the kernel can evaluate it), whose specification (permutation, sortedness, stability) is proved here.
-/
namespace Disco

/-- Insert before the first element that is not smaller. -/
def insertSorted {α : Type} (le : α → α → Bool) (a : α) : List α → List α
  | [] => [a]
  | b :: l => if le a b then a :: b :: l else b :: insertSorted le a l

/-- Python's `sorted(xs)` with comparison `le` on the keys. -/
def stableSort {α : Type} (le : α → α → Bool) : List α → List α
  | [] => []
  | a :: l => insertSorted le a (stableSort le l)

namespace StableSort
variable {α : Type} {le : α → α → Bool}

theorem insertSorted_perm (a : α) (l : List α) : (insertSorted le a l).Perm (a :: l) := by
  induction l with
  | nil => exact .rfl
  | cons b l ih =>
    rw [insertSorted]
    split
    · exact .rfl
    · exact (ih.cons b).trans (.swap a b l)

theorem perm (l : List α) : (stableSort le l).Perm l := by
  induction l with
  | nil => exact .rfl
  | cons a l ih => exact (insertSorted_perm a _).trans (ih.cons a)

theorem insertSorted_pairwise (trans : ∀ a b c, le a b = true → le b c = true → le a c = true)
    (total : ∀ a b, (le a b || le b a) = true) (a : α) (l : List α)
    (h : l.Pairwise (fun x y => le x y = true)) : (insertSorted le a l).Pairwise (fun x y => le x y = true) := by
  induction l with
  | nil => simp [insertSorted]
  | cons b l ih =>
    rw [List.pairwise_cons] at h
    rw [insertSorted]
    split
    · rename_i hab
      rw [List.pairwise_cons]
      refine ⟨fun c hc => ?_, List.pairwise_cons.2 h⟩
      rcases List.mem_cons.1 hc with rfl | hc
      · exact hab
      · exact trans _ _ _ hab (h.1 c hc)
    · rename_i hab
      rw [List.pairwise_cons]
      refine ⟨fun c hc => ?_, ih h.2⟩
      rcases List.mem_cons.1 ((insertSorted_perm a l).subset hc) with rfl | hc
      · have := total c b
        rw [Bool.or_eq_true] at this
        exact this.resolve_left hab
      · exact h.1 c hc

theorem pairwise (trans : ∀ a b c, le a b = true → le b c = true → le a c = true)
    (total : ∀ a b, (le a b || le b a) = true) (l : List α) :
    (stableSort le l).Pairwise (fun x y => le x y = true) := by
  induction l with
  | nil => exact .nil
  | cons a l ih => exact insertSorted_pairwise trans total a _ ih

theorem of_pairwise {l : List α} (h : l.Pairwise (fun x y => le x y = true)) : stableSort le l = l := by
  induction l with
  | nil => rfl
  | cons a l ih =>
    rw [List.pairwise_cons] at h
    rw [stableSort, ih h.2]
    cases l with
    | nil => rfl
    | cons b l => rw [insertSorted, if_pos (h.1 b (by simp))]

theorem mem {l : List α} {a : α} : a ∈ stableSort le l ↔ a ∈ l := (perm l).mem_iff

theorem length (l : List α) : (stableSort le l).length = l.length := (perm l).length_eq

theorem insertSorted_sublist (a : α) (l : List α) : l.Sublist (insertSorted le a l) := by
  induction l with
  | nil => simp
  | cons b l ih =>
    rw [insertSorted]
    split
    · exact List.sublist_cons_self _ _
    · exact ih.cons_cons b

theorem insertSorted_pair {a b : α} {l : List α} (hb : b ∈ l) (hab : le a b = true)
    (hs : l.Pairwise (fun x y => le x y = true)) : [a, b].Sublist (insertSorted le a l) := by
  induction l with
  | nil => simp at hb
  | cons c l ih =>
    rw [List.pairwise_cons] at hs
    rw [insertSorted]
    split
    · rcases List.mem_cons.1 hb with rfl | hb
      · exact ((List.nil_sublist _).cons_cons _).cons_cons _
      · exact ((List.singleton_sublist.2 hb).cons c).cons_cons _
    · rename_i hac
      rcases List.mem_cons.1 hb with rfl | hb
      · exact absurd hab hac
      · exact (ih hb hs.2).cons c

/-- Stability: elements that are in order in the input stay in their relative order. -/
theorem stable (trans : ∀ a b c, le a b = true → le b c = true → le a c = true)
    (total : ∀ a b, (le a b || le b a) = true) {l : List α} {a b : α}
    (h : [a, b].Sublist l) (hab : le a b = true) : [a, b].Sublist (stableSort le l) := by
  induction l with
  | nil => simp at h
  | cons c l ih =>
    rw [stableSort]
    rcases List.sublist_cons_iff.1 h with h | ⟨r, hr, h⟩
    · exact (ih h).trans (insertSorted_sublist c _)
    · injection hr with h1 h2
      subst h1; subst h2
      exact insertSorted_pair (mem.2 (List.singleton_sublist.1 h)) hab (pairwise trans total l)

end StableSort
end Disco
