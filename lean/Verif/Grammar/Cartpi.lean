import Mathlib.Data.List.Nodup
import Mathlib.Data.List.Forall2
/-!
# C33: `cartpi` (grammar.py:1048-1057)
-/
namespace Disco.Cartpi

variable {A : Type}

/-- `cartpi(seq)` (grammar.py:1048-1057), on finite sequences; the recursion on `seq[:-1]` is written on the reversed list. -/
def cartpiRev : List (List A) → List (List A)
  | [] => [[]]
  | last :: front => (cartpiRev front).flatMap (fun b => last.map (fun a => b ++ [a]))

/-- `list(cartpi(seq))`. -/
def cartpi (seq : List (List A)) : List (List A) := cartpiRev seq.reverse

/-! ### Specification -/

/-- `tup` picks one element of each component. -/
def Spec.Choice (seq : List (List A)) (tup : List A) : Prop := List.Forall₂ (fun xs a => a ∈ xs) seq tup

/-- The number of choices. -/
def Spec.number (seq : List (List A)) : Nat := (seq.map List.length).foldr (· * ·) 1

theorem cartpi_nil : cartpi ([] : List (List A)) = [[]] := rfl

theorem cartpi_concat (front : List (List A)) (last : List A) :
    cartpi (front ++ [last]) = (cartpi front).flatMap (fun b => last.map (fun a => b ++ [a])) := by
  simp [cartpi, cartpiRev]

theorem cartpi_cons (first : List A) (rest : List (List A)) :
    cartpi (first :: rest) = first.flatMap (fun a => (cartpi rest).map (a :: ·)) := by
  have key : ∀ (rev : List (List A)), cartpiRev (rev ++ [first]) = first.flatMap (fun a => (cartpiRev rev).map (a :: ·)) := by
    intro rev
    induction rev with
    | nil =>
      simp only [List.nil_append, cartpiRev, List.flatMap_cons, List.flatMap_nil, List.append_nil, List.map_cons, List.map_nil]
      induction first with
      | nil => rfl
      | cons x xs ih => simpa using ih
    | cons last rev ih =>
      rw [List.cons_append, cartpiRev, ih, cartpiRev, List.flatMap_assoc]
      congr 1; funext a
      rw [List.flatMap_map, List.map_flatMap]
      congr 1; funext b
      simp
  rw [cartpi, List.reverse_cons, key]; rfl

/-- **C33.** `cartpi` yields a tuple iff it is a choice of one element per component. -/
theorem C33_mem (seq : List (List A)) (tup : List A) : tup ∈ cartpi seq ↔ Spec.Choice seq tup := by
  induction seq generalizing tup with
  | nil => simp [cartpi_nil, Spec.Choice]
  | cons xs seq ih =>
    rw [cartpi_cons]
    simp only [List.mem_flatMap, List.mem_map, ih, Spec.Choice]
    constructor
    · rintro ⟨a, ha, t, ht, rfl⟩
      exact .cons ha ht
    · intro h
      cases h with
      | cons ha ht => exact ⟨_, ha, _, ht, rfl⟩

/-- **C33.** There are as many tuples as there are choices. -/
theorem C33_number (seq : List (List A)) : (cartpi seq).length = Spec.number seq := by
  induction seq with
  | nil => rfl
  | cons xs seq ih =>
    rw [cartpi_cons, List.length_flatMap]
    simp only [List.length_map, ih]
    show _ = xs.length * Spec.number seq
    induction xs with
    | nil => simp
    | cons x xs ih2 => rw [List.map_cons, List.sum_cons, ih2, List.length_cons, Nat.succ_mul, Nat.add_comm]

/-- **C33.** Each choice is yielded exactly once when the components have no duplicates. -/
theorem C33_once (seq : List (List A)) (h : ∀ xs ∈ seq, xs.Nodup) : (cartpi seq).Nodup := by
  induction seq with
  | nil => simp [cartpi_nil]
  | cons xs seq ih =>
    rw [cartpi_cons, List.nodup_flatMap]
    refine ⟨fun a _ => (ih (fun ys hy => h ys (by simp [hy]))).map (fun _ _ e => (List.cons.inj e).2), ?_⟩
    refine (h xs (by simp)).imp ?_
    intro a b hab t ht ht'
    obtain ⟨u, _, rfl⟩ := List.mem_map.1 ht
    obtain ⟨v, _, hv⟩ := List.mem_map.1 ht'
    exact hab (List.cons.inj hv).1.symm

/-- **C33.** The last component varies fastest: for increasing components the tuples are in lexicographic order. -/
theorem C33_order (lt : A → A → Prop) (seq : List (List A)) (h : ∀ xs ∈ seq, xs.Pairwise lt) :
    (cartpi seq).Pairwise (List.Lex lt) := by
  induction seq with
  | nil => simp [cartpi_nil]
  | cons xs seq ih =>
    rw [cartpi_cons, List.pairwise_flatMap]
    refine ⟨fun a _ => ?_, ?_⟩
    · rw [List.pairwise_map]
      exact (ih (fun ys hy => h ys (by simp [hy]))).imp (fun h => .cons h)
    · refine (h xs (by simp)).imp ?_
      intro a b hab t ht u hu
      obtain ⟨t', _, rfl⟩ := List.mem_map.1 ht
      obtain ⟨u', _, rfl⟩ := List.mem_map.1 hu
      exact .rel hab

/-- **C33.** The order of the tuples depends only on the positions of the elements: renaming elements renames the tuples. -/
theorem C33_natural {B : Type} (f : A → B) (seq : List (List A)) :
    cartpi (seq.map (List.map f)) = (cartpi seq).map (List.map f) := by
  induction seq with
  | nil => rfl
  | cons xs seq ih =>
    rw [List.map_cons, cartpi_cons, cartpi_cons, ih, List.flatMap_map, List.map_flatMap]
    congr 1; funext a
    simp

example : cartpi [[1, 2], [3], [4, 5]] = [[1, 3, 4], [1, 3, 5], [2, 3, 4], [2, 3, 5]] := by decide +kernel

end Disco.Cartpi
