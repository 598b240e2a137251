import Mathlib.Data.List.Dedup
/-!
# C16: `util.OrderedSet` (util.py:150-194)

The operators that `OrderedSet` does not define are inherited from `collections.abc.Set` (`Lib/_collections_abc.py`), whose mixin methods are
modelled here too.
-/
namespace Disco.OrderedSet

variable {A : Type} [DecidableEq A]

/-- The attributes: `seq` and `theset = frozenset(seq)` (util.py:155-161); the set is represented by the list it was made from. -/
structure OSet (A : Type) where
  seq : List A

/-- `OrderedSet(iterable)` (util.py:155-161), also `_from_iterable`. -/
def mk (xs : List A) : OSet A := ⟨xs⟩

/-- `value in s` (util.py:166-167). -/
def contains (s : OSet A) (x : A) : Bool := s.seq.contains x
/-- `len(s)` (util.py:169-170): the size of the frozenset. -/
def len (s : OSet A) : Nat := s.seq.dedup.length
/-- `list(s)` (util.py:172-173). -/
def iter (s : OSet A) : List A := s.seq
/-- `s[n]` for non-negative `n` (util.py:175-176); `none`: IndexError. -/
def getitem (s : OSet A) (n : Nat) : Option A := s.seq[n]?
/-- `list(reversed(s))` (util.py:178-179). -/
def reversed (s : OSet A) : List A := s.seq.reverse
/-- `s == other` (util.py:186-188): comparison of frozensets. -/
def eq (s t : OSet A) : Bool := s.seq.all t.seq.contains && t.seq.all s.seq.contains
/-- `s & other` (util.py:190-194). -/
def and (s t : OSet A) : OSet A := mk ((iter s).filter (contains t))
/-- `Set.__or__`: all of both. -/
def or (s t : OSet A) : OSet A := mk (iter s ++ iter t)
/-- `Set.__sub__`. -/
def sub (s t : OSet A) : OSet A := mk ((iter s).filter (fun x => !contains t x))
/-- `Set.__xor__`: `(self - other) | (other - self)`. -/
def xor (s t : OSet A) : OSet A := or (sub s t) (sub t s)
/-- `Set.isdisjoint`: `for value in other: if value in self: return False`. -/
def isdisjoint (s t : OSet A) : Bool := (iter t).all (fun x => !contains s x)
/-- `Set.__le__`: compare the lengths, then test all elements. -/
def le (s t : OSet A) : Bool := if len s > len t then false else (iter s).all (contains t)
/-- `Set.__lt__`. -/
def lt (s t : OSet A) : Bool := decide (len s < len t) && le s t

/-! ### Specification -/

/-- The mathematical set that is represented: the elements of the iteration. -/
def Spec.Elems (s : OSet A) (x : A) : Prop := x ∈ iter s

/-- Iteration yields each element once. -/
def Spec.NoDup (s : OSet A) : Prop := (iter s).Nodup

theorem contains_iff (s : OSet A) (x : A) : contains s x = true ↔ Spec.Elems s x := by
  simp [contains, Spec.Elems, iter]

/-- **C16.** Membership, equality, inclusion, disjointness and the operators agree with mathematical sets, for all ordered sets
(whatever the iterables they were made from). -/
theorem C16_set_semantics (s t : OSet A) :
    (∀ x, contains s x = true ↔ Spec.Elems s x) ∧
    (∀ x, Spec.Elems (and s t) x ↔ Spec.Elems s x ∧ Spec.Elems t x) ∧
    (∀ x, Spec.Elems (or s t) x ↔ Spec.Elems s x ∨ Spec.Elems t x) ∧
    (∀ x, Spec.Elems (sub s t) x ↔ Spec.Elems s x ∧ ¬ Spec.Elems t x) ∧
    (∀ x, Spec.Elems (xor s t) x ↔ ¬ (Spec.Elems s x ↔ Spec.Elems t x)) ∧
    (eq s t = true ↔ ∀ x, Spec.Elems s x ↔ Spec.Elems t x) ∧
    (isdisjoint s t = true ↔ ¬ ∃ x, Spec.Elems s x ∧ Spec.Elems t x) ∧
    (le s t = true ↔ ∀ x, Spec.Elems s x → Spec.Elems t x) ∧
    (lt s t = true ↔ (∀ x, Spec.Elems s x → Spec.Elems t x) ∧ ∃ x, Spec.Elems t x ∧ ¬ Spec.Elems s x) := by
  have hle : ∀ s t : OSet A, le s t = true ↔ ∀ x, Spec.Elems s x → Spec.Elems t x := by
    intro s t
    have : (∀ x, Spec.Elems s x → Spec.Elems t x) → len s ≤ len t := by
      intro h
      refine (List.nodup_dedup _).length_le_of_subset ?_
      intro x hx
      rw [List.mem_dedup] at hx ⊢
      exact h x hx
    unfold le
    split
    · constructor
      · simp
      · intro h; have := this h; omega
    · simp only [List.all_eq_true, contains_iff]
      exact Iff.rfl
  refine ⟨contains_iff s, ?_, ?_, ?_, ?_, ?_, ?_, hle s t, ?_⟩
  · intro x; simp [Spec.Elems, and, iter, mk, contains]
  · intro x; simp [Spec.Elems, or, iter, mk]
  · intro x; simp [Spec.Elems, sub, iter, mk, contains]
  · intro x
    simp only [Spec.Elems, xor, or, sub, iter, mk, contains, List.mem_append, List.mem_filter]
    simp
    tauto
  · simp only [eq, Bool.and_eq_true, List.all_eq_true, List.contains_iff_mem, Spec.Elems, iter]
    exact ⟨fun h x => ⟨h.1 x, h.2 x⟩, fun h => ⟨fun x => (h x).1, fun x => (h x).2⟩⟩
  · simp only [isdisjoint, List.all_eq_true, Bool.not_eq_true', Spec.Elems, iter, contains]
    simp
    exact ⟨fun h x h1 h2 => h x h2 h1, fun h x h1 h2 => h x h2 h1⟩
  · have key : (∀ x, Spec.Elems s x → Spec.Elems t x) →
        (len s < len t ↔ ∃ x, Spec.Elems t x ∧ ¬ Spec.Elems s x) := by
      intro h
      constructor
      · intro hlt
        by_contra hn
        have : ∀ x, Spec.Elems t x → Spec.Elems s x := fun x hx => by
          by_contra hs; exact hn ⟨x, hx, hs⟩
        have : len t ≤ len s := by
          refine (List.nodup_dedup _).length_le_of_subset ?_
          intro x hx
          rw [List.mem_dedup] at hx ⊢
          exact this x hx
        omega
      · rintro ⟨x, hx, hs⟩
        have hx' : x ∈ t.seq.dedup := by rw [List.mem_dedup]; exact hx
        have h1 : (x :: s.seq.dedup).Nodup := by
          rw [List.nodup_cons]; exact ⟨by rw [List.mem_dedup]; exact hs, List.nodup_dedup _⟩
        have h2 := h1.length_le_of_subset (l₂ := t.seq.dedup) (by
          intro y hy
          rcases List.mem_cons.1 hy with rfl | hy
          · exact hx'
          · rw [List.mem_dedup] at hy ⊢; exact h y hy)
        simp only [List.length_cons] at h2
        unfold len
        omega
    simp only [lt, Bool.and_eq_true, decide_eq_true_eq, hle]
    constructor
    · rintro ⟨h1, h2⟩; exact ⟨h2, (key h2).1 h1⟩
    · rintro ⟨h1, h2⟩; exact ⟨(key h1).2 h2, h1⟩

/-- **C16.** When the arguments were made from iterables without duplicates (and do not overlap for `|`), results have no duplicates,
keep the order of the left operand, then that of the right one, and `len` is the number of items of the iteration, which are the items at the
indices below `len`. -/
theorem C16_order_partial (s t : OSet A) (hs : Spec.NoDup s) (ht : Spec.NoDup t) :
    len s = (iter s).length ∧ (∀ n x, getitem s n = some x → n < len s) ∧
    (iter (and s t)).Sublist (iter s) ∧ Spec.NoDup (and s t) ∧
    (iter (sub s t)).Sublist (iter s) ∧ Spec.NoDup (sub s t) ∧
    Spec.NoDup (xor s t) ∧
    ((¬ ∃ x, Spec.Elems s x ∧ Spec.Elems t x) → Spec.NoDup (or s t) ∧ iter (or s t) = iter s ++ iter t) := by
  have hlen : len s = (iter s).length := by
    have : s.seq.dedup = s.seq := List.dedup_eq_self.2 hs
    rw [len, this]; rfl
  refine ⟨hlen, ?_, List.filter_sublist, hs.filter _, List.filter_sublist, hs.filter _, ?_, ?_⟩
  · intro n x h
    rw [hlen]
    exact (List.getElem?_eq_some_iff.1 h).1
  · refine List.Nodup.append (hs.filter _) (ht.filter _) ?_
    intro x hx hy
    have h1 := (List.mem_filter.1 hx).1
    have h2 := (List.mem_filter.1 hy).2
    rw [(contains_iff s x).2 h1] at h2
    simp at h2
  · intro h
    refine ⟨List.Nodup.append hs ht ?_, rfl⟩
    intro x hx hy
    exact h ⟨x, hx, hy⟩

/-- **C16 (disagreement).** Duplicates are not removed: the union of two overlapping sets, and a set made from an iterable with
duplicates, iterate over an element twice, and `len` differs from the number of items. -/
theorem C16_duplicates :
    iter (or (mk [1, 2]) (mk [2, 3])) = [1, 2, 2, 3] ∧ len (or (mk [1, 2]) (mk [2, 3])) = 3 ∧
    iter (mk [1, 1]) = [1, 1] ∧ len (mk [1, 1]) = 1 := by decide +kernel

example : Spec.NoDup (mk [3, 1, 2]) ∧ Spec.NoDup (mk [1, 5]) ∧ iter (xor (mk [3, 1, 2]) (mk [1, 5])) = [3, 2, 5] := by
  unfold Spec.NoDup
  decide +kernel

end Disco.OrderedSet
