/-!
# Model of CPython's `heapq` (pure Python reference implementation, Lib/heapq.py)

`heapq` is not part of the repository, but `util.PyAgenda` (util.py:216-344) and `util.merge`
(util.py:347-396) call it on entries whose order may change while they are in the heap, so its contract
cannot simply be assumed: the algorithms are modelled, parameterised by the comparison `lt`
(`Entry.__lt__`) in force at the time of the call.

Simplification: the "hole" technique of `_siftdown`/`_siftup` (moving elements and storing `newitem`
at the end) is written as a sequence of swaps, which leaves the same list.
-/
namespace Disco.Heap

variable {E : Type}

/-- Exchange positions `i` and `j`. -/
def swap (h : List E) (i j : Nat) : List E :=
  match h[i]?, h[j]? with
  | some a, some b => (h.set i b).set j a
  | _, _ => h

/-- `newitem < parent` for the items at positions `i`, `j`. -/
def ltAt (lt : E → E → Bool) (h : List E) (i j : Nat) : Bool :=
  match h[i]?, h[j]? with
  | some a, some b => lt a b
  | _, _ => false

/-- `_siftdown(heap, startpos, pos)` (heapq.py). -/
def siftdown (lt : E → E → Bool) (h : List E) (start pos : Nat) : List E :=
  if _h : pos > start then
    let parent := (pos - 1) / 2
    if ltAt lt h pos parent then siftdown lt (swap h pos parent) start parent else h
  else h
termination_by pos
decreasing_by omega

/-- The first loop of `_siftup`: move the smaller child up until hitting a leaf; returns the heap and the final
position. -/
def sinkLoop (lt : E → E → Bool) (h : List E) (pos : Nat) (n : Nat) : List E × Nat :=
  if _h : 2 * pos + 1 < n then
    let child := if 2 * pos + 2 < n ∧ ltAt lt h (2 * pos + 1) (2 * pos + 2) = false
      then 2 * pos + 2 else 2 * pos + 1
    sinkLoop lt (swap h pos child) child n
  else (h, pos)
termination_by n - pos
decreasing_by
  have hx : 2 * pos + 1 < n := by assumption
  have : ∀ P : Prop, ∀ _ : Decidable P, n - (if P then 2 * pos + 2 else 2 * pos + 1) < n - pos := by
    intro P _
    split <;> omega
  exact this _ _

/-- `_siftup(heap, pos)` (heapq.py). -/
def siftup (lt : E → E → Bool) (h : List E) (pos : Nat) : List E :=
  let r := sinkLoop lt h pos h.length
  siftdown lt r.1 pos r.2

/-- `heappush(heap, item)`. -/
def heappush (lt : E → E → Bool) (h : List E) (x : E) : List E :=
  siftdown lt (h ++ [x]) 0 h.length

/-- `heappop(heap)`: `none` is the IndexError for an empty heap. -/
def heappop (lt : E → E → Bool) (h : List E) : Option (E × List E) :=
  match h.getLast? with
  | none => none
  | some last =>
    match h.dropLast with
    | [] => some (last, [])
    | top :: rest => some (top, siftup lt (last :: rest) 0)

/-- `heapreplace(heap, item)`: the returned item is dropped here. -/
def heapreplace (lt : E → E → Bool) (h : List E) (x : E) : List E := siftup lt (h.set 0 x) 0

/-- `for i in reversed(range(k)): _siftup(x, i)`. -/
def heapifyLoop (lt : E → E → Bool) : Nat → List E → List E
  | 0, h => h
  | k + 1, h => heapifyLoop lt k (siftup lt h k)

/-- `heapify(x)`. -/
def heapify (lt : E → E → Bool) (h : List E) : List E := heapifyLoop lt (h.length / 2) h

/-! ## Correctness for a comparison that may be finer than the order of interest -/

/-- `lt` is compatible with the transitive relation `le`: it never contradicts it. -/
structure Compat (lt : E → E → Bool) (le : E → E → Prop) : Prop where
  trans : ∀ {a b c}, le a b → le b c → le a c
  of_lt : ∀ {a b}, lt a b = true → le a b
  of_not_lt : ∀ {a b}, lt a b = false → le b a

theorem Compat.refl {lt : E → E → Bool} {le : E → E → Prop} (c : Compat lt le) (a : E) : le a a := by
  cases h : lt a a
  · exact c.of_not_lt h
  · exact c.of_lt h

/-- Items at positions `i`, `j` are in order. -/
def LeAt (le : E → E → Prop) (h : List E) (i j : Nat) : Prop :=
  ∀ a b, h[i]? = some a → h[j]? = some b → le a b

/-- Heap order from position `s` on. -/
def HeapFrom (le : E → E → Prop) (s : Nat) (h : List E) : Prop :=
  ∀ c, 0 < c → s ≤ (c - 1) / 2 → LeAt le h ((c - 1) / 2) c

/-- The whole list is a heap. -/
abbrev IsHeap (le : E → E → Prop) (h : List E) : Prop := HeapFrom le 0 h

theorem swap_length (h : List E) (i j : Nat) : (swap h i j).length = h.length := by
  unfold swap; split <;> simp

theorem getElem?_swap (h : List E) (i j k : Nat) (hi : i < h.length) (hj : j < h.length) :
    (swap h i j)[k]? = if k = j then h[i]? else if k = i then h[j]? else h[k]? := by
  unfold swap
  rw [List.getElem?_eq_getElem hi, List.getElem?_eq_getElem hj]
  simp only
  by_cases hkj : k = j
  · subst hkj; simp [hj]
  · by_cases hki : k = i
    · subst hki; simp [hkj, hi, Ne.symm hkj]
    · simp [hkj, hki, Ne.symm hkj, Ne.symm hki]

theorem swap_perm (h : List E) (i j : Nat) : (swap h i j).Perm h := by
  unfold swap
  split
  · rename_i a b ha hb
    obtain ⟨hi, rfl⟩ := List.getElem?_eq_some_iff.1 ha
    obtain ⟨hj, rfl⟩ := List.getElem?_eq_some_iff.1 hb
    exact List.set_set_perm hi hj
  · exact List.Perm.refl _

theorem siftdown_perm (lt : E → E → Bool) (h : List E) (s pos : Nat) : (siftdown lt h s pos).Perm h := by
  induction pos using Nat.strongRecOn generalizing h with
  | ind pos ih =>
    rw [siftdown]
    split
    · simp only
      split
      · exact (ih _ (by omega) _).trans (swap_perm _ _ _)
      · exact List.Perm.refl _
    · exact List.Perm.refl _

theorem sinkLoop_perm (lt : E → E → Bool) (n : Nat) (k : Nat) : ∀ (pos : Nat) (h : List E), n - pos ≤ k →
    (sinkLoop lt h pos n).1.Perm h := by
  induction k with
  | zero =>
    intro pos h hk
    rw [sinkLoop, dif_neg (by omega)]
  | succ k ih =>
    intro pos h hk
    rw [sinkLoop]
    split
    · rename_i h1
      simp only
      refine (ih _ _ ?_).trans (swap_perm _ _ _)
      split <;> omega
    · exact List.Perm.refl _

theorem siftup_perm (lt : E → E → Bool) (h : List E) (pos : Nat) : (siftup lt h pos).Perm h :=
  (siftdown_perm _ _ _ _).trans (sinkLoop_perm _ _ _ _ _ (Nat.le_refl _))

/-- `d` is `s` or below it in the heap. -/
inductive Desc (s : Nat) : Nat → Prop
  | refl : Desc s s
  | left {p} : Desc s p → Desc s (2 * p + 1)
  | right {p} : Desc s p → Desc s (2 * p + 2)

theorem Desc.le {s p : Nat} (h : Desc s p) : s ≤ p := by
  induction h <;> omega

theorem Desc.parent {s p : Nat} (h : Desc s p) (hp : s < p) : Desc s ((p - 1) / 2) := by
  cases h with
  | refl => omega
  | @left q h => rwa [show (2 * q + 1 - 1) / 2 = q by omega]
  | @right q h => rwa [show (2 * q + 2 - 1) / 2 = q by omega]

theorem Desc.zero (p : Nat) : Desc 0 p := by
  induction p using Nat.strongRecOn with
  | ind p ih =>
    by_cases h : p = 0
    · subst h; exact .refl
    · rcases Nat.mod_two_eq_zero_or_one p with h2 | h2
      · have := Desc.right (ih ((p - 2) / 2) (by omega))
        rwa [show 2 * ((p - 2) / 2) + 2 = p by omega] at this
      · have := Desc.left (ih ((p - 1) / 2) (by omega))
        rwa [show 2 * ((p - 1) / 2) + 1 = p by omega] at this

section
variable {lt : E → E → Bool} {le : E → E → Prop} (C : Compat lt le)
include C

theorem siftdown_heap (s : Nat) : ∀ (pos : Nat) (h : List E), pos < h.length → Desc s pos →
    (∀ c, 0 < c → s ≤ (c - 1) / 2 → c ≠ pos → LeAt le h ((c - 1) / 2) c) →
    (s < pos → ∀ c, 0 < c → (c - 1) / 2 = pos → LeAt le h ((pos - 1) / 2) c) →
    HeapFrom le s (siftdown lt h s pos) := by
  intro pos
  induction pos using Nat.strongRecOn with
  | ind pos ih =>
    intro h hlen hd h1 h2
    rw [siftdown]
    split
    · rename_i hgt
      have hps : s ≤ (pos - 1) / 2 := (hd.parent hgt).le
      have hplen : (pos - 1) / 2 < h.length := by omega
      simp only
      split
      · rename_i hlt
        have hpp : ∀ c, 0 < c → (c - 1) / 2 = pos → c ≠ (pos - 1) / 2 := by intros; omega
        have hle : ∀ a b, h[pos]? = some a → h[(pos - 1) / 2]? = some b → le a b := by
          intro a b ha hb
          simp only [ltAt, ha, hb] at hlt
          exact C.of_lt hlt
        apply ih ((pos - 1) / 2) (by omega) _ (by rw [swap_length]; exact hplen) (hd.parent hgt)
        · intro c hc0 hcs hcne a b ha hb
          rw [getElem?_swap _ _ _ _ hlen hplen] at ha hb
          rw [if_neg hcne] at hb
          by_cases hc : c = pos
          · subst hc
            rw [if_pos rfl] at ha
            rw [if_pos rfl] at hb
            exact hle a b ha hb
          · rw [if_neg hc] at hb
            by_cases hcp : (c - 1) / 2 = (pos - 1) / 2
            · rw [if_pos hcp] at ha
              -- sibling of pos
              have hpe := List.getElem?_eq_getElem hplen
              have := h1 c hc0 hcs hc _ _ (by rw [hcp]; exact hpe) hb
              exact C.trans (hle _ _ ha hpe) this
            · rw [if_neg hcp] at ha
              by_cases hcp2 : (c - 1) / 2 = pos
              · rw [if_pos hcp2] at ha
                exact h2 hgt c hc0 hcp2 _ _ ha hb
              · rw [if_neg hcp2] at ha
                exact h1 c hc0 hcs hc _ _ ha hb
        · intro hgt2 c hc0 hcp a b ha hb
          rw [getElem?_swap _ _ _ _ hlen hplen] at ha hb
          rw [if_neg (by omega), if_neg (by omega)] at ha
          have hpe := List.getElem?_eq_getElem hplen
          have hup : s ≤ ((pos - 1) / 2 - 1) / 2 := ((hd.parent hgt).parent hgt2).le
          have e1 := h1 ((pos - 1) / 2) (by omega) hup (by omega) _ _ ha hpe
          rw [if_neg (by omega)] at hb
          by_cases hc : c = pos
          · rw [if_pos hc] at hb
            rw [hpe] at hb
            injection hb with hb
            subst hb
            exact e1
          · rw [if_neg hc] at hb
            exact C.trans e1 (h1 c hc0 (by omega) hc _ _ (by rw [hcp]; exact hpe) hb)
      · rename_i hnlt
        intro c hc0 hcs
        by_cases hc : c = pos
        · subst hc
          intro a b ha hb
          simp only [ltAt, ha, hb, Bool.not_eq_true] at hnlt
          exact C.of_not_lt hnlt
        · exact h1 c hc0 hcs hc
    · rename_i hgt
      intro c hc0 hcs
      apply h1 c hc0 hcs
      intro hc
      have := hd.le
      omega

theorem sinkLoop_spec (s n : Nat) (k : Nat) : ∀ (pos : Nat) (h : List E), n - pos ≤ k → h.length = n →
    pos < n → Desc s pos →
    (∀ c, 0 < c → s ≤ (c - 1) / 2 → c ≠ pos → (c - 1) / 2 ≠ pos → LeAt le h ((c - 1) / 2) c) →
    (s < pos → ∀ c, 0 < c → (c - 1) / 2 = pos → LeAt le h ((pos - 1) / 2) c) →
    (sinkLoop lt h pos n).2 < n ∧ (sinkLoop lt h pos n).1.length = n ∧ Desc s (sinkLoop lt h pos n).2 ∧
    n ≤ 2 * (sinkLoop lt h pos n).2 + 1 ∧
    ∀ c, 0 < c → s ≤ (c - 1) / 2 → c ≠ (sinkLoop lt h pos n).2 →
      LeAt le (sinkLoop lt h pos n).1 ((c - 1) / 2) c := by
  induction k with
  | zero =>
    intro pos h hk _ hlt
    omega
  | succ k ih =>
    intro pos h hk hlen hlt hd h1 h2
    rw [sinkLoop]
    by_cases hc1 : 2 * pos + 1 < n
    · rw [dif_pos hc1]
      simp only
      generalize hch : (if 2 * pos + 2 < n ∧ ltAt lt h (2 * pos + 1) (2 * pos + 2) = false
        then 2 * pos + 2 else 2 * pos + 1) = child
      have hcp : (child - 1) / 2 = pos ∧ child < n ∧ pos < child ∧ Desc s child ∧
          ∀ c, 0 < c → (c - 1) / 2 = pos → LeAt le h child c := by
        split at hch
        · rename_i hh
          subst hch
          refine ⟨by omega, by omega, by omega, .right hd, fun c h0 hc => ?_⟩
          have : c = 2 * pos + 1 ∨ c = 2 * pos + 2 := by omega
          rcases this with rfl | rfl
          · intro a b ha hb
            have := hh.2
            simp only [ltAt, ha, hb] at this
            exact C.of_not_lt this
          · intro a b ha hb
            rw [ha] at hb; injection hb with hb; subst hb
            exact C.refl _
        · rename_i hh
          subst hch
          refine ⟨by omega, by omega, by omega, .left hd, fun c h0 hc => ?_⟩
          have : c = 2 * pos + 1 ∨ c = 2 * pos + 2 := by omega
          rcases this with rfl | rfl
          · intro a b ha hb
            rw [ha] at hb; injection hb with hb; subst hb
            exact C.refl _
          · intro a b ha hb
            have hl : 2 * pos + 2 < n := by
              have := (List.getElem?_eq_some_iff.1 hb).1; omega
            cases hlt' : ltAt lt h (2 * pos + 1) (2 * pos + 2) with
            | false => exact absurd ⟨hl, hlt'⟩ hh
            | true =>
              simp only [ltAt, ha, hb] at hlt'
              exact C.of_lt hlt'
      obtain ⟨hcpar, hcn, hpc, hdc, hmin⟩ := hcp
      have hpl : pos < h.length := by omega
      have hcl : child < h.length := by omega
      apply ih child (swap h pos child) (by omega) (by rw [swap_length]; exact hlen) hcn hdc
      · intro c hc0 hcs hcne hcp a b ha hb
        rw [getElem?_swap _ _ _ _ hpl hcl] at ha hb
        rw [if_neg hcne] at hb
        rw [if_neg hcp] at ha
        by_cases hc : c = pos
        · subst hc
          rw [if_pos rfl] at hb
          rw [if_neg (by omega)] at ha
          have hsc : s < c := by have := hd.le; omega
          exact h2 hsc child (by omega) hcpar _ _ ha hb
        · rw [if_neg hc] at hb
          by_cases hcp2 : (c - 1) / 2 = pos
          · rw [if_pos hcp2] at ha
            exact hmin c hc0 hcp2 _ _ ha hb
          · rw [if_neg hcp2] at ha
            exact h1 c hc0 hcs hc hcp2 _ _ ha hb
      · intro _ c hc0 hcp a b ha hb
        rw [getElem?_swap _ _ _ _ hpl hcl] at ha hb
        rw [hcpar, if_neg (by omega), if_pos rfl] at ha
        rw [if_neg (by omega), if_neg (by omega)] at hb
        have := hd.le
        exact h1 c hc0 (by omega) (by omega) (by omega) _ _ (by rw [hcp]; exact ha) hb
    · rw [dif_neg hc1]
      refine ⟨hlt, hlen, hd, by omega, fun c hc0 hcs hcne => ?_⟩
      by_cases hcp : (c - 1) / 2 = pos
      · intro a b _ hb
        have hl : c < h.length := (List.getElem?_eq_some_iff.1 hb).1
        omega
      · exact h1 c hc0 hcs hcne hcp

theorem siftup_heap (h : List E) (s : Nat) (hs : s < h.length)
    (hh : ∀ c, 0 < c → s < (c - 1) / 2 → LeAt le h ((c - 1) / 2) c) :
    HeapFrom le s (siftup lt h s) := by
  obtain ⟨g1, g2, g3, g4, g5⟩ := sinkLoop_spec C s h.length h.length s h (by omega) rfl hs .refl
    (fun c hc0 hcs _ hcp => hh c hc0 (by omega)) (fun h => absurd h (Nat.lt_irrefl _))
  unfold siftup
  apply siftdown_heap C s _ _ (by omega) g3 g5
  intro _ c hc0 hcp a b _ hb
  have := (List.getElem?_eq_some_iff.1 hb).1
  omega

theorem heappush_spec (h : List E) (x : E) (hh : IsHeap le h) :
    IsHeap le (heappush lt h x) ∧ (heappush lt h x).Perm (x :: h) := by
  refine ⟨?_, (siftdown_perm _ _ _ _).trans (by simp)⟩
  apply siftdown_heap C 0 _ _ (by simp) (Desc.zero _)
  · intro c hc0 hcs hcne a b ha hb
    have hl := (List.getElem?_eq_some_iff.1 hb).1
    have hcl : c < h.length := by simp at hl; omega
    rw [List.getElem?_append_left hcl] at hb
    rw [List.getElem?_append_left (by omega)] at ha
    exact hh c hc0 (by omega) a b ha hb
  · intro _ c hc0 hcp a b _ hb
    have hl := (List.getElem?_eq_some_iff.1 hb).1
    simp at hl
    omega

theorem heap_root_min (h : List E) (hh : IsHeap le h) (top : E) (ht : h[0]? = some top) :
    ∀ x ∈ h, le top x := by
  have key : ∀ (c : Nat) x, h[c]? = some x → le top x := by
    intro c
    induction c using Nat.strongRecOn with
    | ind c ih =>
      intro x hx
      by_cases h0 : c = 0
      · subst h0; rw [ht] at hx; injection hx with hx; subst hx; exact C.refl _
      · have hl := (List.getElem?_eq_some_iff.1 hx).1
        have hp := List.getElem?_eq_getElem (l := h) (i := (c - 1) / 2) (by omega)
        exact C.trans (ih _ (by omega) _ hp) (hh c (by omega) (by omega) _ _ hp hx)
  intro x hx
  obtain ⟨i, hi⟩ := List.getElem?_of_mem hx
  exact key i x hi

theorem heappop_spec (h : List E) (hh : IsHeap le h) :
    match heappop lt h with
    | none => h = []
    | some (top, rest) => h.Perm (top :: rest) ∧ IsHeap le rest ∧ ∀ x ∈ h, le top x := by
  unfold heappop
  cases hlast : h.getLast? with
  | none => simpa using hlast
  | some last =>
    have hdl : h = h.dropLast ++ [last] := by
      have hne : h ≠ [] := by rintro rfl; simp at hlast
      have := List.dropLast_concat_getLast hne
      rw [List.getLast?_eq_some_getLast hne] at hlast
      injection hlast with hlast
      rw [hlast] at this; exact this.symm
    cases hd : h.dropLast with
    | nil =>
      simp only
      rw [hd] at hdl
      refine ⟨by rw [hdl]; exact List.Perm.refl _, ?_, ?_⟩
      · intro c _ _ a b ha _; simp at ha
      · intro x hx; rw [hdl] at hx; simp at hx; subst hx; exact C.refl _
    | cons top rest =>
      simp only
      rw [hd] at hdl
      refine ⟨?_, ?_, ?_⟩
      · rw [hdl]
        refine (List.Perm.cons top ?_)
        exact (List.perm_append_comm.trans (siftup_perm lt (last :: rest) 0).symm)
      · apply siftup_heap C _ 0 (by simp)
        intro c hc0 hcs a b ha hb
        have hl := (List.getElem?_eq_some_iff.1 hb).1
        apply hh c hc0 (by omega)
        · rw [hdl]
          cases hp : (c - 1) / 2 with
          | zero => omega
          | succ p =>
            rw [hp] at ha
            simp at ha hl ⊢
            rw [List.getElem?_append_left (by omega)]
            exact ha
        · rw [hdl]
          cases c with
          | zero => omega
          | succ c =>
            simp at hb hl ⊢
            rw [List.getElem?_append_left (by omega)]
            exact hb
      · exact heap_root_min C h hh top (by rw [hdl]; rfl)

theorem heapreplace_spec (top : E) (h : List E) (x : E) (hh : IsHeap le (top :: h)) :
    IsHeap le (heapreplace lt (top :: h) x) ∧ (heapreplace lt (top :: h) x).Perm (x :: h) := by
  refine ⟨?_, siftup_perm _ _ _⟩
  apply siftup_heap C _ 0 (by simp)
  intro c hc0 hcs a b ha hb
  apply hh c hc0 (by omega)
  · cases hp : (c - 1) / 2 with
    | zero => omega
    | succ p => rw [hp] at ha; simpa using ha
  · cases c with
    | zero => omega
    | succ c => simpa using hb

theorem heapifyLoop_spec (k : Nat) : ∀ h : List E, k ≤ h.length / 2 →
    (∀ c, 0 < c → k ≤ (c - 1) / 2 → LeAt le h ((c - 1) / 2) c) →
    IsHeap le (heapifyLoop lt k h) ∧ (heapifyLoop lt k h).Perm h := by
  induction k with
  | zero =>
    intro h _ hh
    exact ⟨hh, List.Perm.refl _⟩
  | succ k ih =>
    intro h hk hh
    rw [heapifyLoop]
    have hp := siftup_perm lt h k
    obtain ⟨i1, i2⟩ := ih (siftup lt h k) (by rw [hp.length_eq]; omega)
      (siftup_heap C h k (by omega) (fun c h0 hc => hh c h0 hc))
    exact ⟨i1, i2.trans hp⟩

theorem heapify_spec (h : List E) : IsHeap le (heapify lt h) ∧ (heapify lt h).Perm h := by
  apply heapifyLoop_spec C _ _ (Nat.le_refl _)
  intro c hc0 hc a b _ hb
  have hl := (List.getElem?_eq_some_iff.1 hb).1
  omega
end

end Disco.Heap
