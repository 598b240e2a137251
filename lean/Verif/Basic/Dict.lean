/-!
# Python dictionaries

A `dict` is modelled by the list of its items in insertion order. Assigning to an existing key keeps its
position, as in CPython.
-/
namespace Disco

/-- Items of a dict in insertion order. -/
abbrev Dict (K V : Type) := List (K × V)

namespace Dict
variable {K V : Type} [DecidableEq K]

/-- `d.get(k)`. -/
def get? : Dict K V → K → Option V
  | [], _ => none
  | (k', v) :: d, k => if k' = k then some v else get? d k

/-- `d[k] = v`. -/
def set : Dict K V → K → V → Dict K V
  | [], k, v => [(k, v)]
  | (k', v') :: d, k, v => if k' = k then (k', v) :: d else (k', v') :: set d k v

/-- `del d[k]` (no-op when absent; callers check). -/
def erase : Dict K V → K → Dict K V
  | [], _ => []
  | (k', v') :: d, k => if k' = k then d else (k', v') :: erase d k

/-- `d.keys()`. -/
def keys (d : Dict K V) : List K := d.map Prod.fst

/-- Every key occurs once. -/
def WF (d : Dict K V) : Prop := (keys d).Nodup

theorem get?_set (d : Dict K V) (k j : K) (v : V) :
    get? (set d k v) j = if k = j then some v else get? d j := by
  induction d with
  | nil => simp [set, get?]
  | cons p d ih =>
    obtain ⟨k', v'⟩ := p
    by_cases h : k' = k
    · subst h
      by_cases hj : k' = j <;> simp [set, get?, hj]
    · simp only [set, h, if_false, get?, ih]
      by_cases hj : k' = j
      · subst hj; simp [Ne.symm h]
      · simp [hj]

theorem mem_keys {d : Dict K V} {k : K} : k ∈ keys d ↔ (get? d k).isSome := by
  induction d with
  | nil => simp [keys, get?]
  | cons p d ih =>
    obtain ⟨k', v'⟩ := p
    by_cases h : k' = k
    · simp [keys, get?, h]
    · simp only [keys, List.map_cons, List.mem_cons, get?, h, if_false, ← ih]
      simp [Ne.symm h]

theorem mem_of_get? {d : Dict K V} {k : K} {v : V} (h : get? d k = some v) : (k, v) ∈ d := by
  induction d with
  | nil => simp [get?] at h
  | cons p d ih =>
    obtain ⟨k', v'⟩ := p
    rw [get?] at h
    split at h
    · rename_i hk; subst hk; injection h with h; subst h; simp
    · simp [ih h]

theorem get?_of_mem {d : Dict K V} (hd : WF d) {k : K} {v : V} (h : (k, v) ∈ d) : get? d k = some v := by
  induction d with
  | nil => simp at h
  | cons p d ih =>
    obtain ⟨k', v'⟩ := p
    rw [WF, keys, List.map_cons, List.nodup_cons] at hd
    rcases List.mem_cons.1 h with h | h
    · injection h with h1 h2; subst h1; subst h2; simp [get?]
    · have : k' ≠ k := by
        rintro rfl
        exact hd.1 (List.mem_map.2 ⟨(k', v), h, rfl⟩)
      simp only [get?, this, if_false]
      exact ih hd.2 h

theorem mem_keys_set {d : Dict K V} {k j : K} {v : V} : j ∈ keys (set d k v) ↔ j = k ∨ j ∈ keys d := by
  rw [mem_keys, mem_keys, get?_set]
  by_cases h : k = j
  · simp [h]
  · simp [h, Ne.symm h]

theorem WF.set {d : Dict K V} (h : WF d) (k : K) (v : V) : WF (set d k v) := by
  induction d with
  | nil => simp [Dict.set, WF, keys]
  | cons p d ih =>
    obtain ⟨k', v'⟩ := p
    rw [WF, keys, List.map_cons, List.nodup_cons] at h
    rw [Dict.set]
    split
    · rw [WF, keys, List.map_cons, List.nodup_cons]; exact h
    · rename_i hk
      rw [WF, keys, List.map_cons, List.nodup_cons]
      refine ⟨fun hm => ?_, ih h.2⟩
      rcases mem_keys_set.1 hm with h' | h'
      · exact hk h'
      · exact h.1 h'

theorem length_set (d : Dict K V) (k : K) (v : V) :
    (set d k v).length = if (get? d k).isSome then d.length else d.length + 1 := by
  induction d with
  | nil => simp [set, get?]
  | cons p d ih =>
    obtain ⟨k', v'⟩ := p
    rw [set, get?]
    split
    · simp
    · simp only [List.length_cons, ih]
      split <;> simp_all

theorem get?_erase {d : Dict K V} (h : WF d) (k j : K) :
    get? (erase d k) j = if k = j then none else get? d j := by
  induction d with
  | nil => simp [erase, get?]
  | cons p d ih =>
    obtain ⟨k', v'⟩ := p
    rw [WF, keys, List.map_cons, List.nodup_cons] at h
    rw [erase]
    by_cases hk : k' = k
    · subst hk
      rw [if_pos rfl, get?]
      by_cases hj : k' = j
      · subst hj
        simp only [if_true]
        cases hg : get? d k' with
        | none => rfl
        | some w => exact absurd (mem_keys.2 (by simp [hg])) h.1
      · simp [hj]
    · rw [if_neg hk, get?, get?, ih h.2]
      by_cases hj : k' = j
      · subst hj; simp [Ne.symm hk]
      · simp [hj]

theorem length_erase (d : Dict K V) (k : K) :
    (erase d k).length = if (get? d k).isSome then d.length - 1 else d.length := by
  induction d with
  | nil => simp [erase, get?]
  | cons p d ih =>
    obtain ⟨k', v'⟩ := p
    rw [erase, get?]
    split
    · simp
    · simp only [List.length_cons, ih]
      split
      · rename_i h
        have : 0 < d.length := by
          cases d with
          | nil => simp [get?] at h
          | cons => simp
        omega
      · rfl

theorem mem_keys_erase {d : Dict K V} {k j : K} (h : j ∈ keys (erase d k)) : j ∈ keys d := by
  induction d with
  | nil => simpa [erase] using h
  | cons p d ih =>
    obtain ⟨k', v'⟩ := p
    rw [erase] at h
    split at h
    · simp only [keys, List.map_cons, List.mem_cons]; exact Or.inr h
    · simp only [keys, List.map_cons, List.mem_cons] at h ⊢
      rcases h with h | h
      · exact Or.inl h
      · exact Or.inr (ih h)

theorem WF.erase {d : Dict K V} (h : WF d) (k : K) : WF (erase d k) := by
  induction d with
  | nil => simp [Dict.erase, WF, keys]
  | cons p d ih =>
    obtain ⟨k', v'⟩ := p
    rw [WF, keys, List.map_cons, List.nodup_cons] at h
    rw [Dict.erase]
    split
    · exact h.2
    · rw [WF, keys, List.map_cons, List.nodup_cons]
      exact ⟨fun hm => h.1 (mem_keys_erase hm), ih h.2⟩

end Dict
end Disco
