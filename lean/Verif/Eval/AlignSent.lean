import Mathlib.Data.List.Basic
import Mathlib.Order.Basic
/-!
# C43: aligning a candidate sentence with the gold sentence (eval.py:742-761)
-/
namespace Disco.AlignSent

variable {W T : Type} [DecidableEq W]

/-- The `while` loop (eval.py:751-760); `csent` and `gsent` are what is left from positions `n` and `m` on.
`gpos m = none` stands for the `KeyError` of `gpos[m]`. -/
def loop (gpos : Nat → Option T) : (n m : Nat) → (csent gsent : List W) → Option (List (Nat × T))
  | _, _, [], _ => some []
  | _, _, _ :: _, [] => some []
  | n, m, c :: cs, g :: gs =>
    if c = g then do
      let t ← gpos m
      let rest ← loop gpos (n + 1) (m + 1) cs gs
      pure ((n, t) :: rest)
    else loop gpos n (m + 1) (c :: cs) gs

/-- `alignsent(csent, gsent, gpos)` (eval.py:742-761); the items of the dictionary in order of insertion, the keys are distinct. -/
def alignsent (csent gsent : List W) (gpos : Nat → Option T) : Option (List (Nat × T)) := loop gpos 0 0 csent gsent

theorem loop_spec (gpos : Nat → Option T) (gsent : List W) : ∀ (csent : List W) (n m : Nat),
    (∀ i, m ≤ i → i < m + gsent.length → ∃ t, gpos i = some t) →
    ∃ ms : List Nat, loop gpos n m csent gsent = some ((List.range' n ms.length).zip (ms.filterMap gpos)) ∧
      (ms.filterMap gpos).length = ms.length ∧
      ms.Pairwise (· < ·) ∧ (∀ i ∈ ms, m ≤ i ∧ i < m + gsent.length) ∧
      ms.map (fun i => gsent[i - m]?) = (csent.take ms.length).map some ∧ ms.length ≤ csent.length ∧
      ∀ k, k ≤ csent.length → (csent.take k).Sublist gsent → k ≤ ms.length := by
  induction gsent with
  | nil =>
    intro csent n m _
    refine ⟨[], ?_, rfl, .nil, by simp, by simp, by simp, ?_⟩
    · cases csent <;> simp [loop]
    · intro k hk h
      rw [List.sublist_nil, List.take_eq_nil_iff] at h
      rcases h with rfl | rfl
      · simp
      · simpa using hk
  | cons g gs ih =>
    intro csent n m hg
    cases csent with
    | nil => exact ⟨[], by simp [loop], rfl, .nil, by simp, by simp, by simp, by simp⟩
    | cons c cs =>
      have hg' : ∀ i, m + 1 ≤ i → i < m + 1 + gs.length → ∃ t, gpos i = some t :=
        fun i h1 h2 => hg i (by omega) (by simp only [List.length_cons]; omega)
      rw [loop]
      by_cases hcg : c = g
      · subst hcg
        rw [if_pos rfl]
        obtain ⟨ms, h1, h2, h3, h4, h5, h6, h7⟩ := ih cs (n + 1) (m + 1) hg'
        obtain ⟨t, ht⟩ := hg m (Nat.le_refl _) (by simp)
        refine ⟨m :: ms, ?_, ?_, ?_, ?_, ?_, ?_, ?_⟩
        · rw [h1, ht]
          simp [ht, List.range'_succ]
        · simp [ht, h2]
        · exact List.pairwise_cons.2 ⟨fun i hi => by have := h4 i hi; omega, h3⟩
        · intro i hi
          rcases List.mem_cons.1 hi with rfl | hi
          · simp
          · have := h4 i hi
            simp only [List.length_cons]; omega
        · rw [List.map_cons, List.length_cons, List.take_succ_cons, List.map_cons, Nat.sub_self, List.getElem?_cons_zero, ← h5]
          congr 1
          apply List.map_congr_left
          intro i hi
          have := h4 i hi
          rw [show i - m = (i - (m + 1)) + 1 by omega, List.getElem?_cons_succ]
        · simpa using h6
        · intro k hk hs
          cases k with
          | zero => simp
          | succ k =>
            rw [List.take_succ_cons] at hs
            have := h7 k (by simpa using hk) (by
              cases hs with
              | cons _ h => exact (List.sublist_cons_self _ _).trans h
              | cons_cons _ h => exact h)
            simpa using this
      · rw [if_neg hcg]
        obtain ⟨ms, h1, h2, h3, h4, h5, h6, h7⟩ := ih (c :: cs) n (m + 1) hg'
        refine ⟨ms, h1, h2, h3, ?_, ?_, h6, ?_⟩
        · intro i hi
          have := h4 i hi
          simp only [List.length_cons]; omega
        · rw [← h5]
          apply List.map_congr_left
          intro i hi
          have := h4 i hi
          rw [show i - m = (i - (m + 1)) + 1 by omega, List.getElem?_cons_succ]
        · intro k hk hs
          refine h7 k hk ?_
          cases k with
          | zero => simp
          | succ k =>
            rw [List.take_succ_cons] at hs ⊢
            cases hs with
            | cons _ h => exact h
            | cons_cons _ h => exact absurd rfl hcg

/-- **C43.** Suppose each gold token has a tag. `alignsent` succeeds and picks increasing positions `ms` in the gold sentence such that
token `i` of the candidate is the same word as gold token `ms[i]` and gets its tag; these are as many tokens from the start of
the candidate as occur, in this order, in the gold sentence. -/
theorem C43_alignsent (csent gsent : List W) (gpos : Nat → Option T) (hg : ∀ i, i < gsent.length → ∃ t, gpos i = some t) :
    ∃ ms : List Nat, ms.Pairwise (· < ·) ∧ (∀ i ∈ ms, i < gsent.length) ∧
      ms.map (fun i => gsent[i]?) = (csent.take ms.length).map some ∧
      (∀ k, k ≤ csent.length → (csent.take k).Sublist gsent → k ≤ ms.length) ∧
      ∃ r, alignsent csent gsent gpos = some r ∧ r.map Prod.fst = List.range ms.length ∧ r.map (fun p => some p.2) = ms.map gpos := by
  obtain ⟨ms, h1, h2, h3, h4, h5, h6, h7⟩ := loop_spec gpos gsent csent 0 0 (fun i _ h => hg i (by omega))
  refine ⟨ms, h3, fun i hi => by have := h4 i hi; omega, by simpa using h5, h7, _, h1, ?_, ?_⟩
  · rw [List.map_fst_zip (by simp [h2]), List.range_eq_range']
  · have : (List.zip (List.range' 0 ms.length) (List.filterMap gpos ms)).map (fun p => some p.2) = (ms.filterMap gpos).map some := by
      rw [show (fun p : Nat × T => some p.2) = some ∘ Prod.snd from rfl, ← List.map_map, List.map_snd_zip (by simp [h2])]
    rw [this]
    clear this h1 h7 h6 h5 h3 h2
    induction ms with
    | nil => rfl
    | cons i ms ih =>
      obtain ⟨t, ht⟩ := hg i (by have := h4 i (by simp); omega)
      simp only [List.filterMap_cons, ht, List.map_cons]
      rw [ih (fun j hj => h4 j (by simp [hj]))]

/-- **C43.** If the candidate is a subsequence of the gold sentence, every candidate token is aligned. -/
theorem C43_complete (csent gsent : List W) (gpos : Nat → Option T) (hg : ∀ i, i < gsent.length → ∃ t, gpos i = some t)
    (hs : csent.Sublist gsent) : ∃ r, alignsent csent gsent gpos = some r ∧ r.map Prod.fst = List.range csent.length := by
  obtain ⟨ms, _, _, h3, h4, r, h5, h6, _⟩ := C43_alignsent csent gsent gpos hg
  have hl := congrArg List.length h3
  have := h4 csent.length (Nat.le_refl _) (by simpa using hs)
  simp at hl
  exact ⟨r, h5, by rw [h6, show ms.length = csent.length by omega]⟩

example : alignsent ["No", "."] ["``", "No", ".", "''"] (fun i => ["``", "RB", ".", "''"][i]?) = some [(0, "RB"), (1, ".")] := by
  decide +kernel

end Disco.AlignSent
