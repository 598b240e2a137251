import Verif.Bits.Props
/-!
# Bit tricks on words: `v - 1`, `v | (v - 1)`, `v & (~v - 1)`, `~v & (v - 1)`
-/
namespace Disco.Bits

/-- `s` is the lowest set bit of `v`. -/
structure Lowest (v : Word) (s : Nat) : Prop where
  set : v.getLsbD s = true
  least : ∀ k, k < s → v.getLsbD k = false

theorem Lowest.lt {v : Word} {s : Nat} (h : Lowest v s) : s < 64 := by
  refine Nat.lt_of_not_le (fun hc => ?_)
  have := BitVec.getLsbD_of_ge v s hc
  rw [h.set] at this
  cases this

theorem exists_lowest {v : Word} (h : v ≠ 0) : ∃ s, Lowest v s := by
  obtain ⟨_, h2, h3⟩ := ctz_spec h
  exact ⟨ctz v, h2, h3⟩

theorem Lowest.ne_zero {v : Word} {s : Nat} (h : Lowest v s) : v ≠ 0 := by
  rintro rfl
  have := h.set
  simp at this

/-- Subtracting one clears the lowest set bit and sets all bits below it. -/
theorem getLsbD_pred {v : Word} {s : Nat} (h : Lowest v s) (k : Nat) :
    (v - 1).getLsbD k = if k < s then true else if k = s then false else v.getLsbD k := by
  have hs := h.lt
  have hv0 : v.toNat ≠ 0 := by
    intro e
    exact h.ne_zero (BitVec.eq_of_toNat_eq (by simpa using e))
  have hlow : v.toNat = 2 ^ s * (v.toNat >>> s) := by
    apply Nat.eq_of_testBit_eq
    intro j
    rw [Nat.testBit_two_pow_mul]
    by_cases hj : j < s
    · have := h.least j hj
      rw [BitVec.getLsbD] at this
      rw [this]
      simp
      omega
    · simp only [ge_iff_le, show s ≤ j by omega, decide_true, Bool.true_and, Nat.testBit_shiftRight]
      rw [show s + (j - s) = j by omega]
  have hodd : (v.toNat >>> s) % 2 = 1 := by
    have := h.set
    rw [BitVec.getLsbD] at this
    have e : (v.toNat >>> s).testBit 0 = true := by rw [Nat.testBit_shiftRight]; simpa using this
    rw [Nat.testBit_zero] at e
    exact of_decide_eq_true e
  generalize hm : v.toNat >>> s = m at hlow hodd
  have hsub : (v - 1).toNat = v.toNat - 1 := by
    rw [BitVec.toNat_sub]
    have := v.isLt
    have h1 : (1#64).toNat = 1 := rfl
    rw [show (1 : Word) = 1#64 from rfl, h1]
    omega
  have hval : (v - 1).toNat = 2 ^ s * (m - 1) + (2 ^ s - 1) := by
    rw [hsub, hlow]
    obtain ⟨q, rfl⟩ : ∃ q, m = 2 * q + 1 := ⟨m / 2, by omega⟩
    have hp : 0 < 2 ^ s := Nat.two_pow_pos s
    have : 2 ^ s * (2 * q + 1) = 2 ^ s * (2 * q + 1 - 1) + 2 ^ s := by
      rw [show 2 * q + 1 - 1 = 2 * q by omega, Nat.mul_add, Nat.mul_one]
    omega
  rw [BitVec.getLsbD, hval, Nat.testBit_two_pow_mul_add _ (by have := Nat.two_pow_pos s; omega)]
  split
  · rename_i hk
    rw [Nat.testBit_two_pow_sub_one]
    simpa using hk
  · rename_i hk
    obtain ⟨q, rfl⟩ : ∃ q, m = 2 * q + 1 := ⟨m / 2, by omega⟩
    rw [show 2 * q + 1 - 1 = 2 * q by omega]
    split
    · rename_i hks
      subst hks
      simp
    · rename_i hks
      rw [BitVec.getLsbD, hlow, Nat.testBit_two_pow_mul]
      simp only [ge_iff_le, show s ≤ k by omega, decide_true, Bool.true_and]
      obtain ⟨d, hd⟩ : ∃ d, k - s = d + 1 := ⟨k - s - 1, by omega⟩
      rw [hd, Nat.testBit_succ, Nat.testBit_succ]
      congr 1
      omega

/-- `v | (v - 1)` sets the trailing zero bits. -/
theorem getLsbD_fill {v : Word} {s : Nat} (h : Lowest v s) (k : Nat) : (v ||| (v - 1)).getLsbD k = (decide (k < s) || v.getLsbD k) := by
  rw [BitVec.getLsbD_or, getLsbD_pred h]
  by_cases h1 : k < s
  · simp [h1]
  · by_cases h2 : k = s
    · subst h2; simp
    · simp [h1, h2]

/-- `w & (~w - 1)` is the mask of the trailing one bits. -/
theorem getLsbD_ones {w : Word} {e : Nat} (h1 : ∀ k, k < e → w.getLsbD k = true) (h2 : w.getLsbD e = false) (k : Nat) :
    (w &&& (~~~w - 1)).getLsbD k = decide (k < e) := by
  by_cases he : e < 64
  · have hl : Lowest (~~~w) e := ⟨by rw [BitVec.getLsbD_not, h2]; simp [he], fun j hj => by rw [BitVec.getLsbD_not, h1 j hj]; simp⟩
    rw [BitVec.getLsbD_and, getLsbD_pred hl]
    by_cases a : k < e
    · simp [a, h1 k a]
    · by_cases b : k = e
      · subst b; simp
      · rw [if_neg a, if_neg b, BitVec.getLsbD_not]
        by_cases c : k < 64
        · simp [a]
          intro h _; exact h
        · simp [a, c]
  · have hw : w = BitVec.allOnes 64 := by
      apply BitVec.eq_of_getLsbD_eq
      intro i hi
      rw [h1 i (by omega), BitVec.getLsbD_allOnes]
      simpa using hi
    have : e = 64 := by
      refine Nat.le_antisymm (Nat.le_of_not_lt (fun hc => ?_)) (Nat.le_of_not_lt he)
      have := h1 64 hc
      rw [BitVec.getLsbD_of_ge _ _ (by omega)] at this
      cases this
    subst this
    subst hw
    have e2 : (BitVec.allOnes 64 &&& (~~~(BitVec.allOnes 64) - 1) : Word) = BitVec.allOnes 64 := by decide
    rw [e2, BitVec.getLsbD_allOnes]

/-- `~v & (v - 1)` is the mask of the trailing zero bits. -/
theorem getLsbD_zeros {v : Word} {c : Nat} (h1 : ∀ k, k < c → v.getLsbD k = false) (h2 : c < 64 → v.getLsbD c = true) (hc : c ≤ 64) (k : Nat) :
    (~~~v &&& (v - 1)).getLsbD k = decide (k < c) := by
  by_cases h : c < 64
  · have hl : Lowest v c := ⟨h2 h, h1⟩
    rw [BitVec.getLsbD_and, getLsbD_pred hl, BitVec.getLsbD_not]
    by_cases a : k < c
    · simp [a, h1 k a]; omega
    · by_cases b : k = c
      · subst b; simp
      · simp [a, b]
  · have hc : c = 64 := by omega
    subst hc
    have hv : v = 0 := by
      apply BitVec.eq_of_getLsbD_eq
      intro i hi
      rw [h1 i hi]; simp
    subst hv
    have e2 : (~~~(0 : Word) &&& (0 - 1)) = BitVec.allOnes 64 := by decide
    rw [e2, BitVec.getLsbD_allOnes]

/-- A mask of low bits plus one is a single bit. -/
theorem getLsbD_mask_succ {m : Word} {e : Nat} (h : ∀ k, k < 64 → m.getLsbD k = decide (k < e)) (k : Nat) (hk : k < 64) :
    (m + 1).getLsbD k = decide (k = e) := by
  by_cases he : e < 64
  · have : m = (1#64 <<< e) - 1 := by
      apply BitVec.eq_of_getLsbD_eq
      intro i hi
      rw [h i hi, getLsbD_mask e i he]
    rw [this, show (1 : Word) = 1#64 from rfl, BitVec.sub_add_cancel, getLsbD_one_shift e k he]
  · have : m = BitVec.allOnes 64 := by
      apply BitVec.eq_of_getLsbD_eq
      intro i hi
      rw [h i hi, BitVec.getLsbD_allOnes]
      simp; omega
    subst this
    have e2 : (BitVec.allOnes 64 + 1 : Word) = 0 := by decide
    rw [e2]
    have : k ≠ e := by omega
    simp [this]

end Disco.Bits
