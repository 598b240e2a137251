import Mathlib.Tactic.Ring
import Mathlib.Tactic.Linarith
/-!
# C34: addressing of the triangular chart (containers.pxd:726-769)
-/
namespace Disco.CellIdx

/-- `cellidx(start, end, lensent, nonterminals)` (containers.pxd:726-731). The expression is evaluated with exact integers; the 32-bit
unsigned product of the code agrees when the number of chart entries is below `2^32`. -/
def cellidx (start stop lensent nts : Int) : Int :=
  nts * (lensent * start - ((start - 1) * start / 2) + stop - start - 1)

/-- Assignment to a C `short`: 16 bit two's complement. -/
def short (x : Int) : Int := (x + 32768) % 65536 - 32768

/-- Conversion to `size_t` (64 bit) of an operand that is compared with a `size_t`. -/
def sizet (x : Int) : Int := x % 18446744073709551616

/-- The `while` loop of `cellstart` and `cellend` (containers.pxd:738-742, 760-764): `start`, `idx` and `lensent` are `short`; returns
`start` and `idx`. -/
def loop (cell : Int) : (fuel : Nat) → (start idx lensent : Int) → Int × Int
  | 0, start, idx, _ => (start, idx)
  | fuel + 1, start, idx, lensent =>
    if sizet (idx + lensent) ≤ cell then loop cell fuel (short (start + 1)) (short (idx + lensent)) (short (lensent - 1))
    else (start, idx)

/-- `cellstart(cell, lensent, nonterminals)` (containers.pxd:734-743). -/
def cellstart (cell lensent nts : Int) : Int := (loop (cell / nts) 65536 0 0 lensent).1

/-- `cellend(cell, lensent, nonterminals)` (containers.pxd:756-765). -/
def cellend (cell lensent nts : Int) : Int :=
  let r := loop (cell / nts) 65536 0 0 lensent
  short (sizet (sizet (r.1 + sizet (cell / nts - r.2)) + 1))

/-! ### Specification -/

/-- The spans of a sentence of `n` words. -/
def Spec.Span (n start stop : Int) : Prop := 0 ≤ start ∧ start < stop ∧ stop ≤ n

/-- The number of spans times the number of labels: the size of the arrays (pcfg.pyx:60-66). -/
def Spec.size (n nts : Int) : Int := nts * (n * (n + 1) / 2)

/-! ### Lemmas -/

/-- Number of the first span that starts at `s`. -/
def row (n s : Int) : Int := n * s - (s - 1) * s / 2

theorem half (x : Int) : 2 * ((x - 1) * x / 2) = (x - 1) * x := by
  have : (x - 1) * x % 2 = 0 := by
    rcases Int.emod_two_eq_zero_or_one x with h | h
    · rw [Int.mul_emod, h]; simp
    · have : (x - 1) % 2 = 0 := by omega
      rw [Int.mul_emod, this]; simp
  omega

theorem row_two (n s : Int) : 2 * row n s = 2 * n * s - (s - 1) * s := by
  have := half s
  unfold row
  linarith

theorem row_succ (n s : Int) : row n (s + 1) = row n s + (n - s) := by
  have h1 := row_two n s
  have h2 := row_two n (s + 1)
  have : (s + 1 - 1) * (s + 1) = (s - 1) * s + 2 * s := by ring
  rw [this] at h2
  have : 2 * n * (s + 1) = 2 * n * s + 2 * n := by ring
  linarith

theorem row_zero (n : Int) : row n 0 = 0 := by simp [row]

theorem row_n (n : Int) : row n n = n * (n + 1) / 2 := by
  have h1 := row_two n n
  have h2 := half (n + 1)
  have e1 : (n + 1 - 1) * (n + 1) = n * (n + 1) := by ring
  rw [e1] at h2
  have e2 : 2 * n * n - (n - 1) * n = n * (n + 1) := by ring
  rw [e2] at h1
  omega

theorem cellidx_eq (start stop n nts : Int) : cellidx start stop n nts = nts * (row n start + (stop - start - 1)) := by
  unfold cellidx row; congr 1; ring

theorem row_mono (n s t : Int) (_h0 : 0 ≤ s) (h : s ≤ t) (ht : t ≤ n) : row n s ≤ row n t := by
  obtain ⟨d, rfl⟩ : ∃ d : Nat, t = s + d := ⟨(t - s).toNat, by omega⟩
  induction d with
  | zero => simp
  | succ d ih =>
    have := ih (by omega) (by omega)
    have h2 := row_succ n (s + d)
    have e : s + (d : Int) + 1 = s + ((d + 1 : Nat) : Int) := by push_cast; ring
    rw [e] at h2
    omega

theorem short_id {x : Int} (h1 : -32768 ≤ x) (h2 : x ≤ 32767) : short x = x := by
  unfold short; omega

theorem sizet_id {x : Int} (h1 : 0 ≤ x) (h2 : x < 18446744073709551616) : sizet x = x := Int.emod_eq_of_lt h1 h2

theorem loop_spec (n s e : Int) (hn : n ≤ 255) (h : Spec.Span n s e) (d : Nat) : ∀ (fuel : Nat) (i : Int),
    0 ≤ i → i ≤ s → (s - i).toNat = d → d < fuel →
    loop (row n s + (e - s - 1)) fuel i (row n i) (n - i) = (s, row n s) := by
  obtain ⟨h0, h1, h2⟩ := h
  have hrn : row n n ≤ 32767 := by
    rw [row_n]
    have : n * (n + 1) ≤ 255 * 256 := by nlinarith
    omega
  have hpos : ∀ i, 0 ≤ i → i ≤ n → 0 ≤ row n i := fun i hi hin => by
    have := row_mono n 0 i (le_refl 0) hi hin
    rwa [row_zero] at this
  have hle : ∀ i, 0 ≤ i → i ≤ n → row n i ≤ 32767 := fun i hi hin => le_trans (row_mono n i n hi hin (le_refl n)) hrn
  have hss := row_succ n s
  induction d with
  | zero =>
    intro fuel i hi his hd hf
    have : i = s := by omega
    subst this
    obtain ⟨fuel, rfl⟩ : ∃ f, fuel = f + 1 := ⟨fuel - 1, by omega⟩
    rw [loop, if_neg]
    have := hpos i hi (by omega)
    have := hle (i + 1) (by omega) (by omega)
    rw [sizet_id (by omega) (by omega)]
    omega
  | succ d ih =>
    intro fuel i hi his hd hf
    obtain ⟨fuel, rfl⟩ : ∃ f, fuel = f + 1 := ⟨fuel - 1, by omega⟩
    have hi1 := row_succ n i
    have := hpos i hi (by omega)
    have := hle (i + 1) (by omega) (by omega)
    have hm := row_mono n (i + 1) s (by omega) (by omega) (by omega)
    rw [loop, if_pos (by rw [sizet_id (by omega) (by omega)]; omega), short_id (by omega) (by omega), short_id (by omega) (by omega),
      short_id (by omega) (by omega), ← hi1]
    have e : n - i - 1 = n - (i + 1) := by ring
    rw [e]
    exact ih fuel (i + 1) (by omega) (by omega) (by omega) (by omega)

/-- The quotient by the number of labels. -/
theorem div_cell (start stop n nts label : Int) (hl : 0 ≤ label ∧ label < nts) :
    (cellidx start stop n nts + label) / nts = row n start + (stop - start - 1) := by
  rw [cellidx_eq, Int.add_comm, Int.add_mul_ediv_left _ _ (by omega), Int.ediv_eq_zero_of_lt hl.1 hl.2]
  simp

/-! ### Theorems -/

/-- **C34.** For sentences of up to 255 words, `cellstart` and `cellend` recover the span from the index of any of its items, for any
number of labels. -/
theorem C34_decode (n nts start stop label : Int) (hn : n ≤ 255) (h : Spec.Span n start stop) (hl : 0 ≤ label ∧ label < nts) :
    cellstart (cellidx start stop n nts + label) n nts = start ∧ cellend (cellidx start stop n nts + label) n nts = stop := by
  have hd := div_cell start stop n nts label hl
  have hloop := loop_spec n start stop hn h (start.toNat) 65536 0 (le_refl 0) h.1 (by simp) (by
    obtain ⟨h0, h1, h2⟩ := h; omega)
  rw [row_zero, Int.sub_zero] at hloop
  obtain ⟨h0, h1, h2⟩ := h
  constructor
  · rw [cellstart, hd, hloop]
  · rw [cellend, hd, hloop]
    simp only
    have e1 : row n start + (stop - start - 1) - row n start = stop - start - 1 := by ring
    have e2 : start + (stop - start - 1) = stop - 1 := by ring
    have e3 : stop - 1 + 1 = stop := by ring
    rw [e1, sizet_id (x := stop - start - 1) (by omega) (by omega), e2, sizet_id (x := stop - 1) (by omega) (by omega), e3,
      sizet_id (by omega) (by omega), short_id (by omega) (by omega)]

/-- **C34.** The items of different spans or labels have different indices, all within the arrays, for any sentence length. -/
theorem C34_injective (n nts : Int) (s e l s' e' l' : Int) (h : Spec.Span n s e) (hl : 0 ≤ l ∧ l < nts)
    (h' : Spec.Span n s' e') (hl' : 0 ≤ l' ∧ l' < nts)
    (heq : cellidx s e n nts + l = cellidx s' e' n nts + l') : s = s' ∧ e = e' ∧ l = l' := by
  have hd := div_cell s e n nts l hl
  have hd' := div_cell s' e' n nts l' hl'
  rw [heq, hd'] at hd
  obtain ⟨h0, h1, h2⟩ := h
  obtain ⟨g0, g1, g2⟩ := h'
  have a1 := row_succ n s
  have a2 := row_succ n s'
  have hs : s = s' := by
    rcases Int.lt_trichotomy s s' with hlt | heq | hlt
    · have := row_mono n (s + 1) s' (by omega) (by omega) (by omega); omega
    · exact heq
    · have := row_mono n (s' + 1) s (by omega) (by omega) (by omega); omega
  subst hs
  have he : e = e' := by omega
  subst he
  exact ⟨rfl, rfl, by omega⟩

/-- **C34.** Indices are within the allocated arrays, and every position of the arrays is the index of an item. -/
theorem C34_range (n nts : Int) (hnts : 0 < nts) (k : Int) :
    (0 ≤ k ∧ k < Spec.size n nts ∧ 0 ≤ n) ↔
    0 ≤ n ∧ ∃ s e l, Spec.Span n s e ∧ (0 ≤ l ∧ l < nts) ∧ k = cellidx s e n nts + l := by
  have hsize : Spec.size n nts = nts * row n n := by rw [Spec.size, row_n]
  rw [hsize]
  constructor
  · rintro ⟨h0, h1, hn⟩
    refine ⟨hn, ?_⟩
    have hq0 : 0 ≤ k / nts := Int.ediv_nonneg h0 (by omega)
    have hq1 : k / nts < row n n := Int.ediv_lt_of_lt_mul hnts (by rwa [Int.mul_comm])
    -- find the row
    have find : ∀ d : Nat, (d : Int) ≤ n → k / nts < row n d → ∃ s : Int, 0 ≤ s ∧ s < d ∧ row n s ≤ k / nts ∧ k / nts < row n (s + 1) := by
      intro d
      induction d with
      | zero => intro _ h; rw [Nat.cast_zero, row_zero] at h; omega
      | succ d ih =>
        intro hd h
        by_cases hlt : k / nts < row n d
        · obtain ⟨s, a, b, c, e⟩ := ih (by push_cast at hd; omega) hlt
          exact ⟨s, a, by push_cast; omega, c, e⟩
        · exact ⟨d, by omega, by push_cast; omega, by omega, by push_cast at h; exact h⟩
    obtain ⟨s, s0, s1, s2, s3⟩ := find n.toNat (by omega) (by rw [Int.toNat_of_nonneg hn]; exact hq1)
    rw [Int.toNat_of_nonneg hn] at s1
    have hs := row_succ n s
    refine ⟨s, s + 1 + (k / nts - row n s), k % nts, ⟨s0, by omega, by omega⟩,
      ⟨Int.emod_nonneg _ (by omega), Int.emod_lt_of_pos _ hnts⟩, ?_⟩
    rw [cellidx_eq]
    have e : row n s + (s + 1 + (k / nts - row n s) - s - 1) = k / nts := by ring
    rw [e]
    have := Int.mul_ediv_add_emod k nts
    omega
  · rintro ⟨hn, s, e, l, ⟨h0, h1, h2⟩, hl, rfl⟩
    have hd := div_cell s e n nts l hl
    have a1 := row_succ n s
    have a2 := row_mono n (s + 1) n (by omega) (by omega) (le_refl n)
    have a3 := row_mono n 0 s (le_refl 0) h0 (by omega)
    rw [row_zero] at a3
    rw [cellidx_eq]
    have b1 : 0 ≤ nts * (row n s + (e - s - 1)) := Int.mul_nonneg (by omega) (by omega)
    have b2 : nts * (row n s + (e - s - 1) + 1) ≤ nts * row n n := Int.mul_le_mul_of_nonneg_left (by omega) (by omega)
    have b3 : nts * (row n s + (e - s - 1) + 1) = nts * (row n s + (e - s - 1)) + nts := by ring
    exact ⟨by omega, by omega, hn⟩

/-- **C34 (disagreement).** From 256 words on decoding fails, because the running index is a 16-bit integer: in a sentence of 256
words the cell of the span [242, 243) is decoded as starting at 241 and ending at 257, outside of the sentence. -/
theorem C34_decode_fails_256 :
    Spec.Span 256 242 243 ∧ cellstart (cellidx 242 243 256 1) 256 1 = 241 ∧ cellend (cellidx 242 243 256 1) 256 1 = 257 := by
  refine ⟨by unfold Spec.Span; omega, by decide +kernel, by decide +kernel⟩

example : Spec.Span 40 3 17 ∧ cellidx 3 17 40 500 = 65000 ∧ cellstart (65000 + 123) 40 500 = 3 ∧ cellend (65000 + 123) 40 500 = 17 := by
  refine ⟨by unfold Spec.Span; omega, by decide +kernel, by decide +kernel, by decide +kernel⟩

end Disco.CellIdx
