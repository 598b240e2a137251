import Verif.Bits.Model
/-! Helper lemmas on bit vectors. -/
namespace Disco.Bits

theorem exists_bit_of_ne_zero {x : Word} (h : x ≠ 0) : ∃ i, i < 64 ∧ x.getLsbD i = true := by
  apply Classical.byContradiction
  intro hn
  apply h
  apply BitVec.eq_of_getLsbD_eq
  intro i hi
  have : x.getLsbD i ≠ true := fun hb => hn ⟨i, hi, hb⟩
  simpa using this

theorem ctz_spec {x : Word} (h : x ≠ 0) :
    ctz x < 64 ∧ x.getLsbD (ctz x) = true ∧ ∀ j, j < ctz x → x.getLsbD j = false := by
  obtain ⟨i, hi, hb⟩ := exists_bit_of_ne_zero h
  unfold ctz
  cases hf : (List.range 64).find? (x.getLsbD ·) with
  | none =>
    rw [List.find?_eq_none] at hf
    exact absurd hb (hf i (by simpa using hi))
  | some k =>
    rw [List.find?_range_eq_some] at hf
    simp only [Option.getD_some]
    refine ⟨by simpa using hf.2.1, hf.1, fun j hj => by simpa using hf.2.2 j hj⟩

theorem clz_spec {x : Word} (h : x ≠ 0) :
    clz x < 64 ∧ x.getLsbD (63 - clz x) = true ∧ ∀ j, 63 - clz x < j → x.getLsbD j = false := by
  obtain ⟨i, hi, hb⟩ := exists_bit_of_ne_zero h
  unfold clz
  cases hf : (List.range 64).find? (fun i => x.getLsbD (63 - i)) with
  | none =>
    rw [List.find?_eq_none] at hf
    have := hf (63 - i) (by simp; omega)
    rw [show 63 - (63 - i) = i by omega] at this
    exact absurd hb this
  | some k =>
    rw [List.find?_range_eq_some] at hf
    simp only [Option.getD_some]
    have hk : k < 64 := by simpa using hf.2.1
    refine ⟨hk, hf.1, fun j hj => ?_⟩
    by_cases h64 : j < 64
    · have := hf.2.2 (63 - j) (by omega)
      rw [show 63 - (63 - j) = j by omega] at this
      simpa using this
    · exact BitVec.getLsbD_of_ge x j (by omega)

/-- Bit `i` of a multi-word vector. -/
def abit (vec : List Word) (i : Nat) : Bool := (vec.getD (i / 64) 0).getLsbD (i % 64)

@[simp] theorem abit_nil (i : Nat) : abit [] i = false := by simp [abit]

theorem abit_cons_lt {w : Word} {ws : List Word} {i : Nat} (h : i < 64) :
    abit (w :: ws) i = w.getLsbD i := by
  simp [abit, Nat.div_eq_of_lt h, Nat.mod_eq_of_lt h]

theorem abit_cons_ge {w : Word} {ws : List Word} {i : Nat} (h : 64 ≤ i) :
    abit (w :: ws) i = abit ws (i - 64) := by
  obtain ⟨k, rfl⟩ : ∃ k, i = k + 64 := ⟨i - 64, by omega⟩
  simp [abit]

theorem abit_ge {vec : List Word} {i : Nat} (h : 64 * vec.length ≤ i) : abit vec i = false := by
  have : vec.length ≤ i / 64 := by omega
  simp [abit, List.getElem?_eq_none this]

theorem abit_drop (vec : List Word) (a i : Nat) : abit (vec.drop a) i = abit vec (a * 64 + i) := by
  unfold abit
  have e1 : (a * 64 + i) / 64 = a + i / 64 := by omega
  have e2 : (a * 64 + i) % 64 = i % 64 := by omega
  rw [e1, e2]
  simp

end Disco.Bits
