import Verif.Bits.Lemmas
/-!
# C10: bit iteration primitives

Specification: a bit vector denotes the set of positions at which a bit is set
(`BitVec.getLsbD` for one word, `abit` for an array of words, `Nat.testBit` for Python integers).
-/
namespace Disco.Bits

/-- `r` is the least member of `S` at or after `pos`, `none` when there is none. -/
def Spec.NextMember (S : Nat → Bool) (pos : Nat) : Option Nat → Prop
  | some i => pos ≤ i ∧ S i = true ∧ ∀ j, pos ≤ j → j < i → S j = false
  | none => ∀ j, pos ≤ j → S j = false

/-- `l` lists the members of `S` in increasing order, each exactly once. -/
def Spec.Enumerates (S : Nat → Bool) (l : List Nat) : Prop :=
  l.Pairwise (· < ·) ∧ ∀ i, i ∈ l ↔ S i = true

/-- **C10.** `nextset` returns the least set bit at or after `pos`, -1 if there is none. -/
theorem C10_nextset (vec : Word) (pos : Nat) : Spec.NextMember vec.getLsbD pos (nextset vec pos) := by
  unfold nextset
  split
  · rename_i h
    obtain ⟨_, h2, h3⟩ := ctz_spec h
    rw [BitVec.getLsbD_ushiftRight] at h2
    refine ⟨by omega, h2, fun j h4 h5 => ?_⟩
    have := h3 (j - pos) (by omega)
    rw [BitVec.getLsbD_ushiftRight, show pos + (j - pos) = j by omega] at this
    exact this
  · rename_i h
    intro j hj
    have h0 : vec >>> pos = 0 := by simpa using h
    have : (vec >>> pos).getLsbD (j - pos) = false := by rw [h0]; simp
    rw [BitVec.getLsbD_ushiftRight, show pos + (j - pos) = j by omega] at this
    exact this

/-- **C10.** `nextunset` returns the least unset bit at or after `pos` (64 if all are set). -/
theorem C10_nextunset (vec : Word) (pos : Nat) (hpos : pos < 64) :
    pos ≤ nextunset vec pos ∧ nextunset vec pos ≤ 64 ∧ vec.getLsbD (nextunset vec pos) = false ∧
      ∀ j, pos ≤ j → j < nextunset vec pos → vec.getLsbD j = true := by
  unfold nextunset
  have hb : ∀ i, (~~~vec &&& (BitVec.allOnes 64 <<< pos)).getLsbD i
      = (decide (i < 64) && !vec.getLsbD i && decide (pos ≤ i)) := by
    intro i
    rw [BitVec.getLsbD_and, BitVec.getLsbD_not, BitVec.getLsbD_shiftLeft, BitVec.getLsbD_allOnes]
    by_cases h1 : i < 64 <;> by_cases h2 : pos ≤ i <;> simp [h1, h2]; omega
  extract_lets x
  split
  · rename_i h
    obtain ⟨h1, h2, h3⟩ := ctz_spec h
    have h2' := hb (ctz x)
    rw [h2] at h2'
    simp only [Bool.true_eq, Bool.and_eq_true, decide_eq_true_eq, Bool.not_eq_true'] at h2'
    refine ⟨h2'.2, by omega, h2'.1.2, fun j h4 h5 => ?_⟩
    have h6 := h3 j h5
    rw [hb] at h6
    have : j < 64 := by omega
    simpa [this, h4] using h6
  · rename_i h
    have h0 : x = 0 := by simpa using h
    refine ⟨by omega, by omega, by simp, fun j h4 h5 => ?_⟩
    have h6 := hb j
    have h7 : x.getLsbD j = false := by rw [h0]; simp
    rw [h7] at h6
    simpa [h4, h5] using h6

/-- **C10.** `bitlength` is one more than the most significant set bit, 0 for an empty set. -/
theorem C10_bitlength (vec : Word) :
    (bitlength vec = 0 ↔ vec = 0) ∧ (∀ j, bitlength vec ≤ j → vec.getLsbD j = false) ∧
      (vec ≠ 0 → vec.getLsbD (bitlength vec - 1) = true) := by
  unfold bitlength
  by_cases h : vec = 0
  · simp [h]
  · obtain ⟨h1, h2, h3⟩ := clz_spec h
    simp only [ne_eq, h, not_false_eq_true, if_true, iff_false]
    refine ⟨by omega, fun j hj => h3 j (by omega), fun _ => ?_⟩
    rw [show 64 - clz vec - 1 = 63 - clz vec by omega]
    exact h2

theorem anextsetLoop_spec (rest : List Word) : ∀ (x : Word) (a : Nat),
    match anextsetLoop x a rest with
    | some i => a * 64 ≤ i ∧ abit (x :: rest) (i - a * 64) = true ∧
        ∀ j, j < i - a * 64 → abit (x :: rest) j = false
    | none => ∀ j, abit (x :: rest) j = false := by
  induction rest with
  | nil =>
    intro x a
    unfold anextsetLoop
    by_cases h : x = 0
    · simp only [h, if_true]
      intro j
      by_cases hj : j < 64
      · rw [abit_cons_lt hj]; simp
      · rw [abit_cons_ge (by omega)]; simp
    · simp only [h, if_false]
      obtain ⟨h1, h2, h3⟩ := ctz_spec h
      rw [show a * 64 + ctz x - a * 64 = ctz x by omega]
      refine ⟨by omega, by rw [abit_cons_lt h1]; exact h2, fun j hj => ?_⟩
      rw [abit_cons_lt (by omega)]; exact h3 j hj
  | cons w rest ih =>
    intro x a
    unfold anextsetLoop
    by_cases h : x = 0
    · simp only [h, if_true]
      have := ih w (a + 1)
      cases hr : anextsetLoop w (a + 1) rest with
      | none =>
        rw [hr] at this
        intro j
        by_cases hj : j < 64
        · rw [abit_cons_lt hj]; simp
        · rw [abit_cons_ge (by omega)]; exact this _
      | some i =>
        rw [hr] at this
        obtain ⟨h1, h2, h3⟩ := this
        refine ⟨by omega, ?_, fun j hj => ?_⟩
        · rw [abit_cons_ge (by omega), show i - a * 64 - 64 = i - (a + 1) * 64 by omega]; exact h2
        · by_cases hj' : j < 64
          · rw [abit_cons_lt hj']; simp
          · rw [abit_cons_ge (by omega)]; exact h3 _ (by omega)
    · simp only [h, if_false]
      obtain ⟨h1, h2, h3⟩ := ctz_spec h
      rw [show a * 64 + ctz x - a * 64 = ctz x by omega]
      refine ⟨by omega, by rw [abit_cons_lt h1]; exact h2, fun j hj => ?_⟩
      rw [abit_cons_lt (by omega)]; exact h3 j hj

theorem drop_cons_getD {vec : List Word} {a : Nat} (h : a < vec.length) :
    vec.drop a = vec.getD a 0 :: vec.drop (a + 1) := by
  rw [List.drop_eq_getElem_cons h]
  simp [h]

/-- **C10.** `anextset` returns the least set bit at or after `pos` in an array of words, for every
number of words and every position, including those beyond the array. -/
theorem C10_anextset (vec : List Word) (pos : Nat) :
    Spec.NextMember (abit vec) pos (anextset vec pos) := by
  unfold anextset
  extract_lets a
  split
  · rename_i h
    intro j hj
    exact abit_ge (by omega)
  · rename_i h
    have hlt : a < vec.length := by omega
    have hm : pos % 64 < 64 := Nat.mod_lt _ (by omega)
    have key : ∀ j, abit ((vec.getD a 0 &&& (BitVec.allOnes 64 <<< (pos % 64))) :: vec.drop (a + 1)) j
        = (abit vec (a * 64 + j) && decide (pos ≤ a * 64 + j)) := by
      intro j
      rw [← abit_drop, drop_cons_getD hlt]
      by_cases hj : j < 64
      · rw [abit_cons_lt hj, abit_cons_lt hj, BitVec.getLsbD_and, BitVec.getLsbD_shiftLeft,
          BitVec.getLsbD_allOnes]
        by_cases h2 : pos % 64 ≤ j
        · have : pos ≤ a * 64 + j := by omega
          simp [hj, this, show ¬ j < pos % 64 by omega]
          intro _; omega
        · have : ¬ pos ≤ a * 64 + j := by omega
          simp [this, show j < pos % 64 by omega]
      · rw [abit_cons_ge (by omega), abit_cons_ge (by omega)]
        have : pos ≤ a * 64 + j := by omega
        simp [this]
    have := anextsetLoop_spec (vec.drop (a + 1))
      (vec.getD a 0 &&& (BitVec.allOnes 64 <<< (pos % 64))) a
    cases hr : anextsetLoop (vec.getD a 0 &&& (BitVec.allOnes 64 <<< (pos % 64))) a (vec.drop (a + 1)) with
    | none =>
      rw [hr] at this
      intro j hj
      have h1 := this (j - a * 64)
      rw [key, show a * 64 + (j - a * 64) = j by omega] at h1
      simpa [hj] using h1
    | some i =>
      rw [hr] at this
      obtain ⟨h1, h2, h3⟩ := this
      rw [key, show a * 64 + (i - a * 64) = i by omega] at h2
      simp only [Bool.and_eq_true, decide_eq_true_eq] at h2
      refine ⟨h2.2, h2.1, fun j hj1 hj2 => ?_⟩
      have h4 := h3 (j - a * 64) (by omega)
      rw [key, show a * 64 + (j - a * 64) = j by omega] at h4
      simpa [hj1] using h4

theorem not_allOnes {x : Word} (h : x ≠ BitVec.allOnes 64) : ~~~x ≠ 0 := by
  intro h0
  apply h
  have : ~~~(~~~x) = ~~~(0 : Word) := by rw [h0]
  simpa using this

theorem anextunsetLoop_spec (rest : List Word) : ∀ (x : Word) (a : Nat),
    a * 64 ≤ anextunsetLoop x a rest ∧
    abit (x :: rest) (anextunsetLoop x a rest - a * 64) = false ∧
    (∀ j, j < anextunsetLoop x a rest - a * 64 → abit (x :: rest) j = true) ∧
    anextunsetLoop x a rest ≤ (a + 1 + rest.length) * 64 := by
  induction rest with
  | nil =>
    intro x a
    unfold anextunsetLoop
    by_cases h : x = BitVec.allOnes 64
    · simp only [h, if_true]
      refine ⟨by omega, abit_ge (by simp; omega), fun j hj => ?_, by simp⟩
      have hj' : j < 64 := by omega
      rw [abit_cons_lt hj', BitVec.getLsbD_allOnes]; simpa using hj'
    · simp only [h, if_false]
      obtain ⟨h1, h2, h3⟩ := ctz_spec (not_allOnes h)
      rw [show a * 64 + ctz (~~~x) - a * 64 = ctz (~~~x) by omega]
      refine ⟨by omega, ?_, fun j hj => ?_, by simp; omega⟩
      · rw [abit_cons_lt h1]; rw [BitVec.getLsbD_not] at h2; simpa [h1] using h2
      · have := h3 j hj
        rw [abit_cons_lt (by omega)]; rw [BitVec.getLsbD_not] at this
        simpa [show j < 64 by omega] using this
  | cons w rest ih =>
    intro x a
    unfold anextunsetLoop
    by_cases h : x = BitVec.allOnes 64
    · simp only [h, if_true]
      obtain ⟨h1, h2, h3, h4⟩ := ih w (a + 1)
      refine ⟨by omega, ?_, fun j hj => ?_, by simp; omega⟩
      · rw [abit_cons_ge (by omega),
          show anextunsetLoop w (a + 1) rest - a * 64 - 64
            = anextunsetLoop w (a + 1) rest - (a + 1) * 64 by omega]
        exact h2
      · by_cases hj' : j < 64
        · rw [abit_cons_lt hj', BitVec.getLsbD_allOnes]; simpa using hj'
        · rw [abit_cons_ge (by omega)]; exact h3 _ (by omega)
    · simp only [h, if_false]
      obtain ⟨h1, h2, h3⟩ := ctz_spec (not_allOnes h)
      rw [show a * 64 + ctz (~~~x) - a * 64 = ctz (~~~x) by omega]
      refine ⟨by omega, ?_, fun j hj => ?_, by simp; omega⟩
      · rw [abit_cons_lt h1]; rw [BitVec.getLsbD_not] at h2; simpa [h1] using h2
      · have := h3 j hj
        rw [abit_cons_lt (by omega)]; rw [BitVec.getLsbD_not] at this
        simpa [show j < 64 by omega] using this

theorem getLsbD_mask (k i : Nat) (hk : k < 64) :
    ((1#64 <<< k) - 1).getLsbD i = decide (i < k) := by
  have e : ((1#64 <<< k) - 1) = BitVec.ofNat 64 (2 ^ k - 1) := by
    apply BitVec.eq_of_toNat_eq
    have h2 : 2 ^ k < 2 ^ 64 := Nat.pow_lt_pow_right (by omega) hk
    have h3 : 0 < 2 ^ k := Nat.two_pow_pos k
    have h4 : (1#64 <<< k).toNat = 2 ^ k := by
      rw [BitVec.toNat_shiftLeft, Nat.shiftLeft_eq]
      simpa using Nat.mod_eq_of_lt h2
    have h5 : (1 : BitVec 64).toNat = 1 := rfl
    rw [BitVec.toNat_sub, h4, h5, BitVec.toNat_ofNat]
    omega
  rw [e, BitVec.getLsbD_ofNat, Nat.testBit_two_pow_sub_one]
  by_cases h : i < k
  · simp [h]; omega
  · simp [h]

/-- **C10.** `anextunset` returns the least unset bit at or after `pos`, which is the first position
after the array if no bit within the array is unset. `pos` may be at most one past the end of the
array. -/
theorem C10_anextunset (vec : List Word) (pos : Nat) (hpos : pos ≤ 64 * vec.length) :
    Spec.NextMember (fun i => !abit vec i) pos (some (anextunset vec pos)) ∧
    anextunset vec pos ≤ 64 * vec.length := by
  unfold anextunset
  extract_lets a
  split
  · rename_i h
    have : a * 64 = pos := by omega
    rw [this]
    refine ⟨⟨by omega, ?_, fun j h1 h2 => by omega⟩, hpos⟩
    simp only [Bool.not_eq_true']
    exact abit_ge (by omega)
  · rename_i h
    have hlt : a < vec.length := by omega
    have hm : pos % 64 < 64 := Nat.mod_lt _ (by omega)
    have key : ∀ j, abit ((vec.getD a 0 ||| ((1#64 <<< (pos % 64)) - 1)) :: vec.drop (a + 1)) j
        = (abit vec (a * 64 + j) || decide (a * 64 + j < pos)) := by
      intro j
      rw [← abit_drop, drop_cons_getD hlt]
      by_cases hj : j < 64
      · rw [abit_cons_lt hj, abit_cons_lt hj, BitVec.getLsbD_or, getLsbD_mask _ _ hm]
        congr 1
        apply decide_eq_decide.2
        omega
      · rw [abit_cons_ge (by omega), abit_cons_ge (by omega)]
        have : ¬ a * 64 + j < pos := by omega
        simp [this]
    obtain ⟨h1, h2, h3, h4⟩ := anextunsetLoop_spec (vec.drop (a + 1))
      (vec.getD a 0 ||| ((1#64 <<< (pos % 64)) - 1)) a
    rw [key, show a * 64 + (anextunsetLoop (vec.getD a 0 ||| ((1#64 <<< (pos % 64)) - 1)) a
        (vec.drop (a + 1)) - a * 64) = anextunsetLoop (vec.getD a 0 ||| ((1#64 <<< (pos % 64)) - 1)) a
        (vec.drop (a + 1)) by omega] at h2
    simp only [Bool.or_eq_false_iff, decide_eq_false_iff_not, Nat.not_lt] at h2
    refine ⟨⟨h2.2, by show (!abit vec _) = true; rw [h2.1]; rfl, fun j hj1 hj2 => ?_⟩, ?_⟩
    · have h5 := h3 (j - a * 64) (by omega)
      rw [key, show a * 64 + (j - a * 64) = j by omega] at h5
      simp [show ¬ j < pos by omega] at h5
      simp [h5]
    · rw [List.length_drop] at h4
      refine Nat.le_trans h4 ?_
      have : a + 1 + (vec.length - (a + 1)) = vec.length := by omega
      rw [this]; omega

/-- What remains to be visited by the iterator. -/
def rem (neg : Bool) (s : IterState) (i : Nat) : Bool :=
  decide (s.idx * 64 ≤ i) && abit (s.cur :: s.rest.map (fun w => if neg then ~~~w else w)) (i - s.idx * 64)

theorem getLsbD_one_shift (k i : Nat) (hk : k < 64) : (1#64 <<< k).getLsbD i = decide (i = k) := by
  rw [BitVec.getLsbD_shiftLeft]
  by_cases h : i = k
  · subst h; simp [hk]
  · by_cases h2 : i < k
    · simp [h2, h]
    · have : i - k ≠ 0 := by omega
      simp [h, h2, this]

theorem iterBits_spec (neg : Bool) (rest : List Word) : ∀ (cur : Word) (idx : Nat),
    match iterBits neg cur idx rest with
    | none => ∀ i, rem neg ⟨cur, idx, rest⟩ i = false
    | some (i, s') => rem neg ⟨cur, idx, rest⟩ i = true ∧
        (∀ j, j < i → rem neg ⟨cur, idx, rest⟩ j = false) ∧
        ∀ j, rem neg s' j = (rem neg ⟨cur, idx, rest⟩ j && decide (j ≠ i)) := by
  have hit : ∀ (cur : Word) (idx : Nat) (rest : List Word), cur ≠ 0 →
      rem neg ⟨cur, idx, rest⟩ (idx * 64 + ctz cur) = true ∧
      (∀ j, j < idx * 64 + ctz cur → rem neg ⟨cur, idx, rest⟩ j = false) ∧
      ∀ j, rem neg ⟨cur ^^^ (1#64 <<< ctz cur), idx, rest⟩ j
        = (rem neg ⟨cur, idx, rest⟩ j && decide (j ≠ idx * 64 + ctz cur)) := by
    intro cur idx rest h
    obtain ⟨h1, h2, h3⟩ := ctz_spec h
    refine ⟨?_, fun j hj => ?_, fun j => ?_⟩
    · simp only [rem]
      rw [show idx * 64 + ctz cur - idx * 64 = ctz cur by omega, abit_cons_lt h1, h2]
      simp
    · simp only [rem]
      by_cases hle : idx * 64 ≤ j
      · rw [abit_cons_lt (by omega), h3 _ (by omega)]; simp
      · simp [hle]
    · simp only [rem]
      by_cases hle : idx * 64 ≤ j
      · by_cases hj : j - idx * 64 < 64
        · rw [abit_cons_lt hj, abit_cons_lt hj, BitVec.getLsbD_xor, getLsbD_one_shift _ _ h1]
          by_cases he : j = idx * 64 + ctz cur
          · have : j - idx * 64 = ctz cur := by omega
            simp [he, h2]
          · have : j - idx * 64 ≠ ctz cur := by omega
            simp [he, this]
        · rw [abit_cons_ge (by omega), abit_cons_ge (by omega)]
          have : j ≠ idx * 64 + ctz cur := by omega
          simp [this]
      · simp [hle]
  induction rest with
  | nil =>
    intro cur idx
    unfold iterBits
    by_cases h : cur = 0
    · simp only [h, if_true]
      intro i
      simp only [rem, List.map_nil]
      by_cases hj : i - idx * 64 < 64
      · rw [abit_cons_lt hj]; simp
      · rw [abit_cons_ge (by omega)]; simp
    · simp only [h, if_false]
      exact hit cur idx [] h
  | cons w rest ih =>
    intro cur idx
    unfold iterBits
    by_cases h : cur = 0
    · simp only [h, if_true]
      have hrem : ∀ i, rem neg ⟨0, idx, w :: rest⟩ i
          = rem neg ⟨if neg then ~~~w else w, idx + 1, rest⟩ i := by
        intro i
        simp only [rem, List.map_cons]
        by_cases hle : idx * 64 ≤ i
        · by_cases hj : i - idx * 64 < 64
          · rw [abit_cons_lt hj]
            simp [show ¬ (idx + 1) * 64 ≤ i by omega]
          · rw [abit_cons_ge (by omega), show i - idx * 64 - 64 = i - (idx + 1) * 64 by omega]
            simp [hle, show (idx + 1) * 64 ≤ i by omega]
        · simp [hle, show ¬ (idx + 1) * 64 ≤ i by omega]
      have := ih (if neg then ~~~w else w) (idx + 1)
      cases hr : iterBits neg (if neg then ~~~w else w) (idx + 1) rest with
      | none => rw [hr] at this; intro i; rw [hrem]; exact this i
      | some p =>
        rw [hr] at this
        obtain ⟨i, s'⟩ := p
        refine ⟨by rw [hrem]; exact this.1, fun j hj => by rw [hrem]; exact this.2.1 j hj,
          fun j => by rw [hrem]; exact this.2.2 j⟩
    · simp only [h, if_false]
      exact hit cur idx (w :: rest) h

theorem iterAll_spec (neg : Bool) (N : Nat) : ∀ (fuel : Nat) (s : IterState) (lo : Nat),
    (∀ j, j < lo → rem neg s j = false) → (∀ j, N ≤ j → rem neg s j = false) → N < lo + fuel →
    Spec.Enumerates (rem neg s) (iterAll neg fuel s) := by
  intro fuel
  induction fuel with
  | zero =>
    intro s lo h1 h2 h3
    refine ⟨List.Pairwise.nil, fun i => ?_⟩
    simp only [iterAll, List.not_mem_nil, false_iff, Bool.not_eq_true]
    by_cases h : i < lo
    · exact h1 i h
    · exact h2 i (by omega)
  | succ fuel ih =>
    intro s lo h1 h2 h3
    have := iterBits_spec neg s.rest s.cur s.idx
    unfold iterAll
    cases hr : iterBits neg s.cur s.idx s.rest with
    | none =>
      rw [hr] at this
      refine ⟨List.Pairwise.nil, fun i => ?_⟩
      simp only [List.not_mem_nil, false_iff, Bool.not_eq_true]
      exact this i
    | some p =>
      obtain ⟨i, s'⟩ := p
      rw [hr] at this
      obtain ⟨g1, g2, g3⟩ := this
      have hlo : lo ≤ i := by
        apply Classical.byContradiction
        intro hc
        rw [h1 i (by omega)] at g1
        exact Bool.noConfusion g1
      have hrec := ih s' (i + 1)
        (fun j hj => by
          rw [g3 j]
          by_cases he : j = i
          · simp [he]
          · rw [g2 j (by omega)]; simp)
        (fun j hj => by rw [g3 j, h2 j hj]; simp) (by omega)
      refine ⟨List.pairwise_cons.2 ⟨fun j hj => ?_, hrec.1⟩, fun j => ?_⟩
      · have hm := (hrec.2 j).1 hj
        rw [g3 j] at hm
        simp only [ne_eq, Bool.and_eq_true, decide_eq_true_eq] at hm
        apply Classical.byContradiction
        intro hc
        have : j < i := by omega
        rw [g2 j this] at hm
        exact Bool.noConfusion hm.1
      · rw [List.mem_cons, hrec.2 j, g3 j]
        by_cases he : j = i
        · simpa [he] using g1
        · simp [he]

/-- **C10.** Iterating with `iteratesetbits` visits exactly the set bits, in increasing order, each once,
and then stops; any number of calls beyond `64 * slots` is enough. -/
theorem C10_iteratesetbits (vec : List Word) (fuel : Nat) (hf : 64 * vec.length < fuel) :
    Spec.Enumerates (abit vec) (iterAll false fuel (iterInit false vec)) := by
  cases vec with
  | nil =>
    have := iterAll_spec false 0 fuel (iterInit false []) 0 (by omega)
      (fun j _ => by
        simp only [iterInit, rem, List.map_nil]
        by_cases hj : j < 64
        · rw [abit_cons_lt (by omega)]; simp
        · rw [abit_cons_ge (by omega)]; simp)
      (by simpa using hf)
    refine ⟨this.1, fun i => (this.2 i).trans ?_⟩
    simp only [iterInit, rem, List.map_nil, abit_nil]
    by_cases hj : i < 64
    · rw [abit_cons_lt (by omega)]; simp
    · rw [abit_cons_ge (by omega)]; simp
  | cons w ws =>
    have hrem : ∀ j, rem false (iterInit false (w :: ws)) j = abit (w :: ws) j := by
      intro j; simp [iterInit, rem]
    have := iterAll_spec false (64 * (w :: ws).length) fuel (iterInit false (w :: ws)) 0 (by omega)
      (fun j hj => by rw [hrem]; exact abit_ge hj) (by omega)
    exact ⟨this.1, fun i => by rw [this.2 i, hrem]⟩

/-- **C10.** `iterateunsetbits` visits exactly the unset bits within the array, in increasing order. -/
theorem C10_iterateunsetbits (vec : List Word) (fuel : Nat) (hf : 64 * vec.length < fuel) :
    Spec.Enumerates (fun i => decide (i < 64 * vec.length) && !abit vec i)
      (iterAll true fuel (iterInit true vec)) := by
  cases vec with
  | nil =>
    have := iterAll_spec true 0 fuel (iterInit true []) 0 (by omega)
      (fun j _ => by
        simp only [iterInit, rem, List.map_nil]
        by_cases hj : j < 64
        · rw [abit_cons_lt (by omega)]; simp
        · rw [abit_cons_ge (by omega)]; simp)
      (by simpa using hf)
    refine ⟨this.1, fun i => (this.2 i).trans ?_⟩
    simp only [iterInit, rem, List.map_nil, abit_nil]
    by_cases hj : i < 64
    · rw [abit_cons_lt (by omega)]; simp
    · rw [abit_cons_ge (by omega)]; simp
  | cons w ws =>
    have hnot : ∀ (vs : List Word) j, abit (vs.map (fun w => ~~~w)) j
        = (decide (j < 64 * vs.length) && !abit vs j) := by
      intro vs
      induction vs with
      | nil => intro j; simp
      | cons v vs ih =>
        intro j
        by_cases hj : j < 64
        · rw [List.map_cons, abit_cons_lt hj, abit_cons_lt hj, BitVec.getLsbD_not]
          have : j < 64 * (v :: vs).length := by simp; omega
          simp only [hj, this]
        · rw [List.map_cons, abit_cons_ge (by omega), abit_cons_ge (by omega), ih]
          congr 1
          apply decide_eq_decide.2
          simp; omega
    have hrem : ∀ j, rem true (iterInit true (w :: ws)) j
        = (decide (j < 64 * (w :: ws).length) && !abit (w :: ws) j) := by
      intro j
      rw [← hnot]
      simp [iterInit, rem]
    have := iterAll_spec true (64 * (w :: ws).length) fuel (iterInit true (w :: ws)) 0 (by omega)
      (fun j hj => by rw [hrem, decide_eq_false (by omega)]; rfl) (by omega)
    exact ⟨this.1, fun i => by rw [this.2 i, hrem]⟩

/-- **C10.** `abitcount` is the number of set bits. -/
theorem C10_abitcount (vec : List Word) :
    abitcount vec = ((List.range (64 * vec.length)).filter (abit vec)).length := by
  induction vec with
  | nil => simp [abitcount]
  | cons w ws ih =>
    rw [abitcount, ih]
    have e : 64 * (w :: ws).length = 64 + 64 * ws.length := by simp; omega
    rw [e, List.range_add, List.filter_append, List.length_append]
    congr 1
    · rw [popcount, List.countP_eq_length_filter]
      apply congrArg
      apply List.filter_congr
      intro i hi
      rw [abit_cons_lt (by simpa using hi)]
    · rw [List.filter_map, List.length_map]
      congr 1
      apply List.filter_congr
      intro i _
      simp only [Function.comp]
      rw [abit_cons_ge (by omega), show 64 + i - 64 = i by omega]

/-- **C10.** `abitlength` is one more than the most significant set bit, 0 if there is none. -/
theorem C10_abitlength (vec : List Word) :
    (∀ j, abitlength vec vec.length ≤ j → abit vec j = false) ∧
    (abitlength vec vec.length ≠ 0 → abit vec (abitlength vec vec.length - 1) = true) := by
  have key : ∀ a, a ≤ vec.length → (∀ j, 64 * a ≤ j → abit vec j = false) →
      (∀ j, abitlength vec a ≤ j → abit vec j = false) ∧
      (abitlength vec a ≠ 0 → abit vec (abitlength vec a - 1) = true) := by
    intro a
    induction a with
    | zero => intro _ h; exact ⟨fun j _ => h j (by omega), fun h => absurd rfl h⟩
    | succ a ih =>
      intro ha h
      unfold abitlength
      extract_lets w
      by_cases hw : w = 0
      · simp only [hw, ne_eq, not_true_eq_false, if_false]
        refine ih (by omega) (fun j hj => ?_)
        by_cases hj' : j < 64 * (a + 1)
        · unfold abit
          have : j / 64 = a := by omega
          rw [this]
          show (w.getLsbD _) = false
          rw [hw]; simp
        · exact h j (by omega)
      · obtain ⟨h1, h2, h3⟩ := clz_spec hw
        simp only [hw, ne_eq, not_false_eq_true, if_true]
        refine ⟨fun j hj => ?_, fun _ => ?_⟩
        · by_cases hj' : j < 64 * (a + 1)
          · unfold abit
            have : j / 64 = a := by omega
            rw [this]
            exact h3 _ (by omega)
          · exact h j (by omega)
        · unfold abit
          have e1 : ((a + 1) * 64 - clz w - 1) / 64 = a := by omega
          have e2 : ((a + 1) * 64 - clz w - 1) % 64 = 63 - clz w := by omega
          rw [e1, e2]; exact h2
  exact key vec.length (Nat.le_refl _) (fun j hj => abit_ge hj)

/-- **C10.** Union, intersection and subset test on arrays of the same number of words. -/
theorem C10_setops (a b : List Word) (h : a.length = b.length) :
    (∀ i, abit (setunion a b) i = (abit a i || abit b i)) ∧
    (∀ i, abit (setintersect a b) i = (abit a i && abit b i)) ∧
    (subset a b = true ↔ ∀ i, abit a i = true → abit b i = true) := by
  induction a generalizing b with
  | nil =>
    cases b with
    | nil => simp [setunion, setintersect, subset]
    | cons y b => simp at h
  | cons x a ih =>
    cases b with
    | nil => simp at h
    | cons y b =>
      obtain ⟨h1, h2, h3⟩ := ih b (by simpa using h)
      refine ⟨fun i => ?_, fun i => ?_, ?_⟩
      · simp only [setunion, List.zipWith_cons_cons]
        by_cases hi : i < 64
        · simp only [abit_cons_lt hi, BitVec.getLsbD_or]
        · simp only [abit_cons_ge (Nat.le_of_not_lt hi)]; exact h1 _
      · simp only [setintersect, List.zipWith_cons_cons]
        by_cases hi : i < 64
        · simp only [abit_cons_lt hi, BitVec.getLsbD_and]
        · simp only [abit_cons_ge (Nat.le_of_not_lt hi)]; exact h2 _
      · unfold subset
        by_cases hx : (x &&& y) = x
        · simp only [hx, ne_eq, not_true_eq_false, if_false, h3]
          constructor
          · intro hs i
            by_cases hi : i < 64
            · rw [abit_cons_lt hi, abit_cons_lt hi]
              intro hb
              rw [← hx, BitVec.getLsbD_and] at hb
              simp at hb; exact hb.2
            · rw [abit_cons_ge (by omega), abit_cons_ge (by omega)]; exact hs _
          · intro hs i
            have := hs (i + 64)
            rw [abit_cons_ge (by omega), abit_cons_ge (by omega)] at this
            simpa using this
        · simp only [hx, ne_eq, not_false_eq_true, if_true, Bool.false_eq_true, false_iff]
          intro hs
          apply hx
          apply BitVec.eq_of_getLsbD_eq
          intro i hi
          have := hs i
          rw [abit_cons_lt hi, abit_cons_lt hi] at this
          rw [BitVec.getLsbD_and]
          cases hb : x.getLsbD i
          · simp
          · simp [this hb]

theorem abit_modify (vec : List Word) (b i : Nat) (f : Word → Word) (hb : b < 64 * vec.length) :
    abit (vec.modify (b / 64) f) i =
      if i / 64 = b / 64 then (f (vec.getD (b / 64) 0)).getLsbD (i % 64) else abit vec i := by
  have hlt : b / 64 < vec.length := by omega
  unfold abit
  split
  · rename_i h
    rw [h]
    simp [List.getElem?_modify, hlt]
  · rename_i h
    simp only [List.getD_eq_getElem?_getD, List.getElem?_modify]
    simp [Ne.symm h]

/-- **C10.** `SETBIT`, `CLEARBIT`, `TOGGLEBIT` change exactly the addressed bit, `TESTBIT` reads it. -/
theorem C10_single_bit (vec : List Word) (b : Nat) (hb : b < 64 * vec.length) :
    (∀ i, abit (setbit vec b) i = (abit vec i || decide (i = b))) ∧
    (∀ i, abit (clearbit vec b) i = (abit vec i && decide (i ≠ b))) ∧
    (∀ i, abit (togglebit vec b) i = (abit vec i ^^ decide (i = b))) ∧
    testbit vec b = abit vec b := by
  have hm : b % 64 < 64 := Nat.mod_lt _ (by omega)
  have hi64 : ∀ i, i % 64 < 64 := fun i => Nat.mod_lt _ (by omega)
  have hin : ∀ i, i / 64 = b / 64 → decide (i % 64 = b % 64) = decide (i = b) := by
    intro i h; apply decide_eq_decide.2; omega
  have hout : ∀ i, i / 64 ≠ b / 64 → i ≠ b := by intro i h he; exact h (by rw [he])
  refine ⟨fun i => ?_, fun i => ?_, fun i => ?_, ?_⟩
  · rw [setbit, abit_modify vec b i _ hb]
    split
    · rename_i h
      rw [BitVec.getLsbD_or, getLsbD_one_shift _ _ hm, hin i h]
      simp only [abit, h]
    · rename_i h
      simp [hout i h]
  · rw [clearbit, abit_modify vec b i _ hb]
    split
    · rename_i h
      rw [BitVec.getLsbD_and, BitVec.getLsbD_not, getLsbD_one_shift _ _ hm, hin i h]
      simp [abit, h, hi64 i]
    · rename_i h
      simp [hout i h]
  · rw [togglebit, abit_modify vec b i _ hb]
    split
    · rename_i h
      rw [BitVec.getLsbD_xor, getLsbD_one_shift _ _ hm, hin i h]
      simp only [abit, h]
    · rename_i h
      simp [hout i h]
  · unfold testbit abit
    cases hv : (vec.getD (b / 64) 0).getLsbD (b % 64)
    · simp only [ne_eq, decide_eq_false_iff_not, Decidable.not_not]
      apply BitVec.eq_of_getLsbD_eq
      intro i hi
      rw [BitVec.getLsbD_and, getLsbD_one_shift _ _ hm]
      by_cases he : i = b % 64
      · rw [he, hv]; simp
      · simp [he]
    · simp only [ne_eq, decide_eq_true_eq]
      intro h0
      have : (vec.getD (b / 64) 0 &&& (1#64 <<< (b % 64))).getLsbD (b % 64) = false := by
        rw [h0]; simp
      rw [BitVec.getLsbD_and, getLsbD_one_shift _ _ hm, hv] at this
      simp at this

/-- **C10.** `BITNSLOTS(n)` words are enough, and necessary, for `n` bits. -/
theorem C10_bitnslots (n s : Nat) : n ≤ 64 * s ↔ bitnslots n ≤ s := by
  unfold bitnslots
  omega

/-! Concrete cases, in particular at word boundaries. -/
example : anextset [0, 0b1000] 5 = some 67 ∧ anextset [0, 0] 5 = none := by decide +kernel
example : anextunset [BitVec.allOnes 64, 0b1] 3 = 65 ∧ 3 ≤ 64 * [BitVec.allOnes 64, 0b1].length := by
  decide +kernel
example : iterAll false 200 (iterInit false [0b101, 0, 0b1]) = [0, 2, 128] := by decide +kernel
example : nextset 0b001100110 3 = some 5 ∧ nextset 0b001100110 7 = none := by decide +kernel
example : nextunset (BitVec.allOnes 64) 0 = 64 := by decide +kernel
example : abitlength [1#64, 0, 0] 3 = 1 ∧ abitcount [3#64, 1] = 3 := by decide +kernel

end Disco.Bits
