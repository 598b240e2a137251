import Verif.Bits.Props
/-!
# C09, C32: fan-out and range decomposition

Specification: `Spec.MaxRun S (i, j)` says that `i..j` is a maximal block of consecutive members of `S`.
-/
namespace Disco.Bits

/-- `i..j` is a maximal run of consecutive members of the set `S`. -/
def Spec.MaxRun (S : Nat → Prop) (p : Nat × Nat) : Prop :=
  p.1 ≤ p.2 ∧ (∀ k, p.1 ≤ k → k ≤ p.2 → S k) ∧ (∀ k, k + 1 = p.1 → ¬ S k) ∧ ¬ S (p.2 + 1)

/-- `l` lists the maximal runs of `S` from left to right, each once. -/
def Spec.ListsRuns (S : Nat → Prop) (l : List (Nat × Nat)) : Prop :=
  l.Pairwise (fun p q => p.2 + 1 < q.1) ∧ ∀ p, p ∈ l ↔ Spec.MaxRun S p

/-! ### getbits -/

theorem getbitsFrom_spec (m : Nat) : ∀ n,
    (getbitsFrom n m).Pairwise (· < ·) ∧ ∀ i, i ∈ getbitsFrom n m ↔ n ≤ i ∧ m.testBit (i - n) = true := by
  induction m using Nat.strongRecOn with
  | ind m ih =>
    intro n
    unfold getbitsFrom
    by_cases h0 : m = 0
    · simp [h0]
    · rw [if_neg h0]
      have hsh : m >>> 1 = m / 2 := by rw [Nat.shiftRight_eq_div_pow, Nat.pow_one]
      have hlt : m >>> 1 < m := by omega
      obtain ⟨ih1, ih2⟩ := ih _ hlt (n + 1)
      have key : ∀ i, n + 1 ≤ i → (m >>> 1).testBit (i - (n + 1)) = m.testBit (i - n) := by
        intro i hi
        rw [Nat.testBit_shiftRight]; congr 1; omega
      have hb0 : m.testBit 0 = decide (m % 2 = 1) := Nat.testBit_zero m
      have hand : m &&& 1 = m % 2 := by simp
      split
      · rename_i h1
        rw [hand] at h1
        refine ⟨List.pairwise_cons.2 ⟨fun i hi => ?_, ih1⟩, fun i => ?_⟩
        · have := (ih2 i).1 hi; omega
        · rw [List.mem_cons, ih2]
          constructor
          · rintro (rfl | ⟨h, h'⟩)
            · simp [h1]
            · exact ⟨by omega, by rw [← key i h]; exact h'⟩
          · rintro ⟨h, h'⟩
            by_cases hi : i = n
            · exact Or.inl hi
            · exact Or.inr ⟨by omega, by rw [key i (by omega)]; exact h'⟩
      · rename_i h1
        rw [hand] at h1
        refine ⟨ih1, fun i => ?_⟩
        rw [ih2]
        constructor
        · rintro ⟨h, h'⟩
          exact ⟨by omega, by rw [← key i h]; exact h'⟩
        · rintro ⟨h, h'⟩
          by_cases hi : i = n
          · subst hi; simp [h1] at h'
          · exact ⟨by omega, by rw [key i (by omega)]; exact h'⟩

/-- **C09.** `getbits` lists exactly the set bits, in increasing order, each once. -/
theorem C09_getbits (m : Nat) : Spec.Enumerates m.testBit (getbits m) := by
  obtain ⟨h1, h2⟩ := getbitsFrom_spec m 0
  exact ⟨h1, fun i => by rw [getbits, h2 i]; simp⟩

theorem testBit_add_disjoint (b : Nat) : ∀ (a : Nat), a.testBit b = false → ∀ i,
    (1 <<< b + a).testBit i = (decide (i = b) || a.testBit i) := by
  induction b with
  | zero =>
    intro a h i
    rw [Nat.testBit_zero] at h
    have h' : ¬ a % 2 = 1 := by simpa using h
    cases i with
    | zero => rw [Nat.testBit_zero, Nat.testBit_zero]; simp; omega
    | succ i =>
      rw [Nat.testBit_add_one, Nat.testBit_add_one]
      have : (1 <<< 0 + a) / 2 = a / 2 := by simp; omega
      rw [this]; simp
  | succ b ih =>
    intro a h i
    rw [Nat.testBit_add_one] at h
    have e : 1 <<< (b + 1) = 2 * 1 <<< b := by
      rw [Nat.shiftLeft_eq, Nat.shiftLeft_eq, Nat.pow_succ]; omega
    cases i with
    | zero =>
      rw [Nat.testBit_zero, Nat.testBit_zero, e]
      simp
    | succ i =>
      rw [Nat.testBit_add_one, Nat.testBit_add_one, e]
      have : (2 * 1 <<< b + a) / 2 = 1 <<< b + a / 2 := by omega
      rw [this, ih _ h i]; simp

/-- **C09.** The bitset that `addbitsets` computes from pairwise distinct leaves has exactly the leaves
as members. -/
theorem C09_bitsetOf (l : List Nat) (h : l.Nodup) (i : Nat) :
    (bitsetOf l).testBit i = true ↔ i ∈ l := by
  induction l generalizing i with
  | nil => simp [bitsetOf]
  | cons a l ih =>
    rw [List.nodup_cons] at h
    have e : bitsetOf (a :: l) = 1 <<< a + bitsetOf l := rfl
    have hf : (bitsetOf l).testBit a = false := by
      cases hc : (bitsetOf l).testBit a
      · rfl
      · exact absurd ((ih h.2 a).1 hc) h.1
    rw [e, testBit_add_disjoint _ _ hf]
    simp [ih h.2 i]

/-! ### intervals -/

theorem intervalsLoop_some (l : List Nat) : ∀ (s p : Nat), s ≤ p → l.Pairwise (· < ·) → (∀ a ∈ l, p < a) →
    Spec.ListsRuns (fun k => (s ≤ k ∧ k ≤ p) ∨ k ∈ l) (intervalsLoop (some (s, p)) l) ∧
    ∀ q ∈ intervalsLoop (some (s, p)) l, s ≤ q.1 := by
  induction l with
  | nil =>
    intro s p hsp _ _
    simp only [intervalsLoop]
    refine ⟨⟨by simp, fun q => ?_⟩, by simp⟩
    rw [List.mem_singleton]
    constructor
    · rintro rfl
      refine ⟨hsp, fun k h1 h2 => Or.inl ⟨h1, h2⟩, fun k hk => ?_, ?_⟩
      · simp at hk ⊢; omega
      · simp
    · rintro ⟨h1, h2, h3, h4⟩
      have hi := h2 q.1 (by omega) h1
      have hj := h2 q.2 h1 (by omega)
      simp only [List.not_mem_nil, or_false] at hi hj h3 h4
      obtain ⟨i, j⟩ := q
      simp only at *
      have : i = s := by
        by_cases hs : i = s
        · exact hs
        · exact absurd ⟨by omega, by omega⟩ (h3 (i - 1) (by omega))
      have : j = p := by
        by_cases hs : j = p
        · exact hs
        · exact absurd ⟨by omega, by omega⟩ h4
      simp_all
  | cons a l ih =>
    intro s p hsp hpw hgt
    rw [List.pairwise_cons] at hpw
    have hpa := hgt a (by simp)
    unfold intervalsLoop
    split
    · rename_i h
      have := ih s a (by omega) hpw.2 hpw.1
      have e : (fun k => (s ≤ k ∧ k ≤ p) ∨ k ∈ a :: l) = (fun k => (s ≤ k ∧ k ≤ a) ∨ k ∈ l) := by
        funext k
        apply propext
        rw [List.mem_cons]
        constructor
        · rintro (h1 | h1 | h1)
          · exact Or.inl (by omega)
          · exact Or.inl (by omega)
          · exact Or.inr h1
        · rintro (h1 | h1)
          · by_cases hk : k = a
            · exact Or.inr (Or.inl hk)
            · exact Or.inl (by omega)
          · exact Or.inr (Or.inr h1)
      rw [e]
      exact this
    · rename_i h
      obtain ⟨⟨i1, i2⟩, i3⟩ := ih a a (by omega) hpw.2 hpw.1
      have hS : ∀ k, ((a ≤ k ∧ k ≤ a) ∨ k ∈ l) ↔ k ∈ a :: l := by
        intro k; rw [List.mem_cons]
        constructor
        · rintro (h1 | h1)
          · exact Or.inl (by omega)
          · exact Or.inr h1
        · rintro (h1 | h1)
          · exact Or.inl (by omega)
          · exact Or.inr h1
      have hge : ∀ k, k ∈ a :: l → a ≤ k := by
        intro k hk
        rcases List.mem_cons.1 hk with rfl | hk
        · exact Nat.le_refl _
        · exact Nat.le_of_lt (hpw.1 k hk)
      refine ⟨⟨List.pairwise_cons.2 ⟨fun q hq => ?_, i1⟩, fun q => ?_⟩, ?_⟩
      · have := i3 q hq
        simp only
        omega
      · rw [List.mem_cons]
        constructor
        · rintro (rfl | hq)
          · refine ⟨hsp, fun k h1 h2 => Or.inl ⟨h1, h2⟩, fun k hk => ?_, ?_⟩
            · simp only at hk ⊢
              rintro (h1 | h1)
              · omega
              · have := hge k h1; omega
            · simp only
              rintro (h1 | h1)
              · omega
              · have := hge _ h1; omega
          · have h0 := i3 q hq
            obtain ⟨h1, h2, h3, h4⟩ := (i2 q).1 hq
            refine ⟨h1, fun k g1 g2 => Or.inr ((hS k).1 (h2 k g1 g2)), fun k g => ?_, ?_⟩
            · rintro (g1 | g1)
              · omega
              · exact h3 k g ((hS k).2 g1)
            · rintro (g1 | g1)
              · omega
              · exact h4 ((hS _).2 g1)
        · rintro ⟨h1, h2, h3, h4⟩
          obtain ⟨i, j⟩ := q
          simp only at h1 h2 h3 h4
          by_cases hip : i ≤ p
          · left
            have hi := h2 i (by omega) h1
            have his : s ≤ i := by
              rcases hi with g | g
              · exact g.1
              · have := hge i g; omega
            have : i = s := by
              by_cases hs : i = s
              · exact hs
              · exact absurd (Or.inl ⟨by omega, by omega⟩) (h3 (i - 1) (by omega))
            have hjp : j ≤ p := by
              by_cases hj : j ≤ p
              · exact hj
              · have := h2 (p + 1) (by omega) (by omega)
                rcases this with g | g
                · omega
                · have := hge _ g; omega
            have : j = p := by
              by_cases hs : j = p
              · exact hs
              · exact absurd (Or.inl ⟨by omega, by omega⟩) h4
            simp_all
          · right
            rw [i2]
            refine ⟨h1, fun k g1 g2 => ?_, fun k g => ?_, ?_⟩
            · rcases h2 k g1 g2 with g | g
              · simp only at g1; omega
              · exact (hS k).2 g
            · exact fun g' => h3 k g (Or.inr ((hS _).1 g'))
            · exact fun g' => h4 (Or.inr ((hS _).1 g'))
      · intro q hq
        rcases List.mem_cons.1 hq with rfl | hq
        · exact Nat.le_refl _
        · have := i3 q hq; omega

/-- **C32.** `intervals` of a bitset lists exactly the maximal runs of set bits as
`(first, last)` pairs, from left to right, each once. -/
theorem C32_intervals (m : Nat) : Spec.ListsRuns (fun k => m.testBit k = true) (intervals m) := by
  have hg := C09_getbits m
  have hS : (fun k => m.testBit k = true) = (fun k => k ∈ getbits m) := by
    funext k; exact propext (hg.2 k).symm
  rw [hS, intervals]
  have hp := hg.1
  clear hS hg
  cases h : getbits m with
  | nil =>
    simp only [intervalsLoop]
    refine ⟨by simp, fun p => ?_⟩
    simp only [List.not_mem_nil, false_iff]
    rintro ⟨h1, h2, _, _⟩
    exact h2 p.1 (by omega) h1
  | cons a l =>
    rw [h, List.pairwise_cons] at hp
    have := (intervalsLoop_some l a a (by omega) hp.2 hp.1).1
    have e : (fun k => k ∈ a :: l) = (fun k => (a ≤ k ∧ k ≤ a) ∨ k ∈ l) := by
      funext k
      apply propext
      rw [List.mem_cons]
      constructor
      · rintro (h1 | h1)
        · exact Or.inl (by omega)
        · exact Or.inr h1
      · rintro (h1 | h1)
        · exact Or.inl (by omega)
        · exact Or.inr h1
    rw [e]
    simpa only [intervalsLoop] using this

/-! ### ranges -/

/-- A run of consecutive numbers. -/
def Spec.Consecutive : List Nat → Prop
  | [] => True
  | [_] => True
  | a :: b :: l => b = a + 1 ∧ Spec.Consecutive (b :: l)

/-- The decomposition of a list into maximal consecutive blocks. -/
def Spec.RangeDecomposition (s : List Nat) (rs : List (List Nat)) : Prop :=
  rs.flatten = s ∧ (∀ r ∈ rs, r ≠ [] ∧ Spec.Consecutive r) ∧
  ∀ r₁ r₂ pre post, rs = pre ++ r₁ :: r₂ :: post → ∀ x ∈ r₁.getLast?, ∀ y ∈ r₂.head?, y ≠ x + 1

theorem consecutive_snoc (r : List Nat) (a : Nat) (h : Spec.Consecutive r)
    (ha : r.getLast?.map (· + 1) = some a) : Spec.Consecutive (r ++ [a]) := by
  induction r with
  | nil => simp at ha
  | cons x r ih =>
    cases r with
    | nil => simp at ha; simp [Spec.Consecutive, ha]
    | cons y r =>
      obtain ⟨h1, h2⟩ := h
      refine ⟨h1, ih h2 ?_⟩
      rw [List.getLast?_cons_cons] at ha
      exact ha

theorem rangesLoop_spec (s : List Nat) : ∀ r, Spec.Consecutive r →
    (rangesLoop r s).flatten = r ++ s ∧ (∀ q ∈ rangesLoop r s, q ≠ [] ∧ Spec.Consecutive q) ∧
    (∀ r₁ r₂ pre post, rangesLoop r s = pre ++ r₁ :: r₂ :: post →
      ∀ x ∈ r₁.getLast?, ∀ y ∈ r₂.head?, y ≠ x + 1) ∧
    (r ≠ [] → ∀ q ∈ (rangesLoop r s).head?, q.head? = r.head?) := by
  induction s with
  | nil =>
    intro r hr
    unfold rangesLoop
    split
    · rename_i h
      refine ⟨by simp, by simpa using ⟨h, hr⟩, ?_, by simp⟩
      intro r₁ r₂ pre post he
      have := congrArg List.length he
      simp at this
      omega
    · rename_i h
      have h' : r = [] := by simpa using h
      subst h'
      simp
  | cons a s ih =>
    intro r hr
    unfold rangesLoop
    split
    · rename_i h
      have hc : Spec.Consecutive (r ++ [a]) := by
        rcases h with h | h
        · subst h; simp [Spec.Consecutive]
        · exact consecutive_snoc r a hr h
      obtain ⟨h1, h2, h3, h4⟩ := ih _ hc
      refine ⟨by rw [h1]; simp, h2, h3, fun hne q hq => ?_⟩
      rw [h4 (by simp) q hq]
      cases r with
      | nil => exact absurd rfl hne
      | cons => rfl
    · rename_i h
      rw [not_or] at h
      obtain ⟨h1, h2, h3, h4⟩ := ih [a] trivial
      refine ⟨by rw [List.flatten_cons, h1]; rfl, ?_, ?_, ?_⟩
      · intro q hq
        rcases List.mem_cons.1 hq with rfl | hq
        · exact ⟨h.1, hr⟩
        · exact h2 q hq
      · intro r₁ r₂ pre post he x hx y hy
        cases pre with
        | nil =>
          rw [List.nil_append] at he
          injection he with he1 he2
          subst he1
          have := h4 (by simp) r₂ (by rw [he2]; rfl)
          rw [this] at hy
          simp at hy
          subst hy
          intro hc
          apply h.2
          rw [Option.mem_def] at hx
          rw [hx]; simp [hc]
        | cons p pre =>
          injection he with he1 he2
          exact h3 r₁ r₂ pre post he2 x hx y hy
      · intro _ q hq
        simp at hq
        rw [hq]

/-- **C32.** `ranges` cuts a sequence into maximal blocks of consecutive numbers: the blocks
concatenate to the input, each block is non-empty and consecutive, and two neighbouring
blocks could not be joined. -/
theorem C32_ranges (s : List Nat) : Spec.RangeDecomposition s (ranges s) := by
  obtain ⟨h1, h2, h3, _⟩ := rangesLoop_spec s [] trivial
  exact ⟨by rw [ranges]; simpa using h1, h2, h3⟩

/-- **C32.** On a strictly increasing sequence, `rangeheads` returns the first elements of the blocks
found by `ranges`. -/
theorem C32_rangeheads (s : List Nat) (h : s.Pairwise (· < ·)) :
    rangeheads s = (ranges s).filterMap List.head? := by
  obtain ⟨h1, h2, h3⟩ := C32_ranges s
  have key : ∀ rs : List (List Nat), (∀ r ∈ rs, r ≠ [] ∧ Spec.Consecutive r) →
      (∀ r₁ r₂ pre post, rs = pre ++ r₁ :: r₂ :: post → ∀ x ∈ r₁.getLast?, ∀ y ∈ r₂.head?, y ≠ x + 1) →
      rs.flatten.Pairwise (· < ·) → ∀ pre : List Nat, (pre ++ rs.flatten).Pairwise (· < ·) →
      (∀ r ∈ rs.head?, ∀ x ∈ pre.getLast?, ∀ y ∈ r.head?, y ≠ x + 1) →
      rs.flatten.filter (fun a => !(a ≠ 0 && (pre ++ rs.flatten).contains (a - 1)))
        = rs.filterMap List.head? := by
    intro rs
    induction rs with
    | nil => intros; rfl
    | cons r rs ih =>
      intro g2 g3 g4 pre g5 g6
      obtain ⟨hne, hc⟩ := g2 r (by simp)
      cases r with
      | nil => exact absurd rfl hne
      | cons a r =>
        rw [List.flatten_cons] at g4 g5 ⊢
        have ih' := ih (fun q hq => g2 q (by simp [hq]))
          (fun r₁ r₂ p q he => g3 r₁ r₂ ((a :: r) :: p) q (by rw [he]; rfl))
          (List.pairwise_append.1 g4).2.1 (pre ++ (a :: r)) (by simpa using g5)
          (by
            intro q hq x hx y hy
            cases rs with
            | nil => simp at hq
            | cons q' rs =>
              simp at hq; subst hq
              refine g3 (a :: r) q' [] rs rfl x ?_ y hy
              simpa using hx)
        rw [List.filter_append, List.append_assoc] at *
        rw [ih', List.filterMap_cons]
        simp only [List.head?_cons]
        rw [← List.singleton_append (l := List.filterMap _ rs)]
        congr 1
        have ha : (!(decide (a ≠ 0) && (pre ++ (a :: r ++ rs.flatten)).contains (a - 1))) = true := by
          cases hh : (decide (a ≠ 0) && (pre ++ (a :: r ++ rs.flatten)).contains (a - 1)) with
          | false => rfl
          | true =>
            exfalso
            simp only [Bool.and_eq_true, decide_eq_true_eq, List.contains_iff_mem] at hh
            obtain ⟨hz, hm⟩ := hh
            rw [List.pairwise_append] at g5
            rcases List.mem_append.1 hm with hm | hm
            · -- the last element of pre is a - 1
              have : pre.getLast? = some (a - 1) := by
                obtain ⟨p1, p2, hp⟩ := List.append_of_mem hm
                cases p2 with
                | nil => rw [hp]; simp
                | cons z p2 =>
                  exfalso
                  have hzm : z ∈ pre := by rw [hp]; simp
                  have hz1 := g5.2.2 z hzm a (by simp)
                  have := g5.1
                  rw [hp, List.pairwise_append] at this
                  have := (List.pairwise_cons.1 this.2.1).1 z (by simp)
                  omega
              exact g6 (a :: r) rfl (a - 1) this a rfl (by omega)
            · have hm' : a - 1 = a ∨ a - 1 ∈ r ++ rs.flatten := by simpa using hm
              rcases hm' with hm' | hm'
              · omega
              · have := (List.pairwise_cons.1 g5.2.1).1 _ hm'
                omega
        rw [List.filter_cons, if_pos ha]
        congr 1
        rw [List.filter_eq_nil_iff]
        intro b hb
        have hmem : b - 1 ∈ a :: r ∧ b ≠ 0 := by
          clear ih ih' g2 g3 g4 g5 g6 ha hne h1 h2 h3
          induction r generalizing a with
          | nil => simp at hb
          | cons c r ihr =>
            obtain ⟨hc1, hc2⟩ := hc
            rcases List.mem_cons.1 hb with rfl | hb
            · subst hc1; simp
            · have := ihr c hc2 hb
              exact ⟨List.mem_cons_of_mem _ this.1, this.2⟩
        have : (pre ++ (a :: r ++ rs.flatten)).contains (b - 1) = true := by
          rw [List.contains_iff_mem]
          exact List.mem_append_right _ (List.mem_append_left _ hmem.1)
        rw [this]
        simp [hmem.2]
  have := key (ranges s) h2 h3 (by rw [h1]; exact h) [] (by simpa [h1] using h) (by simp)
  rw [h1] at this
  exact this

example : rangeheads [0, 1, 3, 4, 6] = [0, 3, 6] ∧ [0, 1, 3, 4, 6].Pairwise (· < ·) := by decide

/-! ### fan-out -/

/-- Helper: number of runs by recursion on the binary representation. -/
def runCount (n : Nat) : Nat :=
  if n = 0 then 0 else runCount (n / 2) + if n % 2 = 1 ∧ n / 2 % 2 = 0 then 1 else 0
termination_by n

theorem runCount_pos {n : Nat} (h : n ≠ 0) :
    runCount n = runCount (n / 2) + if n % 2 = 1 ∧ n / 2 % 2 = 0 then 1 else 0 := by
  rw [runCount]; simp [h]

theorem runCount_zero : runCount 0 = 0 := by rw [runCount]; simp

theorem getbitsFrom_pos {n : Nat} (h : n ≠ 0) (k : Nat) : getbitsFrom k n =
    if n % 2 = 1 then k :: getbitsFrom (k + 1) (n / 2) else getbitsFrom (k + 1) (n / 2) := by
  have hsh : n >>> 1 = n / 2 := by rw [Nat.shiftRight_eq_div_pow, Nat.pow_one]
  conv => lhs; unfold getbitsFrom
  simp [h, hsh]

theorem intervals_length_some (n : Nat) : ∀ k s p,
    (p + 1 = k → (intervalsLoop (some (s, p)) (getbitsFrom k n)).length
        = runCount n + if n % 2 = 0 then 1 else 0) ∧
    (p + 1 < k → (intervalsLoop (some (s, p)) (getbitsFrom k n)).length = runCount n + 1) := by
  induction n using Nat.strongRecOn with
  | ind n ih =>
    intro k s p
    by_cases h0 : n = 0
    · subst h0
      have : getbitsFrom k 0 = [] := by unfold getbitsFrom; simp
      rw [this, runCount_zero]
      simp [intervalsLoop]
    · rw [getbitsFrom_pos h0, runCount_pos h0]
      have hlt : n / 2 < n := by omega
      by_cases h1 : n % 2 = 1
      · rw [if_pos h1]
        constructor
        · intro hk
          rw [intervalsLoop, if_pos hk.symm, ((ih _ hlt (k + 1) s k).1 rfl)]
          simp [h1]
        · intro hk
          rw [intervalsLoop, if_neg (by omega), List.length_cons, ((ih _ hlt (k + 1) k k).1 rfl)]
          simp [h1]
      · rw [if_neg h1]
        constructor
        · intro hk
          rw [(ih _ hlt (k + 1) s p).2 (by omega)]
          simp [h1]
        · intro hk
          rw [(ih _ hlt (k + 1) s p).2 (by omega)]
          simp [h1]

theorem intervals_length_none (n : Nat) : ∀ k,
    (intervalsLoop none (getbitsFrom k n)).length = runCount n := by
  induction n using Nat.strongRecOn with
  | ind n ih =>
    intro k
    by_cases h0 : n = 0
    · subst h0
      have : getbitsFrom k 0 = [] := by unfold getbitsFrom; simp
      rw [this, runCount_zero]
      simp [intervalsLoop]
    · rw [getbitsFrom_pos h0, runCount_pos h0]
      by_cases h1 : n % 2 = 1
      · rw [if_pos h1, intervalsLoop, (intervals_length_some (n / 2) (k + 1) k k).1 rfl]
        simp [h1]
      · rw [if_neg h1, ih _ (by omega) (k + 1)]
        simp [h1]

theorem and_pred_double (n : Nat) : (2 * n) &&& (2 * n - 1) = 2 * (n &&& (n - 1)) := by
  apply Nat.eq_of_testBit_eq
  intro i
  cases i with
  | zero => simp [Nat.testBit_zero]
  | succ i =>
    rw [Nat.testBit_and, Nat.testBit_add_one, Nat.testBit_add_one, Nat.testBit_add_one,
      show 2 * n / 2 = n by omega, show (2 * n - 1) / 2 = n - 1 by omega,
      show 2 * (n &&& (n - 1)) / 2 = n &&& (n - 1) by omega, Nat.testBit_and]

theorem shift_and_double (x n : Nat) : ((2 * x) <<< 1) &&& (2 * n) = 2 * ((x <<< 1) &&& n) := by
  have e : ∀ y, y <<< 1 = 2 * y := fun y => by rw [Nat.shiftLeft_eq]; omega
  rw [e, e]
  apply Nat.eq_of_testBit_eq
  intro i
  cases i with
  | zero => simp [Nat.testBit_zero]
  | succ i =>
    rw [Nat.testBit_and, Nat.testBit_add_one, Nat.testBit_add_one, Nat.testBit_add_one,
      show 2 * (2 * x) / 2 = 2 * x by omega, show 2 * n / 2 = n by omega,
      show 2 * (2 * x &&& n) / 2 = 2 * x &&& n by omega, Nat.testBit_and]

theorem and_pred_odd (n : Nat) : (2 * n + 1) &&& (2 * n) = 2 * n := by
  apply Nat.eq_of_testBit_eq
  intro i
  cases i with
  | zero => simp [Nat.testBit_zero]
  | succ i =>
    rw [Nat.testBit_and, Nat.testBit_add_one, Nat.testBit_add_one, 
      show (2 * n + 1) / 2 = n by omega, show 2 * n / 2 = n by omega]
    simp

theorem fanoutBig_pos {a : Nat} (h : a ≠ 0) : fanoutBig a =
    (if ((a - (a &&& (a - 1))) <<< 1) &&& a = 0 then 1 else 0) + fanoutBig (a &&& (a - 1)) := by
  rw [fanoutBig]; simp [h]

theorem fanoutBig_double (n : Nat) : fanoutBig (2 * n) = fanoutBig n := by
  induction n using Nat.strongRecOn with
  | ind n ih =>
    by_cases h : n = 0
    · subst h; rfl
    · have h' : n &&& (n - 1) < n := and_pred_lt h
      rw [fanoutBig_pos (show 2 * n ≠ 0 by omega), fanoutBig_pos h, and_pred_double n, ih _ h',
        show 2 * n - 2 * (n &&& (n - 1)) = 2 * (n - (n &&& (n - 1))) by omega, shift_and_double]
      by_cases hz : (n - (n &&& (n - 1))) <<< 1 &&& n = 0
      · simp [hz]
      · rw [if_neg hz, if_neg (by omega)]

theorem fanoutBig_eq (n : Nat) : fanoutBig n = runCount n := by
  induction n using Nat.strongRecOn with
  | ind n ih =>
    by_cases h : n = 0
    · subst h; rw [runCount_zero]; rw [fanoutBig]; simp
    · rw [runCount_pos h, ← ih (n / 2) (by omega)]
      by_cases h1 : n % 2 = 1
      · obtain ⟨m, rfl⟩ : ∃ m, n = 2 * m + 1 := ⟨n / 2, by omega⟩
        rw [fanoutBig_pos h, show 2 * m + 1 - 1 = 2 * m by omega, and_pred_odd, fanoutBig_double,
          show (2 * m + 1) / 2 = m by omega, show 2 * m + 1 - 2 * m = 1 by omega, Nat.add_comm]
        congr 1
        have : 1 <<< 1 &&& (2 * m + 1) = 2 * (m % 2) := by
          apply Nat.eq_of_testBit_eq
          intro i
          cases i with
          | zero => simp [Nat.testBit_zero]
          | succ i =>
            rw [Nat.testBit_and, Nat.testBit_add_one, Nat.testBit_add_one, Nat.testBit_add_one,
              show (2 * m + 1) / 2 = m by omega, show 2 * (m % 2) / 2 = m % 2 by omega,
              show 1 <<< 1 / 2 = 1 from rfl, ← Nat.testBit_and, Nat.and_comm, Nat.and_one_is_mod]
        rw [this]
        by_cases h2 : m % 2 = 0 <;> simp [h2] <;> omega
      · obtain ⟨m, rfl⟩ : ∃ m, n = 2 * m := ⟨n / 2, by omega⟩
        rw [fanoutBig_double, show 2 * m / 2 = m by omega]
        simp

theorem runCount_drop_zeros (k : Nat) : ∀ v, (∀ i, i < k → Nat.testBit v i = false) →
    runCount (v >>> k) = runCount v := by
  induction k with
  | zero => intro v _; rfl
  | succ k ih =>
    intro v h
    have h0 := h 0 (by omega)
    rw [Nat.testBit_zero] at h0
    have h0' : v % 2 ≠ 1 := by simpa using h0
    have e : v >>> (k + 1) = (v / 2) >>> k := by
      rw [Nat.add_comm, Nat.shiftRight_add, Nat.shiftRight_eq_div_pow v 1, Nat.pow_one]
    rw [e, ih (v / 2) (fun i hi => by rw [← Nat.testBit_add_one]; exact h _ (by omega))]
    by_cases hv : v = 0
    · subst hv; rfl
    · rw [runCount_pos hv]; simp [h0']

theorem runCount_drop_ones (k : Nat) : ∀ v, (∀ i, i < k + 1 → Nat.testBit v i = true) →
    Nat.testBit v (k + 1) = false → runCount v = runCount (v >>> (k + 1)) + 1 := by
  induction k with
  | zero =>
    intro v h h'
    have h0 := h 0 (by omega)
    rw [Nat.testBit_zero] at h0
    have h0' : v % 2 = 1 := by simpa using h0
    rw [Nat.testBit_add_one, Nat.testBit_zero] at h'
    have h1' : v / 2 % 2 ≠ 1 := by simpa using h'
    rw [runCount_pos (by omega), if_pos ⟨h0', by omega⟩, Nat.shiftRight_eq_div_pow]
  | succ k ih =>
    intro v h h'
    have h0 := h 0 (by omega)
    rw [Nat.testBit_zero] at h0
    have h0' : v % 2 = 1 := by simpa using h0
    have h1 := h 1 (by omega)
    rw [Nat.testBit_add_one, Nat.testBit_zero] at h1
    have h1' : v / 2 % 2 = 1 := by simpa using h1
    have e : v >>> (k + 1 + 1) = (v / 2) >>> (k + 1) := by
      rw [Nat.add_comm, Nat.shiftRight_add, Nat.shiftRight_eq_div_pow v 1, Nat.pow_one]
    rw [e, ← ih (v / 2) (fun i hi => by rw [← Nat.testBit_add_one]; exact h _ (by omega))
      (by rw [← Nat.testBit_add_one]; exact h'), runCount_pos (by omega), if_neg (by omega), Nat.add_zero]

theorem fanoutWord_eq (fuel : Nat) : ∀ w : Word, w.toNat < 2 ^ fuel → w.toNat < 2 ^ 63 →
    fanoutWord fuel w = runCount w.toNat := by
  induction fuel with
  | zero =>
    intro w h _
    have : w.toNat = 0 := by simpa using h
    rw [this, runCount_zero]; rfl
  | succ fuel ih =>
    intro w hw hlt
    rw [fanoutWord]
    by_cases h0 : w = 0
    · simp [h0, runCount_zero]
    · rw [if_neg h0]
      obtain ⟨c1, c2, c3⟩ := ctz_spec h0
      have e1 : (w >>> ctz w).toNat = w.toNat >>> ctz w := by simp
      have hv1 : runCount (w >>> ctz w).toNat = runCount w.toNat := by
        rw [e1]
        apply runCount_drop_zeros
        intro i hi
        exact c3 i hi
      have hb0 : (w >>> ctz w).getLsbD 0 = true := by
        rw [BitVec.getLsbD_ushiftRight, Nat.add_zero]; exact c2
      have hle : (w >>> ctz w).toNat ≤ w.toNat := by
        rw [e1, Nat.shiftRight_eq_div_pow]; exact Nat.div_le_self _ _
      revert hv1 hb0 hle
      generalize w >>> ctz w = v
      intro hv1 hb0 hle
      have hnz : ~~~v ≠ 0 := by
        intro hc
        have h63 : (~~~v).getLsbD 63 = false := by rw [hc]; simp
        rw [BitVec.getLsbD_not] at h63
        have : v.getLsbD 63 = true := by simpa using h63
        have := Nat.ge_two_pow_of_testBit this
        omega
      obtain ⟨d1, d2, d3⟩ := ctz_spec hnz
      have hne : ctz (~~~v) ≠ 0 := by
        intro hc
        rw [hc, BitVec.getLsbD_not, hb0] at d2
        simp at d2
      obtain ⟨k, hk⟩ : ∃ k, ctz (~~~v) = k + 1 := ⟨ctz (~~~v) - 1, by omega⟩
      show fanoutWord fuel (v >>> ctz (~~~v)) + 1 = _
      rw [hk] at d1 d2 d3 ⊢
      have e2 : (v >>> (k + 1)).toNat = v.toNat >>> (k + 1) := by simp
      have h2 := runCount_drop_ones k v.toNat
        (fun i hi => by
          have := d3 i hi
          rw [BitVec.getLsbD_not] at this
          have h64 : i < 64 := by omega
          have h65 : v.getLsbD i = true := by
            cases hc : v.getLsbD i
            · rw [hc] at this; simp [h64] at this
            · rfl
          exact h65)
        (by
          rw [BitVec.getLsbD_not] at d2
          have : v.getLsbD (k + 1) = false := by simpa [d1] using d2
          exact this)
      rw [← hv1, h2, ← e2]
      rw [ih]
      · rw [e2, Nat.shiftRight_eq_div_pow]
        have : 2 ^ (k + 1) ≥ 2 := by
          rw [Nat.pow_succ]; have := Nat.two_pow_pos k; omega
        have h3 : v.toNat / 2 ^ (k + 1) ≤ v.toNat / 2 := Nat.div_le_div_left this (by omega)
        rw [Nat.pow_succ] at hw
        omega
      · rw [e2, Nat.shiftRight_eq_div_pow]
        have := Nat.div_le_self v.toNat (2 ^ (k + 1))
        omega

/-- **C09.** `fanout` of a bitset (both the 64-bit branch and the big-integer branch) and `bitfanout` of tree.py equal the number of maximal
contiguous blocks of members. -/
theorem C09_fanout (m : Nat) (runs : List (Nat × Nat))
    (h : Spec.ListsRuns (fun k => m.testBit k = true) runs) :
    fanout m = runs.length ∧ fanoutBig m = runs.length := by
  have hr : runs.length = runCount m := by
    rw [← intervals_length_none m 0]
    have h2 := C32_intervals m
    have nd : ∀ l : List (Nat × Nat), Spec.ListsRuns (fun k => m.testBit k = true) l → l.Nodup := by
      intro l hl
      refine List.Pairwise.imp_of_mem ?_ hl.1
      intro a b ha hb hab he
      subst he
      have := ((hl.2 a).1 ha).1
      omega
    have p : runs.Perm (intervals m) := by
      rw [List.perm_ext_iff_of_nodup (nd _ h) (nd _ h2)]
      intro a; rw [h.2, h2.2]
    exact p.length_eq
  rw [hr]
  refine ⟨?_, fanoutBig_eq m⟩
  unfold fanout
  split
  · rename_i hl
    have hn : (BitVec.ofNat 64 m).toNat = m := by
      rw [BitVec.toNat_ofNat]; exact Nat.mod_eq_of_lt (by omega)
    rw [fanoutWord_eq 64 _ (by rw [hn]; omega) (by rw [hn]; omega), hn]
  · exact fanoutBig_eq m

/-- Every bitset has such a list of runs, so that `C09_fanout` applies to every bitset. -/
theorem C09_fanout_intervals (m : Nat) : fanout m = (intervals m).length :=
  (C09_fanout m _ (C32_intervals m)).1

example : Spec.ListsRuns (fun k => Nat.testBit 0b11011011 k = true) [(0, 1), (3, 4), (6, 7)] := by
  have : intervals 0b11011011 = [(0, 1), (3, 4), (6, 7)] := by decide +kernel
  rw [← this]; exact C32_intervals _

/-! ### counting and searching in Python integers -/

theorem pyintbitcount_pos {a : Nat} (h : a ≠ 0) :
    pyintbitcount a = pyintbitcount (a &&& (a - 1)) + 1 := by
  rw [pyintbitcount]; simp [h]

theorem pyintbitcount_double (n : Nat) : pyintbitcount (2 * n) = pyintbitcount n := by
  induction n using Nat.strongRecOn with
  | ind n ih =>
    by_cases h : n = 0
    · subst h; rfl
    · rw [pyintbitcount_pos (show 2 * n ≠ 0 by omega), pyintbitcount_pos h, and_pred_double n,
        ih _ (and_pred_lt h)]

theorem getbitsFrom_length (n : Nat) : ∀ k, (getbitsFrom k n).length = pyintbitcount n := by
  induction n using Nat.strongRecOn with
  | ind n ih =>
    intro k
    by_cases h0 : n = 0
    · subst h0
      have : getbitsFrom k 0 = [] := by unfold getbitsFrom; simp
      rw [this, pyintbitcount]; simp
    · rw [getbitsFrom_pos h0]
      have := ih (n / 2) (by omega) (k + 1)
      split
      · rename_i h1
        obtain ⟨m, rfl⟩ : ∃ m, n = 2 * m + 1 := ⟨n / 2, by omega⟩
        rw [List.length_cons, this, pyintbitcount_pos h0, show 2 * m + 1 - 1 = 2 * m by omega, and_pred_odd,
          pyintbitcount_double, show (2 * m + 1) / 2 = m by omega]
      · rename_i h1
        obtain ⟨m, rfl⟩ : ∃ m, n = 2 * m := ⟨n / 2, by omega⟩
        rw [this, pyintbitcount_double, show 2 * m / 2 = m by omega]

/-- **C10.** `pyintbitcount` is the number of members of the set. -/
theorem C10_pyintbitcount (n : Nat) (l : List Nat) (h : Spec.Enumerates n.testBit l) :
    pyintbitcount n = l.length := by
  rw [← getbitsFrom_length n 0]
  have h2 := C09_getbits n
  have nd : ∀ l : List Nat, l.Pairwise (· < ·) → l.Nodup := fun l hl =>
    List.Pairwise.imp (fun h => Nat.ne_of_lt h) hl
  have p : (getbits n).Perm l := by
    rw [List.perm_ext_iff_of_nodup (nd _ h2.1) (nd _ h.1)]
    intro a; rw [h.2, h2.2]
  exact p.length_eq

theorem pyintnextsetLoop_spec (a : Nat) : ∀ pos, a ≠ 0 →
    ∃ k, pyintnextsetLoop a pos = pos + k ∧ a.testBit k = true ∧ ∀ j, j < k → a.testBit j = false := by
  induction a using Nat.strongRecOn with
  | ind a ih =>
    intro pos h0
    rw [pyintnextsetLoop]
    split
    · rename_i h
      have hd : a >>> 64 = a / 2 ^ 64 := Nat.shiftRight_eq_div_pow _ _
      obtain ⟨k, h1, h2, h3⟩ := ih (a >>> 64) (by omega) (pos + 64) (by omega)
      refine ⟨64 + k, by rw [h1]; omega, by rw [← Nat.testBit_shiftRight]; exact h2, fun j hj => ?_⟩
      by_cases hj64 : j < 64
      · have : (a % 2 ^ 64).testBit j = (decide (j < 64) && a.testBit j) := Nat.testBit_mod_two_pow _ _ _
        rw [h.1] at this
        simpa [hj64] using this.symm
      · have := h3 (j - 64) (by omega)
        rw [Nat.testBit_shiftRight, show 64 + (j - 64) = j by omega] at this
        exact this
    · rename_i h
      have hne : BitVec.ofNat 64 a ≠ 0 := by
        intro hc
        have := congrArg BitVec.toNat hc
        rw [BitVec.toNat_ofNat] at this
        exact h ⟨this, h0⟩
      obtain ⟨h1, h2, h3⟩ := ctz_spec hne
      refine ⟨_, rfl, ?_, fun j hj => ?_⟩
      · rw [BitVec.getLsbD_ofNat] at h2
        simpa [h1] using h2
      · have := h3 j hj
        rw [BitVec.getLsbD_ofNat] at this
        simpa [show j < 64 by omega] using this

/-- **C10.** `pyintnextset` returns the least member at or after `pos`, -1 if there is none, for
integers of any size. -/
theorem C10_pyintnextset (a pos : Nat) : Spec.NextMember a.testBit pos (pyintnextset a pos) := by
  unfold pyintnextset
  split
  · rename_i h
    intro j hj
    have : (a >>> pos).testBit (j - pos) = false := by rw [h]; simp
    rw [Nat.testBit_shiftRight, show pos + (j - pos) = j by omega] at this
    exact this
  · rename_i h
    obtain ⟨k, h1, h2, h3⟩ := pyintnextsetLoop_spec _ pos h
    rw [h1]
    refine ⟨by omega, by rw [← Nat.testBit_shiftRight]; exact h2, fun j g1 g2 => ?_⟩
    have := h3 (j - pos) (by omega)
    rw [Nat.testBit_shiftRight, show pos + (j - pos) = j by omega] at this
    exact this

example : ranges [0, 1, 3, 4, 6] = [[0, 1], [3, 4], [6]] := by decide

end Disco.Bits
