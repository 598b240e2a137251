import Verif.Bits.Runs
/-!
# C11: yield functions (`getyf`, treetransforms.py:959-981)

Specification: a yield function is a string over `0`, `1`, `,`. `Spec.applyYF yf ls rs` instantiates the
`k`-th `0` by the `k`-th span of the left child, the `k`-th `1` by the `k`-th span of the
right child, and returns the list of concatenations of the components separated by commas; it fails if
a span is left over or missing.
-/
namespace Disco.Bits

/-- Loop body of `getyf` (treetransforms.py:968-980) for positions `n, n+1, …`, `fuel` many. `cur` is the
last symbol. `none` as result: `right.bitset` with `right is None` (AttributeError). -/
def getyfLoop (left : Nat) (right : Option Nat) : (fuel : Nat) → (n : Nat) → (cur : Char) → Option (List Char)
  | 0, _, _ => some []
  | fuel + 1, n, cur =>
    if left &&& (1 <<< n) ≠ 0 then
      if cur ≠ '0' then (getyfLoop left right fuel (n + 1) '0').map ('0' :: ·)
      else getyfLoop left right fuel (n + 1) cur
    else match right with
      | none => none
      | some r =>
        if r &&& (1 <<< n) ≠ 0 then
          if cur ≠ '1' then (getyfLoop left right fuel (n + 1) '1').map ('1' :: ·)
          else getyfLoop left right fuel (n + 1) cur
        else if cur ≠ ',' then (getyfLoop left right fuel (n + 1) ',').map (',' :: ·)
        else getyfLoop left right fuel (n + 1) cur

/-- Python's `int.bit_length()`. -/
def bitLength (n : Nat) : Nat := if n = 0 then 0 else n.log2 + 1

/-- `getyf(left, right)` (treetransforms.py:959-981), arguments given by their bitsets. The leading `;` is
included. -/
def getyf (left : Nat) (right : Option Nat) : Option (List Char) :=
  let bits := match right with
    | none => bitLength left
    | some r => max (bitLength left) (bitLength r)
  (getyfLoop left right bits 0 ',').map (';' :: ·)

/-- Instantiate a yield function with the spans of two children; `acc` is the component under construction. -/
def Spec.applyFrom (acc : List Nat) : List Char → List (List Nat) → List (List Nat) → Option (List (List Nat))
  | [], [], [] => some [acc]
  | ',' :: cs, ls, rs => (Spec.applyFrom [] cs ls rs).map (acc :: ·)
  | '0' :: cs, l :: ls, rs => Spec.applyFrom (acc ++ l) cs ls rs
  | '1' :: cs, ls, r :: rs => Spec.applyFrom (acc ++ r) cs ls rs
  | _, _, _ => none

/-- Instantiate a yield function (with leading semicolon). -/
def Spec.applyYF (ls rs : List (List Nat)) : List Char → Option (List (List Nat))
  | ';' :: cs => Spec.applyFrom [] cs ls rs
  | _ => none

/-- Members of `S` among `n, …, n + fuel - 1`. -/
def membersFrom (S : Nat → Bool) (n fuel : Nat) : List Nat := (List.range' n fuel).filter S

theorem membersFrom_succ (S : Nat → Bool) (n fuel : Nat) : membersFrom S n (fuel + 1) =
    if S n then n :: membersFrom S (n + 1) fuel else membersFrom S (n + 1) fuel := by
  simp [membersFrom, List.range'_succ, List.filter_cons]

theorem membersFrom_lb (S : Nat → Bool) (n fuel : Nat) : ∀ x ∈ membersFrom S n fuel, n ≤ x := by
  intro x hx
  simp [membersFrom] at hx
  omega

theorem rangesLoop_close (r : List Nat) (p : Nat) (l : List Nat) (hr : r.getLast? = some p)
    (hl : ∀ x ∈ l, p + 1 < x) : rangesLoop r l = r :: rangesLoop [] l := by
  have hne : r ≠ [] := by rintro rfl; simp at hr
  cases l with
  | nil => simp [rangesLoop, hne]
  | cons a l =>
    rw [rangesLoop, rangesLoop, if_neg, if_pos (Or.inl rfl)]
    · rfl
    · rw [not_or]
      refine ⟨hne, ?_⟩
      rw [hr]
      have := hl a (by simp)
      simp; omega

theorem rangesLoop_extend (r : List Nat) (p : Nat) (l : List Nat) (hr : r.getLast? = some p) :
    rangesLoop r ((p + 1) :: l) = rangesLoop (r ++ [p + 1]) l := by
  rw [rangesLoop, if_pos]
  right; rw [hr]; rfl

theorem rangesLoop_start (a : Nat) (l : List Nat) : rangesLoop [] (a :: l) = rangesLoop [a] l := by
  rw [rangesLoop, if_pos (Or.inl rfl)]; rfl

section
variable (L R : Nat → Bool)

/-- The yield function symbols from position `n`. -/
def yfLoop : (fuel : Nat) → (n : Nat) → (cur : Char) → List Char
  | 0, _, _ => []
  | fuel + 1, n, cur =>
    if L n then (if cur ≠ '0' then '0' :: yfLoop fuel (n + 1) '0' else yfLoop fuel (n + 1) cur)
    else if R n then (if cur ≠ '1' then '1' :: yfLoop fuel (n + 1) '1' else yfLoop fuel (n + 1) cur)
    else if cur ≠ ',' then ',' :: yfLoop fuel (n + 1) ',' else yfLoop fuel (n + 1) cur

theorem yfLoop_spec (hd : ∀ i, ¬ (L i = true ∧ R i = true)) (fuel : Nat) :
    ∀ n, (fuel ≠ 0 → L (n + fuel - 1) = true ∨ R (n + fuel - 1) = true) →
    (fuel ≠ 0 → Spec.applyFrom [] (yfLoop L R fuel n ',') (rangesLoop [] (membersFrom L n fuel))
      (rangesLoop [] (membersFrom R n fuel))
      = some (rangesLoop [] (membersFrom (fun i => L i || R i) n fuel))) ∧
    (∀ p acc rng, p + 1 = n → rng.getLast? = some p →
      Spec.applyFrom acc ('0' :: yfLoop L R fuel n '0') (rangesLoop rng (membersFrom L n fuel))
      (rangesLoop [] (membersFrom R n fuel))
      = some (rangesLoop (acc ++ rng) (membersFrom (fun i => L i || R i) n fuel))) ∧
    (∀ p acc rng, p + 1 = n → rng.getLast? = some p →
      Spec.applyFrom acc ('1' :: yfLoop L R fuel n '1') (rangesLoop [] (membersFrom L n fuel))
      (rangesLoop rng (membersFrom R n fuel))
      = some (rangesLoop (acc ++ rng) (membersFrom (fun i => L i || R i) n fuel))) := by
  induction fuel with
  | zero =>
    intro n _
    refine ⟨by simp, ?_, ?_⟩
    all_goals
      intro p acc rng hp hr
      have hne : rng ≠ [] := by rintro rfl; simp at hr
      simp [membersFrom, rangesLoop, hne, yfLoop, Spec.applyFrom]
  | succ fuel ih =>
    intro n hlast
    have hl : fuel ≠ 0 → L (n + 1 + fuel - 1) = true ∨ R (n + 1 + fuel - 1) = true := by
      intro _
      have := hlast (by omega)
      rwa [show n + (fuel + 1) - 1 = n + 1 + fuel - 1 by omega] at this
    obtain ⟨ihc, ih0, ih1⟩ := ih (n + 1) hl
    have lbL : ∀ x ∈ membersFrom L (n + 1) fuel, n < x := fun x hx => membersFrom_lb _ _ _ x hx
    have lbR : ∀ x ∈ membersFrom R (n + 1) fuel, n < x := fun x hx => membersFrom_lb _ _ _ x hx
    have lbU : ∀ x ∈ membersFrom (fun i => L i || R i) (n + 1) fuel, n < x :=
      fun x hx => membersFrom_lb _ _ _ x hx
    rw [membersFrom_succ L, membersFrom_succ R, membersFrom_succ (fun i => L i || R i)]
    by_cases hL : L n = true
    · have hR : R n = false := by
        cases h : R n
        · rfl
        · exact absurd ⟨hL, h⟩ (hd n)
      simp only [hL, hR, if_true, Bool.true_or, Bool.false_eq_true, if_false]
      refine ⟨fun _ => ?_, fun p acc rng hp hr => ?_, fun p acc rng hp hr => ?_⟩
      · have := ih0 n [] [n] rfl rfl
        rw [rangesLoop_start, rangesLoop_start, yfLoop, if_pos hL, if_pos (by decide)]
        simpa using this
      · subst hp
        rw [rangesLoop_extend rng p _ hr, rangesLoop_extend (acc ++ rng) p _ (by simp [hr]), yfLoop,
          if_pos hL, if_neg (by decide), List.append_assoc]
        exact ih0 (p + 1) acc (rng ++ [p + 1]) rfl (by simp)
      · subst hp
        rw [rangesLoop_close rng p (membersFrom R (p + 1 + 1) fuel) hr (fun x hx => lbR x hx),
          rangesLoop_extend (acc ++ rng) p _ (by simp [hr]), yfLoop,
          if_pos hL, if_pos (by decide), rangesLoop_start, Spec.applyFrom]
        exact ih0 (p + 1) (acc ++ rng) [p + 1] rfl rfl
    · have hL' : L n = false := by simpa using hL
      by_cases hR : R n = true
      · simp only [hL', hR, if_true, Bool.or_true, Bool.false_eq_true, if_false]
        refine ⟨fun _ => ?_, fun p acc rng hp hr => ?_, fun p acc rng hp hr => ?_⟩
        · have := ih1 n [] [n] rfl rfl
          rw [rangesLoop_start, rangesLoop_start, yfLoop, if_neg hL, if_pos hR, if_pos (by decide)]
          simpa using this
        · subst hp
          rw [rangesLoop_close rng p (membersFrom L (p + 1 + 1) fuel) hr (fun x hx => lbL x hx),
            rangesLoop_extend (acc ++ rng) p _ (by simp [hr]), yfLoop,
            if_neg hL, if_pos hR, if_pos (by decide), rangesLoop_start, Spec.applyFrom]
          exact ih1 (p + 1) (acc ++ rng) [p + 1] rfl rfl
        · subst hp
          rw [rangesLoop_extend rng p _ hr, rangesLoop_extend (acc ++ rng) p _ (by simp [hr]), yfLoop,
            if_neg hL, if_pos hR, if_neg (by decide), List.append_assoc]
          exact ih1 (p + 1) acc (rng ++ [p + 1]) rfl (by simp)
      · have hR' : R n = false := by simpa using hR
        have hf : fuel ≠ 0 := by
          rintro rfl
          have := hlast (by omega)
          simp only [Nat.zero_add, Nat.add_sub_cancel] at this
          simp [hL', hR'] at this
        simp only [hL', hR', Bool.or_false, Bool.false_eq_true, if_false]
        refine ⟨fun _ => ?_, fun p acc rng hp hr => ?_, fun p acc rng hp hr => ?_⟩
        · rw [yfLoop, if_neg hL, if_neg hR, if_neg (by decide)]
          exact ihc hf
        · subst hp
          rw [yfLoop, if_neg hL, if_neg hR, if_pos (by decide),
            rangesLoop_close rng p (membersFrom L (p + 1 + 1) fuel) hr (fun x hx => lbL x hx),
            rangesLoop_close (acc ++ rng) p _ (by simp [hr]) (fun x hx => lbU x hx),
            Spec.applyFrom, Spec.applyFrom, ihc hf]
          rfl
        · subst hp
          rw [yfLoop, if_neg hL, if_neg hR, if_pos (by decide),
            rangesLoop_close rng p (membersFrom R (p + 1 + 1) fuel) hr (fun x hx => lbR x hx),
            rangesLoop_close (acc ++ rng) p _ (by simp [hr]) (fun x hx => lbU x hx),
            Spec.applyFrom, Spec.applyFrom, ihc hf]
          rfl
end

theorem and_shift_ne_zero (a n : Nat) : (a &&& (1 <<< n) ≠ 0) ↔ a.testBit n = true := by
  constructor
  · intro h
    cases hb : a.testBit n with
    | true => rfl
    | false =>
      exfalso
      apply h
      apply Nat.eq_of_testBit_eq
      intro i
      rw [Nat.testBit_and, Nat.shiftLeft_eq, Nat.one_mul, Nat.testBit_two_pow]
      by_cases hi : n = i
      · subst hi; simp [hb]
      · simp [hi]
  · intro h h0
    have : (a &&& 1 <<< n).testBit n = true := by
      rw [Nat.testBit_and, Nat.shiftLeft_eq, Nat.one_mul, Nat.testBit_two_pow, h]; simp
    rw [h0] at this; simp at this

theorem getyfLoop_eq (l r : Nat) (fuel : Nat) : ∀ n cur,
    getyfLoop l (some r) fuel n cur = some (yfLoop l.testBit r.testBit fuel n cur) := by
  induction fuel with
  | zero => intros; rfl
  | succ fuel ih =>
    intro n cur
    simp only [getyfLoop, yfLoop, and_shift_ne_zero, ih]
    repeat' split
    all_goals simp_all

theorem sorted_ext : ∀ {l₁ l₂ : List Nat}, l₁.Pairwise (· < ·) → l₂.Pairwise (· < ·) →
    (∀ x, x ∈ l₁ ↔ x ∈ l₂) → l₁ = l₂ := by
  intro l₁ l₂ h1 h2 h
  have nd : ∀ l : List Nat, l.Pairwise (· < ·) → l.Nodup := fun l hl =>
    List.Pairwise.imp (fun h => Nat.ne_of_lt h) hl
  have p := (List.perm_ext_iff_of_nodup (nd _ h1) (nd _ h2)).2 h
  exact List.Perm.eq_of_pairwise (fun a b _ _ hab hba => by omega) h1 h2 p

theorem getbits_eq_members (m bits : Nat) (h : m < 2 ^ bits) :
    getbits m = membersFrom m.testBit 0 bits := by
  apply sorted_ext (C09_getbits m).1
  · exact List.Pairwise.filter _ (List.pairwise_lt_range' )
  · intro x
    rw [(C09_getbits m).2]
    simp only [membersFrom, List.mem_filter, List.mem_range'_1]
    constructor
    · intro hx
      refine ⟨⟨by omega, ?_⟩, hx⟩
      have := Nat.ge_two_pow_of_testBit hx
      rw [Nat.zero_add]
      exact (Nat.pow_lt_pow_iff_right (by omega : 1 < 2)).1 (by omega)
    · exact fun hx => hx.2

theorem lt_bitLength (n : Nat) : n < 2 ^ bitLength n := by
  unfold bitLength
  split
  · omega
  · exact Nat.lt_log2_self

/-- **C11.** The yield function computed by `getyf` for two disjoint children, applied to
the spans of the children (maximal runs, left to right), gives exactly the spans of the parent; every span of each child is used exactly
once and in order. -/
theorem C11_getyf (l r : Nat) (hdisj : l &&& r = 0) (hne : l ||| r ≠ 0) :
    ∃ yf, getyf l (some r) = some yf ∧
      Spec.applyYF (ranges (getbits l)) (ranges (getbits r)) yf = some (ranges (getbits (l ||| r))) := by
  have hd : ∀ i, ¬ (l.testBit i = true ∧ r.testBit i = true) := by
    intro i hi
    have : (l &&& r).testBit i = true := by rw [Nat.testBit_and, hi.1, hi.2]; rfl
    rw [hdisj] at this; simp at this
  let bits := max (bitLength l) (bitLength r)
  have hlb : l < 2 ^ bits := Nat.lt_of_lt_of_le (lt_bitLength l) (Nat.pow_le_pow_right (by omega) (Nat.le_max_left _ _))
  have hrb : r < 2 ^ bits := Nat.lt_of_lt_of_le (lt_bitLength r) (Nat.pow_le_pow_right (by omega) (Nat.le_max_right _ _))
  have htop : ∀ a : Nat, bitLength a ≠ 0 → a.testBit (bitLength a - 1) = true := by
    intro a ha
    unfold bitLength at *
    split at ha
    · exact absurd rfl ha
    · rename_i h0
      rw [if_neg h0, Nat.add_sub_cancel]
      exact Nat.testBit_log2 h0
  have hb0 : bits ≠ 0 := by
    intro h0
    rw [h0] at hlb hrb
    have h1 : l = 0 := by simpa using hlb
    have h2 : r = 0 := by simpa using hrb
    exact hne (by rw [h1, h2]; rfl)
  refine ⟨';' :: yfLoop l.testBit r.testBit bits 0 ',', by
    simp only [getyf, getyfLoop_eq]; rfl, ?_⟩
  rw [Spec.applyYF, getbits_eq_members l bits hlb, getbits_eq_members r bits hrb,
    getbits_eq_members (l ||| r) bits (Nat.or_lt_two_pow hlb hrb)]
  have := (yfLoop_spec l.testBit r.testBit hd bits 0 (by
    intro _
    rw [Nat.zero_add]
    rcases Nat.le_total (bitLength l) (bitLength r) with h | h
    · right
      have e : bits = bitLength r := Nat.max_eq_right h
      rw [e]; exact htop r (by omega)
    · left
      have e : bits = bitLength l := Nat.max_eq_left h
      rw [e]; exact htop l (by omega))).1 hb0
  have e : (l ||| r).testBit = fun i => l.testBit i || r.testBit i := by
    funext i; exact Nat.testBit_or _ _ _
  rw [e]; exact this

example : getyf 0b0100101 (some 0b1010000) = some ";0,0,101".toList ∧ 0b0100101 &&& 0b1010000 = 0 := by
  decide +kernel

/-- **C11 (disagreement).** With a single child (`right = None`, as called for unary nodes by
`factorconstituent` with `markyf`), `getyf` raises an AttributeError as soon as the child does not start at position 0. -/
theorem C11_getyf_unary_fails (l : Nat) (h : l % 2 = 0) (hne : l ≠ 0) : getyf l none = none := by
  have : bitLength l ≠ 0 := by simp [bitLength, hne]
  obtain ⟨k, hk⟩ : ∃ k, bitLength l = k + 1 := ⟨bitLength l - 1, by omega⟩
  have h0 : l &&& 1 <<< 0 = 0 := by simp; omega
  simp [getyf, hk, getyfLoop, h]

end Disco.Bits
