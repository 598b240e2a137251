import Mathlib.Tactic.ByContra
import Verif.Frag.Model
/-!
# Fragment extraction: the fast tree kernel
-/
namespace Disco.Frag

/-- The nodes of an array are sorted by production. -/
def Spec.Sorted (a : List Node) : Prop := ∀ i j, i ≤ j → j < a.length → (nd a i).prod ≤ (nd a j).prod

theorem setM_apply (M : Matrix) (j i : Nat) (b : Bool) (j' i' : Nat) : setM M j i b j' i' = if j' = j ∧ i' = i then b else M j' i' := rfl

theorem kernelRow_spec {a : List Node} (ha : Spec.Sorted a) (p : Int) (j : Nat) : ∀ (f ii : Nat) (M : Matrix), ii < a.length → a.length ≤ ii + f →
    p ≤ (nd a ii).prod → ∀ j' i', kernelRow a p j f ii M j' i' = (M j' i' || decide (j' = j ∧ ii ≤ i' ∧ i' < a.length ∧ (nd a i').prod = p))
  | 0, ii, M, h1, h2, _ => by omega
  | f + 1, ii, M, h1, h2, h3 => by
    intro j' i'
    rw [kernelRow]
    by_cases hp : (nd a ii).prod = p
    · rw [if_pos hp]
      by_cases hl : a.length ≤ ii + 1
      · rw [if_pos hl, setM_apply]
        by_cases hc : j' = j ∧ i' = ii
        · obtain ⟨rfl, rfl⟩ := hc
          simp [hp, h1]
        · rw [if_neg hc]
          have : ¬ (j' = j ∧ ii ≤ i' ∧ i' < a.length ∧ (nd a i').prod = p) := by
            rintro ⟨h, h', h'', -⟩
            exact hc ⟨h, by omega⟩
          simp [this]
      · rw [if_neg hl, kernelRow_spec ha p j f (ii + 1) _ (by omega) (by omega) (by rw [← hp]; exact ha ii (ii + 1) (by omega) (by omega)), setM_apply]
        by_cases hc : j' = j ∧ i' = ii
        · obtain ⟨rfl, rfl⟩ := hc
          simp [hp, h1]
        · rw [if_neg hc]
          congr 1
          rw [decide_eq_decide]
          constructor
          · rintro ⟨h4, h5, h6, h7⟩
            exact ⟨h4, by omega, h6, h7⟩
          · rintro ⟨h4, h5, h6, h7⟩
            exact ⟨h4, by have : i' ≠ ii := fun e => hc ⟨h4, e⟩
                          omega, h6, h7⟩
    · rw [if_neg hp]
      have : ¬ (j' = j ∧ ii ≤ i' ∧ i' < a.length ∧ (nd a i').prod = p) := by
        rintro ⟨-, h, h', h''⟩
        have := ha ii i' h h'
        omega
      simp [this]

/-- The matrix is right for all pairs with a node before `i` or a node before `j`, and has no other bits. -/
def Done (a b : List Node) (i j : Nat) (M : Matrix) : Prop :=
  ∀ j' i', M j' i' = true ↔ (i' < i ∨ j' < j) ∧ i' < a.length ∧ j' < b.length ∧ (nd a i').prod = (nd b j').prod

theorem row_done {a b : List Node} (ha : Spec.Sorted a) {i j : Nat} {M : Matrix} (hM : Done a b i j M) (hi : i < a.length) (hj : j < b.length)
    (he : (nd a i).prod = (nd b j).prod) : Done a b i (j + 1) (kernelRow a (nd b j).prod j a.length i M) := by
  intro j' i'
  rw [kernelRow_spec ha _ _ _ _ _ hi (by omega) (by omega), Bool.or_eq_true, hM, decide_eq_true_iff]
  constructor
  · rintro (⟨h1, h2, h3, h4⟩ | ⟨rfl, h2, h3, h4⟩)
    · exact ⟨by omega, h2, h3, h4⟩
    · exact ⟨by omega, h3, hj, h4⟩
  · rintro ⟨h1, h2, h3, h4⟩
    by_cases h : i' < i ∨ j' < j
    · exact Or.inl ⟨h, h2, h3, h4⟩
    · have : j' = j := by omega
      subst this
      exact Or.inr ⟨rfl, by omega, h2, h4⟩

theorem kernelSame_spec {a b : List Node} (ha : Spec.Sorted a) {i : Nat} (hi : i < a.length) : ∀ (f j : Nat) (M : Matrix), j < b.length → b.length ≤ j + f →
    Done a b i j M →
    match kernelSame a b i f j M with
    | (none, M') => Done a b i b.length M'
    | (some j', M') => j ≤ j' ∧ j' < b.length ∧ ((nd a i).prod = (nd b j).prod → j < j') ∧ (nd a i).prod ≠ (nd b j').prod ∧ Done a b i j' M'
  | 0, j, M, h1, h2, _ => by omega
  | f + 1, j, M, h1, h2, hM => by
    rw [kernelSame]
    by_cases he : (nd a i).prod = (nd b j).prod
    · rw [if_pos he]
      have hd := row_done ha hM hi h1 he
      by_cases hl : b.length ≤ j + 1
      · rw [if_pos hl]
        have : b.length = j + 1 := by omega
        simp only [this]
        exact hd
      · rw [if_neg hl]
        have ih := kernelSame_spec ha hi f (j + 1) _ (by omega) (by omega) hd
        revert ih
        generalize kernelSame a b i f (j + 1) (kernelRow a (nd b j).prod j a.length i M) = r
        obtain ⟨o, M'⟩ := r
        cases o with
        | none => exact fun h => h
        | some j' =>
          rintro ⟨h3, h4, h5, h6, h7⟩
          exact ⟨by omega, h4, fun _ => by omega, h6, h7⟩
    · rw [if_neg he]
      exact ⟨by omega, h1, fun h => absurd h he, he, hM⟩

theorem kernelLoop_spec {a b : List Node} (ha : Spec.Sorted a) (hb : Spec.Sorted b) : ∀ (f i j : Nat) (M : Matrix), i < a.length → j < b.length →
    a.length + b.length < i + j + f → Done a b i j M →
    ∀ j' i', kernelLoop a b f i j M j' i' = true ↔ i' < a.length ∧ j' < b.length ∧ (nd a i').prod = (nd b j').prod
  | 0, i, j, M, h1, h2, h3, _ => by omega
  | f + 1, i, j, M, h1, h2, h3, hM => by
    intro j' i'
    rw [kernelLoop]
    by_cases hlt : (nd a i).prod < (nd b j).prod
    · rw [if_pos hlt]
      have hd : Done a b (i + 1) j M := by
        intro j' i'
        rw [hM]
        constructor
        · rintro ⟨h, h'⟩
          exact ⟨by omega, h'⟩
        · rintro ⟨h, h4, h5, h6⟩
          refine ⟨?_, h4, h5, h6⟩
          by_contra hn
          have : i' = i := by omega
          subst this
          have := hb j j' (by omega) h5
          omega
      by_cases hl : a.length ≤ i + 1
      · rw [if_pos hl, hd]
        constructor
        · rintro ⟨-, h⟩
          exact h
        · rintro ⟨h4, h5⟩
          exact ⟨by omega, h4, h5⟩
      · rw [if_neg hl]
        exact kernelLoop_spec ha hb f (i + 1) j M (by omega) h2 (by omega) hd j' i'
    · rw [if_neg hlt]
      by_cases hgt : (nd b j).prod < (nd a i).prod
      · rw [if_pos hgt]
        have hd : Done a b i (j + 1) M := by
          intro j' i'
          rw [hM]
          constructor
          · rintro ⟨h, h'⟩
            exact ⟨by omega, h'⟩
          · rintro ⟨h, h4, h5, h6⟩
            refine ⟨?_, h4, h5, h6⟩
            by_contra hn
            have : j' = j := by omega
            subst this
            have := ha i i' (by omega) h4
            omega
        by_cases hl : b.length ≤ j + 1
        · rw [if_pos hl, hd]
          constructor
          · rintro ⟨-, h⟩
            exact h
          · rintro ⟨h4, h5, h6⟩
            exact ⟨by omega, h4, h5, h6⟩
        · rw [if_neg hl]
          exact kernelLoop_spec ha hb f i (j + 1) M h1 (by omega) (by omega) hd j' i'
      · rw [if_neg hgt]
        have hs := kernelSame_spec ha h1 b.length j M h2 (by omega) hM
        revert hs
        generalize kernelSame a b i b.length j M = r
        obtain ⟨o, M'⟩ := r
        cases o with
        | none =>
          intro h
          simp only
          rw [h]
          constructor
          · rintro ⟨-, h⟩
            exact h
          · rintro ⟨h4, h5, h6⟩
            exact ⟨Or.inr h5, h4, h5, h6⟩
        | some j2 =>
          rintro ⟨h4, h5, h6, h7, h8⟩
          have := h6 (by omega)
          exact kernelLoop_spec ha hb f i j2 M' h1 h5 (by omega) h8 j' i'

/-- The kernel marks exactly the pairs of nodes with the same production. -/
theorem fasttreekernel_spec {a b : List Node} (ha : Spec.Sorted a) (hb : Spec.Sorted b) (ha0 : a ≠ []) (hb0 : b ≠ []) (j i : Nat) :
    fasttreekernel a b j i = true ↔ i < a.length ∧ j < b.length ∧ (nd a i).prod = (nd b j).prod := by
  have h1 := List.length_pos_iff.2 ha0
  have h2 := List.length_pos_iff.2 hb0
  exact kernelLoop_spec ha hb _ 0 0 _ h1 h2 (by omega) (fun j' i' => by simp) j i

end Disco.Frag
