import Verif.Parse.Plcfrs
import Verif.Bits.Props
import Verif.Grammar.YieldBits
import Mathlib.Algebra.Order.Group.Int
import Mathlib.Data.List.Sublists
/-!
# C25 for the items of disco-dop: `SmallChartItem` and `FatChartItem`
-/
set_option linter.unusedSectionVars false
namespace Disco.Plcfrs
open Bits Concat Dict

/-- `SmallChartItem`: `1 << wordidx`, `concat`, `left.vec ^ right.vec` (plcfrs.pyx:942), `bitcount`. -/
def smallOps : Ops Word where
  unit i := 1#64 <<< i
  concat := concatSmall
  combine v w := v ^^^ w
  count := popcount

/-- `FatChartItem` with a number of slots: `SETBIT` in an empty vector, `concat`, `setunion` (plcfrs.pyx:944), `abitcount`. -/
def fatOps (slots : Nat) : Ops (List Word) where
  unit i := setbit (List.replicate slots 0) i
  concat := concatFat
  combine := setunion
  count := abitcount

/-! ### Laws from membership -/

variable {V : Type} [DecidableEq V]

theorem count_union (S T U : Nat → Bool) (hU : ∀ j, U j = (S j || T j)) (hd : ∀ j, ¬ (S j = true ∧ T j = true)) (l : List Nat) :
    (l.filter U).length = (l.filter S).length + (l.filter T).length := by
  induction l with
  | nil => rfl
  | cons a l ih =>
    simp only [List.filter_cons]
    have h1 := hU a
    have h2 := hd a
    cases hs : S a <;> cases ht : T a <;> simp_all <;> omega

theorem laws_of {o : Ops V} {n N : Nat} {univ : List V} {mem : V → Nat → Bool} (hN : n ≤ N) (hcount : ∀ v ∈ univ, o.count v = ((List.range N).filter (mem v)).length)
    (hext : ∀ v ∈ univ, ∀ w ∈ univ, (∀ j, mem v j = mem w j) → v = w) (hunit : ∀ i < n, o.unit i ∈ univ ∧ ∀ j, mem (o.unit i) j = decide (j = i))
    (huniv : ∀ v ∈ univ, ∀ w ∈ univ, ∀ a l, o.concat a l v w = true → o.combine v w ∈ univ)
    (hmem : ∀ v ∈ univ, ∀ w ∈ univ, ∀ a l, o.concat a l v w = true → ∀ j, mem (o.combine v w) j = (mem v j || mem w j))
    (hdisj : ∀ v ∈ univ, ∀ w ∈ univ, ∀ a l, o.concat a l v w = true → ∀ j, ¬ (mem v j = true ∧ mem w j = true)) : Spec.Laws o n univ mem where
  unit_univ := fun i hi => (hunit i hi).1
  unit_count := by
    intro i hi
    rw [hcount _ (hunit i hi).1]
    have h : (List.range N).filter (mem (o.unit i)) = [i] := by
      have : (List.range N).filter (mem (o.unit i)) = (List.range N).filter (fun j => decide (j = i)) :=
        List.filter_congr (fun j _ => (hunit i hi).2 j)
      rw [this]
      refine List.perm_singleton.1 ((List.perm_ext_iff_of_nodup (List.nodup_range.filter _) (by simp)).2 ?_)
      intro j
      simp only [List.mem_filter, List.mem_range, decide_eq_true_eq, List.mem_singleton]
      constructor
      · exact fun h => h.2
      · rintro rfl; exact ⟨by omega, rfl⟩
    rw [h]; rfl
  unit_mem := fun i hi => (hunit i hi).2
  combine_univ := huniv
  combine_count := by
    intro v hv w hw a l hc
    rw [hcount _ (huniv v hv w hw a l hc), hcount v hv, hcount w hw]
    exact count_union _ _ _ (hmem v hv w hw a l hc) (hdisj v hv w hw a l hc) _
  combine_mem := hmem
  cancel := by
    intro v hv w hw w' hw' a l hc hc' e
    refine hext w hw w' hw' (fun j => ?_)
    have h1 := hmem v hv w hw a l hc j
    have h2 := hmem v hv w' hw' a l hc' j
    have h3 := hdisj v hv w hw a l hc j
    have h4 := hdisj v hv w' hw' a l hc' j
    rw [e] at h1
    cases hvj : mem v j <;> simp_all
  irrefl := by
    intro v hv hpos a l
    cases hc : o.concat a l v v with
    | false => rfl
    | true =>
      exfalso
      rw [hcount v hv] at hpos
      obtain ⟨j, hj⟩ := List.exists_mem_of_length_pos hpos
      have := (List.mem_filter.1 hj).2
      exact hdisj v hv v hv a l hc j ⟨this, this⟩

/-- All sets of positions below `n`. -/
def allSets (n : Nat) (make : List Nat → V) : List V := (List.range n).sublists.map make

theorem length_allSets (n : Nat) (make : List Nat → V) : (allSets n make).length = 2 ^ n := by
  rw [allSets, List.length_map, List.length_sublists, List.length_range]

theorem mem_allSets {n : Nat} {make : List Nat → V} {mem : V → Nat → Bool} {P : V → Prop} (hmake : ∀ l : List Nat, (∀ i ∈ l, i < n) → P (make l) ∧ ∀ j, mem (make l) j = decide (j ∈ l))
    (hext : ∀ v w, P v → P w → (∀ j, mem v j = mem w j) → v = w) {v : V} : v ∈ allSets n make ↔ P v ∧ ∀ j, mem v j = true → j < n := by
  constructor
  · intro h
    obtain ⟨l, hl, rfl⟩ := List.mem_map.1 h
    have hsub := List.mem_sublists.1 hl
    have hlt : ∀ i ∈ l, i < n := fun i hi => List.mem_range.1 (hsub.subset hi)
    refine ⟨(hmake l hlt).1, ?_⟩
    intro j hj
    rw [(hmake l hlt).2] at hj
    exact hlt j (by simpa using hj)
  · rintro ⟨hP, hj⟩
    have hlt : ∀ i ∈ (List.range n).filter (mem v), i < n := fun i hi => List.mem_range.1 (List.mem_filter.1 hi).1
    refine List.mem_map.2 ⟨(List.range n).filter (mem v), List.mem_sublists.2 List.filter_sublist, ?_⟩
    refine hext _ _ (hmake _ hlt).1 hP (fun j => ?_)
    rw [(hmake _ hlt).2]
    by_cases h : mem v j = true
    · rw [h]; simp [h, hj j h]
    · simp [h]

/-! ### `SmallChartItem` -/

/-- The set of positions of a list. -/
def makeSmall (l : List Nat) : Word := l.foldr (fun i v => 1#64 <<< i ||| v) 0

theorem makeSmall_spec (l : List Nat) (h : ∀ i ∈ l, i < 64) (j : Nat) : (makeSmall l).getLsbD j = decide (j ∈ l) := by
  induction l with
  | nil => simp [makeSmall]
  | cons i l ih =>
    have hi := h i (by simp)
    have e : makeSmall (i :: l) = 1#64 <<< i ||| makeSmall l := rfl
    rw [e, BitVec.getLsbD_or, getLsbD_one_shift _ _ hi, ih (fun k hk => h k (by simp [hk]))]
    simp

theorem concatSmall_disjoint {a l v w : Word} (h : concatSmall a l v w = true) (j : Nat) : ¬ (v.getLsbD j = true ∧ w.getLsbD j = true) := by
  rintro ⟨h1, h2⟩
  rw [concatSmall] at h
  split at h
  · cases h
  · rename_i hz
    have hz := not_not.1 hz
    have := congrArg (fun x => x.getLsbD j) hz
    simp only [BitVec.getLsbD_and, h1, h2] at this
    simp at this

theorem xor_or {v w : Word} {j : Nat} (h : ¬ (v.getLsbD j = true ∧ w.getLsbD j = true)) : (v ^^^ w).getLsbD j = (v.getLsbD j || w.getLsbD j) := by
  rw [BitVec.getLsbD_xor]
  cases h1 : v.getLsbD j
  · simp
  · cases h2 : w.getLsbD j
    · simp
    · exact absurd ⟨h1, h2⟩ h

/-- The laws hold for sentences that fit in a word (plcfrs.pyx:345). -/
theorem laws_small {n : Nat} (hn : n ≤ 64) : Spec.Laws smallOps n (allSets n makeSmall) (fun v j => v.getLsbD j) := by
  have hmem : ∀ {v : Word}, v ∈ allSets n makeSmall ↔ True ∧ ∀ j, v.getLsbD j = true → j < n :=
    mem_allSets (mem := fun v j => v.getLsbD j) (P := fun _ => True) (fun l hl => ⟨trivial, makeSmall_spec l (fun i hi => lt_of_lt_of_le (hl i hi) hn)⟩)
      (fun v w _ _ h => BitVec.eq_of_getLsbD_eq (fun i _ => h i))
  refine laws_of (N := 64) hn ?_ (fun v _ w _ h => BitVec.eq_of_getLsbD_eq (fun i _ => h i)) ?_ ?_ ?_ ?_
  · intro v _
    show popcount v = _
    rw [popcount, List.countP_eq_length_filter]
  · intro i hi
    have hu : ∀ j, (1#64 <<< i).getLsbD j = decide (j = i) := fun j => getLsbD_one_shift _ _ (by omega)
    refine ⟨hmem.2 ⟨trivial, ?_⟩, hu⟩
    intro j hj
    rw [show smallOps.unit i = 1#64 <<< i from rfl, hu, decide_eq_true_eq] at hj
    omega
  · intro v hv w hw a l hc
    refine hmem.2 ⟨trivial, ?_⟩
    intro j hj
    rw [show smallOps.combine v w = v ^^^ w from rfl, BitVec.getLsbD_xor] at hj
    cases hvj : v.getLsbD j
    · rw [hvj, Bool.false_xor] at hj; exact (hmem.1 hw).2 j hj
    · exact (hmem.1 hv).2 j hvj
  · intro v hv w hw a l hc j
    show (v ^^^ w).getLsbD j = _
    exact xor_or (concatSmall_disjoint hc j)
  · intro v _ w _ a l hc j
    exact concatSmall_disjoint hc j

/-! ### `FatChartItem` -/

/-- The set of positions of a list. -/
def makeFat (slots : Nat) (l : List Nat) : List Word := l.foldr (fun i v => setbit v i) (List.replicate slots 0)

theorem length_setbit (v : List Word) (i : Nat) : (setbit v i).length = v.length := by rw [setbit, List.length_modify]

theorem length_makeFat (slots : Nat) (l : List Nat) : (makeFat slots l).length = slots := by
  induction l with
  | nil => simp [makeFat]
  | cons i l ih =>
    have e : makeFat slots (i :: l) = setbit (makeFat slots l) i := rfl
    rw [e, length_setbit, ih]

theorem abit_replicate (slots j : Nat) : abit (List.replicate slots 0) j = false := by
  rw [abit, List.getD_eq_getElem?_getD, List.getElem?_replicate]
  split <;> simp

theorem makeFat_spec {slots : Nat} (l : List Nat) (h : ∀ i ∈ l, i < 64 * slots) (j : Nat) : abit (makeFat slots l) j = decide (j ∈ l) := by
  induction l with
  | nil => exact (abit_replicate slots j).trans (by simp)
  | cons i l ih =>
    have e : makeFat slots (i :: l) = setbit (makeFat slots l) i := rfl
    rw [e, (C10_single_bit _ i (by rw [length_makeFat]; exact h i (by simp))).1, ih (fun k hk => h k (by simp [hk]))]
    simp [Bool.or_comm]

theorem abit_ext : ∀ {v w : List Word}, v.length = w.length → (∀ j, abit v j = abit w j) → v = w := by
  intro v
  induction v with
  | nil => intro w h _; cases w <;> simp_all
  | cons a v ih =>
    intro w h hj
    cases w with
    | nil => simp at h
    | cons b w =>
      have h1 : a = b := by
        refine BitVec.eq_of_getLsbD_eq (fun i hi => ?_)
        have := hj i
        rwa [abit_cons_lt hi, abit_cons_lt hi] at this
      have h2 : v = w := by
        refine ih (by simpa using h) (fun j => ?_)
        have := hj (64 + j)
        rwa [abit_cons_ge (by omega), abit_cons_ge (by omega), Nat.add_sub_cancel_left] at this
      rw [h1, h2]

theorem overlap_spec : ∀ {v w : List Word}, overlap v w = false → ∀ j, ¬ (abit v j = true ∧ abit w j = true) := by
  intro v
  induction v with
  | nil => intro w _ j h; simp at h
  | cons a v ih =>
    intro w h j
    cases w with
    | nil => simp
    | cons b w =>
      rw [overlap] at h
      split at h
      · cases h
      · rename_i hz
        have hz := not_not.1 hz
        by_cases hj : j < 64
        · rw [abit_cons_lt hj, abit_cons_lt hj]
          rintro ⟨h1, h2⟩
          have := congrArg (fun x => x.getLsbD j) hz
          simp only [BitVec.getLsbD_and, h1, h2] at this
          simp at this
        · rw [abit_cons_ge (by omega), abit_cons_ge (by omega)]
          exact ih h (j - 64)

theorem concatFat_disjoint {a l : Word} {v w : List Word} (h : concatFat a l v w = true) (j : Nat) : ¬ (abit v j = true ∧ abit w j = true) := by
  rw [concatFat] at h
  cases ho : overlap v w
  · exact overlap_spec ho j
  · rw [ho] at h; simp at h

/-- The laws hold for sentences that fit in the slots. -/
theorem laws_fat {n slots : Nat} (hn : n ≤ 64 * slots) : Spec.Laws (fatOps slots) n (allSets n (makeFat slots)) abit := by
  have hmem : ∀ {v : List Word}, v ∈ allSets n (makeFat slots) ↔ v.length = slots ∧ ∀ j, abit v j = true → j < n :=
    mem_allSets (mem := abit) (P := fun v => v.length = slots) (fun l hl => ⟨length_makeFat slots l, makeFat_spec l (fun i hi => lt_of_lt_of_le (hl i hi) hn)⟩)
      (fun v w h1 h2 h => abit_ext (h1.trans h2.symm) h)
  refine laws_of (N := 64 * slots) hn ?_ (fun v hv w hw h => abit_ext ((hmem.1 hv).1.trans (hmem.1 hw).1.symm) h) ?_ ?_ ?_ ?_
  · intro v hv
    show abitcount v = _
    rw [C10_abitcount, (hmem.1 hv).1]
  · intro i hi
    have hu : ∀ j, abit (setbit (List.replicate slots 0) i) j = decide (j = i) := by
      intro j
      rw [(C10_single_bit _ i (by rw [List.length_replicate]; omega)).1, abit_replicate, Bool.false_or]
    refine ⟨hmem.2 ⟨by show (setbit _ i).length = _; rw [length_setbit, List.length_replicate], ?_⟩, hu⟩
    intro j hj
    rw [show (fatOps slots).unit i = setbit (List.replicate slots 0) i from rfl, hu, decide_eq_true_eq] at hj
    omega
  · intro v hv w hw a l hc
    have hlen := (hmem.1 hv).1.trans (hmem.1 hw).1.symm
    refine hmem.2 ⟨?_, ?_⟩
    · show (setunion v w).length = _
      rw [setunion, List.length_zipWith, hlen, Nat.min_self, (hmem.1 hw).1]
    · intro j hj
      rw [show (fatOps slots).combine v w = setunion v w from rfl, (C10_setops v w hlen).1, Bool.or_eq_true] at hj
      rcases hj with hj | hj
      · exact (hmem.1 hv).2 j hj
      · exact (hmem.1 hw).2 j hj
  · intro v hv w hw a l hc j
    exact (C10_setops v w ((hmem.1 hv).1.trans (hmem.1 hw).1.symm)).1 j
  · intro v _ w _ a l hc j
    exact concatFat_disjoint hc j

/-! ### The agenda -/

variable {R : Type} [AddCommGroup R] [LinearOrder R] [IsOrderedAddMonoid R]

/-- The first entry with a least value. -/
def firstLeast (x : Item V × R × R) : Dict (Item V) (R × R) → Item V × R × R
  | [] => x
  | y :: ys => if ltPair y.2 x.2 then firstLeast y ys else firstLeast x ys

/-- One possible choice of the agenda. -/
def pickFirst (d : Item V) (_ : Nat) : Dict (Item V) (R × R) → Item V
  | [] => d
  | x :: xs => (firstLeast x xs).1

theorem firstLeast_spec (xs : Dict (Item V) (R × R)) : ∀ x, firstLeast x xs ∈ x :: xs ∧ ∀ y ∈ x :: xs, ltPair y.2 (firstLeast x xs).2 = false := by
  have irr : ∀ a : R × R, ltPair a a = false := by intro a; simp [ltPair]
  have trans : ∀ a b c : R × R, ltPair a b = false → ltPair b c = false → ltPair a c = false := by
    intro a b c h1 h2
    simp only [ltPair, Bool.or_eq_false_iff, Bool.and_eq_false_imp, decide_eq_false_iff_not, decide_eq_true_eq, not_lt] at *
    refine ⟨le_trans h2.1 h1.1, fun e => ?_⟩
    have e1 : a.1 = b.1 := le_antisymm (by rw [e]; exact h2.1) h1.1
    have e2 : b.1 = c.1 := e1 ▸ e
    exact le_trans (h2.2 e2) (h1.2 e1)
  have asymm : ∀ a b : R × R, ltPair a b = true → ltPair b a = false := by
    intro a b h
    simp only [ltPair, Bool.or_eq_false_iff, Bool.and_eq_false_imp, Bool.or_eq_true, Bool.and_eq_true, decide_eq_false_iff_not, decide_eq_true_eq, not_lt] at *
    rcases h with h | ⟨h1, h2⟩
    · exact ⟨le_of_lt h, fun e => absurd (e ▸ h) (lt_irrefl _)⟩
    · exact ⟨h1.le, fun _ => le_of_lt h2⟩
  induction xs with
  | nil => intro x; simp [firstLeast, irr]
  | cons y ys ih =>
    intro x
    rw [firstLeast]
    split
    · rename_i h
      obtain ⟨h1, h2⟩ := ih y
      refine ⟨List.mem_cons_of_mem _ h1, ?_⟩
      intro z hz
      rcases List.mem_cons.1 hz with rfl | hz
      · exact trans _ _ _ (asymm _ _ h) (h2 y (by simp))
      · exact h2 z hz
    · rename_i h
      obtain ⟨h1, h2⟩ := ih x
      refine ⟨?_, ?_⟩
      · rcases List.mem_cons.1 h1 with h1 | h1
        · rw [h1]; simp
        · simp [h1]
      · intro z hz
        rcases List.mem_cons.1 hz with rfl | hz
        · exact h2 z (by simp)
        · rcases List.mem_cons.1 hz with rfl | hz
          · exact trans _ _ _ (by simpa using h) (h2 x (by simp))
          · exact h2 z (by simp [hz])

theorem picksLeast_first (d : Item V) : Spec.PicksLeast (pickFirst (R := R) d) := by
  intro k a hne hwf
  cases a with
  | nil => exact absurd rfl hne
  | cons x xs =>
    obtain ⟨h1, h2⟩ := firstLeast_spec xs x
    refine ⟨(firstLeast x xs).2, get?_of_mem hwf h1, ?_⟩
    intro y w hy
    exact h2 (y, w) (mem_of_get? hy)

/-! ### Derivations of the LCFRS -/

/-- The derivations of an LCFRS for a sentence of `n` words, in terms of sets of positions and yield functions: an item is a label and a set of positions. -/
inductive Spec.Lcfrs (g : Grammar R) (yf : PRule R → List (List Nat)) (n : Nat) : Nat → (Nat → Bool) → R → Prop
  | lex {i t p} : i < n → (t, p) ∈ g.lexicon i → Lcfrs g yf n t (fun j => decide (j = i)) p
  | unary {r S c} : r ∈ g.unary → Lcfrs g yf n r.rhs1 S c → Lcfrs g yf n r.lhs S (c + r.prob)
  | binary {r S T c d} : r ∈ g.lbinary → Lcfrs g yf n r.rhs1 S c → Lcfrs g yf n r.rhs2 T d → Concat.Spec.Composes (yf r) S T n →
      Lcfrs g yf n r.lhs (fun j => S j || T j) (c + d + r.prob)

/-- The grammar has a consistent fan-out for each label, and the bits of its rules encode its yield functions (C41). -/
structure Spec.Typed (g : Grammar R) (yf : PRule R → List (List Nat)) (n : Nat) (fan : Nat → Nat) : Prop where
  lex : ∀ i < n, ∀ t p, (t, p) ∈ g.lexicon i → fan t = 1
  unary : ∀ r ∈ g.unary, fan r.lhs = fan r.rhs1
  binary : ∀ r ∈ g.lbinary, Concat.Spec.Encodes r.args r.lengths (yf r) ∧ fan r.lhs = (yf r).length ∧
    fan r.rhs1 = Prods.Spec.mentions (yf r) 0 ∧ fan r.rhs2 = Prods.Spec.mentions (yf r) 1

theorem spans_eq {S : Nat → Bool} {n N : Nat} (hn : n ≤ N) (h : ∀ j, S j = true → j < n) : Concat.Spec.spans S N = Concat.Spec.spans S n := by
  rw [Concat.Spec.spans, Concat.Spec.spans, Concat.Spec.members, Concat.Spec.members, Nat.sub_zero, Nat.sub_zero]
  obtain ⟨k, rfl⟩ := Nat.exists_eq_add_of_le hn
  rw [← List.range'_append_1, List.filter_append]
  have : (List.range' (0 + n) k).filter S = [] := by
    rw [List.filter_eq_nil_iff]
    intro j hj hs
    have h1 := h j hs
    have h2 := (List.mem_range'_1.1 hj).1
    omega
  rw [this, List.append_nil]

theorem composes_eq {yf : List (List Nat)} {S T : Nat → Bool} {n N : Nat} (hn : n ≤ N) (hS : ∀ j, S j = true → j < n) (hT : ∀ j, T j = true → j < n) :
    Concat.Spec.Composes yf S T N ↔ Concat.Spec.Composes yf S T n := by
  rw [Concat.Spec.Composes, Concat.Spec.Composes, spans_eq hn hS, spans_eq hn hT,
    spans_eq hn (S := fun k => S k || T k) (fun j hj => by rcases Bool.or_eq_true _ _ ▸ hj with h | h; exact hS j h; exact hT j h)]

theorem apply_length : ∀ (yf : List (List Nat)) (s : Nat → List (List Nat)) {res : List (List Nat)} {s' : Nat → List (List Nat)},
    Prods.Spec.apply yf s = some (res, s') → res.length = yf.length := by
  intro yf
  induction yf with
  | nil =>
    intro s res s' h
    rw [Prods.Spec.apply] at h
    injection h with h; injection h with h; subst h; rfl
  | cons a as ih =>
    intro s res s' h
    rw [Prods.Spec.apply] at h
    obtain ⟨p, hp, h⟩ := Option.bind_eq_some_iff.1 h
    obtain ⟨q, hq, h⟩ := Option.map_eq_some_iff.1 h
    injection h with h1 h2
    subst h1
    rw [List.length_cons, List.length_cons, ih _ hq]

theorem spans_unit {i n : Nat} (hi : i < n) : (Concat.Spec.spans (fun j => decide (j = i)) n).length = 1 := by
  have : Concat.Spec.members (fun j => decide (j = i)) n 0 = [i] := by
    rw [Concat.Spec.members]
    refine List.perm_singleton.1 ((List.perm_ext_iff_of_nodup ((List.nodup_range' (s := 0) (n := n - 0)).filter _) (by simp)).2 ?_)
    intro j
    simp only [List.mem_filter, List.mem_range'_1, decide_eq_true_eq, List.mem_singleton]
    constructor
    · exact fun h => h.2
    · rintro rfl; exact ⟨by omega, rfl⟩
  rw [Concat.Spec.spans, this]; rfl

section
variable {g : Grammar R} {yf : PRule R → List (List Nat)} {n : Nat} {fan : Nat → Nat}

/-- Derived items have positions in the sentence and the fan-out of their label. -/
theorem lcfrs_fan (hty : Spec.Typed g yf n fan) {t : Nat} {S : Nat → Bool} {c : R} (h : Spec.Lcfrs g yf n t S c) :
    (∀ j, S j = true → j < n) ∧ (Concat.Spec.spans S n).length = fan t := by
  induction h with
  | lex hi ht => exact ⟨fun j hj => by simp at hj; omega, by rw [spans_unit hi, hty.lex _ hi _ _ ht]⟩
  | unary hr _ ih => exact ⟨ih.1, by rw [ih.2, hty.unary _ hr]⟩
  | binary hr _ _ hc ih1 ih2 =>
    refine ⟨fun j hj => ?_, ?_⟩
    · rcases Bool.or_eq_true _ _ ▸ hj with h | h
      · exact ih1.1 j h
      · exact ih2.1 j h
    · rw [(hty.binary _ hr).2.1]
      exact apply_length _ _ hc.1

theorem derives_iff_small (hty : Spec.Typed g yf n fan) (hn : n ≤ 64) (t : Nat) (v : Word) (c : R) :
    Spec.Derives smallOps g (fun _ => true) n ⟨t, v⟩ c ↔ Spec.Lcfrs g yf n t v.getLsbD c := by
  have hu : ∀ {i}, i < n → (1#64 <<< i).getLsbD = fun j => decide (j = i) := fun hi => funext (fun j => getLsbD_one_shift _ _ (by omega))
  constructor
  · intro h
    generalize hx : (⟨t, v⟩ : Item Word) = x at h
    induction h generalizing t v with
    | @lex i t' p hi ht _ =>
      injection hx with h1 h2; subst h1; subst h2
      rw [show smallOps.unit i = 1#64 <<< i from rfl, hu hi]
      exact .lex hi ht
    | @unary r w c hr _ _ ih =>
      injection hx with h1 h2; subst h1; subst h2
      exact .unary hr (ih _ _ rfl)
    | @binary r v1 v2 c d hr _ _ hc _ ih1 ih2 =>
      injection hx with h1 h2; subst h1; subst h2
      have d1 := ih1 _ _ rfl
      have d2 := ih2 _ _ rfl
      obtain ⟨l1, f1⟩ := lcfrs_fan hty d1
      obtain ⟨l2, f2⟩ := lcfrs_fan hty d2
      obtain ⟨he, _, m1, m2⟩ := hty.binary r hr
      have hcomp := (C41_concat_small _ _ v1 v2 _ he (by rw [spans_eq hn l1, f1, m1]) (by rw [spans_eq hn l2, f2, m2])).1 hc
      have hx : (smallOps.combine v1 v2).getLsbD = fun j => v1.getLsbD j || v2.getLsbD j := by
        funext j
        exact xor_or (hcomp.2 j)
      rw [hx]
      exact .binary hr d1 d2 ((composes_eq hn l1 l2).1 hcomp)
  · intro h
    generalize hS : v.getLsbD = S at h
    induction h generalizing v with
    | @lex i t p hi ht =>
      have : v = smallOps.unit i := BitVec.eq_of_getLsbD_eq (fun j _ => by rw [hS]; exact (congrFun (hu hi) j).symm)
      rw [this]
      exact .lex hi ht rfl
    | @unary r S c hr _ ih => exact .unary hr (ih v hS) rfl
    | @binary r S T c d hr h1 h2 hc ih1 ih2 =>
      obtain ⟨l1, f1⟩ := lcfrs_fan hty h1
      obtain ⟨l2, f2⟩ := lcfrs_fan hty h2
      obtain ⟨he, _, m1, m2⟩ := hty.binary r hr
      have rep : ∀ S : Nat → Bool, (∀ j, S j = true → j < n) → ∃ w : Word, w.getLsbD = S := by
        intro S hS
        refine ⟨makeSmall ((List.range n).filter S), funext (fun j => ?_)⟩
        rw [makeSmall_spec _ (fun i hi => by have := List.mem_range.1 (List.mem_filter.1 hi).1; omega)]
        by_cases h : S j = true
        · simp [h, hS j h]
        · simp [h]
      obtain ⟨v1, rfl⟩ := rep S l1
      obtain ⟨v2, rfl⟩ := rep T l2
      have hx : v = smallOps.combine v1 v2 := by
        refine BitVec.eq_of_getLsbD_eq (fun j _ => ?_)
        rw [hS]
        exact (xor_or (hc.2 j)).symm
      rw [hx]
      refine .binary hr (ih1 v1 rfl) (ih2 v2 rfl) ?_ rfl
      exact (C41_concat_small _ _ v1 v2 _ he (by rw [spans_eq hn l1, f1, m1]) (by rw [spans_eq hn l2, f2, m2])).2 ((composes_eq hn l1 l2).2 hc)

theorem derives_iff_fat (hty : Spec.Typed g yf n fan) {slots : Nat} (hn : n ≤ 64 * slots) (t : Nat) (v : List Word) (hv : v.length = slots) (c : R) :
    Spec.Derives (fatOps slots) g (fun _ => true) n ⟨t, v⟩ c ↔ Spec.Lcfrs g yf n t (abit v) c := by
  have hu : ∀ {i}, i < n → abit ((fatOps slots).unit i) = fun j => decide (j = i) := by
    intro i hi
    funext j
    show abit (setbit (List.replicate slots 0) i) j = _
    rw [(C10_single_bit _ i (by rw [List.length_replicate]; omega)).1, abit_replicate, Bool.false_or]
  have hul : ∀ i, ((fatOps slots).unit i).length = slots := by
    intro i
    show (setbit _ i).length = _
    rw [length_setbit, List.length_replicate]
  have hcl : ∀ v w : List Word, v.length = slots → w.length = slots → ((fatOps slots).combine v w).length = slots := by
    intro v w h1 h2
    show (setunion v w).length = _
    rw [setunion, List.length_zipWith, h1, h2, Nat.min_self]
  have hcu : ∀ v w : List Word, v.length = slots → w.length = slots → abit ((fatOps slots).combine v w) = fun j => abit v j || abit w j :=
    fun v w h1 h2 => funext (fun j => (C10_setops v w (h1.trans h2.symm)).1 j)
  constructor
  · intro h
    suffices hsuf : ∀ x : Item (List Word), Spec.Derives (fatOps slots) g (fun _ => true) n x c → x.vec.length = slots ∧ Spec.Lcfrs g yf n x.label (abit x.vec) c from (hsuf _ h).2
    clear h
    intro x h
    induction h with
    | @lex i t' p hi ht _ =>
      refine ⟨hul i, ?_⟩
      simp only [hu hi]
      exact .lex hi ht
    | @unary r w c hr _ _ ih => exact ⟨ih.1, .unary hr ih.2⟩
    | @binary r v1 v2 c d hr _ _ hc _ ih1 ih2 =>
      obtain ⟨k1, d1⟩ := ih1
      obtain ⟨k2, d2⟩ := ih2
      obtain ⟨l1, f1⟩ := lcfrs_fan hty d1
      obtain ⟨l2, f2⟩ := lcfrs_fan hty d2
      obtain ⟨he, _, m1, m2⟩ := hty.binary r hr
      have hcomp := (C41_concat_fat _ _ _ v1 v2 he (k1.trans k2.symm)).1 hc
      rw [show v1.length = slots from k1] at hcomp
      refine ⟨hcl _ _ k1 k2, ?_⟩
      simp only [hcu v1 v2 k1 k2]
      exact .binary hr d1 d2 ((composes_eq hn l1 l2).1 hcomp)
  · intro h
    generalize hS : abit v = S at h
    induction h generalizing v with
    | @lex i t p hi ht =>
      have : v = (fatOps slots).unit i := abit_ext (hv.trans (hul i).symm) (fun j => by rw [hS, hu hi])
      rw [this]
      exact .lex hi ht rfl
    | @unary r S c hr _ ih => exact .unary hr (ih v hv hS) rfl
    | @binary r S T c d hr h1 h2 hc ih1 ih2 =>
      obtain ⟨l1, f1⟩ := lcfrs_fan hty h1
      obtain ⟨l2, f2⟩ := lcfrs_fan hty h2
      obtain ⟨he, _, m1, m2⟩ := hty.binary r hr
      have rep : ∀ S : Nat → Bool, (∀ j, S j = true → j < n) → ∃ w : List Word, w.length = slots ∧ abit w = S := by
        intro S hS
        refine ⟨makeFat slots ((List.range n).filter S), length_makeFat _ _, funext (fun j => ?_)⟩
        rw [makeFat_spec _ (fun i hi => by have := List.mem_range.1 (List.mem_filter.1 hi).1; omega)]
        by_cases h : S j = true
        · simp [h, hS j h]
        · simp [h]
      obtain ⟨v1, k1, rfl⟩ := rep S l1
      obtain ⟨v2, k2, rfl⟩ := rep T l2
      have hx : v = (fatOps slots).combine v1 v2 := abit_ext (hv.trans (hcl _ _ k1 k2).symm) (fun j => by rw [hS, hcu v1 v2 k1 k2])
      rw [hx]
      refine .binary hr (ih1 v1 k1 rfl) (ih2 v2 k2 rfl) ?_ rfl
      refine (C41_concat_fat _ _ _ v1 v2 he (k1.trans k2.symm)).2 ?_
      rw [k1]
      exact (composes_eq hn l1 l2).2 hc

/-- **C25**, for sentences of up to 64 words: the cost of the goal in the chart is the least cost of an LCFRS derivation of the whole sentence, and the goal is missing if there is no derivation. The number
of rounds is at most the number of labels times the number of sets of words. -/
theorem C25_small (hty : Spec.Typed g yf n fan) (hn : 0 < n) (hn2 : n ≤ 64) {M : R} {start : Nat} (U : Spec.Usable g n M start) {pick : Nat → Dict (Item Word) (R × R) → Item Word}
    (hp : Spec.PicksLeast pick) (ex : Bool) {labels : List Nat} (hlex : ∀ i < n, ∀ t p, (t, p) ∈ g.lexicon i → t ∈ labels) (hun : ∀ r ∈ g.unary, r.lhs ∈ labels)
    (hbin : ∀ r ∈ g.lbinary, r.lhs ∈ labels) {fuel : Nat} (hf : labels.length * 2 ^ n ≤ fuel) {goal : Word} (hgoal : ∀ j, goal.getLsbD j = decide (j < n)) :
    (∃ i < n, parse smallOps g M (fun _ => true) pick ⟨start, goal⟩ ex n fuel = some (.notags i) ∧ ¬ ∃ c, Spec.Lcfrs g yf n start (fun j => decide (j < n)) c) ∨
    ∃ st, parse smallOps g M (fun _ => true) pick ⟨start, goal⟩ ex n fuel = some (.ok st) ∧
      (∀ c, st.probs ⟨start, goal⟩ = some c ↔ IsLeast {d | Spec.Lcfrs g yf n start (fun j => decide (j < n)) d} c) ∧
      ((∃ c, Spec.Lcfrs g yf n start (fun j => decide (j < n)) c) → st.probs ⟨start, goal⟩ ≠ none) := by
  have L := laws_small hn2
  have hg : goal.getLsbD = fun j => decide (j < n) := funext hgoal
  have hd : ∀ c, Spec.Derives smallOps g (fun _ => true) n ⟨start, goal⟩ c ↔ Spec.Lcfrs g yf n start (fun j => decide (j < n)) c := by
    intro c; rw [derives_iff_small hty hn2, hg]
  rcases C25_terminates (allowed := fun _ => true) (goal := (⟨start, goal⟩ : Item Word)) L hn U hp ex hlex hun hbin (fuel := fuel) (by rw [length_allSets]; exact hf) with ⟨i, hi, h⟩ | ⟨st, h⟩
  · refine Or.inl ⟨i, hi, h, ?_⟩
    have := (C25_notags L hn (goal := (⟨start, goal⟩ : Item Word)) U h).2 ⟨start, goal⟩ (by rw [hgoal]; simpa using hi)
    simpa only [hd] using this
  · refine Or.inr ⟨st, h, ?_⟩
    obtain ⟨h1, h2, _⟩ := C25_goal L hn (goal := (⟨start, goal⟩ : Item Word)) U hp h
    simp only [hd] at h1 h2
    exact ⟨h1, h2⟩

/-- **C25**, for longer sentences, with a number of slots (2 in disco-dop). -/
theorem C25_fat (hty : Spec.Typed g yf n fan) (hn : 0 < n) {slots : Nat} (hn2 : n ≤ 64 * slots) {M : R} {start : Nat} (U : Spec.Usable g n M start)
    {pick : Nat → Dict (Item (List Word)) (R × R) → Item (List Word)} (hp : Spec.PicksLeast pick) (ex : Bool) {labels : List Nat}
    (hlex : ∀ i < n, ∀ t p, (t, p) ∈ g.lexicon i → t ∈ labels) (hun : ∀ r ∈ g.unary, r.lhs ∈ labels) (hbin : ∀ r ∈ g.lbinary, r.lhs ∈ labels) {fuel : Nat}
    (hf : labels.length * 2 ^ n ≤ fuel) {goal : List Word} (hlen : goal.length = slots) (hgoal : ∀ j, abit goal j = decide (j < n)) :
    (∃ i < n, parse (fatOps slots) g M (fun _ => true) pick ⟨start, goal⟩ ex n fuel = some (.notags i) ∧ ¬ ∃ c, Spec.Lcfrs g yf n start (fun j => decide (j < n)) c) ∨
    ∃ st, parse (fatOps slots) g M (fun _ => true) pick ⟨start, goal⟩ ex n fuel = some (.ok st) ∧
      (∀ c, st.probs ⟨start, goal⟩ = some c ↔ IsLeast {d | Spec.Lcfrs g yf n start (fun j => decide (j < n)) d} c) ∧
      ((∃ c, Spec.Lcfrs g yf n start (fun j => decide (j < n)) c) → st.probs ⟨start, goal⟩ ≠ none) := by
  have L := laws_fat hn2
  have hg : abit goal = fun j => decide (j < n) := funext hgoal
  have hd : ∀ c, Spec.Derives (fatOps slots) g (fun _ => true) n ⟨start, goal⟩ c ↔ Spec.Lcfrs g yf n start (fun j => decide (j < n)) c := by
    intro c; rw [derives_iff_fat hty hn2 _ _ hlen, hg]
  rcases C25_terminates (allowed := fun _ => true) (goal := (⟨start, goal⟩ : Item (List Word))) L hn U hp ex hlex hun hbin (fuel := fuel) (by rw [length_allSets]; exact hf) with ⟨i, hi, h⟩ | ⟨st, h⟩
  · refine Or.inl ⟨i, hi, h, ?_⟩
    have := (C25_notags L hn (goal := (⟨start, goal⟩ : Item (List Word))) U h).2 ⟨start, goal⟩ (by rw [hgoal]; simpa using hi)
    simpa only [hd] using this
  · refine Or.inr ⟨st, h, ?_⟩
    obtain ⟨h1, h2, _⟩ := C25_goal L hn (goal := (⟨start, goal⟩ : Item (List Word))) U hp h
    simp only [hd] at h1 h2
    exact ⟨h1, h2⟩

end

/-! ### Examples -/

/-- S → A_2 B with the yield function 010: the words 0 and 2 are `A_2` and word 1 is `B`; `A_2` comes from the words by the rule `A_2 → C D` with the yield function 0,1. -/
def exGrammar : Grammar Int where
  unary := [⟨1, 3, 0, 0, 0, 1, 0⟩]
  lbinary := [⟨2, 4, 5, 0b10, 0b11, 2, 1⟩, ⟨3, 2, 6, 0b010, 0b100, 3, 2⟩, ⟨3, 2, 7, 0b010, 0b100, 1, 3⟩]
  rbinary := [⟨2, 4, 5, 0b10, 0b11, 2, 1⟩, ⟨3, 2, 6, 0b010, 0b100, 3, 2⟩, ⟨3, 2, 7, 0b010, 0b100, 1, 3⟩]
  lexicon i := if i = 0 then [(4, 1)] else if i = 1 then [(6, 2), (7, 5)] else if i = 2 then [(5, 1)] else []

/-- The yield functions. -/
def exYF (r : PRule Int) : List (List Nat) := if r.lhs = 2 then [[0], [1]] else [[0, 1, 0]]

example : Spec.Usable exGrammar 3 10000 1 where
  max := by decide
  unary := by decide
  binary := by decide
  lex := by
    intro i hi t p h
    rcases (by omega : i = 0 ∨ i = 1 ∨ i = 2) with rfl | rfl | rfl <;> revert h <;> simp [exGrammar]
    · rintro rfl rfl; decide
    · rintro (⟨rfl, rfl⟩ | ⟨rfl, rfl⟩) <;> decide
    · rintro rfl rfl; decide
  tags := by decide
  perm := List.Perm.refl _
  nodup := by decide

theorem exEncodes1 : Concat.Spec.Encodes 0b10 0b11 [[0], [1]] := by
  obtain ⟨s, h1, h2, _⟩ := YieldBits.C41_readYF [[0], [1]] ⟨by decide, by decide, by decide⟩
  have e : YieldBits.readYF (YieldBits.Spec.text [[0], [1]]) = some ⟨0b10, 0b11, 2, 2, 1, 1⟩ := by decide +kernel
  rw [e] at h1
  injection h1 with h1; subst h1
  exact h2

theorem exEncodes2 : Concat.Spec.Encodes 0b010 0b100 [[0, 1, 0]] := by
  obtain ⟨s, h1, h2, _⟩ := YieldBits.C41_readYF [[0, 1, 0]] ⟨by decide, by decide, by decide⟩
  have e : YieldBits.readYF (YieldBits.Spec.text [[0, 1, 0]]) = some ⟨0b010, 0b100, 3, 1, 2, 1⟩ := by decide +kernel
  rw [e] at h1
  injection h1 with h1; subst h1
  exact h2

example : Spec.Typed exGrammar exYF 3 (fun t => if t = 2 then 2 else 1) where
  lex := by
    intro i hi t p h
    rcases (by omega : i = 0 ∨ i = 1 ∨ i = 2) with rfl | rfl | rfl <;> revert h <;> simp [exGrammar] <;> omega
  unary := by decide
  binary := by
    intro r hr
    simp only [exGrammar, List.mem_cons, List.not_mem_nil, or_false] at hr
    rcases hr with rfl | rfl | rfl
    · exact ⟨exEncodes1, by decide +kernel, by decide +kernel, by decide +kernel⟩
    · exact ⟨exEncodes2, by decide +kernel, by decide +kernel, by decide +kernel⟩
    · exact ⟨exEncodes2, by decide +kernel, by decide +kernel, by decide +kernel⟩

example : Spec.PicksLeast (pickFirst (R := Int) (⟨0, 0⟩ : Item Word)) := picksLeast_first _

-- the best derivation costs 1 + 3 + 2 + (2 + 1 + 1) = 10
example : (match parse smallOps exGrammar 10000 (fun _ => true) (pickFirst ⟨0, 0⟩) ⟨1, 7⟩ true 3 56 with
    | some (.ok st) => (st.probs ⟨1, 7⟩, st.probs ⟨2, 5⟩, (st.forest ⟨3, 7⟩).length)
    | _ => (none, none, 0)) = (some 10, some 4, 2) := by decide +kernel

/-- A grammar in which a tag is the left-hand side of a unary rule: `N` (2) → w costs 46, `V` (3) → w costs 1, `N → V` costs 1, `S` (1) → `N` costs 0. -/
def exTag : Grammar Int where
  unary := [⟨1, 2, 0, 0, 0, 0, 0⟩, ⟨2, 3, 0, 0, 0, 1, 1⟩]
  lbinary := []
  rbinary := []
  lexicon i := if i = 0 then [(2, 46), (3, 1)] else []

/-- **C25, disagreement**: if a tag of a word is also the left-hand side of a unary rule, the chart does not have the least cost: the tag is taken from the agenda before the better derivation,
because only the scores of items that are not made by lexical rules get the length of their span added. -/
theorem C25_disagreement_tag : (∀ ex, (match parse smallOps exTag 1000 (fun _ => true) (pickFirst ⟨0, 0⟩) ⟨1, 1⟩ ex 1 6 with
    | some (.ok st) => st.probs ⟨1, 1⟩
    | _ => none) = some 46) ∧ Spec.Derives smallOps exTag (fun _ => true) 1 ⟨1, 1⟩ 2 := by
  refine ⟨by decide +kernel, ?_⟩
  have h1 : Spec.Derives smallOps exTag (fun _ => true) 1 ⟨3, 1⟩ 1 := .lex (o := smallOps) (i := 0) (by decide) (by decide) rfl
  have h2 : Spec.Derives smallOps exTag (fun _ => true) 1 ⟨2, 1⟩ (1 + 1) := .unary (r := ⟨2, 3, 0, 0, 0, 1, 1⟩) (by decide) h1 rfl
  exact .unary (r := ⟨1, 2, 0, 0, 0, 0, 0⟩) (c := 2) (by decide) h2 rfl

end Disco.Plcfrs
