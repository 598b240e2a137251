import Mathlib.Data.List.Basic
import Mathlib.Algebra.Order.Field.Rat
import Mathlib.Algebra.Order.Field.Basic
import Mathlib.Tactic.Linarith
/-!
# C28: edit distance (eval.py:1040-1063) and the leaf-ancestor path score (eval.py:912-914)
-/
namespace Disco.EditDist

variable {α : Type} [DecidableEq α]

/-- `lev[i][j] = v` on the two-dimensional array, represented as a function of the indices. -/
def upd (lev : Nat → Nat → Nat) (i j v : Nat) : Nat → Nat → Nat := fun a b => if a = i ∧ b = j then v else lev a b

/-- eval.py:1051-1055: the array with zeros, then column 0, then row 0. -/
def initLev (len1 len2 : Nat) : Nat → Nat → Nat :=
  let lev := fun _ _ => 0
  let lev := (List.range (len1 + 1)).foldl (fun lev i => upd lev i 0 i) lev
  (List.range (len2 + 1)).foldl (fun lev j => upd lev 0 j j) lev

/-- Body of the loops (eval.py:1059-1062). -/
def body (seq1 seq2 : List α) (lev : Nat → Nat → Nat) (i j : Nat) : Nat → Nat → Nat :=
  let a := lev i (j + 1) + 1
  let b := lev i j + (if seq1[i]? ≠ seq2[j]? then 1 else 0)
  let c := lev (i + 1) j + 1
  upd lev (i + 1) (j + 1) (min (min a b) c)

/-- `editdistance(seq1, seq2)` (eval.py:1040-1063). -/
def editdistance (seq1 seq2 : List α) : Nat :=
  let lev := (List.range seq1.length).foldl
    (fun lev i => (List.range seq2.length).foldl (fun lev j => body seq1 seq2 lev i j) lev) (initLev seq1.length seq2.length)
  lev seq1.length seq2.length

/-- `pathscore(gold, cand)` (eval.py:912-914), with an exact rational number instead of a `Decimal`. -/
def pathscore (gold cand : List α) : Rat := 1 - (editdistance cand gold : Rat) / (max (gold ++ cand).length 1 : Nat)

/-! ### Specification -/

/-- One insertion, deletion or substitution at any place. -/
inductive Spec.Edit1 : List α → List α → Prop
  | ins (u v : List α) (x : α) : Spec.Edit1 (u ++ v) (u ++ x :: v)
  | del (u v : List α) (x : α) : Spec.Edit1 (u ++ x :: v) (u ++ v)
  | sub (u v : List α) (x y : α) : Spec.Edit1 (u ++ x :: v) (u ++ y :: v)

/-- `b` can be made from `a` with `n` edits, one after another. -/
inductive Spec.Edits : Nat → List α → List α → Prop
  | zero (a : List α) : Spec.Edits 0 a a
  | succ {n : Nat} {a b c : List α} : Spec.Edit1 a b → Spec.Edits n b c → Spec.Edits (n + 1) a c

/-! ### Alignments -/

/-- An alignment of two sequences with its cost. -/
inductive Align : Nat → List α → List α → Prop
  | nil : Align 0 [] []
  | mtch {n : Nat} {a b : List α} (x : α) : Align n a b → Align n (x :: a) (x :: b)
  | sub {n : Nat} {a b : List α} (x y : α) : Align n a b → Align (n + 1) (x :: a) (y :: b)
  | del {n : Nat} {a b : List α} (x : α) : Align n a b → Align (n + 1) (x :: a) b
  | ins {n : Nat} {a b : List α} (x : α) : Align n a b → Align (n + 1) a (x :: b)

omit [DecidableEq α] in
theorem Align.refl : ∀ a : List α, Align 0 a a
  | [] => .nil
  | x :: a => .mtch x (Align.refl a)

omit [DecidableEq α] in
theorem Align.append {m n : Nat} {a b c d : List α} (h : Align m a b) (h' : Align n c d) : Align (m + n) (a ++ c) (b ++ d) := by
  induction h with
  | nil => simpa using h'
  | mtch x _ ih => exact .mtch x ih
  | sub x y _ ih => rw [Nat.add_right_comm]; exact .sub x y ih
  | del x _ ih => rw [Nat.add_right_comm]; exact .del x ih
  | ins x _ ih => rw [Nat.add_right_comm]; exact .ins x ih

omit [DecidableEq α] in
theorem Align.reverse {n : Nat} {a b : List α} (h : Align n a b) : Align n a.reverse b.reverse := by
  induction h with
  | nil => exact .nil
  | mtch x _ ih => simpa using ih.append (Align.mtch x .nil)
  | sub x y _ ih => simpa using ih.append (Align.sub x y .nil)
  | del x _ ih => simpa using ih.append (Align.del x .nil)
  | ins x _ ih => simpa using ih.append (Align.ins x .nil)

omit [DecidableEq α] in
theorem Align.symm {n : Nat} {a b : List α} (h : Align n a b) : Align n b a := by
  induction h with
  | nil => exact .nil
  | mtch x _ ih => exact .mtch x ih
  | sub x y _ ih => exact .sub y x ih
  | del x _ ih => exact .ins x ih
  | ins x _ ih => exact .del x ih

omit [DecidableEq α] in
theorem Align.trans {m : Nat} {a b : List α} (h : Align m a b) : ∀ {n : Nat} {c : List α}, Align n b c → ∃ k, k ≤ m + n ∧ Align k a c := by
  induction h with
  | nil => intro n c h'; exact ⟨n, by omega, h'⟩
  | @del m a b x _ ih =>
    intro n c h'
    obtain ⟨k, hk, h⟩ := ih h'
    exact ⟨k + 1, by omega, .del x h⟩
  | @ins m a b x _ ih =>
    intro n c h'
    generalize hb : x :: b = b' at h'
    induction h' with
    | nil => simp at hb
    | mtch y h1 _ =>
      injection hb with h2 h3; subst h2 h3
      obtain ⟨k, hk, h⟩ := ih h1
      exact ⟨k + 1, by omega, .ins _ h⟩
    | sub y z h1 _ =>
      injection hb with h2 h3; subst h2 h3
      obtain ⟨k, hk, h⟩ := ih h1
      exact ⟨k + 1, by omega, .ins _ h⟩
    | del y h1 _ =>
      injection hb with h2 h3; subst h2 h3
      obtain ⟨k, hk, h⟩ := ih h1
      exact ⟨k, by omega, h⟩
    | ins y h1 ih1 =>
      obtain ⟨k, hk, h⟩ := ih1 hb
      exact ⟨k + 1, by omega, .ins _ h⟩
  | @mtch m a b x _ ih =>
    intro n c h'
    generalize hb : x :: b = b' at h'
    induction h' with
    | nil => simp at hb
    | mtch y h1 _ =>
      injection hb with h2 h3; subst h2 h3
      obtain ⟨k, hk, h⟩ := ih h1
      exact ⟨k, by omega, .mtch _ h⟩
    | sub y z h1 _ =>
      injection hb with h2 h3; subst h2 h3
      obtain ⟨k, hk, h⟩ := ih h1
      exact ⟨k + 1, by omega, .sub _ _ h⟩
    | del y h1 _ =>
      injection hb with h2 h3; subst h2 h3
      obtain ⟨k, hk, h⟩ := ih h1
      exact ⟨k + 1, by omega, .del _ h⟩
    | ins y h1 ih1 =>
      obtain ⟨k, hk, h⟩ := ih1 hb
      exact ⟨k + 1, by omega, .ins _ h⟩
  | @sub m a b x x' _ ih =>
    intro n c h'
    generalize hb : x' :: b = b' at h'
    induction h' with
    | nil => simp at hb
    | mtch y h1 _ =>
      injection hb with h2 h3; subst h2 h3
      obtain ⟨k, hk, h⟩ := ih h1
      exact ⟨k + 1, by omega, .sub _ _ h⟩
    | sub y z h1 _ =>
      injection hb with h2 h3; subst h2 h3
      obtain ⟨k, hk, h⟩ := ih h1
      exact ⟨k + 1, by omega, .sub _ _ h⟩
    | del y h1 _ =>
      injection hb with h2 h3; subst h2 h3
      obtain ⟨k, hk, h⟩ := ih h1
      exact ⟨k + 1, by omega, .del _ h⟩
    | ins y h1 ih1 =>
      obtain ⟨k, hk, h⟩ := ih1 hb
      exact ⟨k + 1, by omega, .ins _ h⟩

omit [DecidableEq α] in
theorem edit1_align {a b : List α} (h : Spec.Edit1 a b) : Align 1 a b := by
  cases h with
  | ins u v x => simpa using (Align.refl u).append (Align.ins x (Align.refl v))
  | del u v x => simpa using (Align.refl u).append (Align.del x (Align.refl v))
  | sub u v x y => simpa using (Align.refl u).append (Align.sub x y (Align.refl v))

omit [DecidableEq α] in
theorem edits_align {n : Nat} {a b : List α} (h : Spec.Edits n a b) : ∃ k, k ≤ n ∧ Align k a b := by
  induction h with
  | zero a => exact ⟨0, le_refl _, Align.refl a⟩
  | succ h1 _ ih =>
    obtain ⟨k, hk, h⟩ := ih
    obtain ⟨j, hj, h'⟩ := (edit1_align h1).trans h
    exact ⟨j, by omega, h'⟩

omit [DecidableEq α] in
theorem edits_cons {n : Nat} {a b : List α} (x : α) (h : Spec.Edits n a b) : Spec.Edits n (x :: a) (x :: b) := by
  induction h with
  | zero a => exact .zero _
  | succ h1 _ ih =>
    refine .succ ?_ ih
    cases h1 with
    | ins u v y => exact .ins (x :: u) v y
    | del u v y => exact .del (x :: u) v y
    | sub u v y z => exact .sub (x :: u) v y z

omit [DecidableEq α] in
theorem align_edits {n : Nat} {a b : List α} (h : Align n a b) : Spec.Edits n a b := by
  induction h with
  | nil => exact .zero _
  | mtch x _ ih => exact edits_cons x ih
  | sub x y _ ih => exact .succ (.sub [] _ x y) (edits_cons y ih)
  | del x _ ih => exact .succ (.del [] _ x) ih
  | @ins n a b x _ ih => exact .succ (.ins [] a x) (edits_cons x ih)

/-! ### The recurrence -/

/-- The recurrence which the array satisfies. -/
def D (s1 s2 : List α) : Nat → Nat → Nat
  | 0, j => j
  | i + 1, 0 => i + 1
  | i + 1, j + 1 => min (min (D s1 s2 i (j + 1) + 1) (D s1 s2 i j + (if s1[i]? ≠ s2[j]? then 1 else 0))) (D s1 s2 (i + 1) j + 1)

theorem D_zero_right (s1 s2 : List α) (i : Nat) : D s1 s2 i 0 = i := by cases i <;> rw [D]

theorem initLev_eq (m n a b : Nat) (ha : a ≤ m) (hb : b ≤ n) (h : a = 0 ∨ b = 0) : initLev m n a b = a + b := by
  have col : ∀ k (lev : Nat → Nat → Nat), ((List.range k).foldl (fun lev i => upd lev i 0 i) lev) a b =
      if a < k ∧ b = 0 then a else lev a b := by
    intro k lev
    induction k with
    | zero => simp
    | succ k ih =>
      rw [List.range_succ, List.foldl_append, List.foldl_cons, List.foldl_nil, upd, ih]
      split_ifs <;> omega
  have row : ∀ k (lev : Nat → Nat → Nat), ((List.range k).foldl (fun lev j => upd lev 0 j j) lev) a b =
      if b < k ∧ a = 0 then b else lev a b := by
    intro k lev
    induction k with
    | zero => simp
    | succ k ih =>
      rw [List.range_succ, List.foldl_append, List.foldl_cons, List.foldl_nil, upd, ih]
      split_ifs <;> omega
  simp only [initLev]
  rw [row, col]
  split_ifs <;> omega

theorem inner_eq (s1 s2 : List α) (n i : Nat) (lev : Nat → Nat → Nat)
    (h : ∀ a b, b ≤ n → (a ≤ i ∨ (a = i + 1 ∧ b = 0)) → lev a b = D s1 s2 a b) (k : Nat) (hk : k ≤ n) :
    (∀ a b, b ≤ n → (a ≤ i ∨ (a = i + 1 ∧ b ≤ k)) →
      ((List.range k).foldl (fun lev j => body s1 s2 lev i j) lev) a b = D s1 s2 a b) ∧
    (∀ a b, (a ≠ i + 1) → ((List.range k).foldl (fun lev j => body s1 s2 lev i j) lev) a b = lev a b) := by
  induction k with
  | zero => exact ⟨fun a b hb hab => h a b hb (by omega), fun a b _ => rfl⟩
  | succ k ih =>
    obtain ⟨i1, i2⟩ := ih (by omega)
    rw [List.range_succ, List.foldl_append, List.foldl_cons, List.foldl_nil]
    constructor
    · intro a b hb hab
      rw [body]
      simp only [upd]
      by_cases hc : a = i + 1 ∧ b = k + 1
      · rw [if_pos hc]
        obtain ⟨rfl, rfl⟩ := hc
        rw [D, i1 i (k + 1) (by omega) (by omega), i1 i k (by omega) (by omega), i1 (i + 1) k (by omega) (by omega)]
      · rw [if_neg hc]
        exact i1 a b hb (by omega)
    · intro a b hab
      rw [body]
      simp only [upd]
      rw [if_neg (by omega)]
      exact i2 a b hab

theorem outer_eq (s1 s2 : List α) (k : Nat) (hk : k ≤ s1.length) : ∀ a b, a ≤ s1.length → b ≤ s2.length → (a ≤ k ∨ b = 0) →
    ((List.range k).foldl (fun lev i => (List.range s2.length).foldl (fun lev j => body s1 s2 lev i j) lev)
      (initLev s1.length s2.length)) a b = D s1 s2 a b := by
  induction k with
  | zero =>
    intro a b ha hb hab
    rw [List.range_zero, List.foldl_nil, initLev_eq _ _ _ _ ha hb (by omega)]
    rcases (by omega : a = 0 ∨ b = 0) with rfl | rfl
    · rw [D]; omega
    · rw [D_zero_right]; omega
  | succ k ih =>
    intro a b ha hb hab
    rw [List.range_succ, List.foldl_append, List.foldl_cons, List.foldl_nil]
    have hi := inner_eq s1 s2 s2.length k _ (fun a b hb hab => ih (by omega) a b (by omega) hb (by omega)) s2.length (le_refl _)
    by_cases h : a ≤ k + 1
    · exact hi.1 a b hb (by omega)
    · rw [hi.2 a b (by omega)]
      exact ih (by omega) a b ha hb (by omega)

theorem editdistance_eq (s1 s2 : List α) : editdistance s1 s2 = D s1 s2 s1.length s2.length :=
  outer_eq s1 s2 s1.length (le_refl _) _ _ (le_refl _) (le_refl _) (Or.inl (le_refl _))

omit [DecidableEq α] in
theorem rev_take_succ (s : List α) (i : Nat) (h : i < s.length) : (s.take (i + 1)).reverse = s[i] :: (s.take i).reverse := by
  rw [List.take_add_one, List.getElem?_eq_getElem h]; simp

omit [DecidableEq α] in
theorem align_nil_left {n : Nat} {b : List α} (h : Align n [] b) : n = b.length := by
  generalize ha : ([] : List α) = a at h
  induction h with
  | nil => rfl
  | mtch | sub | del => simp at ha
  | ins x _ ih => simp [ih ha]

omit [DecidableEq α] in
theorem align_nil_right {n : Nat} {a : List α} (h : Align n a []) : n = a.length := align_nil_left h.symm

omit [DecidableEq α] in
theorem align_all_ins (b : List α) : Align b.length [] b := by
  induction b with
  | nil => exact .nil
  | cons x b ih => exact .ins x ih

theorem D_spec (s1 s2 : List α) (i j : Nat) (hi : i ≤ s1.length) (hj : j ≤ s2.length) :
    Align (D s1 s2 i j) (s1.take i).reverse (s2.take j).reverse ∧
    ∀ n, Align n (s1.take i).reverse (s2.take j).reverse → D s1 s2 i j ≤ n := by
  induction i, j using D.induct with
  | case1 j =>
    rw [D]
    have hl : ((s2.take j).reverse).length = j := by simp [hj]
    refine ⟨?_, fun n h => ?_⟩
    · have := align_all_ins (s2.take j).reverse
      rwa [hl] at this
    · have := align_nil_left (by simpa using h)
      simp at hl this; omega
  | case2 i =>
    rw [D]
    have hl : ((s1.take (i + 1)).reverse).length = i + 1 := by simp [hi]
    refine ⟨?_, fun n h => ?_⟩
    · have := (align_all_ins (s1.take (i + 1)).reverse).symm
      rwa [hl] at this
    · have := align_nil_right (by simpa using h)
      simp at hl this; omega
  | case3 i j ih1 ih2 ih3 =>
    obtain ⟨a1, b1⟩ := ih1 (by omega) hj
    obtain ⟨a2, b2⟩ := ih2 (by omega) (by omega)
    obtain ⟨a3, b3⟩ := ih3 hi (by omega)
    have e1 := rev_take_succ s1 i (by omega)
    have e2 := rev_take_succ s2 j (by omega)
    have g1 : s1[i]? = some s1[i] := List.getElem?_eq_getElem (by omega)
    have g2 : s2[j]? = some s2[j] := List.getElem?_eq_getElem (by omega)
    rw [D]
    constructor
    · rcases min_choice (min (D s1 s2 i (j + 1) + 1) (D s1 s2 i j + (if s1[i]? ≠ s2[j]? then 1 else 0))) (D s1 s2 (i + 1) j + 1)
        with h | h <;> rw [h]
      · rcases min_choice (D s1 s2 i (j + 1) + 1) (D s1 s2 i j + (if s1[i]? ≠ s2[j]? then 1 else 0)) with h | h <;> rw [h]
        · rw [e1]; exact .del _ a1
        · rw [e1, e2, g1, g2]
          by_cases he : s1[i] = s2[j]
          · rw [if_neg (by simp [he]), he]; exact .mtch _ a2
          · rw [if_pos (by simpa using he)]; exact .sub _ _ a2
      · rw [e2]; exact .ins _ a3
    · intro n h
      generalize hx : (s1.take (i + 1)).reverse = x at h
      generalize hy : (s2.take (j + 1)).reverse = y at h
      rw [e1] at hx
      rw [e2] at hy
      cases h with
      | nil => simp at hx
      | mtch z h =>
        injection hx with hx1 hx2; injection hy with hy1 hy2
        subst hx2 hy2
        have := b2 _ h
        rw [g1, g2, hx1, hy1, if_neg (by simp)]
        omega
      | sub z w h =>
        injection hx with hx1 hx2; injection hy with hy1 hy2
        subst hx2 hy2
        have := b2 _ h
        split_ifs <;> omega
      | del z h =>
        injection hx with hx1 hx2
        subst hx2 hy
        rw [← e2] at h
        have := b1 _ h
        omega
      | ins z h =>
        injection hy with hy1 hy2
        subst hy2 hx
        rw [← e1] at h
        have := b3 _ h
        omega

theorem editdistance_align (a b : List α) : Align (editdistance a b) a b ∧ ∀ n, Align n a b → editdistance a b ≤ n := by
  rw [editdistance_eq]
  obtain ⟨h1, h2⟩ := D_spec a b a.length b.length (le_refl _) (le_refl _)
  rw [List.take_length, List.take_length] at h1 h2
  exact ⟨by simpa using h1.reverse, fun n h => h2 n h.reverse⟩

/-! ### C28 -/

/-- **C28.** `editdistance(a, b)` is the least number of insertions, deletions and substitutions that turn `a` into `b`. -/
theorem C28_least_edits (a b : List α) : Spec.Edits (editdistance a b) a b ∧ ∀ n, Spec.Edits n a b → editdistance a b ≤ n := by
  obtain ⟨h1, h2⟩ := editdistance_align a b
  refine ⟨align_edits h1, fun n h => ?_⟩
  obtain ⟨k, hk, h⟩ := edits_align h
  exact le_trans (h2 k h) hk

/-- **C28.** The distance is zero only for equal sequences. -/
theorem C28_zero_iff (a b : List α) : editdistance a b = 0 ↔ a = b := by
  obtain ⟨h1, h2⟩ := C28_least_edits a b
  constructor
  · intro h
    rw [h] at h1
    cases h1; rfl
  · rintro rfl
    exact Nat.le_zero.1 (h2 0 (.zero _))

/-- **C28.** Symmetry. -/
theorem C28_symm (a b : List α) : editdistance a b = editdistance b a :=
  le_antisymm ((editdistance_align a b).2 _ (editdistance_align b a).1.symm) ((editdistance_align b a).2 _ (editdistance_align a b).1.symm)

/-- **C28.** Triangle inequality. -/
theorem C28_triangle (a b c : List α) : editdistance a c ≤ editdistance a b + editdistance b c := by
  obtain ⟨k, hk, h⟩ := (editdistance_align a b).1.trans (editdistance_align b c).1
  exact le_trans ((editdistance_align a c).2 k h) hk

omit [DecidableEq α] in
theorem align_max (a b : List α) : ∃ n, n ≤ max a.length b.length ∧ Align n a b := by
  induction a generalizing b with
  | nil => exact ⟨b.length, by simp, align_all_ins b⟩
  | cons x a ih =>
    cases b with
    | nil => exact ⟨_, by simp, (align_all_ins (x :: a)).symm⟩
    | cons y b =>
      obtain ⟨n, hn, h⟩ := ih b
      exact ⟨n + 1, by simp only [List.length_cons]; omega, .sub x y h⟩

omit [DecidableEq α] in
theorem align_length {n : Nat} {a b : List α} (h : Align n a b) : a.length ≤ n + b.length ∧ b.length ≤ n + a.length := by
  induction h <;> simp only [List.length_cons, List.length_nil] at * <;> omega

/-- **C28.** The distance is at most the length of the longer sequence and at least the difference of the lengths. -/
theorem C28_bounds (a b : List α) : editdistance a b ≤ max a.length b.length ∧ a.length ≤ editdistance a b + b.length ∧
    b.length ≤ editdistance a b + a.length := by
  obtain ⟨h1, h2⟩ := editdistance_align a b
  obtain ⟨n, hn, h⟩ := align_max a b
  exact ⟨le_trans (h2 n h) hn, align_length h1⟩

/-- **C28.** The path score lies between 0 and 1, is 1 only for equal paths and does not depend on the order of its arguments. -/
theorem C28_pathscore (gold cand : List α) : 0 ≤ pathscore gold cand ∧ pathscore gold cand ≤ 1 ∧
    (pathscore gold cand = 1 ↔ gold = cand) ∧ pathscore gold cand = pathscore cand gold := by
  have hb := (C28_bounds cand gold).1
  set d := editdistance cand gold with hd
  have hm : 0 < (max (gold ++ cand).length 1 : Nat) := by omega
  have hm' : (0 : Rat) < (max (gold ++ cand).length 1 : Nat) := by exact_mod_cast hm
  have hle : (d : Rat) ≤ (max (gold ++ cand).length 1 : Nat) := by
    have : d ≤ max (gold ++ cand).length 1 := by rw [List.length_append]; omega
    exact_mod_cast this
  have hq : (d : Rat) / (max (gold ++ cand).length 1 : Nat) ≤ 1 := (div_le_one hm').2 hle
  have hq0 : 0 ≤ (d : Rat) / (max (gold ++ cand).length 1 : Nat) := div_nonneg (by exact_mod_cast Nat.zero_le _) hm'.le
  refine ⟨by rw [pathscore]; linarith, by rw [pathscore]; linarith, ?_, ?_⟩
  · rw [pathscore]
    constructor
    · intro h
      have h0 : (d : Rat) / (max (gold ++ cand).length 1 : Nat) = 0 := by linarith
      rw [div_eq_zero_iff] at h0
      rcases h0 with h0 | h0
      · exact ((C28_zero_iff cand gold).1 (by exact_mod_cast h0)).symm
      · exact absurd h0 (ne_of_gt hm')
    · intro h
      have : d = 0 := (C28_zero_iff cand gold).2 h.symm
      rw [← hd, this]; simp
  · rw [pathscore, pathscore, C28_symm gold cand, List.length_append, List.length_append, Nat.add_comm gold.length]

/-- The example of the documentation: `rain` and `shine`. -/
example : editdistance "rain".toList "shine".toList = 3 := by decide +kernel

end Disco.EditDist
