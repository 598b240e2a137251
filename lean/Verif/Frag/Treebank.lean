import Verif.Frag.All
/-!
# C52: division of the work, and fragments of a treebank
-/
namespace Disco.Frag

/-! ### Models -/

/-- The loops over pairs in `extractfragments` (_fragments.pyx:172-199, the case "all pairs"): the trees `m` with which tree `n` is compared. `start2` is
assigned in the loop. -/
def pairLoop (singletb : Bool) (end2 : Nat) : List Nat → Nat → List (Nat × List Nat)
  | [], _ => []
  | n :: ns, start2 =>
    let start2 := if singletb then max (n + 1) start2 else start2
    (n, List.range' start2 (end2 - start2)) :: pairLoop singletb end2 ns start2

/-- `x or y` for numbers. -/
def orElse (x y : Nat) : Nat := if x = 0 then y else x

/-- A treebank: the array of nodes of each tree and the number of its root. -/
abbrev Bank := List (List Node × Nat)

/-- The set `inter` after all pairs with tree `n` (_fragments.pyx:172-199). -/
def extractTree (trees1 trees2 : Bank) (minterms n : Nat) (ms : List Nat) : List Fragment :=
  ms.foldl (fun inter m =>
    extractfrompair (trees1[n]?.getD ([], 0)).1 (trees2[m]?.getD ([], 0)).1 (trees2[m]?.getD ([], 0)).2 n minterms inter) []

/-- `extractfragments` (_fragments.pyx:108-203), with `twoterms=None, adjacent=False`: the bitsets given to `collectfragments`. `trees2 = none` stands for `None`. -/
def extractfragments (trees1 : Bank) (start1 end1 : Nat) (trees2 : Option Bank) (start2 end2 : Nat) : List Fragment :=
  let b2 := trees2.getD trees1
  let end2 := min (orElse end2 b2.length) b2.length
  let end1 := min (orElse end1 trees1.length) trees1.length
  (pairLoop trees2.isNone end2 (List.range' start1 (end1 - start1)) start2).flatMap fun x => extractTree trees1 b2 0 x.1 x.2

/-- The division of work for two treebanks (`regular`, fragments.py:162-163). -/
def workload2 (numtrees mult numproc : Nat) : List (Nat × Nat) :=
  let chunk := numtrees / (mult * numproc) + 1
  (List.range ((numtrees + chunk - 1) / chunk)).map fun k => (k * chunk, k * chunk + chunk)

/-! ### Intervals -/

/-- The numbers in a list of intervals. -/
def Spec.numbers (l : List (Nat × Nat)) : List Nat := l.flatMap fun x => List.range' x.1 (x.2 - x.1)

theorem range_append {k n : Nat} (h : k ≤ n) : List.range k ++ List.range' k (n - k) = List.range n := by
  have := List.range'_append_1 (s := 0) (m := k) (n := n - k)
  rw [Nat.zero_add] at this
  rw [List.range_eq_range', List.range_eq_range', this]
  congr 1; omega

theorem workLoop_spec (numtrees chunk : Int) (ns : List Nat) : ∀ (k : Nat) (togo goal : Int) (last : Nat) (result : List (Nat × Nat)), ns = List.range' k ns.length →
    last < k → Spec.numbers result = List.range last → (∀ x ∈ result, x.1 < x.2) →
    let r := workLoop numtrees chunk ns togo goal last result
    r.1 < k + ns.length ∧ Spec.numbers r.2 = List.range r.1 ∧ ∀ x ∈ r.2, x.1 < x.2 := by
  induction ns with
  | nil => intro k togo goal last result _ h1 h2 h3; simp only [workLoop]; exact ⟨by simp; omega, h2, h3⟩
  | cons n ns ih =>
    intro k togo goal last result he h1 h2 h3
    rw [List.length_cons, List.range'_succ, List.cons.injEq] at he
    obtain ⟨rfl, he⟩ := he
    have e : n + (n :: ns).length = n + 1 + ns.length := by simp; omega
    rw [e]
    simp only [workLoop]
    split
    · refine ih (n + 1) _ _ n _ he (by omega) ?_ ?_
      · rw [Spec.numbers, List.flatMap_append, ← Spec.numbers, h2]
        simp only [List.flatMap_cons, List.flatMap_nil, List.append_nil]
        exact range_append (by omega)
      · intro x hx
        rcases List.mem_append.1 hx with hx | hx
        · exact h3 x hx
        · rw [List.mem_singleton] at hx; rw [hx]; exact h1
    · exact ih (n + 1) _ _ last _ he (by omega) h2 h3

/-- **C52**: Whatever the number of processes, the intervals contain each tree exactly once, in order; and with more than one process (or when there is a tree), no
interval is empty. -/
theorem C52_workload (numtrees mult numproc : Nat) : Spec.numbers (workload numtrees mult numproc) = List.range numtrees ∧
    (0 < numtrees ∨ numproc ≠ 1 → ∀ x ∈ workload numtrees mult numproc, x.1 < x.2) := by
  unfold workload
  split
  · rename_i hp
    constructor
    · simp [Spec.numbers, List.range_eq_range']
    · rintro h x hx
      rw [List.mem_singleton] at hx
      subst hx
      simp only
      omega
  · have hd : (List.range numtrees).drop 1 = List.range' 1 (numtrees - 1) := by
      rw [List.range_eq_range', List.drop_range']
    have := workLoop_spec numtrees (((numtrees * (numtrees - 1) / 2 : Nat) : Int) / ((mult * numproc : Nat) : Int) + 1) ((List.range numtrees).drop 1) 1
      ((numtrees * (numtrees - 1) / 2 : Nat) : Int) (((numtrees * (numtrees - 1) / 2 : Nat) : Int) - (((numtrees * (numtrees - 1) / 2 : Nat) : Int) / ((mult * numproc : Nat) : Int) + 1)) 0 []
      (by rw [hd]; simp) (by omega) (by simp [Spec.numbers]) (by simp)
    simp only at this ⊢
    revert this
    generalize workLoop _ _ _ _ _ _ _ = r
    rintro ⟨h1, h2, h3⟩
    simp only [List.length_drop, List.length_range] at h1
    split
    · rename_i hlt
      constructor
      · rw [Spec.numbers, List.flatMap_append, ← Spec.numbers, h2]
        simp only [List.flatMap_cons, List.flatMap_nil, List.append_nil]
        exact range_append (by omega)
      · intro _ x hx
        rcases List.mem_append.1 hx with hx | hx
        · exact h3 x hx
        · rw [List.mem_singleton] at hx; rw [hx]; exact hlt
    · rename_i hlt
      refine ⟨?_, fun _ => h3⟩
      rw [h2]
      congr 1
      omega

/-- **C52**: For two treebanks, the intervals (limited to the number of trees) contain each tree exactly once, in order. -/
theorem C52_workload2 (numtrees mult numproc : Nat) :
    Spec.numbers ((workload2 numtrees mult numproc).map fun x => (x.1, min x.2 numtrees)) = List.range numtrees := by
  unfold workload2
  simp only
  generalize hc : numtrees / (mult * numproc) + 1 = c
  have hpos : 0 < c := hc ▸ Nat.succ_pos _
  rw [List.map_map]
  have aux : ∀ k, (k - 1) * c < numtrees ∨ k = 0 → Spec.numbers ((List.range k).map ((fun x : Nat × Nat => (x.1, min x.2 numtrees)) ∘ fun k => (k * c, k * c + c))) = List.range (min (k * c) numtrees) := by
    intro k
    induction k with
    | zero => intro _; simp [Spec.numbers]
    | succ k ih =>
      intro h
      have hk : k * c < numtrees := by
        rcases h with h | h
        · simpa using h
        · omega
      have hprev : (k - 1) * c < numtrees ∨ k = 0 := by
        left
        exact Nat.lt_of_le_of_lt (Nat.mul_le_mul_right _ (Nat.sub_le _ _)) hk
      rw [List.range_succ, List.map_append, Spec.numbers, List.flatMap_append, ← Spec.numbers, ih hprev]
      simp only [List.map_cons, List.map_nil, List.flatMap_cons, List.flatMap_nil, List.append_nil, Function.comp]
      have e : min (k * c) numtrees = k * c := by omega
      rw [e, List.range_eq_range', List.range_eq_range']
      have e2 : (k + 1) * c = k * c + c := by rw [Nat.succ_mul]
      rw [e2]
      have := List.range'_append_1 (s := 0) (m := k * c) (n := min (k * c + c) numtrees - k * c)
      rw [Nat.zero_add] at this
      rw [this]
      congr 1
      omega
  rw [aux]
  · congr 1
    have : numtrees ≤ (numtrees + c - 1) / c * c := by
      have h1 := Nat.div_add_mod (numtrees + c - 1) c
      have h2 := Nat.mod_lt (numtrees + c - 1) hpos
      rw [Nat.mul_comm] at h1
      omega
    omega
  · rcases Nat.eq_zero_or_pos numtrees with h | h
    · right
      rw [h]
      exact Nat.div_eq_of_lt (by omega)
    · left
      have h1 := Nat.div_mul_le_self (numtrees + c - 1) c
      rw [Nat.sub_mul]
      omega

/-! ### All pairs -/

theorem pairLoop_single (end2 : Nat) (ns : List Nat) : ∀ (k s2 : Nat), ns = List.range' k ns.length → s2 ≤ k + 1 →
    pairLoop true end2 ns s2 = ns.map fun n => (n, List.range' (n + 1) (end2 - (n + 1))) := by
  induction ns with
  | nil => intro _ _ _ _; rfl
  | cons n ns ih =>
    intro k s2 he h
    rw [List.length_cons, List.range'_succ, List.cons.injEq] at he
    obtain ⟨rfl, he⟩ := he
    have e : max (n + 1) s2 = n + 1 := by omega
    simp only [pairLoop, if_true, List.map_cons, e]
    rw [ih (n + 1) (n + 1) he (by omega)]

theorem pairLoop_two (end2 : Nat) (ns : List Nat) (s2 : Nat) : pairLoop false end2 ns s2 = ns.map fun n => (n, List.range' s2 (end2 - s2)) := by
  induction ns with
  | nil => rfl
  | cons n ns ih => simp [pairLoop, ih]

/-- The trees of a bank. -/
def Spec.Bank (as : Bank) (ts : List BTree) : Prop := List.Forall₂ (fun a t => Spec.Tree a.1 t ∧ a.2 = t.idx) as ts

theorem bank_get {as : Bank} {ts : List BTree} (h : Spec.Bank as ts) {n : Nat} (hn : n < as.length) : ∃ t, ts[n]? = some t ∧ t ∈ ts ∧
    Spec.Tree (as[n]?.getD ([], 0)).1 t ∧ (as[n]?.getD ([], 0)).2 = t.idx := by
  have hl := List.Forall₂.length_eq h
  have := (List.forall₂_iff_get.1 h).2 n hn (by omega)
  simp only [List.get_eq_getElem] at this
  rw [List.getElem?_eq_getElem hn, Option.getD_some]
  exact ⟨_, List.getElem?_eq_getElem (by omega), List.getElem_mem _, this.1, this.2⟩

theorem mem_extractTree {as bs : Bank} {ss ts : List BTree} (ha : Spec.Bank as ss) (hb : Spec.Bank bs ts) (hs : ∀ s ∈ ss, ∀ t ∈ ts, Spec.SameArity s t)
    {n : Nat} {s : BTree} (hn : ss[n]? = some s) (ms : List Nat) (hm : ∀ m ∈ ms, m < bs.length) (fr : Fragment) : fr ∈ extractTree as bs 0 n ms ↔
      fr.id = n ∧ ∃ m ∈ ms, ∃ t, ts[m]? = some t ∧ ∃ pa pb u v, Spec.Top s t pa pb u v ∧ fr.root = u.idx ∧ Spec.Largest u v fr.bits := by
  have hl := List.Forall₂.length_eq ha
  obtain ⟨hn1, hn2⟩ := List.getElem?_eq_some_iff.1 hn
  obtain ⟨s', e1, e2, e3, -⟩ := bank_get ha (n := n) (by omega)
  rw [hn, Option.some.injEq] at e1
  subst e1
  have key : ∀ (ms : List Nat) (inter : List Fragment), (∀ m ∈ ms, m < bs.length) → (fr ∈ ms.foldl (fun inter m =>
      extractfrompair (as[n]?.getD ([], 0)).1 (bs[m]?.getD ([], 0)).1 (bs[m]?.getD ([], 0)).2 n 0 inter) inter ↔
      fr ∈ inter ∨ fr.id = n ∧ ∃ m ∈ ms, ∃ t, ts[m]? = some t ∧ ∃ pa pb u v, Spec.Top s t pa pb u v ∧ fr.root = u.idx ∧ Spec.Largest u v fr.bits) := by
    intro ms
    induction ms with
    | nil => simp
    | cons m ms ih =>
      intro inter hm
      obtain ⟨t, t1, t2, t3, t4⟩ := bank_get hb (hm m List.mem_cons_self)
      rw [List.foldl_cons, ih _ fun m hm' => hm m (List.mem_cons_of_mem _ hm'), t4, C49_maximal_fragments e3 t3 (hs s e2 t t2) n inter fr, or_assoc]
      refine or_congr_right ?_
      rw [List.exists_mem_cons_iff]
      simp only [t1, Option.some.injEq, exists_eq_left']
      constructor
      · rintro (⟨pa, pb, u, v, h1, h2, h3, h4⟩ | ⟨h1, h2⟩)
        · exact ⟨h3, Or.inl ⟨pa, pb, u, v, h1, h2, h4⟩⟩
        · exact ⟨h1, Or.inr h2⟩
      · rintro ⟨h3, ⟨pa, pb, u, v, h1, h2, h4⟩ | h2⟩
        · exact Or.inl ⟨pa, pb, u, v, h1, h2, h3, h4⟩
        · exact Or.inr ⟨h3, h2⟩
  have := key ms [] hm
  simpa [extractTree] using this

/-- **C52**: The fragments found by all workers together are exactly the maximal common fragments of all pairs of trees, no matter how many processes the work
is divided over. -/
theorem C52_treebank {as : Bank} {ts : List BTree} (ha : Spec.Bank as ts) (hs : ∀ s ∈ ts, ∀ t ∈ ts, Spec.SameArity s t) (mult numproc : Nat) (fr : Fragment) :
    fr ∈ (workload as.length mult numproc).flatMap (fun x => extractfragments as x.1 x.2 none 0 0) ↔
      ∃ m s t, fr.id < m ∧ ts[fr.id]? = some s ∧ ts[m]? = some t ∧ ∃ pa pb u v, Spec.Top s t pa pb u v ∧ fr.root = u.idx ∧ Spec.Largest u v fr.bits := by
  have hl := List.Forall₂.length_eq ha
  obtain ⟨h1, h2⟩ := C52_workload as.length mult numproc
  have key : ∀ x ∈ workload as.length mult numproc, (fr ∈ extractfragments as x.1 x.2 none 0 0 ↔ fr.id ∈ List.range' x.1 (x.2 - x.1) ∧
      ∃ m s t, fr.id < m ∧ ts[fr.id]? = some s ∧ ts[m]? = some t ∧ ∃ pa pb u v, Spec.Top s t pa pb u v ∧ fr.root = u.idx ∧ Spec.Largest u v fr.bits) := by
    intro x hx
    have hsub : ∀ n ∈ List.range' x.1 (x.2 - x.1), n < as.length := by
      intro n hn
      have : n ∈ Spec.numbers (workload as.length mult numproc) := List.mem_flatMap.2 ⟨x, hx, hn⟩
      rw [h1, List.mem_range] at this
      exact this
    have he : min (orElse x.2 as.length) as.length - x.1 = x.2 - x.1 := by
      by_cases h0 : as.length = 0
      · have : x.2 ≤ x.1 := by
          by_contra hc
          have := hsub x.1 (by rw [List.mem_range'_1]; omega)
          omega
        omega
      · have hlt := h2 (Or.inl (by omega)) x hx
        have hle : x.2 - 1 < as.length := hsub (x.2 - 1) (by rw [List.mem_range'_1]; omega)
        have e : orElse x.2 as.length = x.2 := by unfold orElse; rw [if_neg (by omega)]
        rw [e]; omega
    have hlen2 : min (orElse 0 as.length) as.length = as.length := by simp [orElse]
    simp only [extractfragments, Option.getD_none, Option.isNone_none, he, hlen2]
    rw [pairLoop_single _ _ x.1 0 (by simp) (by omega)]
    simp only [List.mem_flatMap, List.mem_map]
    constructor
    · rintro ⟨_, ⟨n, hn, rfl⟩, h⟩
      obtain ⟨s, s1, -⟩ := bank_get ha (hsub n hn)
      rw [mem_extractTree ha ha hs s1 _ (fun m hm => by rw [List.mem_range'_1] at hm; omega)] at h
      obtain ⟨rfl, m, hm, t, ht, h⟩ := h
      rw [List.mem_range'_1] at hm
      exact ⟨hn, m, s, t, by omega, s1, ht, h⟩
    · rintro ⟨hn, m, s, t, hm, s1, ht, h⟩
      refine ⟨_, ⟨fr.id, hn, rfl⟩, ?_⟩
      rw [mem_extractTree ha ha hs s1 _ (fun m hm => by rw [List.mem_range'_1] at hm; omega)]
      have := (List.getElem?_eq_some_iff.1 ht).1
      exact ⟨rfl, m, by rw [List.mem_range'_1]; omega, t, ht, h⟩
  rw [List.mem_flatMap]
  constructor
  · rintro ⟨x, hx, h⟩
    exact ((key x hx).1 h).2
  · rintro ⟨m, s, t, hm, h3, h4, h⟩
    have hlt := (List.getElem?_eq_some_iff.1 h3).1
    have : fr.id ∈ Spec.numbers (workload as.length mult numproc) := by rw [h1, List.mem_range]; omega
    obtain ⟨x, hx, hx'⟩ := List.mem_flatMap.1 this
    exact ⟨x, hx, (key x hx).2 ⟨hx', m, s, t, hm, h3, h4, h⟩⟩

/-- **C52**: For two treebanks, the fragments found are exactly the maximal common fragments of all pairs of a tree of the first and a tree of the second
treebank. -/
theorem C52_two_treebanks {as bs : Bank} {ss ts : List BTree} (ha : Spec.Bank as ss) (hb : Spec.Bank bs ts) (hs : ∀ s ∈ ss, ∀ t ∈ ts, Spec.SameArity s t)
    (mult numproc : Nat) (fr : Fragment) :
    fr ∈ (workload2 as.length mult numproc).flatMap (fun x => extractfragments as x.1 x.2 (some bs) 0 0) ↔
      ∃ (m : Nat) (s t : BTree), ss[fr.id]? = some s ∧ ts[m]? = some t ∧ ∃ pa pb u v, Spec.Top s t pa pb u v ∧ fr.root = u.idx ∧ Spec.Largest u v fr.bits := by
  have hl := List.Forall₂.length_eq ha
  have hl2 := List.Forall₂.length_eq hb
  have h1 := C52_workload2 as.length mult numproc
  have hpos : ∀ x ∈ workload2 as.length mult numproc, 0 < x.2 := by
    intro x hx
    obtain ⟨k, -, rfl⟩ := List.mem_map.1 hx
    exact Nat.lt_of_lt_of_le (Nat.succ_pos _) (Nat.le_add_left _ _)
  have key : ∀ x ∈ workload2 as.length mult numproc, (fr ∈ extractfragments as x.1 x.2 (some bs) 0 0 ↔ fr.id ∈ List.range' x.1 (min x.2 as.length - x.1) ∧
      ∃ (m : Nat) (s t : BTree), ss[fr.id]? = some s ∧ ts[m]? = some t ∧ ∃ pa pb u v, Spec.Top s t pa pb u v ∧ fr.root = u.idx ∧ Spec.Largest u v fr.bits) := by
    intro x hx
    have hlen2 : min (orElse 0 bs.length) bs.length = bs.length := by simp [orElse]
    have e : orElse x.2 as.length = x.2 := by unfold orElse; rw [if_neg]; have := hpos x hx; omega
    have hsub : ∀ n ∈ List.range' x.1 (min x.2 as.length - x.1), n < as.length := by
      intro n hn; rw [List.mem_range'_1] at hn; omega
    simp only [extractfragments, Option.getD_some, Option.isNone_some, e, hlen2]
    rw [pairLoop_two]
    simp only [List.mem_flatMap, List.mem_map]
    constructor
    · rintro ⟨_, ⟨n, hn, rfl⟩, h⟩
      obtain ⟨s, s1, -⟩ := bank_get ha (hsub n hn)
      rw [mem_extractTree ha hb hs s1 _ (fun m hm => by rw [List.mem_range'_1] at hm; omega)] at h
      obtain ⟨rfl, m, hm, t, ht, h⟩ := h
      exact ⟨hn, m, s, t, s1, ht, h⟩
    · rintro ⟨hn, m, s, t, s1, ht, h⟩
      refine ⟨_, ⟨fr.id, hn, rfl⟩, ?_⟩
      rw [mem_extractTree ha hb hs s1 _ (fun m hm => by rw [List.mem_range'_1] at hm; omega)]
      have := (List.getElem?_eq_some_iff.1 ht).1
      exact ⟨rfl, m, by rw [List.mem_range'_1]; omega, t, ht, h⟩
  rw [List.mem_flatMap]
  constructor
  · rintro ⟨x, hx, h⟩
    exact ((key x hx).1 h).2
  · rintro ⟨m, s, t, h3, h4, h⟩
    have hlt := (List.getElem?_eq_some_iff.1 h3).1
    have : fr.id ∈ Spec.numbers ((workload2 as.length mult numproc).map fun x => (x.1, min x.2 as.length)) := by rw [h1, List.mem_range]; omega
    obtain ⟨y, hy, hx'⟩ := List.mem_flatMap.1 this
    obtain ⟨x, hx, rfl⟩ := List.mem_map.1 hy
    exact ⟨x, hx, (key x hx).2 ⟨hx', m, s, t, h3, h4, h⟩⟩

end Disco.Frag
