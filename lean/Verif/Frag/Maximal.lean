import Mathlib.Data.List.Induction
import Mathlib.Data.List.Perm.Subperm
import Verif.Frag.Extract
/-!
# C49: extraction of maximal common fragments, part two
-/
namespace Disco.Frag

theorem path_unique (t : BTree) (hn : (t.subs.map BTree.idx).Nodup) : ∀ (p q : List Bool) (u w : BTree), t.sub p = some u → t.sub q = some w →
    u.idx = w.idx → p = q := by
  induction t with
  | term i pr =>
    intro p q u w hp hq _
    cases p with
    | cons d p => cases d <;> simp [BTree.sub, BTree.child] at hp
    | nil =>
      cases q with
      | nil => rfl
      | cons d q => cases d <;> simp [BTree.sub, BTree.child] at hq
  | un i pr l ih =>
    intro p q u w hp hq he
    simp only [BTree.subs, List.map_cons, List.nodup_cons, idx_un] at hn
    cases p with
    | nil =>
      simp only [BTree.sub, Option.some.injEq] at hp
      cases q with
      | nil => rfl
      | cons d q =>
        cases d
        · simp only [BTree.sub, BTree.child, Option.bind_some] at hq
          exact absurd (idx_mem_of_sub ((mem_subs_iff_sub l w).2 ⟨q, hq⟩)) (by rw [← he, ← hp]; exact hn.1)
        · simp [BTree.sub, BTree.child] at hq
    | cons d p =>
      cases d
      · simp only [BTree.sub, BTree.child, Option.bind_some] at hp
        cases q with
        | nil =>
          simp only [BTree.sub, Option.some.injEq] at hq
          exact absurd (idx_mem_of_sub ((mem_subs_iff_sub l u).2 ⟨p, hp⟩)) (by rw [he, ← hq]; exact hn.1)
        | cons d q =>
          cases d
          · simp only [BTree.sub, BTree.child, Option.bind_some] at hq
            rw [ih hn.2 p q u w hp hq he]
          · simp [BTree.sub, BTree.child] at hq
      · simp [BTree.sub, BTree.child] at hp
  | bin i pr l r ihl ihr =>
    intro p q u w hp hq he
    simp only [BTree.subs, List.map_cons, List.nodup_cons, idx_bin, List.map_append, List.nodup_append, List.mem_append, not_or] at hn
    obtain ⟨⟨hi1, hi2⟩, hnl, hnr, hd⟩ := hn
    cases p with
    | nil =>
      simp only [BTree.sub, Option.some.injEq] at hp
      cases q with
      | nil => rfl
      | cons d q =>
        cases d
        · simp only [BTree.sub, BTree.child, Option.bind_some] at hq
          exact absurd (idx_mem_of_sub ((mem_subs_iff_sub l w).2 ⟨q, hq⟩)) (by rw [← he, ← hp]; exact hi1)
        · simp only [BTree.sub, BTree.child, Option.bind_some] at hq
          exact absurd (idx_mem_of_sub ((mem_subs_iff_sub r w).2 ⟨q, hq⟩)) (by rw [← he, ← hp]; exact hi2)
    | cons d p =>
      cases d
      · simp only [BTree.sub, BTree.child, Option.bind_some] at hp
        have hu := idx_mem_of_sub ((mem_subs_iff_sub l u).2 ⟨p, hp⟩)
        cases q with
        | nil =>
          simp only [BTree.sub, Option.some.injEq] at hq
          exact absurd hu (by rw [he, ← hq]; exact hi1)
        | cons d q =>
          cases d
          · simp only [BTree.sub, BTree.child, Option.bind_some] at hq
            rw [ihl hnl p q u w hp hq he]
          · simp only [BTree.sub, BTree.child, Option.bind_some] at hq
            exact absurd he (hd _ hu _ (idx_mem_of_sub ((mem_subs_iff_sub r w).2 ⟨q, hq⟩)))
      · simp only [BTree.sub, BTree.child, Option.bind_some] at hp
        have hu := idx_mem_of_sub ((mem_subs_iff_sub r u).2 ⟨p, hp⟩)
        cases q with
        | nil =>
          simp only [BTree.sub, Option.some.injEq] at hq
          exact absurd hu (by rw [he, ← hq]; exact hi2)
        | cons d q =>
          cases d
          · simp only [BTree.sub, BTree.child, Option.bind_some] at hq
            exact absurd he.symm (hd _ (idx_mem_of_sub ((mem_subs_iff_sub l w).2 ⟨q, hq⟩)) _ hu)
          · simp only [BTree.sub, BTree.child, Option.bind_some] at hq
            rw [ihr hnr p q u w hp hq he]

/-! ### visit and positions -/

theorem visit_cons {x y : BTree} (h : x.prod = y.prod) (hs : x.arity = y.arity) : ∃ rest, visit x y = (x.idx, y.idx) :: rest ∧
    ∀ q, q ∈ rest ↔ ∃ d u v, x.child d = some u ∧ y.child d = some v ∧ q ∈ visit u v := by
  rw [visit.eq_def, if_neg (by simpa using h)]
  refine ⟨_, rfl, ?_⟩
  intro q
  cases x <;> cases y <;> simp [BTree.arity] at hs
  · simp [BTree.child]
  · rename_i i p l i' p' l'
    constructor
    · intro hq
      exact ⟨false, l, l', rfl, rfl, hq⟩
    · rintro ⟨d, u, v, h1, h2, hq⟩
      cases d <;> simp [BTree.child] at h1 h2
      subst h1; subst h2; exact hq
  · rename_i i p l r i' p' l' r'
    simp only [List.mem_append]
    constructor
    · rintro (hq | hq)
      · exact ⟨false, l, l', rfl, rfl, hq⟩
      · exact ⟨true, r, r', rfl, rfl, hq⟩
    · rintro ⟨d, u, v, h1, h2, hq⟩
      cases d <;> simp only [BTree.child, Option.some.injEq] at h1 h2 <;> subst h1 <;> subst h2
      · exact Or.inl hq
      · exact Or.inr hq

theorem sameArity_child {x y u v : BTree} {d : Bool} (hs : Spec.SameArity x y) (h1 : x.child d = some u) (h2 : y.child d = some v) : Spec.SameArity u v :=
  fun a ha b hb => hs a (subs_trans ha (child_mem h1)) b (subs_trans hb (child_mem h2))

theorem agree_nil {x y : BTree} : Spec.Agree x y [] ↔ x.prod = y.prod := by
  constructor
  · intro h
    obtain ⟨u, v, h1, h2, h3⟩ := h [] (List.prefix_refl _)
    simp only [BTree.sub, Option.some.injEq] at h1 h2
    rw [h1, h2]; exact h3
  · intro h q hq
    rw [List.prefix_nil] at hq
    subst hq
    exact ⟨x, y, rfl, rfl, h⟩

theorem agree_cons {x y : BTree} {d : Bool} {p : List Bool} : Spec.Agree x y (d :: p) ↔ x.prod = y.prod ∧ ∃ u v, x.child d = some u ∧ y.child d = some v ∧ Spec.Agree u v p := by
  constructor
  · intro h
    refine ⟨agree_nil.1 fun q hq => h q (hq.trans (List.nil_prefix)), ?_⟩
    obtain ⟨u, v, h1, h2, -⟩ := h [d] (by simp)
    simp only [BTree.sub] at h1 h2
    cases hx : x.child d with
    | none => simp [hx] at h1
    | some u' =>
      cases hy : y.child d with
      | none => simp [hy] at h2
      | some v' =>
        refine ⟨u', v', rfl, rfl, ?_⟩
        intro q hq
        obtain ⟨u, v, h1, h2, h3⟩ := h (d :: q) (by simpa using hq)
        simp only [BTree.sub, hx, hy, Option.bind_some] at h1 h2
        exact ⟨u, v, h1, h2, h3⟩
  · rintro ⟨h, u, v, hx, hy, ha⟩ q hq
    cases q with
    | nil => exact ⟨x, y, rfl, rfl, h⟩
    | cons d' q =>
      rw [List.cons_prefix_cons] at hq
      obtain ⟨rfl, hq⟩ := hq
      obtain ⟨u', v', h1, h2, h3⟩ := ha q hq
      exact ⟨u', v', by simp [BTree.sub, hx, h1], by simp [BTree.sub, hy, h2], h3⟩

theorem mem_visit (p : List Bool) : ∀ {x y u v : BTree}, Spec.SameArity x y → Spec.Agree x y p → x.sub p = some u → y.sub p = some v → (u.idx, v.idx) ∈ visit x y := by
  induction p with
  | nil =>
    intro x y u v hs ha hx hy
    simp only [BTree.sub, Option.some.injEq] at hx hy
    subst hx; subst hy
    obtain ⟨rest, h, -⟩ := visit_cons (agree_nil.1 ha) (hs _ (self_mem_subs _) _ (self_mem_subs _) (agree_nil.1 ha))
    rw [h]; exact List.mem_cons_self
  | cons d p ih =>
    intro x y u v hs ha hx hy
    obtain ⟨hp, x', y', hx', hy', ha'⟩ := agree_cons.1 ha
    obtain ⟨rest, h, h'⟩ := visit_cons hp (hs _ (self_mem_subs _) _ (self_mem_subs _) hp)
    rw [h]
    refine List.mem_cons_of_mem _ ((h' _).2 ⟨d, x', y', hx', hy', ih (sameArity_child hs hx' hy') ha' ?_ ?_⟩)
    · simpa [BTree.sub, hx'] using hx
    · simpa [BTree.sub, hy'] using hy

theorem of_mem_visit (x : BTree) : ∀ {y : BTree} {q : Nat × Nat}, Spec.SameArity x y → q ∈ visit x y →
    ∃ p u v, Spec.Agree x y p ∧ x.sub p = some u ∧ y.sub p = some v ∧ q = (u.idx, v.idx) := by
  have main : ∀ (n : Nat) (x y : BTree) (q : Nat × Nat), x.subs.length ≤ n → Spec.SameArity x y → q ∈ visit x y →
      ∃ p u v, Spec.Agree x y p ∧ x.sub p = some u ∧ y.sub p = some v ∧ q = (u.idx, v.idx) := by
    intro n
    induction n with
    | zero => intro x y q h; have := subs_length_pos x; omega
    | succ n ih =>
      intro x y q hn hs hq
      by_cases hp : x.prod = y.prod
      · obtain ⟨rest, h, h'⟩ := visit_cons hp (hs _ (self_mem_subs _) _ (self_mem_subs _) hp)
        rw [h, List.mem_cons] at hq
        rcases hq with rfl | hq
        · exact ⟨[], x, y, agree_nil.2 hp, rfl, rfl, rfl⟩
        · obtain ⟨d, u, v, hx, hy, hq⟩ := (h' q).1 hq
          have hlt : u.subs.length ≤ n := by
            cases x with
            | term => cases d <;> simp [BTree.child] at hx
            | un i p l => cases d <;> simp [BTree.child] at hx; subst hx; simp [BTree.subs] at hn; omega
            | bin i p l r => cases d <;> simp only [BTree.child, Option.some.injEq] at hx <;> subst hx <;> simp [BTree.subs] at hn <;> omega
          obtain ⟨p, u', v', h1, h2, h3, h4⟩ := ih u v q hlt (sameArity_child hs hx hy) hq
          exact ⟨d :: p, u', v', agree_cons.2 ⟨hp, u, v, hx, hy, h1⟩, by simp [BTree.sub, hx, h2], by simp [BTree.sub, hy, h3], h4⟩
      · rw [visit_ne hp] at hq; simp at hq
  intro y q
  exact main _ x y q (Nat.le_refl _)

/-- A pair of nodes is in the common fragment of at most one node with `y`. -/
theorem visit_unique {ta y x x' : BTree} {q : Nat × Nat} (hna : (ta.subs.map BTree.idx).Nodup) (hny : (y.subs.map BTree.idx).Nodup) (hx : x ∈ ta.subs) (hx' : x' ∈ ta.subs)
    (hs : Spec.SameArity ta y) (h : q ∈ visit x y) (h' : q ∈ visit x' y) : x = x' := by
  have hs1 : ∀ z ∈ ta.subs, Spec.SameArity z y := fun z hz u hu => hs u (subs_trans hu hz)
  obtain ⟨p, u, v, -, h1, h2, h3⟩ := of_mem_visit x (hs1 x hx) h
  obtain ⟨p', u', v', -, h1', h2', h3'⟩ := of_mem_visit x' (hs1 x' hx') h'
  rw [h3] at h3'
  simp only [Prod.mk.injEq] at h3'
  have := path_unique y hny p p' v v' h2 h2' h3'.2
  subst this
  obtain ⟨r, hr⟩ := (mem_subs_iff_sub ta x).1 hx
  obtain ⟨r', hr'⟩ := (mem_subs_iff_sub ta x').1 hx'
  have e := path_unique ta hna (r ++ p) (r' ++ p) u u' (by rw [sub_append, hr]; exact h1) (by rw [sub_append, hr']; exact h1') h3'.1
  have e' := List.append_cancel_right e
  rw [e'] at hr
  exact Option.some.inj (hr.symm.trans hr')

/-- The fragment of a pair of nodes. -/
def frag (n : Nat) (x y : BTree) : Fragment := ⟨mask 0 ((visit x y).map Prod.fst), x.idx, n⟩

theorem mem_addSet {α : Type} [DecidableEq α] (s : List α) (x y : α) : y ∈ addSet s x ↔ y ∈ s ∨ y = x := by
  unfold addSet
  split
  · constructor
    · exact Or.inl
    · rintro (h | rfl)
      · exact h
      · assumption
  · simp

theorem nodup_addSet {α : Type} [DecidableEq α] {s : List α} (x : α) (h : s.Nodup) : (addSet s x).Nodup := by
  unfold addSet
  split
  · exact h
  · rename_i hx
    rw [List.nodup_append]
    refine ⟨h, by simp, ?_⟩
    intro a ha b hb
    rw [List.mem_singleton] at hb
    subst hb
    exact fun e => hx (e ▸ ha)

theorem rowLoop_spec {a b : List Node} {ta y : BTree} (n minterms : Nat) (hra : Spec.Repr a ta) (hna : (ta.subs.map BTree.idx).Nodup)
    (hlen : ta.subs.length ≤ a.length) (hy : Spec.Repr b y) (hny : (y.subs.map BTree.idx).Nodup) (hs : Spec.SameArity ta y) :
    ∀ (xs : List BTree) (M : Matrix) (rs : List Fragment), (∀ x ∈ xs, x ∈ ta.subs ∧ x.prod = y.prod) → xs.Nodup →
    (∀ x ∈ xs, ∀ q ∈ visit x y, M q.2 q.1 = true) → (∀ u ∈ ta.subs, ∀ v ∈ y.subs, M v.idx u.idx = true → u.prod = v.prod) →
    (rowLoop a b n minterms y.idx (xs.map BTree.idx) M rs).1 = clear M (xs.flatMap fun x => visit x y) ∧
    ∀ r, r ∈ (rowLoop a b n minterms y.idx (xs.map BTree.idx) M rs).2 ↔ r ∈ rs ∨ ∃ x ∈ xs, minterms ≤ terms x y ∧ r = frag n x y := by
  intro xs
  induction xs with
  | nil => intro M rs _ _ _ _; simp [rowLoop, clear_nil]
  | cons x xs ih =>
    intro M rs h1 h2 h3 h4
    rw [List.nodup_cons] at h2
    have hx := h1 x List.mem_cons_self
    have he := extractat_eq x y a.length M 0 (repr_sub hra hx.1) hy hny (fun u hu => hs u (subs_trans hu hx.1)) hx.2
      (by
        have : x.subs.length ≤ ta.subs.length := by
          have hsub : (x.subs.map BTree.idx) ⊆ ta.subs.map BTree.idx := by
            intro i hi
            obtain ⟨u, hu, rfl⟩ := List.mem_map.1 hi
            exact idx_mem_of_sub (subs_trans hu hx.1)
          have := (List.subperm_of_subset (nodup_sub hna hx.1) hsub).length_le
          simpa using this
        omega)
      (h3 x List.mem_cons_self) (fun u hu => h4 u (subs_trans hu hx.1))
    rw [List.map_cons, rowLoop, he]
    simp only
    have := ih (clear M (visit x y)) (if minterms ≤ terms x y then addSet rs ⟨mask 0 ((visit x y).map Prod.fst), x.idx, n⟩ else rs)
      (fun z hz => h1 z (List.mem_cons_of_mem _ hz)) h2.2 ?_ ?_
    · rw [this.1, clear_append, List.flatMap_cons]
      refine ⟨rfl, fun r => ?_⟩
      rw [this.2]
      by_cases hm : minterms ≤ terms x y
      · rw [if_pos hm, mem_addSet]
        constructor
        · rintro ((h | h) | ⟨z, hz, h⟩)
          · exact Or.inl h
          · exact Or.inr ⟨x, List.mem_cons_self, hm, h⟩
          · exact Or.inr ⟨z, List.mem_cons_of_mem _ hz, h⟩
        · rintro (h | ⟨z, hz, h⟩)
          · exact Or.inl (Or.inl h)
          · rcases List.mem_cons.1 hz with rfl | hz
            · exact Or.inl (Or.inr h.2)
            · exact Or.inr ⟨z, hz, h⟩
      · rw [if_neg hm]
        constructor
        · rintro (h | ⟨z, hz, h⟩)
          · exact Or.inl h
          · exact Or.inr ⟨z, List.mem_cons_of_mem _ hz, h⟩
        · rintro (h | ⟨z, hz, h⟩)
          · exact Or.inl h
          · rcases List.mem_cons.1 hz with rfl | hz
            · exact absurd h.1 hm
            · exact Or.inr ⟨z, hz, h⟩
    · intro z hz q hq
      have hne : (q.1, q.2) ∉ visit x y := by
        intro hq'
        have := visit_unique hna hny hx.1 (h1 z (List.mem_cons_of_mem _ hz)).1 hs hq' hq
        subst this
        exact h2.1 hz
      simp [clear, h3 z (List.mem_cons_of_mem _ hz) q hq, hne]
    · intro u hu v hv hM
      simp only [clear, Bool.and_eq_true] at hM
      exact h4 u hu v hv hM.1

/-- The node at this position of `y` has a parent that is matched with the parent of `u`. -/
def Up (ta y : BTree) (U : BTree → Prop) (pb : List Bool) (u : BTree) : Prop :=
  (pb = [] ∧ U u) ∨ ∃ pb' d v' u', pb = pb' ++ [d] ∧ y.sub pb' = some v' ∧ u' ∈ ta.subs ∧ u'.child d = some u ∧ u'.prod = v'.prod

theorem up_child {ta y c : BTree} {U : BTree → Prop} {d : Bool} (hc : y.child d = some c) (p : List Bool) (u : BTree) :
    Up ta c (fun u => ∃ u' ∈ ta.subs, u'.child d = some u ∧ u'.prod = y.prod) p u ↔ Up ta y U (d :: p) u := by
  unfold Up
  constructor
  · rintro (⟨rfl, u', h1, h2, h3⟩ | ⟨pb', d', v', u', rfl, h2, h3, h4, h5⟩)
    · exact Or.inr ⟨[], d, y, u', rfl, rfl, h1, h2, h3⟩
    · exact Or.inr ⟨d :: pb', d', v', u', rfl, by simp [BTree.sub, hc, h2], h3, h4, h5⟩
  · rintro (⟨h, -⟩ | ⟨pb', d', v', u', h1, h2, h3, h4, h5⟩)
    · simp at h
    · cases pb' with
      | nil =>
        simp only [List.nil_append, List.cons.injEq] at h1
        obtain ⟨rfl, rfl⟩ := h1
        simp only [BTree.sub, Option.some.injEq] at h2
        subst h2
        exact Or.inl ⟨rfl, u', h3, h4, h5⟩
      | cons e pb' =>
        simp only [List.cons_append, List.cons.injEq] at h1
        obtain ⟨rfl, rfl⟩ := h1
        simp only [BTree.sub, hc, Option.bind_some] at h2
        exact Or.inr ⟨pb', d', v', u', rfl, h2, h3, h4, h5⟩

/-- The state of the matrix before a node of the second tree is visited. -/
def Pre (ta y : BTree) (U : BTree → Prop) (M : Matrix) : Prop :=
  ∀ z ∈ y.subs, ∀ x ∈ ta.subs, M z.idx x.idx = true ↔ x.prod = z.prod ∧ ¬ ∃ x0 ∈ ta.subs, U x0 ∧ (x.idx, z.idx) ∈ visit x0 y

theorem exists_nodes {ta : BTree} (l : List Nat) (h : ∀ i ∈ l, i ∈ ta.subs.map BTree.idx) : ∃ xs : List BTree, xs.map BTree.idx = l ∧ ∀ x ∈ xs, x ∈ ta.subs := by
  induction l with
  | nil => exact ⟨[], rfl, by simp⟩
  | cons i l ih =>
    obtain ⟨xs, h1, h2⟩ := ih fun j hj => h j (List.mem_cons_of_mem _ hj)
    obtain ⟨x, hx, rfl⟩ := List.mem_map.1 (h i List.mem_cons_self)
    refine ⟨x :: xs, by rw [List.map_cons, h1], ?_⟩
    intro z hz
    rcases List.mem_cons.1 hz with rfl | hz
    · exact hx
    · exact h2 z hz

theorem child_idx_ne {y c z : BTree} {d : Bool} (hn : (y.subs.map BTree.idx).Nodup) (hc : y.child d = some c) (hz : z ∈ c.subs) : z.idx ≠ y.idx := by
  intro e
  obtain ⟨p, hp⟩ := (mem_subs_iff_sub c z).1 hz
  have := path_unique y hn (d :: p) [] z y (by simp [BTree.sub, hc, hp]) rfl e
  simp at this

/-- Visited pairs below a child. -/
theorem visit_child {ta y c x0 z : BTree} {d : Bool} {k : Nat} (hn : (y.subs.map BTree.idx).Nodup) (hc : y.child d = some c) (hz : z ∈ c.subs) (hs : Spec.SameArity ta y)
    (h0 : x0 ∈ ta.subs) : (k, z.idx) ∈ visit x0 y ↔ x0.prod = y.prod ∧ ∃ x1, x0.child d = some x1 ∧ (k, z.idx) ∈ visit x1 c := by
  have hs0 : Spec.SameArity x0 y := fun u hu => hs u (subs_trans hu h0)
  constructor
  · intro h
    obtain ⟨p, u, v, h1, h2, h3, h4⟩ := of_mem_visit x0 hs0 h
    simp only [Prod.mk.injEq] at h4
    obtain ⟨p', hp'⟩ := (mem_subs_iff_sub c z).1 hz
    have := path_unique y hn p (d :: p') v z h3 (by simp [BTree.sub, hc, hp']) h4.2.symm
    subst this
    obtain ⟨h5, u', v', h6, h7, h8⟩ := agree_cons.1 h1
    rw [hc, Option.some.injEq] at h7
    subst h7
    refine ⟨h5, u', h6, ?_⟩
    simp only [BTree.sub, h6, hc, Option.bind_some] at h2 h3
    rw [h4.1, h4.2]
    exact mem_visit p' (sameArity_child hs0 h6 hc) h8 h2 h3
  · rintro ⟨h1, x1, h2, h3⟩
    obtain ⟨rest, h4, h5⟩ := visit_cons h1 (hs0 _ (self_mem_subs _) _ (self_mem_subs _) h1)
    rw [h4]
    exact List.mem_cons_of_mem _ ((h5 _).2 ⟨d, x1, c, h2, hc, h3⟩)

/-- The fragments found below a node. -/
def Found (ta y : BTree) (U : BTree → Prop) (n minterms : Nat) (r : Fragment) : Prop :=
  ∃ pb v u, y.sub pb = some v ∧ u ∈ ta.subs ∧ u.prod = v.prod ∧ ¬ Up ta y U pb u ∧ minterms ≤ terms u v ∧ r = frag n u v

theorem found_split {ta y : BTree} {U : BTree → Prop} {n minterms : Nat} (r : Fragment) : Found ta y U n minterms r ↔
    (∃ u ∈ ta.subs, u.prod = y.prod ∧ ¬ U u ∧ minterms ≤ terms u y ∧ r = frag n u y) ∨
    ∃ d c, y.child d = some c ∧ Found ta c (fun u => ∃ u' ∈ ta.subs, u'.child d = some u ∧ u'.prod = y.prod) n minterms r := by
  constructor
  · rintro ⟨pb, v, u, h1, h2, h3, h4, h5⟩
    cases pb with
    | nil =>
      simp only [BTree.sub, Option.some.injEq] at h1
      subst h1
      exact Or.inl ⟨u, h2, h3, fun hU => h4 (Or.inl ⟨rfl, hU⟩), h5⟩
    | cons d p =>
      simp only [BTree.sub] at h1
      cases hc : y.child d with
      | none => simp [hc] at h1
      | some c =>
        rw [hc, Option.bind_some] at h1
        exact Or.inr ⟨d, c, hc, p, v, u, h1, h2, h3, fun h => h4 ((up_child hc p u).1 h), h5⟩
  · rintro (⟨u, h2, h3, h4, h5⟩ | ⟨d, c, hc, p, v, u, h1, h2, h3, h4, h5⟩)
    · refine ⟨[], y, u, rfl, h2, h3, ?_, h5⟩
      rintro (⟨-, h⟩ | ⟨pb', d, v', u', h, -⟩)
      · exact h4 h
      · simp at h
    · exact ⟨d :: p, v, u, by simp [BTree.sub, hc, h1], h2, h3, fun h => h4 ((up_child hc p u).2 h), h5⟩

theorem extractbitsets_spec {a b : List Node} {ta : BTree} (n minterms : Nat) (hra : Spec.Repr a ta) (hall : (ta.subs.map BTree.idx).Perm (List.range a.length)) (y : BTree) :
    ∀ (f : Nat) (M : Matrix) (rs : List Fragment) (U : BTree → Prop), Spec.Repr b y → (y.subs.map BTree.idx).Nodup → Spec.SameArity ta y → y.subs.length ≤ f →
    Pre ta y U M →
    (∀ j i, j ∉ y.subs.map BTree.idx → (extractbitsets a b n minterms f y.idx M rs).1 j i = M j i) ∧
    ∀ r, r ∈ (extractbitsets a b n minterms f y.idx M rs).2 ↔ r ∈ rs ∨ Found ta y U n minterms r := by
  have hna : (ta.subs.map BTree.idx).Nodup := hall.nodup_iff.2 List.nodup_range
  have hlen : ta.subs.length ≤ a.length := by have := hall.length_eq; simp at this; omega
  -- the row of the node itself
  have row : ∀ (y : BTree) (M : Matrix) (rs : List Fragment) (U : BTree → Prop), Spec.Repr b y → (y.subs.map BTree.idx).Nodup → Spec.SameArity ta y →
      Pre ta y U M → ∃ M1 rs1, rowLoop a b n minterms y.idx ((List.range a.length).filter (M y.idx)) M rs = (M1, rs1) ∧
        (∀ j i, j ∉ y.subs.map BTree.idx → M1 j i = M j i) ∧
        (∀ r, r ∈ rs1 ↔ r ∈ rs ∨ ∃ u ∈ ta.subs, u.prod = y.prod ∧ ¬ U u ∧ minterms ≤ terms u y ∧ r = frag n u y) ∧
        ∀ d c, y.child d = some c → Pre ta c (fun u => ∃ u' ∈ ta.subs, u'.child d = some u ∧ u'.prod = y.prod) M1 := by
    intro y M rs U hy hny hs hM
    obtain ⟨xs, hxs, hxm⟩ := exists_nodes (ta := ta) ((List.range a.length).filter (M y.idx)) fun i hi => hall.mem_iff.2 (List.mem_filter.1 hi).1
    have hroot : ∀ x ∈ ta.subs, ∀ x0 ∈ ta.subs, (x.idx, y.idx) ∈ visit x0 y → x = x0 := by
      intro x hx x0 h0 h
      obtain ⟨p, u, v, h1, h2, h3, h4⟩ := of_mem_visit x0 (fun u hu => hs u (subs_trans hu h0)) h
      simp only [Prod.mk.injEq] at h4
      have := path_unique y hny p [] v y h3 rfl h4.2.symm
      subst this
      simp only [BTree.sub, Option.some.injEq] at h2
      subst h2
      exact eq_of_idx hna hx h0 h4.1
    have hmem : ∀ x, x ∈ xs ↔ x ∈ ta.subs ∧ x.prod = y.prod ∧ ¬ U x := by
      intro x
      constructor
      · intro hx
        have hx' := hxm x hx
        have h1 : x.idx ∈ (List.range a.length).filter (M y.idx) := by rw [← hxs]; exact List.mem_map_of_mem hx
        have h2 := (hM y (self_mem_subs _) x hx').1 (List.mem_filter.1 h1).2
        refine ⟨hx', h2.1, fun hU => h2.2 ⟨x, hx', hU, ?_⟩⟩
        obtain ⟨rest, h, -⟩ := visit_cons h2.1 (hs x hx' y (self_mem_subs _) h2.1)
        rw [h]; exact List.mem_cons_self
      · rintro ⟨hx, hp, hU⟩
        have h1 : x.idx ∈ (List.range a.length).filter (M y.idx) := by
          rw [List.mem_filter]
          refine ⟨hall.mem_iff.1 (idx_mem_of_sub hx), (hM y (self_mem_subs _) x hx).2 ⟨hp, ?_⟩⟩
          rintro ⟨x0, h0, hU0, hv⟩
          have := hroot x hx x0 h0 hv
          subst this
          exact hU hU0
        rw [← hxs] at h1
        obtain ⟨z, hz, he⟩ := List.mem_map.1 h1
        have := eq_of_idx hna (hxm z hz) hx he
        subst this
        exact hz
    have hnd : xs.Nodup := by
      have : (xs.map BTree.idx).Nodup := by rw [hxs]; exact List.nodup_range.filter _
      exact this.of_map
    have hspec := rowLoop_spec (a := a) (b := b) n minterms hra hna hlen hy hny hs xs M rs (fun x hx => ⟨((hmem x).1 hx).1, ((hmem x).1 hx).2.1⟩) hnd ?_ ?_
    · rw [hxs] at hspec
      refine ⟨_, _, rfl, ?_, ?_, ?_⟩
      · intro j i hj
        rw [hspec.1]
        have : (i, j) ∉ xs.flatMap fun x => visit x y := by
          rw [List.mem_flatMap]
          rintro ⟨x, -, h⟩
          exact hj (visit_snd x y _ h).2
        simp [clear, this]
      · intro r
        rw [hspec.2]
        constructor
        · rintro (h | ⟨x, hx, h⟩)
          · exact Or.inl h
          · exact Or.inr ⟨x, ((hmem x).1 hx).1, ((hmem x).1 hx).2.1, ((hmem x).1 hx).2.2, h⟩
        · rintro (h | ⟨x, h1, h2, h3, h⟩)
          · exact Or.inl h
          · exact Or.inr ⟨x, (hmem x).2 ⟨h1, h2, h3⟩, h⟩
      · intro d c hc z hz x hx
        rw [hspec.1]
        simp only [clear, Bool.and_eq_true, Bool.not_eq_true', decide_eq_false_iff_not, List.mem_flatMap, hM z (subs_trans hz (child_mem hc)) x hx]
        constructor
        · rintro ⟨⟨h1, h2⟩, h3⟩
          refine ⟨h1, ?_⟩
          rintro ⟨x1, -, ⟨x0, h0, h4, h5⟩, h6⟩
          have hv := (visit_child hny hc hz hs h0).2 ⟨h5, x1, h4, h6⟩
          by_cases hU : U x0
          · exact h2 ⟨x0, h0, hU, hv⟩
          · exact h3 ⟨x0, (hmem x0).2 ⟨h0, h5, hU⟩, hv⟩
        · rintro ⟨h1, h2⟩
          have h3 : ∀ x0 ∈ ta.subs, (x.idx, z.idx) ∉ visit x0 y := by
            intro x0 h0 hv
            obtain ⟨h4, x1, h5, h6⟩ := (visit_child hny hc hz hs h0).1 hv
            exact h2 ⟨x1, subs_trans (child_mem h5) h0, ⟨x0, h0, h5, h4⟩, h6⟩
          exact ⟨⟨h1, fun ⟨x0, h0, _, hv⟩ => h3 x0 h0 hv⟩, fun ⟨x0, h0, hv⟩ => h3 x0 ((hmem x0).1 h0).1 hv⟩
    · intro x hx q hq
      obtain ⟨hx1, hx2, hx3⟩ := (hmem x).1 hx
      have hq' := visit_snd x y q hq
      obtain ⟨p, u, v, h1, h2, h3, rfl⟩ := of_mem_visit x (fun u hu => hs u (subs_trans hu hx1)) hq
      refine (hM v ((mem_subs_iff_sub y v).2 ⟨p, h3⟩) u (subs_trans ((mem_subs_iff_sub x u).2 ⟨p, h2⟩) hx1)).2 ⟨?_, ?_⟩
      · obtain ⟨u', v', h4, h5, h6⟩ := h1 p (List.prefix_refl _)
        rw [h2, Option.some.injEq] at h4
        rw [h3, Option.some.injEq] at h5
        rw [h4, h5]; exact h6
      · rintro ⟨x0, h0, hU0, hv⟩
        have := visit_unique hna hny hx1 h0 hs hq hv
        subst this
        exact hx3 hU0
    · intro u hu v hv h
      exact ((hM v hv u hu).1 h).1
  induction y with
  | term i p =>
    intro f M rs U hy hny hs hf hM
    obtain ⟨f, rfl⟩ : ∃ f', f = f' + 1 := ⟨f - 1, by simp [BTree.subs] at hf; omega⟩
    obtain ⟨M1, rs1, h1, h2, h3, h4⟩ := row _ M rs U hy hny hs hM
    rw [extractbitsets]
    cases hy with
    | term h hl =>
      simp only [idx_term] at *
      have hn : ¬ 0 ≤ (nd b i).left := by omega
      simp only [h1, if_neg hn]
      refine ⟨h2, fun r => ?_⟩
      rw [h3, found_split]
      constructor
      · rintro (h | h)
        · exact Or.inl h
        · exact Or.inr (Or.inl h)
      · rintro (h | h | ⟨d, c, hc, -⟩)
        · exact Or.inl h
        · exact Or.inr h
        · cases d <;> simp [BTree.child] at hc
  | un i p l ih =>
    intro f M rs U hy hny hs hf hM
    obtain ⟨f, rfl⟩ : ∃ f', f = f' + 1 := ⟨f - 1, by simp [BTree.subs] at hf; omega⟩
    obtain ⟨M1, rs1, h1, h2, h3, h4⟩ := row _ M rs U hy hny hs hM
    rw [extractbitsets]
    cases hy with
    | un h hl hr h5 =>
      have hpos : (0 : Int) ≤ l.idx := by omega
      simp only [idx_un] at *
      simp only [h1, hl, if_pos hpos, Int.toNat_natCast, if_neg (show ¬ 0 ≤ (nd b i).right by omega)]
      have hc : (BTree.un i (nd b i).prod l).child false = some l := rfl
      have := ih f M1 rs1 _ h5 (nodup_sub hny (child_mem hc)) (fun u hu v hv => hs u hu v (subs_trans hv (child_mem hc))) (by simp [BTree.subs] at hf; omega) (h4 false l hc)
      refine ⟨?_, fun r => ?_⟩
      · intro j k hj
        rw [this.1 j k (by simp [BTree.subs] at hj ⊢; exact hj.2), h2 j k hj]
      · rw [this.2, h3, found_split (y := BTree.un i (nd b i).prod l), or_assoc]
        refine or_congr_right (or_congr_right ⟨fun hf => ⟨false, l, hc, hf⟩, ?_⟩)
        rintro ⟨d, c, hc', hf⟩
        cases d <;> simp [BTree.child] at hc'
        subst hc'; exact hf
  | bin i p l r ihl ihr =>
    intro f M rs U hy hny hs hf hM
    obtain ⟨f, rfl⟩ : ∃ f', f = f' + 1 := ⟨f - 1, by simp [BTree.subs] at hf; omega⟩
    obtain ⟨M1, rs1, h1, h2, h3, h4⟩ := row _ M rs U hy hny hs hM
    rw [extractbitsets]
    cases hy with
    | bin h hl hr h5 h6 =>
      have hpos : (0 : Int) ≤ l.idx := by omega
      have hpos' : (0 : Int) ≤ r.idx := by omega
      simp only [idx_bin] at *
      simp only [h1, hl, hr, if_pos hpos, if_pos hpos', Int.toNat_natCast]
      have hc : (BTree.bin i (nd b i).prod l r).child false = some l := rfl
      have hc' : (BTree.bin i (nd b i).prod l r).child true = some r := rfl
      have hl1 := ihl f M1 rs1 _ h5 (nodup_sub hny (child_mem hc)) (fun u hu v hv => hs u hu v (subs_trans hv (child_mem hc))) (by simp [BTree.subs] at hf; omega) (h4 false l hc)
      have hpre : Pre ta r (fun u => ∃ u' ∈ ta.subs, u'.child true = some u ∧ u'.prod = (BTree.bin i (nd b i).prod l r).prod) (extractbitsets a b n minterms f l.idx M1 rs1).1 := by
        intro z hz x hx
        rw [hl1.1, h4 true r hc' z hz x hx]
        simp only [BTree.subs, List.map_cons, List.map_append, List.nodup_cons, List.nodup_append] at hny
        exact fun hm => hny.2.2.2 _ hm _ (idx_mem_of_sub hz) rfl
      have hr1 := ihr f _ (extractbitsets a b n minterms f l.idx M1 rs1).2 _ h6 (nodup_sub hny (child_mem hc')) (fun u hu v hv => hs u hu v (subs_trans hv (child_mem hc')))
        (by simp [BTree.subs] at hf; omega) hpre
      refine ⟨?_, fun r' => ?_⟩
      · intro j k hj
        have hj' : j ∉ l.subs.map BTree.idx ∧ j ∉ r.subs.map BTree.idx := by
          simp only [BTree.subs, List.map_cons, List.map_append, List.mem_cons, List.mem_append, not_or] at hj
          exact hj.2
        rw [hr1.1 j k hj'.2, hl1.1 j k hj'.1, h2 j k hj]
      · rw [hr1.2, hl1.2, h3, found_split (y := BTree.bin i (nd b i).prod l r), or_assoc, or_assoc]
        refine or_congr_right (or_congr_right ⟨?_, ?_⟩)
        · rintro (hf | hf)
          · exact ⟨false, l, hc, hf⟩
          · exact ⟨true, r, hc', hf⟩
        · rintro ⟨d, c, hcc, hf⟩
          cases d <;> simp only [BTree.child, Option.some.injEq] at hcc <;> subst hcc
          · exact Or.inl hf
          · exact Or.inr hf

/-! ### The property -/

theorem largest_frag {x y : BTree} (hs : Spec.SameArity x y) : Spec.Largest x y (mask 0 ((visit x y).map Prod.fst)) := by
  intro k
  rw [mask_testBit]
  simp only [Nat.zero_testBit, Bool.false_or, decide_eq_true_iff, List.mem_map]
  constructor
  · rintro ⟨q, hq, rfl⟩
    obtain ⟨p, u, v, h1, h2, -, rfl⟩ := of_mem_visit x hs hq
    exact ⟨p, u, h1, h2, rfl⟩
  · rintro ⟨p, w, h1, h2, rfl⟩
    obtain ⟨u, v, h3, h4, -⟩ := h1 p (List.prefix_refl _)
    rw [h2, Option.some.injEq] at h3
    subst h3
    exact ⟨_, mem_visit p hs h1 h2 h4, rfl⟩

theorem largest_unique {x y : BTree} {m m' : Nat} (h : Spec.Largest x y m) (h' : Spec.Largest x y m') : m = m' := by
  apply Nat.eq_of_testBit_eq
  intro k
  rw [Bool.eq_iff_iff, h k, h' k]

theorem pre_kernel {a b : List Node} {s t : BTree} (ha : Spec.Tree a s) (hb : Spec.Tree b t) : Pre s t (fun _ => False) (fasttreekernel a b) := by
  intro z hz x hx
  have hz' := repr_sub hb.repr hz
  have hx' := repr_sub ha.repr hx
  have h1 : a ≠ [] := fun e => by have := repr_lt hx'; simp [e] at this
  have h2 : b ≠ [] := fun e => by have := repr_lt hz'; simp [e] at this
  rw [fasttreekernel_spec ha.sorted hb.sorted h1 h2, repr_prod hz', repr_prod hx']
  simp [repr_lt hz', repr_lt hx']

/-- **C49**: For two trees, the fragments found are exactly the maximal common fragments: one for each pair of nodes with the same production whose parents do not
match, with as bits the numbers of the nodes of the first tree in the largest common fragment with these nodes as roots. -/
theorem C49_maximal_fragments {a b : List Node} {s t : BTree} (ha : Spec.Tree a s) (hb : Spec.Tree b t) (hs : Spec.SameArity s t) (n : Nat) (inter : List Fragment)
    (r : Fragment) : r ∈ extractfrompair a b t.idx n 0 inter ↔
      r ∈ inter ∨ ∃ pa pb u v, Spec.Top s t pa pb u v ∧ r.root = u.idx ∧ r.id = n ∧ Spec.Largest u v r.bits := by
  have hlen : t.subs.length ≤ b.length := by have := hb.all.length_eq; simp at this; omega
  rw [extractfrompair, (extractbitsets_spec n 0 ha.repr ha.all t _ _ inter (fun _ => False) hb.repr (hb.all.nodup_iff.2 List.nodup_range) hs hlen (pre_kernel ha hb)).2]
  refine or_congr_right ⟨?_, ?_⟩
  · rintro ⟨pb, v, u, h1, h2, h3, h4, -, rfl⟩
    obtain ⟨pa, hpa⟩ := (mem_subs_iff_sub s u).1 h2
    refine ⟨pa, pb, u, v, ⟨hpa, h1, h3, ?_⟩, rfl, rfl, largest_frag fun x hx y hy => hs x (subs_trans hx h2) y (subs_trans hy ((mem_subs_iff_sub t v).2 ⟨pb, h1⟩))⟩
    rintro pa' pb' d u' v' rfl rfl h5 h6 h7
    refine h4 (Or.inr ⟨pb', d, v', u', rfl, h6, (mem_subs_iff_sub s u').2 ⟨pa', h5⟩, ?_, h7⟩)
    rw [sub_append, h5, Option.bind_some] at hpa
    simp only [BTree.sub] at hpa
    cases hc : u'.child d with
    | none => simp [hc] at hpa
    | some c => simpa [hc] using hpa
  · rintro ⟨pa, pb, u, v, ht, h1, h2, h3⟩
    have hu := (mem_subs_iff_sub s u).2 ⟨pa, ht.left⟩
    have hv := (mem_subs_iff_sub t v).2 ⟨pb, ht.right⟩
    refine ⟨pb, v, u, ht.right, hu, ht.same, ?_, Nat.zero_le _, ?_⟩
    · rintro (⟨-, h⟩ | ⟨pb', d, v', u', rfl, h4, h5, h6, h7⟩)
      · exact h
      · obtain ⟨pa', hpa'⟩ := (mem_subs_iff_sub s u').1 h5
        have : pa = pa' ++ [d] := path_unique s (ha.all.nodup_iff.2 List.nodup_range) _ _ u u ht.left (by rw [sub_append, hpa']; simp [BTree.sub, h6]) rfl
        exact ht.top pa' pb' d u' v' this rfl hpa' h4 h7
    · have := largest_unique h3 (largest_frag fun x hx y hy => hs x (subs_trans hx hu) y (subs_trans hy hv))
      obtain ⟨rb, rr, ri⟩ := r
      simp only at h1 h2 this
      subst h1; subst h2; subst this
      rfl

/-- A set of positions that is a common fragment of two trees (at their roots): it is connected, and the productions are the same. -/
structure Spec.CommonFragment (x y : BTree) (P : List Bool → Prop) : Prop where
  root : P []
  connected : ∀ p d, P (p ++ [d]) → P p
  same : ∀ p, P p → ∃ u v, x.sub p = some u ∧ y.sub p = some v ∧ u.prod = v.prod

/-- **C49**: Every common fragment of two trees, wherever it occurs, is part of one of the fragments found. -/
theorem C49_covers {a b : List Node} {s t : BTree} (ha : Spec.Tree a s) (hb : Spec.Tree b t) (hs : Spec.SameArity s t) (n : Nat) (inter : List Fragment)
    (pa pb : List Bool) (u v : BTree) (hu : s.sub pa = some u) (hv : t.sub pb = some v) (P : List Bool → Prop) (hP : Spec.CommonFragment u v P) :
    ∃ r ∈ extractfrompair a b t.idx n 0 inter, r.id = n ∧ ∀ p w, P p → u.sub p = some w → r.bits.testBit w.idx = true := by
  have hp0 : Spec.Agree u v [] := by
    obtain ⟨u', v', h1, h2, h3⟩ := hP.same [] hP.root
    simp only [BTree.sub, Option.some.injEq] at h1 h2
    rw [agree_nil, h1, h2]; exact h3
  have hag : ∀ p, P p → Spec.Agree u v p := by
    intro p hp q hq
    refine hP.same q ?_
    obtain ⟨r, rfl⟩ := hq
    clear hp0
    revert hp
    induction r using List.reverseRecOn with
    | nil => intro hp; simpa using hp
    | append_singleton r d ih =>
      intro hp
      rw [← List.append_assoc] at hp
      exact ih (hP.connected _ _ hp)
  -- the topmost pair of ancestors that match
  have top : ∀ (k : Nat) (pa pb : List Bool) (u v : BTree), pa.length ≤ k → s.sub pa = some u → t.sub pb = some v → u.prod = v.prod →
      ∃ c pa' pb' u' v', pa = pa' ++ c ∧ pb = pb' ++ c ∧ Spec.Top s t pa' pb' u' v' ∧ Spec.Agree u' v' c := by
    intro k
    induction k with
    | zero =>
      intro pa pb u v hk h1 h2 h3
      have : pa = [] := List.eq_nil_of_length_eq_zero (by omega)
      subst this
      refine ⟨[], [], pb, u, v, rfl, by simp, ⟨h1, h2, h3, ?_⟩, agree_nil.2 h3⟩
      intro pa' pb' d u' v' h
      simp at h
    | succ k ih =>
      intro pa pb u v hk h1 h2 h3
      by_cases h : Spec.Top s t pa pb u v
      · exact ⟨[], pa, pb, u, v, by simp, by simp, h, agree_nil.2 h3⟩
      · have : ∃ pa' pb' d u' v', pa = pa' ++ [d] ∧ pb = pb' ++ [d] ∧ s.sub pa' = some u' ∧ t.sub pb' = some v' ∧ u'.prod = v'.prod := by
          by_contra hn
          exact h ⟨h1, h2, h3, fun pa' pb' d u' v' e1 e2 e3 e4 e5 => hn ⟨pa', pb', d, u', v', e1, e2, e3, e4, e5⟩⟩
        obtain ⟨pa', pb', d, u', v', rfl, rfl, e3, e4, e5⟩ := this
        obtain ⟨c, qa, qb, u'', v'', rfl, rfl, ht, hg⟩ := ih pa' pb' u' v' (by simp at hk; omega) e3 e4 e5
        refine ⟨c ++ [d], qa, qb, u'', v'', by simp, by simp, ht, ?_⟩
        intro q hq
        rcases List.prefix_concat_iff.1 hq with rfl | hq
        · refine ⟨u, v, ?_, ?_, h3⟩
          · rw [List.append_assoc, sub_append, ht.left] at h1; exact h1
          · rw [List.append_assoc, sub_append, ht.right] at h2; exact h2
        · exact hg q hq
  obtain ⟨c, qa, qb, u', v', rfl, rfl, ht, hg⟩ := top pa.length pa pb u v (Nat.le_refl _) hu hv (agree_nil.1 hp0)
  have hu' := (mem_subs_iff_sub s u').2 ⟨qa, ht.left⟩
  have hv' := (mem_subs_iff_sub t v').2 ⟨qb, ht.right⟩
  have hl := largest_frag (x := u') (y := v') fun x hx y hy => hs x (subs_trans hx hu') y (subs_trans hy hv')
  refine ⟨frag n u' v', (C49_maximal_fragments ha hb hs n inter _).2 (Or.inr ⟨qa, qb, u', v', ht, rfl, rfl, hl⟩), rfl, ?_⟩
  intro p w hp hw
  refine (hl w.idx).2 ⟨c ++ p, w, ?_, ?_, rfl⟩
  · intro q hq
    rw [sub_append, ht.left, Option.bind_some] at hu
    rw [sub_append, ht.right, Option.bind_some] at hv
    rcases List.prefix_or_prefix_of_prefix hq (List.prefix_append c p) with h | h
    · exact hg q h
    · obtain ⟨q', rfl⟩ := h
      obtain ⟨x, y, h1, h2, h3⟩ := hag p hp q' (by simpa using hq)
      exact ⟨x, y, by rw [sub_append, hu]; exact h1, by rw [sub_append, hv]; exact h2, h3⟩
  · rw [sub_append, ht.left, Option.bind_some] at hu
    rw [sub_append, hu]; exact hw

end Disco.Frag
