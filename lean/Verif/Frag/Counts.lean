import Verif.Frag.Maximal
/-!
# C50: exact counts of fragments
-/
namespace Disco.Frag

/-! ### Specification -/

/-- The position is part of the fragment: all nodes on the way from the root of the fragment to the node are in the bitset. -/
def Spec.InFragment (u : BTree) (bits : Nat) (p : List Bool) : Prop := ∀ q, q <+: p → ∃ w, u.sub q = some w ∧ bits.testBit w.idx = true

/-- The bits are a connected set of nodes with `u` as root. -/
def Spec.IsFragment (u : BTree) (bits : Nat) : Prop :=
  bits.testBit u.idx = true ∧ ∀ k, bits.testBit k = true → ∃ p w, Spec.InFragment u bits p ∧ u.sub p = some w ∧ w.idx = k

/-- The fragment with root `u` occurs at node `v`: at each position of the fragment there is a node with the same production. -/
def Spec.Occurs (u : BTree) (bits : Nat) (v : BTree) : Prop :=
  ∀ p w, Spec.InFragment u bits p → u.sub p = some w → ∃ w', v.sub p = some w' ∧ w.prod = w'.prod

/-- `prodindex[p]` is the sorted list of the numbers of trees in which production `p` occurs, and `None` if there are no such trees. -/
structure Spec.Index (ts : List BTree) (prodindex : List (Option (List Nat))) : Prop where
  found : ∀ (p : Nat) s, prodindex[p]? = some (some s) → s.Pairwise (· < ·) ∧ ∀ m, m ∈ s ↔ ∃ t, ts[m]? = some t ∧ ∃ v ∈ t.subs, v.prod = p
  absent : ∀ (p : Nat), (prodindex[p]? = none ∨ prodindex[p]? = some none) → ∀ t ∈ ts, ∀ v ∈ t.subs, v.prod ≠ p

/-! ### Occurrence at a node -/

theorem inFragment_nil {u : BTree} {bits : Nat} : Spec.InFragment u bits [] ↔ bits.testBit u.idx = true := by
  constructor
  · intro h
    obtain ⟨w, h1, h2⟩ := h [] (List.prefix_refl _)
    simp only [BTree.sub, Option.some.injEq] at h1
    rw [h1]; exact h2
  · intro h q hq
    rw [List.prefix_nil] at hq
    subst hq
    exact ⟨u, rfl, h⟩

theorem inFragment_cons {u : BTree} {bits : Nat} {d : Bool} {p : List Bool} : Spec.InFragment u bits (d :: p) ↔
    bits.testBit u.idx = true ∧ ∃ c, u.child d = some c ∧ Spec.InFragment c bits p := by
  constructor
  · intro h
    refine ⟨inFragment_nil.1 fun q hq => h q (hq.trans List.nil_prefix), ?_⟩
    obtain ⟨w, h1, -⟩ := h [d] (by simp)
    simp only [BTree.sub] at h1
    cases hc : u.child d with
    | none => simp [hc] at h1
    | some c =>
      refine ⟨c, rfl, fun q hq => ?_⟩
      obtain ⟨w, h1, h2⟩ := h (d :: q) (by simpa using hq)
      simp only [BTree.sub, hc, Option.bind_some] at h1
      exact ⟨w, h1, h2⟩
  · rintro ⟨h1, c, hc, h2⟩ q hq
    cases q with
    | nil => exact ⟨u, rfl, h1⟩
    | cons e q =>
      rw [List.cons_prefix_cons] at hq
      obtain ⟨rfl, hq⟩ := hq
      obtain ⟨w, h3, h4⟩ := h2 q hq
      exact ⟨w, by simp [BTree.sub, hc, h3], h4⟩

/-- The fragment occurs at a node iff the production is the same, and the parts below the children occur at the children. -/
theorem occurs_iff {u v : BTree} {bits : Nat} (hb : bits.testBit u.idx = true) (ha : u.prod = v.prod → u.arity = v.arity) : Spec.Occurs u bits v ↔
    u.prod = v.prod ∧ ∀ d c c', u.child d = some c → v.child d = some c' → bits.testBit c.idx = true → Spec.Occurs c bits c' := by
  constructor
  · intro h
    refine ⟨?_, ?_⟩
    · obtain ⟨w, h1, h2⟩ := h [] u (inFragment_nil.2 hb) rfl
      simp only [BTree.sub, Option.some.injEq] at h1
      rw [h1]; exact h2
    · intro d c c' hc hc' hbc p w hp hw
      obtain ⟨w', h1, h2⟩ := h (d :: p) w (inFragment_cons.2 ⟨hb, c, hc, hp⟩) (by simp [BTree.sub, hc, hw])
      simp only [BTree.sub, hc', Option.bind_some] at h1
      exact ⟨w', h1, h2⟩
  · rintro ⟨h1, h2⟩ p w hp hw
    cases p with
    | nil =>
      simp only [BTree.sub, Option.some.injEq] at hw
      subst hw
      exact ⟨v, rfl, h1⟩
    | cons d p =>
      obtain ⟨-, c, hc, hp⟩ := inFragment_cons.1 hp
      have har := ha h1
      have : ∃ c', v.child d = some c' := by
        cases u <;> cases v <;> simp [BTree.arity] at har <;> cases d <;> simp [BTree.child] at hc ⊢
      obtain ⟨c', hc'⟩ := this
      have hbc : bits.testBit c.idx = true := inFragment_nil.1 fun q hq => hp q (hq.trans List.nil_prefix)
      simp only [BTree.sub, hc, Option.bind_some] at hw
      obtain ⟨w', h3, h4⟩ := h2 d c c' hc hc' hbc p w hp hw
      exact ⟨w', by simp [BTree.sub, hc', h3], h4⟩

theorem containsbitset_spec {a b : List Node} {bits : Nat} (u : BTree) : ∀ (v : BTree) (f : Nat), Spec.Repr a u → Spec.Repr b v → Spec.SameArity u v →
    u.subs.length ≤ f → bits.testBit u.idx = true → (containsbitset a b bits f u.idx v.idx = true ↔ Spec.Occurs u bits v) := by
  induction u with
  | term i p =>
    intro v f hu hv hs hf hb
    obtain ⟨f, rfl⟩ : ∃ f', f = f' + 1 := ⟨f - 1, by simp [BTree.subs] at hf; omega⟩
    rw [occurs_iff hb (hs _ (self_mem_subs _) _ (self_mem_subs _)), containsbitset, ← repr_prod hv]
    cases hu with
    | term h hl =>
      simp only [idx_term, BTree.prod, hl, if_true]
      by_cases hp : (nd a i).prod = BTree.prod v
      · simp only [BTree.prod] at hp
        simp [hp, BTree.child]
      · simp only [BTree.prod] at hp
        simp [hp]
  | un i p l ih =>
    intro v f hu hv hs hf hb
    obtain ⟨f, rfl⟩ : ∃ f', f = f' + 1 := ⟨f - 1, by simp [BTree.subs] at hf; omega⟩
    have har := hs _ (self_mem_subs _) _ (self_mem_subs _)
    rw [occurs_iff hb har, containsbitset, ← repr_prod hv]
    cases hu with
    | un h hl hr h1 =>
      have hne : ¬ ((l.idx : Int) < 0) := by omega
      simp only [idx_un, hl, hr, if_neg hne, if_true, Int.toNat_natCast]
      by_cases hp : (nd a i).prod = v.prod
      · have har := har hp
        rw [if_neg (by simpa using hp)]
        cases v with
        | term => simp [BTree.arity] at har
        | bin => simp [BTree.arity] at har
        | un i' p' l' =>
          cases hv with
          | un h' hl' hr' h1' =>
            simp only [idx_un, hl', Int.toNat_natCast]
            have e : (∀ d c c', (BTree.un i (nd a i).prod l).child d = some c → (BTree.un i' (nd b i').prod l').child d = some c' → bits.testBit c.idx = true → Spec.Occurs c bits c') ↔
                (bits.testBit l.idx = true → Spec.Occurs l bits l') := by
              constructor
              · exact fun h => h false l l' rfl rfl
              · intro h d c c' hc hc'
                cases d <;> simp [BTree.child] at hc hc'
                subst hc; subst hc'; exact h
            rw [e]
            by_cases hbl : bits.testBit l.idx = true
            · have := ih l' f h1 h1' (fun x hx y hy => hs x (by simp [BTree.subs, hx]) y (by simp [BTree.subs, hy])) (by simp [BTree.subs] at hf; omega) hbl
              simp only [hbl, Bool.true_and, forall_const, ← this]
              simp only [BTree.prod] at hp
              simp [BTree.prod, hp]
            · simp only [BTree.prod] at hp
              simp [hbl, BTree.prod, hp]
      · rw [if_pos hp]
        simp only [Bool.false_eq_true, false_iff, not_and]
        exact fun h => absurd h hp
  | bin i p l r ihl ihr =>
    intro v f hu hv hs hf hb
    obtain ⟨f, rfl⟩ : ∃ f', f = f' + 1 := ⟨f - 1, by simp [BTree.subs] at hf; omega⟩
    have har := hs _ (self_mem_subs _) _ (self_mem_subs _)
    rw [occurs_iff hb har, containsbitset, ← repr_prod hv]
    cases hu with
    | bin h hl hr h1 h2 =>
      have hne : ¬ ((l.idx : Int) < 0) := by omega
      have hne' : ¬ ((r.idx : Int) < 0) := by omega
      simp only [idx_bin, hl, hr, if_neg hne, if_neg hne', Int.toNat_natCast]
      by_cases hp : (nd a i).prod = v.prod
      · have har := har hp
        rw [if_neg (by simpa using hp)]
        cases v with
        | term => simp [BTree.arity] at har
        | un => simp [BTree.arity] at har
        | bin i' p' l' r' =>
          cases hv with
          | bin h' hl' hr' h1' h2' =>
            simp only [idx_bin, hl', hr', Int.toNat_natCast]
            have e : (∀ d c c', (BTree.bin i (nd a i).prod l r).child d = some c → (BTree.bin i' (nd b i').prod l' r').child d = some c' → bits.testBit c.idx = true → Spec.Occurs c bits c') ↔
                (bits.testBit l.idx = true → Spec.Occurs l bits l') ∧ (bits.testBit r.idx = true → Spec.Occurs r bits r') := by
              constructor
              · exact fun h => ⟨h false l l' rfl rfl, h true r r' rfl rfl⟩
              · intro h d c c' hc hc'
                cases d <;> simp only [BTree.child, Option.some.injEq] at hc hc' <;> subst hc <;> subst hc'
                · exact h.1
                · exact h.2
            rw [e]
            simp only [BTree.prod] at hp
            have e1 : bits.testBit l.idx = true → (containsbitset a b bits f l.idx l'.idx = true ↔ Spec.Occurs l bits l') := fun hbl =>
              ihl l' f h1 h1' (fun x hx y hy => hs x (by simp [BTree.subs, hx]) y (by simp [BTree.subs, hy])) (by simp [BTree.subs] at hf; omega) hbl
            have e2 : bits.testBit r.idx = true → (containsbitset a b bits f r.idx r'.idx = true ↔ Spec.Occurs r bits r') := fun hbr =>
              ihr r' f h2 h2' (fun x hx y hy => hs x (by simp [BTree.subs, hx]) y (by simp [BTree.subs, hy])) (by simp [BTree.subs] at hf; omega) hbr
            by_cases hbl : bits.testBit l.idx = true <;> by_cases hbr : bits.testBit r.idx = true
            · simp only [hbl, hbr, Bool.true_and, forall_const, ← e1 hbl, ← e2 hbr, BTree.prod, hp, true_and]
              cases containsbitset a b bits f l.idx l'.idx <;> simp
            · simp only [hbl, hbr, Bool.true_and, forall_const, ← e1 hbl, BTree.prod, hp, true_and]
              cases containsbitset a b bits f l.idx l'.idx <;> simp
            · simp only [hbl, hbr, Bool.false_and, forall_const, ← e2 hbr, BTree.prod, hp, true_and]
              simp
            · simp [hbl, hbr, BTree.prod, hp]
      · rw [if_pos hp]
        simp only [Bool.false_eq_true, false_iff, not_and]
        exact fun h => absurd h hp

/-! ### Occurrences in a tree -/

theorem matchLoop_spec {a b : List Node} (hb : Spec.Sorted b) (bits i : Nat) : ∀ (k j : Nat), j + k = b.length →
    matchLoop a b bits i ((List.range b.length).drop j) = ((List.range b.length).drop j).filter fun j => decide ((nd a i).prod = (nd b j).prod) && containsbitset a b bits a.length i j := by
  intro k
  induction k with
  | zero =>
    intro j hj
    rw [List.drop_eq_nil_of_le (by simp; omega)]
    rfl
  | succ k ih =>
    intro j hj
    rw [List.drop_eq_getElem_cons (by simp; omega)]
    simp only [List.getElem_range]
    rw [matchLoop, ih (j + 1) (by omega), List.filter_cons]
    by_cases h : (nd a i).prod = (nd b j).prod
    · simp [h]
    · by_cases hlt : (nd a i).prod < (nd b j).prod
      · rw [if_neg h, if_pos hlt]
        have : ∀ x ∈ (List.range b.length).drop (j + 1), (nd a i).prod ≠ (nd b x).prod := by
          intro x hx
          obtain ⟨n, hn, rfl⟩ := List.mem_iff_getElem.1 hx
          simp only [List.getElem_drop, List.getElem_range]
          simp only [List.length_drop, List.length_range] at hn
          have := hb j (j + 1 + n) (by omega) (by omega)
          omega
        simp only [h, decide_false, Bool.false_and, Bool.false_eq_true, if_false]
        symm
        rw [List.filter_eq_nil_iff]
        intro x hx
        simp [this x hx]
      · rw [if_neg h, if_neg hlt]
        simp [h]

theorem isFragment_occurs_prod {u v : BTree} {bits : Nat} (hf : Spec.IsFragment u bits) (ho : Spec.Occurs u bits v) {k : Nat} (hk : bits.testBit k = true) :
    ∃ w ∈ u.subs, w.idx = k ∧ ∃ w' ∈ v.subs, w.prod = w'.prod := by
  obtain ⟨p, w, h1, h2, h3⟩ := hf.2 k hk
  obtain ⟨w', h4, h5⟩ := ho p w h1 h2
  exact ⟨w, (mem_subs_iff_sub u w).2 ⟨p, h2⟩, h3, w', (mem_subs_iff_sub v w').2 ⟨p, h4⟩, h5⟩

theorem matchLoop_tree {a b : List Node} {s t : BTree} {u : BTree} {bits : Nat} (ha : Spec.Repr a s) (hna : (s.subs.map BTree.idx).Nodup) (hb : Spec.Tree b t)
    (hs : Spec.SameArity s t) (hu : u ∈ s.subs) (hf : Spec.IsFragment u bits) :
    (matchLoop a b bits u.idx (List.range b.length)).Pairwise (· < ·) ∧
    ∀ j, j ∈ matchLoop a b bits u.idx (List.range b.length) ↔ ∃ v ∈ t.subs, v.idx = j ∧ Spec.Occurs u bits v := by
  have h0 := matchLoop_spec (a := a) hb.sorted bits u.idx b.length 0 (by omega)
  rw [List.drop_zero] at h0
  rw [h0]
  refine ⟨List.Pairwise.filter _ (List.pairwise_lt_range), fun j => ?_⟩
  rw [List.mem_filter, Bool.and_eq_true, decide_eq_true_iff]
  have hlen : u.subs.length ≤ a.length := by
    have hsub : (u.subs.map BTree.idx) ⊆ List.range a.length := by
      intro i hi
      obtain ⟨w, hw, rfl⟩ := List.mem_map.1 hi
      rw [List.mem_range]
      exact repr_lt (repr_sub ha (subs_trans hw hu))
    have := (List.subperm_of_subset (nodup_sub hna hu) hsub).length_le
    simpa using this
  have key : ∀ v ∈ t.subs, (containsbitset a b bits a.length u.idx v.idx = true ↔ Spec.Occurs u bits v) := fun v hv =>
    containsbitset_spec u v a.length (repr_sub ha hu) (repr_sub hb.repr hv) (fun x hx y hy => hs x (subs_trans hx hu) y (subs_trans hy hv)) hlen hf.1
  constructor
  · rintro ⟨h1, h2, h3⟩
    have := hb.all.mem_iff.2 h1
    obtain ⟨v, hv, rfl⟩ := List.mem_map.1 this
    exact ⟨v, hv, rfl, (key v hv).1 h3⟩
  · rintro ⟨v, hv, rfl, h⟩
    refine ⟨hb.all.mem_iff.1 (idx_mem_of_sub hv), ?_, (key v hv).2 h⟩
    rw [← repr_prod (repr_sub ha hu), ← repr_prod (repr_sub hb.repr hv)]
    obtain ⟨w, h1, h2⟩ := h [] u (inFragment_nil.2 hf.1) rfl
    simp only [BTree.sub, Option.some.injEq] at h1
    rw [h1]; exact h2

/-! ### Candidates -/

theorem mapM_some {α β : Type} {f : α → Option β} : ∀ {l : List α} {r : List β}, l.mapM f = some r → List.Forall₂ (fun x y => f x = some y) l r
  | [], r, h => by simp at h; subst h; exact .nil
  | x :: l, r, h => by
    rw [List.mapM_cons] at h
    cases hx : f x with
    | none => simp [hx] at h
    | some y =>
      cases hl : l.mapM f with
      | none => simp [hx, hl] at h
      | some ys =>
        simp [hx, hl] at h
        subst h
        exact .cons hx (mapM_some hl)

theorem mapM_none {α β : Type} {f : α → Option β} : ∀ {l : List α}, l.mapM f = none → ∃ x ∈ l, f x = none
  | [], h => by simp at h
  | x :: l, h => by
    rw [List.mapM_cons] at h
    cases hx : f x with
    | none => exact ⟨x, List.mem_cons_self, hx⟩
    | some y =>
      cases hl : l.mapM f with
      | none => obtain ⟨z, hz, h'⟩ := mapM_none hl; exact ⟨z, List.mem_cons_of_mem _ hz, h'⟩
      | some ys => simp [hx, hl] at h

theorem index_of_prod {ts : List BTree} {idx : List (Option (List Nat))} (hi : Spec.Index ts idx) {p : Int} (hp : 0 ≤ p) {s : List Nat} (h : (idx[p.toNat]?).join = some s) :
    s.Pairwise (· < ·) ∧ ∀ m, m ∈ s ↔ ∃ t, ts[m]? = some t ∧ ∃ v ∈ t.subs, v.prod = p := by
  have h' : idx[p.toNat]? = some (some s) := by
    cases h1 : idx[p.toNat]? with
    | none => simp [h1] at h
    | some o => cases o <;> simp_all
  have := hi.found p.toNat s h'
  rw [Int.toNat_of_nonneg hp] at this
  exact this

/-- Candidates: either there are no occurrences, or exactly the trees that contain all productions of the fragment, in order. -/
theorem getcandidates_spec {a : List Node} {ts : List BTree} {idx : List (Option (List Nat))} (hi : Spec.Index ts idx) (bits : Nat) (hp : ∀ i < a.length, 0 ≤ (nd a i).prod)
    (hne : ∃ k < a.length, bits.testBit k = true) :
    match getcandidates a bits idx with
    | none => ∀ t ∈ ts, ∃ k < a.length, bits.testBit k = true ∧ ∀ v ∈ t.subs, v.prod ≠ (nd a k).prod
    | some cs => cs.Pairwise (· < ·) ∧ ∀ m, m ∈ cs ↔ ∃ t, ts[m]? = some t ∧ ∀ k < a.length, bits.testBit k = true → ∃ v ∈ t.subs, v.prod = (nd a k).prod := by
  have hind : ∀ p, p ∈ ((List.range a.length).filter bits.testBit).map (fun i => (nd a i).prod) ↔ ∃ k < a.length, bits.testBit k = true ∧ (nd a k).prod = p := by
    intro p
    simp only [List.mem_map, List.mem_filter, List.mem_range, and_assoc]
  unfold getcandidates
  simp only
  revert hind
  generalize ((List.range a.length).filter bits.testBit).map (fun i => (nd a i).prod) = inds
  intro hind
  by_cases hany : (inds.any fun p => decide ((idx.length : Int) ≤ p)) = true
  · rw [if_pos hany]
    simp only
    obtain ⟨p, hp1, hp2⟩ := List.any_eq_true.1 hany
    rw [decide_eq_true_iff] at hp2
    obtain ⟨k, hk1, hk2, rfl⟩ := (hind p).1 hp1
    intro t ht
    refine ⟨k, hk1, hk2, fun v hv => ?_⟩
    have := hi.absent (nd a k).prod.toNat (Or.inl (List.getElem?_eq_none (by omega))) t ht v hv
    rw [Int.toNat_of_nonneg (hp k hk1)] at this
    exact this
  · rw [if_neg hany]
    cases hm : inds.mapM (fun p => (idx[p.toNat]?).join) with
    | none =>
      simp only
      obtain ⟨p, hp1, hp2⟩ := mapM_none hm
      obtain ⟨k, hk1, hk2, rfl⟩ := (hind p).1 hp1
      intro t ht
      refine ⟨k, hk1, hk2, fun v hv => ?_⟩
      have h' : idx[(nd a k).prod.toNat]? = none ∨ idx[(nd a k).prod.toNat]? = some none := by
        cases h1 : idx[(nd a k).prod.toNat]? with
        | none => exact Or.inl rfl
        | some o => cases o <;> simp_all
      have := hi.absent (nd a k).prod.toNat h' t ht v hv
      rw [Int.toNat_of_nonneg (hp k hk1)] at this
      exact this
    | some ss =>
      have hall := mapM_some hm
      have hinds : ∀ p ∈ inds, 0 ≤ p := by
        intro p hp'
        obtain ⟨k, hk1, -, rfl⟩ := (hind p).1 hp'
        exact hp k hk1
      cases hall with
      | nil =>
        obtain ⟨k, hk1, hk2⟩ := hne
        exact absurd ((hind _).2 ⟨k, hk1, hk2, rfl⟩) (by simp)
      | @cons p s ps ss h1 h2 =>
        simp only
        have e1 := index_of_prod hi (hinds p List.mem_cons_self) h1
        refine ⟨e1.1.filter _, fun m => ?_⟩
        rw [List.mem_filter, e1.2, List.all_eq_true]
        have e2 : (∀ s' ∈ ss, s'.contains m = true) ↔ ∀ p' ∈ ps, ∃ t, ts[m]? = some t ∧ ∃ v ∈ t.subs, v.prod = p' := by
          have hps : ∀ p' ∈ ps, 0 ≤ p' := fun p' hp' => hinds p' (List.mem_cons_of_mem _ hp')
          clear hind hinds hm hany e1 h1
          induction h2 with
          | nil => simp
          | cons h3 h4 ih =>
            rename_i p0 s0 ps0 ss0
            have e3 := index_of_prod hi (hps p0 List.mem_cons_self) h3
            rw [List.forall_mem_cons, List.forall_mem_cons, ← e3.2, List.contains_iff_mem]
            exact and_congr Iff.rfl (ih fun p' hp' => hps p' (List.mem_cons_of_mem _ hp'))
        rw [e2]
        constructor
        · rintro ⟨⟨t, ht, v, hv, hvp⟩, h⟩
          refine ⟨t, ht, fun k hk1 hk2 => ?_⟩
          rcases List.mem_cons.1 ((hind _).2 ⟨k, hk1, hk2, rfl⟩) with e | e
          · exact ⟨v, hv, by rw [hvp, e]⟩
          · obtain ⟨t', ht', h'⟩ := h _ e
            rw [ht, Option.some.injEq] at ht'
            subst ht'
            exact h'
        · rintro ⟨t, ht, h⟩
          have h' : ∀ p' ∈ p :: ps, ∃ t, ts[m]? = some t ∧ ∃ v ∈ t.subs, v.prod = p' := by
            intro p' hp'
            obtain ⟨k, hk1, hk2, rfl⟩ := (hind p').1 hp'
            exact ⟨t, ht, h k hk1 hk2⟩
          exact ⟨h' p List.mem_cons_self, fun p' hp' => h' p' (List.mem_cons_of_mem _ hp')⟩

/-! ### The property -/

/-- The arrays of a treebank represent these trees. -/
def Spec.Trees (as : List (List Node)) (ts : List BTree) : Prop := List.Forall₂ Spec.Tree as ts

theorem occurrences_aux {a : List Node} {s u : BTree} {bits : Nat} {as : List (List Node)} {ts : List BTree} (ha : Spec.Repr a s) (hna : (s.subs.map BTree.idx).Nodup)
    (hb : Spec.Trees as ts) (hs : ∀ t ∈ ts, Spec.SameArity s t) (hu : u ∈ s.subs) (hf : Spec.IsFragment u bits) {m : Nat} {t : BTree} (ht : ts[m]? = some t) :
    (matchLoop a (as[m]?.getD []) bits u.idx (List.range (as[m]?.getD []).length)).Pairwise (· < ·) ∧
    ∀ j, j ∈ matchLoop a (as[m]?.getD []) bits u.idx (List.range (as[m]?.getD []).length) ↔ ∃ v ∈ t.subs, v.idx = j ∧ Spec.Occurs u bits v := by
  obtain ⟨h1, h2⟩ := List.getElem?_eq_some_iff.1 ht
  have hl := List.Forall₂.length_eq hb
  have hlt : m < as.length := by omega
  rw [List.getElem?_eq_getElem hlt, Option.getD_some]
  have := (List.forall₂_iff_get.1 hb).2 m hlt h1
  simp only [List.get_eq_getElem] at this
  rw [h2] at this
  exact matchLoop_tree ha hna this (hs t (h2 ▸ List.getElem_mem h1)) hu hf

/-- **C50**: The occurrences found are all and only the nodes of trees at which the fragment occurs, each once, in order of trees and nodes. -/
theorem C50_occurrences {a : List Node} {s u : BTree} {as : List (List Node)} {ts : List BTree} {idx : List (Option (List Nat))} (fr : Fragment)
    (ha : Spec.Repr a s) (hna : (s.subs.map BTree.idx).Nodup) (hp : ∀ i < a.length, 0 ≤ (nd a i).prod) (hb : Spec.Trees as ts) (hi : Spec.Index ts idx)
    (hs : ∀ t ∈ ts, Spec.SameArity s t) (hu : u ∈ s.subs) (hroot : fr.root = u.idx) (hf : Spec.IsFragment u fr.bits) :
    (occurrences a fr as idx).Pairwise (fun x y => x.1 < y.1 ∨ x.1 = y.1 ∧ x.2 < y.2) ∧
    ∀ m j, (m, j) ∈ occurrences a fr as idx ↔ ∃ t, ts[m]? = some t ∧ ∃ v ∈ t.subs, v.idx = j ∧ Spec.Occurs u fr.bits v := by
  have hne : ∃ k < a.length, fr.bits.testBit k = true := ⟨u.idx, repr_lt (repr_sub ha hu), hf.1⟩
  have hc := getcandidates_spec (a := a) hi fr.bits hp hne
  have hprod : ∀ t ∈ ts, ∀ v ∈ t.subs, Spec.Occurs u fr.bits v → ∀ k, fr.bits.testBit k = true → ∃ v' ∈ t.subs, v'.prod = (nd a k).prod := by
    intro t ht v hv ho k hk
    obtain ⟨w, h1, rfl, w', h2, h3⟩ := isFragment_occurs_prod hf ho hk
    exact ⟨w', subs_trans h2 hv, by rw [← h3, repr_prod (repr_sub ha (subs_trans h1 hu))]⟩
  unfold occurrences
  revert hc
  cases getcandidates a fr.bits idx with
  | none =>
    intro hc
    refine ⟨List.Pairwise.nil, fun m j => ?_⟩
    simp only [List.not_mem_nil, false_iff, not_exists, not_and]
    intro t ht v hv _ ho
    obtain ⟨k, -, h2, h3⟩ := hc t (List.mem_of_getElem? ht)
    obtain ⟨v', h4, h5⟩ := hprod t (List.mem_of_getElem? ht) v hv ho k h2
    exact h3 v' h4 h5
  | some cs =>
    rintro ⟨hsort, hmem⟩
    simp only [hroot]
    have haux : ∀ m ∈ cs, ∃ t, ts[m]? = some t := fun m hm => by
      obtain ⟨t, ht, -⟩ := (hmem m).1 hm
      exact ⟨t, ht⟩
    constructor
    · rw [List.flatMap, List.pairwise_flatten]
      constructor
      · intro l hl
        obtain ⟨m, hm, rfl⟩ := List.mem_map.1 hl
        obtain ⟨t, ht⟩ := haux m hm
        rw [List.pairwise_map]
        exact (occurrences_aux ha hna hb hs hu hf ht).1.imp fun h => Or.inr ⟨rfl, h⟩
      · rw [List.pairwise_map]
        refine hsort.imp fun {m m'} hlt x hx y hy => ?_
        obtain ⟨j, -, rfl⟩ := List.mem_map.1 hx
        obtain ⟨j', -, rfl⟩ := List.mem_map.1 hy
        exact Or.inl hlt
    · intro m j
      simp only [List.mem_flatMap, List.mem_map, Prod.mk.injEq]
      constructor
      · rintro ⟨m', hm', j', hj', rfl, rfl⟩
        obtain ⟨t, ht⟩ := haux m' hm'
        exact ⟨t, ht, ((occurrences_aux ha hna hb hs hu hf ht).2 j').1 hj'⟩
      · rintro ⟨t, ht, v, hv, hj, ho⟩
        refine ⟨m, (hmem m).2 ⟨t, ht, fun k _ hk => hprod t (List.mem_of_getElem? ht) v hv ho k hk⟩, j, ((occurrences_aux ha hna hb hs hu hf ht).2 j).2 ⟨v, hv, hj, ho⟩, rfl, rfl⟩

/-- The bits of a maximal common fragment are a fragment of the first tree, and it occurs in both trees. -/
theorem largest_isFragment {s u v : BTree} {bits : Nat} (hna : (s.subs.map BTree.idx).Nodup) (hu : u ∈ s.subs) (hl : Spec.Largest u v bits) (hp : u.prod = v.prod) :
    Spec.IsFragment u bits ∧ Spec.Occurs u bits v := by
  have hin : ∀ p, Spec.Agree u v p → Spec.InFragment u bits p := by
    intro p h q hq
    obtain ⟨x, y, h1, -, -⟩ := h q hq
    exact ⟨x, h1, (hl _).2 ⟨q, x, fun q' hq' => h q' (hq'.trans hq), h1, rfl⟩⟩
  refine ⟨⟨(hl _).2 ⟨[], u, agree_nil.2 hp, rfl, rfl⟩, fun k hk => ?_⟩, ?_⟩
  · obtain ⟨p, w, h1, h2, h3⟩ := (hl k).1 hk
    exact ⟨p, w, hin p h1, h2, h3⟩
  · intro p w h1 h2
    obtain ⟨w', h3, h4⟩ := h1 p (List.prefix_refl _)
    rw [h2, Option.some.injEq] at h3
    subst h3
    obtain ⟨p', w', h5, h6, h7⟩ := (hl _).1 h4
    have : p' = p := path_unique u (nodup_sub hna hu) p' p w' w h6 h2 h7
    subst this
    obtain ⟨x, y, h8, h9, h10⟩ := h5 p' (List.prefix_refl _)
    rw [h2, Option.some.injEq] at h8
    subst h8
    exact ⟨y, h9, h10⟩

theorem occurs_self {u : BTree} {bits : Nat} : Spec.Occurs u bits u := fun p w _ h => ⟨w, h, rfl⟩

/-- **C50**: A recurring fragment, extracted from two different trees of the treebank, is counted at least twice. -/
theorem C50_recurring {as : List (List Node)} {ts : List BTree} {idx : List (Option (List Nat))} (hb : Spec.Trees as ts) (hi : Spec.Index ts idx)
    (hp : ∀ a ∈ as, ∀ i < a.length, 0 ≤ (nd a i).prod) (hs : ∀ s ∈ ts, ∀ t ∈ ts, Spec.SameArity s t) (n m : Nat) (hnm : n ≠ m) (a b : List Node) (t : BTree)
    (hn : as[n]? = some a) (hm : as[m]? = some b) (ht : ts[m]? = some t) (fr : Fragment) (hr : fr ∈ extractfrompair a b t.idx n 0 []) :
    2 ≤ (occurrences a fr as idx).length := by
  have hl := List.Forall₂.length_eq hb
  obtain ⟨hn1, hn2⟩ := List.getElem?_eq_some_iff.1 hn
  obtain ⟨hm1, hm2⟩ := List.getElem?_eq_some_iff.1 hm
  obtain ⟨ht1, ht2⟩ := List.getElem?_eq_some_iff.1 ht
  have hta := (List.forall₂_iff_get.1 hb).2 n hn1 (by omega)
  have htb := (List.forall₂_iff_get.1 hb).2 m hm1 ht1
  simp only [List.get_eq_getElem] at hta htb
  rw [hn2] at hta
  rw [hm2, ht2] at htb
  have hsm : ts[n]'(by omega) ∈ ts := List.getElem_mem _
  have htm : t ∈ ts := ht2 ▸ List.getElem_mem _
  rcases (C49_maximal_fragments hta htb (hs _ hsm t htm) n [] fr).1 hr with h | ⟨pa, pb, u, v, htop, h1, h2, h3⟩
  · simp at h
  · have hu := (mem_subs_iff_sub _ u).2 ⟨pa, htop.left⟩
    have hv := (mem_subs_iff_sub t v).2 ⟨pb, htop.right⟩
    have hnd := hta.all.nodup_iff.2 List.nodup_range
    obtain ⟨hf, ho⟩ := largest_isFragment hnd hu h3 htop.same
    have hocc := C50_occurrences fr hta.repr hnd (hp a (hn2 ▸ List.getElem_mem _)) hb hi (hs _ hsm) hu h1 hf
    have o1 : (n, u.idx) ∈ occurrences a fr as idx := (hocc.2 n u.idx).2 ⟨_, List.getElem?_eq_getElem (by omega), u, hu, rfl, occurs_self⟩
    have o2 : (m, v.idx) ∈ occurrences a fr as idx := (hocc.2 m v.idx).2 ⟨t, ht, v, hv, rfl, ho⟩
    have hsub : [(n, u.idx), (m, v.idx)] ⊆ occurrences a fr as idx := by
      intro x hx
      rcases List.mem_cons.1 hx with rfl | hx
      · exact o1
      · rw [List.mem_singleton] at hx
        rw [hx]; exact o2
    have := (List.subperm_of_subset (by simp [hnm]) hsub).length_le
    simpa using this

end Disco.Frag
