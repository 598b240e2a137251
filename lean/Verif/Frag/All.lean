import Verif.Frag.Counts
/-!
# C51: all fragments up to a depth
-/
namespace Disco.Frag

/-! ### Specification -/

/-- The positions of the frontier non-terminals (substitution sites) of a fragment: nodes that are not part of it, but are the child of a node that is. -/
def Spec.Frontier (u : BTree) (bits : Nat) (p : List Bool) : Prop :=
  ∃ q d w, p = q ++ [d] ∧ u.sub p = some w ∧ Spec.InFragment u bits q ∧ ¬ Spec.InFragment u bits p

/-- The positions in a fragment of nodes that are the only child of their parent. -/
def Spec.OnlyChild (u : BTree) (bits : Nat) (p : List Bool) : Prop :=
  ∃ q i pr l, p = q ++ [false] ∧ u.sub q = some (.un i pr l) ∧ Spec.InFragment u bits p

/-- There are exactly `k` positions with this property. -/
def Spec.Count (P : List Bool → Prop) (k : Nat) : Prop := ∃ F : List (List Bool), F.Nodup ∧ (∀ p, p ∈ F ↔ P p) ∧ F.length = k

/-! ### Fragments and their depth and frontiers, by recursion -/

/-- Fragments of a node with the depth and the number recorded by the code. -/
inductive FragOf : BTree → Nat → Nat → Nat → Prop
  | term {i p} : FragOf (.term i p) (1 <<< i) 1 0
  | un {i p l} : FragOf (.un i p l) (1 <<< i) 1 1
  | unL {i p l b d c} (h : FragOf l b d c) : FragOf (.un i p l) (1 <<< i ||| b) (d + 1) (c + 1)
  | bin {i p l r} : FragOf (.bin i p l r) (1 <<< i) 1 2
  | binL {i p l r b d c} (h : FragOf l b d c) : FragOf (.bin i p l r) (1 <<< i ||| b) (d + 1) (c + 1)
  | binR {i p l r b d c} (h : FragOf r b d c) : FragOf (.bin i p l r) (1 <<< i ||| b) (d + 1) (c + 1)
  | binLR {i p l r b d c b' d' c'} (h : FragOf l b d c) (h' : FragOf r b' d' c') :
      FragOf (.bin i p l r) (1 <<< i ||| b ||| b') (max d d' + 1) (c + c')

theorem fragOf_depth_pos {u : BTree} {b d c : Nat} (h : FragOf u b d c) : 1 ≤ d := by cases h <;> omega

theorem traverse_spec {a : List Node} (md mf : Nat) (hmd : 1 ≤ md) (u : BTree) : ∀ (f : Nat), Spec.Repr a u → u.subs.length ≤ f →
    (∀ e, e ∈ (traverse a md mf f u.idx).1 ↔ FragOf u e.bits e.depth e.frontiers ∧ e.depth ≤ md ∧ e.frontiers ≤ mf) ∧
    (∀ x, x ∈ (traverse a md mf f u.idx).2 → ∃ v ∈ u.subs, x.1 = v.idx ∧ ∀ e, e ∈ x.2 ↔ FragOf v e.bits e.depth e.frontiers ∧ e.depth ≤ md ∧ e.frontiers ≤ mf) ∧
    (∀ v ∈ u.subs, ∃ x ∈ (traverse a md mf f u.idx).2, x.1 = v.idx ∧ ∀ e, e ∈ x.2 ↔ FragOf v e.bits e.depth e.frontiers ∧ e.depth ≤ md ∧ e.frontiers ≤ mf) := by
  have wrap : ∀ (u : BTree) (L : List Entry) (T : List (Nat × List Entry)) (subs : List BTree), u.subs = u :: subs →
      (∀ e, e ∈ L ↔ FragOf u e.bits e.depth e.frontiers ∧ e.depth ≤ md ∧ e.frontiers ≤ mf) →
      (∀ x, x ∈ T → ∃ v ∈ subs, x.1 = v.idx ∧ ∀ e, e ∈ x.2 ↔ FragOf v e.bits e.depth e.frontiers ∧ e.depth ≤ md ∧ e.frontiers ≤ mf) →
      (∀ v ∈ subs, ∃ x ∈ T, x.1 = v.idx ∧ ∀ e, e ∈ x.2 ↔ FragOf v e.bits e.depth e.frontiers ∧ e.depth ≤ md ∧ e.frontiers ≤ mf) →
      (∀ e, e ∈ L ↔ FragOf u e.bits e.depth e.frontiers ∧ e.depth ≤ md ∧ e.frontiers ≤ mf) ∧
      (∀ x, x ∈ (u.idx, L) :: T → ∃ v ∈ u.subs, x.1 = v.idx ∧ ∀ e, e ∈ x.2 ↔ FragOf v e.bits e.depth e.frontiers ∧ e.depth ≤ md ∧ e.frontiers ≤ mf) ∧
      (∀ v ∈ u.subs, ∃ x ∈ (u.idx, L) :: T, x.1 = v.idx ∧ ∀ e, e ∈ x.2 ↔ FragOf v e.bits e.depth e.frontiers ∧ e.depth ≤ md ∧ e.frontiers ≤ mf) := by
    intro u L T subs hs h1 h2 h3
    refine ⟨h1, fun x hx => ?_, fun v hv => ?_⟩
    · rcases List.mem_cons.1 hx with rfl | hx
      · exact ⟨u, self_mem_subs u, rfl, h1⟩
      · obtain ⟨v, hv, h⟩ := h2 x hx
        exact ⟨v, by rw [hs]; exact List.mem_cons_of_mem _ hv, h⟩
    · rw [hs] at hv
      rcases List.mem_cons.1 hv with rfl | hv
      · exact ⟨_, List.mem_cons_self, rfl, h1⟩
      · obtain ⟨x, hx, h⟩ := h3 v hv
        exact ⟨x, List.mem_cons_of_mem _ hx, h⟩
  induction u with
  | term i p =>
    intro f hr hf
    cases f with
    | zero => simp [BTree.subs] at hf
    | succ f =>
      cases hr with
      | term h hl =>
        rw [traverse]
        have hn : ¬ 0 ≤ (nd a i).left := by omega
        simp only [idx_term, hn, if_false, false_and, List.append_nil]
        refine wrap (.term i (nd a i).prod) _ _ [] rfl (fun e => ?_) (by simp) (by simp)
        obtain ⟨b, d, c⟩ := e
        simp only [combine, hl, hn, if_true, if_false, Nat.zero_le, List.append_nil, List.mem_singleton, Entry.mk.injEq]
        constructor
        · rintro ⟨rfl, rfl, rfl⟩; exact ⟨.term, hmd, Nat.zero_le _⟩
        · rintro ⟨h, -, -⟩; cases h; exact ⟨rfl, rfl, rfl⟩
  | un i p l ih =>
    intro f hr hf
    cases f with
    | zero => simp [BTree.subs] at hf
    | succ f =>
      cases hr with
      | un h hl hr h1 =>
        simp only [BTree.subs, List.length_cons] at hf
        obtain ⟨i1, i2, i3⟩ := ih f h1 (by omega)
        rw [traverse]
        have hn : 0 ≤ (nd a i).left := by omega
        have hn' : ¬ (nd a i).left < 0 := by omega
        have hn2 : ¬ 0 ≤ (nd a i).right := by omega
        have ht : (nd a i).left.toNat = l.idx := by omega
        simp only [idx_un, hn, hn2, if_true, and_false, if_false, List.append_nil, ht]
        refine wrap (.un i (nd a i).prod l) _ _ l.subs rfl (fun e => ?_) i2 i3
        obtain ⟨b, d, c⟩ := e
        simp only [combine, hn, hn', hn2, hr, if_true, if_false, List.append_nil, List.mem_append, List.mem_map, List.mem_filter, decide_eq_true_eq, Entry.mk.injEq]
        constructor
        · rintro (h | ⟨e, ⟨h2, h3⟩, rfl, rfl, rfl⟩)
          · split_ifs at h with h'
            · simp only [List.mem_singleton, Entry.mk.injEq] at h
              obtain ⟨rfl, rfl, rfl⟩ := h
              exact ⟨.un, hmd, h'⟩
            · simp at h
          · exact ⟨.unL ((i1 e).1 h2).1, h3.1, h3.2⟩
        · rintro ⟨h, h2, h3⟩
          cases h with
          | un => left; simp [h3]
          | unL h =>
            rename_i b d c
            exact Or.inr ⟨⟨b, d, c⟩, ⟨(i1 _).2 ⟨h, by simp only; omega, by simp only; omega⟩, h2, h3⟩, rfl, rfl, rfl⟩
  | bin i p l r ihl ihr =>
    intro f hr hf
    cases f with
    | zero => simp [BTree.subs] at hf
    | succ f =>
      cases hr with
      | bin h hl hr h1 h1' =>
        simp only [BTree.subs, List.length_cons, List.length_append] at hf
        obtain ⟨i1, i2, i3⟩ := ihl f h1 (by omega)
        obtain ⟨j1, j2, j3⟩ := ihr f h1' (by omega)
        rw [traverse]
        have hn : 0 ≤ (nd a i).left := by omega
        have hn' : ¬ (nd a i).left < 0 := by omega
        have hn2 : 0 ≤ (nd a i).right := by omega
        have hn2' : ¬ (nd a i).right < 0 := by omega
        have ht : (nd a i).left.toNat = l.idx := by omega
        have ht2 : (nd a i).right.toNat = r.idx := by omega
        simp only [idx_bin, hn, hn2, if_true, and_self, ht, ht2]
        refine wrap (.bin i (nd a i).prod l r) _ _ (l.subs ++ r.subs) rfl (fun e => ?_) ?_ ?_
        · obtain ⟨b, d, c⟩ := e
          simp only [combine, hn, hn', hn2, hn2', if_true, if_false, List.mem_append, List.mem_map, List.mem_filter, List.mem_flatMap, decide_eq_true_eq, Entry.mk.injEq]
          constructor
          · rintro (h | ⟨e, ⟨h2, h3⟩, rfl, rfl, rfl⟩ | ⟨e, ⟨h2, h3⟩, rfl, rfl, rfl⟩ | ⟨e, h2, e', ⟨h2', h3⟩, rfl, rfl, rfl⟩)
            · split_ifs at h with h'
              · simp only [List.mem_singleton, Entry.mk.injEq] at h
                obtain ⟨rfl, rfl, rfl⟩ := h
                exact ⟨.bin, hmd, h'⟩
              · simp at h
            · exact ⟨.binL ((i1 e).1 h2).1, h3.1, h3.2⟩
            · exact ⟨.binR ((j1 e).1 h2).1, h3.1, h3.2⟩
            · exact ⟨.binLR ((i1 e).1 h2).1 ((j1 e').1 h2').1, h3.1, h3.2⟩
          · rintro ⟨h, h2, h3⟩
            cases h with
            | bin => left; simp [h3]
            | binL h =>
              rename_i b d c
              exact Or.inr (Or.inl ⟨⟨b, d, c⟩, ⟨(i1 _).2 ⟨h, by simp only; omega, by simp only; omega⟩, h2, h3⟩, rfl, rfl, rfl⟩)
            | binR h =>
              rename_i b d c
              exact Or.inr (Or.inr (Or.inl ⟨⟨b, d, c⟩, ⟨(j1 _).2 ⟨h, by simp only; omega, by simp only; omega⟩, h2, h3⟩, rfl, rfl, rfl⟩))
            | binLR h h' =>
              rename_i b d c b' d' c'
              exact Or.inr (Or.inr (Or.inr ⟨⟨b, d, c⟩, (i1 _).2 ⟨h, by simp only; omega, by simp only; omega⟩,
                ⟨b', d', c'⟩, ⟨(j1 _).2 ⟨h', by simp only; omega, by simp only; omega⟩, h2, h3⟩, rfl, rfl, rfl⟩))
        · intro x hx
          rcases List.mem_append.1 hx with hx | hx
          · obtain ⟨v, hv, h⟩ := i2 x hx; exact ⟨v, List.mem_append_left _ hv, h⟩
          · obtain ⟨v, hv, h⟩ := j2 x hx; exact ⟨v, List.mem_append_right _ hv, h⟩
        · intro v hv
          rcases List.mem_append.1 hv with hv | hv
          · obtain ⟨x, hx, h⟩ := i3 v hv; exact ⟨x, List.mem_append_left _ hx, h⟩
          · obtain ⟨x, hx, h⟩ := j3 v hv; exact ⟨x, List.mem_append_right _ hx, h⟩

/-! ### Fragments are the connected sets of nodes -/

theorem fragOf_bits {u : BTree} {b d c : Nat} (h : FragOf u b d c) : ∀ k, b.testBit k = true → k ∈ u.subs.map BTree.idx := by
  induction h with
  | term => intro k hk; rw [testBit_one_shift] at hk; simp_all [BTree.subs]
  | un => intro k hk; rw [testBit_one_shift] at hk; simp_all [BTree.subs]
  | bin => intro k hk; rw [testBit_one_shift] at hk; simp_all [BTree.subs]
  | unL h ih =>
    intro k hk
    rw [Nat.testBit_or, testBit_one_shift, Bool.or_eq_true, decide_eq_true_eq] at hk
    rw [BTree.subs, List.map_cons]
    rcases hk with hk | hk
    · rw [hk]; exact List.mem_cons_self
    · exact List.mem_cons_of_mem _ (ih k hk)
  | binL h ih =>
    intro k hk
    rw [Nat.testBit_or, testBit_one_shift, Bool.or_eq_true, decide_eq_true_eq] at hk
    rw [BTree.subs, List.map_cons, List.map_append]
    rcases hk with hk | hk
    · rw [hk]; exact List.mem_cons_self
    · exact List.mem_cons_of_mem _ (List.mem_append_left _ (ih k hk))
  | binR h ih =>
    intro k hk
    rw [Nat.testBit_or, testBit_one_shift, Bool.or_eq_true, decide_eq_true_eq] at hk
    rw [BTree.subs, List.map_cons, List.map_append]
    rcases hk with hk | hk
    · rw [hk]; exact List.mem_cons_self
    · exact List.mem_cons_of_mem _ (List.mem_append_right _ (ih k hk))
  | binLR h h' ih ih' =>
    intro k hk
    rw [Nat.testBit_or, Nat.testBit_or, testBit_one_shift, Bool.or_eq_true, Bool.or_eq_true, decide_eq_true_eq] at hk
    rw [BTree.subs, List.map_cons, List.map_append]
    rcases hk with (hk | hk) | hk
    · rw [hk]; exact List.mem_cons_self
    · exact List.mem_cons_of_mem _ (List.mem_append_left _ (ih k hk))
    · exact List.mem_cons_of_mem _ (List.mem_append_right _ (ih' k hk))

/-- Being in a fragment depends only on the bits of the nodes in the tree. -/
theorem inFragment_congr {u : BTree} {b b' : Nat} (h : ∀ w ∈ u.subs, b.testBit w.idx = b'.testBit w.idx) (p : List Bool) : Spec.InFragment u b p ↔ Spec.InFragment u b' p := by
  unfold Spec.InFragment
  refine forall_congr' fun q => imp_congr_right fun _ => exists_congr fun w => and_congr_right fun hw => ?_
  rw [h w ((mem_subs_iff_sub u w).2 ⟨q, hw⟩)]

/-- What the fragment looks like in a child. -/
structure Part (u : BTree) (b : Nat) (d : Bool) (c : BTree) (b' : Nat) : Prop where
  child : u.child d = some c
  bits : ∀ w ∈ c.subs, b.testBit w.idx = b'.testBit w.idx

theorem part_in {u c : BTree} {b b' : Nat} {d : Bool} (h : Part u b d c b') (hu : b.testBit u.idx = true) (p : List Bool) :
    Spec.InFragment u b (d :: p) ↔ Spec.InFragment c b' p := by
  rw [inFragment_cons, ← inFragment_congr h.bits]
  constructor
  · rintro ⟨-, c', hc, h'⟩
    rw [h.child, Option.some.injEq] at hc
    subst hc; exact h'
  · intro h'; exact ⟨hu, c, h.child, h'⟩

theorem not_in_of_not_root {u : BTree} {b : Nat} (h : b.testBit u.idx = false) (p : List Bool) : ¬ Spec.InFragment u b p := by
  intro h'
  obtain ⟨w, h1, h2⟩ := h' [] List.nil_prefix
  simp only [BTree.sub, Option.some.injEq] at h1
  rw [← h1, h] at h2
  simp at h2

theorem zero_not {u : BTree} (p : List Bool) : ¬ Spec.InFragment u 0 p := not_in_of_not_root (by simp) p

/-- The bits of a fragment within a subtree. -/
def restrict (b : Nat) (u : BTree) : Nat := mask 0 ((u.subs.map BTree.idx).filter b.testBit)

theorem restrict_testBit (b : Nat) (u : BTree) (k : Nat) : (restrict b u).testBit k = true ↔ k ∈ u.subs.map BTree.idx ∧ b.testBit k = true := by
  rw [restrict, mask_testBit]; simp [List.mem_filter]

theorem restrict_bits (b : Nat) (u : BTree) : ∀ w ∈ u.subs, b.testBit w.idx = (restrict b u).testBit w.idx := by
  intro w hw
  rw [Bool.eq_iff_iff, restrict_testBit]
  exact ⟨fun h => ⟨idx_mem_of_sub hw, h⟩, fun h => h.2⟩

theorem isFragment_restrict {u c : BTree} {b : Nat} {d : Bool} (hn : (u.subs.map BTree.idx).Nodup) (hf : Spec.IsFragment u b) (hc : u.child d = some c)
    (hb : b.testBit c.idx = true) : Spec.IsFragment c (restrict b c) := by
  refine ⟨by rw [← restrict_bits b c c (self_mem_subs c)]; exact hb, fun k hk => ?_⟩
  rw [restrict_testBit] at hk
  obtain ⟨h1, h2⟩ := hk
  obtain ⟨w, hw, rfl⟩ := List.mem_map.1 h1
  obtain ⟨q, hq⟩ := (mem_subs_iff_sub c w).1 hw
  obtain ⟨p, w', h3, h4, h5⟩ := hf.2 _ h2
  have : p = d :: q := path_unique u hn p (d :: q) w' w h4 (by simp [BTree.sub, hc, hq]) h5
  subst this
  exact ⟨q, w, (part_in ⟨hc, restrict_bits b c⟩ hf.1 q).1 h3, hq, rfl⟩

theorem restrict_zero {u c : BTree} {b : Nat} {d : Bool} (hn : (u.subs.map BTree.idx).Nodup) (hf : Spec.IsFragment u b) (hc : u.child d = some c)
    (hb : b.testBit c.idx = false) : restrict b c = 0 := by
  apply Nat.eq_of_testBit_eq
  intro k
  rw [Nat.zero_testBit, ← Bool.not_eq_true, restrict_testBit]
  rintro ⟨h1, h2⟩
  obtain ⟨w, hw, rfl⟩ := List.mem_map.1 h1
  obtain ⟨q, hq⟩ := (mem_subs_iff_sub c w).1 hw
  obtain ⟨p, w', h3, h4, h5⟩ := hf.2 _ h2
  have : p = d :: q := path_unique u hn p (d :: q) w' w h4 (by simp [BTree.sub, hc, hq]) h5
  subst this
  have := (part_in ⟨hc, fun _ _ => rfl⟩ hf.1 q).1 h3
  exact not_in_of_not_root hb q this

theorem mem_idx_of_isFragment {u : BTree} {b : Nat} (hf : Spec.IsFragment u b) {k : Nat} (hk : b.testBit k = true) : k ∈ u.subs.map BTree.idx := by
  obtain ⟨p, w, -, h2, rfl⟩ := hf.2 k hk
  exact idx_mem_of_sub ((mem_subs_iff_sub u w).2 ⟨p, h2⟩)

/-- Each connected set is a fragment in the recursive sense. -/
theorem fragOf_of_isFragment (u : BTree) : ∀ (b : Nat), (u.subs.map BTree.idx).Nodup → Spec.IsFragment u b → ∃ d c, FragOf u b d c := by
  induction u with
  | term i p =>
    intro b hn hf
    have : b = 1 <<< i := by
      apply Nat.eq_of_testBit_eq
      intro k
      rw [testBit_one_shift, Bool.eq_iff_iff, decide_eq_true_eq]
      constructor
      · intro h; simpa [BTree.subs] using mem_idx_of_isFragment hf h
      · rintro rfl; exact hf.1
    subst this
    exact ⟨_, _, .term⟩
  | un i p l ih =>
    intro b hn hf
    have e : b = 1 <<< i ||| restrict b l := by
      apply Nat.eq_of_testBit_eq
      intro k
      rw [Nat.testBit_or, testBit_one_shift, Bool.eq_iff_iff, Bool.or_eq_true, decide_eq_true_eq, restrict_testBit]
      constructor
      · intro h
        have := mem_idx_of_isFragment hf h
        simp only [BTree.subs, List.map_cons, List.mem_cons, idx_un] at this
        rcases this with h' | h'
        · exact Or.inl h'
        · exact Or.inr ⟨h', h⟩
      · rintro (rfl | h)
        · exact hf.1
        · exact h.2
    have hnl : (l.subs.map BTree.idx).Nodup := nodup_sub hn (child_mem (d := false) rfl)
    cases hb : b.testBit l.idx with
    | false =>
      rw [restrict_zero hn hf (d := false) rfl hb, Nat.or_zero] at e
      subst e; exact ⟨_, _, .un⟩
    | true =>
      obtain ⟨d, c, h⟩ := ih _ hnl (isFragment_restrict hn hf (d := false) rfl hb)
      rw [e]; exact ⟨_, _, .unL h⟩
  | bin i p l r ihl ihr =>
    intro b hn hf
    have e : b = 1 <<< i ||| restrict b l ||| restrict b r := by
      apply Nat.eq_of_testBit_eq
      intro k
      rw [Nat.testBit_or, Nat.testBit_or, testBit_one_shift, Bool.eq_iff_iff, Bool.or_eq_true, Bool.or_eq_true, decide_eq_true_eq, restrict_testBit, restrict_testBit]
      constructor
      · intro h
        have := mem_idx_of_isFragment hf h
        simp only [BTree.subs, List.map_cons, List.mem_cons, List.map_append, List.mem_append, idx_bin] at this
        rcases this with h' | h' | h'
        · exact Or.inl (Or.inl h')
        · exact Or.inl (Or.inr ⟨h', h⟩)
        · exact Or.inr ⟨h', h⟩
      · rintro ((rfl | h) | h)
        · exact hf.1
        · exact h.2
        · exact h.2
    have hnl : (l.subs.map BTree.idx).Nodup := nodup_sub hn (child_mem (d := false) rfl)
    have hnr : (r.subs.map BTree.idx).Nodup := nodup_sub hn (child_mem (d := true) rfl)
    cases hb : b.testBit l.idx with
    | false =>
      cases hb' : b.testBit r.idx with
      | false =>
        rw [restrict_zero hn hf (d := false) rfl hb, restrict_zero hn hf (d := true) rfl hb', Nat.or_zero, Nat.or_zero] at e
        subst e; exact ⟨_, _, .bin⟩
      | true =>
        obtain ⟨d, c, h⟩ := ihr _ hnr (isFragment_restrict hn hf (d := true) rfl hb')
        rw [restrict_zero hn hf (d := false) rfl hb, Nat.or_zero] at e
        rw [e]; exact ⟨_, _, .binR h⟩
    | true =>
      obtain ⟨d, c, h⟩ := ihl _ hnl (isFragment_restrict hn hf (d := false) rfl hb)
      cases hb' : b.testBit r.idx with
      | false =>
        rw [restrict_zero hn hf (d := true) rfl hb', Nat.or_zero] at e
        rw [e]; exact ⟨_, _, .binL h⟩
      | true =>
        obtain ⟨d', c', h'⟩ := ihr _ hnr (isFragment_restrict hn hf (d := true) rfl hb')
        rw [e]; exact ⟨_, _, .binLR h h'⟩

/-! ### Depth and frontiers -/

theorem count_congr {P Q : List Bool → Prop} {k : Nat} (h : ∀ p, P p ↔ Q p) (hc : Spec.Count P k) : Spec.Count Q k := by
  obtain ⟨F, h1, h2, h3⟩ := hc
  exact ⟨F, h1, fun p => (h2 p).trans (h p), h3⟩

theorem count_unique {P : List Bool → Prop} {k k' : Nat} (h : Spec.Count P k) (h' : Spec.Count P k') : k = k' := by
  obtain ⟨F, h1, h2, rfl⟩ := h
  obtain ⟨F', h1', h2', rfl⟩ := h'
  exact ((List.perm_ext_iff_of_nodup h1 h1').2 fun p => by rw [h2, h2']).length_eq

theorem count_node {P Pl Pr : List Bool → Prop} {kl kr : Nat} (h0 : ¬ P []) (hl : ∀ q, P (false :: q) ↔ Pl q) (hr : ∀ q, P (true :: q) ↔ Pr q)
    (cl : Spec.Count Pl kl) (cr : Spec.Count Pr kr) : Spec.Count P (kl + kr) := by
  obtain ⟨F, f1, f2, rfl⟩ := cl
  obtain ⟨G, g1, g2, rfl⟩ := cr
  refine ⟨F.map (false :: ·) ++ G.map (true :: ·), ?_, fun p => ?_, by simp⟩
  · rw [List.nodup_append]
    refine ⟨f1.map fun _ _ h => (List.cons.inj h).2, g1.map fun _ _ h => (List.cons.inj h).2, ?_⟩
    intro x hx y hy e
    obtain ⟨q, -, rfl⟩ := List.mem_map.1 hx
    obtain ⟨q', -, rfl⟩ := List.mem_map.1 hy
    simp at e
  · rw [List.mem_append, List.mem_map, List.mem_map]
    cases p with
    | nil => simp [h0]
    | cons d q =>
      cases d
      · rw [hl, ← f2]; simp
      · rw [hr, ← g2]; simp

theorem count_false : Spec.Count (fun _ => False) 0 := ⟨[], by simp, by simp, rfl⟩

theorem count_single {P : List Bool → Prop} (h : ∀ q, P q ↔ q = []) : Spec.Count P 1 := ⟨[[]], by simp, fun p => by rw [h]; simp, rfl⟩

theorem not_frontier_nil {u : BTree} {b : Nat} : ¬ Spec.Frontier u b [] := by
  rintro ⟨q, d, w, h, -⟩; simp at h

theorem not_onlyChild_nil {u : BTree} {b : Nat} : ¬ Spec.OnlyChild u b [] := by
  rintro ⟨q, i, pr, l, h, -⟩; simp at h

theorem frontier_cons {u c : BTree} {b b' : Nat} {d : Bool} (h : Part u b d c b') (hu : b.testBit u.idx = true) (q : List Bool) :
    Spec.Frontier u b (d :: q) ↔ (q = [] ∧ b'.testBit c.idx = false) ∨ Spec.Frontier c b' q := by
  constructor
  · rintro ⟨q', d', w, h1, h2, h3, h4⟩
    rw [part_in h hu] at h4
    simp only [BTree.sub, h.child, Option.bind_some] at h2
    cases q' with
    | nil =>
      simp only [List.nil_append, List.cons.injEq] at h1
      refine Or.inl ⟨h1.2, ?_⟩
      rw [h1.2, inFragment_nil] at h4
      simpa using h4
    | cons e q' =>
      simp only [List.cons_append, List.cons.injEq] at h1
      obtain ⟨rfl, h1⟩ := h1
      exact Or.inr ⟨q', d', w, h1, h2, (part_in h hu q').1 h3, h4⟩
  · rintro (⟨rfl, h1⟩ | ⟨q', d', w, rfl, h2, h3, h4⟩)
    · refine ⟨[], d, c, rfl, by simp [BTree.sub, h.child], inFragment_nil.2 hu, ?_⟩
      rw [part_in h hu, inFragment_nil, h1]; simp
    · exact ⟨d :: q', d', w, rfl, by simp only [BTree.sub, h.child, Option.bind_some]; exact h2, (part_in h hu q').2 h3, by rw [part_in h hu]; exact h4⟩

theorem frontier_none {u : BTree} {b : Nat} {d : Bool} (h : u.child d = none) (q : List Bool) : ¬ Spec.Frontier u b (d :: q) := by
  rintro ⟨q', d', w, -, h2, -⟩
  simp [BTree.sub, h] at h2

theorem onlyChild_cons {u c : BTree} {b b' : Nat} {d : Bool} (h : Part u b d c b') (hu : b.testBit u.idx = true) (q : List Bool) :
    Spec.OnlyChild u b (d :: q) ↔ (q = [] ∧ b'.testBit c.idx = true ∧ u.arity = 1) ∨ Spec.OnlyChild c b' q := by
  constructor
  · rintro ⟨q', i, pr, l, h1, h2, h3⟩
    cases q' with
    | nil =>
      simp only [List.nil_append, List.cons.injEq] at h1
      obtain ⟨rfl, rfl⟩ := h1
      simp only [BTree.sub, Option.some.injEq] at h2
      rw [part_in h hu, inFragment_nil] at h3
      exact Or.inl ⟨rfl, h3, by rw [h2]; rfl⟩
    | cons e q' =>
      simp only [List.cons_append, List.cons.injEq] at h1
      obtain ⟨rfl, h1⟩ := h1
      simp only [BTree.sub, h.child, Option.bind_some] at h2
      exact Or.inr ⟨q', i, pr, l, h1, h2, (part_in h hu q).1 h3⟩
  · rintro (⟨rfl, h1, h2⟩ | ⟨q', i, pr, l, rfl, h2, h3⟩)
    · have hc := h.child
      cases u with
      | term i p => simp [BTree.arity] at h2
      | bin i p l r => simp [BTree.arity] at h2
      | un i p l =>
        cases d with
        | true => simp [BTree.child] at hc
        | false => exact ⟨[], i, p, l, rfl, rfl, (part_in h hu []).2 (inFragment_nil.2 h1)⟩
    · exact ⟨d :: q', i, pr, l, rfl, by simp only [BTree.sub, h.child, Option.bind_some]; exact h2, (part_in h hu _).2 h3⟩

theorem onlyChild_none {u : BTree} {b : Nat} {d : Bool} (h : u.child d = none) (q : List Bool) : ¬ Spec.OnlyChild u b (d :: q) := by
  rintro ⟨q', i, pr, l, h1, h2, h3⟩
  rw [inFragment_cons, h] at h3
  simp at h3

/-- The depth and the numbers of frontier nodes and of only children of a fragment. -/
structure Metrics (u : BTree) (b d kf ku : Nat) : Prop where
  frag : Spec.IsFragment u b
  depth : ∀ D, d ≤ D ↔ ∀ p, Spec.InFragment u b p → p.length < D
  fro : Spec.Count (Spec.Frontier u b) kf
  only : Spec.Count (Spec.OnlyChild u b) ku

/-- A child that is outside of the fragment, or inside with these metrics. `d` is `0` for a child outside. -/
inductive Child (c : BTree) (b : Nat) : Nat → Nat → Nat → Prop
  | out (h : b.testBit c.idx = false) : Child c b 0 1 0
  | inn {d kf ku : Nat} (h : b.testBit c.idx = true) (m : Metrics c b d kf ku) : Child c b d kf ku

theorem child_depth {c : BTree} {b d kf ku : Nat} (h : Child c b d kf ku) (D : Nat) : d ≤ D ↔ ∀ p, Spec.InFragment c b p → p.length < D := by
  cases h with
  | out h => exact ⟨fun _ p hp => absurd hp (not_in_of_not_root h p), fun _ => Nat.zero_le _⟩
  | inn h m => exact m.depth D

theorem child_fro {u c : BTree} {b b' d' kf ku : Nat} {d : Bool} (h : Part u b d c b') (hu : b.testBit u.idx = true) (hc : Child c b' d' kf ku) :
    Spec.Count (fun q => Spec.Frontier u b (d :: q)) kf := by
  cases hc with
  | out ho =>
    refine count_single fun q => ?_
    rw [frontier_cons h hu]
    constructor
    · rintro (h | ⟨q', d', w, -, -, h', -⟩)
      · exact h.1
      · exact absurd h' (not_in_of_not_root ho q')
    · intro h; exact Or.inl ⟨h, ho⟩
  | inn hi m => exact count_congr (fun q => by rw [frontier_cons h hu, hi]; simp) m.fro

theorem child_only {u c : BTree} {b b' d' kf ku : Nat} {d : Bool} (h : Part u b d c b') (hu : b.testBit u.idx = true) (hc : Child c b' d' kf ku) :
    (u.arity ≠ 1 → Spec.Count (fun q => Spec.OnlyChild u b (d :: q)) ku) ∧
    (u.arity = 1 → Spec.Count (fun q => Spec.OnlyChild u b (d :: q)) (ku + if b'.testBit c.idx then 1 else 0)) := by
  constructor
  · intro ha
    cases hc with
    | out ho =>
      refine count_congr (fun q => ?_) count_false
      rw [onlyChild_cons h hu]
      simp only [ha, and_false, false_or, false_iff]
      rintro ⟨q', i, pr, l, -, -, h'⟩
      exact not_in_of_not_root ho q h'
    | inn hi m => exact count_congr (fun q => by rw [onlyChild_cons h hu]; simp [ha]) m.only
  · intro ha
    cases hc with
    | out ho =>
      rw [ho]
      refine count_congr (fun q => ?_) count_false
      rw [onlyChild_cons h hu, ho]
      simp only [Bool.false_eq_true, false_and, and_false, false_or, false_iff]
      rintro ⟨q', i, pr, l, -, -, h'⟩
      exact not_in_of_not_root ho q h'
    | inn hi m =>
      rw [hi, if_pos rfl]
      obtain ⟨F, f1, f2, f3⟩ := m.only
      refine ⟨[] :: F, ?_, fun q => ?_, by simp [f3]⟩
      · rw [List.nodup_cons]
        exact ⟨fun h' => not_onlyChild_nil ((f2 _).1 h'), f1⟩
      · show _ ↔ Spec.OnlyChild u b (d :: q)
        rw [onlyChild_cons h hu, hi]
        simp [ha, f2]

theorem metrics_term (i : Nat) (p : Int) : Metrics (.term i p) (1 <<< i) 1 0 0 := by
  have hin : ∀ q, Spec.InFragment (.term i p) (1 <<< i) q ↔ q = [] := by
    intro q
    cases q with
    | nil => simp [inFragment_nil]
    | cons d q => cases d <;> simp [inFragment_cons, BTree.child]
  refine ⟨⟨by simp only [Nat.testBit_or, testBit_one_shift]; simp, fun k hk => ?_⟩, fun D => ?_, ?_, ?_⟩
  · rw [testBit_one_shift, decide_eq_true_eq] at hk
    exact ⟨[], _, (hin _).2 rfl, rfl, hk.symm⟩
  · constructor
    · intro h p hp; rw [(hin p).1 hp]; exact h
    · intro h; exact h [] ((hin _).2 rfl)
  · refine count_congr (fun q => ?_) count_false
    cases q with
    | nil => simp [not_frontier_nil]
    | cons d q => simp only [false_iff]; exact frontier_none (by cases d <;> rfl) q
  · refine count_congr (fun q => ?_) count_false
    cases q with
    | nil => simp [not_onlyChild_nil]
    | cons d q => simp only [false_iff]; exact onlyChild_none (by cases d <;> rfl) q

theorem metrics_un {i : Nat} {p : Int} {l : BTree} {b b' d kf ku : Nat} (hb : b.testBit i = true) (hk : ∀ k, b.testBit k = true → k = i ∨ b'.testBit k = true)
    (h : Part (.un i p l) b false l b') (hz : b'.testBit l.idx = false → b' = 0) (hc : Child l b' d kf ku) :
    Metrics (.un i p l) b (d + 1) kf (ku + if b'.testBit l.idx then 1 else 0) := by
  have hu : b.testBit (BTree.un i p l).idx = true := hb
  have hn : (BTree.un i p l).child true = none := rfl
  refine ⟨⟨hb, fun k hk' => ?_⟩, fun D => ?_, ?_, ?_⟩
  · rcases hk k hk' with rfl | h'
    · exact ⟨[], _, inFragment_nil.2 hb, rfl, rfl⟩
    · cases hc with
      | out ho => rw [hz ho] at h'; simp at h'
      | inn hi m =>
        obtain ⟨q, w, h1, h2, h3⟩ := m.frag.2 k h'
        exact ⟨false :: q, w, (part_in h hu q).2 h1, by simp only [BTree.sub, h.child, Option.bind_some]; exact h2, h3⟩
  · cases D with
    | zero => simp only [Nat.not_lt_zero, imp_false]; constructor
              · intro h; omega
              · intro h; exact absurd (inFragment_nil.2 hb) (h [])
    | succ D =>
      rw [Nat.add_le_add_iff_right, child_depth hc]
      constructor
      · intro h' q hq
        cases q with
        | nil => simp
        | cons e q =>
          cases e with
          | false => have := h' q ((part_in h hu q).1 hq); simpa using this
          | true => rw [inFragment_cons, hn] at hq; simp at hq
      · intro h' q hq
        have := h' (false :: q) ((part_in h hu q).2 hq)
        simpa using this
  · have := count_node (P := Spec.Frontier (.un i p l) b) not_frontier_nil (fun q => Iff.rfl) (fun q => iff_of_false (frontier_none hn q) id) (child_fro h hu hc) count_false
    simpa using this
  · have := count_node (P := Spec.OnlyChild (.un i p l) b) not_onlyChild_nil (fun q => Iff.rfl) (fun q => iff_of_false (onlyChild_none hn q) id)
      ((child_only h hu hc).2 rfl) count_false
    simpa using this

theorem metrics_bin {i : Nat} {p : Int} {l r : BTree} {b bl br dl fl ul dr fr ur : Nat} (hb : b.testBit i = true)
    (hk : ∀ k, b.testBit k = true → k = i ∨ bl.testBit k = true ∨ br.testBit k = true)
    (h : Part (.bin i p l r) b false l bl) (h' : Part (.bin i p l r) b true r br) (hz : bl.testBit l.idx = false → bl = 0) (hz' : br.testBit r.idx = false → br = 0)
    (hc : Child l bl dl fl ul) (hc' : Child r br dr fr ur) :
    Metrics (.bin i p l r) b (max dl dr + 1) (fl + fr) (ul + ur) := by
  have hu : b.testBit (BTree.bin i p l r).idx = true := hb
  have ha : (BTree.bin i p l r).arity ≠ 1 := by simp [BTree.arity]
  refine ⟨⟨hb, fun k hk' => ?_⟩, fun D => ?_, ?_, ?_⟩
  · rcases hk k hk' with rfl | h1 | h1
    · exact ⟨[], _, inFragment_nil.2 hb, rfl, rfl⟩
    · cases hc with
      | out ho => rw [hz ho] at h1; simp at h1
      | inn hi m =>
        obtain ⟨q, w, h2, h3, h4⟩ := m.frag.2 k h1
        exact ⟨false :: q, w, (part_in h hu q).2 h2, by simp only [BTree.sub, h.child, Option.bind_some]; exact h3, h4⟩
    · cases hc' with
      | out ho => rw [hz' ho] at h1; simp at h1
      | inn hi m =>
        obtain ⟨q, w, h2, h3, h4⟩ := m.frag.2 k h1
        exact ⟨true :: q, w, (part_in h' hu q).2 h2, by simp only [BTree.sub, h'.child, Option.bind_some]; exact h3, h4⟩
  · cases D with
    | zero => simp only [Nat.not_lt_zero, imp_false]; constructor
              · intro h; omega
              · intro h; exact absurd (inFragment_nil.2 hb) (h [])
    | succ D =>
      rw [Nat.add_le_add_iff_right, Nat.max_le, child_depth hc, child_depth hc']
      constructor
      · rintro ⟨h1, h2⟩ q hq
        cases q with
        | nil => simp
        | cons e q =>
          cases e with
          | false => have := h1 q ((part_in h hu q).1 hq); simpa using this
          | true => have := h2 q ((part_in h' hu q).1 hq); simpa using this
      · intro h1
        refine ⟨fun q hq => ?_, fun q hq => ?_⟩
        · have := h1 (false :: q) ((part_in h hu q).2 hq); simpa using this
        · have := h1 (true :: q) ((part_in h' hu q).2 hq); simpa using this
  · exact count_node (P := Spec.Frontier (.bin i p l r) b) not_frontier_nil (fun q => Iff.rfl) (fun q => Iff.rfl) (child_fro h hu hc) (child_fro h' hu hc')
  · exact count_node (P := Spec.OnlyChild (.bin i p l r) b) not_onlyChild_nil (fun q => Iff.rfl) (fun q => Iff.rfl) ((child_only h hu hc).1 ha) ((child_only h' hu hc').1 ha)

theorem not_testBit_of_fragOf {u : BTree} {b d c k : Nat} (h : FragOf u b d c) (hk : k ∉ u.subs.map BTree.idx) : b.testBit k = false := by
  cases hb : b.testBit k with
  | false => rfl
  | true => exact absurd (fragOf_bits h k hb) hk

/-- The numbers recorded by the code: the depth, and the number of frontier nodes plus the number of only children. -/
theorem metrics_of_fragOf {u : BTree} {b d c : Nat} (h : FragOf u b d c) : (u.subs.map BTree.idx).Nodup → ∃ kf ku, Metrics u b d kf ku ∧ c = kf + ku := by
  induction h with
  | term => intro _; exact ⟨0, 0, metrics_term _ _, rfl⟩
  | @un i p l =>
    intro hn
    have hi : i ∉ l.subs.map BTree.idx := by simpa [BTree.subs] using (List.nodup_cons.1 hn).1
    have hne : ∀ w ∈ l.subs, w.idx ≠ i := fun w hw e => hi (e ▸ idx_mem_of_sub hw)
    refine ⟨1, 0, ?_, rfl⟩
    have := metrics_un (p := p) (b := 1 <<< i) (b' := 0) (l := l) (d := 0) (kf := 1) (ku := 0) (i := i) (by simp only [Nat.testBit_or, testBit_one_shift]; simp)
      (fun k hk => by rw [testBit_one_shift, decide_eq_true_eq] at hk; exact Or.inl hk) ⟨rfl, fun w hw => by simp only [Nat.testBit_or, testBit_one_shift]; simp [hne w hw]⟩ (fun _ => rfl)
      (.out (by simp))
    simpa using this
  | @unL i p l b d c h ih =>
    intro hn
    have hi : i ∉ l.subs.map BTree.idx := by simpa [BTree.subs] using (List.nodup_cons.1 hn).1
    have hne : ∀ w ∈ l.subs, w.idx ≠ i := fun w hw e => hi (e ▸ idx_mem_of_sub hw)
    obtain ⟨kf, ku, m, rfl⟩ := ih (nodup_sub hn (child_mem (d := false) rfl))
    refine ⟨kf, ku + 1, ?_, by omega⟩
    have := metrics_un (p := p) (b := 1 <<< i ||| b) (b' := b) (l := l) (i := i) (by simp only [Nat.testBit_or, testBit_one_shift]; simp)
      (fun k hk => by rw [Nat.testBit_or, testBit_one_shift, Bool.or_eq_true, decide_eq_true_eq] at hk; exact hk)
      ⟨rfl, fun w hw => by simp only [Nat.testBit_or, testBit_one_shift]; simp [hne w hw]⟩ (fun h' => by rw [m.frag.1] at h'; simp at h') (.inn m.frag.1 m)
    rw [m.frag.1] at this
    exact this
  | @bin i p l r =>
    intro hn
    have hi : i ∉ (l.subs ++ r.subs).map BTree.idx := by simpa [BTree.subs] using (List.nodup_cons.1 hn).1
    rw [List.map_append, List.mem_append, not_or] at hi
    have hl : ∀ w ∈ l.subs, w.idx ≠ i := fun w hw e => hi.1 (e ▸ idx_mem_of_sub hw)
    have hr : ∀ w ∈ r.subs, w.idx ≠ i := fun w hw e => hi.2 (e ▸ idx_mem_of_sub hw)
    refine ⟨2, 0, ?_, rfl⟩
    have := metrics_bin (p := p) (b := 1 <<< i) (bl := 0) (br := 0) (l := l) (r := r) (i := i) (by simp only [Nat.testBit_or, testBit_one_shift]; simp)
      (fun k hk => by rw [testBit_one_shift, decide_eq_true_eq] at hk; exact Or.inl hk) ⟨rfl, fun w hw => by simp only [Nat.testBit_or, testBit_one_shift]; simp [hl w hw]⟩
      ⟨rfl, fun w hw => by simp only [Nat.testBit_or, testBit_one_shift]; simp [hr w hw]⟩ (fun _ => rfl) (fun _ => rfl) (.out (by simp)) (.out (by simp))
    simpa using this
  | @binL i p l r b d c h ih =>
    intro hn
    obtain ⟨h1, h2⟩ := List.nodup_cons.1 hn
    have hi : i ∉ (l.subs ++ r.subs).map BTree.idx := by simpa using h1
    rw [List.map_append, List.mem_append, not_or] at hi
    have hl : ∀ w ∈ l.subs, w.idx ≠ i := fun w hw e => hi.1 (e ▸ idx_mem_of_sub hw)
    have hr : ∀ w ∈ r.subs, w.idx ≠ i := fun w hw e => hi.2 (e ▸ idx_mem_of_sub hw)
    have hd : ∀ w ∈ r.subs, b.testBit w.idx = false := fun w hw => not_testBit_of_fragOf h fun h' => by
      change (List.map BTree.idx (l.subs ++ r.subs)).Nodup at h2
      rw [List.map_append, List.nodup_append] at h2
      exact h2.2.2 _ h' _ (idx_mem_of_sub hw) rfl
    obtain ⟨kf, ku, m, rfl⟩ := ih (nodup_sub hn (child_mem (d := false) rfl))
    refine ⟨kf + 1, ku, ?_, by omega⟩
    have := metrics_bin (p := p) (b := 1 <<< i ||| b) (bl := b) (br := 0) (l := l) (r := r) (i := i) (by simp only [Nat.testBit_or, testBit_one_shift]; simp)
      (fun k hk => by rw [Nat.testBit_or, testBit_one_shift, Bool.or_eq_true, decide_eq_true_eq] at hk; exact hk.imp_right Or.inl)
      ⟨rfl, fun w hw => by simp only [Nat.testBit_or, testBit_one_shift]; simp [hl w hw]⟩
      ⟨rfl, fun w hw => by simp only [Nat.testBit_or, testBit_one_shift]; simp [hr w hw, hd w hw]⟩ (fun h' => by rw [m.frag.1] at h'; simp at h') (fun _ => rfl) (.inn m.frag.1 m) (.out (by simp))
    simpa using this
  | @binR i p l r b d c h ih =>
    intro hn
    obtain ⟨h1, h2⟩ := List.nodup_cons.1 hn
    have hi : i ∉ (l.subs ++ r.subs).map BTree.idx := by simpa using h1
    rw [List.map_append, List.mem_append, not_or] at hi
    have hl : ∀ w ∈ l.subs, w.idx ≠ i := fun w hw e => hi.1 (e ▸ idx_mem_of_sub hw)
    have hr : ∀ w ∈ r.subs, w.idx ≠ i := fun w hw e => hi.2 (e ▸ idx_mem_of_sub hw)
    have hd : ∀ w ∈ l.subs, b.testBit w.idx = false := fun w hw => not_testBit_of_fragOf h fun h' => by
      change (List.map BTree.idx (l.subs ++ r.subs)).Nodup at h2
      rw [List.map_append, List.nodup_append] at h2
      exact h2.2.2 _ (idx_mem_of_sub hw) _ h' rfl
    obtain ⟨kf, ku, m, rfl⟩ := ih (nodup_sub hn (child_mem (d := true) rfl))
    refine ⟨1 + kf, ku, ?_, by omega⟩
    have := metrics_bin (p := p) (b := 1 <<< i ||| b) (bl := 0) (br := b) (l := l) (r := r) (i := i) (by simp only [Nat.testBit_or, testBit_one_shift]; simp)
      (fun k hk => by rw [Nat.testBit_or, testBit_one_shift, Bool.or_eq_true, decide_eq_true_eq] at hk; exact hk.imp_right Or.inr)
      ⟨rfl, fun w hw => by simp only [Nat.testBit_or, testBit_one_shift]; simp [hl w hw, hd w hw]⟩
      ⟨rfl, fun w hw => by simp only [Nat.testBit_or, testBit_one_shift]; simp [hr w hw]⟩ (fun _ => rfl) (fun h' => by rw [m.frag.1] at h'; simp at h') (.out (by simp)) (.inn m.frag.1 m)
    simpa using this
  | @binLR i p l r b d c b' d' c' h h' ih ih' =>
    intro hn
    obtain ⟨h1, h2⟩ := List.nodup_cons.1 hn
    have hi : i ∉ (l.subs ++ r.subs).map BTree.idx := by simpa using h1
    rw [List.map_append, List.mem_append, not_or] at hi
    have hl : ∀ w ∈ l.subs, w.idx ≠ i := fun w hw e => hi.1 (e ▸ idx_mem_of_sub hw)
    have hr : ∀ w ∈ r.subs, w.idx ≠ i := fun w hw e => hi.2 (e ▸ idx_mem_of_sub hw)
    change (List.map BTree.idx (l.subs ++ r.subs)).Nodup at h2
    rw [List.map_append, List.nodup_append] at h2
    have hd : ∀ w ∈ r.subs, b.testBit w.idx = false := fun w hw => not_testBit_of_fragOf h fun h' => h2.2.2 _ h' _ (idx_mem_of_sub hw) rfl
    have hd' : ∀ w ∈ l.subs, b'.testBit w.idx = false := fun w hw => not_testBit_of_fragOf h' fun h' => h2.2.2 _ (idx_mem_of_sub hw) _ h' rfl
    obtain ⟨kf, ku, m, rfl⟩ := ih (nodup_sub hn (child_mem (d := false) rfl))
    obtain ⟨kf', ku', m', rfl⟩ := ih' (nodup_sub hn (child_mem (d := true) rfl))
    refine ⟨kf + kf', ku + ku', ?_, by omega⟩
    exact metrics_bin (p := p) (b := 1 <<< i ||| b ||| b') (bl := b) (br := b') (l := l) (r := r) (i := i) (by simp only [Nat.testBit_or, testBit_one_shift]; simp)
      (fun k hk => by rw [Nat.testBit_or, Nat.testBit_or, testBit_one_shift, Bool.or_eq_true, Bool.or_eq_true, decide_eq_true_eq, or_assoc] at hk; exact hk)
      ⟨rfl, fun w hw => by simp only [Nat.testBit_or, testBit_one_shift]; simp [hl w hw, hd' w hw]⟩
      ⟨rfl, fun w hw => by simp only [Nat.testBit_or, testBit_one_shift]; simp [hr w hw, hd w hw]⟩ (fun h' => by rw [m.frag.1] at h'; simp at h') (fun h' => by rw [m'.frag.1] at h'; simp at h')
      (.inn m.frag.1 m) (.inn m'.frag.1 m')

/-! ### The property -/

theorem mem_foldl_addSet {α β : Type} [DecidableEq α] (f : β → α) (l : List β) : ∀ (s : List α) (x : α), x ∈ l.foldl (fun s e => addSet s (f e)) s ↔ x ∈ s ∨ ∃ e ∈ l, f e = x := by
  induction l with
  | nil => simp
  | cons b l ih =>
    intro s x
    rw [List.foldl_cons, ih, mem_addSet]
    simp only [List.exists_mem_cons_iff, or_assoc]
    exact or_congr_right (or_congr_left ⟨fun h => h.symm, fun h => h.symm⟩)

theorem nodup_foldl_addSet {α β : Type} [DecidableEq α] (f : β → α) (l : List β) : ∀ (s : List α), s.Nodup → (l.foldl (fun s e => addSet s (f e)) s).Nodup := by
  induction l with
  | nil => intro s h; exact h
  | cons b l ih => intro s h; exact ih _ (nodup_addSet _ h)

theorem mem_allfragments (table : List (Nat × List Entry)) (n : Nat) : ∀ (s : List Fragment) (x : Fragment),
    x ∈ table.foldl (fun s x => x.2.foldl (fun s e => addSet s ⟨e.bits, x.1, n⟩) s) s ↔ x ∈ s ∨ ∃ y ∈ table, ∃ e ∈ y.2, (⟨e.bits, y.1, n⟩ : Fragment) = x := by
  induction table with
  | nil => simp
  | cons y table ih =>
    intro s x
    rw [List.foldl_cons, ih, mem_foldl_addSet (fun e : Entry => (⟨e.bits, y.1, n⟩ : Fragment))]
    simp only [List.exists_mem_cons_iff, or_assoc]

theorem nodup_allfragments (table : List (Nat × List Entry)) (n : Nat) : ∀ (s : List Fragment), s.Nodup →
    (table.foldl (fun s x => x.2.foldl (fun s e => addSet s ⟨e.bits, x.1, n⟩) s) s).Nodup := by
  induction table with
  | nil => intro s h; exact h
  | cons y table ih => intro s h; exact ih _ (nodup_foldl_addSet (fun e : Entry => (⟨e.bits, y.1, n⟩ : Fragment)) _ _ h)

/-- **C51**: With a limit on depth of at least 1, `allfragments` returns for a tree all and only the fragments of each of its nodes of which the depth is at most
`maxdepth`, and for which the number of substitution sites plus the number of only children is at most `maxfrontier`; each fragment once. The assertions hold. -/
theorem C51_general {a : List Node} {t : BTree} (ha : Spec.Tree a t) (n maxdepth maxfrontier : Nat) (hd : 1 ≤ maxdepth) :
    (allfragments1 a t.idx n maxdepth maxfrontier).2 = true ∧ (allfragments1 a t.idx n maxdepth maxfrontier).1.Nodup ∧
    ∀ fr, fr ∈ (allfragments1 a t.idx n maxdepth maxfrontier).1 ↔ fr.id = n ∧ ∃ u ∈ t.subs, fr.root = u.idx ∧ Spec.IsFragment u fr.bits ∧
      (∀ p, Spec.InFragment u fr.bits p → p.length < maxdepth) ∧
      ∃ kf ku, Spec.Count (Spec.Frontier u fr.bits) kf ∧ Spec.Count (Spec.OnlyChild u fr.bits) ku ∧ kf + ku ≤ maxfrontier := by
  have hnd := ha.all.nodup_iff.2 List.nodup_range
  have hlen : t.subs.length ≤ a.length := by have := ha.all.length_eq; simp at this; omega
  obtain ⟨-, h2, h3⟩ := traverse_spec maxdepth maxfrontier hd t a.length ha.repr hlen
  unfold allfragments1
  refine ⟨?_, nodup_allfragments _ n [] List.nodup_nil, fun fr => ?_⟩
  · simp only [List.all_eq_true, decide_eq_true_eq]
    intro x hx e he
    obtain ⟨v, -, -, h⟩ := h2 x hx
    exact ((h e).1 he).2
  · simp only [mem_allfragments, List.not_mem_nil, false_or]
    constructor
    · rintro ⟨x, hx, e, he, rfl⟩
      obtain ⟨v, hv, h4, h⟩ := h2 x hx
      obtain ⟨h5, h6, h7⟩ := (h e).1 he
      obtain ⟨kf, ku, m, hm⟩ := metrics_of_fragOf h5 (nodup_sub hnd hv)
      exact ⟨rfl, v, hv, h4, m.frag, (m.depth _).1 h6, kf, ku, m.fro, m.only, by omega⟩
    · rintro ⟨rfl, u, hu, h4, h5, h6, kf, ku, h7, h8, h9⟩
      obtain ⟨d, c, hf⟩ := fragOf_of_isFragment u fr.bits (nodup_sub hnd hu) h5
      obtain ⟨kf', ku', m, hm⟩ := metrics_of_fragOf hf (nodup_sub hnd hu)
      have e1 := count_unique h7 m.fro
      have e2 := count_unique h8 m.only
      obtain ⟨x, hx, h10, h⟩ := h3 u hu
      refine ⟨x, hx, ⟨fr.bits, d, c⟩, (h _).2 ⟨hf, (m.depth _).2 h6, by simp only; omega⟩, ?_⟩
      rw [h10, ← h4]

/-- **C51**: In a tree without unary nodes, the fragments are all and only those with at most the given depth and at most the given number of substitution
sites. -/
theorem C51_allfragments {a : List Node} {t : BTree} (ha : Spec.Tree a t) (hun : ∀ u ∈ t.subs, u.arity ≠ 1) (n maxdepth maxfrontier : Nat) (hd : 1 ≤ maxdepth)
    (fr : Fragment) : fr ∈ (allfragments1 a t.idx n maxdepth maxfrontier).1 ↔ fr.id = n ∧ ∃ u ∈ t.subs, fr.root = u.idx ∧ Spec.IsFragment u fr.bits ∧
      (∀ p, Spec.InFragment u fr.bits p → p.length < maxdepth) ∧ ∃ k ≤ maxfrontier, Spec.Count (Spec.Frontier u fr.bits) k := by
  rw [(C51_general ha n maxdepth maxfrontier hd).2.2]
  refine and_congr_right fun _ => exists_congr fun u => and_congr_right fun hu => and_congr_right fun _ => and_congr_right fun _ => and_congr_right fun _ => ?_
  have h0 : Spec.Count (Spec.OnlyChild u fr.bits) 0 := by
    refine count_congr (fun q => ?_) count_false
    simp only [false_iff]
    rintro ⟨q', i, pr, l, -, h, -⟩
    exact hun _ (subs_trans ((mem_subs_iff_sub u _).2 ⟨q', h⟩) hu) rfl
  constructor
  · rintro ⟨kf, ku, h1, h2, h3⟩
    exact ⟨kf, by omega, h1⟩
  · rintro ⟨k, h1, h2⟩
    exact ⟨k, 0, h2, h0, by omega⟩

end Disco.Frag
