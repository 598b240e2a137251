import Verif.Trees.PunctMove
/-!
# C48: properties of `punctraise` and `balancedpunctraise`
-/
namespace Disco.Punct
open PTree

variable {L : Type}

/-! ### One step of punctraise -/

theorem moved_of_shift {p : Nat → Bool} {l l0 : L} {n : Nat} {a b : List (PTree L)} (hp : p n = true)
    (hcs : ∀ c ∈ a ++ PTree.node l0 [.leaf n] :: b, Spec.Constituent c) :
    Moved p (.node l (a ++ PTree.node l0 [.leaf n] :: b)) (.node l (a ++ b ++ [PTree.node l0 [.leaf n]])) := by
  have hperm : (a ++ b ++ [PTree.node l0 [.leaf n]]).Perm (a ++ PTree.node l0 [.leaf n] :: b) := by
    rw [List.append_assoc]
    exact List.Perm.append_left a (List.perm_append_comm (l₁ := b) (l₂ := [_]))
  have hsub : ∀ x, x ∈ subtreesL (a ++ b ++ [PTree.node l0 [.leaf n]]) ↔ x ∈ subtreesL (a ++ PTree.node l0 [.leaf n] :: b) := by
    intro x
    rw [mem_subtreesL, mem_subtreesL]
    exact ⟨fun ⟨c, hc, h⟩ => ⟨c, hperm.mem_iff.1 hc, h⟩, fun ⟨c, hc, h⟩ => ⟨c, hperm.mem_iff.2 hc, h⟩⟩
  have hlv : (leavesL (a ++ b ++ [PTree.node l0 [.leaf n]])).Perm (leavesL (a ++ PTree.node l0 [.leaf n] :: b)) := by
    simp only [leavesL_append, leavesL_cons, leavesL_nil, leaves_node, leaves_leaf, List.append_nil, List.append_assoc]
    exact List.Perm.append_left _ (List.perm_append_comm (l₁ := leavesL b) (l₂ := [n]))
  refine ⟨⟨l, _, _, rfl, rfl, fun d hd => hcs d (hperm.mem_iff.1 hd)⟩, hlv, ?_, ?_, ?_⟩
  · show Spec.withoutL p (a ++ b ++ [PTree.node l0 [.leaf n]]) = Spec.withoutL p (a ++ PTree.node l0 [.leaf n] :: b)
    simp [withoutL_append, Spec.withoutL, without_pre hp]
  · refine gaps_of_fan fun l' ds hm => ?_
    rw [subtrees_node, List.mem_cons] at hm
    rcases hm with e | hm
    · injection e with e1 e2
      subst e1; subst e2
      exact ⟨_, by rw [subtrees_node]; exact List.mem_cons_self, Nat.le_of_eq (fan_congr fun x => hlv.mem_iff)⟩
    · exact ⟨ds, by rw [subtrees_node]; exact List.mem_cons_of_mem _ ((hsub _).1 hm), Nat.le_refl _⟩
  · intro l' i hm
    rw [subtrees_node, List.mem_cons] at hm
    rcases hm with e | hm
    · injection e with _ e
      exact absurd (hcs (.leaf i) (by rw [← e]; simp)) not_constituent_leaf
    · rw [subtrees_node]; exact List.mem_cons_of_mem _ ((hsub _).2 hm)

/-- What one iteration of `punctraise` does. -/
theorem raise1_spec {p : Nat → Bool} {l l0 : L} {n : Nat} {cs : List (PTree L)} (hcs : ∀ c ∈ cs, Spec.Constituent c) (hd : (leavesL cs).Nodup)
    (hnd : .node l0 [.leaf n] ∈ cs) (hp : p n = true) :
    ∃ u, raise1 (.node l0 [.leaf n]) n (.node l cs) = some u ∧ Moved p (.node l cs) u ∧
      (∀ l' i, i ≠ n → .node l' [.leaf i] ∈ cs → .node l' [.leaf i] ∈ u.children) ∧
      (n + 1 ∈ leavesL cs → ∃ l' ds, .node l' ds ∈ subtrees u ∧ .node l0 [.leaf n] ∈ ds ∧ NextTo n ds) ∧
      ∀ l' ds, .node l' ds ∈ subtrees (.node l cs) → ∃ ds', .node l' ds' ∈ subtrees u ∧
        ∀ y ∈ ds, n ∉ y.leaves → (n + 1 ∉ y.leaves ∨ ∃ l i, y = .node l [.leaf i]) → y ∈ ds' := by
  rw [raise1]
  by_cases h1 : cs.length = 1
  · rw [if_pos h1]
    obtain ⟨c, rfl⟩ := List.length_eq_one_iff.1 h1
    simp only [List.mem_singleton] at hnd
    subst hnd
    refine ⟨_, rfl, Moved.refl p l hcs, fun l' i _ h => h, fun h => by simp at h, fun l' ds h => ⟨ds, h, fun y hy _ _ => hy⟩⟩
  · rw [if_neg h1]
    obtain ⟨x, a, b, hna, hx, e1, e2⟩ := List.exists_of_eraseP hnd (show isPre n (.node l0 [.leaf n]) = true by simp [isPre])
    have hk : kids n cs = cs.eraseP (isPre n) := by
      rw [kids, if_pos (List.any_eq_true.2 ⟨_, hnd, by simp [isPre]⟩)]
    have hxe : x = .node l0 [.leaf n] := by
      obtain ⟨l', rfl⟩ := (isPre_iff (hcs x (by rw [e1]; simp))).1 hx
      exact child_unique hd (by rw [e1]; simp) hnd (i := n) (by simp) (by simp)
    subst hxe
    have hkk := kids_spec n hcs hd
    rw [hk] at hkk
    have hkd : (leavesL (cs.eraseP (isPre n))).Nodup := by rw [hkk.leaves]; exact hd.filter _
    have hkeep : ∀ l' ds, .node l' ds ∈ subtrees (.node l cs) → ds = [.leaf n] ∨ ∃ ds', .node l' ds' ∈ subtrees (.node l (cs.eraseP (isPre n))) ∧
        ∀ y ∈ ds, n ∉ y.leaves → y ∈ ds' := by
      intro l' ds hm
      rw [subtrees_node, List.mem_cons] at hm
      rcases hm with e | hm
      · injection e with e3 e4
        subst e3; subst e4
        refine Or.inr ⟨_, by rw [subtrees_node]; exact List.mem_cons_self, fun y hy hn => ?_⟩
        rw [e1] at hy
        rw [e2]
        simp only [List.mem_append, List.mem_cons] at hy ⊢
        rcases hy with hy | rfl | hy
        · exact Or.inl hy
        · simp at hn
        · exact Or.inr hy
      · rw [e1] at hm
        simp only [subtreesL_append, subtreesL_cons, List.mem_append] at hm
        rw [e2, subtrees_node]
        simp only [subtreesL_append, List.mem_append, List.mem_cons]
        rcases hm with hm | hm | hm
        · exact Or.inr ⟨ds, Or.inr (Or.inl hm), fun _ h _ => h⟩
        · simp at hm; exact Or.inl hm.2
        · exact Or.inr ⟨ds, Or.inr (Or.inr hm), fun _ h _ => h⟩
    rcases attach_spec (nd := .node l0 [.leaf n]) (n := n) (by simp) l hkk.good hkd with ⟨h2, h3⟩ | ⟨u, h2, h3⟩
    · rw [h2]
      have hnn : n + 1 ∉ leavesL cs := by
        intro h
        refine h3 ?_
        rw [hkk.leaves, List.mem_filter]
        exact ⟨h, by simp⟩
      refine ⟨_, rfl, ?_, ?_, fun h => absurd h hnn, ?_⟩
      · rw [e2]
        subst e1
        exact moved_of_shift hp hcs
      · intro l' i hi hm
        rw [e1] at hm
        rw [e2]
        simp only [List.mem_append, List.mem_cons, PTree.children] at hm ⊢
        rcases hm with hm | hm | hm
        · exact Or.inl (Or.inl hm)
        · simp at hm; exact absurd hm.2 hi
        · exact Or.inl (Or.inr hm)
      · intro l' ds hm
        rcases hkeep l' ds hm with rfl | ⟨ds', h4, h5⟩
        · rw [subtrees_node, List.mem_cons] at hm
          refine ⟨[.leaf n], ?_, fun y hy hn => by simp at hy; simp [hy] at hn⟩
          rcases hm with e | hm
          · injection e with _ e
            rw [← e] at hcs
            exact absurd (hcs (.leaf n) (by simp)) not_constituent_leaf
          · rw [subtrees_node]
            refine List.mem_cons_of_mem _ ?_
            rw [e1] at hm
            rw [e2]
            simp only [subtreesL_append, subtreesL_cons, List.mem_append] at hm ⊢
            tauto
        · rw [subtrees_node, List.mem_cons] at h4
          rcases h4 with e | h4
          · injection e with e3 e4
            subst e3; subst e4
            exact ⟨_, by rw [subtrees_node]; exact List.mem_cons_self, fun y hy hn _ => List.mem_append_left _ (h5 y hy hn)⟩
          · refine ⟨ds', ?_, fun y hy hn _ => h5 y hy hn⟩
            rw [subtrees_node, subtreesL_append]
            exact List.mem_cons_of_mem _ (List.mem_append_left _ h4)
    · rw [h2]
      have hmv : Moved p (.node l cs) u := by
        refine moved_of_ins (l0 := l0) hcs hd (mem_subtreesL.2 ⟨_, hnd, by simp⟩) hp (by rw [hk]; exact h3) ?_ ?_
        · intro l' cs1 cs' hm hl _ hn hT
          rw [hl]
          rcases hT with hT | hT
          · refine fan_remove_last fun h => hT ?_
            rw [hl, List.mem_filter]; exact ⟨h, by simp⟩
          · refine fan_remove_first hn ?_
            by_cases h0 : n = 0
            · exact Or.inl h0
            · right
              intro h
              have := hT (n - 1) (by rw [hl, List.mem_filter]; exact ⟨h, by simp; omega⟩)
              omega
        · intro l' cs1 hm hn hw _
          exact fan_insert_before hn hw
      refine ⟨u, rfl, hmv, ?_, ?_, ?_⟩
      · intro l' i hi hm
        refine h3.kidsKeep _ ?_ (Or.inr ⟨l', i, rfl⟩)
        rw [e1] at hm
        rw [e2]
        simp only [List.mem_append, List.mem_cons, PTree.children] at hm ⊢
        rcases hm with hm | hm | hm
        · exact Or.inl hm
        · simp at hm; exact absurd hm.2 hi
        · exact Or.inr hm
      · intro _
        exact h3.here
      · intro l' ds hm
        rcases hkeep l' ds hm with rfl | ⟨ds', h4, h5⟩
        · have := hmv.pre l' n hm
          exact ⟨_, this, fun y hy hn => by simp at hy; simp [hy] at hn⟩
        · obtain ⟨ds'', h6, h7⟩ := h3.keep l' ds' h4
          exact ⟨ds'', h6, fun y hy hn hw => h7 y (h5 y hy hn) hw⟩

/-! ### punctraise -/

/-- The preterminals that `punctraise` moves. -/
def Spec.Movable (tag : L → Str) (sent : List Str) (all : Bool) (t : PTree L) (i : Nat) : Prop :=
  ∃ l w, .node l [.leaf i] ∈ t.children ∧ sent[i]? = some w ∧ (all = true ∨ tag l ∈ PUNCTTAGS ∨ w ∈ PUNCTUATION)

theorem ispunct_iff {w s : Str} : ispunct w s = true ↔ s ∈ PUNCTTAGS ∨ w ∈ PUNCTUATION := by
  rw [ispunct]; simp

theorem toRaise_spec (tag : L → Str) (sent : List Str) (all : Bool) {cs : List (PTree L)} (hcs : ∀ c ∈ cs, Spec.Constituent c)
    (hw : ∀ i ∈ leavesL cs, i < sent.length) : ∃ r : List (PTree L × Nat), toRaise tag sent all cs = some r ∧
      (∀ x ∈ r, ∃ l, x.1 = .node l [.leaf x.2] ∧ ∃ w, sent[x.2]? = some w ∧ (all = true ∨ tag l ∈ PUNCTTAGS ∨ w ∈ PUNCTUATION)) ∧
      (∀ l i w, .node l [.leaf i] ∈ cs → sent[i]? = some w → (all = true ∨ tag l ∈ PUNCTTAGS ∨ w ∈ PUNCTUATION) → (.node l [.leaf i], i) ∈ r) ∧
      (r.map (·.1)).Sublist cs := by
  induction cs with
  | nil => exact ⟨[], rfl, by simp, by simp, List.Sublist.refl _⟩
  | cons c cs ih =>
    rw [leavesL_cons] at hw
    obtain ⟨r, h1, h2, h3, h4⟩ := ih (fun c hc => hcs c (by simp [hc])) fun i hi => hw i (by simp [hi])
    obtain ⟨l, ds, rfl⟩ := (hcs c (by simp)).node
    rcases (hcs _ List.mem_cons_self).cases' with ⟨i, rfl⟩ | ⟨hne, hds⟩
    · obtain ⟨w, hwi⟩ : ∃ w, sent[i]? = some w := ⟨sent[i]'(hw i (by simp)), List.getElem?_eq_getElem _⟩
      have e : toRaise tag sent all (.node l [.leaf i] :: cs) = some (if (all || ispunct w (tag l)) then (.node l [.leaf i], i) :: r else r) := by
        rw [toRaise]
        simp only [hwi, h1, Option.map_some]
        cases all <;> simp
      rw [e]
      by_cases hb : (all || ispunct w (tag l)) = true
      · rw [if_pos hb]
        have hb' : all = true ∨ tag l ∈ PUNCTTAGS ∨ w ∈ PUNCTUATION := by
          rw [Bool.or_eq_true, ispunct_iff] at hb; exact hb
        refine ⟨_, rfl, ?_, ?_, ?_⟩
        · intro x hx
          rcases List.mem_cons.1 hx with rfl | hx
          · exact ⟨l, rfl, w, hwi, hb'⟩
          · exact h2 x hx
        · intro l' i' w' hm hw' hq
          rcases List.mem_cons.1 hm with e | hm
          · simp at e
            rw [e.1, e.2]; simp
          · exact List.mem_cons_of_mem _ (h3 l' i' w' hm hw' hq)
        · exact h4.cons_cons _
      · rw [if_neg hb]
        refine ⟨_, rfl, h2, ?_, h4.cons _⟩
        intro l' i' w' hm hw' hq
        rcases List.mem_cons.1 hm with e | hm
        · simp at e
          rw [e.2] at hw'
          rw [hwi] at hw'
          have := Option.some.inj hw'
          subst this
          rw [e.1] at hq
          exact absurd (by rw [Bool.or_eq_true, ispunct_iff]; exact hq) hb
        · exact h3 l' i' w' hm hw' hq
    · have e : toRaise tag sent all (.node l ds :: cs) = toRaise tag sent all cs := by
        cases ds with
        | nil => exact absurd rfl hne
        | cons d ds =>
          obtain ⟨l', es, rfl⟩ := (hds d (by simp)).node
          rw [toRaise.eq_def]
      rw [e]
      refine ⟨r, h1, h2, ?_, h4.cons _⟩
      intro l' i' w' hm hw' hq
      rcases List.mem_cons.1 hm with e | hm
      · injection e with _ e
        rw [← e] at hds
        exact absurd (hds (.leaf i') (by simp)) not_constituent_leaf
      · exact h3 l' i' w' hm hw' hq

theorem toRaise_ne {cs : List (PTree L)} (hd : (leavesL cs).Nodup) {r : List (PTree L × Nat)}
    (h2 : ∀ x ∈ r, ∃ l, x.1 = .node l [.leaf x.2]) (h4 : (r.map (·.1)).Sublist cs) : r.reverse.Pairwise fun x y => x.2 ≠ y.2 := by
  rw [List.pairwise_reverse]
  have hpw : cs.Pairwise fun a b => ∀ i, i ∈ a.leaves → i ∉ b.leaves := by
    clear h2 h4
    induction cs with
    | nil => exact List.Pairwise.nil
    | cons c cs ih =>
      rw [leavesL_cons] at hd
      have := List.nodup_append.1 hd
      exact List.pairwise_cons.2 ⟨fun b hb i hi hi' => this.2.2 i hi i (mem_leavesL.2 ⟨b, hb, hi'⟩) rfl, ih this.2.1⟩
  have := hpw.sublist h4
  rw [List.pairwise_map] at this
  refine this.imp_of_mem fun {a b} ha hb h e => ?_
  obtain ⟨la, hla⟩ := h2 a ha
  obtain ⟨lb, hlb⟩ := h2 b hb
  rw [hla, hlb] at h
  exact h a.2 (by simp) (by simp [e])

theorem foldRaise_spec {p : Nat → Bool} (ps : List (PTree L × Nat)) {l : L} {cs : List (PTree L)} (hcs : ∀ c ∈ cs, Spec.Constituent c)
    (hd : (leavesL cs).Nodup) (hps : ∀ x ∈ ps, x.1 ∈ cs ∧ p x.2 = true ∧ ∃ l, x.1 = .node l [.leaf x.2]) (hne : ps.Pairwise fun x y => x.2 ≠ y.2) :
    ∃ u, ps.foldlM (fun t x => raise1 x.1 x.2 t) (.node l cs) = some u ∧ Moved p (.node l cs) u ∧
      (∀ l' ds, .node l' ds ∈ subtrees (.node l cs) → ∃ ds', .node l' ds' ∈ subtrees u ∧
        ∀ y ∈ ds, (∀ x ∈ ps, x.2 ∉ y.leaves ∧ (x.2 + 1 ∉ y.leaves ∨ ∃ l i, y = .node l [.leaf i])) → y ∈ ds') ∧
      (ps.Pairwise (fun x y => y.2 < x.2) → ∀ x ∈ ps, x.2 + 1 ∈ leavesL cs → ∃ l' ds, .node l' ds ∈ subtrees u ∧ x.1 ∈ ds ∧ NextTo x.2 ds) := by
  induction ps generalizing cs with
  | nil => exact ⟨_, rfl, Moved.refl p l hcs, fun l' ds h => ⟨ds, h, fun y hy _ => hy⟩, by simp⟩
  | cons x ps ih =>
    obtain ⟨h1, h2, l0, h3⟩ := hps x (by simp)
    obtain ⟨nd, n⟩ := x
    simp only at h1 h2 h3
    subst h3
    obtain ⟨u, h4, h5, h6, h7, h8⟩ := raise1_spec (l := l) hcs hd h1 h2
    have hu := h5.root
    obtain ⟨l1, cs1, ds, e, rfl, hds⟩ := hu
    injection e with e1 e2
    subst e1; subst e2
    have hlv : (leavesL ds).Perm (leavesL cs) := h5.leaves
    rw [List.pairwise_cons] at hne
    obtain ⟨v, h9, h10, h11, h12⟩ := ih (cs := ds) hds (hlv.nodup_iff.2 hd) (fun x hx => by
      obtain ⟨h1, h2, l', h3⟩ := hps x (by simp [hx])
      refine ⟨?_, h2, l', h3⟩
      rw [h3] at h1 ⊢
      exact h6 l' x.2 (fun e => hne.1 x hx e.symm) h1) hne.2
    refine ⟨v, ?_, h5.trans h10, ?_, ?_⟩
    · rw [List.foldlM_cons]
      simp only [h4]
      exact h9
    · intro l' es hm
      obtain ⟨es', h13, h14⟩ := h8 l' es hm
      obtain ⟨es'', h15, h16⟩ := h11 l' es' h13
      refine ⟨es'', h15, fun y hy hx => h16 y (h14 y hy (hx (.node l0 [.leaf n], n) (by simp)).1 (hx (.node l0 [.leaf n], n) (by simp)).2) fun x hx' => hx x (by simp [hx'])⟩
    · intro hpw x hx hx1
      rw [List.pairwise_cons] at hpw
      rcases List.mem_cons.1 hx with rfl | hx
      · obtain ⟨l', es, h13, h14, z, hz, hz'⟩ := h7 hx1
        obtain ⟨es', h15, h16⟩ := h11 l' es h13
        refine ⟨l', es', h15, h16 _ h14 fun x hx => ?_, z, h16 z hz fun x hx => ?_, hz'⟩
        · have := hpw.1 x hx
          simp only at this
          refine ⟨by simp; omega, Or.inr ⟨_, _, rfl⟩⟩
        · have := hpw.1 x hx
          simp only at this
          have hmin := (min?_mem hz').2
          refine ⟨fun h => ?_, Or.inl fun h => ?_⟩
          · have := hmin _ h; omega
          · have := hmin _ h; omega
      · exact h12 hpw.2 x hx (hlv.mem_iff.2 hx1)

theorem pre_exists {t : PTree L} (ht : Spec.Constituent t) {i : Nat} (hi : i ∈ t.leaves) : ∃ l, .node l [.leaf i] ∈ subtrees t := by
  induction t using PTree.ind with
  | hleaf i => exact absurd ht not_constituent_leaf
  | hnode l cs ih =>
    rcases ht.cases' with ⟨j, rfl⟩ | ⟨hne, hcs⟩
    · simp at hi; exact ⟨l, by simp [hi]⟩
    · rw [leaves_node] at hi
      obtain ⟨c, hc, hi⟩ := mem_leavesL.1 hi
      obtain ⟨l', h⟩ := ih c hc (hcs c hc) hi
      exact ⟨l', by rw [subtrees_node]; exact List.mem_cons_of_mem _ (mem_subtreesL.2 ⟨c, hc, h⟩)⟩

theorem pre_existsL {l : L} {cs : List (PTree L)} (hcs : ∀ c ∈ cs, Spec.Constituent c) {i : Nat} (hi : i ∈ leavesL cs) :
    ∃ l', .node l' [.leaf i] ∈ subtrees (.node l cs) := by
  obtain ⟨c, hc, hi⟩ := mem_leavesL.1 hi
  obtain ⟨l', h⟩ := pre_exists (hcs c hc) hi
  exact ⟨l', by rw [subtrees_node]; exact List.mem_cons_of_mem _ (mem_subtreesL.2 ⟨c, hc, h⟩)⟩

theorem pre_unique {t : PTree L} (hd : t.leaves.Nodup) {l l' : L} {i : Nat} (h : .node l [.leaf i] ∈ subtrees t) (h' : .node l' [.leaf i] ∈ subtrees t) : l = l' := by
  rcases nested hd h h' (i := i) (by simp) (by simp) with h1 | h1 <;> simp at h1
  · exact h1
  · exact h1.symm

theorem Spec.TreeFor.nodup {n : Nat} {t : PTree L} (h : Spec.TreeFor n t) : t.leaves.Nodup := h.words.nodup_iff.2 List.nodup_range

theorem Moved.tree {p : Nat → Bool} {n : Nat} {t u : PTree L} (h : Moved p t u) (ht : Spec.TreeFor n t) : Spec.TreeFor n u := by
  obtain ⟨l, cs, ds, -, rfl, h3⟩ := h.root
  exact ⟨⟨l, ds, rfl, h3⟩, h.leaves.trans ht.words⟩

theorem Moved.pre_iff {p : Nat → Bool} {n : Nat} {t u : PTree L} (h : Moved p t u) (ht : Spec.TreeFor n t) (l : L) (i : Nat) :
    .node l [.leaf i] ∈ subtrees u ↔ .node l [.leaf i] ∈ subtrees t := by
  refine ⟨fun hm => ?_, h.pre l i⟩
  have hi : i ∈ t.leaves := h.leaves.mem_iff.1 (subtree_leaves hm i (by simp))
  obtain ⟨l0, cs, rfl, hcs⟩ := ht.root
  obtain ⟨l', h'⟩ := pre_existsL (l := l0) hcs hi
  rw [pre_unique (h.tree ht).nodup hm (h.pre l' i h')]
  exact h'

/-- **C48.** `punctraise` moves preterminals that are children of the root, and only these: the rest of the tree is the same, every word keeps its
preterminal, and no constituent gets more gaps. -/
theorem C48_punctraise (tag : L → Str) (all : Bool) (sent : List Str) (t : PTree L) (ht : Spec.TreeFor sent.length t) :
    ∃ u, punctraise tag all t sent = some u ∧ Spec.TreeFor sent.length u ∧ (∃ l cs ds, t = .node l cs ∧ u = .node l ds) ∧
      (∀ p : Nat → Bool, (∀ i, Spec.Movable tag sent all t i → p i = true) → Spec.withoutL p u.children = Spec.withoutL p t.children) ∧
      (∀ l i, .node l [.leaf i] ∈ subtrees u ↔ .node l [.leaf i] ∈ subtrees t) ∧ Spec.NoMoreGaps t u := by
  obtain ⟨l, cs, rfl, hcs⟩ := ht.root
  have hd : (leavesL cs).Nodup := ht.nodup
  obtain ⟨r, h1, h2, h3, h4⟩ := toRaise_spec tag sent all hcs fun i hi => List.mem_range.1 (ht.words.mem_iff.1 hi)
  have hr : ∀ x ∈ r.reverse, x.1 ∈ cs ∧ ∃ l, x.1 = .node l [.leaf x.2] := by
    intro x hx
    rw [List.mem_reverse] at hx
    obtain ⟨l', h5, -⟩ := h2 x hx
    exact ⟨h4.subset (List.mem_map.2 ⟨x, hx, rfl⟩), l', h5⟩
  have hne := toRaise_ne hd (r := r) (fun x hx => by obtain ⟨l, h, -⟩ := h2 x hx; exact ⟨l, h⟩) h4
  have key := fun p (hp : ∀ x ∈ r.reverse, p x.2 = true) => foldRaise_spec (p := p) r.reverse (l := l) hcs hd
    (fun x hx => ⟨(hr x hx).1, hp x hx, (hr x hx).2⟩) hne
  obtain ⟨u, h5, h6, -⟩ := key (fun _ => true) fun _ _ => rfl
  refine ⟨u, ?_, h6.tree ht, ?_, ?_, h6.pre_iff ht, h6.gaps⟩
  · simp only [punctraise, PTree.children, h1]
    exact h5
  · obtain ⟨l', cs', ds, e, e', -⟩ := h6.root
    exact ⟨l', cs', ds, e, e'⟩
  · intro p hp
    obtain ⟨u', h7, h8, -⟩ := key p (by
      intro x hx
      obtain ⟨hx1, l', hx2⟩ := hr x hx
      rw [List.mem_reverse] at hx
      obtain ⟨l'', h9, w, hw, hq⟩ := h2 x hx
      rw [h9] at hx1
      exact hp x.2 ⟨l'', w, hx1, hw, hq⟩)
    rw [h5] at h7
    have := Option.some.inj h7
    subst this
    exact h8.without

/-- The words directly under the root are in order. -/
def Spec.MarksInOrder (t : PTree L) : Prop := t.children.Pairwise fun a b => ∀ l l' i j, a = .node l [.leaf i] → b = .node l' [.leaf j] → i < j

/-- **C48.** When the words directly under the root are in order, each mark that `punctraise` moves ends up as a sister of a constituent that starts at the
next word (except for the last word of the sentence). -/
theorem C48_punctraise_position (tag : L → Str) (all : Bool) (sent : List Str) (t u : PTree L) (ht : Spec.TreeFor sent.length t) (hord : Spec.MarksInOrder t)
    (hu : punctraise tag all t sent = some u) (i : Nat) (hi : Spec.Movable tag sent all t i) (hlast : i + 1 < sent.length) :
    ∃ l ds l', .node l ds ∈ subtrees u ∧ .node l' [.leaf i] ∈ ds ∧ ∃ x ∈ ds, x.leaves.min? = some (i + 1) := by
  obtain ⟨l, cs, rfl, hcs⟩ := ht.root
  have hd : (leavesL cs).Nodup := ht.nodup
  obtain ⟨r, h1, h2, h3, h4⟩ := toRaise_spec tag sent all hcs fun i hi => List.mem_range.1 (ht.words.mem_iff.1 hi)
  have hr : ∀ x ∈ r.reverse, x.1 ∈ cs ∧ True ∧ ∃ l, x.1 = .node l [.leaf x.2] := by
    intro x hx
    rw [List.mem_reverse] at hx
    obtain ⟨l', h5, -⟩ := h2 x hx
    exact ⟨h4.subset (List.mem_map.2 ⟨x, hx, rfl⟩), trivial, l', h5⟩
  obtain ⟨u', h5, -, -, h6⟩ := foldRaise_spec (p := fun _ => true) r.reverse (l := l) hcs hd (fun x hx => ⟨(hr x hx).1, rfl, (hr x hx).2.2⟩) (toRaise_ne hd (r := r) (fun x hx => by obtain ⟨l, h, -⟩ := h2 x hx; exact ⟨l, h⟩) h4)
  have e : u' = u := by
    simp only [punctraise, PTree.children, h1] at hu
    exact Option.some.inj (h5.symm.trans hu)
  subst e
  obtain ⟨l', w, hm, hw, hq⟩ := hi
  obtain ⟨l2, ds, h7, h8, h9⟩ := h6 (by
    rw [List.pairwise_reverse]
    have := hord.sublist h4
    rw [List.pairwise_map] at this
    refine this.imp_of_mem fun {a b} ha hb h => ?_
    obtain ⟨la, hla, -⟩ := h2 a ha
    obtain ⟨lb, hlb, -⟩ := h2 b hb
    exact h la lb a.2 b.2 hla hlb) (.node l' [.leaf i], i) (List.mem_reverse.2 (h3 l' i w hm hw hq)) (ht.words.mem_iff.2 (List.mem_range.2 hlast))
  exact ⟨l2, ds, l', h7, h8, h9⟩

/-! ### One pair of marks -/

/-- `n` (a node with the given children) is the parent of the preterminal of `i`. -/
def IsParent (i : Nat) (t : PTree L) (l : L) (ds : List (PTree L)) : Prop := .node l ds ∈ subtrees t ∧ HasPre i ds

theorem parentOfL_cases (i : Nat) (cs : List (PTree L)) : (parentOfL i cs = none ∧ ∀ c ∈ cs, parentOf i c = none) ∨
    ∃ c ∈ cs, ∃ q, parentOf i c = some q ∧ parentOfL i cs = some q := by
  induction cs with
  | nil => exact Or.inl ⟨rfl, by simp⟩
  | cons c cs ih =>
    rw [parentOfL]
    cases h : parentOf i c with
    | some q => exact Or.inr ⟨c, by simp, q, h, rfl⟩
    | none =>
      rcases ih with ⟨h1, h2⟩ | ⟨d, hd, q, h1, h2⟩
      · refine Or.inl ⟨h1, fun x hx => ?_⟩
        rcases List.mem_cons.1 hx with rfl | hx
        · exact h
        · exact h2 x hx
      · exact Or.inr ⟨d, by simp [hd], q, h1, h2⟩

theorem parentOf_some {i : Nat} {t q : PTree L} (hg : ∀ c ∈ t.children, c.isNode = true → Spec.Constituent c) (h : parentOf i t = some q) :
    ∃ l ds, q = .node l ds ∧ IsParent i t l ds := by
  induction t using PTree.ind with
  | hleaf j => rw [parentOf] at h; cases h
  | hnode l cs ih =>
    rw [parentOf] at h
    split at h
    · rename_i ha
      rw [List.any_eq_true] at ha
      obtain ⟨c, hc, hpc⟩ := ha
      injection h with h
      subst h
      have hcn : c.isNode = true := by
        cases c with
        | leaf j => simp [isPre] at hpc
        | node _ _ => rfl
      obtain ⟨l', rfl⟩ := (isPre_iff (hg c hc hcn)).1 hpc
      exact ⟨l, cs, rfl, by simp, l', hc⟩
    · rcases parentOfL_cases i cs with ⟨h1, -⟩ | ⟨c, hc, q', h1, h2⟩
      · rw [h1] at h; cases h
      · rw [h2] at h
        injection h with h
        subst h
        have hcn : c.isNode = true := by
          cases c with
          | leaf j => rw [parentOf] at h1; cases h1
          | node _ _ => rfl
        obtain ⟨l', ds, e, h3, h4⟩ := ih c hc (by
          intro d hd hdn
          have hcc := hg c hc hcn
          obtain ⟨l', ds, rfl⟩ := hcc.node
          rcases hcc.cases' with ⟨j, rfl⟩ | ⟨_, h⟩
          · simp only [PTree.children, List.mem_singleton] at hd; rw [hd] at hdn; cases hdn
          · exact h d hd) h1
        exact ⟨l', ds, e, by rw [subtrees_node]; exact List.mem_cons_of_mem _ (mem_subtreesL.2 ⟨c, hc, h3⟩), h4⟩

theorem parentOf_below {i : Nat} {t : PTree L} (ht : Spec.Constituent t) (hi : i ∈ t.leaves) (hp : isPre i t = false) : parentOf i t ≠ none := by
  induction t using PTree.ind with
  | hleaf j => exact absurd ht not_constituent_leaf
  | hnode l cs ih =>
    rcases ht.cases' with ⟨j, rfl⟩ | ⟨hne, hcs⟩
    · simp at hi; simp [isPre, hi] at hp
    · rw [parentOf]
      split
      · simp
      · rename_i ha
        rw [leaves_node] at hi
        obtain ⟨c, hc, hi⟩ := mem_leavesL.1 hi
        have hpc : isPre i c = false := by
          cases h : isPre i c with
          | false => rfl
          | true => exact absurd (List.any_eq_true.2 ⟨c, hc, h⟩) ha
        rcases parentOfL_cases i cs with ⟨-, h2⟩ | ⟨c', hc', q', h1, h2⟩
        · exact absurd (h2 c hc) (ih c hc (hcs c hc) hi hpc)
        · rw [h2]; simp

theorem parentOf_spec {i : Nat} {l : L} {cs : List (PTree L)} (hcs : ∀ c ∈ cs, Spec.Constituent c) (hi : i ∈ leavesL cs) :
    ∃ l' ds, parentOf i (.node l cs) = some (.node l' ds) ∧ IsParent i (.node l cs) l' ds := by
  have hne : parentOf i (.node l cs) ≠ none := parentOf_below (.of (by rintro rfl; simp at hi) hcs) hi (by
    cases h : isPre i (.node l cs) with
    | false => rfl
    | true =>
      cases cs with
      | nil => simp at hi
      | cons c cs => obtain ⟨l', ds, rfl⟩ := (hcs c (by simp)).node; simp [isPre] at h)
  obtain ⟨q, hq⟩ := Option.ne_none_iff_exists'.1 hne
  obtain ⟨l', ds, rfl, h⟩ := parentOf_some (t := .node l cs) (fun c hc _ => hcs c hc) hq
  exact ⟨l', ds, hq, h⟩

/-- A node that has word `i`, other than its preterminal, has all words of the parent of the preterminal. -/
theorem parent_sub {t : PTree L} (hd : t.leaves.Nodup) {i : Nat} {l l' : L} {ds cs : List (PTree L)} (h : IsParent i t l ds) (hm : .node l' cs ∈ subtrees t)
    (hi : i ∈ leavesL cs) (hne : cs ≠ [.leaf i]) : ∀ x ∈ leavesL ds, x ∈ leavesL cs := by
  obtain ⟨h1, l0, h2⟩ := h
  have hids : i ∈ leavesL ds := mem_leavesL.2 ⟨_, h2, by simp⟩
  rcases nested hd h1 hm (i := i) hids hi with h3 | h3
  · exact fun x hx => subtree_leaves h3 x hx
  · rw [subtrees_node, List.mem_cons] at h3
    rcases h3 with e | h3
    · injection e with _ e
      rw [e]; exact fun _ h => h
    · obtain ⟨c, hc, h3⟩ := mem_subtreesL.1 h3
      have hdd : (leavesL ds).Nodup := by
        clear hm hi hne h3 hc h2 hids
        induction t using PTree.ind with
        | hleaf j => simp at h1
        | hnode l2 cs2 ih =>
          rw [subtrees_node, List.mem_cons] at h1
          rcases h1 with e | h1
          · injection e with _ e; rw [e]; exact hd
          · obtain ⟨c2, hc2, h1⟩ := mem_subtreesL.1 h1
            rw [leaves_node] at hd
            exact ih c2 hc2 (nodup_child hd hc2) h1
      have := child_unique hdd hc h2 (i := i) (subtree_leaves h3 i hi) (by simp)
      rw [this] at h3
      simp at h3
      exact absurd h3.2 hne

theorem movePair_spec {p : Nat → Bool} {l ll lr : L} {left right : Nat} {cs : List (PTree L)} (hcs : ∀ c ∈ cs, Spec.Constituent c) (hd : (leavesL cs).Nodup)
    (hl : .node ll [.leaf left] ∈ subtrees (.node l cs)) (hr : .node lr [.leaf right] ∈ subtrees (.node l cs)) (hlr : left ≠ right)
    (hpl : p left = true) (hpr : p right = true) :
    ∃ u, movePair left (.node ll [.leaf left]) right (.node lr [.leaf right]) (.node l cs) = some u ∧ Moved p (.node l cs) u ∧
      ∀ l1 ds1 l2 ds2, IsParent left (.node l cs) l1 ds1 → IsParent right (.node l cs) l2 ds2 →
        ((leavesL ds1).max? = some (right - 1) ∧ 0 < right ∨ (leavesL ds2).min? = some (left + 1)) →
        ∃ l' ds, .node l' ds ∈ subtrees u ∧ .node ll [.leaf left] ∈ ds ∧ .node lr [.leaf right] ∈ ds := by
  have hnl : left ∈ leavesL cs := subtree_leaves hl left (by simp)
  have hnr : right ∈ leavesL cs := subtree_leaves hr right (by simp)
  have hsubl : .node ll [.leaf left] ∈ subtreesL cs := by
    rw [subtrees_node, List.mem_cons] at hl
    rcases hl with e | h
    · injection e with _ e; rw [← e] at hcs; exact absurd (hcs (.leaf left) (by simp)) not_constituent_leaf
    · exact h
  have hsubr : .node lr [.leaf right] ∈ subtreesL cs := by
    rw [subtrees_node, List.mem_cons] at hr
    rcases hr with e | h
    · injection e with _ e; rw [← e] at hcs; exact absurd (hcs (.leaf right) (by simp)) not_constituent_leaf
    · exact h
  obtain ⟨l1, ds1, hp1, hq1⟩ := parentOf_spec (l := l) hcs hnl
  obtain ⟨l2, ds2, hp2, hq2⟩ := parentOf_spec (l := l) hcs hnr
  have hmem : ∀ {i : Nat} {ds : List (PTree L)}, HasPre i ds → i ∈ leavesL ds := fun {i ds} ⟨l0, h⟩ => mem_leavesL.2 ⟨_, h, by simp⟩
  have huniq : ∀ {i : Nat} {l1 l1' : L} {ds ds' : List (PTree L)}, IsParent i (.node l cs) l1 ds → IsParent i (.node l cs) l1' ds' → ∀ x, x ∈ leavesL ds ↔ x ∈ leavesL ds' := by
    intro i l1 l1' ds ds' h h' x
    have hne : ∀ {l2 : L} {es : List (PTree L)}, IsParent i (.node l cs) l2 es → es ≠ [.leaf i] := by
      rintro l2 es ⟨-, l0, h⟩ rfl
      simp at h
    exact ⟨parent_sub (t := .node l cs) hd h h'.1 (hmem h'.2) (hne h') x, parent_sub (t := .node l cs) hd h' h.1 (hmem h.2) (hne h) x⟩
  have hmax : ∃ mx, (leavesL ds1).max? = some mx := by
    cases h : (leavesL ds1).max? with
    | some m => exact ⟨m, rfl⟩
    | none => rw [List.max?_eq_none_iff] at h; have := hmem hq1.2; rw [h] at this; cases this
  have hmin : ∃ mn, (leavesL ds2).min? = some mn := by
    cases h : (leavesL ds2).min? with
    | some m => exact ⟨m, rfl⟩
    | none => rw [List.min?_eq_none_iff] at h; have := hmem hq2.2; rw [h] at this; cases this
  obtain ⟨mx, hmx⟩ := hmax
  obtain ⟨mn, hmn⟩ := hmin
  have hmxm := max?_mem hmx
  have hmnm := min?_mem hmn
  have e : movePair left (.node ll [.leaf left]) right (.node lr [.leaf right]) (.node l cs) =
      if mx + 1 = right then some (addTo left (.node lr [.leaf right]) false (popRoot right (.node l cs)))
      else if mn = left + 1 then some (addTo right (.node ll [.leaf left]) true (popRoot left (.node l cs))) else some (.node l cs) := by
    rw [movePair]
    simp only [hp1, hp2, leaves_node, hmx, hmn]
  rw [e]
  by_cases c1 : mx + 1 = right
  · rw [if_pos c1]
    have hk := kids_spec right hcs hd
    have hins := addTo_spec (i := left) (n := right) (nd := .node lr [.leaf right]) false (by simp) l hk.good (by rw [hk.leaves]; exact hd.filter _)
      (by rw [hk.leaves, List.mem_filter]; exact ⟨hnl, by simpa using hlr⟩)
    rw [← popRoot_kids right l cs] at hins
    have hmv : Moved p (.node l cs) (addTo left (.node lr [.leaf right]) false (popRoot right (.node l cs))) := by
      refine moved_of_ins (l0 := lr) hcs hd hsubr hpr (by rw [← popRoot_kids]; exact hins) ?_ ?_
      · intro l' cs1 cs' hm hl' hiff hn hT
        have hnot : left ∉ leavesL cs1 := by
          rcases hT with hT | hT
          · intro h
            exact hT (by rw [hl', List.mem_filter]; exact ⟨h, by simpa using hlr⟩)
          · rw [(hiff left).1 hT] at hn
            simp at hn
            exact absurd hn.symm hlr
        rw [hl']
        refine fan_remove_first hn (Or.inr ?_)
        intro h
        have hmx' : mx ∈ leavesL cs1 := by rw [show mx = right - 1 by omega]; exact h
        rcases nested (t := .node l cs) hd hm hq1.1 (i := mx) hmx' hmxm.1 with h3 | h3
        · have := hmxm.2 right (subtree_leaves h3 right hn); omega
        · exact hnot (subtree_leaves h3 left (hmem hq1.2))
      · intro l' cs1 hm hn hw hne
        have := parent_sub (t := .node l cs) hd hq1 hm hw (hne left) mx hmxm.1
        rw [← c1]
        exact fan_insert_after this
    refine ⟨_, rfl, hmv, fun _ _ _ _ _ _ _ => ?_⟩
    obtain ⟨l', ds, h1, h2, l0, h3⟩ := hins.here
    refine ⟨l', ds, h1, ?_, h2⟩
    have h4 := hmv.pre ll left hl
    have h5 : .node l0 [.leaf left] ∈ subtrees (addTo left (.node lr [.leaf right]) false (popRoot right (.node l cs))) :=
      subtrees_trans (y := .node l' ds) (by rw [subtrees_node]; exact List.mem_cons_of_mem _ (mem_subtreesL.2 ⟨_, h3, by simp⟩)) h1
    rw [pre_unique (hmv.leaves.nodup_iff.2 hd) h4 h5]
    exact h3
  · rw [if_neg c1]
    by_cases c2 : mn = left + 1
    · rw [if_pos c2]
      have hk := kids_spec left hcs hd
      have hins := addTo_spec (i := right) (n := left) (nd := .node ll [.leaf left]) true (by simp) l hk.good (by rw [hk.leaves]; exact hd.filter _)
        (by rw [hk.leaves, List.mem_filter]; exact ⟨hnr, by simpa using Ne.symm hlr⟩)
      rw [← popRoot_kids left l cs] at hins
      have hmv : Moved p (.node l cs) (addTo right (.node ll [.leaf left]) true (popRoot left (.node l cs))) := by
        refine moved_of_ins (l0 := ll) hcs hd hsubl hpl (by rw [← popRoot_kids]; exact hins) ?_ ?_
        · intro l' cs1 cs' hm hl' hiff hn hT
          have hnot : right ∉ leavesL cs1 := by
            rcases hT with hT | hT
            · intro h
              exact hT (by rw [hl', List.mem_filter]; exact ⟨h, by simpa using Ne.symm hlr⟩)
            · rw [(hiff right).1 hT] at hn
              simp at hn
              exact absurd hn hlr
          rw [hl']
          refine fan_remove_last ?_
          intro h
          have hmn' : mn ∈ leavesL cs1 := by rw [c2]; exact h
          rcases nested (t := .node l cs) hd hm hq2.1 (i := mn) hmn' hmnm.1 with h3 | h3
          · have := hmnm.2 left (subtree_leaves h3 left hn); omega
          · exact hnot (subtree_leaves h3 right (hmem hq2.2))
        · intro l' cs1 hm hn hw hne
          have := parent_sub (t := .node l cs) hd hq2 hm hw (hne right) mn hmnm.1
          rw [c2] at this
          exact fan_insert_before hn this
      refine ⟨_, rfl, hmv, fun _ _ _ _ _ _ _ => ?_⟩
      obtain ⟨l', ds, h1, h2, l0, h3⟩ := hins.here
      refine ⟨l', ds, h1, h2, ?_⟩
      have h4 := hmv.pre lr right hr
      have h5 : .node l0 [.leaf right] ∈ subtrees (addTo right (.node ll [.leaf left]) true (popRoot left (.node l cs))) :=
        subtrees_trans (y := .node l' ds) (by rw [subtrees_node]; exact List.mem_cons_of_mem _ (mem_subtreesL.2 ⟨_, h3, by simp⟩)) h1
      rw [pre_unique (hmv.leaves.nodup_iff.2 hd) h4 h5]
      exact h3
    · rw [if_neg c2]
      refine ⟨_, rfl, Moved.refl p l hcs, ?_⟩
      intro l1' ds1' l2' ds2' h1 h2 h
      exfalso
      rcases h with ⟨h, h0⟩ | h
      · have := max?_mem h
        have e1 := this.2 mx ((huniq h1 hq1 mx).2 hmxm.1)
        have e2 := hmxm.2 (right - 1) ((huniq h1 hq1 _).1 this.1)
        omega
      · have := min?_mem h
        have e1 := this.2 mn ((huniq h2 hq2 mn).2 hmnm.1)
        have e2 := hmnm.2 (left + 1) ((huniq h2 hq2 _).1 this.1)
        omega

/-! ### balancedpunctraise -/

/-- An entry of `termparent`. -/
def entry (tag : L → Str) (sent : List Str) : PTree L → Option (Nat × PTree L)
  | .node l (.leaf i :: ds) => if ispunct ((sent[i]?).getD []) (tag l) then some (i, .node l (.leaf i :: ds)) else none
  | _ => none

theorem termparent_eq (tag : L → Str) (sent : List Str) {xs : List (PTree L)} (h : ∀ x ∈ xs, ∀ i ∈ x.leaves, i < sent.length) :
    termparent tag sent xs = some (xs.filterMap (entry tag sent)) := by
  induction xs with
  | nil => rfl
  | cons c cs ih =>
    have ih := ih fun x hx => h x (by simp [hx])
    rw [List.filterMap_cons]
    match c, h c (by simp) with
    | .node l (.leaf i :: ds), hi =>
      have hi : i < sent.length := hi i (by simp)
      rw [termparent]
      simp only [List.getElem?_eq_getElem hi, ih, entry, Option.getD_some]
      split <;> simp
    | .leaf i, _ => rw [termparent]; exact ih; simp
    | .node l [], _ => rw [termparent]; exact ih; simp
    | .node l (.node l' es :: ds), _ => rw [termparent]; exact ih; simp

theorem entry_some {tag : L → Str} {sent : List Str} {c : PTree L} {x : Nat × PTree L} (hc : Spec.Constituent c) (h : entry tag sent c = some x) :
    ∃ l, x.2 = .node l [.leaf x.1] ∧ c = x.2 := by
  obtain ⟨l, ds, rfl⟩ := hc.node
  rcases hc.cases' with ⟨i, rfl⟩ | ⟨hne, hcs⟩
  · rw [entry] at h
    split at h
    · injection h with h; subst h; exact ⟨l, rfl, rfl⟩
    · cases h
  · cases ds with
    | nil => exact absurd rfl hne
    | cons d ds => obtain ⟨l', es, rfl⟩ := (hcs d (by simp)).node; rw [entry] at h; cases h; simp

theorem entry_sub {tag : L → Str} {sent : List Str} {t : PTree L} (ht : Spec.Constituent t) :
    (((subtrees t).filterMap (entry tag sent)).map (·.1)).Sublist t.leaves := by
  induction t using PTree.ind with
  | hleaf i => exact absurd ht not_constituent_leaf
  | hnode l cs ih =>
    rcases ht.cases' with ⟨i, rfl⟩ | ⟨hne, hcs⟩
    · simp only [subtrees_node, subtreesL_cons, subtrees_leaf, subtreesL_nil, List.append_nil, List.filterMap_cons, List.filterMap_nil, leaves_node, leavesL_cons, leaves_leaf, leavesL_nil, entry]
      split <;> rename_i h
      · simp
      · split at h
        · injection h with h; subst h; simp
        · cases h
    · have e : entry tag sent (.node l cs) = none := by
        cases cs with
        | nil => rfl
        | cons d ds => obtain ⟨l', es, rfl⟩ := (hcs d (by simp)).node; rfl
      rw [subtrees_node, List.filterMap_cons, e, leaves_node]
      simp only
      clear e ht hne
      induction cs with
      | nil => simp
      | cons c cs ih2 =>
        rw [subtreesL_cons, leavesL_cons, List.filterMap_append, List.map_append]
        exact (ih c (by simp) (hcs c (by simp))).append (ih2 (fun c hc => ih c (by simp [hc])) fun c hc => hcs c (by simp [hc]))

theorem entry_subL {tag : L → Str} {sent : List Str} {l : L} {cs : List (PTree L)} (hcs : ∀ c ∈ cs, Spec.Constituent c) :
    (((subtrees (.node l cs)).filterMap (entry tag sent)).map (·.1)).Sublist (leavesL cs) := by
  by_cases h : cs = []
  · subst h; rw [subtrees_node]; simp [entry]
  · exact entry_sub (.of h hcs)

/-- A mark that occurs in a balanced pair. -/
def Spec.Balancing (w : Str) : Prop := ∃ pair ∈ BALANCED, w = pair.1 ∨ w = pair.2

/-- The words that `balancedpunctraise` may move: marks that occur in a balanced pair, with a punctuation tag. -/
def Spec.BalancedMark (tag : L → Str) (sent : List Str) (t : PTree L) (i : Nat) : Prop :=
  ∃ l w, .node l [.leaf i] ∈ subtrees t ∧ sent[i]? = some w ∧ tag l ∈ PUNCTTAGS ∧ Spec.Balancing w

theorem balLoop_spec (tag : L → Str) (sent : List Str) {p : Nat → Bool} (rest : List (Nat × PTree L)) {l : L} {cs : List (PTree L)} (pm : Dict Str (Nat × PTree L))
    (hcs : ∀ c ∈ cs, Spec.Constituent c) (hd : (leavesL cs).Nodup) (hwf : Dict.WF pm)
    (hrest : ∀ x ∈ rest, (∃ l', x.2 = .node l' [.leaf x.1]) ∧ x.2 ∈ subtrees (.node l cs) ∧ x.1 < sent.length)
    (hp : ∀ x ∈ rest, ∀ l' w, x.2 = .node l' [.leaf x.1] → sent[x.1]? = some w → tag l' ∈ PUNCTTAGS → Spec.Balancing w → p x.1 = true)
    (hnd : (rest.map (·.1)).Nodup)
    (hpm : ∀ w v, Dict.get? pm w = some v → p v.1 = true ∧ (∃ l', v.2 = .node l' [.leaf v.1]) ∧ v.2 ∈ subtrees (.node l cs) ∧ v.1 ∉ rest.map (·.1) ∧
      Spec.Balancing w) :
    ∃ u, balLoop tag sent rest (.node l cs) pm = some u ∧ Moved p (.node l cs) u := by
  induction rest generalizing cs pm with
  | nil => exact ⟨_, rfl, Moved.refl p l hcs⟩
  | cons x rest ih =>
    obtain ⟨i, nd⟩ := x
    obtain ⟨⟨l0, h1⟩, h2, h3⟩ := hrest (i, nd) (by simp)
    simp only at h1 h2 h3
    subst h1
    have hw := List.getElem?_eq_getElem h3
    rw [List.map_cons, List.nodup_cons] at hnd
    rw [balLoop.eq_def]
    simp only [hw]
    have hrest' : ∀ x ∈ rest, (∃ l', x.2 = .node l' [.leaf x.1]) ∧ x.2 ∈ subtrees (.node l cs) ∧ x.1 < sent.length := fun x hx => hrest x (by simp [hx])
    have hp' : ∀ x ∈ rest, ∀ l' w, x.2 = .node l' [.leaf x.1] → sent[x.1]? = some w → tag l' ∈ PUNCTTAGS → Spec.Balancing w → p x.1 = true :=
      fun x hx => hp x (by simp [hx])
    have hpm' : ∀ w v, Dict.get? pm w = some v → p v.1 = true ∧ (∃ l', v.2 = .node l' [.leaf v.1]) ∧ v.2 ∈ subtrees (.node l cs) ∧ v.1 ∉ rest.map (·.1) ∧
        Spec.Balancing w := by
      intro w v hv
      obtain ⟨a, b, c, d, e⟩ := hpm w v hv
      exact ⟨a, b, c, fun h => d (by simp only [List.map_cons, List.mem_cons]; exact Or.inr h), e⟩
    split
    · rename_i htag
      have htag' : tag l0 ∈ PUNCTTAGS := by simpa using htag
      cases hg : Dict.get? pm sent[i] with
      | some v =>
        obtain ⟨left, ln⟩ := v
        simp only
        obtain ⟨a, ⟨ll, b⟩, c, d, e⟩ := hpm _ _ hg
        simp only at a b c d e
        subst b
        have hpi : p i = true := hp (i, .node l0 [.leaf i]) (by simp) l0 sent[i] rfl hw htag' e
        obtain ⟨u, h4, h5, -⟩ := movePair_spec (p := p) hcs hd c h2 (by rintro rfl; simp at d) a hpi
        rw [h4]
        simp only
        have hu := h5.root
        obtain ⟨l1, cs1, ds, e1, rfl, hds⟩ := hu
        injection e1 with e1 e2
        subst e1; subst e2
        have hlv : (leavesL ds).Perm (leavesL cs) := h5.leaves
        obtain ⟨v, h6, h7⟩ := ih (cs := ds) (Dict.erase pm sent[i]) hds (hlv.nodup_iff.2 hd) (hwf.erase _)
          (fun x hx => by
            obtain ⟨⟨l', h⟩, h', h''⟩ := hrest' x hx
            refine ⟨⟨l', h⟩, ?_, h''⟩
            rw [h] at h' ⊢
            exact h5.pre l' _ h') hp' hnd.2 (fun w v hv => by
              rw [Dict.get?_erase hwf] at hv
              split at hv
              · cases hv
              · obtain ⟨a, ⟨l', b⟩, c, d⟩ := hpm' w v hv
                refine ⟨a, ⟨l', b⟩, ?_, d⟩
                rw [b] at c ⊢
                exact h5.pre l' _ c)
        exact ⟨v, h6, h5.trans h7⟩
      | none =>
        simp only
        cases hb : Dict.get? BALANCED sent[i] with
        | none => exact ih pm hcs hd hwf hrest' hp' hnd.2 hpm'
        | some r =>
          have hm := Dict.mem_of_get? hb
          refine ih (Dict.set pm r (i, .node l0 [.leaf i])) hcs hd (hwf.set _ _) hrest' hp' hnd.2 ?_
          intro w v hv
          rw [Dict.get?_set] at hv
          split at hv
          · rename_i e
            injection hv with hv
            subst hv
            subst e
            refine ⟨?_, ⟨l0, rfl⟩, h2, hnd.1, _, hm, Or.inr rfl⟩
            exact hp (i, .node l0 [.leaf i]) (by simp) l0 sent[i] rfl hw htag' ⟨_, hm, Or.inl rfl⟩
          · exact hpm' w v hv
    · exact ih pm hcs hd hwf hrest' hp' hnd.2 hpm'

/-- **C48.** `balancedpunctraise` moves punctuation that comes in pairs, and nothing else: the rest of the tree is the same, every word keeps its preterminal, and no
constituent gets more gaps. -/
theorem C48_balancedpunctraise (tag : L → Str) (sent : List Str) (t : PTree L) (ht : Spec.TreeFor sent.length t) :
    ∃ u, balancedpunctraise tag t sent = some u ∧ Spec.TreeFor sent.length u ∧ (∃ l cs ds, t = .node l cs ∧ u = .node l ds) ∧
      (∀ p : Nat → Bool, (∀ i, Spec.BalancedMark tag sent t i → p i = true) → Spec.withoutL p u.children = Spec.withoutL p t.children) ∧
      (∀ l i, .node l [.leaf i] ∈ subtrees u ↔ .node l [.leaf i] ∈ subtrees t) ∧ Spec.NoMoreGaps t u := by
  obtain ⟨l, cs, rfl, hcs⟩ := ht.root
  have hd : (leavesL cs).Nodup := ht.nodup
  have hlt : ∀ i ∈ leavesL cs, i < sent.length := fun i hi => List.mem_range.1 (ht.words.mem_iff.1 hi)
  have hlt' : ∀ x ∈ subtrees (.node l cs), ∀ i ∈ x.leaves, i < sent.length := fun x hx i hi => hlt i (subtree_leaves hx i hi)
  have hts := termparent_eq tag sent hlt'
  have hent : ∀ x ∈ stableSort (fun a b : Nat × PTree L => decide (a.1 ≤ b.1)) ((subtrees (.node l cs)).filterMap (entry tag sent)),
      (∃ l', x.2 = .node l' [.leaf x.1]) ∧ x.2 ∈ subtrees (.node l cs) ∧ x.1 < sent.length := by
    intro x hx
    rw [StableSort.mem, List.mem_filterMap] at hx
    obtain ⟨c, hc, hx⟩ := hx
    have hcc : Spec.Constituent c := by
      by_cases e : c = .node l cs
      · subst e
        refine .of ?_ hcs
        rintro rfl
        cases hx
      · exact good_child hcs hc e
    obtain ⟨l', h1, h2⟩ := entry_some hcc hx
    subst h2
    refine ⟨⟨l', h1⟩, hc, hlt' _ hc x.1 ?_⟩
    rw [h1]; simp
  have hnd : ((stableSort (fun a b : Nat × PTree L => decide (a.1 ≤ b.1)) ((subtrees (.node l cs)).filterMap (entry tag sent))).map (·.1)).Nodup := by
    rw [((StableSort.perm _).map _).nodup_iff]
    exact (entry_subL hcs).nodup hd
  have key := fun p (hp : ∀ i, Spec.BalancedMark tag sent (.node l cs) i → p i = true) => balLoop_spec tag sent (p := p) _ [] hcs hd List.nodup_nil hent
    (fun x hx l' w h1 h2 h3 h4 => hp x.1 ⟨l', w, by rw [← h1]; exact (hent x hx).2.1, h2, h3, h4⟩) hnd (fun w v h => by cases h)
  have e : balancedpunctraise tag (.node l cs) sent = balLoop tag sent
      (stableSort (fun a b : Nat × PTree L => decide (a.1 ≤ b.1)) ((subtrees (.node l cs)).filterMap (entry tag sent))) (.node l cs) [] := by
    rw [balancedpunctraise, hts]
  obtain ⟨u, h5, h6⟩ := key (fun _ => true) fun _ _ => rfl
  refine ⟨u, by rw [e, h5], h6.tree ht, ?_, ?_, h6.pre_iff ht, h6.gaps⟩
  · obtain ⟨l', cs', ds, e, e', -⟩ := h6.root
    exact ⟨l', cs', ds, e, e'⟩
  · intro p hp
    obtain ⟨u', h7, h8⟩ := key p hp
    rw [h5] at h7
    have := Option.some.inj h7
    subst this
    exact h8.without

end Disco.Punct
