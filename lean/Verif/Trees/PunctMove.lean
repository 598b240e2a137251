import Mathlib.Data.Finset.Card
import Mathlib.Data.List.Perm.Basic
import Mathlib.Tactic.SplitIfs
import Verif.Trees.Fanout
import Verif.Trees.Punctuation
/-!
# C48: what moving punctuation does to a tree
-/
namespace Disco.Punct
open PTree

variable {L : Type}

/-! ### Specification -/

/-- Constituents below the root: each word has a preterminal of its own, and no constituent is empty. -/
inductive Spec.Constituent : PTree L → Prop
  | preterminal (l : L) (i : Nat) : Spec.Constituent (.node l [.leaf i])
  | phrase (l : L) (c : PTree L) (cs : List (PTree L)) : Spec.Constituent c → (∀ d ∈ cs, Spec.Constituent d) → Spec.Constituent (.node l (c :: cs))

/-- A tree for a sentence of `n` words. -/
structure Spec.TreeFor (n : Nat) (t : PTree L) : Prop where
  root : ∃ l cs, t = .node l cs ∧ ∀ c ∈ cs, Spec.Constituent c
  words : t.leaves.Perm (List.range n)

mutual
/-- A constituent without the words that satisfy `p`; constituents without other words disappear. -/
def Spec.without (p : Nat → Bool) : PTree L → List (PTree L)
  | .leaf i => if p i then [] else [.leaf i]
  | .node l cs => match Spec.withoutL p cs with
    | [] => []
    | d :: ds => [.node l (d :: ds)]
/-- The same for a list of sisters. -/
def Spec.withoutL (p : Nat → Bool) : List (PTree L) → List (PTree L)
  | [] => []
  | c :: cs => Spec.without p c ++ Spec.withoutL p cs
end

/-- No constituent of `u` has more gaps than it has in `t`. Constituents are identified by their labels; these may carry anything that tells
constituents apart. -/
def Spec.NoMoreGaps (t u : PTree L) : Prop :=
  ∀ l ds, .node l ds ∈ subtrees u → ∃ cs, .node l cs ∈ subtrees t ∧
    ∀ m n, FanoutMark.Spec.Blocks (leavesL cs) m → FanoutMark.Spec.Blocks (leavesL ds) n → n ≤ m

/-! ### The number of blocks -/

/-- The number of positions that start a block. -/
def fan (ls : List Nat) : Nat := (ls.toFinset.filter fun a => a = 0 ∨ a - 1 ∉ ls).card

theorem fan_eq (ls : List Nat) : fan ls = FanoutMark.thisfanout ls := by
  rw [fan, FanoutMark.thisfanout, ← List.toFinset_card_of_nodup]
  · congr 1
    ext a
    rw [Finset.mem_filter, List.mem_toFinset, List.mem_toFinset, List.mem_filter, StableSort.mem, List.mem_dedup]
    simp only [ne_eq, Bool.not_eq_true', Bool.and_eq_false_iff, decide_eq_false_iff_not, not_not, List.contains_eq_mem]
  · exact ((StableSort.perm _).nodup_iff.2 (List.nodup_dedup ls)).filter _

theorem blocks_fan {ls : List Nat} {n : Nat} (h : FanoutMark.Spec.Blocks ls n) : n = fan ls := by
  rw [fan_eq]; exact FanoutMark.blocks_unique h (FanoutMark.thisfanout_blocks ls)

theorem fan_congr {a b : List Nat} (h : ∀ x, x ∈ a ↔ x ∈ b) : fan a = fan b := by
  rw [fan, fan]
  congr 1
  ext x
  simp only [Finset.mem_filter, List.mem_toFinset, h]

theorem fan_insert_before {ls : List Nat} {n : Nat} (h0 : n ∉ ls) (h : n + 1 ∈ ls) : fan (n :: ls) ≤ fan ls := by
  rw [fan, fan]
  refine Finset.card_le_card_of_injOn (fun a => if a = n then n + 1 else a) ?_ ?_
  · intro a ha
    simp only [Finset.coe_filter, List.mem_toFinset, List.mem_cons, not_or, Set.mem_ofPred_eq] at ha ⊢
    split
    · exact ⟨h, Or.inr (by simpa using h0)⟩
    · rename_i hne
      rcases ha with ⟨h1 | h1, h2⟩
      · exact absurd h1 hne
      · exact ⟨h1, h2.imp id fun h => h.2⟩
  · intro a ha b hb hab
    simp only [Finset.coe_filter, List.mem_toFinset, List.mem_cons, not_or, Set.mem_ofPred_eq] at ha hb
    simp only at hab
    split_ifs at hab with h1 h2 h2
    · rw [h1, h2]
    · exfalso
      rcases hb.2 with h3 | h3
      · omega
      · exact h3.1 (by omega)
    · exfalso
      rcases ha.2 with h3 | h3
      · omega
      · exact h3.1 (by omega)
    · exact hab

theorem fan_insert_after {ls : List Nat} {n : Nat} (h : n ∈ ls) : fan ((n + 1) :: ls) ≤ fan ls := by
  rw [fan, fan]
  refine Finset.card_le_card ?_
  intro a ha
  simp only [Finset.mem_filter, List.mem_toFinset, List.mem_cons, not_or] at ha ⊢
  rcases ha with ⟨h1 | h1, h2⟩
  · subst h1
    rcases h2 with h2 | h2
    · omega
    · exact absurd h h2.2
  · exact ⟨h1, h2.imp id fun h => h.2⟩

theorem fan_remove_last {ls : List Nat} {n : Nat} (h : n + 1 ∉ ls) : fan (ls.filter (· ≠ n)) ≤ fan ls := by
  rw [fan, fan]
  refine Finset.card_le_card ?_
  intro a ha
  simp only [Finset.mem_filter, List.mem_toFinset, List.mem_filter, decide_eq_true_eq, not_and, not_not] at ha ⊢
  refine ⟨ha.1.1, ?_⟩
  by_cases h0 : a = 0
  · exact Or.inl h0
  · right
    intro h1
    rcases ha.2 with h2 | h2
    · exact h0 h2
    · have := h2 h1
      exact h (by rw [← this, Nat.sub_add_cancel (by omega)]; exact ha.1.1)

theorem fan_remove_first {ls : List Nat} {n : Nat} (hn : n ∈ ls) (h : n = 0 ∨ n - 1 ∉ ls) : fan (ls.filter (· ≠ n)) ≤ fan ls := by
  rw [fan, fan]
  refine Finset.card_le_card_of_injOn (fun a => if a = n + 1 then n else a) ?_ ?_
  · intro a ha
    simp only [Finset.coe_filter, List.mem_toFinset, List.mem_filter, decide_eq_true_eq, not_and, not_not, Set.mem_ofPred_eq] at ha ⊢
    split
    · exact ⟨hn, h⟩
    · rename_i hne
      refine ⟨ha.1.1, ?_⟩
      by_cases h0 : a = 0
      · exact Or.inl h0
      · right
        intro h1
        rcases ha.2 with h2 | h2
        · exact h0 h2
        · have := h2 h1; omega
  · intro a ha b hb hab
    simp only [Finset.coe_filter, List.mem_toFinset, List.mem_filter, decide_eq_true_eq, not_and, not_not, Set.mem_ofPred_eq] at ha hb
    simp only at hab
    have := ha.1.2
    have := hb.1.2
    split_ifs at hab <;> omega

/-! ### Trees -/

theorem nodup_child {cs : List (PTree L)} (h : (leavesL cs).Nodup) {c : PTree L} (hc : c ∈ cs) : c.leaves.Nodup := by
  obtain ⟨xs, ys, rfl⟩ := List.append_of_mem hc
  simp only [leavesL_append, leavesL_cons] at h
  exact (List.nodup_append.1 (List.nodup_append.1 h).2.1).1

theorem child_unique {cs : List (PTree L)} (h : (leavesL cs).Nodup) {c c' : PTree L} (hc : c ∈ cs) (hc' : c' ∈ cs) {i : Nat} (hi : i ∈ c.leaves) (hi' : i ∈ c'.leaves) : c = c' := by
  induction cs with
  | nil => cases hc
  | cons d cs ih =>
    rw [leavesL_cons] at h
    have hd := List.nodup_append.1 h
    rcases List.mem_cons.1 hc with rfl | hc2
    · rcases List.mem_cons.1 hc' with rfl | hc2'
      · rfl
      · exact absurd rfl (hd.2.2 i hi i (mem_leavesL.2 ⟨c', hc2', hi'⟩))
    · rcases List.mem_cons.1 hc' with rfl | hc2'
      · exact absurd rfl (hd.2.2 i hi' i (mem_leavesL.2 ⟨c, hc2, hi⟩))
      · exact ih hd.2.1 hc2 hc2'

theorem subtree_leaves {t s : PTree L} (h : s ∈ subtrees t) : ∀ i ∈ s.leaves, i ∈ t.leaves := by
  induction t using PTree.ind with
  | hleaf i => simp at h
  | hnode a cs ih =>
    rw [subtrees_node, List.mem_cons] at h
    rcases h with rfl | h
    · exact fun _ h => h
    · obtain ⟨c, hc, h⟩ := mem_subtreesL.1 h
      intro i hi
      rw [leaves_node]
      exact mem_leavesL.2 ⟨c, hc, ih c hc h i hi⟩

/-- Constituents that share a word are nested. -/
theorem nested {t : PTree L} (hd : t.leaves.Nodup) {s s' : PTree L} (h : s ∈ subtrees t) (h' : s' ∈ subtrees t) {i : Nat} (hi : i ∈ s.leaves) (hi' : i ∈ s'.leaves) :
    s ∈ subtrees s' ∨ s' ∈ subtrees s := by
  induction t using PTree.ind with
  | hleaf i => simp at h
  | hnode a cs ih =>
    have h0 := h
    have h0' := h'
    rw [subtrees_node, List.mem_cons] at h h'
    rcases h with rfl | h
    · exact .inr h0'
    · rcases h' with rfl | h'
      · exact .inl h0
      · obtain ⟨c, hc, h⟩ := mem_subtreesL.1 h
        obtain ⟨c', hc', h'⟩ := mem_subtreesL.1 h'
        rw [leaves_node] at hd
        have := child_unique hd hc hc' (subtree_leaves h i hi) (subtree_leaves h' i hi')
        subst this
        exact ih c hc (nodup_child hd hc) h h'

theorem withoutL_eq (p : Nat → Bool) (cs : List (PTree L)) : Spec.withoutL p cs = cs.flatMap (Spec.without p) := by
  induction cs with
  | nil => rfl
  | cons c cs ih => rw [Spec.withoutL, ih, List.flatMap_cons]

theorem withoutL_append (p : Nat → Bool) (a b : List (PTree L)) : Spec.withoutL p (a ++ b) = Spec.withoutL p a ++ Spec.withoutL p b := by
  rw [withoutL_eq, withoutL_eq, withoutL_eq, List.flatMap_append]

theorem without_congr {p : Nat → Bool} {l : L} {cs ds : List (PTree L)} (h : Spec.withoutL p cs = Spec.withoutL p ds) :
    Spec.without p (.node l cs) = Spec.without p (.node l ds) := by
  rw [Spec.without, Spec.without, h]

theorem without_pre {p : Nat → Bool} {n : Nat} (h : p n = true) (l : L) : Spec.without p (.node l [.leaf n]) = [] := by
  rw [Spec.without, Spec.withoutL, Spec.withoutL, Spec.without, if_pos h]; rfl

theorem without_empty {p : Nat → Bool} {l : L} {cs : List (PTree L)} (h : Spec.withoutL p cs = []) : Spec.without p (.node l cs) = [] := by
  rw [Spec.without, h]

theorem Spec.Constituent.cases' {l : L} {cs : List (PTree L)} (h : Spec.Constituent (.node l cs)) :
    (∃ i, cs = [.leaf i]) ∨ (cs ≠ [] ∧ ∀ c ∈ cs, Spec.Constituent c) := by
  cases h with
  | preterminal _ i => exact Or.inl ⟨_, rfl⟩
  | phrase _ c cs hc hcs =>
    right
    refine ⟨by simp, fun d hd => ?_⟩
    rcases List.mem_cons.1 hd with rfl | hd
    · exact hc
    · exact hcs d hd

theorem Spec.Constituent.of {l : L} {cs : List (PTree L)} (hne : cs ≠ []) (h : ∀ c ∈ cs, Spec.Constituent c) : Spec.Constituent (.node l cs) := by
  cases cs with
  | nil => exact absurd rfl hne
  | cons c cs => exact .phrase l c cs (h c (by simp)) fun d hd => h d (by simp [hd])

theorem not_constituent_leaf {i : Nat} : ¬ Spec.Constituent (.leaf i : PTree L) := fun h => by cases h

theorem Spec.Constituent.node {t : PTree L} (h : Spec.Constituent t) : ∃ l cs, t = .node l cs := by cases h <;> exact ⟨_, _, rfl⟩

theorem Spec.Constituent.leaves_ne {t : PTree L} (h : Spec.Constituent t) : t.leaves ≠ [] := by
  induction h with
  | preterminal l i => simp
  | phrase l c cs _ _ ih _ => rw [leaves_node, leavesL_cons]; simp [ih]

theorem isPre_iff {i : Nat} {c : PTree L} (h : Spec.Constituent c) : isPre i c = true ↔ ∃ l, c = .node l [.leaf i] := by
  obtain ⟨l, cs, rfl⟩ := h.node
  rcases h.cases' with ⟨j, rfl⟩ | ⟨hne, hcs⟩
  · simp [isPre]
  · cases cs with
    | nil => exact absurd rfl hne
    | cons c cs =>
      obtain ⟨l', ds, rfl⟩ := (hcs c (by simp)).node
      simp [isPre]

theorem good_child {l : L} {cs : List (PTree L)} (hg : ∀ c ∈ cs, Spec.Constituent c) {s : PTree L} (hs : s ∈ subtrees (.node l cs)) (hne : s ≠ .node l cs) :
    Spec.Constituent s := by
  rw [subtrees_node, List.mem_cons] at hs
  rcases hs with h | h
  · exact absurd h hne
  · have key : ∀ t : PTree L, Spec.Constituent t → ∀ s ∈ subtrees t, Spec.Constituent s := by
      intro t ht
      induction ht with
      | preterminal l i => intro s hs; simp at hs; rw [hs]; exact .preterminal l i
      | phrase l c cs hc hcs ih1 ih2 =>
        intro s hs
        rw [subtrees_node, List.mem_cons] at hs
        rcases hs with rfl | hs
        · exact .phrase l c cs hc hcs
        · obtain ⟨d, hd, hs'⟩ := mem_subtreesL.1 hs
          rcases List.mem_cons.1 hd with rfl | hd
          · exact ih1 s hs'
          · exact ih2 d hd s hs'
    obtain ⟨c, hc, h⟩ := mem_subtreesL.1 h
    exact key c (hg c hc) s h

theorem constituent_sub {t : PTree L} (h : Spec.Constituent t) : ∀ s ∈ subtrees t, Spec.Constituent s := by
  intro s hs
  obtain ⟨l, cs, rfl⟩ := h.node
  by_cases e : s = .node l cs
  · rw [e]; exact h
  · rcases h.cases' with ⟨j, rfl⟩ | ⟨_, hcs⟩
    · simp at hs; exact absurd hs e
    · exact good_child hcs hs e

/-! ### Adding a preterminal -/

/-- The effect of adding the constituent `nd` with the single word `n` somewhere in a tree: `w` is a word below the new parent. -/
structure Ins (nd : PTree L) (n w : Nat) (T R : List (PTree L) → Prop) (t u : PTree L) : Prop where
  leaves : u.leaves.Perm (n :: t.leaves)
  nodes : ∀ l ds, .node l ds ∈ subtrees u → .node l ds ∈ subtrees nd ∨ ∃ cs, .node l cs ∈ subtrees t ∧
    ((ds = cs ∧ (w ∉ leavesL cs ∨ T cs)) ∨ ((∀ x, x ∈ leavesL ds ↔ x = n ∨ x ∈ leavesL cs) ∧ w ∈ leavesL cs ∧ ∀ j, cs ≠ [.leaf j]))
  word : w ∈ t.leaves
  keep : ∀ l ds, .node l ds ∈ subtrees t → ∃ ds', .node l ds' ∈ subtrees u ∧
    ∀ y ∈ ds, (w ∉ y.leaves ∨ ∃ l i, y = .node l [.leaf i]) → y ∈ ds'
  kidsKeep : ∀ y ∈ t.children, (w ∉ y.leaves ∨ ∃ l i, y = .node l [.leaf i]) → y ∈ u.children
  pre : ∀ l i, .node l [.leaf i] ∈ subtrees t → .node l [.leaf i] ∈ subtrees u
  without : ∀ p, Spec.without p nd = [] → Spec.withoutL p u.children = Spec.withoutL p t.children
  here : ∃ l ds, .node l ds ∈ subtrees u ∧ nd ∈ ds ∧ R ds
  top : ∃ l cs ds, t = .node l cs ∧ u = .node l ds
  good : Spec.Constituent nd → (∀ x ∈ t.children, Spec.Constituent x) → ∀ x ∈ u.children, Spec.Constituent x

theorem Ins.here' {nd : PTree L} {n w : Nat} {T R : List (PTree L) → Prop} (hnd : nd.leaves = [n]) {l : L} {cs es : List (PTree L)}
    (hes : es = nd :: cs ∨ es = cs ++ [nd]) (hcs : ∀ c ∈ cs, Spec.Constituent c) (hw : w ∈ leavesL cs)
    (hT : ∀ l' ds, .node l' ds ∈ subtreesL cs → w ∉ leavesL ds ∨ T ds) (hR : R es) : Ins nd n w T R (.node l cs) (.node l es) := by
  have hp : es.Perm (nd :: cs) := by
    rcases hes with rfl | rfl
    · exact List.Perm.refl _
    · exact List.perm_append_comm
  have hl : (leavesL es).Perm (n :: leavesL cs) := by
    rcases hes with rfl | rfl
    · rw [leavesL_cons, hnd]; exact List.Perm.refl _
    · rw [leavesL_append, leavesL_cons, leavesL_nil, hnd]; exact List.perm_append_comm
  have hsub : ∀ x ∈ subtreesL cs, x ∈ subtreesL es := by
    intro x hx
    obtain ⟨c, hc, hx⟩ := mem_subtreesL.1 hx
    exact mem_subtreesL.2 ⟨c, hp.symm.subset (by simp [hc]), hx⟩
  refine ⟨hl, ?_, hw, ?_, fun y hy _ => hp.symm.subset (List.mem_cons_of_mem _ hy), ?_, ?_, ⟨l, es, by rw [subtrees_node]; simp, hp.symm.subset (by simp), hR⟩, ⟨l, cs, es, rfl, rfl⟩, ?_⟩
  · intro l' ds hm
    rw [subtrees_node, List.mem_cons] at hm
    rcases hm with e | hm
    · injection e with e1 e2
      subst e1; subst e2
      exact Or.inr ⟨cs, by rw [subtrees_node]; simp, Or.inr ⟨fun x => by rw [hl.mem_iff, List.mem_cons], hw, fun j e => by rw [e] at hcs; exact absurd (hcs (.leaf j) (by simp)) not_constituent_leaf⟩⟩
    · obtain ⟨c, hc, hm⟩ := mem_subtreesL.1 hm
      rcases List.mem_cons.1 (hp.subset hc) with rfl | hc
      · exact Or.inl hm
      · have hm' := mem_subtreesL.2 ⟨c, hc, hm⟩
        exact Or.inr ⟨ds, by rw [subtrees_node]; exact List.mem_cons_of_mem _ hm', Or.inl ⟨rfl, hT l' ds hm'⟩⟩
  · intro l' ds hm
    rw [subtrees_node, List.mem_cons] at hm
    rcases hm with e | hm
    · injection e with e1 e2
      subst e1; subst e2
      exact ⟨es, by rw [subtrees_node]; simp, fun y hy _ => hp.symm.subset (by simp [hy])⟩
    · exact ⟨ds, by rw [subtrees_node]; exact List.mem_cons_of_mem _ (hsub _ hm), fun y hy _ => hy⟩
  · intro l' i hm
    rw [subtrees_node, List.mem_cons] at hm
    rcases hm with e | hm
    · injection e with e1 e2
      subst e2
      exact absurd (hcs (.leaf i) (by simp)) not_constituent_leaf
    · rw [subtrees_node]; exact List.mem_cons_of_mem _ (hsub _ hm)
  · intro p hq
    show Spec.withoutL p es = Spec.withoutL p cs
    rcases hes with rfl | rfl
    · rw [Spec.withoutL, hq]; rfl
    · rw [withoutL_append, Spec.withoutL, hq]; simp [Spec.withoutL]
  · intro h1 h2 x hx
    rcases List.mem_cons.1 (hp.subset hx) with rfl | hx
    · exact h1
    · exact h2 x hx

theorem Ins.below {nd : PTree L} {n w : Nat} {T R : List (PTree L) → Prop} {l : L} {a b : List (PTree L)} {c d : PTree L} (h : Ins nd n w T R c d)
    (hc : ∀ x ∈ c.children, Spec.Constituent x) (hT : ∀ l' ds, .node l' ds ∈ subtreesL (a ++ b) → w ∉ leavesL ds ∨ T ds) :
    Ins nd n w T R (.node l (a ++ c :: b)) (.node l (a ++ d :: b)) := by
  have hl : (leavesL (a ++ d :: b)).Perm (n :: leavesL (a ++ c :: b)) := by
    rw [leavesL_append, leavesL_append, leavesL_cons, leavesL_cons]
    refine ((h.leaves.append_right _).append_left _).trans ?_
    rw [List.cons_append]
    exact List.perm_middle
  have hsub : ∀ x ∈ subtreesL (a ++ b), x ∈ subtreesL (a ++ d :: b) := by
    intro x hx; simp only [subtreesL_append, subtreesL_cons, List.mem_append] at hx ⊢; tauto
  have hkk : ∀ y ∈ a ++ c :: b, (w ∉ y.leaves ∨ ∃ l i, y = .node l [.leaf i]) → y ∈ a ++ d :: b := by
    intro y hy hw
    simp only [List.mem_append, List.mem_cons] at hy ⊢
    rcases hy with hy | rfl | hy
    · exact Or.inl hy
    · rcases hw with hw | ⟨l', i, rfl⟩
      · exact absurd h.word hw
      · exact absurd (hc (.leaf i) (by simp [PTree.children])) not_constituent_leaf
    · exact Or.inr (Or.inr hy)
  refine ⟨hl, ?_, ?_, ?_, hkk, ?_, ?_, ?_, ⟨l, _, _, rfl, rfl⟩, ?_⟩
  · intro l' ds hm
    rw [subtrees_node, List.mem_cons] at hm
    rcases hm with e | hm
    · injection e with e1 e2
      subst e1; subst e2
      refine Or.inr ⟨a ++ c :: b, by rw [subtrees_node]; exact List.mem_cons_self, Or.inr ⟨fun x => by rw [hl.mem_iff, List.mem_cons], ?_, ?_⟩⟩
      · exact mem_leavesL.2 ⟨c, by simp, h.word⟩
      · intro j e
        obtain ⟨l0, cs0, ds0, e0, -⟩ := h.top
        subst e0
        cases a <;> simp at e
    · simp only [subtreesL_append, subtreesL_cons, List.mem_append] at hm
      by_cases hd : .node l' ds ∈ subtrees d
      · rcases h.nodes l' ds hd with h1 | ⟨cs, h1, h2⟩
        · exact Or.inl h1
        · exact Or.inr ⟨cs, by rw [subtrees_node]; exact List.mem_cons_of_mem _ (mem_subtreesL.2 ⟨c, by simp, h1⟩), h2⟩
      · have hm' : .node l' ds ∈ subtreesL (a ++ b) := by rw [subtreesL_append, List.mem_append]; tauto
        refine Or.inr ⟨ds, ?_, Or.inl ⟨rfl, hT l' ds hm'⟩⟩
        rw [subtrees_node]; refine List.mem_cons_of_mem _ ?_
        simp only [subtreesL_append, subtreesL_cons, List.mem_append] at hm' ⊢; tauto
  · rw [leaves_node]; exact mem_leavesL.2 ⟨c, by simp, h.word⟩
  · intro l' ds hm
    rw [subtrees_node, List.mem_cons] at hm
    rcases hm with e | hm
    · injection e with e1 e2
      subst e1; subst e2
      exact ⟨_, by rw [subtrees_node]; exact List.mem_cons_self, hkk⟩
    · by_cases hd : .node l' ds ∈ subtrees c
      · obtain ⟨ds', h1, h2⟩ := h.keep l' ds hd
        exact ⟨ds', by rw [subtrees_node]; exact List.mem_cons_of_mem _ (mem_subtreesL.2 ⟨d, by simp, h1⟩), h2⟩
      · refine ⟨ds, ?_, fun y hy _ => hy⟩
        rw [subtrees_node]; refine List.mem_cons_of_mem _ (hsub _ ?_)
        simp only [subtreesL_append, subtreesL_cons, List.mem_append] at hm ⊢; tauto
  · intro l' i hm
    rw [subtrees_node, List.mem_cons] at hm
    rcases hm with e | hm
    · injection e with e1 e2
      obtain ⟨l0, cs0, ds0, e0, -⟩ := h.top
      subst e0
      exfalso
      cases a with
      | nil => simp at e2
      | cons x a => simp at e2
    · by_cases hd : .node l' [.leaf i] ∈ subtrees c
      · rw [subtrees_node]; exact List.mem_cons_of_mem _ (mem_subtreesL.2 ⟨d, by simp, h.pre l' i hd⟩)
      · rw [subtrees_node]; refine List.mem_cons_of_mem _ (hsub _ ?_)
        simp only [subtreesL_append, subtreesL_cons, List.mem_append] at hm ⊢; tauto
  · intro p hp
    show Spec.withoutL p (a ++ d :: b) = Spec.withoutL p (a ++ c :: b)
    obtain ⟨l0, cs0, ds0, rfl, rfl⟩ := h.top
    rw [withoutL_append, withoutL_append, Spec.withoutL, Spec.withoutL, without_congr (show Spec.withoutL p ds0 = Spec.withoutL p cs0 from h.without p hp)]
  · obtain ⟨l', ds, h1, h2⟩ := h.here
    exact ⟨l', ds, by rw [subtrees_node]; exact List.mem_cons_of_mem _ (mem_subtreesL.2 ⟨d, by simp, h1⟩), h2⟩
  · intro h1 h2 x hx
    simp only [PTree.children, List.mem_append, List.mem_cons] at h2 hx
    rcases hx with hx | rfl | hx
    · exact h2 x (Or.inl hx)
    · have hg := h.good h1 hc
      obtain ⟨l0, cs0, ds0, rfl, rfl⟩ := h.top
      refine Spec.Constituent.of ?_ hg
      rintro rfl
      have := h.leaves.length_eq
      simp at this
    · exact h2 x (Or.inr (Or.inr hx))

/-! ### attach -/

theorem min?_mem {l : List Nat} {m : Nat} (h : l.min? = some m) : m ∈ l ∧ ∀ x ∈ l, m ≤ x := by
  rw [List.min?_eq_some_iff] at h; exact h

theorem max?_mem {l : List Nat} {m : Nat} (h : l.max? = some m) : m ∈ l ∧ ∀ x ∈ l, x ≤ m := by
  rw [List.max?_eq_some_iff] at h; exact h

theorem anyNext_spec (n : Nat) {cs : List (PTree L)} (h : ∀ c ∈ cs, Spec.Constituent c) :
    ∃ b, anyNext n cs = some b ∧ (b = true ↔ ∃ c ∈ cs, c.leaves.min? = some (n + 1)) := by
  induction cs with
  | nil => exact ⟨false, rfl, by simp⟩
  | cons c cs ih =>
    obtain ⟨b, h1, h2⟩ := ih fun c hc => h c (by simp [hc])
    obtain ⟨l, ds, rfl⟩ := (h c (by simp)).node
    have hne := (h _ (List.mem_cons_self)).leaves_ne
    rw [leaves_node] at hne
    rw [anyNext]
    cases hm : (leavesL ds).min? with
    | none => rw [List.min?_eq_none_iff] at hm; exact absurd hm hne
    | some m =>
      simp only
      by_cases e : n + 1 = m
      · rw [if_pos e]; exact ⟨true, rfl, by simp [hm, e]⟩
      · rw [if_neg e]
        refine ⟨b, h1, h2.trans ⟨fun ⟨c, hc, hc'⟩ => ⟨c, by simp [hc], hc'⟩, ?_⟩⟩
        rintro ⟨c, hc, hc'⟩
        rcases List.mem_cons.1 hc with rfl | hc
        · rw [leaves_node, hm] at hc'; exact absurd (Option.some.inj hc').symm e
        · exact ⟨c, hc, hc'⟩

theorem attachL_cases (nd : PTree L) (n : Nat) {cs : List (PTree L)} (h : ∀ c ∈ cs, attach nd n c ≠ none) :
    (attachL nd n cs = some none ∧ ∀ c ∈ cs, attach nd n c = some none) ∨
      ∃ a c d b, cs = a ++ c :: b ∧ attach nd n c = some (some d) ∧ attachL nd n cs = some (some (a ++ d :: b)) := by
  induction cs with
  | nil => exact Or.inl ⟨rfl, by simp⟩
  | cons c cs ih =>
    cases hc : attach nd n c with
    | none => exact absurd hc (h c (by simp))
    | some o =>
      cases o with
      | some d => exact Or.inr ⟨[], c, d, cs, rfl, hc, by rw [attachL, hc]; rfl⟩
      | none =>
        rcases ih fun c hc => h c (by simp [hc]) with ⟨h1, h2⟩ | ⟨a, c', d, b, h1, h2, h3⟩
        · refine Or.inl ⟨by rw [attachL, hc]; simp only [h1], ?_⟩
          intro x hx
          rcases List.mem_cons.1 hx with rfl | hx
          · exact hc
          · exact h2 x hx
        · exact Or.inr ⟨c :: a, c', d, b, by rw [h1]; rfl, h2, by rw [attachL, hc]; simp only [h3]; rfl⟩

/-- The sisters of the new position of `n`: one of them starts at the next word. -/
def NextTo (n : Nat) (ds : List (PTree L)) : Prop := ∃ x ∈ ds, x.leaves.min? = some (n + 1)

/-- The words of a node are after `n`. -/
def After (n : Nat) (ds : List (PTree L)) : Prop := ∀ y ∈ leavesL ds, n + 1 ≤ y

theorem others {cs : List (PTree L)} {w : Nat} (hd : (leavesL cs).Nodup) {c : PTree L} (hc : c ∈ cs) (hw : w ∈ c.leaves) {x s : PTree L} (hx : x ∈ cs)
    (hs : s ∈ subtrees x) (hws : w ∈ s.leaves) : x = c :=
  child_unique hd hx hc (subtree_leaves hs w hws) hw

theorem attach_root {nd : PTree L} {n : Nat} (hnd : nd.leaves = [n]) (l : L) {cs : List (PTree L)} (hcs : ∀ c ∈ cs, Spec.Constituent c)
    (hd : (leavesL cs).Nodup)
    (ih : ∀ c ∈ cs, (attach nd n c = some none ∧ (n + 1 ∈ c.leaves → ∃ l', c = .node l' [.leaf (n + 1)])) ∨
      ∃ u, attach nd n c = some (some u) ∧ Ins nd n (n + 1) (After n) (NextTo n) c u ∧ ∀ x ∈ c.children, Spec.Constituent x) :
    (attach nd n (.node l cs) = some none ∧ n + 1 ∉ leavesL cs) ∨
      ∃ u, attach nd n (.node l cs) = some (some u) ∧ Ins nd n (n + 1) (After n) (NextTo n) (.node l cs) u := by
  by_cases hne : cs = []
  · subst hne
    left
    refine ⟨?_, by simp⟩
    rw [attach]; simp only [notPhrasal, if_true]; rw [attachL]
  · have hnp : notPhrasal (.node l cs) = false := by
      cases cs with
      | nil => exact absurd rfl hne
      | cons c cs => obtain ⟨l', ds, rfl⟩ := (hcs c (by simp)).node; rfl
    obtain ⟨b, hb, hb'⟩ := anyNext_spec n hcs
    rw [attach, hnp]
    simp only [Bool.false_eq_true, if_false, hb]
    cases b with
    | true =>
      right
      refine ⟨_, rfl, ?_⟩
      obtain ⟨c, hc, hm⟩ := hb'.1 rfl
      refine Ins.here' hnd (Or.inr rfl) hcs (mem_leavesL.2 ⟨c, hc, (min?_mem hm).1⟩) ?_ ⟨c, by simp [hc], hm⟩
      intro l' ds hs
      by_cases hw : n + 1 ∈ leavesL ds
      · right
        obtain ⟨x, hx, hs⟩ := mem_subtreesL.1 hs
        have := others hd hc (min?_mem hm).1 hx hs hw
        subst this
        exact fun y hy => (min?_mem hm).2 y (subtree_leaves hs y hy)
      · exact Or.inl hw
    | false =>
      have hno : ∀ c ∈ cs, c.leaves.min? ≠ some (n + 1) := fun c hc h => by simpa using hb'.2 ⟨c, hc, h⟩
      rcases attachL_cases nd n (cs := cs) (fun c hc h => by
        rcases ih c hc with ⟨h1, -⟩ | ⟨u, h1, -⟩ <;> rw [h] at h1 <;> cases h1) with ⟨h1, h2⟩ | ⟨a, c, d, b, h1, h2, h3⟩
      · left
        refine ⟨by simp only [h1], ?_⟩
        intro hm
        obtain ⟨c, hc, hm⟩ := mem_leavesL.1 hm
        rcases ih c hc with ⟨-, h3⟩ | ⟨u, h3, -⟩
        · obtain ⟨l', rfl⟩ := h3 hm
          exact hno _ hc rfl
        · rw [h2 c hc] at h3; cases h3
      · right
        refine ⟨.node l (a ++ d :: b), by simp only [h3], ?_⟩
        subst h1
        have hc : c ∈ a ++ c :: b := by simp
        rcases ih c hc with ⟨h4, -⟩ | ⟨u, h4, h5, h6⟩
        · rw [h4] at h2; cases h2
        · rw [h4] at h2
          obtain rfl := Option.some.inj (Option.some.inj h2)
          refine h5.below h6 ?_
          intro l' ds hs
          by_cases hw : n + 1 ∈ leavesL ds
          · exfalso
            obtain ⟨x, hx, hs⟩ := mem_subtreesL.1 hs
            have e := others hd hc h5.word (by simp only [List.mem_append, List.mem_cons] at hx ⊢; tauto) hs hw
            subst e
            have hx' : n + 1 ∈ leavesL (a ++ b) := mem_leavesL.2 ⟨x, hx, h5.word⟩
            rw [leavesL_append, leavesL_cons] at hd
            have h7 := List.nodup_append.1 hd
            have h8 := List.nodup_append.1 h7.2.1
            rw [leavesL_append, List.mem_append] at hx'
            rcases hx' with h9 | h9
            · exact h7.2.2 _ h9 _ (List.mem_append.2 (Or.inl h5.word)) rfl
            · exact h8.2.2 _ h5.word _ h9 rfl
          · exact Or.inl hw

theorem attach_below {nd : PTree L} {n : Nat} (hnd : nd.leaves = [n]) {t : PTree L} (ht : Spec.Constituent t) (hd : t.leaves.Nodup) :
    (attach nd n t = some none ∧ (n + 1 ∈ t.leaves → ∃ l', t = .node l' [.leaf (n + 1)])) ∨
      ∃ u, attach nd n t = some (some u) ∧ Ins nd n (n + 1) (After n) (NextTo n) t u ∧ ∀ x ∈ t.children, Spec.Constituent x := by
  induction t using PTree.ind with
  | hleaf i => exact absurd ht not_constituent_leaf
  | hnode l cs ih =>
    rcases ht.cases' with ⟨i, rfl⟩ | ⟨hne, hcs⟩
    · left
      refine ⟨?_, ?_⟩
      · rw [attach]; simp [notPhrasal, attachL, attach]
      · intro h; simp at h; exact ⟨l, by rw [h]⟩
    · rw [leaves_node] at hd
      rcases attach_root hnd l hcs hd (fun c hc => ih c hc (hcs c hc) (nodup_child hd hc)) with ⟨h1, h2⟩ | ⟨u, h1, h2⟩
      · exact Or.inl ⟨h1, fun h => absurd h h2⟩
      · exact Or.inr ⟨u, h1, h2, hcs⟩

/-- The search for a new parent in the whole tree. -/
theorem attach_spec {nd : PTree L} {n : Nat} (hnd : nd.leaves = [n]) (l : L) {cs : List (PTree L)} (hcs : ∀ c ∈ cs, Spec.Constituent c)
    (hd : (leavesL cs).Nodup) :
    (attach nd n (.node l cs) = some none ∧ n + 1 ∉ leavesL cs) ∨
      ∃ u, attach nd n (.node l cs) = some (some u) ∧ Ins nd n (n + 1) (After n) (NextTo n) (.node l cs) u :=
  attach_root hnd l hcs hd fun c hc => attach_below hnd (hcs c hc) (nodup_child hd hc)

/-! ### addTo -/

theorem addTo_id {i : Nat} {nd : PTree L} {f : Bool} (t : PTree L) (h : i ∉ t.leaves) : addTo i nd f t = t := by
  induction t using PTree.ind with
  | hleaf j => rw [addTo]
  | hnode l cs ih =>
    rw [leaves_node] at h
    rw [addTo, if_neg]
    · congr 1
      induction cs with
      | nil => rw [addToL]
      | cons c cs ih2 =>
        rw [leavesL_cons, List.mem_append, not_or] at h
        rw [addToL, ih c (by simp) h.1, ih2 (fun c hc => ih c (by simp [hc])) h.2]
    · intro ha
      rw [List.any_eq_true] at ha
      obtain ⟨c, hc, hp⟩ := ha
      apply h
      refine mem_leavesL.2 ⟨c, hc, ?_⟩
      cases c with
      | leaf j => simp [isPre] at hp
      | node l' ds =>
        cases ds with
        | nil => simp [isPre] at hp
        | cons d ds =>
          cases d with
          | leaf j => simp [isPre] at hp; simp [hp]
          | node l'' es => simp [isPre] at hp

theorem addToL_map {i : Nat} {nd : PTree L} {f : Bool} (cs : List (PTree L)) : addToL i nd f cs = cs.map (addTo i nd f) := by
  induction cs with
  | nil => rw [addToL]; rfl
  | cons c cs ih => rw [addToL, ih]; rfl

/-- A list of sisters with a preterminal for `i`. -/
def HasPre (i : Nat) (ds : List (PTree L)) : Prop := ∃ l, .node l [.leaf i] ∈ ds

theorem addTo_root {i n : Nat} {nd : PTree L} (f : Bool) (hnd : nd.leaves = [n]) (l : L) {cs : List (PTree L)} (hcs : ∀ c ∈ cs, Spec.Constituent c)
    (hd : (leavesL cs).Nodup) (hi : i ∈ leavesL cs)
    (ih : ∀ c ∈ cs, i ∈ c.leaves → (∃ l', c = .node l' [.leaf i]) ∨
      (Ins nd n i (· = [.leaf i]) (HasPre i) c (addTo i nd f c) ∧ ∀ x ∈ c.children, Spec.Constituent x)) :
    Ins nd n i (· = [.leaf i]) (HasPre i) (.node l cs) (addTo i nd f (.node l cs)) := by
  rw [addTo]
  obtain ⟨c, hc, hci⟩ := mem_leavesL.1 hi
  split
  · rename_i ha
    rw [List.any_eq_true] at ha
    obtain ⟨c', hc', hp⟩ := ha
    obtain ⟨l', rfl⟩ := (isPre_iff (hcs c' hc')).1 hp
    refine Ins.here' hnd ?_ hcs hi ?_ ?_
    · cases f
      · exact Or.inr rfl
      · exact Or.inl rfl
    · intro l2 ds hs
      by_cases hw : i ∈ leavesL ds
      · right
        obtain ⟨x, hx, hs⟩ := mem_subtreesL.1 hs
        have := others hd hc' (by simp) hx hs hw
        subst this
        simp at hs
        exact hs.2
      · exact Or.inl hw
    · refine ⟨l', ?_⟩
      cases f <;> simp [hc']
  · rename_i ha
    rcases ih c hc hci with ⟨l', rfl⟩ | ⟨h1, h2⟩
    · exfalso
      apply ha
      rw [List.any_eq_true]
      exact ⟨_, hc, by simp [isPre]⟩
    · obtain ⟨a, b, rfl⟩ := List.append_of_mem hc
      have hab : i ∉ leavesL (a ++ b) := by
        intro h9
        rw [leavesL_append, leavesL_cons] at hd
        have h7 := List.nodup_append.1 hd
        have h8 := List.nodup_append.1 h7.2.1
        rw [leavesL_append, List.mem_append] at h9
        rcases h9 with h9 | h9
        · exact h7.2.2 _ h9 _ (List.mem_append.2 (Or.inl hci)) rfl
        · exact h8.2.2 _ hci _ h9 rfl
      have e : addToL i nd f (a ++ c :: b) = a ++ addTo i nd f c :: b := by
        have hid : ∀ x ∈ a ++ b, addTo i nd f x = x := fun x hx => addTo_id x fun h => hab (mem_leavesL.2 ⟨x, hx, h⟩)
        rw [addToL_map, List.map_append, List.map_cons]
        congr 1
        · conv_rhs => rw [← List.map_id a]
          exact List.map_congr_left fun x hx => hid x (by simp [hx])
        · congr 1
          conv_rhs => rw [← List.map_id b]
          exact List.map_congr_left fun x hx => hid x (by simp [hx])
      rw [e]
      refine h1.below h2 ?_
      intro l' ds hs
      left
      intro hw
      obtain ⟨x, hx, hs⟩ := mem_subtreesL.1 hs
      exact hab (mem_leavesL.2 ⟨x, hx, subtree_leaves hs i hw⟩)

theorem addTo_below {i n : Nat} {nd : PTree L} (f : Bool) (hnd : nd.leaves = [n]) {t : PTree L} (ht : Spec.Constituent t) (hd : t.leaves.Nodup)
    (hi : i ∈ t.leaves) : (∃ l', t = .node l' [.leaf i]) ∨
      (Ins nd n i (· = [.leaf i]) (HasPre i) t (addTo i nd f t) ∧ ∀ x ∈ t.children, Spec.Constituent x) := by
  induction t using PTree.ind with
  | hleaf j => exact absurd ht not_constituent_leaf
  | hnode l cs ih =>
    rcases ht.cases' with ⟨j, rfl⟩ | ⟨hne, hcs⟩
    · left; simp at hi; exact ⟨l, by rw [hi]⟩
    · rw [leaves_node] at hd hi
      exact Or.inr ⟨addTo_root f hnd l hcs hd hi (fun c hc h => ih c hc (hcs c hc) (nodup_child hd hc) h), hcs⟩

/-- Adding a preterminal as a sister of that of word `i`. -/
theorem addTo_spec {i n : Nat} {nd : PTree L} (f : Bool) (hnd : nd.leaves = [n]) (l : L) {cs : List (PTree L)} (hcs : ∀ c ∈ cs, Spec.Constituent c)
    (hd : (leavesL cs).Nodup) (hi : i ∈ leavesL cs) : Ins nd n i (· = [.leaf i]) (HasPre i) (.node l cs) (addTo i nd f (.node l cs)) :=
  addTo_root f hnd l hcs hd hi fun c hc h => addTo_below f hnd (hcs c hc) (nodup_child hd hc) h

/-! ### Removing a preterminal -/

/-- The effect of removing word `n` with its preterminal and empty ancestors from a list of sisters. -/
structure PopL (n : Nat) (cs ds : List (PTree L)) : Prop where
  leaves : leavesL ds = (leavesL cs).filter (· ≠ n)
  nodes : ∀ l es, .node l es ∈ subtreesL ds → ∃ cs', .node l cs' ∈ subtreesL cs ∧ leavesL es = (leavesL cs').filter (· ≠ n) ∧
    ∀ i, es = [.leaf i] ↔ cs' = [.leaf i]
  good : ∀ d ∈ ds, Spec.Constituent d
  without : ∀ p : Nat → Bool, p n = true → Spec.withoutL p ds = Spec.withoutL p cs
  pre : ∀ l i, i ≠ n → .node l [.leaf i] ∈ subtreesL cs → .node l [.leaf i] ∈ subtreesL ds

theorem PopL.cons {n : Nat} {c : PTree L} {cs d ds : List (PTree L)} (h1 : PopL n [c] d) (h2 : PopL n cs ds) : PopL n (c :: cs) (d ++ ds) := by
  refine ⟨?_, ?_, ?_, ?_, ?_⟩
  · rw [leavesL_append, h1.leaves, h2.leaves, ← List.filter_append, leavesL_cons, leavesL_cons, leavesL_nil, List.append_nil]
  · intro l es hm
    rw [subtreesL_append, List.mem_append] at hm
    rcases hm with hm | hm
    · obtain ⟨cs', h3, h4⟩ := h1.nodes l es hm
      exact ⟨cs', by rw [subtreesL_cons, List.mem_append]; left; simpa using h3, h4⟩
    · obtain ⟨cs', h3, h4⟩ := h2.nodes l es hm
      exact ⟨cs', by rw [subtreesL_cons, List.mem_append]; right; exact h3, h4⟩
  · intro x hx
    rcases List.mem_append.1 hx with hx | hx
    · exact h1.good x hx
    · exact h2.good x hx
  · intro p hp
    rw [withoutL_append, h1.without p hp, h2.without p hp, ← withoutL_append]; rfl
  · intro l i hi hm
    rw [subtreesL_cons, List.mem_append] at hm
    rw [subtreesL_append, List.mem_append]
    rcases hm with hm | hm
    · left; exact h1.pre l i hi (by simpa using hm)
    · right; exact h2.pre l i hi hm

/-- The children of a node after the removal. -/
def kids (n : Nat) (cs : List (PTree L)) : List (PTree L) := if cs.any (isPre n) then cs.eraseP (isPre n) else popL n cs

theorem popRoot_kids (n : Nat) (l : L) (cs : List (PTree L)) : popRoot n (.node l cs) = .node l (kids n cs) := by rw [popRoot, kids]

theorem filter_ne_self {n : Nat} {l : List Nat} (h : n ∉ l) : l.filter (· ≠ n) = l := by
  rw [List.filter_eq_self]
  intro x hx
  simp only [ne_eq, decide_eq_true_eq]
  rintro rfl
  exact h hx

theorem kids_of {n : Nat} {cs : List (PTree L)} (hcs : ∀ c ∈ cs, Spec.Constituent c) (hd : (leavesL cs).Nodup)
    (ih : ∀ c ∈ cs, isPre n c = false → PopL n [c] (pop1 n c).toList) : PopL n cs (kids n cs) := by
  rw [kids]
  split
  · rename_i ha
    rw [List.any_eq_true] at ha
    obtain ⟨y, hy, hpy⟩ := ha
    obtain ⟨x, a, b, hna, hx, e1, e2⟩ := List.exists_of_eraseP hy hpy
    rw [e2]
    subst e1
    obtain ⟨l', rfl⟩ := (isPre_iff (hcs x (by simp))).1 hx
    have hab : n ∉ leavesL a ∧ n ∉ leavesL b := by
      rw [leavesL_append, leavesL_cons] at hd
      have h7 := List.nodup_append.1 hd
      have h8 := List.nodup_append.1 h7.2.1
      exact ⟨fun h => h7.2.2 n h n (by simp) rfl, fun h => h8.2.2 n (by simp) n h rfl⟩
    refine ⟨?_, ?_, ?_, ?_, ?_⟩
    · rw [leavesL_append, leavesL_append, leavesL_cons, List.filter_append, List.filter_append, filter_ne_self hab.1, filter_ne_self hab.2]
      simp
    · intro l es hm
      have hm' : .node l es ∈ subtreesL (a ++ .node l' [.leaf n] :: b) := by
        simp only [subtreesL_append, subtreesL_cons, List.mem_append] at hm ⊢; tauto
      refine ⟨es, hm', (filter_ne_self ?_).symm, fun _ => Iff.rfl⟩
      intro hn
      obtain ⟨c, hc, hs⟩ := mem_subtreesL.1 hm
      have := subtree_leaves hs n hn
      rcases List.mem_append.1 hc with hc | hc
      · exact hab.1 (mem_leavesL.2 ⟨c, hc, this⟩)
      · exact hab.2 (mem_leavesL.2 ⟨c, hc, this⟩)
    · intro d hd'
      exact hcs d (by simp only [List.mem_append, List.mem_cons] at hd' ⊢; tauto)
    · intro p hp
      rw [withoutL_append, withoutL_append, Spec.withoutL, without_pre hp]; rfl
    · intro l i hi hm
      simp only [subtreesL_append, subtreesL_cons, List.mem_append, subtrees_node, List.mem_cons] at hm ⊢
      rcases hm with hm | (hm | hm) | hm
      · exact Or.inl hm
      · exfalso; injection hm with _ h2; simp at h2; exact hi h2
      · simp at hm
      · exact Or.inr hm
  · rename_i ha
    have ha' : ∀ c ∈ cs, isPre n c = false := by
      intro c hc
      cases h : isPre n c with
      | false => rfl
      | true => exact absurd (List.any_eq_true.2 ⟨c, hc, h⟩) ha
    clear ha hd
    induction cs with
    | nil => rw [popL]; exact ⟨by simp, by simp, by simp, fun _ _ => rfl, by simp⟩
    | cons c cs ih2 =>
      rw [popL]
      exact (ih c (by simp) (ha' c (by simp))).cons (ih2 (fun c hc => hcs c (by simp [hc])) (fun c hc => ih c (by simp [hc])) fun c hc => ha' c (by simp [hc]))

theorem pop1_spec (n : Nat) {t : PTree L} (ht : Spec.Constituent t) (hd : t.leaves.Nodup) (hp : isPre n t = false) : PopL n [t] (pop1 n t).toList := by
  induction t using PTree.ind with
  | hleaf i => exact absurd ht not_constituent_leaf
  | hnode l cs ih =>
    rcases ht.cases' with ⟨j, rfl⟩ | ⟨hne, hcs⟩
    · have hj : j ≠ n := by simpa [isPre] using hp
      have e : pop1 n (.node l [.leaf j] : PTree L) = some (.node l [.leaf j]) := by
        rw [pop1]; simp [isPre, popL, pop1]
      rw [e]
      refine ⟨?_, ?_, ?_, fun _ _ => rfl, fun _ _ _ h => h⟩
      · simp [hj]
      · intro l' es hm
        refine ⟨es, hm, ?_, fun _ => Iff.rfl⟩
        simp at hm
        rw [hm.2]; simp [hj]
      · intro d hd'
        simp at hd'
        rw [hd']; exact ht
    · rw [leaves_node] at hd
      have hk := kids_of hcs hd fun c hc hp => ih c hc (hcs c hc) (nodup_child hd hc) hp
      have e : pop1 n (.node l cs) = if (kids n cs).isEmpty && !cs.isEmpty then none else some (.node l (kids n cs)) := by rw [pop1]; rfl
      have hnotpre : ∀ i, cs ≠ [.leaf i] := fun i h => by
        rw [h] at hcs; exact absurd (hcs (.leaf i) (by simp)) not_constituent_leaf
      rw [e]
      have hce : cs.isEmpty = false := by cases cs; exact absurd rfl hne; rfl
      by_cases h0 : kids n cs = []
      · rw [h0] at hk
        rw [h0, hce]
        simp only [List.isEmpty_nil, Bool.not_false, Bool.and_self, if_true, Option.toList_none]
        refine ⟨?_, by simp, by simp, ?_, ?_⟩
        · have := hk.leaves; simpa using this
        · intro p hp'
          have := hk.without p hp'
          show Spec.withoutL p [] = Spec.without p (.node l cs) ++ Spec.withoutL p []
          rw [without_empty this.symm]; rfl
        · intro l' i hi hm
          simp only [subtreesL_cons, subtrees_node, subtreesL_nil, List.append_nil, List.mem_cons] at hm
          rcases hm with h | h
          · injection h with _ h; exact absurd h.symm (hnotpre i)
          · have := hk.pre l' i hi h; simp at this
      · have hke : (kids n cs).isEmpty = false := by
          cases h : kids n cs with
          | nil => exact absurd h h0
          | cons a b => rfl
        rw [hke]
        simp only [Bool.false_and, Bool.false_eq_true, if_false, Option.toList_some]
        refine ⟨?_, ?_, ?_, ?_, ?_⟩
        · have := hk.leaves; simpa using this
        · intro l' es hm
          simp only [subtreesL_cons, subtrees_node, subtreesL_nil, List.append_nil, List.mem_cons] at hm
          rcases hm with h | h
          · injection h with h1 h2
            subst h1; subst h2
            refine ⟨cs, by simp, hk.leaves, ?_⟩
            refine fun i => ⟨fun hi => ?_, fun hi => absurd hi (hnotpre i)⟩
            have := hk.good (.leaf i) (by rw [hi]; simp)
            exact absurd this not_constituent_leaf
          · obtain ⟨cs', h1, h2⟩ := hk.nodes l' es h
            exact ⟨cs', by simp [h1], h2⟩
        · intro d hd'
          simp at hd'
          rw [hd']; exact Spec.Constituent.of h0 hk.good
        · intro p hp'
          rw [Spec.withoutL, Spec.withoutL, without_congr (hk.without p hp')]; rfl
        · intro l' i hi hm
          simp only [subtreesL_cons, subtrees_node, subtreesL_nil, List.append_nil, List.mem_cons] at hm ⊢
          rcases hm with h | h
          · injection h with _ h; exact absurd h.symm (hnotpre i)
          · exact Or.inr (hk.pre l' i hi h)

theorem kids_spec (n : Nat) {cs : List (PTree L)} (hcs : ∀ c ∈ cs, Spec.Constituent c) (hd : (leavesL cs).Nodup) : PopL n cs (kids n cs) :=
  kids_of hcs hd fun c hc hp => pop1_spec n (hcs c hc) (nodup_child hd hc) hp

/-! ### Moving a preterminal -/

/-- What holds of a tree after punctuation has been moved. -/
structure Moved (p : Nat → Bool) (t u : PTree L) : Prop where
  root : ∃ l cs ds, t = .node l cs ∧ u = .node l ds ∧ ∀ d ∈ ds, Spec.Constituent d
  leaves : u.leaves.Perm t.leaves
  without : Spec.withoutL p u.children = Spec.withoutL p t.children
  gaps : Spec.NoMoreGaps t u
  pre : ∀ l i, .node l [.leaf i] ∈ subtrees t → .node l [.leaf i] ∈ subtrees u

theorem gaps_of_fan {t u : PTree L} (h : ∀ l ds, .node l ds ∈ subtrees u → ∃ cs, .node l cs ∈ subtrees t ∧ fan (leavesL ds) ≤ fan (leavesL cs)) :
    Spec.NoMoreGaps t u := by
  intro l ds hm
  obtain ⟨cs, h1, h2⟩ := h l ds hm
  exact ⟨cs, h1, fun m n hm hn => by rw [blocks_fan hm, blocks_fan hn]; exact h2⟩

theorem fan_of_gaps {t u : PTree L} (h : Spec.NoMoreGaps t u) {l : L} {ds : List (PTree L)} (hm : .node l ds ∈ subtrees u) :
    ∃ cs, .node l cs ∈ subtrees t ∧ fan (leavesL ds) ≤ fan (leavesL cs) := by
  obtain ⟨cs, h1, h2⟩ := h l ds hm
  refine ⟨cs, h1, ?_⟩
  rw [fan_eq, fan_eq]
  exact h2 _ _ (FanoutMark.thisfanout_blocks _) (FanoutMark.thisfanout_blocks _)

theorem gaps_refl (t : PTree L) : Spec.NoMoreGaps t t := gaps_of_fan fun _ ds hm => ⟨ds, hm, Nat.le_refl _⟩

theorem gaps_trans {t u v : PTree L} (h1 : Spec.NoMoreGaps t u) (h2 : Spec.NoMoreGaps u v) : Spec.NoMoreGaps t v :=
  gaps_of_fan fun _ _ hm => by
    obtain ⟨cs, h3, h4⟩ := fan_of_gaps h2 hm
    obtain ⟨cs', h5, h6⟩ := fan_of_gaps h1 h3
    exact ⟨cs', h5, Nat.le_trans h4 h6⟩

theorem Moved.refl (p : Nat → Bool) (l : L) {cs : List (PTree L)} (h : ∀ c ∈ cs, Spec.Constituent c) : Moved p (.node l cs) (.node l cs) :=
  ⟨⟨l, cs, cs, rfl, rfl, h⟩, List.Perm.refl _, rfl, gaps_refl _, fun _ _ h => h⟩

theorem Moved.trans {p : Nat → Bool} {t u v : PTree L} (h1 : Moved p t u) (h2 : Moved p u v) : Moved p t v := by
  refine ⟨?_, h2.leaves.trans h1.leaves, h2.without.trans h1.without, gaps_trans h1.gaps h2.gaps, fun l i h => h2.pre l i (h1.pre l i h)⟩
  obtain ⟨l, cs, ds, rfl, rfl, -⟩ := h1.root
  obtain ⟨l', cs', ds', e, rfl, h⟩ := h2.root
  injection e with e1 e2
  subst e1
  exact ⟨l, cs, ds', rfl, rfl, h⟩

theorem moved_of_ins {p : Nat → Bool} {n w : Nat} {l0 l : L} {T R : List (PTree L) → Prop} {cs : List (PTree L)} {u : PTree L}
    (hcs : ∀ c ∈ cs, Spec.Constituent c) (hd : (leavesL cs).Nodup) (hnd : .node l0 [.leaf n] ∈ subtreesL cs) (hp : p n = true)
    (h : Ins (.node l0 [.leaf n]) n w T R (.node l (kids n cs)) u)
    (hlose : ∀ l' cs1 cs', .node l' cs1 ∈ subtrees (.node l cs) → leavesL cs' = (leavesL cs1).filter (· ≠ n) → (∀ i, cs' = [.leaf i] ↔ cs1 = [.leaf i]) →
      n ∈ leavesL cs1 → w ∉ leavesL cs' ∨ T cs' → fan (leavesL cs') ≤ fan (leavesL cs1))
    (hgain : ∀ l' cs1, .node l' cs1 ∈ subtrees (.node l cs) → n ∉ leavesL cs1 → w ∈ leavesL cs1 → (∀ j, cs1 ≠ [.leaf j]) →
      fan (n :: leavesL cs1) ≤ fan (leavesL cs1)) : Moved p (.node l cs) u := by
  have hk := kids_spec n hcs hd
  have hn : n ∈ leavesL cs := by
    obtain ⟨c, hc, hs⟩ := mem_subtreesL.1 hnd
    exact mem_leavesL.2 ⟨c, hc, subtree_leaves hs n (by simp)⟩
  have hroot := h.top
  obtain ⟨l1, cs1, ds, e, rfl⟩ := hroot
  injection e with e1 e2
  subst e1; subst e2
  refine ⟨⟨l, cs, ds, rfl, rfl, h.good (.preterminal l0 n) hk.good⟩, ?_, ?_, ?_, ?_⟩
  · refine h.leaves.trans ?_
    rw [leaves_node, leaves_node, hk.leaves, show (leavesL cs).filter (fun x => decide (x ≠ n)) = (leavesL cs).erase n by
      rw [hd.erase_eq_filter n]; exact List.filter_congr fun x _ => by simp [bne, BEq.beq]]
    exact (List.perm_cons_erase hn).symm
  · rw [h.without p (without_pre hp l0)]
    exact hk.without p hp
  · refine gaps_of_fan fun l' es hm => ?_
    rcases h.nodes l' es hm with h1 | ⟨cs', h1, h2⟩
    · refine ⟨es, ?_, Nat.le_refl _⟩
      rw [subtrees_node]
      refine List.mem_cons_of_mem _ ?_
      simp at h1
      rw [h1.1, h1.2]; exact hnd
    · have key : ∃ cs1, .node l' cs1 ∈ subtrees (.node l cs) ∧ leavesL cs' = (leavesL cs1).filter (· ≠ n) ∧ ∀ i, cs' = [.leaf i] ↔ cs1 = [.leaf i] := by
        rw [subtrees_node, List.mem_cons] at h1
        rcases h1 with e | h1
        · injection e with e1 e2
          subst e1; subst e2
          refine ⟨cs, by simp, hk.leaves, fun i => ⟨fun e => ?_, fun e => ?_⟩⟩
          · have := hk.good (.leaf i) (by rw [e]; simp); exact absurd this not_constituent_leaf
          · have := hcs (.leaf i) (by rw [e]; simp); exact absurd this not_constituent_leaf
        · obtain ⟨cs1, h3, h4⟩ := hk.nodes l' cs' h1
          exact ⟨cs1, by rw [subtrees_node]; exact List.mem_cons_of_mem _ h3, h4⟩
      obtain ⟨cs1, h3, h4, h5⟩ := key
      refine ⟨cs1, h3, ?_⟩
      by_cases hn1 : n ∈ leavesL cs1
      · rcases h2 with ⟨rfl, h6⟩ | ⟨h6, -, -⟩
        · exact hlose l' cs1 es h3 h4 h5 hn1 h6
        · refine Nat.le_of_eq (fan_congr fun x => ?_)
          rw [h6, h4, List.mem_filter]
          by_cases e : x = n
          · simp [e, hn1]
          · simp [e]
      · rw [filter_ne_self hn1] at h4
        rcases h2 with ⟨rfl, h6⟩ | ⟨h6, h7, h8⟩
        · rw [h4]
        · rw [fan_congr (b := n :: leavesL cs1) fun x => by rw [h6, h4, List.mem_cons]]
          exact hgain l' cs1 h3 hn1 (by rw [← h4]; exact h7) fun j hj => h8 j ((h5 j).2 hj)
  · intro l' i hm
    rw [subtrees_node, List.mem_cons] at hm
    rcases hm with e | hm
    · injection e with _ e
      exact absurd (hcs (.leaf i) (by rw [← e]; simp)) not_constituent_leaf
    · by_cases hi : i = n
      · subst hi
        have e : l' = l0 := by
          obtain ⟨c, hc, hs⟩ := mem_subtreesL.1 hm
          obtain ⟨c', hc', hs'⟩ := mem_subtreesL.1 hnd
          have h1 := nested (t := .node l cs) (by rw [leaves_node]; exact hd) (s := .node l' [.leaf i]) (s' := .node l0 [.leaf i])
            (by rw [subtrees_node]; exact List.mem_cons_of_mem _ hm) (by rw [subtrees_node]; exact List.mem_cons_of_mem _ hnd) (i := i) (by simp) (by simp)
          rcases h1 with h1 | h1 <;> simp at h1
          · exact h1
          · exact h1.symm
        subst e
        obtain ⟨l2, ds2, h3, h4, -⟩ := h.here
        exact subtrees_trans (t := .node l ds) (y := .node l2 ds2) (by rw [subtrees_node]; exact List.mem_cons_of_mem _ (mem_subtreesL.2 ⟨_, h4, by simp⟩)) h3
      · exact h.pre l' i (by rw [subtrees_node]; exact List.mem_cons_of_mem _ (hk.pre l' i hi hm))

end Disco.Punct
