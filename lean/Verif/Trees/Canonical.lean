import Verif.Basic.Tree
import Verif.Basic.Sort
import Mathlib.Data.List.Forall2
import Mathlib.Data.List.Nodup
/-!
# C06: `canonicalize`

`discodop/treetransforms.py:683-687`.
-/
namespace Disco.Canon
open PTree

variable {L : Type}

/-- The key comparison of `a.children.sort(key=lambda n: n.leaves())`: Python compares the lists of
terminal indices lexicographically (treetransforms.py:686). -/
def leLeaves (a b : PTree L) : Bool := decide (a.leaves ≤ b.leaves)

/-- One iteration of the loop of `canonicalize` (treetransforms.py:685-686) at a node whose descendants have
been dealt with: sort (stably) when there is more than one child and the first one is a constituent. A terminal among
the children of such a node has no `leaves` method: `AttributeError`, modelled as `none`. -/
def sortChildren (cs : List (PTree L)) : Option (List (PTree L)) :=
  match cs with
  | .node l ds :: c :: rest =>
    if (c :: rest).all PTree.isNode then some (stableSort leLeaves (.node l ds :: c :: rest))
    else none
  | _ => some cs

mutual
/-- `canonicalize` (treetransforms.py:683-687). The post-order loop visits a node after all of its descendants, so the
in-place loop is a bottom-up recursion. `none` models the exception of `sortChildren`. -/
def canonicalize : PTree L → Option (PTree L)
  | .leaf i => some (.leaf i)
  | .node l cs => do
    let ds ← canonicalizeL cs
    return .node l (← sortChildren ds)
/-- `canonicalize` on each of a list of sisters. -/
def canonicalizeL : List (PTree L) → Option (List (PTree L))
  | [] => some []
  | c :: cs => do
    let d ← canonicalize c
    let ds ← canonicalizeL cs
    return d :: ds
end

/-! ### Specification -/

mutual
/-- Two trees have the same constituents and differ only in the order of sisters, at any level. -/
inductive Spec.SameUpToOrder : PTree L → PTree L → Prop
  | leaf (i : Nat) : Spec.SameUpToOrder (.leaf i) (.leaf i)
  | node (l : L) (cs ds es : List (PTree L)) :
      Spec.SameUpToOrderL cs ds → ds.Perm es → Spec.SameUpToOrder (.node l cs) (.node l es)
/-- Pointwise version. -/
inductive Spec.SameUpToOrderL : List (PTree L) → List (PTree L) → Prop
  | nil : Spec.SameUpToOrderL [] []
  | cons {c d : PTree L} {cs ds : List (PTree L)} :
      Spec.SameUpToOrder c d → Spec.SameUpToOrderL cs ds → Spec.SameUpToOrderL (c :: cs) (d :: ds)
end

/-- Every terminal is the only child of its parent (each word has its own preterminal). -/
def Spec.Preterminals (t : PTree L) : Prop :=
  ∀ l cs, .node l cs ∈ subtrees t → (∀ c ∈ cs, c.isNode) ∨ ∃ i, cs = [.leaf i]

/-- Sisters occur in the order of their terminals. -/
def Spec.Ordered (t : PTree L) : Prop :=
  ∀ l cs, .node l cs ∈ subtrees t → cs.Pairwise (fun a b => a.leaves ≤ b.leaves)

/-- No constituent without children. -/
def Spec.NoEmpty (t : PTree L) : Prop := ∀ l, .node l [] ∉ subtrees t

open Spec

/-! ### Lemmas -/

theorem leLeaves_trans (a b c : PTree L) : leLeaves a b = true → leLeaves b c = true → leLeaves a c = true := by
  simp only [leLeaves, decide_eq_true_eq]
  exact fun h1 h2 => List.le_trans h1 h2

theorem leLeaves_total (a b : PTree L) : (leLeaves a b || leLeaves b a) = true := by
  simp only [leLeaves, Bool.or_eq_true, decide_eq_true_eq]
  exact List.le_total _ _

theorem sorted_mergeSort (cs : List (PTree L)) :
    (stableSort leLeaves cs).Pairwise (fun a b => a.leaves ≤ b.leaves) := by
  have := StableSort.pairwise (le := leLeaves) leLeaves_trans leLeaves_total cs
  exact this.imp (fun h => by simpa [leLeaves] using h)

theorem sortChildren_perm {cs ds : List (PTree L)} (h : sortChildren cs = some ds) : ds.Perm cs := by
  unfold sortChildren at h
  split at h
  · split at h
    · injection h with h; rw [← h]; exact StableSort.perm _
    · simp at h
  · injection h with h; rw [h]

/-- A list of sisters on which `sortChildren` works: constituents only, or a single terminal. -/
def GoodSisters (cs : List (PTree L)) : Prop := (∀ c ∈ cs, c.isNode) ∨ ∃ i, cs = [.leaf i]

theorem sortChildren_good {cs : List (PTree L)} (h : GoodSisters cs) :
    sortChildren cs = some (if cs.length > 1 then stableSort leLeaves cs else cs) := by
  rcases h with h | ⟨i, rfl⟩
  · cases cs with
    | nil => simp [sortChildren]
    | cons c cs =>
      cases c with
      | leaf i => have := h (.leaf i) (by simp); simp [isNode] at this
      | node l ds =>
        cases cs with
        | nil => simp [sortChildren]
        | cons c cs =>
          have : (c :: cs).all PTree.isNode = true := by
            rw [List.all_eq_true]; intro x hx; exact h x (List.mem_cons_of_mem _ hx)
          simp only [sortChildren, this, if_true]
          simp
  · simp [sortChildren]

theorem sortChildren_good_sorted {cs : List (PTree L)} (h : GoodSisters cs) :
    ∃ ds, sortChildren cs = some ds ∧ ds.Pairwise (fun a b => a.leaves ≤ b.leaves) ∧ ds.Perm cs := by
  refine ⟨_, sortChildren_good h, ?_, sortChildren_perm (sortChildren_good h)⟩
  split
  · exact sorted_mergeSort cs
  · match cs with
    | [] => simp
    | [c] => simp
    | _ :: _ :: _ => simp_all

theorem canonicalizeL_eq (cs : List (PTree L)) : canonicalizeL cs = cs.mapM canonicalize := by
  induction cs with
  | nil => simp [canonicalizeL]
  | cons c cs ih => simp [canonicalizeL, ih]

theorem Preterminals.child {l : L} {cs : List (PTree L)} (h : Preterminals (.node l cs)) :
    ∀ c ∈ cs, Preterminals c := by
  intro c hc l' cs' hm
  exact h l' cs' (by rw [subtrees_node]; exact List.mem_cons_of_mem _ (mem_subtreesL.2 ⟨c, hc, hm⟩))

theorem Preterminals.good {l : L} {cs : List (PTree L)} (h : Preterminals (.node l cs)) : GoodSisters cs :=
  h l cs (by simp)

theorem isNode_of_canonicalize {t u : PTree L} (h : canonicalize t = some u) : u.isNode = t.isNode := by
  cases t with
  | leaf i => simp [canonicalize] at h; subst h; rfl
  | node l cs =>
    simp [canonicalize, Option.bind_eq_some_iff] at h
    obtain ⟨_, _, _, _, rfl⟩ := h
    rfl

theorem canonicalizeL_rel {cs ds : List (PTree L)} (h : canonicalizeL cs = some ds) :
    List.Forall₂ (fun c d => canonicalize c = some d) cs ds := by
  induction cs generalizing ds with
  | nil => simp [canonicalizeL] at h; subst h; exact .nil
  | cons c cs ih =>
    simp [canonicalizeL, Option.bind_eq_some_iff] at h
    obtain ⟨d, hd, ds', hds, rfl⟩ := h
    exact .cons hd (ih hds)

theorem canonicalizeL_of_rel {cs ds : List (PTree L)}
    (h : List.Forall₂ (fun c d => canonicalize c = some d) cs ds) : canonicalizeL cs = some ds := by
  induction h with
  | nil => simp [canonicalizeL]
  | cons h1 _ ih => simp [canonicalizeL, h1, ih]

theorem canonicalizeL_total {cs : List (PTree L)} (h : ∀ c ∈ cs, ∃ d, canonicalize c = some d) :
    ∃ ds, canonicalizeL cs = some ds := by
  induction cs with
  | nil => exact ⟨[], by simp [canonicalizeL]⟩
  | cons c cs ih =>
    obtain ⟨d, hd⟩ := h c (by simp)
    obtain ⟨ds, hds⟩ := ih (fun x hx => h x (by simp [hx]))
    exact ⟨d :: ds, by simp [canonicalizeL, hd, hds]⟩

theorem good_of_rel {cs ds : List (PTree L)}
    (h : List.Forall₂ (fun c d => canonicalize c = some d) cs ds) (hg : GoodSisters cs) : GoodSisters ds := by
  rcases hg with hg | ⟨i, rfl⟩
  · left
    induction h with
    | nil => simp
    | cons h1 _ ih =>
      intro x hx
      rcases List.mem_cons.1 hx with rfl | hx
      · rw [isNode_of_canonicalize h1]; exact hg _ (by simp)
      · exact ih (fun c hc => hg c (by simp [hc])) x hx
  · right
    cases h with
    | cons h1 h2 =>
      cases h2
      simp [canonicalize] at h1
      exact ⟨i, by rw [h1]⟩

theorem GoodSisters.perm {cs ds : List (PTree L)} (h : ds.Perm cs) (hg : GoodSisters cs) : GoodSisters ds := by
  rcases hg with hg | ⟨i, rfl⟩
  · exact Or.inl fun c hc => hg c (h.subset hc)
  · exact Or.inr ⟨i, List.perm_singleton.1 h⟩

theorem sameL_of_forall₂ {cs ds : List (PTree L)} (h : List.Forall₂ SameUpToOrder cs ds) : SameUpToOrderL cs ds := by
  induction h with
  | nil => exact .nil
  | cons h1 _ ih => exact .cons h1 ih

theorem forall₂_of_sameL {cs ds : List (PTree L)} (h : SameUpToOrderL cs ds) : List.Forall₂ SameUpToOrder cs ds := by
  induction cs generalizing ds with
  | nil => cases h; exact .nil
  | cons c cs ih => cases h with | cons h1 h2 => exact .cons h1 (ih h2)

theorem canonicalize_spec (t : PTree L) (h : Preterminals t) :
    ∃ u, canonicalize t = some u ∧ SameUpToOrder t u ∧ Ordered u ∧ Preterminals u := by
  induction t using PTree.ind with
  | hleaf i => exact ⟨.leaf i, by simp [canonicalize], .leaf i, by simp [Ordered], by simp [Preterminals]⟩
  | hnode l cs ih =>
    obtain ⟨ds, hds⟩ := canonicalizeL_total (cs := cs)
      (fun c hc => (ih c hc (Preterminals.child h c hc)).imp fun _ hu => hu.1)
    have hrel := canonicalizeL_rel hds
    have hall : List.Forall₂ (fun c d => canonicalize c = some d ∧ SameUpToOrder c d ∧ Ordered d ∧ Preterminals d) cs ds := by
      clear hds
      induction hrel with
      | nil => exact .nil
      | @cons a b l1 l2 h1 _ ih2 =>
        refine .cons ?_ (ih2 (fun c hc => ih c (by simp [hc])) ?_)
        · obtain ⟨u, hu, hu2⟩ := ih a (by simp) (Preterminals.child h a (by simp))
          rw [h1] at hu; injection hu with hu; rw [hu]
          exact ⟨by rw [← hu]; exact h1, hu2⟩
        · intro l' cs' hm
          rw [subtrees_node, List.mem_cons] at hm
          rcases hm with hm | hm
          · injection hm with _ hm
            subst hm
            rcases Preterminals.good h with hg | ⟨i, hg⟩
            · exact Or.inl fun c hc => hg c (by simp [hc])
            · injection hg with _ hg; subst hg; exact Or.inl (by simp)
          · exact h l' cs' (by
              rw [subtrees_node]; apply List.mem_cons_of_mem
              simp [hm])
    obtain ⟨es, hes, hsorted, hperm⟩ := sortChildren_good_sorted (good_of_rel hrel (Preterminals.good h))
    have hmem : ∀ e ∈ es, Ordered e ∧ Preterminals e := by
      intro e he
      have he := hperm.subset he
      clear hes hperm hsorted hrel hds h ih
      induction hall with
      | nil => simp at he
      | cons h1 _ ih2 =>
        rcases List.mem_cons.1 he with rfl | he
        · exact h1.2.2
        · exact ih2 he
    refine ⟨.node l es, by simp [canonicalize, hds, hes], ?_, ?_, ?_⟩
    · exact .node l cs ds es (sameL_of_forall₂ (hall.imp fun _ _ h => h.2.1)) hperm.symm
    · intro l' cs' hm
      rw [subtrees_node, List.mem_cons] at hm
      rcases hm with hm | hm
      · injection hm with _ hm; subst hm; exact hsorted
      · obtain ⟨e, he, hm⟩ := mem_subtreesL.1 hm
        exact (hmem e he).1 l' cs' hm
    · intro l' cs' hm
      rw [subtrees_node, List.mem_cons] at hm
      rcases hm with hm | hm
      · injection hm with _ hm; subst hm
        exact GoodSisters.perm hperm (good_of_rel hrel (Preterminals.good h))
      · obtain ⟨e, he, hm⟩ := mem_subtreesL.1 hm
        exact (hmem e he).2 l' cs' hm

theorem canonicalize_of_ordered (t : PTree L) (h : Preterminals t) (ho : Ordered t) : canonicalize t = some t := by
  induction t using PTree.ind with
  | hleaf i => simp [canonicalize]
  | hnode l cs ih =>
    have hL : canonicalizeL cs = some cs := by
      apply canonicalizeL_of_rel
      have : ∀ c ∈ cs, canonicalize c = some c := fun c hc =>
        ih c hc (Preterminals.child h c hc) (fun l' cs' hm =>
          ho l' cs' (by rw [subtrees_node]; exact List.mem_cons_of_mem _ (mem_subtreesL.2 ⟨c, hc, hm⟩)))
      clear ih h ho
      induction cs with
      | nil => exact .nil
      | cons c cs ih2 => exact .cons (this c (by simp)) (ih2 fun x hx => this x (by simp [hx]))
    have hs := sortChildren_good (Preterminals.good h)
    have hsorted : stableSort leLeaves cs = cs := by
      apply StableSort.of_pairwise
      exact (ho l cs (by simp)).imp (fun h => by simpa [leLeaves] using h)
    rw [hsorted] at hs
    simp [canonicalize, hL, hs]

/-! ### Uniqueness -/

theorem same_leaves_perm {t u : PTree L} (h : SameUpToOrder t u) : t.leaves.Perm u.leaves := by
  induction t using PTree.ind generalizing u with
  | hleaf i => cases h; simp
  | hnode l cs ih =>
    cases h with
    | node _ _ ds es h1 h2 =>
      replace h1 := forall₂_of_sameL h1
      have hL : (leavesL cs).Perm (leavesL ds) := by
        clear h2
        induction h1 with
        | nil => simp
        | cons hc _ ih2 =>
          rw [leavesL_cons, leavesL_cons]
          exact (ih _ (by simp) hc).append (ih2 fun c hc => ih c (by simp [hc]))
      refine hL.trans ?_
      rw [leaves_node, leavesL_eq_flatMap, leavesL_eq_flatMap]
      exact h2.flatMap_right _

theorem NoEmpty.leaves_ne {t : PTree L} (h : NoEmpty t) : t.leaves ≠ [] := by
  induction t using PTree.ind with
  | hleaf i => simp
  | hnode l cs ih =>
    cases cs with
    | nil => exact absurd (by simp) (h l)
    | cons c cs =>
      have := ih c (by simp) (fun l' hm => h l' (by
        rw [subtrees_node]; exact List.mem_cons_of_mem _ (mem_subtreesL.2 ⟨c, by simp, hm⟩)))
      simp [this]

theorem NoEmpty.child {l : L} {cs : List (PTree L)} (h : NoEmpty (.node l cs)) : ∀ c ∈ cs, NoEmpty c :=
  fun c hc l' hm => h l' (by
    rw [subtrees_node]; exact List.mem_cons_of_mem _ (mem_subtreesL.2 ⟨c, hc, hm⟩))

theorem leavesL_child_nodup {cs : List (PTree L)} (h : (leavesL cs).Nodup) : ∀ c ∈ cs, c.leaves.Nodup := by
  intro c hc
  rw [leavesL_eq_flatMap] at h
  exact (List.nodup_flatMap.1 h).1 c hc

/-- Sorted permutations coincide when the sisters have pairwise distinct keys. -/
theorem sorted_perm_eq {cs ds : List (PTree L)} (hp : cs.Perm ds)
    (h1 : cs.Pairwise (fun a b => a.leaves ≤ b.leaves)) (h2 : ds.Pairwise (fun a b => a.leaves ≤ b.leaves))
    (hne : ∀ c ∈ cs, c.leaves ≠ []) (hnd : (leavesL cs).Nodup) : cs = ds := by
  refine List.Perm.eq_of_pairwise ?_ h1 h2 hp
  intro a b ha hb hab hba
  have hb := hp.symm.subset hb
  have heq : a.leaves = b.leaves := List.le_antisymm hab hba
  -- two sisters with a common leaf are the same
  rw [leavesL_eq_flatMap, List.nodup_flatMap] at hnd
  by_cases hne' : a = b
  · exact hne'
  · exfalso
    obtain ⟨x, hx⟩ := List.exists_mem_of_ne_nil _ (hne a ha)
    have key : ∀ (l : List (PTree L)), l.Pairwise (fun p q => ∀ x, x ∈ p.leaves → x ∈ q.leaves → False) →
        a ∈ l → b ∈ l → False := by
      intro l hl ha hb
      induction hl with
      | nil => simp at ha
      | cons h _ ih =>
        rcases List.mem_cons.1 ha with ha' | ha' <;> rcases List.mem_cons.1 hb with hb' | hb'
        · exact hne' (ha'.trans hb'.symm)
        · rw [← ha'] at h; exact h b hb' x hx (heq ▸ hx)
        · rw [← hb'] at h; exact h a ha' x (heq ▸ hx) hx
        · exact ih ha' hb'
    exact key cs (hnd.2.imp fun h x h1 h2 => h h1 h2) ha hb

theorem canonicalizeL_perm {ds es : List (PTree L)} (hp : ds.Perm es) : ∀ {ds'}, canonicalizeL ds = some ds' →
    ∃ es', canonicalizeL es = some es' ∧ ds'.Perm es' := by
  induction hp with
  | nil => intro ds' h; exact ⟨ds', h, .rfl⟩
  | cons x _ ih =>
    intro ds' h
    simp [canonicalizeL, Option.bind_eq_some_iff] at h
    obtain ⟨d, hd, ds', hds, rfl⟩ := h
    obtain ⟨es', h1, h2⟩ := ih hds
    exact ⟨d :: es', by simp [canonicalizeL, hd, h1], h2.cons d⟩
  | swap x y l =>
    intro ds' h
    simp [canonicalizeL, Option.bind_eq_some_iff] at h
    obtain ⟨d, hd, e, he, ds', hds, rfl⟩ := h
    exact ⟨e :: d :: ds', by simp [canonicalizeL, hd, he, hds], .swap _ _ _⟩
  | trans _ _ ih1 ih2 =>
    intro ds' h
    obtain ⟨es', h1, h2⟩ := ih1 h
    obtain ⟨fs', h3, h4⟩ := ih2 h1
    exact ⟨fs', h3, h2.trans h4⟩

theorem canonicalize_unique (t u : PTree L) (h : SameUpToOrder t u) (hp : Preterminals t) (hne : NoEmpty t)
    (hnd : t.leaves.Nodup) : canonicalize t = canonicalize u := by
  induction t using PTree.ind generalizing u with
  | hleaf i => cases h; rfl
  | hnode l cs ih =>
    cases h with
    | node _ _ ds es h1 h2 =>
      replace h1 := forall₂_of_sameL h1
      rw [leaves_node] at hnd
      obtain ⟨cs', hcs'⟩ := canonicalizeL_total (cs := cs)
        (fun c hc => (canonicalize_spec c (Preterminals.child hp c hc)).imp fun _ hu => hu.1)
      have hds' : canonicalizeL ds = some cs' := by
        rw [← hcs']
        have : ∀ c ∈ cs, ∀ d, SameUpToOrder c d → canonicalize c = canonicalize d := fun c hc d hd =>
          ih c hc d hd (Preterminals.child hp c hc) (NoEmpty.child hne c hc) (leavesL_child_nodup hnd c hc)
        clear h2 hcs' hnd hne hp ih
        induction h1 with
        | nil => rfl
        | cons hc _ ih2 =>
          simp only [canonicalizeL]
          rw [this _ (by simp) _ hc, ih2 (fun c hc => this c (by simp [hc]))]
      obtain ⟨es', hes', hperm⟩ := canonicalizeL_perm h2 hds'
      have hrel := canonicalizeL_rel hcs'
      have hg := good_of_rel hrel (Preterminals.good hp)
      obtain ⟨fs, hfs, hfsort, hfperm⟩ := sortChildren_good_sorted hg
      obtain ⟨gs, hgs, hgsort, hgperm⟩ := sortChildren_good_sorted (GoodSisters.perm hperm.symm hg)
      have hlv : (leavesL cs).Perm (leavesL cs') ∧ ∀ c ∈ cs', c.leaves ≠ [] := by
        have hq : ∀ c ∈ cs, ∀ d, canonicalize c = some d → c.leaves.Perm d.leaves ∧ c.leaves ≠ [] := by
          intro c hc d hd
          obtain ⟨d', hd', hs, _⟩ := canonicalize_spec c (Preterminals.child hp c hc)
          rw [hd] at hd'; injection hd' with hd'; rw [hd']
          exact ⟨same_leaves_perm hs, NoEmpty.leaves_ne (NoEmpty.child hne c hc)⟩
        clear hfs hfperm hgperm hperm hds' h1 hcs' hg hnd hp hne ih
        induction hrel with
        | nil => simp
        | cons hc _ ih2 =>
          obtain ⟨i1, i2⟩ := ih2 (fun c hc => hq c (by simp [hc]))
          obtain ⟨q1, q2⟩ := hq _ (by simp) _ hc
          refine ⟨by rw [leavesL_cons, leavesL_cons]; exact q1.append i1, ?_⟩
          intro x hx
          rcases List.mem_cons.1 hx with rfl | hx
          · intro h0; rw [h0] at q1; exact q2 (List.perm_nil.1 q1)
          · exact i2 x hx
      have hfg : fs = gs := by
        refine sorted_perm_eq (hfperm.trans (hperm.trans hgperm.symm)) hfsort hgsort
          (fun c hc => hlv.2 c (hfperm.subset hc)) ?_
        have : (leavesL fs).Perm (leavesL cs') := by
          rw [leavesL_eq_flatMap, leavesL_eq_flatMap]; exact hfperm.flatMap_right _
        exact (this.trans hlv.1.symm).nodup_iff.2 hnd
      simp only [canonicalize, hcs', hes', Option.bind_eq_bind, Option.bind_some, hfs, hgs, hfg]

/-! ### Properties -/

/-- **C06.** On every tree in which each word has its own preterminal, `canonicalize` succeeds; the result has the
same constituents up to the order of sisters, the sisters are in order of their terminals, and every word still has its own
preterminal. -/
theorem C06_canonicalize (t : PTree L) (h : Preterminals t) :
    ∃ u, canonicalize t = some u ∧ SameUpToOrder t u ∧ Ordered u ∧ Preterminals u :=
  canonicalize_spec t h

/-- **C06.** Applying `canonicalize` to its result changes nothing. -/
theorem C06_idempotent (t u : PTree L) (h : Preterminals t) (hu : canonicalize t = some u) :
    canonicalize u = some u := by
  obtain ⟨u', hu', _, ho, hp⟩ := canonicalize_spec t h
  rw [hu] at hu'; injection hu' with hu'; subst hu'
  exact canonicalize_of_ordered u hp ho

/-- **C06.** The result is a canonical form: trees that differ only in the order of sisters have the same result (when no
constituent is empty and no terminal occurs twice). -/
theorem C06_canonical_form (t u : PTree L) (h : SameUpToOrder t u) (hp : Preterminals t) (hne : NoEmpty t)
    (hnd : t.leaves.Nodup) : canonicalize t = canonicalize u :=
  canonicalize_unique t u h hp hne hnd

/-- A word without its own preterminal, next to a constituent: `canonicalize` raises `AttributeError`. -/
theorem C06_mixed_children_fail :
    canonicalize (.node "S".toList [.node "X".toList [.leaf 1], .leaf 0] : PTree Str) = none := by
  decide +kernel

/-- The hypotheses are met by a discontinuous tree that is not in canonical order, and the result differs from it. -/
def exTree : PTree Str :=
  .node ['S'] [.node ['V'] [.leaf 1], .node ['V','P'] [.node ['N'] [.leaf 2], .node ['P'] [.leaf 0]]]

example : Preterminals exTree ∧ NoEmpty exTree ∧ exTree.leaves.Nodup ∧
    canonicalize exTree = some (.node ['S'] [.node ['V','P'] [.node ['P'] [.leaf 0], .node ['N'] [.leaf 2]],
      .node ['V'] [.leaf 1]]) := by
  refine ⟨?_, ?_, by decide +kernel, by decide +kernel⟩
  · intro l cs h
    simp [exTree] at h
    rcases h with ⟨_, rfl⟩ | ⟨_, rfl⟩ | ⟨_, rfl⟩ | ⟨_, rfl⟩ | ⟨_, rfl⟩ <;> simp [isNode]
  · intro l h
    simp [exTree] at h

end Disco.Canon
