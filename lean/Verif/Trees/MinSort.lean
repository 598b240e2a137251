import Verif.Trees.Canonical
import Mathlib.Data.Nat.Basic
import Mathlib.Order.Basic
/-!
# Sorting sisters by their first terminal

Lemmas for C04 and C05: for trees without empty constituents and with distinct terminals, `canonicalize` sorts all sisters by their first
terminal.
-/
namespace Disco

namespace StableSort
variable {α β : Type}

theorem insertSorted_congr {le le' : α → α → Bool} (a : α) (l : List α) (h : ∀ b ∈ l, le a b = le' a b) :
    insertSorted le a l = insertSorted le' a l := by
  induction l with
  | nil => rfl
  | cons b l ih =>
    rw [insertSorted, insertSorted, h b (by simp), ih (fun c hc => h c (by simp [hc]))]

theorem congr {le le' : α → α → Bool} (l : List α) (h : ∀ a ∈ l, ∀ b ∈ l, le a b = le' a b) : stableSort le l = stableSort le' l := by
  induction l with
  | nil => rfl
  | cons a l ih =>
    rw [stableSort, stableSort, ih (fun x hx y hy => h x (by simp [hx]) y (by simp [hy]))]
    exact insertSorted_congr a _ (fun b hb => h a (by simp) b (by have := (perm (le := le') l).subset hb; simp [this]))

theorem map_insertSorted {le : α → α → Bool} {le' : β → β → Bool} (f : α → β) (a : α) (l : List α)
    (h : ∀ b ∈ l, le' (f a) (f b) = le a b) : insertSorted le' (f a) (l.map f) = (insertSorted le a l).map f := by
  induction l with
  | nil => rfl
  | cons b l ih =>
    rw [List.map_cons, insertSorted, insertSorted, h b (by simp), ih (fun c hc => h c (by simp [hc]))]
    split <;> simp

theorem map {le : α → α → Bool} {le' : β → β → Bool} (f : α → β) (l : List α)
    (h : ∀ a ∈ l, ∀ b ∈ l, le' (f a) (f b) = le a b) : stableSort le' (l.map f) = (stableSort le l).map f := by
  induction l with
  | nil => rfl
  | cons a l ih =>
    rw [List.map_cons, stableSort, stableSort, ih (fun x hx y hy => h x (by simp [hx]) y (by simp [hy]))]
    exact map_insertSorted f a _ (fun b hb => h a (by simp) b (by have := (perm (le := le) l).subset hb; simp [this]))

end StableSort

namespace MinSort
open PTree

variable {L : Type}

/-- `min(t.leaves())`. -/
def mn (t : PTree L) : Nat := t.leaves.min?.getD 0

theorem mn_spec {t : PTree L} (h : t.leaves ≠ []) : mn t ∈ t.leaves ∧ ∀ x ∈ t.leaves, mn t ≤ x := by
  cases hm : t.leaves.min? with
  | none => rw [List.min?_eq_none_iff] at hm; exact absurd hm h
  | some m =>
    rw [mn, hm]
    exact List.min?_eq_some_iff.1 hm

theorem mn_unique {t : PTree L} {m : Nat} (h1 : m ∈ t.leaves) (h2 : ∀ x ∈ t.leaves, m ≤ x) : mn t = m := by
  obtain ⟨h3, h4⟩ := mn_spec (List.ne_nil_of_mem h1)
  exact Nat.le_antisymm (h4 m h1) (h2 _ h3)

theorem mn_perm {M : Type} {t : PTree L} {u : PTree M} (h : t.leaves.Perm u.leaves) : mn t = mn u := by
  by_cases hn : t.leaves = []
  · rw [hn] at h
    rw [mn, mn, hn, List.nil_perm.1 h]
  · obtain ⟨h1, h2⟩ := mn_spec hn
    exact (mn_unique (h.subset h1) (fun x hx => h2 x (h.symm.subset hx))).symm

/-- Sort sisters by their first terminal. -/
def leMin (a b : PTree L) : Bool := decide (mn a ≤ mn b)

/-- Sort sisters by their first terminal. -/
def sortMin (cs : List (PTree L)) : List (PTree L) := stableSort leMin cs

/-- Sisters: no terminal occurs twice and each has a terminal. -/
structure Sis (cs : List (PTree L)) : Prop where
  nodup : (leavesL cs).Nodup
  ne : ∀ c ∈ cs, c.leaves ≠ []

theorem leavesL_perm {cs ds : List (PTree L)} (h : cs.Perm ds) : (leavesL cs).Perm (leavesL ds) := by
  rw [leavesL_eq_flatMap, leavesL_eq_flatMap]; exact h.flatMap_right _

theorem Sis.perm {cs ds : List (PTree L)} (h : Sis cs) (hp : cs.Perm ds) : Sis ds :=
  ⟨(leavesL_perm hp).nodup_iff.1 h.nodup, fun c hc => h.ne c (hp.symm.subset hc)⟩

theorem Sis.sub {cs ds : List (PTree L)} (h : Sis cs) (hp : ds.Sublist cs) : Sis ds := by
  refine ⟨?_, fun c hc => h.ne c (hp.subset hc)⟩
  refine List.Nodup.sublist ?_ h.nodup
  clear h
  induction hp with
  | slnil => simp
  | cons c _ ih => rw [leavesL_cons]; exact ih.trans (List.sublist_append_right _ _)
  | cons_cons c _ ih => rw [leavesL_cons, leavesL_cons]; exact (List.Sublist.refl _).append ih

theorem Sis.tail {c : PTree L} {cs : List (PTree L)} (h : Sis (c :: cs)) : Sis cs := h.sub (List.sublist_cons_self _ _)

theorem Sis.pairwise {cs : List (PTree L)} (h : Sis cs) : cs.Pairwise (fun a b => ∀ x ∈ a.leaves, x ∉ b.leaves) := by
  have := h.nodup
  rw [leavesL_eq_flatMap, List.nodup_flatMap] at this
  exact this.2.imp (fun h x h1 h2 => h h1 h2)

theorem Sis.disjoint {cs : List (PTree L)} (h : Sis cs) {a b : PTree L} (ha : a ∈ cs) (hb : b ∈ cs) {x : Nat} (hxa : x ∈ a.leaves)
    (hxb : x ∈ b.leaves) : a = b := by
  by_contra hne
  have := h.pairwise
  clear h
  induction this with
  | nil => simp at ha
  | cons h1 _ ih =>
    rcases List.mem_cons.1 ha with ha' | ha' <;> rcases List.mem_cons.1 hb with hb' | hb'
    · exact hne (ha'.trans hb'.symm)
    · rw [← ha'] at h1; exact h1 b hb' x hxa hxb
    · rw [← hb'] at h1; exact h1 a ha' x hxb hxa
    · exact ih ha' hb'

theorem Sis.mn_inj {cs : List (PTree L)} (h : Sis cs) {a b : PTree L} (ha : a ∈ cs) (hb : b ∈ cs) (he : mn a = mn b) : a = b :=
  h.disjoint ha hb (mn_spec (h.ne a ha)).1 (he ▸ (mn_spec (h.ne b hb)).1)

theorem Sis.mn_ne {cs : List (PTree L)} (h : Sis cs) : cs.Pairwise (fun a b => mn a ≠ mn b) :=
  h.pairwise.imp_of_mem (fun ha hb hab he => hab _ (mn_spec (h.ne _ ha)).1 (he ▸ (mn_spec (h.ne _ hb)).1))

theorem sortMin_perm (cs : List (PTree L)) : (sortMin cs).Perm cs := StableSort.perm cs

theorem sortMin_sorted {cs : List (PTree L)} (h : Sis cs) : (sortMin cs).Pairwise (fun a b => mn a < mn b) := by
  have h1 : (sortMin cs).Pairwise (fun a b => leMin a b = true) := StableSort.pairwise (le := leMin)
    (fun a b c h1 h2 => by simp only [leMin, decide_eq_true_eq] at *; omega)
    (fun a b => by simp only [leMin, Bool.or_eq_true, decide_eq_true_eq]; omega) cs
  have h2 := (h.perm (sortMin_perm cs).symm).mn_ne
  exact h1.imp₂ (fun a b h h' => by simp only [leMin, decide_eq_true_eq] at h; omega) h2

theorem eq_of_perm_sorted {cs ds : List (PTree L)} (hp : cs.Perm ds) (h1 : cs.Pairwise (fun a b => mn a < mn b))
    (h2 : ds.Pairwise (fun a b => mn a < mn b)) : cs = ds := by
  refine List.Perm.eq_of_pairwise ?_ h1 h2 hp
  intro a b _ _ hab hba
  omega

theorem sortMin_of_sorted {cs : List (PTree L)} (h : cs.Pairwise (fun a b => mn a < mn b)) : sortMin cs = cs :=
  StableSort.of_pairwise (h.imp (fun h => by simp only [leMin, decide_eq_true_eq]; omega))

theorem sortMin_map {M : Type} (f : PTree L → PTree M) (cs : List (PTree L)) (h : ∀ c ∈ cs, mn (f c) = mn c) :
    sortMin (cs.map f) = (sortMin cs).map f :=
  StableSort.map f cs (fun a ha b hb => by simp only [leMin, h a ha, h b hb])

/-! ### `canonicalize` as a total function -/

mutual
/-- `canonicalize` where it does not fail. -/
def canon : PTree L → PTree L
  | .leaf i => .leaf i
  | .node l cs => .node l (stableSort Canon.leLeaves (canonL cs))
/-- On lists. -/
def canonL : List (PTree L) → List (PTree L)
  | [] => []
  | c :: cs => canon c :: canonL cs
end

theorem canonL_eq (cs : List (PTree L)) : canonL cs = cs.map canon := by
  induction cs with
  | nil => rfl
  | cons c cs ih => rw [canonL, ih, List.map_cons]

theorem canonicalize_eq (t : PTree L) (h : Canon.Spec.Preterminals t) : Canon.canonicalize t = some (canon t) := by
  induction t using PTree.ind with
  | hleaf i => rfl
  | hnode l cs ih =>
    have hL : Canon.canonicalizeL cs = some (canonL cs) := by
      apply Canon.canonicalizeL_of_rel
      have : ∀ c ∈ cs, Canon.canonicalize c = some (canon c) := fun c hc => ih c hc (Canon.Preterminals.child h c hc)
      clear ih h
      induction cs with
      | nil => exact .nil
      | cons c cs ih2 => exact .cons (this c (by simp)) (ih2 fun x hx => this x (by simp [hx]))
    have hg := Canon.good_of_rel (Canon.canonicalizeL_rel hL) (Canon.Preterminals.good h)
    rw [Canon.canonicalize, hL]
    simp only [Option.bind_eq_bind, Option.bind_some, Canon.sortChildren_good hg, canon, Option.pure_def]
    congr 2
    split
    · rfl
    · match hc : canonL cs with
      | [] => rfl
      | [c] => rfl
      | _ :: _ :: _ => simp_all

theorem canon_leaves_perm (t : PTree L) : (canon t).leaves.Perm t.leaves := by
  induction t using PTree.ind with
  | hleaf i => rw [canon]
  | hnode l cs ih =>
    rw [canon, leaves_node, leaves_node, canonL_eq]
    refine (leavesL_perm (StableSort.perm _)).trans ?_
    clear l
    induction cs with
    | nil => simp
    | cons c cs ih2 =>
      rw [List.map_cons, leavesL_cons, leavesL_cons]
      exact (ih c (by simp)).append (ih2 fun x hx => ih x (by simp [hx]))

theorem mn_canon (t : PTree L) : mn (canon t) = mn t := mn_perm (canon_leaves_perm t)

theorem canon_isNode (t : PTree L) : (canon t).isNode = t.isNode := by cases t <;> simp [canon, isNode]

theorem canon_label (t : PTree L) : (canon t).label? = t.label? := by cases t <;> simp [canon, label?]

theorem Sis.map_canon {cs : List (PTree L)} (h : Sis cs) : Sis (cs.map canon) := by
  refine ⟨?_, ?_⟩
  · have : (leavesL (cs.map canon)).Perm (leavesL cs) := by
      clear h
      induction cs with
      | nil => simp
      | cons c cs ih => rw [List.map_cons, leavesL_cons, leavesL_cons]; exact (canon_leaves_perm c).append ih
    exact this.nodup_iff.2 h.nodup
  · intro c hc
    obtain ⟨d, hd, rfl⟩ := List.mem_map.1 hc
    intro h0
    have := canon_leaves_perm d
    rw [h0] at this
    exact h.ne d hd (List.nil_perm.1 this)

theorem sis_of {l : L} {cs : List (PTree L)} (hne : Canon.Spec.NoEmpty (.node l cs)) (hnd : (PTree.node l cs).leaves.Nodup) : Sis cs :=
  ⟨by simpa using hnd, fun c hc => Canon.NoEmpty.leaves_ne (Canon.NoEmpty.child hne c hc)⟩

theorem head_le {a b : List Nat} {x y : Nat} (hx : a.head? = some x) (hy : b.head? = some y) (hxy : x ≠ y) : a ≤ b ↔ x ≤ y := by
  cases a with
  | nil => simp at hx
  | cons p a =>
    cases b with
    | nil => simp at hy
    | cons q b =>
      simp only [List.head?_cons, Option.some.injEq] at hx hy
      subst hx hy
      rw [List.cons_le_cons_iff]
      omega

/-- In canonical form the first terminal comes first. -/
theorem canon_head (t : PTree L) (hne : Canon.Spec.NoEmpty t) (hnd : t.leaves.Nodup) : (canon t).leaves.head? = some (mn t) := by
  induction t using PTree.ind with
  | hleaf i => simp [canon, mn]
  | hnode l cs ih =>
    have hs := sis_of hne hnd
    have ih' : ∀ c ∈ cs, (canon c).leaves.head? = some (mn c) := fun c hc =>
      ih c hc (Canon.NoEmpty.child hne c hc) (Canon.leavesL_child_nodup (by simpa using hnd) c hc)
    rw [canon, canonL_eq, leaves_node]
    have hp : (stableSort Canon.leLeaves (cs.map canon)).Perm (cs.map canon) := StableSort.perm _
    have hsorted := Canon.sorted_mergeSort (cs.map canon)
    cases hq : stableSort Canon.leLeaves (cs.map canon) with
    | nil =>
      rw [hq, List.nil_perm, List.map_eq_nil_iff] at hp
      subst hp
      exact absurd (by simp) (hne l)
    | cons e es =>
      rw [hq] at hp hsorted
      obtain ⟨c, hc, rfl⟩ := List.mem_map.1 (hp.subset (by simp : e ∈ e :: es))
      have hh := ih' c hc
      have : (leavesL (canon c :: es)).head? = some (mn c) := by
        rw [leavesL_cons, List.head?_append, hh]; rfl
      rw [this]
      congr 1
      refine (mn_unique ?_ ?_).symm
      · rw [leaves_node]; exact mem_leavesL.2 ⟨c, hc, (mn_spec (hs.ne c hc)).1⟩
      · intro x hx
        obtain ⟨d, hd, hxd⟩ := mem_leavesL.1 (by simpa using hx)
        by_cases hcd : mn c = mn d
        · rw [hcd]; exact (mn_spec (hs.ne d hd)).2 x hxd
        · have hle : (canon c).leaves ≤ (canon d).leaves := by
            have hm := hp.symm.subset (List.mem_map.2 ⟨d, hd, rfl⟩)
            rcases List.mem_cons.1 hm with hm | hm
            · rw [hm]; exact List.le_refl _
            · exact (List.pairwise_cons.1 hsorted).1 _ hm
          have := (head_le hh (ih' d hd) hcd).1 hle
          have := (mn_spec (hs.ne d hd)).2 x hxd
          omega

/-- `canonicalize` sorts sisters by their first terminal. -/
theorem canon_node (l : L) (cs : List (PTree L)) (hne : Canon.Spec.NoEmpty (.node l cs)) (hnd : (PTree.node l cs).leaves.Nodup) :
    canon (.node l cs) = .node l ((sortMin cs).map canon) := by
  have hs := sis_of hne hnd
  rw [canon, canonL_eq, ← sortMin_map canon cs (fun c _ => mn_canon c)]
  congr 1
  apply StableSort.congr
  intro a ha b hb
  obtain ⟨c, hc, rfl⟩ := List.mem_map.1 ha
  obtain ⟨d, hd, rfl⟩ := List.mem_map.1 hb
  have h1 := canon_head c (Canon.NoEmpty.child hne c hc) (Canon.leavesL_child_nodup (by simpa using hnd) c hc)
  have h2 := canon_head d (Canon.NoEmpty.child hne d hd) (Canon.leavesL_child_nodup (by simpa using hnd) d hd)
  by_cases hcd : mn c = mn d
  · have := hs.mn_inj hc hd hcd
    subst this
    simp [Canon.leLeaves, leMin]
  · simp only [Canon.leLeaves, leMin, mn_canon, head_le h1 h2 hcd]

end MinSort
end Disco
