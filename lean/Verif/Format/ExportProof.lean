import Mathlib.Data.List.Basic
import Mathlib.Data.List.Nodup
import Mathlib.Data.List.Perm.Basic
import Mathlib.Data.List.Infix
import Mathlib.Tactic.SplitIfs
import Verif.Trees.MinSort
import Verif.Grammar.DopReduction
import Verif.Format.Export
/-!
# C14: what is written and what is read (lemmas)
-/
namespace Disco.Export
open PTree

/-- The terminal of a preterminal. -/
def firstLeaf : List (PTree Lab) → Option Nat
  | .leaf i :: _ => some i
  | _ => none

mutual
/-- The number of phrasal nodes. -/
def nph : PTree Lab → Nat
  | .leaf _ => 0
  | .node _ cs => match firstLeaf cs with
    | some _ => 0
    | none => nphL cs + 1
/-- The number of phrasal nodes in a list of trees. -/
def nphL : List (PTree Lab) → Nat
  | [] => 0
  | c :: cs => nph c + nphL cs
end

/-- A row, before it is written: the number of the parent (`none` for the root), the own number (for a preterminal: the terminal), the label, and
whether it is a phrasal node. -/
structure Item where
  par : Option Nat
  key : Nat
  lab : Lab
  phr : Bool

mutual
/-- The rows of a tree in post-order, when its parent has number `par` and its phrasal nodes get numbers from `s`. -/
def itemsP (par : Option Nat) (s : Nat) : PTree Lab → List Item
  | .leaf _ => []
  | .node l cs => match firstLeaf cs with
    | some i => [⟨par, i, l, false⟩]
    | none => itemsL (some (s + nphL cs)) s cs ++ [⟨par, s + nphL cs, l, true⟩]
/-- The rows of a list of sisters. -/
def itemsL (par : Option Nat) (s : Nat) : List (PTree Lab) → List Item
  | [] => []
  | c :: cs => itemsP par s c ++ itemsL par (s + nph c) cs
end

/-- The rows of the sisters themselves. -/
def tops (par : Option Nat) (s : Nat) : List (PTree Lab) → List Item
  | [] => []
  | .leaf _ :: cs => tops par s cs
  | .node l ds :: cs => (match firstLeaf ds with
    | some i => ⟨par, i, l, false⟩
    | none => ⟨par, s + nphL ds, l, true⟩) :: tops par (s + nph (.node l ds)) cs

theorem nph_pre {l : Lab} {cs : List (PTree Lab)} {i : Nat} (h : firstLeaf cs = some i) : nph (.node l cs) = 0 := by rw [nph, h]
theorem nph_phr {l : Lab} {cs : List (PTree Lab)} (h : firstLeaf cs = none) : nph (.node l cs) = nphL cs + 1 := by rw [nph, h]
theorem itemsP_pre {par : Option Nat} {s : Nat} {l : Lab} {cs : List (PTree Lab)} {i : Nat} (h : firstLeaf cs = some i) :
    itemsP par s (.node l cs) = [⟨par, i, l, false⟩] := by rw [itemsP, h]
theorem itemsP_phr {par : Option Nat} {s : Nat} {l : Lab} {cs : List (PTree Lab)} (h : firstLeaf cs = none) :
    itemsP par s (.node l cs) = itemsL (some (s + nphL cs)) s cs ++ [⟨par, s + nphL cs, l, true⟩] := by rw [itemsP, h]

theorem nphL_append (a b : List (PTree Lab)) : nphL (a ++ b) = nphL a + nphL b := by
  induction a with
  | nil => simp [nphL]
  | cons c a ih => rw [List.cons_append, nphL, nphL, ih]; omega

theorem itemsL_append (par : Option Nat) (s : Nat) (a b : List (PTree Lab)) :
    itemsL par s (a ++ b) = itemsL par s a ++ itemsL par (s + nphL a) b := by
  induction a generalizing s with
  | nil => simp [itemsL, nphL]
  | cons c a ih => rw [List.cons_append, itemsL, itemsL, ih, nphL, List.append_assoc, Nat.add_assoc]

theorem itemsL_of {par : Option Nat} {cs : List (PTree Lab)} {P : Nat → Nat → Item → Prop}
    (mono : ∀ a b a' b' x, a' ≤ a → b ≤ b' → P a b x → P a' b' x)
    (h : ∀ c ∈ cs, ∀ s, ∀ x ∈ itemsP par s c, P s (s + nph c) x) : ∀ s, ∀ x ∈ itemsL par s cs, P s (s + nphL cs) x := by
  induction cs with
  | nil => intro s x hx; simp [itemsL] at hx
  | cons c cs ih =>
    intro s x hx
    rw [itemsL, List.mem_append] at hx
    rw [nphL]
    rcases hx with hx | hx
    · exact mono _ _ _ _ x (Nat.le_refl _) (by omega) (h c (by simp) s x hx)
    · exact mono _ _ _ _ x (by omega) (by omega) (ih (fun d hd => h d (by simp [hd])) (s + nph c) x hx)

/-- Numbers of parents and own numbers lie within the range of the subtree. -/
theorem items_range (t : PTree Lab) : ∀ (par : Option Nat) (s : Nat), ∀ x ∈ itemsP par s t,
    (x.par = par ∨ ∃ j, x.par = some j ∧ s ≤ j ∧ j < s + nph t) ∧ (x.phr = true → s ≤ x.key ∧ x.key < s + nph t) := by
  induction t using PTree.ind with
  | hleaf i => intro par s x hx; simp [itemsP] at hx
  | hnode l cs ih =>
    intro par s x hx
    cases h : firstLeaf cs with
    | some i =>
      rw [itemsP_pre h, List.mem_singleton] at hx
      subst hx; simp
    | none =>
      rw [itemsP_phr h, List.mem_append, List.mem_singleton] at hx
      rw [nph_phr h]
      rcases hx with hx | rfl
      · have := itemsL_of (par := some (s + nphL cs)) (cs := cs)
          (P := fun a b x => (x.par = some (s + nphL cs) ∨ ∃ j, x.par = some j ∧ a ≤ j ∧ j < b) ∧ (x.phr = true → a ≤ x.key ∧ x.key < b))
          (by
            rintro a b a' b' x h1 h2 ⟨h3, h4⟩
            refine ⟨?_, fun hp => ⟨by have := (h4 hp).1; omega, by have := (h4 hp).2; omega⟩⟩
            rcases h3 with h3 | ⟨j, h3, h5, h6⟩
            · exact Or.inl h3
            · exact Or.inr ⟨j, h3, by omega, by omega⟩)
          (fun c hc s' x hx => ih c hc _ s' x hx) s x hx
        obtain ⟨h3, h4⟩ := this
        refine ⟨Or.inr ?_, fun hp => ⟨(h4 hp).1, by have := (h4 hp).2; omega⟩⟩
        rcases h3 with h3 | ⟨j, h3, h5, h6⟩
        · exact ⟨_, h3, by omega, by omega⟩
        · exact ⟨j, h3, h5, by omega⟩
      · exact ⟨Or.inl rfl, fun _ => ⟨by simp, by simp⟩⟩

theorem itemsL_range (cs : List (PTree Lab)) (par : Option Nat) (s : Nat) : ∀ x ∈ itemsL par s cs,
    (x.par = par ∨ ∃ j, x.par = some j ∧ s ≤ j ∧ j < s + nphL cs) ∧ (x.phr = true → s ≤ x.key ∧ x.key < s + nphL cs) :=
  itemsL_of (par := par) (cs := cs)
    (P := fun a b x => (x.par = par ∨ ∃ j, x.par = some j ∧ a ≤ j ∧ j < b) ∧ (x.phr = true → a ≤ x.key ∧ x.key < b))
    (by
      rintro a b a' b' x h1 h2 ⟨h3, h4⟩
      refine ⟨?_, fun hp => ⟨by have := (h4 hp).1; omega, by have := (h4 hp).2; omega⟩⟩
      rcases h3 with h3 | ⟨j, h3, h5, h6⟩
      · exact Or.inl h3
      · exact Or.inr ⟨j, h3, by omega, by omega⟩)
    (fun c _ s' x hx => items_range c par s' x hx) s

/-- The rows whose parent has the number given to the sisters are those of the sisters. -/
theorem filter_tops (cs : List (PTree Lab)) (par : Option Nat) (s : Nat) (hpar : ∀ j, par = some j → ¬(s ≤ j ∧ j < s + nphL cs)) :
    (itemsL par s cs).filter (fun x => decide (x.par = par)) = tops par s cs := by
  induction cs generalizing s with
  | nil => simp [itemsL, tops]
  | cons c cs ih =>
    rw [itemsL, List.filter_append]
    have h2 := ih (s + nph c) (fun j hj h => hpar j hj (by rw [nphL]; omega))
    cases c with
    | leaf i => rw [h2]; simp [itemsP, tops, nph]
    | node l ds =>
      rw [h2, tops]
      cases h : firstLeaf ds with
      | some i => rw [itemsP_pre h]; simp
      | none =>
        rw [itemsP_phr h, List.filter_append]
        have : (itemsL (some (s + nphL ds)) s ds).filter (fun x => decide (x.par = par)) = [] := by
          rw [List.filter_eq_nil_iff]
          intro x hx
          have hr := (itemsL_range ds _ s x hx).1
          simp only [decide_eq_true_eq]
          intro e
          rw [nphL, nph_phr h] at hpar
          rcases hr with hr | ⟨j, hr, h3, h4⟩
          · exact hpar _ (e.symm.trans hr) (by omega)
          · exact hpar _ (e.symm.trans hr) (by omega)
        rw [this]; simp

/-- The rows with a parent within a subtree lie within this subtree. -/
theorem filter_child (A B : List (PTree Lab)) (c : PTree Lab) (par : Option Nat) (s j : Nat) (h1 : s + nphL A ≤ j) (h2 : j < s + nphL A + nph c)
    (hpar : par ≠ some j) :
    (itemsL par s (A ++ c :: B)).filter (fun x => decide (x.par = some j)) =
      (itemsP par (s + nphL A) c).filter (fun x => decide (x.par = some j)) := by
  rw [itemsL_append, itemsL, List.filter_append, List.filter_append]
  have e1 : (itemsL par s A).filter (fun x => decide (x.par = some j)) = [] := by
    rw [List.filter_eq_nil_iff]
    intro x hx
    have hr := (itemsL_range A _ s x hx).1
    simp only [decide_eq_true_eq]
    intro e
    rcases hr with hr | ⟨i, hr, h3, h4⟩
    · exact hpar (hr.symm.trans e)
    · have := hr.symm.trans e; simp at this; omega
  have e2 : (itemsL par (s + nphL A + nph c) B).filter (fun x => decide (x.par = some j)) = [] := by
    rw [List.filter_eq_nil_iff]
    intro x hx
    have hr := (itemsL_range B _ _ x hx).1
    simp only [decide_eq_true_eq]
    intro e
    rcases hr with hr | ⟨i, hr, h3, h4⟩
    · exact hpar (hr.symm.trans e)
    · have := hr.symm.trans e; simp at this; omega
  rw [e1, e2]; simp

/-- The rows of the phrasal nodes have numbers in increasing order. -/
theorem items_keys (t : PTree Lab) : ∀ (par : Option Nat) (s : Nat),
    ((itemsP par s t).filter (·.phr)).map (·.key) = List.range' s (nph t) := by
  induction t using PTree.ind with
  | hleaf i => intro par s; simp [itemsP, nph]
  | hnode l cs ih =>
    intro par s
    have hL : ∀ (ds : List (PTree Lab)) (par : Option Nat) (s : Nat), (∀ d ∈ ds, d ∈ cs) →
        ((itemsL par s ds).filter (·.phr)).map (·.key) = List.range' s (nphL ds) := by
      intro ds
      induction ds with
      | nil => intro par s _; simp [itemsL, nphL]
      | cons d ds ihd =>
        intro par s hd
        rw [itemsL, List.filter_append, List.map_append, ih d (hd d (by simp)), ihd _ _ (fun x hx => hd x (by simp [hx])), nphL,
          List.range'_append_1]
    cases h : firstLeaf cs with
    | some i => rw [itemsP_pre h, nph_pre h]; simp
    | none =>
      rw [itemsP_phr h, nph_phr h, List.filter_append, List.map_append, hL cs _ _ (fun _ h => h)]
      simp only [List.filter_cons, if_true, List.filter_nil, List.map_cons, List.map_nil]
      rw [← List.range'_append_1]; rfl

theorem itemsL_keys (cs : List (PTree Lab)) (par : Option Nat) (s : Nat) :
    ((itemsL par s cs).filter (·.phr)).map (·.key) = List.range' s (nphL cs) := by
  induction cs generalizing s with
  | nil => simp [itemsL, nphL]
  | cons c cs ih => rw [itemsL, List.filter_append, List.map_append, items_keys, ih, nphL, List.range'_append_1]

/-! ### Positions -/

/-- A node with its position: a preterminal with its terminal, or a phrasal node. -/
structure PItem where
  path : Path
  lab : Lab
  leaf : Option Nat

mutual
/-- The nodes of a tree in post-order. -/
def postsP (p : Path) : PTree Lab → List PItem
  | .leaf _ => []
  | .node l cs => match firstLeaf cs with
    | some i => [⟨p, l, some i⟩]
    | none => postsL p 0 cs ++ [⟨p, l, none⟩]
/-- The nodes of a list of sisters. -/
def postsL (p : Path) (i : Nat) : List (PTree Lab) → List PItem
  | [] => []
  | c :: cs => postsP (p ++ [i]) c ++ postsL p (i + 1) cs
end

theorem postsP_pre {p : Path} {l : Lab} {cs : List (PTree Lab)} {i : Nat} (h : firstLeaf cs = some i) :
    postsP p (.node l cs) = [⟨p, l, some i⟩] := by rw [postsP, h]
theorem postsP_phr {p : Path} {l : Lab} {cs : List (PTree Lab)} (h : firstLeaf cs = none) :
    postsP p (.node l cs) = postsL p 0 cs ++ [⟨p, l, none⟩] := by rw [postsP, h]

theorem postsL_prefix {cs : List (PTree Lab)} {p : Path} (h : ∀ c ∈ cs, ∀ q, ∀ x ∈ postsP q c, q <+: x.path) :
    ∀ i, ∀ x ∈ postsL p i cs, ∃ j, i ≤ j ∧ p ++ [j] <+: x.path := by
  induction cs with
  | nil => intro i x hx; simp [postsL] at hx
  | cons c cs ih =>
    intro i x hx
    rw [postsL, List.mem_append] at hx
    rcases hx with hx | hx
    · exact ⟨i, Nat.le_refl _, h c (by simp) _ x hx⟩
    · obtain ⟨j, h1, h2⟩ := ih (fun c hc => h c (by simp [hc])) (i + 1) x hx
      exact ⟨j, by omega, h2⟩

theorem postsP_prefix (t : PTree Lab) : ∀ q, ∀ x ∈ postsP q t, q <+: x.path := by
  induction t using PTree.ind with
  | hleaf i => intro q x hx; simp [postsP] at hx
  | hnode l cs ih =>
    intro q x hx
    cases h : firstLeaf cs with
    | some i => rw [postsP_pre h, List.mem_singleton] at hx; subst hx; simp
    | none =>
      rw [postsP_phr h, List.mem_append, List.mem_singleton] at hx
      rcases hx with hx | rfl
      · obtain ⟨j, _, h2⟩ := postsL_prefix ih 0 x hx
        exact (List.prefix_append _ _).trans h2
      · exact List.prefix_refl _

theorem prefix_branch {p q : Path} {i j : Nat} (h1 : p ++ [i] <+: q) (h2 : p ++ [j] <+: q) : i = j := by
  obtain ⟨a, rfl⟩ := h1
  obtain ⟨b, h⟩ := h2
  simp at h
  exact h.1.symm

theorem posts_nodup (t : PTree Lab) : ∀ q, ((postsP q t).map (·.path)).Nodup := by
  induction t using PTree.ind with
  | hleaf i => intro q; simp [postsP]
  | hnode l cs ih =>
    intro q
    have hL : ∀ (ds : List (PTree Lab)) (i : Nat), (∀ d ∈ ds, d ∈ cs) → ((postsL q i ds).map (·.path)).Nodup := by
      intro ds
      induction ds with
      | nil => intro i _; simp [postsL]
      | cons d ds ihd =>
        intro i hd
        rw [postsL, List.map_append, List.nodup_append]
        refine ⟨ih d (hd d (by simp)) _, ihd _ (fun x hx => hd x (by simp [hx])), ?_⟩
        rintro a ha b hb rfl
        obtain ⟨x, hx, rfl⟩ := List.mem_map.1 ha
        obtain ⟨y, hy, e⟩ := List.mem_map.1 hb
        have h1 := postsP_prefix d _ x hx
        obtain ⟨j, h2, h3⟩ := postsL_prefix (fun c _ => postsP_prefix c) _ y hy
        rw [e] at h3
        have := prefix_branch h1 h3
        omega
    cases h : firstLeaf cs with
    | some i => rw [postsP_pre h]; simp
    | none =>
      rw [postsP_phr h, List.map_append, List.nodup_append]
      refine ⟨hL cs 0 (fun _ h => h), by simp, ?_⟩
      rintro a ha b hb rfl
      obtain ⟨x, hx, rfl⟩ := List.mem_map.1 ha
      simp at hb
      obtain ⟨j, _, h2⟩ := postsL_prefix (fun c _ => postsP_prefix c) _ x hx
      rw [hb] at h2
      have := h2.length_le
      simp at this

theorem postsL_nodup (cs : List (PTree Lab)) (q : Path) (i : Nat) : ((postsL q i cs).map (·.path)).Nodup := by
  induction cs generalizing i with
  | nil => simp [postsL]
  | cons d ds ihd =>
    rw [postsL, List.map_append, List.nodup_append]
    refine ⟨posts_nodup d _, ihd _, ?_⟩
    rintro a ha b hb rfl
    obtain ⟨x, hx, rfl⟩ := List.mem_map.1 ha
    obtain ⟨y, hy, e⟩ := List.mem_map.1 hb
    have h1 := postsP_prefix d _ x hx
    obtain ⟨j, h2, h3⟩ := postsL_prefix (fun c _ => postsP_prefix c) _ y hy
    rw [e] at h3
    have := prefix_branch h1 h3
    omega

/-- The positions of the phrasal nodes. -/
def phPaths (xs : List PItem) : List Path := (xs.filter (·.leaf.isNone)).map (·.path)

theorem phPaths_append (a b : List PItem) : phPaths (a ++ b) = phPaths a ++ phPaths b := by simp [phPaths]

theorem phPaths_nodup {xs : List PItem} (h : (xs.map (·.path)).Nodup) : (phPaths xs).Nodup :=
  h.sublist (List.Sublist.map _ (List.filter_sublist))

theorem phPaths_length (t : PTree Lab) : ∀ q, (phPaths (postsP q t)).length = nph t := by
  induction t using PTree.ind with
  | hleaf i => intro q; simp [postsP, phPaths, nph]
  | hnode l cs ih =>
    intro q
    have hL : ∀ (ds : List (PTree Lab)) (i : Nat), (∀ d ∈ ds, d ∈ cs) → (phPaths (postsL q i ds)).length = nphL ds := by
      intro ds
      induction ds with
      | nil => intro i _; simp [postsL, phPaths, nphL]
      | cons d ds ihd =>
        intro i hd
        rw [postsL, phPaths_append, List.length_append, ih d (hd d (by simp)), ihd _ (fun x hx => hd x (by simp [hx])), nphL]
    cases h : firstLeaf cs with
    | some i => rw [postsP_pre h, nph_pre h]; simp [phPaths]
    | none =>
      rw [postsP_phr h, nph_phr h, phPaths_append, List.length_append, hL cs 0 (fun _ h => h)]
      simp [phPaths]

theorem phPathsL_length (cs : List (PTree Lab)) (q : Path) (i : Nat) : (phPaths (postsL q i cs)).length = nphL cs := by
  induction cs generalizing i with
  | nil => simp [postsL, phPaths, nphL]
  | cons d ds ihd => rw [postsL, phPaths_append, List.length_append, phPaths_length, ihd, nphL]

/-- The number of the parent of a position. -/
def parNum (W : List Path) (p : Path) : Option Nat := if p.dropLast = [] then none else some (W.idxOf p.dropLast)

/-- A node as a row, given the positions of the phrasal nodes. -/
def toItem (W : List Path) (x : PItem) : Item :=
  ⟨parNum W x.path, match x.leaf with | some i => i | none => W.idxOf x.path, x.lab, x.leaf.isNone⟩

theorem idxOf_mid {A B C : List Path} {q : Path} (h : (A ++ (B ++ [q]) ++ C).Nodup) : (A ++ (B ++ [q]) ++ C).idxOf q = A.length + B.length := by
  have : q ∉ A ++ B := by
    rw [List.append_assoc, List.append_assoc, ← List.append_assoc, List.nodup_append] at h
    intro hm
    exact h.2.2 q hm q (by simp) rfl
  rw [show A ++ (B ++ [q]) ++ C = (A ++ B) ++ (q :: C) by simp, List.idxOf_append_of_notMem this, List.idxOf_cons_self]
  simp

/-- Numbering by positions agrees with numbering by counting. -/
theorem toItem_posts (W : List Path) (hW : W.Nodup) (t : PTree Lab) : ∀ (p : Path) (A C : List Path), p ≠ [] → W = A ++ phPaths (postsP p t) ++ C →
    (postsP p t).map (toItem W) = itemsP (parNum W p) A.length t := by
  induction t using PTree.ind with
  | hleaf i => intro p A C _ _; simp [postsP, itemsP]
  | hnode l cs ih =>
    intro p A C hp hw
    cases h : firstLeaf cs with
    | some i => rw [postsP_pre h, itemsP_pre h]; simp [toItem]
    | none =>
      rw [postsP_phr h] at hw ⊢
      rw [itemsP_phr h]
      have hph : phPaths (postsL p 0 cs ++ [⟨p, l, none⟩]) = phPaths (postsL p 0 cs) ++ [p] := by rw [phPaths_append]; simp [phPaths]
      rw [hph] at hw
      have hme : W.idxOf p = A.length + nphL cs := by
        rw [hw, idxOf_mid (hw ▸ hW), phPathsL_length]
      have hL : ∀ (ds : List (PTree Lab)) (i : Nat) (A C : List Path), (∀ d ∈ ds, d ∈ cs) → W = A ++ phPaths (postsL p i ds) ++ C →
          (postsL p i ds).map (toItem W) = itemsL (some (W.idxOf p)) A.length ds := by
        intro ds
        induction ds with
        | nil => intro i A C _ _; simp [postsL, itemsL]
        | cons d ds ihd =>
          intro i A C hd hw
          rw [postsL, phPaths_append] at hw
          rw [postsL, List.map_append, itemsL]
          rw [ih d (hd d (by simp)) (p ++ [i]) A (phPaths (postsL p (i + 1) ds) ++ C) (by simp) (by rw [hw]; simp),
            ihd (i + 1) (A ++ phPaths (postsP (p ++ [i]) d)) C (fun x hx => hd x (by simp [hx])) (by rw [hw]; simp)]
          rw [List.length_append, phPaths_length]
          simp [parNum, hp]
      rw [List.map_append, hL cs 0 A ([p] ++ C) (fun _ h => h) (by rw [hw]; simp), hme]
      simp [toItem, hme]

theorem toItem_postsL (W : List Path) (hW : W.Nodup) (cs : List (PTree Lab)) : ∀ (i : Nat) (A C : List Path), W = A ++ phPaths (postsL [] i cs) ++ C →
    (postsL [] i cs).map (toItem W) = itemsL none A.length cs := by
  induction cs with
  | nil => intro i A C _; simp [postsL, itemsL]
  | cons d ds ihd =>
    intro i A C hw
    rw [postsL, phPaths_append] at hw
    rw [postsL, List.map_append, itemsL]
    rw [toItem_posts W hW d ([] ++ [i]) A (phPaths (postsL [] (i + 1) ds) ++ C) (by simp) (by rw [hw]; simp),
      ihd (i + 1) (A ++ phPaths (postsP ([] ++ [i]) d)) C (by rw [hw]; simp)]
    rw [List.length_append, phPaths_length]
    simp [parNum]

/-- The parent of every node is a phrasal node or the root. -/
theorem parent_mem (t : PTree Lab) : ∀ q, ∀ x ∈ postsP q t, x.path = q ∨ x.path.dropLast ∈ phPaths (postsP q t) := by
  induction t using PTree.ind with
  | hleaf i => intro q x hx; simp [postsP] at hx
  | hnode l cs ih =>
    intro q x hx
    cases h : firstLeaf cs with
    | some i => rw [postsP_pre h, List.mem_singleton] at hx; subst hx; simp
    | none =>
      have hL : ∀ (ds : List (PTree Lab)) (i : Nat), (∀ d ∈ ds, d ∈ cs) → ∀ x ∈ postsL q i ds, x.path.dropLast = q ∨ x.path.dropLast ∈ phPaths (postsL q i ds) := by
        intro ds
        induction ds with
        | nil => intro i _ x hx; simp [postsL] at hx
        | cons d ds ihd =>
          intro i hd x hx
          rw [postsL, List.mem_append] at hx
          rw [postsL, phPaths_append, List.mem_append]
          rcases hx with hx | hx
          · rcases ih d (hd d (by simp)) _ x hx with h1 | h1
            · rw [h1]; simp
            · exact Or.inr (Or.inl h1)
          · rcases ihd (i + 1) (fun x hx => hd x (by simp [hx])) x hx with h1 | h1
            · exact Or.inl h1
            · exact Or.inr (Or.inr h1)
      rw [postsP_phr h, List.mem_append, List.mem_singleton] at hx
      rw [postsP_phr h, phPaths_append, List.mem_append]
      rcases hx with hx | rfl
      · rcases hL cs 0 (fun _ h => h) x hx with h1 | h1
        · right; right; rw [h1]; simp [phPaths]
        · exact Or.inr (Or.inl h1)
      · exact Or.inl rfl

theorem parent_memL (cs : List (PTree Lab)) : ∀ (i : Nat), ∀ x ∈ postsL [] i cs, x.path.dropLast = [] ∨ x.path.dropLast ∈ phPaths (postsL [] i cs) := by
  induction cs with
  | nil => intro i x hx; simp [postsL] at hx
  | cons d ds ihd =>
    intro i x hx
    rw [postsL, List.mem_append] at hx
    rw [postsL, phPaths_append, List.mem_append]
    rcases hx with hx | hx
    · rcases parent_mem d _ x hx with h1 | h1
      · rw [h1]; simp
      · exact Or.inr (Or.inl h1)
    · rcases ihd (i + 1) x hx with h1 | h1
      · exact Or.inl h1
      · exact Or.inr (Or.inr h1)

/-- The identifier of a parent, from its number. -/
def parStr : Option Nat → Str
  | none => ['0']
  | some k => ident k

theorem findIdx?_eq_idxOf {W : List Path} {q : Path} (h : q ∈ W) : W.findIdx? (· = q) = some (W.idxOf q) := by
  induction W with
  | nil => simp at h
  | cons a W ih =>
    rw [List.findIdx?_cons]
    by_cases e : a = q
    · simp [e]
    · rw [List.idxOf_cons_ne _ e, if_neg (by simpa using e), ih (by rcases List.mem_cons.1 h with h | h; exact absurd h.symm e; exact h)]
      rfl

theorem parentId_eq (W : List Path) (p : Path) (h : p.dropLast = [] ∨ p.dropLast ∈ W) : parentId W p = some (parStr (parNum W p)) := by
  unfold parentId parNum
  by_cases e : p.dropLast = []
  · simp [e, parStr]
  · rw [if_neg e, if_neg e, findIdx?_eq_idxOf (h.resolve_left e)]; rfl

/-! ### The traversal -/

/-- A tree that can be put on the agenda. -/
def Good (t : PTree Lab) : Prop := Canon.Spec.Preterminals t ∧ t.isNode = true

theorem good_kids {l : Lab} {cs : List (PTree Lab)} (h : Good (.node l cs)) (hf : firstLeaf cs = none) : ∀ c ∈ cs, Good c := by
  intro c hc
  refine ⟨Canon.Preterminals.child h.1 c hc, ?_⟩
  rcases Canon.Preterminals.good h.1 with h1 | ⟨i, rfl⟩
  · exact h1 c hc
  · simp [firstLeaf] at hf

theorem good_pre {l : Lab} {cs : List (PTree Lab)} {i : Nat} (h : Good (.node l cs)) (hf : firstLeaf cs = some i) : cs = [.leaf i] := by
  rcases Canon.Preterminals.good h.1 with h1 | ⟨j, rfl⟩
  · cases cs with
    | nil => simp [firstLeaf] at hf
    | cons c cs =>
      have := h1 c (by simp)
      cases c with
      | leaf k => simp [PTree.isNode] at this
      | node l ds => simp [firstLeaf] at hf
  · simp [firstLeaf] at hf; rw [hf]

/-- The nodes reachable from an agenda, in the order in which they are visited. -/
def revA (agenda : List (Path × PTree Lab)) : List PItem := agenda.flatMap fun x => (postsP x.1 x.2).reverse

theorem revA_kids (p : Path) (cs : List (PTree Lab)) : ∀ i, revA (enumKids p i cs).reverse = (postsL p i cs).reverse := by
  induction cs with
  | nil => intro i; simp [enumKids, revA, postsL]
  | cons c cs ih =>
    intro i
    rw [enumKids, List.reverse_cons, postsL, List.reverse_append, ← ih (i + 1)]
    simp [revA]

def countA (agenda : List (Path × PTree Lab)) : Nat := countL (agenda.map (·.2))

theorem countL_append (a b : List (PTree Lab)) : countL (a ++ b) = countL a + countL b := by
  induction a with
  | nil => simp [countL]
  | cons c a ih => rw [List.cons_append, countL, countL, ih]; omega

theorem countL_reverse (a : List (PTree Lab)) : countL a.reverse = countL a := by
  induction a with
  | nil => rfl
  | cons c a ih => rw [List.reverse_cons, countL_append, ih, countL, countL, countL]; omega

theorem enumKids_snd (p : Path) (cs : List (PTree Lab)) : ∀ i, (enumKids p i cs).map (·.2) = cs := by
  induction cs with
  | nil => intro i; rfl
  | cons c cs ih => intro i; rw [enumKids, List.map_cons, ih]

/-- The dictionary of preterminals as it is filled. -/
def setPre (d : Dict Nat (Path × Lab)) (xs : List PItem) : Dict Nat (Path × Lab) :=
  xs.foldl (fun d x => match x.leaf with | some i => Dict.set d i (x.path, x.lab) | none => d) d

theorem visit_eq (f : Nat) : ∀ (agenda : List (Path × PTree Lab)) (pre : Dict Nat (Path × Lab)) (ph : List (Path × Lab)),
    (∀ x ∈ agenda, Good x.2) → countA agenda < f →
    visit f agenda pre ph = some (setPre pre (revA agenda), ph ++ ((revA agenda).filter (·.leaf.isNone)).map fun x => (x.path, x.lab)) := by
  induction f with
  | zero => intro agenda pre ph _ h; omega
  | succ f ih =>
    intro agenda pre ph hg hf
    cases agenda with
    | nil => rw [visit]; simp [revA, setPre]
    | cons x agenda =>
      obtain ⟨p, t⟩ := x
      have hgt := hg (p, t) (by simp)
      have hga : ∀ x ∈ agenda, Good x.2 := fun x hx => hg x (by simp [hx])
      cases t with
      | leaf i => simp [Good, PTree.isNode] at hgt
      | node l cs =>
        have hr : revA ((p, .node l cs) :: agenda) = (postsP p (.node l cs)).reverse ++ revA agenda := by simp [revA]
        have hcnt : countA ((p, .node l cs) :: agenda) = countL cs + 1 + countA agenda := by simp [countA, countL, count]
        cases h : firstLeaf cs with
        | some i =>
          have := good_pre hgt h
          subst this
          rw [visit, ih agenda _ ph hga (by omega), hr, postsP_pre h]
          simp [setPre]
        | none =>
          have hv : visit (f + 1) ((p, .node l cs) :: agenda) pre ph = visit f ((enumKids p 0 cs).reverse ++ agenda) pre (ph ++ [(p, l)]) := by
            cases cs with
            | nil => rw [visit]; simp
            | cons c cs =>
              cases c with
              | leaf i => simp [firstLeaf] at h
              | node l' ds => rw [visit]; simp
          have hr2 : revA ((enumKids p 0 cs).reverse ++ agenda) = (postsL p 0 cs).reverse ++ revA agenda := by
            rw [← revA_kids]; simp [revA]
          rw [hv, ih _ pre _ ?_ ?_, hr, hr2, postsP_phr h, List.reverse_append]
          · simp [setPre]
          · intro x hx
            rcases List.mem_append.1 hx with hx | hx
            · have : x.2 ∈ (enumKids p 0 cs).map (·.2) := List.mem_map.2 ⟨x, by simpa using hx, rfl⟩
              rw [enumKids_snd] at this
              exact good_kids hgt h _ this
            · exact hga x hx
          · have : countA ((enumKids p 0 cs).reverse ++ agenda) = countL cs + countA agenda := by
              rw [countA, List.map_append, countL_append, List.map_reverse, countL_reverse, enumKids_snd, countA]
            omega

/-! ### The rows that are written -/

theorem mapO_some {α β : Type} {f : α → Option β} {g : α → β} {l : List α} (h : ∀ a ∈ l, f a = some (g a)) : mapO f l = some (l.map g) := by
  induction l with
  | nil => rfl
  | cons a l ih => rw [mapO, h a (by simp), ih fun b hb => h b (by simp [hb])]; rfl

theorem mapO_append {α β : Type} {f : α → Option β} {a b : List α} {x y : List β} (h1 : mapO f a = some x) (h2 : mapO f b = some y) :
    mapO f (a ++ b) = some (x ++ y) := by
  induction a generalizing x with
  | nil => simp [mapO] at h1; subst h1; simpa using h2
  | cons c a ih =>
    rw [List.cons_append, mapO]
    rw [mapO] at h1
    cases hc : f c with
    | none => rw [hc] at h1; simp at h1
    | some z =>
      rw [hc] at h1
      cases ha : mapO f a with
      | none => rw [ha] at h1; simp at h1
      | some zs => rw [ha] at h1; simp at h1; subst h1; simp [ih ha]

/-- The dictionary of preterminals, when no terminal occurs twice. -/
theorem setPre_eq (xs : List PItem) (d : Dict Nat (Path × Lab)) (h : (d.map (·.1) ++ xs.filterMap (·.leaf)).Nodup) :
    setPre d xs = d ++ xs.filterMap fun x => x.leaf.map fun i => (i, x.path, x.lab) := by
  have absent : ∀ (d : Dict Nat (Path × Lab)) (i : Nat) (v), i ∉ d.map (·.1) → Dict.set d i v = d ++ [(i, v)] := by
    intro d
    induction d with
    | nil => intro i v _; rfl
    | cons y d ih =>
      obtain ⟨k, w⟩ := y
      intro i v hi
      rw [List.map_cons, List.mem_cons, not_or] at hi
      rw [Dict.set, if_neg (Ne.symm hi.1), ih i v hi.2]; rfl
  induction xs generalizing d with
  | nil => simp [setPre]
  | cons x xs ih =>
    have hs : setPre d (x :: xs) = setPre (match x.leaf with | some i => Dict.set d i (x.path, x.lab) | none => d) xs := rfl
    rw [hs]
    cases hl : x.leaf with
    | none =>
      rw [List.filterMap_cons_none (by simp [hl])]
      rw [List.filterMap_cons_none (by simp [hl])] at h
      exact ih d h
    | some i =>
      rw [List.filterMap_cons_some (by simp [hl]; rfl)]
      rw [List.filterMap_cons_some (by simp [hl]; rfl)] at h
      simp only
      have hi : i ∉ d.map (·.1) := fun hm => (List.nodup_append.1 h).2.2 i hm i (by simp) rfl
      rw [absent d i _ hi, ih]
      · simp
      · simpa using h

theorem posts_leaves (t : PTree Lab) : Good t → ∀ q, (postsP q t).filterMap (·.leaf) = t.leaves := by
  induction t using PTree.ind with
  | hleaf i => intro h; simp [Good, PTree.isNode] at h
  | hnode l cs ih =>
    intro hg q
    cases h : firstLeaf cs with
    | some i => rw [good_pre hg h, postsP_pre (by rfl)]; simp
    | none =>
      have hL : ∀ (ds : List (PTree Lab)) (i : Nat), (∀ d ∈ ds, d ∈ cs) → (postsL q i ds).filterMap (·.leaf) = leavesL ds := by
        intro ds
        induction ds with
        | nil => intro i _; simp [postsL]
        | cons d ds ihd =>
          intro i hd
          rw [postsL, List.filterMap_append, ih d (hd d (by simp)) (good_kids hg h d (hd d (by simp))), ihd _ (fun x hx => hd x (by simp [hx])), leavesL_cons]
      rw [postsP_phr h, List.filterMap_append, hL cs 0 (fun _ h => h)]
      simp

theorem postsL_leaves (cs : List (PTree Lab)) (hg : ∀ c ∈ cs, Good c) (q : Path) (i : Nat) : (postsL q i cs).filterMap (·.leaf) = leavesL cs := by
  induction cs generalizing i with
  | nil => simp [postsL]
  | cons d ds ihd =>
    rw [postsL, List.filterMap_append, posts_leaves d (hg d (by simp)), ihd (fun x hx => hg x (by simp [hx])), leavesL_cons]

/-- Rows are sorted by terminal. -/
def leKey (a b : Item) : Bool := decide (a.key ≤ b.key)

/-- The rows of the words, in the order of the sentence. -/
def toks (I : List Item) : List Item := stableSort leKey (I.filter fun x => !x.phr)

theorem leKey_trans (a b c : Item) : leKey a b = true → leKey b c = true → leKey a c = true := by
  simp only [leKey, decide_eq_true_eq]; omega
theorem leKey_total (a b : Item) : (leKey a b || leKey b a) = true := by
  simp only [leKey, Bool.or_eq_true, decide_eq_true_eq]; omega

theorem toks_keys {I : List Item} {n : Nat} (h : ((I.filter fun x => !x.phr).map (·.key)).Perm (List.range n)) : (toks I).map (·.key) = List.range n := by
  have hp : ((toks I).map (·.key)).Perm (List.range n) := ((StableSort.perm _).map _).trans h
  have h1 : ((toks I).map (·.key)).Pairwise (· ≤ ·) := by
    rw [List.pairwise_map]
    refine (StableSort.pairwise leKey_trans leKey_total _).imp ?_
    intro a b hab
    simpa [leKey] using hab
  have h2 : (List.range n).Pairwise (· ≤ ·) := List.pairwise_lt_range.imp Nat.le_of_lt
  exact hp.eq_of_pairwise (fun a b _ _ h1 h2 => Nat.le_antisymm h1 h2) h1 h2

theorem items_pre_key (t : PTree Lab) : Good t → ∀ par s, ((itemsP par s t).filter (fun x => !x.phr)).map (·.key) = t.leaves := by
  induction t using PTree.ind with
  | hleaf i => intro h; simp [Good, PTree.isNode] at h
  | hnode l cs ih =>
    intro hg par s
    cases h : firstLeaf cs with
    | some i => rw [itemsP_pre h, good_pre hg h]; simp
    | none =>
      have hL : ∀ (ds : List (PTree Lab)) (par : Option Nat) (s : Nat), (∀ d ∈ ds, d ∈ cs) →
          ((itemsL par s ds).filter (fun x => !x.phr)).map (·.key) = leavesL ds := by
        intro ds
        induction ds with
        | nil => intro par s _; simp [itemsL]
        | cons d ds ihd =>
          intro par s hd
          rw [itemsL, List.filter_append, List.map_append, ih d (hd d (by simp)) (good_kids hg h d (hd d (by simp))), ihd _ _ fun x hx => hd x (by simp [hx]),
            leavesL_cons]
      rw [itemsP_phr h, List.filter_append, List.map_append, hL cs _ _ fun _ h => h]
      simp

/-- The terminals of the rows of words. -/
theorem items_pre_keys (cs : List (PTree Lab)) (hg : ∀ c ∈ cs, Good c) (par : Option Nat) (s : Nat) :
    ((itemsL par s cs).filter (fun x => !x.phr)).map (·.key) = leavesL cs := by
  induction cs generalizing s with
  | nil => simp [itemsL]
  | cons c cs ih =>
    rw [itemsL, List.filter_append, List.map_append, items_pre_key c (hg c (by simp)), ih fun d hd => hg d (by simp [hd]), leavesL_cons]

/-- `attrs` when it does not fail. -/
def attrsD (l : Lab) : Str × Str × Str := (attrs l).getD (dash, dash, dash)

/-- The row of a word. -/
def tokF (pyInt : Str → Option Int) (act : Morph) (ids : List Int) (word : Str) (x : Item) : List Str :=
  [if word = [] then ['.', '.', '.'] else word, (attrsD x.lab).1, (tagMorph act x.lab.label (attrsD x.lab).2.1).1,
    (tagMorph act x.lab.label (attrsD x.lab).2.1).2, (attrsD x.lab).2.2, parStr x.par] ++ secEdges pyInt ids x.lab

/-- The row of a phrasal node. -/
def phF (pyInt : Str → Option Int) (ids : List Int) (x : Item) : List Str :=
  ['#' :: ident x.key, dash, orDash x.lab.label, (attrsD x.lab).2.1, (attrsD x.lab).2.2, parStr x.par] ++ secEdges pyInt ids x.lab

/-- The word of a row. -/
def wordAt (sent : List Str) (x : Item) : Str := (sent[x.key]?).getD []

/-- All rows. -/
def rowsF (pyInt : Str → Option Int) (act : Morph) (ids : List Int) (sent : List Str) (I : List Item) : List (List Str) :=
  (toks I).map (fun x => tokF pyInt act ids (wordAt sent x) x) ++ (I.filter (·.phr)).map (phF pyInt ids)

theorem mapO_zipIdx {α β γ : Type} {f : α × Nat → Option γ} {g : β → γ} (xs : List α) (ys : List β) (k : Nat) (hl : xs.length = ys.length)
    (h : ∀ n a b, xs[n]? = some a → ys[n]? = some b → f (a, k + n) = some (g b)) : mapO f (xs.zipIdx k) = some (ys.map g) := by
  induction xs generalizing ys k with
  | nil => cases ys with
    | nil => rfl
    | cons b ys => simp at hl
  | cons a xs ih =>
    cases ys with
    | nil => simp at hl
    | cons b ys =>
      rw [List.zipIdx_cons, mapO]
      have h0 := h 0 a b rfl rfl
      rw [Nat.add_zero] at h0
      rw [h0, ih ys (k + 1) (by simpa using hl) fun n a b h1 h2 => by
        have := h (n + 1) a b (by simpa using h1) (by simpa using h2)
        rwa [show k + 1 + n = k + (n + 1) by omega]]
      rfl

/-- The rows written for a tree, in terms of the numbering by counting. -/
theorem writeRows_eq (pyInt : Str → Option Int) (act : Morph) (l : Lab) (cs : List (PTree Lab)) (sent : List Str)
    (hg : ∀ c ∈ cs, Good c) (hleaves : (leavesL cs).Perm (List.range sent.length)) (hattrs : ∀ x ∈ itemsL none 0 cs, (attrs x.lab).isSome)
    (hids : ∀ x ∈ itemsL none 0 cs, x.phr = true → (nodeId pyInt x.lab).isSome) :
    ∃ ids, mapO (nodeId pyInt) (((itemsL none 0 cs).filter (·.phr)).map (·.lab)) = some ids ∧
      writeRows pyInt act (.node l cs) sent = some (rowsF pyInt act ids sent (itemsL none 0 cs)) := by
  have hnd : ((postsL [] 0 cs).map (·.path)).Nodup := postsL_nodup cs [] 0
  obtain ⟨X, hX⟩ : ∃ X, X = postsL [] 0 cs := ⟨_, rfl⟩
  obtain ⟨W, hW⟩ : ∃ W, W = phPaths X := ⟨_, rfl⟩
  have hWn : W.Nodup := by rw [hW, hX]; exact phPaths_nodup hnd
  have hI : X.map (toItem W) = itemsL none 0 cs := by
    rw [hX]; exact toItem_postsL W hWn cs 0 [] [] (by rw [hW, hX]; simp)
  have hpar : ∀ x ∈ X, parentId W x.path = some (parStr (toItem W x).par) := fun x hx => by
    refine parentId_eq W x.path ?_
    rw [hX] at hx
    have := parent_memL cs 0 x hx
    rwa [← hX, ← hW] at this
  have hlv : X.filterMap (·.leaf) = leavesL cs := by rw [hX]; exact postsL_leaves cs hg [] 0
  have hlnd : (X.filterMap (·.leaf)).Nodup := by rw [hlv]; exact hleaves.symm.nodup List.nodup_range
  -- the traversal
  have hv : visit (countL cs + 1) (enumKids [] 0 cs).reverse [] [] =
      some (setPre [] X.reverse, (X.reverse.filter (·.leaf.isNone)).map fun x => (x.path, x.lab)) := by
    rw [visit_eq _ _ _ _ ?_ ?_, revA_kids, ← hX]
    · simp
    · intro x hx
      have : x.2 ∈ (enumKids [] 0 cs).map (·.2) := List.mem_map.2 ⟨x, by simpa using hx, rfl⟩
      rw [enumKids_snd] at this
      exact hg _ this
    · rw [countA, List.map_reverse, countL_reverse, enumKids_snd]; omega
  have hpre : setPre [] X.reverse = (X.reverse).filterMap fun x => x.leaf.map fun i => (i, x.path, x.lab) := by
    rw [setPre_eq _ _ (by rw [List.map_nil, List.nil_append, List.filterMap_reverse]; exact List.nodup_reverse.2 hlnd)]; simp
  have hph : ((X.reverse.filter (·.leaf.isNone)).map fun x => (x.path, x.lab)).reverse = (X.filter (·.leaf.isNone)).map fun x => (x.path, x.lab) := by
    rw [List.filter_reverse, List.map_reverse, List.reverse_reverse]
  obtain ⟨P, hP⟩ : ∃ P, P = (X.filter (·.leaf.isNone)).map fun x => (x.path, x.lab) := ⟨_, rfl⟩
  have hPW : P.map (·.1) = W := by rw [hP, hW, phPaths, List.map_map]; rfl
  have hIph : (itemsL none 0 cs).filter (·.phr) = (X.filter (·.leaf.isNone)).map (toItem W) := by
    rw [← hI, List.filter_map]; rfl
  have hIpre : (itemsL none 0 cs).filter (fun x => !x.phr) = (X.filter (fun x => !x.leaf.isNone)).map (toItem W) := by
    rw [← hI, List.filter_map]; rfl
  have hkeys : ((itemsL none 0 cs).filter (fun x => !x.phr)).map (·.key) = leavesL cs := by
    rw [hIpre, ← hlv, List.map_map]
    clear hpar hlv hlnd hv hpre hph hIph hIpre hP hPW hI hX hW
    induction X with
    | nil => rfl
    | cons x X ih =>
      cases hx : x.leaf with
      | none => rw [List.filter_cons_of_neg (by simp [hx]), List.filterMap_cons_none (by simp [hx])]; exact ih
      | some i =>
        rw [List.filter_cons_of_pos (by simp [hx]), List.filterMap_cons_some (by simp [hx]; rfl), List.map_cons, ih]
        simp [toItem, hx]
  have htk : (toks (itemsL none 0 cs)).map (·.key) = List.range sent.length := toks_keys (by rw [hkeys]; exact hleaves)
  -- `nodeidindex`
  obtain ⟨ids, hids2⟩ : ∃ ids, mapO (nodeId pyInt) (((itemsL none 0 cs).filter (·.phr)).map (·.lab)) = some ids := by
    refine ⟨_, mapO_some (g := fun l => (nodeId pyInt l).getD 0) fun a ha => ?_⟩
    obtain ⟨x, hx, rfl⟩ := List.mem_map.1 ha
    obtain ⟨h1, h2⟩ := List.mem_filter.1 hx
    obtain ⟨v, hv⟩ := Option.isSome_iff_exists.1 (hids x h1 h2)
    simp [hv]
  refine ⟨ids, hids2, ?_⟩
  have hids3 : mapO (fun (x : Path × Lab) => nodeId pyInt x.2) P = some ids := by
    rw [← hids2, hIph, hP, List.map_map]
    generalize X.filter (·.leaf.isNone) = Y
    induction Y with
    | nil => rfl
    | cons y Y ih => rw [List.map_cons, List.map_cons, mapO, mapO, ih]; rfl
  rw [writeRows]
  simp only [PTree.children]
  rw [hv]
  simp only
  rw [hph, ← hP, rowsOf]
  have hlen : sent.length = (setPre [] X.reverse).length := by
    rw [hpre, List.filterMap_reverse, List.length_reverse]
    have h1 : (X.filterMap fun x => x.leaf.map fun i => (i, x.path, x.lab)).length = (X.filterMap (·.leaf)).length := by
      have : X.filterMap (·.leaf) = (X.filterMap fun x => x.leaf.map fun i => (i, x.path, x.lab)).map (·.1) := by
        rw [List.map_filterMap]
        congr 1; funext x; cases x.leaf <;> rfl
      rw [this, List.length_map]
    rw [h1, hlv, hleaves.length_eq, List.length_range]
  rw [if_neg (by simpa using hlen), hids3]
  simp only [hPW]
  have h1 : mapO (fun (x : Str × Nat) =>
        (Dict.get? (setPre [] X.reverse) x.2).bind fun node => (parentId W node.1).bind fun parent =>
          tokenRow act x.1 node.2 parent (secEdges pyInt ids node.2)) sent.zipIdx
      = some ((toks (itemsL none 0 cs)).map fun x => tokF pyInt act ids (wordAt sent x) x) := by
    refine mapO_zipIdx _ _ 0 ?_ ?_
    · have := congrArg List.length htk
      rw [List.length_map, List.length_range] at this
      exact this.symm
    · intro n w y hw hy
      have hkey : y.key = n := by
        have := congrArg (fun l => l[n]?) htk
        simp only [List.getElem?_map, hy, Option.map_some] at this
        rw [List.getElem?_range (by have := (List.getElem?_eq_some_iff.1 hw).1; exact this)] at this
        simpa using this
      have hmem : y ∈ (itemsL none 0 cs).filter (fun x => !x.phr) := (StableSort.perm _).subset (List.mem_of_getElem? hy)
      have hyI := (List.mem_filter.1 hmem).1
      rw [hIpre] at hmem
      obtain ⟨x, hx, rfl⟩ := List.mem_map.1 hmem
      obtain ⟨hxX, hxl⟩ := List.mem_filter.1 hx
      obtain ⟨i, hi⟩ : ∃ i, x.leaf = some i := by
        cases h : x.leaf with
        | none => simp [h] at hxl
        | some i => exact ⟨i, rfl⟩
      have hin : i = n := by rw [← hkey]; simp [toItem, hi]
      subst hin
      have hget : Dict.get? (setPre [] X.reverse) i = some (x.path, x.lab) := by
        refine Dict.get?_of_mem ?_ ?_
        · rw [hpre, Dict.WF, Dict.keys, List.map_filterMap]
          have : (X.reverse.filterMap fun x => (x.leaf.map fun i => (i, x.path, x.lab)).map Prod.fst) = X.reverse.filterMap (·.leaf) := by
            congr 1; funext x; cases x.leaf <;> rfl
          rw [this, List.filterMap_reverse]
          exact List.nodup_reverse.2 hlnd
        · rw [hpre, List.mem_filterMap]
          exact ⟨x, by simpa using hxX, by simp [hi]⟩
      simp only [Nat.zero_add]
      rw [hget, Option.bind_some]
      simp only
      rw [hpar x hxX, Option.bind_some, tokenRow]
      obtain ⟨a, ha⟩ := Option.isSome_iff_exists.1 (hattrs _ hyI)
      have hlab : (toItem W x).lab = x.lab := rfl
      rw [hlab] at ha
      have hw2 : wordAt sent (toItem W x) = w := by rw [wordAt, hkey, hw]; rfl
      rw [ha, Option.map_some, hw2, tokF, hlab, attrsD, ha, Option.getD_some]
  have h2 : mapO (fun (x : (Path × Lab) × Nat) => (parentId W x.1.1).bind fun parent =>
          phrasalRow x.2 x.1.2 parent (secEdges pyInt ids x.1.2)) P.zipIdx
      = some (((itemsL none 0 cs).filter (·.phr)).map (phF pyInt ids)) := by
    have hk := itemsL_keys cs none 0
    refine mapO_zipIdx _ _ 0 ?_ ?_
    · rw [hIph, hP, List.length_map, List.length_map]
    · intro n a y ha hy
      have hkey : y.key = n := by
        have := congrArg (fun l => l[n]?) hk
        simp only [List.getElem?_map, hy, Option.map_some] at this
        have hlt : n < nphL cs := by
          have h1 := (List.getElem?_eq_some_iff.1 hy).1
          have h2 := congrArg List.length hk
          rw [List.length_map, List.length_range'] at h2
          omega
        rw [List.getElem?_range' hlt] at this
        simpa using this
      have hyI := (List.mem_filter.1 (List.mem_of_getElem? hy)).1
      rw [hP, List.getElem?_map] at ha
      rw [hIph, List.getElem?_map] at hy
      cases hx : (X.filter (·.leaf.isNone))[n]? with
      | none => rw [hx] at hy; simp at hy
      | some x =>
        rw [hx, Option.map_some, Option.some.injEq] at ha hy
        subst ha; subst hy
        have hxX := (List.mem_filter.1 (List.mem_of_getElem? hx)).1
        simp only [Nat.zero_add]
        rw [hpar x hxX, Option.bind_some, phrasalRow]
        obtain ⟨a, ha⟩ := Option.isSome_iff_exists.1 (hattrs _ hyI)
        have hlab : (toItem W x).lab = x.lab := rfl
        rw [hlab] at ha
        rw [ha, Option.map_some, phF, hlab, attrsD, ha, Option.getD_some, hkey]
  rw [h1, h2]
  rfl

/-! ### Reading -/

theorem stableSort_filter (p : Item → Bool) (l : List Item) : (stableSort leKey l).filter p = stableSort leKey (l.filter p) := by
  induction l with
  | nil => rfl
  | cons a l ih =>
    have hs := StableSort.pairwise leKey_trans leKey_total l
    rw [stableSort]
    have ins : ∀ (m : List Item), m.Pairwise (fun x y => leKey x y = true) →
        (insertSorted leKey a m).filter p = if p a then insertSorted leKey a (m.filter p) else m.filter p := by
      intro m
      induction m with
      | nil => intro _; by_cases hp : p a <;> simp [insertSorted, hp]
      | cons b m ihm =>
        intro hm
        rw [List.pairwise_cons] at hm
        rw [insertSorted]
        by_cases hab : leKey a b = true
        · rw [if_pos hab, List.filter_cons]
          by_cases hp : p a = true
          · rw [if_pos hp, if_pos hp]
            cases hf : (b :: m).filter p with
            | nil => rfl
            | cons c r =>
              have hc : c ∈ b :: m := (List.mem_filter.1 (by rw [hf]; simp : c ∈ (b :: m).filter p)).1
              have : leKey a c = true := by
                rcases List.mem_cons.1 hc with e | hc
                · rw [e]; exact hab
                · exact leKey_trans _ _ _ hab (hm.1 c hc)
              rw [insertSorted, if_pos this]
          · rw [if_neg hp, if_neg hp]
        · rw [if_neg hab, List.filter_cons, ihm hm.2, List.filter_cons]
          by_cases hp : p a = true
          · simp only [if_pos hp]
            by_cases hb : p b = true
            · simp only [if_pos hb]; rw [insertSorted, if_neg hab]
            · simp only [if_neg hb]
          · simp only [if_neg hp]
    rw [ins _ hs, ih, List.filter_cons]
    split
    · rfl
    · rfl

theorem childKeys_get (rows : List (List Str)) (k : Str) :
    Dict.get? (childKeys rows) k = if k = ['0'] ∨ ∃ r ∈ rows, isNT (fld r 0) = some k then some [] else none := by
  have key : ∀ (rows : List (List Str)) (d : Dict Str (List (Nat × List Str))),
      Dict.get? (rows.foldl (fun d src => match isNT (fld src 0) with | some id => Dict.set d id [] | none => d) d) k =
        if ∃ r ∈ rows, isNT (fld r 0) = some k then some [] else Dict.get? d k := by
    intro rows
    induction rows with
    | nil => intro d; simp
    | cons r rows ih =>
      intro d
      rw [List.foldl_cons, ih]
      cases hr : isNT (fld r 0) with
      | none => simp [hr]
      | some id =>
        simp only [Dict.get?_set]
        by_cases h1 : ∃ r ∈ rows, isNT (fld r 0) = some k
        · rw [if_pos h1, if_pos (by obtain ⟨x, hx, h⟩ := h1; exact ⟨x, by simp [hx], h⟩)]
        · rw [if_neg h1]
          by_cases h2 : id = k
          · rw [if_pos h2, if_pos ⟨r, by simp, by rw [hr, h2]⟩]
          · rw [if_neg h2, if_neg]
            rintro ⟨x, hx, h⟩
            rcases List.mem_cons.1 hx with e | hx
            · rw [e, hr] at h; exact h2 (by simpa using h)
            · exact h1 ⟨x, hx, h⟩
  refine (key rows [(['0'], [])]).trans ?_
  by_cases h1 : ∃ r ∈ rows, isNT (fld r 0) = some k
  · rw [if_pos h1, if_pos (Or.inr h1)]
  · rw [if_neg h1]
    by_cases h2 : k = ['0']
    · rw [if_pos (Or.inl h2), h2]; rfl
    · rw [if_neg (by rintro (h | h); exact h2 h; exact h1 h)]
      simp [Dict.get?, Ne.symm h2]

theorem childFill_get (R : List (List Str × Nat)) : ∀ (d : Dict Str (List (Nat × List Str))), (∀ r ∈ R, (Dict.get? d (fld r.1 5)).isSome) →
    ∃ d', childFill R d = some d' ∧
      ∀ k, Dict.get? d' k = (Dict.get? d k).map (· ++ (R.filter (fun r => decide (fld r.1 5 = k))).map fun r => (r.2, r.1)) := by
  induction R with
  | nil => intro d _; exact ⟨d, rfl, fun k => by simp⟩
  | cons r R ih =>
    intro d hd
    obtain ⟨src, n⟩ := r
    obtain ⟨xs, hxs⟩ := Option.isSome_iff_exists.1 (hd (src, n) (by simp))
    rw [childFill]
    simp only at hxs
    rw [hxs]
    simp only
    obtain ⟨d', h1, h2⟩ := ih (Dict.set d (fld src 5) (xs ++ [(n, src)])) (fun r hr => by
      rw [Dict.get?_set]
      split
      · rfl
      · exact hd r (by simp [hr]))
    refine ⟨d', h1, fun k => ?_⟩
    rw [h2, Dict.get?_set]
    by_cases e : fld src 5 = k
    · subst e
      rw [if_pos rfl, hxs]
      simp
    · rw [if_neg e, List.filter_cons_of_neg (by simpa using e)]

theorem zipIdx_keys {α : Type} (f : Item → α) (ys : List Item) (a b : Nat) (h : ys.map (·.key) = List.range' a ys.length) :
    (ys.map f).zipIdx (b + a) = ys.map fun x => (f x, b + x.key) := by
  induction ys generalizing a with
  | nil => rfl
  | cons y ys ih =>
    rw [List.map_cons, List.length_cons, List.range'_succ, List.cons.injEq] at h
    rw [List.map_cons, List.map_cons, List.zipIdx_cons, Nat.add_assoc, ih (a + 1) h.2, h.1]

theorem ident_inj {a b : Nat} (h : ident a = ident b) : a = b := by
  have := Disco.Dop.digits_inj h; omega

theorem ident_ne_zero (k : Nat) : ident k ≠ ['0'] := fun h => by
  have : Nat.toDigits 10 (500 + k) = Nat.toDigits 10 0 := h
  have := Disco.Dop.digits_inj this; omega

theorem parStr_inj {a b : Option Nat} (h : parStr a = parStr b) : a = b := by
  cases a with
  | none => cases b with
    | none => rfl
    | some b => exact absurd h.symm (ident_ne_zero b)
  | some a => cases b with
    | none => exact absurd h (ident_ne_zero a)
    | some b => rw [ident_inj h]

theorem isNT_ident {k : Nat} (h : k < 500) : isNT ('#' :: ident k) = some (ident k) := by
  have : ∀ k < 500, isNT ('#' :: ident k) = some (ident k) := by decide +kernel
  exact this k h

section
variable (pyInt : Str → Option Int) (act : Morph) (ids : List Int) (sent : List Str)

/-- The order in which sisters are read: preterminals first, by terminal, then phrasal nodes. -/
def order (ds : List (PTree Lab)) : List (PTree Lab) :=
  stableSort (fun a b => decide (a.leaves.headD 0 ≤ b.leaves.headD 0)) (ds.filter fun d => !isPhrasal d) ++ ds.filter isPhrasal

/-- The preterminal that is read for a row. -/
def readTok (x : Item) : PTree Lab :=
  .node ⟨readLabel act (tokF pyInt act ids (wordAt sent x) x), some (tokF pyInt act ids (wordAt sent x) x)⟩ [.leaf x.key]

mutual
/-- The tree that is read. -/
def res (k : Option Nat) (s : Nat) : PTree Lab → PTree Lab
  | .leaf i => .leaf i
  | .node l cs => match firstLeaf cs with
    | some i => readTok pyInt act ids sent ⟨k, i, l, false⟩
    | none => .node ⟨paren (orDash l.label), some (phF pyInt ids ⟨k, s + nphL cs, l, true⟩)⟩ (order (resL (some (s + nphL cs)) s cs))
/-- The sisters that are read, in the original order. -/
def resL (k : Option Nat) (s : Nat) : List (PTree Lab) → List (PTree Lab)
  | [] => []
  | c :: cs => res k s c :: resL k (s + nph c) cs
end

theorem isPhrasal_eq (l : Lab) (cs : List (PTree Lab)) : isPhrasal (.node l cs) = (firstLeaf cs).isNone := by
  cases cs with
  | nil => rfl
  | cons c cs => cases c <;> rfl

theorem order_perm (ds : List (PTree Lab)) : (order ds).Perm ds := by
  refine ((StableSort.perm _).append_right _).trans ?_
  have := List.filter_append_perm (fun d => !isPhrasal d) ds
  simpa using this

theorem res_isNode (k : Option Nat) (s : Nat) {c : PTree Lab} (h : c.isNode = true) : (res pyInt act ids sent k s c).isNode = true := by
  cases c with
  | leaf i => simp [PTree.isNode] at h
  | node l cs =>
    rw [res]
    split <;> rfl

theorem resL_isNode (cs : List (PTree Lab)) (h : ∀ c ∈ cs, c.isNode = true) : ∀ (k : Option Nat) (s : Nat),
    ∀ d ∈ resL pyInt act ids sent k s cs, d.isNode = true := by
  induction cs with
  | nil => intro k s d hd; simp [resL] at hd
  | cons c cs ih =>
    intro k s d hd
    rw [resL, List.mem_cons] at hd
    rcases hd with rfl | hd
    · exact res_isNode _ _ _ _ _ _ (h c (by simp))
    · exact ih (fun c hc => h c (by simp [hc])) _ _ d hd

theorem firstLeaf_nodes {ds : List (PTree Lab)} (h : ∀ d ∈ ds, d.isNode = true) : firstLeaf ds = none := by
  cases ds with
  | nil => rfl
  | cons d ds =>
    have := h d (by simp)
    cases d with
    | leaf i => simp [PTree.isNode] at this
    | node l cs => rfl

theorem res_phrasal (k : Option Nat) (s : Nat) {c : PTree Lab} (h : Good c) :
    isPhrasal (res pyInt act ids sent k s c) = isPhrasal c := by
  cases c with
  | leaf i => rfl
  | node l cs =>
    rw [res, isPhrasal_eq]
    cases hf : firstLeaf cs with
    | some i => rfl
    | none =>
      simp only
      rw [isPhrasal_eq, firstLeaf_nodes]
      intro d hd
      exact resL_isNode pyInt act ids sent cs (fun c hc => (good_kids h hf c hc).2) _ _ d ((order_perm _).subset hd)

theorem pre_tops (cs : List (PTree Lab)) (hg : ∀ c ∈ cs, Good c) (k : Option Nat) (s : Nat) :
    ((tops k s cs).filter (fun x => !x.phr)).map (readTok pyInt act ids sent) = (resL pyInt act ids sent k s cs).filter (fun d => !isPhrasal d) := by
  induction cs generalizing s with
  | nil => rfl
  | cons c cs ih =>
    have hc := hg c (by simp)
    rw [resL]
    cases c with
    | leaf i => simp [Good, PTree.isNode] at hc
    | node l ds =>
      rw [tops, List.filter_cons, List.filter_cons, res_phrasal pyInt act ids sent k s hc, isPhrasal_eq]
      cases hf : firstLeaf ds with
      | some i =>
        simp only [Bool.not_false, if_true, Option.isNone_some, List.map_cons]
        rw [ih (fun c hc => hg c (by simp [hc]))]
        congr 1
        rw [res, hf]
      | none =>
        simp only [Bool.not_true, Bool.false_eq_true, if_false, Option.isNone_none]
        rw [ih (fun c hc => hg c (by simp [hc]))]

theorem mapO_congr {α β : Type} {f g : α → Option β} {l : List α} (h : ∀ a ∈ l, f a = g a) : mapO f l = mapO g l := by
  induction l with
  | nil => rfl
  | cons a l ih => rw [mapO, mapO, h a (by simp), ih fun b hb => h b (by simp [hb])]

theorem mapO_map {α β γ : Type} (f : β → Option γ) (g : α → β) (l : List α) : mapO f (l.map g) = mapO (fun a => f (g a)) l := by
  induction l with
  | nil => rfl
  | cons a l ih => rw [List.map_cons, mapO, mapO, ih]

/-- The list of rows with a given parent. -/
def entry (I : List Item) (k : Option Nat) : List (Nat × List Str) :=
  (stableSort leKey ((I.filter fun x => decide (x.par = k)).filter fun x => !x.phr)).map (fun x => (x.key, tokF pyInt act ids (wordAt sent x) x)) ++
    ((I.filter fun x => decide (x.par = k)).filter (·.phr)).map fun x => (sent.length + x.key, phF pyInt ids x)

theorem getchildren_eq (I : List Item) (d : Dict Str (List (Nat × List Str))) (N : Nat) (hN : N ≤ 500)
    (hd : ∀ k, (k = none ∨ ∃ j, k = some j ∧ j < N) → Dict.get? d (parStr k) = some (entry pyInt act ids sent I k))
    (hw : ∀ x ∈ I, x.phr = false → wordAt sent x ≠ [] ∧ isNT (wordAt sent x) = none) (f : Nat) :
    ∀ (cs : List (PTree Lab)) (k : Option Nat) (s : Nat), nphL cs < f → s + nphL cs ≤ N → (∀ c ∈ cs, Good c) →
      (k = none ∨ ∃ j, k = some j ∧ j < N) → (∀ j, k = some j → ¬(s ≤ j ∧ j < s + nphL cs)) →
      (∀ k', (k' = k ∨ ∃ j, k' = some j ∧ s ≤ j ∧ j < s + nphL cs) →
        I.filter (fun x => decide (x.par = k')) = (itemsL k s cs).filter (fun x => decide (x.par = k'))) →
      getchildren act d f (parStr k) = some (order (resL pyInt act ids sent k s cs)) := by
  induction f with
  | zero => intro cs k s h; omega
  | succ f ih =>
    intro cs k s hf hs hg hk hkr hI
    rw [getchildren, hd k hk, Option.getD_some, entry, hI k (Or.inl rfl), filter_tops cs k s hkr, order]
    have htI : ∀ x ∈ tops k s cs, x ∈ I := by
      intro x hx
      rw [← filter_tops cs k s hkr, ← hI k (Or.inl rfl)] at hx
      exact (List.mem_filter.1 hx).1
    refine mapO_append ?_ ?_
    · rw [← pre_tops pyInt act ids sent cs hg k s, StableSort.map (le := leKey), mapO_map]
      · refine mapO_some fun x hx => ?_
        have hx2 := List.mem_filter.1 ((StableSort.perm _).subset hx)
        obtain ⟨w1, w2⟩ := hw x (htI x hx2.1) (by simpa using hx2.2)
        have h0 : fld (tokF pyInt act ids (wordAt sent x) x) 0 = wordAt sent x := by simp [fld, tokF, w1]
        simp only [h0, w2]
        rfl
      · intro a _ b _
        simp [readTok, leKey]
    · rw [mapO_map]
      have key : ∀ (A B : List (PTree Lab)), cs = A ++ B →
          mapO (fun x => match isNT (fld (phF pyInt ids x) 0) with
            | some id => (getchildren act d f id).map fun cs => .node ⟨paren (fld (phF pyInt ids x) 2), some (phF pyInt ids x)⟩ cs
            | none => some (.node ⟨readLabel act (phF pyInt ids x), some (phF pyInt ids x)⟩ [.leaf (sent.length + x.key)]))
            ((tops k (s + nphL A) B).filter (·.phr)) = some ((resL pyInt act ids sent k (s + nphL A) B).filter isPhrasal) := by
        intro A B
        induction B generalizing A with
        | nil => intro _; rfl
        | cons c B ihB =>
          intro e
          have hc : Good c := hg c (by rw [e]; simp)
          have hstep : s + nphL (A ++ [c]) = s + nphL A + nph c := by rw [nphL_append, nphL, nphL]; omega
          have hB := ihB (A ++ [c]) (by rw [e]; simp)
          rw [hstep] at hB
          rw [resL]
          cases c with
          | leaf i => simp [Good, PTree.isNode] at hc
          | node l ds =>
            rw [tops, List.filter_cons, List.filter_cons, res_phrasal pyInt act ids sent k _ hc, isPhrasal_eq]
            cases hfl : firstLeaf ds with
            | some i =>
              simp only [Bool.false_eq_true, if_false, Option.isNone_some]
              exact hB
            | none =>
              simp only [if_true, Option.isNone_none]
              have htot : nphL cs = nphL A + (nphL ds + 1) + nphL B := by rw [e, nphL_append, nphL, nph_phr hfl]; omega
              have hlt : s + nphL A + nphL ds < 500 := by omega
              have h0 : isNT (fld (phF pyInt ids ⟨k, s + nphL A + nphL ds, l, true⟩) 0) = some (ident (s + nphL A + nphL ds)) := by
                rw [show fld (phF pyInt ids ⟨k, s + nphL A + nphL ds, l, true⟩) 0 = '#' :: ident (s + nphL A + nphL ds) by simp [fld, phF]]
                exact isNT_ident hlt
              have h2 : fld (phF pyInt ids ⟨k, s + nphL A + nphL ds, l, true⟩) 2 = orDash l.label := by simp [fld, phF]
              have hkids := ih ds (some (s + nphL A + nphL ds)) (s + nphL A) (by omega) (by omega) (good_kids hc hfl)
                (Or.inr ⟨_, rfl, by omega⟩) (fun j hj => by simp at hj; omega) (fun k' hk' => by
                  obtain ⟨j, rfl, hj1, hj2⟩ : ∃ j, k' = some j ∧ s + nphL A ≤ j ∧ j < s + nphL A + nph (.node l ds) := by
                    rw [nph_phr hfl]
                    rcases hk' with hk' | ⟨j, hk', h1, h2⟩
                    · exact ⟨_, hk', by omega, by omega⟩
                    · exact ⟨j, hk', h1, by omega⟩
                  have hkj : k ≠ some j := fun hkj => hkr j hkj ⟨by omega, by rw [htot]; rw [nph_phr hfl] at hj2; omega⟩
                  rw [hI (some j) (Or.inr ⟨j, rfl, by omega, by rw [htot]; rw [nph_phr hfl] at hj2; omega⟩), e, filter_child A B _ k s j hj1 hj2 hkj,
                    itemsP_phr hfl, List.filter_append]
                  simp [hkj])
              rw [mapO, h0]
              simp only
              rw [show ident (s + nphL A + nphL ds) = parStr (some (s + nphL A + nphL ds)) from rfl, hkids, Option.map_some, hB, h2]
              simp only
              rw [res, hfl]
      have := key [] cs rfl
      rw [show s + nphL ([] : List (PTree Lab)) = s by simp [nphL]] at this
      exact this

theorem fld_tok5 (w : Str) (x : Item) : fld (tokF pyInt act ids w x) 5 = parStr x.par := by simp [fld, tokF]
theorem fld_ph5 (x : Item) : fld (phF pyInt ids x) 5 = parStr x.par := by simp [fld, phF]
theorem fld_tok0 {w : Str} (h : w ≠ []) (x : Item) : fld (tokF pyInt act ids w x) 0 = w := by simp [fld, tokF, h]
theorem fld_ph0 (x : Item) : fld (phF pyInt ids x) 0 = '#' :: ident x.key := by simp [fld, phF]

/-- What is read from the rows that were written. -/
theorem readRows_eq (cs : List (PTree Lab)) (hg : ∀ c ∈ cs, Good c) (hN : nphL cs ≤ 500)
    (htk : (toks (itemsL none 0 cs)).map (·.key) = List.range sent.length)
    (hw : ∀ w ∈ sent, w ≠ [] ∧ isNT w = none) :
    readRows act (rowsF pyInt act ids sent (itemsL none 0 cs)) = some (.node rootLab (order (resL pyInt act ids sent none 0 cs)), sent) := by
  obtain ⟨I, hI⟩ : ∃ I, I = itemsL none 0 cs := ⟨_, rfl⟩
  rw [← hI] at htk ⊢
  have hword : ∀ x ∈ toks I, ∃ w ∈ sent, wordAt sent x = w := by
    intro x hx
    have : x.key ∈ (toks I).map (·.key) := List.mem_map.2 ⟨x, hx, rfl⟩
    rw [htk, List.mem_range] at this
    exact ⟨sent[x.key], List.getElem_mem _, by simp [wordAt, this]⟩
  have hwI : ∀ x ∈ I, x.phr = false → wordAt sent x ≠ [] ∧ isNT (wordAt sent x) = none := by
    intro x hx hp
    obtain ⟨w, h1, h2⟩ := hword x ((StableSort.perm _).symm.subset (List.mem_filter.2 ⟨hx, by simp [hp]⟩))
    rw [h2]; exact hw w h1
  have hwT : ∀ x ∈ toks I, wordAt sent x ≠ [] ∧ isNT (wordAt sent x) = none := fun x hx => by
    obtain ⟨w, h1, h2⟩ := hword x hx
    rw [h2]; exact hw w h1
  have hk : (I.filter (·.phr)).map (·.key) = List.range' 0 (nphL cs) := by rw [hI]; exact itemsL_keys cs none 0
  have hlt : ∀ x ∈ I, x.phr = true → x.key < nphL cs := fun x hx hp => by
    rw [hI] at hx; have := ((itemsL_range cs none 0 x hx).2 hp).2; omega
  -- numbers of parents
  have hpar : ∀ x ∈ I, x.par = none ∨ ∃ j, x.par = some j ∧ j < nphL cs := fun x hx => by
    rw [hI] at hx
    rcases (itemsL_range cs none 0 x hx).1 with h | ⟨j, h1, _, h2⟩
    · exact Or.inl h
    · exact Or.inr ⟨j, h1, by omega⟩
  -- the keys
  have hkeys : ∀ k, (k = none ∨ ∃ j, k = some j ∧ j < nphL cs) → Dict.get? (childKeys (rowsF pyInt act ids sent I)) (parStr k) = some [] := by
    intro k hkk
    rw [childKeys_get, if_pos]
    rcases hkk with rfl | ⟨j, rfl, hj⟩
    · exact Or.inl rfl
    · right
      have : j ∈ (I.filter (·.phr)).map (·.key) := by rw [hk, List.mem_range']; exact ⟨j, hj, by omega⟩
      obtain ⟨x, hx, rfl⟩ := List.mem_map.1 this
      refine ⟨phF pyInt ids x, ?_, ?_⟩
      · rw [rowsF, List.mem_append]; exact Or.inr (List.mem_map.2 ⟨x, hx, rfl⟩)
      · rw [fld_ph0]; exact isNT_ident (by omega)
  have hrows : (rowsF pyInt act ids sent I).zipIdx = (toks I).map (fun x => (tokF pyInt act ids (wordAt sent x) x, x.key)) ++
      (I.filter (·.phr)).map (fun x => (phF pyInt ids x, sent.length + x.key)) := by
    have l1 : (toks I).length = sent.length := by
      have := congrArg List.length htk; rwa [List.length_map, List.length_range] at this
    have l2 : (I.filter (·.phr)).length = nphL cs := by
      have := congrArg List.length hk; rwa [List.length_map, List.length_range'] at this
    rw [rowsF, List.zipIdx_append]
    have z1 := zipIdx_keys (fun x => tokF pyInt act ids (wordAt sent x) x) (toks I) 0 0 (by rw [htk, l1, List.range_eq_range'])
    have z2 := zipIdx_keys (phF pyInt ids) (I.filter (·.phr)) 0 sent.length (by rw [hk, l2])
    simp only [Nat.add_zero, Nat.zero_add] at z1 z2
    rw [z1, List.length_map, l1, Nat.zero_add, z2]
  obtain ⟨d, hd1, hd2⟩ := childFill_get (rowsF pyInt act ids sent I).zipIdx (childKeys (rowsF pyInt act ids sent I)) (by
    intro r hr
    rw [hrows, List.mem_append] at hr
    rcases hr with hr | hr
    · obtain ⟨x, hx, rfl⟩ := List.mem_map.1 hr
      rw [fld_tok5, hkeys _ (hpar x (List.mem_filter.1 ((StableSort.perm _).subset hx)).1)]; rfl
    · obtain ⟨x, hx, rfl⟩ := List.mem_map.1 hr
      rw [fld_ph5, hkeys _ (hpar x (List.mem_filter.1 hx).1)]; rfl)
  have hd : ∀ k, (k = none ∨ ∃ j, k = some j ∧ j < nphL cs) → Dict.get? d (parStr k) = some (entry pyInt act ids sent I k) := by
    intro k hkk
    rw [hd2, hkeys k hkk, Option.map_some, List.nil_append, hrows, List.filter_append, List.map_append, entry]
    have dec : ∀ x : Item, decide (parStr x.par = parStr k) = decide (x.par = k) := fun x => by
      by_cases e : x.par = k
      · simp [e]
      · have h2 : ¬parStr x.par = parStr k := fun h => e (parStr_inj h)
        simp [e, h2]
    congr 2
    · rw [List.filter_map, List.map_map]
      have : (fun r : List Str × Nat => decide (fld r.1 5 = parStr k)) ∘ (fun x => (tokF pyInt act ids (wordAt sent x) x, x.key)) =
          fun x => decide (x.par = k) := by
        funext x; simp only [Function.comp_apply]; rw [fld_tok5, dec]
      rw [this, toks, stableSort_filter, List.filter_filter, List.filter_filter]
      congr 2
      refine List.filter_congr fun x _ => Bool.and_comm _ _
    · rw [List.filter_map, List.map_map]
      have : (fun r : List Str × Nat => decide (fld r.1 5 = parStr k)) ∘ (fun x => (phF pyInt ids x, sent.length + x.key)) =
          fun x => decide (x.par = k) := by
        funext x; simp only [Function.comp_apply]; rw [fld_ph5, dec]
      rw [this, List.filter_filter, List.filter_filter]
      congr 1
      refine List.filter_congr fun x _ => Bool.and_comm _ _
  have hlen : nphL cs < (rowsF pyInt act ids sent I).length + 1 := by
    have l2 : (I.filter (·.phr)).length = nphL cs := by
      have := congrArg List.length hk; rwa [List.length_map, List.length_range'] at this
    rw [rowsF, List.length_append, List.length_map, List.length_map, l2]; omega
  have hget := getchildren_eq pyInt act ids sent I d (nphL cs) hN hd hwI ((rowsF pyInt act ids sent I).length + 1) cs none 0 hlen (by omega) hg (Or.inl rfl)
    (by simp) (fun k' _ => by rw [hI])
  rw [readRows, hd1]
  simp only
  rw [show (['0'] : Str) = parStr none from rfl, hget]
  simp only
  congr 2
  rw [rowsF, List.filter_append, List.map_append]
  have e1 : ((toks I).map fun x => tokF pyInt act ids (wordAt sent x) x).filter (fun src => (isNT (fld src 0)).isNone) =
      (toks I).map fun x => tokF pyInt act ids (wordAt sent x) x := by
    rw [List.filter_eq_self]
    intro a ha
    obtain ⟨x, hx, rfl⟩ := List.mem_map.1 ha
    rw [fld_tok0 _ _ _ (hwT x hx).1, (hwT x hx).2]; rfl
  have e2 : ((I.filter (·.phr)).map (phF pyInt ids)).filter (fun src => (isNT (fld src 0)).isNone) = [] := by
    rw [List.filter_eq_nil_iff]
    intro a ha
    obtain ⟨x, hx, rfl⟩ := List.mem_map.1 ha
    have := List.mem_filter.1 hx
    rw [fld_ph0, isNT_ident (by have := hlt x this.1 this.2; omega)]; simp
  rw [e1, e2, List.map_nil, List.append_nil, List.map_map]
  have e3 : (toks I).map ((fun x => fld x 0) ∘ fun x => tokF pyInt act ids (wordAt sent x) x) = ((toks I).map (·.key)).map fun i => (sent[i]?).getD [] := by
    rw [List.map_map]
    refine List.map_congr_left fun x hx => ?_
    simp only [Function.comp_apply]
    rw [fld_tok0 _ _ _ (hwT x hx).1]; rfl
  rw [e3, htk]
  apply List.ext_getElem
  · simp
  · intro i h1 h2
    simp at h1 h2
    simp [h2]

end

end Disco.Export
