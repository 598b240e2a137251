import Verif.Basic.Tree
import Mathlib.Data.List.Nodup
/-!
# C38: traversals and tree positions

`discodop/tree.py:220-373` (`leaves`, `subtrees`, `postorder`, `pos`, `treepositions`, `leaf_treeposition`,
`treeposition_spanning_leaves`, `__getitem__` with tree positions).
-/
namespace Disco.Traversal
open PTree

variable {L : Type}

mutual
/-- Number of nodes including terminals. -/
def size : PTree L → Nat
  | .leaf _ => 1
  | .node _ cs => 1 + sizeL cs
/-- The same for a list. -/
def sizeL : List (PTree L) → Nat
  | [] => 0
  | c :: cs => size c + sizeL cs
end

theorem sizeL_append (xs ys : List (PTree L)) : sizeL (xs ++ ys) = sizeL xs + sizeL ys := by
  induction xs with
  | nil => simp [sizeL]
  | cons x xs ih => simp [sizeL, ih]; omega

theorem size_pos (t : PTree L) : 0 < size t := by
  cases t <;> (simp [size]; try omega)

/-! ### Models -/

/-- `Tree.subtrees(condition)` (tree.py:246-262): an agenda used as a stack; `agenda.extend(node[::-1])` followed by `pop()` puts the
children in front. The list of yielded nodes (the tree is not modified meanwhile). -/
def subtreesLoop (cond : PTree L → Bool) : List (PTree L) → List (PTree L)
  | [] => []
  | .leaf _ :: agenda => subtreesLoop cond agenda
  | .node l cs :: agenda =>
    (if cond (.node l cs) then [.node l cs] else []) ++ subtreesLoop cond (cs ++ agenda)
termination_by agenda => sizeL agenda
decreasing_by all_goals (simp [sizeL, size, sizeL_append]; try omega)

/-- `Tree.postorder(condition)` (tree.py:264-285): a node stays on the stack until it is seen for the second time; `visited` holds the
identities of nodes. Node identity (`id(node)`) is the first component of the label. The loop gets fuel; `none` when it runs out. -/
def postorderLoop (cond : PTree (Nat × L) → Bool) : Nat → List (PTree (Nat × L)) → List Nat → Option (List (PTree (Nat × L)))
  | _, [], _ => some []
  | 0, _ :: _, _ => none
  | fuel + 1, .leaf _ :: agenda, visited => postorderLoop cond fuel agenda visited
  | fuel + 1, .node (i, l) cs :: agenda, visited =>
    if visited.contains i then do
      let r ← postorderLoop cond fuel agenda visited
      return (if cond (.node (i, l) cs) then [.node (i, l) cs] else []) ++ r
    else postorderLoop cond fuel (cs ++ .node (i, l) cs :: agenda) (i :: visited)

/-- The terminals among the children with the label of the parent (tree.py:313-318). -/
def ownPos (l : L) : List (PTree L) → List (Nat × L)
  | [] => []
  | .leaf i :: cs => (i, l) :: ownPos l cs
  | .node _ _ :: cs => ownPos l cs

/-- `Tree.pos()` (tree.py:294-319, `nodes=False`). -/
def posLoop : List (PTree L) → List (Nat × L)
  | [] => []
  | .leaf _ :: agenda => posLoop agenda
  | .node l cs :: agenda => ownPos l cs ++ posLoop (cs ++ agenda)
termination_by agenda => sizeL agenda
decreasing_by all_goals (simp [sizeL, size, sizeL_append]; try omega)

/-- The `order` argument of `treepositions`. -/
inductive Order | preorder | postorder | bothorder | leaves
  deriving DecidableEq

mutual
/-- `Tree.treepositions(order)` (tree.py:321-341) for a constituent; for a terminal the position `()` itself, so that
`(i,) + p` gives `(i,)`. -/
def treepositions (o : Order) : PTree L → List (List Nat)
  | .leaf _ => [[]]
  | .node _ cs =>
    (if o = .preorder ∨ o = .bothorder then [[]] else []) ++ treepositionsL o 0 cs ++
    (if o = .postorder ∨ o = .bothorder then [[]] else [])
/-- The loop over the children with `enumerate`. -/
def treepositionsL (o : Order) (i : Nat) : List (PTree L) → List (List Nat)
  | [] => []
  | c :: cs => (treepositions o c).map (i :: ·) ++ treepositionsL o (i + 1) cs
end

/-- `tree[position]` (tree.py:183-192). `none`: IndexError (or indexing into a terminal). -/
def get : PTree L → List Nat → Option (PTree L)
  | t, [] => some t
  | .leaf _, _ :: _ => none
  | .node _ cs, i :: p => match cs[i]? with
    | none => none
    | some c => get c p

/-- `enumerate` of the children with their positions, first child first (the loop of tree.py:358-359 pushes them in reverse). -/
def push (pos : List Nat) (i : Nat) : List (PTree L) → List (PTree L × List Nat)
  | [] => []
  | c :: cs => (c, pos ++ [i]) :: push pos (i + 1) cs

/-- Total size of the trees on the stack. -/
def stackSize (s : List (PTree L × List Nat)) : Nat := (s.map (fun p => size p.1)).sum

theorem stackSize_push (pos : List Nat) (i : Nat) (cs : List (PTree L)) (s) :
    stackSize (push pos i cs ++ s) = sizeL cs + stackSize s := by
  induction cs generalizing i with
  | nil => simp [push, sizeL]
  | cons c cs ih =>
    have := ih (i + 1)
    simp [push, sizeL, stackSize] at this ⊢; omega

/-- `Tree.leaf_treeposition(index)` (tree.py:343-360) with its stack; `none` models `IndexError`. -/
def leafPosLoop (index : Nat) : List (PTree L × List Nat) → Option (List Nat)
  | [] => none
  | (.leaf _, p) :: stack => if index = 0 then some p else leafPosLoop (index - 1) stack
  | (.node _ cs, p) :: stack => leafPosLoop index (push p 0 cs ++ stack)
termination_by stack => stackSize stack
decreasing_by
  · simp [stackSize, size]
  · rw [stackSize_push]; simp [stackSize, size]

/-- `Tree.leaf_treeposition(index)`. -/
def leafTreeposition (t : PTree L) (index : Int) : Option (List Nat) :=
  if index < 0 then none else leafPosLoop index.toNat [(t, [])]

/-- The loop at the end of `treeposition_spanning_leaves` (tree.py:370-373): the part of `a` before the first mismatch with `b`. -/
def commonPrefix : List Nat → List Nat → List Nat
  | [], _ => []
  | _ :: _, [] => []
  | x :: a, y :: b => if x ≠ y then [] else x :: commonPrefix a b

/-- `Tree.treeposition_spanning_leaves(start, end)` (tree.py:362-373); `none`: `ValueError` or `IndexError`. -/
def spanningLeaves (t : PTree L) (start stop : Int) : Option (List Nat) :=
  if stop ≤ start then none else do
    let a ← leafTreeposition t start
    let b ← leafTreeposition t (stop - 1)
    return commonPrefix a b

/-! ### Specification -/

mutual
/-- Post-order: the constituents below the children from left to right, then the node itself. -/
def Spec.postorder : PTree L → List (PTree L)
  | .leaf _ => []
  | .node l cs => Spec.postorderL cs ++ [.node l cs]
/-- The same for a list of sisters. -/
def Spec.postorderL : List (PTree L) → List (PTree L)
  | [] => []
  | c :: cs => Spec.postorder c ++ Spec.postorderL cs
end

mutual
/-- The terminals from left to right, each with the label of its parent. -/
def Spec.pos : PTree L → List (Nat × L)
  | .leaf _ => []
  | .node l cs => Spec.posL l cs
/-- The same for the children of a node labelled `l`. -/
def Spec.posL (l : L) : List (PTree L) → List (Nat × L)
  | [] => []
  | .leaf i :: cs => (i, l) :: Spec.posL l cs
  | .node l' ds :: cs => Spec.pos (.node l' ds) ++ Spec.posL l cs
end

/-- No terminal has a constituent among its left sisters. -/
def Spec.TermsFirst (t : PTree L) : Prop :=
  ∀ l cs, .node l cs ∈ subtrees t → ∃ xs ys, cs = xs ++ ys ∧ (∀ x ∈ xs, x.isNode = false) ∧ ∀ y ∈ ys, y.isNode = true

/-- Node identities are unique (no node object occurs twice in the tree). -/
def Spec.UniqueIds (t : PTree (Nat × L)) : Prop :=
  ((subtrees t).filterMap (fun n => n.label?.map Prod.fst)).Nodup

/-- Lexicographic order on tree positions, a position preceding its extensions. -/
def Spec.posLt (p q : List Nat) : Prop := p < q

/-! ### subtrees -/

/-- **C38.** `subtrees(condition)` yields the constituents satisfying the condition in pre-order. -/
theorem C38_subtrees (cond : PTree L → Bool) (t : PTree L) : subtreesLoop cond [t] = (subtrees t).filter cond := by
  have key : ∀ n (agenda : List (PTree L)), sizeL agenda = n → subtreesLoop cond agenda = (subtreesL agenda).filter cond := by
    intro n
    induction n using Nat.strongRecOn with
    | ind n ih =>
      intro agenda hn
      match agenda with
      | [] => simp [subtreesLoop]
      | .leaf i :: agenda =>
        rw [subtreesLoop, ih (sizeL agenda) (by simp [sizeL, size] at hn; omega) _ rfl]
        simp
      | .node l cs :: agenda =>
        rw [subtreesLoop, ih (sizeL (cs ++ agenda)) (by simp [sizeL, size] at hn; rw [sizeL_append]; omega) _ rfl]
        rw [subtreesL_cons, subtrees_node, subtreesL_append, List.cons_append, List.filter_cons]
        split <;> simp
  rw [key _ [t] rfl]; simp

/-! ### postorder -/

/-- Identities of the constituents of a list of sisters. -/
def idsL (cs : List (PTree (Nat × L))) : List Nat := (subtreesL cs).filterMap (fun n => n.label?.map Prod.fst)

theorem idsL_nil : idsL ([] : List (PTree (Nat × L))) = [] := by simp [idsL]
theorem idsL_leaf (i : Nat) (cs : List (PTree (Nat × L))) : idsL (.leaf i :: cs) = idsL cs := by simp [idsL]
theorem idsL_node (i : Nat) (l : L) (ds cs : List (PTree (Nat × L))) :
    idsL (.node (i, l) ds :: cs) = i :: (idsL ds ++ idsL cs) := by simp [idsL, label?]

theorem postorderLoop_mono (cond : PTree (Nat × L) → Bool) : ∀ fuel agenda visited r k,
    postorderLoop cond fuel agenda visited = some r → postorderLoop cond (fuel + k) agenda visited = some r := by
  intro fuel
  induction fuel with
  | zero =>
    intro agenda visited r k h
    cases agenda with
    | nil =>
      simp only [postorderLoop] at h
      cases k <;> simp [postorderLoop, h]
    | cons c cs => simp [postorderLoop] at h
  | succ fuel ih =>
    intro agenda visited r k h
    rw [show fuel + 1 + k = (fuel + k) + 1 by omega]
    match agenda with
    | [] => simpa [postorderLoop] using h
    | .leaf i :: cs => rw [postorderLoop] at h ⊢; exact ih _ _ _ _ h
    | .node (i, l) ds :: cs =>
      rw [postorderLoop] at h ⊢
      split
      · rename_i hv
        rw [if_pos hv] at h
        simp only [Option.bind_eq_bind, Option.bind_eq_some_iff] at h ⊢
        obtain ⟨r', hr', h⟩ := h
        exact ⟨r', ih _ _ _ _ hr', h⟩
      · rename_i hv
        rw [if_neg hv] at h
        exact ih _ _ _ _ h

theorem postorder_list (cond : PTree (Nat × L) → Bool) : ∀ n (cs : List (PTree (Nat × L))), sizeL cs = n → (idsL cs).Nodup →
    ∀ visited, (∀ i ∈ idsL cs, i ∉ visited) → ∀ agenda fuel r,
    (∀ visited', (∀ i, i ∈ visited' ↔ i ∈ idsL cs ∨ i ∈ visited) → postorderLoop cond fuel agenda visited' = some r) →
    postorderLoop cond (2 * sizeL cs + fuel) (cs ++ agenda) visited = some ((Spec.postorderL cs).filter cond ++ r) := by
  intro n
  induction n using Nat.strongRecOn with
  | ind n ih =>
    intro cs hn hnd visited hfresh agenda fuel r hrest
    match cs with
    | [] =>
      simp only [sizeL, Nat.mul_zero, Nat.zero_add, List.nil_append, Spec.postorderL, List.filter_nil]
      exact hrest visited (by simp [idsL_nil])
    | .leaf i :: cs =>
      have hs : 2 * sizeL (.leaf i :: cs : List (PTree (Nat × L))) + fuel = (2 * sizeL cs + (fuel + 1)) + 1 := by
        simp [sizeL, size]; omega
      rw [hs, List.cons_append, postorderLoop, Spec.postorderL, Spec.postorder, List.nil_append]
      refine ih (sizeL cs) (by simp [sizeL, size] at hn; omega) cs rfl (by rwa [idsL_leaf] at hnd) visited
        (by rwa [idsL_leaf] at hfresh) agenda (fuel + 1) r ?_
      intro v hv
      exact postorderLoop_mono cond _ _ _ _ 1 (hrest v (by rwa [idsL_leaf]))
    | .node (i, l) ds :: cs =>
      rw [idsL_node] at hnd hfresh
      rw [List.nodup_cons, List.nodup_append] at hnd
      have hs : 2 * sizeL (.node (i, l) ds :: cs) + fuel = (2 * sizeL ds + ((2 * sizeL cs + fuel) + 1)) + 1 := by
        simp [sizeL, size]; omega
      have hi : ¬ visited.contains i = true := by
        simpa using hfresh i (by simp)
      rw [hs, List.cons_append, postorderLoop, if_neg hi]
      have hsz : sizeL ds < n ∧ sizeL cs < n := by simp [sizeL, size] at hn; omega
      have := ih (sizeL ds) hsz.1 ds rfl hnd.2.1 (i :: visited) ?_ (.node (i, l) ds :: (cs ++ agenda))
        ((2 * sizeL cs + fuel) + 1)
        ((if cond (.node (i, l) ds) then [.node (i, l) ds] else []) ++ ((Spec.postorderL cs).filter cond ++ r)) ?_
      · rw [this, Spec.postorderL, Spec.postorder, List.filter_append, List.filter_append, List.filter_cons, List.filter_nil]
        simp
      · intro j hj
        rw [List.mem_cons]
        rintro (rfl | hv)
        · exact hnd.1 (by simp [hj])
        · exact hfresh j (by simp [hj]) hv
      · intro v hv
        have hvi : v.contains i = true := by
          rw [List.contains_iff_mem, hv]; simp
        rw [postorderLoop, if_pos hvi]
        have h2 := ih (sizeL cs) hsz.2 cs rfl hnd.2.2.1 v ?_ agenda fuel r ?_
        · rw [h2]; rfl
        · intro j hj hjv
          rcases (hv j).1 hjv with h | h
          · exact hnd.2.2.2 j h j hj rfl
          · rcases List.mem_cons.1 h with rfl | h
            · exact hnd.1 (by simp [hj])
            · exact hfresh j (by simp [hj]) h
        · intro v' hv'
          apply hrest
          intro j
          rw [hv' j, hv j, idsL_node]
          simp only [List.mem_cons, List.mem_append]
          grind

/-- **C38.** On a tree in which no node object occurs twice, `postorder(condition)` yields the constituents that satisfy the
condition in post-order (children before their parent), after at most `2 * size` iterations. -/
theorem C38_postorder (cond : PTree (Nat × L) → Bool) (t : PTree (Nat × L)) (h : Spec.UniqueIds t) (fuel : Nat)
    (hf : 2 * size t ≤ fuel) : postorderLoop cond fuel [t] [] = some ((Spec.postorder t).filter cond) := by
  have := postorder_list cond _ [t] rfl (by simpa [idsL, Spec.UniqueIds] using h) [] (by simp) [] 0 []
    (fun _ _ => by simp [postorderLoop])
  rw [List.append_nil, List.append_nil] at this
  have h2 := postorderLoop_mono cond _ _ _ _ (fuel - 2 * size t) this
  rw [show 2 * sizeL [t] + 0 + (fuel - 2 * size t) = fuel by simp [sizeL]; omega] at h2
  rw [h2]
  simp [Spec.postorderL]

/-- Post-order visits the same constituents as pre-order, each as often. -/
theorem postorder_perm (t : PTree L) : (Spec.postorder t).Perm (subtrees t) := by
  induction t using PTree.ind with
  | hleaf i => simp [Spec.postorder]
  | hnode l cs ih =>
    rw [Spec.postorder, subtrees_node]
    have : (Spec.postorderL cs).Perm (subtreesL cs) := by
      induction cs with
      | nil => simp [Spec.postorderL]
      | cons c cs ih2 =>
        rw [Spec.postorderL, subtreesL_cons]
        exact (ih c (by simp)).append (ih2 fun c hc => ih c (by simp [hc]))
    exact List.perm_append_comm.trans (this.cons _)

/-! ### pos -/

theorem posL_append (l : L) (xs ys : List (PTree L)) : Spec.posL l (xs ++ ys) = Spec.posL l xs ++ Spec.posL l ys := by
  induction xs with
  | nil => simp [Spec.posL]
  | cons x xs ih => cases x <;> simp [Spec.posL, ih]

theorem posL_nodes (l : L) (ys : List (PTree L)) (h : ∀ y ∈ ys, y.isNode = true) :
    Spec.posL l ys = ys.flatMap Spec.pos := by
  induction ys with
  | nil => simp [Spec.posL]
  | cons y ys ih =>
    cases y with
    | leaf i => have := h (.leaf i) (by simp); simp [isNode] at this
    | node l' ds => rw [Spec.posL, ih (fun y hy => h y (by simp [hy]))]; simp

theorem posL_leaves (l : L) (xs : List (PTree L)) (h : ∀ x ∈ xs, x.isNode = false) :
    Spec.posL l xs = ownPos l xs ∧ xs.flatMap Spec.pos = [] := by
  induction xs with
  | nil => simp [Spec.posL, ownPos]
  | cons x xs ih =>
    cases x with
    | leaf i =>
      obtain ⟨h1, h2⟩ := ih (fun y hy => h y (by simp [hy]))
      exact ⟨by rw [Spec.posL, ownPos, h1], by simp [Spec.pos, h2]⟩
    | node l' ds => have := h (.node l' ds) (by simp); simp [isNode] at this

theorem ownPos_append (l : L) (xs ys : List (PTree L)) : ownPos l (xs ++ ys) = ownPos l xs ++ ownPos l ys := by
  induction xs with
  | nil => simp [ownPos]
  | cons x xs ih => cases x <;> simp [ownPos, ih]

theorem ownPos_nodes (l : L) (ys : List (PTree L)) (h : ∀ y ∈ ys, y.isNode = true) : ownPos l ys = [] := by
  induction ys with
  | nil => simp [ownPos]
  | cons y ys ih =>
    cases y with
    | leaf i => have := h (.leaf i) (by simp); simp [isNode] at this
    | node l' ds => rw [ownPos, ih (fun y hy => h y (by simp [hy]))]

/-- **C38.** `pos()` lists the terminals from left to right, each with the label of its parent, provided that no terminal
follows a constituent among its sisters. -/
theorem C38_pos (t : PTree L) (h : Spec.TermsFirst t) : posLoop [t] = Spec.pos t := by
  have key : ∀ n (agenda : List (PTree L)), sizeL agenda = n → (∀ a ∈ agenda, Spec.TermsFirst a) →
      posLoop agenda = agenda.flatMap Spec.pos := by
    intro n
    induction n using Nat.strongRecOn with
    | ind n ih =>
      intro agenda hn hall
      match agenda with
      | [] => simp [posLoop]
      | .leaf i :: agenda =>
        rw [posLoop, ih (sizeL agenda) (by simp [sizeL, size] at hn; omega) _ rfl (fun a ha => hall a (by simp [ha]))]
        simp [Spec.pos]
      | .node l cs :: agenda =>
        have hcs : ∀ c ∈ cs, Spec.TermsFirst c := fun c hc l' cs' hm =>
          hall (.node l cs) (by simp) l' cs' (by
            rw [subtrees_node]; exact List.mem_cons_of_mem _ (mem_subtreesL.2 ⟨c, hc, hm⟩))
        rw [posLoop, ih (sizeL (cs ++ agenda)) (by simp [sizeL, size] at hn; rw [sizeL_append]; omega) _ rfl (by
          intro a ha
          rcases List.mem_append.1 ha with ha | ha
          · exact hcs a ha
          · exact hall a (by simp [ha]))]
        obtain ⟨xs, ys, rfl, hx, hy⟩ := hall (.node l cs) (by simp) l cs (by simp)
        have hp : Spec.pos (.node l (xs ++ ys)) = Spec.posL l (xs ++ ys) := by rw [Spec.pos]
        rw [List.flatMap_append, List.flatMap_append, List.flatMap_cons, hp, posL_append, ownPos_append,
          (posL_leaves l xs hx).1, (posL_leaves l xs hx).2, ownPos_nodes l ys hy, posL_nodes l ys hy]
        simp
  rw [key _ [t] rfl (by simpa using h)]; simp

/-- **C38 (disagreement).** The documentation promises the order of the tree's hierarchical structure; with a terminal to the right of a
constituent the terminal comes first. -/
theorem C38_pos_mixed_order : ∃ t : PTree Str, (posLoop [t]).map Prod.fst ≠ t.leaves := by
  refine ⟨.node ['X'] [.node ['Y'] [.leaf 0], .leaf 1], ?_⟩
  simp [posLoop, ownPos]

/-! ### tree positions -/

theorem mem_treepositionsL (o : Order) (cs : List (PTree L)) (k : Nat) (p : List Nat) :
    p ∈ treepositionsL o k cs ↔ ∃ i q c, p = (k + i) :: q ∧ cs[i]? = some c ∧ q ∈ treepositions o c := by
  induction cs generalizing k with
  | nil => simp [treepositionsL]
  | cons c cs ih =>
    rw [treepositionsL, List.mem_append, List.mem_map, ih]
    constructor
    · rintro (⟨q, hq, rfl⟩ | ⟨i, q, d, rfl, hd, hq⟩)
      · exact ⟨0, q, c, by simp, by simp, hq⟩
      · exact ⟨i + 1, q, d, by simp; omega, by simpa using hd, hq⟩
    · rintro ⟨i, q, d, rfl, hd, hq⟩
      cases i with
      | zero =>
        simp at hd; subst hd
        exact Or.inl ⟨q, hq, by simp⟩
      | succ i => exact Or.inr ⟨i, q, d, by simp; omega, by simpa using hd, hq⟩

/-- **C38.** `treepositions('preorder')`, `treepositions('postorder')` and `treepositions('bothorder')` list exactly the valid
positions of the tree: those where `tree[position]` is a node or a terminal. -/
theorem C38_treepositions_valid (o : Order) (ho : o ≠ .leaves) (t : PTree L) (p : List Nat) :
    p ∈ treepositions o t ↔ (get t p).isSome := by
  induction t using PTree.ind generalizing p with
  | hleaf i => cases p <;> simp [treepositions, get]
  | hnode l cs ih =>
    rw [treepositions, List.mem_append, List.mem_append, mem_treepositionsL]
    cases p with
    | nil =>
      simp only [get, Option.isSome_some, iff_true]
      cases o <;> simp at ho ⊢
    | cons i p =>
      have h1 : ∀ (b : Prop) [Decidable b], ¬ (i :: p ∈ if b then [([] : List Nat)] else []) := by
        intro b _; split <;> simp
      simp only [h1, false_or, or_false, get, Nat.zero_add]
      constructor
      · rintro ⟨j, q, c, he, hc, hq⟩
        injection he with h2 h3
        subst h2; subst h3
        rw [hc]
        exact (ih c (List.mem_of_getElem? hc) _).1 hq
      · intro h
        cases hc : cs[i]? with
        | none => simp [hc] at h
        | some c =>
          simp [hc] at h
          exact ⟨i, p, c, rfl, hc, (ih c (List.mem_of_getElem? hc) _).2 (by simpa using h)⟩

theorem cons_lt_cons_iff' {a b : Nat} {p q : List Nat} : a :: p < b :: q ↔ a < b ∨ (a = b ∧ p < q) := by
  rw [List.cons_lt_cons_iff]

theorem treepositionsL_sorted (o : Order) (cs : List (PTree L)) (k : Nat)
    (h : ∀ c ∈ cs, (treepositions o c).Pairwise (· < ·)) : (treepositionsL o k cs).Pairwise (· < ·) := by
  induction cs generalizing k with
  | nil => simp [treepositionsL]
  | cons c cs ih =>
    rw [treepositionsL, List.pairwise_append]
    refine ⟨?_, ih _ (fun d hd => h d (by simp [hd])), ?_⟩
    · rw [List.pairwise_map]
      exact (h c (by simp)).imp (fun hpq => cons_lt_cons_iff'.2 (Or.inr ⟨rfl, hpq⟩))
    · intro p hp q hq
      obtain ⟨p, _, rfl⟩ := List.mem_map.1 hp
      obtain ⟨i, q', c', rfl, _, _⟩ := (mem_treepositionsL _ _ _ _).1 hq
      exact cons_lt_cons_iff'.2 (Or.inl (by omega))

theorem treepositions_sorted (o : Order) (ho : o = .preorder ∨ o = .leaves) (t : PTree L) :
    (treepositions o t).Pairwise (· < ·) := by
  induction t using PTree.ind with
  | hleaf i => simp [treepositions]
  | hnode l cs ih =>
    rw [treepositions]
    have h2 : ¬ (o = .postorder ∨ o = .bothorder) := by rcases ho with rfl | rfl <;> simp
    rw [if_neg h2, List.append_nil, List.pairwise_append]
    refine ⟨by split <;> simp, treepositionsL_sorted o cs 0 ih, ?_⟩
    intro p hp q hq
    split at hp
    · simp at hp; subst hp
      obtain ⟨i, q', c', rfl, _, _⟩ := (mem_treepositionsL _ _ _ _).1 hq
      exact List.nil_lt_cons _ _
    · simp at hp

/-- **C38.** `treepositions('preorder')` is strictly increasing in the lexicographic order in which a position comes before
its extensions (so every position is listed once, parents before children, left before right). -/
theorem C38_treepositions_preorder (t : PTree L) : (treepositions .preorder t).Pairwise (· < ·) :=
  treepositions_sorted _ (Or.inl rfl) t

/-- **C38.** `treepositions('postorder')` lists every position once. -/
theorem C38_treepositions_postorder (t : PTree L) : (treepositions .postorder t).Nodup := by
  induction t using PTree.ind with
  | hleaf i => simp [treepositions]
  | hnode l cs ih =>
    rw [treepositions]
    simp only [reduceCtorEq, or_self, if_false, List.nil_append, true_or, if_true]
    rw [List.nodup_append]
    refine ⟨?_, by simp, ?_⟩
    · have : ∀ (k : Nat) (cs : List (PTree L)), (∀ c ∈ cs, (treepositions .postorder c).Nodup) →
          (treepositionsL .postorder k cs).Nodup := by
        intro k cs
        induction cs generalizing k with
        | nil => simp [treepositionsL]
        | cons c cs ih2 =>
          intro h
          rw [treepositionsL, List.nodup_append]
          refine ⟨(h c (by simp)).map (fun a b hab => by injection hab), ih2 _ (fun d hd => h d (by simp [hd])), ?_⟩
          rintro p hp q hq rfl
          obtain ⟨p', _, rfl⟩ := List.mem_map.1 hp
          obtain ⟨i, q', c', h1, _, _⟩ := (mem_treepositionsL _ _ _ _).1 hq
          injection h1 with h1 _
          omega
      exact this 0 cs ih
    · rintro p hp q hq rfl
      simp at hq; subst hq
      obtain ⟨i, q', c', h1, _, _⟩ := (mem_treepositionsL _ _ _ _).1 hp
      simp at h1

/-- **C38.** In `treepositions('postorder')` a position comes after all of its proper extensions. -/
theorem C38_treepositions_postorder_children_first (t : PTree L) :
    (treepositions .postorder t).Pairwise (fun p q => ¬ p <+: q) := by
  induction t using PTree.ind with
  | hleaf i => simp [treepositions]
  | hnode l cs ih =>
    rw [treepositions]
    simp only [reduceCtorEq, or_self, if_false, List.nil_append, true_or, if_true]
    rw [List.pairwise_append]
    refine ⟨?_, by simp, ?_⟩
    · have : ∀ (k : Nat) (cs : List (PTree L)), (∀ c ∈ cs, (treepositions .postorder c).Pairwise (fun p q => ¬ p <+: q)) →
          (treepositionsL .postorder k cs).Pairwise (fun p q => ¬ p <+: q) := by
        intro k cs
        induction cs generalizing k with
        | nil => simp [treepositionsL]
        | cons c cs ih2 =>
          intro h
          rw [treepositionsL, List.pairwise_append]
          refine ⟨?_, ih2 _ (fun d hd => h d (by simp [hd])), ?_⟩
          · rw [List.pairwise_map]
            exact (h c (by simp)).imp (fun hpq hc => hpq (List.cons_prefix_cons.1 hc).2)
          · rintro p hp q hq hpre
            obtain ⟨p', _, rfl⟩ := List.mem_map.1 hp
            obtain ⟨i, q', c', rfl, _, _⟩ := (mem_treepositionsL _ _ _ _).1 hq
            have := (List.cons_prefix_cons.1 hpre).1
            omega
      exact this 0 cs ih
    · rintro p hp q hq hpre
      simp at hq; subst hq
      obtain ⟨i, q', c', rfl, _, _⟩ := (mem_treepositionsL _ _ _ _).1 hp
      simp at hpre

theorem treepositionsL_order (o : Order) (cs : List (PTree L)) (k : Nat)
    (h : ∀ c ∈ cs, (treepositions o c).Pairwise (fun p q => p < q ∨ q <+: p)) : (treepositionsL o k cs).Pairwise (fun p q => p < q ∨ q <+: p) := by
  induction cs generalizing k with
  | nil => simp [treepositionsL]
  | cons c cs ih =>
    rw [treepositionsL, List.pairwise_append]
    refine ⟨?_, ih _ (fun d hd => h d (by simp [hd])), ?_⟩
    · rw [List.pairwise_map]
      refine (h c (by simp)).imp (fun hpq => ?_)
      rcases hpq with hpq | hpq
      · exact Or.inl (cons_lt_cons_iff'.2 (Or.inr ⟨rfl, hpq⟩))
      · exact Or.inr (List.cons_prefix_cons.2 ⟨rfl, hpq⟩)
    · intro p hp q hq
      obtain ⟨p, _, rfl⟩ := List.mem_map.1 hp
      obtain ⟨i, q', c', rfl, _, _⟩ := (mem_treepositionsL _ _ _ _).1 hq
      exact Or.inl (cons_lt_cons_iff'.2 (Or.inl (by omega)))

/-- **C38.** In every order, `treepositions` goes from left to right: a position only comes after one that is not lexicographically smaller if it is an ancestor
of it (or the same node). -/
theorem C38_treepositions_left_to_right (o : Order) (t : PTree L) : (treepositions o t).Pairwise (fun p q => p < q ∨ q <+: p) := by
  induction t using PTree.ind with
  | hleaf i => simp [treepositions]
  | hnode l cs ih =>
    rw [treepositions, List.pairwise_append, List.pairwise_append]
    refine ⟨⟨by split <;> simp, treepositionsL_order o cs 0 ih, ?_⟩, by split <;> simp, ?_⟩
    · intro p hp q hq
      split at hp
      · simp at hp; subst hp
        obtain ⟨i, q', c', rfl, _, _⟩ := (mem_treepositionsL _ _ _ _).1 hq
        exact Or.inl (List.nil_lt_cons _ _)
      · simp at hp
    · intro p _ q hq
      split at hq
      · simp at hq; subst hq
        exact Or.inr List.nil_prefix
      · simp at hq

theorem treepositionsL_split (o : Order) (cs : List (PTree L)) (k i : Nat) (c : PTree L) (h : cs[i]? = some c) :
    ∃ a b, treepositionsL o k cs = a ++ (treepositions o c).map ((k + i) :: ·) ++ b ∧ ∀ q ∈ a ++ b, ∀ p, ¬ ((k + i) :: p) <+: q := by
  induction cs generalizing k i with
  | nil => simp at h
  | cons d cs ih =>
    cases i with
    | zero =>
      simp at h; subst h
      refine ⟨[], treepositionsL o (k + 1) cs, by simp [treepositionsL], fun q hq p hp => ?_⟩
      rw [List.nil_append] at hq
      obtain ⟨i, q', c', rfl, _, _⟩ := (mem_treepositionsL _ _ _ _).1 hq
      have := (List.cons_prefix_cons.1 hp).1
      omega
    | succ i =>
      obtain ⟨a, b, e, hq⟩ := ih (k + 1) i (by simpa using h)
      refine ⟨(treepositions o d).map (k :: ·) ++ a, b, ?_, ?_⟩
      · rw [treepositionsL, e, show k + 1 + i = k + (i + 1) by omega]
        simp
      · intro q hm p hp
        rw [List.append_assoc, List.mem_append] at hm
        rcases hm with hm | hm
        · obtain ⟨p', _, rfl⟩ := List.mem_map.1 hm
          have := (List.cons_prefix_cons.1 hp).1
          omega
        · exact hq q hm p (by rw [show k + 1 + i = k + (i + 1) by omega]; exact hp)

/-- **C38.** In `treepositions('bothorder')` the position of a terminal comes once. The position of a constituent comes exactly twice; between these, and
only there, are the positions below it. -/
theorem C38_treepositions_bothorder (t : PTree L) (p : List Nat) (c : PTree L) (h : get t p = some c) :
    ∃ a m b, treepositions .bothorder t = a ++ m ++ b ∧ (∀ q ∈ a ++ b, ¬ p <+: q) ∧ (c.isNode = false → m = [p]) ∧
      (c.isNode = true → ∃ m', m = p :: (m' ++ [p]) ∧ ∀ q ∈ m', p <+: q ∧ q ≠ p) := by
  induction p generalizing t with
  | nil =>
    rw [get, Option.some.injEq] at h
    subst h
    refine ⟨[], treepositions .bothorder t, [], by simp, by simp, ?_, ?_⟩
    · intro hc
      cases t with
      | leaf i => simp [treepositions]
      | node l cs => simp [PTree.isNode] at hc
    · intro hc
      cases t with
      | leaf i => simp [PTree.isNode] at hc
      | node l cs =>
        refine ⟨treepositionsL .bothorder 0 cs, by simp [treepositions], fun q hq => ⟨List.nil_prefix, ?_⟩⟩
        obtain ⟨i, q', c', rfl, _, _⟩ := (mem_treepositionsL _ _ _ _).1 hq
        simp
  | cons i p ih =>
    cases t with
    | leaf j => simp [get] at h
    | node l cs =>
      rw [get] at h
      cases hc : cs[i]? with
      | none => rw [hc] at h; simp at h
      | some d =>
        rw [hc] at h
        obtain ⟨a, m, b, e, h1, h2, h3⟩ := ih d h
        obtain ⟨a', b', e', h1'⟩ := treepositionsL_split .bothorder cs 0 i d hc
        rw [Nat.zero_add] at e' h1'
        refine ⟨[] :: (a' ++ a.map (i :: ·)), m.map (i :: ·), b.map (i :: ·) ++ b' ++ [[]], ?_, ?_, ?_, ?_⟩
        · simp [treepositions, e', e]
        · intro q hq hp
          simp only [List.cons_append, List.mem_cons, List.mem_append, List.mem_map, List.append_assoc, List.not_mem_nil, or_false] at hq
          rcases hq with rfl | hq | ⟨q', hq, rfl⟩ | ⟨q', hq, rfl⟩ | hq | rfl
          · simp at hp
          · exact h1' q (by simp [hq]) p hp
          · exact h1 q' (by simp [hq]) (List.cons_prefix_cons.1 hp).2
          · exact h1 q' (by simp [hq]) (List.cons_prefix_cons.1 hp).2
          · exact h1' q (by simp [hq]) p hp
          · simp at hp
        · intro hn
          rw [h2 hn]
          rfl
        · intro hn
          obtain ⟨m', rfl, hm⟩ := h3 hn
          refine ⟨m'.map (i :: ·), by simp, fun q hq => ?_⟩
          obtain ⟨q', hq', rfl⟩ := List.mem_map.1 hq
          exact ⟨List.cons_prefix_cons.2 ⟨rfl, (hm q' hq').1⟩, by simpa using (hm q' hq').2⟩

example : treepositions .bothorder (.node () [.leaf 0, .node () [.leaf 1]]) = [[], [0], [1], [1, 0], [1], []] ∧
    get (.node () [.leaf 0, .node () [.leaf 1]]) [1] = some (.node () [.leaf 1]) := by
  constructor <;> simp [treepositions, treepositionsL, get]

theorem get_leavesL (cs : List (PTree L)) (f : List Nat → Option (PTree L)) (k : Nat)
    (h : ∀ c ∈ cs, (treepositions .leaves c).map (get c) = c.leaves.map (fun i => some (.leaf i)))
    (hf : ∀ i c, cs[i]? = some c → ∀ p, f ((k + i) :: p) = get c p) :
    (treepositionsL .leaves k cs).map f = (leavesL cs).map (fun i => some (.leaf i)) := by
  induction cs generalizing k with
  | nil => simp [treepositionsL]
  | cons c cs ih =>
    rw [treepositionsL, List.map_append, leavesL_cons, List.map_append]
    congr 1
    · rw [← h c (by simp), List.map_map]
      apply List.map_congr_left
      intro p _
      have := hf 0 c (by simp) p
      simpa using this
    · apply ih (k + 1) (fun d hd => h d (by simp [hd]))
      intro i d hd p
      have := hf (i + 1) d (by simpa using hd) p
      rw [← this]; congr 2; omega

/-- **C38.** `treepositions('leaves')` lists the positions of the terminals from left to right. -/
theorem C38_treepositions_leaves (t : PTree L) :
    (treepositions .leaves t).map (get t) = t.leaves.map (fun i => some (.leaf i)) := by
  induction t using PTree.ind with
  | hleaf i => simp [treepositions, get]
  | hnode l cs ih =>
    have e : treepositions .leaves (.node l cs) = treepositionsL .leaves 0 cs := by simp [treepositions]
    rw [e, leaves_node]
    apply get_leavesL cs _ 0 ih
    intro i c hc p
    simp [get, hc]

/-! ### leaf_treeposition -/

theorem leafPosLoop_spec : ∀ n (stack : List (PTree L × List Nat)), stackSize stack = n → ∀ index,
    leafPosLoop index stack = (stack.flatMap (fun p => (treepositions .leaves p.1).map (p.2 ++ ·)))[index]? := by
  intro n
  induction n using Nat.strongRecOn with
  | ind n ih =>
    intro stack hn index
    match stack with
    | [] => simp [leafPosLoop]
    | (.leaf i, p) :: stack =>
      have hlt : stackSize stack < n := by simp [stackSize, size] at hn ⊢; omega
      rw [leafPosLoop, List.flatMap_cons]
      simp only [treepositions, List.map_cons, List.map_nil, List.append_nil, List.singleton_append]
      cases index with
      | zero => simp
      | succ k => rw [if_neg (by omega), Nat.add_sub_cancel, ih _ hlt _ rfl]; simp
    | (.node l cs, p) :: stack =>
      have hlt : stackSize (push p 0 cs ++ stack) < n := by
        rw [stackSize_push]; simp [stackSize, size] at hn ⊢; omega
      rw [leafPosLoop, ih _ hlt _ rfl, List.flatMap_append, List.flatMap_cons]
      congr 2
      have e : treepositions .leaves (.node l cs) = treepositionsL .leaves 0 cs := by simp [treepositions]
      simp only [e]
      generalize 0 = k
      clear ih hn hlt e
      induction cs generalizing k with
      | nil => simp [push, treepositionsL]
      | cons c cs ih2 =>
        rw [push, List.flatMap_cons, treepositionsL, List.map_append, ih2]
        simp [Function.comp_def]

theorem leafTreeposition_eq (t : PTree L) (k : Nat) : leafTreeposition t k = (treepositions .leaves t)[k]? := by
  rw [leafTreeposition, if_neg (by omega), leafPosLoop_spec _ _ rfl]
  simp

/-- **C38.** `tree[tree.leaf_treeposition(k)] == tree.leaves()[k]` for every `k` that is the index of a leaf; for any other
integer (also negative) `IndexError` is raised. -/
theorem C38_leaf_treeposition (t : PTree L) (k : Int) :
    match leafTreeposition t k with
    | some p => 0 ≤ k ∧ ∃ i, t.leaves[k.toNat]? = some i ∧ get t p = some (.leaf i)
    | none => k < 0 ∨ (t.leaves.length : Int) ≤ k := by
  have hlen : (treepositions .leaves t).length = t.leaves.length := by
    have := congrArg List.length (C38_treepositions_leaves t)
    simpa using this
  by_cases hk : k < 0
  · have : leafTreeposition t k = none := by rw [leafTreeposition, if_pos hk]
    rw [this]; exact Or.inl hk
  · obtain ⟨n, rfl⟩ := Int.eq_ofNat_of_zero_le (Int.not_lt.1 hk)
    rw [leafTreeposition_eq]
    by_cases hn : n < t.leaves.length
    · have hn' : n < (treepositions .leaves t).length := by omega
      rw [List.getElem?_eq_getElem hn']
      refine ⟨by omega, t.leaves[n], by simp [hn], ?_⟩
      have := congrArg (·[n]?) (C38_treepositions_leaves t)
      simpa [hn, hn'] using this
    · rw [List.getElem?_eq_none (by omega)]
      right; omega

/-! ### treeposition_spanning_leaves -/

theorem commonPrefix_prefix (a b : List Nat) : commonPrefix a b <+: a ∧ commonPrefix a b <+: b := by
  induction a generalizing b with
  | nil => simp [commonPrefix]
  | cons x a ih =>
    cases b with
    | nil => simp [commonPrefix]
    | cons y b =>
      rw [commonPrefix]
      split
      · simp
      · rename_i h
        simp at h; subst h
        exact ⟨List.cons_prefix_cons.2 ⟨rfl, (ih b).1⟩, List.cons_prefix_cons.2 ⟨rfl, (ih b).2⟩⟩

theorem commonPrefix_greatest (a b q : List Nat) (h1 : q <+: a) (h2 : q <+: b) : q <+: commonPrefix a b := by
  induction q generalizing a b with
  | nil => simp
  | cons x q ih =>
    cases a with
    | nil => simp at h1
    | cons y a =>
      cases b with
      | nil => simp at h2
      | cons z b =>
        obtain ⟨rfl, h1'⟩ := List.cons_prefix_cons.1 h1
        obtain ⟨rfl, h2'⟩ := List.cons_prefix_cons.1 h2
        rw [commonPrefix, if_neg (by simp)]
        exact List.cons_prefix_cons.2 ⟨rfl, ih a b h1' h2'⟩

theorem prefix_between (q a b c : List Nat) (h1 : q <+: a) (h2 : q <+: c) (hab : a ≤ b) (hbc : b ≤ c) : q <+: b := by
  induction q generalizing a b c with
  | nil => simp
  | cons x q ih =>
    cases a with
    | nil => simp at h1
    | cons y a =>
      cases c with
      | nil => simp at h2
      | cons z c =>
        obtain ⟨rfl, h1'⟩ := List.cons_prefix_cons.1 h1
        obtain ⟨rfl, h2'⟩ := List.cons_prefix_cons.1 h2
        cases b with
        | nil => exact absurd hab (by simp [List.le_nil])
        | cons w b =>
          rw [List.cons_le_cons_iff] at hab hbc
          have : w = x := by omega
          subst this
          simp at hab hbc
          exact List.cons_prefix_cons.2 ⟨rfl, ih a b c h1' h2' hab hbc⟩

/-- **C38.** `treeposition_spanning_leaves(start, end)` returns the position of the lowest node dominating the leaves
`start..end-1`: a common prefix of the positions of all those leaves, and the longest one. -/
theorem C38_spanning_leaves (t : PTree L) (start stop : Nat) (h1 : start < stop) (h2 : stop ≤ t.leaves.length) :
    ∃ p, spanningLeaves t start stop = some p ∧
      (∀ k, start ≤ k → k < stop → ∃ q, leafTreeposition t k = some q ∧ p <+: q) ∧
      ∀ p', (∀ k, start ≤ k → k < stop → ∃ q, leafTreeposition t k = some q ∧ p' <+: q) → p' <+: p := by
  have hlen : (treepositions .leaves t).length = t.leaves.length := by
    have := congrArg List.length (C38_treepositions_leaves t)
    simpa using this
  have hget : ∀ (k : Nat) (hk : k < t.leaves.length), leafTreeposition t (k : Int) = some ((treepositions .leaves t)[k]'(by omega)) := by
    intro k hk
    rw [leafTreeposition_eq, List.getElem?_eq_getElem (by omega)]
  have hs : leafTreeposition t (start : Int) = some ((treepositions .leaves t)[start]'(by omega)) := hget start (by omega)
  have he : leafTreeposition t ((stop : Int) - 1) = some ((treepositions .leaves t)[stop - 1]'(by omega)) := by
    rw [show (stop : Int) - 1 = ((stop - 1 : Nat) : Int) by omega]
    exact hget (stop - 1) (by omega)
  have hsorted := treepositions_sorted .leaves (Or.inr rfl) t
  have hle : ∀ (i j : Nat) (hi : i ≤ j) (hj : j < (treepositions .leaves t).length),
      (treepositions .leaves t)[i]'(by omega) ≤ (treepositions .leaves t)[j] := by
    intro i j hi hj
    rcases Nat.lt_or_eq_of_le hi with hlt | rfl
    · exact List.le_of_lt (List.pairwise_iff_getElem.1 hsorted i j (by omega) hj hlt)
    · exact List.le_refl _
  refine ⟨commonPrefix ((treepositions .leaves t)[start]'(by omega)) ((treepositions .leaves t)[stop - 1]'(by omega)), ?_, ?_, ?_⟩
  · have : ¬ ((stop : Int) ≤ start) := by omega
    simp only [spanningLeaves, if_neg this, hs, he]
    rfl
  · intro k hk1 hk2
    refine ⟨_, hget k (by omega), ?_⟩
    have hp := commonPrefix_prefix ((treepositions .leaves t)[start]'(by omega)) ((treepositions .leaves t)[stop - 1]'(by omega))
    exact prefix_between _ _ _ _ hp.1 hp.2 (hle start k hk1 (by omega)) (hle k (stop - 1) (by omega) (by omega))
  · intro p' hp'
    obtain ⟨q1, hq1, hp1⟩ := hp' start (by omega) h1
    obtain ⟨q2, hq2, hp2⟩ := hp' (stop - 1) (by omega) (by omega)
    rw [hget start (by omega)] at hq1
    rw [hget (stop - 1) (by omega)] at hq2
    injection hq1 with hq1
    injection hq2 with hq2
    subst hq1; subst hq2
    exact commonPrefix_greatest _ _ _ hp1 hp2

/-- Hypotheses met by a non-trivial tree. -/
def exTree : PTree (Nat × Str) :=
  .node (0, ['S']) [.node (1, ['N']) [.leaf 0], .node (2, ['V','P']) [.node (3, ['V']) [.leaf 1], .node (4, ['P']) [.leaf 2]]]

example : Spec.UniqueIds exTree ∧ spanningLeaves exTree 1 3 = some [1] := by
  refine ⟨by simp [Spec.UniqueIds, exTree, label?], ?_⟩
  simp [spanningLeaves, leafTreeposition, exTree, leafPosLoop, push, commonPrefix]

end Disco.Traversal
