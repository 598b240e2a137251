/-!
# Shared tree datatype

Models the `Tree` class of `discodop/tree.py` (class Tree, lines 44-570): a node has a label and a
list of children, a child is either a tree or a terminal (an integer index).
The label type `L` is a parameter so that attributes such as `.type`, `.bitset` can be carried
alongside the label string.  `Tree.__eq__` (tree.py:116-120) compares labels and
children, i.e. it is the structural equality of this type.
-/

namespace Disco

/-- Python strings (labels, words) as lists of characters. -/
abbrev Str := List Char

/-- `discodop/tree.py` class Tree: label + children; terminals are integer indices. -/
inductive PTree (L : Type) where
  | leaf (i : Nat)
  | node (label : L) (children : List (PTree L))
  deriving Repr

namespace PTree

variable {L M : Type}

mutual
/-- Decidable structural equality (`Tree.__eq__`, tree.py:116-120). -/
def decEq [DecidableEq L] : (a b : PTree L) → Decidable (a = b)
  | .leaf i, .leaf j => if h : i = j then isTrue (by rw [h]) else isFalse (by simp [h])
  | .leaf _, .node _ _ => isFalse (by simp)
  | .node _ _, .leaf _ => isFalse (by simp)
  | .node l cs, .node l' cs' =>
    if h : l = l' then
      match decEqL cs cs' with
      | isTrue h2 => isTrue (by rw [h, h2])
      | isFalse h2 => isFalse (by simp [h2])
    else isFalse (by simp [h])
/-- Decidable equality on lists of children. -/
def decEqL [DecidableEq L] : (a b : List (PTree L)) → Decidable (a = b)
  | [], [] => isTrue rfl
  | [], _ :: _ => isFalse (by simp)
  | _ :: _, [] => isFalse (by simp)
  | c :: cs, d :: ds =>
    match decEq c d with
    | isTrue h => match decEqL cs ds with
      | isTrue h2 => isTrue (by rw [h, h2])
      | isFalse h2 => isFalse (by simp [h2])
    | isFalse h => isFalse (by simp [h])
end

instance [DecidableEq L] : DecidableEq (PTree L) := decEq

/-- Induction principle with hypotheses for all children. -/
theorem ind {P : PTree L → Prop} (hleaf : ∀ i, P (.leaf i))
    (hnode : ∀ l cs, (∀ c ∈ cs, P c) → P (.node l cs)) (t : PTree L) : P t :=
  PTree.rec (motive_1 := P) (motive_2 := fun cs => ∀ c ∈ cs, P c) hleaf
    (fun l cs ih => hnode l cs ih)
    (by simp)
    (fun c cs hc hcs => by
      intro x hx
      rcases List.mem_cons.1 hx with h | h
      · rw [h]; exact hc
      · exact hcs x h) t

/-- `isinstance(x, Tree)`. -/
def isNode : PTree L → Bool
  | .leaf _ => false
  | .node _ _ => true

/-- `node.children` / iteration over a node; empty for a terminal. -/
def children : PTree L → List (PTree L)
  | .leaf _ => []
  | .node _ cs => cs

/-- `node.label` (terminals have none). -/
def label? : PTree L → Option L
  | .leaf _ => none
  | .node l _ => some l

mutual
/-- `Tree.leaves` (tree.py): terminals in order. -/
def leaves : PTree L → List Nat
  | .leaf i => [i]
  | .node _ cs => leavesL cs
/-- Terminals of a list of children. -/
def leavesL : List (PTree L) → List Nat
  | [] => []
  | c :: cs => leaves c ++ leavesL cs
end

mutual
/-- `Tree.subtrees` (tree.py): all constituents (not terminals), in pre-order. -/
def subtrees : PTree L → List (PTree L)
  | .leaf _ => []
  | .node l cs => .node l cs :: subtreesL cs
/-- Pre-order constituents of a list of children. -/
def subtreesL : List (PTree L) → List (PTree L)
  | [] => []
  | c :: cs => subtrees c ++ subtreesL cs
end

mutual
/-- Apply a function to each label. -/
def mapLabel (f : L → M) : PTree L → PTree M
  | .leaf i => .leaf i
  | .node l cs => .node (f l) (mapLabelL f cs)
/-- `mapLabel` on lists. -/
def mapLabelL (f : L → M) : List (PTree L) → List (PTree M)
  | [] => []
  | c :: cs => mapLabel f c :: mapLabelL f cs
end

@[simp] theorem leaves_leaf (i : Nat) : leaves (.leaf i : PTree L) = [i] := by simp [leaves]
@[simp] theorem leaves_node (l : L) (cs) : leaves (.node l cs) = leavesL cs := by simp [leaves]
@[simp] theorem leavesL_nil : leavesL ([] : List (PTree L)) = [] := by simp [leavesL]
@[simp] theorem leavesL_cons (c : PTree L) (cs) : leavesL (c :: cs) = leaves c ++ leavesL cs := by
  simp [leavesL]
@[simp] theorem leavesL_append (xs ys : List (PTree L)) :
    leavesL (xs ++ ys) = leavesL xs ++ leavesL ys := by
  induction xs with
  | nil => simp
  | cons x xs ih => simp [ih]
theorem leavesL_eq_flatMap (cs : List (PTree L)) : leavesL cs = cs.flatMap leaves := by
  induction cs with
  | nil => simp
  | cons c cs ih => simp [ih]

@[simp] theorem subtrees_leaf (i : Nat) : subtrees (.leaf i : PTree L) = [] := by simp [subtrees]
@[simp] theorem subtrees_node (l : L) (cs) :
    subtrees (.node l cs) = .node l cs :: subtreesL cs := by simp [subtrees]
@[simp] theorem subtreesL_nil : subtreesL ([] : List (PTree L)) = [] := by simp [subtreesL]
@[simp] theorem subtreesL_cons (c : PTree L) (cs) :
    subtreesL (c :: cs) = subtrees c ++ subtreesL cs := by simp [subtreesL]
@[simp] theorem subtreesL_append (xs ys : List (PTree L)) :
    subtreesL (xs ++ ys) = subtreesL xs ++ subtreesL ys := by
  induction xs with
  | nil => simp
  | cons x xs ih => simp [ih]
theorem subtreesL_eq_flatMap (cs : List (PTree L)) : subtreesL cs = cs.flatMap subtrees := by
  induction cs with
  | nil => simp
  | cons c cs ih => simp [ih]

theorem mem_subtreesL {x : PTree L} {cs : List (PTree L)} :
    x ∈ subtreesL cs ↔ ∃ c ∈ cs, x ∈ subtrees c := by
  simp [subtreesL_eq_flatMap]

theorem mem_leavesL {i : Nat} {cs : List (PTree L)} :
    i ∈ leavesL cs ↔ ∃ c ∈ cs, i ∈ leaves c := by
  simp [leavesL_eq_flatMap]

@[simp] theorem mapLabel_leaf (f : L → M) (i : Nat) : mapLabel f (.leaf i) = .leaf i := by
  simp [mapLabel]
@[simp] theorem mapLabel_node (f : L → M) (l : L) (cs) :
    mapLabel f (.node l cs) = .node (f l) (mapLabelL f cs) := by simp [mapLabel]
theorem mapLabelL_eq (f : L → M) (cs : List (PTree L)) : mapLabelL f cs = cs.map (mapLabel f) := by
  induction cs with
  | nil => simp [mapLabelL]
  | cons c cs ih => simp [mapLabelL, ih]

theorem mem_subtrees_self_isNode {x t : PTree L} (h : x ∈ subtrees t) : ∃ l cs, x = .node l cs := by
  induction t using PTree.ind with
  | hleaf i => simp at h
  | hnode l cs ih =>
    rw [subtrees_node, List.mem_cons] at h
    rcases h with h | h
    · exact ⟨l, cs, h⟩
    · obtain ⟨c, hc, hx⟩ := mem_subtreesL.1 h
      exact ih c hc hx

theorem subtrees_trans {x y t : PTree L} (hx : x ∈ subtrees y) (hy : y ∈ subtrees t) :
    x ∈ subtrees t := by
  induction t using PTree.ind with
  | hleaf i => simp at hy
  | hnode l cs ih =>
    rw [subtrees_node, List.mem_cons] at hy
    rcases hy with h | h
    · rw [← h]; exact hx
    · obtain ⟨c, hc, hyc⟩ := mem_subtreesL.1 h
      rw [subtrees_node]
      exact List.mem_cons_of_mem _ (mem_subtreesL.2 ⟨c, hc, ih c hc hyc⟩)

end PTree
end Disco
