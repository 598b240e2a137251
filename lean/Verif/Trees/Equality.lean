import Verif.Basic.Tree
import Verif.Bits.Runs
import Mathlib.Logic.Encodable.Basic
import Mathlib.Logic.Equiv.List

/-!
# Equality, hashing and immutability of trees (tree.py:116-147, 384-423, 573-653, 947-980)

`Tree.__eq__`, the four order comparisons, `ImmutableTree` with its three precomputed attributes,
`freeze`, and `DiscTree` (a frozen tree with its sentence).

The hash function of Python is a parameter (`Hasher`): nothing is assumed about it, except in the
theorems on absence of false sharing, which say so (`NoCollisions`).
-/

namespace Disco.TreeEq
open Disco

/-! ## `Tree.__eq__` and the order comparisons -/

mutual
/-- `Tree.__eq__` (tree.py:117-121) on trees whose leaves are integers: equal labels and equal lists
of children; an integer is never equal to a tree (`int.__eq__` gives `NotImplemented`,
then `Tree.__eq__` returns False because the other is not a `Tree`). -/
def treeEq : PTree Str → PTree Str → Bool
  | .leaf i, .leaf j => i == j
  | .leaf _, .node _ _ => false
  | .node _ _, .leaf _ => false
  | .node l cs, .node l' cs' => l == l' && treeEqL cs cs'
/-- `list.__eq__` on lists of children. -/
def treeEqL : List (PTree Str) → List (PTree Str) → Bool
  | [], [] => true
  | [], _ :: _ => false
  | _ :: _, [] => false
  | a :: as, b :: bs => treeEq a b && treeEqL as bs
end

/-- `Tree.__ne__` (tree.py:123-124). -/
def treeNe (a b : PTree Str) : Bool := !treeEq a b

/-- `str.__lt__`: lexicographic order of code points. -/
def strLt : Str → Str → Bool
  | _, [] => false
  | [], _ :: _ => true
  | a :: as, b :: bs => if a = b then strLt as bs else decide (a.toNat < b.toNat)

mutual
/-- `Tree.__lt__` (tree.py:126-130): `label < label or children < children`. For an integer and a
tree Python tries `int.__lt__`, gets `NotImplemented` and calls the reflected method
`Tree.__gt__(int)`, which returns True; `Tree.__lt__(int)` returns False. -/
def treeLt : PTree Str → PTree Str → Bool
  | .leaf i, .leaf j => decide (i < j)
  | .leaf _, .node _ _ => true
  | .node _ _, .leaf _ => false
  | .node l cs, .node l' cs' => strLt l l' || treeLtL cs cs'
/-- `list.__lt__`: the first pair of unequal items decides, otherwise the lengths. -/
def treeLtL : List (PTree Str) → List (PTree Str) → Bool
  | _, [] => false
  | [], _ :: _ => true
  | a :: as, b :: bs => if treeEq a b then treeLtL as bs else treeLt a b
end

mutual
/-- `Tree.__gt__` (tree.py:138-142); an integer compared with a tree calls the reflected
`Tree.__lt__(int)`, which returns False. -/
def treeGt : PTree Str → PTree Str → Bool
  | .leaf i, .leaf j => decide (j < i)
  | .leaf _, .node _ _ => false
  | .node _ _, .leaf _ => true
  | .node l cs, .node l' cs' => strLt l' l || treeGtL cs cs'
/-- `list.__gt__`. -/
def treeGtL : List (PTree Str) → List (PTree Str) → Bool
  | [], _ => false
  | _ :: _, [] => true
  | a :: as, b :: bs => if treeEq a b then treeGtL as bs else treeGt a b
end

mutual
/-- `Tree.__le__` (tree.py:132-136); an integer compared with a tree calls the reflected
`Tree.__ge__(int)`, which returns False, as does `Tree.__le__(int)`. -/
def treeLe : PTree Str → PTree Str → Bool
  | .leaf i, .leaf j => decide (i ≤ j)
  | .leaf _, .node _ _ => false
  | .node _ _, .leaf _ => false
  | .node l cs, .node l' cs' => !strLt l' l || treeLeL cs cs'
/-- `list.__le__`. -/
def treeLeL : List (PTree Str) → List (PTree Str) → Bool
  | [], _ => true
  | _ :: _, [] => false
  | a :: as, b :: bs => if treeEq a b then treeLeL as bs else treeLe a b
end

/-! ## `ImmutableTree` -/

/-- The hash function of the Python runtime: of strings, of `None`, of integers, and of a tuple given
the hashes of its items. Arbitrary. -/
structure Hasher where
  str : Str → Nat
  none : Nat
  int : Nat → Nat
  tuple : List Nat → Nat

/-- An `ImmutableTree` object (tree.py:573-611): label, children, and the attributes `_hash`,
`_leaves` and `bitset` computed when it was made. Leaves are integers. -/
inductive ITree where
  | leaf (i : Nat)
  | node (label : Str) (children : List ITree) (hash : Nat) (leaves : List Nat) (bitset : Nat)

/-- `hash(child)`: of an integer, or `ImmutableTree.__hash__` (tree.py:650-651), which returns the
stored value. -/
def ITree.hashOf (h : Hasher) : ITree → Nat
  | .leaf i => h.int i
  | .node _ _ hv _ _ => hv

/-- What a child contributes in `_addleaves` (tree.py:599-609): itself, or its stored `_leaves`. -/
def ITree.leavesOf : ITree → List Nat
  | .leaf i => [i]
  | .node _ _ _ lv _ => lv

/-- The attribute `bitset` (tree.py:594); a leaf has none, the value 0 is a dummy. -/
def ITree.bitsetOf : ITree → Nat
  | .leaf _ => 0
  | .node _ _ _ _ b => b

/-- `ImmutableTree.__init__` (tree.py:587-597) for children that are integers or immutable trees:
`hash((label, tuple(self)))`, then the leaves, then `sum(1 << n for n in leaves)`. -/
def mkImm (h : Hasher) (label : Str) (cs : List ITree) : ITree :=
  .node label cs (h.tuple [h.str label, h.tuple (cs.map (ITree.hashOf h))])
    (cs.flatMap ITree.leavesOf) (((cs.flatMap ITree.leavesOf).map (fun n => 1 <<< n)).sum)

mutual
/-- `Tree.freeze()` = `ImmutableTree.convert(tree)` (tree.py:386-400, 412-417) for a mutable tree:
the children are converted first, then the constructor is called. -/
def freeze (h : Hasher) : PTree Str → ITree
  | .leaf i => .leaf i
  | .node l cs => mkImm h l (freezeL h cs)
/-- The list comprehension over the children (tree.py:392). -/
def freezeL (h : Hasher) : List (PTree Str) → List ITree
  | [] => []
  | c :: cs => freeze h c :: freezeL h cs
end

mutual
/-- `Tree.__eq__` (tree.py:117-121), inherited by `ImmutableTree`: only label and children. -/
def immEq : ITree → ITree → Bool
  | .leaf i, .leaf j => i == j
  | .leaf _, .node _ _ _ _ _ => false
  | .node _ _ _ _ _, .leaf _ => false
  | .node l cs _ _ _, .node l' cs' _ _ _ => l == l' && immEqL cs cs'
/-- `list.__eq__` on the children. -/
def immEqL : List ITree → List ITree → Bool
  | [], [] => true
  | [], _ :: _ => false
  | _ :: _, [] => false
  | a :: as, b :: bs => immEq a b && immEqL as bs
end

mutual
/-- `Tree.convert(immutabletree)` (tree.py:386-400): back to a mutable tree. -/
def thaw : ITree → PTree Str
  | .leaf i => .leaf i
  | .node l cs _ _ _ => .node l (thawL cs)
/-- The list comprehension over the children. -/
def thawL : List ITree → List (PTree Str)
  | [] => []
  | c :: cs => thaw c :: thawL cs
end

/-- The calls that change a mutable `Tree` (tree.py:150-169, 209-231 and the in-place operators),
made on an immutable tree. -/
inductive Call where
  | setItem (index : List Int) (value : ITree)
  | delItem (index : List Int)
  | iadd (values : List ITree)
  | imul (n : Nat)
  | append (value : ITree)
  | extend (values : List ITree)
  | pop (index : Int)
  | remove (value : ITree)
  | insert (index : Int) (value : ITree)

/-- `list.insert(index, x)`: negative indices count from the end, out of range is clamped. -/
def listInsert (cs : List ITree) (index : Int) (x : ITree) : List ITree :=
  let n : Int := cs.length
  let i : Nat := (if index < 0 then max 0 (index + n) else min index n).toNat
  cs.take i ++ x :: cs.drop i

/-- Outcome of a call. -/
inductive Outcome where
  | returned
  | valueError
  | noNode
  deriving DecidableEq

mutual
/-- A call on the node at a path of child indices (`tree[path].call(…)`). `ImmutableTree` overrides
every mutator but one with a `ValueError` (tree.py:614-648); `insert` is inherited
from `Tree` (tree.py:158-160) and changes the list of children only. -/
def callAt (t : ITree) : List Nat → Call → Outcome × ITree
  | [], c =>
    match t with
    | .leaf i => (.noNode, .leaf i)
    | .node l cs hv lv b =>
      match c with
      | .insert idx x => (.returned, .node l (listInsert cs idx x) hv lv b)
      | _ => (.valueError, .node l cs hv lv b)
  | i :: p, c =>
    match t with
    | .leaf j => (.noNode, .leaf j)
    | .node l cs hv lv b =>
      let r := callAtL cs i p c
      (r.1, .node l r.2 hv lv b)
/-- The call on the `i`-th child. -/
def callAtL : List ITree → Nat → List Nat → Call → Outcome × List ITree
  | [], _, _, _ => (.noNode, [])
  | x :: xs, 0, p, c => let r := callAt x p c; (r.1, r.2 :: xs)
  | x :: xs, i + 1, p, c => let r := callAtL xs i p c; (r.1, x :: r.2)
end

/-- A history of calls on (nodes of) one tree. -/
def runCalls (t : ITree) : List (List Nat × Call) → List Outcome × ITree
  | [] => ([], t)
  | (p, c) :: rest =>
    let r := callAt t p c
    let q := runCalls r.2 rest
    (r.1 :: q.1, q.2)

/-! ## `DiscTree` -/

mutual
/-- `DiscTree.__eq__` (tree.py:958-974) for two trees with their sentences (as lookup functions
from leaf index to token, `None` for a frontier; the leaves are assumed to be in range). The
comparison of the first pair of terminals is *returned*. -/
def discEq (s s' : Nat → Option Str) : PTree Str → PTree Str → Bool
  | .node l cs, .node l' cs' =>
    if l = l' ∧ cs.length = cs'.length then discEqL s s' cs cs' else false
  | _, _ => false
/-- The loop over the pairs of children (tree.py:966-974). -/
def discEqL (s s' : Nat → Option Str) : List (PTree Str) → List (PTree Str) → Bool
  | [], _ => true
  | _ :: _, [] => true
  | .leaf a :: _, .leaf b :: _ => s a == s' b
  | .leaf _ :: _, .node _ _ :: _ => false
  | .node _ _ :: _, .leaf _ :: _ => false
  | .node l xs :: as, .node l' ys :: bs =>
    if discEq s s' (.node l xs) (.node l' ys) then discEqL s s' as bs else false
end

/-- Hash of a token (`None` or a string). -/
def Hasher.word (h : Hasher) : Option Str → Nat
  | .none => h.none
  | some w => h.str w

mutual
/-- `DiscTree.__hash__` (tree.py:976-979): the tuple of the label, and for each child its hash (an
integer, hashed as itself) or its token. A bare terminal is not a `DiscTree`: the first case is the item
it contributes to the tuple of its parent. -/
def discHash (h : Hasher) (s : Nat → Option Str) : PTree Str → Nat
  | .leaf i => h.word (s i)
  | .node l cs => h.tuple (h.str l :: discHashL h s cs)
/-- The items of the children. -/
def discHashL (h : Hasher) (s : Nat → Option Str) : List (PTree Str) → List Nat
  | [] => []
  | c :: cs => discHash h s c :: discHashL h s cs
end

/-! ## Specification -/

namespace Spec

/-- A tree with tokens at its leaves. -/
inductive WTree where
  | word (w : Option Str)
  | node (label : Str) (children : List WTree)

mutual
/-- A tree with its sentence, tokens substituted for the indices. -/
def withWords (s : Nat → Option Str) : PTree Str → WTree
  | .leaf i => .word (s i)
  | .node l cs => .node l (withWordsL s cs)
/-- … for lists. -/
def withWordsL (s : Nat → Option Str) : List (PTree Str) → List WTree
  | [] => []
  | c :: cs => withWords s c :: withWordsL s cs
end

mutual
/-- In every node a terminal can only be the last child (so in particular trees in which each
terminal is the only child of its part-of-speech tag). -/
def termLast : PTree Str → Prop
  | .leaf _ => True
  | .node _ cs => termLastL cs
/-- … for lists of children. -/
def termLastL : List (PTree Str) → Prop
  | [] => True
  | .leaf _ :: rest => rest = []
  | .node _ xs :: rest => termLastL xs ∧ termLastL rest
end

/-- Different values have different hashes. -/
structure NoCollisions (h : Hasher) : Prop where
  str : ∀ a b, h.str a = h.str b → a = b
  int : ∀ a b, h.int a = h.int b → a = b
  tuple : ∀ a b, h.tuple a = h.tuple b → a = b
  str_none : ∀ a, h.str a ≠ h.none
  tuple_int : ∀ a b, h.tuple a ≠ h.int b
  tuple_str : ∀ a b, h.tuple a ≠ h.str b
  tuple_none : ∀ a, h.tuple a ≠ h.none

mutual
/-- Leaves of a tree from left to right. -/
def leaves : PTree Str → List Nat
  | .leaf i => [i]
  | .node _ cs => leavesL cs
/-- … of a list of trees. -/
def leavesL : List (PTree Str) → List Nat
  | [] => []
  | c :: cs => leaves c ++ leavesL cs
end

end Spec

open Spec

/-! ## Equality -/

mutual
theorem treeEq_iff : ∀ a b : PTree Str, treeEq a b = true ↔ a = b
  | .leaf i, .leaf j => by simp [treeEq]
  | .leaf i, .node l cs => by simp [treeEq]
  | .node l cs, .leaf j => by simp [treeEq]
  | .node l cs, .node l' cs' => by simp [treeEq, treeEqL_iff cs cs']
theorem treeEqL_iff : ∀ a b : List (PTree Str), treeEqL a b = true ↔ a = b
  | [], [] => by simp [treeEqL]
  | [], _ :: _ => by simp [treeEqL]
  | _ :: _, [] => by simp [treeEqL]
  | a :: as, b :: bs => by simp [treeEqL, treeEq_iff a b, treeEqL_iff as bs]
end

mutual
theorem immEq_thaw : ∀ a b : ITree, immEq a b = true ↔ thaw a = thaw b
  | .leaf i, .leaf j => by simp [immEq, thaw]
  | .leaf i, .node l cs _ _ _ => by simp [immEq, thaw]
  | .node l cs _ _ _, .leaf j => by simp [immEq, thaw]
  | .node l cs _ _ _, .node l' cs' _ _ _ => by simp [immEq, thaw, immEqL_thaw cs cs']
theorem immEqL_thaw : ∀ a b : List ITree, immEqL a b = true ↔ thawL a = thawL b
  | [], [] => by simp [immEqL]
  | [], _ :: _ => by simp [immEqL, thawL]
  | _ :: _, [] => by simp [immEqL, thawL]
  | a :: as, b :: bs => by simp [immEqL, thawL, immEq_thaw a b, immEqL_thaw as bs]
end

mutual
theorem thaw_freeze (h : Hasher) : ∀ t : PTree Str, thaw (freeze h t) = t
  | .leaf i => by simp [freeze, thaw]
  | .node l cs => by simp [freeze, mkImm, thaw, thawL_freezeL h cs]
theorem thawL_freezeL (h : Hasher) : ∀ t : List (PTree Str), thawL (freezeL h t) = t
  | [] => by simp [freezeL, thawL]
  | c :: cs => by simp [freezeL, thawL, thaw_freeze h c, thawL_freezeL h cs]
end

/-- **C65** `==` on trees is structural equality, and `!=` its negation: the labels and the leaves
agree node by node (hence it is reflexive, symmetric and transitive). -/
theorem C65_eq_structural (a b : PTree Str) :
    (treeEq a b = true ↔ a = b) ∧ (treeNe a b = true ↔ a ≠ b) := by
  refine ⟨treeEq_iff a b, ?_⟩
  have h := treeEq_iff a b
  unfold treeNe
  cases hc : treeEq a b
  · simp; intro e; rw [h.mpr e] at hc; simp at hc
  · simp; exact h.mp hc

/-- **C65** Freezing: the frozen tree thaws to the same tree, two frozen trees are `==` exactly if
the trees were, and then their hashes are equal, whatever the hash function. -/
theorem C65_freeze (h : Hasher) (a b : PTree Str) :
    thaw (freeze h a) = a ∧
    (immEq (freeze h a) (freeze h b) = true ↔ a = b) ∧
    (immEq (freeze h a) (freeze h b) = true →
      (freeze h a).hashOf h = (freeze h b).hashOf h) := by
  refine ⟨thaw_freeze h a, ?_, ?_⟩
  · rw [immEq_thaw, thaw_freeze, thaw_freeze]
  · intro e
    rw [immEq_thaw, thaw_freeze, thaw_freeze] at e
    rw [e]

mutual
theorem freeze_hash_inj (h : Hasher) (hc : NoCollisions h) : ∀ a b : PTree Str,
    (freeze h a).hashOf h = (freeze h b).hashOf h → a = b
  | .leaf i, .leaf j, e => by
    simp only [freeze, ITree.hashOf] at e
    rw [hc.int _ _ e]
  | .leaf i, .node l cs, e => by
    simp only [freeze, mkImm, ITree.hashOf] at e
    exact absurd e.symm (hc.tuple_int _ _)
  | .node l cs, .leaf j, e => by
    simp only [freeze, mkImm, ITree.hashOf] at e
    exact absurd e (hc.tuple_int _ _)
  | .node l cs, .node l' cs', e => by
    simp only [freeze, mkImm, ITree.hashOf] at e
    have e2 := hc.tuple _ _ e
    simp only [List.cons.injEq, and_true] at e2
    rw [hc.str _ _ e2.1, freezeL_hash_inj h hc cs cs' (hc.tuple _ _ e2.2)]
theorem freezeL_hash_inj (h : Hasher) (hc : NoCollisions h) : ∀ a b : List (PTree Str),
    (freezeL h a).map (ITree.hashOf h) = (freezeL h b).map (ITree.hashOf h) → a = b
  | [], [], _ => rfl
  | [], _ :: _, e => by simp [freezeL] at e
  | _ :: _, [], e => by simp [freezeL] at e
  | a :: as, b :: bs, e => by
    simp only [freezeL, List.map_cons, List.cons.injEq] at e
    rw [freeze_hash_inj h hc a b e.1, freezeL_hash_inj h hc as bs e.2]
end

/-- **C65** If the hash function has no collisions, equal hashes of frozen trees mean equal trees:
nothing that `==` compares is left out of the hash. -/
theorem C65_hash_injective (h : Hasher) (hc : NoCollisions h) (a b : PTree Str)
    (e : (freeze h a).hashOf h = (freeze h b).hashOf h) : a = b :=
  freeze_hash_inj h hc a b e

mutual
theorem freeze_leaves (h : Hasher) : ∀ t : PTree Str, (freeze h t).leavesOf = leaves t
  | .leaf i => by simp [freeze, ITree.leavesOf, leaves]
  | .node l cs => by simp [freeze, mkImm, ITree.leavesOf, leaves, freezeL_leaves h cs]
theorem freezeL_leaves (h : Hasher) : ∀ t : List (PTree Str),
    (freezeL h t).flatMap ITree.leavesOf = leavesL t
  | [] => by simp [freezeL, leavesL]
  | c :: cs => by simp [freezeL, leavesL, freeze_leaves h c, freezeL_leaves h cs]
end

theorem sum_testBit : ∀ (xs : List Nat), xs.Nodup → ∀ i,
    ((xs.map (fun n => 1 <<< n)).sum).testBit i = decide (i ∈ xs)
  | [], _, i => by simp
  | x :: xs, hn, i => by
    have ih := sum_testBit xs (List.nodup_cons.mp hn).2
    have hx : x ∉ xs := (List.nodup_cons.mp hn).1
    have h0 : ((xs.map (fun n => 1 <<< n)).sum).testBit x = false := by
      rw [ih x]; simp [hx]
    rw [List.map_cons, List.sum_cons, Disco.Bits.testBit_add_disjoint x _ h0 i, ih i]
    by_cases hj : x = i
    · subst hj; simp
    · simp [Ne.symm hj]

/-- **C65** The precomputed attributes of a frozen tree: `leaves()` is the left-to-right list of
leaves, and, if no leaf occurs twice, bit `i` of `bitset` is set exactly if `i` is a leaf. -/
theorem C65_caches (h : Hasher) (l : Str) (cs : List (PTree Str)) :
    (freeze h (.node l cs)).leavesOf = leaves (.node l cs) ∧
    ((leaves (.node l cs)).Nodup → ∀ i,
      ((freeze h (.node l cs)).bitsetOf.testBit i = true ↔ i ∈ leaves (.node l cs))) := by
  refine ⟨freeze_leaves h _, ?_⟩
  intro hn i
  simp only [freeze, mkImm, ITree.bitsetOf]
  rw [freezeL_leaves]
  rw [show leaves (.node l cs) = leavesL cs from by simp [leaves]] at hn ⊢
  rw [sum_testBit _ hn]
  simp

/-! ## Immutability -/

/-- The call is `insert`. -/
def Call.isInsert : Call → Bool
  | .insert _ _ => true
  | _ => false

mutual
theorem callAt_same (c : Call) (hc : c.isInsert = false) : ∀ (t : ITree) (p : List Nat),
    (callAt t p c).2 = t ∧ (callAt t p c).1 ≠ .returned
  | .leaf i, [] => by simp [callAt]
  | .leaf i, _ :: _ => by simp [callAt]
  | .node l cs hv lv b, [] => by
    cases c <;> simp_all [callAt, Call.isInsert]
  | .node l cs hv lv b, i :: p => by
    have := callAtL_same c hc cs i p
    simp [callAt, this.1, this.2]
theorem callAtL_same (c : Call) (hc : c.isInsert = false) :
    ∀ (ts : List ITree) (i : Nat) (p : List Nat),
    (callAtL ts i p c).2 = ts ∧ (callAtL ts i p c).1 ≠ .returned
  | [], i, p => by simp [callAtL]
  | x :: xs, 0, p => by
    have := callAt_same c hc x p
    simp [callAtL, this.1, this.2]
  | x :: xs, i + 1, p => by
    have := callAtL_same c hc xs i p
    simp [callAtL, this.1, this.2]
end

/-- **C65** Immutability: any history of mutating calls other than `insert`, made on the tree or on
any of its nodes, leaves the tree (and so its hash, leaves and bitset) as it was, and no such call
returns normally. -/
theorem C65_immutable (t : ITree) (calls : List (List Nat × Call))
    (hc : ∀ x ∈ calls, x.2.isInsert = false) :
    (runCalls t calls).2 = t ∧ ∀ o ∈ (runCalls t calls).1, o ≠ .returned := by
  induction calls with
  | nil => simp [runCalls]
  | cons x rest ih =>
    obtain ⟨p, c⟩ := x
    have h1 := callAt_same c (hc (p, c) (by simp)) t p
    have h2 := ih (fun y hy => hc y (by simp [hy]))
    simp only [runCalls, h1.1]
    refine ⟨h2.1, ?_⟩
    intro o ho
    rcases List.mem_cons.mp ho with e | e
    · rw [e]; exact h1.2
    · exact h2.2 o e

/-! ## `DiscTree` -/

mutual
theorem discEq_of_words (s s' : Nat → Option Str) : ∀ (l : Str) (cs : List (PTree Str)) (l' : Str)
    (cs' : List (PTree Str)), withWordsL s cs = withWordsL s' cs' → l = l' →
    discEq s s' (.node l cs) (.node l' cs') = true
  | l, cs, l', cs', e, hl => by
    have hlen : cs.length = cs'.length := by
      have : ∀ (f : Nat → Option Str) (xs : List (PTree Str)), (withWordsL f xs).length = xs.length := by
        intro f xs
        induction xs with
        | nil => simp [withWordsL]
        | cons x xs ih => simp [withWordsL, ih]
      rw [← this s cs, ← this s' cs', e]
    simp only [discEq]
    rw [if_pos ⟨hl, hlen⟩]
    exact discEqL_of_words s s' cs cs' e
theorem discEqL_of_words (s s' : Nat → Option Str) : ∀ (cs cs' : List (PTree Str)),
    withWordsL s cs = withWordsL s' cs' → discEqL s s' cs cs' = true
  | [], cs', e => by simp [discEqL]
  | .leaf a :: as, [], e => by simp [discEqL]
  | .node l xs :: as, [], e => by simp [discEqL]
  | .leaf a :: as, .leaf b :: bs, e => by
    simp only [withWordsL, withWords, List.cons.injEq, WTree.word.injEq] at e
    simp [discEqL, e.1]
  | .leaf a :: as, .node l ys :: bs, e => by simp [withWordsL, withWords] at e
  | .node l xs :: as, .leaf b :: bs, e => by simp [withWordsL, withWords] at e
  | .node l xs :: as, .node l' ys :: bs, e => by
    simp only [withWordsL, withWords, List.cons.injEq, WTree.node.injEq] at e
    simp only [discEqL]
    rw [if_pos (discEq_of_words s s' l xs l' ys e.1.2 e.1.1)]
    exact discEqL_of_words s s' as bs e.2
end

mutual
theorem words_of_discEq (s s' : Nat → Option Str) : ∀ (a b : PTree Str),
    termLast a → discEq s s' a b = true → withWords s a = withWords s' b
  | .leaf i, b, _, e => by cases b <;> simp [discEq] at e
  | .node l cs, .leaf j, _, e => by simp [discEq] at e
  | .node l cs, .node l' cs', ht, e => by
    simp only [discEq] at e
    split at e
    · next hl =>
      simp only [withWords]
      rw [hl.1, words_of_discEqL s s' cs cs' hl.2 (by simpa [termLast] using ht) e]
    · simp at e
theorem words_of_discEqL (s s' : Nat → Option Str) : ∀ (cs cs' : List (PTree Str)),
    cs.length = cs'.length → termLastL cs → discEqL s s' cs cs' = true →
    withWordsL s cs = withWordsL s' cs'
  | [], [], _, _, _ => by simp [withWordsL]
  | [], _ :: _, h, _, _ => by simp at h
  | _ :: _, [], h, _, _ => by simp at h
  | .leaf a :: as, .leaf b :: bs, h, ht, e => by
    simp only [termLastL] at ht
    subst ht
    have : bs = [] := by
      cases bs with
      | nil => rfl
      | cons => simp at h
    subst this
    simp only [discEqL, beq_iff_eq] at e
    simp [withWordsL, withWords, e]
  | .leaf a :: as, .node l ys :: bs, _, _, e => by simp [discEqL] at e
  | .node l xs :: as, .leaf b :: bs, _, _, e => by simp [discEqL] at e
  | .node l xs :: as, .node l' ys :: bs, h, ht, e => by
    simp only [discEqL] at e
    split at e
    · next h2 =>
      simp only [termLastL] at ht
      have e1 := words_of_discEq s s' (.node l xs) (.node l' ys)
        (by simpa [termLast] using ht.1) h2
      simp only [withWordsL]
      rw [e1, words_of_discEqL s s' as bs (by simpa using h) ht.2 e]
    · simp at e
end

mutual
theorem discHash_words (h : Hasher) (s s' : Nat → Option Str) : ∀ (a b : PTree Str),
    withWords s a = withWords s' b → discHash h s a = discHash h s' b
  | .leaf i, .leaf j, e => by
    simp only [withWords, WTree.word.injEq] at e
    simp [discHash, e]
  | .leaf i, .node l cs, e => by simp [withWords] at e
  | .node l cs, .leaf j, e => by simp [withWords] at e
  | .node l cs, .node l' cs', e => by
    simp only [withWords, WTree.node.injEq] at e
    simp [discHash, e.1, discHashL_words h s s' cs cs' e.2]
theorem discHashL_words (h : Hasher) (s s' : Nat → Option Str) : ∀ (a b : List (PTree Str)),
    withWordsL s a = withWordsL s' b → discHashL h s a = discHashL h s' b
  | [], [], _ => rfl
  | [], _ :: _, e => by simp [withWordsL] at e
  | _ :: _, [], e => by simp [withWordsL] at e
  | a :: as, b :: bs, e => by
    simp only [withWordsL, List.cons.injEq] at e
    simp [discHashL, discHash_words h s s' a b e.1, discHashL_words h s s' as bs e.2]
end

theorem word_inj (h : Hasher) (hc : NoCollisions h) (a b : Option Str)
    (e : h.word a = h.word b) : a = b := by
  cases a <;> cases b <;> simp only [Hasher.word] at e
  · rfl
  · exact absurd e.symm (hc.str_none _)
  · exact absurd e (hc.str_none _)
  · rw [hc.str _ _ e]

theorem word_ne_tuple (h : Hasher) (hc : NoCollisions h) (a : Option Str) (b : List Nat) :
    h.word a ≠ h.tuple b := by
  intro e
  cases a <;> simp only [Hasher.word] at e
  · exact hc.tuple_none _ e.symm
  · exact hc.tuple_str _ _ e.symm

mutual
theorem words_of_discHash (h : Hasher) (hc : NoCollisions h) (s s' : Nat → Option Str) :
    ∀ (a b : PTree Str), discHash h s a = discHash h s' b → withWords s a = withWords s' b
  | .leaf i, .leaf j, e => by
    simp only [discHash] at e
    simp [withWords, word_inj h hc _ _ e]
  | .leaf i, .node l cs, e => by
    simp only [discHash] at e
    exact absurd e (word_ne_tuple h hc _ _)
  | .node l cs, .leaf j, e => by
    simp only [discHash] at e
    exact absurd e.symm (word_ne_tuple h hc _ _)
  | .node l cs, .node l' cs', e => by
    simp only [discHash] at e
    have e2 := hc.tuple _ _ e
    simp only [List.cons.injEq] at e2
    simp [withWords, hc.str _ _ e2.1, words_of_discHashL h hc s s' cs cs' e2.2]
theorem words_of_discHashL (h : Hasher) (hc : NoCollisions h) (s s' : Nat → Option Str) :
    ∀ (a b : List (PTree Str)), discHashL h s a = discHashL h s' b →
      withWordsL s a = withWordsL s' b
  | [], [], _ => rfl
  | [], _ :: _, e => by simp [discHashL] at e
  | _ :: _, [], e => by simp [discHashL] at e
  | a :: as, b :: bs, e => by
    simp only [discHashL, List.cons.injEq] at e
    simp [withWordsL, words_of_discHash h hc s s' a b e.1, words_of_discHashL h hc s s' as bs e.2]
end

/-- **C65** `DiscTree` equality, for trees in which a terminal is always the last child of its
node: `==` holds exactly if the trees are the same once the tokens are put at the leaves, and then
the hashes are equal, whatever the hash function. -/
theorem C65_disctree_eq (h : Hasher) (s s' : Nat → Option Str) (l l' : Str)
    (cs cs' : List (PTree Str)) (ht : termLast (.node l cs)) :
    (discEq s s' (.node l cs) (.node l' cs') = true ↔
      withWords s (.node l cs) = withWords s' (.node l' cs')) ∧
    (discEq s s' (.node l cs) (.node l' cs') = true →
      discHash h s (.node l cs) = discHash h s' (.node l' cs')) := by
  have key : discEq s s' (.node l cs) (.node l' cs') = true ↔
      withWords s (.node l cs) = withWords s' (.node l' cs') := by
    refine ⟨words_of_discEq s s' _ _ ht, ?_⟩
    intro e
    simp only [withWords, WTree.node.injEq] at e
    exact discEq_of_words s s' l cs l' cs' e.2 e.1
  exact ⟨key, fun e => discHash_words h s s' _ _ (key.mp e)⟩

/-- **C65** `DiscTree`s as dictionary keys: for *all* trees, if the hash function has no
collisions, two trees are the same key (equal hash and `==`) exactly if they are the same
with the tokens at the leaves. -/
theorem C65_disctree_key (h : Hasher) (hc : NoCollisions h) (s s' : Nat → Option Str) (l l' : Str)
    (cs cs' : List (PTree Str)) :
    (discHash h s (.node l cs) = discHash h s' (.node l' cs') ∧
      discEq s s' (.node l cs) (.node l' cs') = true) ↔
    withWords s (.node l cs) = withWords s' (.node l' cs') := by
  constructor
  · intro e; exact words_of_discHash h hc s s' _ _ e.1
  · intro e
    refine ⟨discHash_words h s s' _ _ e, ?_⟩
    simp only [withWords, WTree.node.injEq] at e
    exact discEq_of_words s s' l cs l' cs' e.2 e.1

/-! ## The order comparisons -/

theorem strLt_irrefl : ∀ a, strLt a a = false
  | [] => rfl
  | a :: as => by simp [strLt, strLt_irrefl as]

theorem strLt_total : ∀ a b, a ≠ b → strLt a b = true ∨ strLt b a = true
  | [], [], h => absurd rfl h
  | [], _ :: _, _ => by simp [strLt]
  | _ :: _, [], _ => by simp [strLt]
  | a :: as, b :: bs, h => by
    by_cases e : a = b
    · subst e
      simp only [strLt, if_true]
      exact strLt_total as bs (fun e => h (by rw [e]))
    · simp only [strLt, if_neg e, if_neg (Ne.symm e), decide_eq_true_eq]
      have : a.toNat ≠ b.toNat := fun e2 => e (Char.toNat_inj.mp e2)
      omega

mutual
theorem treeLt_irrefl : ∀ a : PTree Str, treeLt a a = false
  | .leaf i => by simp [treeLt]
  | .node l cs => by simp [treeLt, strLt_irrefl, treeLtL_irrefl cs]
theorem treeLtL_irrefl : ∀ a : List (PTree Str), treeLtL a a = false
  | [] => by simp [treeLtL]
  | a :: as => by
    simp [treeLtL, (treeEq_iff a a).mpr rfl, treeLtL_irrefl as]
end

mutual
theorem treeLt_total : ∀ a b : PTree Str, a ≠ b → treeLt a b = true ∨ treeLt b a = true
  | .leaf i, .leaf j, h => by
    have : i ≠ j := fun e => h (by rw [e])
    simp only [treeLt, decide_eq_true_eq]; omega
  | .leaf i, .node l cs, _ => by simp [treeLt]
  | .node l cs, .leaf j, _ => by simp [treeLt]
  | .node l cs, .node l' cs', h => by
    by_cases hl : l = l'
    · subst hl
      have := treeLtL_total cs cs' (fun e => h (by rw [e]))
      rcases this with e | e
      · left; simp [treeLt, e]
      · right; simp [treeLt, e]
    · rcases strLt_total l l' hl with e | e
      · left; simp [treeLt, e]
      · right; simp [treeLt, e]
theorem treeLtL_total : ∀ a b : List (PTree Str), a ≠ b → treeLtL a b = true ∨ treeLtL b a = true
  | [], [], h => absurd rfl h
  | [], _ :: _, _ => by simp [treeLtL]
  | _ :: _, [], _ => by simp [treeLtL]
  | a :: as, b :: bs, h => by
    by_cases e : a = b
    · subst e
      simp only [treeLtL, (treeEq_iff a a).mpr rfl, if_true]
      exact treeLtL_total as bs (fun e => h (by rw [e]))
    · have h1 : treeEq a b = false := by
        cases hc : treeEq a b
        · rfl
        · exact absurd ((treeEq_iff a b).mp hc) e
      have h2 : treeEq b a = false := by
        cases hc : treeEq b a
        · rfl
        · exact absurd ((treeEq_iff b a).mp hc).symm e
      simp only [treeLtL, h1, h2]
      exact treeLt_total a b e
end

theorem treeEq_comm (a b : PTree Str) : treeEq a b = treeEq b a := by
  have h1 := treeEq_iff a b
  have h2 := treeEq_iff b a
  cases x : treeEq a b <;> cases y : treeEq b a <;> simp_all

mutual
theorem treeGt_eq : ∀ a b : PTree Str, treeGt a b = treeLt b a
  | .leaf i, .leaf j => by simp [treeGt, treeLt]
  | .leaf i, .node l cs => by simp [treeGt, treeLt]
  | .node l cs, .leaf j => by simp [treeGt, treeLt]
  | .node l cs, .node l' cs' => by simp [treeGt, treeLt, treeGtL_eq cs cs']
theorem treeGtL_eq : ∀ a b : List (PTree Str), treeGtL a b = treeLtL b a
  | [], [] => by simp [treeGtL, treeLtL]
  | [], _ :: _ => by simp [treeGtL, treeLtL]
  | _ :: _, [] => by simp [treeGtL, treeLtL]
  | a :: as, b :: bs => by
    simp [treeGtL, treeLtL, treeEq_comm a b, treeGtL_eq as bs, treeGt_eq a b]
end

/-- **C65** What does hold of `<` and `>`: no tree is less than itself, of two different trees one
is less than the other, and `a > b` is `b < a`. -/
theorem C65_lt (a b : PTree Str) :
    treeLt a a = false ∧ (a ≠ b → treeLt a b = true ∨ treeLt b a = true) ∧
    treeGt a b = treeLt b a :=
  ⟨treeLt_irrefl a, treeLt_total a b, treeGt_eq a b⟩

/-! ## Non-vacuity and disagreements -/

/-- A hash function without collisions exists. -/
example : ∃ h : Hasher, NoCollisions h := by
  let e : (List Nat) ⊕ (List Nat) ⊕ Nat ⊕ Unit → Nat := Encodable.encode
  have he : Function.Injective e := Encodable.encode_injective
  refine ⟨⟨fun s => e (.inr (.inl (s.map Char.toNat))), e (.inr (.inr (.inr ()))),
    fun n => e (.inr (.inr (.inl n))), fun l => e (.inl l)⟩, ?_⟩
  constructor
  · intro a b h
    have := he h
    simp only [Sum.inr.injEq, Sum.inl.injEq] at this
    exact List.map_injective_iff.mpr (fun x y hxy => Char.toNat_inj.mp hxy) this
  · intro a b h; simpa using he h
  · intro a b h; simpa using he h
  · intro a h; simpa using he h
  · intro a b h; simpa using he h
  · intro a b h; simpa using he h
  · intro a h; simpa using he h

/-- A toy hash function for the examples. -/
def toyHash : Hasher where
  str s := s.foldl (fun a c => a * 131 + c.toNat) 7
  none := 1
  int n := n
  tuple l := l.foldl (fun a x => a * 1000003 + x + 1) 5

/-- `(S (NP 0 2) (VP 1))`. -/
def exTree : PTree Str :=
  .node ['S'] [.node ['N', 'P'] [.leaf 0, .leaf 2], .node ['V', 'P'] [.leaf 1]]

/-- The caches of a frozen discontinuous tree: leaves `[0, 2, 1]`, bitset `0b111`; the duplicate-free
hypothesis of `C65_caches` is met. -/
example : (freeze toyHash exTree).leavesOf = [0, 2, 1] ∧ (freeze toyHash exTree).bitsetOf = 7 ∧
    (leaves exTree).Nodup := by
  refine ⟨by decide +kernel, by decide +kernel, by simp [exTree, leaves, leavesL]⟩

/-- A history of `append`, `pop` on a child and `extend` on a frozen tree: three errors, nothing changed. -/
example : (runCalls (freeze toyHash exTree)
    [([], .append (.leaf 3)), ([0], .pop (-1)), ([5], .extend [])]).1 =
    [.valueError, .valueError, .noNode] := by
  decide +kernel

/-- `termLast` is met by a tree with part-of-speech tags and a frontier non-terminal. -/
example : termLast (.node ['S'] [.node ['D'] [.leaf 0], .node ['N', 'P'] [.node ['N'] [.leaf 1]]]) := by
  simp [termLast, termLastL]

/-- **C65, disagreement (immutability).** `insert` is not disabled: after inserting a child into a
frozen tree it is `==` to a freshly frozen tree of the same shape, but its hash, its leaves and its
bitset are those of the old one. -/
theorem C65_insert_changes_frozen :
    ∃ (h : Hasher) (t u : PTree Str) (x : ITree),
      let r := callAt (freeze h t) [] (.insert 1 x)
      r.1 = .returned ∧
      immEq r.2 (freeze h u) = true ∧ immEq r.2 (freeze h t) = false ∧
      r.2.hashOf h ≠ (freeze h u).hashOf h ∧
      r.2.leavesOf ≠ (freeze h u).leavesOf ∧
      r.2.bitsetOf ≠ (freeze h u).bitsetOf := by
  refine ⟨toyHash, .node ['S'] [.leaf 0], .node ['S'] [.leaf 0, .leaf 1], .leaf 1, ?_⟩
  decide +kernel

/-- **C65, disagreement (`DiscTree`).** `DiscTree.__eq__` returns at the first terminal it meets:
two trees over different words are `==` while their hashes differ, against the rule that equal
objects have equal hashes. -/
theorem C65_disctree_eq_ignores_words :
    ∃ (h : Hasher) (s s' : Nat → Option Str) (t : PTree Str),
      discEq s s' t t = true ∧ discHash h s t ≠ discHash h s' t := by
  refine ⟨toyHash, fun _ => some ['a'], fun i => if i = 0 then some ['a'] else some ['b'],
    .node ['X'] [.leaf 0, .leaf 1], ?_⟩
  decide +kernel

/-- **C65, disagreement (`<`).** `<` is not an order: two trees are each less than the other. -/
theorem C65_lt_not_asymmetric :
    ∃ a b : PTree Str, a ≠ b ∧ treeLt a b = true ∧ treeLt b a = true := by
  refine ⟨.node ['A'] [.leaf 1], .node ['B'] [.leaf 0], ?_⟩
  decide +kernel

/-- **C65, disagreement (`<`).** `<` is not transitive either. -/
theorem C65_lt_not_transitive :
    ∃ a b c : PTree Str, treeLt a b = true ∧ treeLt b c = true ∧ treeLt a c = false := by
  refine ⟨.node ['B'] [.leaf 1], .node ['C'] [.leaf 0], .node ['A'] [.leaf 1], ?_⟩
  decide +kernel

/-- **C65, disagreement (`<=`).** `<=` is neither implied by `<` nor antisymmetric: there are trees
with `a < b` and not `a <= b`, and different trees with `a <= b` and `b <= a`. -/
theorem C65_le_incoherent :
    (∃ a b : PTree Str, treeLt a b = true ∧ treeLe a b = false) ∧
    (∃ a b : PTree Str, a ≠ b ∧ treeLe a b = true ∧ treeLe b a = true) := by
  refine ⟨⟨.node ['B'] [.leaf 0], .node ['A'] [.node ['X'] [.leaf 0]], ?_⟩,
    ⟨.node ['A'] [.leaf 0], .node ['A'] [.leaf 1], ?_⟩⟩ <;> decide +kernel

end Disco.TreeEq
