import Verif.Frag.Treebank
import Verif.Frag.Vocab
import Verif.Basic.Sort
import Verif.Format.Bracket
/-!
# C54: trees as arrays of nodes (`Ctrees`, containers.pyx:312-650, `getctrees`, _fragments.pyx:1137-1185)
-/
namespace Disco.Frag
open Prods PTree

/-! ### Models -/

/-- A sorted list as a set of numbers: `RoaringBitmap.add`. -/
def bitmapAdd (s : List Nat) (n : Nat) : List Nat := if n ∈ s then s else insertSorted (fun x y => decide (x ≤ y)) n s

/-- `struct NodeArray` (containers.pxd). -/
structure NodeArray where
  offset : Nat
  len : Nat
  root : Nat
deriving DecidableEq, Repr

/-- A `Ctrees` object. `captrees` and `capnodes` are the sizes of the allocated arrays, which the code does not store; the arrays themselves have the elements in
use. Simplification: machine integers are unbounded, so that trees have no maximum size. -/
structure Ctrees where
  nodes : List Node
  trees : List NodeArray
  max : Nat
  nodesleft : Nat
  numwords : Nat
  maxnodes : Nat
  captrees : Nat
  capnodes : Nat
  prodindex : Option (List (Option (List Nat)))
deriving DecidableEq, Repr

/-- `Ctrees()` (containers.pyx:319-325). -/
def Ctrees.init : Ctrees := ⟨[], [], 0, 0, 0, 0, 0, 0, none⟩

/-- `Ctrees.alloc` (containers.pyx:327-335). -/
def Ctrees.alloc (c : Ctrees) (numtrees numnodes : Nat) : Ctrees :=
  { c with max := numtrees, captrees := numtrees, capnodes := numnodes, nodesleft := numnodes }

/-- The first half of `Ctrees.realloc` (containers.pyx:341-348). -/
def Ctrees.growTrees (c : Ctrees) (numtrees : Nat) : Ctrees :=
  if c.max < numtrees then
    let numtrees := numtrees + ((numtrees >>> 3) + (if numtrees < 9 then 3 else 6))
    { c with max := numtrees, captrees := numtrees }
  else c

/-- The second half of `Ctrees.realloc` (containers.pyx:349-358); `numnodes` is the length of the array of nodes in use. -/
def Ctrees.growNodes (c : Ctrees) (extranodes : Nat) : Ctrees :=
  if c.nodesleft < extranodes then
    let numnodes := c.nodes.length + extranodes
    let numnodes := numnodes + ((numnodes >>> 3) + (if numnodes < 9 then 3 else 6))
    { c with nodesleft := numnodes - c.nodes.length, capnodes := numnodes }
  else c

/-- `Ctrees.realloc` (containers.pyx:337-359). -/
def Ctrees.realloc (c : Ctrees) (numtrees extranodes : Nat) : Ctrees := (c.growTrees numtrees).growNodes extranodes

/-- One iteration of the loop that copies nodes (containers.pyx:377-384); `none` for a `KeyError`. -/
def translate (sortidx : Dict Nat Nat) (x : Node) : Option Node := do
  let left ← if 0 ≤ x.left then (Dict.get? sortidx x.left.toNat).map Int.ofNat else some x.left
  let right ← if 0 ≤ x.right then (Dict.get? sortidx x.right.toNat).map Int.ofNat else some x.right
  pure ⟨x.prod, left, right⟩

/-- `sorted(range(cnt), key=prodsintree.get)` (containers.pyx:372-374). -/
def sortOrder (source : List Node) : List Nat :=
  stableSort (fun x y => decide ((nd source x).prod ≤ (nd source y).prod)) (List.range source.length)

/-- The translated array of `addnodes` and the root (containers.pyx:372-386). Simplification: the elements of the destination are listed in order of their index,
which is the order in which the dictionary gives them. -/
def sortNodes (source : List Node) (root : Nat) : Option (List Node × Nat) := do
  let order := sortOrder source
  let sortidx : Dict Nat Nat := order.zipIdx
  let dest ← order.mapM fun n => translate sortidx (nd source n)
  let root ← Dict.get? sortidx root
  pure (dest, root)

/-- `Ctrees.addnodes` (containers.pyx:361-393); `none` for an exception, and when a write would be outside of the allocated arrays. -/
def Ctrees.addnodes (c : Ctrees) (source : List Node) (root : Nat) : Option Ctrees :=
  if c.max = 0 then none
  else
    let c := if c.max ≤ c.trees.length ∨ c.nodesleft < source.length then c.realloc (c.trees.length + 1) source.length else c
    (sortNodes source root).bind fun x =>
      if c.captrees < c.trees.length + 1 ∨ c.capnodes < c.nodes.length + source.length then none
      else some { c with
        nodes := c.nodes ++ x.1
        trees := c.trees ++ [⟨c.nodes.length, source.length, x.2⟩]
        nodesleft := c.nodesleft - source.length
        maxnodes := Nat.max c.maxnodes source.length
        numwords := c.numwords + (x.1.filter fun y => decide (y.left < 0)).length }

/-- The nodes of tree `n`: `&self.nodes[self.trees[n].offset]` with `self.trees[n].len` elements. -/
def Ctrees.nodesOf (c : Ctrees) (x : NodeArray) : List Node := (c.nodes.drop x.offset).take x.len

/-- The inner loop of `indextrees` (containers.pyx:409-415); `none` for an `IndexError`. -/
def indexTree (n : Nat) : List Node → List (Option (List Nat)) → Option (List (Option (List Nat)))
  | [], idx => some idx
  | x :: xs, idx =>
    if 0 ≤ x.prod then
      match idx[x.prod.toNat]? with
      | none => none
      | some rb => indexTree n xs (idx.set x.prod.toNat (some (bitmapAdd (rb.getD []) n)))
    else indexTree n xs idx

/-- The (re)allocation of `self.prodindex` at the start of `indextrees` (containers.pyx:400-405): a fresh list for a first call, otherwise an extension when the vocabulary grew. -/
def extendIndex (idx? : Option (List (Option (List Nat)))) (numprods : Nat) : List (Option (List Nat)) :=
  match idx? with
  | none => List.replicate numprods none
  | some idx => if idx.length ≠ numprods then idx ++ List.replicate (numprods - idx.length) none else idx

/-- `Ctrees.indextrees(vocab, start)` (containers.pyx:395-417), with `freeze=False`; `numprods` is `len(vocab.prods)`. -/
def Ctrees.indextrees (c : Ctrees) (numprods start : Nat) : Option Ctrees :=
  (((c.trees.zipIdx).drop start).foldlM (fun idx x => indexTree x.2 (c.nodesOf x.1) idx) (extendIndex c.prodindex numprods)).map
    fun idx => { c with prodindex := some idx }

/-- `copynodes` (containers.pyx:630-650 and _fragments.pyx:1113-1134): the array from index `n` on, for a node with index `n`; `none` for an exception. -/
def copynodes (prods : List Nat) : PTree Str → Nat → Option (List Node)
  | .leaf _, _ => none
  | .node _ [.leaf i], n => (prods[n]?).map fun p => [⟨p, -i - 1, -1⟩]
  | .node _ [.node l ds], n => (prods[n]?).bind fun p => (copynodes prods (.node l ds) (n + 1)).map fun xs => ⟨p, (n + 1 : Nat), -1⟩ :: xs
  | .node _ [.leaf i, .node m es], n => (prods[n]?).bind fun p => (copynodes prods (.node m es) (n + 1)).map fun xs => ⟨p, -i - 1, (n + 1 : Nat)⟩ :: xs
  | .node _ [.node l ds, .node m es], n => (prods[n]?).bind fun p => (copynodes prods (.node l ds) (n + 1)).bind fun xs =>
      (copynodes prods (.node m es) (n + 1 + xs.length)).map fun ys => ⟨p, (n + 1 : Nat), (n + 1 + xs.length : Nat)⟩ :: (xs ++ ys)
  | .node _ _, _ => none

/-- The production numbers of the nodes of a tree (containers.pyx:613-616, _fragments.pyx:1164-1173). -/
def getprods (v : Vocab.Vocabulary) : List Prods.Rule → Option (Vocab.Vocabulary × List Nat)
  | [] => some (v, [])
  | r :: rs => (Vocab.getprod v r).bind fun x => (getprods x.1 rs).map fun y => (y.1, x.2 :: y.2)

/-- One iteration of the loop over trees in `addtrees` and `getctrees` (containers.pyx:611-624, _fragments.pyx:1163-1181). -/
def Ctrees.addtree (c : Ctrees) (v : Vocab.Vocabulary) (item : PTree Str × List (Option Str)) : Option (Ctrees × Vocab.Vocabulary) := do
  let rules ← lcfrsproductions item.1 item.2 true
  let (v, prods) ← getprods v rules
  let source ← copynodes prods item.1 0
  let c ← c.addnodes source 0
  pure (c, v)

/-- The loop over trees. -/
def Ctrees.addloop (c : Ctrees) (v : Vocab.Vocabulary) : List (PTree Str × List (Option Str)) → Option (Ctrees × Vocab.Vocabulary)
  | [] => some (c, v)
  | item :: items => (c.addtree v item).bind fun x => Ctrees.addloop x.1 x.2 items

/-- `Ctrees.addtrees(items, vocab)` (containers.pyx:592-627). -/
def Ctrees.addtrees (c : Ctrees) (v : Vocab.Vocabulary) (items : List (PTree Str × List (Option Str))) : Option (Ctrees × Vocab.Vocabulary) :=
  ((c.realloc (c.trees.length + items.length) (items.length * 512)).addloop v items).bind fun x => (x.1.indextrees x.2.prods.length 0).map fun c => (c, x.2)

/-- `getctrees(items1, items2, vocab)` (_fragments.pyx:1137-1185): `trees1`, `trees2` and `vocab`. -/
def getctrees (v : Vocab.Vocabulary) (items1 : List (PTree Str × List (Option Str))) (items2 : Option (List (PTree Str × List (Option Str)))) :
    Option (Ctrees × Option Ctrees × Vocab.Vocabulary) := do
  let (c1, v1) ← (Ctrees.init.alloc 512 (512 * 512)).addloop v items1
  let c1 ← c1.indextrees v1.prods.length 0
  match items2 with
  | none => pure (c1, none, v1)
  | some items2 =>
    let (c2, v2) ← (Ctrees.init.alloc 512 (512 * 512)).addloop v1 items2
    let c2 ← c2.indextrees v2.prods.length 0
    pure (c1, some c2, v2)

/-- `while j >= 0` in `gettree` (containers.pyx:1070-1072). -/
def restIndices (a : List Node) : Nat → Int → Str
  | 0, _ => []
  | f + 1, j => if j < 0 then [] else ' ' :: (Nat.toDigits 10 (-(nd a j.toNat).left - 1).toNat ++ '=' :: restIndices a f (nd a j.toNat).right)

/-- `gettree` (containers.pyx:1050-1075) with `disc=True`; the first argument bounds the recursion. -/
def gettree (a : List Node) (v : Vocab.Vocabulary) : Nat → Nat → Str
  | 0, _ => []
  | f + 1, i =>
    '(' :: (Vocab.getlabel v (nd a i).prod ++ (' ' ::
      ((if 0 ≤ (nd a i).left then
          gettree a v f (nd a i).left.toNat ++ (if 0 ≤ (nd a i).right then ' ' :: gettree a v f (nd a i).right.toNat else [])
        else Nat.toDigits 10 (-(nd a i).left - 1).toNat ++ '=' :: ((Vocab.getword v (nd a i).prod).getD [] ++ restIndices a a.length (nd a i).right)) ++ [')'])))

/-- `Ctrees.extract(n, vocab)` (containers.pyx:419-429). -/
def Ctrees.extract (c : Ctrees) (v : Vocab.Vocabulary) (n : Nat) : Option Str :=
  (c.trees[n]?).map fun x => gettree (c.nodesOf x) v x.len x.root

/-- `Ctrees.extractsent(n, vocab)` (containers.pyx:431-439). -/
def Ctrees.extractsent (c : Ctrees) (v : Vocab.Vocabulary) (n : Nat) : Option (List (Option Str)) :=
  (c.trees[n]?).bind fun x =>
    let sent : Dict Nat (Option Str) :=
      ((c.nodesOf x).filter fun y => decide (y.left < 0)).foldl (fun d y => Dict.set d (-y.left - 1).toNat (Vocab.getword v y.prod)) []
    sent.keys.max?.map fun m => (List.range (m + 1)).map fun i => (Dict.get? sent i).join

/-- The arrays as seen by the functions of `_fragments.pyx`. -/
def Ctrees.bank (c : Ctrees) : Bank := c.trees.map fun x => (c.nodesOf x, x.root)

end Disco.Frag
