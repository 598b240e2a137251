import Verif.Basic.Dict
/-!
# Fragment extraction: models

`discodop/_fragments.pyx`. A tree is an array of `Node` structs, sorted by production number. Bitsets are represented by natural numbers and rows of the bit
matrix by functions (the operations on arrays of words are those of C10).
-/
namespace Disco.Frag

/-- `struct Node` (containers.pxd:657-660): `left ≥ 0` is the index of the first child, `left < 0` a terminal; `right ≥ 0` is the index of the second child. -/
structure Node where
  prod : Int
  left : Int
  right : Int
deriving DecidableEq, Repr

/-- `a[i]`; reading outside of the array is undefined in the code, here it gives a terminal with production `-1`. -/
def nd (a : List Node) (i : Nat) : Node := a[i]?.getD ⟨-1, -1, -1⟩

/-- `matrix`: row `j` has a bit for each node of the first tree. -/
abbrev Matrix := Nat → Nat → Bool

/-- `SETBIT(&matrix[j * SLOTS], i)` / `CLEARBIT` (macros.h). -/
def setM (M : Matrix) (j i : Nat) (b : Bool) : Matrix := fun j' i' => if j' = j ∧ i' = i then b else M j' i'

/-! ### fasttreekernel -/

/-- The innermost `while` of `fasttreekernel` (_fragments.pyx:264-268); the first argument bounds the number of iterations. -/
def kernelRow (a : List Node) (p : Int) (j : Nat) : Nat → Nat → Matrix → Matrix
  | 0, _, M => M
  | f + 1, ii, M =>
    if (nd a ii).prod = p then
      if a.length ≤ ii + 1 then setM M j ii true
      else kernelRow a p j f (ii + 1) (setM M j ii true)
    else M

/-- `while a[i].prod == b[j].prod` (_fragments.pyx:262-271); `none` for the index when the function returns. -/
def kernelSame (a b : List Node) (i : Nat) : Nat → Nat → Matrix → Option Nat × Matrix
  | 0, j, M => (some j, M)
  | f + 1, j, M =>
    if (nd a i).prod = (nd b j).prod then
      if b.length ≤ j + 1 then (none, kernelRow a (nd b j).prod j a.length i M)
      else kernelSame a b i f (j + 1) (kernelRow a (nd b j).prod j a.length i M)
    else (some j, M)

/-- `while True` (_fragments.pyx:252-271). -/
def kernelLoop (a b : List Node) : Nat → Nat → Nat → Matrix → Matrix
  | 0, _, _, M => M
  | f + 1, i, j, M =>
    if (nd a i).prod < (nd b j).prod then
      if a.length ≤ i + 1 then M else kernelLoop a b f (i + 1) j M
    else if (nd b j).prod < (nd a i).prod then
      if b.length ≤ j + 1 then M else kernelLoop a b f i (j + 1) M
    else match kernelSame a b i b.length j M with
      | (none, M') => M'
      | (some j', M') => kernelLoop a b f i j' M'

/-- `fasttreekernel` (_fragments.pyx:241-271) on a matrix of zeros (_fragments.pyx:201). -/
def fasttreekernel (a b : List Node) : Matrix := kernelLoop a b (a.length + b.length + 1) 0 0 fun _ _ => false

/-! ### extractbitsets -/

/-- `extractat` (_fragments.pyx:302-320): the number of terminals, the matrix and the bitset. -/
def extractat (a b : List Node) : Nat → Nat → Nat → Matrix → Nat → Nat × Matrix × Nat
  | 0, _, _, M, res => (0, M, res)
  | f + 1, i, j, M, res =>
    let res := res ||| 1 <<< i
    let M := setM M j i false
    if (nd a i).left < 0 then (1, M, res)
    else
      let r1 := if M (nd b j).left.toNat (nd a i).left.toNat then extractat a b f (nd a i).left.toNat (nd b j).left.toNat M res else (0, M, res)
      if (nd a i).right < 0 then (0, r1.2.1, r1.2.2)
      else
        let r2 := if r1.2.1 (nd b j).right.toNat (nd a i).right.toNat then
          extractat a b f (nd a i).right.toNat (nd b j).right.toNat r1.2.1 r1.2.2 else (0, r1.2.1, r1.2.2)
        (r1.1 + r2.1, r2.2.1, r2.2.2)

/-- A fragment: the bitset, with the index of its root and the number of the tree (`wrap`, `setrootid`, _fragments.pyx:67-103). -/
structure Fragment where
  bits : Nat
  root : Nat
  id : Nat
deriving DecidableEq, Repr

/-- `set.add`. -/
def addSet {α : Type} [DecidableEq α] (s : List α) (x : α) : List α := if x ∈ s then s else s ++ [x]

/-- The loop of `extractbitsets` over the bits of a row (_fragments.pyx:284-292). The bits are those of the row before the loop; the loop itself changes only the
current bit of this row. -/
def rowLoop (a b : List Node) (n minterms j : Nat) : List Nat → Matrix → List Fragment → Matrix × List Fragment
  | [], M, rs => (M, rs)
  | i :: is, M, rs =>
    let r := extractat a b a.length i j M 0
    rowLoop a b n minterms j is r.2.1 (if minterms ≤ r.1 then addSet rs ⟨r.2.2, i, n⟩ else rs)

/-- `extractbitsets` (_fragments.pyx:274-299). -/
def extractbitsets (a b : List Node) (n minterms : Nat) : Nat → Nat → Matrix → List Fragment → Matrix × List Fragment
  | 0, _, M, rs => (M, rs)
  | f + 1, j, M, rs =>
    let s := rowLoop a b n minterms j ((List.range a.length).filter (M j)) M rs
    if 0 ≤ (nd b j).left then
      let s := extractbitsets a b n minterms f (nd b j).left.toNat s.1 s.2
      if 0 ≤ (nd b j).right then extractbitsets a b n minterms f (nd b j).right.toNat s.1 s.2 else s
    else s

/-- `extractfrompair` (_fragments.pyx:193-211): `n` is the number of the first tree, `broot` the root of the second tree. -/
def extractfrompair (a b : List Node) (broot n minterms : Nat) (inter : List Fragment) : List Fragment :=
  (extractbitsets a b n minterms b.length broot (fasttreekernel a b) inter).2

/-! ### exactcounts -/

/-- `containsbitset` (_fragments.pyx:553-568). -/
def containsbitset (a b : List Node) (bits : Nat) : Nat → Nat → Nat → Bool
  | 0, _, _ => false
  | f + 1, i, j =>
    if (nd a i).prod ≠ (nd b j).prod then false
    else if (nd a i).left < 0 then true
    else if bits.testBit (nd a i).left.toNat && !containsbitset a b bits f (nd a i).left.toNat (nd b j).left.toNat then false
    else if (nd a i).right < 0 then true
    else if bits.testBit (nd a i).right.toNat then containsbitset a b bits f (nd a i).right.toNat (nd b j).right.toNat
    else true

/-- The loop over the nodes of a candidate (_fragments.pyx:395-406, and 487-512 without the limit): the nodes at which the fragment occurs. -/
def matchLoop (a b : List Node) (bits i : Nat) : List Nat → List Nat
  | [] => []
  | j :: js =>
    if (nd a i).prod = (nd b j).prod then
      if containsbitset a b bits a.length i j then j :: matchLoop a b bits i js else matchLoop a b bits i js
    else if (nd a i).prod < (nd b j).prod then []
    else matchLoop a b bits i js

/-- `getcandidates` (_fragments.pyx:517-550), without a MultiRoaringBitmap: the productions of the nodes in the bitset are looked up in the index, and
the sets of tree numbers are intersected. `none` when a production does not occur. Sets of tree numbers are sorted lists. -/
def getcandidates (a : List Node) (bits : Nat) (prodindex : List (Option (List Nat))) : Option (List Nat) :=
  let indices := ((List.range a.length).filter bits.testBit).map fun i => (nd a i).prod
  if indices.any fun p => decide ((prodindex.length : Int) ≤ p) then none
  else match indices.mapM (fun p => (prodindex[p.toNat]?).join) with
    | none => none
    | some [] => none
    | some (s :: ss) => some (s.filter fun m => ss.all fun s' => s'.contains m)

/-- `exactcounts` for one fragment, with `indices=2` (_fragments.pyx:377-407): the tree numbers and node numbers of all occurrences; with `indices=1` the
tree numbers, with `indices=0` their number. -/
def occurrences (a : List Node) (fr : Fragment) (trees2 : List (List Node)) (prodindex : List (Option (List Nat))) : List (Nat × Nat) :=
  match getcandidates a fr.bits prodindex with
  | none => []
  | some cs => cs.flatMap fun m => (matchLoop a (trees2[m]?.getD []) fr.bits fr.root (List.range (trees2[m]?.getD []).length)).map fun j => (m, j)

/-- `exactcounts` with `indices=0` (_fragments.pyx:323-407). -/
def exactcounts (fragments : List Fragment) (trees1 trees2 : List (List Node)) (prodindex : List (Option (List Nat))) : List Nat :=
  fragments.map fun fr => (occurrences (trees1[fr.id]?.getD []) fr trees2 prodindex).length

/-! ### allfragments -/

/-- An entry of the table of `traverse`: the bitset, with the depth and the number of frontier non-terminals in place of root and id. -/
structure Entry where
  bits : Nat
  depth : Nat
  frontiers : Nat
deriving DecidableEq, Repr

/-- `traverse` (_fragments.pyx:706-774), for the entries of the current node only: `left` and `right` are the entries of the children. -/
def combine (nodes : List Node) (i maxdepth maxfrontier : Nat) (left right : List Entry) : List Entry :=
  let fr := if (nd nodes i).left < 0 then 0 else if (nd nodes i).right < 0 then 1 else 2
  (if fr ≤ maxfrontier then [⟨1 <<< i, 1, fr⟩] else []) ++
  (if 0 ≤ (nd nodes i).left then
    (left.filter fun l => decide (l.depth + 1 ≤ maxdepth ∧ l.frontiers + 1 ≤ maxfrontier)).map (fun l => ⟨1 <<< i ||| l.bits, l.depth + 1, l.frontiers + 1⟩) ++
    (if 0 ≤ (nd nodes i).right then
      (right.filter fun r => decide (r.depth + 1 ≤ maxdepth ∧ r.frontiers + 1 ≤ maxfrontier)).map (fun r => ⟨1 <<< i ||| r.bits, r.depth + 1, r.frontiers + 1⟩) ++
      left.flatMap fun l => (right.filter fun r => decide (max l.depth r.depth + 1 ≤ maxdepth ∧ l.frontiers + r.frontiers ≤ maxfrontier)).map fun r =>
        ⟨1 <<< i ||| l.bits ||| r.bits, max l.depth r.depth + 1, l.frontiers + r.frontiers⟩
    else [])
  else [])

/-- `traverse` (_fragments.pyx:706-774): the entries of node `i`, and those of all nodes below it. -/
def traverse (nodes : List Node) (maxdepth maxfrontier : Nat) : Nat → Nat → List Entry × List (Nat × List Entry)
  | 0, _ => ([], [])
  | f + 1, i =>
    let l := if 0 ≤ (nd nodes i).left then traverse nodes maxdepth maxfrontier f (nd nodes i).left.toNat else ([], [])
    let r := if 0 ≤ (nd nodes i).left ∧ 0 ≤ (nd nodes i).right then traverse nodes maxdepth maxfrontier f (nd nodes i).right.toNat else ([], [])
    let es := combine nodes i maxdepth maxfrontier l.1 r.1
    (es, (i, es) :: l.2 ++ r.2)

/-- `allfragments` for one tree (_fragments.pyx:678-700): the set `inter`. The assertions on depth and frontiers are the second part of the result. -/
def allfragments1 (nodes : List Node) (root n maxdepth maxfrontier : Nat) : List Fragment × Bool :=
  let table := (traverse nodes maxdepth maxfrontier nodes.length root).2
  (table.foldl (fun s x => x.2.foldl (fun s e => addSet s ⟨e.bits, x.1, n⟩) s) [],
    table.all fun x => x.2.all fun e => decide (e.depth ≤ maxdepth ∧ e.frontiers ≤ maxfrontier))

/-! ### workload -/

/-- The loop of `workload` (fragments.py:399-404); numbers of comparisons are integers here (in the code, floats with integral values). -/
def workLoop (numtrees chunk : Int) : List Nat → Int → Int → Nat → List (Nat × Nat) → Nat × List (Nat × Nat)
  | [], _, _, last, result => (last, result)
  | n :: ns, togo, goal, last, result =>
    if togo - (numtrees - n) ≤ goal then workLoop numtrees chunk ns (togo - (numtrees - n)) (goal - chunk) n (result ++ [(last, n)])
    else workLoop numtrees chunk ns (togo - (numtrees - n)) goal last result

/-- `workload` (fragments.py:380-407). -/
def workload (numtrees mult numproc : Nat) : List (Nat × Nat) :=
  if numproc = 1 then [(0, numtrees)]
  else
    let total : Int := (numtrees * (numtrees - 1) / 2 : Nat)
    let chunk : Int := total / (mult * numproc : Nat) + 1
    let r := workLoop numtrees chunk ((List.range numtrees).drop 1) total (total - chunk) 0 []
    if r.1 < numtrees then r.2 ++ [(r.1, numtrees)] else r.2

end Disco.Frag
