import Verif.Basic.Tree
import Verif.Basic.Dict
import Verif.Basic.Sort
import Verif.Trees.Canonical
import Verif.Trees.RemoveTerminals
/-!
# C48: moving punctuation

`discodop/punctuation.py`. Nodes are identified by their position in the tree (`punctroot`, `punctlower`) or by their terminal (`punctraise`,
`balancedpunctraise`: the code keeps references to preterminals, and looks up their current parents). The label of a node may carry other
information; `tag` gives the label string.
-/
namespace Disco.Punct
open PTree

variable {L : Type}

/-- `PUNCTTAGS` (punctuation.py:7-11). -/
def PUNCTTAGS : List Str :=
  [".", ",", ":", "'", "''", "`", "``", "\"", "-LRB-", "-RRB-", "-LSB-", "-RSB-", "-LCB-", "-RCB-", "$,", "$.", "$[", "$(",
    "let", "LET[]", "SPEC[symb]", "TW[hoofd,vrij]", "PONCT", "PUNCT", "COMMA", "PAREN"].map String.toList

/-- `PUNCTUATION` (punctuation.py:16-20). -/
def PUNCTUATION : List Str :=
  (".,():-\";?/!*&`[]<>{}|=\xc2\xab\xc2\xbb\xb7\xad\\".toList.map fun c => [c]) ++
    ["&bullet;", "..", "...", "....", ".....", "......", "!!", "!!!", "??", "???", "''", "``", ",,", "--", "---", "----", "-LRB-", "-RRB-", "-LCB-",
      "-RCB-", "-LSB-", "-RSB-", "#LRB#", "#RRB#"].map String.toList

/-- `PRUNEPUNCT` (punctuation.py:24). -/
def PRUNEPUNCT : List Str := ["``", "''", "\"", "."].map String.toList

/-- `BALANCEDPUNCTMATCH` (punctuation.py:27-29). -/
def BALANCED : List (Str × Str) :=
  [("\"", "\""), ("'", "'"), ("``", "''"), ("[", "]"), ("(", ")"), ("-LRB-", "-RRB-"), ("-LSB-", "-RSB-"), ("-", "-"), ("\xc2\xab", "\xc2\xbb")].map
    fun x => (x.1.toList, x.2.toList)

/-- `ispunct` (punctuation.py:190-192). -/
def ispunct (word tag : Str) : Bool := PUNCTTAGS.contains tag || PUNCTUATION.contains word

/-! ### punctroot -/

/-- A tree position. -/
abbrev Path := List Nat

mutual
/-- `tree.treepositions('leaves')` (tree.py:328-341). -/
def leafPos : PTree L → List Path
  | .leaf _ => [[]]
  | .node _ cs => leafPosL 0 cs
/-- The same for a list of sisters, the first of which has the given index. -/
def leafPosL (k : Nat) : List (PTree L) → List Path
  | [] => []
  | c :: cs => (leafPos c).map (k :: ·) ++ leafPosL (k + 1) cs
end

/-- `tree[p]` (tree.py:190-200); `none` models exceptions. -/
def get : PTree L → Path → Option (PTree L)
  | t, [] => some t
  | .leaf _, _ :: _ => none
  | .node _ cs, i :: p => match cs[i]? with
    | none => none
    | some c => get c p

/-- `del tree[p]` (tree.py:219-228); `none` models exceptions. -/
def del : PTree L → Path → Option (PTree L)
  | _, [] => none
  | .leaf _, _ :: _ => none
  | .node l cs, i :: p => match cs[i]? with
    | none => none
    | some c => match p with
      | [] => some (.node l (cs.eraseIdx i))
      | j :: q => (del c (j :: q)).map fun d => .node l (cs.set i d)

/-- The inner loop of `punctroot` (punctuation.py:86-89): the position of the node to be deleted is given in reverse. The loop ends when the
parent is not empty, or when the parent is the root. -/
def prune (t : PTree L) : List Nat → Option (PTree L)
  | [] => some t
  | i :: r => match del t (r.reverse ++ [i]) with
    | none => none
    | some t' =>
      if r = [] then some t'
      else match get t' r.reverse with
        | some (.node _ []) => prune t' r
        | some _ => some t'
        | none => none

/-- The outer loop of `punctroot` (punctuation.py:81-89). `none` models exceptions, and the case of a punctuation mark directly under the root without a
preterminal of its own (the tree would become a child of itself). -/
def rootLoop (tag : L → Str) (sent : List Str) : List Path → PTree L → List (PTree L) → Option (PTree L × List (PTree L))
  | [], t, punct => some (t, punct)
  | a :: as, t, punct =>
    match get t a, get t a.dropLast with
    | some (.leaf i), some (.node l cs) => match sent[i]? with
      | none => none
      | some w =>
        if ispunct w (tag l) then
          if a.dropLast = [] then none
          else match prune t a.dropLast.reverse with
            | none => none
            | some t' => rootLoop tag sent as t' (punct ++ [.node l cs])
        else rootLoop tag sent as t punct
    | _, _ => none

/-- `punctroot` (punctuation.py:78-90). -/
def punctroot (tag : L → Str) (t : PTree L) (sent : List Str) : Option (PTree L) :=
  match rootLoop tag sent (leafPos t).reverse t [] with
  | some (.node l cs, punct) => some (.node l (cs ++ punct))
  | _ => none

/-! ### punctlower -/

/-- `isinstance(child[0], int)` or no children (punctuation.py:104). -/
def notPhrasal : PTree L → Bool
  | .leaf _ => true
  | .node _ [] => true
  | .node _ (.leaf _ :: _) => true
  | .node _ (.node _ _ :: _) => false

/-- The loop of `lower` (punctuation.py:103-112) over the sorted children with their indices; `rec` lowers the node in a child. The result is the new
list of children. -/
def lowerLoop (nd : PTree L) (num : Nat) (rec : PTree L → Option (PTree L)) (cs : List (PTree L)) : Nat → List (PTree L × Nat) → Option (List (PTree L))
  | _, [] => some cs
  | i, (child, j) :: rest =>
    if notPhrasal child then lowerLoop nd num rec cs (i + 1) rest
    else match child.leaves.min?, child.leaves.max? with
      | some mn, some mx =>
        if num < mn then some (cs.insertIdx (i + 1) nd)
        else if num < mx then (rec child).map fun d => cs.set j d
        else lowerLoop nd num rec cs (i + 1) rest
      | _, _ => none

/-- `lower` (punctuation.py:98-112), with a bound on the depth of the recursion. -/
def lower (nd : PTree L) (num : Nat) : Nat → PTree L → Option (PTree L)
  | 0, _ => none
  | _, .leaf _ => none
  | f + 1, .node l cs =>
    if cs.all PTree.isNode then
      (lowerLoop nd num (lower nd num f) cs 0 (stableSort (fun a b : PTree L × Nat => decide (a.1.leaves ≤ b.1.leaves)) cs.zipIdx)).map (.node l)
    else none

/-- The loop of `punctlower` (punctuation.py:114-118). -/
def lowerAll (tag : L → Str) (sent : List Str) : List Path → PTree L → Option (PTree L)
  | [], t => some t
  | a :: as, t =>
    match get t a, get t a.dropLast with
    | some (.leaf i), some (.node l cs) => match sent[i]? with
      | none => none
      | some w =>
        if ispunct w (tag l) then
          match del t a.dropLast with
          | none => none
          | some t' => match (leavesL cs)[0]? with
            | none => none
            | some num => match lower (.node l cs) num (sent.length + (leafPos t).flatten.length + 1) t' with
              | none => none
              | some u => lowerAll tag sent as u
        else lowerAll tag sent as t
    | _, _ => none

/-- `punctlower` (punctuation.py:93-118). -/
def punctlower (tag : L → Str) (t : PTree L) (sent : List Str) : Option (PTree L) := lowerAll tag sent (leafPos t) t

/-! ### punctraise -/

/-- A preterminal whose (first) terminal is `i`. -/
def isPre (i : Nat) : PTree L → Bool
  | .node _ (.leaf j :: _) => j = i
  | _ => false

/-- `any(node[0] + 1 == min(a.leaves()) for a in candidate)` (punctuation.py:148); `none` models exceptions. -/
def anyNext (n : Nat) : List (PTree L) → Option Bool
  | [] => some false
  | .leaf _ :: _ => none
  | .node _ ds :: cs => match (leavesL ds).min? with
    | none => none
    | some m => if n + 1 = m then some true else anyNext n cs

mutual
/-- The `for` loop of `punctraise` (punctuation.py:145-150): the first phrasal node in pre-order with a child that starts at the next word gets the
node. `some none` when there is no such node. -/
def attach (nd : PTree L) (n : Nat) : PTree L → Option (Option (PTree L))
  | .leaf _ => some none
  | .node l cs =>
    match (if notPhrasal (.node l cs) then some false else anyNext n cs) with
    | none => none
    | some true => some (some (.node l (cs ++ [nd])))
    | some false => match attachL nd n cs with
      | none => none
      | some none => some none
      | some (some ds) => some (some (.node l ds))
/-- The search in a list of sisters. -/
def attachL (nd : PTree L) (n : Nat) : List (PTree L) → Option (Option (List (PTree L)))
  | [] => some none
  | c :: cs => match attach nd n c with
    | none => none
    | some (some d) => some (some (d :: cs))
    | some none => match attachL nd n cs with
      | none => none
      | some none => some none
      | some (some ds) => some (some (c :: ds))
end

/-- One iteration of the loop over `punct` (punctuation.py:139-152) for the preterminal `nd` with terminal `n`. The preterminal is a child of the root, so the
inner `while` stops immediately or at the root. -/
def raise1 (nd : PTree L) (n : Nat) : PTree L → Option (PTree L)
  | .leaf _ => none
  | .node l cs =>
    if cs.length = 1 then some (.node l cs)
    else match attach nd n (.node l (cs.eraseP (isPre n))) with
      | none => none
      | some (some u) => some u
      | some none => some (.node l (cs.eraseP (isPre n) ++ [nd]))

/-- The list `punct` (punctuation.py:136-137): the preterminals under the root that are to be moved, with their terminals. -/
def toRaise (tag : L → Str) (sent : List Str) (all : Bool) : List (PTree L) → Option (List (PTree L × Nat))
  | [] => some []
  | c :: cs => match c with
    | .leaf i => if i = 0 then toRaise tag sent all cs else none
    | .node l (.leaf i :: ds) =>
      match (if all then some true else (sent[i]?).map fun w => ispunct w (tag l)) with
      | none => none
      | some b => match toRaise tag sent all cs with
        | none => none
        | some r => some (if b then (.node l (.leaf i :: ds), i) :: r else r)
    | _ => toRaise tag sent all cs

/-- `punctraise` (punctuation.py:121-152). -/
def punctraise (tag : L → Str) (all : Bool) (t : PTree L) (sent : List Str) : Option (PTree L) :=
  match toRaise tag sent all t.children with
  | none => none
  | some punct => punct.reverse.foldlM (fun t x => raise1 x.1 x.2 t) t

/-! ### balancedpunctraise -/

mutual
/-- `termparent[i].parent`: the node with the preterminal among its children. -/
def parentOf (i : Nat) : PTree L → Option (PTree L)
  | .leaf _ => none
  | .node l cs => if cs.any (isPre i) then some (.node l cs) else parentOfL i cs
/-- The search in a list of sisters. -/
def parentOfL (i : Nat) : List (PTree L) → Option (PTree L)
  | [] => none
  | c :: cs => match parentOf i c with
    | some p => some p
    | none => parentOfL i cs
end

mutual
/-- `node.pop(child.parent_index)` followed by removal of empty ancestors (punctuation.py:175-182), below the root: `none` when the node itself becomes
empty. Simplification: in the code, the preterminal is added to its new parent before empty ancestors are removed; the new parent is not among these. -/
def pop1 (i : Nat) : PTree L → Option (PTree L)
  | .leaf j => some (.leaf j)
  | .node l cs =>
    let ds := if cs.any (isPre i) then cs.eraseP (isPre i) else popL i cs
    if ds.isEmpty && !cs.isEmpty then none else some (.node l ds)
/-- The same for a list of sisters. -/
def popL (i : Nat) : List (PTree L) → List (PTree L)
  | [] => []
  | c :: cs => (pop1 i c).toList ++ popL i cs
end

/-- The same for the root, which is not removed. -/
def popRoot (i : Nat) : PTree L → PTree L
  | .leaf j => .leaf j
  | .node l cs => .node l (if cs.any (isPre i) then cs.eraseP (isPre i) else popL i cs)

mutual
/-- `leftparent.append(...)` and `rightparent.insert(0, ...)` (punctuation.py:175, 178) where the parent is that of the preterminal with terminal `i`. -/
def addTo (i : Nat) (nd : PTree L) (front : Bool) : PTree L → PTree L
  | .leaf j => .leaf j
  | .node l cs => if cs.any (isPre i) then .node l (if front then nd :: cs else cs ++ [nd]) else .node l (addToL i nd front cs)
/-- The same for a list of sisters. -/
def addToL (i : Nat) (nd : PTree L) (front : Bool) : List (PTree L) → List (PTree L)
  | [] => []
  | c :: cs => addTo i nd front c :: addToL i nd front cs
end

/-- The body of the first branch of the loop (punctuation.py:169-182) for a pair of punctuation marks. -/
def movePair (left : Nat) (leftNode : PTree L) (right : Nat) (rightNode : PTree L) (t : PTree L) : Option (PTree L) :=
  match parentOf left t, parentOf right t with
  | some lp, some rp => match lp.leaves.max?, rp.leaves.min? with
    | some mx, some mn =>
      if mx + 1 = right then some (addTo left rightNode false (popRoot right t))
      else if mn = left + 1 then some (addTo right leftNode true (popRoot left t))
      else some t
    | _, _ => none
  | _, _ => none

/-- The loop of `balancedpunctraise` (punctuation.py:165-187): `pm` is `punctmap` with the preterminal of the left mark. -/
def balLoop (tag : L → Str) (sent : List Str) : List (Nat × PTree L) → PTree L → Dict Str (Nat × PTree L) → Option (PTree L)
  | [], t, _ => some t
  | (i, nd) :: rest, t, pm =>
    match nd, sent[i]? with
    | .node l _, some w =>
      if PUNCTTAGS.contains (tag l) then
        match Dict.get? pm w with
        | some (left, leftNode) => match movePair left leftNode i nd t with
          | none => none
          | some u => balLoop tag sent rest u (Dict.erase pm w)
        | none => match Dict.get? BALANCED w with
          | some r => balLoop tag sent rest t (Dict.set pm r (i, nd))
          | none => balLoop tag sent rest t pm
      else balLoop tag sent rest t pm
    | _, _ => none

/-- `termparent` (punctuation.py:163-164), in the order of the traversal; `none` models `IndexError`. -/
def termparent (tag : L → Str) (sent : List Str) : List (PTree L) → Option (List (Nat × PTree L))
  | [] => some []
  | c :: cs => match c with
    | .node l (.leaf i :: ds) => match sent[i]? with
      | none => none
      | some w => match termparent tag sent cs with
        | none => none
        | some r => some (if ispunct w (tag l) then (i, .node l (.leaf i :: ds)) :: r else r)
    | _ => termparent tag sent cs

/-- `balancedpunctraise` (punctuation.py:155-187). Simplification: the terminals are assumed to be distinct (with a repeated index the dict keeps
one preterminal only). -/
def balancedpunctraise (tag : L → Str) (t : PTree L) (sent : List Str) : Option (PTree L) :=
  match termparent tag sent (subtrees t) with
  | none => none
  | some ts => balLoop tag sent (stableSort (fun a b : Nat × PTree L => decide (a.1 ≤ b.1)) ts) t []

/-- `applypunct` with method `move` (`all = false`) or `moveall` (`all = true`) (punctuation.py:40-48). -/
def applymove (tag : L → Str) (all : Bool) (t : PTree L) (sent : List Str) : Option (PTree L) :=
  match punctraise tag all t sent with
  | none => none
  | some u => match balancedpunctraise tag u sent with
    | none => none
    | some v => Canon.canonicalize v

/-! ### punctprune, punctremove -/

/-- One loop of `punctprune` (punctuation.py:64-67, or 68-71 on the reversed sentence): words to be deleted become `None`. -/
def pruneLoop : List (Option Str) → List (Option Str)
  | some w :: s => if PRUNEPUNCT.contains w then none :: pruneLoop s else some w :: s
  | s => s

/-- The two loops of `punctprune` (punctuation.py:64-71). `none` models `IndexError`: in the second loop, the index is `-1` when the sentence is empty.
(When the second loop gets to index `-1` with another sentence, that is the last word, which is `None` by then.) -/
def prunemarks (sent : List Str) : Option (List (Option Str)) :=
  if sent = [] then none else some (pruneLoop (pruneLoop (sent.map some)).reverse).reverse

/-- `punctprune` (punctuation.py:62-75) with a tree. -/
def punctprune (t : PTree Str) (sent : List Str) : Option (PTree Str × List (Option Str)) :=
  match prunemarks sent with
  | none => none
  | some s => RmTerm.removeterminals (fun w _ => w.isNone) t s

/-- `punctprune` (punctuation.py:62-75) without a tree. -/
def punctpruneSent (sent : List Str) : Option (List Str) := (prunemarks sent).map fun s => s.filterMap id

/-- `punctremove` (punctuation.py:53-59). -/
def punctremove (t : PTree Str) (sent : List Str) (rootpreterms : Bool) : Option (PTree Str × List Str) :=
  if rootpreterms then RmTerm.removeterminals (fun _ node => (t.children.filter fun c => match c with
    | .node _ (.leaf _ :: _) => true | _ => false).contains node) t sent
  else RmTerm.removeterminals (fun w node => match node with | .node l _ => ispunct w l | .leaf _ => false) t sent

end Disco.Punct
