import Verif.Basic.Str
/-!
# Model of `binarize`, `unbinarize`, `collapseunary` (discodop/treetransforms.py)

Labels carry a head flag: `(label, child.type == HEAD)`.
-/
namespace Disco.Binarize
open Disco

/-- Label and `.type == HEAD` flag. -/
abbrev HLab := Str × Bool
abbrev HTree := PTree HLab

/-- Keyword arguments of `binarize` (treetransforms.py:32-37).
Simplifications: `factor` is validated (only 'left'/'right'; other values raise ValueError, l.97-98);
`horzmarkov`, `vertmarkov`, `revhorzmarkov`, `threshold` are non-negative; `ids` (a dictionary-like object
handing out numeric ids) is an arbitrary function from marks to strings. -/
structure Opts where
  /-- `factor == 'left'` -/
  left : Bool := false
  horzmarkov : Nat := 999
  vertmarkov : Nat := 1
  revhorzmarkov : Nat := 0
  markhead : Bool := false
  headoutward : Bool := false
  childchar : Str := ['|']
  parentchar : Str := ['^']
  tailmarker : Str := []
  leftmostunary : Bool := false
  rightmostunary : Bool := false
  threshold : Nat := 2
  artpa : Bool := true
  ids : Option (Str → Str) := none
  filterlabels : List Str := []
  /-- `labelfun` (l.99-100: default is `attrgetter('label')`). -/
  labelfun : HTree → Str := fun t => match t with | .node l _ => l.1 | .leaf _ => []
  dot : Bool := false
  direction : Bool := false

/-- `isinstance(node[0], Tree)`. -/
def firstIsNode {L : Type} : List (PTree L) → Bool
  | c :: _ => c.isNode
  | [] => false

/-- treetransforms.py:122-127: index of the first child that is a tree with type HEAD. -/
def headIdx : List HTree → Option Nat
  | [] => none
  | .node (_, true) _ :: _ => some 0
  | _ :: cs => (headIdx cs).map (· + 1)

/-- The string literal `<` … `>` wrapper plus parent annotation, optionally abbreviated:
l.146-148, 188-190, 232-234. -/
def mkMark (o : Opts) (siblings parents : Str) : Str :=
  let mark := ['<'] ++ siblings ++ ['>'] ++ parents
  match o.ids with
  | none => mark
  | some f => ['<'] ++ f mark ++ ['>']

/-- Direction prefix `r:` / `l:` (l.135-138, 178-181, 212-215). -/
def dirPrefix (o : Opts) (left : Bool) : Str :=
  if o.direction && left then ['r', ':'] else if o.direction then ['l', ':'] else []

/-- Head prefix `label;` (l.139-140, 182-183, 216-217). -/
def headPrefix (o : Opts) (headidx : Option Nat) (childlabels : List Str) : Str :=
  match headidx with
  | some h => if o.markhead then childlabels.getD h [] ++ [';'] else []
  | none => []

/-- Horizontal context `siblings` of the artificial node made in iteration `i` of the loop
(l.199-206, 211-231). -/
def artSiblings (o : Opts) (childlabels : List Str) (headidx : Option Nat)
    (num i : Nat) (left : Bool) : Str :=
  let hd := headidx.getD 0
  let start := if left then max (num - i - o.horzmarkov + hd) hd else i
  let stop := if left then min (num - i + hd) num else i + o.horzmarkov
  let keep := fun a => !(o.filterlabels.contains a)
  dirPrefix o left ++ headPrefix o headidx childlabels
    ++ (if o.dot then Str.join [','] ((childlabels.take start).filter keep) ++ ['.'] else [])
    ++ (if o.revhorzmarkov ≠ 0 then
          (if left then Str.join [','] ((slice childlabels stop (stop + o.revhorzmarkov)).filter keep)
           else Str.join [','] ((slice childlabels (start - o.revhorzmarkov) start).filter keep))
            ++ [';']
        else [])
    ++ Str.join [','] (((childlabels.drop start).filter keep).take o.horzmarkov)

/-- Label of the artificial node made in iteration `i` of the loop (l.197, 232-235). -/
def artLabel (o : Opts) (origlabel parents : Str) (childlabels : List Str) (headidx : Option Nat)
    (num i : Nat) (left : Bool) : Str :=
  let marktail := if i + 1 = num then o.tailmarker else []
  origlabel ++ o.childchar ++ marktail
    ++ mkMark o (artSiblings o childlabels headidx num i left) parents

/-- Label of the extra unary inserted when the direction switches (l.240-252).
`sib` is the `siblings` string of the current artificial node. -/
def switchLabel (o : Opts) (origlabel parents : Str) (childlabels : List Str) (headidx : Option Nat)
    (sib : Str) : Str :=
  let siblings := if o.dot then ['m'] ++ sib.drop 1
    else ['m', ':'] ++ headPrefix o headidx childlabels
  origlabel ++ o.childchar ++ ['<'] ++ siblings ++ ['>'] ++ parents

/-- The loop of l.196-253 followed by `curnode.extend(childnodes)` (l.255).
Returns the children of `curnode`. `steps` is the number of remaining iterations, `i` the loop
variable, `rest` is the list `childnodes`. -/
def factorLoop (o : Opts) (origlabel parents : Str) (childlabels : List Str) (headidx : Option Nat)
    (num : Nat) : (steps i : Nat) → (left : Bool) → (rest : List HTree) → List HTree
  | 0, _, _, rest => rest
  | steps + 1, i, left, rest =>
    let lab := artLabel o origlabel parents childlabels headidx num i left
    let isHead := o.headoutward && (headidx == some i)
    let left' := if isHead then !left else left
    let rest' := if left then rest.dropLast else rest.drop 1
    let inner := factorLoop o origlabel parents childlabels headidx num steps (i + 1) left' rest'
    let inner' := if isHead && o.direction && (i + 1 != num)
      then [.node (switchLabel o origlabel parents childlabels headidx
          (artSiblings o childlabels headidx num i left), false) inner] else inner
    let newnode : HTree := .node (lab, false) inner'
    if left then newnode :: rest.drop (rest.length - 1)   -- [newnode, childnodes.pop()]
    else rest.take 1 ++ [newnode]                          -- [childnodes.pop(0), newnode]

/-- Label of the initial artificial node with `leftmostunary` (l.169-193). -/
def leftmostLabel (o : Opts) (origlabel parents : Str) (childlabels : List Str)
    (headidx : Option Nat) (num : Nat) (left : Bool) : Str :=
  let hd := headidx.getD 0
  let start := if left then num + hd - o.horzmarkov else 0
  let stop := if left then min (num + hd) num else o.horzmarkov
  let keep := fun a => !(o.filterlabels.contains a)
  let siblings := dirPrefix o left ++ headPrefix o headidx childlabels
    ++ (if o.dot then ['.'] else [])
    ++ Str.join [','] ((slice childlabels start stop).filter keep)
  origlabel ++ o.childchar ++ mkMark o siblings parents

/-- Label of the artificial node for constituents with one or two children (l.131-155). -/
def smallLabel (o : Opts) (origlabel parents : Str) (cs : List HTree) (headidx : Option Nat) : Str :=
  let siblings := (if firstIsNode cs then
      dirPrefix o o.left
      ++ headPrefix o headidx (cs.map fun c => (c.label?.map Prod.fst).getD [])
      ++ Str.join [','] (((cs.take o.horzmarkov).map o.labelfun).filter
          fun a => !(o.filterlabels.contains ((Str.splitAll '/' a).headD [])))
    else []) ++ (if o.dot then ['.'] else [])
  origlabel ++ o.childchar ++ mkMark o siblings parents

/-- Factor one constituent (l.128-255). `cs` are the original children (used for labels),
`cs'` the same children after they have themselves been processed; returns the new children. -/
def factorNode (o : Opts) (origlabel parents : Str) (cs cs' : List HTree) : List HTree :=
  let headidx := if o.headoutward || o.markhead then headIdx cs else none
  let num := cs.length
  if num ≤ o.threshold then cs'
  else if 1 ≤ num ∧ num ≤ 2 then
    let offset := if o.left then 0 else 1
    let childnodes := slice cs' offset (offset + 1)
    let remaining := cs'.take offset ++ cs'.drop (offset + 1)
    let newnode : HTree := .node (smallLabel o origlabel parents cs headidx, false) childnodes
    -- node[offset:offset] = [newnode] with offset = -1 (left) or 1 (right)
    let pos := if o.left then remaining.length - 1 else 1
    remaining.take pos ++ [newnode] ++ remaining.drop pos
  else
    let childlabels := if firstIsNode cs then cs.map o.labelfun else []
    -- l.167: `if headoutward and i == headidx` with i = 0
    let left := if o.headoutward && (headidx == some 0) then !o.left else o.left
    let steps := num - 1 - (if o.rightmostunary then 0 else 1)
    let body := factorLoop o origlabel parents childlabels headidx num steps 1 left cs'
    if o.leftmostunary then
      [.node (leftmostLabel o origlabel parents childlabels headidx num left, false) body]
    else body

mutual
/-- `binarize` (treetransforms.py:32-256): the agenda loop l.105-255 as recursion over the tree.
`root` is `node is tree`, `parent` the list of ancestor labels.  Children are processed by later
iterations, after the labels of the artificial nodes were computed from the unprocessed
children; artificial nodes themselves are never put on the agenda.
Simplification: `vertmarkov > 1` on a non-root node without children raises IndexError in Python
(l.114); here such a node is left alone. -/
def binTree (o : Opts) (root : Bool) (parent : List Str) : HTree → HTree
  | .leaf i => .leaf i
  | .node (lab, hd) cs =>
    let origlabel := if o.vertmarkov ≠ 0 then lab else ['_']
    let annot := decide (o.vertmarkov > 1) && !root && firstIsNode cs
    let par := o.parentchar ++ ['<'] ++ Str.join [','] parent ++ ['>']
    let newlab := if annot then lab ++ par else lab
    let parents := if annot && o.artpa then par else []
    let parent' := if annot then origlabel :: parent.take (o.vertmarkov - 2) else parent
    .node (newlab, hd) (factorNode o origlabel parents cs (binList o parent' cs))
/-- `agenda.extend((child, parent) for child in node)` (l.121). -/
def binList (o : Opts) (parent : List Str) : List HTree → List HTree
  | [] => []
  | c :: cs => binTree o false parent c :: binList o parent cs
end

/-- `binarize(tree, ...)`: initial agenda `[(tree, [tree.label])]` (l.105). -/
def binarize (o : Opts) (t : HTree) : HTree :=
  binTree o true [(t.label?.map Prod.fst).getD []] t

/-- l.299-305: `node.label[:unaryindex]`, with a new node for `node.label[unaryindex + 1:]`,
which is itself visited later and expanded further. -/
def expandChain (hd : Bool) : List Str → List HTree → HTree
  | [], cs => .node ([], hd) cs
  | [p], cs => .node (p, hd) cs
  | p :: ps, cs => .node (p, hd) [expandChain false ps cs]

/-- l.298-305: expansion of collapsed unaries, when enabled. -/
def expandUnary (unary : Option Char) (lab : Str) (hd : Bool) (cs : List HTree) : HTree :=
  match unary with
  | none => .node (lab, hd) cs
  | some u => expandChain hd (Str.splitAll u lab) cs

/-- l.294-305: strip parent annotation and expand collapsed unaries of a non-artificial node. -/
def restoreNode (childparent : Str) (unary : Option Char) (lab : Str) (hd : Bool)
    (cs : List HTree) : HTree :=
  let lab' := match Str.find childparent lab with
    | some i => lab.take i
    | none => lab
  expandUnary unary lab' hd cs

mutual
/-- Loop body of `unbinarize` (l.273-307) for a non-root node: the list of nodes that
replace it in its parent. `cc`/`pc` are `childchar + '<'`, `parentchar + '<'`;
`unary` is `some unarychar` when `expandunary`. -/
def unbinChild (cc pc : Str) (unary : Option Char) : HTree → List HTree
  | .leaf i => [.leaf i]
  | .node (lab, hd) cs =>
    if (Str.find cc lab).isSome then unbinList cc pc unary cs
    else [restoreNode pc unary lab hd (unbinList cc pc unary cs)]
/-- All children of a node. -/
def unbinList (cc pc : Str) (unary : Option Char) : List HTree → List HTree
  | [] => []
  | c :: cs => unbinChild cc pc unary c ++ unbinList cc pc unary cs
end

/-- `unbinarize(tree, expandunary, childchar, parentchar, unarychar)` (treetransforms.py:259-308).
The root is never removed (`node is not tree`). `unarychar` is a single character, as
the code assumes (`label[unaryindex + 1:]`).
Simplification: the node created by unary expansion is not itself tested for the artificial marker;
its label is part of a label in which the marker does not occur, except for a root carrying a marker. -/
def unbinarize (childchar parentchar : Str) (unary : Option Char) : HTree → HTree
  | .leaf i => .leaf i
  | .node (lab, hd) cs =>
    restoreNode (parentchar ++ ['<']) unary lab hd
      (unbinList (childchar ++ ['<']) (parentchar ++ ['<']) unary cs)

mutual
/-- `collapseunary` loop body (treetransforms.py:325-336) for a node with given (possibly already
joined) label and children: merge while the only child is a constituent which (unless
`collapsepos`) is not a preterminal.
Simplification: an only child without children raises IndexError in Python when `collapsepos` is false
(`node[0, 0]`); here it is not collapsed. -/
def collapseNode (collapsepos : Bool) (join : Str) (lab : HLab) : List HTree → HTree
  | [.node l cs] =>
    if collapsepos || firstIsNode cs then collapseNode collapsepos join (lab.1 ++ join ++ l.1, lab.2) cs
    else .node lab [collapseNode collapsepos join l cs]
  | [.leaf i] => .node lab [.leaf i]
  | [] => .node lab []
  | c :: d :: cs => .node lab
      (collapseChild collapsepos join c :: collapseChild collapsepos join d :: collapseList collapsepos join cs)
/-- visit a child -/
def collapseChild (collapsepos : Bool) (join : Str) : HTree → HTree
  | .leaf i => .leaf i
  | .node l cs => collapseNode collapsepos join l cs
/-- visit the children -/
def collapseList (collapsepos : Bool) (join : Str) : List HTree → List HTree
  | [] => []
  | c :: cs => collapseChild collapsepos join c :: collapseList collapsepos join cs
end

/-- `collapseunary(tree, collapsepos, collapseroot, joinchar)` (treetransforms.py:311-337). -/
def collapseunary (collapsepos collapseroot : Bool) (join : Str) : HTree → HTree
  | .leaf i => .leaf i
  | .node l cs =>
    if !collapseroot && cs.length == 1 then .node l (collapseList collapsepos join cs)
    else collapseNode collapsepos join l cs

end Disco.Binarize
