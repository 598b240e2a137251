import Verif.Basic.Tree
import Verif.Basic.Str
import Verif.Basic.StrLemmas
import Verif.Basic.Sort
import Verif.Format.Escape

/-!
# Tree transformations and their reversal (treebanktransforms.py:131-220, 1148-1353)

`transform` and `reversetransform` for: arbitrary *state splits* (transformations that only append
`^`-annotations to labels; fourteen of them are modelled one by one, among them all those of the presets `negra`,
`wsj` and `alpino`), `APPEND-FUNC`, `FUNC-NODE`, `MORPH-NODE`, `LEMMA-NODE`,
`addUnary` and `nladdunary`, and the annotations with `/` (`addCase`, `nlselectmorph`).

An exception is the value `none`.  The attribute `source` is reduced to the fields lemma, tag, morph and func
(the node numbers that `transform` gives to new nodes are not modelled), and `type` to "is the head".
-/

namespace Disco.Transf
open Disco PTree

/-- The fields LEMMA, TAG, MORPH and FUNC of the attribute `source`. -/
structure Src where
  lemm : Str
  tag : Str
  morph : Str
  func : Str
  deriving DecidableEq, Repr

/-- The attributes of a node: `label`, `source` (may be None), `type == HEAD`. -/
structure Lab where
  label : Str
  src : Option Src
  head : Bool
  deriving DecidableEq, Repr

/-- `['--'] * 6` (e.g. treebanktransforms.py:1289). -/
def noSrc : Src := ⟨"--".toList, "--".toList, "--".toList, "--".toList⟩

abbrev T := PTree Lab

/-! ## Helper functions of the module -/

/-- `function(node)` (treebanktransforms.py:1700-1704): the first function tag. -/
def function (l : Lab) : Str :=
  match l.src with
  | none => []
  | some s => (Str.splitAll '-' s.func).headD []

/-- `functions(node)` (treebanktransforms.py:1707-1714). -/
def functions (l : Lab) : List Str :=
  match l.src with
  | none => []
  | some s => if s.func = "--".toList ∨ s.func = [] then [] else Str.splitAll '-' s.func

/-- `label[:label.index(c)]`, the whole label if there is no `c`. -/
def upto (c : Char) : Str → Str
  | [] => []
  | x :: xs => if x = c then [] else x :: upto c xs

/-- `strip(label)` (treebanktransforms.py:1642-1648). -/
def strip (label : Str) : Str :=
  if '-' ∈ label then upto '-' label else upto '^' label

/-- `base(node, match)` (treebanktransforms.py:1635-1639). -/
def base (label m : Str) : Bool :=
  decide (label = m) || (m ++ ['^']).isPrefixOf label || (m ++ ['-']).isPrefixOf label

/-- `n and isinstance(n[0], int)`: the terminal that is the first child. -/
def firstTerm : T → Option Nat
  | .node _ (.leaf i :: _) => some i
  | _ => none

/-- `n and isinstance(n[0], Tree)`. -/
def firstIsTree : List T → Bool
  | .node _ _ :: _ => true
  | _ => false

/-- `labels(node)`-like access: the label of a child; a terminal has none (`AttributeError`). -/
def labelOf : T → Option Str
  | .leaf _ => none
  | .node l _ => some l.label

/-! ## Restoring linear precedence order (treebanktransforms.py:210-215, 1156-1159, 1343-1348) -/

/-- The key `min(n.leaves()) if isinstance(n, Tree) else n`. -/
def key {L : Type} (t : PTree L) : Nat := (t.leaves.min?).getD 0

/-- Comparison of keys. -/
def leKey {L : Type} (a b : PTree L) : Bool := decide (key a ≤ key b)

/-- `if len(node) > 1: node.children.sort(key=…)`; `min` of no leaves is a `ValueError`. -/
def sortKids {L : Type} (cs : List (PTree L)) : Option (List (PTree L)) :=
  if cs.length ≤ 1 then some cs
  else if cs.all (fun c => !c.leaves.isEmpty) then some (stableSort leKey cs)
  else none

mutual
/-- The loops that restore the order of the children at every node. The key of a node does not depend on the order
of its children, so that the order in which nodes are visited is immaterial. -/
def sortAll {L : Type} : PTree L → Option (PTree L)
  | .leaf i => some (.leaf i)
  | .node l cs =>
    match sortAllL cs with
    | none => none
    | some ds => (sortKids ds).map (PTree.node l)
/-- … for the children. -/
def sortAllL {L : Type} : List (PTree L) → Option (List (PTree L))
  | [] => some []
  | c :: cs =>
    match sortAll c, sortAllL cs with
    | some d, some ds => some (d :: ds)
    | _, _ => none
end

/-! ## State splits -/

/-- A state split: from the label of the parent (None at the root) as it is when the node is visited, and the subtree at
the node before the visit, the annotations to append; `none` is an exception. -/
abbrev SplitFn := Option Str → T → Option (List Str)

/-- `node.label += STATESPLIT + text` for each of the texts. -/
def addSplits (l : Lab) (xs : List Str) : Lab :=
  { l with label := l.label ++ xs.flatMap (fun x => '^' :: x) }

mutual
/-- The loop `for node in tree.subtrees(…): node.label += '^' + …`: pre-order, so that the labels
of the ancestors have already been changed and those of the descendants have not. -/
def annot (f : SplitFn) (par : Option Str) : T → Option T
  | .leaf i => some (.leaf i)
  | .node l cs =>
    match f par (.node l cs) with
    | none => none
    | some xs => (annotL f (some (addSplits l xs).label) cs).map (PTree.node (addSplits l xs))
/-- … for the children. -/
def annotL (f : SplitFn) (par : Option Str) : List T → Option (List T)
  | [] => some []
  | c :: cs =>
    match annot f par c, annotL f par cs with
    | some d, some ds => some (d :: ds)
    | _, _ => none
end

/-- `YEARRE.match` (lexicon.py:35): 19 or 20 and two digits (a trailing newline is not modelled). -/
def isYear : Str → Bool
  | [a, b, c, d] => (([a, b] == ['1', '9']) || ([a, b] == ['2', '0'])) && c.isDigit && d.isDigit
  | _ => false

/-- 'MARK-YEAR' (treebanktransforms.py:175-178). -/
def markYear (sent : List Str) : SplitFn := fun _ t =>
  match firstTerm t with
  | none => some []
  | some i =>
    match sent[i]? with
    | none => none
    | some w => some (if isYear w then ["year".toList] else [])

/-- 'PUNCT' (treebanktransforms.py:179-182); `in` is the substring test. -/
def punct (sent : List Str) : SplitFn := fun _ t =>
  match firstTerm t with
  | none => some []
  | some i =>
    match sent[i]? with
    | none => none
    | some w => some (if (Str.find w ".?!".toList).isSome then [w] else [])

/-- 'PARENT' (treebanktransforms.py:187-193); the first phrasal node in pre-order is skipped, which is the root. -/
def parentAnnot : SplitFn := fun par t =>
  match par, t with
  | some p, .node _ (.node _ _ :: _) => some [strip p]
  | _, _ => some []

/-- 'TAGPA' (treebanktransforms.py:194-198). -/
def tagPa (punctuation : Str → Bool) (sent : List Str) : SplitFn := fun par t =>
  match firstTerm t with
  | none => some []
  | some i =>
    match sent[i]?, par with
    | some w, some p => some (if punctuation w then [] else [strip p])
    | some w, none => if punctuation w then some [] else none
    | none, _ => none

/-- 'NP-PP' (treebanktransforms.py:199-202). -/
def npPp : SplitFn := fun par t =>
  if labelOf t = some "PP".toList then
    match par with
    | none => none
    | some p => some (if p = "NP".toList then ["NP".toList] else [])
  else some []

/-- 'S-RC' (treebanktransforms.py:225-228). -/
def sRc : SplitFn := fun _ t =>
  match t with
  | .node l _ => some (if l.label = "S".toList ∧ function l = "RC".toList then ["RC".toList] else [])
  | .leaf _ => some []

/-- 'NP' (treebanktransforms.py:229-231) and 'VP-GF' (lines 266-268), with their label. -/
def addFunction (cat : Str) : SplitFn := fun _ t =>
  match t with
  | .node l _ => some (if l.label = cat then [function l] else [])
  | .leaf _ => some []

/-- The last child that is the head (`[x for x in vp if … x.type == HEAD].pop()`), or an `IndexError`. -/
def headLabel (cs : List T) : Option Str :=
  ((cs.filterMap (fun c => match c with
    | .node l _ => if l.head then some l.label else none
    | .leaf _ => none)).getLast?)

/-- 'S-WH' (treebanktransforms.py:461-466): the loop over the children of an SBAR, as a decision at the child. The parent's
label is not changed by this transformation. A terminal under an S under an SBAR is an `AttributeError`; so is
a terminal under an SBAR, which is not modelled. -/
def sWh : SplitFn := fun par t =>
  match t with
  | .node l cs =>
    if par = some "SBAR".toList ∧ l.label = "S".toList then
      if cs.all PTree.isNode then
        some (if cs.any (fun c => match labelOf c with
          | some x => ['W', 'H'].isPrefixOf x
          | none => false) then ["WH".toList] else [])
      else none
    else some []
  | .leaf _ => some []

/-- 'VP-HD' (treebanktransforms.py:467-475). -/
def vpHd : SplitFn := fun _ t =>
  match t with
  | .node l cs =>
    if l.label = "VP".toList then
      match headLabel cs with
      | none => none
      | some h => some (
          if h = "VB".toList then ["HINF".toList]
          else if h = "TO".toList then ["HTO".toList]
          else if h = "VBN".toList ∨ h = "VBG".toList then ["HPART".toList] else [])
    else some []
  | .leaf _ => some []

/-- 'S-INF' (treebanktransforms.py:476-481). -/
def sInf : SplitFn := fun _ t =>
  match t with
  | .node l cs =>
    if l.label = "S".toList then
      match headLabel cs with
      | none => none
      | some h => some (if h = "VP^HINF".toList ∨ h = "VP^HTO".toList then ["INF".toList] else [])
    else some []
  | .leaf _ => some []

/-- 'MARK-UNARY' (treebanktransforms.py:494-497). -/
def markUnary : SplitFn := fun _ t =>
  match t with
  | .node _ [.node _ _] => some ["U".toList]
  | _ => some []

/-- 'splitPercent' (treebanktransforms.py:538-541). -/
def splitPercent (sent : List Str) : SplitFn := fun _ t =>
  match firstTerm t with
  | none => some []
  | some i =>
    match sent[i]? with
    | none => none
    | some w => some (if w = ['%'] then [['%']] else [])

/-- 'splitBaseNP' (treebanktransforms.py:644-648): NPs all of whose children are preterminals. -/
def splitBaseNP : SplitFn := fun _ t =>
  match t with
  | .node l cs =>
    if base l.label "NP".toList then
      if cs.all PTree.isNode then
        some (if cs.all (fun c => (firstTerm c).isSome) then [['B']] else [])
      else none
    else some []
  | .leaf _ => some []

/-! ## Transformations that change more than state splits -/

mutual
/-- 'FUNC-NODE' (treebanktransforms.py:148-154): the node is relabelled with its function tags, and a new node with its
label and children is put below it. Each node of the post-order traversal is changed on its own. -/
def funcNode : T → T
  | .leaf i => .leaf i
  | .node l cs =>
    if functions l ≠ [] ∧ l.label.getLast? ≠ some '-' then
      .node { l with label := '-' :: Str.join ['-'] (functions l) }
        [.node ⟨l.label, none, false⟩ (funcNodeL cs)]
    else .node l (funcNodeL cs)
/-- … for the children. -/
def funcNodeL : List T → List T
  | [] => []
  | c :: cs => funcNode c :: funcNodeL cs
end

/-- The update of a node when a node below it is merged into it: only the first child counts. -/
def mergeFirst (upd : Lab → Lab) (l : Lab) (cs : List T) : T :=
  match cs with
  | .node l2 ds :: _ => .node (upd l2) ds
  | _ => .node l cs

mutual
/-- Reversal of 'FUNC-NODE' (treebanktransforms.py:1302-1309). The list of nodes is collected before any change, then
changed in post-order: when a node is changed its descendants have been. -/
def unFuncNode : T → T
  | .leaf i => .leaf i
  | .node l cs =>
    if l.label.head? = some '-' ∧ l.label.getLast? ≠ some '-' ∧ firstIsTree cs = true then
      mergeFirst (fun l2 => ⟨l2.label, some { noSrc with func := l.label.drop 1, tag := l2.label }, l.head⟩)
        l (unFuncNodeL cs)
    else .node l (unFuncNodeL cs)
/-- … for the children. -/
def unFuncNodeL : List T → List T
  | [] => []
  | c :: cs => unFuncNode c :: unFuncNodeL cs
end

/-- The lemma that 'LEMMA-NODE' uses (treebanktransforms.py:170-172). -/
def lemmaOf (l : Lab) : Str :=
  match l.src with
  | none => "--".toList
  | some s => Escape.escape (some s.lemm)

/-- The morphological features that 'MORPH-NODE' uses (treebanktransforms.py:163-165). -/
def morphOf (l : Lab) : Str :=
  match l.src with
  | none => "--".toList
  | some s => s.morph.map (fun c => if c = '(' then '[' else if c = ')' then ']' else c)

mutual
/-- 'LEMMA-NODE' (treebanktransforms.py:168-174) and 'MORPH-NODE' (lines 161-167): a node with the given
label between a preterminal and its children. -/
def insertBelow (lab : Lab → Str) : T → T
  | .leaf i => .leaf i
  | .node l cs =>
    if (firstTerm (.node l cs)).isSome then
      .node l [.node ⟨lab l, none, false⟩ (insertBelowL lab cs)]
    else .node l (insertBelowL lab cs)
/-- … for the children. -/
def insertBelowL (lab : Lab → Str) : List T → List T
  | [] => []
  | c :: cs => insertBelow lab c :: insertBelowL lab cs
end

/-- The nodes that the reversals of 'LEMMA-NODE' and 'MORPH-NODE' select: the first child is a preterminal. -/
def overPreterm : List T → Bool
  | .node l ds :: _ => (firstTerm (.node l ds)).isSome
  | _ => false

mutual
/-- Reversal of 'LEMMA-NODE' (treebanktransforms.py:1317-1323) and 'MORPH-NODE' (lines 1310-1316); `upd l l2` gives the
new attributes of the node from its own and those of its first child. -/
def removeBelow (upd : Lab → Lab → Lab) : T → T
  | .leaf i => .leaf i
  | .node l cs =>
    if overPreterm cs = true then mergeFirst (upd l) l (removeBelowL upd cs)
    else .node l (removeBelowL upd cs)
/-- … for the children. -/
def removeBelowL (upd : Lab → Lab → Lab) : List T → List T
  | [] => []
  | c :: cs => removeBelow upd c :: removeBelowL upd cs
end

/-- `unescape(…)`, which gives None for an empty text; shown as `--`. -/
def unescapeS (s : Str) : Str := (Escape.unescape s).getD "--".toList

/-- Attributes after the reversal of 'LEMMA-NODE' (treebanktransforms.py:1320-1322). -/
def updLemma (l l2 : Lab) : Lab :=
  ⟨l.label, some { noSrc with lemm := unescapeS l2.label, tag := l.label }, l.head⟩

/-- Attributes after the reversal of 'MORPH-NODE' (treebanktransforms.py:1313-1315). -/
def updMorph (l l2 : Lab) : Lab :=
  ⟨l2.label, some { noSrc with morph := l.label, tag := l2.label }, l.head⟩

/-- 'APPEND-FUNC' (treebanktransforms.py:143-147) at a node. -/
def appendFuncLab (l : Lab) : Lab :=
  if functions l ≠ [] ∧ l.label.getLast? ≠ some '-' then
    { l with label := l.label ++ '-' :: Str.join ['-'] (functions l) }
  else l

/-- `text.split(c, 1)` when `c` occurs. -/
def cut (c : Char) : Str → Str × Str
  | [] => ([], [])
  | x :: xs => if x = c then ([], xs) else (x :: (cut c xs).1, (cut c xs).2)

/-- Reversal of 'APPEND-FUNC' (treebanktransforms.py:1284-1292) at a node. -/
def unAppendFuncLab (l : Lab) : Lab :=
  if '-' ∈ l.label ∧ l.label.head? ≠ some '-' ∧ l.label.getLast? ≠ some '-' then
    { l with
      label := (cut '-' l.label).1
      src := some { l.src.getD noSrc with tag := (cut '-' l.label).1, func := (cut '-' l.label).2 } }
  else l

mutual
/-- 'addCase' (treebanktransforms.py:350-354) and 'nlselectmorph' (lines 1097-1104): `/` and a text (a function of the
attributes) is appended to the label of some preterminals. -/
def slash (f : Lab → Option Str) : T → T
  | .leaf i => .leaf i
  | .node l cs =>
    match (firstTerm (.node l cs)).isSome, f l with
    | true, some x => .node { l with label := l.label ++ '/' :: x } (slashL f cs)
    | _, _ => .node l (slashL f cs)
/-- … for the children. -/
def slashL (f : Lab → Option Str) : List T → List T
  | [] => []
  | c :: cs => slash f c :: slashL f cs
end

mutual
/-- Reversal of the annotations with `/` (treebanktransforms.py:1294-1301). -/
def unSlash : T → T
  | .leaf i => .leaf i
  | .node l cs =>
    if (firstTerm (.node l cs)).isSome ∧ '/' ∈ l.label then
      .node { l with
        label := (cut '/' l.label).1
        src := some { l.src.getD noSrc with
          tag := (cut '/' l.label).1
          morph := (cut '/' l.label).2.map
            (fun c => if c = '[' then '(' else if c = ']' then ')' else c) } } (unSlashL cs)
    else .node l (unSlashL cs)
/-- … for the children. -/
def unSlashL : List T → List T
  | [] => []
  | c :: cs => unSlash c :: unSlashL cs
end

/-- The parameters of 'addUnary' (treebanktransforms.py:335-349) and 'nladdunary' (1125-1140): the labels that get an NP,
the labels of their parents, and the label of which only nodes with several children count. -/
structure Unary where
  tags : List Str
  parents : List Str
  complexOnly : Option Str
  hd : Str → Str

/-- 'addUnary'. -/
def tigerUnary : Unary where
  tags := ["NN".toList, "PPER".toList, "PDS".toList, "PIS".toList, "PRELS".toList, "CARD".toList, "PN".toList]
  parents := ["S".toList, "VP".toList, "ROOT".toList, "DL".toList]
  complexOnly := some "PN".toList
  hd _ := "HD".toList

/-- 'nladdunary'. -/
def dutchUnary : Unary where
  tags := ["n".toList, "vnw".toList]
  parents := ["SMAIN".toList, "PP".toList, "INF".toList]
  complexOnly := none
  hd f := match f with
    | [] => "hd".toList
    | c :: _ => if c.isUpper then "HD".toList else "hd".toList

/-- Whether a node is given an NP (not the root, see `unaryRaises`). -/
def Unary.applies (u : Unary) (par : Option Str) (l : Lab) (cs : List T) : Bool :=
  match par with
  | none => false
  | some p => decide (strip l.label ∈ u.tags) && decide (strip p ∈ u.parents)
      && !(decide (some l.label = u.complexOnly) && decide (cs.length = 1))

/-- `tag.source = node.source[:]`, with FUNC set to the head (a node without source is an error, see `unaryRaises`). -/
def Unary.below (u : Unary) (l : Lab) : Lab :=
  ⟨l.label, some { l.src.getD noSrc with func := u.hd (l.src.getD noSrc).func }, false⟩

/-- The node itself: `node.source[TAG] = node.label = 'NP'`, no lemma and morphology. -/
def Unary.above (l : Lab) : Lab :=
  ⟨"NP".toList, some { l.src.getD noSrc with tag := "NP".toList, lemm := "--".toList, morph := "--".toList }, l.head⟩

mutual
/-- 'addUnary' and 'nladdunary'. In post-order the label of the parent is still the original one. -/
def addUnary (u : Unary) (par : Option Str) : T → T
  | .leaf i => .leaf i
  | .node l cs =>
    if u.applies par l cs = true then
      .node (Unary.above l) [.node (u.below l) (addUnaryL u (some l.label) cs)]
    else .node l (addUnaryL u (some l.label) cs)
/-- … for the children. -/
def addUnaryL (u : Unary) (par : Option Str) : List T → List T
  | [] => []
  | c :: cs => addUnary u par c :: addUnaryL u par cs
end

mutual
/-- The exceptions of 'addUnary' and 'nladdunary': `n.parent.label` for the root (`AttributeError`) and
`node.source[:]` for a node without source (`TypeError`). -/
def unaryRaises (u : Unary) (par : Option Str) : T → Bool
  | .leaf _ => false
  | .node l cs => (par.isNone && decide (strip l.label ∈ u.tags)) || (u.applies par l cs && l.src.isNone)
      || unaryRaisesL u (some l.label) cs
/-- … for the children. -/
def unaryRaisesL (u : Unary) (par : Option Str) : List T → Bool
  | [] => false
  | c :: cs => unaryRaises u par c || unaryRaisesL u par cs
end

/-- The test of the reversal (treebanktransforms.py:1235-1238, 1266-1269) for a child of a node with a label among the
parents; a terminal below the NP is an `AttributeError` in 'addUnary', which is not modelled. -/
def Unary.reverses (u : Unary) (par : Option Str) (l : Lab) (cs : List T) : Bool :=
  match par, cs with
  | some p, [.node l2 _] => decide (strip p ∈ u.parents) && base l.label "NP".toList && decide (strip l2.label ∈ u.tags)
  | _, _ => false

/-- The attributes of the restored node (treebanktransforms.py:1239-1243, 1270-1274): label and source of the tag, with the (first)
function of the NP. -/
def Unary.restored (l l2 : Lab) : Lab :=
  ⟨l2.label, l2.src.map (fun s => { s with func := if function l = [] then "--".toList else function l }), l.head⟩

mutual
/-- Reversal of 'addUnary' and 'nladdunary' (treebanktransforms.py:1230-1246, 1262-1277): pre-order; the children of a
restored node are visited with the restored label as parent. The recursion is on the children before the merge:
the children of the tag are visited, the tag itself is not, as it is no longer in the tree. -/
def unUnary (u : Unary) (par : Option Str) : T → T
  | .leaf i => .leaf i
  | .node l [.node l2 ds] =>
    if u.reverses par l [.node l2 ds] = true then
      .node (Unary.restored l l2) (unUnaryL u (some l2.label) ds)
    else .node l [unUnary u (some l.label) (.node l2 ds)]
  | .node l cs => .node l (unUnaryL u (some l.label) cs)
/-- … for the children. -/
def unUnaryL (u : Unary) (par : Option Str) : List T → List T
  | [] => []
  | c :: cs => unUnary u par c :: unUnaryL u par cs
end

/-! ## `transform` and `reversetransform` -/

/-- The transformations. -/
inductive Name where
  | split (f : SplitFn)
  | appendFunc
  | funcNode
  | morphNode
  | lemmaNode
  | slash (f : Lab → Option Str)
  | unary (u : Unary)

/-- One iteration of the loop of `transform` (treebanktransforms.py:142-208). -/
def Name.apply : Name → T → Option T
  | .split f, t => annot f none t
  | .appendFunc, t => some (t.mapLabel appendFuncLab)
  | .funcNode, t => some (Transf.funcNode t)
  | .morphNode, t => some (insertBelow morphOf t)
  | .lemmaNode, t => some (insertBelow lemmaOf t)
  | .slash f, t => some (Transf.slash f t)
  | .unary u, t => if unaryRaises u none t then none else some (addUnary u none t)

/-- The loop over the names. -/
def applyAll : List Name → T → Option T
  | [], t => some t
  | n :: ns, t =>
    match n.apply t with
    | none => none
    | some u => applyAll ns u

/-- `transform(tree, sent, transformations)` (treebanktransforms.py:131-220). -/
def transform (names : List Name) (t : T) : Option T :=
  match applyAll names t with
  | none => none
  | some u => sortAll u

/-- `if STATESPLIT in label[1:]: label = label[:label.index(STATESPLIT, 1)]` (treebanktransforms.py:1153-1154). -/
def unsplit (label : Str) : Str :=
  match label with
  | [] => []
  | c :: cs => c :: upto '^' cs

/-- … on the attributes of a node. -/
def unsplitLab (l : Lab) : Lab := { l with label := unsplit l.label }

/-- One iteration of the loop of `reversetransform` (treebanktransforms.py:1165-1341); names of state splits are ignored. -/
def Name.undo : Name → T → T
  | .split _, t => t
  | .appendFunc, t => t.mapLabel unAppendFuncLab
  | .funcNode, t => unFuncNode t
  | .morphNode, t => removeBelow updMorph t
  | .lemmaNode, t => removeBelow updLemma t
  | .slash _, t => unSlash t
  | .unary u, t => unUnary u none t

/-- `reversetransform(tree, sent, transformations)` (treebanktransforms.py:1148-1353). -/
def reversetransform (names : List Name) (t : T) : Option T :=
  match sortAll (t.mapLabel unsplitLab) with
  | none => none
  | some u => sortAll (names.reverse.foldl (fun x n => n.undo x) u)

/-- The preset `negra` (treebanktransforms.py:30): S-RC, VP-GF, NP, PUNCT. -/
def negra (sent : List Str) : List Name :=
  [.split sRc, .split (addFunction "VP".toList), .split (addFunction "NP".toList), .split (punct sent)]

/-- The preset `wsj` (treebanktransforms.py:31): PTBbrackets (which changes the sentence, not the tree; the
other transformations do not read the sentence), S-WH, VP-HD, S-INF. -/
def wsj : List Name := [.split sWh, .split vpHd, .split sInf]

/-- The preset `alpino` (treebanktransforms.py:32). -/
def alpino (sent : List Str) : List Name := [.split (punct sent)]

/-! ## Specification -/

namespace Spec

mutual
/-- `u` is `t` with any number of annotations `^text` appended to any of its labels: what a sequence of state splits,
of whatever kind, can have done. -/
inductive Annotated : T → T → Prop
  | leaf (i : Nat) : Annotated (.leaf i) (.leaf i)
  | node (l : Lab) (xs : List Str) (cs ds : List T) :
      AnnotatedL cs ds →
      Annotated (.node l cs) (.node { l with label := l.label ++ xs.flatMap (fun x => '^' :: x) } ds)
/-- … for the children. -/
inductive AnnotatedL : List T → List T → Prop
  | nil : AnnotatedL [] []
  | cons {c d : T} {cs ds : List T} : Annotated c d → AnnotatedL cs ds → AnnotatedL (c :: cs) (d :: ds)
end

mutual
/-- A condition on the attributes and children of every node of a tree. -/
def AllNodes (P : Lab → List T → Prop) : T → Prop
  | .leaf _ => True
  | .node l cs => P l cs ∧ AllNodesL P cs
/-- … of the trees. -/
def AllNodesL (P : Lab → List T → Prop) : List T → Prop
  | [] => True
  | c :: cs => AllNodes P c ∧ AllNodesL P cs
end

/-- The label is not empty and has no `^` after its first character. -/
def cleanLabel (label : Str) : Prop := label ≠ [] ∧ '^' ∉ label.drop 1

/-- All labels of the tree are clean. -/
def Clean (t : T) : Prop := AllNodes (fun l _ => cleanLabel l.label) t

/-- The function tags can be written in a label and read back: a label that starts with `-` also ends with it
(such as `-LRB-`), and the function tags do not end with `-`. -/
def funcNodeOk (l : Lab) (_ : List T) : Prop :=
  (l.label.head? = some '-' → l.label.getLast? = some '-') ∧
  (functions l ≠ [] → ∀ s, l.src = some s → s.func.getLast? ≠ some '-')

/-- The function tags can be appended to a label and split off: a label has no `-`, or it starts and ends with `-`
(such as `-LRB-`); it is not empty, and the function tags do not end with `-`. -/
def appendFuncOk (l : Lab) (_ : List T) : Prop :=
  ('-' ∉ l.label ∧ l.label ≠ [] ∨ l.label.head? = some '-' ∧ l.label.getLast? = some '-') ∧
  (functions l ≠ [] → ∀ s, l.src = some s → s.func.getLast? ≠ some '-')

/-- The lemmas of preterminals can be written in a label and read back. -/
def lemmaOk (l : Lab) (cs : List T) : Prop := (firstTerm (.node l cs)).isSome = true →
  ∀ s, l.src = some s → Disco.Escape.Spec.Escapable s.lemm

/-- The labels of preterminals have no `/`. -/
def noSlash (l : Lab) (cs : List T) : Prop := (firstTerm (.node l cs)).isSome = true → '/' ∉ l.label

/-- No node with a label among the parents has an NP with a single child with a label among the tags. -/
def noUnaryNP (u : Unary) (l : Lab) (cs : List T) : Prop := strip l.label ∈ u.parents →
  ∀ c ∈ cs, ∀ l1 l2 ds, c = .node l1 [.node l2 ds] → base l1.label "NP".toList = true → strip l2.label ∉ u.tags

/-- The functions of a node as a list, and its label. -/
def labelFunc (l : Lab) : Str × List Str := (l.label, functions l)

/-- The lemma of a node (`--` if it has none), and its label. -/
def labelLemma (l : Lab) : Str × Str := (l.label, match l.src with
  | none => "--".toList
  | some s => s.lemm)

mutual
/-- Linear precedence order: every node has its children in the order of their first terminals, and no constituent with
sisters is empty. -/
def Ordered {L : Type} : PTree L → Prop
  | .leaf _ => True
  | .node _ cs => OrderedL cs ∧ (cs.length ≤ 1 ∨
      ((∀ c ∈ cs, c.leaves ≠ []) ∧ cs.Pairwise (fun a b => key a ≤ key b)))
/-- … in each of the trees. -/
def OrderedL {L : Type} : List (PTree L) → Prop
  | [] => True
  | c :: cs => Ordered c ∧ OrderedL cs
end

end Spec

open Spec

/-! ## Sorting -/

theorem leKey_trans {L : Type} (a b c : PTree L) (h1 : leKey a b = true) (h2 : leKey b c = true) :
    leKey a c = true := by
  simp only [leKey, decide_eq_true_eq] at *; omega

theorem leKey_total {L : Type} (a b : PTree L) : (leKey a b || leKey b a) = true := by
  simp only [leKey, Bool.or_eq_true, decide_eq_true_eq]; omega

section mapSort
variable {L M : Type}

mutual
theorem leaves_mapLabel (f : L → M) : ∀ t : PTree L, (t.mapLabel f).leaves = t.leaves
  | .leaf i => by simp [mapLabel, leaves]
  | .node l cs => by simp [mapLabel, leaves, leavesL_mapLabelL f cs]
theorem leavesL_mapLabelL (f : L → M) : ∀ ts : List (PTree L), leavesL (mapLabelL f ts) = leavesL ts
  | [] => by simp [mapLabelL, leavesL]
  | c :: cs => by simp [mapLabelL, leavesL, leaves_mapLabel f c, leavesL_mapLabelL f cs]
end

theorem key_mapLabel (f : L → M) (t : PTree L) : key (t.mapLabel f) = key t := by
  simp [key, leaves_mapLabel]

theorem insertSorted_map (f : L → M) (a : PTree L) : ∀ l : List (PTree L),
    insertSorted leKey (a.mapLabel f) (l.map (mapLabel f)) = (insertSorted leKey a l).map (mapLabel f)
  | [] => by simp [insertSorted]
  | b :: l => by
    have e : leKey (mapLabel f a) (mapLabel f b) = leKey a b := by simp [leKey, key_mapLabel]
    simp only [List.map_cons, insertSorted, e]
    by_cases h : leKey a b = true
    · simp [h]
    · simp [h, insertSorted_map f a l]

theorem stableSort_map (f : L → M) : ∀ l : List (PTree L),
    stableSort leKey (l.map (mapLabel f)) = (stableSort leKey l).map (mapLabel f)
  | [] => rfl
  | a :: l => by
    simp only [List.map_cons, stableSort, stableSort_map f l, insertSorted_map]

theorem sortKids_map (f : L → M) (cs : List (PTree L)) :
    sortKids (cs.map (mapLabel f)) = (sortKids cs).map (List.map (mapLabel f)) := by
  have h : (cs.map (mapLabel f)).all (fun c => !c.leaves.isEmpty) = cs.all (fun c => !c.leaves.isEmpty) := by
    rw [List.all_map]
    congr 1
    funext c
    simp [leaves_mapLabel]
  unfold sortKids
  rw [h, List.length_map]
  split
  · simp
  · split
    · simp [stableSort_map]
    · simp

mutual
theorem sortAll_mapLabel (f : L → M) : ∀ t : PTree L,
    sortAll (t.mapLabel f) = (sortAll t).map (mapLabel f)
  | .leaf i => by simp [sortAll, mapLabel]
  | .node l cs => by
    simp only [mapLabel, sortAll, sortAllL_mapLabelL f cs]
    cases h : sortAllL cs with
    | none => simp
    | some ds =>
      simp only [Option.map_some, sortKids_map]
      cases sortKids ds with
      | none => simp
      | some es => simp [mapLabel, mapLabelL_eq]
theorem sortAllL_mapLabelL (f : L → M) : ∀ ts : List (PTree L),
    sortAllL (mapLabelL f ts) = (sortAllL ts).map (List.map (mapLabel f))
  | [] => by simp [sortAllL, mapLabelL]
  | c :: cs => by
    simp only [mapLabelL, sortAllL, sortAll_mapLabel f c, sortAllL_mapLabelL f cs]
    cases sortAll c <;> cases sortAllL cs <;> simp
end

mutual
theorem ordered_mapLabel (f : L → M) : ∀ t : PTree L, Ordered (t.mapLabel f) ↔ Ordered t
  | .leaf i => by simp [mapLabel, Ordered]
  | .node l cs => by
    simp only [mapLabel, Ordered, orderedL_mapLabelL f cs]
    rw [mapLabelL_eq]
    simp only [List.length_map, List.mem_map, forall_exists_index, and_imp, forall_apply_eq_imp_iff₂,
      leaves_mapLabel, List.pairwise_map, key_mapLabel]
theorem orderedL_mapLabelL (f : L → M) : ∀ ts : List (PTree L), OrderedL (mapLabelL f ts) ↔ OrderedL ts
  | [] => by simp [mapLabelL, OrderedL]
  | c :: cs => by simp [mapLabelL, OrderedL, ordered_mapLabel f c, orderedL_mapLabelL f cs]
end

theorem sortKids_of (cs : List (PTree L)) (h : cs.length ≤ 1 ∨
    ((∀ c ∈ cs, c.leaves ≠ []) ∧ cs.Pairwise (fun a b => key a ≤ key b))) : sortKids cs = some cs := by
  unfold sortKids
  split
  · rfl
  · next hl =>
    rcases h with h | ⟨h1, h2⟩
    · exact absurd h hl
    · rw [if_pos]
      · congr 1
        apply StableSort.of_pairwise
        simpa [leKey] using h2
      · simpa using h1

mutual
theorem sortAll_of_ordered : ∀ t : PTree L, Ordered t → sortAll t = some t
  | .leaf i, _ => by simp [sortAll]
  | .node l cs, h => by
    simp only [Ordered] at h
    simp [sortAll, sortAllL_of_ordered cs h.1, sortKids_of cs h.2]
theorem sortAllL_of_ordered : ∀ ts : List (PTree L), OrderedL ts → sortAllL ts = some ts
  | [], _ => by simp [sortAllL]
  | c :: cs, h => by
    simp only [OrderedL] at h
    simp [sortAllL, sortAll_of_ordered c h.1, sortAllL_of_ordered cs h.2]
end

theorem sortKids_spec {cs ds : List (PTree L)} (h : sortKids cs = some ds) :
    ds.Perm cs ∧ (ds.length ≤ 1 ∨
    ((∀ c ∈ ds, c.leaves ≠ []) ∧ ds.Pairwise (fun a b => key a ≤ key b))) := by
  unfold sortKids at h
  split at h
  · injection h with h; subst h; exact ⟨.rfl, .inl ‹_›⟩
  · split at h
    · next ha =>
      injection h with h
      subst h
      refine ⟨StableSort.perm cs, .inr ⟨?_, ?_⟩⟩
      · intro c hc
        rw [StableSort.mem] at hc
        have := List.all_eq_true.mp ha c hc
        simpa using this
      · have := StableSort.pairwise leKey_trans leKey_total cs
        simpa [leKey] using this
    · simp at h

theorem orderedL_mem : ∀ (ts : List (PTree L)), OrderedL ts ↔ ∀ c ∈ ts, Ordered c
  | [] => by simp [OrderedL]
  | c :: cs => by simp [OrderedL, orderedL_mem cs]

mutual
theorem ordered_of_sortAll : ∀ (t u : PTree L), sortAll t = some u → Ordered u
  | .leaf i, u, h => by simp [sortAll] at h; subst h; simp [Ordered]
  | .node l cs, u, h => by
    simp only [sortAll] at h
    cases hd : sortAllL cs with
    | none => rw [hd] at h; simp at h
    | some ds =>
      rw [hd] at h
      simp only [Option.map_eq_some_iff] at h
      obtain ⟨es, he, rfl⟩ := h
      have h1 := sortKids_spec he
      have h2 := orderedL_of_sortAllL cs ds hd
      simp only [Ordered]
      refine ⟨?_, h1.2⟩
      rw [orderedL_mem] at h2 ⊢
      intro c hc
      exact h2 c (h1.1.mem_iff.mp hc)
theorem orderedL_of_sortAllL : ∀ (ts us : List (PTree L)), sortAllL ts = some us → OrderedL us
  | [], us, h => by simp [sortAllL] at h; subst h; simp [OrderedL]
  | c :: cs, us, h => by
    simp only [sortAllL] at h
    split at h
    · next d ds hd hds =>
      injection h with h
      subst h
      simp only [OrderedL]
      exact ⟨ordered_of_sortAll c d hd, orderedL_of_sortAllL cs ds hds⟩
    · simp at h
end

end mapSort

/-! ## State splits -/

theorem upto_append_cons (c : Char) : ∀ (a b : Str), c ∉ a → upto c (a ++ c :: b) = a
  | [], b, _ => by simp [upto]
  | x :: xs, b, h => by
    simp only [List.mem_cons, not_or] at h
    simp [upto, Ne.symm h.1, upto_append_cons c xs b h.2]

theorem upto_of_not_mem (c : Char) : ∀ (a : Str), c ∉ a → upto c a = a
  | [], _ => by simp [upto]
  | x :: xs, h => by
    simp only [List.mem_cons, not_or] at h
    simp [upto, Ne.symm h.1, upto_of_not_mem c xs h.2]

theorem unsplit_clean {s : Str} (h : cleanLabel s) (xs : List Str) :
    unsplit (s ++ xs.flatMap (fun x => '^' :: x)) = s := by
  obtain ⟨h1, h2⟩ := h
  cases s with
  | nil => simp at h1
  | cons c cs =>
    simp only [List.drop_succ_cons, List.drop_zero] at h2
    simp only [List.cons_append, unsplit]
    cases xs with
    | nil => simp [upto_of_not_mem _ _ h2]
    | cons x xs => simp [upto_append_cons _ _ _ h2]

mutual
theorem unsplit_annotated : ∀ {t u : T}, Annotated t u → Clean t → u.mapLabel unsplitLab = t
  | _, _, .leaf i, _ => by simp [mapLabel]
  | _, _, .node l xs cs ds h, hc => by
    simp only [Clean, AllNodes] at hc
    simp only [mapLabel, unsplitLab, unsplit_clean hc.1 xs]
    rw [unsplitL_annotated h hc.2]
theorem unsplitL_annotated : ∀ {ts us : List T}, AnnotatedL ts us →
    AllNodesL (fun l _ => cleanLabel l.label) ts → mapLabelL unsplitLab us = ts
  | _, _, .nil, _ => by simp [mapLabelL]
  | _, _, .cons h hs, hc => by
    simp only [AllNodesL] at hc
    simp [mapLabelL, unsplit_annotated h hc.1, unsplitL_annotated hs hc.2]
end

mutual
theorem annot_annotated (f : SplitFn) : ∀ (t u : T) (par : Option Str), annot f par t = some u → Annotated t u
  | .leaf i, u, par, h => by simp [annot] at h; subst h; exact .leaf i
  | .node l cs, u, par, h => by
    simp only [annot] at h
    split at h
    · simp at h
    · next xs _ =>
      simp only [Option.map_eq_some_iff] at h
      obtain ⟨ds, hd, rfl⟩ := h
      exact .node l xs cs ds (annotL_annotated f cs ds _ hd)
theorem annotL_annotated (f : SplitFn) : ∀ (ts us : List T) (par : Option Str),
    annotL f par ts = some us → AnnotatedL ts us
  | [], us, par, h => by simp [annotL] at h; subst h; exact .nil
  | c :: cs, us, par, h => by
    simp only [annotL] at h
    split at h
    · next d ds hd hds =>
      injection h with h
      subst h
      exact .cons (annot_annotated f c d par hd) (annotL_annotated f cs ds par hds)
    · simp at h
end

mutual
theorem annotated_refl : ∀ t : T, Annotated t t
  | .leaf i => .leaf i
  | .node l cs => by
    have := Annotated.node l [] cs cs (annotatedL_refl cs)
    simpa using this
theorem annotatedL_refl : ∀ t : List T, AnnotatedL t t
  | [] => .nil
  | c :: cs => .cons (annotated_refl c) (annotatedL_refl cs)
end

mutual
theorem annotated_trans : ∀ {t u v : T}, Annotated t u → Annotated u v → Annotated t v
  | _, _, _, .leaf i, h => h
  | _, _, _, .node l xs cs ds h, .node _ ys _ es h2 => by
    have := Annotated.node l (xs ++ ys) cs es (annotatedL_trans h h2)
    simpa [List.flatMap_append] using this
theorem annotatedL_trans : ∀ {t u v : List T}, AnnotatedL t u → AnnotatedL u v → AnnotatedL t v
  | _, _, _, .nil, h => h
  | _, _, _, .cons h hs, .cons h2 hs2 => .cons (annotated_trans h h2) (annotatedL_trans hs hs2)
end

/-- The name is that of a state split. -/
def Name.isSplit : Name → Bool
  | .split _ => true
  | _ => false

theorem applyAll_splits : ∀ (names : List Name) (t u : T), (∀ n ∈ names, n.isSplit = true) →
    applyAll names t = some u → Annotated t u
  | [], t, u, _, h => by simp [applyAll] at h; subst h; exact annotated_refl t
  | n :: ns, t, u, hs, h => by
    simp only [applyAll] at h
    split at h
    · simp at h
    · next v hv =>
      have h1 : Annotated t v := by
        have := hs n (by simp)
        cases n with
        | split f => exact annot_annotated f t v none hv
        | _ => simp [Name.isSplit] at this
      exact annotated_trans h1 (applyAll_splits ns v u (fun m hm => hs m (by simp [hm])) h)

theorem undo_splits : ∀ (names : List Name) (t : T), (∀ n ∈ names, n.isSplit = true) →
    names.foldl (fun x n => n.undo x) t = t
  | [], t, _ => rfl
  | n :: ns, t, hs => by
    have h1 : n.undo t = t := by
      have := hs n (by simp)
      cases n with
      | split f => rfl
      | _ => simp [Name.isSplit] at this
    simp only [List.foldl_cons, h1]
    exact undo_splits ns t (fun m hm => hs m (by simp [hm]))

/-- **C66** State splits are undone, whatever they are: if `u` is a tree with clean labels to which any annotations
`^text` were added anywhere, then `reversetransform` with names of state splits gives the tree back, with its
children in linear precedence order; if the tree was in that order it is given back as it was. -/
theorem C66_statesplits_removed (names : List Name) (hs : ∀ n ∈ names, n.isSplit = true) (t u : T)
    (hc : Clean t) (h : Annotated t u) :
    reversetransform names u = sortAll t ∧ (Ordered t → reversetransform names u = some t) := by
  have h1 : reversetransform names u = sortAll t := by
    unfold reversetransform
    rw [unsplit_annotated h hc]
    cases ht : sortAll t with
    | none => rfl
    | some v =>
      show sortAll _ = _
      rw [undo_splits names.reverse v (fun n hn => hs n (by simpa using hn))]
      exact sortAll_of_ordered v (ordered_of_sortAll t v ht)
  exact ⟨h1, fun ho => by rw [h1, sortAll_of_ordered t ho]⟩

theorem transform_splits (names : List Name) (hs : ∀ n ∈ names, n.isSplit = true) (t u : T)
    (hc : Clean t) (h : transform names t = some u) :
    ∃ v, sortAll t = some v ∧ u.mapLabel unsplitLab = v := by
  unfold transform at h
  split at h
  · simp at h
  · next w hw =>
    have h1 := applyAll_splits names t w hs hw
    have h2 := sortAll_mapLabel unsplitLab w
    rw [unsplit_annotated h1 hc, h] at h2
    exact ⟨u.mapLabel unsplitLab, h2, rfl⟩

/-- **C66** Round trip of `transform` and `reversetransform` for any list of state splits. -/
theorem C66_splits_roundtrip (names : List Name) (hs : ∀ n ∈ names, n.isSplit = true) (t u : T)
    (hc : Clean t) (h : transform names t = some u) :
    reversetransform names u = sortAll t ∧ (Ordered t → reversetransform names u = some t) := by
  obtain ⟨v, hv, hu⟩ := transform_splits names hs t u hc h
  have h1 : reversetransform names u = sortAll t := by
    unfold reversetransform
    have ho := ordered_of_sortAll t v hv
    rw [hu, sortAll_of_ordered v ho]
    show sortAll _ = _
    rw [undo_splits names.reverse v (fun n hn => hs n (by simpa using hn)), sortAll_of_ordered v ho, hv]
  exact ⟨h1, fun ho => by rw [h1, sortAll_of_ordered t ho]⟩

/-- **C66** The presets `negra`, `wsj` and `alpino` are undone: a tree in linear precedence order with clean labels is
given back unchanged (labels, children, function tags, everything). -/
theorem C66_presets (sent : List Str) (names : List Name)
    (hn : names = negra sent ∨ names = wsj ∨ names = alpino sent)
    (t u : T) (hc : Clean t) (ho : Ordered t) (h : transform names t = some u) :
    reversetransform names u = some t := by
  refine (C66_splits_roundtrip names ?_ t u hc h).2 ho
  rcases hn with rfl | rfl | rfl <;> intro n hn <;> simp [negra, wsj, alpino] at hn <;>
    (try rcases hn with rfl | rfl | rfl | rfl) <;> (try rcases hn with rfl | rfl | rfl) <;>
    (try subst hn) <;> rfl

/-! ## Structural transformations -/

theorem join_splitAll (c : Char) : ∀ s : Str, Str.join [c] (Str.splitAll c s) = s
  | [] => by simp [Str.splitAll, Str.join, List.intercalate]
  | x :: xs => by
    have ih := join_splitAll c xs
    by_cases h : x = c
    · subst h
      rw [show Str.splitAll x (x :: xs) = [] :: Str.splitAll x xs from by simp [Str.splitAll]]
      have hne := Str.splitAll_ne_nil x xs
      cases hh : Str.splitAll x xs with
      | nil => exact absurd hh hne
      | cons a as =>
        rw [hh] at ih
        simp only [Str.join, List.intercalate, List.intersperse, List.flatten_cons, List.nil_append] at ih ⊢
        rw [ih]
        rfl
    · have hne := Str.splitAll_ne_nil c xs
      cases hh : Str.splitAll c xs with
      | nil => exact absurd hh hne
      | cons a as =>
        rw [show Str.splitAll c (x :: xs) = (x :: a) :: as from by simp [Str.splitAll, h, hh]]
        rw [hh] at ih
        cases as with
        | nil =>
          simp only [Str.join, List.intercalate, List.intersperse, List.flatten_cons, List.flatten_nil,
            List.append_nil] at ih ⊢
          rw [ih]
        | cons b bs =>
          simp only [Str.join, List.intercalate, List.intersperse, List.flatten_cons] at ih ⊢
          rw [List.cons_append, ih]

theorem join_functions {l : Lab} (h : functions l ≠ []) :
    ∃ s, l.src = some s ∧ Str.join ['-'] (functions l) = s.func ∧ s.func ≠ "--".toList ∧ s.func ≠ [] := by
  unfold functions at h ⊢
  cases hs : l.src with
  | none => simp [hs] at h
  | some s =>
    simp only [hs] at h ⊢
    by_cases h2 : s.func = "--".toList ∨ s.func = []
    · rw [if_pos h2] at h; exact absurd rfl h
    · rw [if_neg h2]
      exact ⟨s, rfl, join_splitAll '-' s.func, fun e => h2 (.inl e), fun e => h2 (.inr e)⟩

theorem getLast_cons_ne {c d : Char} {s : Str} (hs : s ≠ []) (h : s.getLast? ≠ some d) :
    (c :: s).getLast? ≠ some d := by
  cases s with
  | nil => exact absurd rfl hs
  | cons a s => simpa [List.getLast?_cons_cons] using h

mutual
theorem unFuncNode_funcNode : ∀ t : T, AllNodes funcNodeOk t →
    (unFuncNode (funcNode t)).mapLabel labelFunc = t.mapLabel labelFunc
  | .leaf i, _ => by simp [funcNode, unFuncNode, mapLabel]
  | .node l cs, h => by
    simp only [AllNodes, funcNodeOk] at h
    obtain ⟨⟨h1, h2⟩, h3⟩ := h
    have ih := unFuncNodeL_funcNodeL cs h3
    simp only [funcNode]
    by_cases hf : functions l ≠ [] ∧ l.label.getLast? ≠ some '-'
    · rw [if_pos hf]
      obtain ⟨s, hs, hj, hn1, hn2⟩ := join_functions hf.1
      have hlast := h2 hf.1 s hs
      have hcond2 : ¬ ((⟨l.label, none, false⟩ : Lab).label.head? = some '-' ∧
          (⟨l.label, none, false⟩ : Lab).label.getLast? ≠ some '-' ∧ firstIsTree (funcNodeL cs) = true) := by
        intro hh; exact hh.2.1 (h1 hh.1)
      have e1 : unFuncNode (.node ⟨l.label, none, false⟩ (funcNodeL cs)) =
          .node ⟨l.label, none, false⟩ (unFuncNodeL (funcNodeL cs)) := by
        rw [unFuncNode, if_neg hcond2]
      rw [hj, unFuncNode, if_pos ⟨rfl, getLast_cons_ne hn2 hlast, rfl⟩, unFuncNodeL, e1, unFuncNodeL]
      simp only [mergeFirst, mapLabel, ih, PTree.node.injEq, and_true]
      simp only [labelFunc, functions, List.drop_succ_cons, List.drop_zero, hs]
    · rw [if_neg hf]
      simp only [unFuncNode]
      rw [if_neg (by intro hh; exact hh.2.1 (h1 hh.1))]
      simp only [mapLabel, ih]
theorem unFuncNodeL_funcNodeL : ∀ ts : List T, AllNodesL funcNodeOk ts →
    mapLabelL labelFunc (unFuncNodeL (funcNodeL ts)) = mapLabelL labelFunc ts
  | [], _ => by simp [funcNodeL, unFuncNodeL, mapLabelL]
  | c :: cs, h => by
    simp only [AllNodesL] at h
    simp only [funcNodeL, unFuncNodeL, mapLabelL]
    rw [unFuncNode_funcNode c h.1, unFuncNodeL_funcNodeL cs h.2]
end

mutual
theorem leaves_funcNode : ∀ t : T, (funcNode t).leaves = t.leaves
  | .leaf i => by simp [funcNode]
  | .node l cs => by
    simp only [funcNode]
    split <;> simp [leaves, leavesL, leavesL_funcNodeL cs]
theorem leavesL_funcNodeL : ∀ ts : List T, leavesL (funcNodeL ts) = leavesL ts
  | [] => by simp [funcNodeL]
  | c :: cs => by simp [funcNodeL, leavesL, leaves_funcNode c, leavesL_funcNodeL cs]
end

theorem funcNodeL_eq : ∀ ts : List T, funcNodeL ts = ts.map funcNode
  | [] => rfl
  | c :: cs => by simp [funcNodeL, funcNodeL_eq cs]

/-- The order of the children only depends on their leaves. -/
theorem order_map {g : T → T} (hg : ∀ t, (g t).leaves = t.leaves) (cs : List T)
    (h : cs.length ≤ 1 ∨ ((∀ c ∈ cs, c.leaves ≠ []) ∧ cs.Pairwise (fun a b => key a ≤ key b))) :
    (cs.map g).length ≤ 1 ∨ ((∀ c ∈ cs.map g, c.leaves ≠ []) ∧ (cs.map g).Pairwise (fun a b => key a ≤ key b)) := by
  rcases h with h | ⟨h1, h2⟩
  · left; simpa using h
  · right
    refine ⟨?_, ?_⟩
    · intro c hc
      obtain ⟨d, hd, rfl⟩ := List.mem_map.mp hc
      rw [hg]; exact h1 d hd
    · rw [List.pairwise_map]
      simpa [key, hg] using h2

mutual
theorem ordered_funcNode : ∀ t : T, Ordered t → Ordered (funcNode t)
  | .leaf i, _ => by simp [funcNode, Ordered]
  | .node l cs, h => by
    simp only [Ordered] at h
    have h1 := orderedL_funcNodeL cs h.1
    have h2 := order_map leaves_funcNode cs h.2
    rw [← funcNodeL_eq] at h2
    simp only [funcNode]
    split
    · simp only [Ordered, OrderedL, and_true]
      exact ⟨⟨h1, h2⟩, by simp⟩
    · simp only [Ordered]; exact ⟨h1, h2⟩
theorem orderedL_funcNodeL : ∀ ts : List T, OrderedL ts → OrderedL (funcNodeL ts)
  | [], _ => by simp [funcNodeL, OrderedL]
  | c :: cs, h => by
    simp only [OrderedL] at h
    simp only [funcNodeL, OrderedL]
    exact ⟨ordered_funcNode c h.1, orderedL_funcNodeL cs h.2⟩
end

theorem applyAll_append : ∀ (a b : List Name) (t : T),
    applyAll (a ++ b) t = (applyAll a t).bind (applyAll b)
  | [], b, t => by simp [applyAll]
  | n :: ns, b, t => by
    simp only [List.cons_append, applyAll]
    cases n.apply t with
    | none => simp
    | some u => simpa using applyAll_append ns b u

/-- Other transformations followed by state splits: the state splits disappear and the others are undone on the tree
they made. -/
theorem reverse_general (ns splits : List Name) (hs : ∀ n ∈ splits, n.isSplit = true) (t w u : T)
    (hw : applyAll ns t = some w) (hc : Clean w) (ho : Ordered w)
    (h : transform (ns ++ splits) t = some u) :
    reversetransform (ns ++ splits) u = sortAll (ns.reverse.foldl (fun x n => n.undo x) w) := by
  unfold transform at h
  rw [applyAll_append, hw, Option.bind_some] at h
  have h' : transform splits w = some u := by unfold transform; exact h
  obtain ⟨v, hv, hu⟩ := transform_splits splits hs w u hc h'
  rw [sortAll_of_ordered w ho] at hv
  injection hv with hv
  subst hv
  unfold reversetransform
  rw [hu, sortAll_of_ordered w ho]
  show sortAll _ = _
  rw [List.reverse_append, List.foldl_append, undo_splits splits.reverse w (fun n hn => hs n (by simpa using hn))]

theorem finish {M : Type} {view : Lab → M} {r t : T} (ho : Ordered t)
    (h : r.mapLabel view = t.mapLabel view) : sortAll r = some r := by
  apply sortAll_of_ordered
  rw [← ordered_mapLabel view, h, ordered_mapLabel]
  exact ho

/-- **C66** `FUNC-NODE`, followed by any state splits, is undone: the structure, the labels and the function tags are as
they were. -/
theorem C66_funcnode (splits : List Name) (hs : ∀ n ∈ splits, n.isSplit = true) (t u : T)
    (ho : Ordered t) (hok : AllNodes funcNodeOk t) (hc : Clean (funcNode t))
    (h : transform (.funcNode :: splits) t = some u) :
    ∃ v, reversetransform (.funcNode :: splits) u = some v ∧ v.mapLabel labelFunc = t.mapLabel labelFunc := by
  have hr := reverse_general [.funcNode] splits hs t (funcNode t) u (by simp [applyAll, Name.apply]) hc
    (ordered_funcNode t ho) h
  have hv := unFuncNode_funcNode t hok
  refine ⟨unFuncNode (funcNode t), ?_, hv⟩
  rw [show Name.funcNode :: splits = [.funcNode] ++ splits from rfl, hr]
  exact finish ho hv

/-! ### `LEMMA-NODE` -/

theorem insertBelowL_eq (lab : Lab → Str) : ∀ ts : List T, insertBelowL lab ts = ts.map (insertBelow lab)
  | [] => rfl
  | c :: cs => by simp [insertBelowL, insertBelowL_eq lab cs]

mutual
theorem leaves_insertBelow (lab : Lab → Str) : ∀ t : T, (insertBelow lab t).leaves = t.leaves
  | .leaf i => by simp [insertBelow]
  | .node l cs => by
    simp only [insertBelow]
    split <;> simp [leaves, leavesL, leavesL_insertBelowL lab cs]
theorem leavesL_insertBelowL (lab : Lab → Str) : ∀ ts : List T, leavesL (insertBelowL lab ts) = leavesL ts
  | [] => by simp [insertBelowL]
  | c :: cs => by simp [insertBelowL, leavesL, leaves_insertBelow lab c, leavesL_insertBelowL lab cs]
end

mutual
theorem ordered_insertBelow (lab : Lab → Str) : ∀ t : T, Ordered t → Ordered (insertBelow lab t)
  | .leaf i, _ => by simp [insertBelow, Ordered]
  | .node l cs, h => by
    simp only [Ordered] at h
    have h1 := orderedL_insertBelowL lab cs h.1
    have h2 := order_map (leaves_insertBelow lab) cs h.2
    rw [← insertBelowL_eq] at h2
    simp only [insertBelow]
    split
    · simp only [Ordered, OrderedL, and_true]
      exact ⟨⟨h1, h2⟩, by simp⟩
    · simp only [Ordered]; exact ⟨h1, h2⟩
theorem orderedL_insertBelowL (lab : Lab → Str) : ∀ ts : List T, OrderedL ts → OrderedL (insertBelowL lab ts)
  | [], _ => by simp [insertBelowL, OrderedL]
  | c :: cs, h => by
    simp only [OrderedL] at h
    simp only [insertBelowL, OrderedL]
    exact ⟨ordered_insertBelow lab c h.1, orderedL_insertBelowL lab cs h.2⟩
end

/-- In the transformed tree only the nodes with an inserted node below them are over a preterminal. -/
theorem overPreterm_insertBelow (lab : Lab → Str) (cs : List T) : overPreterm (insertBelowL lab cs) = false := by
  cases cs with
  | nil => simp [insertBelowL, overPreterm]
  | cons c cs =>
    cases c with
    | leaf i => simp [insertBelowL, insertBelow, overPreterm]
    | node l ds =>
      simp only [insertBelowL, insertBelow]
      split
      · simp [overPreterm, firstTerm]
      · next h =>
        cases ds with
        | nil => simp [overPreterm, insertBelowL, firstTerm]
        | cons d ds =>
          cases d with
          | leaf i => simp [firstTerm] at h
          | node l2 es =>
            simp only [overPreterm, insertBelowL, insertBelow]
            split <;> simp [firstTerm]

theorem firstTerm_insertBelowL (lab : Lab → Str) (l l' : Lab) (cs : List T)
    (h : (firstTerm (.node l cs)).isSome = true) : (firstTerm (.node l' (insertBelowL lab cs))).isSome = true := by
  cases cs with
  | nil => simp [firstTerm] at h
  | cons c cs =>
    cases c with
    | leaf i => simp [insertBelowL, insertBelow, firstTerm]
    | node l ds => simp [firstTerm] at h

mutual
theorem removeBelow_insertBelow : ∀ t : T, AllNodes lemmaOk t →
    (removeBelow updLemma (insertBelow lemmaOf t)).mapLabel labelLemma = t.mapLabel labelLemma
  | .leaf i, _ => by simp [insertBelow, removeBelow, mapLabel]
  | .node l cs, h => by
    simp only [AllNodes] at h
    obtain ⟨h1, h2⟩ := h
    have ih := removeBelowL_insertBelowL cs h2
    simp only [insertBelow]
    split
    · next hf =>
      have hf' := firstTerm_insertBelowL lemmaOf l ⟨lemmaOf l, none, false⟩ cs hf
      simp only [removeBelow, removeBelowL]
      rw [if_pos (by simpa [overPreterm] using hf'), overPreterm_insertBelow]
      simp only [Bool.false_eq_true, if_false, mergeFirst, mapLabel, ih, PTree.node.injEq, and_true]
      simp only [labelLemma, updLemma, Prod.mk.injEq, true_and]
      cases hs : l.src with
      | none =>
        simp only [lemmaOf, hs, unescapeS]
        decide +kernel
      | some s =>
        have he := Disco.Escape.C39_unescape_escape s.lemm (h1 hf s hs)
        simp [lemmaOf, hs, unescapeS, he]
    · simp only [removeBelow, overPreterm_insertBelow, Bool.false_eq_true, if_false, mapLabel, ih]
theorem removeBelowL_insertBelowL : ∀ ts : List T, AllNodesL lemmaOk ts →
    mapLabelL labelLemma (removeBelowL updLemma (insertBelowL lemmaOf ts)) = mapLabelL labelLemma ts
  | [], _ => by simp [insertBelowL, removeBelowL, mapLabelL]
  | c :: cs, h => by
    simp only [AllNodesL] at h
    simp only [insertBelowL, removeBelowL, mapLabelL]
    rw [removeBelow_insertBelow c h.1, removeBelowL_insertBelowL cs h.2]
end

/-- **C66** `LEMMA-NODE`, followed by any state splits, is undone: the structure, the labels and the lemmas are as
they were. -/
theorem C66_lemmanode (splits : List Name) (hs : ∀ n ∈ splits, n.isSplit = true) (t u : T)
    (ho : Ordered t) (hok : AllNodes lemmaOk t) (hc : Clean (insertBelow lemmaOf t))
    (h : transform (.lemmaNode :: splits) t = some u) :
    ∃ v, reversetransform (.lemmaNode :: splits) u = some v ∧ v.mapLabel labelLemma = t.mapLabel labelLemma := by
  have hr := reverse_general [.lemmaNode] splits hs t (insertBelow lemmaOf t) u (by simp [applyAll, Name.apply]) hc
    (ordered_insertBelow lemmaOf t ho) h
  have hv := removeBelow_insertBelow t hok
  refine ⟨removeBelow updLemma (insertBelow lemmaOf t), ?_, hv⟩
  rw [show Name.lemmaNode :: splits = [.lemmaNode] ++ splits from rfl, hr]
  exact finish ho hv

/-! ### `APPEND-FUNC` -/

theorem cut_append (c : Char) : ∀ (a b : Str), c ∉ a → cut c (a ++ c :: b) = (a, b)
  | [], b, _ => by simp [cut]
  | x :: xs, b, h => by
    simp only [List.mem_cons, not_or] at h
    simp [cut, Ne.symm h.1, cut_append c xs b h.2]

theorem getLast_append_ne {a s : Str} {d : Char} (hs : s ≠ []) (h : s.getLast? ≠ some d) :
    (a ++ s).getLast? ≠ some d := by
  rw [List.getLast?_append]
  cases hl : s.getLast? with
  | none => exact absurd (List.getLast?_eq_none_iff.mp hl) hs
  | some x => rw [hl] at h; simpa using h

theorem unAppendFuncLab_appendFuncLab (l : Lab)
    (h1 : '-' ∉ l.label ∧ l.label ≠ [] ∨ l.label.head? = some '-' ∧ l.label.getLast? = some '-')
    (h2 : functions l ≠ [] → ∀ s, l.src = some s → s.func.getLast? ≠ some '-') :
    labelFunc (unAppendFuncLab (appendFuncLab l)) = labelFunc l := by
  unfold appendFuncLab
  split
  · next hf =>
    obtain ⟨s, hs, hj, hn1, hn2⟩ := join_functions hf.1
    have hlast := h2 hf.1 s hs
    rcases h1 with ⟨h1, h1'⟩ | ⟨_, h1⟩
    · unfold unAppendFuncLab
      rw [hj]
      have hc : '-' ∈ l.label ++ '-' :: s.func ∧ (l.label ++ '-' :: s.func).head? ≠ some '-' ∧
          (l.label ++ '-' :: s.func).getLast? ≠ some '-' := by
        refine ⟨by simp, ?_, ?_⟩
        · cases hl : l.label with
          | nil => exact absurd hl h1'
          | cons a as =>
            rw [hl] at h1
            simp only [List.mem_cons, not_or] at h1
            simpa using Ne.symm h1.1
        · exact getLast_append_ne (by simp) (getLast_cons_ne hn2 hlast)
      rw [if_pos hc]
      simp only [cut_append _ _ _ h1, labelFunc, functions, hs]
    · exact absurd h1 hf.2
  · next hf =>
    unfold unAppendFuncLab
    rw [if_neg]
    intro hc
    rcases h1 with h1 | h1
    · exact h1.1 hc.1
    · exact hc.2.1 h1.1

mutual
theorem unAppendFunc_appendFunc : ∀ t : T, AllNodes appendFuncOk t →
    ((t.mapLabel appendFuncLab).mapLabel unAppendFuncLab).mapLabel labelFunc = t.mapLabel labelFunc
  | .leaf i, _ => by simp [mapLabel]
  | .node l cs, h => by
    simp only [AllNodes, appendFuncOk] at h
    simp only [mapLabel, unAppendFuncLab_appendFuncLab l h.1.1 h.1.2, unAppendFuncL_appendFuncL cs h.2]
theorem unAppendFuncL_appendFuncL : ∀ ts : List T, AllNodesL appendFuncOk ts →
    mapLabelL labelFunc (mapLabelL unAppendFuncLab (mapLabelL appendFuncLab ts)) = mapLabelL labelFunc ts
  | [], _ => by simp [mapLabelL]
  | c :: cs, h => by
    simp only [AllNodesL] at h
    simp only [mapLabelL]
    rw [unAppendFunc_appendFunc c h.1, unAppendFuncL_appendFuncL cs h.2]
end

/-- **C66** `APPEND-FUNC`, followed by any state splits, is undone: the structure, the labels and the function tags are
as they were. -/
theorem C66_appendfunc (splits : List Name) (hs : ∀ n ∈ splits, n.isSplit = true) (t u : T)
    (ho : Ordered t) (hok : AllNodes appendFuncOk t) (hc : Clean (t.mapLabel appendFuncLab))
    (h : transform (.appendFunc :: splits) t = some u) :
    ∃ v, reversetransform (.appendFunc :: splits) u = some v ∧ v.mapLabel labelFunc = t.mapLabel labelFunc := by
  have hr := reverse_general [.appendFunc] splits hs t (t.mapLabel appendFuncLab) u (by simp [applyAll, Name.apply]) hc
    ((ordered_mapLabel _ t).mpr ho) h
  have hv := unAppendFunc_appendFunc t hok
  refine ⟨(t.mapLabel appendFuncLab).mapLabel unAppendFuncLab, ?_, hv⟩
  rw [show Name.appendFunc :: splits = [.appendFunc] ++ splits from rfl, hr]
  exact finish ho hv

/-! ### Annotations with `/` -/

theorem slashL_eq (f : Lab → Option Str) : ∀ ts : List T, slashL f ts = ts.map (slash f)
  | [] => rfl
  | c :: cs => by simp [slashL, slashL_eq f cs]

mutual
theorem leaves_slash (f : Lab → Option Str) : ∀ t : T, (slash f t).leaves = t.leaves
  | .leaf i => by simp [slash]
  | .node l cs => by
    simp only [slash]
    split <;> simp [leaves, leavesL_slashL f cs]
theorem leavesL_slashL (f : Lab → Option Str) : ∀ ts : List T, leavesL (slashL f ts) = leavesL ts
  | [] => by simp [slashL]
  | c :: cs => by simp [slashL, leavesL, leaves_slash f c, leavesL_slashL f cs]
end

mutual
theorem ordered_slash (f : Lab → Option Str) : ∀ t : T, Ordered t → Ordered (slash f t)
  | .leaf i, _ => by simp [slash, Ordered]
  | .node l cs, h => by
    simp only [Ordered] at h
    have h1 := orderedL_slashL f cs h.1
    have h2 := order_map (leaves_slash f) cs h.2
    rw [← slashL_eq] at h2
    simp only [slash]
    split <;> (simp only [Ordered]; exact ⟨h1, h2⟩)
theorem orderedL_slashL (f : Lab → Option Str) : ∀ ts : List T, OrderedL ts → OrderedL (slashL f ts)
  | [], _ => by simp [slashL, OrderedL]
  | c :: cs, h => by
    simp only [OrderedL] at h
    simp only [slashL, OrderedL]
    exact ⟨ordered_slash f c h.1, orderedL_slashL f cs h.2⟩
end

theorem firstTerm_slashL (f : Lab → Option Str) (l l' : Lab) (cs : List T) :
    firstTerm (.node l' (slashL f cs)) = firstTerm (.node l cs) := by
  cases cs with
  | nil => simp [slashL, firstTerm]
  | cons c cs =>
    cases c with
    | leaf i => simp [slashL, slash, firstTerm]
    | node l2 ds =>
      simp only [slashL, slash]
      split <;> simp [firstTerm]

mutual
theorem unSlash_slash (f : Lab → Option Str) : ∀ t : T, AllNodes noSlash t →
    (unSlash (slash f t)).mapLabel Lab.label = t.mapLabel Lab.label
  | .leaf i, _ => by simp [slash, unSlash, mapLabel]
  | .node l cs, h => by
    simp only [AllNodes, noSlash] at h
    obtain ⟨h1, h2⟩ := h
    have ih := unSlashL_slashL f cs h2
    simp only [slash]
    split
    · next x hf hx =>
      have hc := h1 hf
      simp only [unSlash]
      rw [if_pos ⟨by rw [firstTerm_slashL f l]; exact hf, by simp⟩]
      simp only [cut_append _ _ _ hc, mapLabel, ih]
    · simp only [unSlash]
      rw [if_neg]
      · simp only [mapLabel, ih]
      · intro hh
        rw [firstTerm_slashL f l] at hh
        exact h1 hh.1 hh.2
theorem unSlashL_slashL (f : Lab → Option Str) : ∀ ts : List T, AllNodesL noSlash ts →
    mapLabelL Lab.label (unSlashL (slashL f ts)) = mapLabelL Lab.label ts
  | [], _ => by simp [slashL, unSlashL, mapLabelL]
  | c :: cs, h => by
    simp only [AllNodesL] at h
    simp only [slashL, unSlashL, mapLabelL]
    rw [unSlash_slash f c h.1, unSlashL_slashL f cs h.2]
end

/-- **C66** The annotations of preterminals with `/` (`addCase`, `nlselectmorph`: any text), followed by any state splits,
are undone: the structure and the labels are as they were (the morphology that is stored is the annotation). -/
theorem C66_slash (f : Lab → Option Str) (splits : List Name) (hs : ∀ n ∈ splits, n.isSplit = true) (t u : T)
    (ho : Ordered t) (hok : AllNodes noSlash t) (hc : Clean (slash f t))
    (h : transform (.slash f :: splits) t = some u) :
    ∃ v, reversetransform (.slash f :: splits) u = some v ∧ v.mapLabel Lab.label = t.mapLabel Lab.label := by
  have hr := reverse_general [.slash f] splits hs t (slash f t) u (by simp [applyAll, Name.apply]) hc
    (ordered_slash f t ho) h
  have hv := unSlash_slash f t hok
  refine ⟨unSlash (slash f t), ?_, hv⟩
  rw [show Name.slash f :: splits = [.slash f] ++ splits from rfl, hr]
  exact finish ho hv

/-! ### `addUnary`, `nladdunary` -/

theorem addUnaryL_eq (u : Unary) (par : Option Str) : ∀ ts : List T, addUnaryL u par ts = ts.map (addUnary u par)
  | [] => rfl
  | c :: cs => by simp [addUnaryL, addUnaryL_eq u par cs]

mutual
theorem leaves_addUnary (u : Unary) : ∀ (par : Option Str) (t : T), (addUnary u par t).leaves = t.leaves
  | par, .leaf i => by simp [addUnary]
  | par, .node l cs => by
    simp only [addUnary]
    split <;> simp [leaves, leavesL, leavesL_addUnaryL u _ cs]
theorem leavesL_addUnaryL (u : Unary) : ∀ (par : Option Str) (ts : List T), leavesL (addUnaryL u par ts) = leavesL ts
  | par, [] => by simp [addUnaryL]
  | par, c :: cs => by simp [addUnaryL, leavesL, leaves_addUnary u par c, leavesL_addUnaryL u par cs]
end

mutual
theorem ordered_addUnary (u : Unary) : ∀ (par : Option Str) (t : T), Ordered t → Ordered (addUnary u par t)
  | par, .leaf i, _ => by simp [addUnary, Ordered]
  | par, .node l cs, h => by
    simp only [Ordered] at h
    have h1 := orderedL_addUnaryL u (some l.label) cs h.1
    have h2 := order_map (leaves_addUnary u (some l.label)) cs h.2
    rw [← addUnaryL_eq] at h2
    simp only [addUnary]
    split
    · simp only [Ordered, OrderedL, and_true]
      exact ⟨⟨h1, h2⟩, by simp⟩
    · simp only [Ordered]; exact ⟨h1, h2⟩
theorem orderedL_addUnaryL (u : Unary) : ∀ (par : Option Str) (ts : List T), OrderedL ts → OrderedL (addUnaryL u par ts)
  | par, [], _ => by simp [addUnaryL, OrderedL]
  | par, c :: cs, h => by
    simp only [OrderedL] at h
    simp only [addUnaryL, OrderedL]
    exact ⟨ordered_addUnary u par c h.1, orderedL_addUnaryL u par cs h.2⟩
end

/-- What the set of parents must satisfy: an NP is not one of them. -/
structure Unary.Ok (u : Unary) : Prop where
  np : ∀ s, base s "NP".toList = true → strip s ∉ u.parents

/-- `unUnary` at a node that is not restored. -/
theorem unUnary_keep (u : Unary) (par : Option Str) (l : Lab) (cs : List T) (h : u.reverses par l cs = false) :
    unUnary u par (.node l cs) = .node l (unUnaryL u (some l.label) cs) := by
  match cs with
  | [] => simp [unUnary, unUnaryL]
  | [.leaf i] => simp [unUnary, unUnaryL]
  | [.node l2 ds] => simp only [unUnary, h, Bool.false_eq_true, if_false, unUnaryL]
  | a :: b :: cs => simp [unUnary, unUnaryL]

theorem unUnary_take (u : Unary) (par : Option Str) (l l2 : Lab) (ds : List T)
    (h : u.reverses par l [.node l2 ds] = true) :
    unUnary u par (.node l [.node l2 ds]) = .node (Unary.restored l l2) (unUnaryL u (some l2.label) ds) := by
  simp only [unUnary, h, if_true]

theorem strip_of_base (s : Str) (h : base s "NP".toList = true) : ∃ r, strip s = 'N' :: 'P' :: r := by
  have hp : ∃ r, s = 'N' :: 'P' :: r := by
    simp only [base, Bool.or_eq_true, decide_eq_true_eq] at h
    rcases h with (h | h) | h
    · exact ⟨[], h⟩
    · rw [List.isPrefixOf_iff_prefix] at h
      obtain ⟨t, rfl⟩ := h
      exact ⟨'^' :: t, rfl⟩
    · rw [List.isPrefixOf_iff_prefix] at h
      obtain ⟨t, rfl⟩ := h
      exact ⟨'-' :: t, rfl⟩
  obtain ⟨r, rfl⟩ := hp
  unfold strip
  split
  · exact ⟨upto '-' r, by simp [upto]⟩
  · exact ⟨upto '^' r, by simp [upto]⟩

theorem dutchUnary_ok : dutchUnary.Ok := by
  constructor
  intro s h hm
  obtain ⟨r, hr⟩ := strip_of_base s h
  rw [hr] at hm
  simp [dutchUnary] at hm

theorem tigerUnary_ok : tigerUnary.Ok := by
  constructor
  intro s h hm
  obtain ⟨r, hr⟩ := strip_of_base s h
  rw [hr] at hm
  simp [tigerUnary] at hm

mutual
theorem unUnary_addUnary (u : Unary) (hu : u.Ok) : ∀ (t : T) (par : Option Str), AllNodes (noUnaryNP u) t →
    (∀ p, par = some p → strip p ∈ u.parents → ∀ l1 l2 ds, t = .node l1 [.node l2 ds] →
      base l1.label "NP".toList = true → strip l2.label ∉ u.tags) →
    (unUnary u par (addUnary u par t)).mapLabel Lab.label = t.mapLabel Lab.label
  | .leaf i, par, _, _ => by simp [addUnary, unUnary, mapLabel]
  | .node l cs, par, h, hpar => by
    simp only [AllNodes] at h
    have ih := unUnaryL_addUnaryL u hu cs l.label h.2 h.1
    simp only [addUnary]
    by_cases ha : u.applies par l cs = true
    · rw [if_pos ha]
      have hrev : u.reverses par (Unary.above l) [.node (u.below l) (addUnaryL u (some l.label) cs)] = true := by
        cases par with
        | none => simp [Unary.applies] at ha
        | some p =>
          simp only [Unary.applies, Bool.and_eq_true, decide_eq_true_eq] at ha
          simp only [Unary.reverses, Unary.above, Unary.below, Bool.and_eq_true, decide_eq_true_eq]
          exact ⟨⟨ha.1.2, by decide +kernel⟩, decide_eq_true ha.1.1⟩
      rw [unUnary_take u par _ _ _ hrev]
      simp only [mapLabel, Unary.restored, Unary.below, ih]
    · rw [if_neg ha]
      have hrev : u.reverses par l (addUnaryL u (some l.label) cs) = false := by
        cases hr : u.reverses par l (addUnaryL u (some l.label) cs) with
        | false => rfl
        | true =>
          exfalso
          cases par with
          | none => simp [Unary.reverses] at hr
          | some p =>
            match cs, hr, hpar with
            | [], hr, _ => simp [addUnaryL, Unary.reverses] at hr
            | [.leaf i], hr, _ => simp [addUnaryL, addUnary, Unary.reverses] at hr
            | [.node l2 ds], hr, hpar =>
              by_cases ha2 : u.applies (some l.label) l2 ds = true
              · simp only [addUnaryL, addUnary, if_pos ha2] at hr
                simp only [Unary.reverses, Bool.and_eq_true, decide_eq_true_eq] at hr
                simp only [Unary.applies, Bool.and_eq_true, decide_eq_true_eq] at ha2
                exact hu.np l.label hr.1.2 ha2.1.2
              · simp only [addUnaryL, addUnary, if_neg ha2] at hr
                simp only [Unary.reverses, Bool.and_eq_true, decide_eq_true_eq] at hr
                exact hpar p rfl hr.1.1 l l2 ds rfl hr.1.2 hr.2
            | a :: b :: cs, hr, _ => simp [addUnaryL, Unary.reverses] at hr
      rw [unUnary_keep u par l _ hrev]
      simp only [mapLabel, ih]
theorem unUnaryL_addUnaryL (u : Unary) (hu : u.Ok) : ∀ (ts : List T) (p : Str), AllNodesL (noUnaryNP u) ts →
    (strip p ∈ u.parents → ∀ c ∈ ts, ∀ l1 l2 ds, c = .node l1 [.node l2 ds] →
      base l1.label "NP".toList = true → strip l2.label ∉ u.tags) →
    mapLabelL Lab.label (unUnaryL u (some p) (addUnaryL u (some p) ts)) = mapLabelL Lab.label ts
  | [], p, _, _ => by simp [addUnaryL, unUnaryL, mapLabelL]
  | c :: cs, p, h, hp => by
    simp only [AllNodesL] at h
    simp only [addUnaryL, unUnaryL, mapLabelL]
    rw [unUnary_addUnary u hu c (some p) h.1 (fun q hq hpq => by
        injection hq with hq; subst hq; exact hp hpq c (by simp)),
      unUnaryL_addUnaryL u hu cs p h.2 (fun hpq d hd => hp hpq d (by simp [hd]))]
end

/-- **C66** `addUnary` and `nladdunary`, followed by any state splits, are undone on trees that have no unary NPs of the
kind they introduce: the structure and the labels are as they were. -/
theorem C66_unary (un : Unary) (hun : un = tigerUnary ∨ un = dutchUnary) (splits : List Name)
    (hs : ∀ n ∈ splits, n.isSplit = true) (t u : T)
    (ho : Ordered t) (hok : AllNodes (noUnaryNP un) t) (hc : Clean (addUnary un none t))
    (h : transform (.unary un :: splits) t = some u) :
    ∃ v, reversetransform (.unary un :: splits) u = some v ∧ v.mapLabel Lab.label = t.mapLabel Lab.label := by
  have hu : un.Ok := by
    rcases hun with rfl | rfl
    · exact tigerUnary_ok
    · exact dutchUnary_ok
  have ha : applyAll [.unary un] t = some (addUnary un none t) := by
    by_cases hr : unaryRaises un none t = true
    · exfalso
      unfold transform at h
      simp [applyAll, Name.apply, hr] at h
    · simp [applyAll, Name.apply, hr]
  have hr := reverse_general [.unary un] splits hs t (addUnary un none t) u ha hc (ordered_addUnary un none t ho) h
  have hv := unUnary_addUnary un hu t none hok (by simp)
  refine ⟨unUnary un none (addUnary un none t), ?_, hv⟩
  rw [show Name.unary un :: splits = [.unary un] ++ splits from rfl, hr]
  exact finish ho hv

/-! ### Two transformations in sequence -/

theorem reverses_congr (u : Unary) (par : Option Str) {l l' : Lab} {cs ds : List T} (hl : l.label = l'.label)
    (h : mapLabelL Lab.label cs = mapLabelL Lab.label ds) : u.reverses par l cs = u.reverses par l' ds := by
  rw [mapLabelL_eq, mapLabelL_eq] at h
  match cs, ds, h with
  | [], [], _ => cases par <;> rfl
  | [], _ :: _, h => simp at h
  | _ :: _, [], h => simp at h
  | [.leaf i], [.leaf j], _ => cases par <;> rfl
  | [.leaf i], [.node l3 es], h => simp [mapLabel] at h
  | [.node l2 es], [.leaf j], h => simp [mapLabel] at h
  | [.node l2 es], [.node l3 fs], h =>
    simp only [List.map_cons, mapLabel, List.cons.injEq, PTree.node.injEq] at h
    cases par with
    | none => rfl
    | some p => simp only [Unary.reverses, hl, h.1.1]
  | [_], _ :: _ :: _, h => simp at h
  | _ :: _ :: _, [_], h => simp at h
  | a :: b :: cs, c :: d :: ds, _ => cases par <;> simp [Unary.reverses]

mutual
theorem unUnary_congr (u : Unary) : ∀ (x y : T) (par : Option Str), x.mapLabel Lab.label = y.mapLabel Lab.label →
    (unUnary u par x).mapLabel Lab.label = (unUnary u par y).mapLabel Lab.label
  | .leaf i, .leaf j, par, h => by simpa [unUnary] using h
  | .leaf i, .node l cs, par, h => by simp [mapLabel] at h
  | .node l cs, .leaf j, par, h => by simp [mapLabel] at h
  | .node l [.node l2 es], .node l' ds, par, h => by
    simp only [mapLabel, PTree.node.injEq] at h
    have hr := reverses_congr u par h.1 h.2
    by_cases ht : u.reverses par l [.node l2 es] = true
    · match ds, hr, h with
      | [.node l3 fs], hr, h =>
        rw [unUnary_take u par l l2 es ht, unUnary_take u par l' l3 fs (by rw [← hr]; exact ht)]
        simp only [mapLabelL, mapLabel, List.cons.injEq, PTree.node.injEq, and_true] at h
        simp only [mapLabel, Unary.restored, PTree.node.injEq]
        refine ⟨h.2.1, ?_⟩
        rw [← h.2.1]
        exact unUnaryL_congr u es fs (some l2.label) h.2.2
      | [], hr, h => simp [mapLabelL] at h
      | [.leaf j], hr, h => simp [mapLabelL, mapLabel] at h
      | a :: b :: ds, hr, h => simp [mapLabelL] at h
    · have ht' : u.reverses par l [.node l2 es] = false := by simpa using ht
      rw [unUnary_keep u par l _ ht', unUnary_keep u par l' ds (by rw [← hr]; exact ht')]
      simp only [mapLabel, PTree.node.injEq]
      refine ⟨h.1, ?_⟩
      rw [← h.1]
      match ds, h with
      | [d], h =>
        simp only [mapLabelL, List.cons.injEq, and_true] at h
        simp only [unUnaryL, mapLabelL, List.cons.injEq, and_true]
        exact unUnary_congr u (.node l2 es) d (some l.label) h.2
      | [], h => simp [mapLabelL] at h
      | a :: b :: ds, h => simp [mapLabelL] at h
  | .node l [], .node l' ds, par, h => by
    simp only [mapLabel, PTree.node.injEq] at h
    match ds, h with
    | [], h => simp [unUnary, unUnaryL, h.1]
    | _ :: _, h => simp [mapLabelL] at h
  | .node l [.leaf i], .node l' ds, par, h => by
    simp only [mapLabel, PTree.node.injEq] at h
    match ds, h with
    | [], h => simp [mapLabelL] at h
    | [.leaf j], h => simpa [unUnary, unUnaryL, mapLabel, mapLabelL] using h
    | [.node l3 fs], h => simp [mapLabelL, mapLabel] at h
    | a :: b :: ds, h => simp [mapLabelL] at h
  | .node l (a :: b :: cs), .node l' ds, par, h => by
    simp only [mapLabel, PTree.node.injEq] at h
    have hr := reverses_congr u par h.1 h.2
    have ht : u.reverses par l (a :: b :: cs) = false := by cases par <;> simp [Unary.reverses]
    rw [unUnary_keep u par l _ ht, unUnary_keep u par l' ds (by rw [← hr]; exact ht)]
    simp only [mapLabel, PTree.node.injEq]
    refine ⟨h.1, ?_⟩
    rw [← h.1]
    exact unUnaryL_congr u (a :: b :: cs) ds (some l.label) h.2
theorem unUnaryL_congr (u : Unary) : ∀ (x y : List T) (par : Option Str), mapLabelL Lab.label x = mapLabelL Lab.label y →
    mapLabelL Lab.label (unUnaryL u par x) = mapLabelL Lab.label (unUnaryL u par y)
  | [], [], par, _ => rfl
  | [], _ :: _, par, h => by simp [mapLabelL] at h
  | _ :: _, [], par, h => by simp [mapLabelL] at h
  | a :: as, b :: bs, par, h => by
    simp only [mapLabelL, List.cons.injEq] at h
    simp only [unUnaryL, mapLabelL]
    rw [unUnary_congr u a b par h.1, unUnaryL_congr u as bs par h.2]
end

theorem firstTerm_addUnaryL (u : Unary) (par : Option Str) (l l' : Lab) (cs : List T) :
    firstTerm (.node l' (addUnaryL u par cs)) = firstTerm (.node l cs) := by
  cases cs with
  | nil => simp [addUnaryL, firstTerm]
  | cons c cs =>
    cases c with
    | leaf i => simp [addUnaryL, addUnary, firstTerm]
    | node l2 ds =>
      simp only [addUnaryL, addUnary]
      split <;> simp [firstTerm]

mutual
theorem noSlash_addUnary (u : Unary) : ∀ (t : T) (par : Option Str), AllNodes noSlash t → AllNodes noSlash (addUnary u par t)
  | .leaf i, par, _ => by simp [addUnary, AllNodes]
  | .node l cs, par, h => by
    simp only [AllNodes] at h
    have ih := noSlashL_addUnaryL u cs (some l.label) h.2
    simp only [addUnary]
    split
    · simp only [AllNodes, AllNodesL, and_true]
      refine ⟨?_, ?_, ih⟩
      · intro hf; simp [firstTerm] at hf
      · intro hf
        rw [firstTerm_addUnaryL u _ l] at hf
        exact h.1 hf
    · simp only [AllNodes]
      refine ⟨?_, ih⟩
      intro hf
      rw [firstTerm_addUnaryL u _ l] at hf
      exact h.1 hf
theorem noSlashL_addUnaryL (u : Unary) : ∀ (ts : List T) (par : Option Str), AllNodesL noSlash ts →
    AllNodesL noSlash (addUnaryL u par ts)
  | [], par, _ => by simp [addUnaryL, AllNodesL]
  | c :: cs, par, h => by
    simp only [AllNodesL] at h
    simp only [addUnaryL, AllNodesL]
    exact ⟨noSlash_addUnary u c par h.1, noSlashL_addUnaryL u cs par h.2⟩
end

/-- **C66** The combination that the presets `lassy` (`nladdunary`, `nlselectmorph`, then state splits) and `fraser2013tiger`
(`addUnary`, `addCase`, then state splits) have in common: unary NPs, annotations with `/` of the tags,
and any state splits, are undone together. -/
theorem C66_unary_slash (un : Unary) (hun : un = tigerUnary ∨ un = dutchUnary) (f : Lab → Option Str)
    (splits : List Name) (hs : ∀ n ∈ splits, n.isSplit = true) (t u : T)
    (ho : Ordered t) (hok : AllNodes (noUnaryNP un) t) (hsl : AllNodes noSlash t)
    (hc : Clean (slash f (addUnary un none t)))
    (h : transform (.unary un :: .slash f :: splits) t = some u) :
    ∃ v, reversetransform (.unary un :: .slash f :: splits) u = some v ∧
      v.mapLabel Lab.label = t.mapLabel Lab.label := by
  have hu : un.Ok := by
    rcases hun with rfl | rfl
    · exact tigerUnary_ok
    · exact dutchUnary_ok
  have ha : applyAll [.unary un, .slash f] t = some (slash f (addUnary un none t)) := by
    by_cases hr : unaryRaises un none t = true
    · exfalso
      unfold transform at h
      simp [applyAll, Name.apply, hr] at h
    · simp [applyAll, Name.apply, hr]
  have hr := reverse_general [.unary un, .slash f] splits hs t _ u ha hc
    (ordered_slash f _ (ordered_addUnary un none t ho)) h
  have h1 := unSlash_slash f (addUnary un none t) (noSlash_addUnary un t none hsl)
  have h2 := unUnary_congr un _ _ none h1
  rw [unUnary_addUnary un hu t none hok (by simp)] at h2
  refine ⟨unUnary un none (unSlash (slash f (addUnary un none t))), ?_, h2⟩
  rw [show Name.unary un :: Name.slash f :: splits = [.unary un, .slash f] ++ splits from rfl, hr]
  exact finish ho h2

/-! ## Concrete cases

The trees below meet the hypotheses of the theorems above, and are changed by the transformations. -/

/-- A node with a function tag. -/
def fn (label func : String) (cs : List T) : T :=
  .node ⟨label.toList, some { noSrc with tag := label.toList, func := func.toList }, false⟩ cs

/-- A node without source. -/
def nd (label : String) (cs : List T) : T := .node ⟨label.toList, none, false⟩ cs

/-- A head without source. -/
def hdn (label : String) (cs : List T) : T := .node ⟨label.toList, none, true⟩ cs

/-- A discontinuous Negra-like tree: the relative clause is extraposed. -/
def exNegra : T :=
  fn "ROOT" "--" [
    fn "S" "--" [
      fn "NP" "SB" [fn "NN" "NK" [.leaf 0], fn "S" "RC" [fn "PRELS" "SB" [.leaf 2], fn "VVFIN" "HD" [.leaf 3]]],
      fn "VVFIN" "HD" [.leaf 1]],
    fn "$." "--" [.leaf 4]]

/-- Its sentence. -/
def exSent : List Str := ["Leute", "kommen", "die", "lachen", "."].map String.toList

/-- The hypotheses of `C66_presets` are met by a discontinuous tree, and the transformation changes its labels. -/
example : Clean exNegra ∧ Ordered exNegra ∧
    (transform (negra exSent) exNegra).map (fun u => u.mapLabel Lab.label) =
      some (.node "ROOT".toList [
        .node "S".toList [
          .node "NP^SB".toList [.node "NN".toList [.leaf 0],
            .node "S^RC".toList [.node "PRELS".toList [.leaf 2], .node "VVFIN".toList [.leaf 3]]],
          .node "VVFIN".toList [.leaf 1]],
        .node "$.^.".toList [.leaf 4]]) := by
  refine ⟨?_, ?_, by decide +kernel⟩
  · simp only [Clean, exNegra, fn, AllNodes, AllNodesL, cleanLabel]; decide +kernel
  · simp [exNegra, fn, Ordered, OrderedL, key, PTree.leaves, PTree.leavesL]

/-- The preset `wsj` on a tree with the heads marked. -/
example :
    let t := nd "SBAR" [nd "S" [nd "WHNP" [nd "WP" [.leaf 0]], hdn "VP" [hdn "VB" [.leaf 1]]]]
    Clean t ∧ Ordered t ∧ (transform wsj t).map (fun u => u.mapLabel Lab.label) =
      some (.node "SBAR".toList [.node "S^WH".toList [.node "WHNP".toList [.node "WP".toList [.leaf 0]],
        .node "VP^HINF".toList [.node "VB".toList [.leaf 1]]]]) := by
  refine ⟨?_, ?_, by decide +kernel⟩
  · simp only [Clean, nd, hdn, AllNodes, AllNodesL, cleanLabel]; decide +kernel
  · simp [nd, hdn, Ordered, OrderedL, key, PTree.leaves, PTree.leavesL]

/-- The hypotheses of `C66_funcnode` are met, with a node that has two function tags. -/
example :
    let t := fn "S" "--" [fn "NP" "SBJ-TMP" [fn "NN" "--" [.leaf 0]], fn "VB" "HD" [.leaf 1]]
    Ordered t ∧ AllNodes funcNodeOk t ∧ Clean (funcNode t) ∧
    (transform (.funcNode :: negra exSent) t).map (fun u => u.mapLabel Lab.label) =
      some (.node "S".toList [.node "-SBJ-TMP".toList [.node "NP^".toList [.node "NN".toList [.leaf 0]]],
        .node "-HD".toList [.node "VB".toList [.leaf 1]]]) := by
  refine ⟨?_, ?_, ?_, by decide +kernel⟩
  · simp [fn, Ordered, OrderedL, key, PTree.leaves, PTree.leavesL]
  · simp only [fn, AllNodes, AllNodesL, funcNodeOk, Option.some.injEq, forall_eq']; decide +kernel
  · rw [show funcNode (fn "S" "--" [fn "NP" "SBJ-TMP" [fn "NN" "--" [.leaf 0]], fn "VB" "HD" [.leaf 1]]) =
      fn "S" "--" [.node ⟨"-SBJ-TMP".toList, some { noSrc with tag := "NP".toList, func := "SBJ-TMP".toList }, false⟩
        [nd "NP" [fn "NN" "--" [.leaf 0]]],
        .node ⟨"-HD".toList, some { noSrc with tag := "VB".toList, func := "HD".toList }, false⟩ [nd "VB" [.leaf 1]]]
      from by decide +kernel]
    simp only [Clean, fn, nd, AllNodes, AllNodesL, cleanLabel]; decide +kernel

/-- The hypotheses of `C66_appendfunc` are met. -/
example :
    let t := fn "S" "--" [fn "NP" "SBJ-TMP" [fn "NN" "--" [.leaf 0]], fn "-LRB-" "--" [.leaf 1]]
    Ordered t ∧ AllNodes appendFuncOk t ∧ Clean (t.mapLabel appendFuncLab) ∧
    (transform (.appendFunc :: negra exSent) t).map (fun u => u.mapLabel Lab.label) =
      some (.node "S".toList [.node "NP-SBJ-TMP".toList [.node "NN".toList [.leaf 0]],
        .node "-LRB-".toList [.leaf 1]]) := by
  refine ⟨?_, ?_, ?_, by decide +kernel⟩
  · simp [fn, Ordered, OrderedL, key, PTree.leaves, PTree.leavesL]
  · simp only [fn, AllNodes, AllNodesL, appendFuncOk, Option.some.injEq, forall_eq']; decide +kernel
  · simp only [Clean, fn, PTree.mapLabel, PTree.mapLabelL, AllNodes, AllNodesL, cleanLabel]; decide +kernel

/-- The hypotheses of `C66_unary` and `C66_unary_slash` are met by a Dutch sentence. -/
example :
    let t := fn "SMAIN" "--" [fn "n" "su" [.leaf 0], fn "ww" "hd" [.leaf 1], fn "PP" "mod" [fn "vz" "hd" [.leaf 2],
      fn "n" "obj1" [.leaf 3]]]
    Ordered t ∧ AllNodes (noUnaryNP dutchUnary) t ∧ AllNodes noSlash t ∧ Clean (addUnary dutchUnary none t) ∧
    (transform [.unary dutchUnary, .slash (fun l => if l.label = ['n'] then some "ev".toList else none)] t).map
      (fun u => u.mapLabel Lab.label) =
      some (.node "SMAIN".toList [.node "NP".toList [.node "n/ev".toList [.leaf 0]], .node "ww".toList [.leaf 1],
        .node "PP".toList [.node "vz".toList [.leaf 2], .node "NP".toList [.node "n/ev".toList [.leaf 3]]]]) := by
  refine ⟨?_, ?_, ?_, ?_, by decide +kernel⟩
  · simp [fn, Ordered, OrderedL, key, PTree.leaves, PTree.leavesL]
  · simp only [fn, AllNodes, AllNodesL, noUnaryNP]
    simp [dutchUnary, strip, upto, base]
  · simp only [fn, AllNodes, AllNodesL, noSlash]; decide +kernel
  · simp [fn, addUnary, addUnaryL, Clean, AllNodes, AllNodesL, cleanLabel, Unary.applies, dutchUnary, strip, upto,
      Unary.above, Unary.below]

/-! ## Where the reversal does not give back the tree -/

/-- 'MORPH-NODE' puts the morphology below the part-of-speech tag, but its reversal takes the upper label for the
morphology and keeps the lower one: on **every** preterminal of a tree the label is replaced by the morphological
features, so that a tree with a preterminal whose features differ from its label is never restored. -/
theorem C66_morphnode_swaps (l : Lab) (i : Nat) :
    Name.morphNode.undo (insertBelow morphOf (.node l [.leaf i])) =
      .node ⟨morphOf l, some { noSrc with morph := l.label, tag := morphOf l }, l.head⟩ [.leaf i] := by
  simp [Name.undo, insertBelow, insertBelowL, removeBelow, removeBelowL, overPreterm, firstTerm, mergeFirst, updMorph]

/-- … a concrete tree: the tags come out as `Nom.Sg`. -/
theorem C66_morphnode_disagreement : ∃ t u v : T, Clean t ∧ Ordered t ∧ transform [.morphNode] t = some u ∧
    reversetransform [.morphNode] u = some v ∧ v.mapLabel Lab.label ≠ t.mapLabel Lab.label := by
  refine ⟨.node ⟨"NP".toList, none, false⟩ [.node ⟨"NN".toList, some { noSrc with morph := "Nom.Sg".toList }, true⟩
    [.leaf 0]], _, _, ?_, ?_, rfl, rfl, by decide +kernel⟩
  · simp only [Clean, AllNodes, AllNodesL, cleanLabel]; decide +kernel
  · simp [Ordered, OrderedL]

/-- A label that already has a `^` is not restored, not even when there are no transformations. -/
theorem C66_caret_disagreement : ∃ t u v : T, Ordered t ∧ transform [] t = some u ∧
    reversetransform [] u = some v ∧ v ≠ t := by
  refine ⟨nd "NP^x" [.leaf 0], _, _, ?_, rfl, rfl, by decide +kernel⟩
  simp [nd, Ordered, OrderedL]

/-- 'APPEND-FUNC': a `-` in a label is taken for a function tag. -/
theorem C66_appendfunc_disagreement : ∃ t u v : T, Clean t ∧ Ordered t ∧ transform [.appendFunc] t = some u ∧
    reversetransform [.appendFunc] u = some v ∧ v.mapLabel labelFunc ≠ t.mapLabel labelFunc := by
  refine ⟨fn "NP-X" "SB" [fn "NN" "--" [.leaf 0]], _, _, ?_, ?_, rfl, rfl, by decide +kernel⟩
  · simp only [Clean, fn, AllNodes, AllNodesL, cleanLabel]; decide +kernel
  · simp [fn, Ordered, OrderedL]

/-- 'nladdunary': an NP over a single noun that was in the tree from the start is removed. -/
theorem C66_unary_disagreement : ∃ t u v : T, Clean t ∧ Ordered t ∧ transform [.unary dutchUnary] t = some u ∧
    reversetransform [.unary dutchUnary] u = some v ∧ v.mapLabel Lab.label ≠ t.mapLabel Lab.label := by
  refine ⟨fn "PP" "mod" [fn "NP" "obj1" [fn "n" "hd" [.leaf 0]]], _, _, ?_, ?_, rfl, rfl, by decide +kernel⟩
  · simp only [Clean, fn, AllNodes, AllNodesL, cleanLabel]; decide +kernel
  · simp [fn, Ordered, OrderedL]

/-- 'LEMMA-NODE': label and lemma of a preterminal are restored (`C66_lemmanode`), its function tags are lost. -/
theorem C66_lemmanode_disagreement : ∃ t u v : T, Clean t ∧ Ordered t ∧ AllNodes lemmaOk t ∧
    transform [.lemmaNode] t = some u ∧
    reversetransform [.lemmaNode] u = some v ∧ v.mapLabel labelFunc ≠ t.mapLabel labelFunc := by
  refine ⟨fn "NP" "--" [.node ⟨"NN".toList, some { noSrc with lemm := "Haus".toList, func := "HD".toList }, true⟩
    [.leaf 0]], _, _, ?_, ?_, ?_, rfl, rfl, by decide +kernel⟩
  · simp only [Clean, fn, AllNodes, AllNodesL, cleanLabel]; decide +kernel
  · simp [fn, Ordered, OrderedL]
  · simp only [fn, AllNodes, AllNodesL, lemmaOk, firstTerm]
    refine ⟨fun h => by simp at h, ⟨fun _ s hs => ?_, trivial, trivial⟩, trivial⟩
    cases hs
    exact ⟨by decide +kernel, by decide +kernel, (Str.find_eq_none_iff _ _).1 (by decide +kernel),
      (Str.find_eq_none_iff _ _).1 (by decide +kernel), (Str.find_eq_none_iff _ _).1 (by decide +kernel)⟩

end Disco.Transf
