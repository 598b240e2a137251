import Mathlib.Data.List.Basic
import Mathlib.Data.List.Nodup
import Mathlib.Data.List.Perm.Basic
import Verif.Basic.Dict
import Verif.Basic.Sort
import Verif.Trees.Canonical
import Verif.Format.Escape
import Verif.Format.ExportText
/-!
# C14: the export format

`writeexporttree` (treebank.py:753-827) and `exporttree` (treebank.py:544-579).
-/
namespace Disco.Export
open PTree

/-- The attributes `label` and `source` of a node (tree.py:82-103). -/
structure Lab where
  label : Str
  source : Option (List Str)
  deriving DecidableEq

/-- The parameter `morphology`; `between` (which adds nodes) is not modelled. -/
inductive Morph where
  | no | add | replace
  deriving DecidableEq

/-- The identity of a node: its position. -/
abbrev Path := List Nat

/-- `not node or isinstance(node[0], Tree)` (treebank.py:776). -/
def isPhrasal : PTree Lab → Bool
  | .leaf _ => false
  | .node _ [] => true
  | .node _ (.node _ _ :: _) => true
  | .node _ (.leaf _ :: _) => false

/-- The children of the node at `p` with their positions. -/
def enumKids (p : Path) : Nat → List (PTree Lab) → List (Path × PTree Lab)
  | _, [] => []
  | i, c :: cs => (p ++ [i], c) :: enumKids p (i + 1) cs

/-- The loop of treebank.py:774-783; the top of the agenda is the first element, and the first argument bounds the number of iterations. `none`
models the `TypeError` when a terminal is on the agenda. -/
def visit : Nat → List (Path × PTree Lab) → Dict Nat (Path × Lab) → List (Path × Lab) → Option (Dict Nat (Path × Lab) × List (Path × Lab))
  | 0, _, _, _ => none
  | _ + 1, [], pre, ph => some (pre, ph)
  | _ + 1, (_, .leaf _) :: _, _, _ => none
  | f + 1, (p, .node l (.leaf i :: _)) :: agenda, pre, ph => visit f agenda (Dict.set pre i (p, l)) ph
  | f + 1, (p, .node l cs) :: agenda, pre, ph => visit f ((enumKids p 0 cs).reverse ++ agenda) pre (ph ++ [(p, l)])

mutual
/-- The number of nodes (including terminals). -/
def count : PTree Lab → Nat
  | .leaf _ => 1
  | .node _ cs => countL cs + 1
/-- The number of nodes in a list of trees. -/
def countL : List (PTree Lab) → Nat
  | [] => 0
  | c :: cs => count c + countL cs
end

/-- `x or '--'`. -/
def orDash (s : Str) : Str := if s = [] then dash else s

/-- One element of `nodeidindex` (treebank.py:790-792); `none` models `ValueError`. -/
def nodeId (pyInt : Str → Option Int) (l : Lab) : Option Int :=
  match l.source with
  | none => some 0
  | some [] => some 0
  | some (('#' :: w) :: _) => pyInt w
  | some _ => some 0

/-- `zip(xs[0::2], xs[1::2])`. -/
def pairs : List Str → List (Str × Str)
  | a :: b :: r => (a, b) :: pairs r
  | _ => []

/-- The identifier of the `k`th phrasal node. -/
def ident (k : Nat) : Str := Nat.toDigits 10 (500 + k)

/-- `collectsecedges` (treebank.py:755-764). -/
def secEdges (pyInt : Str → Option Int) (ids : List Int) (l : Lab) : List Str :=
  (pairs ((l.source.getD []).drop 6)).flatMap fun e =>
    match pyInt e.2 with
    | none => []
    | some i => match ids.findIdx? (· = i) with
      | none => []
      | some k => [e.1, ident k]

/-- The fields lemma, morphological tag and function (treebank.py:799-804 and 817-821); `none` models `IndexError`. -/
def attrs (l : Lab) : Option (Str × Str × Str) :=
  match l.source with
  | none => some (dash, dash, dash)
  | some [] => some (dash, dash, dash)
  | some s => do return (orDash (← s[1]?), orDash (← s[3]?), orDash (← s[4]?))

/-- The POS tag and morphological tag that are written (treebank.py:800-809). -/
def tagMorph (act : Morph) (label morph : Str) : Str × Str :=
  let postag := orDash (Escape.replace ['$', '['] ['$', '('] label)
  if morph = dash ∧ act = .replace then (postag, postag)
  else if morph = dash ∧ act = .add ∧ '/' ∈ postag then (postag.takeWhile (· ≠ '/'), (postag.dropWhile (· ≠ '/')).drop 1)
  else (postag, morph)

/-- The identifier of the parent (treebank.py:810-811). -/
def parentId (idindex : List Path) (p : Path) : Option Str :=
  if p.dropLast = [] then some ['0'] else (idindex.findIdx? (· = p.dropLast)).map ident

/-- The row of a word (treebank.py:793-813). -/
def tokenRow (act : Morph) (word : Str) (l : Lab) (parent : Str) (sec : List Str) : Option (List Str) :=
  (attrs l).map fun a =>
    [if word = [] then ['.', '.', '.'] else word, a.1, (tagMorph act l.label a.2.1).1, (tagMorph act l.label a.2.1).2, a.2.2, parent] ++ sec

/-- The row of a phrasal node (treebank.py:814-825). -/
def phrasalRow (n : Nat) (l : Lab) (parent : Str) (sec : List Str) : Option (List Str) :=
  (attrs l).map fun a => ['#' :: ident n, dash, orDash l.label, a.2.1, a.2.2, parent] ++ sec

/-- A loop that collects results, any of which may raise an exception. -/
def mapO {α β : Type} (f : α → Option β) : List α → Option (List β)
  | [] => some []
  | a :: l => match f a with
    | none => none
    | some b => match mapO f l with
      | none => none
      | some bs => some (b :: bs)

/-- The rows of `writeexporttree` once the nodes have been collected (treebank.py:784-826): `ph` are the phrasal nodes in the order of their
identifiers, `pre` the preterminals. -/
def rowsOf (pyInt : Str → Option Int) (act : Morph) (pre : Dict Nat (Path × Lab)) (ph : List (Path × Lab)) (sent : List Str) :
    Option (List (List Str)) :=
  if sent.length ≠ pre.length then none
  else match mapO (fun x => nodeId pyInt x.2) ph with
  | none => none
  | some ids =>
    match mapO (fun (x : Str × Nat) =>
        (Dict.get? pre x.2).bind fun node => (parentId (ph.map (·.1)) node.1).bind fun parent =>
          tokenRow act x.1 node.2 parent (secEdges pyInt ids node.2)) sent.zipIdx,
      mapO (fun (x : (Path × Lab) × Nat) => (parentId (ph.map (·.1)) x.1.1).bind fun parent =>
          phrasalRow x.2 x.1.2 parent (secEdges pyInt ids x.1.2)) ph.zipIdx with
    | some toks, some phr => some (toks ++ phr)
    | _, _ => none

/-- The rows of `writeexporttree` (treebank.py:772-826). -/
def writeRows (pyInt : Str → Option Int) (act : Morph) (t : PTree Lab) (sent : List Str) : Option (List (List Str)) :=
  match visit (countL t.children + 1) (enumKids [] 0 t.children).reverse [] [] with
  | none => none
  | some (pre, rev) => rowsOf pyInt act pre rev.reverse sent

/-- `EXPORTNONTERMINAL.match(word)` (treebank.py:24): the group of `^#([5-9][0-9][0-9])$`. -/
def isNT : Str → Option Str
  | ['#', a, b, c] => if '5' ≤ a ∧ a ≤ '9' ∧ '0' ≤ b ∧ b ≤ '9' ∧ '0' ≤ c ∧ c ≤ '9' then some [a, b, c] else none
  | _ => none

/-- `s.replace('(', '[').replace(')', ']')`. -/
def paren (s : Str) : Str := s.map fun c => if c = '(' then '[' else if c = ')' then ']' else c

/-- A field of a row; the rows from `exportsplit` have at least 6 fields. -/
def fld (row : List Str) (i : Nat) : Str := (row[i]?).getD []

/-- The label of a preterminal (treebank.py:555 and `handlemorphology`, treebank.py:966-1003, without lemmas). -/
def readLabel (act : Morph) (row : List Str) : Str :=
  match act with
  | .no => paren (fld row 2)
  | .add => paren (fld row 2) ++ '/' :: paren (fld row 3)
  | .replace => paren (fld row 3)

/-- `getchildren` (treebank.py:549-563), with a bound on the depth of the recursion. -/
def getchildren (act : Morph) (children : Dict Str (List (Nat × List Str))) : Nat → Str → Option (List (PTree Lab))
  | 0, _ => none
  | f + 1, parent => mapO (fun x =>
    match isNT (fld x.2 0) with
    | some id => (getchildren act children f id).map fun cs => .node ⟨paren (fld x.2 2), some x.2⟩ cs
    | none => some (.node ⟨readLabel act x.2, some x.2⟩ [.leaf x.1])) ((Dict.get? children parent).getD [])

/-- The keys of the dictionary of children (treebank.py:568-574). -/
def childKeys (rows : List (List Str)) : Dict Str (List (Nat × List Str)) :=
  rows.foldl (fun d src => match isNT (fld src 0) with | some id => Dict.set d id [] | none => d) [(['0'], [])]

/-- `for n, source in enumerate(table): children[source[PARENT]].append((n, source))` (treebank.py:575-576); `none` models `KeyError`. -/
def childFill : List (List Str × Nat) → Dict Str (List (Nat × List Str)) → Option (Dict Str (List (Nat × List Str)))
  | [], d => some d
  | (src, n) :: rows, d =>
    match Dict.get? d (fld src 5) with
    | none => none
    | some xs => childFill rows (Dict.set d (fld src 5) (xs ++ [(n, src)]))

/-- The label of the root (treebank.py:577). -/
def rootLab : Lab := ⟨['R', 'O', 'O', 'T'], none⟩

/-- The part of `exporttree` (treebank.py:566-577) that works on the fields of the lines. -/
def readRows (act : Morph) (rows : List (List Str)) : Option (PTree Lab × List Str) :=
  match childFill rows.zipIdx (childKeys rows) with
  | none => none
  | some children => match getchildren act children (rows.length + 1) ['0'] with
    | none => none
    | some cs => some (.node rootLab cs, (rows.filter fun src => (isNT (fld src 0)).isNone).map (fld · 0))

end Disco.Export
