import Verif.Format.Bracket
import Verif.Basic.Sort
import Mathlib.Algebra.Order.Field.Basic
import Mathlib.Algebra.BigOperators.Group.List.Basic
import Mathlib.Algebra.Order.BigOperators.Group.List
/-!
# C57: selecting parse trees from a list of derivations (model)

`discodop/disambiguation.pyx`: `marginalize` (81-279) for the objectives `mpp`, `mpd` and `shortest`, `testconstraints` (282-287),
`sldop_simple` (486-543) for DOP reductions, `fragmentsinderiv_str` (658-671), `frontiernt`, `splitfrag` (752-769).

A derivation is given by the string that `getderivations` puts in `chart.derivations` (for Double-DOP: the result of `recoverfragments`, which
is modelled in `Verif.Grammar.DoubleDop`) and by its cost, the negative log probability. Simplifications: costs range over a linear order `C`
and probabilities over an ordered field `K`; the conversion `p` of the former to the latter stands for `exp(-cost)`. Two dictionaries that have
the same keys (`mpdtrees` and `derivs`, `derivlen` and `derivs`, `mpptrees` and `derivs`) are modelled as one dictionary of pairs, and the
unspecified order of the hash table `mpptrees` as the order of insertion; the order of the results is documented as arbitrary. The option
`ostag` is not modelled.
-/
namespace Disco.Disamb
open PTree _root_.Disco.Bracket

/-- The class `[-0-9]`. -/
def idChar (c : Char) : Bool := c.isDigit || c == '-'

/-- `REMOVEIDS.sub(r, s)` with `REMOVEIDS = re.compile('@[-0-9]+')` (disambiguation.pyx:50); the flag is set while the characters of a match
are being skipped. -/
def removeIds (r : Str) : Bool → Str → Str
  | _, [] => []
  | b, c :: s =>
    if b && idChar c then removeIds r true s
    else if c == '@' && s.head?.any idChar then r ++ removeIds r true s
    else c :: removeIds r false s

/-- `d[k] = f(d.get(k))`. -/
def upd {V : Type} (d : Dict Str V) (k : Str) (f : Option V → V) : Dict Str V := Dict.set d k (f (Dict.get? d k))

/-- The objective functions that are modelled. -/
inductive Method where
  | mpp
  | mpd
  | shortest
  deriving DecidableEq, Repr

/-- The second component of a result: a probability, or a pair for shortest derivation parsing. -/
inductive Score (K : Type) where
  | prob (p : K)
  | short (n : ℤ) (p : K)
  deriving DecidableEq, Repr

variable {C K D : Type} [LinearOrder C] [Field K] [LinearOrder K]

/-- `mpptrees[treestr].push_back(-prob)`, `if treestr not in derivs: derivs[treestr] = n` (186-188, 220-222). -/
def stepMpp (d : Dict Str (List C × D)) (x : Str × C × D) : Dict Str (List C × D) :=
  upd d x.1 (fun o => match o with
    | none => ([x.2.1], x.2.2)
    | some (cs, n) => (cs ++ [x.2.1], n))

/-- `if treestr not in mpdtrees or -prob > mpdtrees[treestr]` (181-185, 215-219). -/
def stepMpd (d : Dict Str (C × D)) (x : Str × C × D) : Dict Str (C × D) :=
  upd d x.1 (fun o => match o with
    | none => (x.2.1, x.2.2)
    | some (c, n) => if x.2.1 < c then (x.2.1, x.2.2) else (c, n))

/-- `score > derivlen[treestr]` for pairs. -/
def lexLt (a b : ℤ × K) : Bool := a.1 < b.1 || (a.1 == b.1 && a.2 < b.2)

/-- Shortest derivation with Double-DOP (172-180). -/
def stepShortDD (d : Dict Str ((ℤ × K) × D)) (x : Str × (ℤ × K) × D) : Dict Str ((ℤ × K) × D) :=
  upd d x.1 (fun o => match o with
    | none => (x.2.1, x.2.2)
    | some (s, n) => if lexLt s x.2.1 then (x.2.1, x.2.2) else (s, n))

/-- Shortest derivation with a DOP reduction (203-213): the probabilities in the other model are added up. -/
def stepShort (d : Dict Str ((ℤ × K) × D)) (x : Str × (ℤ × K) × D) : Dict Str ((ℤ × K) × D) :=
  upd d x.1 (fun o => match o with
    | none => (x.2.1, x.2.2)
    | some (s, n) => ((s.1, s.2 + x.2.1.2), n))

/-- The least cost (150-153, 158). -/
def minCost : C → List C → C
  | c, [] => c
  | c, d :: ds => minCost (if d < c then d else c) ds

/-- `[x for x in xs if cost(x) == min(...)]` (148-161). -/
def onlyShortest {X : Type} (cost : X → C) (xs : List X) : List X :=
  match xs with
  | [] => []
  | x :: rest => xs.filter (fun y => cost y == minCost (cost x) (rest.map cost))

/-- `logprobsum` of the costs of the derivations of a tree (containers.pxd:811-837), in exact arithmetic; see `C57_logprobsum` for the
streaming algorithm. -/
def total (p : C → K) (cs : List C) : K := (cs.map p).sum

/-- `marginalize(method, chart)` for a DOP reduction (`backtransform is None`), up to the constraints (146-270). `derivations` is
`chart.derivations`; `alts` has, for each of the *original* derivations, its probability in the other model, `exp(-getderivprob(...))`;
`trunc c` is `int(c / log(0.5))`. -/
def marginalizeDop (p : C → K) (trunc : C → ℤ) {F : Type} (frags : Str → F) (m : Method) (derivations : List (Str × C)) (alts : List K) :
    List (Str × Score K × F) :=
  match m with
  | .mpp => ((derivations.map (fun (d, c) => (removeIds [] false d, c, d))).foldl stepMpp []).map
      (fun (t, cs, d) => (t, .prob (total p cs), frags d))
  | .mpd => ((derivations.map (fun (d, c) => (removeIds ['@', '1'] false d, c, d))).foldl stepMpd []).map
      (fun (t, c, d) => (removeIds [] false t, .prob (p c), frags d))
  | .shortest => ((((onlyShortest Prod.snd derivations).zip alts).map
        (fun ((d, c), q) => (removeIds ['@', '1'] false d, (trunc c, q), d))).foldl stepShort []).map
      (fun (t, (a, b), d) => (removeIds [] false t, .short (-a) b, frags d))

/-- `marginalize(method, chart)` for Double-DOP, up to the constraints (146-188, 234-270). For each entry of `chart.rankededges[root]`: the
result of `recoverfragments` (`none` when it raises: the entry is skipped), the cost, the probability in the other model, and the derivation. -/
def marginalizeDD (p : C → K) (trunc : C → ℤ) {F : Type} (frags : D → F) (m : Method) (entries : List (Option Str × C × K × D)) :
    List (Str × Score K × F) :=
  match m with
  | .mpp => ((entries.filterMap (fun (t, c, _, d) => t.map (fun t => (t, c, d)))).foldl stepMpp []).map
      (fun (t, cs, d) => (t, .prob (total p cs), frags d))
  | .mpd => ((entries.filterMap (fun (t, c, _, d) => t.map (fun t => (t, c, d)))).foldl stepMpd []).map
      (fun (t, c, d) => (t, .prob (p c), frags d))
  | .shortest => (((onlyShortest (fun e => e.2.1) entries).filterMap
        (fun (t, c, q, d) => t.map (fun t => (t, (trunc c, q), d)))).foldl stepShortDD []).map
      (fun (t, (a, b), d) => (t, .short (-a) b, frags d))

/-! ### Constraints -/

/-- An optional part of a label: the character `c` and a non-empty run of characters outside `stop`. -/
def optPart (c : Char) (stop : List Char) (r : Str) : Str × Str :=
  match r with
  | [] => ([], [])
  | x :: t =>
    if x = c ∧ t.takeWhile (fun y => y ∉ stop) ≠ [] then (x :: t.takeWhile (fun y => y ∉ stop), t.dropWhile (fun y => y ∉ stop))
    else ([], r)

/-- `REMOVESTATESPLITS` (54-59) on a label: the first group, or `none` when the label does not match. The parts exclude the characters that
introduce the next ones, so that there is at most one match. -/
def splitLabel (l : Str) : Option Str :=
  let b := l.takeWhile (fun y => y ∉ ['-', '/', '^', '|', ':'])
  let r := l.dropWhile (fun y => y ∉ ['-', '/', '^', '|', ':'])
  let f := optPart '-' ['/', '^', '|', ':'] r
  let g := optPart '/' ['^', '|', ':'] f.2
  let s := optPart '^' ['|', ':'] g.2
  if b ≠ [] ∧ s.2 = [] then some (b ++ f.1 ++ g.1) else none

/-- `REMOVESTATESPLITS.sub(r'\1 ', s)` (54-59, 286): the pattern is a `(`, a label and a blank; the number counts the characters of a match
that are still to be skipped. -/
def removeSplits (ws : Char → Bool) : Nat → Str → Str
  | _, [] => []
  | n + 1, _ :: s => removeSplits ws n s
  | 0, c :: s =>
    if c = '(' ∧ (s.dropWhile (tokChar ws)).head? = some ' ' then
      match splitLabel (s.takeWhile (tokChar ws)) with
      | some l => '(' :: (l ++ removeSplits ws (s.takeWhile (tokChar ws)).length s)
      | none => '(' :: removeSplits ws 0 s
    else c :: removeSplits ws 0 s

/-- `{(node.label, tuple(sorted(node.leaves()))) for node in tree.subtrees()}` (284-286). -/
def spans (t : PTree Str) : List (Str × List Nat) :=
  (subtrees t).map (fun n => (n.label?.getD [], stableSort (fun a b => decide (a ≤ b)) n.leaves))

/-- `testconstraints(treestr, require, block)` (282-287); `none` is the exception when the string is not a tree. -/
def testconstraints (ws : Char → Bool) (pyInt : Str → Option Nat) (treestr : Str) (require block : List (Str × List Nat)) : Option Bool :=
  (parseTree ws pyInt (removeSplits ws 0 treestr)).map (fun t =>
    require.all (fun x => decide (x ∈ spans t)) && block.all (fun x => !decide (x ∈ spans t)))

/-- `if require or block: results = [... if testconstraints(treestr, require, block)]` (275-277). -/
def constrain (ws : Char → Bool) (pyInt : Str → Option Nat) {X : Type} (require block : List (Str × List Nat)) (results : List (Str × X)) :
    Option (List (Str × X)) :=
  if require = [] ∧ block = [] then some results
  else (results.mapM (fun r => (testconstraints ws pyInt r.1 require block).map (fun b => (r, b)))).map
    (fun rs => (rs.filter Prod.snd).map Prod.fst)

/-! ### Fragments -/

/-- A fragment: terminals, substitution sites `(label min:max)` and nodes. -/
inductive Frag where
  | leaf (i : Nat)
  | site (l : Str) (min max : Nat)
  | node (l : Str) (cs : List Frag)
  deriving Repr

/-- `min(child.leaves())`; `0` is never used, since trees have leaves. -/
def minLeaf (t : PTree Str) : Nat := t.leaves.min?.getD 0
/-- `max(child.leaves())`. -/
def maxLeaf (t : PTree Str) : Nat := t.leaves.max?.getD 0

mutual
/-- A child in `splitfrag` (757-769): addressed children are part of the fragment, other constituents are replaced by substitution sites.
`child if isinstance(child[0], int) else splitfrag(child)`: a preterminal is its own copy. -/
def splitChild : PTree Str → Frag
  | .leaf i => .leaf i
  | .node l cs => if '@' ∈ l then .node (removeIds [] false l) (splitChildren cs)
    else .site (removeIds [] false l) (minLeaf (.node l cs)) (maxLeaf (.node l cs))
/-- The children of a node in `splitfrag`. -/
def splitChildren : List (PTree Str) → List Frag
  | [] => []
  | c :: cs => splitChild c :: splitChildren cs
end

/-- `splitfrag(node)` (757-769), with the addresses removed from the labels (668). -/
def splitfrag : PTree Str → Frag
  | .leaf i => .leaf i
  | .node l cs => .node (removeIds [] false l) (splitChildren cs)

/-- `frontiernt(node)` (752-754). -/
def frontiernt (t : PTree Str) : Bool := !decide ('@' ∈ t.label?.getD [])

/-- `fragmentsinderiv_str(deriv, chart, None)` (658-671), without the conversion of the fragments to strings with the words of the sentence. -/
def fragmentsinderiv (ws : Char → Bool) (pyInt : Str → Option Nat) (deriv : Str) : Option (List Frag) :=
  (parseTree ws pyInt deriv).map (fun t => ((subtrees t).filter frontiernt).map splitfrag)

/-! ### SL-DOP from a list of derivations -/

/-- Put a character before a string that has been split: it is the first of the first word unless white space follows. -/
def glue (ws : Char → Bool) (c : Char) : Str → List Str → List Str
  | d :: _, w :: rest => if ws d then [c] :: w :: rest else (c :: w) :: rest
  | _, rest => [c] :: rest

/-- `deriv.split()`. -/
def splitWs (ws : Char → Bool) : Str → List Str
  | [] => []
  | c :: s => if ws c then splitWs ws s else glue ws c s (splitWs ws s)

/-- `x in s` for strings. -/
def hasSub (x : Str) : Str → Bool
  | [] => x.isEmpty
  | c :: s => x.isPrefixOf (c :: s) || hasSub x s

/-- `deriv.count('(') - len([a for a in deriv.split() if '@' in a or '}<' in a])` (527-529). -/
def derivLen (ws : Char → Bool) (deriv : Str) : ℤ :=
  deriv.count '(' - ((splitWs ws deriv).filter (fun a => decide ('@' ∈ a) || hasSub ['}', '<'] a)).length

/-- `derivsfortree[tree].add(deriv)` for the derivations of the dictionary (504-507). -/
def stepTree (d : Dict Str (List Str)) (x : Str) : Dict Str (List Str) :=
  upd d (removeIds [] false x) (fun o => o.getD [] ++ [x])

/-- Lexicographic comparison of strings by code points. -/
def strLe : Str → Str → Bool
  | [], _ => true
  | _ :: _, [] => false
  | a :: s, b :: t => a.toNat < b.toNat || (a.toNat == b.toNat && strLe s t)

/-- `min` of a list of pairs `(score, deriv)`. -/
def minPair : (ℤ × Str) → List (ℤ × Str) → ℤ × Str
  | a, [] => a
  | a, b :: rest => minPair (if b.1 < a.1 || (b.1 == a.1 && !strLe a.2 b.2) then b else a) rest

/-- The result for one of the selected trees (526-540); a tree has at least one derivation. -/
def slResult (ws : Char → Bool) {F : Type} (frags : Str → F) (x : Str × List Str × K) : Option (Str × Score K × F) :=
  match x.2.1.map (fun d => (derivLen ws d, d)) with
  | [] => none
  | y :: ys => some (x.1, .short (-(minPair y ys).1) x.2.2, frags (minPair y ys).2)

/-- `sldop_simple(sldop_n, chart)` for a DOP reduction (486-543): `dict(chart.derivations)`, the trees with their derivations and
probabilities, `nlargest`, and for each of these trees its shortest derivation. -/
def sldopSimple (ws : Char → Bool) (p : C → K) {F : Type} (frags : Str → F) (n : Nat) (derivations : List (Str × C)) : List (Str × Score K × F) :=
  let ders : Dict Str C := derivations.foldl (fun d x => Dict.set d x.1 x.2) []
  let trees := ((Dict.keys ders).foldl stepTree []).map (fun (t, ds) => (t, ds, total p (ds.filterMap (Dict.get? ders))))
  ((stableSort (fun a b => decide (b.2.2 ≤ a.2.2)) trees).take n).filterMap (slResult ws frags)

end Disco.Disamb
