import Verif.Basic.Sort
import Mathlib.Algebra.Order.Group.Defs
import Mathlib.Algebra.Order.Group.Int
import Mathlib.Algebra.Order.Monoid.Unbundled.Basic
import Mathlib.Data.List.Nodup
import Mathlib.Data.List.Perm.Subperm
import Mathlib.Data.List.Infix
import Mathlib.Logic.Relation
/-!
# C26: k-best extraction (Huang & Chiang 2005, algorithm 3), `discodop/kbest.pyx:15-294`

Simplifications: costs are exact elements of a linearly ordered commutative monoid instead of floats. An agenda (`_containers.h:39-207`)
is a list of (key, cost) pairs in the order of their counters; `pop` takes out the first entry with the least cost, which is the order
`(value, count)` of the C++ class (see C19; a key is added to an agenda of `kbest.pyx` at most once, so that no stale heap entries arise).
Errors (ValueError, AssertionError, `abort()`, reading beyond the end of a vector) are `none`. A derivation is returned as a tree instead
of its bracket notation.
-/
set_option linter.unusedSectionVars false
namespace Disco.Kbest

/-- `Edge` (_containers.h:262-274): a rule number (`none` for `rule == NULL`, a lexical edge) and the position field `pos.lvec`. -/
structure Edge where
  rule : Option Nat
  pos : Nat
deriving DecidableEq, Repr

/-- `RankedEdge` (_containers.h:360-380): `none` stands for the rank -1; equality compares rule number, position and ranks. -/
structure RE where
  edge : Edge
  left : Option Nat
  right : Option Nat
deriving DecidableEq, Repr

variable {V R : Type} [DecidableEq V] [AddCommMonoid R] [LinearOrder R] [IsOrderedAddMonoid R]

/-- The chart (containers.pyx:29-, pcfg.pyx, plcfrs.pyx): the edges of each item (`parseforest`), `subtreeprob`, the cost of each rule,
whether it has a second nonterminal (`rhs2`), and the items to which an edge points (`_left`, `_right`). -/
structure Chart (V R : Type) where
  forest : V → List Edge
  vit : V → R
  prob : Nat → R
  binary : Nat → Bool
  left : V → Edge → V
  right : V → Edge → V

/-- One iteration of the loop in `getcandidates` (kbest.pyx:32-49). -/
def Chart.entry (ch : Chart V R) (v : V) (e : Edge) : RE × R :=
  match e.rule with
  | none => (⟨e, none, none⟩, ch.vit v)
  | some r =>
    if ch.binary r then (⟨e, some 0, some 0⟩, ch.prob r + ch.vit (ch.left v e) + ch.vit (ch.right v e))
    else (⟨e, some 0, none⟩, ch.prob r + ch.vit (ch.left v e))

/-- One iteration of the first loop of `kbest_entries` (_containers.h:88-98). -/
def addEntry (acc : List (RE × R)) (x : RE × R) : List (RE × R) :=
  if x.1 ∈ acc.map Prod.fst then acc.map (fun y => if y.1 = x.1 ∧ x.2 < y.2 then x else y) else acc ++ [x]

/-- `getcandidates(chart, v, k)` (kbest.pyx:15-52) with `kbest_entries` (_containers.h:82-125): duplicates are removed and the `k` least
entries by (cost, counter) are kept. -/
def Chart.gc (ch : Chart V R) (v : V) (k : Nat) : List (RE × R) :=
  (stableSort (fun x y => decide (x.2 ≤ y.2)) (((ch.forest v).map (ch.entry v)).foldl addEntry [])).take k

/-- `Agenda::pop` (_containers.h:154-176): the first entry with the least cost, and the rest. -/
def popMin : List (RE × R) → Option ((RE × R) × List (RE × R))
  | [] => none
  | x :: xs => match popMin xs with
    | none => some (x, [])
    | some (y, ys) => if y.2 < x.2 then some (y, x :: ys) else some (x, xs)

/-- `chart.rankededges`, `cand` and `explored`. -/
structure State (V R : Type) where
  L : V → List (RE × R)
  cand : V → Option (List (RE × R))
  explored : List RE

/-- Assignment to one element of an array or dictionary. -/
def upd {α : Type} (f : V → α) (v : V) (a : α) : V → α := fun w => if w = v then a else f w

/-- The contents of `cand[v]`. -/
def State.candL (st : State V R) (v : V) : List (RE × R) := (st.cand v).getD []

/-- `ej.left` (i = 0) or `ej.right` (i = 1). -/
def RE.rank (re : RE) : Bool → Option Nat
  | false => re.left
  | true => re.right

/-- `RankedEdge(ej.edge, ej.left + 1, ej.right)` or `RankedEdge(ej.edge, ej.left, ej.right + 1)` (kbest.pyx:83, 86). -/
def RE.bump (re : RE) : Bool → RE
  | false => { re with left := re.left.map (· + 1) }
  | true => { re with right := re.right.map (· + 1) }

/-- `chart.left(v, ej)` or `chart.right(v, ej)`. -/
def Chart.child (ch : Chart V R) (v : V) (e : Edge) : Bool → V
  | false => ch.left v e
  | true => ch.right v e

/-- The cost of a child with a given rank in `getprob` (kbest.pyx:117-123, 127-133). -/
def Chart.rankCost (ch : Chart V R) (st : State V R) (u : V) : Nat → Option R
  | 0 => some (ch.vit u)
  | r + 1 => ((st.L u)[r + 1]?).map Prod.snd

/-- `getprob(chart, v, ej)` (kbest.pyx:111-134). -/
def Chart.getprob (ch : Chart V R) (st : State V R) (v : V) (re : RE) : Option R :=
  match re.edge.rule, re.left with
  | some r, some i =>
    match ch.rankCost st (ch.left v re.edge) i with
    | none => none
    | some c =>
      match re.right with
      | none => some (ch.prob r + c)
      | some j => (ch.rankCost st (ch.right v re.edge) j).map fun c' => ch.prob r + c + c'
  | _, _ => none

/-- `cand[v].setitem(ej1, p); explored.insert(ej1)` (kbest.pyx:101-102). -/
def State.push (st : State V R) (v : V) (re : RE) (p : R) : State V R :=
  { st with cand := upd st.cand v (some (st.candL v ++ [(re, p)])), explored := re :: st.explored }

/-- One neighbour (kbest.pyx:80-102, for one value of `i`); `rec` is the recursive call of `lazykthbest`, `none` when `depthlimit` is 0. -/
def Chart.extend (ch : Chart V R) (rec : Option (V → Nat → State V R → Option (State V R))) (v : V) (re : RE) (i : Bool)
    (st : State V R) : Option (State V R) :=
  match re.rank i, rec with
  | some r, some f =>
    match f (ch.child v re.edge i) (r + 1 + 1) st with
    | none => none
    | some st1 =>
      if r + 1 < (st1.L (ch.child v re.edge i)).length ∧ re.bump i ∉ st1.explored then
        (ch.getprob st1 v (re.bump i)).map fun p => st1.push v (re.bump i) p
      else some st1
  | _, _ => some st

/-- The inlined `lazynext` (kbest.pyx:79-103): the loop ends at the first missing rank. -/
def Chart.neighbours (ch : Chart V R) (rec : Option (V → Nat → State V R → Option (State V R))) (v : V) (re : RE)
    (st : State V R) : Option (State V R) :=
  match re.left with
  | none => some st
  | some _ => match ch.extend rec v re false st with
    | none => none
    | some st1 => ch.extend rec v re true st1

/-- The neighbours of the last derivation, if there is one (kbest.pyx:74-103). -/
def Chart.lazynext (ch : Chart V R) (rec : Option (V → Nat → State V R → Option (State V R))) (v : V) (st : State V R) :
    Option (State V R) :=
  match (st.L v).getLast? with
  | none => some st
  | some x => ch.neighbours rec v x.1 st

/-- The body of the while loop (kbest.pyx:73-108); the Boolean tells whether the loop is left with `break`. -/
def Chart.iter (ch : Chart V R) (rec : Option (V → Nat → State V R → Option (State V R))) (v : V) (st : State V R) :
    Option (State V R × Bool) :=
  match ch.lazynext rec v st with
  | none => none
  | some st1 => match popMin (st1.candL v) with
    | none => some (st1, true)
    | some (x, rest) => some ({ st1 with L := upd st1.L v (st1.L v ++ [x]), cand := upd st1.cand v (some rest) }, false)

/-- The while loop (kbest.pyx:72-108); `inr` is the local variable `inrankededges`; `none` if the bound on the number of iterations does not suffice. -/
def Chart.loop (ch : Chart V R) (rec : Option (V → Nat → State V R → Option (State V R))) (v : V) (k : Nat) :
    Nat → Bool → State V R → Option (State V R)
  | 0, _, _ => none
  | n + 1, inr, st =>
    if inr = false ∨ (st.L v).length < k then
      match ch.iter rec v st with
      | none => none
      | some (st1, true) => some st1
      | some (st1, false) => ch.loop rec v k n (inr || !(st.L v).isEmpty) st1
    else some st

/-- The first visit of an item (kbest.pyx:66-71). -/
def Chart.visit (ch : Chart V R) (k1 : Nat) (v : V) (st : State V R) : State V R :=
  match st.cand v with
  | none => { st with cand := upd st.cand v (some (ch.gc v k1)) }
  | some _ => st

/-- `lazykthbest(v, k, k1, cand, chart, explored, depthlimit)` (kbest.pyx:55-108). -/
def Chart.kth (ch : Chart V R) (k1 : Nat) : Nat → V → Nat → State V R → Option (State V R)
  | 0, v, k, st => ch.loop none v k (k + 4) (!(st.L v).isEmpty) (ch.visit k1 v st)
  | d + 1, v, k, st => ch.loop (some (ch.kth k1 d)) v k (k + 4) (!(st.L v).isEmpty) (ch.visit k1 v st)

/-- Adding the 1-best edge of a child that was not visited (kbest.pyx:150-158, 165-173). -/
def Chart.fill (ch : Chart V R) (u : V) (i : Nat) (st : State V R) : Option (State V R) :=
  if st.L u = [] then
    if i = 0 then match popMin (ch.gc u 1) with
      | none => none
      | some (x, _) => some { st with L := upd st.L u [x], explored := x.1 :: st.explored }
    else none
  else some st

/-- One child in `explorederivation` (kbest.pyx:148-162, 163-176); `ex` is the recursive call, nothing is done for the rank -1. -/
def Chart.exploreChild (ch : Chart V R) (ex : V → RE → State V R → Option (Bool × State V R)) (u : V) (rank : Option Nat)
    (st : State V R) : Option (Bool × State V R) :=
  match rank with
  | none => some (true, st)
  | some i => match ch.fill u i st with
    | none => none
    | some st1 => match (st1.L u)[i]? with
      | none => none
      | some x => ex u x.1 st1

/-- `explorederivation(v, ej, chart, explored, depthlimit)` (kbest.pyx:137-177). -/
def Chart.explore (ch : Chart V R) : Nat → V → RE → State V R → Option (Bool × State V R)
  | 0, _, _, st => some (false, st)
  | d + 1, v, re, st =>
    match re.edge.rule with
    | none => some (true, st)
    | some _ =>
      match ch.exploreChild (ch.explore d) (ch.left v re.edge) re.left st with
      | none => none
      | some (false, st1) => some (false, st1)
      | some (true, st1) => ch.exploreChild (ch.explore d) (ch.right v re.edge) re.right st1

/-- A derivation: the edges used. -/
inductive Deriv where
  | lex (e : Edge)
  | un (e : Edge) (d : Deriv)
  | bin (e : Edge) (d d' : Deriv)
deriving DecidableEq, Repr

/-- `_getderiv` (kbest.pyx:180-206); the first argument bounds the recursion. -/
def Chart.getderiv (ch : Chart V R) (st : State V R) : Nat → V → RE → Option Deriv
  | 0, _, _ => none
  | n + 1, v, re =>
    match re.edge.rule with
    | none => some (.lex re.edge)
    | some _ => match re.left with
      | none => none
      | some i => match (st.L (ch.left v re.edge))[i]? with
        | none => none
        | some x => match ch.getderiv st n (ch.left v re.edge) x.1 with
          | none => none
          | some d => match re.right with
            | none => some (.un re.edge d)
            | some j => match (st.L (ch.right v re.edge))[j]? with
              | none => none
              | some y => (ch.getderiv st n (ch.right v re.edge) y.1).map fun d' => .bin re.edge d d'

/-- The loop over the entries of the root (kbest.pyx:284-289): those whose derivation could be explored. -/
def Chart.exploreAll (ch : Chart V R) (maxdepth : Nat) (root : V) : List (RE × R) → State V R → Option (List (RE × R) × State V R)
  | [], st => some ([], st)
  | x :: xs, st => match ch.explore maxdepth root x.1 st with
    | none => none
    | some (ok, st1) => (ch.exploreAll maxdepth root xs st1).map fun r => (if ok then x :: r.1 else r.1, r.2)

/-- `[f(x) for x in xs]` where `f` can raise. -/
def mapOpt {α β : Type} (f : α → Option β) : List α → Option (List β)
  | [] => some []
  | x :: xs => match f x with
    | none => none
    | some y => (mapOpt f xs).map (y :: ·)

/-- `lazykbest(chart, k)` (kbest.pyx:264-294) for a root that is in the chart; `maxdepth` is `MAX_DEPTH` (200). -/
def Chart.lazykbest (ch : Chart V R) (maxdepth : Nat) (root : V) (k : Nat) : Option (List (Deriv × R)) :=
  match ch.kth k maxdepth root k ⟨fun _ => [], fun _ => none, []⟩ with
  | none => none
  | some st => match ch.exploreAll maxdepth root ((st.L root).take (max k 1)) st with
    | none => none
    | some (tmp, st1) =>
      mapOpt (fun x => (ch.getderiv { st1 with L := upd st1.L root tmp } maxdepth root x.1).map fun d => (d, x.2)) tmp

/-! ### Specification -/

/-- The derivations of an item and their costs: the sum of the costs of the rules and lexical entries; `lc` gives the cost of the lexical
entry of an item. -/
inductive Spec.IsDeriv (ch : Chart V R) (lc : V → R) : V → Deriv → R → Prop
  | lex {v e} : e ∈ ch.forest v → e.rule = none → Spec.IsDeriv ch lc v (.lex e) (lc v)
  | un {v e r d c} : e ∈ ch.forest v → e.rule = some r → ch.binary r = false → Spec.IsDeriv ch lc (ch.left v e) d c →
      Spec.IsDeriv ch lc v (.un e d) (ch.prob r + c)
  | bin {v e r d c d' c'} : e ∈ ch.forest v → e.rule = some r → ch.binary r = true → Spec.IsDeriv ch lc (ch.left v e) d c →
      Spec.IsDeriv ch lc (ch.right v e) d' c' → Spec.IsDeriv ch lc v (.bin e d d') (ch.prob r + c + c')

/-- What is required of the chart. -/
structure Spec.Ok (ch : Chart V R) (lc : V → R) (ht : V → Nat) : Prop where
  /-- The forest has no cycles. -/
  acycl : ∀ v e r, e ∈ ch.forest v → e.rule = some r → ht (ch.left v e) < ht v
  acycr : ∀ v e r, e ∈ ch.forest v → e.rule = some r → ch.binary r = true → ht (ch.right v e) < ht v
  /-- Edges point to items with at least one edge. -/
  nel : ∀ v e r, e ∈ ch.forest v → e.rule = some r → ch.forest (ch.left v e) ≠ []
  ner : ∀ v e r, e ∈ ch.forest v → e.rule = some r → ch.binary r = true → ch.forest (ch.right v e) ≠ []
  /-- `subtreeprob` is the cost of a best derivation. -/
  vit_le : ∀ v d c, Spec.IsDeriv ch lc v d c → ch.vit v ≤ c
  vit_ex : ∀ v, ch.forest v ≠ [] → ∃ d, Spec.IsDeriv ch lc v d (ch.vit v)
  /-- An item with a lexical edge has no better derivation. -/
  lex : ∀ v e, e ∈ ch.forest v → e.rule = none → ch.vit v = lc v

/-- No two items share an edge with the same rule and position. -/
def Spec.NoCollision (ch : Chart V R) : Prop :=
  ∀ v w e, e.rule ≠ none → e ∈ ch.forest v → e ∈ ch.forest w → v = w

end Disco.Kbest
