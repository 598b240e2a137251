import Mathlib.Data.List.Nodup
import Mathlib.Data.List.Dedup
import Mathlib.Data.List.Basic
import Mathlib.Data.List.Forall2
import Mathlib.Data.List.Flatten
import Verif.Basic.Tree

/-!
# The osTAG reduction (C78)

Models `ostagreduction` (grammar.py:455-608), the helper functions (grammar.py:645-674) and `SpinedTreeDecorator.decorate` without memoization (grammar.py:891-945).
Elementary trees are given with their tokens in place of the indices; decorated labels are symbols instead of strings: `raw` for `NP`, `addr` for `NP@3-1` or `NP@3-1$`,
`app` for `A[B]`. `REMOVEDEC.sub('', label)` is `base` (labels do not contain `@` or `[`). `packedgraph` and `extrarules` have their default.
-/
namespace Disco.OsTag

/-- An elementary tree: phrasal node, preterminal with word, substitution site, and (in auxiliary trees) the foot node, of which the token is `*`. -/
inductive ET where
  | inner (l : Str) (cs : List ET)
  | pre (l w : Str)
  | sub (l : Str)
  | foot (l : Str)

/-- A label in the grammar. -/
inductive Sym where
  | raw (l : Str)
  | addr (l : Str) (n m : Nat) (spine : Bool)
  | app (N M : Sym)
  deriving DecidableEq

/-- `REMOVEDEC.sub('', label)` (grammar.py:21). -/
def Sym.base : Sym → Str
  | .raw l => l
  | .addr l _ _ _ => l
  | .app N _ => N.base

/-- A decorated tree. -/
inductive DT where
  | inner (s : Sym) (cs : List DT)
  | pre (s : Sym) (w : Str)
  | sub (l : Str)
  | foot (l : Str)

/-- The label of a tree. -/
def ET.label : ET → Str
  | .inner l _ => l
  | .pre l _ => l
  | .sub l => l
  | .foot l => l

/-- `node.label` of a decorated node; substitution sites and foot nodes are not decorated. -/
def DT.lab : DT → Sym
  | .inner s _ => s
  | .pre s _ => s
  | .sub l => .raw l
  | .foot l => .raw l

mutual
/-- The number of foot nodes. -/
def footc : ET → Nat
  | .inner _ cs => footcL cs
  | .foot _ => 1
  | _ => 0
/-- The same for a list. -/
def footcL : List ET → Nat
  | [] => 0
  | c :: cs => footc c + footcL cs
end

/-- Whether the node is on the spine: the foot or a node above it (grammar.py:919-924). -/
def hasFoot (t : ET) : Bool := decide (footc t ≠ 0)

mutual
/-- Addresses in pre-order for nodes that are neither substitution sites nor foot nodes (grammar.py:925-929, 937-940), from number `m` on. -/
def dec (n : Nat) : ET → Nat → DT × Nat
  | .inner l cs, m => (.inner (.addr l n m (hasFoot (.inner l cs))) (decL n cs (m + 1)).1, (decL n cs (m + 1)).2)
  | .pre l w, m => (.pre (.addr l n m false) w, m + 1)
  | .sub l, m => (.sub l, m)
  | .foot l, m => (.foot l, m)
/-- The same for a list. -/
def decL (n : Nat) : List ET → Nat → List DT × Nat
  | [], m => ([], m)
  | c :: cs, m => ((dec n c m).1 :: (decL n cs (dec n c m).2).1, (decL n cs (dec n c m).2).2)
end

/-- The decoration of an initial tree: the root is skipped (`islice(…, 1, None)`, grammar.py:937-940). -/
def decInit (n : Nat) : ET → DT
  | .inner l cs => .inner (.raw l) (decL n cs 1).1
  | .pre l w => .pre (.raw l) w
  | .sub l => .sub l
  | .foot l => .foot l

/-- The decoration of an auxiliary tree, with the root (grammar.py:916-929). -/
def decAux (n : Nat) (t : ET) : DT := (dec n t 0).1

mutual
/-- `tree.subtrees()`. -/
def nodes : DT → List DT
  | .inner s cs => .inner s cs :: nodesL cs
  | .pre s w => [.pre s w]
  | .sub l => [.sub l]
  | .foot l => [.foot l]
/-- The same for a list. -/
def nodesL : List DT → List DT
  | [] => []
  | c :: cs => nodes c ++ nodesL cs
end

/-- Without the root. -/
def nodesBelow : DT → List DT
  | .inner _ cs => nodesL cs
  | _ => []

/-- `spinal` (grammar.py:662-664): `node.label.endswith('$')`. -/
def spinal : Sym → Bool
  | .raw l => decide (l.getLast? = some '$')
  | .addr _ _ _ sp => sp
  | .app _ _ => false

/-- `spinallabel` (grammar.py:667-673). -/
def spinallabel (site : Sym) : DT → Sym
  | .foot _ => site
  | d => if spinal d.lab then .app d.lab site else d.lab

/-- `substitutionsite`, `preterminal` (grammar.py:645-659). -/
def isSub : DT → Bool
  | .sub _ => true
  | _ => false
def isPre : DT → Bool
  | .pre _ _ => true
  | _ => false

/-- A grammar: initial and auxiliary trees with weights. -/
structure Tag where
  init : List (ET × Nat)
  aux : List (ET × Nat)

/-- The decorated trees; the decorator counts on (grammar.py:525-526, 533-534, 941). -/
def decInits (G : Tag) : List (DT × Nat) := (G.init.zipIdx 1).map fun x => (decInit x.2 x.1.1, x.1.2)
def decAuxs (G : Tag) : List (DT × Nat) := (G.aux.zipIdx (1 + G.init.length)).map fun x => (decAux x.2 x.1.1, x.1.2)

/-- `adjsites[l]` (grammar.py:522-545), a set. -/
def adjsites (G : Tag) (l : Str) : List Sym :=
  ((decInits G).flatMap fun x => ((nodes x.1).filter fun d => !(isSub d || isPre d)).map DT.lab) ++
  ((decAuxs G).flatMap fun x => ((nodes x.1).filter fun d => !spinal d.lab && !isSub d).map DT.lab) |>.filter fun s => s.base = l

/-- A rule: left-hand side, right-hand side, yield function. -/
structure Rule where
  lhs : Sym
  rhs : List Sym
  yf : List Nat
  deriving DecidableEq

/-- `'01' if len(node) == 2 else '0'`. -/
def yfstr (n : Nat) : List Nat := if n = 2 then [0, 1] else [0]

/-- The rule of a phrasal node (grammar.py:553-558, 580-585). -/
def rule1 (s : Sym) (cs : List DT) : Rule := ⟨s, cs.map DT.lab, yfstr cs.length⟩

/-- Rules of an initial tree (grammar.py:549-558): increments of the counter. -/
def nodeRules (w : Nat) : DT → List (Rule × Nat)
  | .inner s cs => [(rule1 s cs, w)]
  | _ => []
def initRules (x : DT × Nat) : List (Rule × Nat) := nodeRules x.2 x.1 ++ (nodesBelow x.1).flatMap (nodeRules 1)

/-- Lexical rules of an initial tree. -/
def nodeLex (w : Nat) : DT → List ((Sym × Str) × Nat)
  | .pre s t => [((s, t), w)]
  | _ => []
def initLex (x : DT × Nat) : List ((Sym × Str) × Nat) := nodeLex x.2 x.1 ++ (nodesBelow x.1).flatMap (nodeLex 1)

/-- Rules of types 1 and 2 of a node of an auxiliary tree with root label `root` (grammar.py:571-590): type 2 for nodes on the spine, type 1 for others. -/
def rules12 (G : Tag) (root : Sym) : DT → List (Rule × Nat)
  | .inner s cs =>
    if spinal s then (adjsites G root.base).dedup.map fun site => (⟨.app s site, cs.map (spinallabel site), yfstr cs.length⟩, 1)
    else [(rule1 s cs, 1)]
  | _ => []

/-- The rules of a node of an auxiliary tree (grammar.py:566-595); type 3 is added for every node that is not a substitution site. -/
def auxNodeRules (G : Tag) (root : Sym) (w : Nat) (d : DT) : List (Rule × Nat) :=
  if isSub d then [] else rules12 G root d ++ (adjsites G root.base).dedup.map fun m => (⟨m, [.app root m], [0]⟩, w)

/-- The rules of an auxiliary tree. -/
def auxRules (G : Tag) (x : DT × Nat) : List (Rule × Nat) := (nodes x.1).flatMap (auxNodeRules G x.1.lab x.2)
/-- Lexical rules; the foot is skipped (grammar.py:564-566). -/
def auxLex (x : DT × Nat) : List ((Sym × Str) × Nat) := (nodes x.1).flatMap (nodeLex 1)

/-- `ostagreduction` (grammar.py:455-608): increments of the counters for rules and for the lexicon. -/
def rules (G : Tag) : List (Rule × Nat) := (decInits G).flatMap initRules ++ (decAuxs G).flatMap (auxRules G)
def lexicon (G : Tag) : List ((Sym × Str) × Nat) := (decInits G).flatMap initLex ++ (decAuxs G).flatMap auxLex

/-- The weight of a rule in the resulting grammar: `rules[rule]`. -/
def weight (G : Tag) (r : Rule) : Nat := (((rules G).filter fun x => x.1 = r).map Prod.snd).sum

/-! ### Specification -/

/-- The string of a rule from the strings of the right-hand side, according to the yield function. -/
def Spec.yield (yf : List Nat) (xs : List (List Str)) : List Str := yf.flatMap fun i => xs.getD i []

/-- Derivations of the grammar that results: sequences of labels and the strings derived from them. -/
inductive Spec.Der (G : Tag) : List Sym → List (List Str) → Prop
  | nil : Spec.Der G [] []
  | lex {s : Sym} {t : Str} {n : Nat} {ss : List Sym} {ws : List (List Str)} : ((s, t), n) ∈ lexicon G → Spec.Der G ss ws → Spec.Der G (s :: ss) ([t] :: ws)
  | rule {s : Sym} {rhs : List Sym} {yf : List Nat} {n : Nat} {xs : List (List Str)} {ss : List Sym} {ws : List (List Str)} :
      ((⟨s, rhs, yf⟩ : Rule), n) ∈ rules G → Spec.Der G rhs xs → Spec.Der G ss ws → Spec.Der G (s :: ss) (Spec.yield yf xs :: ws)

/-- What is derived in an osTAG: from a label by substitution; by a node of an elementary tree (of an auxiliary tree if `k`), before and after adjunction at this node;
by a list of nodes; by a part of the spine of an auxiliary tree, given the string `w` at its foot. -/
inductive Spec.Item where
  | label (X : Str)
  | node (k : Bool) (t : ET)
  | nodeA (k : Bool) (t : ET)
  | list (k : Bool) (ts : List ET)
  | spine (t : ET) (w : List Str)

/-- Where adjunction is allowed besides the roots of initial trees: phrasal nodes (those on the spine of an auxiliary tree are not considered here), in auxiliary trees also
preterminals. -/
def Spec.adjoinable : Bool → ET → Bool
  | _, .inner _ _ => true
  | k, .pre _ _ => k
  | _, _ => false

/-- Derivations of an osTAG (Swanson et al. 2013): substitution of initial trees; adjunction of auxiliary trees, any number of times, at the roots of initial trees and at all
nodes that are `adjoinable`, but not on the spine. -/
inductive Spec.D (init aux : List ET) : Spec.Item → List Str → Prop
  | subst {t : ET} {w : List Str} : t ∈ init → Spec.D init aux (.node false t) w → Spec.D init aux (.label t.label) w
  | adjRoot {X : Str} {a : ET} {w x : List Str} : Spec.D init aux (.label X) w → a ∈ aux → a.label = X → Spec.D init aux (.spine a w) x → Spec.D init aux (.label X) x
  | pre {k : Bool} {l t : Str} : Spec.D init aux (.node k (.pre l t)) [t]
  | sub {k : Bool} {l : Str} {w : List Str} : Spec.D init aux (.label l) w → Spec.D init aux (.node k (.sub l)) w
  | inner {k : Bool} {l : Str} {cs : List ET} {w : List Str} : Spec.D init aux (.list k cs) w → Spec.D init aux (.node k (.inner l cs)) w
  | noAdj {k : Bool} {t : ET} {w : List Str} : Spec.D init aux (.node k t) w → Spec.D init aux (.nodeA k t) w
  | adj {k : Bool} {t a : ET} {w x : List Str} : Spec.D init aux (.nodeA k t) w → Spec.adjoinable k t = true → a ∈ aux → a.label = t.label →
      Spec.D init aux (.spine a w) x → Spec.D init aux (.nodeA k t) x
  | nil {k : Bool} : Spec.D init aux (.list k []) []
  | cons {k : Bool} {c : ET} {cs : List ET} {x y : List Str} : Spec.D init aux (.nodeA k c) x → Spec.D init aux (.list k cs) y → Spec.D init aux (.list k (c :: cs)) (x ++ y)
  | foot {l : Str} {w : List Str} : Spec.D init aux (.spine (.foot l) w) w
  | spine {l : Str} {ls rs : List ET} {s : ET} {w x y z : List Str} : hasFoot s = true → Spec.D init aux (.list true ls) x → Spec.D init aux (.spine s w) y →
      Spec.D init aux (.list true rs) z → Spec.D init aux (.spine (.inner l (ls ++ s :: rs)) w) (x ++ y ++ z)

mutual
/-- Each phrasal node has one or two children, and no substitution site or foot has a label that ends with `$`. -/
def Spec.Ok : ET → Prop
  | .inner _ cs => (cs.length = 1 ∨ cs.length = 2) ∧ Spec.OkL cs
  | .sub l => l.getLast? ≠ some '$'
  | .pre _ _ => True
  | .foot l => l.getLast? ≠ some '$'
/-- The same for all of a list. -/
def Spec.OkL : List ET → Prop
  | [] => True
  | c :: cs => Spec.Ok c ∧ Spec.OkL cs
end

mutual
/-- All foot nodes have the label `l`. -/
def Spec.FootLabel (l : Str) : ET → Prop
  | .inner _ cs => Spec.FootLabelL l cs
  | .foot l' => l' = l
  | _ => True
/-- The same for all of a list. -/
def Spec.FootLabelL (l : Str) : List ET → Prop
  | [] => True
  | c :: cs => Spec.FootLabel l c ∧ Spec.FootLabelL l cs
end

/-- A well-formed osTAG: binarized trees, no foot in initial trees, one foot in auxiliary trees, below the root and with its label. -/
structure Spec.WF (G : Tag) : Prop where
  init : ∀ x ∈ G.init, Spec.Ok x.1 ∧ footc x.1 = 0
  aux : ∀ x ∈ G.aux, Spec.Ok x.1 ∧ footc x.1 = 1 ∧ Spec.FootLabel x.1.label x.1 ∧ ∃ l cs, x.1 = .inner l cs

/-! ### Decoration -/

mutual
/-- The tree without addresses. -/
def erase : DT → ET
  | .inner s cs => .inner s.base (eraseL cs)
  | .pre s w => .pre s.base w
  | .sub l => .sub l
  | .foot l => .foot l
/-- The same for a list. -/
def eraseL : List DT → List ET
  | [] => []
  | c :: cs => erase c :: eraseL cs
end

theorem eraseL_eq (cs : List DT) : eraseL cs = cs.map erase := by
  induction cs with
  | nil => rfl
  | cons c cs ih => rw [eraseL, ih]; rfl

theorem erase_label (d : DT) : (erase d).label = d.lab.base := by cases d <;> simp [erase, ET.label, DT.lab, Sym.base]

theorem erase_dec (n : Nat) (t : ET) : ∀ m, erase (dec n t m).1 = t := by
  induction t using ET.rec (motive_2 := fun cs => ∀ m, eraseL (decL n cs m).1 = cs) with
  | inner l cs ih => intro m; simp only [dec, erase, Sym.base, ih]
  | pre l w => intro m; simp [dec, erase, Sym.base]
  | sub l => intro m; simp [dec, erase]
  | foot l => intro m; simp [dec, erase]
  | nil => simp [decL, eraseL]
  | cons c cs h1 h2 => rename_i m; simp only [decL, eraseL, h1, h2]

theorem eraseL_dec (n : Nat) (cs : List ET) (m : Nat) : eraseL (decL n cs m).1 = cs := by
  have := erase_dec n (.inner [] cs)
  induction cs generalizing m with
  | nil => simp [decL, eraseL]
  | cons c cs ih => simp only [decL, eraseL, erase_dec, ih _ (fun m => erase_dec n _ m)]

theorem erase_decInit (n : Nat) (t : ET) : erase (decInit n t) = t := by
  cases t <;> simp [decInit, erase, Sym.base, eraseL_dec]

/-- The address of a node. -/
def num (d : DT) : Option (Nat × Nat) := match d.lab with
  | .addr _ n m _ => some (n, m)
  | _ => none

theorem dec_num (n : Nat) (t : ET) : ∀ m, m ≤ (dec n t m).2 ∧ ((nodes (dec n t m).1).filterMap num) = (List.range' m ((dec n t m).2 - m)).map (fun j => (n, j)) := by
  induction t using ET.rec (motive_2 := fun cs => ∀ m, m ≤ (decL n cs m).2 ∧ ((nodesL (decL n cs m).1).filterMap num) = (List.range' m ((decL n cs m).2 - m)).map (fun j => (n, j))) with
  | inner l cs ih =>
    intro m
    obtain ⟨h1, h2⟩ := ih (m + 1)
    simp only [dec]
    refine ⟨by omega, ?_⟩
    rw [nodes, List.filterMap_cons, h2, show (decL n cs (m + 1)).2 - m = (decL n cs (m + 1)).2 - (m + 1) + 1 by omega, List.range'_succ]
    rfl
  | pre l w => intro m; simp [dec, nodes, num, DT.lab]
  | sub l => intro m; simp [dec, nodes, num, DT.lab]
  | foot l => intro m; simp [dec, nodes, num, DT.lab]
  | nil => simp [decL, nodesL]
  | cons c cs h1 h2 =>
    rename_i m
    obtain ⟨a1, a2⟩ := h1 m
    obtain ⟨b1, b2⟩ := h2 (dec n c m).2
    simp only [decL, nodesL]
    refine ⟨by omega, ?_⟩
    rw [List.filterMap_append, a2, b2, ← List.map_append]
    congr 1
    have : (decL n cs (dec n c m).2).2 - m = ((dec n c m).2 - m) + ((decL n cs (dec n c m).2).2 - (dec n c m).2) := by omega
    rw [this, ← List.range'_append_1, show m + ((dec n c m).2 - m) = (dec n c m).2 by omega]

theorem decL_num (n : Nat) (cs : List ET) (m : Nat) : ((nodesL (decL n cs m).1).filterMap num) = (List.range' m ((decL n cs m).2 - m)).map (fun j => (n, j)) := by
  have h := (dec_num n (.inner [] cs) (m - 1))
  induction cs generalizing m with
  | nil => simp [decL, nodesL]
  | cons c cs ih =>
    obtain ⟨a1, a2⟩ := dec_num n c m
    have b2 := ih (dec n c m).2 (dec_num n _ _)
    have b1 : (dec n c m).2 ≤ (decL n cs (dec n c m).2).2 := by
      have := (dec_num n (.inner [] cs) ((dec n c m).2)).1
      clear b2 a2 h ih
      generalize (dec n c m).2 = k
      induction cs generalizing k with
      | nil => simp [decL]
      | cons d ds ih => 
        simp only [decL]
        exact Nat.le_trans (dec_num n d k).1 (ih (dec_num n _ _).1 _)
    simp only [decL, nodesL]
    rw [List.filterMap_append, a2, b2, ← List.map_append]
    congr 1
    have : (decL n cs (dec n c m).2).2 - m = ((dec n c m).2 - m) + ((decL n cs (dec n c m).2).2 - (dec n c m).2) := by omega
    rw [this, ← List.range'_append_1, show m + ((dec n c m).2 - m) = (dec n c m).2 by omega]

theorem nums_tag (n m k : Nat) : ((List.range' m k).map (fun j => (n, j))).Nodup ∧ ∀ p ∈ (List.range' m k).map (fun j => (n, j)), p.1 = n := by
  refine ⟨List.Nodup.map (fun a b h => by simpa using h) (by simp [List.nodup_range']), ?_⟩
  intro p hp
  obtain ⟨j, _, rfl⟩ := List.mem_map.1 hp
  rfl

theorem init_nums (n : Nat) (t : ET) : ((nodes (decInit n t)).filterMap num).Nodup ∧ ∀ p ∈ (nodes (decInit n t)).filterMap num, p.1 = n := by
  cases t with
  | inner l cs =>
    have e : (nodes (decInit n (.inner l cs))).filterMap num = (nodesL (decL n cs 1).1).filterMap num := rfl
    rw [e, decL_num n cs 1]
    exact nums_tag _ _ _
  | pre l w => exact ⟨by show List.Nodup []; simp, by show ∀ p ∈ [], _; simp⟩
  | sub l => exact ⟨by show List.Nodup []; simp, by show ∀ p ∈ [], _; simp⟩
  | foot l => exact ⟨by show List.Nodup []; simp, by show ∀ p ∈ [], _; simp⟩

theorem aux_nums (n : Nat) (t : ET) : ((nodes (decAux n t)).filterMap num).Nodup ∧ ∀ p ∈ (nodes (decAux n t)).filterMap num, p.1 = n := by
  rw [decAux, (dec_num n t 0).2]
  exact nums_tag _ _ _

/-- All nodes of the decorated trees; `true` for auxiliary trees. -/
def allnodes (G : Tag) : List (Bool × DT) :=
  ((decInits G).flatMap fun x => (nodes x.1).map fun d => (false, d)) ++ ((decAuxs G).flatMap fun x => (nodes x.1).map fun d => (true, d))

theorem zip_nums {α : Type} (f : Nat → α → List DT) (h : ∀ n t, ((f n t).filterMap num).Nodup ∧ ∀ p ∈ (f n t).filterMap num, p.1 = n) (xs : List α) : ∀ k,
    ((xs.zipIdx k).flatMap fun x => (f x.2 x.1).filterMap num).Nodup ∧ ∀ p ∈ (xs.zipIdx k).flatMap fun x => (f x.2 x.1).filterMap num, k ≤ p.1 ∧ p.1 < k + xs.length := by
  induction xs with
  | nil => intro k; simp
  | cons x xs ih =>
    intro k
    obtain ⟨i1, i2⟩ := ih (k + 1)
    obtain ⟨h1, h2⟩ := h k x
    rw [List.zipIdx_cons, List.flatMap_cons]
    refine ⟨?_, ?_⟩
    · rw [List.nodup_append]
      refine ⟨h1, i1, ?_⟩
      intro a ha b hb hab
      have e1 := h2 a ha
      have e2 := i2 b hb
      rw [← hab, e1] at e2
      omega
    · intro p hp
      rcases List.mem_append.1 hp with hp | hp
      · have := h2 p hp; simp only [List.length_cons]; omega
      · have := i2 p hp; simp only [List.length_cons]; omega

theorem all_nums (G : Tag) : ((allnodes G).filterMap fun x => num x.2).Nodup := by
  have e1 : ((decInits G).flatMap fun x => (nodes x.1).map fun d => (false, d)).filterMap (fun x => num x.2) =
      ((G.init.zipIdx 1).flatMap fun x => (nodes (decInit x.2 x.1.1)).filterMap num) := by
    rw [decInits, List.flatMap_map, List.filterMap_flatMap]
    apply List.flatMap_congr
    intro x _
    rw [List.filterMap_map]; rfl
  have e2 : ((decAuxs G).flatMap fun x => (nodes x.1).map fun d => (true, d)).filterMap (fun x => num x.2) =
      ((G.aux.zipIdx (1 + G.init.length)).flatMap fun x => (nodes (decAux x.2 x.1.1)).filterMap num) := by
    rw [decAuxs, List.flatMap_map, List.filterMap_flatMap]
    apply List.flatMap_congr
    intro x _
    rw [List.filterMap_map]; rfl
  obtain ⟨a1, a2⟩ := zip_nums (fun n (x : ET × Nat) => nodes (decInit n x.1)) (fun n t => init_nums n t.1) G.init 1
  obtain ⟨b1, b2⟩ := zip_nums (fun n (x : ET × Nat) => nodes (decAux n x.1)) (fun n t => aux_nums n t.1) G.aux (1 + G.init.length)
  rw [allnodes, List.filterMap_append, e1, e2, List.nodup_append]
  refine ⟨a1, b1, ?_⟩
  intro x hx y hy hxy
  have h1 := a2 x hx
  have h2 := b2 y hy
  rw [hxy] at h1
  omega

theorem filterMap_inj {α β : Type} (f : α → Option β) (xs : List α) (h : (xs.filterMap f).Nodup) {a b : α} {v : β} (ha : a ∈ xs) (hb : b ∈ xs) (h1 : f a = some v) (h2 : f b = some v) : a = b := by
  induction xs with
  | nil => simp at ha
  | cons x xs ih =>
    have key : ∀ y ∈ xs, f y = some v → f x ≠ some v := by
      intro y hy h3 h4
      rw [List.filterMap_cons, h4, List.nodup_cons] at h
      exact h.1 (List.mem_filterMap.2 ⟨y, hy, h3⟩)
    rcases List.mem_cons.1 ha with ha | ha
    · rcases List.mem_cons.1 hb with hb | hb
      · rw [ha, hb]
      · exact absurd (ha ▸ h1) (key b hb h2)
    · rcases List.mem_cons.1 hb with hb | hb
      · exact absurd (hb ▸ h2) (key a ha h1)
      · refine ih ?_ ha hb
        rw [List.filterMap_cons] at h
        cases hx : f x with
        | none => rw [hx] at h; exact h
        | some y => rw [hx, List.nodup_cons] at h; exact h.2

/-- Addresses are unique. -/
theorem addr_unique (G : Tag) {x y : Bool × DT} {l : Str} {n m : Nat} {sp : Bool} (hx : x ∈ allnodes G) (hy : y ∈ allnodes G) (h1 : x.2.lab = .addr l n m sp) (h2 : y.2.lab = .addr l n m sp) : x = y := by
  refine filterMap_inj (fun x => num x.2) _ (all_nums G) (v := (n, m)) hx hy ?_ ?_
  · simp [num, h1]
  · simp [num, h2]

theorem nodes_self (d : DT) : d ∈ nodes d := by cases d <;> simp [nodes]

theorem mem_nodesL {d : DT} {cs : List DT} : d ∈ nodesL cs ↔ ∃ c ∈ cs, d ∈ nodes c := by
  induction cs with
  | nil => simp [nodesL]
  | cons c cs ih => simp [nodesL, ih]

theorem nodes_trans (t : DT) : ∀ {d e : DT}, d ∈ nodes t → e ∈ nodes d → e ∈ nodes t := by
  induction t using DT.rec (motive_2 := fun cs => ∀ {d e : DT}, d ∈ nodesL cs → e ∈ nodes d → e ∈ nodesL cs) with
  | inner s cs ih =>
    intro d e h1 h2
    rw [nodes, List.mem_cons] at h1
    rcases h1 with rfl | h1
    · exact h2
    · rw [nodes]; exact List.mem_cons_of_mem _ (ih h1 h2)
  | pre s w => intro d e h1 h2; rw [nodes, List.mem_singleton] at h1; subst h1; exact h2
  | sub l => intro d e h1 h2; rw [nodes, List.mem_singleton] at h1; subst h1; exact h2
  | foot l => intro d e h1 h2; rw [nodes, List.mem_singleton] at h1; subst h1; exact h2
  | nil => rename_i h1 _; simp [nodesL] at h1
  | cons c cs h1 h2 =>
    rename_i d e a b
    rw [nodesL, List.mem_append] at a ⊢
    rcases a with a | a
    · exact Or.inl (h1 a b)
    · exact Or.inr (h2 a b)

/-- Children of a node. -/
theorem nodes_child {t : DT} {s : Sym} {cs : List DT} {c : DT} (h : .inner s cs ∈ nodes t) (hc : c ∈ cs) : c ∈ nodes t :=
  nodes_trans t h (by rw [nodes]; exact List.mem_cons_of_mem _ (mem_nodesL.2 ⟨c, hc, nodes_self c⟩))

/-- Labels of decorated nodes, with whether they are on the spine. -/
def Good (d : DT) : Prop := match d with
  | .inner s _ => ∃ l n m, s = .addr l n m (hasFoot (erase d))
  | .pre s _ => ∃ l n m, s = .addr l n m false
  | .sub l => l.getLast? ≠ some '$'
  | .foot l => l.getLast? ≠ some '$'

theorem dec_good (n : Nat) (t : ET) : Spec.Ok t → ∀ m, ∀ d ∈ nodes (dec n t m).1, Good d := by
  induction t using ET.rec (motive_2 := fun cs => Spec.OkL cs → ∀ m, ∀ d ∈ nodesL (decL n cs m).1, Good d) with
  | inner l cs ih =>
    intro h m d hd
    simp only [dec] at hd
    rw [nodes, List.mem_cons] at hd
    rw [Spec.Ok] at h
    rcases hd with rfl | hd
    · refine ⟨l, n, m, ?_⟩
      simp only [erase, Sym.base, eraseL_dec]
    · exact ih h.2 _ d hd
  | pre l w => intro h m d hd; simp only [dec, nodes, List.mem_singleton] at hd; subst hd; exact ⟨l, n, m, rfl⟩
  | sub l => intro h m d hd; simp only [dec, nodes, List.mem_singleton] at hd; subst hd; simpa [Spec.Ok, Good] using h
  | foot l => intro h m d hd; simp only [dec, nodes, List.mem_singleton] at hd; subst hd; simpa [Spec.Ok, Good] using h
  | nil => rename_i m d hd; simp [decL, nodesL] at hd
  | cons c cs h1 h2 =>
    rename_i h m d hd
    rw [Spec.OkL] at h
    simp only [decL, nodesL, List.mem_append] at hd
    rcases hd with hd | hd
    · exact h1 h.1 _ d hd
    · exact h2 h.2 _ d hd

theorem decL_good (n : Nat) (cs : List ET) (h : Spec.OkL cs) : ∀ m, ∀ d ∈ nodesL (decL n cs m).1, Good d := by
  induction cs with
  | nil => intro m d hd; simp [decL, nodesL] at hd
  | cons c cs ih =>
    intro m d hd
    rw [Spec.OkL] at h
    simp only [decL, nodesL, List.mem_append] at hd
    rcases hd with hd | hd
    · exact dec_good n c h.1 _ d hd
    · exact ih h.2 _ d hd

theorem footcL_eq (cs : List ET) : footcL cs = (cs.map footc).sum := by
  induction cs with
  | nil => rfl
  | cons c cs ih => rw [footcL, ih]; simp

/-- Structure below. -/
theorem node_ok (t : DT) : ∀ d ∈ nodes t, Spec.Ok (erase t) → Spec.Ok (erase d) ∧ footc (erase d) ≤ footc (erase t) := by
  induction t using DT.rec (motive_2 := fun cs => ∀ d ∈ nodesL cs, Spec.OkL (eraseL cs) → Spec.Ok (erase d) ∧ footc (erase d) ≤ footcL (eraseL cs)) with
  | inner s cs ih =>
    intro d hd h
    rw [nodes, List.mem_cons] at hd
    rcases hd with rfl | hd
    · exact ⟨h, Nat.le_refl _⟩
    · rw [erase, Spec.Ok] at h
      rw [erase, footc]
      exact ih d hd h.2
  | pre s w => intro d hd h; rw [nodes, List.mem_singleton] at hd; subst hd; exact ⟨h, Nat.le_refl _⟩
  | sub l => intro d hd h; rw [nodes, List.mem_singleton] at hd; subst hd; exact ⟨h, Nat.le_refl _⟩
  | foot l => intro d hd h; rw [nodes, List.mem_singleton] at hd; subst hd; exact ⟨h, Nat.le_refl _⟩
  | nil => rename_i d hd _; simp [nodesL] at hd
  | cons c cs h1 h2 =>
    rename_i d hd h
    rw [eraseL, Spec.OkL] at h
    rw [eraseL, footcL]
    rw [nodesL, List.mem_append] at hd
    rcases hd with hd | hd
    · obtain ⟨a, b⟩ := h1 d hd h.1; exact ⟨a, by omega⟩
    · obtain ⟨a, b⟩ := h2 d hd h.2; exact ⟨a, by omega⟩

/-! ### Nodes, rules and sites -/

theorem mem_all_false {G : Tag} {d : DT} : (false, d) ∈ allnodes G ↔ ∃ y ∈ decInits G, d ∈ nodes y.1 := by
  simp only [allnodes, List.mem_append, List.mem_flatMap, List.mem_map, Prod.mk.injEq]
  constructor
  · rintro (⟨y, hy, e, he, -, rfl⟩ | ⟨y, hy, e, he, h, -⟩)
    · exact ⟨y, hy, he⟩
    · cases h
  · rintro ⟨y, hy, h⟩; exact Or.inl ⟨y, hy, d, h, by trivial, rfl⟩

theorem mem_all_true {G : Tag} {d : DT} : (true, d) ∈ allnodes G ↔ ∃ y ∈ decAuxs G, d ∈ nodes y.1 := by
  simp only [allnodes, List.mem_append, List.mem_flatMap, List.mem_map, Prod.mk.injEq]
  constructor
  · rintro (⟨y, hy, e, he, h, -⟩ | ⟨y, hy, e, he, -, rfl⟩)
    · cases h
    · exact ⟨y, hy, he⟩
  · rintro ⟨y, hy, h⟩; exact Or.inr ⟨y, hy, d, h, by trivial, rfl⟩

theorem mem_zipIdx_fst {α : Type} {x : α} {i : Nat} : ∀ {k : Nat} {xs : List α}, (x, i) ∈ xs.zipIdx k → x ∈ xs := by
  intro k xs
  induction xs generalizing k with
  | nil => intro h; simp at h
  | cons a xs ih =>
    intro h
    rw [List.zipIdx_cons, List.mem_cons] at h
    rcases h with h | h
    · rw [Prod.mk.injEq] at h; rw [h.1]; simp
    · exact List.mem_cons_of_mem _ (ih h)

theorem exists_zipIdx {α : Type} {x : α} : ∀ {k : Nat} {xs : List α}, x ∈ xs → ∃ i, (x, i) ∈ xs.zipIdx k := by
  intro k xs
  induction xs generalizing k with
  | nil => intro h; simp at h
  | cons a xs ih =>
    intro h
    rw [List.zipIdx_cons]
    rcases List.mem_cons.1 h with rfl | h
    · exact ⟨k, by simp⟩
    · obtain ⟨i, hi⟩ := ih (k := k + 1) h; exact ⟨i, List.mem_cons_of_mem _ hi⟩

theorem mem_decInits {G : Tag} {y : DT × Nat} (h : y ∈ decInits G) : ∃ x ∈ G.init, ∃ n, y = (decInit n x.1, x.2) := by
  simp only [decInits, List.mem_map] at h
  obtain ⟨⟨x, i⟩, hx, rfl⟩ := h
  exact ⟨x, mem_zipIdx_fst hx, i, rfl⟩

theorem mem_decAuxs {G : Tag} {y : DT × Nat} (h : y ∈ decAuxs G) : ∃ x ∈ G.aux, ∃ n, y = (decAux n x.1, x.2) := by
  simp only [decAuxs, List.mem_map] at h
  obtain ⟨⟨x, i⟩, hx, rfl⟩ := h
  exact ⟨x, mem_zipIdx_fst hx, i, rfl⟩

theorem exists_decInit {G : Tag} {x : ET × Nat} (h : x ∈ G.init) : ∃ n, (decInit n x.1, x.2) ∈ decInits G := by
  obtain ⟨i, hi⟩ := exists_zipIdx (k := 1) h
  exact ⟨i, List.mem_map.2 ⟨(x, i), hi, rfl⟩⟩

theorem exists_decAux {G : Tag} {x : ET × Nat} (h : x ∈ G.aux) : ∃ n, (decAux n x.1, x.2) ∈ decAuxs G := by
  obtain ⟨i, hi⟩ := exists_zipIdx (k := 1 + G.init.length) h
  exact ⟨i, List.mem_map.2 ⟨(x, i), hi, rfl⟩⟩

theorem decAux_lab {G : Tag} (hw : Spec.WF G) {y : DT × Nat} (h : y ∈ decAuxs G) : ∃ x ∈ G.aux, erase y.1 = x.1 ∧ y.1.lab.base = x.1.label ∧ isSub y.1 = false ∧ ∃ s cs, y.1 = .inner s cs := by
  obtain ⟨x, hx, n, rfl⟩ := mem_decAuxs h
  obtain ⟨_, _, _, l, cs, e⟩ := hw.aux x hx
  have h1 : erase (decAux n x.1) = x.1 := erase_dec n x.1 0
  refine ⟨x, hx, h1, ?_, ?_, ?_⟩
  · show (decAux n x.1).lab.base = _
    rw [← erase_label, h1]
  · show isSub (decAux n x.1) = false
    rw [e]; rfl
  · show ∃ s cs, decAux n x.1 = _
    rw [e]; exact ⟨_, _, rfl⟩

/-- The nodes below the root of an initial tree have addresses. -/
theorem init_below_good {n : Nat} {t : ET} (h : Spec.Ok t) : ∀ d ∈ nodesBelow (decInit n t), Good d := by
  cases t with
  | inner l cs => rw [Spec.Ok] at h; exact decL_good n cs h.2 1
  | pre l w => intro d hd; simp [decInit, nodesBelow] at hd
  | sub l => intro d hd; simp [decInit, nodesBelow] at hd
  | foot l => intro d hd; simp [decInit, nodesBelow] at hd

theorem nodes_split {t d : DT} (h : d ∈ nodes t) : d = t ∨ d ∈ nodesBelow t := by
  cases t <;> simpa [nodes, nodesBelow] using h

theorem below_nodes {t d : DT} (h : d ∈ nodesBelow t) : d ∈ nodes t := by
  cases t with
  | inner s cs => rw [nodes]; exact List.mem_cons_of_mem _ h
  | _ => simp [nodesBelow] at h

theorem child_below {t : DT} {s : Sym} {cs : List DT} {c : DT} (h : .inner s cs ∈ nodes t) (hc : c ∈ cs) : c ∈ nodesBelow t := by
  rcases nodes_split h with h | h
  · rw [← h]; exact mem_nodesL.2 ⟨c, hc, nodes_self c⟩
  · cases t with
    | inner s' cs' =>
      obtain ⟨c', h1, h2⟩ := mem_nodesL.1 h
      exact mem_nodesL.2 ⟨c', h1, nodes_child h2 hc⟩
    | _ => simp [nodesBelow] at h

theorem decInit_lab (n : Nat) (t : ET) : (decInit n t).lab = .raw t.label := by cases t <;> rfl

/-- What is known of each node. -/
theorem all_cases {G : Tag} (hw : Spec.WF G) {k : Bool} {d : DT} (h : (k, d) ∈ allnodes G) :
    Spec.Ok (erase d) ∧ (k = false → footc (erase d) = 0) ∧ footc (erase d) ≤ 1 ∧
    (Good d ∨ (k = false ∧ ∃ x ∈ G.init, erase d = x.1 ∧ d.lab = .raw x.1.label)) := by
  cases k with
  | false =>
    obtain ⟨y, hy, hd⟩ := mem_all_false.1 h
    obtain ⟨x, hx, n, rfl⟩ := mem_decInits hy
    obtain ⟨h1, h2⟩ := hw.init x hx
    have h3 := erase_decInit n x.1
    obtain ⟨h4, h5⟩ := node_ok _ d hd (by rw [h3]; exact h1)
    rw [h3, h2] at h5
    refine ⟨h4, fun _ => by omega, by omega, ?_⟩
    rcases nodes_split hd with rfl | hd
    · exact Or.inr ⟨rfl, x, hx, h3, decInit_lab n x.1⟩
    · exact Or.inl (init_below_good h1 d hd)
  | true =>
    obtain ⟨y, hy, hd⟩ := mem_all_true.1 h
    obtain ⟨x, hx, n, rfl⟩ := mem_decAuxs hy
    obtain ⟨h1, h2, _⟩ := hw.aux x hx
    have h3 : erase (decAux n x.1) = x.1 := erase_dec n x.1 0
    obtain ⟨h4, h5⟩ := node_ok _ d hd (by rw [h3]; exact h1)
    rw [h3, h2] at h5
    exact ⟨h4, nofun, h5, Or.inl (dec_good n x.1 h1 0 d hd)⟩

theorem all_good {G : Tag} (hw : Spec.WF G) {d : DT} (h : (true, d) ∈ allnodes G) : Good d := by
  rcases (all_cases hw h).2.2.2 with h | ⟨h, _⟩
  · exact h
  · cases h

theorem all_child {G : Tag} (hw : Spec.WF G) {k : Bool} {s : Sym} {cs : List DT} {c : DT} (h : (k, .inner s cs) ∈ allnodes G) (hc : c ∈ cs) : (k, c) ∈ allnodes G ∧ Good c := by
  cases k with
  | false =>
    obtain ⟨y, hy, hd⟩ := mem_all_false.1 h
    obtain ⟨x, hx, n, rfl⟩ := mem_decInits hy
    have hb := child_below hd hc
    exact ⟨mem_all_false.2 ⟨_, hy, below_nodes hb⟩, init_below_good (hw.init x hx).1 c hb⟩
  | true =>
    obtain ⟨y, hy, hd⟩ := mem_all_true.1 h
    have : (true, c) ∈ allnodes G := mem_all_true.2 ⟨y, hy, nodes_child hd hc⟩
    exact ⟨this, all_good hw this⟩

theorem good_spinal {d : DT} (h : Good d) (hf : ∀ l, d ≠ .foot l) : spinal d.lab = hasFoot (erase d) := by
  cases d with
  | inner s cs => obtain ⟨l, n, m, e⟩ := h; exact (congrArg spinal e).trans rfl
  | pre s w => obtain ⟨l, n, m, e⟩ := h; simp only [DT.lab]; rw [e, spinal, erase]; rfl
  | sub l => simp only [DT.lab, spinal, erase]; exact decide_eq_false h
  | foot l => exact absurd rfl (hf l)

/-- Labels of sites. -/
theorem mem_adjsites {G : Tag} {X : Str} {m : Sym} : m ∈ adjsites G X ↔ m.base = X ∧
    ((∃ d, (false, d) ∈ allnodes G ∧ isSub d = false ∧ isPre d = false ∧ d.lab = m) ∨ ∃ d, (true, d) ∈ allnodes G ∧ spinal d.lab = false ∧ isSub d = false ∧ d.lab = m) := by
  simp only [adjsites, List.mem_filter, List.mem_append, List.mem_flatMap, List.mem_map, decide_eq_true_eq]
  constructor
  · rintro ⟨h | h, hb⟩
    · obtain ⟨y, hy, d, ⟨hd, h1⟩, h2⟩ := h
      simp only [Bool.not_eq_true', Bool.or_eq_false_iff] at h1
      exact ⟨hb, Or.inl ⟨d, mem_all_false.2 ⟨y, hy, hd⟩, h1.1, h1.2, h2⟩⟩
    · obtain ⟨y, hy, d, ⟨hd, h1⟩, h2⟩ := h
      simp only [Bool.and_eq_true, Bool.not_eq_true'] at h1
      exact ⟨hb, Or.inr ⟨d, mem_all_true.2 ⟨y, hy, hd⟩, h1.1, h1.2, h2⟩⟩
  · rintro ⟨hb, h | h⟩
    · obtain ⟨d, hd, h1, h2, h3⟩ := h
      obtain ⟨y, hy, hd⟩ := mem_all_false.1 hd
      exact ⟨Or.inl ⟨y, hy, d, ⟨hd, by simp [h1, h2]⟩, h3⟩, hb⟩
    · obtain ⟨d, hd, h1, h2, h3⟩ := h
      obtain ⟨y, hy, hd⟩ := mem_all_true.1 hd
      exact ⟨Or.inr ⟨y, hy, d, ⟨hd, by simp [h1, h2]⟩, h3⟩, hb⟩

theorem foot_mem (l : Str) (t : DT) : footc (erase t) ≠ 0 → Spec.FootLabel l (erase t) → .foot l ∈ nodes t := by
  induction t using DT.rec (motive_2 := fun cs => footcL (eraseL cs) ≠ 0 → Spec.FootLabelL l (eraseL cs) → .foot l ∈ nodesL cs) with
  | inner s cs ih => intro h1 h2; rw [erase, footc] at h1; rw [erase, Spec.FootLabel] at h2; rw [nodes]; exact List.mem_cons_of_mem _ (ih h1 h2)
  | pre s w => intro h1; simp [erase, footc] at h1
  | sub l => intro h1; simp [erase, footc] at h1
  | foot l' => intro h1 h2; rw [erase, Spec.FootLabel] at h2; subst h2; simp [nodes]
  | nil => rename_i h1 _; simp [eraseL, footcL] at h1
  | cons c cs h1 h2 =>
    rename_i a b
    rw [eraseL, footcL] at a
    rw [eraseL, Spec.FootLabelL] at b
    rw [nodesL, List.mem_append]
    by_cases hc : footc (erase c) = 0
    · exact Or.inr (h2 (by omega) b.2)
    · exact Or.inl (h1 hc b.1)

/-- The label of the root of an auxiliary tree is itself a site, by the foot. -/
theorem raw_site {G : Tag} (hw : Spec.WF G) {x : ET × Nat} (hx : x ∈ G.aux) : .raw x.1.label ∈ adjsites G x.1.label := by
  obtain ⟨h1, h2, h3, _⟩ := hw.aux x hx
  obtain ⟨n, hn⟩ := exists_decAux hx
  have e : erase (decAux n x.1) = x.1 := erase_dec n x.1 0
  have hm : DT.foot x.1.label ∈ nodes (decAux n x.1) := foot_mem _ _ (by rw [e]; omega) (by rw [e]; exact h3)
  have ha : (true, DT.foot x.1.label) ∈ allnodes G := mem_all_true.2 ⟨_, hn, hm⟩
  refine mem_adjsites.2 ⟨rfl, Or.inr ⟨_, ha, ?_, rfl, rfl⟩⟩
  have := all_good hw ha
  exact decide_eq_false this

theorem mem_initRules {y : DT × Nat} {r : Rule} : (∃ n, (r, n) ∈ initRules y) ↔ ∃ s cs, .inner s cs ∈ nodes y.1 ∧ r = rule1 s cs := by
  obtain ⟨t, w⟩ := y
  have key : ∀ v (d : DT) n, (r, n) ∈ nodeRules v d ↔ ∃ s cs, d = .inner s cs ∧ r = rule1 s cs ∧ n = v := by
    intro v d n
    cases d <;> simp [nodeRules]
  simp only [initRules, List.mem_append, List.mem_flatMap, key]
  constructor
  · rintro ⟨n, ⟨s, cs, h, h', _⟩ | ⟨d, hd, s, cs, h, h', _⟩⟩
    · exact ⟨s, cs, h ▸ nodes_self _, h'⟩
    · exact ⟨s, cs, h ▸ below_nodes hd, h'⟩
  · rintro ⟨s, cs, h, rfl⟩
    rcases nodes_split h with h | h
    · exact ⟨w, Or.inl ⟨s, cs, h.symm, rfl, rfl⟩⟩
    · exact ⟨1, Or.inr ⟨_, h, s, cs, rfl, rfl, rfl⟩⟩

theorem mem_initLex {y : DT × Nat} {s : Sym} {t : Str} : (∃ n, ((s, t), n) ∈ initLex y) ↔ .pre s t ∈ nodes y.1 := by
  obtain ⟨d, w⟩ := y
  have key : ∀ v (d : DT) n, ((s, t), n) ∈ nodeLex v d ↔ d = .pre s t ∧ n = v := by
    intro v d n
    cases d <;> simp [nodeLex, eq_comm]
  simp only [initLex, List.mem_append, List.mem_flatMap, key]
  constructor
  · rintro ⟨n, ⟨h, _⟩ | ⟨d, hd, h, _⟩⟩
    · exact h ▸ nodes_self _
    · exact h ▸ below_nodes hd
  · intro h
    rcases nodes_split h with h | h
    · exact ⟨w, Or.inl ⟨h.symm, rfl⟩⟩
    · exact ⟨1, Or.inr ⟨_, h, rfl, rfl⟩⟩

theorem mem_auxLex {y : DT × Nat} {s : Sym} {t : Str} : (∃ n, ((s, t), n) ∈ auxLex y) ↔ .pre s t ∈ nodes y.1 := by
  have key : ∀ v (d : DT) n, ((s, t), n) ∈ nodeLex v d ↔ d = .pre s t ∧ n = v := by
    intro v d n
    cases d <;> simp [nodeLex, eq_comm]
  simp only [auxLex, List.mem_flatMap, key]
  constructor
  · rintro ⟨n, d, hd, h, _⟩; exact h ▸ hd
  · intro h; exact ⟨1, _, h, rfl, rfl⟩

/-- The lexicon consists of the preterminals. -/
theorem mem_lexicon {G : Tag} {s : Sym} {t : Str} : (∃ n, ((s, t), n) ∈ lexicon G) ↔ ∃ k, (k, .pre s t) ∈ allnodes G := by
  simp only [lexicon, List.mem_append, List.mem_flatMap]
  constructor
  · rintro ⟨n, ⟨y, hy, h⟩ | ⟨y, hy, h⟩⟩
    · exact ⟨false, mem_all_false.2 ⟨y, hy, mem_initLex.1 ⟨n, h⟩⟩⟩
    · exact ⟨true, mem_all_true.2 ⟨y, hy, mem_auxLex.1 ⟨n, h⟩⟩⟩
  · rintro ⟨k, h⟩
    cases k with
    | false =>
      obtain ⟨y, hy, h⟩ := mem_all_false.1 h
      obtain ⟨n, hn⟩ := mem_initLex.2 h
      exact ⟨n, Or.inl ⟨y, hy, hn⟩⟩
    | true =>
      obtain ⟨y, hy, h⟩ := mem_all_true.1 h
      obtain ⟨n, hn⟩ := mem_auxLex.2 h
      exact ⟨n, Or.inr ⟨y, hy, hn⟩⟩

/-- Rules of type 2 and type 3. -/
def rule2 (s site : Sym) (cs : List DT) : Rule := ⟨.app s site, cs.map (spinallabel site), yfstr cs.length⟩
def rule3 (root m : Sym) : Rule := ⟨m, [.app root m], [0]⟩

theorem mem_auxRules {G : Tag} {y : DT × Nat} {r : Rule} (hr : isSub y.1 = false) : (∃ n, (r, n) ∈ auxRules G y) ↔
    (∃ s cs, .inner s cs ∈ nodes y.1 ∧ spinal s = false ∧ r = rule1 s cs) ∨
    (∃ s cs, .inner s cs ∈ nodes y.1 ∧ spinal s = true ∧ ∃ site ∈ adjsites G y.1.lab.base, r = rule2 s site cs) ∨
    ∃ m ∈ adjsites G y.1.lab.base, r = rule3 y.1.lab m := by
  obtain ⟨t, w⟩ := y
  simp only [auxRules, List.mem_flatMap]
  constructor
  · rintro ⟨n, d, hd, h⟩
    rw [auxNodeRules] at h
    by_cases hs : isSub d = true
    · rw [if_pos hs] at h; simp at h
    · rw [if_neg hs] at h
      rcases List.mem_append.1 h with h | h
      · cases d with
        | inner s cs =>
          rw [rules12] at h
          cases hsp : spinal s with
          | true =>
            rw [hsp] at h
            simp only [if_true, List.mem_map, List.mem_dedup, Prod.mk.injEq] at h
            obtain ⟨site, h1, h2, _⟩ := h
            exact Or.inr (Or.inl ⟨s, cs, hd, hsp, site, h1, h2.symm⟩)
          | false =>
            rw [hsp] at h
            simp only [Bool.false_eq_true, if_false, List.mem_singleton, Prod.mk.injEq] at h
            exact Or.inl ⟨s, cs, hd, hsp, h.1⟩
        | _ => simp [rules12] at h
      · simp only [List.mem_map, List.mem_dedup, Prod.mk.injEq] at h
        obtain ⟨m, h1, h2, _⟩ := h
        exact Or.inr (Or.inr ⟨m, h1, h2.symm⟩)
  · rintro (⟨s, cs, h1, h2, rfl⟩ | ⟨s, cs, h1, h2, site, h3, rfl⟩ | ⟨m, h1, rfl⟩)
    · refine ⟨1, _, h1, ?_⟩
      rw [auxNodeRules, if_neg (by simp [isSub])]
      simp [rules12, h2]
    · refine ⟨1, _, h1, ?_⟩
      rw [auxNodeRules, if_neg (by simp [isSub])]
      refine List.mem_append_left _ ?_
      simp only [rules12, h2, if_true, List.mem_map, List.mem_dedup]
      exact ⟨site, h3, rfl⟩
    · refine ⟨w, t, nodes_self t, ?_⟩
      simp only at hr
      rw [auxNodeRules, if_neg (by simp [hr])]
      refine List.mem_append_right _ ?_
      simp only [List.mem_map, List.mem_dedup]
      exact ⟨m, h1, rfl⟩

/-- The rules of the grammar. -/
theorem mem_rules {G : Tag} (hw : Spec.WF G) {r : Rule} : (∃ n, (r, n) ∈ rules G) ↔
    (∃ k s cs, (k, .inner s cs) ∈ allnodes G ∧ (k = true → spinal s = false) ∧ r = rule1 s cs) ∨
    (∃ y ∈ decAuxs G, ∃ s cs, .inner s cs ∈ nodes y.1 ∧ spinal s = true ∧ ∃ site ∈ adjsites G y.1.lab.base, r = rule2 s site cs) ∨
    ∃ y ∈ decAuxs G, ∃ m ∈ adjsites G y.1.lab.base, r = rule3 y.1.lab m := by
  simp only [rules, List.mem_append, List.mem_flatMap]
  constructor
  · rintro ⟨n, ⟨y, hy, h⟩ | ⟨y, hy, h⟩⟩
    · obtain ⟨s, cs, h1, h2⟩ := mem_initRules.1 ⟨n, h⟩
      exact Or.inl ⟨false, s, cs, mem_all_false.2 ⟨y, hy, h1⟩, nofun, h2⟩
    · obtain ⟨_, _, _, _, hs, _⟩ := decAux_lab hw hy
      rcases (mem_auxRules hs).1 ⟨n, h⟩ with ⟨s, cs, h1, h2, h3⟩ | ⟨s, cs, h1, h2, h3⟩ | h3
      · exact Or.inl ⟨true, s, cs, mem_all_true.2 ⟨y, hy, h1⟩, fun _ => h2, h3⟩
      · exact Or.inr (Or.inl ⟨y, hy, s, cs, h1, h2, h3⟩)
      · exact Or.inr (Or.inr ⟨y, hy, h3⟩)
  · rintro (⟨k, s, cs, h1, h2, h3⟩ | ⟨y, hy, h⟩ | ⟨y, hy, h⟩)
    · cases k with
      | false =>
        obtain ⟨y, hy, hd⟩ := mem_all_false.1 h1
        obtain ⟨n, hn⟩ := mem_initRules.2 ⟨s, cs, hd, h3⟩
        exact ⟨n, Or.inl ⟨y, hy, hn⟩⟩
      | true =>
        obtain ⟨y, hy, hd⟩ := mem_all_true.1 h1
        obtain ⟨_, _, _, _, hs, _⟩ := decAux_lab hw hy
        obtain ⟨n, hn⟩ := (mem_auxRules (G := G) hs).2 (Or.inl ⟨s, cs, hd, h2 rfl, h3⟩)
        exact ⟨n, Or.inr ⟨y, hy, hn⟩⟩
    · obtain ⟨_, _, _, _, hs, _⟩ := decAux_lab hw hy
      obtain ⟨n, hn⟩ := (mem_auxRules (G := G) hs).2 (Or.inr (Or.inl h))
      exact ⟨n, Or.inr ⟨y, hy, hn⟩⟩
    · obtain ⟨_, _, _, _, hs, _⟩ := decAux_lab hw hy
      obtain ⟨n, hn⟩ := (mem_auxRules (G := G) hs).2 (Or.inr (Or.inr h))
      exact ⟨n, Or.inr ⟨y, hy, hn⟩⟩

/-! ### From osTAG derivations to the grammar -/

theorem der_nil {G : Tag} {ws : List (List Str)} (h : Spec.Der G [] ws) : ws = [] := by cases h; rfl

theorem der_length {G : Tag} {ss : List Sym} {ws : List (List Str)} (h : Spec.Der G ss ws) : ss.length = ws.length := by
  induction h with
  | nil => rfl
  | lex _ _ ih => simp [ih]
  | rule _ _ _ _ ih => simp [ih]

theorem der_cons {G : Tag} {s : Sym} {w : List Str} {ss : List Sym} {ws : List (List Str)} (h1 : Spec.Der G [s] [w]) (h2 : Spec.Der G ss ws) : Spec.Der G (s :: ss) (w :: ws) := by
  cases h1 with
  | lex a b => exact .lex a h2
  | rule a b c => exact .rule a b h2

theorem sum_zero {xs : List Nat} (h : xs.sum = 0) : ∀ x ∈ xs, x = 0 := by
  induction xs with
  | nil => intro x hx; simp at hx
  | cons a xs ih =>
    intro x hx
    rw [List.sum_cons] at h
    rcases List.mem_cons.1 hx with rfl | hx
    · omega
    · exact ih (by omega) x hx

theorem der_append {G : Tag} {ss ss' : List Sym} {ws ws' : List (List Str)} (h1 : Spec.Der G ss ws) (h2 : Spec.Der G ss' ws') : Spec.Der G (ss ++ ss') (ws ++ ws') := by
  induction h1 with
  | nil => exact h2
  | lex a _ ih => exact .lex a ih
  | rule a b _ _ ih => exact .rule a b ih

theorem yield_flatten {n : Nat} {xs : List (List Str)} (h : n = 1 ∨ n = 2) (hx : n = xs.length) : Spec.yield (yfstr n) xs = xs.flatten := by
  match xs, hx with
  | [], hx => simp at hx; omega
  | [a], hx => rw [hx]; simp [yfstr, Spec.yield]
  | [a, b], hx => rw [hx]; simp [yfstr, Spec.yield]
  | a :: b :: c :: r, hx => simp at hx; omega

theorem der_rule {G : Tag} {s : Sym} {rhs : List Sym} {k n : Nat} {xs : List (List Str)} (h : ((⟨s, rhs, yfstr k⟩ : Rule), n) ∈ rules G) (hk : k = 1 ∨ k = 2) (hl : k = rhs.length)
    (hd : Spec.Der G rhs xs) : Spec.Der G [s] [xs.flatten] := by
  have := Spec.Der.rule h hd (.nil)
  rwa [yield_flatten hk (hl.trans (der_length hd))] at this

/-- What corresponds to an item. -/
def Sound (G : Tag) : Spec.Item → List Str → Prop
  | .label X, w => Spec.Der G [.raw X] [w]
  | .node k t, w => ∀ d, erase d = t → (k, d) ∈ allnodes G → hasFoot t = false → Spec.Der G [d.lab] [w]
  | .nodeA k t, w => ∀ d, erase d = t → (k, d) ∈ allnodes G → hasFoot t = false → Spec.Der G [d.lab] [w]
  | .list k ts, w => ∀ ds : List DT, eraseL ds = ts → (∀ d ∈ ds, (k, d) ∈ allnodes G ∧ hasFoot (erase d) = false) → ∃ ws, Spec.Der G (ds.map DT.lab) ws ∧ w = ws.flatten
  | .spine t w0, w => ∀ y ∈ decAuxs G, ∀ d ∈ nodes y.1, erase d = t → hasFoot t = true → ∀ site ∈ adjsites G y.1.lab.base, Spec.Der G [site] [w0] →
      Spec.Der G [spinallabel site d] [w]

theorem hasFoot_false {t : ET} : hasFoot t = false ↔ footc t = 0 := by simp [hasFoot]

theorem hasFoot_child {l : Str} {cs : List ET} (h : hasFoot (.inner l cs) = false) : ∀ c ∈ cs, hasFoot c = false := by
  intro c hc
  rw [hasFoot_false, footc, footcL_eq] at h
  rw [hasFoot_false]
  exact sum_zero h _ (List.mem_map.2 ⟨c, hc, rfl⟩)

theorem erase_inner {d : DT} {l : Str} {cs : List ET} (h : erase d = .inner l cs) : ∃ s ds, d = .inner s ds ∧ s.base = l ∧ eraseL ds = cs := by
  cases d with
  | inner s ds => rw [erase] at h; cases h; exact ⟨s, ds, rfl, rfl, rfl⟩
  | _ => simp [erase] at h

theorem spinallabel_off {d : DT} {site : Sym} (hg : Good d) (hf : hasFoot (erase d) = false) : spinallabel site d = d.lab := by
  have h1 : ∀ l, d ≠ .foot l := by rintro l rfl; simp [erase, hasFoot, footc] at hf
  have h2 := good_spinal hg h1
  rw [hf] at h2
  cases d with
  | foot l => exact absurd rfl (h1 l)
  | _ => simp only [spinallabel, h2]; simp

theorem spinallabel_on {d : DT} {site : Sym} (hg : Good d) (hf : hasFoot (erase d) = true) (h1 : ∀ l, d ≠ .foot l) : spinallabel site d = .app d.lab site := by
  have h2 := good_spinal hg h1
  rw [hf] at h2
  cases d with
  | foot l => exact absurd rfl (h1 l)
  | _ => simp only [spinallabel, h2]; simp

theorem eraseL_append_inv {ds : List DT} {a b : List ET} (h : eraseL ds = a ++ b) : ∃ d1 d2, ds = d1 ++ d2 ∧ eraseL d1 = a ∧ eraseL d2 = b := by
  rw [eraseL_eq] at h
  obtain ⟨d1, d2, e, h1, h2⟩ := List.map_eq_append_iff.1 h
  exact ⟨d1, d2, e, by rw [eraseL_eq, h1], by rw [eraseL_eq, h2]⟩

theorem eraseL_cons_inv {ds : List DT} {a : ET} {b : List ET} (h : eraseL ds = a :: b) : ∃ d ds', ds = d :: ds' ∧ erase d = a ∧ eraseL ds' = b := by
  cases ds with
  | nil => simp [eraseL] at h
  | cons d ds => rw [eraseL] at h; cases h; exact ⟨d, ds, rfl, rfl, rfl⟩

/-- Every derivation of the osTAG has one in the grammar. -/
theorem sound {G : Tag} (hw : Spec.WF G) {i : Spec.Item} {w : List Str} (h : Spec.D (G.init.map Prod.fst) (G.aux.map Prod.fst) i w) : Sound G i w := by
  induction h with
  | subst ht _ ih =>
    obtain ⟨x, hx, rfl⟩ := List.mem_map.1 ht
    obtain ⟨n, hn⟩ := exists_decInit hx
    have := ih _ (erase_decInit n x.1) (mem_all_false.2 ⟨_, hn, nodes_self _⟩) (hasFoot_false.2 (hw.init x hx).2)
    rwa [decInit_lab] at this
  | adjRoot _ ha hl _ ih1 ih2 =>
    obtain ⟨x, hx, rfl⟩ := List.mem_map.1 ha
    subst hl
    obtain ⟨n, hn⟩ := exists_decAux hx
    have hs := raw_site hw hx
    obtain ⟨_, h2, _, l, cs, e0⟩ := hw.aux x hx
    have e : erase (decAux n x.1) = x.1 := erase_dec n x.1 0
    have hb : (decAux n x.1).lab.base = x.1.label := by rw [← erase_label, e]
    have hf : hasFoot x.1 = true := by simp [hasFoot, h2]
    have h3 := ih2 _ hn _ (nodes_self _) e hf (.raw x.1.label) (by simpa only [hb] using hs) ih1
    rw [spinallabel_on (all_good hw (mem_all_true.2 ⟨_, hn, nodes_self _⟩)) (by rw [e]; exact hf) (by intro l'; rw [decAux, e0]; simp [dec])] at h3
    obtain ⟨m, hm⟩ := (mem_rules hw).2 (Or.inr (Or.inr ⟨_, hn, .raw x.1.label, by simpa only [hb] using hs, rfl⟩))
    have := Spec.Der.rule hm h3 .nil
    show Spec.Der G [.raw x.1.label] _
    simpa [Spec.yield] using this
  | pre =>
    intro d hd hm _
    cases d with
    | pre s t =>
      rw [erase] at hd; cases hd
      obtain ⟨n, hn⟩ := mem_lexicon.2 ⟨_, hm⟩
      exact .lex hn .nil
    | _ => simp [erase] at hd
  | sub _ ih =>
    intro d hd hm _
    cases d with
    | sub l => rw [erase] at hd; cases hd; exact ih
    | _ => simp [erase] at hd
  | inner _ ih =>
    intro d hd hm hf
    obtain ⟨s, ds, rfl, _, e⟩ := erase_inner hd
    have hc : ∀ c ∈ ds, hasFoot (erase c) = false := by
      intro c hc
      refine hasFoot_child hf _ ?_
      rw [← e, eraseL_eq]; exact List.mem_map.2 ⟨c, hc, rfl⟩
    obtain ⟨ws, h1, h2⟩ := ih ds e (fun c h => ⟨(all_child hw hm h).1, hc c h⟩)
    obtain ⟨hok, _⟩ := all_cases hw hm
    rw [hd, Spec.Ok, ← e, eraseL_eq, List.length_map] at hok
    have hsp : ∀ k, (k, DT.inner s ds) ∈ allnodes G → k = true → spinal s = false := by
      rintro k hk rfl
      have := good_spinal (all_good hw hk) nofun
      rw [hd, hf] at this; exact this
    obtain ⟨n, hn⟩ := (mem_rules hw).2 (Or.inl ⟨_, s, ds, hm, hsp _ hm, rfl⟩)
    rw [h2]
    exact der_rule hn hok.1 (by simp) h1
  | noAdj _ ih => exact ih
  | adj _ hadj ha hl _ ih1 ih2 =>
    rename_i k t a w x h0 _
    intro d hd hm hf
    obtain ⟨x, hx, rfl⟩ := List.mem_map.1 ha
    obtain ⟨n, hn⟩ := exists_decAux hx
    obtain ⟨_, h2, _, l, cs, e0⟩ := hw.aux x hx
    have e : erase (decAux n x.1) = x.1 := erase_dec n x.1 0
    have hb : (decAux n x.1).lab.base = x.1.label := by rw [← erase_label, e]
    have hfx : hasFoot x.1 = true := by simp [hasFoot, h2]
    have hs : d.lab ∈ adjsites G x.1.label := by
      refine mem_adjsites.2 ⟨by rw [← erase_label, hd, hl], ?_⟩
      cases k with
      | false => 
        refine Or.inl ⟨d, hm, ?_, ?_, rfl⟩
        · cases d with
          | sub l => rw [erase] at hd; subst hd; simp [Spec.adjoinable] at hadj
          | _ => rfl
        · cases d with
          | pre s t => rw [erase] at hd; subst hd; simp [Spec.adjoinable] at hadj
          | _ => rfl
      | true =>
        refine Or.inr ⟨d, hm, ?_, ?_, rfl⟩
        · rw [good_spinal (all_good hw hm), hd, hf]
          rintro l' rfl
          rw [erase] at hd; subst hd; simp [Spec.adjoinable] at hadj
        · cases d with
          | sub l => rw [erase] at hd; subst hd; simp [Spec.adjoinable] at hadj
          | _ => rfl
    have h3 := ih2 _ hn _ (nodes_self _) e hfx d.lab (by simpa only [hb] using hs) (ih1 d hd hm hf)
    rw [spinallabel_on (all_good hw (mem_all_true.2 ⟨_, hn, nodes_self _⟩)) (by rw [e]; exact hfx) (by intro l'; rw [decAux, e0]; simp [dec])] at h3
    obtain ⟨m, hm⟩ := (mem_rules hw).2 (Or.inr (Or.inr ⟨_, hn, d.lab, by simpa only [hb] using hs, rfl⟩))
    have := Spec.Der.rule hm h3 .nil
    simpa [Spec.yield] using this
  | nil =>
    intro ds hd _
    cases ds with
    | nil => exact ⟨[], .nil, rfl⟩
    | cons d ds => simp [eraseL] at hd
  | cons _ _ ih1 ih2 =>
    intro ds hd hm
    obtain ⟨d, ds', rfl, e1, e2⟩ := eraseL_cons_inv hd
    have h1 := ih1 d e1 (hm d (by simp)).1 (by rw [← e1]; exact (hm d (by simp)).2)
    obtain ⟨ws, h2, h3⟩ := ih2 ds' e2 (fun c hc => hm c (by simp [hc]))
    exact ⟨_ :: ws, der_cons h1 h2, by rw [h3]; rfl⟩
  | foot =>
    intro y hy d hd hd' _ site hs hder
    cases d with
    | foot l => exact hder
    | _ => simp [erase] at hd'
  | @spine l0 ls0 rs0 s0 w00 xx yy zz hfs _ _ _ ih1 ih2 ih3 =>
    intro y hy d hd hd' hf site hs hder
    obtain ⟨sy, ds, rfl, _, e⟩ := erase_inner hd'
    obtain ⟨d1, d2', rfl, e1, e2'⟩ := eraseL_append_inv e
    obtain ⟨c, d2, rfl, ec, e2⟩ := eraseL_cons_inv e2'
    have hall := mem_all_true.2 ⟨y, hy, hd⟩
    obtain ⟨hok, _, hle, _⟩ := all_cases hw hall
    have hfc : footc (erase c) ≠ 0 := by rw [ec]; simpa [hasFoot] using hfs
    have hoff : ∀ d ∈ d1 ++ d2, hasFoot (erase d) = false := by
      intro d hmem
      rw [hasFoot_false]
      rw [erase, footc, footcL_eq, eraseL_eq, List.map_map, List.map_append, List.sum_append, List.map_cons, List.sum_cons, Function.comp_apply] at hle
      have hz : (d1.map (footc ∘ erase)).sum = 0 ∧ (d2.map (footc ∘ erase)).sum = 0 := by omega
      rcases List.mem_append.1 hmem with h | h
      · exact sum_zero hz.1 _ (List.mem_map.2 ⟨d, h, rfl⟩)
      · exact sum_zero hz.2 _ (List.mem_map.2 ⟨d, h, rfl⟩)
    obtain ⟨w1, a1, b1⟩ := ih1 d1 e1 (fun d h => ⟨(all_child hw hall (by simp [h])).1, hoff d (by simp [h])⟩)
    obtain ⟨w2, a2, b2⟩ := ih3 d2 e2 (fun d h => ⟨(all_child hw hall (by simp [h])).1, hoff d (by simp [h])⟩)
    have hmid := ih2 y hy c (nodes_child hd (by simp)) ec hfs site hs hder
    have hsp : spinal sy = true := by
      have := good_spinal (all_good hw hall) nofun
      rw [hd', hf] at this; exact this
    have eL : ∀ ds' : List DT, (∀ d ∈ ds', d ∈ d1 ++ d2) → ds'.map (spinallabel site) = ds'.map DT.lab := by
      intro ds' hds
      refine List.map_congr_left fun d h => ?_
      have hm := hds d h
      refine spinallabel_off (all_child hw hall ?_).2 (hoff d hm)
      rcases List.mem_append.1 hm with h | h <;> simp [h]
    obtain ⟨n, hn⟩ := (mem_rules hw).2 (Or.inr (Or.inl ⟨y, hy, sy, _, hd, hsp, site, hs, rfl⟩))
    rw [spinallabel_on (all_good hw hall) (by rw [hd']; exact hf) nofun, b1, b2]
    rw [erase, Spec.Ok, eraseL_eq, List.length_map] at hok
    have hder' : Spec.Der G ((d1 ++ c :: d2).map (spinallabel site)) (w1 ++ yy :: w2) := by
      rw [List.map_append, List.map_cons, eL d1 (fun d h => by simp [h]), eL d2 (fun d h => by simp [h])]
      exact der_append a1 (der_cons hmid a2)
    have := der_rule hn hok.1 (by simp) hder'
    simpa [List.append_assoc, DT.lab] using this

/-! ### From the grammar to osTAG derivations -/

/-- What a label stands for. -/
def Mean (G : Tag) : Sym → List Str → Prop
  | .raw X, w => Spec.D (G.init.map Prod.fst) (G.aux.map Prod.fst) (.label X) w
  | .addr l n m sp, w => ∀ k d, (k, d) ∈ allnodes G → d.lab = .addr l n m sp → hasFoot (erase d) = false → Spec.D (G.init.map Prod.fst) (G.aux.map Prod.fst) (.nodeA k (erase d)) w
  | .app N M, w => ∃ w0, Mean G M w0 ∧ ∀ d, (true, d) ∈ allnodes G → d.lab = N → Spec.D (G.init.map Prod.fst) (G.aux.map Prod.fst) (.spine (erase d) w0) w

theorem mean_child {G : Tag} {k : Bool} {d : DT} {w : List Str} (hd : (k, d) ∈ allnodes G) (hg : Good d) (hf : hasFoot (erase d) = false) (h : Mean G d.lab w) :
    Spec.D (G.init.map Prod.fst) (G.aux.map Prod.fst) (.nodeA k (erase d)) w := by
  cases d with
  | inner s cs => obtain ⟨l, n, m, e⟩ := hg; rw [DT.lab, e, Mean] at h; exact h k _ hd e hf
  | pre s t => obtain ⟨l, n, m, e⟩ := hg; rw [DT.lab, e, Mean] at h; exact h k _ hd e hf
  | sub l => rw [DT.lab, Mean] at h; exact .noAdj (.sub h)
  | foot l => simp [erase, hasFoot, footc] at hf

theorem mean_list {G : Tag} {k : Bool} : ∀ {ds : List DT} {ws : List (List Str)}, (∀ d ∈ ds, (k, d) ∈ allnodes G ∧ Good d ∧ hasFoot (erase d) = false) →
    List.Forall₂ (Mean G) (ds.map DT.lab) ws → Spec.D (G.init.map Prod.fst) (G.aux.map Prod.fst) (.list k (eraseL ds)) ws.flatten
  | [], ws, _, h => by cases h; exact .nil
  | d :: ds, ws, hd, h => by
    rw [List.map_cons] at h
    cases h with
    | cons h1 h2 =>
      obtain ⟨a, b, c⟩ := hd d (by simp)
      exact .cons (mean_child a b c h1) (mean_list (fun d h => hd d (by simp [h])) h2)

theorem foot_split {ds : List DT} (h : footcL (eraseL ds) = 1) : ∃ d1 c d2, ds = d1 ++ c :: d2 ∧ hasFoot (erase c) = true ∧ ∀ d ∈ d1 ++ d2, hasFoot (erase d) = false := by
  induction ds with
  | nil => simp [eraseL, footcL] at h
  | cons c ds ih =>
    rw [eraseL, footcL] at h
    by_cases hc : footc (erase c) = 0
    · obtain ⟨d1, c', d2, e, h1, h2⟩ := ih (by omega)
      refine ⟨c :: d1, c', d2, by rw [e]; rfl, h1, ?_⟩
      intro d hd
      rw [List.cons_append, List.mem_cons] at hd
      rcases hd with rfl | hd
      · rw [hasFoot_false]; exact hc
      · exact h2 d hd
    · refine ⟨[], c, ds, rfl, by simpa [hasFoot] using hc, ?_⟩
      intro d hd
      rw [hasFoot_false]
      have hz : footcL (eraseL ds) = 0 := by omega
      rw [footcL_eq, eraseL_eq, List.map_map] at hz
      exact sum_zero hz _ (List.mem_map.2 ⟨d, by simpa using hd, rfl⟩)

theorem forall₂_append_inv {α β : Type} {R : α → β → Prop} : ∀ {a b : List α} {c : List β}, List.Forall₂ R (a ++ b) c → ∃ c1 c2, c = c1 ++ c2 ∧ List.Forall₂ R a c1 ∧ List.Forall₂ R b c2
  | [], b, c, h => ⟨[], c, rfl, .nil, h⟩
  | x :: a, b, c, h => by
    rw [List.cons_append] at h
    cases h with
    | cons h1 h2 =>
      obtain ⟨c1, c2, rfl, h3, h4⟩ := forall₂_append_inv h2
      exact ⟨_ :: c1, c2, rfl, .cons h1 h3, h4⟩

/-- Rules preserve the meaning. -/
theorem rule_mean {G : Tag} (hw : Spec.WF G) {s : Sym} {rhs : List Sym} {yf : List Nat} {n : Nat} {xs : List (List Str)} (h : ((⟨s, rhs, yf⟩ : Rule), n) ∈ rules G)
    (hx : List.Forall₂ (Mean G) rhs xs) : Mean G s (Spec.yield yf xs) := by
  rcases (mem_rules hw).1 ⟨n, h⟩ with ⟨k, s', cs, h1, h2, h3⟩ | ⟨y, hy, s', cs, h1, h2, site, hs, h3⟩ | ⟨y, hy, m, hm, h3⟩
  · rw [rule1, Rule.mk.injEq] at h3
    obtain ⟨rfl, rfl, rfl⟩ := h3
    obtain ⟨hok, hk, _, hc⟩ := all_cases hw h1
    have hf : footc (erase (.inner s cs)) = 0 := by
      cases k with
      | false => exact hk rfl
      | true =>
        have := good_spinal (all_good hw h1) nofun
        rw [← hasFoot_false, ← this]; exact h2 rfl
    rw [erase, Spec.Ok, eraseL_eq, List.length_map] at hok
    rw [yield_flatten hok.1 (by rw [← hx.length_eq, List.length_map])]
    have hl := mean_list (k := k) (fun d hd => ⟨(all_child hw h1 hd).1, (all_child hw h1 hd).2, by
      refine hasFoot_child (l := s.base) (cs := eraseL cs) ?_ _ ?_
      · rw [hasFoot_false]; rw [erase] at hf; exact hf
      · rw [eraseL_eq]; exact List.mem_map.2 ⟨d, hd, rfl⟩⟩) hx
    have hn : Spec.D (G.init.map Prod.fst) (G.aux.map Prod.fst) (.node k (erase (.inner s cs))) xs.flatten := by
      rw [erase]; exact .inner hl
    rcases hc with ⟨l, n', m, e⟩ | ⟨rfl, x, hx', e1, e2⟩
    · rw [e, Mean]
      intro k' d' hd' hlab _
      have := addr_unique G hd' h1 hlab e
      rw [Prod.mk.injEq] at this
      rw [this.1, this.2]
      exact .noAdj hn
    · simp only [DT.lab] at e2
      rw [e2, Mean]
      rw [e1] at hn
      exact .subst (List.mem_map.2 ⟨x, hx', rfl⟩) hn
  · rw [rule2, Rule.mk.injEq] at h3
    obtain ⟨rfl, rfl, rfl⟩ := h3
    have hall := mem_all_true.2 ⟨y, hy, h1⟩
    obtain ⟨hok, _, hle, _⟩ := all_cases hw hall
    have hgood := all_good hw hall
    have hf : hasFoot (erase (.inner s' cs)) = true := by
      have := good_spinal hgood nofun
      rw [← this]; exact h2
    have hfc : footcL (eraseL cs) = 1 := by
      rw [erase, footc] at hle
      simp only [hasFoot, erase, footc, decide_eq_true_eq] at hf
      omega
    obtain ⟨d1, c, d2, rfl, hc, hoff⟩ := foot_split hfc
    rw [erase, Spec.Ok, eraseL_eq, List.length_map] at hok
    rw [yield_flatten hok.1 (by rw [← hx.length_eq, List.length_map])]
    have eL : ∀ ds' : List DT, (∀ d ∈ ds', d ∈ d1 ++ d2) → ds'.map (spinallabel site) = ds'.map DT.lab := by
      intro ds' hds
      refine List.map_congr_left fun d h => ?_
      have hm := hds d h
      refine spinallabel_off (all_child hw hall ?_).2 (hoff d hm)
      rcases List.mem_append.1 hm with h | h <;> simp [h]
    rw [List.map_append, List.map_cons, eL d1 (fun d h => by simp [h]), eL d2 (fun d h => by simp [h])] at hx
    obtain ⟨x1, x2', rfl, hx1, hx2'⟩ := forall₂_append_inv hx
    cases hx2' with
    | cons hxc hx2 =>
      rename_i xc x2
      have l1 := mean_list (k := true) (fun d hd => ⟨(all_child hw hall (by simp [hd])).1, (all_child hw hall (by simp [hd])).2, hoff d (by simp [hd])⟩) hx1
      have l2 := mean_list (k := true) (fun d hd => ⟨(all_child hw hall (by simp [hd])).1, (all_child hw hall (by simp [hd])).2, hoff d (by simp [hd])⟩) hx2
      have hcall := (all_child hw hall (c := c) (by simp))
      have hmid : ∃ w0, Mean G site w0 ∧ Spec.D (G.init.map Prod.fst) (G.aux.map Prod.fst) (.spine (erase c) w0) xc := by
        by_cases hfoot : ∃ l, c = .foot l
        · obtain ⟨l, rfl⟩ := hfoot
          exact ⟨xc, hxc, .foot⟩
        · rw [spinallabel_on hcall.2 hc (fun l e => hfoot ⟨l, e⟩), Mean] at hxc
          obtain ⟨w0, h3, h4⟩ := hxc
          exact ⟨w0, h3, h4 c hcall.1 rfl⟩
      obtain ⟨w0, h3, h4⟩ := hmid
      rw [Mean]
      refine ⟨w0, h3, ?_⟩
      intro d' hd' hlab
      obtain ⟨l, n', m, e⟩ := hgood
      have := addr_unique G hd' hall (hlab.trans e) e
      rw [Prod.mk.injEq] at this
      rw [this.2, erase, eraseL_eq, List.map_append, List.map_cons, ← eraseL_eq, ← eraseL_eq]
      have := Spec.D.spine (l := s'.base) hc l1 h4 l2
      simpa [List.append_assoc] using this
  · rw [rule3, Rule.mk.injEq] at h3
    obtain ⟨rfl, rfl, rfl⟩ := h3
    cases hx with
    | cons hx1 hx2 =>
      cases hx2
      rename_i x
      rw [Mean] at hx1
      obtain ⟨w0, h4, h5⟩ := hx1
      have h6 := h5 y.1 (mem_all_true.2 ⟨y, hy, nodes_self _⟩) rfl
      obtain ⟨a, ha, ea, eb, _⟩ := decAux_lab hw hy
      rw [ea] at h6
      have ha' : a.1 ∈ G.aux.map Prod.fst := List.mem_map.2 ⟨a, ha, rfl⟩
      have ey : Spec.yield [0] [x] = x := by simp [Spec.yield]
      rw [ey]
      obtain ⟨hbase, hsite⟩ := mem_adjsites.1 hm
      have hlab : ∃ k d, (k, d) ∈ allnodes G ∧ d.lab = s ∧ ((Good d ∧ ((∃ l, d = .foot l) ∨ Spec.adjoinable k (erase d) = true)) ∨ ∃ X, s = .raw X) := by
        rcases hsite with ⟨d, hd, q1, q2, q3⟩ | ⟨d, hd, q1, q2, q3⟩
        · refine ⟨false, d, hd, q3, ?_⟩
          rcases (all_cases hw hd).2.2.2 with hg | ⟨_, x', _, _, e⟩
          · left
            refine ⟨hg, ?_⟩
            cases d with
            | inner s cs => right; rfl
            | pre s t => simp [isPre] at q2
            | sub l => simp [isSub] at q1
            | foot l => left; exact ⟨l, rfl⟩
          · right; exact ⟨_, q3.symm.trans e⟩
        · refine ⟨true, d, hd, q3, Or.inl ⟨all_good hw hd, ?_⟩⟩
          cases d with
          | inner s cs => right; rfl
          | pre s t => right; rfl
          | sub l => simp [isSub] at q2
          | foot l => left; exact ⟨l, rfl⟩
      obtain ⟨k, d, hd, e, hh⟩ := hlab
      cases s with
      | raw X =>
        rw [Mean] at h4 ⊢
        exact .adjRoot h4 ha' (by rw [← eb, ← hbase]; rfl) h6
      | addr l n' m' sp =>
        rw [Mean] at h4 ⊢
        intro k' d' hd' hlab' hf'
        have := addr_unique G hd' hd hlab' e
        rw [Prod.mk.injEq] at this
        obtain ⟨rfl, rfl⟩ := this
        refine .adj (h4 k' d' hd' hlab' hf') ?_ ha' ?_ h6
        · rcases hh with ⟨_, ⟨l', rfl⟩ | h⟩ | ⟨X, h⟩
          · cases e
          · exact h
          · cases h
        · rw [erase_label, e, ← eb, ← hbase]
      | app N M =>
        rcases hh with ⟨hg, _⟩ | ⟨X, h⟩
        · cases d with
          | inner s cs => obtain ⟨l, n', m, e'⟩ := hg; simp only [DT.lab] at e; rw [e] at e'; cases e'
          | pre s cs => obtain ⟨l, n', m, e'⟩ := hg; simp only [DT.lab] at e; rw [e] at e'; cases e'
          | sub l => cases e
          | foot l => cases e
        · cases h

/-- Every derivation of the grammar is one of the osTAG. -/
theorem complete {G : Tag} (hw : Spec.WF G) {ss : List Sym} {ws : List (List Str)} (h : Spec.Der G ss ws) : List.Forall₂ (Mean G) ss ws := by
  induction h with
  | nil => exact .nil
  | lex hl _ ih =>
    refine .cons ?_ ih
    obtain ⟨k, hk⟩ := mem_lexicon.1 ⟨_, hl⟩
    rcases (all_cases hw hk).2.2.2 with ⟨l, n', m, e⟩ | ⟨rfl, x, hx, e1, e2⟩
    · rw [e, Mean]
      intro k' d' hd' hlab _
      have := addr_unique G hd' hk hlab e
      rw [Prod.mk.injEq] at this
      rw [this.1, this.2, erase]
      exact .noAdj .pre
    · simp only [DT.lab] at e2
      rw [e2, Mean]
      refine .subst (List.mem_map.2 ⟨x, hx, rfl⟩) ?_
      rw [← e1, erase]
      exact .pre
  | rule hr _ _ ih1 ih2 => exact .cons (rule_mean hw hr ih1) ih2

/-! ### C78 -/

/-- **C78**: the grammar derives exactly the strings of the osTAG. -/
theorem C78_ostag (G : Tag) (hw : Spec.WF G) (X : Str) (w : List Str) :
    Spec.Der G [.raw X] [w] ↔ Spec.D (G.init.map Prod.fst) (G.aux.map Prod.fst) (.label X) w := by
  constructor
  · intro h
    have := complete hw h
    cases this with
    | cons h1 _ => exact h1
  · intro h; exact sound hw h

/-! ### Weights -/

/-- The weight of a rule in a list of increments. -/
def wsum (r : Rule) (L : List (Rule × Nat)) : Nat := ((L.filter fun x => x.1 = r).map Prod.snd).sum

theorem wsum_append (r : Rule) (L M : List (Rule × Nat)) : wsum r (L ++ M) = wsum r L + wsum r M := by simp [wsum]

theorem wsum_flatMap {α : Type} (r : Rule) (f : α → List (Rule × Nat)) (xs : List α) : wsum r (xs.flatMap f) = (xs.map fun x => wsum r (f x)).sum := by
  induction xs with
  | nil => rfl
  | cons x xs ih => rw [List.flatMap_cons, wsum_append, ih]; simp

theorem wsum_zero {r : Rule} {L : List (Rule × Nat)} (h : ∀ n, (r, n) ∉ L) : wsum r L = 0 := by
  have : L.filter (fun x => x.1 = r) = [] := by
    rw [List.filter_eq_nil_iff]
    rintro ⟨r', n⟩ hx e
    simp only [decide_eq_true_eq] at e
    subst e
    exact h n hx
  rw [wsum, this]; rfl

theorem wsum_map_nodup {α : Type} (f : α → Rule) (hf : Function.Injective f) (w : Nat) (xs : List α) (hn : xs.Nodup) (a : α) (ha : a ∈ xs) : wsum (f a) (xs.map fun x => (f x, w)) = w := by
  induction xs with
  | nil => simp at ha
  | cons x xs ih =>
    rw [List.nodup_cons] at hn
    rw [List.map_cons]
    have e : wsum (f a) ((f x, w) :: xs.map fun x => (f x, w)) = (if f x = f a then w else 0) + wsum (f a) (xs.map fun x => (f x, w)) := by
      simp only [wsum, List.filter_cons, decide_eq_true_eq]
      by_cases h : f x = f a
      · simp [h]
      · simp [h]
    rw [e]
    rcases List.mem_cons.1 ha with rfl | ha
    · rw [if_pos rfl, wsum_zero]
      · rfl
      · intro n h
        obtain ⟨y, hy, e⟩ := List.mem_map.1 h
        rw [Prod.mk.injEq] at e
        exact hn.1 (hf e.1 ▸ hy)
    · rw [if_neg, ih hn.2 ha, Nat.zero_add]
      intro e
      exact hn.1 (hf e ▸ ha)

theorem sum_single {α : Type} (f : α → Nat) (P : α → Prop) (xs : List α) (hn : xs.Pairwise fun a b => ¬(P a ∧ P b)) (a : α) (ha : a ∈ xs) (hp : P a) (h0 : ∀ b ∈ xs, ¬P b → f b = 0) : (xs.map f).sum = f a := by
  induction xs with
  | nil => simp at ha
  | cons x xs ih =>
    rw [List.pairwise_cons] at hn
    rw [List.map_cons, List.sum_cons]
    rcases List.mem_cons.1 ha with rfl | ha
    · have : (xs.map f).sum = 0 := by
        have hz : ∀ b ∈ xs, f b = 0 := fun b hb => h0 b (by simp [hb]) (fun h => hn.1 b hb ⟨hp, h⟩)
        clear ih hn ha h0
        induction xs with
        | nil => rfl
        | cons y ys ih => rw [List.map_cons, List.sum_cons, hz y (by simp), ih (fun b hb => hz b (by simp [hb]))]
      omega
    · rw [h0 x (by simp) (fun h => hn.1 a ha ⟨h, hp⟩), ih hn.2 ha (fun b hb => h0 b (by simp [hb])), Nat.zero_add]

/-- No label of a node is an application. -/
theorem lab_not_app {G : Tag} (hw : Spec.WF G) {k : Bool} {d : DT} (h : (k, d) ∈ allnodes G) (N M : Sym) : d.lab ≠ .app N M := by
  intro e
  rcases (all_cases hw h).2.2.2 with hg | ⟨_, x, _, _, e2⟩
  · cases d with
    | inner s cs => obtain ⟨l, n, m, e'⟩ := hg; simp only [DT.lab] at e; rw [e] at e'; cases e'
    | pre s cs => obtain ⟨l, n, m, e'⟩ := hg; simp only [DT.lab] at e; rw [e] at e'; cases e'
    | sub l => cases e
    | foot l => cases e
  · rw [e2] at e; cases e

theorem site_not_app {G : Tag} (hw : Spec.WF G) {X : Str} {m : Sym} (h : m ∈ adjsites G X) (N M : Sym) : m ≠ .app N M := by
  rcases (mem_adjsites.1 h).2 with ⟨d, hd, _, _, e⟩ | ⟨d, hd, _, _, e⟩
  · rw [← e]; exact lab_not_app hw hd N M
  · rw [← e]; exact lab_not_app hw hd N M

theorem rule1_ne {G : Tag} (hw : Spec.WF G) {k : Bool} {s : Sym} {cs : List DT} (h : (k, .inner s cs) ∈ allnodes G) (root m : Sym) : rule1 s cs ≠ rule3 root m := by
  intro e
  rw [rule1, rule3, Rule.mk.injEq] at e
  obtain ⟨_, e, _⟩ := e
  cases cs with
  | nil => cases e
  | cons c cs =>
    rw [List.map_cons, List.cons.injEq] at e
    exact lab_not_app hw (all_child hw h (c := c) (by simp)).1 _ _ e.1

theorem aux_root_lab {G : Tag} (hw : Spec.WF G) {y : DT × Nat} (h : y ∈ decAuxs G) : ∃ l n sp, y.1.lab = .addr l n 0 sp := by
  obtain ⟨x, hx, n, rfl⟩ := mem_decAuxs h
  obtain ⟨_, _, _, l, cs, e⟩ := hw.aux x hx
  refine ⟨l, n, hasFoot (.inner l cs), ?_⟩
  rw [e]; rfl

theorem aux_pairwise (G : Tag) (hw : Spec.WF G) (s : Sym) : (decAuxs G).Pairwise fun a b => ¬(a.1.lab = s ∧ b.1.lab = s) := by
  rw [decAuxs, List.pairwise_map]
  have h : ∀ {k : Nat} {xs : List (ET × Nat)}, (∀ x ∈ xs, ∃ l cs, x.1 = .inner l cs) →
      (xs.zipIdx k).Pairwise fun a b => ¬((decAux a.2 a.1.1).lab = s ∧ (decAux b.2 b.1.1).lab = s) := by
    intro k xs
    induction xs generalizing k with
    | nil => intro _; simp
    | cons x xs ih =>
      intro hx
      rw [List.zipIdx_cons, List.pairwise_cons]
      refine ⟨?_, ih fun x h => hx x (by simp [h])⟩
      rintro ⟨x', j⟩ hj ⟨h1, h2⟩
      have hk : k + 1 ≤ j := List.le_snd_of_mem_zipIdx hj
      obtain ⟨l, cs, e⟩ := hx x (by simp)
      obtain ⟨l', cs', e'⟩ := hx x' (by simp [mem_zipIdx_fst hj])
      simp only [e] at h1
      simp only [e'] at h2
      have := h1.trans h2.symm
      simp only [decAux, dec, DT.lab, Sym.addr.injEq] at this
      omega
  exact h fun x hx => (hw.aux x hx).2.2.2

theorem wsum_aux_node {G : Tag} (hw : Spec.WF G) {y : DT × Nat} (hy : y ∈ decAuxs G) {d : DT} (hd : d ∈ nodes y.1) {m : Sym} (hm : m ∈ adjsites G y.1.lab.base) :
    wsum (rule3 y.1.lab m) (auxNodeRules G y.1.lab y.2 d) = if isSub d then 0 else y.2 := by
  rw [auxNodeRules]
  by_cases hs : isSub d = true
  · rw [if_pos hs, if_pos hs]; rfl
  · rw [if_neg hs, if_neg hs, wsum_append]
    have e3 : wsum (rule3 y.1.lab m) ((adjsites G y.1.lab.base).dedup.map fun m => ((⟨m, [.app y.1.lab m], [0]⟩ : Rule), y.2)) = y.2 := by
      refine wsum_map_nodup (rule3 y.1.lab) ?_ _ _ (List.nodup_dedup _) m (List.mem_dedup.2 hm)
      intro a b e
      rw [rule3, rule3, Rule.mk.injEq] at e
      exact e.1
    rw [e3, wsum_zero, Nat.zero_add]
    · intro n h
      cases d with
      | inner s cs =>
        rw [rules12] at h
        cases hsp : spinal s with
        | true =>
          rw [hsp] at h
          simp only [if_true, List.mem_map, Prod.mk.injEq] at h
          obtain ⟨site, _, e, _⟩ := h
          rw [rule3, Rule.mk.injEq] at e
          exact site_not_app hw hm _ _ e.1.symm
        | false =>
          rw [hsp] at h
          simp only [Bool.false_eq_true, if_false, List.mem_singleton, Prod.mk.injEq] at h
          exact rule1_ne hw (mem_all_true.2 ⟨y, hy, hd⟩) _ _ h.1.symm
      | _ => simp [rules12] at h

/-- The weight of adjoining an auxiliary tree is the weight of the tree times the number of its nodes that are not substitution sites. -/
theorem C78_adjunction_weight (G : Tag) (hw : Spec.WF G) (y : DT × Nat) (hy : y ∈ decAuxs G) (m : Sym) (hm : m ∈ adjsites G y.1.lab.base) :
    weight G ⟨m, [.app y.1.lab m], [0]⟩ = ((nodes y.1).filter fun d => !isSub d).length * y.2 := by
  show wsum (rule3 y.1.lab m) (rules G) = _
  rw [rules, wsum_append, wsum_zero, Nat.zero_add, wsum_flatMap, sum_single _ (fun z => z.1.lab = y.1.lab) _ (aux_pairwise G hw _) y hy rfl]
  · rw [auxRules, wsum_flatMap]
    have : ∀ ds : List DT, (∀ d ∈ ds, d ∈ nodes y.1) → (ds.map fun d => wsum (rule3 y.1.lab m) (auxNodeRules G y.1.lab y.2 d)).sum = (ds.filter fun d => !isSub d).length * y.2 := by
      intro ds
      induction ds with
      | nil => intro _; simp
      | cons d ds ih =>
        intro h
        rw [List.map_cons, List.sum_cons, ih (fun d h' => h d (by simp [h'])), wsum_aux_node hw hy (h d (by simp)) hm, List.filter_cons]
        cases hs : isSub d with
        | true => simp
        | false => simp [Nat.add_mul, Nat.add_comm]
    exact this _ (fun d h => h)
  · intro z hz hne
    refine wsum_zero fun n h => ?_
    obtain ⟨_, _, _, _, hs, _⟩ := decAux_lab hw hz
    rcases (mem_auxRules hs).1 ⟨n, h⟩ with ⟨s, cs, h1, h2, h3⟩ | ⟨s, cs, h1, h2, site, h3, h4⟩ | ⟨m', h3, h4⟩
    · exact rule1_ne hw (mem_all_true.2 ⟨z, hz, h1⟩) _ _ h3.symm
    · rw [rule2, rule3, Rule.mk.injEq] at h4
      exact site_not_app hw hm _ _ h4.1
    · rw [rule3, rule3, Rule.mk.injEq] at h4
      obtain ⟨e1, e2, _⟩ := h4
      rw [e1] at e2
      simp only [List.cons.injEq, Sym.app.injEq, and_true] at e2
      exact hne e2.symm
  · intro n h
    obtain ⟨z, hz, h⟩ := List.mem_flatMap.1 h
    obtain ⟨s, cs, h1, h2⟩ := mem_initRules.1 ⟨n, h⟩
    exact rule1_ne hw (mem_all_false.2 ⟨z, hz, h1⟩) _ _ h2.symm

/-! ### Cases -/

/-- S → NP VP with adjunction of relative and other modifiers. -/
def exTag : Tag := ⟨
  [(.inner "S".toList [.sub "NP".toList, .inner "VP".toList [.pre "V".toList "slept".toList]], 2), (.inner "NP".toList [.pre "D".toList "a".toList, .pre "N".toList "cat".toList], 3)],
  [(.inner "NP".toList [.pre "J".toList "the".toList, .foot "NP".toList], 4), (.inner "NP".toList [.inner "XP".toList [.foot "NP".toList], .pre "R".toList "here".toList], 4),
   (.inner "VP".toList [.foot "VP".toList, .inner "AP".toList [.pre "A".toList "well".toList]], 1)]⟩

/-- The grammar meets the conditions. -/
theorem exTag_wf : Spec.WF exTag := by
  constructor
  · intro x hx
    simp only [exTag, List.mem_cons, List.not_mem_nil, or_false] at hx
    rcases hx with rfl | rfl
    · simp [Spec.Ok, Spec.OkL, footc, footcL]
    · simp [Spec.Ok, Spec.OkL, footc, footcL]
  · intro x hx
    simp only [exTag, List.mem_cons, List.not_mem_nil, or_false] at hx
    rcases hx with rfl | rfl | rfl
    · simp [Spec.Ok, Spec.OkL, footc, footcL, Spec.FootLabel, Spec.FootLabelL, ET.label]
    · simp [Spec.Ok, Spec.OkL, footc, footcL, Spec.FootLabel, Spec.FootLabelL, ET.label]
    · simp [Spec.Ok, Spec.OkL, footc, footcL, Spec.FootLabel, Spec.FootLabelL, ET.label]

/-- `the a cat here slept well` is derived with three adjunctions, so also by the grammar. -/
example : Spec.Der exTag [.raw "S".toList] [["the".toList, "a".toList, "cat".toList, "here".toList, "slept".toList, "well".toList]] := by
  rw [C78_ostag _ exTag_wf]
  have hcat : Spec.D (exTag.init.map Prod.fst) (exTag.aux.map Prod.fst) (.label "NP".toList) ["a".toList, "cat".toList] :=
    .subst (t := .inner "NP".toList [.pre "D".toList "a".toList, .pre "N".toList "cat".toList]) (by simp [exTag]) (.inner (.cons (x := ["a".toList]) (.noAdj .pre) (.cons (x := ["cat".toList]) (.noAdj .pre) .nil)))
  have hcat2 : Spec.D (exTag.init.map Prod.fst) (exTag.aux.map Prod.fst) (.label "NP".toList) ["a".toList, "cat".toList, "here".toList] :=
    .adjRoot hcat (a := .inner "NP".toList [.inner "XP".toList [.foot "NP".toList], .pre "R".toList "here".toList]) (by simp [exTag]) rfl
      (.spine (ls := []) (s := .inner "XP".toList [.foot "NP".toList]) (rs := [.pre "R".toList "here".toList]) (x := []) (y := ["a".toList, "cat".toList]) (z := ["here".toList]) rfl .nil
        (.spine (ls := []) (rs := []) (s := .foot "NP".toList) (x := []) (y := ["a".toList, "cat".toList]) (z := []) rfl .nil .foot .nil) (.cons (x := ["here".toList]) (.noAdj .pre) .nil))
  have hcat3 : Spec.D (exTag.init.map Prod.fst) (exTag.aux.map Prod.fst) (.label "NP".toList) ["the".toList, "a".toList, "cat".toList, "here".toList] :=
    .adjRoot hcat2 (a := .inner "NP".toList [.pre "J".toList "the".toList, .foot "NP".toList]) (by simp [exTag]) rfl
      (.spine (ls := [.pre "J".toList "the".toList]) (s := .foot "NP".toList) (rs := []) (x := ["the".toList]) (z := []) rfl (.cons (x := ["the".toList]) (.noAdj .pre) .nil) .foot .nil)
  have hvp : Spec.D (exTag.init.map Prod.fst) (exTag.aux.map Prod.fst) (.nodeA false (.inner "VP".toList [.pre "V".toList "slept".toList])) ["slept".toList, "well".toList] :=
    .adj (.noAdj (.inner (.cons (x := ["slept".toList]) (.noAdj .pre) .nil))) rfl (a := .inner "VP".toList [.foot "VP".toList, .inner "AP".toList [.pre "A".toList "well".toList]]) (by simp [exTag]) rfl
      (.spine (ls := []) (s := .foot "VP".toList) (rs := [.inner "AP".toList [.pre "A".toList "well".toList]]) (x := []) (y := ["slept".toList]) (z := ["well".toList]) rfl .nil .foot
        (.cons (x := ["well".toList]) (.noAdj (.inner (.cons (x := ["well".toList]) (.noAdj .pre) .nil))) .nil))
  exact .subst (t := .inner "S".toList [.sub "NP".toList, .inner "VP".toList [.pre "V".toList "slept".toList]]) (by simp [exTag])
    (.inner (.cons (x := ["the".toList, "a".toList, "cat".toList, "here".toList]) (.noAdj (.sub hcat3)) (.cons (x := ["slept".toList, "well".toList]) hvp .nil)))

/-- Two auxiliary trees with the same weight are adjoined with different weights: the rule is counted for each node. -/
theorem C78_weight_disagreement : ∃ y ∈ decAuxs exTag, ∃ z ∈ decAuxs exTag, y.2 = 4 ∧ z.2 = 4 ∧
    weight exTag ⟨.raw "NP".toList, [.app y.1.lab (.raw "NP".toList)], [0]⟩ = 12 ∧ weight exTag ⟨.raw "NP".toList, [.app z.1.lab (.raw "NP".toList)], [0]⟩ = 16 := by
  refine ⟨(decAuxs exTag)[0]'(by decide), by simp, (decAuxs exTag)[1]'(by decide), by simp, by decide, by decide, by decide +kernel, by decide +kernel⟩

/-- A substitution site with a label that ends with `$` is taken for a part of the spine: `his dog` with the auxiliary tree (NP (PRP$ 0=) (NP 1=*)). -/
def dollarTag : Tag := ⟨
  [(.inner "NP".toList [.pre "N".toList "dog".toList], 1), (.pre "PRP$".toList "his".toList, 1)],
  [(.inner "NP".toList [.sub "PRP$".toList, .foot "NP".toList], 1)]⟩

/-- What the labels of `dollarTag` derive. -/
def dollarMean : Sym → List Str → Prop
  | .raw l, w => if l = "NP".toList then w = ["dog".toList] else w = ["his".toList]
  | .addr _ _ _ _, w => w = ["dog".toList]
  | .app _ _, _ => False

theorem dollar_rules : (rules dollarTag).map (fun x => (x.1.lhs, x.1.rhs, x.1.yf)) =
    [(.raw "NP".toList, [.addr "N".toList 1 1 false], [0]),
     (.app (.addr "NP".toList 3 0 true) (.raw "NP".toList), [.app (.raw "PRP$".toList) (.raw "NP".toList), .raw "NP".toList], [0, 1]),
     (.raw "NP".toList, [.app (.addr "NP".toList 3 0 true) (.raw "NP".toList)], [0]),
     (.raw "NP".toList, [.app (.addr "NP".toList 3 0 true) (.raw "NP".toList)], [0])] := by decide +kernel

theorem dollar_lexicon : (lexicon dollarTag).map (fun x => x.1) = [(.addr "N".toList 1 1 false, "dog".toList), (.raw "PRP$".toList, "his".toList)] := by decide +kernel

theorem dollar_der {ss : List Sym} {ws : List (List Str)} (h : Spec.Der dollarTag ss ws) : List.Forall₂ dollarMean ss ws := by
  induction h with
  | nil => exact .nil
  | @lex s t n ss ws hl _ ih =>
    refine .cons ?_ ih
    have hm : (s, t) ∈ (lexicon dollarTag).map (fun x => x.1) := List.mem_map.2 ⟨_, hl, rfl⟩
    rw [dollar_lexicon] at hm
    simp only [List.mem_cons, List.not_mem_nil, or_false, Prod.mk.injEq] at hm
    rcases hm with ⟨rfl, rfl⟩ | ⟨rfl, rfl⟩
    · exact rfl
    · simp only [dollarMean]; rw [if_neg (by decide)]; trivial
  | @rule s rhs yf n xs ss ws hr _ _ ih1 ih2 =>
    refine .cons ?_ ih2
    have hm : (s, rhs, yf) ∈ (rules dollarTag).map (fun x => (x.1.lhs, x.1.rhs, x.1.yf)) := List.mem_map.2 ⟨_, hr, rfl⟩
    rw [dollar_rules] at hm
    simp only [List.mem_cons, List.not_mem_nil, or_false, Prod.mk.injEq] at hm
    rcases hm with ⟨rfl, rfl, rfl⟩ | ⟨rfl, rfl, rfl⟩ | ⟨rfl, rfl, rfl⟩ | ⟨rfl, rfl, rfl⟩
    · cases ih1 with
      | cons a b =>
        cases b
        simp only [dollarMean] at a ⊢
        subst a
        rw [if_pos trivial]; rfl
    · cases ih1 with
      | cons a b => exact a.elim
    · cases ih1 with
      | cons a b => exact a.elim
    · cases ih1 with
      | cons a b => exact a.elim

/-- With a substitution site `PRP$` beside the foot, the grammar does not derive what the osTAG derives. -/
theorem C78_dollar_disagreement : (∀ x ∈ dollarTag.aux, footc x.1 = 1 ∧ Spec.FootLabel x.1.label x.1) ∧
    Spec.D (dollarTag.init.map Prod.fst) (dollarTag.aux.map Prod.fst) (.label "NP".toList) ["his".toList, "dog".toList] ∧
    ¬Spec.Der dollarTag [.raw "NP".toList] [["his".toList, "dog".toList]] := by
  refine ⟨?_, ?_, ?_⟩
  · intro x hx
    simp only [dollarTag, List.mem_cons, List.not_mem_nil, or_false] at hx
    subst hx
    simp [footc, footcL, Spec.FootLabel, Spec.FootLabelL, ET.label]
  · have hdog : Spec.D (dollarTag.init.map Prod.fst) (dollarTag.aux.map Prod.fst) (.label "NP".toList) ["dog".toList] :=
      .subst (t := .inner "NP".toList [.pre "N".toList "dog".toList]) (by simp [dollarTag]) (.inner (.cons (x := ["dog".toList]) (.noAdj .pre) .nil))
    exact .adjRoot hdog (a := .inner "NP".toList [.sub "PRP$".toList, .foot "NP".toList]) (by simp [dollarTag]) rfl
      (.spine (ls := [.sub "PRP$".toList]) (s := .foot "NP".toList) (rs := []) (x := ["his".toList]) (z := []) rfl
        (.cons (x := ["his".toList]) (.noAdj (.sub (.subst (t := .pre "PRP$".toList "his".toList) (by simp [dollarTag]) .pre))) .nil) .foot .nil)
  · intro h
    have := dollar_der h
    cases this with
    | cons a _ => simp only [dollarMean] at a; rw [if_pos trivial] at a; exact absurd a (by decide)

end Disco.OsTag
