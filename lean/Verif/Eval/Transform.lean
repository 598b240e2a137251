import Verif.Basic.Tree
import Verif.Eval.AlignSent
import Verif.Eval.Parseval
import Verif.Basic.Sort
import Mathlib.Data.Finset.Image
import Mathlib.Data.Finset.Sort
import Mathlib.Data.List.Sort
import Mathlib.Data.List.NodupEquivFin

/-!
# What is compared by the evaluation (C76)

Models `transform` (eval.py:763-810), `bracketings` (eval.py:826-859) and the part of `TreePairResult.__init__` (eval.py:342-369) that prepares a pair of
trees: `DELETE_LABEL`, `DELETE_WORD`, `DELETE_ROOT_PRETERMS`, `EQ_LABEL`, `EQ_WORD`, `LABELED`, `DISC_ONLY`. The bitset of a frozen tree is modelled
as the finite set of its terminals (C65, C09), `isdisc` of it (tree.py:1963-1964) as having a gap.
-/
namespace Disco.EvalTransform

open PTree

/-- The parameters (eval.py:661-708) that are used here; sets are predicates, dictionaries partial functions. -/
structure Param where
  delLabel : Str → Bool
  delWord : Str → Bool
  eqLabel : Str → Option Str
  eqWord : Str → Option Str
  delRootPreterms : Bool
  labeled : Bool
  discOnly : Bool

/-- `param['EQ_LABEL'].get(label, label)`. -/
def Param.eq (p : Param) (l : Str) : Str := (p.eqLabel l).getD l

/-- The lists `leaves` and `posnodes` (by their terminal). -/
structure St where
  leaves : List Nat
  posnodes : List Nat

/-- Whether a preterminal is to be removed (eval.py:791-793), with the evaluation order of `or`; none is a KeyError or an IndexError. -/
def remove (p : Param) (sent : List Str) (gpos : Nat → Option Str) (groot : Nat → Bool) (i : Nat) : Option Bool :=
  (gpos i).bind fun g => if p.delLabel g then some true else (sent[i]?).map fun w => p.delWord w || (p.delRootPreterms && groot i)

/-- One child in the loop over the children of a node (eval.py:781-799): what is put in its place, and the lists. A terminal has no label:
an exception. -/
def ownChild (p : Param) (sent : List Str) (gpos : Nat → Option Str) (groot : Nat → Bool) : PTree Str → St → Option (List (PTree Str) × St)
  | .leaf _, _ => none
  | .node _ [], st => some ([], st)
  | .node l (.node m ds :: ks), st =>
    if p.delLabel (p.eq l) then some (.node m ds :: ks, st) else some ([.node (p.eq l) (.node m ds :: ks)], st)
  | .node l (.leaf i :: ks), st =>
    (remove p sent gpos groot i).bind fun d =>
      if d then (if i ∈ st.leaves then some ([], { st with leaves := st.leaves.erase i }) else none)
      else some ([.node (p.eq l) (.leaf i :: ks)], { st with posnodes := st.posnodes ++ [i] })

/-- The loop over the children from last to first (eval.py:780). -/
def ownL (p : Param) (sent : List Str) (gpos : Nat → Option Str) (groot : Nat → Bool) : List (PTree Str) → St → Option (List (PTree Str) × St)
  | [], st => some ([], st)
  | c :: cs, st => (ownL p sent gpos groot cs st).bind fun (ts, st) => (ownChild p sent gpos groot c st).map fun (t, st) => (t ++ ts, st)

/-- `n and isinstance(n[0], Tree)`. -/
def phrasal : PTree Str → Bool
  | .node _ (.node _ _ :: _) => true
  | _ => false

mutual
/-- The loop over the phrasal nodes in reversed pre-order (eval.py:778-779): first the nodes below the children, from last to first, then the node itself. -/
def visitT (p : Param) (sent : List Str) (gpos : Nat → Option Str) (groot : Nat → Bool) : PTree Str → St → Option (PTree Str × St)
  | .leaf i, st => some (.leaf i, st)
  | .node l cs, st =>
    if phrasal (.node l cs) then
      (visitL p sent gpos groot cs st).bind fun (cs', st) => (ownL p sent gpos groot cs' st).map fun (cs'', st) => (.node l cs'', st)
    else some (.node l cs, st)
/-- The same for children. -/
def visitL (p : Param) (sent : List Str) (gpos : Nat → Option Str) (groot : Nat → Bool) : List (PTree Str) → St → Option (List (PTree Str) × St)
  | [], st => some ([], st)
  | c :: cs, st => (visitL p sent gpos groot cs st).bind fun (cs', st) => (visitT p sent gpos groot c st).map fun (c', st) => (c' :: cs', st)
end

mutual
/-- `a[0] = leafmap[a[0]]` for every preterminal (eval.py:806-807). -/
def renumT (f : Nat → Nat) : PTree Str → PTree Str
  | .leaf i => .leaf i
  | .node l [] => .node l []
  | .node l (.leaf i :: ks) => .node l (.leaf (f i) :: ks)
  | .node l (.node m ds :: ks) => .node l (renumT f (.node m ds) :: renumL f ks)
/-- The same for a list. -/
def renumL (f : Nat → Nat) : List (PTree Str) → List (PTree Str)
  | [] => []
  | c :: cs => renumT f c :: renumL f cs
end

/-- `EQ_WORD` for one element of `posnodes` (eval.py:807-809); none is a KeyError. -/
def eqWordAt (p : Param) (leaves : List Nat) (sent : List Str) (i : Nat) : Option (List Str) :=
  if i ∈ leaves then
    (sent[leaves.idxOf i]?).map fun w => match p.eqWord w with
      | some v => sent.set (leaves.idxOf i) v
      | none => sent
  else none

/-- `transform` (eval.py:763-810): the tree, the words and the tags. `pos` is the sorted list of terminals and tags. The loop over `posnodes` renumbers the
preterminals that were met; when the root is phrasal these are all that are left, otherwise there are none. -/
def transform (p : Param) (t : PTree Str) (sent : List Str) (pos : List (Nat × Str)) (gpos : Nat → Option Str) (groot : Nat → Bool) :
    Option (PTree Str × List Str × List Str) :=
  (visitT p sent gpos groot t ⟨List.range sent.length, []⟩).bind fun (t', st) =>
    (st.leaves.mapM fun n => sent[n]?).bind fun sent' => (st.leaves.mapM fun n => (pos[n]?).map Prod.snd).bind fun pos' =>
      (st.posnodes.foldlM (eqWordAt p st.leaves) sent').map fun sent'' =>
        (if phrasal t then renumT (fun i => st.leaves.idxOf i) t' else t', sent'', pos')

/-- The terminals of a node as a set (`node.bitset`). -/
def span (t : PTree Str) : Finset Nat := (leaves t).toFinset

/-- `isdisc` of a frozen tree (tree.py:1963-1964): there is a gap. -/
def disc (s : Finset Nat) : Bool := decide (∃ i ∈ s, i + 1 ∉ s ∧ ∃ k ∈ s, i < k)

/-- A bracketing if the node counts (eval.py:855-859). -/
def bracket (p : Param) : PTree Str → Option (Str × Finset Nat)
  | .node l cs =>
    if phrasal (.node l cs) && !p.delLabel l && (!p.discOnly || disc (span (.node l cs))) then some (if p.labeled then l else [], span (.node l cs)) else none
  | .leaf _ => none

/-- `bracketings` (eval.py:826-857); the `Counter` is a multiset. -/
def bracketings (p : Param) (t : PTree Str) : Multiset (Str × Finset Nat) := ↑((subtrees t).filterMap (bracket p))

/-- A terminal with the label of the node above it (tree.py:321-326). -/
def ownPos (l : Str) : PTree Str → Option (Nat × Str)
  | .leaf j => some (j, l)
  | .node _ _ => none

mutual
/-- `Tree.pos` (tree.py:303-327): terminals and tags. -/
def posT : PTree Str → List (Nat × Str)
  | .leaf _ => []
  | .node l cs => cs.filterMap (ownPos l) ++ posL cs
/-- The same for a list. -/
def posL : List (PTree Str) → List (Nat × Str)
  | [] => []
  | c :: cs => posT c ++ posL cs
end

/-- `sorted(tree.pos())`; terminals are distinct, so that tags are not compared. -/
def sortedPos (t : PTree Str) : List (Nat × Str) := stableSort (fun a b => decide (a.1 ≤ b.1)) (posT t)

/-- `dict(pos).get`. -/
def lookup (ps : List (Nat × Str)) (i : Nat) : Option Str := (ps.reverse.find? fun x => x.1 = i).map Prod.snd

/-- `grootpos` (eval.py:350-351): words directly under the root of the gold tree. -/
def grootpos (t : PTree Str) (i : Nat) : Bool :=
  t.children.any fun c => match c with | .node _ (.leaf j :: _) => decide (j = i) | _ => false

/-- The result of preparing a pair (eval.py:342-369). -/
structure Pair where
  csent : List Str
  gsent : List Str
  cpos : List Str
  gpos : List Str
  cbrack : Multiset (Str × Finset Nat)
  gbrack : Multiset (Str × Finset Nat)
  deriving DecidableEq

/-- `TreePairResult.__init__` (eval.py:342-369) up to the bracketings; none is an exception, among others
the ValueErrors for sentences that do not match. -/
def pair (p : Param) (gtree : PTree Str) (gsent : List Str) (ctree : PTree Str) (csent : List Str) : Option Pair :=
  (AlignSent.alignsent csent gsent (lookup (sortedPos gtree))).bind fun al =>
    (transform p ctree csent (sortedPos ctree) (lookup al) (grootpos gtree)).bind fun (ct, cs, cp) =>
      (transform p gtree gsent (sortedPos gtree) (lookup (sortedPos gtree)) (grootpos gtree)).bind fun (gt, gs, gp) =>
        if cs.length ≠ gs.length then none else if cs ≠ gs then none else
        some ⟨cs, gs, cp, gp, bracketings p ct, bracketings p gt⟩

/-! ### Specification -/

mutual
/-- Trees in which each node has either one terminal, or nodes as children, or no children. -/
def Spec.StdT : PTree Str → Prop
  | .leaf _ => False
  | .node _ cs => cs = [] ∨ (∃ i, cs = [.leaf i]) ∨ Spec.StdL cs
/-- The same for all of a list. -/
def Spec.StdL : List (PTree Str) → Prop
  | [] => True
  | c :: cs => Spec.StdT c ∧ Spec.StdL cs
end

/-- A tree over a sentence with `n` words: every word once, the root is not a preterminal. -/
structure Spec.Over (n : Nat) (t : PTree Str) : Prop where
  std : Spec.StdT t
  phr : phrasal t = true
  words : (leaves t).Perm (List.range n)

/-- The words that count, given tags `g` and whether a word is directly under the root: neither the tag nor the word is to be deleted. -/
def Spec.kept (p : Param) (sent : List Str) (g : Nat → Str) (groot : Nat → Bool) (i : Nat) : Bool :=
  !(p.delLabel (g i) || p.delWord (sent.getD i []) || (p.delRootPreterms && groot i))

/-- The new position of a word: the number of words before it that count. -/
def Spec.rank (kept : Nat → Bool) (i : Nat) : Nat := ((List.range i).filter kept).length

/-- The bracketing of a constituent: its label (after `f`) and the positions of its words that count; none if it has no such words, its label is to be deleted,
it is a preterminal, or only discontinuous constituents are wanted and it is not. -/
def Spec.bra (p : Param) (kept : Nat → Bool) (f : Str → Str) : PTree Str → Option (Str × Finset Nat)
  | .leaf _ => none
  | .node l cs =>
    let s : Finset Nat := (((leavesL cs).filter kept).map (Spec.rank kept)).toFinset
    if phrasal (.node l cs) && (leavesL cs).any kept && !p.delLabel (f l) && (!p.discOnly || disc s) then some (if p.labeled then f l else [], s) else none

/-- The bracketings of a tree: `EQ_LABEL` for all constituents but the root. -/
def Spec.brackets (p : Param) (kept : Nat → Bool) : PTree Str → Multiset (Str × Finset Nat)
  | .leaf _ => 0
  | .node l cs => ↑((Spec.bra p kept id (.node l cs)).toList ++ (subtreesL cs).filterMap (Spec.bra p kept p.eq))

/-- A list restricted to the positions that count. -/
def Spec.restrict {α : Type} (kept : Nat → Bool) (xs : List α) : List α := (xs.zipIdx.filter fun x => kept x.2).map Prod.fst

/-- The tag of a word: the label of its preterminal. -/
def Spec.tag (t : PTree Str) (i : Nat) : Str :=
  ((subtrees t).findSome? fun s => match s with | .node l [.leaf j] => if j = i then some l else none | _ => none).getD []

/-- `EQ_WORD`. -/
def Spec.word (p : Param) (w : Str) : Str := (p.eqWord w).getD w

/-- The words directly under the root. -/
def Spec.atRoot (t : PTree Str) (i : Nat) : Bool := decide (∃ c ∈ t.children, c.children = [.leaf i])


/-! ### The transformation as a function on trees -/

/-- The list put in place of a phrasal node with label `l`, of which the children have become `r`. -/
def wrap (p : Param) (l : Str) : List (PTree Str) → List (PTree Str)
  | [] => []
  | c :: cs => if p.delLabel (p.eq l) then c :: cs else [.node (p.eq l) (c :: cs)]

mutual
/-- The list put in place of a child. -/
def outT (p : Param) (K : Nat → Bool) : PTree Str → List (PTree Str)
  | .leaf _ => []
  | .node _ [] => []
  | .node l (.leaf i :: ks) => if K i then [.node (p.eq l) (.leaf i :: ks)] else []
  | .node l (.node m ds :: ks) => wrap p l (outT p K (.node m ds) ++ outL p K ks)
/-- The same for a list. -/
def outL (p : Param) (K : Nat → Bool) : List (PTree Str) → List (PTree Str)
  | [] => []
  | c :: cs => outT p K c ++ outL p K cs
end

theorem outT_phr (p : Param) (K : Nat → Bool) (l : Str) (cs : List (PTree Str)) (h : phrasal (.node l cs) = true) :
    outT p K (.node l cs) = wrap p l (outL p K cs) := by
  match cs, h with
  | .node m ds :: ks, _ => simp only [outT, outL]

/-- A child after the visit of the nodes below it. -/
def vis (p : Param) (K : Nat → Bool) : PTree Str → PTree Str
  | .leaf i => .leaf i
  | .node l cs => if phrasal (.node l cs) then .node l (outL p K cs) else .node l cs

theorem wrap_node {p : Param} {l : Str} {r : List (PTree Str)} (h : ∀ x ∈ r, isNode x = true) : ∀ x ∈ wrap p l r, isNode x = true := by
  match r with
  | [] => intro x hx; simp [wrap] at hx
  | c :: cs =>
    intro x hx
    rw [wrap] at hx
    by_cases hd : p.delLabel (p.eq l) = true
    · rw [if_pos hd] at hx; exact h x hx
    · rw [if_neg hd, List.mem_singleton] at hx; rw [hx]; rfl

theorem outT_node (p : Param) (K : Nat → Bool) (t : PTree Str) : ∀ x ∈ outT p K t, isNode x = true := by
  induction t using PTree.rec (motive_2 := fun cs => ∀ x ∈ outL p K cs, isNode x = true) with
  | leaf i => intro x hx; simp [outT] at hx
  | node l cs ih =>
    match cs, ih with
    | [], _ => intro x hx; simp [outT] at hx
    | .leaf i :: ks, _ =>
      intro x hx
      rw [outT] at hx
      by_cases h : K i = true
      · rw [if_pos h, List.mem_singleton] at hx; rw [hx]; rfl
      · rw [if_neg h] at hx; simp at hx
    | .node m ds :: ks, ih => rw [outT_phr p K l _ rfl]; exact wrap_node ih
  | nil => rename_i x hx; simp [outL] at hx
  | cons c cs h1 h2 =>
    rename_i x hx
    rw [outL, List.mem_append] at hx
    rcases hx with hx | hx
    · exact h1 x hx
    · exact h2 x hx

theorem outL_node (p : Param) (K : Nat → Bool) (cs : List (PTree Str)) : ∀ x ∈ outL p K cs, isNode x = true := by
  induction cs with
  | nil => intro x hx; simp [outL] at hx
  | cons c cs ih =>
    intro x hx
    rw [outL, List.mem_append] at hx
    rcases hx with hx | hx
    · exact outT_node p K c x hx
    · exact ih x hx

/-! ### The effect on the lists -/

/-- The words `xs` have been looked at. -/
structure Eff (K : Nat → Bool) (st : St) (xs : List Nat) (st' : St) : Prop where
  lv : st'.leaves = st.leaves.filter fun i => decide (i ∉ xs) || K i
  ps : st'.posnodes.Perm (st.posnodes ++ xs.filter K)

theorem Eff.refl (K : Nat → Bool) (st : St) : Eff K st [] st := ⟨by simp, by simp⟩

theorem Eff.trans {K : Nat → Bool} {st st1 st2 : St} {xs ys : List Nat} (h1 : Eff K st xs st1) (h2 : Eff K st1 ys st2) : Eff K st (xs ++ ys) st2 := by
  refine ⟨?_, ?_⟩
  · rw [h2.lv, h1.lv, List.filter_filter]
    apply List.filter_congr
    intro i _
    by_cases hx : i ∈ xs <;> by_cases hy : i ∈ ys <;> simp [hx, hy]
  · refine h2.ps.trans ?_
    rw [List.filter_append, ← List.append_assoc]
    exact h1.ps.append_right _

theorem Eff.perm {K : Nat → Bool} {st st' : St} {xs ys : List Nat} (h : Eff K st xs st') (hp : xs.Perm ys) : Eff K st ys st' := by
  refine ⟨?_, h.ps.trans ((hp.filter _).append_left _)⟩
  rw [h.lv]
  apply List.filter_congr
  intro i _
  simp [hp.mem_iff]

theorem Eff.nodup {K : Nat → Bool} {st st' : St} {xs : List Nat} (h : Eff K st xs st') (hn : st.leaves.Nodup) : st'.leaves.Nodup := by
  rw [h.lv]; exact hn.filter _

theorem Eff.mem {K : Nat → Bool} {st st' : St} {xs : List Nat} (h : Eff K st xs st') {i : Nat} (hi : i ∈ st.leaves) (hx : i ∉ xs) : i ∈ st'.leaves := by
  rw [h.lv, List.mem_filter]
  exact ⟨hi, by simp [hx]⟩

/-- What is looked at below a child, and at the child itself. -/
def below (c : PTree Str) : List Nat := if phrasal c then leaves c else []
def here (c : PTree Str) : List Nat := if phrasal c then [] else leaves c

variable {p : Param} {sent : List Str} {gpos : Nat → Option Str} {groot : Nat → Bool} {K : Nat → Bool}

theorem ownChild_vis (c : PTree Str) (hs : Spec.StdT c) (hK : ∀ i ∈ leaves c, remove p sent gpos groot i = some !K i) (st : St) (hn : st.leaves.Nodup)
    (hm : ∀ i ∈ here c, i ∈ st.leaves) : ∃ st', ownChild p sent gpos groot (vis p K c) st = some (outT p K c, st') ∧ Eff K st (here c) st' := by
  match c, hs with
  | .node l cs, hs =>
    by_cases hp : phrasal (.node l cs) = true
    · refine ⟨st, ?_, ?_⟩
      · rw [vis, if_pos hp, outT_phr p K l cs hp]
        have hno := outL_node p K cs
        cases hr : outL p K cs with
        | nil => simp [ownChild, wrap]
        | cons x xs =>
          rw [hr] at hno
          cases x with
          | leaf i => exact absurd (hno (.leaf i) (by simp)) (by simp [isNode])
          | node m ds =>
            rw [ownChild, wrap]
            by_cases hd : p.delLabel (p.eq l) = true
            · simp only [if_pos hd]
            · simp only [if_neg hd]
      · rw [here, if_pos hp]; exact Eff.refl K st
    · rw [vis, if_neg hp]
      rw [here, if_neg hp] at hm ⊢
      simp only [Spec.StdT] at hs
      rcases hs with rfl | ⟨i, rfl⟩ | hs
      · exact ⟨st, by simp [ownChild, outT], by simpa using Eff.refl K st⟩
      · simp only [leaves_node, leavesL_cons, leaves_leaf, leavesL_nil, List.append_nil, List.mem_singleton, forall_eq] at hm hK
        rw [ownChild, hK, outT]
        by_cases hk : K i = true
        · refine ⟨⟨st.leaves, st.posnodes ++ [i]⟩, by simp [hk], ?_, by simp [hk]⟩
          symm
          apply List.filter_eq_self.2
          intro j _
          by_cases hj : j = i
          · simp [hj, hk]
          · simp [hj]
        · refine ⟨⟨st.leaves.erase i, st.posnodes⟩, by simp [hk, hm], ?_, by simp [hk]⟩
          rw [hn.erase_eq_filter]
          apply List.filter_congr
          intro j _
          by_cases hj : j = i
          · simp [hj, hk]
          · simp [hj]
      · cases cs with
        | nil => exact ⟨st, by simp [ownChild, outT], by simpa using Eff.refl K st⟩
        | cons x xs =>
          cases x with
          | leaf i => simp [Spec.StdL, Spec.StdT] at hs
          | node m ds => simp [phrasal] at hp

theorem ownL_vis (cs : List (PTree Str)) (hs : Spec.StdL cs) (hK : ∀ i ∈ leavesL cs, remove p sent gpos groot i = some !K i) : ∀ (st : St), st.leaves.Nodup →
    (cs.flatMap here).Nodup → (∀ i ∈ cs.flatMap here, i ∈ st.leaves) →
    ∃ st', ownL p sent gpos groot (cs.map (vis p K)) st = some (outL p K cs, st') ∧ Eff K st (cs.flatMap here) st' := by
  induction cs with
  | nil => intro st _ _ _; exact ⟨st, by simp [ownL, outL], Eff.refl K st⟩
  | cons c cs ih =>
    intro st hn hd hm
    rw [Spec.StdL] at hs
    rw [List.flatMap_cons, List.nodup_append] at hd
    simp only [List.flatMap_cons, List.mem_append] at hm
    obtain ⟨st1, h1, e1⟩ := ih hs.2 (fun i hi => hK i (by simp [hi])) st hn hd.2.1 (fun i hi => hm i (Or.inr hi))
    obtain ⟨st2, h2, e2⟩ := ownChild_vis c hs.1 (fun i hi => hK i (by simp [hi])) st1 (e1.nodup hn)
      (fun i hi => e1.mem (hm i (Or.inl hi)) (fun h => hd.2.2 i hi i h rfl))
    refine ⟨st2, ?_, ?_⟩
    · simp only [List.map_cons, ownL, h1, Option.bind_some, h2, Option.map_some, outL]
    · rw [List.flatMap_cons]
      exact (e1.trans e2).perm List.perm_append_comm

theorem below_here (cs : List (PTree Str)) : (cs.flatMap below ++ cs.flatMap here).Perm (leavesL cs) := by
  induction cs with
  | nil => simp
  | cons c cs ih =>
    have hc : (below c ++ here c) = leaves c := by
      rw [below, here]; by_cases h : phrasal c = true <;> simp [h]
    rw [List.flatMap_cons, List.flatMap_cons, leavesL_cons, ← hc]
    have : (below c ++ cs.flatMap below ++ (here c ++ cs.flatMap here)).Perm (below c ++ here c ++ (cs.flatMap below ++ cs.flatMap here)) := by
      simp only [List.append_assoc]
      refine List.Perm.append_left _ ?_
      rw [← List.append_assoc, ← List.append_assoc]
      exact List.perm_append_comm.append_right _
    exact this.trans (ih.append_left _)

theorem visit_vis (t : PTree Str) : Spec.StdT t → (∀ i ∈ leaves t, remove p sent gpos groot i = some !K i) → ∀ (st : St), st.leaves.Nodup →
    (leaves t).Nodup → (∀ i ∈ leaves t, i ∈ st.leaves) →
    ∃ st', visitT p sent gpos groot t st = some (vis p K t, st') ∧ Eff K st (below t) st' := by
  induction t using PTree.rec (motive_2 := fun cs => Spec.StdL cs → (∀ i ∈ leavesL cs, remove p sent gpos groot i = some !K i) → ∀ (st : St), st.leaves.Nodup →
    (leavesL cs).Nodup → (∀ i ∈ leavesL cs, i ∈ st.leaves) →
    ∃ st', visitL p sent gpos groot cs st = some (cs.map (vis p K), st') ∧ Eff K st (cs.flatMap below) st') with
  | leaf i => intro h; simp [Spec.StdT] at h
  | node l cs ih =>
    intro hs hK st hn hd hm
    by_cases hp : phrasal (.node l cs) = true
    · have hsl : Spec.StdL cs := by
        simp only [Spec.StdT] at hs
        rcases hs with rfl | ⟨i, rfl⟩ | hs
        · simp [phrasal] at hp
        · simp [phrasal] at hp
        · exact hs
      rw [leaves_node] at hK hd hm
      obtain ⟨st1, h1, e1⟩ := ih hsl hK st hn hd hm
      have hbh := below_here cs
      have hnd := List.nodup_append.1 (hbh.symm.nodup hd)
      obtain ⟨st2, h2, e2⟩ := ownL_vis (K := K) cs hsl hK st1 (e1.nodup hn) hnd.2.1
        (fun i hi => e1.mem (hm i (hbh.subset (List.mem_append_right _ hi))) (fun h => hnd.2.2 i h i hi rfl))
      refine ⟨st2, ?_, ?_⟩
      · rw [visitT, if_pos hp, h1, vis, if_pos hp]
        simp only [Option.bind_some, h2, Option.map_some]
      · rw [below, if_pos hp, leaves_node]
        exact (e1.trans e2).perm hbh
    · refine ⟨st, ?_, ?_⟩
      · rw [visitT, if_neg hp, vis, if_neg hp]
      · rw [below, if_neg hp]; exact Eff.refl K st
  | nil => rename_i st _ _ _; exact ⟨st, by simp [visitL], Eff.refl K st⟩
  | cons c cs h1 h2 =>
    rename_i hs hK st hn hd hm
    rw [Spec.StdL] at hs
    rw [leavesL_cons, List.nodup_append] at hd
    simp only [leavesL_cons, List.mem_append] at hm hK
    obtain ⟨st1, r1, e1⟩ := h2 hs.2 (fun i hi => hK i (Or.inr hi)) st hn hd.2.1 (fun i hi => hm i (Or.inr hi))
    have hsub : ∀ i ∈ cs.flatMap below, i ∈ leavesL cs := fun i hi => (below_here cs).subset (List.mem_append_left _ hi)
    obtain ⟨st2, r2, e2⟩ := h1 hs.1 (fun i hi => hK i (Or.inl hi)) st1 (e1.nodup hn) hd.1
      (fun i hi => e1.mem (hm i (Or.inl hi)) (fun h => hd.2.2 i hi i (hsub i h) rfl))
    refine ⟨st2, ?_, ?_⟩
    · simp only [visitL, r1, Option.bind_some, r2, Option.map_some, List.map_cons]
    · rw [List.flatMap_cons]
      exact (e1.trans e2).perm List.perm_append_comm

/-! ### The bracketings of the result -/

theorem renumL_append (f : Nat → Nat) (xs ys : List (PTree Str)) : renumL f (xs ++ ys) = renumL f xs ++ renumL f ys := by
  induction xs with
  | nil => simp [renumL]
  | cons x xs ih => simp [renumL, ih]

theorem renumT_phr (f : Nat → Nat) (l : Str) (x : PTree Str) (cs : List (PTree Str)) (h : isNode x = true) :
    renumT f (.node l (x :: cs)) = .node l (renumT f x :: renumL f cs) := by
  cases x with
  | leaf i => simp [isNode] at h
  | node m ds => rw [renumT]

theorem renumT_isNode (f : Nat → Nat) (x : PTree Str) : isNode (renumT f x) = isNode x := by
  cases x with
  | leaf i => simp [renumT]
  | node l cs =>
    cases cs with
    | nil => simp [renumT, isNode]
    | cons c cs => cases c <;> simp [renumT, isNode]

theorem phrasal_cons (l : Str) (x : PTree Str) (cs : List (PTree Str)) : phrasal (.node l (x :: cs)) = isNode x := by
  cases x <;> rfl

/-- What is wrapped. -/
theorem wrap_spec (f : Nat → Nat) (l : Str) (r : List (PTree Str)) (hr : ∀ x ∈ r, isNode x = true) (W : List (Str × Finset Nat)) (ls : List Nat)
    (h1 : leavesL (renumL f r) = ls) (h2 : (subtreesL (renumL f r)).filterMap (bracket p) = W) (hne : r = [] → W = []) :
    leavesL (renumL f (wrap p l r)) = ls ∧
    (subtreesL (renumL f (wrap p l r))).filterMap (bracket p) =
      (if !r.isEmpty && !p.delLabel (p.eq l) && (!p.discOnly || disc ls.toFinset) then some (if p.labeled then p.eq l else [], ls.toFinset) else none).toList ++ W := by
  cases r with
  | nil => simp only [wrap]; refine ⟨h1, ?_⟩; simp [hne rfl, renumL]
  | cons x xs =>
    have hx := hr x (by simp)
    rw [wrap]
    by_cases hd : p.delLabel (p.eq l) = true
    · rw [if_pos hd]
      refine ⟨h1, ?_⟩
      rw [h2]; simp [hd]
    · rw [if_neg hd]
      have hren : renumL f [.node (p.eq l) (x :: xs)] = [.node (p.eq l) (renumL f (x :: xs))] := by
        rw [renumL, renumL, renumT_phr f _ x xs hx, renumL]
      rw [hren]
      refine ⟨by simpa using h1, ?_⟩
      have hph : phrasal (.node (p.eq l) (renumL f (x :: xs))) = true := by
        rw [renumL, phrasal_cons, renumT_isNode]; exact hx
      rw [subtreesL_cons, subtrees_node, subtreesL_nil, List.append_nil, List.filterMap_cons, h2, bracket, hph, span, leaves_node, h1]
      by_cases hz : (!p.discOnly || disc ls.toFinset) = true
      · simp [hd, hz]
      · simp [hd, hz]

theorem outL_empty (t : PTree Str) : Spec.StdT t → (outT p K t = [] ↔ (leaves t).any K = false) := by
  induction t using PTree.rec (motive_2 := fun cs => Spec.StdL cs → (outL p K cs = [] ↔ (leavesL cs).any K = false)) with
  | leaf i => intro h; simp [Spec.StdT] at h
  | node l cs ih =>
    intro hs
    by_cases hp : phrasal (.node l cs) = true
    · have hsl : Spec.StdL cs := by
        simp only [Spec.StdT] at hs
        rcases hs with rfl | ⟨i, rfl⟩ | hs
        · simp [phrasal] at hp
        · simp [phrasal] at hp
        · exact hs
      rw [outT_phr p K l cs hp, leaves_node, ← ih hsl]
      cases outL p K cs with
      | nil => simp [wrap]
      | cons x xs => rw [wrap]; split <;> simp
    · simp only [Spec.StdT] at hs
      rcases hs with rfl | ⟨i, rfl⟩ | hs
      · simp [outT]
      · by_cases hk : K i = true <;> simp [outT, hk]
      · cases cs with
        | nil => simp [outT]
        | cons x xs =>
          cases x with
          | leaf i => simp [Spec.StdL, Spec.StdT] at hs
          | node m ds => simp [phrasal] at hp
  | nil => simp [outL]
  | cons c cs h1 h2 =>
    rename_i hs
    rw [Spec.StdL] at hs
    rw [outL, List.append_eq_nil_iff, h1 hs.1, h2 hs.2, leavesL_cons, List.any_append, Bool.or_eq_false_iff]

theorem outL_empty' (cs : List (PTree Str)) : Spec.StdL cs → (outL p K cs = [] ↔ (leavesL cs).any K = false) := by
  induction cs with
  | nil => simp [outL]
  | cons c cs ih =>
    intro hs
    rw [Spec.StdL] at hs
    rw [outL, List.append_eq_nil_iff, outL_empty c hs.1, ih hs.2, leavesL_cons, List.any_append, Bool.or_eq_false_iff]

theorem bra_eq (f : Str → Str) (l : Str) (cs : List (PTree Str)) (h : phrasal (.node l cs) = true) :
    Spec.bra p K f (.node l cs) = if (leavesL cs).any K && !p.delLabel (f l) && (!p.discOnly || disc (((leavesL cs).filter K).map (Spec.rank K)).toFinset)
      then some (if p.labeled then f l else [], (((leavesL cs).filter K).map (Spec.rank K)).toFinset) else none := by
  simp only [Spec.bra, h, Bool.true_and]

theorem bra_none (f : Str → Str) (t : PTree Str) (h : phrasal t = false) : Spec.bra p K f t = none := by
  cases t with
  | leaf i => rfl
  | node l cs => simp [Spec.bra, h]

theorem bras_nil (t : PTree Str) : (leaves t).any K = false → (subtrees t).filterMap (Spec.bra p K p.eq) = [] := by
  induction t using PTree.rec (motive_2 := fun cs => (leavesL cs).any K = false → (subtreesL cs).filterMap (Spec.bra p K p.eq) = []) with
  | leaf i => simp
  | node l cs ih =>
    intro h
    rw [leaves_node] at h
    rw [subtrees_node, List.filterMap_cons, ih h]
    simp [Spec.bra, h]
  | nil => simp
  | cons c cs h1 h2 =>
    rename_i h
    rw [leavesL_cons, List.any_append, Bool.or_eq_false_iff] at h
    rw [subtreesL_cons, List.filterMap_append, h1 h.1, h2 h.2]; rfl

theorem brasL_nil (cs : List (PTree Str)) (h : (leavesL cs).any K = false) : (subtreesL cs).filterMap (Spec.bra p K p.eq) = [] := by
  induction cs with
  | nil => simp
  | cons c cs ih =>
    rw [leavesL_cons, List.any_append, Bool.or_eq_false_iff] at h
    rw [subtreesL_cons, List.filterMap_append, bras_nil c h.1, ih h.2]; rfl

theorem out_spec (f : Nat → Nat) (t : PTree Str) : Spec.StdT t → (∀ i ∈ leaves t, K i = true → f i = Spec.rank K i) →
    leavesL (renumL f (outT p K t)) = ((leaves t).filter K).map (Spec.rank K) ∧
    (subtreesL (renumL f (outT p K t))).filterMap (bracket p) = (subtrees t).filterMap (Spec.bra p K p.eq) := by
  induction t using PTree.rec (motive_2 := fun cs => Spec.StdL cs → (∀ i ∈ leavesL cs, K i = true → f i = Spec.rank K i) →
    leavesL (renumL f (outL p K cs)) = ((leavesL cs).filter K).map (Spec.rank K) ∧
    (subtreesL (renumL f (outL p K cs))).filterMap (bracket p) = (subtreesL cs).filterMap (Spec.bra p K p.eq)) with
  | leaf i => intro h; simp [Spec.StdT] at h
  | node l cs ih =>
    intro hs hf
    by_cases hp : phrasal (.node l cs) = true
    · have hsl : Spec.StdL cs := by
        simp only [Spec.StdT] at hs
        rcases hs with rfl | ⟨i, rfl⟩ | hs
        · simp [phrasal] at hp
        · simp [phrasal] at hp
        · exact hs
      rw [leaves_node] at hf
      obtain ⟨i1, i2⟩ := ih hsl hf
      have hw := wrap_spec (p := p) f l (outL p K cs) (outL_node p K cs) _ _ i1 i2 (fun h => brasL_nil cs ((outL_empty' cs hsl).1 h))
      rw [outT_phr p K l cs hp, leaves_node]
      refine ⟨hw.1, ?_⟩
      have he : (!(outL p K cs).isEmpty) = (leavesL cs).any K := by
        have := outL_empty' (p := p) (K := K) cs hsl
        cases ho : (leavesL cs).any K with
        | false => simp [this.2 ho]
        | true => 
          have : outL p K cs ≠ [] := fun h => by rw [this.1 h] at ho; simp at ho
          simpa using this
      rw [hw.2, he, subtrees_node, List.filterMap_cons, bra_eq p.eq l cs hp]
      split <;> simp
    · have hb : Spec.bra p K p.eq (.node l cs) = none := bra_none _ _ (by simpa using hp)
      simp only [Spec.StdT] at hs
      rcases hs with rfl | ⟨i, rfl⟩ | hs
      · simp [outT, renumL, hb]
      · simp only [leaves_node, leavesL_cons, leaves_leaf, leavesL_nil, List.append_nil, List.mem_singleton, forall_eq] at hf
        by_cases hk : K i = true
        · simp [outT, hk, renumL, renumT, hf hk, hb, bracket, phrasal]
        · simp [outT, hk, renumL, hb]
      · cases cs with
        | nil => simp [outT, renumL, hb]
        | cons x xs =>
          cases x with
          | leaf i => simp [Spec.StdL, Spec.StdT] at hs
          | node m ds => simp [phrasal] at hp
  | nil => simp [outL, renumL]
  | cons c cs h1 h2 =>
    rename_i hs hf
    rw [Spec.StdL] at hs
    simp only [leavesL_cons, List.mem_append] at hf
    obtain ⟨a1, a2⟩ := h1 hs.1 (fun i hi => hf i (Or.inl hi))
    obtain ⟨b1, b2⟩ := h2 hs.2 (fun i hi => hf i (Or.inr hi))
    rw [outL, renumL_append, leavesL_append, subtreesL_append, List.filterMap_append, a1, a2, b1, b2]
    simp

/-! ### Words and tags -/

theorem idxOf_filter (K : Nat → Bool) (n i : Nat) (hi : i < n) (hk : K i = true) : ((List.range n).filter K).idxOf i = Spec.rank K i := by
  induction n with
  | zero => omega
  | succ n ih =>
    rw [List.range_succ, List.filter_append]
    by_cases h : i < n
    · rw [List.idxOf_append_of_mem (by simp [h, hk]), ih h]
    · have : i = n := by omega
      subst this
      rw [List.idxOf_append_of_notMem (by simp)]
      simp [hk, Spec.rank]

theorem restrict_eq {α : Type} (K : Nat → Bool) (xs : List α) : (((List.range xs.length).filter K).mapM fun n => xs[n]?) = some (Spec.restrict K xs) := by
  have h : ∀ (l : List Nat) (r : List α), l.map (fun n => xs[n]?) = r.map some → (l.mapM fun n => xs[n]?) = some r := by
    intro l
    induction l with
    | nil => intro r h; cases r <;> simp_all
    | cons a l ih =>
      intro r h
      cases r with
      | nil => simp at h
      | cons b r =>
        simp only [List.map_cons, List.cons.injEq] at h
        rw [List.mapM_cons, h.1, ih r h.2]; rfl
  apply h
  have hz : ∀ (ys : List α) (k : Nat), (List.map (fun n => (ys[n - k]?)) ((List.range' k ys.length).filter K)) = (((ys.zipIdx k).filter fun x => K x.2).map Prod.fst).map some := by
    intro ys
    induction ys with
    | nil => intro k; simp
    | cons y ys ih =>
      intro k
      have := ih (k + 1)
      rw [List.length_cons, List.range'_succ, List.zipIdx_cons, List.filter_cons, List.filter_cons]
      have hc : List.map (fun n => (y :: ys)[n - k]?) ((List.range' (k + 1) ys.length).filter K) = List.map (fun n => ys[n - (k + 1)]?) ((List.range' (k + 1) ys.length).filter K) := by
        apply List.map_congr_left
        intro n hn
        have := (List.mem_filter.1 hn).1
        rw [List.mem_range'] at this
        obtain ⟨j, _, rfl⟩ := this
        rw [show k + 1 + 1 * j - k = j + 1 by omega, show k + 1 + 1 * j - (k + 1) = j by omega, List.getElem?_cons_succ]
      by_cases hk : K k = true
      · simp only [hk, if_true, List.map_cons, Nat.sub_self, List.getElem?_cons_zero]
        rw [hc, this]
      · simp only [hk, Bool.false_eq_true, if_false]
        rw [hc, this]
  have := hz xs 0
  rw [List.range_eq_range']
  simpa [Spec.restrict] using this

theorem restrict_map {α β : Type} (K : Nat → Bool) (f : α → β) (xs : List α) : Spec.restrict K (xs.map f) = (Spec.restrict K xs).map f := by
  rw [Spec.restrict, Spec.restrict, List.zipIdx_map, List.filter_map, List.map_map, List.map_map]
  rfl

theorem restrict_length {α : Type} (K : Nat → Bool) (xs : List α) : (Spec.restrict K xs).length = ((List.range xs.length).filter K).length := by
  have h := restrict_eq K xs
  have : ∀ (l : List Nat) (r : List α), (l.mapM fun n => xs[n]?) = some r → r.length = l.length := by
    intro l
    induction l with
    | nil => intro r h; simp at h; simp [← h]
    | cons a l ih =>
      intro r h
      rw [List.mapM_cons] at h
      cases ha : xs[a]? with
      | none => rw [ha] at h; simp at h
      | some b =>
        cases hl : (l.mapM fun n => xs[n]?) with
        | none => rw [ha, hl] at h; simp at h
        | some r' =>
          rw [ha, hl] at h
          simp at h
          rw [← h]; simp [ih r' hl]
  exact this _ _ h

theorem eqWords (lv : List Nat) (ps : List Nat) : ∀ (s : List Str), ps.Nodup → (∀ i ∈ ps, i ∈ lv) → s.length = lv.length →
    ∃ s', ps.foldlM (eqWordAt p lv) s = some s' ∧ s'.length = s.length ∧
      ∀ k, k < s.length → s'[k]? = if (∃ i ∈ ps, lv.idxOf i = k) then (s[k]?).map (Spec.word p) else s[k]? := by
  induction ps with
  | nil => intro s _ _ _; exact ⟨s, by simp, rfl, by simp⟩
  | cons i ps ih =>
    intro s hn hm hl
    have hi : i ∈ lv := hm i (by simp)
    have hlt : lv.idxOf i < s.length := by rw [hl]; exact List.idxOf_lt_length_iff.2 hi
    rw [List.nodup_cons] at hn
    have h1 : eqWordAt p lv s i = some (s.set (lv.idxOf i) (Spec.word p s[lv.idxOf i])) := by
      rw [eqWordAt, if_pos hi, List.getElem?_eq_getElem hlt]
      simp only [Option.map_some, Spec.word]
      cases p.eqWord s[lv.idxOf i] with
      | none => simp
      | some v => simp
    obtain ⟨s', r1, r2, r3⟩ := ih (s.set (lv.idxOf i) (Spec.word p s[lv.idxOf i])) hn.2 (fun j hj => hm j (by simp [hj])) (by simpa using hl)
    refine ⟨s', ?_, by simpa using r2, ?_⟩
    · rw [List.foldlM_cons, h1]; exact r1
    · intro k hk
      rw [r3 k (by simpa using hk)]
      by_cases hki : lv.idxOf i = k
      · have hno : ¬ ∃ j ∈ ps, lv.idxOf j = k := by
          rintro ⟨j, hj, hjk⟩
          have : j = i := by
            have := (List.idxOf_inj (l := lv) (x := j) (y := i) (hm j (by simp [hj]))).1 (hjk.trans hki.symm)
            exact this
          exact hn.1 (this ▸ hj)
        rw [if_neg hno, if_pos ⟨i, by simp, hki⟩]
        subst hki
        rw [List.getElem?_set_self hlt, List.getElem?_eq_getElem hlt]; rfl
      · rw [List.getElem?_set_ne hki]
        have : (∃ j ∈ i :: ps, lv.idxOf j = k) ↔ ∃ j ∈ ps, lv.idxOf j = k := by simp [hki]
        simp only [this]

theorem eqWords_all (lv ps : List Nat) (s : List Str) (hn : ps.Nodup) (hlv : lv.Nodup) (hm : ps.Perm lv) (hl : s.length = lv.length) :
    ps.foldlM (eqWordAt p lv) s = some (s.map (Spec.word p)) := by
  obtain ⟨s', r1, r2, r3⟩ := eqWords (p := p) lv ps s hn (fun i hi => hm.subset hi) hl
  rw [r1]
  congr 1
  apply List.ext_getElem?
  intro k
  by_cases hk : k < s.length
  · rw [r3 k hk, if_pos, List.getElem?_map]
    exact ⟨lv[k]'(hl ▸ hk), hm.symm.subset (List.getElem_mem _), hlv.idxOf_getElem k (hl ▸ hk)⟩
  · rw [List.getElem?_eq_none (by omega), List.getElem?_eq_none (by simp; omega)]

/-! ### Theorems -/

theorem root_spec {n : Nat} {t : PTree Str} (h : Spec.Over n t) (f : Nat → Nat) (hf : ∀ i, i < n → K i = true → f i = Spec.rank K i) :
    leaves (renumT f (vis p K t)) = ((leaves t).filter K).map (Spec.rank K) ∧ bracketings p (renumT f (vis p K t)) = Spec.brackets p K t := by
  obtain ⟨hs, hp, hw⟩ := h
  match t, hs, hp with
  | .node l cs, hs, hp =>
    have hsl : Spec.StdL cs := by
      simp only [Spec.StdT] at hs
      rcases hs with rfl | ⟨i, rfl⟩ | hs
      · simp [phrasal] at hp
      · simp [phrasal] at hp
      · exact hs
    have hf' : ∀ i ∈ leavesL cs, K i = true → f i = Spec.rank K i := fun i hi => hf i (by simpa using hw.subset (by simpa using hi))
    have key : ∀ ds : List (PTree Str), Spec.StdL ds → (∀ i ∈ leavesL ds, K i = true → f i = Spec.rank K i) →
        leavesL (renumL f (outL p K ds)) = ((leavesL ds).filter K).map (Spec.rank K) ∧
        (subtreesL (renumL f (outL p K ds))).filterMap (bracket p) = (subtreesL ds).filterMap (Spec.bra p K p.eq) := by
      intro ds
      induction ds with
      | nil => simp [outL, renumL]
      | cons c ds ih =>
        intro hs hf
        rw [Spec.StdL] at hs
        simp only [leavesL_cons, List.mem_append] at hf
        obtain ⟨a1, a2⟩ := out_spec f c hs.1 (fun i hi => hf i (Or.inl hi))
        obtain ⟨b1, b2⟩ := ih hs.2 (fun i hi => hf i (Or.inr hi))
        rw [outL, renumL_append, leavesL_append, subtreesL_append, List.filterMap_append, a1, a2, b1, b2]
        simp
    obtain ⟨k1, k2⟩ := key cs hsl hf'
    have he := outL_empty' (p := p) (K := K) cs hsl
    have hno := outL_node p K cs
    have hren : renumT f (.node l (outL p K cs)) = .node l (renumL f (outL p K cs)) := by
      cases ho : outL p K cs with
      | nil => simp [renumT, renumL]
      | cons x xs => rw [ho] at hno; rw [renumT_phr f l x xs (hno x (by simp)), renumL]
    rw [vis, if_pos hp, hren]
    refine ⟨by simpa using k1, ?_⟩
    rw [bracketings, Spec.brackets, subtrees_node, List.filterMap_cons, k2, bracket, span, leaves_node, k1, bra_eq id l cs hp]
    have hph : phrasal (.node l (renumL f (outL p K cs))) = (leavesL cs).any K := by
      cases ho : outL p K cs with
      | nil => rw [he.1 ho]; rfl
      | cons x xs =>
        rw [ho] at hno he
        rw [renumL, phrasal_cons, renumT_isNode, hno x (by simp)]
        cases ha : (leavesL cs).any K with
        | true => rfl
        | false => rw [ha] at he; simp at he
    rw [hph]
    simp only [id]
    by_cases hz : ((leavesL cs).any K && !p.delLabel l && (!p.discOnly || disc (List.map (Spec.rank K) (List.filter K (leavesL cs))).toFinset)) = true
    · simp only [if_pos hz]; rfl
    · simp only [if_neg hz]; rfl

theorem map_rank (K : Nat → Bool) (n : Nat) : ((List.range n).filter K).map (Spec.rank K) = List.range ((List.range n).filter K).length := by
  induction n with
  | zero => rfl
  | succ n ih =>
    rw [List.range_succ, List.filter_append, List.map_append, ih]
    by_cases hk : K n = true
    · simp [hk, List.range_succ, Spec.rank]
    · simp [hk]

/-- The transformed tree: nodes are replaced, words renumbered. -/
theorem transform_renum (p : Param) (t : PTree Str) (sent : List Str) (pos : List (Nat × Str)) (gpos : Nat → Option Str) (g : Nat → Str) (groot : Nat → Bool)
    (ht : Spec.Over sent.length t) (hpos : pos.length = sent.length) (hg : ∀ i, i < sent.length → gpos i = some (g i)) :
    let K := Spec.kept p sent g groot
    ∃ f, transform p t sent pos gpos groot = some (renumT f (vis p K t), (Spec.restrict K sent).map (Spec.word p), (Spec.restrict K pos).map Prod.snd) ∧
      ∀ i, i < sent.length → K i = true → f i = Spec.rank K i := by
  intro K
  have hmem : ∀ i ∈ leaves t, i < sent.length := fun i hi => by simpa using ht.words.subset hi
  have hK : ∀ i ∈ leaves t, remove p sent gpos groot i = some !K i := by
    intro i hi
    have hi := hmem i hi
    rw [remove, hg i hi, Option.bind_some, List.getElem?_eq_getElem hi]
    simp only [K, Spec.kept, List.getD_eq_getElem?_getD, List.getElem?_eq_getElem hi, Option.getD_some, Option.map_some]
    cases p.delLabel (g i) <;> simp
  have hnd : (leaves t).Nodup := ht.words.nodup_iff.2 List.nodup_range
  obtain ⟨st, h1, e⟩ := visit_vis (K := K) t ht.std hK ⟨List.range sent.length, []⟩ List.nodup_range hnd (fun i hi => by simpa using hmem i hi)
  rw [below, if_pos ht.phr] at e
  have hlv : st.leaves = (List.range sent.length).filter K := by
    rw [e.lv]
    apply List.filter_congr
    intro i hi
    have : i ∈ leaves t := ht.words.symm.subset hi
    simp [this]
  have hps : st.posnodes.Perm st.leaves := by
    rw [hlv]
    have := e.ps
    rw [List.nil_append] at this
    exact this.trans (ht.words.filter _)
  have hlnd : st.leaves.Nodup := by rw [hlv]; exact List.nodup_range.filter _
  have hs1 : (st.leaves.mapM fun n => sent[n]?) = some (Spec.restrict K sent) := by rw [hlv]; exact restrict_eq K sent
  have hs2 : (st.leaves.mapM fun n => (pos[n]?).map Prod.snd) = some ((Spec.restrict K pos).map Prod.snd) := by
    rw [← restrict_map, ← restrict_eq, hlv, List.length_map, hpos]
    simp only [List.getElem?_map]
  have hs3 := eqWords_all (p := p) st.leaves st.posnodes (Spec.restrict K sent) (hps.nodup_iff.2 hlnd) hlnd hps (by rw [restrict_length, hlv])
  refine ⟨fun i => st.leaves.idxOf i, ?_, fun i hi hk => by rw [hlv]; exact idxOf_filter K _ i hi hk⟩
  rw [transform, h1]
  simp only [Option.bind_some, hs1, hs2, hs3, Option.map_some, ht.phr, if_true]

/-- **C76.** A tree over a sentence of which each word has a gold tag is transformed: the words that count are left, with `EQ_WORD`, and their tags; the result is a tree over
them; its bracketings are those of the constituents of the original tree that have a word that counts and whose label is not to be deleted. -/
theorem C76_transform (p : Param) (t : PTree Str) (sent : List Str) (pos : List (Nat × Str)) (gpos : Nat → Option Str) (g : Nat → Str) (groot : Nat → Bool)
    (ht : Spec.Over sent.length t) (hpos : pos.length = sent.length) (hg : ∀ i, i < sent.length → gpos i = some (g i)) :
    let K := Spec.kept p sent g groot
    ∃ t', transform p t sent pos gpos groot = some (t', (Spec.restrict K sent).map (Spec.word p), (Spec.restrict K pos).map Prod.snd) ∧
      (leaves t').Perm (List.range (Spec.restrict K sent).length) ∧
      bracketings p t' = Spec.brackets p K t := by
  intro K
  obtain ⟨f, h1, h2⟩ := transform_renum p t sent pos gpos g groot ht hpos hg
  have hr := root_spec (p := p) (K := K) ht f h2
  refine ⟨_, h1, ?_, hr.2⟩
  rw [hr.1, restrict_length, ← map_rank K sent.length]
  exact (ht.words.filter _).map _

/-! ### A pair of trees -/

/-- The tag of a preterminal. -/
def pre : PTree Str → Option (Nat × Str)
  | .node l [.leaf j] => some (j, l)
  | _ => none

theorem posT_eq (t : PTree Str) : Spec.StdT t → posT t = (subtrees t).filterMap pre ∧ (posT t).map Prod.fst = leaves t := by
  induction t using PTree.rec (motive_2 := fun cs => Spec.StdL cs → posL cs = (subtreesL cs).filterMap pre ∧ (posL cs).map Prod.fst = leavesL cs) with
  | leaf i => intro h; simp [Spec.StdT] at h
  | node l cs ih =>
    intro hs
    simp only [Spec.StdT] at hs
    rcases hs with rfl | ⟨i, rfl⟩ | hs
    · simp [posT, posL, pre]
    · simp [posT, posL, ownPos, pre]
    · obtain ⟨i1, i2⟩ := ih hs
      have hnl : ∀ ds : List (PTree Str), Spec.StdL ds → ds.filterMap (ownPos l) = [] := by
        intro ds
        induction ds with
        | nil => simp
        | cons c ds ihd =>
          intro h
          rw [Spec.StdL] at h
          cases c with
          | leaf i => simp [Spec.StdT] at h
          | node m es => rw [List.filterMap_cons, ihd h.2]; rfl
      have hpre : pre (.node l cs) = none := by
        cases cs with
        | nil => rfl
        | cons c cs =>
          cases c with
          | leaf i => simp [Spec.StdL, Spec.StdT] at hs
          | node m es => cases cs <;> rfl
      rw [posT, hnl cs hs, List.nil_append, subtrees_node, List.filterMap_cons, hpre, leaves_node]
      exact ⟨i1, i2⟩
  | nil => simp [posL]
  | cons c cs h1 h2 =>
    rename_i hs
    rw [Spec.StdL] at hs
    obtain ⟨a1, a2⟩ := h1 hs.1
    obtain ⟨b1, b2⟩ := h2 hs.2
    rw [posL, subtreesL_cons, List.filterMap_append, leavesL_cons, List.map_append, ← a1, ← b1, a2, b2]
    exact ⟨rfl, rfl⟩

theorem tag_eq (t : PTree Str) (i : Nat) : Spec.tag t i = ((((subtrees t).filterMap pre).find? fun x => x.1 = i).map Prod.snd).getD [] := by
  rw [Spec.tag]
  congr 1
  induction subtrees t with
  | nil => rfl
  | cons s ss ih =>
    rw [List.findSome?_cons, List.filterMap_cons, ih]
    match s with
    | .leaf _ => rfl
    | .node l [] => rfl
    | .node l [.leaf j] =>
      simp only [pre, List.find?_cons]
      by_cases h : j = i <;> simp [h]
    | .node l (.leaf j :: c :: cs) => rfl
    | .node l (.node m ds :: cs) => cases cs <;> rfl

theorem sortedPos_eq {n : Nat} {t : PTree Str} (h : Spec.Over n t) : sortedPos t = (List.range n).map fun i => (i, Spec.tag t i) := by
  obtain ⟨h1, h2⟩ := posT_eq t h.std
  have hkeys : ((posT t).map Prod.fst).Nodup := by rw [h2]; exact h.words.nodup_iff.2 List.nodup_range
  have hperm : (posT t).Perm ((List.range n).map fun i => (i, Spec.tag t i)) := by
    have hval : ∀ x ∈ posT t, x = (x.1, Spec.tag t x.1) := by
      intro x hx
      have : (posT t).find? (fun y => y.1 = x.1) = some x := by
        generalize posT t = ps at hkeys hx
        induction ps with
        | nil => simp at hx
        | cons y ps ih =>
          rw [List.map_cons, List.nodup_cons] at hkeys
          rw [List.find?_cons]
          rcases List.mem_cons.1 hx with rfl | hx
          · simp
          · have : y.1 ≠ x.1 := fun h => hkeys.1 (h ▸ List.mem_map_of_mem (f := Prod.fst) hx)
            simp [this, ih hkeys.2 hx]
      rw [tag_eq, ← h1, this]; rfl
    have : posT t = ((posT t).map Prod.fst).map fun i => (i, Spec.tag t i) := by
      rw [List.map_map]
      conv_lhs => rw [← List.map_id (posT t)]
      exact List.map_congr_left hval
    rw [this, h2]
    exact h.words.map _
  have hs : (stableSort (fun a b : Nat × Str => decide (a.1 ≤ b.1)) (posT t)).Pairwise fun a b => decide (a.1 ≤ b.1) = true :=
    StableSort.pairwise (fun a b c => by simp; omega) (fun a b => by simp; omega) _
  have hp2 := (StableSort.perm (le := fun a b : Nat × Str => decide (a.1 ≤ b.1)) (posT t)).trans hperm
  rw [sortedPos]
  refine hp2.eq_of_pairwise (le := fun a b => a.1 ≤ b.1) ?_ ?_ ?_
  · intro a b ha hb h1 h2
    have ha : a ∈ (List.range n).map fun i => (i, Spec.tag t i) := hp2.subset ha
    obtain ⟨i, _, rfl⟩ := List.mem_map.1 ha
    obtain ⟨j, _, rfl⟩ := List.mem_map.1 hb
    simp only at h1 h2
    have : i = j := by omega
    rw [this]
  · exact hs.imp (by simp)
  · rw [List.pairwise_map]
    exact (List.pairwise_lt_range (n := n)).imp (fun h => by simpa using Nat.le_of_lt h)

theorem lookup_range (n : Nat) (f : Nat → Str) (i : Nat) (h : i < n) : lookup ((List.range n).map fun i => (i, f i)) i = some (f i) := by
  rw [lookup]
  have : ((List.range n).map fun i => (i, f i)).reverse.find? (fun x => decide (x.1 = i)) = some (i, f i) := by
    cases hf : ((List.range n).map fun i => (i, f i)).reverse.find? (fun x => decide (x.1 = i)) with
    | none =>
      rw [List.find?_eq_none] at hf
      exact absurd (hf (i, f i) (by simpa using h)) (by simp)
    | some x =>
      have h1 := List.find?_some hf
      have h2 := List.mem_of_find?_eq_some hf
      simp only [List.mem_reverse, List.mem_map, List.mem_range] at h2
      obtain ⟨j, _, rfl⟩ := h2
      simp only [decide_eq_true_eq] at h1
      rw [h1]
  rw [this]; rfl

theorem alignsent_self (sent : List Str) (f : Nat → Str) : ∀ (gpos : Nat → Option Str) (k : Nat), (∀ i, k ≤ i → i < k + sent.length → gpos i = some (f i)) →
    AlignSent.loop gpos k k sent sent = some ((List.range' k sent.length).map fun i => (i, f i)) := by
  induction sent with
  | nil => intro g k _; simp [AlignSent.loop]
  | cons w ws ih =>
    intro g k h
    rw [AlignSent.loop, if_pos rfl, h k (Nat.le_refl _) (by simp), ih g (k + 1) (fun i h1 h2 => h i (by omega) (by simp; omega))]
    simp [List.range'_succ]

theorem grootpos_eq {n : Nat} {t : PTree Str} (h : Spec.Over n t) (i : Nat) : grootpos t i = Spec.atRoot t i := by
  obtain ⟨hs, hp, hw⟩ := h
  match t, hs, hp with
  | .node l cs, hs, hp =>
    have hsl : Spec.StdL cs := by
      simp only [Spec.StdT] at hs
      rcases hs with rfl | ⟨i, rfl⟩ | hs
      · simp [phrasal] at hp
      · simp [phrasal] at hp
      · exact hs
    rw [grootpos, Spec.atRoot, Bool.eq_iff_iff, List.any_eq_true, decide_eq_true_eq]
    have hm : ∀ c ∈ cs, Spec.StdT c := by
      clear hp hs hw
      induction cs with
      | nil => simp
      | cons c cs ih =>
        rw [Spec.StdL] at hsl
        intro d hd
        rcases List.mem_cons.1 hd with rfl | hd
        · exact hsl.1
        · exact ih hsl.2 d hd
    simp only [PTree.children]
    refine exists_congr fun c => and_congr_right fun hc => ?_
    have := hm c hc
    match c, this with
    | .node m [], _ => simp
    | .node m [.leaf j], _ => simp
    | .node m (.leaf j :: d :: ds), h => simp [Spec.StdT, Spec.StdL] at h
    | .node m (.node _ _ :: ds), _ => simp

/-- The words of a pair that count: looking only at the gold tree. -/
def Spec.counts (p : Param) (gtree : PTree Str) (sent : List Str) : Nat → Bool := Spec.kept p sent (Spec.tag gtree) (Spec.atRoot gtree)

/-- **C76.** Two trees over the same sentence are always comparable: the same words are left on both sides, namely those for which neither the gold tag
nor the word is to be deleted nor the position in the gold tree, and the bracketings compared are those of the constituents over these words. -/
theorem C76_pair (p : Param) (gtree ctree : PTree Str) (sent : List Str) (hg : Spec.Over sent.length gtree) (hc : Spec.Over sent.length ctree) :
    let K := Spec.counts p gtree sent
    let words := (Spec.restrict K sent).map (Spec.word p)
    pair p gtree sent ctree sent = some {
      csent := words, gsent := words
      cpos := Spec.restrict K ((List.range sent.length).map (Spec.tag ctree))
      gpos := Spec.restrict K ((List.range sent.length).map (Spec.tag gtree))
      cbrack := Spec.brackets p K ctree
      gbrack := Spec.brackets p K gtree } := by
  intro K words
  have hgr : grootpos gtree = Spec.atRoot gtree := funext fun i => grootpos_eq hg i
  have hal : AlignSent.alignsent sent sent (lookup (sortedPos gtree)) = some ((List.range sent.length).map fun i => (i, Spec.tag gtree i)) := by
    rw [AlignSent.alignsent, alignsent_self sent (Spec.tag gtree) _ 0 (fun i _ h => by rw [sortedPos_eq hg]; exact lookup_range _ _ i (by omega)), List.range_eq_range']
  have hlk : ∀ i, i < sent.length → lookup (sortedPos gtree) i = some (Spec.tag gtree i) := fun i h => by rw [sortedPos_eq hg]; exact lookup_range _ _ i h
  have hlen : ∀ {t}, Spec.Over sent.length t → (sortedPos t).length = sent.length := fun h => by rw [sortedPos_eq h]; simp
  obtain ⟨ct, c1, _, c3⟩ := C76_transform p ctree sent (sortedPos ctree) (lookup ((List.range sent.length).map fun i => (i, Spec.tag gtree i))) (Spec.tag gtree) (grootpos gtree)
    hc (hlen hc) (fun i h => lookup_range _ _ i h)
  obtain ⟨gt, g1, _, g3⟩ := C76_transform p gtree sent (sortedPos gtree) (lookup (sortedPos gtree)) (Spec.tag gtree) (grootpos gtree) hg (hlen hg) hlk
  have hp : ∀ {t}, Spec.Over sent.length t → ∀ K, (Spec.restrict K (sortedPos t)).map Prod.snd = Spec.restrict K ((List.range sent.length).map (Spec.tag t)) := by
    intro t h K
    rw [← restrict_map, sortedPos_eq h, List.map_map]; rfl
  rw [pair, hal, Option.bind_some, c1, g1]
  simp only [Option.bind_some, ne_eq, not_true, if_false]
  rw [c3, g3, hp hc, hp hg, hgr]
  rfl

/-- **C76.** The gold tree as candidate gets the same bracketings. -/
theorem C76_gold (p : Param) (gtree : PTree Str) (sent : List Str) (hg : Spec.Over sent.length gtree) :
    ∃ r, pair p gtree sent gtree sent = some r ∧ r.cbrack = r.gbrack ∧ r.cpos = r.gpos ∧ r.csent = r.gsent :=
  ⟨_, C76_pair p gtree gtree sent hg hg, rfl, rfl, rfl⟩

/-! ### Examples -/

/-- Parameters as in evalb. -/
def par : Param where
  delLabel := fun l => l = ['R'] ∨ l = [',']
  delWord := fun w => w = ['x']
  eqLabel := fun l => if l = ['A'] then some ['B'] else none
  eqWord := fun w => if w = ['a'] then some ['b'] else none
  delRootPreterms := true
  labeled := true
  discOnly := false

/-- A gold tree with a discontinuous constituent, an empty node and a comma. -/
def goldT : PTree Str :=
  .node ['R'] [.node ['S'] [.node ['A'] [.node ['N'] [.leaf 0], .node ['N'] [.leaf 3]], .node [','] [.leaf 1], .node ['V'] [.leaf 2], .node ['E'] []], .node ['.'] [.leaf 4]]
/-- A candidate. -/
def candT : PTree Str :=
  .node ['R'] [.node ['S'] [.node ['N'] [.leaf 0], .node ['B'] [.node ['C'] [.node [','] [.leaf 1]], .node ['V'] [.leaf 2], .node ['N'] [.leaf 3]], .node ['.'] [.leaf 4]]]
/-- The sentence. -/
def exsent : List Str := [['a'], [','], ['v'], ['n'], ['.']]

theorem over_gold : Spec.Over exsent.length goldT := ⟨by simp [goldT, Spec.StdT, Spec.StdL], by decide +kernel, by decide +kernel⟩
theorem over_cand : Spec.Over exsent.length candT := ⟨by simp [candT, Spec.StdT, Spec.StdL], by decide +kernel, by decide +kernel⟩

/-- Only the words 0, 2, 3 count; the constituents are S and the discontinuous B in the gold tree, S and B in the candidate. -/
example : (pair par goldT exsent candT exsent).map (fun r => (r.csent, r.cpos, decide (r.cbrack = {(['S'], {0, 1, 2}), (['B'], {1, 2})}),
    decide (r.gbrack = {(['S'], {0, 1, 2}), (['B'], {0, 2})}))) = some ([['b'], ['v'], ['n']], [['N'], ['V'], ['N']], true, true) := by decide +kernel

example : ∃ r, pair par goldT exsent candT exsent = some r ∧ r.cbrack ≠ r.gbrack := by
  refine ⟨_, C76_pair par goldT candT exsent over_gold over_cand, ?_⟩
  decide +kernel

/-! ### Disagreements -/

/-- Trees with a root that is not deleted. -/
def parTop : Param where
  delLabel := fun _ => false
  delWord := fun _ => false
  eqLabel := fun l => if l = ['T'] then some ['R'] else none
  eqWord := fun _ => none
  delRootPreterms := false
  labeled := true
  discOnly := false

/-- **C76, disagreement.** `EQ_LABEL` makes two labels count as equal, but not for the root: with `EQ_LABEL R T` the same tree with the root label `T` in place of
`R` gets other bracketings. -/
theorem C76_root_eqlabel_disagreement :
    parTop.eq ['T'] = parTop.eq ['R'] ∧ (pair parTop (.node ['R'] [.node ['N'] [.leaf 0]]) [['a']] (.node ['T'] [.node ['N'] [.leaf 0]]) [['a']]).map (fun r => decide (r.cbrack = r.gbrack)) = some false := by
  constructor <;> decide +kernel

/-- Words directly under the gold root are deleted. -/
def parRoot : Param where
  delLabel := fun _ => false
  delWord := fun _ => false
  eqLabel := fun _ => none
  eqWord := fun _ => none
  delRootPreterms := true
  labeled := true
  discOnly := false

/-- **C76, disagreement.** Candidates without the punctuation of the gold tree are supported by aligning the words (C43), but the positions directly under the gold root are not
translated: with `DELETE_ROOT_PRETERMS` the wrong word is deleted from the candidate, and the pair is rejected although all words that count are the same. -/
theorem C76_rootpreterms_disagreement :
    pair parRoot (.node ['R'] [.node ['P'] [.leaf 0], .node ['S'] [.node ['N'] [.leaf 1], .node ['V'] [.leaf 2]]]) [['q'], ['a'], ['b']]
      (.node ['R'] [.node ['S'] [.node ['N'] [.leaf 0], .node ['V'] [.leaf 1]]]) [['a'], ['b']] = none := by decide +kernel

/-- **C76, disagreement.** A candidate of which the root is a preterminal is not transformed (no word is deleted): the pair is rejected, although the candidate is a tree over the
gold sentence. -/
theorem C76_preterminal_root_disagreement :
    pair par (.node ['R'] [.node ['.'] [.leaf 0]]) [['.']] (.node ['.'] [.leaf 0]) [['.']] = none := by decide +kernel
end Disco.EvalTransform
