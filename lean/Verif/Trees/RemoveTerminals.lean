import Verif.Basic.Tree
import Verif.Basic.Sort
import Mathlib.Data.List.Dedup
/-!
# C08: `removeterminals`, `removeemptynodes`

`discodop/treetransforms.py:635-671`.
-/
namespace Disco.RmTerm
open PTree

variable {W : Type}

mutual
/-- The loop over the children of a node taken from the agenda (treetransforms.py:646-659). The agenda loop is a recursion
over the tree: a node is deleted by the inner `while` (655-657) exactly when its last child has been deleted.
`none` models an exception: `TypeError` for a terminal other than 0 among the children (`child[0]` of an int), `IndexError` for a word
index outside of the sentence. -/
def rmChildren (func : W → PTree Str → Bool) (sent : List W) : List (PTree Str) → Option (List (PTree Str))
  | [] => some []
  | c :: cs => do
    let rest ← rmChildren func sent cs
    let d ← rmChild func sent c
    return d.toList ++ rest
/-- What becomes of one child: `some none` when it is deleted. -/
def rmChild (func : W → PTree Str → Bool) (sent : List W) : PTree Str → Option (Option (PTree Str))
  | .leaf i => if i = 0 then some (some (.leaf i)) else none      -- `if not child: continue` / TypeError
  | .node l [] => some (some (.node l []))                        -- `if not child: continue`
  | .node l (.leaf i :: cs) => do
    let w ← sent[i]?
    return if func w (.node l (.leaf i :: cs)) then none else some (.node l (.leaf i :: cs))
  | .node l (.node l' ds :: cs) => do
    let es ← rmChildren func sent (.node l' ds :: cs)
    return if es.isEmpty then none else some (.node l es)         -- delete empty ancestors
end

mutual
/-- The keys of `preterms`: first terminals of the remaining preterminals below the root (treetransforms.py:658-659). -/
def pretermKeys : PTree Str → List Nat
  | .leaf _ => []
  | .node _ [] => []
  | .node _ (.leaf i :: _) => [i]
  | .node _ (.node l ds :: cs) => pretermKeysL (.node l ds :: cs)
/-- The same for a list of sisters. -/
def pretermKeysL : List (PTree Str) → List Nat
  | [] => []
  | c :: cs => pretermKeys c ++ pretermKeysL cs
end

mutual
/-- `node[0] = newindices[a]` for each remaining preterminal (treetransforms.py:663-664).
Simplification: the terminals are assumed to be distinct (with a repeated index the dict keeps one preterminal only). -/
def renumber (new : Nat → Nat) : PTree Str → PTree Str
  | .leaf i => .leaf i
  | .node l [] => .node l []
  | .node l (.leaf i :: cs) => .node l (.leaf (new i) :: cs)
  | .node l (.node l' ds :: cs) => .node l (renumberL new (.node l' ds :: cs))
/-- The same for a list of sisters. -/
def renumberL (new : Nat → Nat) : List (PTree Str) → List (PTree Str)
  | [] => []
  | c :: cs => renumber new c :: renumberL new cs
end

/-- `sorted(preterms)`. -/
def sortedKeys (ks : List Nat) : List Nat := stableSort (fun a b : Nat => decide (a ≤ b)) ks

/-- `removeterminals` (treetransforms.py:635-665): the new tree and the new sentence. -/
def removeterminals (func : W → PTree Str → Bool) : PTree Str → List W → Option (PTree Str × List W)
  | .leaf i, sent => some (.leaf i, sent)    -- not called on a terminal
  | .node l cs, sent => do
    let ds ← rmChildren func sent cs
    let old := sortedKeys (pretermKeysL ds)
    let es := renumberL (fun a => old.idxOf a) ds
    let sent' ← old.mapM (fun a => sent[a]?)
    return (.node l es, sent')

/-- `removeemptynodes` (treetransforms.py:668-671). -/
def removeemptynodes (t : PTree Str) (sent : List (Option Str)) : Option (PTree Str × List (Option Str)) :=
  removeterminals (fun word node => word = none ∨ word = some [] ∨ node.label? = some "-NONE-".toList) t sent

/-! ### Specification -/

/-- Constituents below the root of a tree in which each terminal is the only child of its preterminal and no constituent is empty. -/
inductive Spec.Proper (n : Nat) : PTree Str → Prop
  | preterminal (l : Str) (i : Nat) : i < n → Spec.Proper n (.node l [.leaf i])
  | phrase (l : Str) (c : PTree Str) (cs : List (PTree Str)) : Spec.Proper n c → (∀ d ∈ cs, Spec.Proper n d) →
      Spec.Proper n (.node l (c :: cs))

mutual
/-- The words with their tags, left to right: (index, label of the preterminal). -/
def Spec.pos : PTree Str → List (Nat × Str)
  | .leaf _ => []
  | .node l [.leaf i] => [(i, l)]
  | .node _ cs => Spec.posL cs
/-- The same for a list of sisters. -/
def Spec.posL : List (PTree Str) → List (Nat × Str)
  | [] => []
  | c :: cs => Spec.pos c ++ Spec.posL cs
end

/-- Label and terminals of each constituent, in pre-order. -/
def Spec.brackets (cs : List (PTree Str)) : List (Option Str × List Nat) :=
  (subtreesL cs).map (fun n => (n.label?, n.leaves))

/-- The words that are to be kept. -/
def Spec.kept (func : W → PTree Str → Bool) (sent : List W) (p : Nat × Str) : Bool :=
  match sent[p.1]? with
  | some w => !func w (.node p.2 [.leaf p.1])
  | none => false

/-- The claim: `cs'`, `sent'` is the result of deleting the unwanted words from the children `cs` of the root:
the remaining words keep their tags and order and are renumbered by an increasing `ρ` onto `0..n-1`; the new sentence
has the old words; the constituents are those with some remaining word, with the terminals that remain. -/
structure Spec.Removed (func : W → PTree Str → Bool) (cs : List (PTree Str)) (sent : List W)
    (cs' : List (PTree Str)) (sent' : List W) : Prop where
  ex : ∃ ρ : Nat → Nat,
    Spec.posL cs' = ((Spec.posL cs).filter (Spec.kept func sent)).map (fun p => (ρ p.1, p.2)) ∧
    (∀ p ∈ (Spec.posL cs).filter (Spec.kept func sent), ∀ q ∈ (Spec.posL cs).filter (Spec.kept func sent),
      p.1 < q.1 → ρ p.1 < ρ q.1) ∧
    (((Spec.posL cs).filter (Spec.kept func sent)).map (fun p => ρ p.1)).Perm (List.range sent'.length) ∧
    (∀ p ∈ (Spec.posL cs).filter (Spec.kept func sent), sent'[ρ p.1]? = sent[p.1]?) ∧
    Spec.brackets cs' = ((Spec.brackets cs).map (fun b => (b.1,
      (b.2.filter (fun i => ((Spec.posL cs).filter (Spec.kept func sent)).any (fun p => p.1 = i))).map ρ))).filter
        (fun b => !b.2.isEmpty)

open Spec

/-! ### Lemmas -/

theorem Proper.rec' {n : Nat} {P : PTree Str → Prop}
    (h1 : ∀ l i, i < n → P (.node l [.leaf i]))
    (h2 : ∀ l c cs, Proper n c → P c → (∀ d ∈ cs, Proper n d) → (∀ d ∈ cs, P d) → P (.node l (c :: cs)))
    {t : PTree Str} (h : Proper n t) : P t := by
  induction h with
  | preterminal l i hi => exact h1 l i hi
  | phrase l c cs hc hcs ih1 ih2 => exact h2 l c cs hc ih1 hcs ih2

theorem Proper.isNode' {n : Nat} {t : PTree Str} (h : Proper n t) : ∃ l c cs, t = .node l (c :: cs) := by
  cases h with
  | preterminal l i => exact ⟨_, _, _, rfl⟩
  | phrase l c cs => exact ⟨_, _, _, rfl⟩

theorem posL_eq (cs : List (PTree Str)) : posL cs = cs.flatMap Spec.pos := by
  induction cs with
  | nil => simp [posL]
  | cons c cs ih => simp [posL, ih]

theorem pos_phrase {n : Nat} {l : Str} {c : PTree Str} {cs : List (PTree Str)} (hc : Proper n c) :
    Spec.pos (.node l (c :: cs)) = posL (c :: cs) := by
  obtain ⟨l', d, ds, rfl⟩ := Proper.isNode' hc
  rw [Spec.pos]
  simp

theorem posL_leaves {n : Nat} {cs : List (PTree Str)} (h : ∀ c ∈ cs, Proper n c) :
    (posL cs).map Prod.fst = leavesL cs := by
  have key : ∀ t, Proper n t → (Spec.pos t).map Prod.fst = t.leaves := by
    intro t ht
    refine Proper.rec' (P := fun t => (Spec.pos t).map Prod.fst = t.leaves) ?_ ?_ ht
    · intro l i _; simp [Spec.pos]
    · intro l c cs hc h1 hcs h2
      rw [pos_phrase hc, leaves_node, posL_eq, leavesL_eq_flatMap, List.map_flatMap]
      apply List.flatMap_congr
      intro d hd
      rcases List.mem_cons.1 hd with rfl | hd
      · exact h1
      · exact h2 d hd
  induction cs with
  | nil => simp [posL]
  | cons c cs ih =>
    rw [posL, List.map_append, key c (h c (by simp)), ih (fun d hd => h d (by simp [hd])), leavesL_cons]


/-- What the first pass makes of a list of sisters, by index-level predicate `K`. -/
structure Pass (func : W → PTree Str → Bool) (sent : List W) (K : Nat → Bool) (cs ds : List (PTree Str)) : Prop where
  proper : ∀ d ∈ ds, Proper sent.length d
  pos : posL ds = (posL cs).filter (kept func sent)
  br : brackets ds = ((brackets cs).map (fun b => (b.1, b.2.filter K))).filter (fun b => !b.2.isEmpty)

theorem filter_leaves {n : Nat} {cs : List (PTree Str)} {f : Nat × Str → Bool} {K : Nat → Bool}
    (h : ∀ c ∈ cs, Proper n c) (hK : ∀ p ∈ posL cs, K p.1 = f p) :
    ((posL cs).filter f).map Prod.fst = (leavesL cs).filter K := by
  rw [← posL_leaves h, List.filter_map]
  congr 1
  apply List.filter_congr
  intro p hp
  simp [hK p hp]

theorem brackets_append (xs ys : List (PTree Str)) : brackets (xs ++ ys) = brackets xs ++ brackets ys := by
  simp [brackets]

theorem Proper.leaves_ne {n : Nat} {t : PTree Str} (h : Proper n t) : t.leaves ≠ [] := by
  refine Proper.rec' (P := fun t => t.leaves ≠ []) ?_ ?_ h
  · intro l i _; simp
  · intro l c cs _ h1 _ _; simp [h1]

theorem rmChildren_of {func : W → PTree Str → Bool} {sent : List W} {K : Nat → Bool} {cs : List (PTree Str)}
    (h : ∀ c ∈ cs, (∀ p ∈ Spec.pos c, K p.1 = kept func sent p) →
      ∃ r, rmChild func sent c = some r ∧ Pass func sent K [c] r.toList)
    (hK : ∀ p ∈ posL cs, K p.1 = kept func sent p) :
    ∃ ds, rmChildren func sent cs = some ds ∧ Pass func sent K cs ds := by
  induction cs with
  | nil => exact ⟨[], by simp [rmChildren], ⟨by simp, by simp [posL], by simp [brackets]⟩⟩
  | cons c cs ih =>
    obtain ⟨r, hr, p1⟩ := h c (by simp) (fun p hp => hK p (by simp [posL, hp]))
    obtain ⟨ds, hds, p2⟩ := ih (fun d hd => h d (by simp [hd])) (fun p hp => hK p (by simp [posL, hp]))
    refine ⟨r.toList ++ ds, by simp [rmChildren, hr, hds], ?_, ?_, ?_⟩
    · intro d hd
      rcases List.mem_append.1 hd with hd | hd
      · exact p1.proper d hd
      · exact p2.proper d hd
    · have := p1.pos
      rw [posL_eq, List.flatMap_append, ← posL_eq, ← posL_eq, p1.pos, p2.pos, posL, posL, posL]
      simp
    · rw [brackets_append, p1.br, p2.br, ← List.filter_append, ← List.map_append, ← brackets_append]
      simp

theorem rmChild_spec {func : W → PTree Str → Bool} {sent : List W} {K : Nat → Bool} {c : PTree Str}
    (hc : Proper sent.length c) (hK : ∀ p ∈ Spec.pos c, K p.1 = kept func sent p) :
    ∃ r, rmChild func sent c = some r ∧ Pass func sent K [c] r.toList := by
  induction c using PTree.ind with
  | hleaf i => cases hc
  | hnode l cs ih =>
    cases hc with
    | preterminal _ i hi =>
      have hw : sent[i]? = some sent[i] := by simp [hi]
      have hp : K i = kept func sent (i, l) := hK (i, l) (by simp [Spec.pos])
      have hk : kept func sent (i, l) = !func sent[i] (.node l [.leaf i]) := by simp [kept, hi]
      by_cases hf : func sent[i] (.node l [.leaf i]) = true
      · refine ⟨none, by simp [rmChild, hi, hf], by simp, ?_, ?_⟩
        · simp [posL, Spec.pos, hk, hf]
        · simp [brackets, hp, hk, hf]
      · refine ⟨some (.node l [.leaf i]), by simp [rmChild, hi, hf], ?_, ?_, ?_⟩
        · intro d hd
          simp at hd; subst hd; exact .preterminal l i hi
        · simp [posL, Spec.pos, hk, hf]
        · simp [brackets, hp, hk, hf]
    | phrase _ c cs h1 h2 =>
      have hcs : ∀ d ∈ c :: cs, Proper sent.length d := by
        intro d hd
        rcases List.mem_cons.1 hd with rfl | hd
        · exact h1
        · exact h2 d hd
      have hpos := pos_phrase (l := l) (cs := cs) h1
      rw [hpos] at hK
      obtain ⟨es, hes, ps⟩ := rmChildren_of (fun d hd => ih d hd (hcs d hd)) hK
      have hleaf : leavesL es = (leavesL (c :: cs)).filter K := by
        rw [← posL_leaves ps.proper, ps.pos, filter_leaves hcs hK]
      obtain ⟨l', d, ds, rfl⟩ := Proper.isNode' h1
      refine ⟨if es.isEmpty then none else some (.node l es), by simp [rmChild, hes], ?_⟩
      by_cases he : es = []
      · subst he
        simp only [List.isEmpty_nil, if_true, Option.toList_none]
        refine ⟨by simp, ?_, ?_⟩
        · have := ps.pos
          rw [posL] at this
          rw [posL, posL, hpos, posL, List.append_nil]
          exact this
        · have hb : brackets [PTree.node l (.node l' (d :: ds) :: cs)] =
              (some l, leavesL (.node l' (d :: ds) :: cs)) :: brackets (.node l' (d :: ds) :: cs) := by
            simp [brackets, label?]
          have hbr := ps.br
          rw [hb, List.map_cons, List.filter_cons, ← hbr]
          simp only [← hleaf]
          simp [brackets]
      · rw [if_neg (by simpa using he)]
        refine ⟨?_, ?_, ?_⟩
        · intro x hx
          simp at hx; subst hx
          cases es with
          | nil => simp at he
          | cons e es =>
            exact .phrase l e es (ps.proper e (by simp)) (fun d hd => ps.proper d (by simp [hd]))
        · cases es with
          | nil => simp at he
          | cons e es =>
            have h' := pos_phrase (l := l) (cs := es) (ps.proper e (by simp))
            have e1 : ∀ x : PTree Str, posL [x] = Spec.pos x := by intro x; simp [posL]
            rw [Option.toList_some, e1, e1, h', hpos]
            exact ps.pos
        · have hb : ∀ xs : List (PTree Str), brackets [PTree.node l xs] =
              (some l, leavesL xs) :: brackets xs := by
            intro xs; simp [brackets, label?]
          rw [Option.toList_some, hb, hb, List.map_cons, List.filter_cons]
          simp only [← hleaf]
          have hne : leavesL es ≠ [] := by
            cases es with
            | nil => simp at he
            | cons e es =>
              have := Proper.leaves_ne (ps.proper e (by simp))
              simp [this]
          rw [if_pos (by simpa using hne), ps.br]

theorem renumber_spec {n : Nat} (ρ : Nat → Nat) {t : PTree Str} (h : Proper n t) :
    Spec.pos (renumber ρ t) = (Spec.pos t).map (fun p => (ρ p.1, p.2)) ∧ (renumber ρ t).leaves = t.leaves.map ρ ∧
    brackets [renumber ρ t] = (brackets [t]).map (fun b => (b.1, b.2.map ρ)) ∧ ∃ l c cs, renumber ρ t = .node l (c :: cs) ∧ (
      t.children.head?.map PTree.isNode = some c.isNode) := by
  induction t using PTree.ind with
  | hleaf i => cases h
  | hnode l cs ih =>
    cases h with
    | preterminal _ i hi =>
      simp [renumber, Spec.pos, brackets, label?, children, isNode]
    | phrase _ c cs h1 h2 =>
      have hcs : ∀ d ∈ c :: cs, Proper n d := by
        intro d hd
        rcases List.mem_cons.1 hd with rfl | hd
        · exact h1
        · exact h2 d hd
      have hL : ∀ xs : List (PTree Str), (∀ d ∈ xs, d ∈ c :: cs) →
          posL (renumberL ρ xs) = (posL xs).map (fun p => (ρ p.1, p.2)) ∧
          leavesL (renumberL ρ xs) = (leavesL xs).map ρ ∧
          brackets (renumberL ρ xs) = (brackets xs).map (fun b => (b.1, b.2.map ρ)) := by
        intro xs hxs
        induction xs with
        | nil => simp [renumberL, posL, brackets]
        | cons x xs ih2 =>
          obtain ⟨i1, i2, i3⟩ := ih2 (fun d hd => hxs d (by simp [hd]))
          obtain ⟨j1, j2, j3, _⟩ := ih x (hxs x (by simp)) (hcs x (hxs x (by simp)))
          refine ⟨by simp [renumberL, posL, i1, j1], by simp [renumberL, i2, j2], ?_⟩
          have e : ∀ (a : PTree Str) as, brackets (a :: as) = brackets [a] ++ brackets as := by
            intro a as; simp [brackets]
          rw [renumberL, e, j3, i3, e x xs, List.map_append]
      obtain ⟨k1, k2, k3⟩ := hL (c :: cs) (fun d hd => hd)
      obtain ⟨l', d, ds, rfl⟩ := Proper.isNode' h1
      have e1 : renumber ρ (.node l (.node l' (d :: ds) :: cs)) = .node l (renumberL ρ (.node l' (d :: ds) :: cs)) := by
        simp [renumber]
      obtain ⟨j1, j2, j3, l'', d', ds', j4, j5⟩ := ih _ (by simp) h1
      have e2 : renumberL ρ (.node l' (d :: ds) :: cs) = .node l'' (d' :: ds') :: renumberL ρ cs := by
        rw [renumberL, j4]
      have hb : ∀ xs : List (PTree Str), brackets [PTree.node l xs] = (some l, leavesL xs) :: brackets xs := by
        intro xs; simp [brackets, label?]
      refine ⟨?_, by rw [e1, leaves_node, k2, leaves_node], ?_, ?_⟩
      · rw [e1, pos_phrase h1, ← k1, e2]
        rw [Spec.pos]; simp
      · rw [e1, hb, hb, k2, k3, List.map_cons]
      · rw [e1, e2]
        exact ⟨l, _, _, rfl, by simp [children, isNode]⟩

theorem renumberL_spec {n : Nat} (ρ : Nat → Nat) {cs : List (PTree Str)} (h : ∀ c ∈ cs, Proper n c) :
    posL (renumberL ρ cs) = (posL cs).map (fun p => (ρ p.1, p.2)) ∧
    brackets (renumberL ρ cs) = (brackets cs).map (fun b => (b.1, b.2.map ρ)) := by
  induction cs with
  | nil => simp [renumberL, posL, brackets]
  | cons c cs ih =>
    obtain ⟨i1, i2⟩ := ih (fun d hd => h d (by simp [hd]))
    obtain ⟨j1, _, j3, _⟩ := renumber_spec ρ (h c (by simp))
    have e : ∀ (a : PTree Str) as, brackets (a :: as) = brackets [a] ++ brackets as := by
      intro a as; simp [brackets]
    exact ⟨by simp [renumberL, posL, i1, j1], by rw [renumberL, e, j3, i2, e c cs, List.map_append]⟩

theorem pretermKeysL_eq {n : Nat} {cs : List (PTree Str)} (h : ∀ c ∈ cs, Proper n c) :
    pretermKeysL cs = (posL cs).map Prod.fst := by
  have key : ∀ t, Proper n t → pretermKeys t = (Spec.pos t).map Prod.fst := by
    intro t
    induction t using PTree.ind with
    | hleaf i => intro h; cases h
    | hnode l cs ih =>
      intro h
      cases h with
      | preterminal _ i hi => simp [pretermKeys, Spec.pos]
      | phrase _ c cs h1 h2 =>
        rw [pos_phrase h1]
        obtain ⟨l', d, ds, rfl⟩ := Proper.isNode' h1
        rw [pretermKeys, pretermKeysL, posL, List.map_append, ih _ (by simp) h1]
        congr 1
        have : ∀ x ∈ cs, pretermKeys x = (Spec.pos x).map Prod.fst := fun x hx => ih x (by simp [hx]) (h2 x hx)
        clear ih h2 h1
        induction cs with
        | nil => simp [pretermKeysL, posL]
        | cons x xs ih2 =>
          rw [pretermKeysL, posL, List.map_append, this x (by simp), ih2 (fun y hy => this y (by simp [hy]))]
  induction cs with
  | nil => simp [pretermKeysL, posL]
  | cons c cs ih =>
    rw [pretermKeysL, posL, List.map_append, key c (h c (by simp)), ih (fun d hd => h d (by simp [hd]))]

theorem sortedKeys_lt {ks : List Nat} (h : ks.Nodup) : (sortedKeys ks).Pairwise (· < ·) := by
  have h1 := StableSort.pairwise (le := fun a b : Nat => decide (a ≤ b)) (by simp; omega) (by simp; omega) ks
  have h2 : (sortedKeys ks).Nodup := (StableSort.perm ks).nodup_iff.2 h
  exact (h1.and h2).imp (fun h => by simp at h; omega)

theorem idxOf_lt_of_lt {l : List Nat} (h : l.Pairwise (· < ·)) {a b : Nat} (ha : a ∈ l) (hb : b ∈ l) (hab : a < b) :
    l.idxOf a < l.idxOf b := by
  induction l with
  | nil => simp at ha
  | cons x l ih =>
    rw [List.pairwise_cons] at h
    rcases List.mem_cons.1 ha with rfl | ha'
    · have : b ≠ a := by omega
      rw [List.idxOf_cons_self, List.idxOf_cons_ne _ this.symm]; omega
    · rcases List.mem_cons.1 hb with rfl | hb'
      · have := h.1 a ha'; omega
      · have h1 := h.1 a ha'
        have h2 := h.1 b hb'
        rw [List.idxOf_cons_ne _ (by omega), List.idxOf_cons_ne _ (by omega)]
        have := ih h.2 ha' hb'; omega

theorem map_idxOf_self {l : List Nat} (h : l.Nodup) : l.map (fun a => l.idxOf a) = List.range l.length := by
  apply List.ext_getElem
  · simp
  · intro i h1 h2
    simp only [List.length_map] at h1
    simp only [List.getElem_map, List.getElem_range]
    exact h.idxOf_getElem i h1

theorem mapM_getElem {W : Type} (sent : List W) (old : List Nat) (h : ∀ a ∈ old, a < sent.length) :
    ∃ s', old.mapM (fun a => sent[a]?) = some s' ∧ s'.length = old.length ∧
      ∀ (k a : Nat), old[k]? = some a → s'[k]? = sent[a]? := by
  induction old with
  | nil => exact ⟨[], by simp, rfl, by simp⟩
  | cons x old ih =>
    obtain ⟨s', h1, h2, h3⟩ := ih (fun a ha => h a (by simp [ha]))
    have hx := h x (by simp)
    refine ⟨sent[x] :: s', by simp [h1, hx], by simp [h2], ?_⟩
    intro k a hk
    cases k with
    | zero => simp at hk; subst hk; simp [hx]
    | succ k => simpa using h3 k a (by simpa using hk)

theorem removed_spec (func : W → PTree Str → Bool) (l : Str) (cs : List (PTree Str)) (sent : List W)
    (h : ∀ c ∈ cs, Proper sent.length c) (hnd : (leavesL cs).Nodup) :
    ∃ cs' sent', removeterminals func (.node l cs) sent = some (.node l cs', sent') ∧
      Removed func cs sent cs' sent' := by
  let F := (posL cs).filter (kept func sent)
  let K : Nat → Bool := fun i => F.any (fun p => p.1 = i)
  have hposnd : ((posL cs).map Prod.fst).Nodup := by rw [posL_leaves h]; exact hnd
  have hK : ∀ p ∈ posL cs, K p.1 = kept func sent p := by
    intro p hp
    cases hkp : kept func sent p
    · simp only [K]
      rw [Bool.eq_false_iff]
      intro hc
      rw [List.any_eq_true] at hc
      obtain ⟨q, hq, hqe⟩ := hc
      rw [List.mem_filter] at hq
      have hqe : q.1 = p.1 := by simpa using hqe
      have : q = p := List.inj_on_of_nodup_map hposnd hq.1 hp hqe
      rw [this, hkp] at hq; simp at hq
    · simp only [K]
      rw [List.any_eq_true]
      exact ⟨p, List.mem_filter.2 ⟨hp, hkp⟩, by simp⟩
  obtain ⟨ds, hds, ps⟩ := rmChildren_of (K := K) (fun c hc => rmChild_spec (h c hc)) hK
  have hkeys : pretermKeysL ds = F.map Prod.fst := by rw [pretermKeysL_eq ps.proper, ps.pos]
  have hFnd : (F.map Prod.fst).Nodup := hposnd.sublist (List.filter_sublist.map _)
  have hlt : ∀ a ∈ sortedKeys (F.map Prod.fst), a < sent.length := by
    intro a ha
    rw [sortedKeys, StableSort.mem] at ha
    obtain ⟨p, hp, rfl⟩ := List.mem_map.1 ha
    have := (List.mem_filter.1 hp).2
    by_contra hge
    simp [kept, List.getElem?_eq_none (Nat.le_of_not_lt hge)] at this
  obtain ⟨s', hs1, hs2, hs3⟩ := mapM_getElem sent _ hlt
  refine ⟨renumberL (fun a => (sortedKeys (F.map Prod.fst)).idxOf a) ds, s', ?_, ?_⟩
  · simp [removeterminals, hds, hkeys, hs1]
  · have hsp := StableSort.perm (le := fun a b : Nat => decide (a ≤ b)) (F.map Prod.fst)
    have hsnd : (sortedKeys (F.map Prod.fst)).Nodup := hsp.nodup_iff.2 hFnd
    have hmem : ∀ p ∈ F, p.1 ∈ sortedKeys (F.map Prod.fst) := fun p hp =>
      StableSort.mem.2 (List.mem_map.2 ⟨p, hp, rfl⟩)
    obtain ⟨r1, r2⟩ := renumberL_spec (fun a => (sortedKeys (F.map Prod.fst)).idxOf a) ps.proper
    refine ⟨fun a => (sortedKeys (F.map Prod.fst)).idxOf a, by rw [r1, ps.pos], ?_, ?_, ?_, ?_⟩
    · intro p hp q hq hpq
      exact idxOf_lt_of_lt (sortedKeys_lt hFnd) (hmem p hp) (hmem q hq) hpq
    · rw [hs2, ← map_idxOf_self hsnd]
      have : F.map (fun p => (sortedKeys (F.map Prod.fst)).idxOf p.1) =
          (F.map Prod.fst).map (fun a => (sortedKeys (F.map Prod.fst)).idxOf a) := by simp [Function.comp_def]
      change (F.map (fun p => (sortedKeys (F.map Prod.fst)).idxOf p.1)).Perm _
      rw [this]
      exact hsp.symm.map _
    · intro p hp
      apply hs3
      have hm := hmem p hp
      rw [List.getElem?_eq_getElem (List.idxOf_lt_length_of_mem hm), List.getElem_idxOf]
    · rw [r2, ps.br]
      rw [List.filter_map, List.filter_map, List.map_map]
      congr 1
      apply List.filter_congr
      intro b _
      have : ∀ (f : Nat → Nat) (l : List Nat), (l.map f).isEmpty = l.isEmpty := by
        intro f l; cases l <;> rfl
      simp only [Function.comp_apply, this]
      rfl

/-! ### Properties -/

/-- **C08.** On every tree in which each word has its own preterminal, `removeterminals` deletes exactly the words selected by
`func` and the constituents left without words; the rest keeps its structure, and tree and sentence stay aligned. -/
theorem C08_removeterminals (func : W → PTree Str → Bool) (l : Str) (cs : List (PTree Str)) (sent : List W)
    (h : ∀ c ∈ cs, Proper sent.length c) (hnd : (leavesL cs).Nodup) :
    ∃ cs' sent', removeterminals func (.node l cs) sent = some (.node l cs', sent') ∧
      Removed func cs sent cs' sent' :=
  removed_spec func l cs sent h hnd

/-- **C08.** No constituent below the root is empty afterwards, and the terminals are exactly `0..n-1`. -/
theorem C08_no_empty (func : W → PTree Str → Bool) (l : Str) (cs cs' : List (PTree Str)) (sent sent' : List W)
    (h : ∀ c ∈ cs, Proper sent.length c) (hnd : (leavesL cs).Nodup)
    (hr : removeterminals func (.node l cs) sent = some (.node l cs', sent')) :
    ∀ n ∈ subtreesL cs', n.leaves ≠ [] := by
  obtain ⟨_, _, h1, ⟨ρ, _, _, _, _, h2⟩⟩ := removed_spec func l cs sent h hnd
  rw [hr] at h1
  injection h1 with h1
  injection h1 with h1 h3
  injection h1 with _ h1
  subst h1
  intro n hn hne
  have : (n.label?, n.leaves) ∈ brackets cs' := List.mem_map.2 ⟨n, hn, rfl⟩
  rw [h2, List.mem_filter] at this
  simp [hne] at this

/-- **C08.** `removeemptynodes` is `removeterminals` for the empty words and traces. -/
theorem C08_removeemptynodes (l : Str) (cs : List (PTree Str)) (sent : List (Option Str))
    (h : ∀ c ∈ cs, Proper sent.length c) (hnd : (leavesL cs).Nodup) :
    ∃ cs' sent', removeemptynodes (.node l cs) sent = some (.node l cs', sent') ∧
      Removed (fun word node => decide (word = none ∨ word = some [] ∨ node.label? = some "-NONE-".toList))
        cs sent cs' sent' := by
  have := removed_spec (fun (word : Option Str) node =>
    decide (word = none ∨ word = some [] ∨ node.label? = some "-NONE-".toList)) l cs sent h hnd
  exact this

/-- A word directly below a node with other children (no preterminal of its own) makes `removeterminals` fail. -/
theorem C08_bare_terminal_fails :
    removeterminals (fun (_ : Str) _ => false) (.node "S".toList [.leaf 0, .leaf 1]) ["a".toList, "b".toList] = none := by
  decide +kernel

/-- Hypotheses met: a tree with a trace; NP above the trace disappears, the words are renumbered. -/
def exTree : List (PTree Str) :=
  [.node "NP".toList [.node "-NONE-".toList [.leaf 0]], .node "VP".toList [.node "V".toList [.leaf 1], .node "P".toList [.leaf 2]]]

example : (∀ c ∈ exTree, Proper 3 c) ∧ (leavesL exTree).Nodup ∧
    removeemptynodes (.node "S".toList exTree) [some "*".toList, some "goes".toList, some "up".toList] =
      some (.node "S".toList [.node "VP".toList [.node "V".toList [.leaf 0], .node "P".toList [.leaf 1]]],
        [some "goes".toList, some "up".toList]) := by
  refine ⟨?_, by decide +kernel, by decide +kernel⟩
  intro c hc
  simp only [exTree, List.mem_cons, List.not_mem_nil, or_false] at hc
  rcases hc with rfl | rfl
  · exact .phrase _ _ _ (.preterminal _ _ (by omega)) (by simp)
  · refine .phrase _ _ _ (.preterminal _ _ (by omega)) ?_
    intro d hd
    simp at hd; subst hd
    exact .preterminal _ _ (by omega)

end Disco.RmTerm
