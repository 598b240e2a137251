import Verif.Trees.MergeDisc
/-!
# C79: making trees continuous: `raisediscnodes` and `canonicallyorderedtree` (treetransforms.py:557-615)

A label carries the attribute `type` as one bit, `type == HEAD`. The attribute `source` is left out. Labels are strings without a newline
(as in `MergeDisc`). `none` stands for an exception.
-/
namespace Disco.Raise
open PTree MinSort SplitDisc

/-- Label and `node.type == HEAD`. -/
abbrev A := Str × Bool

/-- `isinstance(a, Tree) and a.type == HEAD`. -/
def isHead : PTree A → Bool
  | .leaf _ => false
  | .node l _ => l.2

/-- What a child is replaced with in `splitdiscnodes` (treetransforms.py:504-518), `markorigin=False`. The children of `child` have been
taken away (507) when it is asked whether it has a head (512-513). -/
def splitChild : PTree A → Option (List (PTree A))
  | .leaf i => some [.leaf i]
  | .node l cs =>
    if isdisc (.node l cs) then
      (contsets cs).map (·.map (fun s => .node (newlabel false l.1 0, l.2 && ([] : List (PTree A)).any isHead) s))
    else some [.node l cs]

mutual
/-- The loop of `splitdiscnodes` (treetransforms.py:501-518). -/
def splitT : PTree A → Option (PTree A)
  | .leaf i => some (.leaf i)
  | .node l cs => do
    let ds ← splitTL cs
    let es ← ds.mapM splitChild
    pure (.node l es.flatten)
/-- On lists. -/
def splitTL : List (PTree A) → Option (List (PTree A))
  | [] => some []
  | c :: cs => do
    let d ← splitT c
    let ds ← splitTL cs
    pure (d :: ds)
end

/-- The test for head information (treetransforms.py:568-570) at one node. -/
def noHead (x : PTree A) : Bool := x.children.all (fun a => a.isNode && !isHead a)

/-- `any(a.type == HEAD for a in child)` (treetransforms.py:582); a terminal has no attribute `type`. -/
def anyHead : List (PTree A) → Option Bool
  | [] => some false
  | .leaf _ :: _ => none
  | .node l _ :: cs => if l.2 then some true else anyHead cs

/-- What a child with a split label becomes (treetransforms.py:582-588). -/
def dissolveSplit (base : Str) (h : Bool) (cs : List (PTree A)) : Bool → List (PTree A)
  | true => [.node (base, h) cs]
  | false => cs

/-- What a child becomes (treetransforms.py:575-588). -/
def dissolve : PTree A → Option (List (PTree A))
  | .leaf i => some [.leaf i]
  | .node l cs => match MergeDisc.splitLabel l.1 with
    | none => some [.node l cs]
    | some (base, _) => (anyHead cs).map (dissolveSplit base l.2 cs)

mutual
/-- The second loop of `raisediscnodes` (treetransforms.py:572-588). -/
def raiseT : PTree A → Option (PTree A)
  | .leaf i => some (.leaf i)
  | .node l cs => do
    let ds ← raiseTL cs
    let es ← ds.mapM dissolve
    pure (.node l es.flatten)
/-- On lists. -/
def raiseTL : List (PTree A) → Option (List (PTree A))
  | [] => some []
  | c :: cs => do
    let d ← raiseT c
    let ds ← raiseTL cs
    pure (d :: ds)
end

/-- `raisediscnodes(tree)` (treetransforms.py:557-590). -/
def raisediscnodes (t : PTree A) : Option (PTree A) :=
  if (subtrees t).any noHead then none   -- ValueError
  else do
    let s ← splitT t
    let u ← Canon.canonicalize s
    raiseT u

/-! ### Specification -/

/-- Every constituent has a terminal or a head among its children. -/
def Spec.HasHeads (t : PTree A) : Prop := ∀ x ∈ subtrees t, ∃ c ∈ x.children, c.isNode = false ∨ isHead c = true

/-- No label has an asterisk. -/
def Spec.NoStar (t : PTree A) : Prop := ∀ l cs, .node l cs ∈ subtrees t → '*' ∉ l.1

/-- Label and terminals of a constituent. -/
def Spec.bracket : PTree A → Str × List Nat
  | .leaf i => ([], [i])
  | .node l cs => (l.1, sortNat (leavesL cs))

/-- A head child that is continuous. -/
def Spec.contHead (c : PTree A) : Bool := isHead c && decide ((Spec.runs (sortNat c.leaves)).length ≤ 1)

/-- What becomes of a constituent: a continuous one stays; of a discontinuous one, the runs stay that contain a continuous head child. -/
def Spec.kept : PTree A → List (Str × List Nat)
  | .leaf _ => []
  | .node l cs =>
    let rs := Spec.runs (sortNat (leavesL cs))
    if rs.length ≤ 1 then rs.map (fun r => (l.1, r))
    else (rs.filter (fun r => cs.any (fun c => Spec.contHead c && c.leaves.all (fun i => decide (i ∈ r))))).map (fun r => (l.1, r))

open Spec

/-! ### Labels -/

theorem splitLabel_star {l : Str} (h : '*' ∉ l) : MergeDisc.splitLabel (newlabel false l 0) = some (l, none) := by
  rw [newlabel, if_neg (by simp)]
  induction l with
  | nil => decide
  | cons c cs ih =>
    simp only [List.mem_cons, not_or] at h
    rw [List.cons_append, MergeDisc.splitLabel, ih h.2]

/-! ### The second loop -/

/-- What remains of a constituent after the second loop. -/
def keepBr : PTree A → List (Str × List Nat)
  | .leaf _ => []
  | .node l cs => match MergeDisc.splitLabel l.1 with
    | none => [(l.1, sortNat (leavesL cs))]
    | some (base, _) => if cs.any isHead then [(base, sortNat (leavesL cs))] else []

/-- A constituent with a split label is not a head and has no terminals as children. -/
def Good : PTree A → Prop
  | .leaf _ => True
  | .node l cs => MergeDisc.splitLabel l.1 = none ∨ (l.2 = false ∧ ∀ c ∈ cs, c.isNode = true)

theorem anyHead_eq (cs : List (PTree A)) (h : ∀ c ∈ cs, c.isNode = true) : anyHead cs = some (cs.any isHead) := by
  induction cs with
  | nil => rfl
  | cons c cs ih =>
    have ih := ih (fun x hx => h x (by simp [hx]))
    cases c with
    | leaf i => have := h (.leaf i) (by simp); simp [isNode] at this
    | node l ds =>
      rw [anyHead, ih]
      cases hl : l.2 <;> simp [isHead, hl]

theorem isHead_of_label {t u : PTree A} (h : t.label? = u.label?) : isHead t = isHead u := by
  cases t <;> cases u <;> simp_all [label?, isHead]

/-- One child in the second loop: `c` before, `v` after the loop has been through its descendants. -/
theorem dissolve_spec (c v : PTree A) (hg : Good c) (hl : v.leaves = c.leaves) (hlab : v.label? = c.label?) (hn : v.isNode = c.isNode)
    (hh : v.children.any isHead = c.children.any isHead)
    (hcn : (∀ x ∈ c.children, x.isNode = true) → ∀ x ∈ v.children, x.isNode = true)
    (hb : ((below v).map Spec.bracket).Perm ((below c).flatMap keepBr))
    (hc : ∀ x ∈ below v, ∃ y ∈ below c, x.leaves = y.leaves) :
    ∃ p, dissolve v = some p ∧ leavesL p = c.leaves ∧ p.any isHead = isHead c ∧ (c.isNode = true → ∀ x ∈ p, x.isNode = true) ∧
      ((subtreesL p).map Spec.bracket).Perm ((subtrees c).flatMap keepBr) ∧
      ∀ x ∈ subtreesL p, ∃ y ∈ subtrees c, x.leaves = y.leaves := by
  cases c with
  | leaf i =>
    cases v with
    | node l cs => simp [isNode] at hn
    | leaf j =>
      simp at hl; subst hl
      exact ⟨[.leaf j], rfl, by simp, rfl, by simp [isNode], by simp, by simp⟩
  | node l cs =>
    cases v with
    | leaf j => simp [isNode] at hn
    | node l' ds =>
      simp only [label?, Option.some.injEq] at hlab; subst hlab
      simp only [leaves_node] at hl
      simp only [children] at hh hcn
      simp only [below, children] at hb hc
      have hc' : ∀ x ∈ subtreesL ds, ∃ y ∈ subtrees (.node l' cs), x.leaves = y.leaves := by
        intro x hx
        obtain ⟨y, hy, he⟩ := hc x hx
        exact ⟨y, by rw [subtrees_node]; exact List.mem_cons_of_mem _ hy, he⟩
      rw [dissolve]
      rw [subtrees_node, List.flatMap_cons, keepBr]
      cases hs : MergeDisc.splitLabel l'.1 with
      | none =>
        refine ⟨[.node l' ds], rfl, by simp [hl], by simp [isHead], by simp [isNode], ?_, ?_⟩
        · simp only [subtreesL_cons, subtrees_node, subtreesL_nil, List.append_nil, List.map_cons, Spec.bracket, hl, List.singleton_append]
          exact List.Perm.cons _ hb
        · intro x hx
          simp only [subtreesL_cons, subtrees_node, subtreesL_nil, List.append_nil, List.mem_cons] at hx
          rcases hx with rfl | hx
          · exact ⟨_, List.mem_cons_self, by simp [hl]⟩
          · obtain ⟨y, hy, he⟩ := hc x hx
            exact ⟨y, List.mem_cons_of_mem _ hy, he⟩
      | some q =>
        obtain ⟨base, part⟩ := q
        rcases hg with hg | ⟨hg1, hg2⟩
        · rw [hs] at hg; simp at hg
        · have hdn := hcn hg2
          simp only
          rw [anyHead_eq ds hdn, hh]
          cases ha : cs.any isHead with
          | true =>
            refine ⟨_, rfl, by simp [dissolveSplit, hl], by simp [dissolveSplit, isHead], by simp [dissolveSplit, isNode], ?_, ?_⟩
            · simp only [dissolveSplit, subtreesL_cons, subtrees_node, subtreesL_nil, List.append_nil, List.map_cons, Spec.bracket, hl,
                if_true, List.singleton_append]
              exact List.Perm.cons _ hb
            · intro x hx
              simp only [dissolveSplit, subtreesL_cons, subtrees_node, subtreesL_nil, List.append_nil, List.mem_cons] at hx
              rcases hx with rfl | hx
              · exact ⟨_, List.mem_cons_self, by simp [hl]⟩
              · obtain ⟨y, hy, he⟩ := hc x hx
                exact ⟨y, List.mem_cons_of_mem _ hy, he⟩
          | false =>
            refine ⟨_, rfl, by simp [dissolveSplit, hl], ?_, fun _ => hdn, ?_, ?_⟩
            · show ds.any isHead = _
              rw [hh, ha, isHead, hg1]
            · simpa [dissolveSplit] using hb
            · intro x hx
              obtain ⟨y, hy, he⟩ := hc x hx
              exact ⟨y, List.mem_cons_of_mem _ hy, he⟩

/-- The facts about the second loop. -/
structure Raised (t u : PTree A) : Prop where
  leaves : u.leaves = t.leaves
  label : u.label? = t.label?
  node : u.isNode = t.isNode
  head : u.children.any isHead = t.children.any isHead
  inner : (∀ x ∈ t.children, x.isNode = true) → ∀ x ∈ u.children, x.isNode = true
  brackets : ((below u).map Spec.bracket).Perm ((below t).flatMap keepBr)
  sub : ∀ x ∈ below u, ∃ y ∈ below t, x.leaves = y.leaves

theorem raiseL_spec (cs : List (PTree A)) (hg : ∀ c ∈ cs, Good c) (h : ∀ c ∈ cs, ∃ v, raiseT c = some v ∧ Raised c v) :
    ∃ ds es, raiseTL cs = some ds ∧ ds.mapM dissolve = some es ∧ leavesL es.flatten = leavesL cs ∧ es.flatten.any isHead = cs.any isHead ∧
      ((∀ x ∈ cs, x.isNode = true) → ∀ x ∈ es.flatten, x.isNode = true) ∧
      ((subtreesL es.flatten).map Spec.bracket).Perm ((subtreesL cs).flatMap keepBr) ∧
      ∀ x ∈ subtreesL es.flatten, ∃ y ∈ subtreesL cs, x.leaves = y.leaves := by
  induction cs with
  | nil => exact ⟨[], [], rfl, rfl, by simp, by simp, by simp, by simp, by simp⟩
  | cons c cs ih =>
    obtain ⟨ds, es, h1, h2, h3, h4, h5, h6, h7⟩ := ih (fun x hx => hg x (by simp [hx])) (fun x hx => h x (by simp [hx]))
    obtain ⟨v, hv, hr⟩ := h c (by simp)
    obtain ⟨p, p1, p2, p3, p4, p5, p6⟩ := dissolve_spec c v (hg c (by simp)) hr.leaves hr.label hr.node hr.head hr.inner hr.brackets hr.sub
    refine ⟨v :: ds, p :: es, by rw [raiseTL, hv, h1]; rfl, by simp [p1, h2], ?_, ?_, ?_, ?_, ?_⟩
    · rw [List.flatten_cons, leavesL_append, p2, h3, leavesL_cons]
    · rw [List.flatten_cons, List.any_append, p3, h4, List.any_cons]
    · intro hn x hx
      rw [List.flatten_cons, List.mem_append] at hx
      rcases hx with hx | hx
      · exact p4 (hn c (by simp)) x hx
      · exact h5 (fun x hx => hn x (by simp [hx])) x hx
    · rw [List.flatten_cons, subtreesL_append, List.map_append, subtreesL_cons, List.flatMap_append]
      exact p5.append h6
    · intro x hx
      rw [List.flatten_cons, subtreesL_append, List.mem_append] at hx
      rw [subtreesL_cons]
      rcases hx with hx | hx
      · obtain ⟨y, hy, he⟩ := p6 x hx; exact ⟨y, List.mem_append_left _ hy, he⟩
      · obtain ⟨y, hy, he⟩ := h7 x hx; exact ⟨y, List.mem_append_right _ hy, he⟩

theorem raiseT_spec (t : PTree A) (hg : ∀ x ∈ below t, Good x) : ∃ u, raiseT t = some u ∧ Raised t u := by
  induction t using PTree.ind with
  | hleaf i => exact ⟨.leaf i, rfl, rfl, rfl, rfl, rfl, fun h => h, by simp [below, children], by simp [below, children]⟩
  | hnode l cs ih =>
    have hgc : ∀ c ∈ cs, Good c := by
      intro c hc
      cases c with
      | leaf i => trivial
      | node l' ds => exact hg _ (mem_subtreesL.2 ⟨_, hc, by simp⟩)
    obtain ⟨ds, es, h1, h2, h3, h4, h5, h6, h7⟩ := raiseL_spec cs hgc (fun c hc => ih c hc (by
      intro x hx
      refine hg x (mem_subtreesL.2 ⟨c, hc, ?_⟩)
      cases c with
      | leaf i => simp [below, children] at hx
      | node l' ds => rw [subtrees_node]; exact List.mem_cons_of_mem _ hx))
    exact ⟨.node l es.flatten, by rw [raiseT, h1]; simp [h2], by simpa using h3, rfl, rfl, h4, h5, h6, h7⟩

/-! ### Sorting sisters does not change what remains -/

theorem canon_children (l : A) (cs : List (PTree A)) (h : WF (.node l cs)) : canon (.node l cs) = .node l ((sortMin cs).map canon) :=
  canon_node l cs h.noEmpty h.nodup

theorem any_head_canon (cs : List (PTree A)) : ((sortMin cs).map canon).any isHead = cs.any isHead := by
  have h1 : (cs.map canon).any isHead = cs.any isHead := by
    rw [List.any_map]
    congr 1
    funext c
    exact isHead_of_label (canon_label c)
  rw [← h1]
  exact ((sortMin_perm cs).map canon).any_eq

theorem leavesL_canon (cs : List (PTree A)) (hnd : (leavesL cs).Nodup) : sortNat (leavesL ((sortMin cs).map canon)) = sortNat (leavesL cs) := by
  have hp : (leavesL ((sortMin cs).map canon)).Perm (leavesL cs) := by
    refine (leavesL_perm ((sortMin_perm cs).map canon)).trans ?_
    induction cs with
    | nil => simp
    | cons c cs ih =>
      rw [List.map_cons, leavesL_cons, leavesL_cons]
      rw [leavesL_cons, List.nodup_append] at hnd
      exact (canon_leaves_perm c).append (ih hnd.2.1)
  exact sortNat_eq (hp.nodup_iff.2 hnd) (hp.trans (sortNat_perm _).symm) (sortNat_sorted hnd)

theorem keepBr_canon (x : PTree A) (h : WF x) : keepBr (canon x) = keepBr x := by
  cases x with
  | leaf i => simp [canon]
  | node l cs =>
    have hnd := h.nodup
    rw [leaves_node] at hnd
    rw [canon_children l cs h, keepBr, keepBr, any_head_canon, leavesL_canon cs hnd]

theorem keep_canon (t : PTree A) : ∀ (_ : WF t), ((subtrees (canon t)).flatMap keepBr).Perm ((subtrees t).flatMap keepBr) := by
  induction t using PTree.ind with
  | hleaf i => intro _; simp [canon]
  | hnode l cs ih =>
    intro h
    have hk := keepBr_canon _ h
    rw [canon_children l cs h] at hk ⊢
    rw [subtrees_node, subtrees_node, List.flatMap_cons, List.flatMap_cons, hk]
    refine List.Perm.append_left _ ?_
    have hp : (subtreesL ((sortMin cs).map canon)).Perm (subtreesL (cs.map canon)) := by
      rw [subtreesL_eq_flatMap, subtreesL_eq_flatMap]
      exact ((sortMin_perm cs).map canon).flatMap_right _
    refine (hp.flatMap_right _).trans ?_
    have ih' : ∀ c ∈ cs, ((subtrees (canon c)).flatMap keepBr).Perm ((subtrees c).flatMap keepBr) := fun c hc => ih c hc (h.child hc)
    clear ih h hk hp
    induction cs with
    | nil => simp
    | cons c cs ih2 =>
      rw [List.map_cons, subtreesL_cons, subtreesL_cons, List.flatMap_append, List.flatMap_append]
      exact (ih' c (by simp)).append (ih2 (fun x hx => ih' x (by simp [hx])))

theorem keep_below_canon (t : PTree A) (h : WF t) : ((below (canon t)).flatMap keepBr).Perm ((below t).flatMap keepBr) := by
  cases t with
  | leaf i => simp [canon, below, children]
  | node l cs =>
    have h1 := keep_canon _ h
    have hk := keepBr_canon _ h
    rw [canon_children l cs h] at h1 hk ⊢
    rw [subtrees_node, subtrees_node, List.flatMap_cons, List.flatMap_cons, hk] at h1
    exact (List.perm_append_left_iff _).1 h1

theorem WF.sub {t x : PTree A} (h : WF t) (hx : x ∈ subtrees t) : WF x := by
  induction t using PTree.ind with
  | hleaf i => simp at hx
  | hnode l cs ih =>
    rw [subtrees_node, List.mem_cons] at hx
    rcases hx with rfl | hx
    · exact h
    · obtain ⟨c, hc, hx⟩ := mem_subtreesL.1 hx
      exact ih c hc (h.child hc) hx

theorem good_canon {x : PTree A} (hw : WF x) (h : Good x) : Good (canon x) := by
  cases x with
  | leaf i => simp [canon, Good]
  | node l cs =>
    rw [canon_children l cs hw]
    rcases h with h | ⟨h1, h2⟩
    · exact Or.inl h
    · refine Or.inr ⟨h1, ?_⟩
      intro c hc
      obtain ⟨d, hd, rfl⟩ := List.mem_map.1 hc
      rw [canon_isNode]
      exact h2 d ((sortMin_perm cs).subset hd)

theorem good_below_canon {t : PTree A} (hw : WF t) (h : ∀ x ∈ below t, Good x) : ∀ x ∈ below (canon t), Good x := by
  cases t with
  | leaf i => simp [canon, below, children]
  | node l cs =>
    rw [canon_children l cs hw]
    intro x hx
    obtain ⟨e, he, hx⟩ := mem_subtreesL.1 hx
    obtain ⟨c, hc, rfl⟩ := List.mem_map.1 he
    obtain ⟨y, hy, rfl⟩ := mem_subtrees_canon c x hx
    have hc := (sortMin_perm cs).subset hc
    refine good_canon (WF.sub (hw.child hc) hy) (h y (mem_subtreesL.2 ⟨c, hc, hy⟩))

/-! ### The first loop -/

/-- The sets of terminals of the head children. -/
def heads (t : PTree A) : List (List Nat) := (t.children.filter isHead).map (fun e => sortNat e.leaves)

/-- The sets of terminals of the continuous head children. -/
def contHeads (t : PTree A) : List (List Nat) := (t.children.filter Spec.contHead).map (fun e => sortNat e.leaves)

/-- `Spec.kept` in terms of sets of terminals. -/
def keptWith (l : Str) (ls : List Nat) (hs : List (List Nat)) : List (Str × List Nat) :=
  let rs := Spec.runs ls
  if rs.length ≤ 1 then rs.map (fun r => (l, r))
  else (rs.filter (fun r => hs.any (fun s => s.all (fun i => decide (i ∈ r))))).map (fun r => (l, r))

theorem all_sortNat (xs r : List Nat) : (sortNat xs).all (fun i => decide (i ∈ r)) = xs.all (fun i => decide (i ∈ r)) :=
  (sortNat_perm xs).all_eq

theorem kept_eq (l : A) (cs : List (PTree A)) : Spec.kept (.node l cs) = keptWith l.1 (sortNat (leavesL cs)) (contHeads (.node l cs)) := by
  rw [Spec.kept, keptWith, contHeads, children]
  have : ∀ r : List Nat, cs.any (fun c => Spec.contHead c && c.leaves.all (fun i => decide (i ∈ r))) =
      ((cs.filter Spec.contHead).map (fun e => sortNat e.leaves)).any (fun s => s.all (fun i => decide (i ∈ r))) := by
    intro r
    induction cs with
    | nil => rfl
    | cons c cs ih =>
      rw [List.any_cons, ih, List.filter_cons]
      cases hc : Spec.contHead c <;> simp [all_sortNat]
  simp only [this]

theorem keptWith_perm (l : Str) (ls : List Nat) {hs hs' : List (List Nat)} (h : hs.Perm hs') : keptWith l ls hs = keptWith l ls hs' := by
  rw [keptWith, keptWith]
  have : ∀ r : List Nat, hs.any (fun s => s.all (fun i => decide (i ∈ r))) = hs'.any (fun s => s.all (fun i => decide (i ∈ r))) :=
    fun r => h.any_eq
  simp only [this]

theorem runs_le_one_iff {c : PTree A} (hnd : c.leaves.Nodup) (hne : c.leaves ≠ []) :
    (Spec.runs (sortNat c.leaves)).length ≤ 1 ↔ isdisc c = false := by
  cases c with
  | leaf i => simp [isdisc, sortNat, stableSort, insertSorted, Spec.runs]
  | node l cs =>
    rw [leaves_node]
    rw [cont_iff_runs hnd hne]
    constructor
    · intro hle
      have hf := runs_flatten (sortNat (leavesL cs))
      have hne' : sortNat (leavesL cs) ≠ [] := by
        intro h0
        have := sortNat_perm (leavesL cs)
        rw [h0] at this
        exact hne (by simpa using (List.nil_perm.1 this))
      match hq : Spec.runs (sortNat (leavesL cs)) with
      | [] => rw [hq] at hf; exact absurd hf.symm hne'
      | [r] => rw [hq] at hf; simp at hf; rw [hf]
      | _ :: _ :: _ => rw [hq] at hle; simp at hle
    · intro h; rw [h]; simp

theorem contHead_iff {c : PTree A} (hnd : c.leaves.Nodup) (hne : c.leaves ≠ []) : Spec.contHead c = (isHead c && !isdisc c) := by
  rw [Spec.contHead]
  have := runs_le_one_iff hnd hne
  cases hd : isdisc c <;> simp [hd] at this ⊢ <;> simp [this]

theorem subtreesL_groups (l : A) (gs : List (List (PTree A))) :
    (subtreesL (gs.map (fun g => PTree.node l g))).Perm (gs.map (fun g => PTree.node l g) ++ subtreesL gs.flatten) := by
  have := subtreesL_nodes gs (fun _ => l)
  have he : gs.mapIdx (fun _ g => PTree.node l g) = gs.map (fun g => PTree.node l g) := by apply List.ext_getElem <;> simp
  rwa [he] at this

theorem leavesL_groups (l : A) (gs : List (List (PTree A))) : leavesL (gs.map (fun g => PTree.node l g)) = leavesL gs.flatten := by
  have := leavesL_nodes gs (fun _ => l)
  have he : gs.mapIdx (fun _ g => PTree.node l g) = gs.map (fun g => PTree.node l g) := by apply List.ext_getElem <;> simp
  rwa [he] at this

/-- One child in the first loop. -/
structure ChildSplit (d : PTree A) (p : List (PTree A)) : Prop where
  leaves : (leavesL p).Perm d.leaves
  ok : ∀ e ∈ p, Canon.Spec.Preterminals e ∧ Canon.Spec.NoEmpty e ∧ AllCont e ∧ e.isNode = d.isNode
  leaf : d.isNode = false → p = [d]
  good : ∀ x ∈ subtreesL p, Good x
  keep : ((subtreesL p).flatMap keepBr).Perm (Spec.kept d ++ (below d).flatMap keepBr)
  heads : (p.filter isHead).map (fun e => sortNat e.leaves) = if isHead d && !isdisc d then [sortNat d.leaves] else []

theorem splitChild_spec (d : PTree A) (h : WF d) (hi : InnerCont d) (hg : ∀ x ∈ below d, Good x)
    (hl : ∀ l, d.label? = some l → '*' ∉ l.1) : ∃ p, splitChild d = some p ∧ ChildSplit d p := by
  cases d with
  | leaf i =>
    refine ⟨[.leaf i], rfl, by simp, ?_, fun _ => rfl, by simp, by simp [Spec.kept, below, children], by simp [isHead]⟩
    intro e he
    simp only [List.mem_singleton] at he
    subst he
    exact ⟨h.pre, h.noEmpty, by simp [AllCont], rfl⟩
  | node l cs =>
    have hl := hl l rfl
    by_cases hd : isdisc (.node l cs) = true
    · have hr := ranges_of h hi
      have hn := disc_children h hd
      have hperm := sortMin_perm cs
      have hnl : ¬ (Spec.runs (sortNat (leavesL cs))).length ≤ 1 := by
        intro hle
        have := (runs_le_one_iff h.nodup h.ne).1 (by simpa using hle)
        rw [hd] at this; simp at this
      refine ⟨(grp (sortMin cs)).map (fun s => .node (newlabel false l.1 0, l.2 && ([] : List (PTree A)).any isHead) s), ?_, ?_, ?_,
        by simp [isNode], ?_, ?_, ?_⟩
      · rw [splitChild, if_pos hd, contsets_eq h.sis hn hr]; rfl
      · rw [leavesL_groups, grp_flatten, leaves_node]
        exact leavesL_perm hperm
      · intro e he
        obtain ⟨g, hg, rfl⟩ := List.mem_map.1 he
        have hsub : ∀ c ∈ g, c ∈ cs := fun c hc => hperm.subset (mem_grp hg c hc)
        refine ⟨preterminals_node (fun c hc => hn c (hsub c hc)) (fun c hc => (h.child (hsub c hc)).pre),
          noEmpty_node (grp_ne _ g hg) (fun c hc => (h.child (hsub c hc)).noEmpty), allCont_node ?_ (fun c hc => hi c (hsub c hc)), rfl⟩
        obtain ⟨a, b, hadj⟩ := grp_adj _ (fun c hc => hr c (hperm.subset hc)) g hg
        exact cont_of_range (a := a) (n := b - a) (by rw [leaves_node]; exact hadj.range.2)
      · intro x hx
        have hx := (subtreesL_groups _ _).subset hx
        rw [List.mem_append, grp_flatten] at hx
        rcases hx with hx | hx
        · obtain ⟨g, hg', rfl⟩ := List.mem_map.1 hx
          exact Or.inr ⟨by simp, fun c hc => hn c (hperm.subset (mem_grp hg' c hc))⟩
        · obtain ⟨c, hc, hx⟩ := mem_subtreesL.1 hx
          exact hg x (mem_subtreesL.2 ⟨c, hperm.subset hc, hx⟩)
      · refine ((subtreesL_groups _ _).flatMap_right _).trans ?_
        rw [List.flatMap_append, grp_flatten]
        refine List.Perm.append (.of_eq ?_) ?_
        · rw [Spec.kept, if_neg hnl, runs_grp h hi]
          have hstep : ∀ g ∈ grp (sortMin cs), keepBr (.node (newlabel false l.1 0, l.2 && ([] : List (PTree A)).any isHead) g) =
              if cs.any (fun c => Spec.contHead c && c.leaves.all (fun i => decide (i ∈ sortNat (leavesL g)))) then
                [(l.1, sortNat (leavesL g))] else [] := by
            intro g hg'
            have hsub : ∀ c ∈ g, c ∈ cs := fun c hc => hperm.subset (mem_grp hg' c hc)
            have hany : g.any isHead = cs.any (fun c => Spec.contHead c && c.leaves.all (fun i => decide (i ∈ sortNat (leavesL g)))) := by
              rw [Bool.eq_iff_iff, List.any_eq_true, List.any_eq_true]
              constructor
              · rintro ⟨c, hc, hh⟩
                refine ⟨c, hsub c hc, ?_⟩
                have hw := h.child (hsub c hc)
                rw [Bool.and_eq_true, contHead_iff hw.nodup hw.ne, hh, (isdisc_iff hw.nodup hw.ne).2, List.all_eq_true]
                · refine ⟨rfl, fun i hi => ?_⟩
                  rw [decide_eq_true_eq, (sortNat_perm _).mem_iff, mem_leavesL]
                  exact ⟨c, hc, hi⟩
                · have := hi c (hsub c hc)
                  cases c with
                  | leaf i => have := hn _ (hsub _ hc); simp [isNode] at this
                  | node l' ds => exact this.cont
              · rintro ⟨c, hc, hh⟩
                have hw := h.child hc
                rw [Bool.and_eq_true, contHead_iff hw.nodup hw.ne, Bool.and_eq_true, List.all_eq_true] at hh
                obtain ⟨⟨h1, _⟩, h2⟩ := hh
                have hm := (mn_spec hw.ne).1
                have := h2 _ hm
                rw [decide_eq_true_eq, (sortNat_perm _).mem_iff, mem_leavesL] at this
                obtain ⟨e, he, hme⟩ := this
                have := h.sis.disjoint hc (hsub e he) hm hme
                subst this
                exact ⟨c, he, h1⟩
            rw [keepBr, splitLabel_star hl, hany]
          clear hnl hd
          generalize grp (sortMin cs) = gs at hstep
          induction gs with
          | nil => simp
          | cons g gs ih =>
            rw [List.map_cons, List.flatMap_cons, hstep g (by simp), ih (fun x hx => hstep x (by simp [hx])), List.map_cons, List.filter_cons]
            by_cases hb : cs.any (fun c => Spec.contHead c && c.leaves.all (fun i => decide (i ∈ sortNat (leavesL g)))) = true
            · rw [if_pos hb, if_pos hb]; simp
            · rw [if_neg hb, if_neg hb]; simp
        · rw [below, children]
          refine List.Perm.flatMap_right _ ?_
          rw [subtreesL_eq_flatMap, subtreesL_eq_flatMap]
          exact hperm.flatMap_right _
      · rw [hd]
        simp only [Bool.not_true, Bool.and_false, Bool.false_eq_true, if_false]
        rw [List.map_eq_nil_iff, List.filter_eq_nil_iff]
        intro e he
        obtain ⟨g, _, rfl⟩ := List.mem_map.1 he
        simp [isHead]
    · have hd0 : isdisc (.node l cs) = false := by simpa using hd
      have hgood : Good (.node l cs) := Or.inl (MergeDisc.splitLabel_none hl)
      refine ⟨[.node l cs], by rw [splitChild, if_neg hd], by simp, ?_, fun _ => rfl, ?_, ?_, ?_⟩
      · intro e he
        simp only [List.mem_singleton] at he
        subst he
        exact ⟨h.pre, h.noEmpty, allCont_node ((isdisc_iff h.nodup h.ne).1 hd0) hi, rfl⟩
      · intro x hx
        simp only [subtreesL_cons, subtrees_node, subtreesL_nil, List.append_nil, List.mem_cons] at hx
        rcases hx with rfl | hx
        · exact hgood
        · exact hg x hx
      · have := (cont_iff_runs h.nodup h.ne).1 hd0
        rw [Spec.kept, this]
        simp [keepBr, below, children, MergeDisc.splitLabel_none hl]
      · rw [hd0]
        cases hh : isHead (.node l cs) <;> simp [hh]

/-- The facts about the first loop. -/
structure Split (t s : PTree A) : Prop where
  wf : WF s
  inner : InnerCont s
  leaves : s.leaves.Perm t.leaves
  node : s.isNode = t.isNode
  label : s.label? = t.label?
  good : ∀ x ∈ below s, Good x
  keep : ((below s).flatMap keepBr).Perm ((below t).flatMap Spec.kept)
  heads : heads s = contHeads t

theorem kept_split {c s : PTree A} (hc : WF c) (h : Split c s) : Spec.kept s = Spec.kept c := by
  have hleaf := h.leaves
  have hnode := h.node
  have hlab := h.label
  have hh := h.heads
  have hw := h.wf
  have hi := h.inner
  cases c with
  | leaf i => cases s with
    | leaf j => rfl
    | node l cs => simp [isNode] at hnode
  | node l cs => cases s with
    | leaf j => simp [isNode] at hnode
    | node l' ds =>
      simp only [label?, Option.some.injEq] at hlab
      subst hlab
      simp only [leaves_node] at hleaf
      have hnd := hw.nodup
      rw [leaves_node] at hnd
      rw [kept_eq, kept_eq, ← hh, sortNat_eq hnd (hleaf.trans (sortNat_perm _).symm) (sortNat_sorted (hleaf.nodup_iff.1 hnd))]
      congr 1
      rw [contHeads, Raise.heads, children]
      congr 1
      apply List.filter_congr
      intro e he
      have hwe := hw.child he
      rw [contHead_iff hwe.nodup hwe.ne]
      have := hi e he
      cases e with
      | leaf i => simp [isHead]
      | node l2 ds2 => rw [(isdisc_iff hwe.nodup hwe.ne).2 this.cont]; simp

theorem isdisc_split {c s : PTree A} (h : Split c s) : isdisc s = isdisc c :=
  isdisc_perm h.leaves h.node h.wf.nodup

theorem isHead_split {c s : PTree A} (h : Split c s) : isHead s = isHead c := isHead_of_label h.label

theorem splitL_spec (cs : List (PTree A)) (hwc : ∀ c ∈ cs, WF c) (hst : ∀ c ∈ cs, ∀ l, c.label? = some l → '*' ∉ l.1)
    (h : ∀ c ∈ cs, ∃ s, splitT c = some s ∧ Split c s) :
    ∃ ds es, splitTL cs = some ds ∧ ds.mapM splitChild = some es ∧ (leavesL es.flatten).Perm (leavesL cs) ∧
      (∀ e ∈ es.flatten, Canon.Spec.Preterminals e ∧ Canon.Spec.NoEmpty e ∧ AllCont e) ∧
      ((∀ c ∈ cs, c.isNode) → ∀ e ∈ es.flatten, e.isNode) ∧ (∀ i, cs = [.leaf i] → es.flatten = [.leaf i]) ∧
      (∀ x ∈ subtreesL es.flatten, Good x) ∧
      ((subtreesL es.flatten).flatMap keepBr).Perm ((subtreesL cs).flatMap Spec.kept) ∧
      (es.flatten.filter isHead).map (fun e => sortNat e.leaves) = (cs.filter Spec.contHead).map (fun e => sortNat e.leaves) := by
  induction cs with
  | nil => exact ⟨[], [], rfl, rfl, by simp, by simp, by simp, by simp, by simp, by simp, by simp⟩
  | cons c cs ih =>
    obtain ⟨ds, es, h1, h2, h3, h4, h5, h6, h7, h8, h9⟩ := ih (fun x hx => hwc x (by simp [hx])) (fun x hx => hst x (by simp [hx]))
      (fun x hx => h x (by simp [hx]))
    obtain ⟨s, hs, hsp⟩ := h c (by simp)
    have hw := hwc c (by simp)
    obtain ⟨p, hp, q⟩ := splitChild_spec s hsp.wf hsp.inner hsp.good (by rw [hsp.label]; exact hst c (by simp))
    refine ⟨s :: ds, p :: es, by rw [splitTL, hs, h1]; rfl, by simp [hp, h2], ?_, ?_, ?_, ?_, ?_, ?_, ?_⟩
    · rw [List.flatten_cons, leavesL_append, leavesL_cons]
      exact (q.leaves.trans hsp.leaves).append h3
    · intro e he
      rw [List.flatten_cons, List.mem_append] at he
      rcases he with he | he
      · obtain ⟨a, b, c, _⟩ := q.ok e he; exact ⟨a, b, c⟩
      · exact h4 e he
    · intro hn e he
      rw [List.flatten_cons, List.mem_append] at he
      rcases he with he | he
      · rw [(q.ok e he).2.2.2, hsp.node]; exact hn c (by simp)
      · exact h5 (fun x hx => hn x (by simp [hx])) e he
    · intro i he
      injection he with he1 he2
      subst he1 he2
      rw [splitT] at hs
      injection hs with hs
      subst hs
      rw [splitTL] at h1
      injection h1 with h1
      subst h1
      simp only [List.mapM_nil, pure, Option.some.injEq] at h2
      subst h2
      rw [q.leaf rfl]; rfl
    · intro x hx
      rw [List.flatten_cons, subtreesL_append, List.mem_append] at hx
      rcases hx with hx | hx
      · exact q.good x hx
      · exact h7 x hx
    · rw [List.flatten_cons, subtreesL_append, List.flatMap_append, subtreesL_cons, List.flatMap_append]
      refine List.Perm.append (q.keep.trans ?_) h8
      rw [kept_split hw hsp]
      cases c with
      | leaf i =>
        rw [splitT] at hs
        injection hs with hs
        subst hs
        simp [Spec.kept, below, children]
      | node l' cs' =>
        rw [subtrees_node, List.flatMap_cons]
        exact hsp.keep.append_left _
    · rw [List.flatten_cons, List.filter_append, List.map_append, q.heads, h9, isHead_split hsp, isdisc_split hsp, List.filter_cons,
        contHead_iff hw.nodup hw.ne]
      cases hb : (isHead c && !isdisc c)
      · simp
      · simp only [if_true, List.map_cons, List.singleton_append]
        rw [sortNat_eq hsp.wf.nodup (hsp.leaves.trans (sortNat_perm _).symm) (sortNat_sorted hw.nodup)]

theorem NoStar.child {l : A} {cs : List (PTree A)} (h : NoStar (.node l cs)) {c : PTree A} (hc : c ∈ cs) : NoStar c :=
  fun l' cs' hx => h l' cs' (by rw [subtrees_node]; exact List.mem_cons_of_mem _ (mem_subtreesL.2 ⟨c, hc, hx⟩))

theorem NoStar.label {c : PTree A} (h : NoStar c) : ∀ l, c.label? = some l → '*' ∉ l.1 := by
  intro l hl
  cases c with
  | leaf i => simp [label?] at hl
  | node l' cs => simp only [label?, Option.some.injEq] at hl; subst hl; exact h l' cs (by simp)

theorem splitT_spec (t : PTree A) (h : WF t) (hst : NoStar t) : ∃ s, splitT t = some s ∧ Split t s := by
  induction t using PTree.ind with
  | hleaf i =>
    exact ⟨.leaf i, rfl, h, by simp [InnerCont, children], .rfl, rfl, rfl, by simp [below, children], by simp [below, children], rfl⟩
  | hnode l cs ih =>
    obtain ⟨ds, es, h1, h2, h3, h4, h5, h6, h7, h8, h9⟩ := splitL_spec cs (fun c hc => h.child hc)
      (fun c hc => NoStar.label (NoStar.child hst hc)) (fun c hc => ih c hc (h.child hc) (NoStar.child hst hc))
    have hlv : (PTree.node l es.flatten).leaves.Perm (PTree.node l cs).leaves := by
      rw [leaves_node, leaves_node]; exact h3
    have hwf : WF (.node l es.flatten) := by
      refine ⟨?_, ?_, hlv.nodup_iff.2 h.nodup⟩
      · rcases Canon.Preterminals.good h.pre with hg | ⟨i, hg⟩
        · exact preterminals_node (h5 hg) (fun e he => (h4 e he).1)
        · rw [h6 i hg]
          intro l' cs' hm
          simp only [subtrees_node, subtreesL_cons, subtrees_leaf, subtreesL_nil, List.append_nil, List.mem_singleton] at hm
          injection hm with _ hm
          exact Or.inr ⟨i, hm⟩
      · refine noEmpty_node ?_ (fun e he => (h4 e he).2.1)
        intro h0
        rw [h0] at hlv
        exact h.ne (List.nil_perm.1 (by simpa using hlv))
    exact ⟨.node l es.flatten, by rw [splitT, h1]; simp [h2], hwf, fun c hc => (h4 c hc).2.2, hlv, rfl, rfl, h7, h8, h9⟩

/-! ### C79, raising -/

theorem hasHeads_iff (t : PTree A) : (subtrees t).any noHead = false ↔ HasHeads t := by
  rw [List.any_eq_false, HasHeads]
  refine forall₂_congr (fun x _ => ?_)
  rw [noHead, Bool.not_eq_true, List.all_eq_false]
  refine exists_congr (fun c => and_congr_right (fun _ => ?_))
  cases c.isNode <;> cases isHead c <;> simp

/-- **C79, raising.** For every well-formed tree without asterisks in its labels, `raisediscnodes` raises an exception just when some
constituent has no head. Otherwise every constituent below the root of the result is continuous, the terminals of the result are those of
the tree from left to right, the root keeps its label, and the constituents of the result are: the continuous constituents, and, for each
discontinuous constituent, its runs of terminals that contain a continuous head child. -/
theorem C79_raise (t : PTree A) (h : WF t) (hst : NoStar t) :
    (¬ HasHeads t → raisediscnodes t = none) ∧
    (HasHeads t → ∃ u, raisediscnodes t = some u ∧ (∀ x ∈ below u, Cont x) ∧ u.leaves = sortNat t.leaves ∧ u.label? = t.label? ∧
      ((below u).map Spec.bracket).Perm ((below t).flatMap Spec.kept)) := by
  refine ⟨fun hh => ?_, fun hh => ?_⟩
  · rw [← hasHeads_iff, Bool.not_eq_false] at hh
    rw [raisediscnodes, if_pos hh]
  · obtain ⟨s, hs, q⟩ := splitT_spec t h hst
    obtain ⟨u, hu, r⟩ := raiseT_spec (canon s) (good_below_canon q.wf q.good)
    refine ⟨u, ?_, ?_, ?_, ?_, ?_⟩
    · rw [raisediscnodes, (hasHeads_iff t).2 hh, if_neg (by simp), hs]
      simp only [Option.bind_eq_bind, Option.bind_some]
      rw [canonicalize_eq s q.wf.pre]
      exact hu
    · intro x hx
      obtain ⟨y, hy, he⟩ := r.sub x hx
      have hwf := q.wf
      have hin := q.inner
      have hcy : Cont y := by
        cases s with
        | leaf i => simp [canon, below, children] at hy
        | node l cs =>
          rw [canon_children l cs hwf] at hy
          obtain ⟨e, hee, hy⟩ := mem_subtreesL.1 hy
          obtain ⟨c, hc, rfl⟩ := List.mem_map.1 hee
          exact allCont_canon (hin c ((sortMin_perm cs).subset hc)) y hy
      intro i hi j hj k h1 h2
      rw [he] at *
      exact hcy i hi j hj k h1 h2
    · rw [r.leaves]
      have h1 := canon_leaves_sorted s q.wf q.inner
      exact (sortNat_eq h.nodup ((canon_leaves_perm s).trans q.leaves).symm h1).symm
    · rw [r.label, canon_label, q.label]
    · exact r.brackets.trans ((keep_below_canon s q.wf).trans q.keep)

theorem mem_runs_of_mem {s : List Nat} {a : Nat} (h : a ∈ s) : ∃ r ∈ Spec.runs s, a ∈ r := by
  rw [← runs_flatten s, List.mem_flatten] at h
  exact h

theorem runs_closed (s : List Nat) : ∀ r ∈ Spec.runs s, ∀ a ∈ r, a + 1 ∈ s → s.Pairwise (· < ·) → a + 1 ∈ r := by
  induction s with
  | nil => simp [Spec.runs]
  | cons b s ih =>
    intro r hr a ha hs hp
    obtain ⟨hp1, hp2⟩ := List.pairwise_cons.1 hp
    by_cases hh : s.head? = some (b + 1)
    · obtain ⟨s', rfl⟩ : ∃ s', s = (b + 1) :: s' := by cases s <;> simp_all
      have hsub : ∀ r' ∈ Spec.runs ((b + 1) :: s'), ∀ x ∈ r', x ∈ (b + 1) :: s' := by
        intro r' hr' x hx
        rw [← runs_flatten ((b + 1) :: s')]
        exact List.mem_flatten.2 ⟨r', hr', hx⟩
      rw [Spec.runs] at hr
      cases hq : Spec.runs ((b + 1) :: s') with
      | nil => have := runs_flatten ((b + 1) :: s'); rw [hq] at this; simp at this
      | cons r0 rest =>
        have hf := runs_flatten ((b + 1) :: s')
        rw [hq] at hf hr ih hsub
        cases r0 with
        | nil => have := runs_ne ((b + 1) :: s') [] (by rw [hq]; simp); simp at this
        | cons b' r0 =>
          simp only [List.flatten_cons, List.cons_append, List.cons.injEq] at hf
          obtain ⟨rfl, hf⟩ := hf
          simp only [if_true, List.mem_cons] at hr
          rcases hr with rfl | hr
          · rw [List.mem_cons] at ha
            rcases ha with rfl | ha
            · simp
            · have hmem : a ∈ (b + 1) :: r0 := ha
              have ha2 : b < a := hp1 a (hsub _ (by simp) a hmem)
              have h1 : a + 1 ∈ (b + 1) :: s' := by
                rcases List.mem_cons.1 hs with h | h
                · omega
                · exact h
              exact List.mem_cons_of_mem _ (ih _ (by simp) a hmem h1 hp2)
          · have ha2 : b < a := hp1 a (hsub _ (by simp [hr]) a ha)
            have h1 : a + 1 ∈ (b + 1) :: s' := by
              rcases List.mem_cons.1 hs with h | h
              · omega
              · exact h
            exact ih r (by simp [hr]) a ha h1 hp2
    · rw [runs_cons_gap b s hh, List.mem_cons] at hr
      rcases hr with rfl | hr
      · simp only [List.mem_singleton] at ha
        subst ha
        exfalso
        rcases List.mem_cons.1 hs with h | h
        · omega
        · cases s with
          | nil => simp at h
          | cons c s =>
            have h3 := hp1 c (by simp)
            rcases List.mem_cons.1 h with h | h
            · subst h; simp at hh
            · have := (List.pairwise_cons.1 hp2).1 _ h; omega
      · have hm : a ∈ s := by rw [← runs_flatten s]; exact List.mem_flatten.2 ⟨r, hr, ha⟩
        have := hp1 a hm
        rcases List.mem_cons.1 hs with h | h
        · omega
        · exact ih r hr a ha h hp2

theorem runs_conv {s r : List Nat} (hr : r ∈ Spec.runs s) (hp : s.Pairwise (· < ·)) {a : Nat} (ha : a ∈ r) (n : Nat)
    (h : ∀ k, a ≤ k → k ≤ a + n → k ∈ s) : a + n ∈ r := by
  induction n with
  | zero => simpa using ha
  | succ n ih =>
    have := ih (fun k h1 h2 => h k h1 (by omega))
    exact runs_closed s r hr _ this (h (a + n + 1) (by omega) (by omega)) hp

/-- **C79, head.** When a constituent has a head child that is continuous, the result has a constituent with its label for the run of its
terminals that contains the head. -/
theorem C79_head (t : PTree A) (h : WF t) (hst : NoStar t) (hh : HasHeads t) (l : A) (cs : List (PTree A)) (hx : .node l cs ∈ below t)
    (c : PTree A) (hc : c ∈ cs) (hhead : isHead c = true) (hcont : Cont c) :
    ∃ u r, raisediscnodes t = some u ∧ r ∈ Spec.runs (sortNat (leavesL cs)) ∧ (∀ i ∈ c.leaves, i ∈ r) ∧ (l.1, r) ∈ (below u).map Spec.bracket := by
  obtain ⟨u, h1, _, _, _, h5⟩ := (C79_raise t h hst).2 hh
  have hwx : WF (.node l cs) := by
    cases t with
    | leaf i => simp [below, children] at hx
    | node l' cs' => exact WF.sub h (by rw [subtrees_node]; exact List.mem_cons_of_mem _ hx)
  have hw := hwx.child hc
  have hnd := hwx.nodup
  rw [leaves_node] at hnd
  have hin : ∀ i ∈ c.leaves, i ∈ sortNat (leavesL cs) := fun i hi => (sortNat_perm _).mem_iff.2 (mem_leavesL.2 ⟨c, hc, hi⟩)
  obtain ⟨r, hr, hm⟩ := mem_runs_of_mem (hin _ (mn_spec hw.ne).1)
  have hall : ∀ i ∈ c.leaves, i ∈ r := by
    intro i hi
    have hle := (mn_spec hw.ne).2 i hi
    have := runs_conv hr (sortNat_sorted hnd) hm (i - mn c) (fun k h1 h2 => hin k (hcont _ (mn_spec hw.ne).1 i hi k h1 (by omega)))
    rwa [Nat.add_sub_cancel' hle] at this
  refine ⟨u, r, h1, hr, hall, h5.symm.subset (List.mem_flatMap.2 ⟨_, hx, ?_⟩)⟩
  rw [Spec.kept]
  by_cases hle : (Spec.runs (sortNat (leavesL cs))).length ≤ 1
  · rw [if_pos hle]; exact List.mem_map.2 ⟨r, hr, rfl⟩
  · rw [if_neg hle]
    refine List.mem_map.2 ⟨r, List.mem_filter.2 ⟨hr, ?_⟩, rfl⟩
    rw [List.any_eq_true]
    refine ⟨c, hc, ?_⟩
    rw [Bool.and_eq_true, contHead_iff hw.nodup hw.ne, hhead, (isdisc_iff hw.nodup hw.ne).2 hcont, List.all_eq_true]
    exact ⟨rfl, fun i hi => by simpa using hall i hi⟩

/-! #### Examples -/

/-- The tree in the documentation of `raisediscnodes`. -/
def exTree : PTree A :=
  .node (['S'], false) [.node (['V','P'], false) [.node (['V','P'], false) [.node (['P','P'], false) [.node (['A'], true) [.leaf 0],
      .node (['T'], false) [.leaf 1], .node (['N'], false) [.leaf 2]], .node (['C'], false) [.leaf 4], .node (['V','V'], true) [.leaf 5]],
      .node (['V','I'], true) [.leaf 6]], .node (['V','M'], true) [.leaf 3]]

/-- A constituent whose head is discontinuous. -/
def exLost : PTree A :=
  .node (['S'], false) [.node (['V','P'], false) [.node (['V'], true) [.node (['A'], true) [.leaf 0], .node (['C'], false) [.leaf 2]],
    .node (['D'], false) [.leaf 4]], .node (['B'], true) [.leaf 1], .node (['E'], false) [.leaf 3]]

theorem exTree_ok : WF exTree ∧ NoStar exTree ∧ HasHeads exTree := by
  refine ⟨⟨?_, ?_, by decide⟩, ?_, ?_⟩
  · intro l cs h
    simp only [exTree, subtrees_node, subtreesL_cons, subtreesL_nil, subtrees_leaf, List.append_nil, List.nil_append, List.cons_append,
      List.mem_cons, List.not_mem_nil, or_false, node.injEq] at h
    rcases h with ⟨_, rfl⟩ | ⟨_, rfl⟩ | ⟨_, rfl⟩ | ⟨_, rfl⟩ | ⟨_, rfl⟩ | ⟨_, rfl⟩ | ⟨_, rfl⟩ | ⟨_, rfl⟩ | ⟨_, rfl⟩ | ⟨_, rfl⟩ | ⟨_, rfl⟩ <;>
      simp [isNode]
  · intro l h
    simp [exTree] at h
  · intro l cs h
    simp only [exTree, subtrees_node, subtreesL_cons, subtreesL_nil, subtrees_leaf, List.append_nil, List.nil_append, List.cons_append,
      List.mem_cons, List.not_mem_nil, or_false, node.injEq] at h
    rcases h with ⟨rfl, _⟩ | ⟨rfl, _⟩ | ⟨rfl, _⟩ | ⟨rfl, _⟩ | ⟨rfl, _⟩ | ⟨rfl, _⟩ | ⟨rfl, _⟩ | ⟨rfl, _⟩ | ⟨rfl, _⟩ | ⟨rfl, _⟩ | ⟨rfl, _⟩ <;>
      decide
  · exact (hasHeads_iff _).1 (by decide +kernel)

theorem exLost_ok : WF exLost ∧ NoStar exLost ∧ HasHeads exLost := by
  refine ⟨⟨?_, ?_, by decide⟩, ?_, ?_⟩
  · intro l cs h
    simp only [exLost, subtrees_node, subtreesL_cons, subtreesL_nil, subtrees_leaf, List.append_nil, List.nil_append, List.cons_append,
      List.mem_cons, List.not_mem_nil, or_false, node.injEq] at h
    rcases h with ⟨_, rfl⟩ | ⟨_, rfl⟩ | ⟨_, rfl⟩ | ⟨_, rfl⟩ | ⟨_, rfl⟩ | ⟨_, rfl⟩ | ⟨_, rfl⟩ | ⟨_, rfl⟩ <;>
      simp [isNode]
  · intro l h
    simp [exLost] at h
  · intro l cs h
    simp only [exLost, subtrees_node, subtreesL_cons, subtreesL_nil, subtrees_leaf, List.append_nil, List.nil_append, List.cons_append,
      List.mem_cons, List.not_mem_nil, or_false, node.injEq] at h
    rcases h with ⟨rfl, _⟩ | ⟨rfl, _⟩ | ⟨rfl, _⟩ | ⟨rfl, _⟩ | ⟨rfl, _⟩ | ⟨rfl, _⟩ | ⟨rfl, _⟩ | ⟨rfl, _⟩ <;>
      decide
  · exact (hasHeads_iff _).1 (by decide +kernel)

/-- The result in the documentation. -/
example : (raisediscnodes exTree).map (mapLabel Prod.fst) = some (.node ['S'] [.node ['P','P'] [.node ['A'] [.leaf 0], .node ['T'] [.leaf 1],
    .node ['N'] [.leaf 2]], .node ['V','M'] [.leaf 3], .node ['V','P'] [.node ['V','P'] [.node ['C'] [.leaf 4], .node ['V','V'] [.leaf 5]],
    .node ['V','I'] [.leaf 6]]]) := by
  decide +kernel

/-- **C79, disagreement.** Every constituent of this tree has a head, but the `VP`, whose head is discontinuous, is lost: none of its three
parts keeps the label, not even the one that contains the lexical head. -/
theorem C79_lost_disagreement : WF exLost ∧ NoStar exLost ∧ HasHeads exLost ∧
    ∃ u, raisediscnodes exLost = some u ∧ (∃ x ∈ below exLost, x.label? = some (['V','P'], false)) ∧
      ∀ r, (['V','P'], r) ∉ (below u).map Spec.bracket := by
  refine ⟨exLost_ok.1, exLost_ok.2.1, exLost_ok.2.2, ?_⟩
  have h : raisediscnodes exLost = some (.node (['S'], false) [.node (['V'], false) [.node (['A'], true) [.leaf 0]], .node (['B'], true) [.leaf 1],
    .node (['C'], false) [.leaf 2], .node (['E'], false) [.leaf 3], .node (['D'], false) [.leaf 4]]) := by decide +kernel
  refine ⟨_, h, ⟨_, by rw [exLost, below, children, subtreesL_cons, subtrees_node]; simp only [List.cons_append]; exact List.mem_cons_self, rfl⟩, ?_⟩
  intro r hr
  simp [below, children, Spec.bracket] at hr

/-! ### `canonicallyorderedtree` -/

section Reorder
variable {L W : Type}

/-- The sort key of `canonicalizealpino` (treetransforms.py:697-698): the last terminal, then all terminals. The function tag, which is
compared when sisters have the same terminals, is left out. -/
def alpKey (c : PTree L) : List Nat := c.leaves.getLastD 0 :: c.leaves

/-- One iteration of the loop of `canonicalizealpino` (treetransforms.py:696-698). A terminal has no method `leaves` (AttributeError), a
constituent without terminals has no last one (IndexError): `none`. -/
def sortAlp : List (PTree L) → Option (List (PTree L))
  | .node l ds :: c :: rest =>
    if (PTree.node l ds :: c :: rest).all (fun x => x.isNode && !x.leaves.isEmpty) then
      some (stableSort (fun a b => decide (alpKey a ≤ alpKey b)) (.node l ds :: c :: rest))
    else none
  | cs => some cs

mutual
/-- `canonicalizealpino(tree)` (treetransforms.py:690-699). -/
def alpino : PTree L → Option (PTree L)
  | .leaf i => some (.leaf i)
  | .node l cs => do
    let ds ← alpinoL cs
    return .node l (← sortAlp ds)
/-- On lists. -/
def alpinoL : List (PTree L) → Option (List (PTree L))
  | [] => some []
  | c :: cs => do
    let d ← alpino c
    let ds ← alpinoL cs
    return d :: ds
end

mutual
/-- The loop of `canonicallyorderedtree` (treetransforms.py:608-612), over the constituents in pre-order; `n` is the number of constituents
with a terminal as first child so far, `ns` is `newsent`. -/
def renum (sent : List W) : PTree L → Nat → List (Option W) → Option (PTree L × Nat × List (Option W))
  | .leaf i, n, ns => some (.leaf i, n, ns)
  | .node l (.leaf i :: rest), n, ns => do
    let w ← sent[i]?
    if n < ns.length then
      let (rest', n', ns') ← renumL sent rest (n + 1) (ns.set n (some w))
      return (.node l (.leaf n :: rest'), n', ns')
    else none
  | .node l cs, n, ns => do
    let (cs', n', ns') ← renumL sent cs n ns
    return (.node l cs', n', ns')
/-- On lists. -/
def renumL (sent : List W) : List (PTree L) → Nat → List (Option W) → Option (List (PTree L) × Nat × List (Option W))
  | [], n, ns => some ([], n, ns)
  | c :: cs, n, ns => do
    let (c', n', ns') ← renum sent c n ns
    let (cs', n'', ns'') ← renumL sent cs n' ns'
    return (c' :: cs', n'', ns'')
end

/-- `canonicallyorderedtree(tree, sent)` (treetransforms.py:593-615): the new tree and the new contents of `sent`. -/
def canonicallyorderedtree (t : PTree L) (sent : List W) : Option (PTree L × List (Option W)) := do
  let s ← alpino t
  let (u, _, ns) ← renum sent s 0 (List.replicate sent.length none)
  return (u, ns)

mutual
/-- Rename the terminals. -/
def Spec.rename (σ : Nat → Nat) : PTree L → PTree L
  | .leaf i => .leaf (σ i)
  | .node l cs => .node l (Spec.renameL σ cs)
/-- On lists. -/
def Spec.renameL (σ : Nat → Nat) : List (PTree L) → List (PTree L)
  | [] => []
  | c :: cs => Spec.rename σ c :: Spec.renameL σ cs
end

/-- Sisters are in the order of their last terminals. -/
def Spec.LastOrdered (t : PTree L) : Prop :=
  ∀ l cs, .node l cs ∈ subtrees t → cs.Pairwise (fun a b => ∀ i j, a.leaves.getLast? = some i → b.leaves.getLast? = some j → i < j)

theorem alpKey_le_trans (a b c : PTree L) : decide (alpKey a ≤ alpKey b) = true → decide (alpKey b ≤ alpKey c) = true →
    decide (alpKey a ≤ alpKey c) = true := by
  simp only [decide_eq_true_eq]
  exact fun h1 h2 => List.le_trans h1 h2

theorem alpKey_le_total (a b : PTree L) : (decide (alpKey a ≤ alpKey b) || decide (alpKey b ≤ alpKey a)) = true := by
  simp only [Bool.or_eq_true, decide_eq_true_eq]
  exact List.le_total _ _

theorem last_le {a b : PTree L} (h : alpKey a ≤ alpKey b) {i j : Nat} (hi : a.leaves.getLast? = some i) (hj : b.leaves.getLast? = some j) :
    i ≤ j := by
  have h1 : a.leaves.getLastD 0 = i := by rw [List.getLastD_eq_getLast?, hi]; rfl
  have h2 : b.leaves.getLastD 0 = j := by rw [List.getLastD_eq_getLast?, hj]; rfl
  rw [alpKey, alpKey, h1, h2, List.cons_le_cons_iff] at h
  omega

theorem sortAlp_spec {cs : List (PTree L)} (hg : Canon.GoodSisters cs) (hne : ∀ c ∈ cs, c.leaves ≠ []) (hnd : (leavesL cs).Nodup) :
    ∃ ds, sortAlp cs = some ds ∧ ds.Perm cs ∧
      ds.Pairwise (fun a b => ∀ i j, a.leaves.getLast? = some i → b.leaves.getLast? = some j → i < j) := by
  have hpair : ∀ c1 c2 : PTree L, ∀ rest, cs = c1 :: c2 :: rest → c1.isNode = true → sortAlp cs = some (stableSort (fun a b => decide (alpKey a ≤ alpKey b)) cs) := by
    intro c1 c2 rest hc hn
    subst hc
    cases c1 with
    | leaf i => simp [isNode] at hn
    | node l ds =>
      rw [sortAlp, if_pos]
      rw [List.all_eq_true]
      intro x hx
      have hx1 : x.isNode = true := by
        rcases hg with hg | ⟨i, hg⟩
        · exact hg x hx
        · simp at hg
      simp [hx1, hne x hx]
  match hq : cs, hg with
  | [], _ => exact ⟨[], rfl, .rfl, .nil⟩
  | [c], _ => exact ⟨[c], by cases c <;> rfl, .rfl, List.pairwise_singleton _ _⟩
  | c1 :: c2 :: rest, hg' =>
    have hn : c1.isNode = true := by
      rcases hg' with h | ⟨i, h⟩
      · exact h c1 (by simp)
      · simp at h
    refine ⟨_, hpair c1 c2 rest rfl hn, StableSort.perm _, ?_⟩
    have hp := StableSort.perm (le := fun a b => decide (alpKey a ≤ alpKey b)) (c1 :: c2 :: rest)
    have h1 := StableSort.pairwise (le := fun a b => decide (alpKey a ≤ alpKey b)) alpKey_le_trans alpKey_le_total (c1 :: c2 :: rest)
    have hs : Sis (stableSort (fun a b => decide (alpKey a ≤ alpKey b)) (c1 :: c2 :: rest)) := Sis.perm ⟨hnd, hne⟩ hp.symm
    refine (h1.and hs.pairwise).imp ?_
    intro a b hab i j hi hj
    have hle := last_le (by simpa using hab.1) hi hj
    have hd := hab.2
    have : i ≠ j := fun he => hd i (List.mem_of_getLast? hi) (he ▸ List.mem_of_getLast? hj)
    omega

theorem lastOrdered_node {l : L} {cs : List (PTree L)} (h : ∀ c ∈ cs, LastOrdered c)
    (hp : cs.Pairwise (fun a b => ∀ i j, a.leaves.getLast? = some i → b.leaves.getLast? = some j → i < j)) : LastOrdered (.node l cs) := by
  intro l' cs' hm
  rw [subtrees_node, List.mem_cons] at hm
  rcases hm with hm | hm
  · injection hm with h1 h2; subst h2; exact hp
  · obtain ⟨c, hc, hm⟩ := mem_subtreesL.1 hm
    exact h c hc l' cs' hm

theorem alpinoL_spec (cs : List (PTree L)) (h : ∀ c ∈ cs, ∃ d, alpino c = some d ∧ Canon.Spec.SameUpToOrder c d ∧ LastOrdered d ∧
    Canon.Spec.Preterminals d) :
    ∃ ds, alpinoL cs = some ds ∧ Canon.Spec.SameUpToOrderL cs ds ∧ (∀ d ∈ ds, LastOrdered d ∧ Canon.Spec.Preterminals d) ∧
      List.Forall₂ (fun c d => (c.isNode = d.isNode ∧ c.leaves.Perm d.leaves) ∧ (∀ i, c = .leaf i → d = .leaf i)) cs ds := by
  induction cs with
  | nil => exact ⟨[], rfl, .nil, by simp, .nil⟩
  | cons c cs ih =>
    obtain ⟨ds, h1, h2, h3, h4⟩ := ih (fun x hx => h x (by simp [hx]))
    obtain ⟨d, g1, g2, g3, g4⟩ := h c (by simp)
    refine ⟨d :: ds, by rw [alpinoL, g1, h1]; rfl, .cons g2 h2, ?_, .cons ⟨⟨?_, Canon.same_leaves_perm g2⟩, ?_⟩ h4⟩
    · intro x hx
      rcases List.mem_cons.1 hx with rfl | hx
      · exact ⟨g3, g4⟩
      · exact h3 x hx
    · cases g2 <;> rfl
    · rintro i rfl; cases g2; rfl

theorem alpino_spec (t : PTree L) (h : WF t) :
    ∃ s, alpino t = some s ∧ Canon.Spec.SameUpToOrder t s ∧ LastOrdered s ∧ Canon.Spec.Preterminals s := by
  induction t using PTree.ind with
  | hleaf i => exact ⟨.leaf i, rfl, .leaf i, by simp [LastOrdered], by simp [Canon.Spec.Preterminals]⟩
  | hnode l cs ih =>
    obtain ⟨ds, h1, h2, h3, h4⟩ := alpinoL_spec cs (fun c hc => ih c hc (h.child hc))
    have hlv : (leavesL cs).Perm (leavesL ds) := by
      clear h1 h2 h3 h ih
      induction h4 with
      | nil => exact .rfl
      | cons a _ ih => rw [leavesL_cons, leavesL_cons]; exact a.1.2.append ih
    have hgood : Canon.GoodSisters ds := by
      rcases Canon.Preterminals.good h.pre with hg | ⟨i, hg⟩
      · left
        clear h1 h2 h3 h ih hlv
        induction h4 with
        | nil => simp
        | cons a _ ih =>
          intro x hx
          rcases List.mem_cons.1 hx with rfl | hx
          · rw [← a.1.1]; exact hg _ (by simp)
          · exact ih (fun y hy => hg y (by simp [hy])) x hx
      · right
        subst hg
        cases h4 with
        | cons a b => cases b; exact ⟨i, by rw [a.2 i rfl]⟩
    have hne : ∀ d ∈ ds, d.leaves ≠ [] := by
      have hw : ∀ c ∈ cs, c.leaves ≠ [] := fun c hc => (h.child hc).ne
      clear h1 h2 h3 h ih hlv hgood
      induction h4 with
      | nil => simp
      | cons a _ ih =>
        intro x hx
        rcases List.mem_cons.1 hx with rfl | hx
        · intro h0
          have := a.1.2
          rw [h0] at this
          exact hw _ (by simp) this.eq_nil
        · exact ih (fun y hy => hw y (by simp [hy])) x hx
    have hnd := h.nodup
    rw [leaves_node] at hnd
    obtain ⟨es, e1, e2, e3⟩ := sortAlp_spec hgood hne (hlv.nodup_iff.1 hnd)
    refine ⟨.node l es, by rw [alpino, h1]; simp [e1], .node l cs ds es h2 e2.symm, ?_, ?_⟩
    · exact lastOrdered_node (fun c hc => (h3 c (e2.subset hc)).1) e3
    · rcases hgood.perm e2 with hg | ⟨i, hg⟩
      · exact preterminals_node hg (fun c hc => (h3 c (e2.subset hc)).2)
      · subst hg
        intro l' cs' hm
        simp only [subtrees_node, subtreesL_cons, subtrees_leaf, subtreesL_nil, List.append_nil, List.mem_singleton] at hm
        injection hm with _ hm
        exact Or.inr ⟨i, hm⟩

theorem renameL_eq (σ : Nat → Nat) (cs : List (PTree L)) : Spec.renameL σ cs = cs.map (Spec.rename σ) := by
  induction cs with
  | nil => rfl
  | cons c cs ih => rw [Spec.renameL, ih, List.map_cons]

theorem rename_leaves (σ : Nat → Nat) (t : PTree L) : (Spec.rename σ t).leaves = t.leaves.map σ := by
  induction t using PTree.ind with
  | hleaf i => simp [Spec.rename]
  | hnode l cs ih =>
    rw [Spec.rename, renameL_eq, leaves_node, leaves_node]
    induction cs with
    | nil => rfl
    | cons c cs ih2 => rw [List.map_cons, leavesL_cons, leavesL_cons, List.map_append, ih c (by simp), ih2 (fun x hx => ih x (by simp [hx]))]

theorem mem_subtrees_rename (σ : Nat → Nat) (t : PTree L) : ∀ x ∈ subtrees (Spec.rename σ t), ∃ y ∈ subtrees t, x = Spec.rename σ y := by
  induction t using PTree.ind with
  | hleaf i => simp [Spec.rename]
  | hnode l cs ih =>
    intro x hx
    rw [Spec.rename, renameL_eq, subtrees_node, List.mem_cons] at hx
    rcases hx with hx | hx
    · exact ⟨.node l cs, by simp, by rw [hx, Spec.rename, renameL_eq]⟩
    · obtain ⟨e, he, hx⟩ := mem_subtreesL.1 hx
      obtain ⟨c, hc, rfl⟩ := List.mem_map.1 he
      obtain ⟨y, hy, rfl⟩ := ih c hc x hx
      exact ⟨y, by rw [subtrees_node]; exact List.mem_cons_of_mem _ (mem_subtreesL.2 ⟨c, hc, hy⟩), rfl⟩

/-- `newsent` with the words of the terminals `ls` written from position `n` on. -/
def written (sent : List W) (ns : List (Option W)) (n : Nat) (ls : List Nat) : List (Option W) :=
  ns.take n ++ ls.map (fun i => sent[i]?) ++ ns.drop (n + ls.length)

theorem written_length (sent : List W) (ns : List (Option W)) (n : Nat) (ls : List Nat) (h : n + ls.length ≤ ns.length) :
    (written sent ns n ls).length = ns.length := by
  simp [written]; omega

theorem written_append (sent : List W) (ns : List (Option W)) (n : Nat) (xs ys : List Nat) (h : n + xs.length + ys.length ≤ ns.length) :
    written sent (written sent ns n xs) (n + xs.length) ys = written sent ns n (xs ++ ys) := by
  simp only [written]
  have h1 : (ns.take n ++ xs.map (fun i => sent[i]?)).length = n + xs.length := by simp; omega
  rw [List.take_append_of_le_length (by omega), List.take_of_length_le (by omega),
    List.drop_append, List.drop_of_length_le (by omega), h1, List.nil_append, List.drop_drop, List.map_append, List.length_append]
  simp only [List.append_assoc]
  congr 4
  omega

theorem written_set (sent : List W) (ns : List (Option W)) (n i : Nat) (h : n < ns.length) : ns.set n sent[i]? = written sent ns n [i] := by
  rw [written, List.set_eq_take_append_cons_drop, if_pos h]
  simp

theorem renum_spec (sent : List W) (σ : Nat → Nat) (t : PTree L) (hp : Canon.Spec.Preterminals t) (hn : t.isNode = true) : ∀ n ns,
    t.leaves.map σ = List.range' n t.leaves.length → (∀ i ∈ t.leaves, i < sent.length) → n + t.leaves.length ≤ ns.length →
    renum sent t n ns = some (Spec.rename σ t, n + t.leaves.length, written sent ns n t.leaves) := by
  induction t using PTree.ind with
  | hleaf i => simp [isNode] at hn
  | hnode l cs ih =>
    intro n ns h1 h2 h3
    rcases Canon.Preterminals.good hp with hg | ⟨i, rfl⟩
    · have hL : ∀ n ns, (leavesL cs).map σ = List.range' n (leavesL cs).length → (∀ i ∈ leavesL cs, i < sent.length) →
          n + (leavesL cs).length ≤ ns.length →
          renumL sent cs n ns = some (Spec.renameL σ cs, n + (leavesL cs).length, written sent ns n (leavesL cs)) := by
        clear h1 h2 h3
        have hpc := Canon.Preterminals.child hp
        clear hp hn
        induction cs with
        | nil => intro n ns _ _ _; simp [renumL, Spec.renameL, written]
        | cons c cs ih2 =>
          intro n ns h1 h2 h3
          simp only [leavesL_cons, List.map_append, List.length_append] at h1 h3
          have hlen : (c.leaves.map σ).length = c.leaves.length := by simp
          rw [← List.range'_append_1] at h1
          obtain ⟨g1, g2⟩ := List.append_inj h1 (by simp)
          rw [renumL, ih c (by simp) (hpc c (by simp)) (hg c (by simp)) n ns g1 (fun i hi => h2 i (by simp [hi])) (by omega)]
          simp only [Option.bind_eq_bind, Option.bind_some]
          rw [ih2 (fun x hx => ih x (by simp [hx])) (fun x hx => hg x (by simp [hx])) (fun x hx => hpc x (by simp [hx])) _ _ g2
            (fun i hi => h2 i (by simp [hi])) (by rw [written_length _ _ _ _ (by omega)]; omega)]
          simp only [Option.bind_some, pure, Spec.renameL]
          rw [written_append _ _ _ _ _ (by omega), leavesL_cons, List.length_append]
          congr 3
          omega
      have key : renum sent (.node l cs) n ns = (do
          let (cs', n', ns') ← renumL sent cs n ns
          return (.node l cs', n', ns')) := by
        cases cs with
        | nil => rw [renum]; intro i rest h; simp at h
        | cons c cs =>
          cases c with
          | leaf i => have := hg (.leaf i) (by simp); simp [isNode] at this
          | node l' cs' => rw [renum]; intro i rest h; simp at h
      rw [key]
      simp only [leaves_node] at h1 h2 h3 ⊢
      rw [hL n ns h1 h2 h3, Spec.rename]
      rfl
    · simp at h1 h2 h3
      rw [renum]
      have hw : sent[i]? = some (sent[i]'h2) := List.getElem?_eq_getElem h2
      simp only [hw, Option.bind_eq_bind, Option.bind_some]
      rw [if_pos (by omega), ← hw, written_set _ _ _ _ (by omega)]
      simp [renumL, Spec.rename, Spec.renameL, h1]

theorem infix_subtree (t x : PTree L) (hx : x ∈ subtrees t) : x.leaves <:+: t.leaves := by
  induction t using PTree.ind with
  | hleaf i => simp at hx
  | hnode l cs ih =>
    rw [subtrees_node, List.mem_cons] at hx
    rcases hx with rfl | hx
    · exact List.infix_refl _
    · obtain ⟨c, hc, hx⟩ := mem_subtreesL.1 hx
      refine (ih c hc hx).trans ?_
      rw [leaves_node, leavesL_eq_flatMap]
      obtain ⟨a, b, rfl⟩ := List.append_of_mem hc
      exact ⟨a.flatMap leaves, b.flatMap leaves, by simp⟩

theorem cont_of_infix_range {x : PTree L} {n : Nat} (h : x.leaves <:+: List.range n) : Cont x := by
  obtain ⟨a, b, h⟩ := h
  have h1 : x.leaves = List.range' a.length x.leaves.length := by
    rw [List.range_eq_range'] at h
    have hl := congrArg List.length h
    simp at hl
    have := congrArg (List.drop a.length) h
    rw [List.append_assoc, List.drop_left] at this
    have := congrArg (List.take x.leaves.length) this
    rw [List.take_left] at this
    rw [this]
    apply List.ext_getElem
    · simp
    · intro i h1 h2; simp [List.getElem_take]
  intro i hi j hj k hik hkj
  rw [h1, List.mem_range'_1] at *
  omega

theorem wf_same {t s : PTree L} (h : WF t) (hs : Canon.Spec.SameUpToOrder t s) : s.leaves.Nodup ∧ s.isNode = t.isNode :=
  ⟨(Canon.same_leaves_perm hs).nodup_iff.1 h.nodup, by cases hs <;> rfl⟩

/-- **C79, reordering.** For every well-formed tree over all words of a sentence, `canonicallyorderedtree` succeeds. The result is the tree
with its sisters in another order -- that of their last terminals -- and its terminals renamed by a bijection; the terminals of the result are
0, 1, 2, ... from left to right, so that every constituent is continuous; each word moves along with its terminal. -/
theorem C79_reorder (t : PTree L) (sent : List W) (h : WF t) (hn : t.isNode = true) (hl : t.leaves.Perm (List.range sent.length)) :
    ∃ u ns s σ, canonicallyorderedtree t sent = some (u, ns) ∧
      Canon.Spec.SameUpToOrder t s ∧ LastOrdered s ∧ u = Spec.rename σ s ∧
      u.leaves = List.range sent.length ∧ (∀ x ∈ subtrees u, Cont x) ∧
      ns.length = sent.length ∧ (∀ i < sent.length, σ i < sent.length ∧ ns[σ i]? = some sent[i]?) ∧
      (∀ i < sent.length, ∀ j < sent.length, σ i = σ j → i = j) := by
  obtain ⟨s, h1, h2, h3, h4⟩ := alpino_spec t h
  obtain ⟨hnd, hsn⟩ := wf_same h h2
  have hp : s.leaves.Perm (List.range sent.length) := (Canon.same_leaves_perm h2).symm.trans hl
  have hlen : s.leaves.length = sent.length := by rw [hp.length_eq, List.length_range]
  have hmem : ∀ i, i ∈ s.leaves ↔ i < sent.length := fun i => by rw [hp.mem_iff, List.mem_range]
  let σ : Nat → Nat := fun i => s.leaves.idxOf i
  have hσ : s.leaves.map σ = List.range' 0 s.leaves.length := by
    apply List.ext_getElem
    · simp
    · intro k hk1 hk2
      simp only [List.getElem_map, List.getElem_range', Nat.zero_add, Nat.one_mul]
      exact hnd.idxOf_getElem k (by simpa using hk1)
  have hr := renum_spec sent σ s h4 (by rw [hsn, hn]) 0 (List.replicate sent.length none) hσ (fun i hi => (hmem i).1 hi) (by simp [hlen])
  have hlv : (Spec.rename σ s).leaves = List.range sent.length := by
    rw [rename_leaves, hσ, hlen, List.range_eq_range']
  have hns : written sent (List.replicate sent.length none) 0 s.leaves = s.leaves.map (fun i => sent[i]?) := by
    simp [written, hlen]
  have hlt : ∀ i < sent.length, σ i < s.leaves.length := fun i hi => List.idxOf_lt_length_iff.2 ((hmem i).2 hi)
  refine ⟨Spec.rename σ s, s.leaves.map (fun i => sent[i]?), s, σ, ?_, h2, h3, rfl, hlv, ?_, by simp [hlen], ?_, ?_⟩
  · rw [canonicallyorderedtree, h1]
    simp only [Option.bind_eq_bind, Option.bind_some]
    rw [hr, hns]; rfl
  · intro x hx
    exact cont_of_infix_range (n := sent.length) (by rw [← hlv]; exact infix_subtree _ x hx)
  · intro i hi
    refine ⟨by have := hlt i hi; omega, ?_⟩
    rw [List.getElem?_map, List.getElem?_eq_getElem (hlt i hi), Option.map_some]
    rw [List.getElem_idxOf (hlt i hi)]
  · intro i hi j hj hij
    exact (List.idxOf_inj ((hmem i).2 hi)).1 hij

end Reorder

/-- Example: a discontinuous tree. -/
def exReorder : PTree Str := .node ['S'] [.node ['V','P'] [.node ['V'] [.leaf 0], .node ['N'] [.leaf 2]], .node ['M'] [.leaf 1]]

example : WF exReorder ∧ exReorder.isNode = true ∧ exReorder.leaves.Perm (List.range 3) := by
  refine ⟨⟨?_, ?_, by decide⟩, rfl, by decide⟩
  · intro l cs h
    simp only [exReorder, subtrees_node, subtreesL_cons, subtreesL_nil, subtrees_leaf, List.append_nil, List.nil_append, List.cons_append,
      List.mem_cons, List.not_mem_nil, or_false, node.injEq] at h
    rcases h with ⟨_, rfl⟩ | ⟨_, rfl⟩ | ⟨_, rfl⟩ | ⟨_, rfl⟩ | ⟨_, rfl⟩ <;> simp [isNode]
  · intro l h
    simp [exReorder] at h

example : canonicallyorderedtree exReorder ["a", "b", "c"] = some (.node ['S'] [.node ['M'] [.leaf 0], .node ['V','P'] [.node ['V'] [.leaf 1],
    .node ['N'] [.leaf 2]]], [some "b", some "a", some "c"]) := by
  decide +kernel

end Disco.Raise
