import Verif.Eval.TreeEdit
import Verif.Basic.Dict
import Verif.Basic.Sort
/-!
# C29, second part: `AnnotatedTree` and `treedist` (treedist.py:93-204), the algorithm of Zhang & Shasha
-/
namespace Disco.Ted

variable {α : Type}

/-! ### Model of `AnnotatedTree` -/

/-- First loop of `AnnotatedTree.__init__` (treedist.py:105-117): `stack` (top first) of nodes with their ancestors, `pstack` (top first) and the
next identifier. The first argument bounds the number of iterations; each pops one node, so the number of nodes suffices. `n.type = j` is
represented by storing the identifier `j` with the node. -/
def walk : Nat → List (RT α × List Nat) → List (RT α × Nat × List Nat) → Nat → List (RT α × Nat × List Nat)
  | 0, _, p, _ => p
  | _ + 1, [], p, _ => p
  | f + 1, (n, anc) :: st, p, j => walk f ((n.children.map fun c => (c, j :: anc)).reverse ++ st) ((n, j, anc) :: p) (j + 1)

/-- treedist.py:128-132: `for a in anc: if a in leftmostdescendents: break else: leftmostdescendents[a] = i`. -/
def setAnc (i : Nat) : List Nat → Dict Nat Nat → Dict Nat Nat
  | [], L => L
  | a :: as, L => if (Dict.get? L a).isSome then L else setAnc i as (Dict.set L a i)

/-- State of the second loop: `i`, the dictionary `leftmostdescendents`, `self.nodes`, `self.leftmostdescendents`, `keyroots`. -/
structure PSt (α : Type) where
  i : Nat
  L : Dict Nat Nat
  nodes : List (RT α)
  lmds : List Nat
  kr : Dict Nat Nat

/-- treedist.py:133-135, with the new dictionary and the leftmost descendent of the node. -/
def PSt.push (s : PSt α) (n : RT α) (L : Dict Nat Nat) (lmd : Nat) : PSt α :=
  ⟨s.i + 1, L, s.nodes ++ [n], s.lmds ++ [lmd], Dict.set s.kr lmd s.i⟩

/-- Body of the second loop (treedist.py:122-135); `none` stands for a `KeyError`. -/
def pstep (s : PSt α) (e : RT α × Nat × List Nat) : Option (PSt α) :=
  if e.1.children.isEmpty then some (s.push e.1 (setAnc s.i e.2.2 s.L) s.i)
  else (Dict.get? s.L e.2.1).map fun lmd => s.push e.1 s.L lmd

/-- `AnnotatedTree` (treedist.py:93-136): nodes, leftmost descendents, key roots. -/
structure Annotated (α : Type) where
  nodes : List (RT α)
  lmds : List Nat
  keyroots : List Nat

/-- `AnnotatedTree.__init__` (treedist.py:96-136). -/
def annotate (root : RT α) : Option (Annotated α) :=
  ((walk (size root) [(root, [])] [] 0).foldlM pstep ⟨0, [], [], [], []⟩).map fun s =>
    ⟨s.nodes, s.lmds, stableSort (fun a b => decide (a ≤ b)) (s.kr.map Prod.snd)⟩

/-! ### Model of `treedist` -/

/-- `table[x, y] = v` on a two-dimensional array, represented as a function of the indices. -/
def upd (f : Nat → Nat → Nat) (x y v : Nat) : Nat → Nat → Nat := fun a b => if a = x ∧ b = y then v else f a b

/-- The arrays `table` and `treedists`. -/
structure Tabs where
  table : Nat → Nat → Nat
  td : Nat → Nat → Nat

/-- Body of the loop over `x` and `y` (treedist.py:167-192). `l1`, `l2` are the leftmost descendents, `ld` the distance of the labels of two
nodes. `x + ioff` is written `x - 1 + l1 i` (`ioff = tree1lmd[i] - 1` and `x` is at least 1), and `tree1lmd[x + ioff] - 1 - ioff` as
`l1 (x + ioff) - l1 i`. -/
def cell (l1 l2 : Nat → Nat) (ld : Nat → Nat → Nat) (i j : Nat) (s : Tabs) (x y : Nat) : Tabs :=
  let p := x - 1 + l1 i
  let q := y - 1 + l2 j
  if l1 i = l1 p ∧ l2 j = l2 q then
    let v := min (min (s.table (x - 1) y + 1) (s.table x (y - 1) + 1)) (s.table (x - 1) (y - 1) + ld p q)
    ⟨upd s.table x y v, upd s.td p q v⟩
  else
    let a := l1 p - l1 i
    let b := l2 q - l2 j
    ⟨upd s.table x y (min (min (s.table (x - 1) y + 1) (s.table x (y - 1) + 1)) (s.table a b + s.td p q)), s.td⟩

/-- The table at the start (treedist.py:157-164): zeros, then the first column, then the first row. -/
def initTable (m n : Nat) : Nat → Nat → Nat :=
  let t := (List.range' 1 (m - 1)).foldl (fun t x => upd t x 0 (t (x - 1) 0 + 1)) (fun _ _ => 0)
  (List.range' 1 (n - 1)).foldl (fun t y => upd t 0 y (t 0 (y - 1) + 1)) t

/-- The body of the loop over key roots (treedist.py:154-192). -/
def keypair (l1 l2 : Nat → Nat) (ld : Nat → Nat → Nat) (i j : Nat) (td : Nat → Nat → Nat) : Nat → Nat → Nat :=
  let m := i - l1 i + 2
  let n := j - l2 j + 2
  ((List.range' 1 (m - 1)).foldl (fun s x => (List.range' 1 (n - 1)).foldl (fun s y => cell l1 l2 ld i j s x y) s)
    ⟨initTable m n, td⟩).td

/-- The loops over key roots (treedist.py:151-192). -/
def treedists (l1 l2 : Nat → Nat) (ld : Nat → Nat → Nat) (kr1 kr2 : List Nat) : Nat → Nat → Nat :=
  kr1.foldl (fun td i => kr2.foldl (fun td j => keypair l1 l2 ld i j td) td) fun _ _ => 0

/-- `strdist(tree1nodes[p].label, tree2nodes[q].label)` (treedist.py:172-173). The indices are always valid. -/
def labeldist [DecidableEq α] (a b : List (RT α)) (p q : Nat) : Nat := strdist (a[p]?.map RT.label) (b[q]?.map RT.label)

/-- `treedist` (treedist.py:139-204) on prepared trees, without the debug output. -/
def treedist [DecidableEq α] (t1 t2 : RT α) : Option Nat := do
  let a ← annotate t1
  let b ← annotate t2
  return treedists (fun k => a.lmds[k]?.getD 0) (fun k => b.lmds[k]?.getD 0) (labeldist a.nodes b.nodes) a.keyroots b.keyroots
    (a.nodes.length - 1) (b.nodes.length - 1)

/-! ### What `AnnotatedTree` contains -/

mutual
/-- The nodes in post-order. -/
def Spec.post : RT α → List (RT α)
  | .node l cs => Spec.postF cs ++ [.node l cs]
def Spec.postF : List (RT α) → List (RT α)
  | [] => []
  | t :: ts => Spec.post t ++ Spec.postF ts
end

mutual
/-- For each node in post-order, the number of its leftmost leaf; the nodes are numbered from `i`. -/
def Spec.lmd : RT α → Nat → List Nat
  | .node _ cs, i => Spec.lmdF cs i ++ [i]
def Spec.lmdF : List (RT α) → Nat → List Nat
  | [], _ => []
  | t :: ts, i => Spec.lmd t i ++ Spec.lmdF ts (i + size t)
end

/-- `k` is a key root: the last node with its leftmost leaf. -/
def Spec.IsKeyroot (lmds : List Nat) (k : Nat) : Prop :=
  ∃ m, lmds[k]? = some m ∧ ∀ k', k < k' → lmds[k']? ≠ some m

/-! ### First loop -/

mutual
/-- The contents of `pstack` (top first) for one subtree with identifiers from `j`. -/
def pst : RT α → List Nat → Nat → List (RT α × Nat × List Nat)
  | .node l cs, anc, j => pstF cs (j :: anc) (j + 1) ++ [(.node l cs, j, anc)]
def pstF : List (RT α) → List Nat → Nat → List (RT α × Nat × List Nat)
  | [], _, _ => []
  | c :: cs, anc, j => pst c anc (j + sizeF cs) ++ pstF cs anc j
end

mutual
theorem walk_tree (t : RT α) (f : Nat) (st : List (RT α × List Nat)) (p : List (RT α × Nat × List Nat)) (j : Nat) (anc : List Nat) :
    walk (f + size t) ((t, anc) :: st) p j = walk f st (pst t anc j ++ p) (j + size t) := by
  cases t with
  | node l cs =>
    have h := walk_forest cs f st ((.node l cs, j, anc) :: p) (j + 1) (j :: anc)
    rw [size_node, ← Nat.add_assoc, walk, children_node, h, pst]
    simp [Nat.add_assoc, Nat.add_comm, Nat.add_left_comm]
theorem walk_forest (cs : List (RT α)) (f : Nat) (st : List (RT α × List Nat)) (p : List (RT α × Nat × List Nat)) (j : Nat) (anc : List Nat) :
    walk (f + sizeF cs) ((cs.map fun c => (c, anc)).reverse ++ st) p j = walk f st (pstF cs anc j ++ p) (j + sizeF cs) := by
  cases cs with
  | nil => simp [pstF]
  | cons c cs =>
    have h := walk_forest cs (f + size c) ((c, anc) :: st) p j anc
    have h2 := walk_tree c f st (pstF cs anc j ++ p) (j + sizeF cs) anc
    rw [sizeF_cons, ← Nat.add_assoc, List.map_cons, List.reverse_cons, List.append_assoc, List.singleton_append, h, h2, pstF]
    simp [Nat.add_assoc, Nat.add_comm, Nat.add_left_comm]
end

theorem walk_root (t : RT α) : walk (size t) [(t, [])] [] 0 = pst t [] 0 := by
  have h := walk_tree t 0 [] [] 0 []
  rw [Nat.zero_add] at h
  rw [h]; simp [walk]

/-! ### Second loop -/

/-- If an ancestor has an entry, so have those above it. -/
def AncChain (L : Dict Nat Nat) : List Nat → Prop
  | [] => True
  | a :: as => ((Dict.get? L a).isSome → ∀ b ∈ as, (Dict.get? L b).isSome) ∧ AncChain L as

theorem AncChain.congr {L L' : Dict Nat Nat} {as : List Nat} (h : AncChain L as) (he : ∀ a ∈ as, Dict.get? L' a = Dict.get? L a) :
    AncChain L' as := by
  induction as with
  | nil => trivial
  | cons a as ih =>
    refine ⟨fun h1 b hb => ?_, ih h.2 fun b hb => he b (by simp [hb])⟩
    rw [he b (by simp [hb])]
    rw [he a (by simp)] at h1
    exact h.1 h1 b hb

theorem AncChain.of_all {L : Dict Nat Nat} {as : List Nat} (h : ∀ a ∈ as, (Dict.get? L a).isSome) : AncChain L as := by
  induction as with
  | nil => trivial
  | cons a as ih => exact ⟨fun _ b hb => h b (by simp [hb]), ih fun b hb => h b (by simp [hb])⟩

theorem setAnc_out (i : Nat) (as : List Nat) (L : Dict Nat Nat) {b : Nat} (hb : b ∉ as) :
    Dict.get? (setAnc i as L) b = Dict.get? L b := by
  induction as generalizing L with
  | nil => rfl
  | cons a as ih =>
    simp at hb
    unfold setAnc
    split
    · rfl
    · rw [ih _ hb.2, Dict.get?_set]; simp [Ne.symm hb.1]

theorem setAnc_in (i : Nat) (as : List Nat) (L : Dict Nat Nat) (hc : AncChain L as) (hn : as.Nodup) {b : Nat} (hb : b ∈ as) :
    Dict.get? (setAnc i as L) b = some ((Dict.get? L b).getD i) := by
  induction as generalizing L with
  | nil => simp at hb
  | cons a as ih =>
    rw [List.nodup_cons] at hn
    unfold setAnc
    split
    · next h =>
      have : (Dict.get? L b).isSome := by
        rcases List.mem_cons.1 hb with h1 | h1
        · rw [h1]; exact h
        · exact hc.1 h b h1
      obtain ⟨v, hv⟩ := Option.isSome_iff_exists.1 this
      simp [hv]
    · next h =>
      rcases List.mem_cons.1 hb with h1 | h1
      · subst h1
        rw [setAnc_out _ _ _ hn.1, Dict.get?_set]
        simp at h
        simp [h]
      · have hba : b ≠ a := fun e => hn.1 (e ▸ h1)
        rw [ih (Dict.set L a i) _ hn.2 h1, Dict.get?_set]
        · simp [hba.symm]
        · refine AncChain.congr hc.2 fun c hcm => ?_
          have hca : c ≠ a := fun e => hn.1 (e ▸ hcm)
          rw [Dict.get?_set]; simp [hca.symm]

/-- What processing a part of `pstack` does to the state. -/
structure Done (s s' : PSt α) (anc : List Nat) (j n : Nat) (ns : List (RT α)) (ls : List Nat) (some? : Bool) : Prop where
  i : s'.i = s.i + n
  nodes : s'.nodes = s.nodes ++ ns
  lmds : s'.lmds = s.lmds ++ ls
  inn : ∀ a ∈ anc, Dict.get? s'.L a = if some? then some ((Dict.get? s.L a).getD s.i) else Dict.get? s.L a
  out : ∀ a, a ∉ anc → (a < j ∨ j + n ≤ a) → Dict.get? s'.L a = Dict.get? s.L a

mutual
theorem post_tree (t : RT α) (s : PSt α) (anc : List Nat) (j : Nat) (hc : AncChain s.L anc) (hn : anc.Nodup) (hl : ∀ a ∈ anc, a < j)
    (hf : ∀ a, j ≤ a → a < j + size t → Dict.get? s.L a = none) :
    ∃ s', (pst t anc j).foldlM pstep s = some s' ∧ Done s s' anc j (size t) (Spec.post t) (Spec.lmd t s.i) true := by
  cases t with
  | node l cs =>
    have hj : j ∉ anc := fun h => Nat.lt_irrefl _ (hl j h)
    have hjn : Dict.get? s.L j = none := hf j (Nat.le_refl _) (by simp)
    obtain ⟨s1, h1, d⟩ := post_forest cs s (j :: anc) (j + 1) ⟨by simp [hjn], hc⟩ (List.nodup_cons.2 ⟨hj, hn⟩)
      (by
        intro a ha
        rcases List.mem_cons.1 ha with e | h
        · omega
        · have := hl a h; omega)
      (by intro a ha hb; exact hf a (by omega) (by simp; omega))
    rw [pst, List.foldlM_append, h1]
    simp only [Option.bind_eq_bind, Option.bind_some, List.foldlM_cons, List.foldlM_nil, pstep, children_node]
    rcases cs with _ | ⟨c, cs⟩
    · have e1 : s1.i = s.i := d.i
      have h2 : ∀ a, Dict.get? s1.L a = Dict.get? s.L a := by
        intro a
        by_cases ha : a ∈ j :: anc
        · simpa using d.inn a ha
        · exact d.out a ha (by simp; omega)
      refine ⟨_, by simp; rfl, ?_⟩
      constructor
      · simp [PSt.push, d.i]
      · simp [PSt.push, d.nodes, Spec.post, Spec.postF]
      · simp [PSt.push, d.lmds, Spec.lmd, Spec.lmdF, d.i]
      · intro a ha
        simp only [PSt.push, if_true]
        rw [setAnc_in _ _ _ (AncChain.congr hc fun b _ => h2 b) hn ha, h2, e1]
      · intro a ha hr
        simp only [PSt.push]
        rw [setAnc_out _ _ _ ha, h2]
    · have h2 : Dict.get? s1.L j = some s.i := by
        have := d.inn j (by simp)
        simpa [hjn] using this
      refine ⟨_, by simp [h2]; rfl, ?_⟩
      constructor
      · simp [PSt.push, d.i]; omega
      · simp [PSt.push, d.nodes, Spec.post]
      · simp [PSt.push, d.lmds, Spec.lmd]
      · intro a ha
        have := d.inn a (by simp [ha])
        simpa [PSt.push] using this
      · intro a ha hr
        have hr' : a ≠ j ∧ (a < j + 1 ∨ j + 1 + sizeF (c :: cs) ≤ a) := by
          rw [size_node] at hr; omega
        have := d.out a (by simp [ha, hr'.1]) hr'.2
        simpa [PSt.push] using this
theorem post_forest (cs : List (RT α)) (s : PSt α) (anc : List Nat) (j : Nat) (hc : AncChain s.L anc) (hn : anc.Nodup) (hl : ∀ a ∈ anc, a < j)
    (hf : ∀ a, j ≤ a → a < j + sizeF cs → Dict.get? s.L a = none) :
    ∃ s', (pstF cs anc j).foldlM pstep s = some s' ∧ Done s s' anc j (sizeF cs) (Spec.postF cs) (Spec.lmdF cs s.i) (!cs.isEmpty) := by
  cases cs with
  | nil => exact ⟨s, by simp [pstF], ⟨by simp, by simp [Spec.postF], by simp [Spec.lmdF], by simp, by simp⟩⟩
  | cons c cs =>
    rw [sizeF_cons] at hf
    obtain ⟨s1, h1, d1⟩ := post_tree c s anc (j + sizeF cs) hc hn (fun a ha => by have := hl a ha; omega)
      (fun a ha hb => hf a (by omega) (by omega))
    have hs : ∀ a ∈ anc, (Dict.get? s1.L a).isSome := fun a ha => by rw [d1.inn a ha]; simp
    obtain ⟨s2, h2, d2⟩ := post_forest cs s1 anc j (AncChain.of_all hs) hn hl (fun a ha hb => by
      rw [d1.out a (fun h => by have := hl a h; omega) (Or.inl hb)]; exact hf a ha (by omega))
    refine ⟨s2, by rw [pstF, List.foldlM_append, h1]; exact h2, ?_⟩
    constructor
    · rw [d2.i, d1.i, sizeF_cons]; omega
    · rw [d2.nodes, d1.nodes, Spec.postF, List.append_assoc]
    · rw [d2.lmds, d1.lmds, Spec.lmdF, List.append_assoc, d1.i]
    · intro a ha
      have e1 := d1.inn a ha
      have e2 := d2.inn a ha
      simp only [if_true] at e1
      rw [e1] at e2
      simpa using e2
    · intro a ha hr
      rw [sizeF_cons] at hr
      rw [d2.out a ha (by omega), d1.out a ha (by omega)]
end

/-- The dictionary `keyroots` after the nodes seen so far. -/
structure KInv (s : PSt α) : Prop where
  len : s.lmds.length = s.i
  wf : Dict.WF s.kr
  get : ∀ m k, Dict.get? s.kr m = some k ↔ s.lmds[k]? = some m ∧ ∀ k', k < k' → s.lmds[k']? ≠ some m

theorem KInv.push {s : PSt α} (h : KInv s) (n : RT α) (L : Dict Nat Nat) (lmd : Nat) : KInv (s.push n L lmd) := by
  refine ⟨by simp [PSt.push, h.len], h.wf.set _ _, fun m k => ?_⟩
  simp only [PSt.push, Dict.get?_set]
  have hlast : ∀ k', (s.lmds ++ [lmd])[k']? = if k' = s.i then some lmd else s.lmds[k']? := by
    intro k'
    split
    · next e => rw [e, ← h.len]; simp
    · next e =>
      rcases Nat.lt_or_ge k' s.lmds.length with hk | hk
      · rw [List.getElem?_append_left hk]
      · have hl := h.len
        rw [List.getElem?_eq_none hk, List.getElem?_eq_none (by simp; omega)]
  have hlt : ∀ k' m, s.lmds[k']? = some m → k' < s.i := fun k' m hk => by
    rw [← h.len]; exact (List.getElem?_eq_some_iff.1 hk).1
  split
  · next e =>
    subst e
    constructor
    · intro h1
      have h1 : s.i = k := by simpa using h1
      subst h1
      refine ⟨by simp [hlast], fun k' hk hm => ?_⟩
      rw [hlast] at hm
      split at hm
      · omega
      · have := hlt k' _ hm; omega
    · intro ⟨h1, h2⟩
      rw [hlast] at h1
      split at h1
      · next e => simp [e]
      · have := hlt k _ h1
        exact absurd (by simp [hlast]) (h2 s.i this)
  · next e =>
    rw [h.get]
    constructor
    · intro ⟨h1, h2⟩
      refine ⟨?_, fun k' hk hm => ?_⟩
      · rw [hlast, if_neg (by have := hlt k _ h1; omega)]; exact h1
      · rw [hlast] at hm
        split at hm
        · exact e (by simpa using hm)
        · exact h2 k' hk hm
    · intro ⟨h1, h2⟩
      rw [hlast] at h1
      split at h1
      · exact absurd (by simpa using h1) e
      · refine ⟨h1, fun k' hk hm => h2 k' hk ?_⟩
        rw [hlast, if_neg (by have := hlt k' _ hm; omega)]; exact hm

theorem KInv.fold {es : List (RT α × Nat × List Nat)} {s s' : PSt α} (h : KInv s) (hf : es.foldlM pstep s = some s') : KInv s' := by
  induction es generalizing s with
  | nil => simp at hf; rwa [← hf]
  | cons e es ih =>
    rw [List.foldlM_cons] at hf
    simp only [Option.bind_eq_bind, Option.bind_eq_some_iff] at hf
    obtain ⟨s1, h1, h2⟩ := hf
    refine ih ?_ h2
    unfold pstep at h1
    split at h1
    · simp at h1; rw [← h1]; exact h.push _ _ _
    · simp only [Option.map_eq_some_iff] at h1
      obtain ⟨m, _, h1⟩ := h1
      rw [← h1]; exact h.push _ _ _

/-- **C29** `AnnotatedTree` does not fail; it lists the nodes in post-order (not pre-order, as its comments say) with the number of their
leftmost leaf, and the key roots in increasing order. -/
theorem C29_annotated (t : RT α) : ∃ a, annotate t = some a ∧ a.nodes = Spec.post t ∧ a.lmds = Spec.lmd t 0 ∧
    a.keyroots.Pairwise (· < ·) ∧ ∀ k, k ∈ a.keyroots ↔ Spec.IsKeyroot a.lmds k := by
  obtain ⟨s, h, d⟩ := post_tree t (⟨0, [], [], [], []⟩ : PSt α) [] 0 trivial List.nodup_nil (by simp) (by simp [Dict.get?])
  have hk : KInv (⟨0, [], [], [], []⟩ : PSt α) := ⟨rfl, by simp [Dict.WF, Dict.keys], by simp [Dict.get?]⟩
  have hk := hk.fold h
  have hmem : ∀ k, k ∈ s.kr.map Prod.snd ↔ Spec.IsKeyroot s.lmds k := by
    intro k
    constructor
    · intro h1
      obtain ⟨⟨m, k'⟩, h2, rfl⟩ := List.mem_map.1 h1
      exact ⟨m, (hk.get m k').1 (Dict.get?_of_mem hk.wf h2)⟩
    · intro ⟨m, h1⟩
      exact List.mem_map.2 ⟨(m, k), Dict.mem_of_get? ((hk.get m k).2 h1), rfl⟩
  have hnd : (s.kr.map Prod.snd).Nodup := by
    have hw := hk.wf
    have hg : ∀ e ∈ s.kr, s.lmds[e.2]? = some e.1 := fun e he => ((hk.get e.1 e.2).1 (Dict.get?_of_mem hk.wf he)).1
    unfold Dict.WF Dict.keys at hw
    rw [List.nodup_iff_pairwise_ne, List.pairwise_map] at hw ⊢
    refine List.Pairwise.imp_of_mem (fun {x y} hx hy hne e => hne ?_) hw
    have h1 := hg x hx
    have h2 := hg y hy
    rw [e, h2] at h1
    simpa using h1.symm
  refine ⟨⟨s.nodes, s.lmds, stableSort (fun a b => decide (a ≤ b)) (s.kr.map Prod.snd)⟩, ?_, by simpa using d.nodes, by simpa using d.lmds, ?_, ?_⟩
  · unfold annotate; rw [walk_root, h]; rfl
  · have h1 : (stableSort (fun a b => decide (a ≤ b)) (s.kr.map Prod.snd)).Pairwise (fun a b => decide (a ≤ b) = true) :=
      StableSort.pairwise (by intro a b c; simp; omega) (by intro a b; simp; omega) _
    have h2 := (StableSort.perm (le := fun a b => decide (a ≤ b)) (s.kr.map Prod.snd)).nodup_iff.2 hnd
    rw [List.nodup_iff_pairwise_ne] at h2
    exact (h1.and h2).imp (by intro a b ⟨h3, h4⟩; simp at h3; omega)
  · intro k
    rw [StableSort.mem]; exact hmem k

end Disco.Ted
