import Verif.Eval.TreeDist
import Verif.Trees.MinSort
import Verif.Trees.MergeDisc
import Verif.Grammar.DopReduction
/-!
# C29, fourth part: `prepare` (treedist.py:72-90), `treedist` on treebank trees, and `treedisteval` (eval.py:927-933)
-/
namespace Disco.Ted
open PTree MinSort Canon

/-- treedist.py:81-82 for one node: children are sorted by their smallest terminal if the first child is a constituent; `none` for the
`IndexError` of `n[0]` on a node without children and for the `AttributeError` of `n.leaves()` on a terminal. -/
def sortNode (cs : List (PTree Str)) : Option (List (PTree Str)) :=
  match cs with
  | [] => none
  | c :: _ => if c.isNode then (if cs.all isNode then some (sortMin cs) else none) else some cs

mutual
/-- treedist.py:80-82: all nodes (the order of visits does not matter, the smallest terminal of a child does not depend on the order
inside it). -/
def sortTree : PTree Str → Option (PTree Str)
  | .leaf i => some (.leaf i)
  | .node l cs => (sortTreeL cs).bind fun ds => (sortNode ds).map (.node l)
def sortTreeL : List (PTree Str) → Option (List (PTree Str))
  | [] => some []
  | c :: cs => (sortTree c).bind fun d => (sortTreeL cs).map (d :: ·)
end

mutual
/-- treedist.py:87-89: the index of a terminal is appended to the label of its parent, and the terminal removed. Restricted to trees where
each terminal is an only child; in other trees the tree positions computed in advance no longer fit after the first deletion (`none`). -/
def merge : PTree Str → Option (RT Str)
  | .leaf _ => none
  | .node l [.leaf i] => some (.node (l ++ '-' :: Nat.toDigits 10 i) [])
  | .node l cs => (mergeL cs).map (.node l)
def mergeL : List (PTree Str) → Option (List (RT Str))
  | [] => some []
  | c :: cs => (merge c).bind fun d => (mergeL cs).map (d :: ·)
end

/-- `prepare(tree)` (treedist.py:72-90), with `includeterms=False`. -/
def prepare (t : PTree Str) : Option (RT Str) := (sortTree t).bind merge

/-- `treedist(tree1, tree2)` (treedist.py:139-204). -/
def treedistP (t1 t2 : PTree Str) : Option Nat := do treedist (← prepare t1) (← prepare t2)

/-- `newtreedist(tree1, tree2)` (treedist.py:207-223). -/
def newtreedistP (t1 t2 : PTree Str) : Option Nat := do return newtreedist (← prepare t1) (← prepare t2)

/-- `treedisteval(a, b, includeroot)` (eval.py:927-933): the distance and the denominator, an integer. -/
def treedisteval (a b : PTree Str) (includeroot : Bool) : Option (Nat × Int) := do
  let ted ← treedistP a b
  let denom : Int := (a.subtrees ++ b.subtrees).length
  return (ted, if includeroot then denom else denom - 2)

/-- The trees for which evaluation is used: a constituent, no constituent without children, each terminal an only child, no terminal twice. -/
structure Spec.WF (t : PTree Str) : Prop where
  node : t.isNode = true
  pre : Canon.Spec.Preterminals t
  ne : Canon.Spec.NoEmpty t
  nodup : t.leaves.Nodup

theorem sortTreeL_eq {cs : List (PTree Str)} (h : ∀ c ∈ cs, sortTree c = some (canon c)) : sortTreeL cs = some (cs.map canon) := by
  induction cs with
  | nil => rfl
  | cons c cs ih =>
    rw [sortTreeL, h c (by simp), ih fun d hd => h d (by simp [hd])]
    simp

theorem sortTree_eq (t : PTree Str) (hp : Canon.Spec.Preterminals t) (hne : Canon.Spec.NoEmpty t) (hnd : t.leaves.Nodup) :
    sortTree t = some (canon t) := by
  induction t using PTree.ind with
  | hleaf i => rfl
  | hnode l cs ih =>
    have hL := sortTreeL_eq (cs := cs) fun c hc => ih c hc (Preterminals.child hp c hc) (NoEmpty.child hne c hc)
      (leavesL_child_nodup (by simpa using hnd) c hc)
    rw [sortTree, hL]
    have hcs : cs ≠ [] := fun e => hne l (by simp [e])
    have hcn := canon_node l cs hne hnd
    rw [hcn, ← sortMin_map canon cs (fun c _ => mn_canon c)]
    have hg : sortNode (cs.map canon) = some (sortMin (cs.map canon)) := by
      rcases Preterminals.good hp with h | ⟨i, rfl⟩
      · have hall : (cs.map canon).all isNode = true := by
          simp only [List.all_map, List.all_eq_true]
          intro c hc
          simp only [Function.comp, canon_isNode]
          exact h c hc
        cases cs with
        | nil => exact absurd rfl hcs
        | cons c cs =>
          have : (canon c).isNode = true := by rw [canon_isNode]; exact h c (by simp)
          rw [List.map_cons] at hall ⊢
          simp only [sortNode]
          rw [if_pos this, if_pos hall]
      · simp [sortNode, canon, isNode, sortMin, stableSort, insertSorted]
    simp [hg]

theorem mergeL_some {cs : List (PTree Str)} (h : ∀ c ∈ cs, ∃ r, merge c = some r) : ∃ rs, mergeL cs = some rs := by
  induction cs with
  | nil => exact ⟨[], rfl⟩
  | cons c cs ih =>
    obtain ⟨r, hr⟩ := h c (by simp)
    obtain ⟨rs, hrs⟩ := ih fun d hd => h d (by simp [hd])
    exact ⟨r :: rs, by rw [mergeL, hr, hrs]; rfl⟩

theorem merge_other (l : Str) {cs : List (PTree Str)} (h : ∀ i, cs ≠ [.leaf i]) : merge (.node l cs) = (mergeL cs).map (.node l) := by
  rw [merge]; exact h

theorem merge_nodes (l : Str) {cs : List (PTree Str)} (h : ∀ c ∈ cs, c.isNode = true) :
    merge (.node l cs) = (mergeL cs).map (.node l) := by
  rw [merge]
  rintro i rfl
  have := h (.leaf i) (by simp)
  cases this

theorem merge_total (t : PTree Str) (hn : t.isNode = true) (hp : Canon.Spec.Preterminals t) : ∃ r, merge t = some r := by
  induction t using PTree.ind with
  | hleaf i => cases hn
  | hnode l cs ih =>
    rcases Preterminals.good hp with h | ⟨i, rfl⟩
    · obtain ⟨rs, hrs⟩ := mergeL_some fun c hc => ih c hc (h c hc) (Preterminals.child hp c hc)
      exact ⟨_, by rw [merge_nodes l h, hrs]; rfl⟩
    · exact ⟨_, by rw [merge]⟩

theorem mergeL_size {cs : List (PTree Str)} {rs : List (RT Str)}
    (ih : ∀ c ∈ cs, ∀ r, merge c = some r → size r = c.subtrees.length) (h : mergeL cs = some rs) : sizeF rs = (subtreesL cs).length := by
  induction cs generalizing rs with
  | nil => rw [mergeL] at h; simp at h; subst h; simp
  | cons c cs ihc =>
    rw [mergeL] at h
    simp only [Option.bind_eq_some_iff, Option.map_eq_some_iff] at h
    obtain ⟨d, h1, ds, h2, rfl⟩ := h
    simp [ih c (by simp) d h1, ihc (fun x hx => ih x (by simp [hx])) h2]

theorem merge_size (t : PTree Str) (r : RT Str) (h : merge t = some r) : size r = t.subtrees.length := by
  induction t using PTree.ind generalizing r with
  | hleaf i => simp [merge] at h
  | hnode l cs ih =>
    by_cases hc : ∃ i, cs = [.leaf i]
    · obtain ⟨i, rfl⟩ := hc
      rw [merge] at h; simp at h; subst h; simp
    · rw [merge_other _ (fun i e => hc ⟨i, e⟩)] at h
      simp only [Option.map_eq_some_iff] at h
      obtain ⟨rs, h1, rfl⟩ := h
      have := mergeL_size (fun c hc r => ih c hc r) h1
      simp [this]

theorem mergeL_nil {cs : List (PTree Str)} (h : mergeL cs = some []) : cs = [] := by
  cases cs with
  | nil => rfl
  | cons c cs => rw [mergeL] at h; simp [Option.bind_eq_some_iff] at h

theorem mergeL_inj {cs ds : List (PTree Str)} {rs : List (RT Str)}
    (ih : ∀ c ∈ cs, ∀ d r, Canon.Spec.NoEmpty c → Canon.Spec.NoEmpty d → merge c = some r → merge d = some r → c = d)
    (hc : ∀ c ∈ cs, Canon.Spec.NoEmpty c) (hd : ∀ d ∈ ds, Canon.Spec.NoEmpty d)
    (h1 : mergeL cs = some rs) (h2 : mergeL ds = some rs) : cs = ds := by
  induction cs generalizing ds rs with
  | nil => rw [mergeL] at h1; simp at h1; subst h1; exact (mergeL_nil h2).symm
  | cons c cs ihc =>
    rw [mergeL] at h1
    simp only [Option.bind_eq_some_iff, Option.map_eq_some_iff] at h1
    obtain ⟨r, a1, rs', a2, rfl⟩ := h1
    cases ds with
    | nil => simp [mergeL] at h2
    | cons d ds =>
      rw [mergeL] at h2
      simp only [Option.bind_eq_some_iff, Option.map_eq_some_iff] at h2
      obtain ⟨r', b1, rs'', b2, e⟩ := h2
      injection e with e1 e2
      subst e1 e2
      rw [ih c (by simp) d _ (hc c (by simp)) (hd d (by simp)) a1 b1, ihc (fun x hx => ih x (by simp [hx])) (fun x hx => hc x (by simp [hx]))
        (fun x hx => hd x (by simp [hx])) a2 b2]

theorem label_idx_inj {l l' : Str} {i j : Nat} (h : l ++ '-' :: Nat.toDigits 10 i = l' ++ '-' :: Nat.toDigits 10 j) : l = l' ∧ i = j := by
  have h' := congrArg List.reverse h
  simp only [List.reverse_append, List.reverse_cons, List.append_assoc, List.singleton_append] at h'
  have n : ∀ k, '-' ∉ (Nat.toDigits 10 k).reverse := fun k hk => Dop.not_digit (c := '-') rfl k (by simpa using hk)
  obtain ⟨e1, e2⟩ := Dop.append_cons_inj (n i) (n j) h'
  exact ⟨List.reverse_inj.1 e2, Dop.digits_inj (List.reverse_inj.1 e1)⟩

theorem merge_inj (t u : PTree Str) (r : RT Str) (h1 : Canon.Spec.NoEmpty t) (h2 : Canon.Spec.NoEmpty u) (ht : merge t = some r)
    (hu : merge u = some r) : t = u := by
  induction t using PTree.ind generalizing u r with
  | hleaf i => simp [merge] at ht
  | hnode l cs ih =>
    cases u with
    | leaf j => simp [merge] at hu
    | node l' ds =>
      have ne1 : cs ≠ [] := fun e => h1 l (by simp [e])
      have ne2 : ds ≠ [] := fun e => h2 l' (by simp [e])
      by_cases hc : ∃ i, cs = [.leaf i] <;> by_cases hd : ∃ j, ds = [.leaf j]
      · obtain ⟨i, rfl⟩ := hc
        obtain ⟨j, rfl⟩ := hd
        rw [merge] at ht hu
        rw [← hu] at ht
        simp only [Option.some.injEq, RT.node.injEq, and_true] at ht
        obtain ⟨rfl, rfl⟩ := label_idx_inj ht
        rfl
      · obtain ⟨i, rfl⟩ := hc
        rw [merge] at ht
        rw [merge_other _ (fun i e => hd ⟨i, e⟩), ← ht] at hu
        simp only [Option.map_eq_some_iff, RT.node.injEq] at hu
        obtain ⟨rs, e1, _, rfl⟩ := hu
        exact absurd (mergeL_nil e1) ne2
      · obtain ⟨j, rfl⟩ := hd
        rw [merge] at hu
        rw [merge_other _ (fun i e => hc ⟨i, e⟩), ← hu] at ht
        simp only [Option.map_eq_some_iff, RT.node.injEq] at ht
        obtain ⟨rs, e1, _, rfl⟩ := ht
        exact absurd (mergeL_nil e1) ne1
      · rw [merge_other _ (fun i e => hc ⟨i, e⟩)] at ht
        rw [merge_other _ (fun i e => hd ⟨i, e⟩)] at hu
        simp only [Option.map_eq_some_iff] at ht hu
        obtain ⟨rs, e1, rfl⟩ := ht
        obtain ⟨rs', e2, e3⟩ := hu
        simp only [RT.node.injEq] at e3
        obtain ⟨rfl, rfl⟩ := e3
        rw [mergeL_inj (fun c hc d r => ih c hc d r) (NoEmpty.child h1) (NoEmpty.child h2) e1 e2]

theorem canon_subtrees_length (t : PTree Str) : (canon t).subtrees.length = t.subtrees.length := by
  induction t using PTree.ind with
  | hleaf i => simp [canon]
  | hnode l cs ih =>
    have h1 : ∀ {a b : List (PTree Str)}, a.Perm b → (subtreesL a).length = (subtreesL b).length := fun h => by
      simp only [subtreesL_eq_flatMap]; exact (h.flatMap_right _).length_eq
    have h2 : (subtreesL (cs.map canon)).length = (subtreesL cs).length := by
      clear h1
      induction cs with
      | nil => rfl
      | cons c cs ihc => simp [ih c (by simp), ihc fun d hd => ih d (by simp [hd])]
    rw [canon, canonL_eq]
    simp [h1 (StableSort.perm (le := leLeaves) (cs.map canon)), h2]

theorem canon_noEmpty {t : PTree Str} (hp : Canon.Spec.Preterminals t) (hne : Canon.Spec.NoEmpty t) : Canon.Spec.NoEmpty (canon t) := by
  induction t using PTree.ind with
  | hleaf i => simpa [canon] using hne
  | hnode l cs ih =>
    intro l' hm
    rw [canon, canonL_eq, subtrees_node, List.mem_cons] at hm
    rcases hm with h | h
    · simp only [PTree.node.injEq] at h
      have := congrArg List.length h.2
      simp [StableSort.length] at this
      exact hne l (by simp [List.length_eq_zero_iff.1 this.symm])
    · obtain ⟨c, hc, hc2⟩ := mem_subtreesL.1 h
      rw [StableSort.mem] at hc
      obtain ⟨d, hd, rfl⟩ := List.mem_map.1 hc
      exact ih d hd (Preterminals.child hp d hd) (NoEmpty.child hne d hd) l' hc2

theorem prepare_eq {t : PTree Str} (h : Spec.WF t) : ∃ r, prepare t = some r ∧ merge (canon t) = some r ∧ size r = t.subtrees.length := by
  have e := sortTree_eq t h.pre h.ne h.nodup
  have hp : Canon.Spec.Preterminals (canon t) := by
    obtain ⟨u, hu, _, _, hp⟩ := C06_canonicalize t h.pre
    rw [canonicalize_eq t h.pre] at hu
    injection hu with hu
    rw [hu]; exact hp
  obtain ⟨r, hr⟩ := merge_total (canon t) (by rw [canon_isNode]; exact h.node) hp
  exact ⟨r, by rw [prepare, e]; exact hr, hr, by rw [merge_size _ _ hr, canon_subtrees_length]⟩

/-- **C29** `treedist` and `newtreedist` return the tree edit distance of the prepared trees. -/
theorem C29_distance (t u : PTree Str) (ht : Spec.WF t) (hu : Spec.WF u) :
    ∃ r s d, prepare t = some r ∧ prepare u = some s ∧ treedistP t u = some d ∧ newtreedistP t u = some d ∧ Spec.IsDistance [r] [s] d := by
  obtain ⟨r, hr, _⟩ := prepare_eq ht
  obtain ⟨s, hs, _⟩ := prepare_eq hu
  obtain ⟨d, h1, h2⟩ := C29_treedist r s
  have h3 := C29_agree r s
  rw [h1] at h3
  injection h3 with h3
  exact ⟨r, s, d, hr, hs, by simp [treedistP, hr, hs, h1], by simp [newtreedistP, hr, hs, h3], h2⟩

/-- **C29** The distance is zero exactly if the trees are the same up to the order of children (have the same canonical form, see C06). -/
theorem C29_zero (t u : PTree Str) (ht : Spec.WF t) (hu : Spec.WF u) : treedistP t u = some 0 ↔ canonicalize t = canonicalize u := by
  obtain ⟨r, hr, hr2, _⟩ := prepare_eq ht
  obtain ⟨s, hs, hs2, _⟩ := prepare_eq hu
  have h : treedistP t u = some 0 ↔ r = s := by
    have : treedistP t u = some (newtreedist r s) := by simp [treedistP, hr, hs, C29_agree]
    rw [this]
    simp only [Option.some.injEq]
    have := (C29_metric [r] [s] []).1
    simpa [newtreedist] using this
  rw [h, canonicalize_eq t ht.pre, canonicalize_eq u hu.pre]
  constructor
  · rintro rfl
    rw [merge_inj _ _ _ (canon_noEmpty ht.pre ht.ne) (canon_noEmpty hu.pre hu.ne) hr2 hs2]
  · intro e
    simp only [Option.some.injEq] at e
    rw [e, hs2] at hr2
    simpa using hr2.symm

/-- **C29** The distance does not depend on the order of the arguments, and satisfies the triangle inequality. -/
theorem C29_symm_triangle (t u v : PTree Str) (ht : Spec.WF t) (hu : Spec.WF u) (hv : Spec.WF v) :
    ∃ a b c, treedistP t u = some a ∧ treedistP u t = some a ∧ treedistP u v = some b ∧ treedistP t v = some c ∧ c ≤ a + b := by
  obtain ⟨r, hr, _⟩ := prepare_eq ht
  obtain ⟨s, hs, _⟩ := prepare_eq hu
  obtain ⟨w, hw, _⟩ := prepare_eq hv
  refine ⟨newtreedist r s, newtreedist s w, newtreedist r w, ?_, ?_, ?_, ?_, (C29_metric [r] [s] [w]).2.2⟩
  · simp [treedistP, hr, hs, C29_agree]
  · simp [treedistP, hr, hs, C29_agree, newtreedist, (C29_metric [r] [s] [w]).2.1]
  · simp [treedistP, hs, hw, C29_agree]
  · simp [treedistP, hr, hw, C29_agree]

theorem dist_le {α : Type} [DecidableEq α] (F G : List (RT α)) : dist F G ≤ sizeF F + sizeF G := by
  have := (C29_metric F [] G).2.2
  have a := d_left F
  have b := d_right G
  unfold dist at a b ⊢
  omega

theorem dist_same_root {α : Type} [DecidableEq α] (l : α) (F G : List (RT α)) : dist [.node l F] [.node l G] ≤ sizeF F + sizeF G := by
  have := d_both [] [] (.node l F) (.node l G)
  have h := dist_le F G
  have e : strdist l l = 0 := by simp [strdist]
  simp only [List.nil_append, children_node, label_node, d_nil, e] at this
  omega

theorem merge_label {t : PTree Str} {r : RT Str} {l : Str} {cs : List (PTree Str)} (e : t = .node l cs) (hc : ∀ c ∈ cs, c.isNode = true)
    (h : merge t = some r) : r.label = l := by
  subst e
  rw [merge_nodes l hc] at h
  simp only [Option.map_eq_some_iff] at h
  obtain ⟨_, _, rfl⟩ := h
  rfl

/-- **C29** The Dice score `1 - ted / denom` is not negative when the roots count; and also when they do not, if both roots have the same
label and are not preterminals. -/
theorem C29_dice (t u : PTree Str) (ht : Spec.WF t) (hu : Spec.WF u) :
    (∃ ted denom, treedisteval t u true = some (ted, denom) ∧ (ted : Int) ≤ denom) ∧
    (t.label? = u.label? → (∀ c ∈ t.children, c.isNode = true) → (∀ c ∈ u.children, c.isNode = true) →
      ∃ ted denom, treedisteval t u false = some (ted, denom) ∧ (ted : Int) ≤ denom) := by
  obtain ⟨r, hr, hr2, hr3⟩ := prepare_eq ht
  obtain ⟨s, hs, hs2, hs3⟩ := prepare_eq hu
  have e : treedistP t u = some (dist [r] [s]) := by simp [treedistP, hr, hs, C29_agree, newtreedist, dist]
  constructor
  · refine ⟨dist [r] [s], ((t.subtrees ++ u.subtrees).length : Nat), by simp [treedisteval, e], ?_⟩
    have := dist_le [r] [s]
    simp only [sizeF_cons, sizeF_nil] at this
    rw [List.length_append]
    omega
  · intro hl hct hcu
    refine ⟨dist [r] [s], ((t.subtrees ++ u.subtrees).length : Nat) - 2, by simp [treedisteval, e], ?_⟩
    have hlr : r.label = s.label := by
      cases t with
      | leaf i => cases ht.node
      | node l cs =>
        cases u with
        | leaf i => cases hu.node
        | node l' ds =>
          have := merge_label (l := l) (cs := stableSort leLeaves (canonL cs)) (by rw [canon]) (by
            intro c hc
            rw [StableSort.mem, canonL_eq] at hc
            obtain ⟨d, hd, rfl⟩ := List.mem_map.1 hc
            rw [canon_isNode]; exact hct d hd) hr2
          have := merge_label (l := l') (cs := stableSort leLeaves (canonL ds)) (by rw [canon]) (by
            intro c hc
            rw [StableSort.mem, canonL_eq] at hc
            obtain ⟨d, hd, rfl⟩ := List.mem_map.1 hc
            rw [canon_isNode]; exact hcu d hd) hs2
          simp [label?] at hl
          simp [*]
    obtain ⟨a, F⟩ := r
    obtain ⟨b, G⟩ := s
    simp only [label_node] at hlr
    subst hlr
    have := dist_same_root a F G
    simp only [size_node] at hr3 hs3
    rw [List.length_append]
    omega

/-! ### Examples -/

/-- The trees of `test()` (treedist.py:309-321). -/
def exA : PTree Str := .node ['f'] [.node ['d'] [.node ['a'] [.leaf 0], .node ['c'] [.node ['b'] [.leaf 1]]], .node ['e'] [.leaf 2]]
def exB : PTree Str := .node ['f'] [.node ['c'] [.node ['d'] [.node ['a'] [.leaf 0], .node ['b'] [.leaf 1]], .node ['e'] [.leaf 2]]]

/-- Both meet the hypotheses, and their distance is 2 (with both implementations, by `C29_distance`). -/
theorem exWF : Spec.WF exA ∧ Spec.WF exB := by
  have ok : ∀ t : PTree Str, (subtrees t).all (fun s => s.children.all isNode || s.children.all (!isNode ·) && s.children.length == 1) = true →
      Canon.Spec.Preterminals t := by
    intro t h l cs hm
    have := List.all_eq_true.1 h _ hm
    simp only [children, Bool.or_eq_true, Bool.and_eq_true, List.all_eq_true, beq_iff_eq] at this
    rcases this with h1 | ⟨h1, h2⟩
    · exact .inl h1
    · obtain ⟨c, rfl⟩ := List.length_eq_one_iff.1 h2
      have := h1 c (by simp)
      cases c with
      | leaf i => exact .inr ⟨i, rfl⟩
      | node _ _ => simp [isNode] at this
  constructor <;> refine ⟨rfl, ok _ (by decide +kernel), ?_, by decide +kernel⟩ <;> simp [exA, exB, Canon.Spec.NoEmpty]

example : newtreedistP exA exB = some 2 := by decide +kernel
example : treedistP exA exB = some 2 := by
  obtain ⟨r, s, d, _, _, h3, h4, _⟩ := C29_distance exA exB exWF.1 exWF.2
  have : newtreedistP exA exB = some 2 := by decide +kernel
  rw [h3, ← h4, this]
example : canonicalize exA ≠ canonicalize exB := by decide +kernel

/-- Without counting roots, the score of two trees with different roots can be negative: here `ted = 2`, `denom = 1`. -/
theorem C29_dice_root : treedisteval (.node ['A'] [.node ['X'] [.leaf 0]]) (.node ['B'] [.leaf 0]) false = some (2, 1) := by
  decide +kernel

end Disco.Ted
