import Verif.Binarize.Lemmas
/-!
# C01, C02, C03: binarization and unary collapsing

Specification vocabulary (independent of the model functions): `PTree.subtrees`, `PTree.leaves`,
`List.IsInfix` (`<:+:`) for "the label contains the marker".
-/
namespace Disco.Binarize
open Disco PTree

/-- No constituent label of `t` contains the string `p`. -/
def NoMarker (p : Str) (t : HTree) : Prop := ∀ l hd cs, .node (l, hd) cs ∈ t.subtrees → ¬ p <:+: l

/-- **C01.** `unbinarize(binarize(t, **opts), expandunary, ...) == t` (labels, children, order, terminals and
even head marks), for every tree whose labels do not contain the markers, for every option
setting with one-character markers, provided no tail marker is inserted (`tailmarker` empty, or
`rightmostunary` false in which case the tail marker is never used).
`u = some '+'` is `expandunary=True`, `u = none` is `expandunary=False`. -/
theorem C01_unbinarize_binarize (o : Opts) (c p : Char)
    (hcc : o.childchar = [c]) (hpc : o.parentchar = [p]) (hne : c ≠ p)
    (hc : c ∉ ['<', ',', '>']) (hp : p ≠ '<')
    (htail : o.tailmarker = [] ∨ o.rightmostunary = false)
    (u : Option Char) (t : HTree)
    (h1 : NoMarker [c, '<'] t) (h2 : NoMarker [p, '<'] t)
    (h3 : ∀ ch, u = some ch → NoMarker [ch] t) :
    unbinarize o.childchar o.parentchar u (binarize o t) = t := by
  simp only [List.mem_cons, List.not_mem_nil, or_false, not_or] at hc
  rw [unbinarize_binarize_expand o c p ⟨hcc, hpc, hne, hc.1, hc.2.1, hc.2.2, hp⟩ htail u t
    (fun l hd cs hx => ⟨h1 l hd cs hx, h2 l hd cs hx⟩)]
  apply expandTree_id
  intro ch hch l hd cs hx hmem
  refine h3 ch hch l hd cs hx ?_
  obtain ⟨a, b, rfl⟩ := List.append_of_mem hmem
  exact ⟨a, b, by simp⟩

/-- The tree `(S (VP (PDS 0) (ADV 3) (VVINF 4)) (VMFIN 1) (PIS 2))` of the docstring,
with `VMFIN` as head. -/
def exTree : HTree :=
  .node ("S".toList, false) [
    .node ("VP".toList, false) [.node ("PDS".toList, false) [.leaf 0],
      .node ("ADV".toList, false) [.leaf 3], .node ("VVINF".toList, false) [.leaf 4]],
    .node ("VMFIN".toList, true) [.leaf 1], .node ("PIS".toList, false) [.leaf 2]]

/-- The docstring example of `binarize` (treetransforms.py:83-87). -/
example : binarize { horzmarkov := 1, headoutward := true } exTree =
    .node ("S".toList, false) [
      .node ("VP".toList, false) [.node ("PDS".toList, false) [.leaf 0],
        .node ("VP|<ADV>".toList, false) [
          .node ("ADV".toList, false) [.leaf 3], .node ("VVINF".toList, false) [.leaf 4]]],
      .node ("S|<VMFIN>".toList, false) [
        .node ("VMFIN".toList, true) [.leaf 1], .node ("PIS".toList, false) [.leaf 2]]] := by decide

/-- `NoMarker` is decidable by inspecting the finitely many constituents. -/
def noMarkerB (p : Str) (t : HTree) : Bool :=
  t.subtrees.all fun x => match x with
    | .node (l, _) _ => !(Str.find p l).isSome
    | .leaf _ => true

theorem noMarker_of_check {p : Str} {t : HTree} (h : noMarkerB p t = true) : NoMarker p t := by
  intro l hd cs hx hin
  have := List.all_eq_true.1 h _ hx
  simp [(Str.find_isSome_iff p l).2 hin] at this

/-- Non-vacuity of C01: the docstring tree meets the hypotheses with a non-default option set. -/
example : ∃ o : Opts, o.headoutward ∧ o.vertmarkov = 2 ∧ o.leftmostunary ∧
    NoMarker ['|', '<'] exTree ∧ NoMarker ['^', '<'] exTree ∧ NoMarker ['+'] exTree ∧
    unbinarize ['|'] ['^'] (some '+') (binarize o exTree) = exTree ∧ binarize o exTree ≠ exTree :=
  ⟨{ headoutward := true, vertmarkov := 2, leftmostunary := true }, rfl, rfl, rfl,
    noMarker_of_check (by decide), noMarker_of_check (by decide), noMarker_of_check (by decide),
    by decide, by decide⟩

/-- **C01, disagreement.** The hypothesis on `tailmarker` cannot be dropped: with `rightmostunary` and a
tail marker, the label `S|$<C>` does not contain `|<`, so `unbinarize` does not remove the
artificial node (treetransforms.py:197, 235 against 266, 279). -/
theorem C01_tailmarker_not_restored :
    let o : Opts := { rightmostunary := true, tailmarker := ['$'] }
    let t : HTree := .node ("S".toList, false) [.node ("A".toList, false) [.leaf 0],
      .node ("B".toList, false) [.leaf 1], .node ("C".toList, false) [.leaf 2]]
    NoMarker ['|', '<'] t ∧ NoMarker ['^', '<'] t ∧ NoMarker ['+'] t ∧
      unbinarize ['|'] ['^'] (some '+') (binarize o t) ≠ t :=
  ⟨noMarker_of_check (by decide), noMarker_of_check (by decide), noMarker_of_check (by decide),
    by decide⟩

/-- **C02.** After `binarize` with threshold at most 2 each constituent has at most two children. -/
theorem C02_binarize_binary (o : Opts) (hth : o.threshold ≤ 2) (t : HTree) :
    ∀ x ∈ (binarize o t).subtrees, x.children.length ≤ 2 := by
  have := binTree_bin o hth t true [(t.label?.map Prod.fst).getD []]
  simpa [AllBin, binarize] using this

/-- **C02.** `binarize` keeps the sequence of terminals, for all options. -/
theorem C02_binarize_leaves (o : Opts) (t : HTree) : (binarize o t).leaves = t.leaves :=
  binTree_leaves o t _ _

/-- Non-vacuity: a ternary node really gets binarized. -/
example : (exTree.subtrees.any fun x => decide (x.children.length > 2)) = true ∧
    ({} : Opts).threshold ≤ 2 := by decide

/-- **C02, disagreement.** With `threshold=0` and right factoring a unary constituent receives an
additional *empty* artificial constituent (treetransforms.py:149-155: the slice `node[1:2]` of
a one-element list is empty). -/
theorem C02_threshold0_empty_node :
    ∃ x ∈ (binarize { threshold := 0 } (.node ("X".toList, false) [.node ("A".toList, false) [.leaf 0]])).subtrees,
      x.children = [] := by decide

/-- **C03.** `unbinarize(collapseunary(t)) == t` when no label contains the join character or the
binarization markers; equality is on labels, structure and terminals (head marks of merged
nodes are not kept). -/
theorem C03_expand_collapse (collapsepos collapseroot : Bool) (c p j : Char)
    (hj1 : j ≠ c) (hj2 : j ≠ p) (hj3 : j ≠ '<') (t : HTree)
    (h1 : NoMarker [c, '<'] t) (h2 : NoMarker [p, '<'] t) (h3 : NoMarker [j] t) :
    (unbinarize [c] [p] (some j) (collapseunary collapsepos collapseroot [j] t)).mapLabel Prod.fst
      = t.mapLabel Prod.fst := by
  have hnm : AllLabels (fun l => j ∉ l) t := by
    intro l hd cs hx hmem
    refine h3 l hd cs hx ?_
    obtain ⟨a, b, rfl⟩ := List.append_of_mem hmem
    exact ⟨a, b, by simp⟩
  have hj4 : j ∉ [c, '<'] := by simp [hj1, hj3]
  have hj5 : j ∉ [p, '<'] := by simp [hj2, hj3]
  -- on trees without markers, unbinarize is unary expansion
  have hunb : ∀ s : HTree, AllLabels (fun l => ¬ [c, '<'] <:+: l) s →
      AllLabels (fun l => ¬ [p, '<'] <:+: l) s →
      unbinChild [c, '<'] [p, '<'] (some j) s = [expandTree (some j) s] := by
    intro s
    induction s using PTree.ind with
    | hleaf i => intro _ _; simp [expandTree]
    | hnode l cs ih =>
      intro ha hb
      obtain ⟨lab, hd⟩ := l
      have hk : ∀ ds, (∀ d ∈ ds, d ∈ cs) →
          unbinList [c, '<'] [p, '<'] (some j) ds = expandList (some j) ds := by
        intro ds
        induction ds with
        | nil => intro _; simp [expandList]
        | cons d ds ihd =>
          intro hds
          rw [unbinList_cons, expandList,
            ih d (hds d (by simp)) (ha.child (hds d (by simp))) (hb.child (hds d (by simp))),
            ihd (fun x hx => hds x (List.mem_cons_of_mem _ hx))]
          rfl
      rw [unbinChild, if_neg (by rw [Str.find_isSome_iff]; exact ha.root),
        restoreNode_plain hb.root, hk cs (fun _ h => h)]
      simp only [expandTree]
  have hroot : ∀ s : HTree, AllLabels (fun l => ¬ [c, '<'] <:+: l) s →
      AllLabels (fun l => ¬ [p, '<'] <:+: l) s →
      unbinarize [c] [p] (some j) s = expandTree (some j) s := by
    intro s ha hb
    have := hunb s ha hb
    cases s with
    | leaf i => simp [unbinarize, expandTree]
    | node l cs =>
      obtain ⟨lab, hd⟩ := l
      rw [unbinChild, if_neg (by rw [Str.find_isSome_iff]; exact ha.root)] at this
      simpa [unbinarize] using this
  cases t with
  | leaf i => simp [collapseunary, unbinarize]
  | node l cs =>
    simp only [collapseunary]
    split
    · rename_i hlen
      have hkids : ∀ d ∈ collapseList collapsepos [j] cs, ∃ d' ∈ cs, d = collapseChild collapsepos [j] d' := by
        intro d hd
        rw [collapseList_eq_map] at hd
        obtain ⟨d', h, rfl⟩ := List.mem_map.1 hd
        exact ⟨d', h, rfl⟩
      have lift : ∀ q : Str, j ∉ q → NoMarker q (.node l cs) →
          AllLabels (fun l => ¬ q <:+: l) (.node l (collapseList collapsepos [j] cs)) := by
        intro q hq hN l' hd' cs' hx
        rw [subtrees_node, List.mem_cons] at hx
        rcases hx with hx | hx
        · injection hx with hx1 hx2
          exact hN l' hd' cs (by rw [hx1]; simp)
        · obtain ⟨d, hd, hx⟩ := mem_subtreesL.1 hx
          obtain ⟨d', hd'', rfl⟩ := hkids d hd
          exact (collapse_labels j q hq collapsepos d').1
            (AllLabels.child (P := fun l => ¬ q <:+: l) hN hd'') _ _ _ hx
      rw [hroot _ (lift _ hj4 h1) (lift _ hj5 h2)]
      simp only [expandTree]
      obtain ⟨lab, hd⟩ := l
      simp only [expandTree, expandUnary]
      rw [Str.splitAll_of_not_mem hnm.root]
      simp only [expandChain, mapLabel_node, mapLabelL_eq, expandList_eq_map, collapseList_eq_map,
        List.map_map]
      congr 1
      apply List.map_congr_left
      intro d hd
      exact (strip_expand_collapseNode j collapsepos d).1 (hnm.child hd)
    · have e : collapseNode collapsepos [j] l cs = collapseChild collapsepos [j] (.node l cs) := by
        simp [collapseChild]
      rw [e, hroot _ ((collapse_labels j _ hj4 collapsepos _).1 h1)
        ((collapse_labels j _ hj5 collapsepos _).1 h2)]
      exact (strip_expand_collapseNode j collapsepos _).1 hnm

/-- **C03 + C01.** The full preprocessing pipeline: collapse unaries, binarize, then unbinarize restores
the original tree. -/
theorem C03_collapse_binarize_roundtrip (collapsepos : Bool) (o : Opts) (c p j : Char)
    (hcc : o.childchar = [c]) (hpc : o.parentchar = [p]) (hne : c ≠ p)
    (hc : c ∉ ['<', ',', '>']) (hp : p ≠ '<')
    (hj1 : j ≠ c) (hj2 : j ≠ p) (hj3 : j ≠ '<')
    (htail : o.tailmarker = [] ∨ o.rightmostunary = false) (t : HTree)
    (h1 : NoMarker [c, '<'] t) (h2 : NoMarker [p, '<'] t) (h3 : NoMarker [j] t) :
    (unbinarize o.childchar o.parentchar (some j)
      (binarize o (collapseunary collapsepos true [j] t))).mapLabel Prod.fst = t.mapLabel Prod.fst := by
  simp only [List.mem_cons, List.not_mem_nil, or_false, not_or] at hc
  have hj4 : j ∉ [c, '<'] := by simp [hj1, hj3]
  have hj5 : j ∉ [p, '<'] := by simp [hj2, hj3]
  have hnm : AllLabels (fun l => j ∉ l) t := by
    intro l hd cs hx hmem
    refine h3 l hd cs hx ?_
    obtain ⟨a, b, rfl⟩ := List.append_of_mem hmem
    exact ⟨a, b, by simp⟩
  have e : collapseunary collapsepos true [j] t = collapseChild collapsepos [j] t := by
    cases t with
    | leaf i => simp [collapseunary, collapseChild]
    | node l cs => simp [collapseunary, collapseChild]
  rw [e, unbinarize_binarize_expand o c p ⟨hcc, hpc, hne, hc.1, hc.2.1, hc.2.2, hp⟩ htail (some j) _
    (fun l hd cs hx => ⟨(collapse_labels j _ hj4 collapsepos t).1 h1 l hd cs hx,
      (collapse_labels j _ hj5 collapsepos t).1 h2 l hd cs hx⟩)]
  exact (strip_expand_collapseNode j collapsepos t).1 hnm

/-- **C03.** After `collapseunary(t, collapsepos, collapseroot=True)` there is no constituent whose only child
is a constituent that should have been collapsed (any with `collapsepos`, non-preterminal ones
otherwise). -/
theorem C03_no_unaries_left (collapsepos : Bool) (j : Str) (t : HTree)
    (l l' : HLab) (ds : List HTree)
    (hx : .node l [.node l' ds] ∈ (collapseunary collapsepos true j t).subtrees) :
    collapsepos = false ∧ ∀ l'' es rest, ds ≠ .node l'' es :: rest := by
  have e : collapseunary collapsepos true j t = collapseChild collapsepos j t := by
    cases t with
    | leaf i => simp [collapseunary, collapseChild]
    | node l cs => simp [collapseunary, collapseChild]
  rw [e] at hx
  have := (collapse_normal collapsepos j t).1 _ hx l l' ds rfl
  simp only [Bool.or_eq_false_iff] at this
  refine ⟨this.1, ?_⟩
  rintro l'' es rest rfl
  simp [firstIsNode, isNode] at this

/-- Non-vacuity of C03: a unary chain `(TOP (S (NP (NN 0))))` is collapsed to `TOP+S+NP` and restored. -/
example :
    let t : HTree := .node ("TOP".toList, false) [.node ("S".toList, false)
      [.node ("NP".toList, false) [.node ("NN".toList, false) [.leaf 0]]]]
    NoMarker ['|', '<'] t ∧ NoMarker ['^', '<'] t ∧ NoMarker ['+'] t ∧
    collapseunary false true ['+'] t =
      .node ("TOP+S+NP".toList, false) [.node ("NN".toList, false) [.leaf 0]] :=
  ⟨noMarker_of_check (by decide), noMarker_of_check (by decide), noMarker_of_check (by decide),
    by decide⟩

end Disco.Binarize
