import Verif.Ctf.Filter
import Verif.Parse.KbestProps
import Verif.Parse.CellIdx
/-!
# C58: the selection of coarse items: `prunechart` (coarsetofine.pyx:35-170), `getmatchingitems` (173-179), `collectitems` (kbest.pyx:221-234)

Simplifications: exceptions are `none`; sets of items are lists of which only membership matters; the messages are not modelled. The case `0 < k < 1` is `posteriorthreshold`, see C55.
-/
set_option linter.unusedSectionVars false
namespace Disco.Ctf
open Kbest (Deriv RE mapOpt upd)

variable {R : Type} [AddCommMonoid R] [LinearOrder R] [IsOrderedAddMonoid R]

/-! ### Model -/

/-- The coarse chart as used by `prunechart`: the chart of C26 with numbers as items, `root()`, `parseforest.size()`, the numbers of the items (`getitemidx`), `label`, the start and end of an
item, `itemid1`, and `grammar.tblabelmapping`; `posterior` is the result of `posteriorthreshold`. -/
structure CoarseChart (R : Type) where
  chart : Kbest.Chart Nat R
  root : Nat
  size : Nat
  ids : List Nat
  label : Nat → Nat
  span : Nat → Int × Int
  lensent : Int
  itemid1 : Nat → List Nat → Nat
  tblabelmapping : String → List Nat
  posterior : Option (List Nat)

/-- The parameter `k`: `k >= 1`, `k == 0`, `0 < k < 1`, or another value. -/
inductive Crit where
  | kbest (k : Nat)
  | filter
  | posterior
  | invalid

/-- The chart after `lazykbest(chart, k, derivs=False)` (kbest.pyx:264-294): its `rankededges`. -/
def ranked (ch : Kbest.Chart Nat R) (maxdepth root k : Nat) : Option (Kbest.State Nat R) :=
  match ch.kth k maxdepth root k ⟨fun _ => [], fun _ => none, []⟩ with
  | none => none
  | some st => match ch.exploreAll maxdepth root ((st.L root).take (max k 1)) st with
    | none => none
    | some (tmp, st1) => some { st1 with L := upd st1.L root tmp }

/-- `collectitems(v, ej, chart, itemset)` (kbest.pyx:221-234); the first argument bounds the recursion. -/
def collectitems (ch : Kbest.Chart Nat R) (st : Kbest.State Nat R) : Nat → Nat → RE → List Nat → Option (List Nat)
  | 0, _, _, _ => none
  | n + 1, v, re, itemset =>
    match re.edge.rule with
    | none => some (v :: itemset)
    | some _ =>
      let left := match re.left with
        | none => some (v :: itemset)
        | some i => match (st.L (ch.left v re.edge))[i]? with
          | none => none
          | some x => collectitems ch st n (ch.left v re.edge) x.1 (v :: itemset)
      match left with
      | none => none
      | some itemset => match re.right with
        | none => some itemset
        | some j => match (st.L (ch.right v re.edge))[j]? with
          | none => none
          | some x => collectitems ch st n (ch.right v re.edge) x.1 itemset

/-- `getmatchingitems(chart, strlabel, indices)` (coarsetofine.pyx:173-179). -/
def getmatchingitems (c : CoarseChart R) (x : String × List Nat) : List Nat :=
  ((c.tblabelmapping x.1).map (fun n => c.itemid1 n x.2)).filter (fun item => decide (item ≠ 0))

/-- The derivations that have an item for each constraint (coarsetofine.pyx:101-107): pairs of a ranked edge and the items of its derivation. -/
def requiredDerivs (c : CoarseChart R) (st : Kbest.State Nat R) (maxdepth : Nat) (require1 : List (List Nat)) : List (RE × R) → Option (List (List Nat))
  | [] => some []
  | x :: xs => match collectitems c.chart st maxdepth c.root x.1 [] with
    | none => none
    | some itemset => (requiredDerivs c st maxdepth require1 xs).map (fun r =>
        if require1.any (fun matching => matching.all (fun item => decide (item ∉ itemset))) then r else itemset :: r)

/-- The selection with `require` and `k >= 1` (coarsetofine.pyx:89-114). -/
def selectRequire (c : CoarseChart R) (maxdepth k : Nat) (require : List (String × List Nat)) : Option (List Nat) :=
  if c.chart.forest c.root = [] then none
  else match ranked c.chart maxdepth c.root k with
    | none => none
    | some st =>
      if require.any (fun x => (getmatchingitems c x).isEmpty) then none
      else (requiredDerivs c st maxdepth (require.map (getmatchingitems c)) (st.L c.root)).map List.flatten

/-- The selection with `k >= 1` (coarsetofine.pyx:123-129). -/
def selectKbest (c : CoarseChart R) (maxdepth k : Nat) : Option (List Nat) :=
  if c.chart.forest c.root = [] then none
  else (ranked c.chart maxdepth c.root k).map (fun st => (List.range c.size).filter (fun n => !(st.L n).isEmpty))

/-- The items to which each edge points. -/
def kbestForest (ch : Kbest.Chart Nat R) : Forest Nat := fun v => (ch.forest v).map (fun e => match e.rule with
  | none => []
  | some r => if ch.binary r then [ch.left v e, ch.right v e] else [ch.left v e])

/-- The selection of items (coarsetofine.pyx:88-130). `require` is ignored unless `k >= 1`. -/
def selectItems (c : CoarseChart R) (maxdepth depth : Nat) (crit : Crit) (require : List (String × List Nat)) : Option (List Nat) :=
  match crit with
  | .kbest k => if require.isEmpty then selectKbest c maxdepth k else selectRequire c maxdepth k require
  | .posterior => c.posterior
  | .filter => (filter (kbestForest c.chart) c.ids c.root depth).map (fun F => (List.range c.size).filter (fun n => !(F n).isEmpty))
  | .invalid => none

/-- The items that are left after `block` (coarsetofine.pyx:132-139). -/
def blockItems (c : CoarseChart R) (block : List (String × List Nat)) (items : List Nat) : List Nat :=
  items.filter (fun item => decide (item ∉ block.flatMap (getmatchingitems c)))

/-- `whitelist.cfg[span].insert(label)` for each item (coarsetofine.pyx:140-150); for a CFG chart `asCFGspan` is `cellidx(start, end, lensent, 1)` (pcfg.pyx:226-227, 390-394). -/
def indexByCell (c : CoarseChart R) (items : List Nat) (cell : Int) : List Nat :=
  (items.filter (fun x => decide (CellIdx.cellidx (c.span x).1 (c.span x).2 c.lensent 1 = cell))).map c.label

/-- The condition on an item of the fine chart (pcfg.pyx:589-592, 664-666, 691-694, 772-775): true if it is not skipped. -/
def checkcfg (cfg : Int → List Nat) (mapping : Nat → Nat) (lensent : Int) (lhs : Nat) (start stop : Int) : Bool :=
  !(decide (mapping lhs ≠ 0) && decide (mapping lhs ∉ cfg (CellIdx.cellidx start stop lensent 1)))

/-- `DenseCFGChart.itemid1(labelid, indices)` (pcfg.pyx:197-205): `hasedges` says whether `parseforest[item]` has edges. -/
def denseItemid1 (hasedges : Int → Bool) (lensent nonterminals : Int) (labelid : Nat) (indices : List Nat) : Nat :=
  match indices.min?, indices.max? with
  | some left, some right =>
    let item := CellIdx.cellidx left (right + 1) lensent nonterminals + labelid
    if hasedges item then item.toNat else 0
  | _, _ => 0

/-- `cellstruct(start, end) + label` (pcfg.pyx:19-24, pcfg.pxd:40-48): the packed structure of a 32-bit label and two 16-bit positions, read as a little-endian 64-bit number. -/
def cellstruct (start stop label : Nat) : Nat := label + start * 2 ^ 32 + stop * 2 ^ 48

/-- `SparseCFGChart.itemid1(labelid, indices)` (pcfg.pyx:371-379): `itemindex` has the codes of the items in the chart. -/
def sparseItemid1 (itemindex : List Nat) (labelid : Nat) (indices : List Nat) : Nat :=
  match indices.min?, indices.max? with
  | some left, some right =>
    let item := cellstruct left (right + 1) labelid
    if item ∈ itemindex then item else 0
  | _, _ => 0

/-! ### Specification -/

/-- The items of a derivation. -/
def Spec.items (ch : Kbest.Chart Nat R) : Nat → Deriv → List Nat
  | v, .lex _ => [v]
  | v, .un e d => v :: Spec.items ch (ch.left v e) d
  | v, .bin e d d' => v :: (Spec.items ch (ch.left v e) d ++ Spec.items ch (ch.right v e) d')

/-! ### Lemmas -/

theorem lazykbest_ranked (ch : Kbest.Chart Nat R) (maxdepth root k : Nat) :
    ch.lazykbest maxdepth root k = (ranked ch maxdepth root k).bind (fun st => mapOpt (fun x => (ch.getderiv st maxdepth root x.1).map fun d => (d, x.2)) (st.L root)) := by
  rw [Kbest.Chart.lazykbest, ranked]
  cases ch.kth k maxdepth root k ⟨fun _ => [], fun _ => none, []⟩ with
  | none => rfl
  | some st =>
    simp only
    cases ch.exploreAll maxdepth root ((st.L root).take (max k 1)) st with
    | none => rfl
    | some p =>
      obtain ⟨tmp, st1⟩ := p
      simp only [Option.bind_some]
      rw [show upd st1.L root tmp root = tmp from if_pos rfl]

/-- The items of a derivation have ranked edges. -/
theorem getderiv_items (ch : Kbest.Chart Nat R) (st : Kbest.State Nat R) : ∀ (n v : Nat) (re : RE) (d : Deriv), ch.getderiv st n v re = some d →
    ∀ u ∈ Spec.items ch v d, u = v ∨ st.L u ≠ [] := by
  intro n
  induction n with
  | zero => intro v re d h; cases h
  | succ n ih =>
    intro v re d h u hu
    rw [Kbest.Chart.getderiv] at h
    split at h
    · injection h with h; subst h
      rw [Spec.items, List.mem_singleton] at hu
      exact .inl hu
    · split at h
      · cases h
      · split at h
        · cases h
        · rename_i i hi x hx
          split at h
          · cases h
          · rename_i d1 hd1
            have hl : st.L (ch.left v re.edge) ≠ [] := by intro hh; rw [hh] at hx; cases hx
            split at h
            · injection h with h; subst h
              rw [Spec.items] at hu
              rcases List.mem_cons.1 hu with hu | hu
              · exact .inl hu
              · rcases ih _ _ _ hd1 u hu with rfl | h'
                · exact .inr hl
                · exact .inr h'
            · split at h
              · cases h
              · rename_i j hj y hy
                have hr : st.L (ch.right v re.edge) ≠ [] := by intro hh; rw [hh] at hy; cases hy
                obtain ⟨d2, hd2, rfl⟩ := Option.map_eq_some_iff.1 h
                rw [Spec.items] at hu
                rcases List.mem_cons.1 hu with hu | hu
                · exact .inl hu
                · rcases List.mem_append.1 hu with hu | hu
                  · rcases ih _ _ _ hd1 u hu with rfl | h'
                    · exact .inr hl
                    · exact .inr h'
                  · rcases ih _ _ _ hd2 u hu with rfl | h'
                    · exact .inr hr
                    · exact .inr h'

/-- `collectitems` collects the items of the derivation. -/
theorem collectitems_spec (ch : Kbest.Chart Nat R) (st : Kbest.State Nat R) : ∀ (n v : Nat) (re : RE) (d : Deriv), ch.getderiv st n v re = some d →
    ∀ itemset, ∃ res, collectitems ch st n v re itemset = some res ∧ ∀ u, u ∈ res ↔ u ∈ itemset ∨ u ∈ Spec.items ch v d := by
  intro n
  induction n with
  | zero => intro v re d h; cases h
  | succ n ih =>
    intro v re d h itemset
    rw [Kbest.Chart.getderiv] at h
    rw [collectitems]
    split at h
    · rename_i hr
      injection h with h; subst h
      refine ⟨v :: itemset, by rw [hr], fun u => ?_⟩
      rw [Spec.items, List.mem_cons, List.mem_singleton, or_comm]
    · rename_i r hr
      simp only [hr]
      split at h
      · cases h
      · rename_i i hi
        simp only [hi]
        split at h
        · cases h
        · rename_i x hx
          simp only [hx]
          split at h
          · cases h
          · rename_i d1 hd1
            obtain ⟨r1, h1, h1'⟩ := ih _ _ _ hd1 (v :: itemset)
            simp only [h1]
            split at h
            · rename_i hj
              injection h with h; subst h
              simp only [hj]
              refine ⟨r1, rfl, fun u => ?_⟩
              rw [h1', Spec.items, List.mem_cons, List.mem_cons]
              tauto
            · rename_i j hj
              simp only [hj]
              split at h
              · cases h
              · rename_i y hy
                simp only [hy]
                obtain ⟨d2, hd2, rfl⟩ := Option.map_eq_some_iff.1 h
                obtain ⟨r2, h2, h2'⟩ := ih _ _ _ hd2 r1
                refine ⟨r2, h2, fun u => ?_⟩
                rw [h2', h1', Spec.items, List.mem_cons, List.mem_cons, List.mem_append]
                tauto

theorem isDeriv_forest {ch : Kbest.Chart Nat R} {lc : Nat → R} {v : Nat} {d : Deriv} {c : R} (h : Kbest.Spec.IsDeriv ch lc v d c) : ∀ u ∈ Spec.items ch v d, ch.forest u ≠ [] := by
  induction h with
  | lex he _ =>
    intro u hu
    rw [Spec.items, List.mem_singleton] at hu
    subst hu
    exact List.ne_nil_of_mem he
  | un he _ _ _ ih =>
    intro u hu
    rw [Spec.items] at hu
    rcases List.mem_cons.1 hu with rfl | hu
    · exact List.ne_nil_of_mem he
    · exact ih u hu
  | bin he _ _ _ _ ih1 ih2 =>
    intro u hu
    rw [Spec.items] at hu
    rcases List.mem_cons.1 hu with rfl | hu
    · exact List.ne_nil_of_mem he
    · rcases List.mem_append.1 hu with hu | hu
      · exact ih1 u hu
      · exact ih2 u hu

theorem mapOpt_forall₂ {α β : Type} {f : α → Option β} : ∀ {xs : List α} {ys : List β}, mapOpt f xs = some ys → List.Forall₂ (fun x y => f x = some y) xs ys := by
  intro xs
  induction xs with
  | nil => intro ys h; rw [mapOpt] at h; injection h with h; subst h; exact .nil
  | cons x xs ih =>
    intro ys h
    rw [mapOpt] at h
    split at h
    · cases h
    · rename_i y hy
      obtain ⟨ys', h1, rfl⟩ := Option.map_eq_some_iff.1 h
      exact .cons hy (ih h1)

theorem requiredDerivs_spec (c : CoarseChart R) (st : Kbest.State Nat R) (maxdepth : Nat) (require1 : List (List Nat)) {xs : List (RE × R)} {ys : List (Deriv × R)}
    (h : List.Forall₂ (fun x y => ((c.chart.getderiv st maxdepth c.root x.1).map fun d => (d, x.2)) = some y) xs ys) :
    ∃ res, requiredDerivs c st maxdepth require1 xs = some res ∧
      ∀ u, u ∈ res.flatten ↔ ∃ y ∈ ys, (∀ m ∈ require1, ∃ item ∈ m, item ∈ Spec.items c.chart c.root y.1) ∧ u ∈ Spec.items c.chart c.root y.1 := by
  induction h with
  | nil => exact ⟨[], rfl, by simp⟩
  | @cons x y xs ys hxy _ ih =>
    obtain ⟨d, hd, rfl⟩ := Option.map_eq_some_iff.1 hxy
    obtain ⟨items, h1, h1'⟩ := collectitems_spec c.chart st maxdepth c.root x.1 d hd []
    simp only [List.not_mem_nil, false_or] at h1'
    obtain ⟨res, h2, h2'⟩ := ih
    rw [requiredDerivs, h1]
    simp only [h2, Option.map_some]
    refine ⟨_, rfl, fun u => ?_⟩
    simp only [List.mem_cons, exists_eq_or_imp]
    have hany : require1.any (fun matching => matching.all (fun item => decide (item ∉ items))) = true ↔ ¬ ∀ m ∈ require1, ∃ item ∈ m, item ∈ Spec.items c.chart c.root d := by
      simp only [List.any_eq_true, List.all_eq_true, decide_eq_true_eq, h1', not_forall, not_exists, not_and]
      constructor
      · rintro ⟨m, hm, h⟩; exact ⟨m, hm, h⟩
      · rintro ⟨m, hm, h⟩; exact ⟨m, hm, h⟩
    split
    · rename_i hc
      rw [h2', or_iff_right]
      exact fun hh => (hany.1 hc) hh.1
    · rename_i hc
      rw [List.flatten_cons, List.mem_append, h2', h1']
      have : ∀ m ∈ require1, ∃ item ∈ m, item ∈ Spec.items c.chart c.root d := by
        by_contra hh; exact hc (hany.2 hh)
      constructor
      · rintro (h | h)
        · exact .inl ⟨this, h⟩
        · exact .inr h
      · rintro (h | h)
        · exact .inl h.2
        · exact .inr h

/-! ### Properties -/

/-- **C58**: with `k >= 1`, every item of each of the `k` best derivations (C26) is selected. -/
theorem C58_kbest (c : CoarseChart R) {lc : Nat → R} {ht : Nat → Nat} (hok : Kbest.Spec.Ok c.chart lc ht) {maxdepth depth k : Nat} (hroot : c.chart.forest c.root ≠ []) (hd : ht c.root < maxdepth)
    (hk : 0 < k) (hsize : ∀ v, c.chart.forest v ≠ [] → v < c.size) :
    ∃ res sel, c.chart.lazykbest maxdepth c.root k = some res ∧ selectItems c maxdepth depth (.kbest k) [] = some sel ∧
      ∀ x ∈ res, ∀ v ∈ Spec.items c.chart c.root x.1, v ∈ sel := by
  obtain ⟨res, h1, h2, _, h4, _⟩ := Kbest.C26_kbest_sound hok hroot hd hk
  rw [lazykbest_ranked] at h1
  obtain ⟨st, h5, h6⟩ := Option.bind_eq_some_iff.1 h1
  refine ⟨res, (List.range c.size).filter (fun n => !(st.L n).isEmpty), by rw [lazykbest_ranked, h5]; exact h6, ?_, ?_⟩
  · simp [selectItems, selectKbest, hroot, h5]
  · intro x hx v hv
    have hf := mapOpt_forall₂ h6
    obtain ⟨i, hi, rfl⟩ := List.mem_iff_getElem.1 hx
    have hlen := hf.length_eq
    have := (List.forall₂_iff_get.1 hf).2 i (by omega) hi
    simp only [List.get_eq_getElem] at this
    obtain ⟨d, hd1, hd2⟩ := Option.map_eq_some_iff.1 this
    have hroot' : st.L c.root ≠ [] := by
      intro hh
      rw [hh] at hlen
      simp only [List.length_nil] at hlen
      omega
    have hne : st.L v ≠ [] := by
      rcases getderiv_items _ _ _ _ _ _ hd1 v (by rw [← hd2] at hv; exact hv) with rfl | h
      · exact hroot'
      · exact h
    rw [List.mem_filter, List.mem_range]
    exact ⟨hsize v (isDeriv_forest (h4 _ hx) v hv), by simpa using hne⟩

/-- **C58**: with `require` and `k >= 1` there is an exception exactly if some required labelled span matches no item of the chart; otherwise exactly the items of those of the `k` best
derivations are selected which contain a matching item for every required span. -/
theorem C58_require (c : CoarseChart R) {lc : Nat → R} {ht : Nat → Nat} (hok : Kbest.Spec.Ok c.chart lc ht) {maxdepth depth k : Nat} (hroot : c.chart.forest c.root ≠ []) (hd : ht c.root < maxdepth)
    (hk : 0 < k) {require : List (String × List Nat)} (hreq : require ≠ []) :
    ∃ res, c.chart.lazykbest maxdepth c.root k = some res ∧
      (selectItems c maxdepth depth (.kbest k) require = none ↔ ∃ x ∈ require, getmatchingitems c x = []) ∧
      ∀ sel, selectItems c maxdepth depth (.kbest k) require = some sel → ∀ v, v ∈ sel ↔
        ∃ y ∈ res, (∀ x ∈ require, ∃ item ∈ getmatchingitems c x, item ∈ Spec.items c.chart c.root y.1) ∧ v ∈ Spec.items c.chart c.root y.1 := by
  obtain ⟨res, h1, _⟩ := Kbest.C26_kbest_sound hok hroot hd hk
  refine ⟨res, h1, ?_⟩
  rw [lazykbest_ranked] at h1
  obtain ⟨st, h5, h6⟩ := Option.bind_eq_some_iff.1 h1
  obtain ⟨r, h7, h8⟩ := requiredDerivs_spec c st maxdepth (require.map (getmatchingitems c)) (mapOpt_forall₂ h6)
  have hne : require.isEmpty = false := by cases require <;> simp_all
  simp only [selectItems, hne, Bool.false_eq_true, if_false, selectRequire, hroot, h5]
  by_cases hm : require.any (fun x => (getmatchingitems c x).isEmpty) = true
  · simp only [hm, if_true, true_iff, reduceCtorEq, false_imp_iff, implies_true, and_true]
    obtain ⟨x, hx, hx'⟩ := List.any_eq_true.1 hm
    exact ⟨x, hx, List.isEmpty_iff.1 hx'⟩
  · simp only [hm, Bool.false_eq_true, if_false, h7, Option.map_some, reduceCtorEq, false_iff, not_exists, not_and]
    refine ⟨fun x hx hh => hm (List.any_eq_true.2 ⟨x, hx, List.isEmpty_iff.2 hh⟩), ?_⟩
    intro sel hsel v
    injection hsel with hsel; subst hsel
    rw [h8]
    simp only [List.mem_map, forall_exists_index, and_imp, forall_apply_eq_imp_iff₂]

/-- **C58**: with `k = 0` exactly the items that occur in a derivation of the root are selected. -/
theorem C58_k0 (c : CoarseChart R) {maxdepth depth : Nat} (hcl : ∀ x ∈ c.ids, ∀ e ∈ kbestForest c.chart x, ∀ y ∈ e, y ∈ c.ids)
    (hd : ∀ x e, e ∈ kbestForest c.chart x → ∀ y ∈ e, Spec.Derivable (kbestForest c.chart) y) (hr : c.root ∈ c.ids) (hdepth : c.ids.length ≤ depth)
    (hsize : ∀ v ∈ c.ids, v < c.size) (hids : ∀ v, c.chart.forest v ≠ [] → v ∈ c.ids) (require : List (String × List Nat)) :
    ∃ sel, selectItems c maxdepth depth .filter require = some sel ∧ ∀ x, x ∈ sel ↔ Spec.Occurs (kbestForest c.chart) c.root x := by
  obtain ⟨res, h1, h2⟩ := filtersubtree_reach (kbestForest c.chart) c.ids hcl hr hdepth
  obtain ⟨F', h3, h4, h5⟩ := C58_filter (kbestForest c.chart) c.ids hcl hd hr hdepth
  refine ⟨(List.range c.size).filter (fun n => !(F' n).isEmpty), by rw [selectItems, h3]; rfl, fun x => ?_⟩
  have hmem : ∀ x, kbestForest c.chart x ≠ [] → x ∈ c.ids := by
    intro x hx
    exact hids x (by intro hh; rw [kbestForest, hh] at hx; exact hx rfl)
  rw [List.mem_filter, List.mem_range]
  constructor
  · rintro ⟨hx, hx'⟩
    have hne : F' x ≠ [] := by simpa using hx'
    by_cases hin : x ∈ c.ids
    · exact (h4 x hin).1 hne
    · exfalso
      rw [filter, h1] at h3
      injection h3 with h3
      rw [← h3] at hne
      simp only [hin, false_and, if_false] at hne
      exact hin (hmem x hne)
  · intro hx
    have := hmem x (occurs_reach hx).2
    exact ⟨hsize x this, by simpa using (h4 x this).2 hx⟩

/-- **C58**: `block` removes exactly the items that match one of the labelled spans. -/
theorem C58_block (c : CoarseChart R) (block : List (String × List Nat)) (items : List Nat) (v : Nat) :
    v ∈ blockItems c block items ↔ v ∈ items ∧ ¬ ∃ x ∈ block, ∃ n ∈ c.tblabelmapping x.1, c.itemid1 n x.2 = v ∧ v ≠ 0 := by
  rw [blockItems, List.mem_filter, decide_eq_true_eq, List.mem_flatMap]
  simp only [getmatchingitems, List.mem_filter, List.mem_map, decide_eq_true_eq]
  constructor
  · rintro ⟨h1, h2⟩
    refine ⟨h1, ?_⟩
    rintro ⟨x, hx, n, hn, h3, h4⟩
    exact h2 ⟨x, hx, ⟨n, hn, h3⟩, h4⟩
  · rintro ⟨h1, h2⟩
    refine ⟨h1, ?_⟩
    rintro ⟨x, hx, ⟨n, hn, h3⟩, h4⟩
    exact h2 ⟨x, hx, n, hn, h3, h4⟩

/-- **C58**: for a fine CFG, a labelled span passes the check exactly if its label is never blocked or the coarse label with the same span was selected. -/
theorem C58_checkcfg (c : CoarseChart R) (items : List Nat) (hspan : ∀ x ∈ items, CellIdx.Spec.Span c.lensent (c.span x).1 (c.span x).2) (mapping : Nat → Nat) (lhs : Nat) {start stop : Int}
    (h : CellIdx.Spec.Span c.lensent start stop) :
    checkcfg (indexByCell c items) mapping c.lensent lhs start stop = true ↔ mapping lhs = 0 ∨ ∃ x ∈ items, c.label x = mapping lhs ∧ c.span x = (start, stop) := by
  have hin : ∀ l, l ∈ indexByCell c items (CellIdx.cellidx start stop c.lensent 1) ↔ ∃ x ∈ items, c.label x = l ∧ c.span x = (start, stop) := by
    intro l
    rw [indexByCell, List.mem_map]
    constructor
    · rintro ⟨x, hx, rfl⟩
      rw [List.mem_filter, decide_eq_true_eq] at hx
      obtain ⟨e1, e2, _⟩ := CellIdx.C34_injective c.lensent 1 _ _ 0 _ _ 0 (hspan x hx.1) (by omega) h (by omega) (by rw [hx.2])
      exact ⟨x, hx.1, rfl, Prod.ext e1 e2⟩
    · rintro ⟨x, hx, rfl, hs⟩
      exact ⟨x, List.mem_filter.2 ⟨hx, by rw [hs]; simp⟩, rfl⟩
  unfold checkcfg
  rw [Bool.not_eq_true', Bool.and_eq_false_iff]
  simp only [decide_eq_false_iff_not, not_not, hin]

/-- **C58**: in a dense CFG chart a labelled span without gaps matches exactly the item with this label, start and end, provided it has edges. -/
theorem C58_dense_match (hasedges : Int → Bool) (lensent nonterminals : Nat) {labelid : Nat} (hl : labelid < nonterminals) {start stop : Nat} (h : start < stop) (hstop : stop ≤ lensent)
    {start' stop' label' : Nat} (h' : start' < stop') (hstop' : stop' ≤ lensent) (hl' : label' < nonterminals) (hne : CellIdx.cellidx start' stop' lensent nonterminals + label' ≠ 0) :
    denseItemid1 hasedges lensent nonterminals labelid (List.range' start (stop - start)) = (CellIdx.cellidx start' stop' lensent nonterminals + label').toNat ↔
      hasedges (CellIdx.cellidx start stop lensent nonterminals + labelid) = true ∧ start' = start ∧ stop' = stop ∧ label' = labelid := by
  have hmin : (List.range' start (stop - start)).min? = some start := by
    rw [List.min?_eq_some_iff]
    simp only [List.mem_range'_1]
    exact ⟨⟨le_refl _, by omega⟩, fun b hb => hb.1⟩
  have hmax : (List.range' start (stop - start)).max? = some (stop - 1) := by
    rw [List.max?_eq_some_iff]
    simp only [List.mem_range'_1]
    exact ⟨⟨by omega, by omega⟩, fun b hb => by omega⟩
  have hs : ((stop - 1 : Nat) : Int) + 1 = stop := by omega
  have sp : CellIdx.Spec.Span lensent start stop := ⟨by omega, by omega, by omega⟩
  have sp' : CellIdx.Spec.Span lensent start' stop' := ⟨by omega, by omega, by omega⟩
  have r1 := (CellIdx.C34_range lensent nonterminals (by omega) (CellIdx.cellidx start stop lensent nonterminals + labelid)).2 ⟨by omega, start, stop, labelid, sp, by omega, rfl⟩
  have r2 := (CellIdx.C34_range lensent nonterminals (by omega) (CellIdx.cellidx start' stop' lensent nonterminals + label')).2 ⟨by omega, start', stop', label', sp', by omega, rfl⟩
  rw [denseItemid1, hmin, hmax]
  simp only [hs]
  by_cases he : hasedges (CellIdx.cellidx start stop lensent nonterminals + labelid) = true
  · simp only [he, if_true, true_and]
    constructor
    · intro hh
      have : CellIdx.cellidx (start' : Int) stop' lensent nonterminals + label' = CellIdx.cellidx start stop lensent nonterminals + labelid := by omega
      obtain ⟨e1, e2, e3⟩ := CellIdx.C34_injective lensent nonterminals _ _ _ _ _ _ sp' (by omega) sp (by omega) this
      exact ⟨by exact_mod_cast e1, by exact_mod_cast e2, by exact_mod_cast e3⟩
    · rintro ⟨rfl, rfl, rfl⟩
      rfl
  · simp only [he, Bool.false_eq_true, if_false, false_and, iff_false]
    omega

/-- **C58 fails**: a dense CFG chart does not distinguish a required or blocked span with a gap from the span without the gap: here the discontinuous constraint `(A, [0, 2])` matches the item
`A[0:3]`. -/
theorem C58_gap_disagreement : ∃ hasedges, denseItemid1 hasedges 3 5 2 [0, 2] = denseItemid1 hasedges 3 5 2 [0, 1, 2] ∧ denseItemid1 hasedges 3 5 2 [0, 2] ≠ 0 :=
  ⟨fun _ => true, by decide +kernel, by decide +kernel⟩

/-- **C58 fails**: in a sparse CFG chart (with fewer than 2 ^ 48 items) `block` has no effect whatever is blocked, because `itemid1` does not return the number of an item. -/
theorem C58_sparse_block_disagreement (c : CoarseChart R) (itemindex : List Nat) (h : c.itemid1 = sparseItemid1 itemindex) (block : List (String × List Nat)) {items : List Nat}
    (hitems : ∀ v ∈ items, v < 2 ^ 48) : blockItems c block items = items := by
  rw [blockItems, List.filter_eq_self]
  intro v hv
  rw [decide_eq_true_eq, List.mem_flatMap]
  simp only [getmatchingitems, List.mem_filter, List.mem_map, decide_eq_true_eq, h]
  rintro ⟨x, hx, ⟨n, hn, h1⟩, h2⟩
  have h3 := hitems v hv
  unfold sparseItemid1 at h1
  split at h1
  · dsimp only at h1
    split at h1
    · unfold cellstruct at h1; omega
    · exact h2 h1.symm
  · exact h2 h1.symm

/-! ### Examples -/

/-- The chart of `Kbest.exChart` with its items numbered from 1. -/
def exNat : Kbest.Chart Nat Nat where
  forest v := if 1 ≤ v ∧ v ≤ 7 then Kbest.exChart.forest (Fin.ofNat 7 (v - 1)) else []
  vit v := Kbest.exChart.vit (Fin.ofNat 7 (v - 1))
  prob := Kbest.exChart.prob
  binary := Kbest.exChart.binary
  left v e := (Kbest.exChart.left (Fin.ofNat 7 (v - 1)) e).1 + 1
  right v e := (Kbest.exChart.right (Fin.ofNat 7 (v - 1)) e).1 + 1

/-- The labels are S = 1, A = 2, B = 3, C = 4, D = 5. -/
def exCoarseChart : CoarseChart Nat where
  chart := exNat
  root := 1
  size := 8
  ids := [1, 2, 3, 4, 5, 6, 7]
  label v := ([0, 1, 2, 3, 4, 5, 4, 5][v]?).getD 0
  span v := ([(0, 0), (0, 2), (0, 1), (1, 2), (0, 1), (0, 1), (1, 2), (1, 2)][v]?).getD (0, 0)
  lensent := 2
  itemid1 n indices := ((List.range 8).find? (fun v => decide (v ≠ 0 ∧ ([0, 1, 2, 3, 4, 5, 4, 5][v]?).getD 0 = n ∧
    ([[], [0, 1], [0], [1], [0], [0], [1], [1]][v]?).getD [] = indices))).getD 0
  tblabelmapping s := if s = "C" then [4] else if s = "D" then [5] else []
  posterior := none

theorem exNat_ok : Kbest.Spec.Ok exNat (fun _ => 0) (fun v => if v = 1 then 2 else if v ≤ 3 then 1 else 0) := by
  have big : ∀ v, ¬ v < 8 → exNat.forest v = [] := by
    intro v hv
    have : ¬ (1 ≤ v ∧ v ≤ 7) := by omega
    simp [exNat, this]
  have case : ∀ (P : Nat → Prop), (∀ v < 8, P v) → (∀ v, exNat.forest v = [] → P v) → ∀ v, P v := by
    intro P h1 h2 v
    by_cases hv : v < 8
    · exact h1 v hv
    · exact h2 v (big v hv)
  refine Kbest.ok_of_local (case _ ?_ ?_) (case _ ?_ ?_) (case _ ?_ ?_) (case _ ?_ ?_) (case _ ?_ ?_)
  · decide +kernel
  · intro v hv e he; rw [hv] at he; cases he
  · decide +kernel
  · intro v hv e he; rw [hv] at he; cases he
  · decide +kernel
  · intro v hv e he; rw [hv] at he; cases he
  · decide +kernel
  · intro v hv he; exact absurd hv he
  · decide +kernel
  · intro v hv e he; rw [hv] at he; cases he

/-- The hypotheses of `C58_kbest` and `C58_require` hold for this chart. With `k = 1` item 5 (D[0:1]) is not needed; requiring D at position 0 with `k = 1` leaves no derivation; with `k = 4` two of
the four derivations satisfy this; requiring D at position 2 is an exception. -/
example : Kbest.Spec.Ok exCoarseChart.chart (fun _ => 0) (fun v => if v = 1 then 2 else if v ≤ 3 then 1 else 0) ∧ exCoarseChart.chart.forest exCoarseChart.root ≠ [] ∧
    selectItems exCoarseChart 200 9 (.kbest 4) [("D", [0])] = some [6, 3, 5, 2, 1, 7, 3, 5, 2, 1] ∧
    selectItems exCoarseChart 200 9 (.kbest 1) [("D", [0])] = some [] ∧
    selectItems exCoarseChart 200 9 (.kbest 1) [("D", [2])] = none ∧
    selectItems exCoarseChart 200 9 (.kbest 1) [] = some [1, 2, 3, 4, 6] ∧
    blockItems exCoarseChart [("D", [0])] [1, 2, 3, 4, 5] = [1, 2, 3, 4] :=
  ⟨exNat_ok, by decide +kernel, by decide +kernel, by decide +kernel, by decide +kernel, by decide +kernel, by decide +kernel⟩

/-- With `k = 2` the selected items are those of the two best derivations. -/
example : (exNat.lazykbest 200 1 2).map (·.map (fun x => Spec.items exNat 1 x.1)) = some [[1, 2, 4, 3, 6], [1, 2, 4, 3, 7]] ∧
    selectItems exCoarseChart 200 9 (.kbest 2) [] = some [1, 2, 3, 4, 6, 7] :=
  ⟨by decide +kernel, by decide +kernel⟩

example : checkcfg (indexByCell exCoarseChart [1, 2, 3, 4, 6]) (fun n => n) 2 4 0 1 = true ∧ checkcfg (indexByCell exCoarseChart [1, 2, 3, 4, 6]) (fun n => n) 2 5 0 1 = false ∧
    checkcfg (indexByCell exCoarseChart [1, 2, 3, 4, 6]) (fun _ => 0) 2 5 0 1 = true :=
  ⟨by decide +kernel, by decide +kernel, by decide +kernel⟩

end Disco.Ctf
