import Verif.Format.ExportRewrite

/-!
# C85: any table in the export format that encodes a tree is read as that tree

`C14` is about tables that `writeexporttree` wrote. Here the table may come from anywhere (an existing treebank, or the translation of TigerXML): the
rows of phrasal nodes may be in any order and carry any numbers. The model is the one of `Verif.Format.Export` (`readRows`, `parsetree`).
-/
namespace Disco.Export
open PTree

/-! ### Specification -/

/-- A tree whose nodes are rows of a table (with their row numbers), below a node called `par`: the row of a word does not look like the row of a phrasal
node, and has the word as its terminal; the row of a phrasal node has a number, which is what the rows of its children give as their parent. -/
inductive Spec.RowTree : Str → PTree (List Str × Nat) → Prop
  | word {par : Str} {r : List Str} {n : Nat} : isNT (fld r 0) = none → fld r 5 = par → Spec.RowTree par (.node (r, n) [.leaf n])
  | phrase {par : Str} {r : List Str} {n : Nat} {id : Str} {cs : List (PTree (List Str × Nat))} :
      isNT (fld r 0) = some id → fld r 5 = par → (∀ c ∈ cs, Spec.RowTree id c) → Spec.RowTree par (.node (r, n) cs)

/-- The labels of the nodes of a list of trees. -/
def Spec.labels' {L : Type} (cs : List (PTree L)) : List L := (subtreesL cs).filterMap label?

/-- A table encodes a list of trees (the children of the root): every row is a node, exactly once, and no number is used twice. -/
structure Spec.Encodes (rows : List (List Str)) (cs : List (PTree (List Str × Nat))) : Prop where
  tree : ∀ c ∈ cs, Spec.RowTree ['0'] c
  all : (Spec.labels' cs).Perm rows.zipIdx
  numbers : (rows.filterMap fun r => isNT (fld r 0)).Nodup

/-- What a node should look like: its label from the fields of the row, and the row itself. -/
def Spec.nodeLab (act : Morph) (r : List Str) : Lab :=
  match isNT (fld r 0) with
  | some _ => ⟨paren (fld r 2), some r⟩
  | none => ⟨readLabel act r, some r⟩

/-- The tree that a list of row trees stands for. -/
def Spec.decoded (act : Morph) (cs : List (PTree (List Str × Nat))) : PTree Lab :=
  .node rootLab (cs.map (mapLabel fun x => Spec.nodeLab act x.1))

/-! ### Lemmas -/

theorem perm_map_exists {α β : Type} {f : α → β} {L : List β} {K : List α} (h : L.Perm (K.map f)) : ∃ K' : List α, K'.Perm K ∧ K'.map f = L := by
  have h2 : List.Forall₂ (fun x c => x = f c) (K.map f) K := by
    clear h
    induction K with
    | nil => exact .nil
    | cons a K ih => exact .cons rfl ih
  obtain ⟨K', h3, h4⟩ := List.perm_comp_forall₂ h h2
  refine ⟨K', h4, ?_⟩
  clear h h2 h4
  induction h3 with
  | nil => rfl
  | cons h _ ih => rw [List.map_cons, ih, h]

theorem nodup_filterMap_inj {α β : Type} {f : α → Option β} {l : List α} (h : (l.filterMap f).Nodup) {x y : α} (hx : x ∈ l) (hy : y ∈ l) {b : β}
    (h1 : f x = some b) (h2 : f y = some b) : x = y := by
  induction l with
  | nil => simp at hx
  | cons a l ih =>
    rw [List.filterMap_cons] at h
    cases hfa : f a with
    | none =>
      rw [hfa] at h
      have hx' : x ∈ l := by
        rcases List.mem_cons.1 hx with e | e
        · rw [← e, h1] at hfa; cases hfa
        · exact e
      have hy' : y ∈ l := by
        rcases List.mem_cons.1 hy with e | e
        · rw [← e, h2] at hfa; cases hfa
        · exact e
      exact ih h hx' hy'
    | some c =>
      rw [hfa] at h
      rw [List.nodup_cons] at h
      rcases List.mem_cons.1 hx with e | e <;> rcases List.mem_cons.1 hy with e' | e'
      · rw [e, e']
      · rw [← e, h1] at hfa
        injection hfa with hfa
        exact absurd (hfa ▸ List.mem_filterMap.2 ⟨y, e', h2⟩) h.1
      · rw [← e', h2] at hfa
        injection hfa with hfa
        exact absurd (hfa ▸ List.mem_filterMap.2 ⟨x, e, h1⟩) h.1
      · exact ih h.2 e e'

theorem kids_sublist {L : Type} (cs : List (PTree L)) : (cs.filterMap label?).Sublist (Spec.labels' cs) := by
  induction cs with
  | nil => exact .slnil
  | cons c cs ih =>
    rw [Spec.labels', subtreesL_cons, List.filterMap_append]
    cases c with
    | leaf i => rw [List.filterMap_cons_none rfl]; simpa [Spec.labels'] using ih
    | node l ds =>
      rw [List.filterMap_cons]
      simp only [label?, subtrees_node, List.filterMap_cons, List.cons_append]
      exact (ih.trans (List.sublist_append_right _ _)).cons_cons l

theorem subtreesL_sublist {L : Type} {l : L} {ds cs : List (PTree L)} (h : .node l ds ∈ subtreesL cs) : (subtreesL ds).Sublist (subtreesL cs) := by
  have key : ∀ t : PTree L, .node l ds ∈ subtrees t → (subtreesL ds).Sublist (subtrees t) := by
    intro t
    induction t using PTree.ind with
    | hleaf i => intro h; simp at h
    | hnode l' cs' ih =>
      intro h
      rw [subtrees_node, List.mem_cons] at h
      rw [subtrees_node]
      rcases h with h | h
      · injection h with _ h; subst h
        exact List.sublist_cons_self _ _
      · obtain ⟨c, hc, hm⟩ := mem_subtreesL.1 h
        refine (ih c hc hm).trans (.trans ?_ (List.sublist_cons_self _ _))
        rw [subtreesL_eq_flatMap]
        obtain ⟨a, b, e⟩ := List.append_of_mem hc
        rw [e, List.flatMap_append, List.flatMap_cons]
        exact (List.sublist_append_left _ _).trans (List.sublist_append_right _ _)
  obtain ⟨c, hc, hm⟩ := mem_subtreesL.1 h
  refine (key c hm).trans ?_
  rw [subtreesL_eq_flatMap]
  obtain ⟨a, b, e⟩ := List.append_of_mem hc
  rw [e, List.flatMap_append, List.flatMap_cons]
  exact (List.sublist_append_left _ _).trans (List.sublist_append_right _ _)

theorem rowTree_par {par : Str} {c : PTree (List Str × Nat)} (h : Spec.RowTree par c) : ∃ r n ds, c = .node (r, n) ds ∧ fld r 5 = par := by
  cases h with
  | word _ h2 => exact ⟨_, _, _, rfl, h2⟩
  | phrase _ h2 _ => exact ⟨_, _, _, rfl, h2⟩

/-- Every node is a child of the root or of a node with the name its row gives as parent. -/
theorem parent_of {cs : List (PTree (List Str × Nat))} (par0 : Str) (h : ∀ c ∈ cs, Spec.RowTree par0 c) {t : PTree (List Str × Nat)} (ht : t ∈ subtreesL cs) :
    ∃ par, Spec.RowTree par t ∧ ((par = par0 ∧ t ∈ cs) ∨ ∃ r n ds, .node (r, n) ds ∈ subtreesL cs ∧ isNT (fld r 0) = some par ∧ t ∈ ds) := by
  have key : ∀ u : PTree (List Str × Nat), ∀ par, Spec.RowTree par u → t ∈ subtrees u → ∃ par', Spec.RowTree par' t ∧
      ((par' = par ∧ t = u) ∨ ∃ r n ds, .node (r, n) ds ∈ subtrees u ∧ isNT (fld r 0) = some par' ∧ t ∈ ds) := by
    intro u
    induction u using PTree.ind with
    | hleaf i => intro par _ hm; simp at hm
    | hnode l ds ih =>
      intro par hr hm
      rw [subtrees_node, List.mem_cons] at hm
      rcases hm with rfl | hm
      · exact ⟨par, hr, Or.inl ⟨rfl, rfl⟩⟩
      · cases hr with
        | word => simp at hm
        | @phrase _ r n id _ h1 h2 h3 =>
          obtain ⟨c, hc, hm⟩ := mem_subtreesL.1 hm
          obtain ⟨par', k1, k2⟩ := ih c hc id (h3 c hc) hm
          refine ⟨par', k1, Or.inr ?_⟩
          rcases k2 with ⟨rfl, rfl⟩ | ⟨r', n', ds', k3, k4, k5⟩
          · exact ⟨r, n, ds, by simp, h1, hc⟩
          · exact ⟨r', n', ds', by rw [subtrees_node]; exact List.mem_cons_of_mem _ (mem_subtreesL.2 ⟨c, hc, k3⟩), k4, k5⟩
  obtain ⟨c, hc, hm⟩ := mem_subtreesL.1 ht
  obtain ⟨par', k1, k2⟩ := key c par0 (h c hc) hm
  refine ⟨par', k1, ?_⟩
  rcases k2 with ⟨rfl, rfl⟩ | ⟨r', n', ds', k3, k4, k5⟩
  · exact Or.inl ⟨rfl, hc⟩
  · exact Or.inr ⟨r', n', ds', mem_subtreesL.2 ⟨c, hc, k3⟩, k4, k5⟩

theorem isNT_ne_zero {s id : Str} (h : isNT s = some id) : id ≠ ['0'] := by
  intro e
  subst e
  unfold isNT at h
  split at h
  · split at h
    · injection h with h; simp at h
    · cases h
  · cases h

section
variable {rows : List (List Str)} {cs : List (PTree (List Str × Nat))}

theorem Encodes.nodup (h : Spec.Encodes rows cs) : (Spec.labels' cs).Nodup :=
  h.all.symm.nodup (by
    apply List.Nodup.of_map Prod.snd
    rw [List.zipIdx_map_snd]
    exact List.nodup_range')

theorem name_inj {rows : List (List Str)} (h : (rows.filterMap fun r => isNT (fld r 0)).Nodup) {x y : List Str × Nat} (hx : x ∈ rows.zipIdx) (hy : y ∈ rows.zipIdx) {id : Str}
    (h1 : isNT (fld x.1 0) = some id) (h2 : isNT (fld y.1 0) = some id) : x = y := by
  have e : rows.filterMap (fun r => isNT (fld r 0)) = rows.zipIdx.filterMap fun x => isNT (fld x.1 0) := by
    have : rows.zipIdx.map Prod.fst = rows := by simp
    conv_lhs => rw [← this]
    rw [List.filterMap_map]; rfl
  rw [e] at h
  exact nodup_filterMap_inj h hx hy h1 h2

/-- The rows that name a node as their parent are the rows of its children. -/
theorem kids_rows (h : Spec.Encodes rows cs) {r : List Str} {n : Nat} {ds : List (PTree (List Str × Nat))} {id : Str} (hm : .node (r, n) ds ∈ subtreesL cs)
    (hid : isNT (fld r 0) = some id) : (rows.zipIdx.filter fun x => decide (fld x.1 5 = id)).Perm (ds.filterMap label?) := by
  have hnd := Encodes.nodup h
  have hsub : (ds.filterMap label?).Sublist (Spec.labels' cs) := (kids_sublist ds).trans ((subtreesL_sublist hm).filterMap _)
  have hrt : ∀ c ∈ ds, Spec.RowTree id c := by
    obtain ⟨par, k, -⟩ := parent_of _ h.tree hm
    cases k with
    | word k1 => rw [k1] at hid; cases hid
    | phrase k1 _ k3 => rw [k1] at hid; injection hid with hid; subst hid; exact k3
  refine (List.Perm.filter _ h.all.symm).trans ((List.perm_ext_iff_of_nodup (hnd.filter _) (hnd.sublist hsub)).2 fun x => ?_)
  rw [List.mem_filter, decide_eq_true_eq]
  constructor
  · rintro ⟨k1, k2⟩
    obtain ⟨t, k3, k4⟩ := List.mem_filterMap.1 k1
    obtain ⟨par, k5, k6⟩ := parent_of _ h.tree k3
    obtain ⟨r', n', ds', e, k7⟩ := rowTree_par k5
    subst e
    simp only [label?, Option.some.injEq] at k4
    subst k4
    simp only at k2
    rw [k2] at k7
    subst k7
    rcases k6 with ⟨e, -⟩ | ⟨r2, n2, ds2, k8, k9, k10⟩
    · exact absurd e (isNT_ne_zero hid)
    · have e1 : (r2, n2) = (r, n) := name_inj h.numbers (h.all.subset (List.mem_filterMap.2 ⟨_, k8, rfl⟩)) (h.all.subset (List.mem_filterMap.2 ⟨_, hm, rfl⟩)) k9 hid
      have e2 := nodup_filterMap_inj hnd k8 hm (b := (r, n)) (by rw [e1]; rfl) rfl
      injection e2 with _ e2
      rw [← e2]
      exact List.mem_filterMap.2 ⟨_, k10, rfl⟩
  · intro k1
    refine ⟨hsub.subset k1, ?_⟩
    obtain ⟨t, k3, k4⟩ := List.mem_filterMap.1 k1
    obtain ⟨r', n', ds', e, k7⟩ := rowTree_par (hrt t k3)
    subst e
    simp only [label?, Option.some.injEq] at k4
    subst k4
    exact k7

/-- Likewise for the children of the root. -/
theorem root_rows (h : Spec.Encodes rows cs) : (rows.zipIdx.filter fun x => decide (fld x.1 5 = ['0'])).Perm (cs.filterMap label?) := by
  have hnd := Encodes.nodup h
  refine (List.Perm.filter _ h.all.symm).trans ((List.perm_ext_iff_of_nodup (hnd.filter _) (hnd.sublist (kids_sublist cs))).2 fun x => ?_)
  rw [List.mem_filter, decide_eq_true_eq]
  constructor
  · rintro ⟨k1, k2⟩
    obtain ⟨t, k3, k4⟩ := List.mem_filterMap.1 k1
    obtain ⟨par, k5, k6⟩ := parent_of _ h.tree k3
    obtain ⟨r', n', ds', e, k7⟩ := rowTree_par k5
    subst e
    simp only [label?, Option.some.injEq] at k4
    subst k4
    simp only at k2
    rw [k2] at k7
    subst k7
    rcases k6 with ⟨-, k8⟩ | ⟨r2, n2, ds2, k8, k9, k10⟩
    · exact List.mem_filterMap.2 ⟨_, k8, rfl⟩
    · exact absurd rfl (isNT_ne_zero k9)
  · intro k1
    refine ⟨(kids_sublist cs).subset k1, ?_⟩
    obtain ⟨t, k3, k4⟩ := List.mem_filterMap.1 k1
    obtain ⟨r', n', ds', e, k7⟩ := rowTree_par (h.tree t k3)
    subst e
    simp only [label?, Option.some.injEq] at k4
    subst k4
    exact k7

/-- The label of a tree of rows. -/
def topRow : PTree (List Str × Nat) → List Str × Nat
  | .leaf _ => ([], 0)
  | .node x _ => x

theorem topRow_map {K : List (PTree (List Str × Nat))} {par : Str} (h : ∀ c ∈ K, Spec.RowTree par c) : K.filterMap label? = K.map topRow := by
  induction K with
  | nil => rfl
  | cons c K ih =>
    obtain ⟨r, n, ds, rfl, -⟩ := rowTree_par (h c (by simp))
    rw [List.filterMap_cons]
    simp only [label?, List.map_cons, topRow]
    rw [ih fun x hx => h x (by simp [hx])]

theorem mapO_forall₂ {α β : Type} {f : α → Option β} {l : List α} {R : α → β → Prop} (h : ∀ a ∈ l, ∃ b, f a = some b ∧ R a b) :
    ∃ bs, mapO f l = some bs ∧ List.Forall₂ R l bs := by
  induction l with
  | nil => exact ⟨[], rfl, .nil⟩
  | cons a l ih =>
    obtain ⟨b, h1, h2⟩ := h a (by simp)
    obtain ⟨bs, h3, h4⟩ := ih fun x hx => h x (by simp [hx])
    exact ⟨b :: bs, by rw [mapO, h1, h3], .cons h2 h4⟩

/-- The trees that are read below a node. -/
def ReadAs (act : Morph) (K : List (PTree (List Str × Nat))) (es : List (PTree Lab)) : Prop :=
  ∃ ds, List.Forall₂ (fun c d => Canon.Spec.SameUpToOrder (mapLabel (fun x : List Str × Nat => Spec.nodeLab act x.1) c) d) K ds ∧ ds.Perm es

theorem read_node (act : Morph) {K : List (PTree (List Str × Nat))} {es : List (PTree Lab)} (h : ReadAs act K es) (l : Lab) :
    Canon.Spec.SameUpToOrder (.node l (K.map (mapLabel fun x : List Str × Nat => Spec.nodeLab act x.1))) (.node l es) := by
  obtain ⟨ds, h1, h2⟩ := h
  refine .node l _ ds es (Canon.sameL_of_forall₂ ?_) h2
  clear h2
  induction h1 with
  | nil => exact .nil
  | cons h _ ih => exact .cons h ih

theorem getchildren_read (act : Morph) (h : Spec.Encodes rows cs) {d : Dict Str (List (Nat × List Str))}
    (hd : ∀ k, (k = ['0'] ∨ ∃ r ∈ rows, isNT (fld r 0) = some k) →
      Dict.get? d k = some ((rows.zipIdx.filter (fun r => decide (fld r.1 5 = k))).map fun r => (r.2, r.1))) :
    ∀ (f : Nat) (K : List (PTree (List Str × Nat))) (par : Str), (∀ c ∈ K, c ∈ subtreesL cs ∧ Spec.RowTree par c) →
      (rows.zipIdx.filter fun x => decide (fld x.1 5 = par)).Perm (K.filterMap label?) → (par = ['0'] ∨ ∃ r ∈ rows, isNT (fld r 0) = some par) →
      (subtreesL K).length < f → ∃ es, getchildren act d f par = some es ∧ ReadAs act K es := by
  intro f
  induction f with
  | zero => intro K par _ _ _ hf; omega
  | succ f ih =>
    intro K par hK hperm hpar hf
    rw [topRow_map fun c hc => (hK c hc).2] at hperm
    obtain ⟨K', hK1, hK2⟩ := perm_map_exists hperm
    have step : ∀ c ∈ K', ∃ e, (match isNT (fld (topRow c).1 0) with
        | some id => (getchildren act d f id).map fun cs => PTree.node ⟨paren (fld (topRow c).1 2), some (topRow c).1⟩ cs
        | none => some (.node ⟨readLabel act (topRow c).1, some (topRow c).1⟩ [.leaf (topRow c).2])) = some e ∧
        Canon.Spec.SameUpToOrder (mapLabel (fun x : List Str × Nat => Spec.nodeLab act x.1) c) e := by
      intro c hc
      obtain ⟨hc1, hc2⟩ := hK c (hK1.subset hc)
      cases hc2 with
      | @word _ r n h1 h2 =>
        simp only [topRow, h1]
        refine ⟨_, rfl, ?_⟩
        rw [mapLabel_node]
        simp only [Spec.nodeLab, h1]
        exact .node _ _ _ _ (.cons (by rw [mapLabel_leaf]; exact .leaf n) .nil) (List.Perm.refl _)
      | @phrase _ r n id ds h1 h2 h3 =>
        simp only [topRow, h1]
        have hlen : (subtreesL ds).length < f := by
          have : (subtrees (.node (r, n) ds)).length ≤ (subtreesL K).length := by
            rw [subtreesL_eq_flatMap]
            obtain ⟨a, b, e⟩ := List.append_of_mem (hK1.subset hc)
            rw [e, List.flatMap_append, List.flatMap_cons]
            simp only [List.length_append]
            omega
          rw [subtrees_node, List.length_cons] at this
          omega
        have hin : ∀ x ∈ ds, x ∈ subtreesL cs := by
          intro x hx
          obtain ⟨r', n', ds', rfl, -⟩ := rowTree_par (h3 x hx)
          exact (subtreesL_sublist hc1).subset (mem_subtreesL.2 ⟨_, hx, by simp⟩)
        have hr : r ∈ rows := List.fst_mem_of_mem_zipIdx (h.all.subset (List.mem_filterMap.2 ⟨_, hc1, rfl⟩))
        obtain ⟨es, k1, k2⟩ := ih ds id (fun x hx => ⟨hin x hx, h3 x hx⟩) (kids_rows h hc1 h1) (Or.inr ⟨r, hr, h1⟩) hlen
        rw [k1]
        refine ⟨_, rfl, ?_⟩
        rw [mapLabel_node]
        simp only [Spec.nodeLab, h1]
        rw [mapLabelL_eq]
        exact read_node act k2 _
    obtain ⟨es, k1, k2⟩ := mapO_forall₂ step
    refine ⟨es, ?_, ?_⟩
    · rw [getchildren, hd par hpar, Option.getD_some, ← hK2, List.map_map, mapO_map]
      exact k1
    · exact List.perm_comp_forall₂ hK1.symm k2

theorem length_rows (h : Spec.Encodes rows cs) : (subtreesL cs).length = rows.length := by
  have e : (Spec.labels' cs).length = (subtreesL cs).length := by
    rw [Spec.labels', List.filterMap_length_eq_length]
    intro t ht
    obtain ⟨l, ds, rfl⟩ : ∃ l ds, t = .node l ds := by
      obtain ⟨c, -, hm⟩ := mem_subtreesL.1 ht
      exact mem_subtrees_self_isNode hm
    rfl
  rw [← e, h.all.length_eq, List.length_zipIdx]

/-! ### Properties -/

/-- **C85.** Every table that encodes a tree is read as that tree: the same constituents with the labels and fields of their rows, at most the order of
sisters differs; the sentence consists of the words in the order of the table. -/
theorem C85_export_any (act : Morph) (h : Spec.Encodes rows cs) :
    ∃ t, readRows act rows = some (t, (rows.filter fun r => (isNT (fld r 0)).isNone).map (fld · 0)) ∧
      Canon.Spec.SameUpToOrder (Spec.decoded act cs) t := by
  obtain ⟨d, hd1, hd2⟩ := childFill_get rows.zipIdx (childKeys rows) (by
    intro x hx
    have hx' := h.all.symm.subset hx
    obtain ⟨t, k3, k4⟩ := List.mem_filterMap.1 hx'
    obtain ⟨par, k5, k6⟩ := parent_of _ h.tree k3
    obtain ⟨r', n', ds', e, k7⟩ := rowTree_par k5
    subst e
    simp only [label?, Option.some.injEq] at k4
    subst k4
    simp only
    rw [k7, childKeys_get]
    rcases k6 with ⟨rfl, -⟩ | ⟨r2, n2, ds2, k8, k9, -⟩
    · simp
    · rw [if_pos (Or.inr ⟨r2, List.fst_mem_of_mem_zipIdx (h.all.subset (List.mem_filterMap.2 ⟨_, k8, rfl⟩)), k9⟩)]
      rfl)
  obtain ⟨es, k1, k2⟩ := getchildren_read act h (d := d) (fun k hk => by
    rw [hd2, childKeys_get, if_pos hk]
    simp) (rows.length + 1) cs ['0'] (fun c hc => ⟨by
      obtain ⟨r', n', ds', rfl, -⟩ := rowTree_par (h.tree c hc)
      exact mem_subtreesL.2 ⟨_, hc, by simp⟩, h.tree c hc⟩) (root_rows h) (Or.inl rfl) (by rw [length_rows h]; omega)
  refine ⟨.node rootLab es, ?_, read_node act k2 _⟩
  rw [readRows, hd1]
  simp only
  rw [k1]

theorem rowTree_leaves (t : PTree (List Str × Nat)) : ∀ par, Spec.RowTree par t →
    t.leaves = (((subtrees t).filterMap label?).filter fun x => (isNT (fld x.1 0)).isNone).map Prod.snd := by
  induction t using PTree.ind with
  | hleaf i => intro par h; cases h
  | hnode l ds ih =>
    intro par h
    cases h with
    | @word _ r n h1 h2 => simp [label?, h1]
    | @phrase _ r n id _ h1 h2 h3 =>
      have e : (subtrees (.node (r, n) ds)).filterMap label? = (r, n) :: (subtreesL ds).filterMap label? := by rw [subtrees_node]; rfl
      rw [leaves_node, e, List.filter_cons_of_neg (by simp [h1])]
      clear e
      clear h1
      induction ds with
      | nil => rfl
      | cons d ds ih2 =>
        rw [leavesL_cons, subtreesL_cons, List.filterMap_append, List.filter_append, List.map_append, ih d (by simp) id (h3 d (by simp)),
          ih2 (fun c hc => ih c (by simp [hc])) fun c hc => h3 c (by simp [hc])]

theorem mapLabel_leaves {L M : Type} (f : L → M) (t : PTree L) : (mapLabel f t).leaves = t.leaves := by
  induction t using PTree.ind with
  | hleaf i => simp
  | hnode l cs ih =>
    rw [mapLabel_node, leaves_node, leaves_node, mapLabelL_eq]
    induction cs with
    | nil => rfl
    | cons c cs ih2 => rw [List.map_cons, leavesL_cons, leavesL_cons, ih c (by simp), ih2 fun x hx => ih x (by simp [hx])]

theorem decoded_leaves (act : Morph) (cs : List (PTree (List Str × Nat))) : (Spec.decoded act cs).leaves = leavesL cs := by
  rw [Spec.decoded, leaves_node]
  induction cs with
  | nil => rfl
  | cons c cs ih => rw [List.map_cons, leavesL_cons, leavesL_cons, mapLabel_leaves, ih]

theorem encodes_leaves (h : Spec.Encodes rows cs) : (leavesL cs).Perm ((rows.zipIdx.filter fun x => (isNT (fld x.1 0)).isNone).map Prod.snd) := by
  have e : leavesL cs = ((Spec.labels' cs).filter fun x => (isNT (fld x.1 0)).isNone).map Prod.snd := by
    have ht := h.tree
    clear h
    induction cs with
    | nil => rfl
    | cons c cs ih =>
      rw [leavesL_cons, rowTree_leaves c _ (ht c (by simp)), ih fun x hx => ht x (by simp [hx]), Spec.labels', Spec.labels', subtreesL_cons,
        List.filterMap_append, List.filter_append, List.map_append]
  rw [e]
  exact (List.Perm.filter _ h.all).map _

theorem rowTree_preterminals (act : Morph) (t : PTree (List Str × Nat)) : ∀ par, Spec.RowTree par t →
    Canon.Spec.Preterminals (mapLabel (fun x : List Str × Nat => Spec.nodeLab act x.1) t) ∧ (mapLabel (fun x : List Str × Nat => Spec.nodeLab act x.1) t).isNode = true := by
  induction t using PTree.ind with
  | hleaf i => intro par h; cases h
  | hnode l ds ih =>
    intro par h
    cases h with
    | @word _ r n h1 h2 =>
      refine ⟨fun l' cs' hm => ?_, rfl⟩
      rw [mapLabel_node, mapLabelL_eq] at hm
      simp only [List.map_cons, List.map_nil, mapLabel_leaf, subtrees_node, subtreesL_cons, subtrees_leaf, subtreesL_nil, List.append_nil,
        List.mem_singleton] at hm
      injection hm with _ hm
      exact Or.inr ⟨n, hm⟩
    | @phrase _ r n id _ h1 h2 h3 =>
      refine ⟨fun l' cs' hm => ?_, rfl⟩
      rw [mapLabel_node, mapLabelL_eq, subtrees_node, List.mem_cons] at hm
      rcases hm with hm | hm
      · injection hm with _ hm
        subst hm
        refine Or.inl fun c hc => ?_
        obtain ⟨d, hd, rfl⟩ := List.mem_map.1 hc
        exact (ih d hd id (h3 d hd)).2
      · obtain ⟨c, hc, hm⟩ := mem_subtreesL.1 hm
        obtain ⟨d, hd, rfl⟩ := List.mem_map.1 hc
        exact (ih d hd id (h3 d hd)).1 l' cs' hm

theorem decoded_preterminals (act : Morph) (h : Spec.Encodes rows cs) : Canon.Spec.Preterminals (Spec.decoded act cs) := by
  intro l' cs' hm
  rw [Spec.decoded, subtrees_node, List.mem_cons] at hm
  rcases hm with hm | hm
  · injection hm with _ hm
    subst hm
    refine Or.inl fun c hc => ?_
    obtain ⟨d, hd, rfl⟩ := List.mem_map.1 hc
    exact (rowTree_preterminals act d _ (h.tree d hd)).2
  · obtain ⟨c, hc, hm⟩ := mem_subtreesL.1 hm
    obtain ⟨d, hd, rfl⟩ := List.mem_map.1 hc
    exact (rowTree_preterminals act d _ (h.tree d hd)).1 l' cs' hm

/-- **C85.** The corpus reader returns the encoded tree with the sisters in the order of their terminals. When the rows of the words come first, terminal
number `i` of the tree is word number `i` of the sentence, and every word has a place in the tree. -/
theorem C85_export_reader (act : Morph) {toks phs : List (List Str)} (h : Spec.Encodes (toks ++ phs) cs) (ht : ∀ r ∈ toks, isNT (fld r 0) = none)
    (hp : ∀ r ∈ phs, isNT (fld r 0) ≠ none) (hne : Canon.Spec.NoEmpty (Spec.decoded act cs)) :
    ∃ u, parsetree act (toks ++ phs) = some (u, toks.map (fld · 0)) ∧ Canon.Spec.SameUpToOrder (Spec.decoded act cs) u ∧ Canon.Spec.Ordered u ∧
      u.leaves.Perm (List.range toks.length) := by
  have hsent : ((toks ++ phs).filter fun r => (isNT (fld r 0)).isNone) = toks := by
    rw [List.filter_append, List.filter_eq_self.2 fun r hr => by simp [ht r hr], List.filter_eq_nil_iff.2 fun r hr => by simpa using hp r hr, List.append_nil]
  have hl : (leavesL cs).Perm (List.range toks.length) := by
    refine (encodes_leaves h).trans ?_
    rw [List.zipIdx_append, List.filter_append, List.filter_eq_self.2 fun x hx => by simp [ht _ (List.fst_mem_of_mem_zipIdx hx)],
      List.filter_eq_nil_iff.2 fun x hx => by simpa using hp _ (List.fst_mem_of_mem_zipIdx hx), List.append_nil, List.zipIdx_map_snd]
    rw [List.range_eq_range']
  obtain ⟨t, h1, h2⟩ := C85_export_any act h
  rw [hsent] at h1
  have hpre := decoded_preterminals act h
  obtain ⟨u, h3, h4, h5, -⟩ := Canon.C06_canonicalize _ hpre
  have hnd : (Spec.decoded act cs).leaves.Nodup := by rw [decoded_leaves]; exact hl.symm.nodup List.nodup_range
  have hcan := Canon.canonicalize_unique _ _ h2 hpre hne hnd
  have hu : u.leaves.Perm (List.range toks.length) := (Canon.same_leaves_perm h4).symm.trans (by rw [decoded_leaves]; exact hl)
  refine ⟨u, ?_, h4, h5, hu⟩
  rw [parsetree, h1]
  simp only
  rw [if_neg, ← hcan, h3]
  · rfl
  · intro e
    have : toks = [] := List.map_eq_nil_iff.1 e
    subst this
    have h0 := Canon.NoEmpty.leaves_ne hne
    rw [decoded_leaves] at h0
    exact h0 (List.perm_nil.1 hl)

end

/-! ### Examples and disagreements -/

/-- A table with phrasal nodes in an arbitrary order and arbitrary numbers, as in treebanks that were annotated by hand; the VP is discontinuous. -/
def exTable : List (List Str) :=
  [["Was", "was", "PWS", "--", "OA", "777"], ["tut", "tun", "VVFIN", "--", "HD", "512"], ["er", "er", "PPER", "--", "SB", "512"],
   ["?", "?", "$.", "--", "--", "0"], ["#512", "--", "S", "--", "--", "0"], ["#777", "--", "VP", "--", "OC", "512"]].map (·.map String.toList)

/-- The row of the example with a given number. -/
def exRow (n : Nat) : List Str × Nat := ((exTable[n]?).getD [], n)

/-- The tree of the example. -/
def exTree : List (PTree (List Str × Nat)) :=
  [.node (exRow 4) [.node (exRow 1) [.leaf 1], .node (exRow 5) [.node (exRow 0) [.leaf 0]], .node (exRow 2) [.leaf 2]], .node (exRow 3) [.leaf 3]]

/-- The example meets the hypotheses of the theorems. -/
theorem exEncodes : Spec.Encodes exTable exTree where
  tree := by
    intro c hc
    rw [exTree] at hc
    simp only [List.mem_cons, List.not_mem_nil, or_false] at hc
    rcases hc with rfl | rfl
    · refine .phrase (id := "512".toList) (by decide +kernel) (by decide +kernel) fun c hc => ?_
      simp only [List.mem_cons, List.not_mem_nil, or_false] at hc
      rcases hc with rfl | rfl | rfl
      · exact .word (by decide +kernel) (by decide +kernel)
      · refine .phrase (id := "777".toList) (by decide +kernel) (by decide +kernel) fun c hc => ?_
        simp only [List.mem_cons, List.not_mem_nil, or_false] at hc
        subst hc
        exact .word (by decide +kernel) (by decide +kernel)
      · exact .word (by decide +kernel) (by decide +kernel)
    · exact .word (by decide +kernel) (by decide +kernel)
  all := by decide +kernel
  numbers := by decide +kernel

example : (exTable.take 4).all (fun r => (isNT (fld r 0)).isNone) = true ∧ (exTable.drop 4).all (fun r => (isNT (fld r 0)).isSome) = true ∧
    exTable.take 4 ++ exTable.drop 4 = exTable := by decide +kernel

example : Canon.Spec.NoEmpty (Spec.decoded .no exTree) := by
  intro l hm
  rw [exTree, Spec.decoded] at hm
  simp [mapLabelL_eq] at hm

example : (parsetree .no exTable).map (fun x => (mapLabel Lab.label x.1, x.2)) =
    some (PTree.node "ROOT".toList [.node "S".toList [.node "VP".toList [.node "PWS".toList [.leaf 0]], .node "VVFIN".toList [.leaf 1],
      .node "PPER".toList [.leaf 2]], .node "$.".toList [.leaf 3]], ["Was", "tut", "er", "?"].map String.toList) := by decide +kernel

/-- **C85, disagreement.** A table that encodes no tree need not be refused: two phrasal nodes that are each other's parent are left out of the tree
together with the words below them, while the words stay in the sentence. -/
theorem C85_cycle_disagreement : ∃ rows t, readRows .no rows = some (t, ["a".toList, "b".toList]) ∧ t.leaves = [0] := by
  refine ⟨[["a", "--", "A", "--", "--", "0"], ["b", "--", "B", "--", "--", "500"], ["#500", "--", "X", "--", "--", "501"],
    ["#501", "--", "Y", "--", "--", "500"]].map (·.map String.toList), _, rfl, by decide +kernel⟩

/-- **C85, disagreement.** When the row of a word comes after the row of a phrasal node, the number of the terminal is the number of the row, and so
does not point at the word in the sentence (here beyond the end of the sentence). -/
theorem C85_order_disagreement : ∃ rows t, readRows .no rows = some (t, ["a".toList, "b".toList]) ∧ t.leaves = [1, 2] := by
  refine ⟨[["#500", "--", "X", "--", "--", "0"], ["a", "--", "A", "--", "--", "500"], ["b", "--", "B", "--", "--", "500"]].map (·.map String.toList),
    _, rfl, by decide +kernel⟩

end Disco.Export
