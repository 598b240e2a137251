import Mathlib.Data.List.Basic
import Mathlib.Data.List.Perm.Basic
import Mathlib.Data.List.Infix
import Mathlib.Tactic.SplitIfs
import Verif.Trees.Canonical
import Verif.Format.ExportProof
/-!
# C14: the tree that is read is the tree that was written
-/
namespace Disco.Export
open PTree

/-! ### Specification -/

/-- What the export format records of a node, apart from its place in the tree. -/
structure Spec.Info where
  label : Str
  lemma_ : Str
  morph : Str
  func : Str
  deriving DecidableEq

/-- An attribute of a node: the value in the record read from a treebank, `--` when there is no record or the value is empty. -/
def Spec.attr (l : Lab) (i : Nat) : Str :=
  match l.source with
  | none => dash
  | some s => match s[i]? with
    | none => dash
    | some v => if v = [] then dash else v

/-- Only words have a lemma. -/
def Spec.info (l : Lab) (cs : List (PTree Lab)) : Spec.Info :=
  ⟨l.label, match cs with | [.leaf _] => Spec.attr l 1 | _ => dash, Spec.attr l 3, Spec.attr l 4⟩

mutual
/-- A tree with the information that the format records. -/
def Spec.view : PTree Lab → PTree Spec.Info
  | .leaf i => .leaf i
  | .node l cs => .node (Spec.info l cs) (Spec.viewL cs)
/-- The same for sisters. -/
def Spec.viewL : List (PTree Lab) → List (PTree Spec.Info)
  | [] => []
  | c :: cs => Spec.view c :: Spec.viewL cs
end

/-- The tree with the label of the root replaced by `ROOT`: the format does not record the label of the root. -/
def Spec.withRoot (cs : List (PTree Lab)) : PTree Lab := .node ⟨['R', 'O', 'O', 'T'], none⟩ cs

/-- A node that can be written: the label is a field without parentheses; the record, if any, has at least 5 fields, which are empty or can be
written; those of secondary edges are not empty. -/
structure Spec.LabOk (ws : Char → Bool) (l : Lab) : Prop where
  label : Spec.Field ws l.label
  noOpen : '(' ∉ l.label
  noClose : ')' ∉ l.label
  long : ∀ s, l.source = some s → s = [] ∨ 5 ≤ s.length
  fields : ∀ s, l.source = some s → ∀ v ∈ s.drop 1, v = [] ∨ Spec.Field ws v
  edges : ∀ s, l.source = some s → ∀ v ∈ s.drop 6, Spec.Field ws v

/-- A tree and a sentence that can be written: each word has its own preterminal, none directly at the root; the terminals are the positions in
the sentence; all nodes can be written; numbers in records of nodes are numbers; words are fields which do not look like the number of a
node. -/
structure Spec.Writable (ws : Char → Bool) (pyInt : Str → Option Int) (cs : List (PTree Lab)) (sent : List Str) : Prop where
  nodes : ∀ c ∈ cs, c.isNode = true
  preterminals : ∀ c ∈ cs, Canon.Spec.Preterminals c
  terminals : (leavesL cs).Perm (List.range sent.length)
  labels : ∀ l ds, .node l ds ∈ subtreesL cs → Spec.LabOk ws l
  numbers : ∀ l ds w r, .node l ds ∈ subtreesL cs → l.source = some (('#' :: w) :: r) → (pyInt w).isSome
  words : ∀ w ∈ sent, Spec.Field ws w
  noNumbers : ∀ w ∈ sent, isNT w = none

/-- The number of phrasal nodes below the root: nodes that do not dominate a single word directly. -/
def Spec.phrasal (cs : List (PTree Lab)) : Nat :=
  ((subtreesL cs).filter fun t => match t with | .node _ [.leaf _] => false | _ => true).length

/-! ### Lemmas -/

theorem viewL_eq (cs : List (PTree Lab)) : Spec.viewL cs = cs.map Spec.view := by
  induction cs with
  | nil => rfl
  | cons c cs ih => rw [Spec.viewL, ih]; rfl

theorem view_leaves (t : PTree Lab) : (Spec.view t).leaves = t.leaves := by
  induction t using PTree.ind with
  | hleaf i => rfl
  | hnode l cs ih =>
    rw [Spec.view, leaves_node, leaves_node, viewL_eq]
    induction cs with
    | nil => rfl
    | cons c cs ih2 =>
      rw [List.map_cons, leavesL_cons, leavesL_cons, ih c (by simp), ih2 fun d hd => ih d (by simp [hd])]

theorem view_isNode (t : PTree Lab) : (Spec.view t).isNode = t.isNode := by cases t <;> rfl

theorem mem_subtrees_view {x : PTree Spec.Info} (t : PTree Lab) (h : x ∈ subtrees (Spec.view t)) : ∃ y ∈ subtrees t, x = Spec.view y := by
  induction t using PTree.ind with
  | hleaf i => simp [Spec.view] at h
  | hnode l cs ih =>
    rw [Spec.view, subtrees_node, List.mem_cons] at h
    rcases h with rfl | h
    · exact ⟨.node l cs, by rw [subtrees_node]; simp, by rw [Spec.view]⟩
    · rw [viewL_eq] at h
      obtain ⟨d, hd, hx⟩ := mem_subtreesL.1 h
      obtain ⟨c, hc, rfl⟩ := List.mem_map.1 hd
      obtain ⟨y, hy, e⟩ := ih c hc hx
      exact ⟨y, by rw [subtrees_node, List.mem_cons]; exact Or.inr (mem_subtreesL.2 ⟨c, hc, hy⟩), e⟩

theorem view_ordered {t : PTree Lab} (h : Canon.Spec.Ordered t) : Canon.Spec.Ordered (Spec.view t) := by
  intro l cs hm
  obtain ⟨y, hy, e⟩ := mem_subtrees_view t hm
  obtain ⟨m, ds, rfl⟩ := mem_subtrees_self_isNode hy
  rw [Spec.view] at e
  injection e with e1 e2
  subst e2
  rw [viewL_eq, List.pairwise_map]
  refine (h m ds hy).imp ?_
  intro a b hab
  rw [view_leaves, view_leaves]; exact hab

theorem view_preterminals {t : PTree Lab} (h : Canon.Spec.Preterminals t) : Canon.Spec.Preterminals (Spec.view t) := by
  intro l cs hm
  obtain ⟨y, hy, e⟩ := mem_subtrees_view t hm
  obtain ⟨m, ds, rfl⟩ := mem_subtrees_self_isNode hy
  rw [Spec.view] at e
  injection e with e1 e2
  subst e2
  rcases h m ds hy with h1 | ⟨i, rfl⟩
  · left
    intro c hc
    rw [viewL_eq] at hc
    obtain ⟨d, hd, rfl⟩ := List.mem_map.1 hc
    rw [view_isNode]; exact h1 d hd
  · exact Or.inr ⟨i, rfl⟩

theorem view_noEmpty {t : PTree Lab} (h : Canon.Spec.NoEmpty t) : Canon.Spec.NoEmpty (Spec.view t) := by
  intro l hm
  obtain ⟨y, hy, e⟩ := mem_subtrees_view t hm
  obtain ⟨m, ds, rfl⟩ := mem_subtrees_self_isNode hy
  rw [Spec.view] at e
  injection e with e1 e2
  cases ds with
  | nil => exact h m hy
  | cons d ds => rw [Spec.viewL] at e2; simp at e2

theorem info_nodes {l : Lab} {cs : List (PTree Lab)} (h : ∀ c ∈ cs, c.isNode = true) : Spec.info l cs = ⟨l.label, dash, Spec.attr l 3, Spec.attr l 4⟩ := by
  cases cs with
  | nil => rfl
  | cons c cs =>
    cases c with
    | leaf i => have := h (.leaf i) (by simp); simp [PTree.isNode] at this
    | node m ds => rfl

theorem isNode_of_same {L : Type} {t u : PTree L} (h : Canon.Spec.SameUpToOrder t u) : t.isNode = u.isNode := by cases h <;> rfl

theorem view_same (t : PTree Lab) : ∀ {u : PTree Lab}, Canon.Spec.SameUpToOrder t u → Canon.Spec.Preterminals t →
    Canon.Spec.SameUpToOrder (Spec.view t) (Spec.view u) := by
  induction t using PTree.ind with
  | hleaf i => intro u h _; cases h; exact .leaf i
  | hnode l cs ih =>
    intro u h hp
    cases h with
    | node _ _ ds es h1 h2 =>
      have h1' := Canon.forall₂_of_sameL h1
      rw [Spec.view, Spec.view]
      have hnodes : ∀ {as bs : List (PTree Lab)}, List.Forall₂ Canon.Spec.SameUpToOrder as bs → (∀ c ∈ as, c.isNode = true) → ∀ d ∈ bs, d.isNode = true := by
        intro as bs hab
        induction hab with
        | nil => intro _ d hd; simp at hd
        | cons hc _ ih2 =>
          intro ha d hd
          rcases List.mem_cons.1 hd with e | hd
          · rw [e, ← isNode_of_same hc]; exact ha _ (by simp)
          · exact ih2 (fun c hc => ha c (by simp [hc])) d hd
      have hrel : ∀ {as bs : List (PTree Lab)}, List.Forall₂ Canon.Spec.SameUpToOrder as bs → (∀ a ∈ as, a ∈ cs) →
          List.Forall₂ Canon.Spec.SameUpToOrder (as.map Spec.view) (bs.map Spec.view) := by
        intro as bs hab
        induction hab with
        | nil => intro _; exact .nil
        | cons hc _ ih2 =>
          intro ha
          rw [List.map_cons, List.map_cons]
          exact .cons (ih _ (ha _ (by simp)) hc (Canon.Preterminals.child hp _ (ha _ (by simp)))) (ih2 fun a h => ha a (by simp [h]))
      have hinfo : Spec.info l cs = Spec.info l es := by
        rcases Canon.Preterminals.good hp with hg | ⟨i, rfl⟩
        · rw [info_nodes hg, info_nodes]
          intro e he
          exact hnodes h1' hg e (h2.symm.subset he)
        · cases h1' with
          | cons hc hr => cases hc; cases hr; rw [List.perm_singleton.1 h2.symm]
      rw [← hinfo, viewL_eq, viewL_eq]
      exact .node _ _ (ds.map Spec.view) _ (Canon.sameL_of_forall₂ (hrel h1' fun _ h => h)) (h2.map _)

section
variable (pyInt : Str → Option Int) (act : Morph) (ids : List Int) (sent : List Str)

mutual
/-- The tree that is read, with sisters in the original order. -/
def resN (k : Option Nat) (s : Nat) : PTree Lab → PTree Lab
  | .leaf i => .leaf i
  | .node l cs => match firstLeaf cs with
    | some i => readTok pyInt act ids sent ⟨k, i, l, false⟩
    | none => .node ⟨paren (orDash l.label), some (phF pyInt ids ⟨k, s + nphL cs, l, true⟩)⟩ (resNL (some (s + nphL cs)) s cs)
/-- The same for sisters. -/
def resNL (k : Option Nat) (s : Nat) : List (PTree Lab) → List (PTree Lab)
  | [] => []
  | c :: cs => resN k s c :: resNL k (s + nph c) cs
end

theorem resN_pre {k : Option Nat} {s : Nat} {l : Lab} {cs : List (PTree Lab)} {i : Nat} (h : firstLeaf cs = some i) :
    resN pyInt act ids sent k s (.node l cs) = readTok pyInt act ids sent ⟨k, i, l, false⟩ := by rw [resN, h]
theorem resN_phr {k : Option Nat} {s : Nat} {l : Lab} {cs : List (PTree Lab)} (h : firstLeaf cs = none) :
    resN pyInt act ids sent k s (.node l cs) =
      .node ⟨paren (orDash l.label), some (phF pyInt ids ⟨k, s + nphL cs, l, true⟩)⟩ (resNL pyInt act ids sent (some (s + nphL cs)) s cs) := by rw [resN, h]
theorem res_pre {k : Option Nat} {s : Nat} {l : Lab} {cs : List (PTree Lab)} {i : Nat} (h : firstLeaf cs = some i) :
    res pyInt act ids sent k s (.node l cs) = readTok pyInt act ids sent ⟨k, i, l, false⟩ := by rw [res, h]
theorem res_phr {k : Option Nat} {s : Nat} {l : Lab} {cs : List (PTree Lab)} (h : firstLeaf cs = none) :
    res pyInt act ids sent k s (.node l cs) =
      .node ⟨paren (orDash l.label), some (phF pyInt ids ⟨k, s + nphL cs, l, true⟩)⟩ (order (resL pyInt act ids sent (some (s + nphL cs)) s cs)) := by rw [res, h]

theorem same_res (t : PTree Lab) : ∀ k s, Canon.Spec.SameUpToOrder (resN pyInt act ids sent k s t) (res pyInt act ids sent k s t) := by
  induction t using PTree.ind with
  | hleaf i => intro k s; rw [resN, res]; exact .leaf i
  | hnode l cs ih =>
    intro k s
    cases h : firstLeaf cs with
    | some i =>
      rw [resN_pre _ _ _ _ h, res_pre _ _ _ _ h, readTok]
      exact .node _ _ _ _ (.cons (.leaf _) .nil) (List.Perm.refl _)
    | none =>
      rw [resN_phr _ _ _ _ h, res_phr _ _ _ _ h]
      have hL : ∀ (ds : List (PTree Lab)) (k : Option Nat) (s : Nat), (∀ d ∈ ds, d ∈ cs) →
          Canon.Spec.SameUpToOrderL (resNL pyInt act ids sent k s ds) (resL pyInt act ids sent k s ds) := by
        intro ds
        induction ds with
        | nil => intro k s _; rw [resNL, resL]; exact .nil
        | cons d ds ihd =>
          intro k s hd
          rw [resNL, resL]
          exact .cons (ih d (hd d (by simp)) _ _) (ihd _ _ fun x hx => hd x (by simp [hx]))
      exact .node _ _ _ _ (hL cs _ _ fun _ h => h) (order_perm _).symm

theorem same_resL (cs : List (PTree Lab)) (k : Option Nat) (s : Nat) :
    Canon.Spec.SameUpToOrderL (resNL pyInt act ids sent k s cs) (resL pyInt act ids sent k s cs) := by
  induction cs generalizing s with
  | nil => rw [resNL, resL]; exact .nil
  | cons d ds ihd => rw [resNL, resL]; exact .cons (same_res _ _ _ _ d _ _) (ihd _)

/-- A property of nodes and their images. -/
theorem resNL_forall₂ {R : PTree Lab → PTree Lab → Prop} (cs : List (PTree Lab)) (k : Option Nat)
    (h : ∀ c ∈ cs, ∀ s, R c (resN pyInt act ids sent k s c)) : ∀ s, List.Forall₂ R cs (resNL pyInt act ids sent k s cs) := by
  induction cs with
  | nil => intro s; rw [resNL]; exact .nil
  | cons c cs ih => intro s; rw [resNL]; exact .cons (h c (by simp) s) (ih (fun c hc => h c (by simp [hc])) _)

theorem resN_leaves (t : PTree Lab) : Good t → ∀ k s, (resN pyInt act ids sent k s t).leaves = t.leaves := by
  induction t using PTree.ind with
  | hleaf i => intro _ k s; rw [resN]
  | hnode l cs ih =>
    intro hg k s
    cases h : firstLeaf cs with
    | some i =>
      rw [resN_pre _ _ _ _ h, readTok, good_pre hg h]; simp
    | none =>
      rw [resN_phr _ _ _ _ h, leaves_node, leaves_node]
      have := resNL_forall₂ pyInt act ids sent (R := fun a b => b.leaves = a.leaves) cs (some (s + nphL cs))
        (fun c hc s => ih c hc (good_kids hg h c hc) _ s) s
      generalize resNL pyInt act ids sent (some (s + nphL cs)) s cs = ds at this
      clear ih hg h
      induction this with
      | nil => rfl
      | cons h1 _ ih2 => rw [leavesL_cons, leavesL_cons, h1, ih2]

theorem resN_isNode (t : PTree Lab) (k : Option Nat) (s : Nat) : (resN pyInt act ids sent k s t).isNode = t.isNode := by
  cases t with
  | leaf i => rw [resN]
  | node l cs =>
    cases h : firstLeaf cs with
    | some i => rw [resN_pre _ _ _ _ h]; rfl
    | none => rw [resN_phr _ _ _ _ h]; rfl

theorem mem_resNL {cs : List (PTree Lab)} {k : Option Nat} {s : Nat} {d : PTree Lab} (hd : d ∈ resNL pyInt act ids sent k s cs) :
    ∃ c ∈ cs, ∃ s', d = resN pyInt act ids sent k s' c := by
  induction cs generalizing s with
  | nil => rw [resNL] at hd; simp at hd
  | cons c cs ih =>
    rw [resNL, List.mem_cons] at hd
    rcases hd with rfl | hd
    · exact ⟨c, by simp, s, rfl⟩
    · obtain ⟨c', hc, r⟩ := ih hd
      exact ⟨c', by simp [hc], r⟩

/-- Every subtree of what is read comes from a subtree of what was written. -/
theorem mem_subtrees_resN (t : PTree Lab) : Good t → ∀ k s, ∀ x ∈ subtrees (resN pyInt act ids sent k s t),
    ∃ y ∈ subtrees t, Good y ∧ ∃ k' s', x = resN pyInt act ids sent k' s' y := by
  induction t using PTree.ind with
  | hleaf i => intro _ k s x hx; rw [resN] at hx; simp at hx
  | hnode l cs ih =>
    intro hg k s x hx
    have hself : (.node l cs : PTree Lab) ∈ subtrees (.node l cs) := by rw [subtrees_node]; simp
    cases h : firstLeaf cs with
    | some i =>
      rw [resN_pre _ _ _ _ h, readTok, subtrees_node] at hx
      simp at hx
      exact ⟨_, hself, hg, k, s, by rw [resN_pre _ _ _ _ h, hx, readTok]⟩
    | none =>
      rw [resN_phr _ _ _ _ h, subtrees_node, List.mem_cons] at hx
      rcases hx with rfl | hx
      · exact ⟨_, hself, hg, k, s, by rw [resN_phr _ _ _ _ h]⟩
      · obtain ⟨d, hd, hx⟩ := mem_subtreesL.1 hx
        obtain ⟨c, hc, s', e⟩ := mem_resNL pyInt act ids sent hd
        rw [e] at hx
        obtain ⟨y, hy, r⟩ := ih c hc (good_kids hg h c hc) _ _ x hx
        exact ⟨y, by rw [subtrees_node, List.mem_cons]; exact Or.inr (mem_subtreesL.2 ⟨c, hc, hy⟩), r⟩

theorem resNL_leaves (cs : List (PTree Lab)) (hg : ∀ c ∈ cs, Good c) (k : Option Nat) (s : Nat) :
    leavesL (resNL pyInt act ids sent k s cs) = leavesL cs := by
  induction cs generalizing s with
  | nil => rw [resNL]
  | cons c cs ih => rw [resNL, leavesL_cons, leavesL_cons, resN_leaves _ _ _ _ _ (hg c (by simp)), ih fun d hd => hg d (by simp [hd])]

theorem resN_preterminals (t : PTree Lab) (hg : Good t) (k : Option Nat) (s : Nat) : Canon.Spec.Preterminals (resN pyInt act ids sent k s t) := by
  intro l cs hm
  obtain ⟨y, hy, hgy, k', s', e⟩ := mem_subtrees_resN pyInt act ids sent t hg k s _ hm
  obtain ⟨m, ds, rfl⟩ := mem_subtrees_self_isNode hy
  cases h : firstLeaf ds with
  | some i =>
    rw [resN_pre _ _ _ _ h, readTok] at e
    injection e with _ e2
    exact Or.inr ⟨i, e2⟩
  | none =>
    rw [resN_phr _ _ _ _ h] at e
    injection e with _ e2
    subst e2
    left
    intro d hd
    obtain ⟨c, hc, s'', rfl⟩ := mem_resNL pyInt act ids sent hd
    rw [resN_isNode]; exact (good_kids hgy h c hc).2

theorem resN_ordered (t : PTree Lab) (hg : Good t) (ho : Canon.Spec.Ordered t) (k : Option Nat) (s : Nat) :
    Canon.Spec.Ordered (resN pyInt act ids sent k s t) := by
  intro l cs hm
  obtain ⟨y, hy, hgy, k', s', e⟩ := mem_subtrees_resN pyInt act ids sent t hg k s _ hm
  obtain ⟨m, ds, rfl⟩ := mem_subtrees_self_isNode hy
  cases h : firstLeaf ds with
  | some i =>
    rw [resN_pre _ _ _ _ h, readTok] at e
    injection e with _ e2
    rw [e2]; simp
  | none =>
    rw [resN_phr _ _ _ _ h] at e
    injection e with e1 e2
    subst e2
    clear e1
    have h1 := ho m ds hy
    have h2 := good_kids hgy h
    generalize some (s' + nphL ds) = k2
    clear h hy hgy ho hm
    induction ds generalizing s' with
    | nil => rw [resNL]; exact .nil
    | cons d ds ih =>
      rw [List.pairwise_cons] at h1
      rw [resNL, List.pairwise_cons]
      refine ⟨?_, ih _ h1.2 fun c hc => h2 c (by simp [hc])⟩
      intro b hb
      obtain ⟨c, hc, s'', rfl⟩ := mem_resNL pyInt act ids sent hb
      rw [resN_leaves _ _ _ _ _ (h2 d (by simp)), resN_leaves _ _ _ _ _ (h2 c (by simp [hc]))]
      exact h1.1 c hc

theorem resN_noEmpty (t : PTree Lab) (hg : Good t) (hn : Canon.Spec.NoEmpty t) (k : Option Nat) (s : Nat) :
    Canon.Spec.NoEmpty (resN pyInt act ids sent k s t) := by
  intro l hm
  obtain ⟨y, hy, hgy, k', s', e⟩ := mem_subtrees_resN pyInt act ids sent t hg k s _ hm
  obtain ⟨m, ds, rfl⟩ := mem_subtrees_self_isNode hy
  cases h : firstLeaf ds with
  | some i =>
    rw [resN_pre _ _ _ _ h, readTok] at e
    injection e with _ e2
    simp at e2
  | none =>
    rw [resN_phr _ _ _ _ h] at e
    injection e with _ e2
    cases ds with
    | nil => exact hn m hy
    | cons d ds => rw [resNL] at e2; simp at e2

end

/-! ### Attributes -/

theorem attrs_isSome {ws : Char → Bool} {l : Lab} (h : Spec.LabOk ws l) : (attrs l).isSome := by
  rw [attrs]
  cases hs : l.source with
  | none => rfl
  | some s =>
    rcases h.long s hs with rfl | h5
    · rfl
    · obtain ⟨a, b, c, d, e, r, rfl⟩ : ∃ a b c d e r, s = a :: b :: c :: d :: e :: r := by
        rcases s with _ | ⟨a, _ | ⟨b, _ | ⟨c, _ | ⟨d, _ | ⟨e, r⟩⟩⟩⟩⟩ <;> simp at h5
        exact ⟨_, _, _, _, _, _, rfl⟩
      rfl

theorem attrsD_eq {ws : Char → Bool} {l : Lab} (h : Spec.LabOk ws l) : attrsD l = (Spec.attr l 1, Spec.attr l 3, Spec.attr l 4) := by
  rw [attrsD, attrs, Spec.attr, Spec.attr, Spec.attr]
  cases hs : l.source with
  | none => rfl
  | some s =>
    rcases h.long s hs with rfl | h5
    · rfl
    · obtain ⟨a, b, c, d, e, r, rfl⟩ : ∃ a b c d e r, s = a :: b :: c :: d :: e :: r := by
        rcases s with _ | ⟨a, _ | ⟨b, _ | ⟨c, _ | ⟨d, _ | ⟨e, r⟩⟩⟩⟩⟩ <;> simp at h5
        exact ⟨_, _, _, _, _, _, rfl⟩
      rfl

theorem attr_ne (l : Lab) (i : Nat) : Spec.attr l i ≠ [] := by
  rw [Spec.attr]
  split
  · decide
  · split
    · decide
    · split
      · decide
      · assumption

theorem paren_id {s : Str} (h1 : '(' ∉ s) (h2 : ')' ∉ s) : paren s = s := by
  induction s with
  | nil => rfl
  | cons c s ih =>
    rw [List.mem_cons, not_or] at h1 h2
    rw [paren, List.map_cons, if_neg (Ne.symm h1.1), if_neg (Ne.symm h2.1)]
    congr 1
    exact ih h1.2 h2.2

theorem paren_replace (s : Str) : paren (Escape.replace ['$', '['] ['$', '('] s) = paren s := by
  induction hn : s.length using Nat.strong_induction_on generalizing s with
  | _ n ih =>
    cases s with
    | nil => rw [Escape.replace_nil]
    | cons c s =>
      by_cases hp : ['$', '['] <+: c :: s
      · obtain ⟨r, hr⟩ := hp
        rw [← hr, Escape.replace_hit _ _ _ (by simp)]
        have : r.length < n := by rw [← hn, ← hr]; simp; omega
        simp only [paren, List.map_append]
        have h := ih r.length this r rfl
        simp only [paren] at h
        rw [h]; rfl
      · rw [Escape.replace_miss _ _ _ _ hp]
        have h := ih s.length (by rw [← hn]; simp) s rfl
        simp only [paren, List.map_cons] at h ⊢
        rw [h]

theorem replace_ne {s : Str} (h : s ≠ []) : Escape.replace ['$', '['] ['$', '('] s ≠ [] := by
  intro e
  have := paren_replace s
  rw [e] at this
  simp [paren] at this
  exact h this

theorem orDash_ne {s : Str} (h : s ≠ []) : orDash s = s := by rw [orDash, if_neg h]

section
variable (pyInt : Str → Option Int) (ids : List Int) (sent : List Str) {ws : Char → Bool}

theorem attr_row {a b c d e f : Str} {l : Str} {r : List Str} (h1 : b ≠ []) (h3 : d ≠ []) (h4 : e ≠ []) :
    Spec.attr ⟨l, some ([a, b, c, d, e, f] ++ r)⟩ 1 = b ∧ Spec.attr ⟨l, some ([a, b, c, d, e, f] ++ r)⟩ 3 = d ∧
      Spec.attr ⟨l, some ([a, b, c, d, e, f] ++ r)⟩ 4 = e := by
  simp [Spec.attr, h1, h3, h4]

theorem view_resN (t : PTree Lab) : Good t → (∀ l ds, .node l ds ∈ subtrees t → Spec.LabOk ws l) → ∀ k s,
    Spec.view (resN pyInt .no ids sent k s t) = Spec.view t := by
  induction t using PTree.ind with
  | hleaf i => intro _ _ k s; rw [resN]
  | hnode l cs ih =>
    intro hg hl k s
    have hok := hl l cs (by rw [subtrees_node]; simp)
    have hA := attrsD_eq hok
    cases h : firstLeaf cs with
    | some i =>
      have hcs := good_pre hg h
      subst hcs
      rw [resN_pre _ _ _ _ h, readTok, Spec.view, Spec.view, Spec.info, Spec.info]
      simp only [readLabel]
      congr 1
      have e2 : fld (tokF pyInt .no ids (wordAt sent ⟨k, i, l, false⟩) ⟨k, i, l, false⟩) 2 = Escape.replace ['$', '['] ['$', '('] l.label := by
        simp [fld, tokF, tagMorph, orDash_ne (replace_ne hok.label.ne)]
      have ha := attr_row (a := if wordAt sent ⟨k, i, l, false⟩ = [] then ['.', '.', '.'] else wordAt sent ⟨k, i, l, false⟩) (b := Spec.attr l 1)
        (c := (tagMorph .no l.label (Spec.attr l 3)).1) (d := Spec.attr l 3) (e := Spec.attr l 4) (f := parStr k)
        (l := paren (Escape.replace ['$', '['] ['$', '('] l.label)) (r := secEdges pyInt ids l) (attr_ne _ _) (attr_ne _ _) (attr_ne _ _)
      have hrow : tokF pyInt .no ids (wordAt sent ⟨k, i, l, false⟩) ⟨k, i, l, false⟩ =
          [if wordAt sent ⟨k, i, l, false⟩ = [] then ['.', '.', '.'] else wordAt sent ⟨k, i, l, false⟩, Spec.attr l 1,
            (tagMorph .no l.label (Spec.attr l 3)).1, Spec.attr l 3, Spec.attr l 4, parStr k] ++ secEdges pyInt ids l := by
        rw [tokF, hA]; simp [tagMorph]
      rw [e2, hrow, ha.1, ha.2.1, ha.2.2, paren_replace, paren_id hok.noOpen hok.noClose]
    | none =>
      rw [resN_phr _ _ _ _ h, Spec.view, Spec.view, info_nodes, info_nodes]
      · have ha := attr_row (a := '#' :: ident (s + nphL cs)) (b := dash) (c := orDash l.label) (d := Spec.attr l 3) (e := Spec.attr l 4) (f := parStr k)
          (l := paren (orDash l.label)) (r := secEdges pyInt ids l) (by decide) (attr_ne _ _) (attr_ne _ _)
        have hrow : phF pyInt ids ⟨k, s + nphL cs, l, true⟩ =
            ['#' :: ident (s + nphL cs), dash, orDash l.label, Spec.attr l 3, Spec.attr l 4, parStr k] ++ secEdges pyInt ids l := by
          rw [phF, hA]
        rw [hrow, ha.2.1, ha.2.2]
        simp only
        rw [orDash_ne hok.label.ne, paren_id hok.noOpen hok.noClose]
        congr 1
        have := resNL_forall₂ pyInt .no ids sent (R := fun a b => Spec.view b = Spec.view a) cs (some (s + nphL cs))
          (fun c hc s => ih c hc (good_kids hg h c hc)
            (fun l ds hm => hl l ds (by rw [subtrees_node, List.mem_cons]; exact Or.inr (mem_subtreesL.2 ⟨c, hc, hm⟩))) _ s) s
        generalize resNL pyInt .no ids sent (some (s + nphL cs)) s cs = ds at this
        clear ih hg h hl ha hrow
        induction this with
        | nil => rfl
        | cons h1 _ ih2 => rw [Spec.viewL, Spec.viewL, h1, ih2]
      · exact fun c hc => (good_kids hg h c hc).2
      · intro d hd
        obtain ⟨c, hc, s', rfl⟩ := mem_resNL _ _ _ _ hd
        rw [resN_isNode]; exact (good_kids hg h c hc).2

theorem view_resNL (cs : List (PTree Lab)) (hg : ∀ c ∈ cs, Good c) (hl : ∀ l ds, .node l ds ∈ subtreesL cs → Spec.LabOk ws l) (k : Option Nat) (s : Nat) :
    Spec.viewL (resNL pyInt .no ids sent k s cs) = Spec.viewL cs := by
  induction cs generalizing s with
  | nil => rw [resNL]
  | cons c cs ih =>
    rw [resNL, Spec.viewL, Spec.viewL, view_resN pyInt ids sent c (hg c (by simp)) (fun l ds hm => hl l ds (by rw [subtreesL_cons]; simp [hm])),
      ih (fun c hc => hg c (by simp [hc])) fun l ds hm => hl l ds (by rw [subtreesL_cons]; simp [hm])]

end

theorem items_labs (t : PTree Lab) : ∀ (par : Option Nat) (s : Nat), ∀ x ∈ itemsP par s t, ∃ ds, .node x.lab ds ∈ subtrees t := by
  induction t using PTree.ind with
  | hleaf i => intro par s x hx; simp [itemsP] at hx
  | hnode l cs ih =>
    intro par s x hx
    cases h : firstLeaf cs with
    | some i => rw [itemsP_pre h, List.mem_singleton] at hx; subst hx; exact ⟨cs, by rw [subtrees_node]; simp⟩
    | none =>
      rw [itemsP_phr h, List.mem_append, List.mem_singleton] at hx
      rcases hx with hx | rfl
      · have := itemsL_of (par := some (s + nphL cs)) (cs := cs) (P := fun _ _ x => ∃ ds, (.node x.lab ds : PTree Lab) ∈ subtreesL cs)
          (fun _ _ _ _ _ _ _ h => h) (fun c hc s x hx => by
            obtain ⟨ds, h⟩ := ih c hc _ s x hx
            exact ⟨ds, mem_subtreesL.2 ⟨c, hc, h⟩⟩) s x hx
        obtain ⟨ds, h⟩ := this
        exact ⟨ds, by rw [subtrees_node]; simp [h]⟩
      · exact ⟨cs, by rw [subtrees_node]; simp⟩

theorem itemsL_labs (cs : List (PTree Lab)) (par : Option Nat) (s : Nat) : ∀ x ∈ itemsL par s cs, ∃ ds, .node x.lab ds ∈ subtreesL cs :=
  itemsL_of (par := par) (cs := cs) (P := fun _ _ x => ∃ ds, (.node x.lab ds : PTree Lab) ∈ subtreesL cs)
    (fun _ _ _ _ _ _ _ h => h) (fun c hc s x hx => by
      obtain ⟨ds, h⟩ := items_labs c _ s x hx
      exact ⟨ds, mem_subtreesL.2 ⟨c, hc, h⟩⟩) s

theorem phrasal_eq (cs : List (PTree Lab)) (hg : ∀ c ∈ cs, Good c) : nphL cs = Spec.phrasal cs := by
  have hcons : ∀ c (cs : List (PTree Lab)), Spec.phrasal (c :: cs) = Spec.phrasal [c] + Spec.phrasal cs := by
    intro c cs; simp [Spec.phrasal]
  have hone : ∀ c : PTree Lab, Good c → nph c = Spec.phrasal [c] := by
    intro c
    induction c using PTree.ind with
    | hleaf i => intro h; simp [nph, Spec.phrasal]
    | hnode l ds ih =>
      intro h
      cases hf : firstLeaf ds with
      | some i => rw [nph_pre hf, good_pre h hf]; simp [Spec.phrasal, subtreesL, subtrees]
      | none =>
        rw [nph_phr hf]
        have : Spec.phrasal [.node l ds] = Spec.phrasal ds + 1 := by
          rw [Spec.phrasal, Spec.phrasal, subtreesL_cons, subtreesL_nil, List.append_nil, subtrees_node, List.filter_cons_of_pos]
          · rfl
          · cases ds with
            | nil => rfl
            | cons d ds => cases d with
              | leaf i => simp [firstLeaf] at hf
              | node m es => rfl
        rw [this]
        congr 1
        have hk := good_kids h hf
        clear this hf h
        induction ds with
        | nil => rfl
        | cons d ds ih2 => rw [nphL, hcons, ih d (by simp) (hk d (by simp)), ih2 (fun c hc => ih c (by simp [hc])) fun c hc => hk c (by simp [hc])]
  induction cs with
  | nil => rfl
  | cons c cs ih => rw [nphL, hcons, hone c (hg c (by simp)), ih fun d hd => hg d (by simp [hd])]

theorem Writable.good {ws : Char → Bool} {pyInt : Str → Option Int} {cs : List (PTree Lab)} {sent : List Str} (h : Spec.Writable ws pyInt cs sent) :
    ∀ c ∈ cs, Good c := fun c hc => ⟨h.preterminals c hc, h.nodes c hc⟩

/-- What is written and what is read, for any setting of `morphology`. -/
theorem roundtrip {ws : Char → Bool} {pyInt : Str → Option Int} (act : Morph) (l : Lab) {cs : List (PTree Lab)} {sent : List Str}
    (h : Spec.Writable ws pyInt cs sent) (h500 : Spec.phrasal cs ≤ 500) :
    ∃ ids, mapO (nodeId pyInt) (((itemsL none 0 cs).filter (·.phr)).map (·.lab)) = some ids ∧
      writeRows pyInt act (.node l cs) sent = some (rowsF pyInt act ids sent (itemsL none 0 cs)) ∧
      readRows act (rowsF pyInt act ids sent (itemsL none 0 cs)) = some (.node rootLab (order (resL pyInt act ids sent none 0 cs)), sent) := by
  have hg := Writable.good h
  obtain ⟨ids, h1, h2⟩ := writeRows_eq pyInt act l cs sent hg h.terminals
    (fun x hx => by obtain ⟨ds, hm⟩ := itemsL_labs cs none 0 x hx; exact attrs_isSome (h.labels _ _ hm))
    (fun x hx _ => by
      obtain ⟨ds, hm⟩ := itemsL_labs cs none 0 x hx
      rw [nodeId]
      split
      · rfl
      · rfl
      · rename_i w r hs; exact h.numbers _ _ _ _ hm hs
      · rfl)
  refine ⟨ids, h1, h2, ?_⟩
  refine readRows_eq pyInt act ids sent cs hg (by rw [phrasal_eq cs hg]; exact h500) ?_ fun w hw => ⟨(h.words w hw).ne, h.noNumbers w hw⟩
  refine toks_keys ?_
  rw [items_pre_keys cs hg]
  exact h.terminals

/-! ### Properties -/

/-- **C14.** For a tree with at most 500 phrasal nodes below the root whose labels, attributes and words can be written: the rows that are written are
read as a tree with the same sentence, and the same constituents with the same labels, lemmas, morphological tags and functions, up to the order of
sisters. The label of the root becomes `ROOT`. -/
theorem C14_tree {ws : Char → Bool} {pyInt : Str → Option Int} (l : Lab) {cs : List (PTree Lab)} {sent : List Str}
    (h : Spec.Writable ws pyInt cs sent) (h500 : Spec.phrasal cs ≤ 500) :
    ∃ rows u, writeRows pyInt .no (.node l cs) sent = some rows ∧ readRows .no rows = some (u, sent) ∧
      Canon.Spec.SameUpToOrder (Spec.view (Spec.withRoot cs)) (Spec.view u) := by
  obtain ⟨ids, -, h2, h3⟩ := roundtrip .no l h h500
  refine ⟨_, _, h2, h3, ?_⟩
  have hg := Writable.good h
  have hgood : Canon.Spec.Preterminals (.node rootLab (resNL pyInt .no ids sent none 0 cs)) := by
    intro m ds hm
    rw [subtrees_node, List.mem_cons] at hm
    rcases hm with e | hm
    · injection e with _ e
      subst e
      left
      intro d hd
      obtain ⟨c, hc, s', rfl⟩ := mem_resNL _ _ _ _ hd
      rw [resN_isNode]; exact h.nodes c hc
    · obtain ⟨d, hd, hm⟩ := mem_subtreesL.1 hm
      obtain ⟨c, hc, s', rfl⟩ := mem_resNL _ _ _ _ hd
      exact resN_preterminals _ _ _ _ c (hg c hc) _ _ m ds hm
  have hs := view_same _ (.node rootLab _ _ _ (same_resL pyInt .no ids sent cs none 0) (order_perm _).symm) hgood
  have e : Spec.view (.node rootLab (resNL pyInt .no ids sent none 0 cs)) = Spec.view (Spec.withRoot cs) := by
    rw [Spec.withRoot, Spec.view, Spec.view, view_resNL pyInt ids sent cs hg h.labels, info_nodes, info_nodes]
    · rfl
    · exact h.nodes
    · intro d hd
      obtain ⟨c, hc, s', rfl⟩ := mem_resNL _ _ _ _ hd
      rw [resN_isNode]; exact h.nodes c hc
  rw [e] at hs
  exact hs

end Disco.Export
