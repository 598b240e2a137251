import Mathlib.Data.List.Basic
import Mathlib.Data.List.Perm.Basic
import Mathlib.Tactic.SplitIfs
import Verif.Trees.Canonical
import Verif.Format.ExportRound
/-!
# C14: sorting what was read, and writing it again
-/
namespace Disco.Export
open PTree

/-! ### Model -/

/-- What the corpus reader does after `exporttree` with default options: constituents are ordered by their terminals, unless the sentence is empty
(treebank.py:169-186). The loop is the one of `canonicalize` (treetransforms.py:596-602), which is modelled in `Verif.Trees.Canonical`. -/
def parsetree (act : Morph) (rows : List (List Str)) : Option (PTree Lab × List Str) :=
  match readRows act rows with
  | none => none
  | some (t, sent) => if sent = [] then some (t, sent) else (Canon.canonicalize t).map fun u => (u, sent)

/-! ### Specification -/

/-- `int()` reads numbers written in decimal. -/
def Spec.ReadsDecimals (pyInt : Str → Option Int) : Prop := ∀ n : Nat, pyInt (Nat.toDigits 10 n) = some (n : Int)

/-- The subtree at a position. -/
def Spec.sub : PTree Lab → Path → Option (PTree Lab)
  | t, [] => some t
  | .leaf _, _ :: _ => none
  | .node _ cs, i :: p => match cs[i]? with
    | none => none
    | some c => Spec.sub c p

/-- The node at position `q` is a phrasal node with number `i` in the record. -/
def Spec.Numbered (pyInt : Str → Option Int) (t : PTree Lab) (q : Path) (i : Int) : Prop :=
  ∃ l ds w r, Spec.sub t q = some (.node l ds) ∧ isPhrasal (.node l ds) = true ∧ l.source = some (('#' :: w) :: r) ∧ pyInt w = some i

/-- There is a secondary edge labelled `rel` from the node at position `p` to the phrasal node at position `q`. -/
def Spec.Edge (pyInt : Str → Option Int) (t : PTree Lab) (p : Path) (rel : Str) (q : Path) : Prop :=
  ∃ l ds s pid i, Spec.sub t p = some (.node l ds) ∧ p ≠ [] ∧ l.source = some s ∧ (rel, pid) ∈ pairs (s.drop 6) ∧ pyInt pid = some i ∧
    q ≠ [] ∧ Spec.Numbered pyInt t q i

/-- Each phrasal node below the root has a number of its own. -/
def Spec.DistinctNumbers (pyInt : Str → Option Int) (t : PTree Lab) : Prop :=
  (∀ q l ds, q ≠ [] → Spec.sub t q = some (.node l ds) → isPhrasal (.node l ds) = true → ∃ i, Spec.Numbered pyInt t q i) ∧
    ∀ q q' i, q ≠ [] → q' ≠ [] → Spec.Numbered pyInt t q i → Spec.Numbered pyInt t q' i → q = q'

/-! ### Lemmas -/

theorem pre_root {r : Lab} {cs : List (PTree Lab)} (hg : ∀ c ∈ cs, Good c) : Canon.Spec.Preterminals (.node r cs) := by
  intro m ds hm
  rw [subtrees_node, List.mem_cons] at hm
  rcases hm with e | hm
  · injection e with _ e
    subst e
    exact Or.inl fun c hc => (hg c hc).2
  · obtain ⟨c, hc, hm⟩ := mem_subtreesL.1 hm
    exact (hg c hc).1 m ds hm

section
variable (pyInt : Str → Option Int) (act : Morph) (ids : List Int) (sent : List Str)

theorem resNL_good {cs : List (PTree Lab)} (hg : ∀ c ∈ cs, Good c) (k : Option Nat) (s : Nat) : ∀ c ∈ resNL pyInt act ids sent k s cs, Good c := by
  intro d hd
  obtain ⟨c, hc, s', rfl⟩ := mem_resNL _ _ _ _ hd
  exact ⟨resN_preterminals _ _ _ _ c (hg c hc) _ _, by rw [resN_isNode]; exact (hg c hc).2⟩

theorem noEmpty_root {r : Lab} {cs : List (PTree Lab)} (hne : cs ≠ []) (h : ∀ c ∈ cs, Canon.Spec.NoEmpty c) : Canon.Spec.NoEmpty (.node r cs) := by
  intro m hm
  rw [subtrees_node, List.mem_cons] at hm
  rcases hm with e | hm
  · injection e with _ e; exact hne e.symm
  · obtain ⟨c, hc, hm⟩ := mem_subtreesL.1 hm
    exact h c hc m hm

theorem noEmpty_kids {r : Lab} {cs : List (PTree Lab)} (h : Canon.Spec.NoEmpty (.node r cs)) : ∀ c ∈ cs, Canon.Spec.NoEmpty c :=
  Canon.NoEmpty.child h

/-- The canonical form of what is read is the canonical form of the same tree with sisters in the original order. -/
theorem canon_res {cs : List (PTree Lab)} (hg : ∀ c ∈ cs, Good c) (hne : Canon.Spec.NoEmpty (Spec.withRoot cs)) (hnd : (leavesL cs).Nodup) :
    Canon.canonicalize (.node rootLab (order (resL pyInt act ids sent none 0 cs))) = Canon.canonicalize (.node rootLab (resNL pyInt act ids sent none 0 cs)) := by
  refine (Canon.canonicalize_unique _ _ (.node rootLab _ _ _ (same_resL pyInt act ids sent cs none 0) (order_perm _).symm) ?_ ?_ ?_).symm
  · exact pre_root (resNL_good _ _ _ _ hg _ _)
  · refine noEmpty_root ?_ ?_
    · cases cs with
      | nil => exact absurd (by rw [Spec.withRoot, subtrees_node]; simp) (hne ⟨['R', 'O', 'O', 'T'], none⟩)
      | cons c cs => rw [resNL]; simp
    · intro d hd
      obtain ⟨c, hc, s', rfl⟩ := mem_resNL _ _ _ _ hd
      exact resN_noEmpty _ _ _ _ c (hg c hc) (noEmpty_kids hne c hc) _ _
  · rw [leaves_node, resNL_leaves _ _ _ _ cs hg]; exact hnd

theorem ordered_root {r : Lab} {cs : List (PTree Lab)} (hg : ∀ c ∈ cs, Good c) (ho : Canon.Spec.Ordered (.node r cs)) :
    Canon.Spec.Ordered (.node rootLab (resNL pyInt act ids sent none 0 cs)) := by
  intro m ds hm
  rw [subtrees_node, List.mem_cons] at hm
  rcases hm with e | hm
  · injection e with _ e
    subst e
    have h1 := ho r cs (by rw [subtrees_node]; simp)
    generalize (none : Option Nat) = k
    generalize 0 = s
    clear ho
    induction cs generalizing s with
    | nil => rw [resNL]; exact .nil
    | cons d ds ih =>
      rw [List.pairwise_cons] at h1
      rw [resNL, List.pairwise_cons]
      refine ⟨?_, ih (fun c hc => hg c (by simp [hc])) h1.2 _⟩
      intro b hb
      obtain ⟨c, hc, s'', rfl⟩ := mem_resNL pyInt act ids sent hb
      rw [resN_leaves _ _ _ _ _ (hg d (by simp)), resN_leaves _ _ _ _ _ (hg c (by simp [hc]))]
      exact h1.1 c hc
  · obtain ⟨d, hd, hm⟩ := mem_subtreesL.1 hm
    obtain ⟨c, hc, s', rfl⟩ := mem_resNL _ _ _ _ hd
    refine resN_ordered _ _ _ _ c (hg c hc) (fun m ds h => ho m ds ?_) _ _ m ds hm
    rw [subtrees_node]
    exact List.mem_cons_of_mem _ (mem_subtreesL.2 ⟨c, hc, h⟩)

/-- For a tree whose constituents are ordered, the sisters are back in the original order. -/
theorem canon_ordered {r : Lab} {cs : List (PTree Lab)} (hg : ∀ c ∈ cs, Good c) (hne : Canon.Spec.NoEmpty (Spec.withRoot cs)) (hnd : (leavesL cs).Nodup)
    (ho : Canon.Spec.Ordered (.node r cs)) :
    Canon.canonicalize (.node rootLab (order (resL pyInt act ids sent none 0 cs))) = some (.node rootLab (resNL pyInt act ids sent none 0 cs)) := by
  rw [canon_res pyInt act ids sent hg hne hnd]
  exact Canon.canonicalize_of_ordered _ (pre_root (resNL_good _ _ _ _ hg _ _)) (ordered_root _ _ _ _ hg ho)

/-- The node that is read for a row. -/
def relab (x : Item) : Item :=
  { x with lab := if x.phr then ⟨paren (orDash x.lab.label), some (phF pyInt ids x)⟩
                  else ⟨readLabel act (tokF pyInt act ids (wordAt sent x) x), some (tokF pyInt act ids (wordAt sent x) x)⟩ }

theorem firstLeaf_resNL {cs : List (PTree Lab)} (h : ∀ c ∈ cs, c.isNode = true) (k : Option Nat) (s : Nat) :
    firstLeaf (resNL pyInt act ids sent k s cs) = none := by
  refine firstLeaf_nodes fun d hd => ?_
  obtain ⟨c, hc, s', rfl⟩ := mem_resNL _ _ _ _ hd
  rw [resN_isNode]; exact h c hc

theorem nph_resN (t : PTree Lab) : Good t → ∀ k s, nph (resN pyInt act ids sent k s t) = nph t := by
  induction t using PTree.ind with
  | hleaf i => intro _ k s; rw [resN]
  | hnode l cs ih =>
    intro hg k s
    cases h : firstLeaf cs with
    | some i => rw [resN_pre _ _ _ _ h, nph_pre h, readTok, nph_pre rfl]
    | none =>
      have hk := good_kids hg h
      rw [resN_phr _ _ _ _ h, nph_phr h, nph_phr (firstLeaf_resNL _ _ _ _ (fun c hc => (hk c hc).2) _ _)]
      congr 1
      have := resNL_forall₂ pyInt act ids sent (R := fun a b => nph b = nph a) cs (some (s + nphL cs)) (fun c hc s => ih c hc (hk c hc) _ s) s
      generalize resNL pyInt act ids sent (some (s + nphL cs)) s cs = ds at this
      clear ih hg h hk
      induction this with
      | nil => rfl
      | cons h1 _ ih2 => rw [nphL, nphL, h1, ih2]

theorem nphL_resNL (cs : List (PTree Lab)) (hg : ∀ c ∈ cs, Good c) (k : Option Nat) (s : Nat) : nphL (resNL pyInt act ids sent k s cs) = nphL cs := by
  induction cs generalizing s with
  | nil => rw [resNL]
  | cons c cs ih => rw [resNL, nphL, nphL, nph_resN _ _ _ _ c (hg c (by simp)), ih fun d hd => hg d (by simp [hd])]

theorem items_resN (t : PTree Lab) : Good t → ∀ k s, itemsP k s (resN pyInt act ids sent k s t) = (itemsP k s t).map (relab pyInt act ids sent) := by
  induction t using PTree.ind with
  | hleaf i => intro _ k s; rw [resN, itemsP]; rfl
  | hnode l cs ih =>
    intro hg k s
    cases h : firstLeaf cs with
    | some i => rw [resN_pre _ _ _ _ h, itemsP_pre h, readTok, itemsP_pre rfl]; rfl
    | none =>
      have hk := good_kids hg h
      have hL : ∀ (ds : List (PTree Lab)) (k : Option Nat) (s : Nat), (∀ d ∈ ds, d ∈ cs) →
          itemsL k s (resNL pyInt act ids sent k s ds) = (itemsL k s ds).map (relab pyInt act ids sent) := by
        intro ds
        induction ds with
        | nil => intro k s _; rw [resNL, itemsL]; rfl
        | cons d ds ihd =>
          intro k s hd
          rw [resNL, itemsL, itemsL, List.map_append, ih d (hd d (by simp)) (hk d (hd d (by simp))), nph_resN _ _ _ _ d (hk d (hd d (by simp))),
            ihd _ _ fun x hx => hd x (by simp [hx])]
      rw [resN_phr _ _ _ _ h, itemsP_phr h, itemsP_phr (firstLeaf_resNL _ _ _ _ (fun c hc => (hk c hc).2) _ _), nphL_resNL _ _ _ _ cs hk,
        hL cs _ _ fun _ h => h, List.map_append]
      rfl

theorem items_resNL (cs : List (PTree Lab)) (hg : ∀ c ∈ cs, Good c) (k : Option Nat) (s : Nat) :
    itemsL k s (resNL pyInt act ids sent k s cs) = (itemsL k s cs).map (relab pyInt act ids sent) := by
  induction cs generalizing s with
  | nil => rw [resNL, itemsL]; rfl
  | cons d ds ihd =>
    rw [resNL, itemsL, itemsL, List.map_append, items_resN _ _ _ _ d (hg d (by simp)), nph_resN _ _ _ _ d (hg d (by simp)),
      ihd fun x hx => hg x (by simp [hx])]

theorem toks_relab (I : List Item) : toks (I.map (relab pyInt act ids sent)) = (toks I).map (relab pyInt act ids sent) := by
  rw [toks, toks, List.filter_map]
  rw [StableSort.map (le := leKey)]
  · rfl
  · intro a _ b _; rfl

end

/-- The pairs in a list of secondary edges. -/
theorem pairs_flat {α : Type} (f : α → Option (Str × Str)) (l : List α) :
    pairs (l.flatMap fun e => match f e with | none => [] | some x => [x.1, x.2]) = l.filterMap f := by
  induction l with
  | nil => rfl
  | cons e l ih =>
    rw [List.flatMap_cons]
    cases h : f e with
    | none => rw [List.filterMap_cons_none h, List.nil_append, ih]
    | some x => rw [List.filterMap_cons_some h, ← ih]; rfl

/-- A secondary edge that is written. -/
def secOf (pyInt : Str → Option Int) (ids : List Int) (e : Str × Str) : Option (Str × Str) :=
  (pyInt e.2).bind fun i => (ids.findIdx? (· = i)).map fun k => (e.1, ident k)

theorem secEdges_eq (pyInt : Str → Option Int) (ids : List Int) (l : Lab) :
    secEdges pyInt ids l = (pairs ((l.source.getD []).drop 6)).flatMap fun e => match secOf pyInt ids e with | none => [] | some x => [x.1, x.2] := by
  rw [secEdges]
  congr 1
  funext e
  rw [secOf]
  cases pyInt e.2 with
  | none => rfl
  | some i =>
    simp only [Option.bind_some]
    cases ids.findIdx? (· = i) <;> rfl

theorem pairs_secEdges (pyInt : Str → Option Int) (ids : List Int) (l : Lab) :
    pairs (secEdges pyInt ids l) = (pairs ((l.source.getD []).drop 6)).filterMap (secOf pyInt ids) := by
  rw [secEdges_eq, pairs_flat]

/-- The numbers of the phrasal nodes that are read. -/
def newIds (n : Nat) : List Int := (List.range n).map fun k => ((500 + k : Nat) : Int)

theorem newIds_find {n k : Nat} (h : k < n) : (newIds n).findIdx? (· = ((500 + k : Nat) : Int)) = some k := by
  rw [newIds, List.findIdx?_eq_some_iff_getElem]
  refine ⟨by simpa using h, by simp, ?_⟩
  intro j hj
  simp
  omega

theorem secEdges_again {pyInt : Str → Option Int} (hd : Spec.ReadsDecimals pyInt) (ids : List Int) (l : Lab) (lbl : Str) (a b c d e f : Str) :
    secEdges pyInt (newIds ids.length) ⟨lbl, some ([a, b, c, d, e, f] ++ secEdges pyInt ids l)⟩ = secEdges pyInt ids l := by
  rw [secEdges_eq pyInt (newIds _)]
  rw [show ((some ([a, b, c, d, e, f] ++ secEdges pyInt ids l)).getD []).drop 6 = secEdges pyInt ids l from rfl, pairs_secEdges]
  rw [secEdges_eq pyInt ids l]
  generalize pairs ((l.source.getD []).drop 6) = es
  induction es with
  | nil => rfl
  | cons x es ih =>
    rw [List.flatMap_cons]
    cases hx : secOf pyInt ids x with
    | none => rw [List.filterMap_cons_none hx, ih]; rfl
    | some y =>
      rw [List.filterMap_cons_some hx, List.flatMap_cons, ih]
      congr 1
      rw [secOf] at hx
      cases hp : pyInt x.2 with
      | none => rw [hp] at hx; simp at hx
      | some i =>
        rw [hp, Option.bind_some] at hx
        cases hf : ids.findIdx? (· = i) with
        | none => rw [hf] at hx; simp at hx
        | some k =>
          rw [hf, Option.map_some, Option.some.injEq] at hx
          subst hx
          have hk : k < ids.length := by
            have := List.findIdx?_eq_some_iff_getElem.1 hf
            exact this.1
          rw [secOf]
          simp only
          rw [ident, hd, Option.bind_some, newIds_find hk]
          rfl

theorem mapO_length {α β : Type} {f : α → Option β} {l : List α} {r : List β} (h : mapO f l = some r) : r.length = l.length := by
  induction l generalizing r with
  | nil => simp [mapO] at h; subst h; rfl
  | cons a l ih =>
    rw [mapO] at h
    cases ha : f a with
    | none => rw [ha] at h; simp at h
    | some b =>
      rw [ha] at h
      cases hl : mapO f l with
      | none => rw [hl] at h; simp at h
      | some bs => rw [hl] at h; simp at h; subst h; simp [ih hl]

/-- The rows that are written for the tree that was read, with sisters in the original order. -/
theorem rewrite_rows {ws : Char → Bool} {pyInt : Str → Option Int} (hd : Spec.ReadsDecimals pyInt) {cs : List (PTree Lab)} {sent : List Str}
    (h : Spec.Writable ws pyInt cs sent) {ids : List Int}
    (hids : mapO (nodeId pyInt) (((itemsL none 0 cs).filter (·.phr)).map (·.lab)) = some ids) :
    writeRows pyInt .no (.node rootLab (resNL pyInt .no ids sent none 0 cs)) sent = some (rowsF pyInt .no ids sent (itemsL none 0 cs)) := by
  have hg := Writable.good h
  have hN : ids.length = nphL cs := by
    rw [mapO_length hids, List.length_map]
    have := congrArg List.length (itemsL_keys cs none 0)
    rwa [List.length_map, List.length_range'] at this
  have hI := items_resNL pyInt .no ids sent cs hg none 0
  have hok : ∀ x ∈ itemsL none 0 cs, Spec.LabOk ws x.lab := fun x hx => by
    obtain ⟨ds, hm⟩ := itemsL_labs cs none 0 x hx; exact h.labels _ _ hm
  have hid : ∀ x ∈ itemsL none 0 cs, x.phr = true → nodeId pyInt (relab pyInt .no ids sent x).lab = some ((500 + x.key : Nat) : Int) := by
    intro x hx hp
    have : (relab pyInt .no ids sent x).lab = ⟨paren (orDash x.lab.label), some (phF pyInt ids x)⟩ := by rw [relab]; simp [hp]
    rw [this, nodeId, phF]
    exact hd _
  have hattr : ∀ x ∈ itemsL none 0 cs, attrs (relab pyInt .no ids sent x).lab =
      some (if x.phr then (dash, Spec.attr x.lab 3, Spec.attr x.lab 4) else (Spec.attr x.lab 1, Spec.attr x.lab 3, Spec.attr x.lab 4)) := by
    intro x hx
    rw [relab]
    cases hp : x.phr with
    | true =>
      simp only [if_true]
      rw [attrs, phF, attrsD_eq (hok x hx)]
      simp [orDash, attr_ne, show dash ≠ [] by decide]
    | false =>
      simp only [Bool.false_eq_true, if_false]
      rw [attrs, tokF, attrsD_eq (hok x hx)]
      simp [orDash, attr_ne, tagMorph]
  obtain ⟨ids', h1, h2⟩ := writeRows_eq pyInt .no rootLab (resNL pyInt .no ids sent none 0 cs) sent (resNL_good _ _ _ _ hg _ _)
    (by rw [resNL_leaves _ _ _ _ cs hg]; exact h.terminals)
    (by
      rw [hI]
      intro y hy
      obtain ⟨x, hx, rfl⟩ := List.mem_map.1 hy
      rw [hattr x hx]; rfl)
    (by
      rw [hI]
      intro y hy hp
      obtain ⟨x, hx, rfl⟩ := List.mem_map.1 hy
      rw [hid x hx hp]; rfl)
  have hids' : ids' = newIds ids.length := by
    rw [hI, List.filter_map] at h1
    have hcomp : ((fun x : Item => x.phr) ∘ relab pyInt .no ids sent) = fun x => x.phr := rfl
    rw [hcomp, List.map_map, mapO_map] at h1
    have h3 : mapO (fun x => nodeId pyInt (((fun x : Item => x.lab) ∘ relab pyInt .no ids sent) x)) ((itemsL none 0 cs).filter (·.phr)) =
        some (((itemsL none 0 cs).filter (·.phr)).map fun x => ((500 + x.key : Nat) : Int)) := by
      refine mapO_some fun x hx => ?_
      obtain ⟨hx1, hx2⟩ := List.mem_filter.1 hx
      exact hid x hx1 hx2
    rw [h3, Option.some.injEq] at h1
    rw [← h1, hN, newIds, List.range_eq_range', ← itemsL_keys cs none 0, List.map_map]
    rfl
  rw [h2, hids', hI, rowsF, rowsF, toks_relab, List.filter_map, List.map_map, List.map_map]
  congr 2
  · refine List.map_congr_left fun x hx => ?_
    have hxI := List.mem_filter.1 ((StableSort.perm _).subset hx)
    have hp : x.phr = false := by simpa using hxI.2
    have hA := hattr x hxI.1
    simp only [Function.comp_apply]
    have hlab : (relab pyInt .no ids sent x).lab = ⟨readLabel .no (tokF pyInt .no ids (wordAt sent x) x), some (tokF pyInt .no ids (wordAt sent x) x)⟩ := by
      rw [relab]; simp [hp]
    have hlbl : readLabel .no (tokF pyInt .no ids (wordAt sent x) x) = x.lab.label := by
      have hk := hok x hxI.1
      rw [readLabel]
      simp only [fld, tokF, tagMorph]
      simp [orDash_ne (replace_ne hk.label.ne), paren_replace, paren_id hk.noOpen hk.noClose]
    have hword : wordAt sent (relab pyInt .no ids sent x) = wordAt sent x := rfl
    have hsec : secEdges pyInt (newIds ids.length) (relab pyInt .no ids sent x).lab = secEdges pyInt ids x.lab := by
      rw [hlab, tokF]; exact secEdges_again hd ids x.lab _ _ _ _ _ _ _
    rw [tokF, hword, attrsD, hA, hp, hsec, tokF, attrsD_eq (hok x hxI.1)]
    have hl2 : (relab pyInt .no ids sent x).lab.label = x.lab.label := by rw [hlab]; exact hlbl
    rw [hl2]
    rfl
  · refine List.map_congr_left fun x hx => ?_
    have hxI := List.mem_filter.1 hx
    have hp : x.phr = true := hxI.2
    have hA := hattr x hxI.1
    have hk := hok x hxI.1
    simp only [Function.comp_apply]
    have hlab : (relab pyInt .no ids sent x).lab = ⟨paren (orDash x.lab.label), some (phF pyInt ids x)⟩ := by rw [relab]; simp [hp]
    have hsec : secEdges pyInt (newIds ids.length) (relab pyInt .no ids sent x).lab = secEdges pyInt ids x.lab := by
      rw [hlab, phF]; exact secEdges_again hd ids x.lab _ _ _ _ _ _ _
    have hl2 : (relab pyInt .no ids sent x).lab.label = x.lab.label := by
      rw [hlab]
      simp only
      rw [orDash_ne hk.label.ne, paren_id hk.noOpen hk.noClose]
    rw [phF, attrsD, hA, hp, hsec, hl2, phF, attrsD_eq hk]
    rfl

/-! ### Positions and secondary edges -/

section
variable (pyInt : Str → Option Int) (act : Morph) (ids : List Int) (sent : List Str)

theorem posts_shape (t : PTree Lab) : Good t → ∀ k s q, (postsP q (resN pyInt act ids sent k s t)).map (fun x => (x.path, x.leaf)) =
    (postsP q t).map fun x => (x.path, x.leaf) := by
  induction t using PTree.ind with
  | hleaf i => intro _ k s q; rw [resN]
  | hnode l cs ih =>
    intro hg k s q
    cases h : firstLeaf cs with
    | some i => rw [resN_pre _ _ _ _ h, postsP_pre h, readTok, postsP_pre rfl]; rfl
    | none =>
      have hk := good_kids hg h
      have hL : ∀ (ds : List (PTree Lab)) (k : Option Nat) (s i : Nat), (∀ d ∈ ds, d ∈ cs) →
          (postsL q i (resNL pyInt act ids sent k s ds)).map (fun x => (x.path, x.leaf)) = (postsL q i ds).map fun x => (x.path, x.leaf) := by
        intro ds
        induction ds with
        | nil => intro k s i _; rw [resNL]
        | cons d ds ihd =>
          intro k s i hd
          rw [resNL, postsL, postsL, List.map_append, List.map_append, ih d (hd d (by simp)) (hk d (hd d (by simp))), ihd _ _ _ fun x hx => hd x (by simp [hx])]
      rw [resN_phr _ _ _ _ h, postsP_phr h, postsP_phr (firstLeaf_resNL _ _ _ _ (fun c hc => (hk c hc).2) _ _), List.map_append, List.map_append,
        hL cs _ _ _ fun _ h => h]
      rfl

theorem postsL_shape (cs : List (PTree Lab)) (hg : ∀ c ∈ cs, Good c) (k : Option Nat) (s : Nat) (q : Path) (i : Nat) :
    (postsL q i (resNL pyInt act ids sent k s cs)).map (fun x => (x.path, x.leaf)) = (postsL q i cs).map fun x => (x.path, x.leaf) := by
  induction cs generalizing s i with
  | nil => rw [resNL]
  | cons d ds ihd =>
    rw [resNL, postsL, postsL, List.map_append, List.map_append, posts_shape _ _ _ _ d (hg d (by simp)), ihd fun x hx => hg x (by simp [hx])]

theorem phPaths_shape {X Y : List PItem} (h : X.map (fun x => (x.path, x.leaf)) = Y.map fun x => (x.path, x.leaf)) : phPaths X = phPaths Y := by
  induction X generalizing Y with
  | nil => cases Y with
    | nil => rfl
    | cons y Y => simp at h
  | cons x X ih =>
    cases Y with
    | nil => simp at h
    | cons y Y =>
      simp only [List.map_cons, List.cons.injEq, Prod.mk.injEq] at h
      have := ih h.2
      simp only [phPaths] at this ⊢
      rw [List.filter_cons, List.filter_cons, h.1.2]
      split
      · rw [List.map_cons, List.map_cons, this, h.1.1]
      · exact this

/-- The nodes that are read, with their positions. -/
theorem posts_resNL (cs : List (PTree Lab)) (hg : ∀ c ∈ cs, Good c) :
    postsL [] 0 (resNL pyInt act ids sent none 0 cs) =
      (postsL [] 0 cs).map fun x => ⟨x.path, (relab pyInt act ids sent (toItem (phPaths (postsL [] 0 cs)) x)).lab, x.leaf⟩ := by
  obtain ⟨X, hX⟩ : ∃ X, X = postsL [] 0 cs := ⟨_, rfl⟩
  obtain ⟨Y, hY⟩ : ∃ Y, Y = postsL [] 0 (resNL pyInt act ids sent none 0 cs) := ⟨_, rfl⟩
  have hs : Y.map (fun x => (x.path, x.leaf)) = X.map fun x => (x.path, x.leaf) := by rw [hX, hY]; exact postsL_shape _ _ _ _ cs hg _ _ _ _
  have hW := phPaths_shape hs
  have hWn : (phPaths X).Nodup := by rw [hX]; exact phPaths_nodup (postsL_nodup cs [] 0)
  have h1 : X.map (toItem (phPaths X)) = itemsL none 0 cs := by
    have := toItem_postsL (phPaths X) hWn cs 0 [] [] (by rw [hX]; simp)
    rwa [← hX] at this
  have h2 : Y.map (toItem (phPaths X)) = itemsL none 0 (resNL pyInt act ids sent none 0 cs) := by
    have := toItem_postsL (phPaths X) hWn (resNL pyInt act ids sent none 0 cs) 0 [] [] (by rw [← hW, hY]; simp)
    rwa [← hY] at this
  rw [items_resNL _ _ _ _ cs hg, ← h1, List.map_map] at h2
  rw [← hX, ← hY]
  generalize phPaths X = W at h2
  clear hX hY hW hWn h1
  induction X generalizing Y with
  | nil => cases Y with
    | nil => rfl
    | cons y Y => simp at hs
  | cons x X ih =>
    cases Y with
    | nil => simp at hs
    | cons y Y =>
      simp only [List.map_cons, List.cons.injEq, Prod.mk.injEq] at hs h2
      rw [List.map_cons, ← ih Y hs.2 h2.2]
      congr 1
      obtain ⟨yp, yl, yf⟩ := y
      have e := congrArg Item.lab h2.1
      simp only [Function.comp_apply, toItem] at e hs ⊢
      rw [hs.1.1, hs.1.2]
      congr 1

end

theorem sub_posts (t : PTree Lab) : Good t → ∀ q x, x ∈ postsP q t ↔ ∃ p l ds, Spec.sub t p = some (.node l ds) ∧ x = ⟨q ++ p, l, firstLeaf ds⟩ := by
  induction t using PTree.ind with
  | hleaf i => intro h; simp [Good, PTree.isNode] at h
  | hnode l cs ih =>
    intro hg q x
    cases h : firstLeaf cs with
    | some i =>
      have e := good_pre hg h
      subst e
      rw [postsP_pre h, List.mem_singleton]
      constructor
      · rintro rfl
        exact ⟨[], l, _, rfl, by simp [h]⟩
      · rintro ⟨p, m, ds, hp, rfl⟩
        cases p with
        | nil => rw [Spec.sub] at hp; injection hp with hp; injection hp with h1 h2; subst h1; subst h2; simp [h]
        | cons j p =>
          rw [Spec.sub] at hp
          cases j with
          | zero => cases p <;> simp [Spec.sub] at hp
          | succ j => simp at hp
    | none =>
      have hk := good_kids hg h
      have hL : ∀ (ds : List (PTree Lab)) (i : Nat), (∀ d ∈ ds, d ∈ cs) → (x ∈ postsL q i ds ↔
          ∃ j d, ds[j]? = some d ∧ ∃ p l es, Spec.sub d p = some (.node l es) ∧ x = ⟨q ++ (i + j) :: p, l, firstLeaf es⟩) := by
        intro ds
        induction ds with
        | nil => intro i _; simp [postsL]
        | cons d ds ihd =>
          intro i hd
          rw [postsL, List.mem_append, ih d (hd d (by simp)) (hk d (hd d (by simp))), ihd _ fun x hx => hd x (by simp [hx])]
          constructor
          · rintro (⟨p, m, es, h1, h2⟩ | ⟨j, d', h0, p, m, es, h1, h2⟩)
            · exact ⟨0, d, by simp, p, m, es, h1, by simp [h2]⟩
            · exact ⟨j + 1, d', by simpa using h0, p, m, es, h1, by rw [h2]; simp; omega⟩
          · rintro ⟨j, d', h0, p, m, es, h1, h2⟩
            cases j with
            | zero =>
              simp at h0
              subst h0
              exact Or.inl ⟨p, m, es, h1, by rw [h2]; simp⟩
            | succ j => exact Or.inr ⟨j, d', by simpa using h0, p, m, es, h1, by rw [h2]; simp; omega⟩
      rw [postsP_phr h, List.mem_append, List.mem_singleton, hL cs 0 fun _ h => h]
      constructor
      · rintro (⟨j, d, h0, p, m, es, h1, h2⟩ | rfl)
        · exact ⟨j :: p, m, es, by rw [Spec.sub, h0]; exact h1, by simpa using h2⟩
        · exact ⟨[], l, cs, rfl, by simp [h]⟩
      · rintro ⟨p, m, ds, hp, rfl⟩
        cases p with
        | nil => rw [Spec.sub] at hp; injection hp with hp; injection hp with h1 h2; subst h1; subst h2; right; simp [h]
        | cons j p =>
          rw [Spec.sub] at hp
          cases hj : cs[j]? with
          | none => rw [hj] at hp; simp at hp
          | some d =>
            rw [hj] at hp
            exact Or.inl ⟨j, d, hj, p, m, ds, hp, by simp⟩

theorem sub_postsL (r : Lab) (cs : List (PTree Lab)) (hg : ∀ c ∈ cs, Good c) (x : PItem) : x ∈ postsL [] 0 cs ↔
    ∃ p l ds, p ≠ [] ∧ Spec.sub (.node r cs) p = some (.node l ds) ∧ x = ⟨p, l, firstLeaf ds⟩ := by
  have hL : ∀ (ds : List (PTree Lab)) (i : Nat), (∀ d ∈ ds, Good d) → (x ∈ postsL [] i ds ↔
      ∃ j d, ds[j]? = some d ∧ ∃ p l es, Spec.sub d p = some (.node l es) ∧ x = ⟨(i + j) :: p, l, firstLeaf es⟩) := by
    intro ds
    induction ds with
    | nil => intro i _; simp [postsL]
    | cons d ds ihd =>
      intro i hd
      rw [postsL, List.mem_append, sub_posts d (hd d (by simp)), ihd _ fun x hx => hd x (by simp [hx])]
      constructor
      · rintro (⟨p, m, es, h1, h2⟩ | ⟨j, d', h0, p, m, es, h1, h2⟩)
        · exact ⟨0, d, by simp, p, m, es, h1, by simp [h2]⟩
        · exact ⟨j + 1, d', by simpa using h0, p, m, es, h1, by rw [h2]; simp; omega⟩
      · rintro ⟨j, d', h0, p, m, es, h1, h2⟩
        cases j with
        | zero =>
          simp at h0
          subst h0
          exact Or.inl ⟨p, m, es, h1, by rw [h2]; simp⟩
        | succ j => exact Or.inr ⟨j, d', by simpa using h0, p, m, es, h1, by rw [h2]; simp; omega⟩
  rw [hL cs 0 hg]
  constructor
  · rintro ⟨j, d, h0, p, m, es, h1, h2⟩
    exact ⟨j :: p, m, es, by simp, by rw [Spec.sub, h0]; exact h1, by simpa using h2⟩
  · rintro ⟨p, m, ds, hne, hp, rfl⟩
    cases p with
    | nil => simp at hne
    | cons j p =>
      rw [Spec.sub] at hp
      cases hj : cs[j]? with
      | none => rw [hj] at hp; simp at hp
      | some d =>
        rw [hj] at hp
        exact ⟨j, d, hj, p, m, ds, hp, by simp⟩

/-- `Spec.Numbered` in terms of the list of nodes. -/
theorem numbered_iff (pyInt : Str → Option Int) (r : Lab) (cs : List (PTree Lab)) (hg : ∀ c ∈ cs, Good c) {q : Path} (hq : q ≠ []) (i : Int) :
    Spec.Numbered pyInt (.node r cs) q i ↔ ∃ y ∈ postsL [] 0 cs, y.path = q ∧ y.leaf = none ∧ ∃ w s, y.lab.source = some (('#' :: w) :: s) ∧ pyInt w = some i := by
  constructor
  · rintro ⟨l, ds, w, s, h1, h2, h3, h4⟩
    refine ⟨_, (sub_postsL r cs hg _).2 ⟨q, l, ds, hq, h1, rfl⟩, rfl, ?_, w, s, h3, h4⟩
    rw [isPhrasal_eq] at h2
    simpa using h2
  · rintro ⟨y, hy, rfl, h2, w, s, h3, h4⟩
    obtain ⟨p, l, ds, hp, h5, rfl⟩ := (sub_postsL r cs hg _).1 hy
    refine ⟨l, ds, w, s, h5, ?_, h3, h4⟩
    rw [isPhrasal_eq]
    simp only at h2
    rw [h2]; rfl

theorem edge_iff (pyInt : Str → Option Int) (r : Lab) (cs : List (PTree Lab)) (hg : ∀ c ∈ cs, Good c) (p : Path) (rel : Str) (q : Path) :
    Spec.Edge pyInt (.node r cs) p rel q ↔ ∃ x ∈ postsL [] 0 cs, x.path = p ∧ ∃ pid i, (rel, pid) ∈ pairs ((x.lab.source.getD []).drop 6) ∧ pyInt pid = some i ∧
      q ≠ [] ∧ Spec.Numbered pyInt (.node r cs) q i := by
  constructor
  · rintro ⟨l, ds, s, pid, i, h1, h2, h3, h4, h5, h6, h7⟩
    exact ⟨_, (sub_postsL r cs hg _).2 ⟨p, l, ds, h2, h1, rfl⟩, rfl, pid, i, by simpa [h3] using h4, h5, h6, h7⟩
  · rintro ⟨x, hx, rfl, pid, i, h4, h5, h6, h7⟩
    obtain ⟨p, l, ds, hp, h1, rfl⟩ := (sub_postsL r cs hg _).1 hx
    cases hs : l.source with
    | none => simp [hs, pairs] at h4
    | some s => exact ⟨l, ds, s, pid, i, h1, hp, hs, by simpa [hs] using h4, h5, h6, h7⟩

/-- Positions of nodes are distinct. -/
theorem posts_unique {cs : List (PTree Lab)} {x y : PItem} (hx : x ∈ postsL [] 0 cs) (hy : y ∈ postsL [] 0 cs) (h : x.path = y.path) : x = y :=
  List.inj_on_of_nodup_map (postsL_nodup cs [] 0) hx hy h

theorem edges_kept {pyInt : Str → Option Int} (hd : Spec.ReadsDecimals pyInt) {cs : List (PTree Lab)} (hg : ∀ c ∈ cs, Good c) {sent : List Str}
    {ids : List Int} (hids : mapO (nodeId pyInt) (((itemsL none 0 cs).filter (·.phr)).map (·.lab)) = some ids) {r : Lab}
    (hdist : Spec.DistinctNumbers pyInt (.node r cs)) (p : Path) (rel : Str) (q : Path) :
    Spec.Edge pyInt (.node rootLab (resNL pyInt .no ids sent none 0 cs)) p rel q ↔ Spec.Edge pyInt (.node r cs) p rel q := by
  have hg' := resNL_good pyInt .no ids sent hg none 0
  obtain ⟨X, hX⟩ : ∃ X, X = postsL [] 0 cs := ⟨_, rfl⟩
  obtain ⟨W, hW⟩ : ∃ W, W = phPaths X := ⟨_, rfl⟩
  have hWn : W.Nodup := by rw [hW, hX]; exact phPaths_nodup (postsL_nodup cs [] 0)
  have hposts := posts_resNL pyInt .no ids sent cs hg
  rw [← hX, ← hW] at hposts
  -- the numbers of the phrasal nodes
  have hP : ((itemsL none 0 cs).filter (·.phr)).map (·.lab) = (X.filter (·.leaf.isNone)).map (·.lab) := by
    have := toItem_postsL W hWn cs 0 [] [] (by rw [hW, hX]; simp)
    rw [← hX] at this
    rw [show ([] : List Path).length = 0 from rfl] at this
    rw [← this, List.filter_map, List.map_map]; rfl
  rw [hP, mapO_map] at hids
  have hPW : (X.filter (·.leaf.isNone)).map (·.path) = W := by rw [hW]; rfl
  -- the node with index `k`
  have hidx : ∀ (k : Nat) (i : Int), ids[k]? = some i → ∃ y ∈ X, y.leaf = none ∧ W[k]? = some y.path ∧ nodeId pyInt y.lab = some i := by
    intro k i hk
    have hl := mapO_length hids
    have hk' : k < (X.filter (·.leaf.isNone)).length := by
      rw [← hl]; exact (List.getElem?_eq_some_iff.1 hk).1
    have hy := List.getElem?_eq_getElem hk'
    have hm := List.mem_filter.1 (List.getElem_mem hk')
    refine ⟨_, hm.1, by simpa using hm.2, ?_, ?_⟩
    · rw [← hPW, List.getElem?_map, hy]; rfl
    · have key : ∀ (l : List PItem) (r : List Int) (k : Nat) (y : PItem), mapO (fun x => nodeId pyInt x.lab) l = some r → l[k]? = some y → r[k]? = nodeId pyInt y.lab := by
        intro l
        induction l with
        | nil => intro r k y _ h; simp at h
        | cons a l ih =>
          intro r k y h1 h2
          rw [mapO] at h1
          cases ha : nodeId pyInt a.lab with
          | none => rw [ha] at h1; simp at h1
          | some b =>
            rw [ha] at h1
            cases hl : mapO (fun x => nodeId pyInt x.lab) l with
            | none => rw [hl] at h1; simp at h1
            | some bs =>
              rw [hl] at h1; simp at h1; subst h1
              cases k with
              | zero => simp at h2; subst h2; simp [ha]
              | succ k => simp at h2 ⊢; exact ih bs k y hl h2
      rw [← key _ _ _ _ hids hy, hk]
  have hidx2 : ∀ y ∈ X, y.leaf = none → ∃ k : Nat, W[k]? = some y.path ∧ W.idxOf y.path = k ∧ k < ids.length := by
    intro y hy hl
    have hm : y.path ∈ W := by rw [← hPW]; exact List.mem_map.2 ⟨y, List.mem_filter.2 ⟨hy, by simp [hl]⟩, rfl⟩
    have hlt := List.idxOf_lt_length_iff.2 hm
    refine ⟨_, by rw [List.getElem?_eq_getElem hlt, List.getElem_idxOf], rfl, ?_⟩
    rw [mapO_length hids, ← List.length_map (f := fun x : PItem => x.path), hPW]; exact hlt
  -- the number of a numbered node
  have hnum : ∀ y ∈ X, ∀ w s i, y.lab.source = some (('#' :: w) :: s) → pyInt w = some i → nodeId pyInt y.lab = some i := by
    intro y _ w s i h1 h2
    rw [nodeId, h1]; exact h2
  have hfind : ∀ y ∈ X, y.leaf = none → ∀ i w s, y.lab.source = some (('#' :: w) :: s) → pyInt w = some i → ids.findIdx? (· = i) = some (W.idxOf y.path) := by
    intro y hy hl i w s h1 h2
    obtain ⟨k, hk1, hk2, hk3⟩ := hidx2 y hy hl
    obtain ⟨i', hi'⟩ : ∃ i', ids[k]? = some i' := ⟨_, List.getElem?_eq_getElem hk3⟩
    obtain ⟨y', hy', hl', hw', hn'⟩ := hidx k i' hi'
    rw [hk1, Option.some.injEq] at hw'
    have e : y = y' := posts_unique (by rw [← hX]; exact hy) (by rw [← hX]; exact hy') hw'
    subst e
    rw [hnum y hy w s i h1 h2, Option.some.injEq] at hn'
    subst hn'
    rw [hk2, List.findIdx?_eq_some_iff_getElem]
    refine ⟨hk3, by rw [List.getElem?_eq_getElem hk3, Option.some.injEq] at hi'; simpa using hi', ?_⟩
    intro j hj
    simp only [decide_eq_true_eq]
    intro hji
    have hj3 : j < ids.length := by omega
    obtain ⟨y2, hy2, hl2, hw2, hn2⟩ := hidx j i (by rw [List.getElem?_eq_getElem hj3, hji])
    have hne2 : y2.path ≠ [] := by
      obtain ⟨p', l', ds', hp', _, e'⟩ := (sub_postsL r cs hg y2).1 (by rw [← hX]; exact hy2)
      rw [e']; exact hp'
    have hne : y.path ≠ [] := by
      obtain ⟨p', l', ds', hp', _, e'⟩ := (sub_postsL r cs hg y).1 (by rw [← hX]; exact hy)
      rw [e']; exact hp'
    have hN : Spec.Numbered pyInt (.node r cs) y.path i := (numbered_iff pyInt r cs hg hne i).2 ⟨y, by rw [← hX]; exact hy, rfl, hl, w, s, h1, h2⟩
    obtain ⟨p', l', ds', hp', hsub', e'⟩ := (sub_postsL r cs hg y2).1 (by rw [← hX]; exact hy2)
    obtain ⟨i2, hi2⟩ := hdist.1 y2.path l' ds' hne2 (by rw [e']; exact hsub') (by
      rw [e'] at hl2; simp only at hl2; rw [isPhrasal_eq, hl2]; rfl)
    obtain ⟨y3, hy3, e3, hl3, w3, s3, h31, h32⟩ := (numbered_iff pyInt r cs hg hne2 i2).1 hi2
    have e4 : y3 = y2 := posts_unique hy3 (by rw [← hX]; exact hy2) e3
    subst e4
    rw [hnum y3 hy2 w3 s3 i2 h31 h32, Option.some.injEq] at hn2
    subst hn2
    have := hdist.2 _ _ _ hne hne2 hN hi2
    have h6 : k = j := by
      have hk' := List.getElem?_eq_some_iff.1 hk1
      have hj' := List.getElem?_eq_some_iff.1 hw2
      exact (List.Nodup.getElem_inj_iff hWn).1 (hk'.2.trans (this.trans hj'.2.symm))
    omega
  -- the record of a node that is read
  have hsrc : ∀ x ∈ X, (((relab pyInt .no ids sent (toItem W x)).lab.source).getD []).drop 6 = secEdges pyInt ids x.lab := by
    intro x _
    rw [relab]
    cases hp : (toItem W x).phr with
    | true => simp only [if_true]; rw [phF]; rfl
    | false => simp only [Bool.false_eq_true, if_false]; rw [tokF]; rfl
  have hrec : ∀ y ∈ X, y.leaf = none → ∃ s, (relab pyInt .no ids sent (toItem W y)).lab.source = some (('#' :: ident (W.idxOf y.path)) :: s) := by
    intro y _ hl
    have : (toItem W y).phr = true := by simp [toItem, hl]
    rw [relab, this]
    simp only [if_true]
    refine ⟨(phF pyInt ids (toItem W y)).drop 1, ?_⟩
    rw [phF]
    simp only [toItem, hl]
    rfl
  have hnumU : ∀ q, q ≠ [] → ∀ j, Spec.Numbered pyInt (.node rootLab (resNL pyInt .no ids sent none 0 cs)) q j ↔
      ∃ y ∈ X, y.path = q ∧ y.leaf = none ∧ j = ((500 + W.idxOf y.path : Nat) : Int) := by
    intro q hq j
    rw [numbered_iff pyInt rootLab _ hg' hq, hposts]
    constructor
    · rintro ⟨y', hy', h1, h2, w, s, h3, h4⟩
      obtain ⟨y, hy, rfl⟩ := List.mem_map.1 hy'
      obtain ⟨s', hs'⟩ := hrec y hy h2
      simp only at h3
      rw [hs', Option.some.injEq, List.cons.injEq, List.cons.injEq] at h3
      refine ⟨y, hy, h1, h2, ?_⟩
      rw [← h3.1.2, ident, hd] at h4
      exact (Option.some.inj h4).symm
    · rintro ⟨y, hy, h1, h2, rfl⟩
      obtain ⟨s', hs'⟩ := hrec y hy h2
      exact ⟨_, List.mem_map.2 ⟨y, hy, rfl⟩, h1, h2, _, _, hs', hd _⟩
  rw [edge_iff pyInt rootLab _ hg', edge_iff pyInt r cs hg, hposts, ← hX]
  constructor
  · rintro ⟨x', hx', h1, pid, i, h2, h3, h4, h5⟩
    obtain ⟨x, hx, rfl⟩ := List.mem_map.1 hx'
    simp only at h1 h2
    rw [hsrc x hx, pairs_secEdges, List.mem_filterMap] at h2
    obtain ⟨e, he, h2⟩ := h2
    rw [secOf] at h2
    cases hp : pyInt e.2 with
    | none => rw [hp] at h2; simp at h2
    | some i0 =>
      rw [hp, Option.bind_some] at h2
      cases hf : ids.findIdx? (· = i0) with
      | none => rw [hf] at h2; simp at h2
      | some k =>
        rw [hf, Option.map_some, Option.some.injEq, Prod.mk.injEq] at h2
        obtain ⟨h21, h22⟩ := h2
        rw [← h22, ident, hd, Option.some.injEq] at h3
        obtain ⟨y, hy, h6, h7, h8⟩ := (hnumU q h4 i).1 h5
        have hkk : W.idxOf y.path = k := by rw [← h3] at h8; omega
        obtain ⟨hk1, hk2, -⟩ := List.findIdx?_eq_some_iff_getElem.1 hf
        simp only [decide_eq_true_eq] at hk2
        obtain ⟨y2, hy2, hl2, hw2, hn2⟩ := hidx k i0 (by rw [List.getElem?_eq_getElem hk1, hk2])
        obtain ⟨k', hk'1, hk'2, _⟩ := hidx2 y hy h7
        have : y.path = y2.path := by
          rw [← hk'2, hkk] at hk'1
          rw [hk'1, Option.some.injEq] at hw2; exact hw2
        have e4 : y = y2 := posts_unique (by rw [← hX]; exact hy) (by rw [← hX]; exact hy2) this
        subst e4
        subst h6
        obtain ⟨p', l', ds', hp', hsub', e'⟩ := (sub_postsL r cs hg y).1 (by rw [← hX]; exact hy)
        obtain ⟨i2, hi2⟩ := hdist.1 y.path l' ds' h4 (by rw [e']; exact hsub') (by
          rw [e'] at hl2; simp only at hl2; rw [isPhrasal_eq, hl2]; rfl)
        obtain ⟨y3, hy3, e3, hl3, w3, s3, h31, h32⟩ := (numbered_iff pyInt r cs hg h4 i2).1 hi2
        have e5 : y3 = y := posts_unique hy3 (by rw [← hX]; exact hy) e3
        subst e5
        rw [hnum y3 hy w3 s3 i2 h31 h32, Option.some.injEq] at hn2
        subst hn2
        exact ⟨x, hx, h1, e.2, i2, by rw [← h21]; exact he, hp, h4, hi2⟩
  · rintro ⟨x, hx, h1, pid, i, h2, h3, h4, h5⟩
    obtain ⟨y, hy, h6, h7, w, s, h8, h9⟩ := (numbered_iff pyInt r cs hg h4 i).1 h5
    rw [← hX] at hy
    refine ⟨_, List.mem_map.2 ⟨x, hx, rfl⟩, h1, ident (W.idxOf y.path), ((500 + W.idxOf y.path : Nat) : Int), ?_, hd _, h4, ?_⟩
    · simp only
      rw [hsrc x hx, pairs_secEdges, List.mem_filterMap]
      refine ⟨(rel, pid), h2, ?_⟩
      rw [secOf]
      simp only
      rw [h3, Option.bind_some, hfind y hy h7 i w s h8 h9]
      rfl
    · rw [hnumU q h4]
      exact ⟨y, hy, h6, h7, rfl⟩

/-! ### Properties -/

/-- **C14.** The corpus reader returns the canonical form of the tree that was written: the same constituents with the same labels and attributes, with
sisters in the order of their terminals; and the same sentence. -/
theorem C14_reader {ws : Char → Bool} {pyInt : Str → Option Int} (l : Lab) {cs : List (PTree Lab)} {sent : List Str}
    (h : Spec.Writable ws pyInt cs sent) (h500 : Spec.phrasal cs ≤ 500) (hne : Canon.Spec.NoEmpty (Spec.withRoot cs)) :
    ∃ rows u, writeRows pyInt .no (.node l cs) sent = some rows ∧ parsetree .no rows = some (u, sent) ∧
      Canon.Spec.SameUpToOrder (Spec.view (Spec.withRoot cs)) (Spec.view u) ∧ Canon.Spec.Ordered u ∧
      Canon.canonicalize (Spec.view (Spec.withRoot cs)) = some (Spec.view u) := by
  obtain ⟨ids, -, h2, h3⟩ := roundtrip .no l h h500
  have hg := Writable.good h
  have hnd : (leavesL cs).Nodup := h.terminals.symm.nodup List.nodup_range
  have hpre := pre_root (r := rootLab) (resNL_good pyInt .no ids sent hg none 0)
  obtain ⟨u, hu, hs, ho, hpu⟩ := Canon.C06_canonicalize _ hpre
  have hcan := canon_res pyInt .no ids sent hg hne hnd
  have hsent : sent ≠ [] := by
    intro e
    have h0 := h.terminals
    rw [e] at h0
    have h1 := Canon.NoEmpty.leaves_ne hne
    rw [Spec.withRoot, leaves_node] at h1
    exact h1 (List.perm_nil.1 h0)
  have hview : Spec.view (.node rootLab (resNL pyInt .no ids sent none 0 cs)) = Spec.view (Spec.withRoot cs) := by
    rw [Spec.withRoot, Spec.view, Spec.view, view_resNL pyInt ids sent cs hg h.labels, info_nodes, info_nodes]
    · rfl
    · exact h.nodes
    · exact fun d hd => (resNL_good _ _ _ _ hg _ _ d hd).2
  have hsame := view_same _ hs hpre
  rw [hview] at hsame
  refine ⟨_, u, h2, ?_, hsame, ho, ?_⟩
  · rw [parsetree, h3]
    simp only
    rw [if_neg hsent, hcan, hu]
    rfl
  · rw [Canon.canonicalize_unique _ _ hsame (view_preterminals (pre_root hg)) (view_noEmpty hne) (by rw [view_leaves, Spec.withRoot, leaves_node]; exact hnd)]
    exact Canon.canonicalize_of_ordered _ (view_preterminals hpu) (view_ordered ho)

/-- **C14.** When the constituents of the tree are in the order of their terminals, the corpus reader restores the tree exactly, including the order of
sisters; writing it again gives the same rows; and the secondary edges connect the same nodes (when each phrasal node has a number of its own). -/
theorem C14_exact {ws : Char → Bool} {pyInt : Str → Option Int} (hd : Spec.ReadsDecimals pyInt) (l : Lab) {cs : List (PTree Lab)} {sent : List Str}
    (h : Spec.Writable ws pyInt cs sent) (h500 : Spec.phrasal cs ≤ 500) (hne : Canon.Spec.NoEmpty (Spec.withRoot cs))
    (ho : Canon.Spec.Ordered (Spec.withRoot cs)) :
    ∃ rows u, writeRows pyInt .no (.node l cs) sent = some rows ∧ parsetree .no rows = some (u, sent) ∧
      Spec.view u = Spec.view (Spec.withRoot cs) ∧ writeRows pyInt .no u sent = some rows ∧
      (Spec.DistinctNumbers pyInt (.node l cs) → ∀ p rel q, Spec.Edge pyInt u p rel q ↔ Spec.Edge pyInt (.node l cs) p rel q) := by
  obtain ⟨ids, h1, h2, h3⟩ := roundtrip .no l h h500
  have hg := Writable.good h
  have hnd : (leavesL cs).Nodup := h.terminals.symm.nodup List.nodup_range
  have hcan := canon_ordered pyInt .no ids sent hg hne hnd ho
  have hsent : sent ≠ [] := by
    intro e
    have h0 := h.terminals
    rw [e] at h0
    have h1 := Canon.NoEmpty.leaves_ne hne
    rw [Spec.withRoot, leaves_node] at h1
    exact h1 (List.perm_nil.1 h0)
  refine ⟨_, _, h2, ?_, ?_, rewrite_rows hd h h1, fun hdist p rel q => edges_kept hd hg h1 hdist p rel q⟩
  · rw [parsetree, h3]
    simp only
    rw [if_neg hsent, hcan]
    rfl
  · rw [Spec.withRoot, Spec.view, Spec.view, view_resNL pyInt ids sent cs hg h.labels, info_nodes, info_nodes]
    · rfl
    · exact h.nodes
    · exact fun d hd => (resNL_good _ _ _ _ hg _ _ d hd).2

end Disco.Export
