import Verif.Frag.CtreesHist
/-!
# C54: trees as arrays of nodes: conversion back to text, and agreement of nodes
-/
namespace Disco.Frag
open Prods PTree

/-! ### Text -/

theorem prodOf_lhs {sent : List (Option Str)} {l : Str} {cs : List (PTree Str)} {r : Prods.Rule} (hp : prodOf sent true (.node l cs) = some (some r)) :
    r.nts[0]? = some l := by
  match cs with
  | [] => simp [prodOf] at hp
  | .leaf i :: cs =>
    simp only [prodOf] at hp
    split at hp
    · simp at hp; rw [← hp]; rfl
    · simp at hp; rw [← hp]; rfl
  | .node m ds :: cs =>
    simp only [prodOf] at hp
    split at hp
    · simp only [Option.map_eq_some_iff, Option.some.injEq] at hp
      obtain ⟨yf, -, rfl⟩ := hp
      rfl
    · cases hp

theorem corr_label {v : Vocab.Vocabulary} (hv : Vocab.Spec.Steps Vocab.init v) {sent : List (Option Str)} {l : Str} {cs : List (PTree Str)} {r : Prods.Rule} {n : Nat}
    (hp : prodOf sent true (.node l cs) = some (some r)) (hr : Vocab.Spec.Production r) (hn : Vocab.getprod v r = some (v, n)) : Vocab.getlabel v n = l := by
  have h := (Vocab.C53_lookup hv hr hn .refl).1
  rw [prodOf_lhs hp, Option.some.injEq] at h
  exact h.symm

theorem corr_word {v : Vocab.Vocabulary} (hv : Vocab.Spec.Steps Vocab.init v) {sent : List (Option Str)} {l : Str} {i : Nat} {r : Prods.Rule} {n : Nat}
    (hp : prodOf sent true (.node l [.leaf i]) = some (some r)) (hr : Vocab.Spec.Production r) (hn : Vocab.getprod v r = some (v, n)) :
    Vocab.getword v n = (sent[i]?).join.map fun w => Escape.escape (some w) := by
  obtain ⟨-, h1, h2, -⟩ := Vocab.C53_lookup hv hr hn .refl
  cases hs : sent[i]? with
  | none => simp [prodOf, hs] at hp; subst hp; simpa using h2 rfl
  | some w =>
    cases w with
    | none => simp [prodOf, hs] at hp; subst hp; simpa using h2 rfl
    | some w => simp [prodOf, hs] at hp; subst hp; simpa using (h1 _ rfl).1

theorem corr_prod {v : Vocab.Vocabulary} {a : List Node} {sent : List (Option Str)} {t : PTree Str} {b : BTree} (h : Spec.Corr v a sent t b) :
    ∃ r n, prodOf sent true t = some (some r) ∧ Vocab.getprod v r = some (v, n) ∧ b.prod = (n : Int) := by
  cases h with
  | term hp hn hl hr => exact ⟨_, _, hp, hn, rfl⟩
  | un hp hn h => exact ⟨_, _, hp, hn, rfl⟩
  | bin hp hn h h' => exact ⟨_, _, hp, hn, rfl⟩

theorem repr_un {a : List Node} {j : Nat} {p : Int} {b : BTree} (h : Spec.Repr a (.un j p b)) : Spec.Repr a b ∧ (nd a j).left = b.idx ∧ (nd a j).right < 0 := by
  cases h; exact ⟨by assumption, by assumption, by assumption⟩

theorem repr_bin {a : List Node} {j : Nat} {p : Int} {b b' : BTree} (h : Spec.Repr a (.bin j p b b')) :
    Spec.Repr a b ∧ Spec.Repr a b' ∧ (nd a j).left = b.idx ∧ (nd a j).right = b'.idx := by
  cases h; exact ⟨by assumption, by assumption, by assumption, by assumption⟩

theorem subs_pos (b : BTree) : 0 < b.subs.length := by cases b <;> simp [BTree.subs]

theorem gap_blank {ws : Char → Bool} : Bracket.Gap ws [' '] := ⟨[], rfl, by simp⟩

theorem escape_none : Escape.escape none = [] := rfl

/-- The text of a node. -/
theorem gettree_renders {v : Vocab.Vocabulary} (hv : Vocab.Spec.Steps Vocab.init v) {ws : Char → Bool} {a : List Node} {sent : List (Option Str)} {t : PTree Str} {b : BTree}
    (h : Spec.Corr v a sent t b) : Spec.Repr a b → (∀ st ∈ subtrees t, ∀ r, prodOf sent true st = some (some r) → Vocab.Spec.Production r) →
    ∀ f, b.subs.length ≤ f → Bracket.Renders ws (Bracket.wordLeaf sent) t (gettree a v f b.idx) := by
  induction h with
  | @term l i j n r hp hn hl hr =>
    intro hb hprod f hf
    obtain ⟨f, rfl⟩ : ∃ f', f = f' + 1 := ⟨f - 1, by have := hf; simp [BTree.subs] at this; omega⟩
    have e := repr_prod hb
    simp only [BTree.prod, BTree.idx] at e
    have h1 := corr_label hv hp (hprod _ (by simp) _ hp) hn
    have h2 := corr_word hv hp (hprod _ (by simp) _ hp) hn
    have e2 : restIndices a a.length (-1) = [] := by cases a.length <;> simp [restIndices]
    have e3 : (-(-(i : Int) - 1) - 1).toNat = i := by omega
    have e4 : gettree a v (f + 1) j = '(' :: (l ++ ([' '] ++ Bracket.wordLeaf sent i ++ []) ++ [')']) := by
      rw [gettree, ← e, h1, h2, if_neg (by rw [hl]; omega), hl, hr, e2, e3, Bracket.wordLeaf]
      cases hs : (sent[i]?).join <;> simp [escape_none]
    simp only [BTree.idx]
    rw [e4]
    exact .node _ _ _ (.cons gap_blank (.leaf i) .nil)
  | @un l c b j n r hp hn h ih =>
    intro hb hprod f hf
    simp only [BTree.subs, List.length_cons] at hf
    obtain ⟨f, rfl⟩ : ∃ f', f = f' + 1 := ⟨f - 1, by omega⟩
    have e := repr_prod hb
    simp only [BTree.prod, BTree.idx] at e
    have h1 := corr_label hv hp (hprod _ (by simp) _ hp) hn
    have hb' := repr_un hb
    have k := ih hb'.1 (fun st hst => hprod st (by simp [subtreesL, hst])) f (by omega)
    have e4 : gettree a v (f + 1) j = '(' :: (l ++ ([' '] ++ gettree a v f b.idx ++ []) ++ [')']) := by
      rw [gettree, ← e, h1, if_pos (by rw [hb'.2.1]; omega), if_neg (by have := hb'.2.2; omega), hb'.2.1]
      simp
    simp only [BTree.idx]
    rw [e4]
    exact .node _ _ _ (.cons gap_blank k .nil)
  | @bin l c d b b' j n r hp hn h h' ih ih' =>
    intro hb hprod f hf
    simp only [BTree.subs, List.length_cons, List.length_append] at hf
    obtain ⟨f, rfl⟩ : ∃ f', f = f' + 1 := ⟨f - 1, by omega⟩
    have e := repr_prod hb
    simp only [BTree.prod, BTree.idx] at e
    have h1 := corr_label hv hp (hprod _ (by simp) _ hp) hn
    have hb' := repr_bin hb
    obtain ⟨r1, r2, hl, hr⟩ := hb'
    have k := ih r1 (fun st hst => hprod st (by simp [subtreesL, hst])) f (by omega)
    have k' := ih' r2 (fun st hst => hprod st (by simp [subtreesL, hst])) f (by omega)
    have e4 : gettree a v (f + 1) j = '(' :: (l ++ ([' '] ++ gettree a v f b.idx ++ ([' '] ++ gettree a v f b'.idx ++ [])) ++ [')']) := by
      rw [gettree, ← e, h1, if_pos (by rw [hl]; omega), if_pos (by rw [hr]; omega), hl, hr]
      simp
    simp only [BTree.idx]
    rw [e4]
    exact .node _ _ _ (.cons gap_blank k (.cons gap_blank k' .nil))

theorem represents_get {v : Vocab.Vocabulary} {items : List (PTree Str × List (Option Str))} {c : Ctrees} {bs : List BTree}
    (h : Spec.Represents v items c bs) {n : Nat} {x : PTree Str × List (Option Str)} (hx : items[n]? = some x) : ∃ y b, c.trees[n]? = some y ∧ bs[n]? = some b ∧
      Spec.Tree (c.nodesOf y) b ∧ y.root = b.idx ∧ Spec.Corr v (c.nodesOf y) x.2 x.1 b := by
  have h1 := (List.getElem?_eq_some_iff.1 hx).1
  have h2 := h.length
  have h3 : c.bank.length = c.trees.length := by simp [Ctrees.bank]
  have h4 := List.Forall₂.length_eq h.bank
  have hn : n < c.trees.length := by omega
  have e : c.bank[n]? = some (c.nodesOf c.trees[n], c.trees[n].root) := by simp [Ctrees.bank, hn]
  have h5 := (List.forall₂_iff_get.1 h.bank).2 n (by omega) (by omega)
  simp only [List.get_eq_getElem] at h5
  have e2 : c.bank[n]'(by omega) = (c.nodesOf c.trees[n], c.trees[n].root) := by simp [Ctrees.bank]
  rw [e2] at h5
  exact ⟨_, _, List.getElem?_eq_getElem hn, List.getElem?_eq_getElem (by omega), h5.1, h5.2, h.corr n x _ _ hx e (List.getElem?_eq_getElem (by omega))⟩

theorem tree_length {a : List Node} {b : BTree} (h : Spec.Tree a b) : b.subs.length = a.length := by
  have := h.all.length_eq
  simpa using this

theorem made_item {c : Ctrees} {v : Vocab.Vocabulary} {items : List (PTree Str × List (Option Str))} (h : Spec.Made c v items) :
    Vocab.Spec.Steps Vocab.init v ∧ ∀ x ∈ items, Spec.Item x := by
  obtain ⟨bs, h1, -⟩ := made_inv h
  exact ⟨h1.steps, h1.good⟩

/-- **C54**: `extract` gives a text in discbracket format from which the original tree and sentence can be read. -/
theorem C54_extract {c : Ctrees} {v : Vocab.Vocabulary} {items : List (PTree Str × List (Option Str))} (h : Spec.Made c v items) {n : Nat} {t : PTree Str}
    {sent : List (Option Str)} (hx : items[n]? = some (t, sent)) (hleaves : t.leaves.Perm (List.range sent.length))
    {ws : Char → Bool} (hws : Bracket.Spec.Space ws) {pyInt : Str → Option Nat} (hint : ∀ n, pyInt (Nat.toDigits 10 n) = some n)
    (hlab : Bracket.Spec.Labels ws t) (hw : ∀ w ∈ sent, Bracket.Spec.Writable ws w) :
    ∃ s, c.extract v n = some s ∧ Bracket.discbrackettree ws pyInt s = some (t, sent) := by
  obtain ⟨hv, hi⟩ := made_item h
  obtain ⟨bs, hb⟩ := C54_represents h
  obtain ⟨y, b, h1, h2, h3, h4, h5⟩ := represents_get hb hx
  have hitem := hi _ (List.mem_of_getElem? hx)
  have hr := gettree_renders (ws := ws) hv h5 h3.repr (item_prods hitem) y.len (by
    rw [tree_length h3, Ctrees.nodesOf, List.length_take]
    omega)
  refine ⟨gettree (c.nodesOf y) v y.len y.root, by rw [Ctrees.extract, h1]; rfl, ?_⟩
  rw [h4]
  obtain ⟨l, cs, rfl⟩ := binarized_node hitem.bin
  have hne : sent ≠ [] := by
    rintro rfl
    exact binarized_leaves hitem.bin (List.Perm.eq_nil (by simpa using hleaves))
  have := Bracket.discbrackettree_renders hws hint hlab hleaves hne hw hr (rest := []) (Or.inl rfl)
  rwa [List.append_nil] at this

/-! ### Sentences -/

/-- What the words of the sentence are in the grammar. -/
def wordAt (sent : List (Option Str)) (i : Nat) : Option Str := (sent[i]?).join.map fun w => Escape.escape (some w)

theorem corr_terms {v : Vocab.Vocabulary} (hv : Vocab.Spec.Steps Vocab.init v) {a : List Node} {sent : List (Option Str)} {t : PTree Str} {b : BTree}
    (h : Spec.Corr v a sent t b) : Spec.Repr a b → (∀ st ∈ subtrees t, ∀ r, prodOf sent true st = some (some r) → Vocab.Spec.Production r) →
    (∀ u ∈ b.subs, (nd a u.idx).left < 0 → ∃ i ∈ t.leaves, (nd a u.idx).left = -(i : Int) - 1 ∧ Vocab.getword v u.prod = wordAt sent i) ∧
    ∀ i ∈ t.leaves, ∃ u ∈ b.subs, (nd a u.idx).left = -(i : Int) - 1 := by
  induction h with
  | @term l i j n r hp hn hl hr =>
    intro hb hprod
    simp only [BTree.subs, List.mem_singleton, forall_eq, exists_eq_left, leaves_node, leavesL, leaves_leaf, List.append_nil]
    exact ⟨fun _ => ⟨hl, corr_word hv hp (hprod _ (by simp) _ hp) hn⟩, hl⟩
  | @un l c b j n r hp hn h ih =>
    intro hb hprod
    have hb' := repr_un hb
    obtain ⟨k1, k2⟩ := ih hb'.1 (fun st hst => hprod st (by simp [subtreesL, hst]))
    constructor
    · intro u hu hlt
      simp only [BTree.subs, List.mem_cons] at hu
      rcases hu with rfl | hu
      · have := hb'.2.1; simp only [BTree.idx] at hlt; omega
      · simpa using k1 u hu hlt
    · intro i hi
      obtain ⟨u, hu, e⟩ := k2 i (by simpa using hi)
      exact ⟨u, by simp [BTree.subs, hu], e⟩
  | @bin l c d b b' j n r hp hn h h' ih ih' =>
    intro hb hprod
    have hb' := repr_bin hb
    obtain ⟨r1, r2, hl, hr⟩ := hb'
    obtain ⟨k1, k2⟩ := ih r1 (fun st hst => hprod st (by simp [subtreesL, hst]))
    obtain ⟨k3, k4⟩ := ih' r2 (fun st hst => hprod st (by simp [subtreesL, hst]))
    constructor
    · intro u hu hlt
      simp only [BTree.subs, List.mem_cons, List.mem_append] at hu
      rcases hu with rfl | hu | hu
      · simp only [BTree.idx] at hlt; omega
      · obtain ⟨i, hi, e⟩ := k1 u hu hlt
        exact ⟨i, by simp [hi], e⟩
      · obtain ⟨i, hi, e⟩ := k3 u hu hlt
        exact ⟨i, by simp [hi], e⟩
    · intro i hi
      simp only [leaves_node, leavesL_cons, leavesL_nil, List.append_nil, List.mem_append] at hi
      rcases hi with hi | hi
      · obtain ⟨u, hu, e⟩ := k2 i hi
        exact ⟨u, by simp [BTree.subs, hu], e⟩
      · obtain ⟨u, hu, e⟩ := k4 i hi
        exact ⟨u, by simp [BTree.subs, hu], e⟩

theorem fold_sent {v : Vocab.Vocabulary} {g : Nat → Option Str} : ∀ {l : List Node} {d : Dict Nat (Option Str)},
    (∀ y ∈ l, Vocab.getword v y.prod = g (-y.left - 1).toNat) → (∀ i w, Dict.get? d i = some w → w = g i) →
    ∀ i, Dict.get? (l.foldl (fun d y => Dict.set d (-y.left - 1).toNat (Vocab.getword v y.prod)) d) i =
      if (∃ y ∈ l, (-y.left - 1).toNat = i) ∨ (Dict.get? d i).isSome then some (g i) else none
  | [], d, _, hd, i => by
    simp only [List.foldl_nil, List.not_mem_nil, false_and, exists_false, false_or]
    cases e : Dict.get? d i with
    | none => simp
    | some w => simp [hd i w e]
  | y :: l, d, hl, hd, i => by
    rw [List.foldl_cons, fold_sent (fun z hz => hl z (by simp [hz])) (by
      intro i w hw
      rw [Dict.get?_set] at hw
      split at hw
      · rename_i e
        rw [hl y (by simp), Option.some.injEq] at hw
        rw [← hw, e]
      · exact hd i w hw)]
    have : ((∃ z ∈ l, (-z.left - 1).toNat = i) ∨ (Dict.get? (Dict.set d (-y.left - 1).toNat (Vocab.getword v y.prod)) i).isSome) ↔
        ((∃ z ∈ y :: l, (-z.left - 1).toNat = i) ∨ (Dict.get? d i).isSome) := by
      rw [Dict.get?_set]
      simp only [List.mem_cons, exists_eq_or_imp]
      split
      · rename_i e; simp [e]
      · rename_i e; simp only [e, false_or]
    simp only [this]

/-- **C54**: `extractsent` gives the sentence, with the words as they are in the grammar (escaped), and `None` for substitution sites. -/
theorem C54_extractsent {c : Ctrees} {v : Vocab.Vocabulary} {items : List (PTree Str × List (Option Str))} (h : Spec.Made c v items) {n : Nat} {t : PTree Str}
    {sent : List (Option Str)} (hx : items[n]? = some (t, sent)) (hleaves : t.leaves.Perm (List.range sent.length)) :
    c.extractsent v n = some (sent.map fun w => w.map fun w => Escape.escape (some w)) := by
  obtain ⟨hv, hi⟩ := made_item h
  obtain ⟨bs, hb⟩ := C54_represents h
  obtain ⟨y, b, h1, h2, h3, h4, h5⟩ := represents_get hb hx
  have hitem := hi _ (List.mem_of_getElem? hx)
  obtain ⟨k1, k2⟩ := corr_terms hv h5 h3.repr (item_prods hitem)
  have e1 : ∀ z ∈ (c.nodesOf y).filter (fun y => decide (y.left < 0)), ∃ i < sent.length, z.left = -(i : Int) - 1 ∧ Vocab.getword v z.prod = wordAt sent i := by
    intro z hz
    rw [List.mem_filter, decide_eq_true_eq] at hz
    obtain ⟨j, hj, rfl⟩ := List.mem_iff_getElem.1 hz.1
    obtain ⟨u, g1, g2, g3⟩ := repr_bounds h3.repr h3.all j hj
    have g4 : nd (c.nodesOf y) u.idx = (c.nodesOf y)[j] := by rw [g2, nd_get hj]
    obtain ⟨i, g5, g6, g7⟩ := k1 u g1 (by rw [g4]; exact hz.2)
    exact ⟨i, List.mem_range.1 (hleaves.mem_iff.1 g5), by rw [← g4]; exact g6, by rw [← g4, ← repr_prod g3]; exact g7⟩
  have e2 : ∀ i < sent.length, ∃ z ∈ (c.nodesOf y).filter (fun y => decide (y.left < 0)), z.left = -(i : Int) - 1 := by
    intro i hi
    obtain ⟨u, g1, g2⟩ := k2 i (hleaves.mem_iff.2 (List.mem_range.2 hi))
    have g3 := repr_lt (repr_sub h3.repr g1)
    rw [nd_get g3] at g2
    exact ⟨_, List.mem_filter.2 ⟨List.getElem_mem g3, by rw [g2]; simp; omega⟩, g2⟩
  have e3 := fold_sent (v := v) (g := wordAt sent) (l := (c.nodesOf y).filter fun y => decide (y.left < 0)) (d := []) (by
    intro z hz
    obtain ⟨i, -, g1, g2⟩ := e1 z hz
    rw [g2, g1]; congr 1; omega) (by simp [Dict.get?])
  have e4 : ∀ i, Dict.get? (((c.nodesOf y).filter fun y => decide (y.left < 0)).foldl
      (fun d y => Dict.set d (-y.left - 1).toNat (Vocab.getword v y.prod)) []) i = if i < sent.length then some (wordAt sent i) else none := by
    intro i
    rw [e3 i]
    congr 1
    simp only [Dict.get?, Option.isSome_none, Bool.false_eq_true, or_false, eq_iff_iff]
    constructor
    · rintro ⟨z, hz, e⟩
      obtain ⟨j, g0, g1, g2⟩ := e1 z hz
      rw [g1] at e
      have : j = i := by omega
      omega
    · intro hi
      obtain ⟨z, hz, e⟩ := e2 i hi
      exact ⟨z, hz, by rw [e]; omega⟩
  have hpos : 0 < sent.length := by
    rcases Nat.eq_zero_or_pos sent.length with h0 | h0
    · rw [h0] at hleaves
      exact absurd (List.Perm.eq_nil (by simpa using hleaves)) (binarized_leaves hitem.bin)
    · exact h0
  unfold Ctrees.extractsent
  rw [h1, Option.bind_some]
  generalize (((c.nodesOf y).filter fun y => decide (y.left < 0)).foldl (fun d y => Dict.set d (-y.left - 1).toNat (Vocab.getword v y.prod)) []) = d at e4
  have hkeys : ∀ i, i ∈ d.keys ↔ i < sent.length := by
    intro i
    rw [Dict.mem_keys, e4]
    split <;> simp [*]
  have hmax : d.keys.max? = some (sent.length - 1) := by
    rw [List.max?_eq_some_iff]
    refine ⟨(hkeys _).2 (by omega), fun b hb => ?_⟩
    have := (hkeys b).1 hb
    omega
  simp only [hmax, Option.map_some]
  congr 1
  apply List.ext_getElem
  · simp; omega
  · intro i g1 g2
    simp only [List.length_map] at g2
    simp only [List.getElem_map, List.getElem_range]
    rw [e4, if_pos g2, wordAt, List.getElem?_eq_getElem g2]; rfl

/-! ### Agreement -/

/-- The node at a position: `false` is the first non-terminal child, `true` the second. -/
def Spec.at : PTree Str → List Bool → Option (PTree Str)
  | t, [] => some t
  | .node _ (.node l cs :: _), false :: p => Spec.at (.node l cs) p
  | .node _ [_, .node l cs], true :: p => Spec.at (.node l cs) p
  | _, _ => none

/-- The nodes on the way to the position exist in both trees and have the same production. -/
def Spec.SameProds (x y : PTree Str × List (Option Str)) (p : List Bool) : Prop :=
  ∀ q, q <+: p → ∃ s t r, Spec.at x.1 q = some s ∧ Spec.at y.1 q = some t ∧ prodOf x.2 true s = some (some r) ∧ prodOf y.2 true t = some (some r)

theorem corr_at {v : Vocab.Vocabulary} {a : List Node} {sent : List (Option Str)} {t : PTree Str} {b : BTree} (h : Spec.Corr v a sent t b) : Spec.Binarized t → ∀ q,
    (Spec.at t q = none ∧ b.sub q = none) ∨ ∃ s u, Spec.at t q = some s ∧ b.sub q = some u ∧ s ∈ subtrees t ∧ Spec.Corr v a sent s u := by
  induction h with
  | @term l i j n r hp hn hl hr =>
    intro hb q
    cases q with
    | nil => exact Or.inr ⟨_, _, by simp [Spec.at], by simp [BTree.sub], by simp, .term hp hn hl hr⟩
    | cons d q => left; cases d <;> simp [Spec.at, BTree.sub, BTree.child]
  | @un l c b j n r hp hn h ih =>
    intro hb q
    cases hb with
    | term => cases h
    | un _ hc =>
      obtain ⟨m, ds, rfl⟩ := binarized_node hc
      cases q with
      | nil => exact Or.inr ⟨_, _, by simp [Spec.at], by rw [BTree.sub], by simp, .un hp hn h⟩
      | cons d q =>
        cases d with
        | true => left; simp [Spec.at, BTree.sub, BTree.child]
        | false =>
          rcases ih hc q with ⟨h1, h2⟩ | ⟨s, u, h1, h2, h3, h4⟩
          · exact Or.inl ⟨by simp [Spec.at, h1], by simp [BTree.sub, BTree.child, h2]⟩
          · exact Or.inr ⟨s, u, by simp [Spec.at, h1], by simp [BTree.sub, BTree.child, h2], by simp [subtreesL] at h3 ⊢; exact Or.inr h3, h4⟩
  | @bin l c d b e j n r hp hn h h' ih ih' =>
    intro hb q
    cases hb with
    | bin _ hc hd =>
      obtain ⟨m, ds, rfl⟩ := binarized_node hc
      obtain ⟨m', ds', rfl⟩ := binarized_node hd
      cases q with
      | nil => exact Or.inr ⟨_, _, by simp [Spec.at], by rw [BTree.sub], by simp, .bin hp hn h h'⟩
      | cons d q =>
        cases d with
        | true =>
          rcases ih' hd q with ⟨h1, h2⟩ | ⟨s, u, h1, h2, h3, h4⟩
          · exact Or.inl ⟨by simp [Spec.at, h1], by simp [BTree.sub, BTree.child, h2]⟩
          · refine Or.inr ⟨s, u, by simp [Spec.at, h1], by simp [BTree.sub, BTree.child, h2], ?_, h4⟩
            rw [subtrees_node, subtreesL, subtreesL, subtreesL, List.append_nil]
            exact List.mem_cons_of_mem _ (List.mem_append.2 (by first | exact Or.inl h3 | exact Or.inr h3))
        | false =>
          rcases ih hc q with ⟨h1, h2⟩ | ⟨s, u, h1, h2, h3, h4⟩
          · exact Or.inl ⟨by simp [Spec.at, h1], by simp [BTree.sub, BTree.child, h2]⟩
          · refine Or.inr ⟨s, u, by simp [Spec.at, h1], by simp [BTree.sub, BTree.child, h2], ?_, h4⟩
            rw [subtrees_node, subtreesL, subtreesL, subtreesL, List.append_nil]
            exact List.mem_cons_of_mem _ (List.mem_append.2 (by first | exact Or.inl h3 | exact Or.inr h3))

/-- **C54**: Nodes of the arrays agree (the relation in terms of which C49–C52 are stated) if and only if the nodes of the original trees have the same
productions: same labels, same word, same yield function. -/
theorem C54_agree {v : Vocab.Vocabulary} (hv : Vocab.Spec.Steps Vocab.init v) {items items' : List (PTree Str × List (Option Str))} {c c' : Ctrees} {bs bs' : List BTree}
    (h : Spec.Represents v items c bs) (h' : Spec.Represents v items' c' bs') (hi : ∀ x ∈ items, Spec.Item x) (hi' : ∀ x ∈ items', Spec.Item x)
    {n m : Nat} {x y : PTree Str × List (Option Str)} {b d : BTree} (hx : items[n]? = some x) (hb : bs[n]? = some b) (hy : items'[m]? = some y) (hd : bs'[m]? = some d)
    {pb pd : List Bool} {s t : PTree Str} {u w : BTree} (hs : Spec.at x.1 pb = some s) (hu : b.sub pb = some u) (ht : Spec.at y.1 pd = some t) (hw : d.sub pd = some w)
    (p : List Bool) : Spec.Agree u w p ↔ Spec.SameProds (s, x.2) (t, y.2) p := by
  have hix := hi x (List.mem_of_getElem? hx)
  have hiy := hi' y (List.mem_of_getElem? hy)
  obtain ⟨z, b', h1, h2, h3, h4, h5⟩ := represents_get h hx
  obtain ⟨z', d', k1, k2, k3, k4, k5⟩ := represents_get h' hy
  rw [hb, Option.some.injEq] at h2
  rw [hd, Option.some.injEq] at k2
  subst h2 k2
  obtain ⟨e1, e2⟩ | ⟨s', u', h6, h7, h8, h9⟩ := corr_at h5 hix.bin pb
  · rw [e1] at hs; cases hs
  obtain ⟨e1, e2⟩ | ⟨t', w', k6, k7, k8, k9⟩ := corr_at k5 hiy.bin pd
  · rw [e1] at ht; cases ht
  rw [hs, Option.some.injEq] at h6
  rw [hu, Option.some.injEq] at h7
  rw [ht, Option.some.injEq] at k6
  rw [hw, Option.some.injEq] at k7
  subst h6 h7 k6 k7
  unfold Spec.Agree Spec.SameProds
  refine forall_congr' fun q => forall_congr' fun _ => ?_
  have hbs := binarized_sub hix.bin h8
  have hbt := binarized_sub hiy.bin k8
  constructor
  · rintro ⟨u1, w1, g1, g2, g3⟩
    obtain ⟨e1, e2⟩ | ⟨s1, u2, a1, a2, a3, a4⟩ := corr_at h9 hbs q
    · rw [e2] at g1; cases g1
    obtain ⟨e1, e2⟩ | ⟨t1, w2, b1, b2, b3, b4⟩ := corr_at k9 hbt q
    · rw [e2] at g2; cases g2
    rw [g1, Option.some.injEq] at a2
    rw [g2, Option.some.injEq] at b2
    subst a2 b2
    obtain ⟨r, i, c1, c2, c3⟩ := corr_prod a4
    obtain ⟨r', i', f1, f2, f3⟩ := corr_prod b4
    have : i = i' := by omega
    subst this
    have e := (num_of hv (item_prods hix s1 (subtrees_trans a3 h8) r c1) c2).inj hv (num_of hv (item_prods hiy t1 (subtrees_trans b3 k8) r' f1) f2)
    subst e
    exact ⟨s1, t1, r, a1, b1, c1, f1⟩
  · rintro ⟨s1, t1, r, a1, b1, c1, f1⟩
    obtain ⟨e1, e2⟩ | ⟨s2, u2, a1', a2, a3, a4⟩ := corr_at h9 hbs q
    · rw [e1] at a1; cases a1
    obtain ⟨e1, e2⟩ | ⟨t2, w2, b1', b2, b3, b4⟩ := corr_at k9 hbt q
    · rw [e1] at b1; cases b1
    rw [show Spec.at s q = some s1 from a1, Option.some.injEq] at a1'
    rw [show Spec.at t q = some t1 from b1, Option.some.injEq] at b1'
    subst a1' b1'
    refine ⟨u2, w2, a2, b2, ?_⟩
    obtain ⟨r1, i, c1', c2, c3⟩ := corr_prod a4
    obtain ⟨r2, i', f1', f2, f3⟩ := corr_prod b4
    rw [show prodOf x.2 true s1 = some (some r) from c1, Option.some.injEq, Option.some.injEq] at c1'
    rw [show prodOf y.2 true t1 = some (some r) from f1, Option.some.injEq, Option.some.injEq] at f1'
    subst c1' f1'
    rw [c2, Option.some.injEq, Prod.mk.injEq] at f2
    rw [c3, f3, f2.2]

/-! ### A concrete case -/

/-- (S (VP_2 (V 0=wakes) (PRT 2=up)) (N 1=)), a discontinuous tree with a substitution site. -/
def exItem : PTree Str × List (Option Str) :=
  (.node ['S'] [.node ['V', 'P', '_', '2'] [.node ['V'] [.leaf 0], .node ['P'] [.leaf 2]], .node ['N'] [.leaf 1]], [some ['w'], none, some ['u']])

theorem exItem_ok : Spec.Item exItem := by
  refine ⟨.bin _ (.bin _ (.term _ _) (.term _ _)) (.term _ _), by decide, by decide, ?_⟩
  intro rules hr
  have e : lcfrsproductions exItem.1 exItem.2 true = some [⟨[['S'], ['V', 'P', '_', '2'], ['N']], .spans [[0, 1, 0]]⟩,
      ⟨[['V', 'P', '_', '2'], ['V'], ['P']], .spans [[0], [1]]⟩, ⟨[['V'], epsilon], .word ['w']⟩, ⟨[['P'], epsilon], .word ['u']⟩, ⟨[['N']], .spans []⟩] := by decide +kernel
  rw [e, Option.some.injEq] at hr
  subst hr
  intro r h
  simp only [List.mem_cons, List.not_mem_nil, or_false] at h
  rcases h with rfl | rfl | rfl | rfl | rfl
  · exact .bin (by decide) (by decide) (by decide) ⟨by decide, by decide, by decide⟩
  · exact .bin (by decide) (by decide) (by decide) ⟨by decide, by decide, by decide⟩
  · exact .word (by decide) (by decide)
  · exact .word (by decide) (by decide)
  · exact .site (by decide)

/-- Objects can be made from two calls of `addtrees`; the second tree can be extracted again. -/
example : ∃ c v, Spec.Made c v [exItem, exItem, exItem] ∧ c.extractsent v 1 = some exItem.2 := by
  obtain ⟨c1, v1, bs1, h1, -⟩ := C54_addtrees (.init .refl) (new := [exItem]) (by simp [exItem_ok])
  have m1 := Spec.Made.add (.init .refl) (by simp [exItem_ok]) h1
  obtain ⟨c2, v2, bs2, h2, -⟩ := C54_addtrees m1 (new := [exItem, exItem]) (by simp [exItem_ok])
  have m2 := Spec.Made.add m1 (by simp [exItem_ok]) h2
  exact ⟨c2, v2, m2, (C54_extractsent m2 (n := 1) (t := exItem.1) (sent := exItem.2) rfl (by decide)).trans (by decide +kernel)⟩

/-- What the array looks like: sorted by production number. -/
example : (getctrees Vocab.init [exItem] none).map (fun x => x.1.bank.map fun a => a.1.map fun y => (y.prod, y.left, y.right)) =
      some [[(0, 1, 4), (1, 2, 3), (2, -1, -1), (3, -3, -1), (4, -2, -1)]] ∧
    (getctrees Vocab.init [exItem] none).bind (fun x => x.1.extract x.2.2 0) = some "(S (VP_2 (V 0=w) (P 2=u)) (N 1=))".toList := by decide +kernel

end Disco.Frag
