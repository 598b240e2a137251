import Verif.Frag.CtreesProps
/-!
# C54: trees as arrays of nodes, main theorems
-/
namespace Disco.Frag
open Prods PTree

/-! ### Specification -/

/-- The object has these trees: for each tree a sorted array of nodes with the right shape and productions, and for each production the set of trees in which it
occurs. -/
structure Spec.Represents (v : Vocab.Vocabulary) (items : List (PTree Str × List (Option Str))) (c : Ctrees) (bs : List BTree) : Prop where
  length : c.trees.length = items.length
  bank : Spec.Bank c.bank bs
  corr : ∀ (n : Nat) x a b, items[n]? = some x → c.bank[n]? = some a → bs[n]? = some b → Spec.Corr v a.1 x.2 x.1 b
  index : Spec.Index bs (c.prodindex.getD [])

/-- Objects made by `Ctrees()` and `addtrees`, with a vocabulary that can at the same time be used for other trees. -/
inductive Spec.Made : Ctrees → Vocab.Vocabulary → List (PTree Str × List (Option Str)) → Prop
  | init {v : Vocab.Vocabulary} (hv : Vocab.Spec.Steps Vocab.init v) : Made Ctrees.init v []
  | vocab {c : Ctrees} {v u : Vocab.Vocabulary} {items : List (PTree Str × List (Option Str))} (h : Made c v items) (hu : Vocab.Spec.Steps v u) : Made c u items
  | add {c c' : Ctrees} {v u : Vocab.Vocabulary} {items new : List (PTree Str × List (Option Str))} (h : Made c v items) (hn : ∀ x ∈ new, Spec.Item x)
      (ha : c.addtrees v new = some (c', u)) : Made c' u (items ++ new)

/-! ### Productions of arrays -/

theorem tree_prods {a : List Node} {b : BTree} (h : Spec.Tree a b) (p : Int) : (∃ y ∈ a, y.prod = p) ↔ ∃ u ∈ b.subs, u.prod = p := by
  constructor
  · rintro ⟨y, hy, rfl⟩
    obtain ⟨i, hi, rfl⟩ := List.mem_iff_getElem.1 hy
    obtain ⟨u, h1, h2, h3⟩ := repr_bounds h.repr h.all i hi
    exact ⟨u, h1, by rw [repr_prod h3, h2, nd_get hi]⟩
  · rintro ⟨u, hu, rfl⟩
    have h1 := repr_sub h.repr hu
    exact ⟨nd a u.idx, by rw [nd_get (repr_lt h1)]; exact List.getElem_mem _, (repr_prod h1).symm⟩

/-- The number of children according to the production. -/
def ruleArity (r : Prods.Rule) : Nat :=
  match r.yf with
  | .word _ => 0
  | .spans _ => r.nts.length - 1

theorem corr_arity {v : Vocab.Vocabulary} {a : List Node} {sent : List (Option Str)} {t : PTree Str} {b : BTree} (hb : Spec.Binarized t) (h : Spec.Corr v a sent t b)  :
    ∀ u ∈ b.subs, ∃ st ∈ subtrees t, ∃ r n, prodOf sent true st = some (some r) ∧ Vocab.getprod v r = some (v, n) ∧ u.prod = (n : Int) ∧ ruleArity r = u.arity := by
  induction h with
  | @term l i j n r hp hn hl hr =>
    intro u hu
    simp only [BTree.subs, List.mem_singleton] at hu
    subst hu
    refine ⟨_, by simp, r, n, hp, hn, rfl, ?_⟩
    cases hs : sent[i]? with
    | none => simp [prodOf, hs] at hp; rw [← hp]; rfl
    | some w => cases w <;> (simp [prodOf, hs] at hp; rw [← hp]; rfl)
  | @un l c b j n r hp hn h ih =>
    intro u hu
    simp only [BTree.subs, List.mem_cons] at hu
    rcases hu with rfl | hu
    · refine ⟨_, by simp, r, n, hp, hn, rfl, ?_⟩
      cases hb with
      | term => cases h
      | un _ hc =>
        obtain ⟨m, ds, rfl⟩ := binarized_node hc
        rw [prodOf, if_pos (by simp)] at hp
        cases hy : yieldFunction [PTree.node m ds] with
        | none => simp [hy] at hp
        | some yf => simp [hy] at hp; rw [← hp]; rfl
    · cases hb with
      | term => cases h
      | un _ hc =>
        obtain ⟨st, h1, h2⟩ := ih hc u hu
        exact ⟨st, by simp [subtreesL, h1], h2⟩
  | @bin l c d b e j n r hp hn h h' ih ih' =>
    intro u hu
    cases hb with
    | bin _ hc hd =>
      simp only [BTree.subs, List.mem_cons, List.mem_append] at hu
      rcases hu with rfl | hu | hu
      · refine ⟨_, by simp, r, n, hp, hn, rfl, ?_⟩
        obtain ⟨m, ds, rfl⟩ := binarized_node hc
        obtain ⟨m', ds', rfl⟩ := binarized_node hd
        rw [prodOf, if_pos (by simp [isNode])] at hp
        cases hy : yieldFunction [PTree.node m ds, PTree.node m' ds'] with
        | none => simp [hy] at hp
        | some yf => simp [hy] at hp; rw [← hp]; rfl
      · obtain ⟨st, h1, h2⟩ := ih hc u hu
        exact ⟨st, by simp [subtreesL, h1], h2⟩
      · obtain ⟨st, h1, h2⟩ := ih' hd u hu
        exact ⟨st, by simp [subtreesL, h1], h2⟩

/-! ### Invariant -/

/-- What is known about an object. -/
structure Inv (v : Vocab.Vocabulary) (items : List (PTree Str × List (Option Str))) (c : Ctrees) (bs : List BTree) : Prop where
  ok : Ok c
  steps : Vocab.Spec.Steps Vocab.init v
  good : ∀ x ∈ items, Spec.Item x
  length : c.bank.length = items.length
  blength : bs.length = items.length
  rep : ∀ (n : Nat) x a b, items[n]? = some x → c.bank[n]? = some a → bs[n]? = some b → Rep v x a b

theorem inv_get {v : Vocab.Vocabulary} {items : List (PTree Str × List (Option Str))} {c : Ctrees} {bs : List BTree} (h : Inv v items c bs) {n : Nat} {a : List Node × Nat}
    (ha : c.bank[n]? = some a) : ∃ x b, items[n]? = some x ∧ bs[n]? = some b ∧ Spec.Item x ∧ Rep v x a b := by
  have h1 := (List.getElem?_eq_some_iff.1 ha).1
  have h2 := h.length
  have h3 := h.blength
  refine ⟨_, _, List.getElem?_eq_getElem (by omega), List.getElem?_eq_getElem (by omega), h.good _ (List.getElem_mem _), ?_⟩
  exact h.rep n _ _ _ (List.getElem?_eq_getElem (by omega)) ha (List.getElem?_eq_getElem (by omega))

theorem rep_num {v : Vocab.Vocabulary} (hv : Vocab.Spec.Steps Vocab.init v) {x : PTree Str × List (Option Str)} (hx : Spec.Item x) {a : List Node × Nat} {b : BTree}
    (h : Rep v x a b) {u : BTree} (hu : u ∈ b.subs) : ∃ r n, Num v r n ∧ u.prod = (n : Int) ∧ ruleArity r = u.arity := by
  obtain ⟨st, h1, r, n, h2, h3, h4, h5⟩ := corr_arity hx.bin h.corr u hu
  exact ⟨r, n, num_of hv (item_prods hx st h1 r h2) h3, h4, h5⟩

theorem inv_prods {v : Vocab.Vocabulary} {items : List (PTree Str × List (Option Str))} {c : Ctrees} {bs : List BTree} (h : Inv v items c bs) :
    ∀ x ∈ c.trees, ∀ y ∈ c.nodesOf x, 0 ≤ y.prod ∧ y.prod < v.prods.length := by
  intro x hx y hy
  obtain ⟨n, hn, rfl⟩ := List.mem_iff_getElem.1 hx
  obtain ⟨x, b, h1, h2, h3, h4⟩ := inv_get h (n := n) (a := (c.nodesOf c.trees[n], c.trees[n].root)) (by simp [Ctrees.bank, hn])
  obtain ⟨u, hu, hp⟩ := (tree_prods h4.tree y.prod).1 ⟨y, hy, rfl⟩
  obtain ⟨r, m, k1, k2, -⟩ := rep_num h.steps h3 h4 hu
  have := k1.lt h.steps
  omega

/-- Trees in which a production occurs. -/
def Occ (bs : List BTree) (p m : Nat) : Prop := ∃ t, bs[m]? = some t ∧ ∃ u ∈ t.subs, u.prod = p

theorem inv_occ {v : Vocab.Vocabulary} {items : List (PTree Str × List (Option Str))} {c : Ctrees} {bs : List BTree} (h : Inv v items c bs) (p m : Nat) :
    (∃ x, c.trees[m]? = some x ∧ ∃ y ∈ c.nodesOf x, y.prod = p) ↔ Occ bs p m := by
  constructor
  · rintro ⟨x, hx, hy⟩
    obtain ⟨x', b, h1, h2, h3, h4⟩ := inv_get h (n := m) (a := (c.nodesOf x, x.root)) (by simp [Ctrees.bank, hx])
    exact ⟨b, h2, (tree_prods h4.tree p).1 hy⟩
  · rintro ⟨b, hb, hu⟩
    have h1 := (List.getElem?_eq_some_iff.1 hb).1
    have h2 := h.length
    have h3 := h.blength
    have h4 : m < c.trees.length := by simp only [Ctrees.bank, List.length_map] at h2; omega
    obtain ⟨x', b', k1, k2, k3, k4⟩ := inv_get h (n := m) (a := (c.nodesOf c.trees[m], c.trees[m].root)) (by simp [Ctrees.bank, h4])
    rw [hb, Option.some.injEq] at k2
    subst k2
    exact ⟨_, List.getElem?_eq_getElem h4, (tree_prods k4.tree p).2 hu⟩

theorem index_of {bs : List BTree} {idx : List (Option (List Nat))} (h : IndexIs idx (Occ bs)) : Spec.Index bs idx := by
  constructor
  · intro p s hs
    refine ⟨h.1 p s hs, fun m => ?_⟩
    have := h.2 p m
    rw [hs] at this
    simpa [Occ] using this
  · intro p hp t ht v hv e
    obtain ⟨m, hm, rfl⟩ := List.mem_iff_getElem.1 ht
    obtain ⟨s, hs, -⟩ := (h.2 p m).2 ⟨_, List.getElem?_eq_getElem hm, v, hv, e⟩
    rcases hp with hp | hp <;> simp [hp] at hs

theorem represents_of {v : Vocab.Vocabulary} {items : List (PTree Str × List (Option Str))} {c : Ctrees} {bs : List BTree} (h : Inv v items c bs)
    (hi : IndexIs (c.prodindex.getD []) (Occ bs)) : Spec.Represents v items c bs := by
  have h1 := h.length
  have h2 := h.blength
  refine ⟨by simpa [Ctrees.bank] using h1, ?_, fun n x a b hx ha hb => (h.rep n x a b hx ha hb).corr, index_of hi⟩
  refine List.forall₂_iff_get.2 ⟨by omega, fun i hi hj => ?_⟩
  have := h.rep i _ _ _ (List.getElem?_eq_getElem (by omega)) (List.getElem?_eq_getElem hi) (List.getElem?_eq_getElem hj)
  exact ⟨this.tree, this.root⟩

theorem inv_vocab {v u : Vocab.Vocabulary} {items : List (PTree Str × List (Option Str))} {c : Ctrees} {bs : List BTree} (h : Inv v items c bs) (hu : Vocab.Spec.Steps v u) :
    Inv u items c bs :=
  ⟨h.ok, steps_trans h.steps hu, h.good, h.length, h.blength, fun n x a b hx ha hb => (h.rep n x a b hx ha hb).mono h.steps hu (h.good x (List.mem_of_getElem? hx))⟩

/-- Adding trees to an object. -/
theorem inv_addloop {v : Vocab.Vocabulary} {items new : List (PTree Str × List (Option Str))} {c : Ctrees} {bs : List BTree} (h : Inv v items c bs)
    (hm : new ≠ [] → c.max ≠ 0) (hn : ∀ x ∈ new, Spec.Item x) : ∃ c' u bs', c.addloop v new = some (c', u) ∧ Vocab.Spec.Steps v u ∧ Inv u (items ++ new) c' (bs ++ bs') ∧
      c'.prodindex = c.prodindex := by
  obtain ⟨c', u, as, bs', h1, h2, h3, h4, h5, h6, h7, h8⟩ := addloop_spec h.ok hm h.steps hn
  have e1 := h.length
  have e2 := h.blength
  refine ⟨c', u, bs', h1, h3, ⟨h2, steps_trans h.steps h3, ?_, ?_, ?_, ?_⟩, h5⟩
  · intro x hx
    rcases List.mem_append.1 hx with hx | hx
    · exact h.good x hx
    · exact hn x hx
  · rw [h4, List.length_append, List.length_append, e1, h6]
  · rw [List.length_append, List.length_append, e2, h7]
  · intro n x a b hx ha hb
    rw [h4] at ha
    by_cases hl : n < items.length
    · rw [List.getElem?_append_left (by omega)] at hx ha hb
      exact (h.rep n x a b hx ha hb).mono h.steps h3 (h.good x (List.mem_of_getElem? hx))
    · rw [List.getElem?_append_right (by omega)] at hx ha hb
      refine h8 (n - items.length) x a b hx ?_ ?_
      · rw [← ha, e1]
      · rw [← hb, e2]

theorem inv_index {v : Vocab.Vocabulary} {items : List (PTree Str × List (Option Str))} {c : Ctrees} {bs : List BTree} (h : Inv v items c bs) {Q : Nat → Nat → Prop}
    (hq : IndexIs (c.prodindex.getD []) Q) (hQ : ∀ p m, Q p m → Occ bs p m) (hl : (c.prodindex.getD []).length ≤ v.prods.length) :
    ∃ c', c.indextrees v.prods.length 0 = some c' ∧ Inv v items c' bs ∧ IndexIs (c'.prodindex.getD []) (Occ bs) ∧ (c'.prodindex.getD []).length ≤ v.prods.length := by
  obtain ⟨idx, h1, h2, h3⟩ := indextrees_spec (inv_prods h) hq hl
  refine ⟨_, h1, ⟨⟨h.ok.trees, h.ok.nodes, h.ok.slices⟩, h.steps, h.good, h.length, h.blength, h.rep⟩, ⟨h3.1, fun p m => ?_⟩, by simp [h2]⟩
  simp only [Option.getD_some]
  refine (h3.2 p m).trans ((or_congr_right (inv_occ h p m)).trans ?_)
  exact ⟨fun h => h.elim (hQ p m) id, Or.inr⟩

theorem occ_append {bs bs' : List BTree} {p m : Nat} (h : Occ bs p m) : Occ (bs ++ bs') p m := by
  obtain ⟨t, h1, h2⟩ := h
  exact ⟨t, by rw [List.getElem?_append_left (List.getElem?_eq_some_iff.1 h1).1]; exact h1, h2⟩

theorem inv_realloc {v : Vocab.Vocabulary} {items : List (PTree Str × List (Option Str))} {c : Ctrees} {bs : List BTree} (h : Inv v items c bs) (n m : Nat) :
    Inv v items (c.realloc n m) bs := by
  obtain ⟨h1, h2, h3, h4, -⟩ := realloc_spec h.ok n m
  have e : (c.realloc n m).bank = c.bank := by simp only [Ctrees.bank, Ctrees.nodesOf, h2, h3]
  exact ⟨h1, h.steps, h.good, by rw [e]; exact h.length, h.blength, by rw [e]; exact h.rep⟩

theorem numprods_mono {v u : Vocab.Vocabulary} (hv : Vocab.Spec.Steps Vocab.init v) (h : Vocab.Spec.Steps v u) : v.prods.length ≤ u.prods.length := by
  obtain ⟨ls, h1, -⟩ := Vocab.steps_has hv Vocab.has_init
  obtain ⟨ls', h2, -, h3⟩ := Vocab.steps_has h h1
  rw [h1.prods, h2.prods, Vocab.length_number, Vocab.length_number]
  exact h3.length_le

theorem addtrees_inv {v : Vocab.Vocabulary} {items new : List (PTree Str × List (Option Str))} {c : Ctrees} {bs : List BTree} (h : Inv v items c bs)
    (hi : IndexIs (c.prodindex.getD []) (Occ bs)) (hl : (c.prodindex.getD []).length ≤ v.prods.length) (hn : ∀ x ∈ new, Spec.Item x) :
    ∃ c' u bs', c.addtrees v new = some (c', u) ∧ Inv u (items ++ new) c' (bs ++ bs') ∧ IndexIs (c'.prodindex.getD []) (Occ (bs ++ bs')) ∧
      (c'.prodindex.getD []).length ≤ u.prods.length := by
  obtain ⟨h1, h2, h3, h4, h5, -⟩ := realloc_spec h.ok (c.trees.length + new.length) (new.length * 512)
  obtain ⟨c1, u, bs', k1, k2, k3, k4⟩ := inv_addloop (new := new) (inv_realloc h (c.trees.length + new.length) (new.length * 512))
    (fun hne => by have := List.length_pos_iff.2 hne; omega) hn
  have e : c1.prodindex = c.prodindex := by rw [k4, h4]
  obtain ⟨c2, j1, j2, j3, j4⟩ := inv_index k3 (by rw [e]; exact hi) (fun p m => occ_append) (by rw [e]; have := numprods_mono h.steps k2; omega)
  refine ⟨c2, u, bs', ?_, j2, j3, j4⟩
  unfold Ctrees.addtrees
  rw [k1, Option.bind_some, j1]; rfl

theorem made_inv {c : Ctrees} {v : Vocab.Vocabulary} {items : List (PTree Str × List (Option Str))} (h : Spec.Made c v items) :
    ∃ bs, Inv v items c bs ∧ IndexIs (c.prodindex.getD []) (Occ bs) ∧ (c.prodindex.getD []).length ≤ v.prods.length := by
  induction h with
  | init hv => exact ⟨[], ⟨ok_init, hv, by simp, rfl, rfl, by simp⟩, ⟨by simp [Ctrees.init], by simp [Ctrees.init, Occ]⟩, by simp [Ctrees.init]⟩
  | vocab h hu ih =>
    obtain ⟨bs, h1, h2, h3⟩ := ih
    exact ⟨bs, inv_vocab h1 hu, h2, by have := numprods_mono h1.steps hu; omega⟩
  | add h hn ha ih =>
    obtain ⟨bs, h1, h2, h3⟩ := ih
    obtain ⟨c', u, bs', k1, k2, k3, k4⟩ := addtrees_inv h1 h2 h3 hn
    rw [ha, Option.some.injEq, Prod.mk.injEq] at k1
    obtain ⟨rfl, rfl⟩ := k1
    exact ⟨_, k2, k3, k4⟩

/-! ### C54 -/

/-- **C54**: `addtrees` never fails, writes only in allocated memory, and the object represents all trees added so far, in order; whatever is done with the vocabulary
between the calls. -/
theorem C54_addtrees {c : Ctrees} {v : Vocab.Vocabulary} {items new : List (PTree Str × List (Option Str))} (h : Spec.Made c v items) (hn : ∀ x ∈ new, Spec.Item x) :
    ∃ c' u bs, c.addtrees v new = some (c', u) ∧ Spec.Represents u (items ++ new) c' bs := by
  obtain ⟨bs, h1, h2, h3⟩ := made_inv h
  obtain ⟨c', u, bs', k1, k2, k3, k4⟩ := addtrees_inv h1 h2 h3 hn
  exact ⟨c', u, _, k1, represents_of k2 k3⟩

/-- **C54**: At any time, the object represents the trees added so far. -/
theorem C54_represents {c : Ctrees} {v : Vocab.Vocabulary} {items : List (PTree Str × List (Option Str))} (h : Spec.Made c v items) : ∃ bs, Spec.Represents v items c bs := by
  obtain ⟨bs, h1, h2, h3⟩ := made_inv h
  exact ⟨bs, represents_of h1 h2⟩

theorem inv_fresh {v : Vocab.Vocabulary} (hv : Vocab.Spec.Steps Vocab.init v) (n m : Nat) : Inv v [] (Ctrees.init.alloc n m) [] :=
  ⟨ok_alloc n m, hv, by simp, rfl, rfl, by simp⟩

theorem getctrees_one {v : Vocab.Vocabulary} (hv : Vocab.Spec.Steps Vocab.init v) {items : List (PTree Str × List (Option Str))} (hi : ∀ x ∈ items, Spec.Item x) :
    ∃ c1 c u bs, (Ctrees.init.alloc 512 (512 * 512)).addloop v items = some (c1, u) ∧ c1.indextrees u.prods.length 0 = some c ∧ Vocab.Spec.Steps v u ∧
      Inv u items c bs ∧ IndexIs (c.prodindex.getD []) (Occ bs) := by
  obtain ⟨c1, u, bs, h1, h2, h3, h4⟩ := inv_addloop (inv_fresh hv 512 (512 * 512)) (fun _ => by simp [Ctrees.alloc]) hi
  have e : c1.prodindex = none := h4
  obtain ⟨c, k1, k2, k3, -⟩ := inv_index (Q := fun _ _ => False) h3 (by rw [e]; exact ⟨by simp, by simp⟩) (fun _ _ h => h.elim) (by rw [e]; simp)
  exact ⟨c1, c, u, bs, h1, k1, h2, k2, k3⟩

/-- **C54**: `getctrees` gives objects that represent the trees, with a common vocabulary. -/
theorem C54_getctrees {v : Vocab.Vocabulary} (hv : Vocab.Spec.Steps Vocab.init v) {items1 items2 : List (PTree Str × List (Option Str))} (h1 : ∀ x ∈ items1, Spec.Item x)
    (h2 : ∀ x ∈ items2, Spec.Item x) : (∃ c u bs, getctrees v items1 none = some (c, none, u) ∧ Vocab.Spec.Steps v u ∧ Spec.Represents u items1 c bs) ∧
    ∃ c1 c2 u bs1 bs2, getctrees v items1 (some items2) = some (c1, some c2, u) ∧ Vocab.Spec.Steps v u ∧ Spec.Represents u items1 c1 bs1 ∧ Spec.Represents u items2 c2 bs2 := by
  obtain ⟨d1, c1, u1, bs1, a1, a2, a3, a4, a5⟩ := getctrees_one hv h1
  obtain ⟨d2, c2, u2, bs2, b1, b2, b3, b4, b5⟩ := getctrees_one (steps_trans hv a3) h2
  refine ⟨⟨c1, u1, bs1, ?_, a3, represents_of a4 a5⟩, c1, c2, u2, bs1, bs2, ?_, steps_trans a3 b3, represents_of (inv_vocab a4 b3) a5, represents_of b4 b5⟩
  · unfold getctrees; simp [a1, a2]
  · unfold getctrees; simp [a1, a2, b1, b2]

theorem represents_num {v : Vocab.Vocabulary} (hv : Vocab.Spec.Steps Vocab.init v) {items : List (PTree Str × List (Option Str))} {c : Ctrees} {bs : List BTree}
    (h : Spec.Represents v items c bs) (hi : ∀ x ∈ items, Spec.Item x) : ∀ b ∈ bs, ∀ u ∈ b.subs, ∃ r n, Num v r n ∧ u.prod = (n : Int) ∧ ruleArity r = u.arity := by
  intro b hb u hu
  obtain ⟨n, hn, rfl⟩ := List.mem_iff_getElem.1 hb
  have hl := List.Forall₂.length_eq h.bank
  have hl2 : c.bank.length = items.length := by simp [Ctrees.bank, h.length]
  have hc := h.corr n _ _ _ (List.getElem?_eq_getElem (by omega)) (List.getElem?_eq_getElem (by omega)) (List.getElem?_eq_getElem hn)
  have hx := hi items[n] (List.getElem_mem _)
  obtain ⟨st, h1, r, m, h2, h3, h4, h5⟩ := corr_arity hx.bin hc u hu
  exact ⟨r, m, num_of hv (item_prods hx st h1 r h2) h3, h4, h5⟩

/-- **C54**: Objects with the same vocabulary can be compared: nodes with the same production number have the same number of children; and all production numbers are
non-negative. These are the requirements of C49–C52. -/
theorem C54_comparable {v : Vocab.Vocabulary} (hv : Vocab.Spec.Steps Vocab.init v) {items items' : List (PTree Str × List (Option Str))} {c c' : Ctrees} {bs bs' : List BTree}
    (h : Spec.Represents v items c bs) (h' : Spec.Represents v items' c' bs') (hi : ∀ x ∈ items, Spec.Item x) (hi' : ∀ x ∈ items', Spec.Item x) :
    (∀ s ∈ bs, ∀ t ∈ bs', Spec.SameArity s t) ∧ ∀ a ∈ c.bank, ∀ i < a.1.length, 0 ≤ (nd a.1 i).prod := by
  constructor
  · intro s hs t ht u hu w hw e
    obtain ⟨r, n, h1, h2, h3⟩ := represents_num hv h hi s hs u hu
    obtain ⟨r', n', k1, k2, k3⟩ := represents_num hv h' hi' t ht w hw
    have : n = n' := by omega
    subst this
    rw [← h3, ← k3, h1.inj hv k1]
  · intro a ha i hlt
    obtain ⟨n, hn, rfl⟩ := List.mem_iff_getElem.1 ha
    have hl := List.Forall₂.length_eq h.bank
    have hb := (List.forall₂_iff_get.1 h.bank).2 n hn (by omega)
    simp only [List.get_eq_getElem] at hb
    obtain ⟨u, hu, hp⟩ := (tree_prods hb.1 (nd c.bank[n].1 i).prod).1 ⟨_, by rw [nd_get hlt]; exact List.getElem_mem _, rfl⟩
    obtain ⟨r, m, -, h2, -⟩ := represents_num hv h hi _ (List.getElem_mem (by omega)) u hu
    omega

end Disco.Frag
