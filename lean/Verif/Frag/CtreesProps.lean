import Verif.Frag.Ctrees
/-!
# C54: trees as arrays of nodes, theorems
-/
namespace Disco.Frag
open Prods PTree

/-! ### Specification -/

/-- Binarized trees: a terminal, or one or two non-terminals. -/
inductive Spec.Binarized : PTree Str → Prop
  | term (l : Str) (i : Nat) : Binarized (.node l [.leaf i])
  | un (l : Str) {c : PTree Str} (h : Binarized c) : Binarized (.node l [c])
  | bin (l : Str) {c d : PTree Str} (h : Binarized c) (h' : Binarized d) : Binarized (.node l [c, d])

/-- A tree and a sentence that can be added: binarized, terminals are distinct indices of the sentence, and the productions can be represented. Terminals may be
substitution sites (`None`). -/
structure Spec.Item (x : PTree Str × List (Option Str)) : Prop where
  bin : Spec.Binarized x.1
  nodup : x.1.leaves.Nodup
  range : ∀ i ∈ x.1.leaves, i < x.2.length
  prods : ∀ rules, lcfrsproductions x.1 x.2 true = some rules → ∀ r ∈ rules, Vocab.Spec.Production r

/-- The array is right for the `Tree` object: same shape, and for each node the number of its production in the vocabulary; terminals are represented
as negative numbers. -/
inductive Spec.Corr (v : Vocab.Vocabulary) (a : List Node) (sent : List (Option Str)) : PTree Str → BTree → Prop
  | term {l : Str} {i j n : Nat} {r : Prods.Rule} (hp : prodOf sent true (.node l [.leaf i]) = some (some r)) (hn : Vocab.getprod v r = some (v, n))
      (hl : (nd a j).left = -i - 1) (hr : (nd a j).right = -1) : Corr v a sent (.node l [.leaf i]) (.term j n)
  | un {l : Str} {c : PTree Str} {b : BTree} {j n : Nat} {r : Prods.Rule} (hp : prodOf sent true (.node l [c]) = some (some r))
      (hn : Vocab.getprod v r = some (v, n)) (h : Corr v a sent c b) : Corr v a sent (.node l [c]) (.un j n b)
  | bin {l : Str} {c d : PTree Str} {b e : BTree} {j n : Nat} {r : Prods.Rule} (hp : prodOf sent true (.node l [c, d]) = some (some r))
      (hn : Vocab.getprod v r = some (v, n)) (h : Corr v a sent c b) (h' : Corr v a sent d e) : Corr v a sent (.node l [c, d]) (.bin j n b e)

/-! ### Productions of binarized trees -/

theorem binarized_node {t : PTree Str} (h : Spec.Binarized t) : ∃ l cs, t = .node l cs := by cases h <;> exact ⟨_, _, rfl⟩

theorem binarized_leaves {t : PTree Str} (h : Spec.Binarized t) : t.leaves ≠ [] := by
  induction h with
  | term l i => simp
  | un l h ih => simpa using ih
  | bin l h h' ih ih' => simp [ih]

theorem binarized_sub {t st : PTree Str} (h : Spec.Binarized t) (hs : st ∈ subtrees t) : Spec.Binarized st := by
  induction h with
  | term l i => simp [subtreesL] at hs; rw [hs]; exact .term l i
  | un l h ih =>
    simp only [subtrees_node, subtreesL, List.append_nil, List.mem_cons] at hs
    rcases hs with rfl | hs
    · exact .un l h
    · exact ih hs
  | bin l h h' ih ih' =>
    simp only [subtrees_node, subtreesL, List.append_nil, List.mem_cons, List.mem_append] at hs
    rcases hs with rfl | hs | hs
    · exact .bin l h h'
    · exact ih hs
    · exact ih' hs

theorem prodOf_binarized (sent : List (Option Str)) {t : PTree Str} (h : Spec.Binarized t) (hn : t.leaves.Nodup) : ∃ r, prodOf sent true t = some (some r) := by
  cases h with
  | term l i =>
    cases hs : sent[i]? with
    | none => exact ⟨⟨[l], .spans []⟩, by simp [prodOf, hs]⟩
    | some w =>
      cases w with
      | none => exact ⟨⟨[l], .spans []⟩, by simp [prodOf, hs]⟩
      | some w => exact ⟨⟨[l, epsilon], .word (Escape.escape (some w))⟩, by simp [prodOf, hs]⟩
  | un l h =>
    obtain ⟨m, ds, rfl⟩ := binarized_node h
    rw [leaves_node] at hn
    have hne := binarized_leaves (.un l h)
    rw [leaves_node] at hne
    obtain ⟨yf, h1, -⟩ := yieldFunction_spec hn hne
    rw [prodOf, if_pos (by simp), h1]
    exact ⟨_, rfl⟩
  | bin l h h' =>
    obtain ⟨m, ds, rfl⟩ := binarized_node h
    obtain ⟨m', ds', rfl⟩ := binarized_node h'
    rw [leaves_node] at hn
    have hne := binarized_leaves (.bin l h h')
    rw [leaves_node] at hne
    obtain ⟨yf, h1, -⟩ := yieldFunction_spec hn hne
    rw [prodOf, if_pos (by simp [isNode]), h1]
    exact ⟨_, rfl⟩

theorem prodLoop_spec {sent : List (Option Str)} : ∀ {sts : List (PTree Str)}, (∀ st ∈ sts, ∃ r, prodOf sent true st = some (some r)) →
    ∃ rules, prodLoop sent true sts = some rules ∧ List.Forall₂ (fun st r => prodOf sent true st = some (some r)) sts rules
  | [], _ => ⟨[], rfl, .nil⟩
  | st :: sts, h => by
    obtain ⟨r, hr⟩ := h st (by simp)
    obtain ⟨rules, h1, h2⟩ := prodLoop_spec (sts := sts) fun st' h' => h st' (by simp [h'])
    exact ⟨r :: rules, by simp [prodLoop, hr, h1], .cons hr h2⟩

theorem item_rules {x : PTree Str × List (Option Str)} (h : Spec.Item x) : ∃ rules, lcfrsproductions x.1 x.2 true = some rules ∧
    List.Forall₂ (fun st r => prodOf x.2 true st = some (some r)) (subtrees x.1) rules ∧ ∀ r ∈ rules, Vocab.Spec.Production r := by
  obtain ⟨rules, h1, h2⟩ := prodLoop_spec (sent := x.2) (sts := subtrees x.1) fun st hst =>
    prodOf_binarized x.2 (binarized_sub h.bin hst) (h.nodup.sublist (subtree_leaves hst))
  have h3 : lcfrsproductions x.1 x.2 true = some rules := by
    unfold lcfrsproductions
    rw [if_neg (by simpa using h.nodup), if_neg, if_neg, h1]
    · simp only [List.all_eq_true, decide_eq_true_eq, not_not]; exact h.range
    · intro h0
      obtain ⟨i, hi⟩ := List.exists_mem_of_ne_nil _ (binarized_leaves h.bin)
      have := h.range i hi
      rw [h0] at this; simp at this
  exact ⟨rules, h3, h2, h.prods rules h3⟩

/-! ### Numbers of productions -/

open Vocab in
/-- A number for a production, which stays valid. -/
def Num (v : Vocabulary) (r : Prods.Rule) (n : Nat) : Prop := Spec.Production r ∧ ∀ w, Spec.Steps v w → getprod w r = some (w, n)

open Vocab in
theorem getprod_num {v : Vocabulary} (hv : Spec.Steps init v) {r : Prods.Rule} (hr : Spec.Production r) : ∃ u n, getprod v r = some (u, n) ∧ Spec.Steps v u ∧ Num u r n := by
  obtain ⟨u, n, h1, h2⟩ := C53_getprod hv hr
  refine ⟨u, n, h1, .step .refl hr h1, hr, fun w hw => ?_⟩
  obtain ⟨w', n', h3, h4, h5⟩ := h2 w hw r hr
  rw [h3, h4.2 rfl, h5 rfl]

theorem steps_trans {v u w : Vocab.Vocabulary} (h : Vocab.Spec.Steps v u) (h' : Vocab.Spec.Steps u w) : Vocab.Spec.Steps v w := by
  induction h' with
  | refl => exact h
  | step h1 h2 h3 ih => exact .step ih h2 h3

theorem Num.mono {v u : Vocab.Vocabulary} {r : Prods.Rule} {n : Nat} (h : Num v r n) (hs : Vocab.Spec.Steps v u) : Num u r n :=
  ⟨h.1, fun w hw => h.2 w (steps_trans hs hw)⟩

theorem Num.inj {v : Vocab.Vocabulary} (hv : Vocab.Spec.Steps Vocab.init v) {r r' : Prods.Rule} {n : Nat} (h : Num v r n) (h' : Num v r' n) : r = r' := by
  obtain ⟨u, m, h1, h2⟩ := Vocab.C53_getprod hv h.1
  have h3 := h.2 v .refl
  rw [h1, Option.some.injEq, Prod.mk.injEq] at h3
  obtain ⟨rfl, rfl⟩ := h3
  obtain ⟨w', n', h4, h5, -⟩ := h2 u .refl r' h'.1
  have h6 := h'.2 u .refl
  rw [h4, Option.some.injEq, Prod.mk.injEq] at h6
  exact (h5.1 h6.2).symm

theorem Num.lt {v : Vocab.Vocabulary} (hv : Vocab.Spec.Steps Vocab.init v) {r : Prods.Rule} {n : Nat} (h : Num v r n) : n < v.prods.length := by
  obtain ⟨ls, h1, -⟩ := Vocab.steps_has hv Vocab.has_init
  obtain ⟨u, m, ls', e, g1, g2, g3, g4, g5, -⟩ := Vocab.getprod_spec h1 h.1
  rw [h.2 v .refl, Option.some.injEq, Prod.mk.injEq] at g1
  obtain ⟨rfl, rfl⟩ := g1
  obtain ⟨k, -⟩ := List.getElem?_eq_some_iff.1 g5
  rw [h1.prods, Vocab.length_number]; exact k

theorem getprods_spec : ∀ {rules : List Prods.Rule} {v : Vocab.Vocabulary}, Vocab.Spec.Steps Vocab.init v → (∀ r ∈ rules, Vocab.Spec.Production r) →
    ∃ u ns, getprods v rules = some (u, ns) ∧ Vocab.Spec.Steps v u ∧ List.Forall₂ (Num u) rules ns
  | [], v, _, _ => ⟨v, [], rfl, .refl, .nil⟩
  | r :: rules, v, hv, hr => by
    obtain ⟨u, n, h1, h2, h3⟩ := getprod_num hv (hr r (by simp))
    obtain ⟨w, ns, h4, h5, h6⟩ := getprods_spec (rules := rules) (steps_trans hv h2) fun r' h' => hr r' (by simp [h'])
    exact ⟨w, n :: ns, by simp [getprods, h1, h4], steps_trans h2 h5, .cons (h3.mono h5) h6⟩

/-! ### copynodes -/

/-- Change the numbers of the nodes. -/
def BTree.mapIdx (σ : Nat → Nat) : BTree → BTree
  | .term i p => .term (σ i) p
  | .un i p l => .un (σ i) p (l.mapIdx σ)
  | .bin i p l r => .bin (σ i) p (l.mapIdx σ) (r.mapIdx σ)

theorem nd_append (pre xs : List Node) (k : Nat) : nd (pre ++ xs) (pre.length + k) = nd xs k := by
  unfold nd; rw [List.getElem?_append_right (by omega)]; congr 2; omega

theorem nd_append_left {pre : List Node} (xs : List Node) {k : Nat} (h : k < pre.length) : nd (pre ++ xs) k = nd pre k := by
  unfold nd; rw [List.getElem?_append_left h]

theorem forall₂_append_split {α β : Type} {R : α → β → Prop} : ∀ {l l' : List α} {m : List β}, List.Forall₂ R (l ++ l') m →
    ∃ a b, List.Forall₂ R l a ∧ List.Forall₂ R l' b ∧ m = a ++ b
  | [], _, m, h => ⟨[], m, .nil, h, rfl⟩
  | x :: l, l', _, .cons h h' => by
    obtain ⟨a, b, h1, h2, rfl⟩ := forall₂_append_split h'
    exact ⟨_ :: a, b, .cons h h1, h2, rfl⟩

/-- The array is as made by `copynodes`, with `n` as the number of the root. -/
theorem copynodes_spec {v : Vocab.Vocabulary} {sent : List (Option Str)} {prods : List Nat} {t : PTree Str} (h : Spec.Binarized t) :
    ∀ {n : Nat} {rules : List Prods.Rule} {ns post : List Nat} {pre : List Nat}, List.Forall₂ (fun st r => prodOf sent true st = some (some r)) (subtrees t) rules →
    List.Forall₂ (Num v) rules ns → prods = pre ++ (ns ++ post) → pre.length = n →
    ∃ xs, copynodes prods t n = some xs ∧ xs.length = ns.length ∧ (∀ y ∈ xs, y.left < (n + xs.length : Nat) ∧ y.right < (n + xs.length : Nat)) ∧ ∀ (before after : List Node), before.length = n →
      ∃ b, Spec.Repr (before ++ (xs ++ after)) b ∧ Spec.Corr v (before ++ (xs ++ after)) sent t b ∧ b.idx = n ∧ b.subs.map BTree.idx = List.range' n xs.length := by
  induction h with
  | term l i =>
    intro n rules ns post pre hr hn hp hl
    simp only [subtrees_node, subtreesL, subtrees_leaf, List.append_nil] at hr
    cases hr with
    | cons h1 h2 =>
      cases h2
      cases hn with
      | cons h3 h4 =>
        cases h4
        rename_i r p
        have e : prods[n]? = some p := by
          rw [hp, List.getElem?_append_right (by omega)]; simp [hl]
        refine ⟨[⟨p, -i - 1, -1⟩], by simp [copynodes, e], rfl, by simp only [List.mem_singleton, forall_eq]; omega, ?_⟩
        intro before after hb
        have e2 : nd (before ++ ([⟨p, -i - 1, -1⟩] ++ after)) n = ⟨p, -i - 1, -1⟩ := by
          have := nd_append before ([⟨p, -i - 1, -1⟩] ++ after) 0
          rw [hb] at this; exact this
        refine ⟨.term n p, ?_, .term h1 (h3.2 v .refl) (by rw [e2]) (by rw [e2]), rfl, rfl⟩
        have := Spec.Repr.term (a := before ++ ([⟨p, -i - 1, -1⟩] ++ after)) (i := n) (by simp; omega) (by rw [e2]; simp only; omega)
        rwa [e2] at this
  | @un l c hc ih =>
    intro n rules ns post pre hr hn hp hl
    simp only [subtrees_node, subtreesL, List.append_nil] at hr
    cases hr with
    | @cons _ r _ rules' h1 h2 =>
      cases hn with
      | @cons _ p _ ns' h3 h4 =>
        have e : prods[n]? = some p := by
          rw [hp, List.getElem?_append_right (by omega)]; simp [hl]
        obtain ⟨xs, k1, k2, kb, k3⟩ := ih (n := n + 1) (pre := pre ++ [p]) (post := post) h2 h4 (by rw [hp]; simp) (by simp [hl])
        obtain ⟨m, ds, rfl⟩ := binarized_node hc
        refine ⟨⟨p, (n + 1 : Nat), -1⟩ :: xs, by simp [copynodes, e, k1], by simp [k2], ?_, ?_⟩
        · have hx : 0 < xs.length := by
            have := h2.length_eq
            have h7 := h4.length_eq
            simp only [subtrees_node, List.length_cons] at this
            omega
          intro y hy
          rw [List.length_cons]
          rcases List.mem_cons.1 hy with rfl | hy
          · simp only; omega
          · have := kb y hy; omega
        intro before after hb
        obtain ⟨b, r1, r2, r3, r4⟩ := k3 (before ++ [⟨p, (n + 1 : Nat), -1⟩]) after (by simp [hb])
        rw [List.append_assoc] at r1 r2
        have e2 : nd (before ++ ([⟨p, (n + 1 : Nat), -1⟩] ++ (xs ++ after))) n = ⟨p, (n + 1 : Nat), -1⟩ := by
          have := nd_append before ([⟨p, (n + 1 : Nat), -1⟩] ++ (xs ++ after)) 0
          rw [hb] at this; exact this
        refine ⟨.un n p b, ?_, .un h1 (h3.2 v .refl) r2, rfl, ?_⟩
        · have := Spec.Repr.un (i := n) (by simp; omega) (by rw [e2, r3]) (by rw [e2]; simp only; omega) r1
          rw [e2] at this; exact this
        · simp only [BTree.subs, List.map_cons, r4, List.length_cons, List.range'_succ]; rfl
  | @bin l c d hc hd ih ih' =>
    intro n rules ns post pre hr hn hp hl
    simp only [subtrees_node, subtreesL, List.append_nil] at hr
    cases hr with
    | @cons _ r _ rules' h1 h2 =>
      obtain ⟨ra, rb, q1, q2, rfl⟩ := forall₂_append_split h2
      cases hn with
      | @cons _ p _ ns' h3 h4 =>
        obtain ⟨na, nb, q3, q4, rfl⟩ := forall₂_append_split h4
        have e : prods[n]? = some p := by
          rw [hp, List.getElem?_append_right (by omega)]; simp [hl]
        obtain ⟨xs, k1, k2, kb, k3⟩ := ih (n := n + 1) (pre := pre ++ [p]) (post := nb ++ post) q1 q3 (by rw [hp]; simp) (by simp [hl])
        obtain ⟨ys, j1, j2, jb, j3⟩ := ih' (n := n + 1 + xs.length) (pre := pre ++ p :: na) (post := post) q2 q4 (by rw [hp]; simp) (by simp [hl, k2]; omega)
        obtain ⟨m, ds, rfl⟩ := binarized_node hc
        obtain ⟨m', ds', rfl⟩ := binarized_node hd
        refine ⟨⟨p, (n + 1 : Nat), (n + 1 + xs.length : Nat)⟩ :: (xs ++ ys), by simp [copynodes, e, k1, j1], by simp [k2, j2], ?_, ?_⟩
        · have hx : 0 < ys.length := by
            have := q2.length_eq
            have h7 := q4.length_eq
            simp only [subtrees_node, List.length_cons] at this
            omega
          intro y hy
          rw [List.length_cons, List.length_append]
          rcases List.mem_cons.1 hy with rfl | hy
          · simp only; omega
          · rcases List.mem_append.1 hy with hy | hy
            · have := kb y hy; omega
            · have := jb y hy; omega
        intro before after hb
        obtain ⟨b, r1, r2, r3, r4⟩ := k3 (before ++ [⟨p, (n + 1 : Nat), (n + 1 + xs.length : Nat)⟩]) (ys ++ after) (by simp [hb])
        obtain ⟨b', s1, s2, s3, s4⟩ := j3 (before ++ ⟨p, (n + 1 : Nat), (n + 1 + xs.length : Nat)⟩ :: xs) after (by simp [hb]; omega)
        simp only [List.append_assoc, List.cons_append, List.nil_append] at r1 r2 s1 s2
        have e2 : nd (before ++ (⟨p, (n + 1 : Nat), (n + 1 + xs.length : Nat)⟩ :: (xs ++ (ys ++ after)))) n = ⟨p, (n + 1 : Nat), (n + 1 + xs.length : Nat)⟩ := by
          have := nd_append before (⟨p, (n + 1 : Nat), (n + 1 + xs.length : Nat)⟩ :: (xs ++ (ys ++ after))) 0
          rw [hb] at this; exact this
        have e3 : before ++ (⟨p, (n + 1 : Nat), (n + 1 + xs.length : Nat)⟩ :: (xs ++ ys) ++ after) =
          before ++ (⟨p, (n + 1 : Nat), (n + 1 + xs.length : Nat)⟩ :: (xs ++ (ys ++ after))) := by simp
        rw [e3]
        refine ⟨.bin n p b b', ?_, .bin h1 (h3.2 v .refl) r2 s2, rfl, ?_⟩
        · have := Spec.Repr.bin (i := n) (by simp; omega) (by rw [e2, r3]) (by rw [e2, s3]) r1 s1
          rw [e2] at this; exact this
        · simp only [BTree.subs, List.map_cons, List.map_append, r4, s4, List.length_cons, List.length_append, List.range'_succ]
          rw [← List.range'_append_1]; rfl

/-! ### Sorting the nodes -/

theorem sortOrder_perm (source : List Node) : (sortOrder source).Perm (List.range source.length) := StableSort.perm _

/-- The new number of a node. -/
def newIdx (source : List Node) (i : Nat) : Nat := (sortOrder source).idxOf i

theorem newIdx_lt {source : List Node} {i : Nat} (h : i < source.length) : newIdx source i < (sortOrder source).length :=
  List.idxOf_lt_length_iff.2 ((sortOrder_perm source).mem_iff.2 (List.mem_range.2 h))

theorem length_sortOrder (source : List Node) : (sortOrder source).length = source.length := by
  have := (sortOrder_perm source).length_eq; simpa using this

theorem newIdx_get {source : List Node} {i : Nat} (h : i < source.length) : (sortOrder source)[newIdx source i]? = some i := by
  rw [List.getElem?_eq_getElem (newIdx_lt h)]
  exact congrArg some (List.getElem_idxOf _)

theorem sortidx_get {source : List Node} {i : Nat} (h : i < source.length) : Dict.get? (sortOrder source).zipIdx i = some (newIdx source i) :=
  (Vocab.get?_number ((sortOrder_perm source).nodup_iff.2 List.nodup_range) i _).2 (newIdx_get h)

/-- A node with translated numbers. -/
def newNode (source : List Node) (x : Node) : Node :=
  ⟨x.prod, if 0 ≤ x.left then (newIdx source x.left.toNat : Int) else x.left, if 0 ≤ x.right then (newIdx source x.right.toNat : Int) else x.right⟩

theorem translate_spec {source : List Node} {x : Node} (hl : x.left < source.length) (hr : x.right < source.length) :
    translate (sortOrder source).zipIdx x = some (newNode source x) := by
  unfold translate newNode
  by_cases h1 : 0 ≤ x.left
  · rw [if_pos h1, sortidx_get (by omega)]
    by_cases h2 : 0 ≤ x.right
    · rw [if_pos h2, sortidx_get (by omega)]; simp [h1, h2]
    · rw [if_neg h2]; simp [h1, h2]
  · rw [if_neg h1]
    by_cases h2 : 0 ≤ x.right
    · rw [if_pos h2, sortidx_get (by omega)]; simp [h1, h2]
    · rw [if_neg h2]; simp [h1, h2]

theorem mapM_some_of {α β : Type} {f : α → Option β} {g : α → β} : ∀ {l : List α}, (∀ x ∈ l, f x = some (g x)) → l.mapM f = some (l.map g)
  | [], _ => rfl
  | x :: l, h => by simp [h x (by simp), mapM_some_of (l := l) fun y hy => h y (by simp [hy])]

theorem nd_get {a : List Node} {i : Nat} (h : i < a.length) : nd a i = a[i] := by unfold nd; rw [List.getElem?_eq_getElem h]; rfl

theorem sortNodes_spec {source : List Node} (hs : ∀ x ∈ source, x.left < source.length ∧ x.right < source.length) {root : Nat} (hr : root < source.length) :
    ∃ dest, sortNodes source root = some (dest, newIdx source root) ∧ dest.length = source.length ∧ Spec.Sorted dest ∧
      (∀ i < source.length, nd dest (newIdx source i) = newNode source (nd source i)) ∧
      dest.Perm (source.map (newNode source)) := by
  refine ⟨(sortOrder source).map fun n => newNode source (nd source n), ?_, by simp [length_sortOrder], ?_, ?_, ?_⟩
  · unfold sortNodes
    simp only [sortidx_get hr]
    rw [mapM_some_of (g := fun n => newNode source (nd source n))]
    · rfl
    · intro n hn
      have hn := List.mem_range.1 ((sortOrder_perm source).mem_iff.1 hn)
      have := hs (nd source n) (by rw [nd_get hn]; exact List.getElem_mem _)
      exact translate_spec this.1 this.2
  · intro i j hij hj
    rw [List.length_map] at hj
    rw [nd_get (by simp; omega), nd_get (by simp; omega)]
    simp only [List.getElem_map, newNode]
    rcases Nat.lt_or_eq_of_le hij with h | rfl
    · have hp := StableSort.pairwise (le := fun x y => decide ((nd source x).prod ≤ (nd source y).prod)) (by simp only [decide_eq_true_eq]; intro a b c; omega)
        (by simp only [Bool.or_eq_true, decide_eq_true_eq]; intro a b; omega) (List.range source.length)
      have := List.pairwise_iff_getElem.1 hp i j (by unfold sortOrder at hj; omega) hj h
      exact of_decide_eq_true this
    · omega
  · intro i hi
    rw [nd_get (by simp [newIdx_lt hi])]
    have := newIdx_get hi
    rw [List.getElem?_eq_getElem (newIdx_lt hi), Option.some.injEq] at this
    simp [this]
  · refine ((sortOrder_perm source).map _).trans ?_
    have : (List.range source.length).map (fun n => newNode source (nd source n)) = source.map (newNode source) := by
      apply List.ext_getElem
      · simp
      · intro i h1 h2
        simp only [List.getElem_map, List.getElem_range]
        rw [nd_get (by simpa using h2)]
    rw [this]

theorem repr_bounds {a : List Node} {t : BTree} (h : Spec.Repr a t) (hall : (t.subs.map BTree.idx).Perm (List.range a.length)) :
    ∀ i < a.length, ∃ u ∈ t.subs, u.idx = i ∧ Spec.Repr a u := by
  intro i hi
  obtain ⟨u, h1, h2⟩ := List.mem_map.1 (hall.mem_iff.2 (List.mem_range.2 hi))
  exact ⟨u, h1, h2, repr_sub h h1⟩

theorem idx_mapIdx (σ : Nat → Nat) (b : BTree) : (b.mapIdx σ).idx = σ b.idx := by cases b <;> rfl

theorem subs_mapIdx (σ : Nat → Nat) (b : BTree) : (b.mapIdx σ).subs.map BTree.idx = (b.subs.map BTree.idx).map σ := by
  induction b with
  | term i p => rfl
  | un i p l ih => simp only [BTree.mapIdx, BTree.subs, List.map_cons, ih]; rfl
  | bin i p l r ih ih' => simp only [BTree.mapIdx, BTree.subs, List.map_cons, List.map_append, ih, ih']; rfl

theorem repr_mapIdx {a d : List Node} (hd : ∀ i < a.length, newIdx a i < d.length ∧ nd d (newIdx a i) = newNode a (nd a i)) {b : BTree}
    (h : Spec.Repr a b) : Spec.Repr d (b.mapIdx (newIdx a)) := by
  induction h with
  | @term i hi hleft =>
    obtain ⟨h1, h2⟩ := hd i hi
    have := Spec.Repr.term (a := d) h1 (by rw [h2, newNode]; simp only; rw [if_neg (by omega)]; exact hleft)
    rw [h2] at this; exact this
  | @un i l hi hleft hright h1 ih =>
    obtain ⟨k1, k2⟩ := hd i hi
    have := Spec.Repr.un (a := d) (i := newIdx a i) (l := l.mapIdx (newIdx a)) k1
      (by rw [k2, newNode, idx_mapIdx]; simp only; rw [if_pos (by omega), hleft]; simp)
      (by rw [k2, newNode]; simp only; rw [if_neg (by omega)]; exact hright) ih
    rw [k2] at this; exact this
  | @bin i l r hi hleft hright h1 h2 ih ih' =>
    obtain ⟨k1, k2⟩ := hd i hi
    have := Spec.Repr.bin (a := d) (i := newIdx a i) (l := l.mapIdx (newIdx a)) (r := r.mapIdx (newIdx a)) k1
      (by rw [k2, newNode, idx_mapIdx]; simp only; rw [if_pos (by omega), hleft]; simp)
      (by rw [k2, newNode, idx_mapIdx]; simp only; rw [if_pos (by omega), hright]; simp) ih ih'
    rw [k2] at this; exact this

theorem corr_mapIdx {v : Vocab.Vocabulary} {sent : List (Option Str)} {a d : List Node} (hd : ∀ i < a.length, nd d (newIdx a i) = newNode a (nd a i)) {t : PTree Str} {b : BTree}
    (h : Spec.Corr v a sent t b) (hr : Spec.Repr a b) : Spec.Corr v d sent t (b.mapIdx (newIdx a)) := by
  induction h with
  | term hp hn hl hri =>
    rename_i j _ _
    have hj : j < a.length := repr_lt hr
    refine .term hp hn ?_ ?_
    · rw [hd _ hj, newNode]; simp only; rw [if_neg (by omega)]; exact hl
    · rw [hd _ hj, newNode]; simp only; rw [if_neg (by omega)]; exact hri
  | un hp hn h ih => exact .un hp hn (ih (repr_child (d := false) hr rfl))
  | bin hp hn h h' ih ih' => exact .bin hp hn (ih (repr_child (d := false) hr rfl)) (ih' (repr_child (d := true) hr rfl))

/-! ### The object -/

/-- The object is consistent with the allocated memory. -/
structure Ok (c : Ctrees) : Prop where
  trees : c.max ≤ c.captrees
  nodes : c.nodes.length + c.nodesleft ≤ c.capnodes
  slices : ∀ x ∈ c.trees, x.offset + x.len ≤ c.nodes.length

theorem ok_init : Ok Ctrees.init := ⟨Nat.le_refl _, Nat.le_refl _, by simp [Ctrees.init]⟩

theorem ok_alloc (n m : Nat) : Ok (Ctrees.init.alloc n m) := ⟨by simp [Ctrees.alloc], by simp [Ctrees.alloc, Ctrees.init], by simp [Ctrees.alloc, Ctrees.init]⟩

theorem realloc_spec {c : Ctrees} (h : Ok c) (numtrees extranodes : Nat) : Ok (c.realloc numtrees extranodes) ∧ (c.realloc numtrees extranodes).nodes = c.nodes ∧
    (c.realloc numtrees extranodes).trees = c.trees ∧ (c.realloc numtrees extranodes).prodindex = c.prodindex ∧ numtrees ≤ (c.realloc numtrees extranodes).max ∧
    extranodes ≤ (c.realloc numtrees extranodes).nodesleft ∧ c.max ≤ (c.realloc numtrees extranodes).max := by
  have h1 : ∃ d : Ctrees, c.growTrees numtrees = d ∧ Ok d ∧ d.nodes = c.nodes ∧ d.trees = c.trees ∧ d.prodindex = c.prodindex ∧ numtrees ≤ d.max ∧ c.max ≤ d.max := by
    unfold Ctrees.growTrees
    by_cases hc : c.max < numtrees
    · rw [if_pos hc]
      refine ⟨_, rfl, ⟨Nat.le_refl _, h.nodes, h.slices⟩, rfl, rfl, rfl, ?_, ?_⟩ <;> simp only <;> omega
    · rw [if_neg hc]
      exact ⟨c, rfl, h, rfl, rfl, rfl, by omega, by omega⟩
  obtain ⟨d, e, hd, e1, e2, e3, e4, e5⟩ := h1
  unfold Ctrees.realloc
  rw [e]
  unfold Ctrees.growNodes
  by_cases hc : d.nodesleft < extranodes
  · rw [if_pos hc]
    refine ⟨⟨hd.trees, ?_, hd.slices⟩, e1, e2, e3, e4, ?_, e5⟩ <;> simp only <;> omega
  · rw [if_neg hc]
    exact ⟨hd, e1, e2, e3, e4, by omega, e5⟩

theorem addnodes_spec {c : Ctrees} (h : Ok c) (hm : c.max ≠ 0) {source dest : List Node} {root r : Nat} (hs : sortNodes source root = some (dest, r))
    (hl : dest.length = source.length) : ∃ c', c.addnodes source root = some c' ∧ Ok c' ∧ c'.max ≠ 0 ∧ c'.bank = c.bank ++ [(dest, r)] ∧ c'.prodindex = c.prodindex := by
  unfold Ctrees.addnodes
  rw [if_neg hm]
  simp only [hs, Option.bind_some]
  have key : ∃ d : Ctrees, (if c.max ≤ c.trees.length ∨ c.nodesleft < source.length then c.realloc (c.trees.length + 1) source.length else c) = d ∧ Ok d ∧
      d.nodes = c.nodes ∧ d.trees = c.trees ∧ d.prodindex = c.prodindex ∧ c.trees.length + 1 ≤ d.max ∧ source.length ≤ d.nodesleft := by
    split
    · obtain ⟨a1, a2, a3, a4, a5, a6, a7⟩ := realloc_spec h (c.trees.length + 1) source.length
      exact ⟨_, rfl, a1, a2, a3, a4, a5, a6⟩
    · exact ⟨c, rfl, h, rfl, rfl, rfl, by omega, by omega⟩
  obtain ⟨d, e, ⟨d1, d2, d3⟩, e1, e2, e3, e4, e5⟩ := key
  rw [e]
  rw [e1] at d2 d3
  rw [if_neg (by rw [e1, e2]; omega)]
  refine ⟨_, rfl, ⟨d1, ?_, ?_⟩, ?_, ?_, e3⟩
  · simp only [List.length_append, e1, hl]; omega
  · intro x hx
    simp only [List.mem_append, List.mem_singleton, e2] at hx
    simp only [List.length_append, e1, hl]
    rcases hx with hx | rfl
    · have := d3 x (by rw [e2]; exact hx); omega
    · simp [e1]
  · simp only; omega
  · unfold Ctrees.bank
    simp only [List.map_append, List.map_cons, List.map_nil, e1, e2]
    congr 1
    · refine List.map_congr_left fun x hx => ?_
      have := d3 x (by rw [e2]; exact hx)
      unfold Ctrees.nodesOf
      rw [List.drop_append_of_le_length (by omega), List.take_append_of_le_length (by rw [List.length_drop]; omega)]
    · unfold Ctrees.nodesOf
      simp only [List.drop_left]
      rw [← hl, List.take_length]

theorem num_of {v : Vocab.Vocabulary} (hv : Vocab.Spec.Steps Vocab.init v) {r : Prods.Rule} (hr : Vocab.Spec.Production r) {n : Nat}
    (h : Vocab.getprod v r = some (v, n)) : Num v r n := by
  obtain ⟨u, m, h1, h2, h3⟩ := getprod_num hv hr
  rw [h, Option.some.injEq, Prod.mk.injEq] at h1
  obtain ⟨rfl, rfl⟩ := h1
  exact h3

/-- The representation of an item. -/
structure Rep (v : Vocab.Vocabulary) (x : PTree Str × List (Option Str)) (a : List Node × Nat) (b : BTree) : Prop where
  tree : Spec.Tree a.1 b
  root : a.2 = b.idx
  corr : Spec.Corr v a.1 x.2 x.1 b

theorem item_prods {x : PTree Str × List (Option Str)} (h : Spec.Item x) : ∀ st ∈ subtrees x.1, ∀ r, prodOf x.2 true st = some (some r) → Vocab.Spec.Production r := by
  obtain ⟨rules, -, h2, h3⟩ := item_rules h
  intro st hst r hr
  obtain ⟨i, hi, rfl⟩ := List.mem_iff_getElem.1 hst
  have hl := h2.length_eq
  have := (List.forall₂_iff_get.1 h2).2 i hi (by omega)
  simp only [List.get_eq_getElem] at this
  rw [this, Option.some.injEq, Option.some.injEq] at hr
  rw [← hr]
  exact h3 _ (List.getElem_mem _)

theorem corr_mono {v w : Vocab.Vocabulary} (hv : Vocab.Spec.Steps Vocab.init v) (hw : Vocab.Spec.Steps v w) {a : List Node} {sent : List (Option Str)} {t : PTree Str} {b : BTree}
    (h : Spec.Corr v a sent t b) : (∀ st ∈ subtrees t, ∀ r, prodOf sent true st = some (some r) → Vocab.Spec.Production r) → Spec.Corr w a sent t b := by
  induction h with
  | term hp hn hl hri => intro hr; exact .term hp ((num_of hv (hr _ (by simp) _ hp) hn).2 w hw) hl hri
  | un hp hn h ih =>
    intro hr
    exact .un hp ((num_of hv (hr _ (by simp) _ hp) hn).2 w hw) (ih fun st hst => hr st (by simp [subtreesL, hst]))
  | bin hp hn h h' ih ih' =>
    intro hr
    exact .bin hp ((num_of hv (hr _ (by simp) _ hp) hn).2 w hw) (ih fun st hst => hr st (by simp [subtreesL, hst])) (ih' fun st hst => hr st (by simp [subtreesL, hst]))

theorem Rep.mono {v w : Vocab.Vocabulary} (hv : Vocab.Spec.Steps Vocab.init v) (hw : Vocab.Spec.Steps v w) {x : PTree Str × List (Option Str)} (hx : Spec.Item x)
    {a : List Node × Nat} {b : BTree} (h : Rep v x a b) : Rep w x a b := ⟨h.tree, h.root, corr_mono hv hw h.corr (item_prods hx)⟩

theorem addtree_spec {c : Ctrees} (h : Ok c) (hm : c.max ≠ 0) {v : Vocab.Vocabulary} (hv : Vocab.Spec.Steps Vocab.init v) {x : PTree Str × List (Option Str)} (hx : Spec.Item x) :
    ∃ c' u a b, c.addtree v x = some (c', u) ∧ Ok c' ∧ c'.max ≠ 0 ∧ Vocab.Spec.Steps v u ∧ c'.bank = c.bank ++ [a] ∧ c'.prodindex = c.prodindex ∧ Rep u x a b := by
  obtain ⟨rules, h1, h2, h3⟩ := item_rules hx
  obtain ⟨u, ns, k1, k2, k3⟩ := getprods_spec hv h3
  obtain ⟨xs, j1, j2, jb, j3⟩ := copynodes_spec (prods := ns) (n := 0) (post := []) (pre := []) hx.bin h2 k3 (by simp) rfl
  obtain ⟨b, r1, r2, r3, r4⟩ := j3 [] [] rfl
  simp only [List.nil_append, List.append_nil] at r1 r2
  rw [← List.range_eq_range'] at r4
  have hall : (b.subs.map BTree.idx).Perm (List.range xs.length) := by rw [r4]
  have hpos : 0 < xs.length := by have := repr_lt r1; omega
  obtain ⟨dest, d1, d2, d3, d4, d5⟩ := sortNodes_spec (source := xs) (root := 0) (fun y hy => by have := jb y hy; omega) hpos
  obtain ⟨c', e1, e2, e3, e4, e5⟩ := addnodes_spec h hm d1 d2
  refine ⟨c', u, _, b.mapIdx (newIdx xs), ?_, e2, e3, k2, e4, e5, ?_, ?_, ?_⟩
  · unfold Ctrees.addtree
    simp [h1, k1, j1, e1]
  · refine ⟨repr_mapIdx (fun i hi => ⟨by rw [d2, ← length_sortOrder]; exact newIdx_lt hi, d4 i hi⟩) r1, ?_, d3⟩
    rw [subs_mapIdx, r4, d2]
    refine (List.perm_ext_iff_of_nodup ?_ List.nodup_range).2 ?_
    · refine List.Nodup.map_on ?_ List.nodup_range
      intro i hi j hj hij
      have hi := newIdx_get (List.mem_range.1 hi)
      rw [hij, newIdx_get (List.mem_range.1 hj), Option.some.injEq] at hi
      exact hi.symm
    · intro k
      rw [List.mem_map, List.mem_range]
      constructor
      · rintro ⟨i, hi, rfl⟩
        rw [← length_sortOrder]; exact newIdx_lt (List.mem_range.1 hi)
      · intro hk
        have hk' : k < (sortOrder xs).length := by rw [length_sortOrder]; exact hk
        have hm := (sortOrder_perm xs).mem_iff.1 (List.getElem_mem hk')
        refine ⟨_, hm, ?_⟩
        have h5 := newIdx_get (List.mem_range.1 hm)
        obtain ⟨g1, g2⟩ := List.getElem?_eq_some_iff.1 h5
        exact (List.Nodup.getElem_inj_iff ((sortOrder_perm xs).nodup_iff.2 List.nodup_range)).1 g2
  · simp only [idx_mapIdx, r3]
  · exact corr_mapIdx d4 r2 r1

/-- The loop over trees. -/
theorem addloop_spec : ∀ {items : List (PTree Str × List (Option Str))} {c : Ctrees} {v : Vocab.Vocabulary}, Ok c → (items ≠ [] → c.max ≠ 0) → Vocab.Spec.Steps Vocab.init v →
    (∀ x ∈ items, Spec.Item x) → ∃ (c' : Ctrees) (u : Vocab.Vocabulary) (as : Bank) (bs : List BTree), c.addloop v items = some (c', u) ∧ Ok c' ∧ Vocab.Spec.Steps v u ∧ c'.bank = c.bank ++ as ∧ c'.prodindex = c.prodindex ∧
      as.length = items.length ∧ bs.length = items.length ∧ ∀ (n : Nat) x a b, items[n]? = some x → as[n]? = some a → bs[n]? = some b → Rep u x a b
  | [], c, v, h, _, hv, _ => ⟨c, v, [], [], rfl, h, .refl, by simp, rfl, rfl, rfl, by simp⟩
  | x :: items, c, v, h, hm, hv, hi => by
    obtain ⟨c1, u1, a, b, h1, h2, h3, h4, h5, h6, h7⟩ := addtree_spec h (hm (by simp)) hv (hi x (by simp))
    obtain ⟨c2, u2, as, bs, k1, k2, k3, k4, k5, k6, k7, k8⟩ := addloop_spec (items := items) h2 (fun _ => h3) (steps_trans hv h4) (fun y hy => hi y (by simp [hy]))
    refine ⟨c2, u2, a :: as, b :: bs, ?_, k2, steps_trans h4 k3, ?_, by rw [k5, h6], by simp [k6], by simp [k7], ?_⟩
    · simp [Ctrees.addloop, h1, k1]
    · rw [k4, h5]; simp
    · rintro (_ | n) y a' b' g1 g2 g3
      · simp only [List.getElem?_cons_zero, Option.some.injEq] at g1 g2 g3
        subst g1 g2 g3
        exact h7.mono (steps_trans hv h4) k3 (hi x (by simp))
      · simp only [List.getElem?_cons_succ] at g1 g2 g3
        exact k8 n y a' b' g1 g2 g3

/-! ### The index -/

/-- The index has sorted sets, and `m` is in the set of production `p` when `Q p m`. -/
def IndexIs (idx : List (Option (List Nat))) (Q : Nat → Nat → Prop) : Prop :=
  (∀ (p : Nat) s, idx[p]? = some (some s) → s.Pairwise (· < ·)) ∧ ∀ (p m : Nat), (∃ s, idx[p]? = some (some s) ∧ m ∈ s) ↔ Q p m

theorem mem_bitmapAdd {s : List Nat} {n m : Nat} : m ∈ bitmapAdd s n ↔ m = n ∨ m ∈ s := by
  unfold bitmapAdd
  split
  · rename_i h
    exact ⟨Or.inr, fun h' => h'.elim (fun e => e ▸ h) id⟩
  · rw [(StableSort.insertSorted_perm n s).mem_iff, List.mem_cons]

theorem sorted_bitmapAdd {s : List Nat} (h : s.Pairwise (· < ·)) (n : Nat) : (bitmapAdd s n).Pairwise (· < ·) := by
  unfold bitmapAdd
  split
  · exact h
  · rename_i hn
    have h1 := StableSort.insertSorted_pairwise (le := fun x y : Nat => decide (x ≤ y)) (by simp only [decide_eq_true_eq]; intro a b c; omega)
      (by simp only [Bool.or_eq_true, decide_eq_true_eq]; intro a b; omega) n s (h.imp fun h => by simp only [decide_eq_true_eq]; omega)
    have h2 : (insertSorted (fun x y : Nat => decide (x ≤ y)) n s).Nodup := by
      rw [(StableSort.insertSorted_perm n s).nodup_iff, List.nodup_cons]
      exact ⟨hn, h.imp fun h => by omega⟩
    have h3 := h1.and h2
    exact h3.imp fun h => by have := of_decide_eq_true h.1; have := h.2; omega

theorem indexTree_spec (n : Nat) : ∀ {xs : List Node} {idx : List (Option (List Nat))} {Q : Nat → Nat → Prop}, IndexIs idx Q →
    (∀ x ∈ xs, 0 ≤ x.prod ∧ x.prod < idx.length) → ∃ idx', indexTree n xs idx = some idx' ∧ idx'.length = idx.length ∧
      IndexIs idx' fun p m => Q p m ∨ m = n ∧ ∃ x ∈ xs, x.prod = p
  | [], idx, Q, h, _ => ⟨idx, rfl, rfl, h.1, fun p m => by rw [h.2]; simp⟩
  | x :: xs, idx, Q, h, hx => by
    obtain ⟨x1, x2⟩ := hx x (by simp)
    have hlt : x.prod.toNat < idx.length := by omega
    rw [indexTree, if_pos x1, List.getElem?_eq_getElem hlt]
    simp only
    have key : IndexIs (idx.set x.prod.toNat (some (bitmapAdd (idx[x.prod.toNat].getD []) n))) fun p m => Q p m ∨ m = n ∧ x.prod = p := by
      constructor
      · intro p s hs
        rw [List.getElem?_set] at hs
        split at hs
        · rw [Option.some.injEq, Option.some.injEq] at hs
          subst hs
          refine sorted_bitmapAdd ?_ n
          cases hg : idx[x.prod.toNat] with
          | none => exact List.Pairwise.nil
          | some s => exact h.1 x.prod.toNat s (by rw [List.getElem?_eq_getElem hlt, hg])
        · exact h.1 p s hs
      · intro p m
        rw [List.getElem?_set]
        by_cases hp : x.prod.toNat = p
        · subst hp
          simp only [if_true, hlt, Option.some.injEq, exists_eq_left', mem_bitmapAdd]
          rw [← h.2, List.getElem?_eq_getElem hlt]
          have e : x.prod = (x.prod.toNat : Int) := by omega
          constructor
          · rintro (rfl | h1)
            · exact Or.inr ⟨rfl, e⟩
            · cases hg : idx[x.prod.toNat] with
              | none => rw [hg] at h1; simp at h1
              | some s => rw [hg] at h1; exact Or.inl ⟨s, by simp, h1⟩
          · rintro (⟨s, h1, h2⟩ | ⟨rfl, -⟩)
            · rw [Option.some.injEq] at h1
              rw [h1]; exact Or.inr h2
            · exact Or.inl rfl
        · rw [if_neg hp, h.2]
          have : ¬ (x.prod = (p : Int)) := by omega
          simp [this]
    obtain ⟨idx', h1, h2, h3⟩ := indexTree_spec (xs := xs) n key (fun y hy => by rw [List.length_set]; exact hx y (by simp [hy]))
    refine ⟨idx', h1, by rw [h2, List.length_set], h3.1, fun p m => ?_⟩
    rw [h3.2]
    constructor
    · rintro ((h | ⟨h, h'⟩) | ⟨h, y, hy, h'⟩)
      · exact Or.inl h
      · exact Or.inr ⟨h, x, by simp, h'⟩
      · exact Or.inr ⟨h, y, by simp [hy], h'⟩
    · rintro (h | ⟨h, y, hy, h'⟩)
      · exact Or.inl (Or.inl h)
      · rcases List.mem_cons.1 hy with rfl | hy
        · exact Or.inl (Or.inr ⟨h, h'⟩)
        · exact Or.inr ⟨h, y, hy, h'⟩

theorem indexLoop_spec (c : Ctrees) : ∀ {l : List (NodeArray × Nat)} {idx : List (Option (List Nat))} {Q : Nat → Nat → Prop}, IndexIs idx Q →
    (∀ x ∈ l, ∀ y ∈ c.nodesOf x.1, 0 ≤ y.prod ∧ y.prod < idx.length) → ∃ idx', l.foldlM (fun idx x => indexTree x.2 (c.nodesOf x.1) idx) idx = some idx' ∧
      idx'.length = idx.length ∧ IndexIs idx' fun p m => Q p m ∨ ∃ x ∈ l, m = x.2 ∧ ∃ y ∈ c.nodesOf x.1, y.prod = p
  | [], idx, Q, h, _ => ⟨idx, rfl, rfl, h.1, fun p m => by rw [h.2]; simp⟩
  | x :: l, idx, Q, h, hx => by
    obtain ⟨idx1, h1, h2, h3⟩ := indexTree_spec x.2 h (hx x (by simp))
    obtain ⟨idx2, k1, k2, k3⟩ := indexLoop_spec c (l := l) h3 (fun y hy => by rw [h2]; exact hx y (by simp [hy]))
    refine ⟨idx2, by simp [h1, k1], by rw [k2, h2], k3.1, fun p m => ?_⟩
    rw [k3.2]
    simp only [List.mem_cons, exists_eq_or_imp, or_assoc]

theorem indextrees_spec {c : Ctrees} {numprods : Nat} (hc : ∀ x ∈ c.trees, ∀ y ∈ c.nodesOf x, 0 ≤ y.prod ∧ y.prod < numprods) {Q : Nat → Nat → Prop}
    (hq : IndexIs (c.prodindex.getD []) Q) (hl : (c.prodindex.getD []).length ≤ numprods) : ∃ idx, c.indextrees numprods 0 = some { c with prodindex := some idx } ∧
      idx.length = numprods ∧ IndexIs idx fun p m => Q p m ∨ ∃ x, c.trees[m]? = some x ∧ ∃ y ∈ c.nodesOf x, y.prod = p := by
  unfold Ctrees.indextrees
  have key : ∃ idx0, extendIndex c.prodindex numprods = idx0 ∧ idx0.length = numprods ∧ IndexIs idx0 Q := by
    refine ⟨_, rfl, ?_⟩
    unfold extendIndex
    cases hp : c.prodindex with
    | none =>
      rw [hp] at hq
      refine ⟨by simp, ?_, ?_⟩
      · intro p s hs
        simp only [List.getElem?_replicate] at hs
        split at hs <;> simp at hs
      · intro p m
        rw [← hq.2]
        simp only [List.getElem?_replicate, Option.getD_none]
        constructor
        · rintro ⟨s, hs, -⟩; split at hs <;> simp at hs
        · rintro ⟨s, hs, -⟩; simp at hs
    | some idx =>
      rw [hp] at hq hl
      simp only [Option.getD_some] at hq hl ⊢
      split
      · refine ⟨by simp; omega, ?_, ?_⟩
        · intro p s hs
          rw [List.getElem?_append] at hs
          split at hs
          · exact hq.1 p s hs
          · rw [List.getElem?_replicate] at hs; split at hs <;> simp at hs
        · intro p m
          rw [← hq.2, List.getElem?_append]
          split
          · rfl
          · rename_i hlt
            rw [List.getElem?_replicate]
            have hnone : idx[p]? = none := List.getElem?_eq_none (by omega)
            rw [hnone]
            constructor
            · rintro ⟨s, hs, -⟩; split at hs <;> simp at hs
            · rintro ⟨s, hs, -⟩; simp at hs
      · exact ⟨by omega, hq⟩
  obtain ⟨idx0, e, e1, e2⟩ := key
  rw [e, List.drop_zero]
  obtain ⟨idx, h1, h2, h3⟩ := indexLoop_spec c (l := c.trees.zipIdx) e2 (by
    intro x hx
    rw [e1]
    exact hc x.1 (List.mem_of_getElem? (List.mem_zipIdx_iff_getElem?.1 hx)))
  refine ⟨idx, by rw [h1]; rfl, by rw [h2, e1], h3.1, fun p m => ?_⟩
  rw [h3.2]
  refine or_congr_right ⟨?_, ?_⟩
  · rintro ⟨x, hx, rfl, h⟩
    exact ⟨x.1, List.mem_zipIdx_iff_getElem?.1 hx, h⟩
  · rintro ⟨x, hx, h⟩
    exact ⟨(x, m), List.mem_zipIdx_iff_getElem?.2 hx, rfl, h⟩

end Disco.Frag
