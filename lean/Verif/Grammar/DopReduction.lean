import Verif.Grammar.TreebankGrammar
import Verif.Grammar.Cartpi
import Verif.Trees.MergeDisc
import Mathlib.Algebra.BigOperators.Ring.List
import Mathlib.Algebra.Order.BigOperators.Group.List
import Mathlib.Tactic.FieldSimp
import Mathlib.Tactic.Ring
import Mathlib.Algebra.Field.Rat
import Mathlib.Algebra.Order.Ring.Rat
/-!
# C22: `dopreduction` (grammar.py:116-187), `nodefreq` (788-828), `TreeDecorator` without memoization (831-865)

Simplifications: weights are exact rationals instead of floats. Exceptions are `none`.
-/
namespace Disco.Dop
open PTree Prods Dict TBGrammar

/-! ### Model -/

variable {L : Type}

mutual
/-- `enumerate(tree.subtrees())`, from number `m` (grammar.py:862); the second component is the next number. -/
def number : Nat → PTree L → PTree (L × Nat) × Nat
  | m, .leaf i => (.leaf i, m)
  | m, .node l cs => (.node (l, m) (numberL (m + 1) cs).1, (numberL (m + 1) cs).2)
/-- The same for the children of a node. -/
def numberL : Nat → List (PTree L) → List (PTree (L × Nat)) × Nat
  | m, [] => ([], m)
  | m, c :: cs => ((number m c).1 :: (numberL (number m c).2 cs).1, (numberL (number m c).2 cs).2)
end

/-- `'%s@%d-%d' % (label, n, m)` (grammar.py:863). -/
def address (n : Nat) (x : Str × Nat) : Str := x.1 ++ '@' :: (Nat.toDigits 10 n ++ '-' :: Nat.toDigits 10 x.2)

/-- `TreeDecorator.decorate` for sentence number `n`, without memoization (grammar.py:853-865): the root keeps its label. -/
def decorate (n : Nat) : PTree Str → PTree Str
  | .leaf i => .leaf i
  | .node l cs => .node l (mapLabelL (address n) (numberL 0 cs).1)

mutual
/-- `nodefreq(tree, dectree, subtreefd, nonterminalfd)` (grammar.py:788-828): the number of fragments and the updated counters. -/
def nodefreq : PTree Str → PTree Str → Dict Str ℚ × Dict Str ℚ → Option (Nat × Dict Str ℚ × Dict Str ℚ)
  | .node l cs, .node d ds, (fd, ntfd) =>
    (match cs with
      | [] => none
      | .leaf _ :: _ => some (1, fd, incr (incr ntfd l 1) d 1)
      | .node _ _ :: _ => nodefreqL cs ds (fd, incr (incr ntfd l 1) d 1)).map
    (fun (n, fd, ntfd) => (n, if d ≠ l then set (incr fd l n) d n else incr fd l n, ntfd))
  | _, _, _ => none
/-- `reduce(mul, (nodefreq(x, ux, ...) + 1 for x, ux in zip(tree, dectree)))` (grammar.py:815-816). -/
def nodefreqL : List (PTree Str) → List (PTree Str) → Dict Str ℚ × Dict Str ℚ → Option (Nat × Dict Str ℚ × Dict Str ℚ)
  | c :: cs, d :: ds, st => (nodefreq c d st).bind (fun (n, st) => (nodefreqL cs ds st).map (fun (k, st) => ((n + 1) * k, st)))
  | _, _, st => some (1, st)
end

/-- The state of the loop over the treebank. -/
structure State where
  n : Nat
  fd : Dict Str ℚ
  ntfd : Dict Str ℚ
  rules : Dict Rule ℚ

/-- `[(x, ) if x == y else (x, y) for x, y in zip(a, b)]` (grammar.py:147-148). -/
def options (x : Str × Str) : List Str := if x.1 = x.2 then [x.1] else [x.1, x.2]

/-- The loop over the productions (grammar.py:145-149); the assertion is that both have the same yield function. -/
def addProds : Dict Rule ℚ → List (Rule × Rule) → Option (Dict Rule ℚ)
  | d, [] => some d
  | d, (a, b) :: rest =>
    if a.yf = b.yf then addProds (addAll d ((Cartpi.cartpi ((a.nts.zip b.nts).map options)).map (fun c => (⟨c, a.yf⟩, 1)))) rest
    else none

/-- One tree (grammar.py:140-149). -/
def addTree (st : State) (x : PTree Str × List (Option Str)) : Option State := do
  let prods ← lcfrsproductions x.1 x.2 false
  let uprods ← lcfrsproductions (decorate st.n x.1) x.2 false
  let (_, fd, ntfd) ← nodefreq x.1 (decorate st.n x.1) (st.fd, st.ntfd)
  let rules ← addProds st.rules (prods.zip uprods)
  some ⟨st.n + 1, fd, ntfd, rules⟩

/-- `'@' in s`. -/
def at? (s : Str) : Bool := decide ('@' ∈ s)

/-- `reduce(mul, (fd[z] for z in r[1:] if '@' in z), 1)`. -/
def addressed (fd : Dict Str ℚ) (zs : List Str) : ℚ := ((zs.filter at?).map (cnt fd)).prod

/-- `(1 if '@' in r[0] else freq) * reduce(...)` (grammar.py:161-162). -/
def rfe (st : State) (r : Rule) (freq : ℚ) : ℚ := (if at? (r.nts.headD []) then 1 else freq) * addressed st.fd r.nts.tail

/-- Division, with an exception for division by zero. -/
def div? (a b : ℚ) : Option ℚ := if b = 0 then none else some (a / b)

/-- The weights of a rule (grammar.py:155-177): relative frequency, equal weights, shortest derivation, Bonnema. -/
def weights (st : State) (x : Rule × ℚ) : Option ((Rule × ℚ) × ℚ × ℚ × ℚ) := do
  let lhs ← x.1.nts.head?
  let ewe ← div? (rfe st x.1 x.2) (cnt st.fd lhs * (if at? lhs then 1 else cnt st.ntfd lhs))
  let bon ← div? 1 (4 * (if at? lhs then 1 else cnt st.ntfd lhs))
  some ((x.1, rfe st x.1 x.2), ewe, if at? lhs then 1 else 1 / 2, bon)

/-- `dopreduction(trees, sents, extrarules=...)` (grammar.py:116-187): the rules with their relative frequencies, and the other weights. -/
def dopreduction (trees : List (PTree Str)) (sents : List (List (Option Str))) (extrarules : Dict Rule ℚ) : Option (List ((Rule × ℚ) × ℚ × ℚ × ℚ)) := do
  let st ← (trees.zip sents).foldlM addTree ⟨1, [], [], []⟩
  let st := { st with rules := addAll st.rules extrarules, fd := addAll st.fd (extrarules.map (fun x => (x.1.nts.headD [], x.2))) }
  let rules ← sortgrammar st.rules
  rules.mapM (weights st)

/-! ### Specification -/

/-- A fragment of a tree: a connected part in which a node has either all its children or, as a frontier node, none of them. Besides the
labels it has the word or the yield function of each inner node; a preterminal with its word has no children. -/
inductive Frag where
  | frontier (label : Str)
  | inner (label : Str) (yf : YF) (children : List Frag)

/-- The root label. -/
def Frag.label : Frag → Str
  | .frontier l => l
  | .inner l _ _ => l

/-- Is the root expanded? -/
def Frag.isInner : Frag → Bool
  | .frontier _ => false
  | .inner _ _ _ => true

/-- The word or yield function of a node, as in its production (C20). -/
def Spec.yfOf (sent : List (Option Str)) (t : PTree Str) : Option YF := (prodOf sent false t).join.map Rule.yf

mutual
/-- Does the fragment occur at the root of this tree? -/
def Spec.occurs (sent : List (Option Str)) : Frag → PTree Str → Bool
  | .frontier l, t => decide (t.label? = some l)
  | .inner l yf fs, t => decide (t.label? = some l) && decide (Spec.yfOf sent t = some yf) && Spec.occursL sent fs t.children
/-- Do the fragments occur at these children? Without fragments, the only child is a word. -/
def Spec.occursL (sent : List (Option Str)) : List Frag → List (PTree Str) → Bool
  | [], cs => cs.all (fun c => !c.isNode)
  | f :: fs, c :: cs => Spec.occurs sent f c && Spec.occursL sent fs cs
  | _ :: _, [] => false
end

/-- All constituents of the treebank with their sentences. -/
def Spec.nodes (trees : List (PTree Str)) (sents : List (List (Option Str))) : List (List (Option Str) × PTree Str) :=
  (trees.zip sents).flatMap (fun x => (subtrees x.1).map (fun s => (x.2, s)))

/-- How often the fragment occurs in the treebank. -/
def Spec.count (trees : List (PTree Str)) (sents : List (List (Option Str))) (f : Frag) : Nat :=
  ((Spec.nodes trees sents).filter (fun x => Spec.occurs x.1 f x.2)).length

mutual
/-- The fragments with an expanded root that occur at the root of this tree. -/
def Spec.fragments (sent : List (Option Str)) : PTree Str → List Frag
  | .leaf _ => []
  | .node l cs => match Spec.yfOf sent (.node l cs) with
    | none => []
    | some yf => (Spec.choices sent cs).map (.inner l yf)
/-- The ways to cut off or expand each of the children. -/
def Spec.choices (sent : List (Option Str)) : List (PTree Str) → List (List Frag)
  | [] => [[]]
  | .leaf _ :: cs => Spec.choices sent cs
  | .node l ds :: cs => (Frag.frontier l :: Spec.fragments sent (.node l ds)).flatMap (fun f => (Spec.choices sent cs).map (f :: ·))
end

/-- The number of occurrences of all fragments with root label `l` in the treebank. -/
def Spec.total (trees : List (PTree Str)) (sents : List (List (Option Str))) (l : Str) : Nat :=
  (((Spec.nodes trees sents).filter (fun x => decide (x.2.label? = some l))).map (fun x => (Spec.fragments x.1 x.2).length)).sum

/-- `z` is an address of label `l`. -/
def Spec.isAddress (z l : Str) : Bool := decide (z.take (l.length + 1) = l ++ ['@'])

mutual
/-- The total weight of all derivations of a fragment from `z` in a weighted grammar: each inner node of the fragment below the root is rewritten as an
address of its label, each frontier node stays a label without address. -/
def Spec.inside (g : List (Rule × ℚ)) : Frag → Str → ℚ
  | .frontier l, z => if z = l ∧ '@' ∉ z then 1 else 0
  | .inner _ yf fs, z => (g.map (fun x => if x.1.nts.head? = some z ∧ x.1.yf = yf then
      x.2 * (if x.1.nts.tail = [epsilon] then (if fs.isEmpty then 1 else 0) else Spec.insideL g fs x.1.nts.tail) else 0)).sum
/-- The same for a sequence of fragments from a sequence of labels. -/
def Spec.insideL (g : List (Rule × ℚ)) : List Frag → List Str → ℚ
  | [], [] => 1
  | f :: fs, z :: zs => (if f.isInner = Spec.isAddress z f.label then Spec.inside g f z else 0) * Spec.insideL g fs zs
  | _, _ => 0
end

/-- Probabilities: weights divided by the total weight of the rules with the same left-hand side (as in C45). -/
def Spec.normalise (g : List (Rule × ℚ)) : List (Rule × ℚ) := g.map (fun x => (x.1, x.2 / TBGrammar.Spec.mass g (x.1.nts.headD [])))

/-- A well-formed treebank (as in C21) with labels without `@`. -/
structure Spec.Treebank (trees : List (PTree Str)) (sents : List (List (Option Str))) : Prop where
  ok : TBGrammar.Spec.Treebank trees sents
  tree : ∀ t ∈ trees, t.isNode
  noAt : ∀ t ∈ trees, ∀ s ∈ subtrees t, ∀ l, s.label? = some l → '@' ∉ l

/-- The number of trees with root label `l`. -/
def Spec.roots (trees : List (PTree Str)) (l : Str) : Nat := (trees.filter (fun t => decide (t.label? = some l))).length

/-! ### Relabelled trees -/

section
variable {M N : Type}

theorem leaves_mapLabel (f : L → M) (t : PTree L) : (mapLabel f t).leaves = t.leaves := by
  induction t using PTree.ind with
  | hleaf i => simp
  | hnode l cs ih =>
    simp only [mapLabel_node, leaves_node, mapLabelL_eq, leavesL_eq_flatMap, List.flatMap_map]
    exact List.flatMap_congr ih

theorem mapLabel_comp (f : L → M) (g : M → N) (t : PTree L) : mapLabel g (mapLabel f t) = mapLabel (fun x => g (f x)) t := by
  induction t using PTree.ind with
  | hleaf i => simp
  | hnode l cs ih =>
    simp only [mapLabel_node, mapLabelL_eq, List.map_map]
    congr 1
    exact List.map_congr_left ih

theorem mapLabel_id (t : PTree L) : mapLabel (fun x => x) t = t := by
  induction t using PTree.ind with
  | hleaf i => simp
  | hnode l cs ih =>
    simp only [mapLabel_node, mapLabelL_eq]
    congr 1
    exact (List.map_congr_left ih).trans (List.map_id' cs)

theorem subtrees_mapLabel (f : L → M) (t : PTree L) : subtrees (mapLabel f t) = (subtrees t).map (mapLabel f) := by
  induction t using PTree.ind with
  | hleaf i => simp
  | hnode l cs ih =>
    simp only [mapLabel_node, subtrees_node, mapLabelL_eq, subtreesL_eq_flatMap, List.flatMap_map, List.map_cons, List.map_flatMap]
    congr 1
    exact List.flatMap_congr ih

theorem isNode_mapLabel (f : L → M) (t : PTree L) : (mapLabel f t).isNode = t.isNode := by cases t <;> simp [isNode]

theorem label_mapLabel (f : L → M) (t : PTree L) : (mapLabel f t).label? = t.label?.map f := by cases t <;> simp [label?]

theorem children_mapLabel (f : L → M) (t : PTree L) : (mapLabel f t).children = t.children.map (mapLabel f) := by
  cases t <;> simp [children, mapLabelL_eq]
end

/-! ### Numbering -/

theorem number_forget (t : PTree L) : ∀ m, mapLabel Prod.fst (number m t).1 = t := by
  induction t using PTree.ind with
  | hleaf i => intro m; simp [number]
  | hnode l cs ih =>
    intro m
    have key : ∀ (cs : List (PTree L)), (∀ c ∈ cs, ∀ m, mapLabel Prod.fst (number m c).1 = c) → ∀ m, (numberL m cs).1.map (mapLabel Prod.fst) = cs := by
      intro cs
      induction cs with
      | nil => intro _ m; simp [numberL]
      | cons c cs ih2 =>
        intro h m
        rw [numberL, List.map_cons, h c (by simp), ih2 (fun c hc => h c (by simp [hc]))]
    rw [number, mapLabel_node, mapLabelL_eq, key cs ih]

theorem numberL_forget (cs : List (PTree L)) (m : Nat) : (numberL m cs).1.map (mapLabel Prod.fst) = cs := by
  induction cs generalizing m with
  | nil => simp [numberL]
  | cons c cs ih => rw [numberL, List.map_cons, number_forget, ih]

/-- The numbers of the constituents, in pre-order. -/
def numbers (ts : List (PTree (L × Nat))) : List Nat := (subtreesL ts).filterMap (fun s => s.label?.map Prod.snd)

theorem numbers_cons (t : PTree (L × Nat)) (ts) : numbers (t :: ts) = numbers [t] ++ numbers ts := by simp [numbers]

theorem number_range (t : PTree L) : ∀ m, m ≤ (number m t).2 ∧ numbers [(number m t).1] = List.range' m ((number m t).2 - m) := by
  induction t using PTree.ind with
  | hleaf i => intro m; simp [number, numbers]
  | hnode l cs ih =>
    intro m
    have key : ∀ (cs : List (PTree L)), (∀ c ∈ cs, ∀ m, m ≤ (number m c).2 ∧ numbers [(number m c).1] = List.range' m ((number m c).2 - m)) →
        ∀ m, m ≤ (numberL m cs).2 ∧ numbers (numberL m cs).1 = List.range' m ((numberL m cs).2 - m) := by
      intro cs
      induction cs with
      | nil => intro _ m; simp [numberL, numbers]
      | cons c cs ih2 =>
        intro h m
        obtain ⟨a1, a2⟩ := h c (by simp) m
        obtain ⟨b1, b2⟩ := ih2 (fun c hc => h c (by simp [hc])) (number m c).2
        rw [numberL]
        refine ⟨by dsimp only; omega, ?_⟩
        rw [numbers_cons, a2, b2]
        have e : (numberL (number m c).2 cs).2 - m = ((number m c).2 - m) + ((numberL (number m c).2 cs).2 - (number m c).2) := by omega
        dsimp only
        rw [e, ← List.range'_append_1]
        congr 2
        omega
    obtain ⟨k1, k2⟩ := key cs ih (m + 1)
    rw [number]
    dsimp only
    refine ⟨by omega, ?_⟩
    have e : (numberL (m + 1) cs).2 - m = ((numberL (m + 1) cs).2 - (m + 1)) + 1 := by omega
    rw [e, List.range'_succ, ← k2]
    simp [numbers, label?]

theorem numberL_range (cs : List (PTree L)) (m : Nat) : m ≤ (numberL m cs).2 ∧ numbers (numberL m cs).1 = List.range' m ((numberL m cs).2 - m) := by
  induction cs generalizing m with
  | nil => simp [numberL, numbers]
  | cons c cs ih2 =>
    obtain ⟨a1, a2⟩ := number_range c m
    obtain ⟨b1, b2⟩ := ih2 (number m c).2
    rw [numberL]
    refine ⟨by dsimp only; omega, ?_⟩
    rw [numbers_cons, a2, b2]
    have e : (numberL (number m c).2 cs).2 - m = ((number m c).2 - m) + ((numberL (number m c).2 cs).2 - (number m c).2) := by omega
    dsimp only
    rw [e, ← List.range'_append_1]
    congr 2
    omega

/-! ### Addresses -/

theorem digits_inj {a b : Nat} (h : Nat.toDigits 10 a = Nat.toDigits 10 b) : a = b := by
  have := congrArg MergeDisc.int h
  rwa [MergeDisc.int_digits, MergeDisc.int_digits] at this

theorem not_digit {c : Char} (h : c.isDigit = false) (n : Nat) : c ∉ Nat.toDigits 10 n := fun hc => by
  have := Nat.isDigit_of_mem_toDigits (by decide) (by decide) hc
  rw [h] at this
  cases this

theorem append_cons_inj {c : Char} {a b u v : Str} (ha : c ∉ a) (hb : c ∉ b) (h : a ++ c :: u = b ++ c :: v) : a = b ∧ u = v := by
  induction a generalizing b with
  | nil =>
    cases b with
    | nil => simpa using h
    | cons y b => simp at h; simp [h.1] at hb
  | cons x a ih =>
    cases b with
    | nil => simp at h; simp [h.1] at ha
    | cons y b =>
      simp only [List.cons_append, List.cons.injEq] at h
      obtain ⟨e1, e2⟩ := ih (by simp at ha; exact ha.2) (by simp at hb; exact hb.2) h.2
      exact ⟨by rw [h.1, e1], e2⟩

theorem address_inj {n n' : Nat} {x x' : Str × Nat} (h : '@' ∉ x.1) (h' : '@' ∉ x'.1) (e : address n x = address n' x') : n = n' ∧ x = x' := by
  obtain ⟨e1, e2⟩ := append_cons_inj h h' e
  obtain ⟨e3, e4⟩ := append_cons_inj (not_digit (by decide) n) (not_digit (by decide) n') e2
  exact ⟨digits_inj e3, Prod.ext e1 (digits_inj e4)⟩

theorem at_address (n : Nat) (x : Str × Nat) : '@' ∈ address n x := by simp [address]

theorem isAddress_address {n : Nat} {x : Str × Nat} {l : Str} (h : '@' ∉ x.1) : Spec.isAddress (address n x) l = decide (l = x.1) := by
  rw [Spec.isAddress, decide_eq_decide]
  constructor
  · intro e
    have e1 : address n x = l ++ '@' :: (address n x).drop (l.length + 1) := by
      conv_lhs => rw [← List.take_append_drop (l.length + 1) (address n x), e]
      simp
    by_cases hl : '@' ∈ l
    · obtain ⟨a, b, rfl, hab⟩ := List.eq_append_cons_of_mem hl
      exfalso
      rw [List.append_assoc, List.cons_append] at e1
      obtain ⟨_, e2⟩ := append_cons_inj h hab e1
      have : '@' ∈ Nat.toDigits 10 n ++ '-' :: Nat.toDigits 10 x.2 := by rw [e2]; simp
      simp [not_digit (c := '@') (by decide) n, not_digit (c := '@') (by decide) x.2] at this
    · exact (append_cons_inj h hl e1).1.symm
  · rintro rfl
    simp [address, List.take_append]

theorem isAddress_plain {z l : Str} (h : '@' ∉ z) : Spec.isAddress z l = false := by
  rw [Spec.isAddress, decide_eq_false_iff_not]
  intro e
  have : '@' ∈ z.take (l.length + 1) := by rw [e]; simp
  exact h (List.mem_of_mem_take this)

/-! ### Trees with both labels -/

/-- A tree with the plain and the decorated label of each node. -/
abbrev Pair := PTree (Str × Str)

/-- The tree with both labels. -/
def pairs (n : Nat) : PTree Str → Pair
  | .leaf i => .leaf i
  | .node l cs => .node (l, l) (mapLabelL (fun x => (x.1, address n x)) (numberL 0 cs).1)

theorem pairs_fst (n : Nat) (t : PTree Str) : mapLabel Prod.fst (pairs n t) = t := by
  cases t with
  | leaf i => simp [pairs]
  | node l cs =>
    simp only [pairs, mapLabel_node, mapLabelL_eq, List.map_map]
    congr 1
    refine Eq.trans (List.map_congr_left (fun c _ => ?_)) (numberL_forget cs 0)
    exact mapLabel_comp _ _ _

theorem pairs_snd (n : Nat) (t : PTree Str) : mapLabel Prod.snd (pairs n t) = decorate n t := by
  cases t with
  | leaf i => simp [pairs, decorate]
  | node l cs =>
    simp only [pairs, decorate, mapLabel_node, mapLabelL_eq, List.map_map]
    congr 1
    exact List.map_congr_left (fun c _ => mapLabel_comp _ _ _)

/-- The labels of the production of a node, in both forms. -/
def pairList : Pair → List (Str × Str)
  | .leaf _ => []
  | .node l (.leaf _ :: _) => [l, (epsilon, epsilon)]
  | .node l cs => l :: cs.filterMap label?

theorem tagged_mapLabel {M : Type} (f : M → Str) (cs : List (PTree M)) (g : M → Str) : ∀ n, tagged n (cs.map (mapLabel f)) = tagged n (cs.map (mapLabel g)) := by
  induction cs with
  | nil => intro n; rfl
  | cons c cs ih => intro n; simp only [List.map_cons, tagged, leaves_mapLabel, ih]

theorem yieldFunction_mapLabel (cs : List Pair) : yieldFunction (cs.map (mapLabel Prod.snd)) = yieldFunction (cs.map (mapLabel Prod.fst)) := by
  rw [yieldFunction, yieldFunction, tagged_mapLabel Prod.snd cs Prod.fst]

theorem prodOf_pair {sent : List (Option Str)} {D : Pair} (h : Prods.Spec.Input (mapLabel Prod.fst D) sent) {s : Pair} (hs : s ∈ subtrees D) :
    ∃ yf, prodOf sent false (mapLabel Prod.fst s) = some (some ⟨(pairList s).map Prod.fst, yf⟩) ∧
      prodOf sent false (mapLabel Prod.snd s) = some (some ⟨(pairList s).map Prod.snd, yf⟩) := by
  have hs' : mapLabel Prod.fst s ∈ subtrees (mapLabel Prod.fst D) := by rw [subtrees_mapLabel]; exact List.mem_map_of_mem hs
  obtain ⟨r, hr, _⟩ := prodOf_spec false h hs'
  obtain ⟨l, cs, rfl⟩ := mem_subtrees_self_isNode hs
  have hw := wf_subtree h.wf hs'
  cases cs with
  | nil => simp [mapLabelL, prodOf] at hr
  | cons c cs =>
    cases c with
    | leaf i =>
      have hcs : cs = [] := by
        rcases hw.pre (l.1) (mapLabelL Prod.fst (.leaf i :: cs)) (by simp) with hn | ⟨j, hj⟩
        · have := hn (.leaf i) (by simp [mapLabelL_eq])
          simp [isNode] at this
        · exact (by simpa [mapLabelL_eq] using hj : i = j ∧ cs = []).2
      subst hcs
      obtain ⟨w, hw⟩ := h.range i ((subtree_leaves hs').subset (by simp [mapLabelL_eq]))
      refine ⟨.word (Escape.escape (some w)), ?_, ?_⟩ <;> simp [mapLabelL_eq, prodOf, hw, pairList]
    | node m ds =>
      have e : ∀ f : Str × Str → Str, mapLabel f (.node l (.node m ds :: cs)) = .node (f l) (.node (f m) (mapLabelL f ds) :: cs.map (mapLabel f)) := by
        intro f; simp [mapLabelL_eq]
      rw [e] at hr ⊢
      rw [e]
      have hall : ∀ f : Str × Str → Str, (cs.map (mapLabel f)).all isNode = cs.all isNode := by
        intro f; simp [List.all_map, Function.comp_def, isNode_mapLabel]
      rw [prodOf, hall] at hr ⊢
      rw [prodOf, hall]
      have hy : ∀ f : Str × Str → Str, (PTree.node (f m) (mapLabelL f ds) :: cs.map (mapLabel f)) = (PTree.node m ds :: cs).map (mapLabel f) := by
        intro f; simp
      have hl : ∀ f : Str × Str → Str, ((PTree.node m ds :: cs).map (mapLabel f)).filterMap label? = ((PTree.node m ds :: cs).filterMap label?).map f := by
        intro f
        rw [List.filterMap_map, List.map_filterMap]
        congr 1
        funext c
        exact label_mapLabel f c
      rw [hy] at hr ⊢
      rw [hy, yieldFunction_mapLabel]
      cases hc : cs.all isNode with
      | false => simp [hc] at hr
      | true =>
        simp only [hc, if_true] at hr ⊢
        cases hyf : yieldFunction ((PTree.node m ds :: cs).map (mapLabel Prod.fst)) with
        | none => rw [hyf] at hr; simp at hr
        | some yf =>
          refine ⟨.spans yf, ?_, ?_⟩
          · rw [Option.map_some, hl, pairList]; · rfl
            simp
          · rw [Option.map_some, hl, pairList]; · rfl
            simp

/-- The word or yield function of a node. -/
def yfD (sent : List (Option Str)) (s : Pair) : YF := (Spec.yfOf sent (mapLabel Prod.fst s)).getD (.spans [])

theorem prodLoop_map {α : Type} {sent : List (Option Str)} (f : α → PTree Str) (g : α → Rule) (xs : List α)
    (h : ∀ x ∈ xs, prodOf sent false (f x) = some (some (g x))) : prodLoop sent false (xs.map f) = some (xs.map g) := by
  induction xs with
  | nil => rfl
  | cons x xs ih =>
    rw [List.map_cons, prodLoop, h x (by simp), ih (fun y hy => h y (by simp [hy]))]
    rfl

theorem productions_pair {sent : List (Option Str)} {D : Pair} (h : Prods.Spec.Input (mapLabel Prod.fst D) sent) :
    lcfrsproductions (mapLabel Prod.fst D) sent false = some ((subtrees D).map (fun s => ⟨(pairList s).map Prod.fst, yfD sent s⟩)) ∧
    lcfrsproductions (mapLabel Prod.snd D) sent false = some ((subtrees D).map (fun s => ⟨(pairList s).map Prod.snd, yfD sent s⟩)) := by
  obtain ⟨rules, hr, _⟩ := C20_productions _ sent false h
  have h1 : ¬ ¬ (mapLabel Prod.fst D).leaves.Nodup ∧ sent ≠ [] ∧ ¬ ¬ ((mapLabel Prod.fst D).leaves.all (· < sent.length)) = true := by
    rw [lcfrsproductions] at hr
    split at hr
    · cases hr
    · split at hr
      · cases hr
      · split at hr
        · cases hr
        · rename_i a b c; exact ⟨a, b, c⟩
  have h2 : ∀ s ∈ subtrees D, prodOf sent false (mapLabel Prod.fst s) = some (some ⟨(pairList s).map Prod.fst, yfD sent s⟩) ∧
      prodOf sent false (mapLabel Prod.snd s) = some (some ⟨(pairList s).map Prod.snd, yfD sent s⟩) := by
    intro s hs
    obtain ⟨yf, a, b⟩ := prodOf_pair h hs
    have : yfD sent s = yf := by rw [yfD, Spec.yfOf, a]; rfl
    rw [this]; exact ⟨a, b⟩
  refine ⟨?_, ?_⟩
  · rw [lcfrsproductions, if_neg h1.1, if_neg h1.2.1, if_neg h1.2.2, subtrees_mapLabel]
    exact prodLoop_map _ _ _ (fun s hs => (h2 s hs).1)
  · rw [lcfrsproductions, leaves_mapLabel, ← leaves_mapLabel Prod.fst D, if_neg h1.1, if_neg h1.2.1, if_neg h1.2.2, subtrees_mapLabel]
    exact prodLoop_map _ _ _ (fun s hs => (h2 s hs).2)

/-- The rules that one node contributes. -/
def tokens (sent : List (Option Str)) (s : Pair) : List Rule := (Cartpi.cartpi ((pairList s).map options)).map (fun c => ⟨c, yfD sent s⟩)

theorem addProds_pair (sent : List (Option Str)) (ss : List Pair) : ∀ d : Dict Rule ℚ,
    addProds d ((ss.map (fun s => (⟨(pairList s).map Prod.fst, yfD sent s⟩ : Rule))).zip (ss.map (fun s => ⟨(pairList s).map Prod.snd, yfD sent s⟩))) =
    some (addAll d ((ss.flatMap (tokens sent)).map (fun r => (r, 1)))) := by
  induction ss with
  | nil => intro d; rfl
  | cons s ss ih =>
    intro d
    rw [List.map_cons, List.map_cons, List.zip_cons_cons, addProds, if_pos rfl, ih, List.flatMap_cons, List.map_append, addAll_append]
    congr 3
    rw [tokens, List.map_map]
    have : (((pairList s).map Prod.fst).zip ((pairList s).map Prod.snd)) = pairList s := by
      rw [List.zip_map']; simp
    rw [this]
    rfl

/-! ### `nodefreq` -/

mutual
/-- The number of fragments, from the shape of the tree. -/
def freq : PTree L → Nat
  | .leaf _ => 0
  | .node _ cs => freqL cs
/-- The same for the children; a word contributes 1. -/
def freqL : List (PTree L) → Nat
  | [] => 1
  | .leaf _ :: cs => freqL cs
  | .node l ds :: cs => (freq (.node l ds) + 1) * freqL cs
end

mutual
/-- The updates of `fd`, in order. -/
def ops : Pair → List (Str × Str × Nat)
  | .leaf _ => []
  | .node l cs => opsL cs ++ [(l.1, l.2, freqL cs)]
/-- The same for the children. -/
def opsL : List Pair → List (Str × Str × Nat)
  | [] => []
  | c :: cs => ops c ++ opsL cs
end

/-- One update of `fd`. -/
def step (fd : Dict Str ℚ) (x : Str × Str × Nat) : Dict Str ℚ := if x.2.1 ≠ x.1 then set (incr fd x.1 (x.2.2 : ℚ)) x.2.1 (x.2.2 : ℚ) else incr fd x.1 (x.2.2 : ℚ)

/-- The updates of `ntfd`. -/
def ntOps (D : List Pair) : List (Str × ℚ) := (subtreesL D).flatMap (fun s => (s.label?.toList).flatMap (fun l => [(l.1, 1), (l.2, 1)]))

/-- Every constituent has either constituents or one word as children. -/
def Shape (D : PTree L) : Prop := ∀ l cs, .node l cs ∈ subtrees D → cs ≠ [] ∧ ((∀ c ∈ cs, c.isNode) ∨ ∃ i, cs = [.leaf i])

theorem Shape.child {l : L} {cs : List (PTree L)} (h : Shape (.node l cs)) {c : PTree L} (hc : c ∈ cs) : Shape c := by
  intro l' cs' h'
  exact h l' cs' (by rw [subtrees_node]; exact List.mem_cons_of_mem _ (mem_subtreesL.2 ⟨c, hc, h'⟩))

theorem nodefreq_pair (D : Pair) : D.isNode → Shape D → ∀ fd ntfd,
    nodefreq (mapLabel Prod.fst D) (mapLabel Prod.snd D) (fd, ntfd) = some (freq D, (ops D).foldl step fd, addAll ntfd (ntOps [D])) := by
  induction D using PTree.ind with
  | hleaf i => intro h; simp [isNode] at h
  | hnode l cs ih =>
    intro _ hs fd ntfd
    have key : ∀ (cs : List Pair), (∀ c ∈ cs, c.isNode) → (∀ c ∈ cs, ∀ fd ntfd,
        nodefreq (mapLabel Prod.fst c) (mapLabel Prod.snd c) (fd, ntfd) = some (freq c, (ops c).foldl step fd, addAll ntfd (ntOps [c]))) → ∀ fd ntfd,
        nodefreqL (cs.map (mapLabel Prod.fst)) (cs.map (mapLabel Prod.snd)) (fd, ntfd) = some (freqL cs, (opsL cs).foldl step fd, addAll ntfd (ntOps cs)) := by
      intro cs
      induction cs with
      | nil => intro _ _ fd ntfd; simp [nodefreqL, freqL, opsL, ntOps, addAll]
      | cons c cs ih2 =>
        intro hn h fd ntfd
        have hc := hn c (by simp)
        rw [List.map_cons, List.map_cons, nodefreqL, h c (by simp)]
        simp only [Option.bind_some]
        rw [ih2 (fun c hc => hn c (by simp [hc])) (fun c hc => h c (by simp [hc]))]
        cases c with
        | leaf i => simp [isNode] at hc
        | node m ds =>
          simp only [Option.map_some, freqL, opsL, List.foldl_append, ← addAll_append]
          simp [ntOps]
    have hnt : addAll ntfd (ntOps [.node l cs]) = addAll (incr (incr ntfd l.1 1) l.2 1) (ntOps cs) := by
      simp [ntOps, addAll, label?]
    obtain ⟨hne, hsh⟩ := hs l cs (by simp)
    rw [mapLabel_node, mapLabel_node, hnt, mapLabelL_eq, mapLabelL_eq]
    rcases hsh with hn | ⟨i, rfl⟩
    · have e := key cs hn (fun c hc => ih c hc (hn c hc) (hs.child hc)) fd (incr (incr ntfd l.1 1) l.2 1)
      cases cs with
      | nil => exact absurd rfl hne
      | cons c cs =>
        cases c with
        | leaf i => have := hn (.leaf i) (by simp); simp [isNode] at this
        | node m ds =>
          simp only [List.map_cons, mapLabel_node] at e ⊢
          rw [nodefreq, e]
          simp only [Option.map_some, freq, ops, List.foldl_append, List.foldl_cons, List.foldl_nil, step]
    · simp [nodefreq, freq, freqL, ops, opsL, ntOps, addAll, step]

/-- What the updates do: plain labels are added up, the counts of addresses are set. -/
theorem foldl_step_plain {xs : List (Str × Str × Nat)} {z : Str} (hz : ∀ x ∈ xs, x.2.1 = z → x.1 = z) (fd : Dict Str ℚ) :
    cnt (xs.foldl step fd) z = cnt fd z + ((xs.filter (fun x => decide (x.1 = z))).map (fun x => (x.2.2 : ℚ))).sum := by
  induction xs generalizing fd with
  | nil => simp
  | cons x xs ih =>
    rw [List.foldl_cons, ih (fun y hy => hz y (by simp [hy]))]
    have h1 : cnt (step fd x) z = cnt fd z + if x.1 = z then (x.2.2 : ℚ) else 0 := by
      rw [step]
      by_cases hx : x.2.1 = x.1
      · rw [if_neg (by simpa using hx), cnt_incr]
        by_cases e : z = x.1
        · simp [e]
        · simp [e, Ne.symm e]
      · rw [if_pos hx]
        have e : z ≠ x.2.1 := by
          rintro rfl
          exact hx (hz x (by simp) rfl).symm
        rw [cnt, get?_set, if_neg (Ne.symm e), ← cnt, cnt_incr]
        by_cases e : z = x.1
        · simp [e]
        · simp [e, Ne.symm e]
    rw [h1]
    by_cases e : x.1 = z <;> simp [e, add_assoc]

theorem foldl_step_other {xs : List (Str × Str × Nat)} {z : Str} (hz : ∀ x ∈ xs, x.1 ≠ z ∧ x.2.1 ≠ z) (fd : Dict Str ℚ) :
    cnt (xs.foldl step fd) z = cnt fd z := by
  rw [foldl_step_plain (fun x hx e => absurd e (hz x hx).2)]
  rw [List.filter_eq_nil_iff.2 (fun x hx => by simpa using (hz x hx).1)]
  simp

theorem foldl_step_address {xs : List (Str × Str × Nat)} {z : Str} {n : Nat} (h1 : ∀ x ∈ xs, x.1 ≠ z) (h2 : ∀ x ∈ xs, x.2.1 = z → x.2.2 = n) (h3 : ∃ x ∈ xs, x.2.1 = z)
    (fd : Dict Str ℚ) : cnt (xs.foldl step fd) z = n := by
  induction xs generalizing fd with
  | nil => simp at h3
  | cons x xs ih =>
    rw [List.foldl_cons]
    by_cases h : ∃ y ∈ xs, y.2.1 = z
    · exact ih (fun y hy => h1 y (by simp [hy])) (fun y hy => h2 y (by simp [hy])) h _
    · rw [foldl_step_other (fun y hy => ⟨h1 y (by simp [hy]), fun e => h ⟨y, hy, e⟩⟩)]
      obtain ⟨y, hy, e⟩ := h3
      rw [List.mem_cons] at hy
      rcases hy with rfl | hy
      · rw [step, if_pos (by rw [e]; exact Ne.symm (h1 y (by simp))), cnt, get?_set, if_pos e, h2 y (by simp) e]; rfl
      · exact absurd ⟨y, hy, e⟩ h

theorem ops_perm (D : Pair) : (ops D).Perm ((subtrees D).flatMap (fun s => s.label?.toList.map (fun l => (l.1, l.2, freq s)))) := by
  induction D using PTree.ind with
  | hleaf i => simp [ops]
  | hnode l cs ih =>
    have key : ∀ cs : List Pair, (∀ c ∈ cs, (ops c).Perm ((subtrees c).flatMap (fun s => s.label?.toList.map (fun l => (l.1, l.2, freq s))))) →
        (opsL cs).Perm ((subtreesL cs).flatMap (fun s => s.label?.toList.map (fun l => (l.1, l.2, freq s)))) := by
      intro cs
      induction cs with
      | nil => intro _; simp [opsL]
      | cons c cs ih2 =>
        intro h
        rw [opsL, subtreesL_cons, List.flatMap_append]
        exact (h c (by simp)).append (ih2 (fun c hc => h c (by simp [hc])))
    rw [ops, subtrees_node, List.flatMap_cons]
    refine List.perm_append_comm.trans ?_
    simp only [label?, Option.toList_some, List.map_cons, List.map_nil, freq]
    exact (key cs ih).cons _

/-! ### Fragments of a tree -/

/-- Every constituent has a production. -/
def HasYF (sent : List (Option Str)) (t : PTree Str) : Prop := ∀ s ∈ subtrees t, ∃ yf, Spec.yfOf sent s = some yf

theorem HasYF.child {sent : List (Option Str)} {l : Str} {cs : List (PTree Str)} (h : HasYF sent (.node l cs)) {c : PTree Str} (hc : c ∈ cs) : HasYF sent c :=
  fun s hs => h s (by rw [subtrees_node]; exact List.mem_cons_of_mem _ (mem_subtreesL.2 ⟨c, hc, hs⟩))

theorem occurs_label {sent : List (Option Str)} {f : Frag} {t : PTree Str} (h : Spec.occurs sent f t = true) : t.label? = some f.label := by
  cases f with
  | frontier l => simpa [Spec.occurs, Frag.label] using h
  | inner l yf fs => simp [Spec.occurs] at h; exact h.1.1

theorem fragments_spec (sent : List (Option Str)) (t : PTree Str) : Shape t → HasYF sent t →
    (Spec.fragments sent t).length = freq t ∧ (Spec.fragments sent t).Nodup ∧
    ∀ f, f ∈ Spec.fragments sent t ↔ f.isInner = true ∧ Spec.occurs sent f t = true := by
  induction t using PTree.ind with
  | hleaf i =>
    intro _ _
    refine ⟨by simp [Spec.fragments, freq], by simp [Spec.fragments], ?_⟩
    intro f
    cases f <;> simp [Spec.fragments, Frag.isInner, Spec.occurs, label?]
  | hnode l cs ih =>
    intro hs hy
    obtain ⟨yf, hyf⟩ := hy _ (by rw [subtrees_node]; exact List.mem_cons_self ..)
    obtain ⟨hne, hsh⟩ := hs l cs (by simp)
    have key : ∀ cs : List (PTree Str), (∀ c ∈ cs, c.isNode) → (∀ c ∈ cs, (Spec.fragments sent c).length = freq c ∧ (Spec.fragments sent c).Nodup ∧
        ∀ f, f ∈ Spec.fragments sent c ↔ f.isInner = true ∧ Spec.occurs sent f c = true) →
        (Spec.choices sent cs).length = freqL cs ∧ (Spec.choices sent cs).Nodup ∧ ∀ fs, fs ∈ Spec.choices sent cs ↔ Spec.occursL sent fs cs = true := by
      intro cs
      induction cs with
      | nil =>
        intro _ _
        refine ⟨by simp [Spec.choices, freqL], by simp [Spec.choices], ?_⟩
        intro fs
        cases fs <;> simp [Spec.choices, Spec.occursL]
      | cons c cs ih2 =>
        intro hn h
        obtain ⟨a1, a2, a3⟩ := h c (by simp)
        obtain ⟨b1, b2, b3⟩ := ih2 (fun c hc => hn c (by simp [hc])) (fun c hc => h c (by simp [hc]))
        have hc := hn c (by simp)
        cases c with
        | leaf i => simp [isNode] at hc
        | node m ds =>
          rw [Spec.choices]
          refine ⟨?_, ?_, ?_⟩
          · rw [List.length_flatMap, freqL]
            simp only [List.length_map, List.map_const', List.sum_replicate, List.length_cons, a1, b1]
            rfl
          · rw [List.nodup_flatMap]
            refine ⟨fun f _ => b2.map (fun _ _ e => (List.cons.inj e).2), ?_⟩
            have hnd : (Frag.frontier m :: Spec.fragments sent (.node m ds)).Nodup := by
              refine List.nodup_cons.2 ⟨fun e => ?_, a2⟩
              have := ((a3 _).1 e).1
              simp [Frag.isInner] at this
            refine hnd.imp (fun {f g} hfg => ?_)
            intro x hx hx'
            obtain ⟨_, _, rfl⟩ := List.mem_map.1 hx
            obtain ⟨_, _, e⟩ := List.mem_map.1 hx'
            exact hfg (List.cons.inj e).1.symm
          · intro fs
            cases fs with
            | nil => simp [Spec.occursL, isNode]
            | cons f fs =>
              rw [Spec.occursL, List.mem_flatMap, Bool.and_eq_true, ← b3]
              constructor
              · rintro ⟨g, hg, hm⟩
                obtain ⟨gs, hgs, e⟩ := List.mem_map.1 hm
                obtain ⟨rfl, rfl⟩ := List.cons.inj e
                refine ⟨?_, hgs⟩
                rw [List.mem_cons] at hg
                rcases hg with rfl | hg
                · simp [Spec.occurs, label?]
                · exact ((a3 _).1 hg).2
              · rintro ⟨h1, h2⟩
                refine ⟨f, ?_, List.mem_map.2 ⟨fs, h2, rfl⟩⟩
                rw [List.mem_cons]
                cases f with
                | frontier m' =>
                  left
                  have := occurs_label h1
                  simp only [label?, Option.some.injEq, Frag.label] at this
                  rw [this]
                | inner m' y gs => exact Or.inr ((a3 _).2 ⟨rfl, h1⟩)
    have key2 : (Spec.choices sent cs).length = freqL cs ∧ (Spec.choices sent cs).Nodup ∧ ∀ fs, fs ∈ Spec.choices sent cs ↔ Spec.occursL sent fs cs = true := by
      rcases hsh with hn | ⟨i, rfl⟩
      · exact key cs hn (fun c hc => ih c hc (hs.child hc) (hy.child hc))
      · refine ⟨by simp [Spec.choices, freqL], by simp [Spec.choices], ?_⟩
        intro fs
        cases fs with
        | nil => simp [Spec.choices, Spec.occursL, isNode]
        | cons f fs => cases f <;> simp [Spec.choices, Spec.occursL, Spec.occurs, label?]
    obtain ⟨k1, k2, k3⟩ := key2
    rw [Spec.fragments, hyf]
    refine ⟨by simp [freq, k1], k2.map (fun _ _ e => (Frag.inner.inj e).2.2), ?_⟩
    intro f
    rw [List.mem_map]
    cases f with
    | frontier m => simp [Frag.isInner]
    | inner m y fs =>
      simp only [Frag.inner.injEq, Frag.isInner, true_and, Spec.occurs, hyf, label?, children, Bool.and_eq_true, decide_eq_true_eq, Option.some.injEq]
      constructor
      · rintro ⟨gs, h1, rfl, rfl, rfl⟩
        exact ⟨⟨rfl, rfl⟩, (k3 _).1 h1⟩
      · rintro ⟨⟨rfl, rfl⟩, h⟩
        exact ⟨fs, (k3 _).2 h, rfl, rfl, rfl⟩

theorem freq_mapLabel {M : Type} (f : L → M) (t : PTree L) : freq (mapLabel f t) = freq t := by
  induction t using PTree.ind with
  | hleaf i => simp [freq]
  | hnode l cs ih =>
    rw [mapLabel_node, freq, freq, mapLabelL_eq]
    induction cs with
    | nil => rfl
    | cons c cs ih2 =>
      have h2 := ih2 (fun c hc => ih c (by simp [hc]))
      cases c with
      | leaf i => simpa [freqL] using h2
      | node m ds =>
        have h1 := ih (.node m ds) (by simp)
        rw [mapLabel_node] at h1
        rw [List.map_cons, mapLabel_node, freqL, freqL, h1, h2]

theorem shape_of_wf {t : PTree Str} (h : SplitDisc.Spec.WF t) : Shape t := fun l cs hm =>
  ⟨fun e => by subst e; exact h.noEmpty l hm, h.pre l cs hm⟩

theorem hasYF_of_input {sent : List (Option Str)} {t : PTree Str} (h : Prods.Spec.Input t sent) : HasYF sent t := by
  intro s hs
  obtain ⟨r, hr, _⟩ := prodOf_spec false h hs
  exact ⟨r.yf, by rw [Spec.yfOf, hr]; rfl⟩

theorem shape_mapLabel {M : Type} (f : L → M) {t : PTree L} (h : Shape (mapLabel f t)) : Shape t := by
  intro l cs hm
  have := h (f l) (cs.map (mapLabel f)) (by
    rw [subtrees_mapLabel]
    exact List.mem_map.2 ⟨_, hm, by rw [mapLabel_node, mapLabelL_eq]⟩)
  obtain ⟨h1, h2⟩ := this
  refine ⟨by simpa using h1, ?_⟩
  rcases h2 with h2 | ⟨i, h2⟩
  · left
    intro c hc
    rw [← isNode_mapLabel f]
    exact h2 _ (List.mem_map_of_mem hc)
  · right
    refine ⟨i, ?_⟩
    cases cs with
    | nil => simp at h2
    | cons c cs =>
      cases c with
      | leaf j => simp at h2; simp [h2]
      | node m ds => simp at h2

/-! ### Sums over the rules -/

/-- Induction on fragments. -/
theorem Frag.ind {P : Frag → Prop} (h1 : ∀ l, P (.frontier l)) (h2 : ∀ l yf fs, (∀ f ∈ fs, P f) → P (.inner l yf fs)) (f : Frag) : P f :=
  Frag.rec (motive_1 := P) (motive_2 := fun fs => ∀ f ∈ fs, P f) h1 h2 (by simp)
    (fun f fs hf hfs => by
      intro x hx
      rcases List.mem_cons.1 hx with h | h
      · rw [h]; exact hf
      · exact hfs x h) f

theorem sum_incr {K : Type} [DecidableEq K] (h : K → ℚ) (d : Dict K ℚ) (k : K) (v : ℚ) :
    ((incr d k v).map (fun x => x.2 * h x.1)).sum = (d.map (fun x => x.2 * h x.1)).sum + v * h k := by
  have key : ∀ d : Dict K ℚ, ((set d k (cnt d k + v)).map (fun x => x.2 * h x.1)).sum = (d.map (fun x => x.2 * h x.1)).sum + v * h k := by
    intro d
    induction d with
    | nil => simp [Dict.set, cnt, get?]
    | cons x d ih =>
      obtain ⟨j, w⟩ := x
      by_cases hj : j = k
      · subst hj
        simp [Dict.set, cnt, get?]; ring
      · have e : cnt ((j, w) :: d) k = cnt d k := by simp [cnt, get?, hj]
        rw [e, Dict.set, if_neg hj, List.map_cons, List.sum_cons, ih, List.map_cons, List.sum_cons, add_assoc]
  exact key d

theorem sum_addAll {K : Type} [DecidableEq K] (h : K → ℚ) (ts : List K) : ∀ d : Dict K ℚ,
    ((addAll d (ts.map (fun r => (r, 1)))).map (fun x => x.2 * h x.1)).sum = (d.map (fun x => x.2 * h x.1)).sum + (ts.map h).sum := by
  induction ts with
  | nil => intro d; simp [addAll]
  | cons t ts ih =>
    intro d
    rw [List.map_cons, addAll, ih, sum_incr]
    simp; ring

theorem addressed_cons (fd : Dict Str ℚ) (z : Str) (zs : List Str) : addressed fd (z :: zs) = (if at? z then cnt fd z else 1) * addressed fd zs := by
  cases h : at? z <;> simp [addressed, h]

/-- A sum over all choices, with a factor for the first. -/
theorem sum_cartpi_cons {A : Type} (xs : List A) (rest : List (List A)) (u : A → ℚ) (v : List A → ℚ) (F : List A → ℚ) (hF : ∀ a as, F (a :: as) = u a * v as) :
    ((Cartpi.cartpi (xs :: rest)).map F).sum = (xs.map u).sum * ((Cartpi.cartpi rest).map v).sum := by
  rw [Cartpi.cartpi_cons]
  induction xs with
  | nil => simp
  | cons x xs ih =>
    rw [List.flatMap_cons, List.map_append, List.sum_append, ih, List.map_map, List.map_cons, List.sum_cons, add_mul]
    congr 1
    rw [← List.sum_map_mul_left]
    congr 1
    exact List.map_congr_left (fun as _ => hF x as)

/-- The facts about the nodes of a decorated treebank that are used below. -/
structure Ctx0 (nodes : List (List (Option Str) × Pair)) (fd : Dict Str ℚ) : Prop where
  label : ∀ x ∈ nodes, ∃ l cs, x.2 = .node l cs ∧ '@' ∉ l.1 ∧ (l.2 = l.1 ∨ ∃ n m, l.2 = address n (l.1, m))
  shape : ∀ x ∈ nodes, ∀ l cs, x.2 = .node l cs → cs ≠ [] ∧ ((∀ c ∈ cs, c.isNode) ∨ ∃ i, cs = [.leaf i])
  child : ∀ x ∈ nodes, ∀ c ∈ x.2.children, ∀ l, c.label? = some l → (x.1, c) ∈ nodes ∧ ∃ n m, l.2 = address n (l.1, m)
  noEps : ∀ x ∈ nodes, ∀ l, x.2.label? = some l → l.1 ≠ epsilon
  fd : ∀ x ∈ nodes, ∀ l, x.2.label? = some l → '@' ∈ l.2 → cnt fd l.2 = freq x.2

/-- Moreover no two nodes have the same address. -/
structure Ctx (nodes : List (List (Option Str) × Pair)) (fd : Dict Str ℚ) : Prop extends Ctx0 nodes fd where
  uniq : ∀ x ∈ nodes, ∀ l, x.2.label? = some l → '@' ∈ l.2 → nodes.filter (fun y => decide (y.2.label?.map Prod.snd = some l.2)) = [x]

/-- The right-hand side of the rules of a node, in both forms. -/
def rest (s : Pair) : List (Str × Str) := (pairList s).tail

theorem rest_node {l m : Str × Str} {ds cs : List Pair} : rest (.node l (.node m ds :: cs)) = (PTree.node m ds :: cs).filterMap label? := by simp [rest, pairList]

theorem pairList_eq (l : Str × Str) (cs : List Pair) : pairList (.node l cs) = l :: rest (.node l cs) := by
  cases cs with
  | nil => rfl
  | cons c cs => cases c <;> rfl

/-- A child of a node in the treebank. -/
structure Child (fd : Dict Str ℚ) (c : Pair) (l : Str × Str) : Prop where
  label : c.label? = some l
  plain : '@' ∉ l.1
  addr : ∃ n m, l.2 = address n (l.1, m)
  eps : l.1 ≠ epsilon
  fd : cnt fd l.2 = freq c

theorem Ctx0.children {nodes : List (List (Option Str) × Pair)} {fd : Dict Str ℚ} (C : Ctx0 nodes fd) {x : List (Option Str) × Pair} (hx : x ∈ nodes)
    {c : Pair} (hc : c ∈ x.2.children) (hn : c.isNode) : ∃ l, Child fd c l := by
  cases c with
  | leaf i => simp [isNode] at hn
  | node l ds =>
    obtain ⟨h1, n, m, h2⟩ := C.child x hx _ hc l rfl
    obtain ⟨l', cs', e, h3, _⟩ := C.label _ h1
    obtain ⟨rfl, rfl⟩ := PTree.node.inj e
    exact ⟨l, rfl, h3, ⟨n, m, h2⟩, C.noEps _ h1 l rfl, C.fd _ h1 l rfl (by rw [h2]; exact at_address _ _)⟩

theorem freqL_pos (cs : List (PTree L)) : 0 < freqL cs := by
  induction cs with
  | nil => simp [freqL]
  | cons c cs ih => cases c <;> simp [freqL, ih]

theorem Child.isNode {fd : Dict Str ℚ} {c : Pair} {l : Str × Str} (h : Child fd c l) : ∃ cs, c = .node l cs := by
  cases c with
  | leaf i => have := h.label; simp [label?] at this
  | node m ds => have := h.label; simp [label?] at this; exact ⟨ds, by rw [this]⟩

theorem Child.freq_pos {fd : Dict Str ℚ} {c : Pair} {l : Str × Str} (h : Child fd c l) : (0 : ℚ) < freq c := by
  obtain ⟨cs, rfl⟩ := h.isNode
  rw [freq]
  exact_mod_cast freqL_pos cs

theorem Child.at2 {fd : Dict Str ℚ} {c : Pair} {l : Str × Str} (h : Child fd c l) : '@' ∈ l.2 := by
  obtain ⟨n, m, e⟩ := h.addr
  rw [e]; exact at_address _ _

theorem Child.options {fd : Dict Str ℚ} {c : Pair} {l : Str × Str} (h : Child fd c l) : options l = [l.1, l.2] := by
  rw [Dop.options, if_neg]
  intro e
  exact h.plain (e ▸ h.at2)

/-- The weights of all rules of a node add up to its number of fragments. -/
theorem sum_freq {fd : Dict Str ℚ} (cs : List Pair) (h : ∀ c ∈ cs, ∃ l, Child fd c l) :
    ((Cartpi.cartpi ((cs.filterMap label?).map options)).map (addressed fd)).sum = freqL cs := by
  induction cs with
  | nil => simp [Cartpi.cartpi_nil, addressed, freqL]
  | cons c cs ih =>
    obtain ⟨l, hl⟩ := h c (by simp)
    rw [List.filterMap_cons_some hl.label, List.map_cons, sum_cartpi_cons _ _ (fun z => if at? z then cnt fd z else 1) (addressed fd) _ (addressed_cons fd),
      ih (fun c hc => h c (by simp [hc])), hl.options]
    have e1 : at? l.1 = false := by simpa [at?] using hl.plain
    have e2 : at? l.2 = true := by simpa [at?] using hl.at2
    simp only [List.map_cons, List.map_nil, List.sum_cons, List.sum_nil, e1, e2, hl.fd, if_true]
    obtain ⟨ds, rfl⟩ := hl.isNode
    rw [freqL]
    push_cast
    ring

/-- The derivations of fragments at the children of a node. -/
theorem sum_inside {fd : Dict Str ℚ} {g : List (Rule × ℚ)} {sent : List (Option Str)} (cs : List Pair) (h : ∀ c ∈ cs, ∃ l, Child fd c l) : ∀ (fs : List Frag),
    (∀ f ∈ fs, f.isInner = true → ∀ c ∈ cs, ∀ l, Child fd c l → f.label = l.1 → Spec.inside g f l.2 = (if Spec.occurs sent f (mapLabel Prod.fst c) then 1 else 0) / freq c) →
    ((Cartpi.cartpi ((cs.filterMap label?).map options)).map (fun zs => addressed fd zs * Spec.insideL g fs zs)).sum =
      if Spec.occursL sent fs (cs.map (mapLabel Prod.fst)) then 1 else 0 := by
  induction cs with
  | nil =>
    intro fs _
    cases fs with
    | nil => simp [Cartpi.cartpi_nil, addressed, Spec.insideL, Spec.occursL]
    | cons f fs => simp [Cartpi.cartpi_nil, Spec.insideL, Spec.occursL]
  | cons c cs ih =>
    intro fs hf
    obtain ⟨l, hl⟩ := h c (by simp)
    cases fs with
    | nil =>
      rw [List.filterMap_cons_some hl.label, List.map_cons, sum_cartpi_cons _ _ (fun _ => 0) (fun _ => 0) _ (by intro a as; simp [Spec.insideL])]
      obtain ⟨ds, rfl⟩ := hl.isNode
      simp [Spec.occursL, isNode]
    | cons f fs =>
      rw [List.filterMap_cons_some hl.label, List.map_cons,
        sum_cartpi_cons _ _ (fun z => (if at? z then cnt fd z else 1) * (if f.isInner = Spec.isAddress z f.label then Spec.inside g f z else 0))
          (fun zs => addressed fd zs * Spec.insideL g fs zs) _ (by intro a as; rw [addressed_cons, Spec.insideL]; ring),
        ih (fun c hc => h c (by simp [hc])) fs (fun f' hf' hi c hc => hf f' (by simp [hf']) hi c (by simp [hc])), hl.options, List.map_cons (l := cs), Spec.occursL]
      have e1 : at? l.1 = false := by simpa [at?] using hl.plain
      have e2 : at? l.2 = true := by simpa [at?] using hl.at2
      have e3 : ∀ k, Spec.isAddress l.1 k = false := fun k => isAddress_plain hl.plain
      have e4 : ∀ k, Spec.isAddress l.2 k = decide (k = l.1) := by
        intro k
        obtain ⟨n, m, e⟩ := hl.addr
        rw [e, isAddress_address (by exact hl.plain)]
      have key : (List.map (fun z => (if at? z then cnt fd z else 1) * (if f.isInner = Spec.isAddress z f.label then Spec.inside g f z else 0)) [l.1, l.2]).sum =
          if Spec.occurs sent f (mapLabel Prod.fst c) then 1 else 0 := by
        simp only [List.map_cons, List.map_nil, List.sum_cons, List.sum_nil, e1, e2, e3, e4, if_true, Bool.false_eq_true, if_false, hl.fd]
        have hlab : (mapLabel Prod.fst c).label? = some l.1 := by rw [label_mapLabel, hl.label]; rfl
        cases f with
        | frontier k =>
          have hp := hl.plain
          have hp2 := hl.at2
          simp only [Frag.isInner, Frag.label, Spec.inside, Spec.occurs, hlab, Option.some.injEq, decide_eq_true_eq, hp, hp2, not_false_eq_true, and_true, not_true_eq_false, and_false, if_false,
            ite_self, mul_zero, add_zero, if_true, one_mul]
        | inner k yf gs =>
          have hpos := hl.freq_pos
          simp only [Frag.isInner, Frag.label, Bool.true_eq_false, if_false, mul_zero, zero_add, add_zero]
          by_cases hk : k = l.1
          · have := hf (.inner k yf gs) (by simp) rfl c (by simp) l hl hk
            rw [this]
            simp only [hk, decide_true, if_true]
            field_simp
          · have hno : Spec.occurs sent (.inner k yf gs) (mapLabel Prod.fst c) = false := by
              rw [Bool.eq_false_iff]
              intro ho
              have := occurs_label ho
              rw [hlab] at this
              exact hk (Option.some.inj this).symm
            simp [hk, hno]
      rw [key]
      by_cases ho : Spec.occurs sent f (mapLabel Prod.fst c) = true <;> simp [ho]

/-- The weight of a rule is a factor for its left-hand side times the product for the addresses on its right-hand side, for each of the nodes it comes from. -/
def Represents (g : List (Rule × ℚ)) (q : Str → ℚ) (nodes : List (List (Option Str) × Pair)) (fd : Dict Str ℚ) : Prop :=
  ∀ h : Rule → ℚ, (g.map (fun x => x.2 * h x.1)).sum =
    ((nodes.flatMap (fun x => tokens x.1 x.2)).map (fun r => q (r.nts.headD []) * addressed fd r.nts.tail * h r)).sum

/-- The left-hand sides of the rules of a node. -/
def heads (s : Pair) : List Str := (s.label?.map options).getD []

theorem sum_options (l : Str × Str) (z : Str) (w : ℚ) : ((options l).map (fun a => if a = z then w else 0)).sum = if z ∈ options l then w else 0 := by
  rw [options]
  split
  · by_cases h : l.1 = z
    · simp [h]
    · simp [h, Ne.symm h]
  · rename_i hne
    by_cases h : l.1 = z
    · have h2 : l.2 ≠ z := fun e => hne (h.trans e.symm)
      simp [h, h2]
    · by_cases h2 : l.2 = z
      · simp [h, h2]
      · simp [h, h2, Ne.symm h, Ne.symm h2]

theorem sum_tokens (sent : List (Option Str)) (l : Str × Str) (cs : List Pair) (q : Str → ℚ) (fd : Dict Str ℚ) (z : Str) (P : YF → Prop) [DecidablePred P] (R : List Str → ℚ) :
    ((tokens sent (.node l cs)).map (fun r => q (r.nts.headD []) * addressed fd r.nts.tail * (if r.nts.head? = some z ∧ P r.yf then R r.nts.tail else 0))).sum =
    if z ∈ options l ∧ P (yfD sent (.node l cs)) then
      q z * ((Cartpi.cartpi ((rest (.node l cs)).map options)).map (fun zs => addressed fd zs * R zs)).sum else 0 := by
  rw [tokens, pairList_eq, List.map_cons, List.map_map,
    sum_cartpi_cons _ _ (fun a => if a = z then (if P (yfD sent (.node l cs)) then q z else 0) else 0) (fun zs => addressed fd zs * R zs), sum_options]
  · by_cases h1 : z ∈ options l <;> by_cases h2 : P (yfD sent (.node l cs)) <;> simp [h1, h2]
  · intro a as
    by_cases h1 : a = z <;> by_cases h2 : P (yfD sent (.node l cs)) <;> simp [h1, h2]
    ring

theorem sum_flatMap_map {α β : Type} (xs : List α) (f : α → List β) (h : β → ℚ) : ((xs.flatMap f).map h).sum = (xs.map (fun x => ((f x).map h).sum)).sum := by
  induction xs with
  | nil => rfl
  | cons x xs ih => simp [ih]

theorem sum_ite_filter {α : Type} (xs : List α) (p : α → Bool) (w : α → ℚ) : (xs.map (fun x => if p x then w x else 0)).sum = ((xs.filter p).map w).sum := by
  induction xs with
  | nil => rfl
  | cons x xs ih => cases h : p x <;> simp [h, ih]

/-- The sum of the weights of all rules with a left-hand side. -/
theorem mass_nodes {nodes : List (List (Option Str) × Pair)} {fd : Dict Str ℚ} (C : Ctx0 nodes fd) {g : List (Rule × ℚ)} {q : Str → ℚ} (hg : Represents g q nodes fd) (z : Str) :
    TBGrammar.Spec.mass g z = q z * ((nodes.filter (fun x => decide (z ∈ heads x.2))).map (fun x => (freq x.2 : ℚ))).sum := by
  have h1 : TBGrammar.Spec.mass g z = (g.map (fun x => x.2 * (if x.1.nts.head? = some z ∧ True then 1 else 0))).sum := by
    rw [TBGrammar.Spec.mass, ← sum_ite_filter]
    congr 1
    refine List.map_congr_left (fun x _ => ?_)
    by_cases h : x.1.nts.head? = some z <;> simp [TBGrammar.Spec.lhs, h]
  rw [h1, hg (fun r => if r.nts.head? = some z ∧ True then 1 else 0), sum_flatMap_map, ← List.sum_map_mul_left, ← sum_ite_filter]
  congr 1
  refine List.map_congr_left (fun x hx => ?_)
  obtain ⟨l, cs, e, _⟩ := C.label x hx
  rw [e, sum_tokens x.1 l cs q fd z (fun _ => True) (fun _ => 1)]
  simp only [and_true, mul_one]
  by_cases hz : z ∈ heads (.node l cs)
  · rw [if_pos (show z ∈ options l from hz), if_pos (decide_eq_true hz)]
    congr 1
    obtain ⟨hne, hsh⟩ := C.shape x hx l cs e
    have hch : ∀ c ∈ cs, c.isNode → ∃ l, Child fd c l := fun c hc hn => C.children hx (by rw [e]; exact hc) hn
    rcases hsh with hn | ⟨i, rfl⟩
    · have : rest (.node l cs) = cs.filterMap label? := by
        cases cs with
        | nil => rfl
        | cons c cs =>
          cases c with
          | leaf i => have := hn (.leaf i) (by simp); simp [isNode] at this
          | node m ds => exact rest_node
      rw [this, freq]
      exact sum_freq cs (fun c hc => hch c hc (hn c hc))
    · simp [rest, pairList, Dop.options, Cartpi.cartpi_cons, Cartpi.cartpi_nil, addressed, at?, epsilon, freq, freqL]
  · rw [if_neg (show z ∉ options l from hz), if_neg (by simpa using hz)]

/-- Does the fragment occur at this node, whatever the label of the node? -/
def below (sent : List (Option Str)) (s : Pair) : Frag → Bool
  | .frontier _ => false
  | .inner _ yf fs => decide (yfD sent s = yf) && Spec.occursL sent fs (s.children.map (mapLabel Prod.fst))

theorem epsilon_plain : at? epsilon = false := by decide

theorem sum_rest {nodes : List (List (Option Str) × Pair)} {fd : Dict Str ℚ} (C : Ctx0 nodes fd) {g : List (Rule × ℚ)} {x : List (Option Str) × Pair} (hx : x ∈ nodes) (fs : List Frag)
    (hf : ∀ f ∈ fs, f.isInner = true → ∀ c ∈ x.2.children, ∀ l, Child fd c l → f.label = l.1 →
      Spec.inside g f l.2 = (if Spec.occurs x.1 f (mapLabel Prod.fst c) then 1 else 0) / freq c) :
    ((Cartpi.cartpi ((rest x.2).map options)).map (fun zs => addressed fd zs * (if zs = [epsilon] then (if fs.isEmpty then 1 else 0) else Spec.insideL g fs zs))).sum =
      if Spec.occursL x.1 fs (x.2.children.map (mapLabel Prod.fst)) then 1 else 0 := by
  obtain ⟨l, cs, e, _⟩ := C.label x hx
  obtain ⟨hne, hsh⟩ := C.shape x hx l cs e
  have hch : ∀ c ∈ cs, c.isNode → ∃ l, Child fd c l := fun c hc hn => C.children hx (by rw [e]; exact hc) hn
  rw [e] at hf ⊢
  simp only [PTree.children] at hf ⊢
  rcases hsh with hn | ⟨i, rfl⟩
  · have hr : rest (.node l cs) = cs.filterMap label? := by
      cases cs with
      | nil => rfl
      | cons c cs =>
        cases c with
        | leaf i => have := hn (.leaf i) (by simp); simp [isNode] at this
        | node m ds => exact rest_node
    rw [hr]
    refine Eq.trans ?_ (sum_inside cs (fun c hc => hch c hc (hn c hc)) fs hf)
    congr 1
    refine List.map_congr_left (fun zs hzs => ?_)
    rw [if_neg]
    rintro rfl
    rw [Cartpi.C33_mem] at hzs
    cases cs with
    | nil => exact hne rfl
    | cons c cs =>
      obtain ⟨l', hl'⟩ := hch c (by simp) (hn c (by simp))
      rw [List.filterMap_cons_some hl'.label, List.map_cons] at hzs
      cases hzs with
      | cons h1 _ =>
        rw [hl'.options] at h1
        simp only [List.mem_cons, List.not_mem_nil, or_false] at h1
        rcases h1 with h1 | h1
        · exact hl'.eps h1.symm
        · have := hl'.at2
          rw [← h1] at this
          simp [epsilon] at this
  · have e1 : rest (.node l [.leaf i]) = [(epsilon, epsilon)] := rfl
    rw [e1]
    simp only [List.map_cons, List.map_nil, Dop.options, if_true, Cartpi.cartpi_cons, Cartpi.cartpi_nil, List.flatMap_cons, List.flatMap_nil, List.append_nil,
      List.sum_cons, List.sum_nil, add_zero, mapLabel_leaf]
    have e2 : addressed fd [epsilon] = 1 := by simp [addressed, epsilon_plain]
    rw [e2, one_mul]
    cases fs with
    | nil => simp [Spec.occursL, isNode]
    | cons f fs => cases f <;> simp [Spec.occursL, Spec.occurs, label?]

theorem mem_options {l : Str × Str} {z : Str} (h1 : '@' ∉ l.1) (h2 : l.2 = l.1 ∨ ∃ n m, l.2 = address n (l.1, m)) :
    ('@' ∉ z → (z ∈ options l ↔ z = l.1)) ∧ ('@' ∈ z → (z ∈ options l ↔ l.2 = z)) := by
  rw [options]
  rcases h2 with h2 | ⟨n, m, h2⟩
  · rw [if_pos h2.symm, h2]
    refine ⟨fun _ => by simp, fun hz => ?_⟩
    simp only [List.mem_singleton]
    exact eq_comm
  · have ha : '@' ∈ l.2 := by rw [h2]; exact at_address _ _
    rw [if_neg (fun e : l.1 = l.2 => h1 (by rw [e]; exact ha))]
    refine ⟨fun hz => ?_, fun hz => ?_⟩
    · have : z ≠ l.2 := fun e => hz (e ▸ ha)
      simp [this]
    · have : z ≠ l.1 := fun e => h1 (e ▸ hz)
      simp only [List.mem_cons, this, List.not_mem_nil, or_false, false_or]
      exact eq_comm

theorem occurs_eq {sent : List (Option Str)} {s : Pair} {f : Frag} {l : Str × Str} (hi : f.isInner = true) (hl : s.label? = some l) (hf : f.label = l.1)
    (hy : ∃ yf, Spec.yfOf sent (mapLabel Prod.fst s) = some yf) : Spec.occurs sent f (mapLabel Prod.fst s) = below sent s f := by
  cases f with
  | frontier k => simp [Frag.isInner] at hi
  | inner k yf fs =>
    obtain ⟨y, hy⟩ := hy
    simp only [Frag.label] at hf
    simp only [Spec.occurs, below, label_mapLabel, hl, Option.map_some, children_mapLabel, yfD, hy, Option.getD_some, Option.some.injEq, hf, decide_true, Bool.true_and]

/-- The derivations of a fragment from a label or an address. -/
theorem inside_nodes {nodes : List (List (Option Str) × Pair)} {fd : Dict Str ℚ} (C : Ctx nodes fd) (hy : ∀ x ∈ nodes, ∃ yf, Spec.yfOf x.1 (mapLabel Prod.fst x.2) = some yf)
    {g : List (Rule × ℚ)} {q : Str → ℚ} (hg : Represents g q nodes fd) (hq : ∀ x ∈ nodes, ∀ l, x.2.label? = some l → '@' ∈ l.2 → q l.2 = 1 / freq x.2) (f : Frag) :
    f.isInner = true → ∀ z, Spec.inside g f z = q z * ((nodes.filter (fun x => decide (z ∈ heads x.2) && below x.1 x.2 f)).length : ℚ) := by
  induction f using Frag.ind with
  | h1 l => intro h; simp [Frag.isInner] at h
  | h2 k yf fs ih =>
    intro _ z
    have h1 : Spec.inside g (.inner k yf fs) z = (g.map (fun x => x.2 * (if x.1.nts.head? = some z ∧ x.1.yf = yf then
        (if x.1.nts.tail = [epsilon] then (if fs.isEmpty then 1 else 0) else Spec.insideL g fs x.1.nts.tail) else 0))).sum := by
      rw [Spec.inside]
      congr 1
      refine List.map_congr_left (fun x _ => ?_)
      by_cases hc : x.1.nts.head? = some z ∧ x.1.yf = yf
      · rw [if_pos hc, if_pos hc]
      · rw [if_neg hc, if_neg hc, mul_zero]
    rw [h1, hg (fun r => if r.nts.head? = some z ∧ r.yf = yf then (if r.nts.tail = [epsilon] then (if fs.isEmpty then 1 else 0) else Spec.insideL g fs r.nts.tail) else 0), sum_flatMap_map]
    have h2 : ((nodes.filter (fun x => decide (z ∈ heads x.2) && below x.1 x.2 (.inner k yf fs))).length : ℚ) =
        ((nodes.filter (fun x => decide (z ∈ heads x.2) && below x.1 x.2 (.inner k yf fs))).map (fun _ => (1 : ℚ))).sum := by simp
    rw [h2, ← List.sum_map_mul_left, ← sum_ite_filter]
    congr 1
    refine List.map_congr_left (fun x hx => ?_)
    obtain ⟨l, cs, e, hp, ha⟩ := C.label x hx
    have key := sum_rest C.toCtx0 (g := g) hx fs (fun f hf hi c hc l' hl' hfl => by
      rw [ih f hf hi]
      obtain ⟨hcn, n, m, hm⟩ := C.child x hx c hc l' hl'.label
      rw [hq _ hcn l' hl'.label hl'.at2]
      have hu := C.uniq _ hcn l' hl'.label hl'.at2
      have hfil : nodes.filter (fun y => decide (l'.2 ∈ heads y.2) && below y.1 y.2 f) = [(x.1, c)].filter (fun y => below y.1 y.2 f) := by
        rw [← hu, List.filter_filter]
        refine List.filter_congr (fun y hy' => ?_)
        obtain ⟨ly, csy, ey, hpy, hay⟩ := C.label y hy'
        have : decide (l'.2 ∈ heads y.2) = decide (y.2.label?.map Prod.snd = some l'.2) := by
          rw [ey, decide_eq_decide]
          simp only [heads, label?, Option.map_some, Option.getD_some, Option.some.injEq]
          exact (mem_options hpy hay).2 hl'.at2
        rw [this, Bool.and_comm]
      rw [hfil, occurs_eq hi hl'.label hfl (hy _ hcn)]
      by_cases hb : below x.1 c f = true <;> simp [hb])
    rw [e] at key ⊢
    rw [sum_tokens x.1 l cs q fd z (fun y => y = yf) (fun zs => if zs = [epsilon] then (if fs.isEmpty then 1 else 0) else Spec.insideL g fs zs), key]
    simp only [heads, label?, Option.map_some, Option.getD_some, below, Bool.and_eq_true, decide_eq_true_eq, mul_one, PTree.children]
    by_cases c1 : z ∈ options l <;> by_cases c2 : yfD x.1 (.node l cs) = yf <;> by_cases c3 : Spec.occursL x.1 fs (cs.map (mapLabel Prod.fst)) = true <;> simp [c1, c2, c3]

/-! ### The loop over the treebank -/

/-- The decorated treebank, from sentence number `n`. -/
def bank : Nat → List (PTree Str × List (Option Str)) → List (List (Option Str) × Pair)
  | _, [] => []
  | n, x :: xs => (x.2, pairs n x.1) :: bank (n + 1) xs

/-- All its nodes. -/
def nodesOf (b : List (List (Option Str) × Pair)) : List (List (Option Str) × Pair) := b.flatMap (fun x => (subtrees x.2).map (fun s => (x.1, s)))

theorem foldlM_addTree (xs : List (PTree Str × List (Option Str))) : (∀ x ∈ xs, Prods.Spec.Input x.1 x.2 ∧ x.1.isNode) → ∀ st : State,
    xs.foldlM addTree st = some ⟨st.n + xs.length, ((bank st.n xs).flatMap (fun x => ops x.2)).foldl step st.fd,
      addAll st.ntfd ((bank st.n xs).flatMap (fun x => ntOps [x.2])),
      addAll st.rules (((nodesOf (bank st.n xs)).flatMap (fun x => tokens x.1 x.2)).map (fun r => (r, 1)))⟩ := by
  induction xs with
  | nil => intro _ st; simp [bank, nodesOf, addAll]
  | cons x xs ih =>
    intro h st
    obtain ⟨h1, h2⟩ := h x (by simp)
    have hD : mapLabel Prod.fst (pairs st.n x.1) = x.1 := pairs_fst _ _
    obtain ⟨p1, p2⟩ := productions_pair (D := pairs st.n x.1) (by rw [hD]; exact h1)
    rw [pairs_snd] at p2
    rw [hD] at p1
    have hnf := nodefreq_pair (pairs st.n x.1) (by rw [← isNode_mapLabel Prod.fst, hD]; exact h2)
      (shape_mapLabel Prod.fst (by rw [hD]; exact shape_of_wf h1.wf)) st.fd st.ntfd
    rw [hD, pairs_snd] at hnf
    have hstep : addTree st x = some ⟨st.n + 1, (ops (pairs st.n x.1)).foldl step st.fd, addAll st.ntfd (ntOps [pairs st.n x.1]),
        addAll st.rules ((((subtrees (pairs st.n x.1)).flatMap (tokens x.2))).map (fun r => (r, 1)))⟩ := by
      rw [addTree, p1, p2, hnf]
      simp only [Option.bind_eq_bind, Option.bind_some]
      rw [addProds_pair]
      rfl
    rw [List.foldlM_cons, hstep]
    simp only [Option.bind_eq_bind, Option.bind_some]
    rw [ih (fun y hy => h y (by simp [hy]))]
    simp only [bank, nodesOf, List.flatMap_cons, List.foldl_append, addAll_append, List.map_append, List.flatMap_append, List.length_cons, List.flatMap_map]
    congr 2
    omega

/-! ### The decorated treebank -/

theorem pairs_label {n : Nat} {t : PTree Str} (hp : ∀ s ∈ subtrees t, ∀ l, s.label? = some l → '@' ∉ l) :
    (∀ l, (pairs n t).label? = some l → l.2 = l.1 ∧ '@' ∉ l.1) ∧
    (∀ s ∈ subtreesL (pairs n t).children, ∀ l, s.label? = some l → '@' ∉ l.1 ∧ ∃ m, l.2 = address n (l.1, m)) := by
  cases t with
  | leaf i => simp [pairs, label?, PTree.children]
  | node k cs =>
    refine ⟨?_, ?_⟩
    · intro l hl
      simp only [pairs, label?, Option.some.injEq] at hl
      subst hl
      exact ⟨rfl, hp (.node k cs) (by simp) k rfl⟩
    · intro s hs l hl
      simp only [pairs, PTree.children, mapLabelL_eq] at hs
      obtain ⟨c, hc, hs⟩ := mem_subtreesL.1 hs
      obtain ⟨c0, hc0, rfl⟩ := List.mem_map.1 hc
      rw [subtrees_mapLabel] at hs
      obtain ⟨s0, hs0, rfl⟩ := List.mem_map.1 hs
      rw [label_mapLabel] at hl
      obtain ⟨y, hy, rfl⟩ := Option.map_eq_some_iff.1 hl
      refine ⟨?_, y.2, rfl⟩
      have e := numberL_forget cs 0
      have hm : mapLabel Prod.fst s0 ∈ subtrees (mapLabel Prod.fst c0) := by rw [subtrees_mapLabel]; exact List.mem_map_of_mem hs0
      have hm2 : mapLabel Prod.fst c0 ∈ cs := by rw [← e]; exact List.mem_map_of_mem hc0
      refine hp (mapLabel Prod.fst s0) ?_ y.1 (by rw [label_mapLabel, hy]; rfl)
      rw [subtrees_node]
      exact List.mem_cons_of_mem _ (mem_subtreesL.2 ⟨_, hm2, hm⟩)

/-- The address of a node, if it has one. -/
def addrOf (s : Pair) : Option Str := (s.label?.map Prod.snd).filter (fun z => decide ('@' ∈ z))

theorem addrOf_some {s : Pair} {l : Str × Str} (h : s.label? = some l) (h2 : '@' ∈ l.2) : addrOf s = some l.2 := by simp [addrOf, h, h2, Option.filter]

theorem addrs_nodup {n : Nat} {t : PTree Str} (hp : ∀ s ∈ subtrees t, ∀ l, s.label? = some l → '@' ∉ l) :
    ((subtrees (pairs n t)).filterMap addrOf).Nodup ∧ ∀ z ∈ (subtrees (pairs n t)).filterMap addrOf, ∃ x : Str × Nat, '@' ∉ x.1 ∧ z = address n x := by
  cases t with
  | leaf i => simp [pairs]
  | node k cs =>
    have hk : addrOf (pairs n (.node k cs)) = none := by
      have := hp (.node k cs) (by simp) k rfl
      simp [addrOf, pairs, label?, this, Option.filter]
    have hsub : subtrees (pairs n (.node k cs)) = pairs n (.node k cs) :: (subtreesL (numberL 0 cs).1).map (mapLabel (fun x => (x.1, address n x))) := by
      rw [pairs, subtrees_node, mapLabelL_eq, subtreesL_eq_flatMap, subtreesL_eq_flatMap, List.flatMap_map, List.map_flatMap]
      congr 1
      exact List.flatMap_congr (fun c _ => subtrees_mapLabel _ c)
    have e : (subtrees (pairs n (.node k cs))).filterMap addrOf = ((subtreesL (numberL 0 cs).1).filterMap label?).map (address n) := by
      rw [hsub, List.filterMap_cons_none hk, List.filterMap_map, List.map_filterMap]
      congr 1
      funext s
      cases hs : s.label? with
      | none => simp [addrOf, label_mapLabel, hs]
      | some y => simp [addrOf, label_mapLabel, hs, at_address, Option.filter]
    have hfst : ∀ x ∈ (subtreesL (numberL 0 cs).1).filterMap label?, '@' ∉ x.1 := by
      intro x hx
      obtain ⟨s, hs, hl⟩ := List.mem_filterMap.1 hx
      obtain ⟨c0, hc0, hs⟩ := mem_subtreesL.1 hs
      have hm : mapLabel Prod.fst s ∈ subtrees (mapLabel Prod.fst c0) := by rw [subtrees_mapLabel]; exact List.mem_map_of_mem hs
      have hm2 : mapLabel Prod.fst c0 ∈ cs := by rw [← numberL_forget cs 0]; exact List.mem_map_of_mem hc0
      refine hp (mapLabel Prod.fst s) ?_ x.1 (by rw [label_mapLabel, hl]; rfl)
      rw [subtrees_node]
      exact List.mem_cons_of_mem _ (mem_subtreesL.2 ⟨_, hm2, hm⟩)
    have hnd : ((subtreesL (numberL 0 cs).1).filterMap label?).Nodup := by
      have h1 : (((subtreesL (numberL 0 cs).1).filterMap label?).map Prod.snd) = numbers (numberL 0 cs).1 := by
        rw [List.map_filterMap]; rfl
      have h2 : (((subtreesL (numberL 0 cs).1).filterMap label?).map Prod.snd).Nodup := by
        rw [h1, (numberL_range cs 0).2]; exact List.nodup_range'
      exact h2.of_map
    rw [e]
    refine ⟨hnd.map_on (fun x hx y hy exy => (address_inj (hfst x hx) (hfst y hy) exy).2), ?_⟩
    intro z hz
    obtain ⟨x, hx, rfl⟩ := List.mem_map.1 hz
    exact ⟨x, hfst x hx, rfl⟩

theorem bank_mem {xs : List (PTree Str × List (Option Str))} {n : Nat} {b : List (Option Str) × Pair} (h : b ∈ bank n xs) :
    ∃ m x, n ≤ m ∧ x ∈ xs ∧ b = (x.2, pairs m x.1) := by
  induction xs generalizing n with
  | nil => simp [bank] at h
  | cons x xs ih =>
    rw [bank, List.mem_cons] at h
    rcases h with rfl | h
    · exact ⟨n, x, le_refl _, by simp, rfl⟩
    · obtain ⟨m, y, h1, h2, h3⟩ := ih h
      exact ⟨m, y, by omega, by simp [h2], h3⟩

theorem nodes_cons (b : List (Option Str) × Pair) (bs) : nodesOf (b :: bs) = (subtrees b.2).map (fun s => (b.1, s)) ++ nodesOf bs := rfl

theorem nodes_mem {b : List (List (Option Str) × Pair)} {x : List (Option Str) × Pair} : x ∈ nodesOf b ↔ ∃ D, (x.1, D) ∈ b ∧ x.2 ∈ subtrees D := by
  rw [nodesOf, List.mem_flatMap]
  constructor
  · rintro ⟨y, hy, hx⟩
    obtain ⟨s, hs, rfl⟩ := List.mem_map.1 hx
    exact ⟨y.2, hy, hs⟩
  · rintro ⟨D, h1, h2⟩
    exact ⟨_, h1, List.mem_map.2 ⟨x.2, h2, rfl⟩⟩

theorem nodes_addrs_nodup {xs : List (PTree Str × List (Option Str))} (hp : ∀ x ∈ xs, ∀ s ∈ subtrees x.1, ∀ l, s.label? = some l → '@' ∉ l) : ∀ n,
    ((nodesOf (bank n xs)).filterMap (fun x => addrOf x.2)).Nodup := by
  induction xs with
  | nil => intro n; simp [bank, nodesOf]
  | cons x xs ih =>
    intro n
    obtain ⟨a1, a2⟩ := addrs_nodup (n := n) (hp x (by simp))
    have e : ∀ (D : Pair) (s : List (Option Str)), ((subtrees D).map (fun t => (s, t))).filterMap (fun x => addrOf x.2) = (subtrees D).filterMap addrOf := by
      intro D s; rw [List.filterMap_map]; rfl
    rw [bank, nodes_cons, List.filterMap_append, e, List.nodup_append]
    refine ⟨a1, ih (fun y hy => hp y (by simp [hy])) (n + 1), ?_⟩
    intro z hz z' hz' hzz
    subst hzz
    obtain ⟨y, hy, rfl⟩ := a2 z hz
    obtain ⟨w, hw, hz2⟩ := List.mem_filterMap.1 hz'
    obtain ⟨D, hD, hwD⟩ := nodes_mem.1 hw
    obtain ⟨m, x', hm, hx', e'⟩ := bank_mem hD
    obtain ⟨_, rfl⟩ := Prod.mk.inj e'
    obtain ⟨_, b2⟩ := addrs_nodup (n := m) (hp x' (by simp [hx']))
    obtain ⟨y', hy', e2⟩ := b2 _ (List.mem_filterMap.2 ⟨_, hwD, hz2⟩)
    have := (address_inj hy hy' e2).1
    omega

theorem filter_of_nodup {α β : Type} [DecidableEq β] {f : α → Option β} {xs : List α} (h : (xs.filterMap f).Nodup) {x : α} (hx : x ∈ xs) {b : β} (hb : f x = some b) :
    xs.filter (fun y => decide (f y = some b)) = [x] := by
  induction xs with
  | nil => simp at hx
  | cons y xs ih =>
    by_cases hy : f y = some b
    · rw [List.filterMap_cons_some hy, List.nodup_cons] at h
      have hno : ∀ w ∈ xs, f w ≠ some b := fun w hw e => h.1 (List.mem_filterMap.2 ⟨w, hw, e⟩)
      have hxy : x = y := by
        rcases List.mem_cons.1 hx with e | e
        · exact e
        · exact absurd hb (hno x e)
      rw [List.filter_cons_of_pos (by simpa using hy), hxy]
      congr 1
      exact List.filter_eq_nil_iff.2 (fun w hw => by simpa using hno w hw)
    · have hx' : x ∈ xs := by
        rcases List.mem_cons.1 hx with rfl | e
        · exact absurd hb hy
        · exact e
      rw [List.filter_cons_of_neg (by simpa using hy)]
      refine ih ?_ hx'
      cases hf : f y with
      | none => rwa [List.filterMap_cons_none hf] at h
      | some c => rw [List.filterMap_cons_some hf] at h; exact (List.nodup_cons.1 h).2

theorem subtrees_child {t s c : PTree L} (hs : s ∈ subtrees t) (hc : c ∈ s.children) : c ∈ subtreesL t.children ∨ c.isNode = false := by
  cases c with
  | leaf i => exact Or.inr rfl
  | node m ds =>
    left
    cases t with
    | leaf i => simp at hs
    | node l cs =>
      rw [subtrees_node, List.mem_cons] at hs
      simp only [PTree.children]
      rcases hs with rfl | hs
      · exact mem_subtreesL.2 ⟨_, hc, by simp⟩
      · obtain ⟨d, hd, hsd⟩ := mem_subtreesL.1 hs
        refine mem_subtreesL.2 ⟨d, hd, subtrees_trans ?_ hsd⟩
        cases s with
        | leaf i => simp [PTree.children] at hc
        | node k es =>
          rw [subtrees_node]
          exact List.mem_cons_of_mem _ (mem_subtreesL.2 ⟨_, hc, by simp⟩)

theorem mem_subtrees_iff {t s : PTree L} (h : s ∈ subtrees t) : s = t ∨ s ∈ subtreesL t.children := by
  cases t with
  | leaf i => simp at h
  | node l cs => rw [subtrees_node, List.mem_cons] at h; exact h

theorem subtreesL_children {t s : PTree L} (h : s ∈ subtreesL t.children) : s ∈ subtrees t := by
  cases t with
  | leaf i => simp [PTree.children] at h
  | node l cs => rw [subtrees_node]; exact List.mem_cons_of_mem _ h

/-- The facts about a well-formed treebank, decorated from number `n`. -/
structure Input (xs : List (PTree Str × List (Option Str))) : Prop where
  input : ∀ x ∈ xs, Prods.Spec.Input x.1 x.2 ∧ x.1.isNode
  noAt : ∀ x ∈ xs, ∀ s ∈ subtrees x.1, ∀ l, s.label? = some l → '@' ∉ l
  noEps : ∀ x ∈ xs, ∀ s ∈ subtrees x.1, s.label? ≠ some epsilon

theorem input_of_treebank {trees : List (PTree Str)} {sents : List (List (Option Str))} (h : Spec.Treebank trees sents) : Input (trees.zip sents) where
  input := fun x hx => ⟨h.ok.input x hx, h.tree _ (List.of_mem_zip hx).1⟩
  noAt := fun _ hx => h.noAt _ (List.of_mem_zip hx).1
  noEps := fun _ hx => h.ok.noEps _ (List.of_mem_zip hx).1

theorem Input.node {xs : List (PTree Str × List (Option Str))} (_h : Input xs) {n : Nat} {x : List (Option Str) × Pair} (hx : x ∈ nodesOf (bank n xs)) :
    ∃ m y, y ∈ xs ∧ x.1 = y.2 ∧ x.2 ∈ subtrees (pairs m y.1) ∧ mapLabel Prod.fst x.2 ∈ subtrees y.1 := by
  obtain ⟨D, hD, hs⟩ := nodes_mem.1 hx
  obtain ⟨m, y, _, hy, e⟩ := bank_mem hD
  obtain ⟨e1, rfl⟩ := Prod.mk.inj e
  refine ⟨m, y, hy, e1, hs, ?_⟩
  have := List.mem_map_of_mem (f := mapLabel Prod.fst) hs
  rwa [← subtrees_mapLabel, pairs_fst] at this

/-- The state after the treebank. -/
def finalFd (xs : List (PTree Str × List (Option Str))) : Dict Str ℚ := ((bank 1 xs).flatMap (fun x => ops x.2)).foldl step []

theorem ops_nodes (b : List (List (Option Str) × Pair)) :
    (b.flatMap (fun x => ops x.2)).Perm ((nodesOf b).flatMap (fun x => x.2.label?.toList.map (fun l => (l.1, l.2, freq x.2)))) := by
  induction b with
  | nil => simp [nodesOf]
  | cons x b ih =>
    rw [nodes_cons, List.flatMap_append, List.flatMap_cons, List.flatMap_map]
    exact (ops_perm x.2).append ih

theorem mem_ops {b : List (List (Option Str) × Pair)} {o : Str × Str × Nat} : o ∈ b.flatMap (fun x => ops x.2) ↔
    ∃ x ∈ nodesOf b, ∃ l, x.2.label? = some l ∧ o = (l.1, l.2, freq x.2) := by
  rw [(ops_nodes b).mem_iff, List.mem_flatMap]
  constructor
  · rintro ⟨x, hx, ho⟩
    obtain ⟨l, hl, rfl⟩ := List.mem_map.1 ho
    exact ⟨x, hx, l, by simpa using hl, rfl⟩
  · rintro ⟨x, hx, l, hl, rfl⟩
    exact ⟨x, hx, List.mem_map.2 ⟨l, by simp [hl], rfl⟩⟩

theorem Input.labels {xs : List (PTree Str × List (Option Str))} (h : Input xs) {n : Nat} {x : List (Option Str) × Pair} (hx : x ∈ nodesOf (bank n xs)) :
    ∃ l cs, x.2 = .node l cs ∧ '@' ∉ l.1 ∧ (l.2 = l.1 ∨ ∃ n m, l.2 = address n (l.1, m)) := by
  obtain ⟨m, y, hy, e1, hs, _⟩ := h.node hx
  obtain ⟨l, cs, e⟩ := mem_subtrees_self_isNode hs
  obtain ⟨p1, p2⟩ := pairs_label (n := m) (h.noAt y hy)
  refine ⟨l, cs, e, ?_⟩
  rcases mem_subtrees_iff hs with e2 | e2
  · obtain ⟨q1, q2⟩ := p1 l (by rw [← e2, e]; rfl)
    exact ⟨q2, Or.inl q1⟩
  · obtain ⟨q1, k, q2⟩ := p2 x.2 e2 l (by rw [e]; rfl)
    exact ⟨q1, Or.inr ⟨m, k, q2⟩⟩

theorem Input.uniq {xs : List (PTree Str × List (Option Str))} (h : Input xs) {n : Nat} {x : List (Option Str) × Pair} (hx : x ∈ nodesOf (bank n xs)) {l : Str × Str}
    (hl : x.2.label? = some l) (ha : '@' ∈ l.2) : (nodesOf (bank n xs)).filter (fun y => decide (y.2.label?.map Prod.snd = some l.2)) = [x] := by
  rw [← filter_of_nodup (nodes_addrs_nodup h.noAt n) hx (addrOf_some hl ha)]
  refine List.filter_congr (fun y _ => ?_)
  rw [decide_eq_decide]
  cases hy : y.2.label? with
  | none => simp [addrOf, hy]
  | some k =>
    by_cases hk : k.2 = l.2
    · simp [addrOf, hy, hk, ha, Option.filter]
    · by_cases hk2 : '@' ∈ k.2 <;> simp [addrOf, hy, hk, hk2, Option.filter]

theorem Input.ctx {xs : List (PTree Str × List (Option Str))} (h : Input xs) : Ctx (nodesOf (bank 1 xs)) (finalFd xs) where
  label := fun x hx => h.labels hx
  shape := by
    intro x hx l cs e
    obtain ⟨m, y, hy, _, hs, _⟩ := h.node hx
    have : Shape (pairs m y.1) := shape_mapLabel Prod.fst (by rw [pairs_fst]; exact shape_of_wf (h.input y hy).1.wf)
    exact this l cs (by rw [← e]; exact hs)
  child := by
    intro x hx c hc l hl
    obtain ⟨D, hD, hs⟩ := nodes_mem.1 hx
    obtain ⟨m, y, _, hy, e⟩ := bank_mem hD
    obtain ⟨e1, rfl⟩ := Prod.mk.inj e
    have hn : c.isNode ≠ false := by cases c <;> simp [label?, isNode] at hl ⊢
    rcases subtrees_child hs hc with h1 | h1
    · refine ⟨nodes_mem.2 ⟨_, hD, subtreesL_children h1⟩, ?_⟩
      obtain ⟨_, k, q⟩ := (pairs_label (n := m) (h.noAt y hy)).2 c h1 l hl
      exact ⟨m, k, q⟩
    · exact absurd h1 hn
  noEps := by
    intro x hx l hl
    obtain ⟨m, y, hy, _, _, hs⟩ := h.node hx
    have := h.noEps y hy _ hs
    rw [label_mapLabel, hl] at this
    simpa using this
  uniq := fun x hx l hl ha => h.uniq hx hl ha
  fd := by
    intro x hx l hl ha
    refine foldl_step_address ?_ ?_ ?_ []
    · intro o ho
      obtain ⟨y, hy, k, hk, rfl⟩ := mem_ops.1 ho
      obtain ⟨k', cs, e, hp, _⟩ := h.labels hy
      rw [e] at hk
      simp only [label?, Option.some.injEq] at hk
      subst hk
      intro e2
      exact hp (by rw [e2]; exact ha)
    · intro o ho e
      obtain ⟨y, hy, k, hk, rfl⟩ := mem_ops.1 ho
      have : y ∈ (nodesOf (bank 1 xs)).filter (fun y => decide (y.2.label?.map Prod.snd = some l.2)) := by
        rw [List.mem_filter]
        exact ⟨hy, by rw [hk]; simpa using e⟩
      rw [h.uniq hx hl ha, List.mem_singleton] at this
      rw [this]
    · exact ⟨_, mem_ops.2 ⟨x, hx, l, hl, rfl⟩, rfl⟩

theorem Input.yf {xs : List (PTree Str × List (Option Str))} (h : Input xs) {n : Nat} : ∀ x ∈ nodesOf (bank n xs), ∃ yf, Spec.yfOf x.1 (mapLabel Prod.fst x.2) = some yf := by
  intro x hx
  obtain ⟨m, y, hy, e, _, hs⟩ := h.node hx
  rw [e]
  exact hasYF_of_input (h.input y hy).1 _ hs

/-- The nodes of the plain treebank. -/
theorem nodes_plain (xs : List (PTree Str × List (Option Str))) : ∀ n,
    (nodesOf (bank n xs)).map (fun x => (x.1, mapLabel Prod.fst x.2)) = xs.flatMap (fun x => (subtrees x.1).map (fun s => (x.2, s))) := by
  induction xs with
  | nil => intro n; rfl
  | cons x xs ih =>
    intro n
    rw [bank, nodes_cons, List.map_append, ih, List.flatMap_cons, List.map_map]
    congr 1
    conv_rhs => rw [← pairs_fst n x.1, subtrees_mapLabel, List.map_map]
    rfl

/-- Sums over the nodes with a label. -/
theorem plain_sum {xs : List (PTree Str × List (Option Str))} (h : Input xs) {z : Str} (hz : '@' ∉ z) :
    (nodesOf (bank 1 xs)).filter (fun x => decide (z ∈ heads x.2)) = (nodesOf (bank 1 xs)).filter (fun x => decide ((mapLabel Prod.fst x.2).label? = some z)) := by
  refine List.filter_congr (fun x hx => ?_)
  obtain ⟨l, cs, e, hp, ha⟩ := h.labels hx
  rw [e, decide_eq_decide, label_mapLabel]
  simp only [heads, label?, Option.map_some, Option.getD_some, Option.some.injEq]
  rw [(mem_options hp ha).1 hz]
  exact eq_comm

theorem map_filter_plain {xs : List (PTree Str × List (Option Str))} {n : Nat} (p : List (Option Str) × PTree Str → Bool) :
    ((nodesOf (bank n xs)).filter (fun x => p (x.1, mapLabel Prod.fst x.2))).map (fun x => (x.1, mapLabel Prod.fst x.2)) =
    (xs.flatMap (fun x => (subtrees x.1).map (fun s => (x.2, s)))).filter p := by
  rw [← nodes_plain xs n, List.filter_map]; rfl

theorem cast_sum_list (l : List Nat) : ((l.sum : Nat) : ℚ) = (l.map (fun n : Nat => (n : ℚ))).sum := by
  induction l with
  | nil => simp
  | cons a l ih => simp [ih]

theorem total_nodes {trees : List (PTree Str)} {sents : List (List (Option Str))} (h : Spec.Treebank trees sents) {z : Str} (hz : '@' ∉ z) :
    (((nodesOf (bank 1 (trees.zip sents))).filter (fun x => decide (z ∈ heads x.2))).map (fun x => (freq x.2 : ℚ))).sum = Spec.total trees sents z := by
  have hi := input_of_treebank h
  rw [plain_sum hi hz, Spec.total, Spec.nodes, ← map_filter_plain (n := 1) (fun x => decide (x.2.label? = some z)), List.map_map, cast_sum_list, List.map_map]
  congr 1
  refine List.map_congr_left (fun x hx => ?_)
  obtain ⟨m, y, hy, e, _, hs⟩ := hi.node (List.mem_filter.1 hx).1
  have hin := (hi.input y hy).1
  have hw := wf_subtree hin.wf hs
  obtain ⟨f1, _⟩ := fragments_spec x.1 (mapLabel Prod.fst x.2) (shape_of_wf hw) (by
    rw [e]
    intro s hs'
    exact hasYF_of_input hin s (subtrees_trans hs' hs))
  simp only [Function.comp_apply]
  rw [f1, freq_mapLabel]

theorem count_nodes {trees : List (PTree Str)} {sents : List (List (Option Str))} (h : Spec.Treebank trees sents) {f : Frag} (hf : f.isInner = true) (hz : '@' ∉ f.label) :
    ((nodesOf (bank 1 (trees.zip sents))).filter (fun x => decide (f.label ∈ heads x.2) && below x.1 x.2 f)).length = Spec.count trees sents f := by
  have hi := input_of_treebank h
  rw [Spec.count, Spec.nodes, ← map_filter_plain (n := 1) (fun x => Spec.occurs x.1 f x.2), List.length_map]
  congr 1
  refine List.filter_congr (fun x hx => ?_)
  obtain ⟨l, cs, e, hp, ha⟩ := hi.labels hx
  have hl : x.2.label? = some l := by rw [e]; rfl
  by_cases hk : f.label = l.1
  · rw [occurs_eq hf hl hk (hi.yf x hx)]
    have : f.label ∈ heads x.2 := by
      rw [e]
      exact ((mem_options hp ha).1 hz).2 hk
    simp [this]
  · have h1 : f.label ∉ heads x.2 := by
      rw [e]
      exact fun hm => hk (((mem_options hp ha).1 hz).1 hm)
    have h2 : Spec.occurs x.1 f (mapLabel Prod.fst x.2) = false := by
      rw [Bool.eq_false_iff]
      intro ho
      have := occurs_label ho
      rw [label_mapLabel, hl] at this
      exact hk (Option.some.inj this).symm
    simp [h1, h2]

/-! ### The weights -/

theorem options_nodup (l : Str × Str) : (options l).Nodup := by
  rw [options]; split <;> simp_all

theorem tokens_nodup (sent : List (Option Str)) (s : Pair) : (tokens sent s).Nodup := by
  refine (Cartpi.C33_once _ (fun xs hx => ?_)).map (fun a b e => (Rule.mk.inj e).1)
  obtain ⟨l, _, rfl⟩ := List.mem_map.1 hx
  exact options_nodup l

theorem mem_tokens {sent : List (Option Str)} {l : Str × Str} {cs : List Pair} {r : Rule} (h : r ∈ tokens sent (.node l cs)) :
    ∃ a zs, r = ⟨a :: zs, yfD sent (.node l cs)⟩ ∧ a ∈ options l ∧ List.Forall₂ (fun xs a => a ∈ xs) ((rest (.node l cs)).map options) zs := by
  obtain ⟨c, hc, rfl⟩ := List.mem_map.1 h
  rw [Cartpi.C33_mem, pairList_eq, List.map_cons] at hc
  cases hc with
  | cons h1 h2 => exact ⟨_, _, rfl, h1, h2⟩

theorem count_flatMap {α β : Type} [DecidableEq β] (xs : List α) (f : α → List β) (p : α → Bool) (b : β) (h : ∀ x ∈ xs, b ∈ f x → p x = true) :
    (xs.flatMap f).count b = ((xs.filter p).flatMap f).count b := by
  induction xs with
  | nil => rfl
  | cons x xs ih =>
    have ih' := ih (fun y hy => h y (by simp [hy]))
    cases hp : p x with
    | true => simp [hp, ih']
    | false =>
      have : b ∉ f x := fun hb => by rw [h x (by simp) hb] at hp; cases hp
      simp [hp, ih', List.count_eq_zero.2 this]

/-- A rule with an address as left-hand side comes from one node. -/
theorem count_address {nodes : List (List (Option Str) × Pair)} {fd : Dict Str ℚ} (C : Ctx nodes fd) {r : Rule} (hr : r ∈ nodes.flatMap (fun x => tokens x.1 x.2))
    (ha : '@' ∈ r.nts.headD []) : (nodes.flatMap (fun x => tokens x.1 x.2)).count r = 1 := by
  obtain ⟨x, hx, hrx⟩ := List.mem_flatMap.1 hr
  have key : ∀ y ∈ nodes, r ∈ tokens y.1 y.2 → y.2.label?.map Prod.snd = some (r.nts.headD []) := by
    intro y hy hry
    obtain ⟨l, cs, e, hp, hq⟩ := C.label y hy
    rw [e] at hry ⊢
    obtain ⟨a, zs, rfl, h1, _⟩ := mem_tokens hry
    simp only [List.headD_cons] at ha ⊢
    rw [label?, Option.map_some, ((mem_options hp hq).2 ha).1 h1]
  obtain ⟨l, cs, e, hp, hq⟩ := C.label x hx
  have hl : x.2.label? = some l := by rw [e]; rfl
  have h1 := key x hx hrx
  rw [hl, Option.map_some, Option.some.injEq] at h1
  rw [count_flatMap _ _ (fun y => decide (y.2.label?.map Prod.snd = some l.2)) r (fun y hy hry => by
    rw [key y hy hry, h1]; simp), C.uniq x hx l hl (by rw [h1]; exact ha)]
  simp only [List.flatMap_cons, List.flatMap_nil, List.append_nil]
  exact List.count_eq_one_of_mem (tokens_nodup _ _) hrx

/-- The rules of the treebank. -/
def allTokens (xs : List (PTree Str × List (Option Str))) : List Rule := (nodesOf (bank 1 xs)).flatMap (fun x => tokens x.1 x.2)

/-- The counters after the treebank. -/
def finalRules (xs : List (PTree Str × List (Option Str))) : Dict Rule ℚ := addAll [] ((allTokens xs).map (fun r => (r, 1)))

/-- The same for the labels. -/
def finalNt (xs : List (PTree Str × List (Option Str))) : Dict Str ℚ := addAll [] ((bank 1 xs).flatMap (fun x => ntOps [x.2]))

/-- The state after the treebank. -/
def finalState (xs : List (PTree Str × List (Option Str))) : State := ⟨1 + xs.length, finalFd xs, finalNt xs, finalRules xs⟩

theorem finalRules_wf (xs : List (PTree Str × List (Option Str))) : WF (finalRules xs) := TBGrammar.WF_nil.addAll _

theorem finalRules_mem {xs : List (PTree Str × List (Option Str))} {x : Rule × ℚ} (h : x ∈ finalRules xs) : x.1 ∈ allTokens xs ∧ x.2 = (allTokens xs).count x.1 := by
  have h1 : x.1 ∈ keys (finalRules xs) := List.mem_map_of_mem h
  rw [finalRules, mem_keys_addAll] at h1
  refine ⟨by simpa [keys, Function.comp_def] using h1, ?_⟩
  have := cnt_of_mem (finalRules_wf xs) (k := x.1) (v := x.2) h
  rw [← this, finalRules, cnt_addAll, TBGrammar.incrementsOf_ones]
  simp [cnt, get?]

theorem Input.rfe {xs : List (PTree Str × List (Option Str))} (h : Input xs) {x : Rule × ℚ} (hx : x ∈ finalRules xs) :
    rfe (finalState xs) x.1 x.2 = x.2 * addressed (finalFd xs) x.1.nts.tail := by
  obtain ⟨h1, h2⟩ := finalRules_mem hx
  rw [Dop.rfe]
  by_cases ha : '@' ∈ x.1.nts.headD []
  · rw [if_pos (by simpa [at?] using ha), h2, allTokens, count_address h.ctx h1 ha]
    simp [finalState]
  · rw [if_neg (by simpa [at?] using ha)]
    rfl

theorem Represents.of_rfe {xs : List (PTree Str × List (Option Str))} (h : Input xs) {s : List (Rule × ℚ)} (hs : s.Perm (finalRules xs)) :
    Represents (s.map (fun x => (x.1, Dop.rfe (finalState xs) x.1 x.2))) (fun _ => 1) (nodesOf (bank 1 xs)) (finalFd xs) := by
  intro k
  rw [List.map_map]
  have h1 : s.map ((fun x => x.2 * k x.1) ∘ fun x => (x.1, Dop.rfe (finalState xs) x.1 x.2)) =
      s.map (fun x => x.2 * (addressed (finalFd xs) x.1.nts.tail * k x.1)) :=
    List.map_congr_left (fun x hx => by simp only [Function.comp_apply]; rw [h.rfe (hs.mem_iff.1 hx), mul_assoc])
  rw [h1, (hs.map _).sum_eq, finalRules, sum_addAll (fun r => addressed (finalFd xs) r.nts.tail * k r)]
  simp [allTokens]

/-- Weights that depend on the left-hand side only. -/
theorem Represents.scale {g : List (Rule × ℚ)} {q : Str → ℚ} {nodes : List (List (Option Str) × Pair)} {fd : Dict Str ℚ} (h : Represents g q nodes fd) (c : Str → ℚ) :
    Represents (g.map (fun x => (x.1, x.2 * c (x.1.nts.headD [])))) (fun z => q z * c z) nodes fd := by
  intro k
  rw [List.map_map]
  have := h (fun r => c (r.nts.headD []) * k r)
  have e : ((fun x : Rule × ℚ => x.2 * k x.1) ∘ fun x : Rule × ℚ => (x.1, x.2 * c (x.1.nts.headD []))) = fun x => x.2 * (c (x.1.nts.headD []) * k x.1) := by
    funext x; simp [mul_assoc]
  rw [e, this]
  congr 1
  refine List.map_congr_left (fun r _ => by ring)

/-- The keys for sorting exist. -/
theorem Input.key {xs : List (PTree Str × List (Option Str))} (h : Input xs) {r : Rule} (hr : r ∈ allTokens xs) : ∃ k, sortkey r = some k := by
  obtain ⟨x, hx, hrx⟩ := List.mem_flatMap.1 hr
  obtain ⟨l, cs, e, hp, ha⟩ := h.labels hx
  obtain ⟨hne, hsh⟩ := h.ctx.shape x hx l cs e
  obtain ⟨yf, hyf⟩ := h.yf x hx
  rw [e] at hrx hyf
  obtain ⟨a, zs, rfl, h1, h2⟩ := mem_tokens hrx
  rcases hsh with hn | ⟨i, rfl⟩
  · cases cs with
    | nil => exact absurd rfl hne
    | cons c cs =>
      cases c with
      | leaf i => have := hn (.leaf i) (by simp); simp [isNode] at this
      | node m ds =>
        rw [rest_node] at h2
        simp only [List.filterMap_cons, label?, List.map_cons] at h2
        cases h2 with
        | cons h3 h4 =>
          rename_i z zs
          have hc := h.ctx.children hx (c := .node m ds) (by rw [e]; simp [PTree.children]) rfl
          obtain ⟨l', hl'⟩ := hc
          have hl2 : m = l' := by have := hl'.label; simpa [label?] using this
          subst hl2
          have hz : z ≠ epsilon := by
            rintro rfl
            rw [hl'.options] at h3
            have h5 : epsilon ≠ m.2 := fun e5 => by have := hl'.at2; rw [← e5] at this; exact absurd this (by decide)
            simp [h5, Ne.symm hl'.eps] at h3
          cases hy : yfD x.1 (.node l (.node m ds :: cs)) <;> simp [sortkey, hz]
  · have h3 : zs = [epsilon] := by
      simp only [rest, pairList, List.tail_cons, List.map_cons, List.map_nil, options, if_true] at h2
      cases h2 with
      | cons h3 h4 =>
        cases h4
        rw [List.mem_singleton.1 h3]
    subst h3
    rw [mapLabel_node, mapLabelL_eq] at hyf
    simp only [Spec.yfOf, List.map_cons, List.map_nil, mapLabel_leaf, prodOf] at hyf
    split at hyf
    · rename_i w hw
      simp only [Option.join_some, Option.map_some, Option.some.injEq] at hyf
      have : yfD x.1 (.node l [.leaf i]) = yf := by
        simp only [yfD, Spec.yfOf, mapLabel_node, mapLabelL_eq, List.map_cons, List.map_nil, mapLabel_leaf, prodOf, hw, Option.join_some, Option.map_some, Option.getD_some]
        exact hyf
      rw [this, ← hyf]
      exact ⟨_, rfl⟩
    · simp at hyf

theorem incrementsOf_append {K : Type} [DecidableEq K] (k : K) (xs ys : List (K × ℚ)) : incrementsOf k (xs ++ ys) = incrementsOf k xs + incrementsOf k ys := by
  simp [incrementsOf]

theorem ntOps_plain (ss : List Pair) {z : Str} (h : ∀ s ∈ ss, ∀ l, s.label? = some l → l.2 ≠ z) :
    incrementsOf z (ss.flatMap (fun s => (s.label?.toList).flatMap (fun l => [(l.1, (1 : ℚ)), (l.2, 1)]))) =
    (((ss.map (mapLabel Prod.fst)).filter (fun c => decide (c.label? = some z))).length : ℚ) := by
  induction ss with
  | nil => simp [incrementsOf]
  | cons s ss ih =>
    rw [List.flatMap_cons, incrementsOf_append, ih (fun s hs => h s (by simp [hs])), List.map_cons, List.filter_cons, label_mapLabel]
    cases hl : s.label? with
    | none => simp [incrementsOf]
    | some l =>
      have h2 := h s (by simp) l hl
      by_cases e : l.1 = z <;> simp [incrementsOf, e, h2, add_comm]

/-- The counter of the labels: the label of a root is counted twice. -/
theorem Input.nt {xs : List (PTree Str × List (Option Str))} (h : Input xs) {z : Str} (hz : '@' ∉ z) :
    cnt (finalNt xs) z = TBGrammar.Spec.occurrences (xs.map Prod.fst) z + Spec.roots (xs.map Prod.fst) z := by
  rw [finalNt, cnt_addAll]
  have key : ∀ (ys : List (PTree Str × List (Option Str))) n, (∀ y ∈ ys, y ∈ xs) → incrementsOf z ((bank n ys).flatMap (fun x => ntOps [x.2])) =
      (TBGrammar.Spec.occurrences (ys.map Prod.fst) z : ℚ) + Spec.roots (ys.map Prod.fst) z := by
    intro ys
    induction ys with
    | nil => intro n _; simp [bank, incrementsOf, TBGrammar.Spec.occurrences, Spec.roots]
    | cons y ys ih =>
      intro n hy
      rw [bank, List.flatMap_cons, incrementsOf_append, ih _ (fun w hw => hy w (by simp [hw]))]
      have h1 : incrementsOf z (ntOps [pairs n y.1]) = (((subtrees y.1).filter (fun c => decide (c.label? = some z))).length : ℚ) + if y.1.label? = some z then 1 else 0 := by
        obtain ⟨p1, p2⟩ := pairs_label (n := n) (h.noAt y (hy y (by simp)))
        have hf := pairs_fst n y.1
        have hnode := (h.input y (hy y (by simp))).2
        rw [← hf, isNode_mapLabel] at hnode
        cases hD : pairs n y.1 with
        | leaf i => rw [hD] at hnode; simp [isNode] at hnode
        | node l cs =>
          rw [hD] at hf p1 p2
          obtain ⟨q1, _⟩ := p1 l rfl
          rw [ntOps, subtreesL_cons, subtrees_node, ← hf, subtrees_mapLabel, subtrees_node, List.map_cons, List.filter_cons, label_mapLabel]
          simp only [subtreesL_nil, List.append_nil, List.flatMap_cons]
          rw [incrementsOf_append, ntOps_plain _ (fun s hs l' hl' => by
            obtain ⟨_, m, e⟩ := p2 s hs l' hl'
            rintro rfl
            exact hz (by rw [e]; exact at_address _ _))]
          by_cases e : l.1 = z
          · simp [label?, incrementsOf, q1, e]; ring
          · simp [label?, incrementsOf, q1, e]
      rw [h1]
      simp only [TBGrammar.Spec.occurrences, Spec.roots, List.map_cons, List.flatMap_cons, List.filter_append, List.length_append, List.filter_cons]
      by_cases e : y.1.label? = some z <;> simp [e] <;> ring
  rw [key xs 1 (fun y hy => hy)]
  simp [cnt, get?]

/-- The counter of the fragments. -/
theorem Input.plain_fd {xs : List (PTree Str × List (Option Str))} (h : Input xs) {z : Str} (hz : '@' ∉ z) :
    cnt (finalFd xs) z = (((nodesOf (bank 1 xs)).filter (fun x => decide (z ∈ heads x.2))).map (fun x => (freq x.2 : ℚ))).sum := by
  rw [finalFd, foldl_step_plain, plain_sum h hz]
  · rw [(((ops_nodes (bank 1 xs)).filter _).map _).sum_eq]
    have key : ∀ ns : List (List (Option Str) × Pair), (((ns.flatMap (fun x => x.2.label?.toList.map (fun l => (l.1, l.2, freq x.2)))).filter (fun x => decide (x.1 = z))).map
        (fun x => (x.2.2 : ℚ))).sum = ((ns.filter (fun x => decide ((mapLabel Prod.fst x.2).label? = some z))).map (fun x => (freq x.2 : ℚ))).sum := by
      intro ns
      induction ns with
      | nil => rfl
      | cons x ns ih =>
        rw [List.flatMap_cons, List.filter_append, List.map_append, List.sum_append, ih, List.filter_cons, label_mapLabel]
        cases hl : x.2.label? with
        | none => simp
        | some l => by_cases e : l.1 = z <;> simp [e]
    rw [key]
    simp [cnt, get?]
  · intro o ho e
    obtain ⟨x, hx, l, hl, rfl⟩ := mem_ops.1 ho
    obtain ⟨l', cs, e', hp, ha⟩ := h.labels hx
    rw [e'] at hl
    simp only [label?, Option.some.injEq] at hl
    subst hl
    simp only at e ⊢
    rcases ha with ha | ⟨n, m, ha⟩
    · rw [← ha, e]
    · exact absurd (by rw [← e, ha]; exact at_address _ _) hz

/-- The counters of a left-hand side. -/
theorem Input.lhs {xs : List (PTree Str × List (Option Str))} (h : Input xs) {r : Rule} (hr : r ∈ allTokens xs) :
    ∃ z, r.nts.head? = some z ∧ cnt (finalFd xs) z ≠ 0 ∧ (at? z = false → cnt (finalNt xs) z ≠ 0) := by
  obtain ⟨x, hx, hrx⟩ := List.mem_flatMap.1 hr
  obtain ⟨l, cs, e, hp, ha⟩ := h.labels hx
  have hl : x.2.label? = some l := by rw [e]; rfl
  have hpos : (0 : ℚ) < freq x.2 := by rw [e]; simpa [freq] using freqL_pos cs
  rw [e] at hrx
  obtain ⟨a, zs, rfl, h1, _⟩ := mem_tokens hrx
  refine ⟨a, rfl, ?_, ?_⟩
  · by_cases hat : '@' ∈ a
    · have h2 := ((mem_options hp ha).2 hat).1 h1
      rw [← h2, h.ctx.fd x hx l hl (by rw [h2]; exact hat)]
      exact hpos.ne'
    · rw [h.plain_fd hat]
      refine ne_of_gt (lt_of_lt_of_le hpos (List.single_le_sum ?_ _ ?_))
      · intro y hy
        obtain ⟨w, _, rfl⟩ := List.mem_map.1 hy
        exact Nat.cast_nonneg _
      · exact List.mem_map_of_mem (f := fun x : List (Option Str) × Pair => (freq x.2 : ℚ)) (List.mem_filter.2 ⟨hx, by rw [e]; exact decide_eq_true h1⟩)
  · intro hat
    have hat' : '@' ∉ a := by simpa [at?] using hat
    rw [h.nt hat']
    have h2 := ((mem_options hp ha).1 hat').1 h1
    obtain ⟨m, y, hy, _, _, hs⟩ := h.node hx
    have : 0 < TBGrammar.Spec.occurrences (xs.map Prod.fst) a := by
      rw [TBGrammar.Spec.occurrences, List.length_pos_iff_exists_mem]
      refine ⟨mapLabel Prod.fst x.2, List.mem_filter.2 ⟨List.mem_flatMap.2 ⟨y.1, List.mem_map_of_mem hy, hs⟩, ?_⟩⟩
      rw [label_mapLabel, hl, h2]; simp
    have h3 : (0 : ℚ) < TBGrammar.Spec.occurrences (xs.map Prod.fst) a := by exact_mod_cast this
    have h4 : (0 : ℚ) ≤ Spec.roots (xs.map Prod.fst) a := Nat.cast_nonneg _
    exact (add_pos_of_pos_of_nonneg h3 h4).ne'

theorem weights_some {xs : List (PTree Str × List (Option Str))} (h : Input xs) {x : Rule × ℚ} (hx : x ∈ finalRules xs) :
    weights (finalState xs) x = some ((x.1, Dop.rfe (finalState xs) x.1 x.2),
      Dop.rfe (finalState xs) x.1 x.2 * (1 / (cnt (finalFd xs) (x.1.nts.headD []) * (if at? (x.1.nts.headD []) then 1 else cnt (finalNt xs) (x.1.nts.headD [])))),
      if at? (x.1.nts.headD []) then 1 else 1 / 2, 1 / (4 * (if at? (x.1.nts.headD []) then 1 else cnt (finalNt xs) (x.1.nts.headD [])))) := by
  obtain ⟨z, hz, h1, h2⟩ := h.lhs (finalRules_mem hx).1
  have hz' : x.1.nts.headD [] = z := by rw [List.headD_eq_head?_getD, hz]; rfl
  rw [weights, hz, hz']
  have h3 : (if at? z then (1 : ℚ) else cnt (finalNt xs) z) ≠ 0 := by
    split
    · exact one_ne_zero
    · rename_i hc
      exact h2 (by simpa using hc)
  simp only [Option.bind_eq_bind, Option.bind_some, finalState]
  rw [div?, div?, if_neg (mul_ne_zero h1 h3), if_neg (mul_ne_zero (by norm_num) h3)]
  simp only [Option.bind_some, mul_one_div]

theorem mapM_eq_some {α β : Type} {f : α → Option β} {g : α → β} {l : List α} (h : ∀ x ∈ l, f x = some (g x)) : l.mapM f = some (l.map g) := by
  induction l with
  | nil => rfl
  | cons a l ih => rw [List.mapM_cons, h a (by simp), ih (fun x hx => h x (by simp [hx]))]; rfl

theorem dop_spec {trees : List (PTree Str)} {sents : List (List (Option Str))} (h : Spec.Treebank trees sents) :
    ∃ s : List (Rule × ℚ), s.Perm (finalRules (trees.zip sents)) ∧ dopreduction trees sents [] = some (s.map (fun x => ((x.1, Dop.rfe (finalState (trees.zip sents)) x.1 x.2),
      Dop.rfe (finalState (trees.zip sents)) x.1 x.2 * (1 / (cnt (finalFd (trees.zip sents)) (x.1.nts.headD []) * (if at? (x.1.nts.headD []) then 1 else cnt (finalNt (trees.zip sents)) (x.1.nts.headD [])))),
      if at? (x.1.nts.headD []) then 1 else 1 / 2, 1 / (4 * (if at? (x.1.nts.headD []) then 1 else cnt (finalNt (trees.zip sents)) (x.1.nts.headD [])))))) := by
  have hi := input_of_treebank h
  have hf := foldlM_addTree (trees.zip sents) hi.input ⟨1, [], [], []⟩
  obtain ⟨s, hs⟩ := sortgrammar_total (g := finalRules (trees.zip sents)) (fun x hx => hi.key (finalRules_mem hx).1)
  obtain ⟨hp, _⟩ := sortgrammar_spec hs
  refine ⟨s, hp, ?_⟩
  rw [dopreduction, hf]
  simp only [Option.bind_eq_bind, Option.bind_some, List.map_nil, addAll]
  have e : addAll ([] : Dict Rule ℚ) (((nodesOf (bank 1 (trees.zip sents))).flatMap (fun x => tokens x.1 x.2)).map (fun r => (r, 1))) = finalRules (trees.zip sents) := rfl
  rw [e, hs, Option.bind_some]
  exact mapM_eq_some (fun x hx => weights_some hi (hp.mem_iff.1 hx))

/-! ### Theorems -/

/-- **C22.** `nodefreq` returns the number of fragments with an expanded root that occur at the root of the tree: the fragments of the specification are all
different, and they are exactly those that occur. -/
theorem C22_fragments (t : PTree Str) (sent : List (Option Str)) (h : Prods.Spec.Input t sent) (ht : t.isNode) (n : Nat) (fd ntfd : Dict Str ℚ) :
    (∃ st, nodefreq t (decorate n t) (fd, ntfd) = some ((Spec.fragments sent t).length, st)) ∧ (Spec.fragments sent t).Nodup ∧
      ∀ f, f ∈ Spec.fragments sent t ↔ f.isInner = true ∧ Spec.occurs sent f t = true := by
  have hD : mapLabel Prod.fst (pairs n t) = t := pairs_fst _ _
  have hnf := nodefreq_pair (pairs n t) (by rw [← isNode_mapLabel Prod.fst, hD]; exact ht)
    (shape_mapLabel Prod.fst (by rw [hD]; exact shape_of_wf h.wf)) fd ntfd
  rw [hD, pairs_snd] at hnf
  obtain ⟨f1, f2, f3⟩ := fragments_spec sent t (shape_of_wf h.wf) (hasYF_of_input h)
  refine ⟨⟨((ops (pairs n t)).foldl step fd, addAll ntfd (ntOps [pairs n t])), ?_⟩, f2, f3⟩
  rw [hnf, f1, ← freq_mapLabel Prod.fst, hD]

theorem mass_plain {trees : List (PTree Str)} {sents : List (List (Option Str))} (h : Spec.Treebank trees sents) {s : List (Rule × ℚ)}
    (hs : s.Perm (finalRules (trees.zip sents))) {z : Str} (hz : '@' ∉ z) :
    TBGrammar.Spec.mass (s.map (fun x => (x.1, Dop.rfe (finalState (trees.zip sents)) x.1 x.2))) z = Spec.total trees sents z := by
  have hi := input_of_treebank h
  rw [mass_nodes hi.ctx.toCtx0 (Represents.of_rfe hi hs), one_mul, total_nodes h hz]

theorem mass_address {xs : List (PTree Str × List (Option Str))} (hi : Input xs) {s : List (Rule × ℚ)}
    (hs : s.Perm (finalRules xs)) {x : List (Option Str) × Pair} (hx : x ∈ nodesOf (bank 1 xs)) {l : Str × Str} (hl : x.2.label? = some l) (ha : '@' ∈ l.2) :
    TBGrammar.Spec.mass (s.map (fun x => (x.1, Dop.rfe (finalState xs) x.1 x.2))) l.2 = freq x.2 := by
  rw [mass_nodes hi.ctx.toCtx0 (Represents.of_rfe hi hs), one_mul]
  have e : (nodesOf (bank 1 xs)).filter (fun y => decide (l.2 ∈ heads y.2)) = [x] := by
    rw [← hi.uniq hx hl ha]
    refine List.filter_congr (fun y hy => ?_)
    obtain ⟨ly, cs, ey, hp, hq⟩ := hi.labels hy
    rw [ey, decide_eq_decide]
    simp only [heads, label?, Option.map_some, Option.getD_some, Option.some.injEq]
    exact (mem_options hp hq).2 ha
  rw [e]
  simp

/-- **C22.** Goodman's reduction, for every well-formed treebank: `dopreduction` succeeds; every rule occurs once; the weights of the rules for a label add up to the
number of fragments with that root label in the treebank; and after normalisation the total probability of all derivations of a fragment from its root label
is its relative frequency among the fragments with that root label. -/
theorem C22_goodman (trees : List (PTree Str)) (sents : List (List (Option Str))) (h : Spec.Treebank trees sents) :
    ∃ out, dopreduction trees sents [] = some out ∧ (out.map (fun x => x.1.1)).Nodup ∧
      (∀ l, '@' ∉ l → TBGrammar.Spec.mass (out.map Prod.fst) l = Spec.total trees sents l) ∧
      ∀ f : Frag, f.isInner = true → '@' ∉ f.label →
        Spec.inside (Spec.normalise (out.map Prod.fst)) f f.label = Spec.count trees sents f / Spec.total trees sents f.label := by
  have hi := input_of_treebank h
  obtain ⟨s, hs, hd⟩ := dop_spec h
  refine ⟨_, hd, ?_, ?_, ?_⟩
  · rw [List.map_map]
    exact (hs.map Prod.fst).nodup_iff.2 (finalRules_wf _)
  · intro l hl
    rw [List.map_map]
    exact mass_plain h hs hl
  · intro f hf hl
    rw [List.map_map]
    have hr := (Represents.of_rfe hi hs).scale (fun z => 1 / TBGrammar.Spec.mass (s.map (fun x => (x.1, Dop.rfe (finalState (trees.zip sents)) x.1 x.2))) z)
    have e : Spec.normalise (s.map (Prod.fst ∘ fun x => ((x.1, Dop.rfe (finalState (trees.zip sents)) x.1 x.2),
      Dop.rfe (finalState (trees.zip sents)) x.1 x.2 * (1 / (cnt (finalFd (trees.zip sents)) (x.1.nts.headD []) * (if at? (x.1.nts.headD []) then 1 else cnt (finalNt (trees.zip sents)) (x.1.nts.headD [])))),
      (if at? (x.1.nts.headD []) then (1 : ℚ) else 1 / 2), 1 / (4 * (if at? (x.1.nts.headD []) then 1 else cnt (finalNt (trees.zip sents)) (x.1.nts.headD []))))))
      = (s.map (fun x => (x.1, Dop.rfe (finalState (trees.zip sents)) x.1 x.2))).map (fun x => (x.1, x.2 *
        (1 / TBGrammar.Spec.mass (s.map (fun x => (x.1, Dop.rfe (finalState (trees.zip sents)) x.1 x.2))) (x.1.nts.headD [])))) := by
      rw [Spec.normalise]
      refine List.map_congr_left (fun x _ => ?_)
      rw [mul_one_div]
      rfl
    rw [e, inside_nodes hi.ctx hi.yf hr (fun x hx l hl' ha => by rw [one_mul, mass_address hi hs hx hl' ha]) f hf, count_nodes h hf hl, mass_plain h hs hl]
    ring

/-- **C22.** The equal weights estimate: the total weight of all derivations of a fragment is its relative frequency among the fragments with its root label,
divided by the number of occurrences of the label, where the root of each tree counts twice. -/
theorem C22_ewe (trees : List (PTree Str)) (sents : List (List (Option Str))) (h : Spec.Treebank trees sents) :
    ∃ out, dopreduction trees sents [] = some out ∧
      ∀ f : Frag, f.isInner = true → '@' ∉ f.label →
        Spec.inside (out.map (fun x => (x.1.1, x.2.1))) f f.label =
          Spec.count trees sents f / (Spec.total trees sents f.label * (TBGrammar.Spec.occurrences trees f.label + Spec.roots trees f.label)) := by
  have hi := input_of_treebank h
  obtain ⟨s, hs, hd⟩ := dop_spec h
  refine ⟨_, hd, ?_⟩
  intro f hf hl
  rw [List.map_map]
  have hr := (Represents.of_rfe hi hs).scale (fun z => 1 / (cnt (finalFd (trees.zip sents)) z * (if at? z then 1 else cnt (finalNt (trees.zip sents)) z)))
  rw [List.map_map] at hr
  have h1 := inside_nodes hi.ctx hi.yf hr (fun x hx l hl' ha => by
    have : at? l.2 = true := by simpa [at?] using ha
    rw [one_mul, hi.ctx.fd x hx l hl' ha, this, if_pos rfl, mul_one]) f hf f.label
  have hat : at? f.label = false := by simpa [at?] using hl
  have hfst : (trees.zip sents).map Prod.fst = trees := List.map_fst_zip (by rw [h.ok.len])
  rw [count_nodes h hf hl, hat, if_neg (by simp), one_mul, hi.plain_fd hl, hi.nt hl, total_nodes h hl, hfst] at h1
  refine Eq.trans ?_ (h1.trans (by ring))
  rfl

/-- **C22.** The weights for the shortest derivation: a rule that introduces a fragment gets 1/2, the others 1. The Bonnema weight of a rule that introduces a
fragment is the same whether the rule occurs once or often in the treebank, so the frequency of a fragment plays no role in it. -/
theorem C22_shortest_bon (trees : List (PTree Str)) (sents : List (List (Option Str))) (h : Spec.Treebank trees sents) :
    ∃ out, dopreduction trees sents [] = some out ∧ ∀ x ∈ out, ∃ z, x.1.1.nts.head? = some z ∧
      ('@' ∈ z → x.2.2.1 = 1 ∧ x.2.2.2 = 1 / 4) ∧
      ('@' ∉ z → x.2.2.1 = 1 / 2 ∧ x.2.2.2 = 1 / (4 * (TBGrammar.Spec.occurrences trees z + Spec.roots trees z))) := by
  have hi := input_of_treebank h
  obtain ⟨s, hs, hd⟩ := dop_spec h
  refine ⟨_, hd, fun x hx => ?_⟩
  obtain ⟨y, hy, rfl⟩ := List.mem_map.1 hx
  obtain ⟨z, hz, _⟩ := hi.lhs (finalRules_mem (hs.mem_iff.1 hy)).1
  have hz' : y.1.nts.headD [] = z := by rw [List.headD_eq_head?_getD, hz]; rfl
  refine ⟨z, hz, fun ha => ?_, fun ha => ?_⟩
  · have : at? z = true := by simpa [at?] using ha
    simp only [hz', this, if_true, true_and]
    norm_num
  · have hat : at? z = false := by simpa [at?] using ha
    have hfst : (trees.zip sents).map Prod.fst = trees := List.map_fst_zip (by rw [h.ok.len])
    simp only [hz', hat, if_neg (by simp : ¬ (false = true)), hi.nt ha, hfst, and_self]

/-- **C22, disagreement.** `extrarules` is documented nowhere to be restricted to labels of the treebank, but an extra rule for a new label always ends in a division
by zero. -/
theorem C22_disagreement_extrarules (trees : List (PTree Str)) (sents : List (List (Option Str))) (h : Spec.Treebank trees sents) (r : Rule) (v : ℚ) (z : Str)
    (hr : r.nts.head? = some z) (hz : '@' ∉ z) (hnew : TBGrammar.Spec.occurrences trees z = 0) : dopreduction trees sents [(r, v)] = none := by
  have hi := input_of_treebank h
  have hf := foldlM_addTree (trees.zip sents) hi.input ⟨1, [], [], []⟩
  have hfst : (trees.zip sents).map Prod.fst = trees := List.map_fst_zip (by rw [h.ok.len])
  have hroots : Spec.roots trees z = 0 := by
    rw [Spec.roots, List.length_eq_zero_iff, List.filter_eq_nil_iff]
    intro t ht e
    rw [TBGrammar.Spec.occurrences, List.length_eq_zero_iff, List.filter_eq_nil_iff] at hnew
    have htn := h.tree t ht
    refine hnew t (List.mem_flatMap.2 ⟨t, ht, ?_⟩) e
    cases t with
    | leaf i => simp [isNode] at htn
    | node l cs => simp
  have hnt : cnt (finalNt (trees.zip sents)) z = 0 := by rw [hi.nt hz, hfst, hnew, hroots]; simp
  have hat : at? z = false := by simpa [at?] using hz
  rw [dopreduction, hf]
  simp only [Option.bind_eq_bind, Option.bind_some]
  have e1 : addAll ([] : Dict Str ℚ) ((bank 1 (trees.zip sents)).flatMap (fun x => ntOps [x.2])) = finalNt (trees.zip sents) := rfl
  rw [e1]
  cases hs : sortgrammar (addAll (addAll ([] : Dict Rule ℚ) (((nodesOf (bank 1 (trees.zip sents))).flatMap (fun x => tokens x.1 x.2)).map (fun r => (r, 1)))) [(r, v)]) with
  | none => rfl
  | some s =>
    obtain ⟨hp, _⟩ := sortgrammar_spec hs
    rw [Option.bind_some]
    have hmem : ∃ w, (r, w) ∈ s := by
      have : r ∈ keys (addAll (addAll ([] : Dict Rule ℚ) (((nodesOf (bank 1 (trees.zip sents))).flatMap (fun x => tokens x.1 x.2)).map (fun r => (r, 1)))) [(r, v)]) := by
        rw [mem_keys_addAll]; right; simp
      obtain ⟨x, hx, e⟩ := List.mem_map.1 this
      have e2 : x = (r, x.2) := by rw [← e]
      exact ⟨x.2, hp.mem_iff.2 (e2 ▸ hx)⟩
    obtain ⟨w, hw⟩ := hmem
    have key : ∀ (st : State) (s : List (Rule × ℚ)), cnt st.ntfd z = 0 → (r, w) ∈ s → s.mapM (weights st) = none := by
      intro st s hst
      induction s with
      | nil => intro hm; simp at hm
      | cons y s ih =>
        intro hm
        rw [List.mapM_cons]
        cases hm with
        | head => rw [weights, hr]; simp [hat, hst, div?]
        | tail _ hm =>
          rw [ih hm]
          cases weights st y <;> rfl
    exact key _ s hnt hw

theorem exDop : Spec.Treebank [exTree, exTree2] [exSent, exSent2] where
  ok := exTreebank
  tree := by simp [exTree, exTree2, isNode]
  noAt := by
    intro t ht s hs l hl
    simp only [List.mem_cons, List.not_mem_nil, or_false] at ht
    rcases ht with rfl | rfl
    · simp [exTree] at hs
      rcases hs with rfl | rfl | rfl | rfl | rfl <;> simp [label?] at hl <;> subst hl <;> decide
    · simp [exTree2] at hs
      rcases hs with rfl | rfl | rfl <;> simp [label?] at hl <;> subst hl <;> decide

/-- The fragment `(S NP V)` occurs once in this treebank with two trees; there are 10 + 4 fragments with root `S`, and `V` is the label of a fragment in both trees. -/
example : Spec.Treebank [exTree, exTree2] [exSent, exSent2] ∧ freq exTree = 10 ∧ freq exTree2 = 4 ∧
    (Frag.inner ['S'] (.spans [[0, 1]]) [.frontier ['N', 'P'], .frontier ['V']]).isInner = true ∧
    Spec.roots [exTree, exTree2] ['S'] = 2 ∧ TBGrammar.Spec.occurrences [exTree, exTree2] ['S'] = 2 ∧ TBGrammar.Spec.occurrences [exTree, exTree2] ['X'] = 0 :=
  ⟨exDop, by decide +kernel, by decide +kernel, rfl, by decide +kernel, by decide +kernel, by decide +kernel⟩

end Disco.Dop
