import Verif.Trees.SplitDisc
import Verif.Format.Escape
/-!
# C20: `lcfrsproductions` (grammar.py:24-97)
-/
namespace Disco.Prods
open PTree MinSort SplitDisc

/-- The second part of a production: a word, or the yield function. -/
inductive YF where
  | word (w : Str)
  | spans (yf : List (List Nat))
deriving DecidableEq, Repr

/-- A production `(nonterminals, yf)`. -/
structure Rule where
  nts : List Str
  yf : YF
deriving DecidableEq, Repr

/-- `'Epsilon'`. -/
def epsilon : Str := ['E', 'p', 's', 'i', 'l', 'o', 'n']

/-- `[(idx, n) for n, child in enumerate(childleaves) for idx in child]` (grammar.py:74-77), from child `n`. -/
def tagged (n : Nat) : List (PTree Str) → List (Nat × Nat)
  | [] => []
  | c :: cs => c.leaves.map (fun i => (i, n)) ++ tagged (n + 1) cs

/-- `leaves.sort(key=itemgetter(0), reverse=True)`, in the order in which `pop()` returns the elements (grammar.py:78-82). -/
def popped (xs : List (Nat × Nat)) : List (Nat × Nat) := (stableSort (fun a b => decide (b.1 ≤ a.1)) xs).reverse

/-- `yf[-1].append(p)`. -/
def appendLast (p : Nat) : List (List Nat) → List (List Nat)
  | [] => []
  | [a] => [a ++ [p]]
  | a :: b :: r => a :: appendLast p (b :: r)

/-- The loop (grammar.py:81-88). -/
def yfLoop : Nat → Nat → List (List Nat) → List (Nat × Nat) → List (List Nat)
  | _, _, yf, [] => yf
  | previdx, prevparent, yf, (idx, parent) :: rest =>
    if idx ≠ previdx + 1 then yfLoop idx parent (yf ++ [[parent]]) rest
    else if parent ≠ prevparent then yfLoop idx parent (appendLast parent yf) rest
    else yfLoop idx parent yf rest

/-- The yield function of a node with these children (grammar.py:73-88); `pop` from an empty list fails. -/
def yieldFunction (cs : List (PTree Str)) : Option (List (List Nat)) :=
  match popped (tagged 0 cs) with
  | [] => none
  | (previdx, prevparent) :: rest => some (yfLoop previdx prevparent [[prevparent]] rest)

/-- The production for one node (grammar.py:53-96): an exception (`none`), nothing (`some none`) or a production. -/
def prodOf (sent : List (Option Str)) (frontiers : Bool) : PTree Str → Option (Option Rule)
  | .leaf _ => none
  | .node _ [] => none
  | .node l (.leaf i :: cs) =>
    match cs, sent[i]? with
    | [], some (some w) => some (some ⟨[l, epsilon], .word (Escape.escape (some w))⟩)
    | _, _ => if frontiers then some (some ⟨[l], .spans []⟩) else some none
  | .node l (.node m ds :: cs) =>
    if cs.all isNode then (yieldFunction (.node m ds :: cs)).map (fun yf => some ⟨l :: (PTree.node m ds :: cs).filterMap label?, .spans yf⟩) else none

/-- The loop over the subtrees (grammar.py:51-97). -/
def prodLoop (sent : List (Option Str)) (frontiers : Bool) : List (PTree Str) → Option (List Rule)
  | [] => some []
  | st :: sts => do
    let r ← prodOf sent frontiers st
    let rs ← prodLoop sent frontiers sts
    pure (r.toList ++ rs)

/-- `lcfrsproductions(tree, sent, frontiers)` (grammar.py:24-97). -/
def lcfrsproductions (t : PTree Str) (sent : List (Option Str)) (frontiers : Bool) : Option (List Rule) :=
  if ¬ t.leaves.Nodup then none
  else if sent = [] then none
  else if ¬ t.leaves.all (· < sent.length) then none
  else prodLoop sent frontiers (subtrees t)

/-! ### Specification -/

/-- Use up one span of child `i`. -/
def Spec.drop1 (s : Nat → List (List Nat)) (i : Nat) (rest : List (List Nat)) : Nat → List (List Nat) := fun j => if j = i then rest else s j

/-- One argument of a yield function: concatenate the next span of each child it mentions. -/
def Spec.argument : List Nat → (Nat → List (List Nat)) → Option (List Nat × (Nat → List (List Nat)))
  | [], s => some ([], s)
  | i :: is, s => match s i with
    | [] => none
    | r :: rs => (argument is (Spec.drop1 s i rs)).map (fun p => (r ++ p.1, p.2))

/-- A yield function applied to the spans of the children: the resulting spans, and the spans of the children that are left over. -/
def Spec.apply : List (List Nat) → (Nat → List (List Nat)) → Option (List (List Nat) × (Nat → List (List Nat)))
  | [], s => some ([], s)
  | a :: as, s => (Spec.argument a s).bind (fun p => (apply as p.2).map (fun q => (p.1 :: q.1, q.2)))

/-- The spans of a constituent: its terminals as maximal runs. -/
def Spec.spansOf (t : PTree Str) : List (List Nat) := SplitDisc.Spec.runs (sortNat t.leaves)

/-- The spans of the children of a node. -/
def Spec.childSpans (cs : List (PTree Str)) (i : Nat) : List (List Nat) := (cs[i]?.map Spec.spansOf).getD []

/-- A production describes a constituent: a word with its tag; or a node with the labels of its children in order, and a yield function
that puts the spans of the children together to the spans of the node, such that all spans of all children are used, adjacent spans of a
child are not mentioned twice, and no argument is empty. -/
def Spec.Describes (sent : List (Option Str)) : PTree Str → Rule → Prop
  | .node l [.leaf i], r => ∃ w, sent[i]? = some (some w) ∧ r = ⟨[l, epsilon], .word (Escape.escape (some w))⟩
  | .node l cs, r => (∀ c ∈ cs, c.isNode) ∧ ∃ yf, r = ⟨l :: cs.filterMap label?, .spans yf⟩ ∧
      Spec.apply yf (Spec.childSpans cs) = some (Spec.spansOf (.node l cs), fun _ => []) ∧
      ∀ a ∈ yf, a ≠ [] ∧ a.IsChain (· ≠ ·)
  | .leaf _, _ => False

/-- Well-formed input: terminals are distinct indices of words, each word has its preterminal, no empty constituents. -/
structure Spec.Input (t : PTree Str) (sent : List (Option Str)) : Prop where
  wf : SplitDisc.Spec.WF t
  range : ∀ i ∈ t.leaves, ∃ w, sent[i]? = some (some w)

/-! ### The yield function -/

/-- The yield function, from the right. -/
def yfR : List (Nat × Nat) → List (List Nat)
  | [] => []
  | [(_, p)] => [[p]]
  | (i, p) :: (j, q) :: rest =>
    if j ≠ i + 1 then [p] :: yfR ((j, q) :: rest)
    else if q ≠ p then match yfR ((j, q) :: rest) with
      | a :: as => (p :: a) :: as
      | [] => []
    else yfR ((j, q) :: rest)

/-- The first argument starts with the first parent. -/
theorem yfR_head (i p : Nat) (rest : List (Nat × Nat)) : ∃ a as, yfR ((i, p) :: rest) = (p :: a) :: as := by
  induction rest generalizing i p with
  | nil => exact ⟨[], [], rfl⟩
  | cons x rest ih =>
    obtain ⟨j, q⟩ := x
    obtain ⟨a, as, h⟩ := ih j q
    rw [yfR, h]
    split
    · exact ⟨_, _, rfl⟩
    · split
      · exact ⟨_, _, rfl⟩
      · rename_i _ hq
        simp only [ne_eq, Decidable.not_not] at hq
        subst hq
        exact ⟨a, as, rfl⟩

theorem appendLast_concat (p : Nat) (init : List (List Nat)) (a : List Nat) : appendLast p (init ++ [a]) = init ++ [a ++ [p]] := by
  induction init with
  | nil => rfl
  | cons b init ih =>
    cases init with
    | nil => simp [appendLast]
    | cons c init => rw [List.cons_append, List.cons_append, appendLast, ← List.cons_append, ih]; rfl

theorem yfLoop_eq (rest : List (Nat × Nat)) : ∀ (i p : Nat) (init : List (List Nat)) (a : List Nat),
    yfLoop i p (init ++ [a ++ [p]]) rest = init ++ (match yfR ((i, p) :: rest) with
      | b :: bs => (a ++ b) :: bs
      | [] => []) := by
  induction rest with
  | nil => intro i p init a; rfl
  | cons x rest ih =>
    intro i p init a
    obtain ⟨j, q⟩ := x
    obtain ⟨b, bs, hb⟩ := yfR_head j q rest
    rw [yfLoop, yfR, hb]
    split
    · have := ih j q (init ++ [a ++ [p]]) []
      rw [List.nil_append] at this
      rw [this, hb]
      simp
    · split
      · rw [appendLast_concat, ih j q init (a ++ [p]), hb]
        simp
      · rename_i _ hq
        simp only [ne_eq, Decidable.not_not] at hq
        subst hq
        rw [ih j q init a, hb]

/-- The spans of child `k`. -/
def spansIn (P : List (Nat × Nat)) (k : Nat) : List (List Nat) := SplitDisc.Spec.runs ((P.filter (fun x => x.2 = k)).map Prod.fst)

theorem spansIn_other {i p k : Nat} {P : List (Nat × Nat)} (h : k ≠ p) : spansIn ((i, p) :: P) k = spansIn P k := by
  simp [spansIn, Ne.symm h]

theorem spansIn_same {i p : Nat} {P : List (Nat × Nat)} :
    spansIn ((i, p) :: P) p = SplitDisc.Spec.runs (i :: (P.filter (fun x => x.2 = p)).map Prod.fst) := by
  simp [spansIn]

theorem drop1_eta {s : Nat → List (List Nat)} {k : Nat} {rest : List (List Nat)} {t : Nat → List (List Nat)} (h1 : t k = rest)
    (h2 : ∀ j, j ≠ k → t j = s j) : Spec.drop1 s k rest = t := by
  funext j
  rw [Spec.drop1]
  split
  · rename_i e; rw [e, h1]
  · rename_i e; rw [h2 j e]

theorem apply_yfR (P : List (Nat × Nat)) (h : P.Pairwise (fun a b => a.1 < b.1)) :
    Spec.apply (yfR P) (spansIn P) = some (SplitDisc.Spec.runs (P.map Prod.fst), fun _ => []) := by
  induction P with
  | nil => rfl
  | cons x P ih =>
    obtain ⟨i, p⟩ := x
    rw [List.pairwise_cons] at h
    have ih := ih h.2
    cases P with
    | nil =>
      rw [yfR, Spec.apply, Spec.argument]
      have e : spansIn [(i, p)] p = [[i]] := by simp [spansIn, SplitDisc.Spec.runs]
      rw [e]
      have e2 : Spec.drop1 (spansIn [(i, p)]) p [] = fun _ => [] :=
        drop1_eta rfl (fun j hj => by rw [spansIn_other hj]; rfl)
      simp [Spec.argument, Spec.apply, e2, SplitDisc.Spec.runs]
    | cons y P =>
      obtain ⟨j, q⟩ := y
      have hlt : i < j := h.1 (j, q) (by simp)
      obtain ⟨b, bs, hb⟩ := yfR_head j q P
      have later : ∀ k, k ≠ q ∨ j ≠ i + 1 → ((((j, q) :: P).filter (fun x => x.2 = k)).map Prod.fst).head? ≠ some (i + 1) := by
        intro k hk he
        have hm := List.mem_of_mem_head? he
        obtain ⟨z, hz, he⟩ := List.mem_map.1 hm
        obtain ⟨hz, hz2⟩ := List.mem_filter.1 hz
        simp only [decide_eq_true_eq] at hz2
        rcases List.mem_cons.1 hz with rfl | hz
        · simp only at he hz2
          rcases hk with hk | hk
          · exact hk hz2.symm
          · exact hk he
        · have := (List.pairwise_cons.1 h.2).1 z hz
          simp only at this
          omega
      rw [yfR]
      by_cases hj : j ≠ i + 1
      · -- a gap
        rw [if_pos hj, Spec.apply, Spec.argument, spansIn_same, runs_cons_gap _ _ (later p (.inr hj))]
        have e : Spec.drop1 (spansIn ((i, p) :: (j, q) :: P)) p (SplitDisc.Spec.runs ((((j, q) :: P).filter (fun x => x.2 = p)).map Prod.fst)) =
            spansIn ((j, q) :: P) := drop1_eta rfl (fun k hk => (spansIn_other hk).symm)
        simp only [e, Spec.argument, Option.map_some, Option.bind_some, ih, List.append_nil]
        have := runs_cons_gap i (((j, q) :: P).map Prod.fst) (by simpa using hj)
        rw [show ((i, p) :: (j, q) :: P).map Prod.fst = i :: ((j, q) :: P).map Prod.fst from rfl, this]
      · rw [if_neg hj]
        simp only [ne_eq, Decidable.not_not] at hj
        obtain ⟨r0, rs, hr1, hr2⟩ := runs_cons_next i (((j, q) :: P).map Prod.fst) (by simp [hj])
        rw [List.map_cons, hr2]
        rw [hr1, hb] at ih
        by_cases hq : q ≠ p
        · -- another child takes over
          rw [if_pos hq, hb]
          simp only
          rw [Spec.apply, Spec.argument, spansIn_same, runs_cons_gap _ _ (later p (.inl (Ne.symm hq)))]
          have e : Spec.drop1 (spansIn ((i, p) :: (j, q) :: P)) p (SplitDisc.Spec.runs ((((j, q) :: P).filter (fun x => x.2 = p)).map Prod.fst)) =
              spansIn ((j, q) :: P) := drop1_eta rfl (fun k hk => (spansIn_other hk).symm)
          simp only [e]
          rw [Spec.apply] at ih
          cases ha : Spec.argument (q :: b) (spansIn ((j, q) :: P)) with
          | none => rw [ha] at ih; simp at ih
          | some w =>
            obtain ⟨w1, w2⟩ := w
            rw [ha, Option.bind_some] at ih
            simp only at ih
            simp only [Option.map_some, Option.bind_some]
            cases hb2 : Spec.apply bs w2 with
            | none => rw [hb2] at ih; simp at ih
            | some v =>
              rw [hb2] at ih
              simp only [Option.map_some, Option.some.injEq, Prod.mk.injEq, List.cons.injEq] at ih ⊢
              obtain ⟨⟨k1, k2⟩, k3⟩ := ih
              subst k1 k2
              exact ⟨⟨rfl, rfl⟩, k3⟩
        · -- the same child goes on
          simp only [ne_eq, Decidable.not_not] at hq
          subst hq
          rw [if_neg (by simp), hb]
          rw [Spec.apply, Spec.argument] at ih ⊢
          have hh : ((((j, q) :: P).filter (fun x => x.2 = q)).map Prod.fst).head? = some (i + 1) := by simp [hj]
          obtain ⟨s0, ss, hs1, hs2⟩ := runs_cons_next i _ hh
          rw [spansIn_same, hs2]
          have e0 : spansIn ((j, q) :: P) q = s0 :: ss := hs1
          rw [e0] at ih
          have e : Spec.drop1 (spansIn ((i, q) :: (j, q) :: P)) q ss = Spec.drop1 (spansIn ((j, q) :: P)) q ss := by
            funext k
            rw [Spec.drop1, Spec.drop1]
            split
            · rfl
            · rename_i hk; exact spansIn_other hk
          simp only [e]
          simp only at ih
          cases ha : Spec.argument b (Spec.drop1 (spansIn ((j, q) :: P)) q ss) with
          | none => rw [ha] at ih; simp at ih
          | some w =>
            obtain ⟨w1, w2⟩ := w
            rw [ha] at ih
            simp only [Option.map_some, Option.bind_some] at ih ⊢
            cases hb2 : Spec.apply bs w2 with
            | none => rw [hb2] at ih; simp at ih
            | some v =>
              rw [hb2] at ih
              simp only [Option.map_some, Option.some.injEq, Prod.mk.injEq, List.cons.injEq] at ih ⊢
              obtain ⟨⟨k1, k2⟩, k3⟩ := ih
              subst k1 k2
              exact ⟨⟨rfl, rfl⟩, k3⟩

theorem yfR_chain (P : List (Nat × Nat)) : ∀ a ∈ yfR P, a ≠ [] ∧ a.IsChain (· ≠ ·) := by
  induction P with
  | nil => simp [yfR]
  | cons x P ih =>
    obtain ⟨i, p⟩ := x
    cases P with
    | nil => simp [yfR]
    | cons y P =>
      obtain ⟨j, q⟩ := y
      obtain ⟨b, bs, hb⟩ := yfR_head j q P
      rw [hb] at ih
      rw [yfR, hb]
      intro a ha
      split at ha
      · rcases List.mem_cons.1 ha with rfl | ha
        · simp
        · exact ih a ha
      · split at ha
        · rename_i hq
          rcases List.mem_cons.1 ha with rfl | ha
          · refine ⟨by simp, ?_⟩
            exact List.IsChain.cons_cons (Ne.symm hq) (ih (q :: b) (by simp)).2
          · exact ih a (by simp [ha])
        · exact ih a ha

/-! ### The terminals of the children -/

theorem tagged_fst (n : Nat) (cs : List (PTree Str)) : (tagged n cs).map Prod.fst = leavesL cs := by
  induction cs generalizing n with
  | nil => rfl
  | cons c cs ih => rw [tagged, List.map_append, ih, leavesL_cons, List.map_map]; simp [Function.comp_def]

theorem tagged_ge (n : Nat) (cs : List (PTree Str)) : ∀ x ∈ tagged n cs, n ≤ x.2 := by
  induction cs generalizing n with
  | nil => simp [tagged]
  | cons c cs ih =>
    intro x hx
    rw [tagged, List.mem_append] at hx
    rcases hx with hx | hx
    · obtain ⟨i, _, rfl⟩ := List.mem_map.1 hx; simp
    · have := ih (n + 1) x hx; omega

theorem tagged_filter (k : Nat) (cs : List (PTree Str)) : ∀ n, ((tagged n cs).filter (fun x => x.2 = n + k)).map Prod.fst = (cs[k]?.map leaves).getD [] := by
  induction cs generalizing k with
  | nil => intro n; simp [tagged]
  | cons c cs ih =>
    intro n
    rw [tagged, List.filter_append, List.map_append]
    cases k with
    | zero =>
      have e1 : (c.leaves.map (fun i => (i, n))).filter (fun x => x.2 = n + 0) = c.leaves.map (fun i => (i, n)) := by
        rw [List.filter_eq_self]
        intro x hx
        obtain ⟨i, _, rfl⟩ := List.mem_map.1 hx
        simp
      have e2 : (tagged (n + 1) cs).filter (fun x => x.2 = n + 0) = [] := by
        rw [List.filter_eq_nil_iff]
        intro x hx
        have := tagged_ge (n + 1) cs x hx
        simp
        omega
      rw [e1, e2]
      simp [Function.comp_def]
    | succ k =>
      have e1 : (c.leaves.map (fun i => (i, n))).filter (fun x => x.2 = n + (k + 1)) = [] := by
        rw [List.filter_eq_nil_iff]
        intro x hx
        obtain ⟨i, _, rfl⟩ := List.mem_map.1 hx
        simp
      have := ih k (n + 1)
      rw [e1, show n + (k + 1) = n + 1 + k by omega, this]
      simp

theorem popped_perm (xs : List (Nat × Nat)) : (popped xs).Perm xs := (List.reverse_perm _).trans (StableSort.perm xs)

theorem popped_sorted {xs : List (Nat × Nat)} (h : (xs.map Prod.fst).Nodup) : (popped xs).Pairwise (fun a b => a.1 < b.1) := by
  have h1 := StableSort.pairwise (le := fun a b : Nat × Nat => decide (b.1 ≤ a.1)) (by simp; omega) (by simp; omega) xs
  rw [popped, List.pairwise_reverse]
  have hnd : ((stableSort (fun a b : Nat × Nat => decide (b.1 ≤ a.1)) xs).map Prod.fst).Nodup := (((StableSort.perm xs).map _).nodup_iff).2 h
  rw [List.Nodup, List.pairwise_map] at hnd
  refine (h1.and hnd).imp ?_
  rintro a b ⟨h1, h2⟩
  simp only [decide_eq_true_eq] at h1
  omega

theorem sortNat_nil : sortNat [] = [] := rfl

theorem yieldFunction_spec {cs : List (PTree Str)} (hnd : (leavesL cs).Nodup) (hne : leavesL cs ≠ []) :
    ∃ yf, yieldFunction cs = some yf ∧
      Spec.apply yf (Spec.childSpans cs) = some (SplitDisc.Spec.runs (sortNat (leavesL cs)), fun _ => []) ∧
      ∀ a ∈ yf, a ≠ [] ∧ a.IsChain (· ≠ ·) := by
  have hperm := popped_perm (tagged 0 cs)
  have hso : (popped (tagged 0 cs)).Pairwise (fun a b => a.1 < b.1) := popped_sorted (by rw [tagged_fst]; exact hnd)
  have hfst : sortNat (leavesL cs) = (popped (tagged 0 cs)).map Prod.fst := by
    refine sortNat_eq hnd ?_ (by rw [List.pairwise_map]; exact hso)
    have := (hperm.map Prod.fst).symm
    rwa [tagged_fst] at this
  have hspans : Spec.childSpans cs = spansIn (popped (tagged 0 cs)) := by
    funext k
    have h1 := (hperm.filter (fun x => x.2 = k)).map Prod.fst
    have h2 := tagged_filter k cs 0
    rw [Nat.zero_add] at h2
    rw [h2] at h1
    have h3 : (((popped (tagged 0 cs)).filter (fun x => x.2 = k)).map Prod.fst).Pairwise (· < ·) := by
      rw [List.pairwise_map]
      exact hso.sublist List.filter_sublist
    rw [spansIn, Spec.childSpans]
    cases hk : cs[k]? with
    | none =>
      rw [hk] at h1
      simp only [Option.map_none, Option.getD_none] at h1 ⊢
      rw [h1.eq_nil]; rfl
    | some c =>
      rw [hk] at h1
      simp only [Option.map_some, Option.getD_some] at h1 ⊢
      rw [Spec.spansOf]
      congr 1
      have hcn : c.leaves.Nodup := (h1.nodup_iff).1 (h3.imp (fun h => Nat.ne_of_lt h))
      exact sortNat_eq hcn h1.symm h3
  rw [yieldFunction, hspans, hfst]
  have hpn : popped (tagged 0 cs) ≠ [] := by
    intro e
    rw [e] at hfst
    have := (sortNat_perm (leavesL cs)).length_eq
    rw [hfst] at this
    exact hne (List.length_eq_zero_iff.1 this.symm)
  revert hso hpn
  generalize popped (tagged 0 cs) = P
  intro hso hpn
  cases P with
  | nil => exact absurd rfl hpn
  | cons x P =>
    obtain ⟨i, p⟩ := x
    have hloop : yfLoop i p [[p]] P = yfR ((i, p) :: P) := by
      have := yfLoop_eq P i p [] []
      simp only [List.nil_append] at this
      rw [this]
      obtain ⟨a, as, h⟩ := yfR_head i p P
      rw [h]
    refine ⟨_, rfl, ?_, ?_⟩
    · rw [hloop]; exact apply_yfR _ hso
    · rw [hloop]; exact yfR_chain _

/-! ### C20 -/

theorem subtree_leaves {t st : PTree Str} (h : st ∈ subtrees t) : st.leaves.Sublist t.leaves := by
  induction t using PTree.ind with
  | hleaf i => simp at h
  | hnode l cs ih =>
    rw [subtrees_node, List.mem_cons] at h
    rcases h with rfl | h
    · exact List.Sublist.refl _
    · obtain ⟨c, hc, h⟩ := mem_subtreesL.1 h
      refine (ih c hc h).trans ?_
      rw [leaves_node, leavesL_eq_flatMap]
      rw [List.flatMap_def]
      exact List.sublist_flatten_of_mem (List.mem_map.2 ⟨c, hc, rfl⟩)

theorem wf_subtree {t st : PTree Str} (h : SplitDisc.Spec.WF t) (hst : st ∈ subtrees t) : SplitDisc.Spec.WF st :=
  ⟨fun l cs hm => h.pre l cs (subtrees_trans hm hst), fun l hm => h.noEmpty l (subtrees_trans hm hst), h.nodup.sublist (subtree_leaves hst)⟩

theorem prodOf_spec {sent : List (Option Str)} (frontiers : Bool) {t : PTree Str} (h : Spec.Input t sent) {st : PTree Str} (hst : st ∈ subtrees t) :
    ∃ r, prodOf sent frontiers st = some (some r) ∧ Spec.Describes sent st r := by
  obtain ⟨l, cs, rfl⟩ := mem_subtrees_self_isNode hst
  have hw := wf_subtree h.wf hst
  rcases hw.pre l cs (by simp) with hn | ⟨i, rfl⟩
  · cases cs with
    | nil => exact absurd (by simp) (hw.noEmpty l)
    | cons c cs =>
      have hc := hn c (by simp)
      cases c with
      | leaf i => simp [isNode] at hc
      | node m ds =>
        have hnd := hw.nodup
        have hne := hw.ne
        rw [leaves_node] at hnd hne
        obtain ⟨yf, h1, h2, h3⟩ := yieldFunction_spec hnd hne
        refine ⟨⟨l :: (PTree.node m ds :: cs).filterMap label?, .spans yf⟩, ?_, hn, yf, rfl, ?_, h3⟩
        · rw [prodOf, if_pos, h1]; · rfl
          rw [List.all_eq_true]
          exact fun c hc => hn c (by simp [hc])
        · rw [h2, Spec.spansOf, leaves_node]
  · obtain ⟨w, hw⟩ := h.range i ((subtree_leaves hst).subset (by simp))
    refine ⟨⟨[l, epsilon], .word (Escape.escape (some w))⟩, ?_, w, hw, rfl⟩
    rw [prodOf]
    simp [hw]

/-- **C20.** For every tree with distinct terminals over a sentence, the productions correspond one-to-one and in order to the constituents,
and each describes its constituent: its yield function composes the spans of the children to those of the constituent, using each span of
each child exactly once and in order. -/
theorem C20_productions (t : PTree Str) (sent : List (Option Str)) (frontiers : Bool) (h : Spec.Input t sent) :
    ∃ rules, lcfrsproductions t sent frontiers = some rules ∧ List.Forall₂ (Spec.Describes sent) (subtrees t) rules := by
  have hloop : ∀ sts : List (PTree Str), (∀ st ∈ sts, st ∈ subtrees t) →
      ∃ rules, prodLoop sent frontiers sts = some rules ∧ List.Forall₂ (Spec.Describes sent) sts rules := by
    intro sts
    induction sts with
    | nil => intro _; exact ⟨[], rfl, .nil⟩
    | cons st sts ih =>
      intro hs
      obtain ⟨r, hr, hd⟩ := prodOf_spec frontiers h (hs st (by simp))
      obtain ⟨rs, hrs, hds⟩ := ih (fun x hx => hs x (by simp [hx]))
      exact ⟨r :: rs, by rw [prodLoop, hr, hrs]; rfl, .cons hd hds⟩
  obtain ⟨rules, h1, h2⟩ := hloop (subtrees t) (fun _ h => h)
  refine ⟨rules, ?_, h2⟩
  have hlt : ∀ i ∈ t.leaves, i < sent.length := by
    intro i hi
    obtain ⟨w, hw⟩ := h.range i hi
    exact (List.getElem?_eq_some_iff.1 hw).1
  rw [lcfrsproductions, if_neg (by simpa using h.wf.nodup), if_neg, if_neg, h1]
  · simpa using hlt
  · intro e
    obtain ⟨i, hi⟩ := List.exists_mem_of_ne_nil _ h.wf.ne
    have := hlt i hi
    rw [e] at this
    simp at this

/-- How often an argument list mentions child `k`. -/
def Spec.mentions (yf : List (List Nat)) (k : Nat) : Nat := yf.flatten.count k

theorem argument_count (k : Nat) : ∀ (a : List Nat) (s : Nat → List (List Nat)) (x : List Nat) (s' : Nat → List (List Nat)),
    Spec.argument a s = some (x, s') → (s k).length = a.count k + (s' k).length := by
  intro a
  induction a with
  | nil => intro s x s' h; simp [Spec.argument] at h; simp [h.2]
  | cons i a ih =>
    intro s x s' h
    rw [Spec.argument] at h
    split at h
    · simp at h
    · rename_i r rs hs
      simp only [Option.map_eq_some_iff] at h
      obtain ⟨⟨x', s''⟩, h1, h2⟩ := h
      simp only [Prod.mk.injEq] at h2
      obtain ⟨_, rfl⟩ := h2
      have := ih _ _ _ h1
      rw [Spec.drop1] at this
      rw [List.count_cons]
      by_cases e : k = i
      · subst e
        rw [if_pos rfl] at this
        rw [hs]
        simp
        omega
      · rw [if_neg e] at this
        have e' : (i == k) = false := by simpa using Ne.symm e
        rw [e']
        simpa using this

theorem apply_count (k : Nat) : ∀ (yf : List (List Nat)) (s : Nat → List (List Nat)) (x : List (List Nat)) (s' : Nat → List (List Nat)),
    Spec.apply yf s = some (x, s') → (s k).length = Spec.mentions yf k + (s' k).length ∧ x.length = yf.length := by
  intro yf
  induction yf with
  | nil => intro s x s' h; simp [Spec.apply] at h; simp [Spec.mentions, h]
  | cons a yf ih =>
    intro s x s' h
    rw [Spec.apply] at h
    simp only [Option.bind_eq_some_iff, Option.map_eq_some_iff] at h
    obtain ⟨⟨y, s1⟩, h1, ⟨z, s2⟩, h2, h3⟩ := h
    simp only [Prod.mk.injEq] at h3
    obtain ⟨rfl, rfl⟩ := h3
    have c1 := argument_count k _ _ _ _ h1
    have c2 := ih _ _ _ h2
    simp only [Spec.mentions, List.flatten_cons, List.count_append, List.length_cons] at *
    omega

/-- **C20.** Hence the extracted grammar is linear and non-erasing: the yield function has as many arguments as the constituent has spans, and
mentions each child as often as that child has spans. -/
theorem C20_linear (sent : List (Option Str)) (l : Str) (cs : List (PTree Str)) (r : Rule) (hn : ∀ c ∈ cs, c.isNode)
    (h : Spec.Describes sent (.node l cs) r) :
    ∃ yf, r.yf = .spans yf ∧ yf.length = (Spec.spansOf (.node l cs)).length ∧
      ∀ k, Spec.mentions yf k = (Spec.childSpans cs k).length := by
  have key : ∃ yf, r = ⟨l :: cs.filterMap label?, .spans yf⟩ ∧
      Spec.apply yf (Spec.childSpans cs) = some (Spec.spansOf (.node l cs), fun _ => []) := by
    unfold Spec.Describes at h
    split at h
    · rename_i heq; cases heq; have := hn _ (List.mem_singleton.2 rfl); simp [isNode] at this
    · rename_i heq
      cases heq
      obtain ⟨_, yf, h1, h2, _⟩ := h
      exact ⟨yf, h1, h2⟩
    · rename_i heq; cases heq
  obtain ⟨yf, rfl, h2⟩ := key
  refine ⟨yf, rfl, (apply_count 0 _ _ _ _ h2).2.symm, fun k => ?_⟩
  have := (apply_count k _ _ _ _ h2).1
  simpa using this.symm

/-- The productions of the example in the documentation: `(S (VP_2 (V 0) (ADJ 2)) (NP 1))`. -/
def exTree : PTree Str := .node ['S'] [.node ['V','P','_','2'] [.node ['V'] [.leaf 0], .node ['A','D','J'] [.leaf 2]], .node ['N','P'] [.leaf 1]]
def exSent : List (Option Str) := [some ['i','s'], some ['M','a','r','y'], some ['h','a','p','p','y']]

theorem exTree_input : Spec.Input exTree exSent := by
  refine ⟨⟨?_, ?_, by decide +kernel⟩, ?_⟩
  · intro l cs h
    simp [exTree] at h
    rcases h with ⟨_, rfl⟩ | ⟨_, rfl⟩ | ⟨_, rfl⟩ | ⟨_, rfl⟩ | ⟨_, rfl⟩ <;> simp [isNode]
  · intro l h
    simp [exTree] at h
  · intro i hi
    simp [exTree] at hi
    rcases hi with rfl | rfl | rfl <;> exact ⟨_, rfl⟩

example : Spec.Input exTree exSent ∧ lcfrsproductions exTree exSent false = some [
    ⟨[['S'], ['V','P','_','2'], ['N','P']], .spans [[0, 1, 0]]⟩,
    ⟨[['V','P','_','2'], ['V'], ['A','D','J']], .spans [[0], [1]]⟩,
    ⟨[['V'], epsilon], .word ['i','s']⟩, ⟨[['A','D','J'], epsilon], .word ['h','a','p','p','y']⟩, ⟨[['N','P'], epsilon], .word ['M','a','r','y']⟩] := by
  refine ⟨exTree_input, ?_⟩
  have e : ∀ w : Str, '(' ∉ w → ')' ∉ w → Escape.escape (some w) = w := by
    intro w h1 h2
    have aux : ∀ (a : Char) (rep w : Str), a ∉ w → Escape.replace [a] rep w = w := by
      intro a rep w h
      rw [Escape.replace_char]
      induction w with
      | nil => rfl
      | cons c w ih =>
        simp only [List.mem_cons, not_or] at h
        rw [List.flatMap_cons, ih h.2, if_neg (Ne.symm h.1)]
        rfl
    rw [Escape.escape, aux _ _ _ h1, aux _ _ _ h2]
  have e1 := e ['i','s'] (by decide) (by decide)
  have e2 := e ['h','a','p','p','y'] (by decide) (by decide)
  have e3 := e ['M','a','r','y'] (by decide) (by decide)
  have y1 : yieldFunction [.node ['V','P','_','2'] [.node ['V'] [.leaf 0], .node ['A','D','J'] [.leaf 2]], .node ['N','P'] [.leaf 1]] = some [[0, 1, 0]] := by
    decide +kernel
  have y2 : yieldFunction [.node ['V'] [.leaf 0], .node ['A','D','J'] [.leaf 2]] = some [[0], [1]] := by decide +kernel
  simp [lcfrsproductions, exTree, exSent, prodLoop, prodOf, e1, e2, e3, y1, y2, isNode, label?]

/-- A constituent whose first child is a terminal next to other children is passed over without an error. -/
theorem C20_mixed_skipped : lcfrsproductions (.node ['S'] [.leaf 0, .node ['A'] [.leaf 1, .leaf 2]]) [some ['a'], some ['b'], some ['c']] false = some [] := by
  decide +kernel

end Disco.Prods
