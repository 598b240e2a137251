import Verif.Format.Bracket

/-!
# Fallback parses (C31)

Models `partitionincompletechart` (`discodop/kbest.pyx:237-261`), `LCFRSChart.bestsubtree` (`discodop/plcfrs.pyx:107-121`), the
assembly of a partial parse (`discodop/parser.py:459-491`) and the dummy parse: `defaultparse` (`discodop/grammar.py:1017-1036`) as
used by `noparse` (`discodop/parser.py:561-575`).
-/

namespace Disco.Partition

open Disco PTree Bracket

/-! ### Model -/

/-- `SmallLCFRSChart.bestsubtree` (plcfrs.pyx:107-121): loop over all items; `ok` is the test that the label contains neither `*` nor
`<`; costs are extended numbers, `none` is `INFINITY`.  Returns an index, 0 if there is no such item. -/
def bestsubtree {C : Type} [DecidableEq C] (ok : Nat → Bool) (vec : C) (items : List (Nat × C × Option Nat)) : Nat :=
  (items.zipIdx.foldl (fun (best : Option Nat × Nat) (x : (Nat × C × Option Nat) × Nat) =>
    if x.1.2.1 = vec ∧ ok x.1.1 = true then
      match x.1.2.2, best.1 with
      | none, _ => best
      | some p, none => (some p, x.2)
      | some p, some q => if p < q then (some p, x.2) else best
    else best) (none, 0)).2

/-- The two nested loops of `partitionincompletechart` (kbest.pyx:243-248): the first interval, longest first and then left to right,
with an item; `best a b` is the label of `chart.bestsubtree(a, b)`, or `none` if that is 0. -/
def largest (best : Nat → Nat → Option Str) (start fin : Nat) : Option (Str × Nat × Nat) :=
  (List.range' 1 (fin - start)).reverse.findSome? fun len =>
    (List.range' start (fin - len + 1 - start)).findSome? fun s1 => (best s1 (s1 + len)).map fun l => (l, s1, s1 + len)

/-- `'NOPARSE'`. -/
def noparseLabel : Str := ['N', 'O', 'P', 'A', 'R', 'S', 'E']

/-- `partitionincompletechart` (kbest.pyx:237-261); the first argument bounds the recursion depth. -/
def part (best : Nat → Nat → Option Str) : Nat → Nat → Nat → List (Str × Nat × Nat)
  | 0, _, _ => []
  | n + 1, start, fin =>
    match largest best start fin with
    | some (l, a, b) =>
      (if start < a then part best n start a else []) ++ (l, a, b) :: (if b < fin then part best n b fin else [])
    | none => (noparseLabel, start, start + 1) :: (if start + 1 < fin then part best n (start + 1) fin else [])

/-- `partitionincompletechart(chart, start, end)`. -/
def partition (best : Nat → Nat → Option Str) (start fin : Nat) : List (Str × Nat × Nat) := part best (fin - start + 1) start fin

mutual
/-- `for node in parttree.subtrees(lambda n: isinstance(n[0], int)): node[0] += a` (parser.py:477-479): only the first child is changed. -/
def shift (a : Nat) : PTree Str → PTree Str
  | .leaf i => .leaf i
  | .node l cs => .node l (shiftL a cs)
/-- The children of a node: a terminal in first position is shifted. -/
def shiftL (a : Nat) : List (PTree Str) → List (PTree Str)
  | [] => []
  | .leaf i :: cs => .leaf (i + a) :: shiftR a cs
  | .node l ds :: cs => .node l (shiftL a ds) :: shiftR a cs
/-- The other children. -/
def shiftR (a : Nat) : List (PTree Str) → List (PTree Str)
  | [] => []
  | c :: cs => shift a c :: shiftR a cs
end

/-- One element of `tmp` (parser.py:464-480): `parse l a b` is the best parse tree of `sent[a:b]` with root `l`. -/
def piece (parse : Str → Nat → Nat → PTree Str) (x : Str × Nat × Nat) : Str :=
  if x.1 = noparseLabel then '(' :: 'N' :: 'N' :: ' ' :: (Nat.toDigits 10 x.2.1 ++ [')'])
  else flat (shift x.2.1 (parse x.1 x.2.1 x.2.2))

/-- `'(ROOT %s)' % ' '.join(tmp)` (parser.py:459-486). -/
def partial_ (best : Nat → Nat → Option Str) (parse : Str → Nat → Nat → PTree Str) (n : Nat) : Str :=
  '(' :: 'R' :: 'O' :: 'O' :: 'T' :: ' ' :: (Str.join [' '] ((partition best 0 n).map (piece parse)) ++ [')'])

/-- `"(%s %s)" % (tag, word)`. -/
def pre (wt : Str × Str) : Str := '(' :: (wt.2 ++ ' ' :: (wt.1 ++ [')']))

/-- `defaultparse(wordstags, rightbranching)` (grammar.py:1017-1036); words and tags are strings, `none` is the `IndexError` for an
empty list. -/
def defaultparse : List (Str × Str) → Bool → Option Str
  | wts, false => some ('(' :: (noparseLabel ++ ' ' :: (Str.join [' '] (wts.map pre) ++ [')'])))
  | [], true => none
  | [wt], true => some ('(' :: 'N' :: 'P' :: ' ' :: (pre wt ++ [')']))
  | wt :: wt' :: wts, true =>
    (defaultparse (wt' :: wts) true).map fun s => '(' :: 'N' :: 'P' :: ' ' :: (pre wt ++ ' ' :: (s ++ [')']))

/-- `noparse` (parser.py:567-570) with `n` words: the string `'(%s %s)' % (start, default)`, `tags` given or `NN` for each word. -/
def dummy (start : Str) (n : Nat) (tags : Option (List Str)) : Option Str :=
  let ts := match tags with
    | some [] | none => List.replicate n ['N', 'N']
    | some ts => ts
  (defaultparse (ts.zipIdx.map fun ti => (Nat.toDigits 10 ti.2, ti.1)) false).map
    fun s => '(' :: (start ++ ' ' :: (s ++ [')']))

/-! ### Specification -/

/-- The intervals tile `[a, b)`: the first starts in `a`, each is non-empty and starts where the previous one ends, the last ends in `b`. -/
def Spec.Tiles : List (Str × Nat × Nat) → Nat → Nat → Prop
  | [], a, b => a = b
  | (_, x, y) :: rest, a, b => x = a ∧ x < y ∧ Spec.Tiles rest y b

/-- Every terminal is the only child of its parent, and the root is not a terminal. -/
def Spec.Pre (t : PTree Str) : Prop :=
  t.isNode = true ∧ ∀ l cs, .node l cs ∈ subtrees t → (∃ i, cs = [.leaf i]) ∨ ∀ c ∈ cs, c.isNode = true

/-! ### Proofs: partition -/

theorem Spec.Tiles.append {xs ys : List (Str × Nat × Nat)} {a b c : Nat} (h1 : Spec.Tiles xs a b) (h2 : Spec.Tiles ys b c) :
    Spec.Tiles (xs ++ ys) a c := by
  induction xs generalizing a with
  | nil => cases h1; exact h2
  | cons x xs ih =>
    obtain ⟨l, x, y⟩ := x
    obtain ⟨h, h', h''⟩ := h1
    exact ⟨h, h', ih h''⟩

theorem largest_some {best : Nat → Nat → Option Str} {start fin : Nat} {l : Str} {a b : Nat} (h : largest best start fin = some (l, a, b)) :
    start ≤ a ∧ a < b ∧ b ≤ fin ∧ best a b = some l ∧
      ∀ a' b', start ≤ a' → b' ≤ fin → b - a < b' - a' → best a' b' = none := by
  unfold largest at h
  rw [List.findSome?_eq_some_iff] at h
  obtain ⟨l₁, len, l₂, hl, hf, hn⟩ := h
  have hlen : len ∈ List.range' 1 (fin - start) := by rw [← List.mem_reverse, hl]; simp
  rw [List.mem_range'_1] at hlen
  rw [List.findSome?_eq_some_iff] at hf
  obtain ⟨m₁, s1, m₂, hm, hs, -⟩ := hf
  have hs1 : s1 ∈ List.range' start (fin - len + 1 - start) := by rw [hm]; simp
  rw [List.mem_range'_1] at hs1
  cases hb : best s1 (s1 + len) with
  | none => rw [hb] at hs; cases hs
  | some l' =>
    rw [hb] at hs
    simp only [Option.map_some, Option.some.injEq, Prod.mk.injEq] at hs
    obtain ⟨rfl, rfl, rfl⟩ := hs
    refine ⟨hs1.1, by omega, by omega, hb, ?_⟩
    intro a' b' ha' hb' hlt
    have hmem : b' - a' ∈ (List.range' 1 (fin - start)).reverse := by rw [List.mem_reverse, List.mem_range'_1]; omega
    rw [hl] at hmem
    have hsort : (List.range' 1 (fin - start)).reverse.Pairwise (fun x y => y < x) := by
      rw [List.pairwise_reverse]; exact List.pairwise_lt_range'
    rw [hl] at hsort
    have hin : b' - a' ∈ l₁ := by
      rcases List.mem_append.1 hmem with h | h
      · exact h
      · exfalso
        have := (List.pairwise_append.1 hsort).2.1
        rcases List.mem_cons.1 h with h | h
        · omega
        · have := List.rel_of_pairwise_cons this h; omega
    have := hn _ hin
    rw [List.findSome?_eq_none_iff] at this
    have h2 := this a' (by rw [List.mem_range'_1]; omega)
    rw [show a' + (b' - a') = b' by omega] at h2
    simpa using h2

theorem largest_none {best : Nat → Nat → Option Str} {start fin : Nat} (h : largest best start fin = none) :
    ∀ a b, start ≤ a → a < b → b ≤ fin → best a b = none := by
  intro a b ha hab hb
  unfold largest at h
  rw [List.findSome?_eq_none_iff] at h
  have h1 := h (b - a) (by rw [List.mem_reverse, List.mem_range'_1]; omega)
  rw [List.findSome?_eq_none_iff] at h1
  have h2 := h1 a (by rw [List.mem_range'_1]; omega)
  rw [show a + (b - a) = b by omega] at h2
  simpa using h2

theorem part_tiles (best : Nat → Nat → Option Str) (n : Nat) : ∀ start fin, start < fin → fin - start ≤ n →
    Spec.Tiles (part best n start fin) start fin := by
  induction n with
  | zero => intro s f h1 h2; omega
  | succ n ih =>
    intro s f h1 h2
    rw [part]
    cases hl : largest best s f with
    | none =>
      refine ⟨rfl, by omega, ?_⟩
      split
      · exact ih _ _ (by omega) (by omega)
      · show s + 1 = f; omega
    | some x =>
      obtain ⟨l, a, b⟩ := x
      obtain ⟨h3, h4, h5, -⟩ := largest_some hl
      refine Spec.Tiles.append (b := a) ?_ ⟨rfl, h4, ?_⟩
      · split
        · exact ih _ _ (by omega) (by omega)
        · show s = a; omega
      · split
        · exact ih _ _ (by omega) (by omega)
        · show b = f; omega

/-- What a piece is: an item of the chart (with its label) or a single word for which there is no item. -/
def Spec.PieceOk (best : Nat → Nat → Option Str) (x : Str × Nat × Nat) : Prop :=
  best x.2.1 x.2.2 = some x.1 ∨ (x.1 = noparseLabel ∧ x.2.2 = x.2.1 + 1 ∧ best x.2.1 x.2.2 = none)

theorem part_pieces (best : Nat → Nat → Option Str) (n : Nat) : ∀ start fin, start < fin →
    ∀ x ∈ part best n start fin, Spec.PieceOk best x := by
  induction n with
  | zero => intro s f _ x hx; simp [part] at hx
  | succ n ih =>
    intro s f h1 x hx
    rw [part] at hx
    cases hl : largest best s f with
    | none =>
      rw [hl] at hx
      rcases List.mem_cons.1 hx with rfl | hx
      · exact .inr ⟨rfl, rfl, largest_none hl _ _ (Nat.le_refl _) (by show s < s + 1; omega) (by show s + 1 ≤ f; omega)⟩
      · split at hx
        · exact ih _ _ (by omega) x hx
        · cases hx
    | some y =>
      obtain ⟨l, a, b⟩ := y
      obtain ⟨-, -, -, h6, -⟩ := largest_some hl
      rw [hl] at hx
      rcases List.mem_append.1 hx with hx | hx
      · split at hx
        · exact ih _ _ (by assumption) x hx
        · cases hx
      · rcases List.mem_cons.1 hx with rfl | hx
        · exact .inl h6
        · split at hx
          · exact ih _ _ (by assumption) x hx
          · cases hx

/-- **C31.** The partition of an incomplete chart tiles the interval: consecutive non-empty intervals from `start` to `fin`; each is a
constituent found in the chart or a single word for which the chart has none. -/
theorem C31_partition (best : Nat → Nat → Option Str) (start fin : Nat) (h : start < fin) :
    Spec.Tiles (partition best start fin) start fin ∧ ∀ x ∈ partition best start fin, Spec.PieceOk best x :=
  ⟨part_tiles best _ start fin h (by omega), part_pieces best _ start fin h⟩

/-- **C31.** It is greedy: some piece is at least as long as each interval within `[start, fin)` for which the chart has an item; in
particular when an item covers the whole interval it is the only piece. -/
theorem C31_greedy (best : Nat → Nat → Option Str) (start fin a b : Nat) (h1 : start ≤ a) (h2 : a < b) (h3 : b ≤ fin)
    (h : (best a b).isSome = true) : ∃ x ∈ partition best start fin, (best x.2.1 x.2.2).isSome = true ∧ b - a ≤ x.2.2 - x.2.1 := by
  unfold partition
  rw [part]
  cases hl : largest best start fin with
  | none => rw [largest_none hl a b h1 h2 h3] at h; cases h
  | some y =>
    obtain ⟨l, c, d⟩ := y
    obtain ⟨-, -, -, h6, h7⟩ := largest_some hl
    refine ⟨(l, c, d), by simp, by simp [h6], ?_⟩
    refine Nat.le_of_not_lt fun hlt => ?_
    rw [h7 a b h1 h3 hlt] at h
    cases h

/-! ### Proofs: bestsubtree -/

/-- **C31.** `bestsubtree` returns an item with the given span and an admissible label whose cost is least, or 0 when there is none
(item 0 is a dummy whose span differs from any real one). -/
theorem C31_bestsubtree {C : Type} [DecidableEq C] (ok : Nat → Bool) (vec : C) (items : List (Nat × C × Option Nat))
    (h0 : ∀ x ∈ items.head?, x.2.1 ≠ vec) :
    let i := bestsubtree ok vec items
    (i = 0 → ∀ x ∈ items, x.2.1 = vec → ok x.1 = true → x.2.2 = none) ∧
    (i ≠ 0 → ∃ l p, items[i]? = some (l, vec, some p) ∧ ok l = true ∧
      ∀ x ∈ items, x.2.1 = vec → ok x.1 = true → ∀ q, x.2.2 = some q → p ≤ q) := by
  have key : ∀ (pre post : List (Nat × C × Option Nat)) (best : Option Nat × Nat), pre ++ post = items →
      ((best = (none, 0) ∧ ∀ x ∈ pre, x.2.1 = vec → ok x.1 = true → x.2.2 = none) ∨
       ∃ l p, best.1 = some p ∧ items[best.2]? = some (l, vec, some p) ∧ ok l = true ∧
        ∀ x ∈ pre, x.2.1 = vec → ok x.1 = true → ∀ q, x.2.2 = some q → p ≤ q) →
      let best' := ((post.zipIdx pre.length).foldl (fun (best : Option Nat × Nat) (x : (Nat × C × Option Nat) × Nat) =>
        if x.1.2.1 = vec ∧ ok x.1.1 = true then
          match x.1.2.2, best.1 with
          | none, _ => best
          | some p, none => (some p, x.2)
          | some p, some q => if p < q then (some p, x.2) else best
        else best) best)
      ((best' = (none, 0) ∧ ∀ x ∈ items, x.2.1 = vec → ok x.1 = true → x.2.2 = none) ∨
       ∃ l p, best'.1 = some p ∧ items[best'.2]? = some (l, vec, some p) ∧ ok l = true ∧
        ∀ x ∈ items, x.2.1 = vec → ok x.1 = true → ∀ q, x.2.2 = some q → p ≤ q) := by
    intro pre post
    induction post generalizing pre with
    | nil => intro best he h; rw [List.append_nil] at he; subst he; exact h
    | cons y post ih =>
      intro best he h
      obtain ⟨ly, vy, py⟩ := y
      have hget : items[pre.length]? = some (ly, vy, py) := by
        rw [← he]; simp
      rw [List.zipIdx_cons, List.foldl_cons]
      have hlen : pre.length + 1 = (pre ++ [(ly, vy, py)]).length := by simp
      rw [hlen]
      refine ih (pre ++ [(ly, vy, py)]) _ (by simpa using he) ?_
      by_cases hc : vy = vec ∧ ok ly = true
      · rw [if_pos hc]
        obtain ⟨hv, ho⟩ := hc
        cases py with
        | none =>
          rcases h with ⟨hb, h⟩ | ⟨l, p, hb, hi, hl, h⟩
          · refine .inl ⟨hb, ?_⟩
            intro x hx
            rcases List.mem_append.1 hx with hx | hx
            · exact h x hx
            · simp only [List.mem_singleton] at hx; subst hx; intros; rfl
          · refine .inr ⟨l, p, hb, hi, hl, ?_⟩
            intro x hx
            rcases List.mem_append.1 hx with hx | hx
            · exact h x hx
            · simp only [List.mem_singleton] at hx; subst hx; intro _ _ q hq; cases hq
        | some p' =>
          rcases h with ⟨hb, h⟩ | ⟨l, p, hb, hi, hl, h⟩
          · rw [hb]
            refine .inr ⟨ly, p', rfl, by simp only; rw [hget, hv], ho, ?_⟩
            intro x hx
            rcases List.mem_append.1 hx with hx | hx
            · intro h1 h2 q hq; rw [h x hx h1 h2] at hq; cases hq
            · simp only [List.mem_singleton] at hx; subst hx; intro _ _ q hq; cases hq; exact Nat.le_refl _
          · simp only [hb]
            by_cases hlt : p' < p
            · rw [if_pos hlt]
              refine .inr ⟨ly, p', rfl, by simp only; rw [hget, hv], ho, ?_⟩
              intro x hx
              rcases List.mem_append.1 hx with hx | hx
              · intro h1 h2 q hq; have := h x hx h1 h2 q hq; omega
              · simp only [List.mem_singleton] at hx; subst hx; intro _ _ q hq; cases hq; exact Nat.le_refl _
            · rw [if_neg hlt]
              refine .inr ⟨l, p, hb, hi, hl, ?_⟩
              intro x hx
              rcases List.mem_append.1 hx with hx | hx
              · exact h x hx
              · simp only [List.mem_singleton] at hx; subst hx; intro _ _ q hq; cases hq; omega
      · rw [if_neg hc]
        have hskip : ∀ x ∈ [(ly, vy, py)], x.2.1 = vec → ok x.1 = true → False := by
          intro x hx h1 h2
          simp only [List.mem_singleton] at hx; subst hx; exact hc ⟨h1, h2⟩
        rcases h with ⟨hb, h⟩ | ⟨l, p, hb, hi, hl, h⟩
        · refine .inl ⟨hb, ?_⟩
          intro x hx
          rcases List.mem_append.1 hx with hx | hx
          · exact h x hx
          · intro h1 h2; exact (hskip x hx h1 h2).elim
        · refine .inr ⟨l, p, hb, hi, hl, ?_⟩
          intro x hx
          rcases List.mem_append.1 hx with hx | hx
          · exact h x hx
          · intro h1 h2; exact (hskip x hx h1 h2).elim
  have := key [] items (none, 0) rfl (.inl ⟨rfl, by simp⟩)
  simp only [List.length_nil] at this
  simp only
  unfold bestsubtree
  rcases this with ⟨hb, h⟩ | ⟨l, p, hb, hi, hl, h⟩
  · rw [hb]; exact ⟨fun _ => h, fun h => absurd rfl h⟩
  · refine ⟨fun h0' => ?_, fun _ => ⟨l, p, hi, hl, h⟩⟩
    rw [h0'] at hi
    cases items with
    | nil => simp at hi
    | cons y ys =>
      simp only [List.getElem?_cons_zero, Option.some.injEq] at hi
      subst hi
      exact absurd rfl (h0 _ rfl)

/-- An instance: dummy item, two items with the span, the second one cheaper, and one with an excluded label that is cheaper still. -/
example : bestsubtree (fun l => l != 7) 6 [(0, 0, none), (1, 6, some 5), (2, 6, some 3), (7, 6, some 1), (2, 4, some 0)] = 2 := by decide

/-! ### Proofs: the partial parse -/

theorem shiftL_nodes (a : Nat) : ∀ cs : List (PTree Str), (∀ c ∈ cs, c.isNode = true) → shiftL a cs = cs.map (shift a) := by
  intro cs h
  have hR : ∀ ds : List (PTree Str), shiftR a ds = ds.map (shift a) := by
    intro ds; induction ds with
    | nil => simp [shiftR]
    | cons d ds ih => simp [shiftR, ih]
  cases cs with
  | nil => simp [shiftL]
  | cons c cs =>
    cases c with
    | leaf i => exact absurd (h (.leaf i) (by simp)) (by simp [isNode])
    | node l ds => simp [shiftL, shift, hR]

theorem Spec.Pre.child {l : Str} {cs : List (PTree Str)} (h : Spec.Pre (.node l cs)) (hn : ∀ c ∈ cs, c.isNode = true) :
    ∀ c ∈ cs, Spec.Pre c := by
  intro c hc
  refine ⟨hn c hc, fun l' cs' h' => h.2 l' cs' ?_⟩
  rw [subtrees_node, subtreesL_eq_flatMap]
  exact List.mem_cons_of_mem _ (List.mem_flatMap.2 ⟨c, hc, h'⟩)

theorem leaves_shift (a : Nat) (t : PTree Str) : Spec.Pre t → leaves (shift a t) = (leaves t).map (· + a) := by
  induction t using PTree.ind with
  | hleaf i => intro h; exact absurd h.1 (by simp [isNode])
  | hnode l cs ih =>
    intro h
    rw [shift, leaves_node, leaves_node]
    rcases h.2 l cs (by simp) with ⟨i, rfl⟩ | hn
    · simp [shiftL, shiftR]
    · rw [shiftL_nodes a cs hn]
      have := fun c hc => ih c hc (h.child hn c hc)
      clear ih h hn
      induction cs with
      | nil => simp
      | cons c cs ih2 =>
        rw [List.map_cons, leavesL_cons, leavesL_cons, List.map_append, this c (by simp),
          ih2 (fun c hc => this c (List.mem_cons_of_mem _ hc))]

theorem labels_shift (ws : Char → Bool) (a : Nat) (t : PTree Str) : Spec.Pre t → Bracket.Spec.Labels ws t →
    Bracket.Spec.Labels ws (shift a t) := by
  induction t using PTree.ind with
  | hleaf i => intro h; exact absurd h.1 (by simp [isNode])
  | hnode l cs ih =>
    intro h hl l' cs' hm
    rw [shift, subtrees_node] at hm
    rcases List.mem_cons.1 hm with heq | hm
    · cases heq; exact hl l cs (by simp)
    · rcases h.2 l cs (by simp) with ⟨i, rfl⟩ | hn
      · simp [shiftL, shiftR] at hm
      · rw [shiftL_nodes a cs hn, subtreesL_eq_flatMap] at hm
        obtain ⟨c', hc', hm⟩ := List.mem_flatMap.1 hm
        obtain ⟨c, hc, rfl⟩ := List.mem_map.1 hc'
        exact ih c hc (h.child hn c hc) (Labels.child hl c hc) l' cs' hm

/-- The constituent of a piece. -/
def pieceTree (parse : Str → Nat → Nat → PTree Str) (x : Str × Nat × Nat) : PTree Str :=
  if x.1 = noparseLabel then .node ['N', 'N'] [.leaf x.2.1] else shift x.2.1 (parse x.1 x.2.1 x.2.2)

theorem piece_eq (parse : Str → Nat → Nat → PTree Str) (x : Str × Nat × Nat) : piece parse x = flat (pieceTree parse x) := by
  unfold piece pieceTree
  split
  · simp [flat, flatL, Str.join]
  · rfl

theorem flatL_map {α : Type} (f : α → PTree Str) (xs : List α) : flatL (xs.map f) = xs.map (fun x => flat (f x)) := by
  induction xs with
  | nil => simp [flatL]
  | cons x xs ih => simp [flatL, ih]

theorem tiles_range {xs : List (Str × Nat × Nat)} {a b : Nat} (h : Spec.Tiles xs a b) :
    a ≤ b ∧ xs.flatMap (fun x => List.range' x.2.1 (x.2.2 - x.2.1)) = List.range' a (b - a) := by
  induction xs generalizing a with
  | nil => cases h; simp
  | cons x xs ih =>
    obtain ⟨l, x, y⟩ := x
    obtain ⟨rfl, hxy, h⟩ := h
    obtain ⟨h1, h2⟩ := ih h
    refine ⟨by omega, ?_⟩
    rw [List.flatMap_cons, h2]
    show List.range' x (y - x) ++ List.range' y (b - y) = _
    have := List.range'_append (s := x) (m := y - x) (n := b - y) (step := 1)
    rw [show x + 1 * (y - x) = y by omega, show y - x + (b - y) = b - x by omega] at this
    exact this

/-- **C31.** The string assembled for an unparsable sentence of `n > 0` words is read back as a tree with the root `ROOT` whose
terminals are exactly the words `0, …, n - 1`, each once; the constituents below the root are, in order, those of the partition.
Assumed of the recursive parses: a parse of `sent[a:b]` has the terminals `0, …, b - a - 1`, each the only child of its part-of-speech
tag, and labels that can be written. No label of the chart is `NOPARSE`. -/
theorem C31_partial_parse (ws : Char → Bool) (hws : Bracket.Spec.Space ws) (pyInt : Str → Option Nat)
    (hint : ∀ n, pyInt (Nat.toDigits 10 n) = some n) (hR : ∀ c ∈ ['R', 'O', 'T', 'N'], ws c = false)
    (best : Nat → Nat → Option Str) (hbest : ∀ a b, best a b ≠ some noparseLabel)
    (parse : Str → Nat → Nat → PTree Str) (n : Nat) (hn : 0 < n)
    (hp : ∀ l a b, best a b = some l → a < b → b ≤ n → Spec.Pre (parse l a b) ∧ Bracket.Spec.Labels ws (parse l a b) ∧
      (leaves (parse l a b)).Perm (List.range (b - a))) :
    ∃ cs : List (PTree Str), parseTree ws pyInt (partial_ best parse n) = some (.node ['R', 'O', 'O', 'T'] cs) ∧
      (leavesL cs).Perm (List.range n) ∧
      cs.length = (partition best 0 n).length ∧
      ∀ (i : Nat) l a b, (partition best 0 n)[i]? = some (l, a, b) → ∃ c, cs[i]? = some c ∧ (leaves c).Perm (List.range' a (b - a)) := by
  obtain ⟨htiles, hok⟩ := C31_partition best 0 n hn
  have hbound : ∀ (xs : List (Str × Nat × Nat)) (a b : Nat), Spec.Tiles xs a b → ∀ x ∈ xs, x.2.1 < x.2.2 ∧ x.2.2 ≤ b := by
    intro xs
    induction xs with
    | nil => simp
    | cons y ys ih =>
      intro a b h x hx
      obtain ⟨l, y1, y2⟩ := y
      obtain ⟨h1, h2, h3⟩ := h
      rcases List.mem_cons.1 hx with rfl | hx
      · exact ⟨h2, (tiles_range h3).1⟩
      · exact ih _ _ h3 x hx
  have hpiece : ∀ x ∈ partition best 0 n, Bracket.Spec.Labels ws (pieceTree parse x) ∧
      (leaves (pieceTree parse x)).Perm (List.range' x.2.1 (x.2.2 - x.2.1)) := by
    intro x hx
    have hb := hbound _ _ _ htiles x hx
    unfold pieceTree
    rcases hok x hx with hb' | ⟨hl, h2, -⟩
    · have hne : x.1 ≠ noparseLabel := fun he => hbest _ _ (he ▸ hb')
      rw [if_neg hne]
      obtain ⟨hpre, hlab, hperm⟩ := hp _ _ _ hb' hb.1 hb.2
      refine ⟨labels_shift ws _ _ hpre hlab, ?_⟩
      rw [leaves_shift _ _ hpre]
      have := hperm.map (· + x.2.1)
      rw [List.range_eq_range', show (fun i => i + x.2.1) = (x.2.1 + ·) from funext fun i => Nat.add_comm _ _, List.map_add_range',
        Nat.add_zero] at this
      rw [show (fun i => i + x.2.1) = (x.2.1 + ·) from funext fun i => Nat.add_comm _ _]
      exact this
    · rw [if_pos hl]
      refine ⟨?_, ?_⟩
      · intro l cs hm
        simp at hm
        obtain ⟨rfl, rfl⟩ := hm
        have := hR 'N' (by simp)
        simp [this]
      · rw [h2, Nat.add_sub_cancel_left]; simp
  refine ⟨(partition best 0 n).map (pieceTree parse), ?_, ?_, by simp, ?_⟩
  · have hs : partial_ best parse n = flat (.node ['R', 'O', 'O', 'T'] ((partition best 0 n).map (pieceTree parse))) := by
      unfold partial_
      rw [flat, flatL_map, show piece parse = fun x => flat (pieceTree parse x) from funext (piece_eq parse)]
      simp
    rw [hs]
    refine C12_parse_str ws hws pyInt hint _ _ ?_
    intro l cs hm
    rw [subtrees_node] at hm
    rcases List.mem_cons.1 hm with heq | hm
    · cases heq
      refine ⟨by simp, ?_⟩
      intro c hc
      simp at hc
      rcases hc with rfl | rfl | rfl <;> simp [hR]
    · rw [subtreesL_eq_flatMap] at hm
      obtain ⟨c, hc, hm⟩ := List.mem_flatMap.1 hm
      obtain ⟨x, hx, rfl⟩ := List.mem_map.1 hc
      exact (hpiece x hx).1 l cs hm
  · rw [leavesL_eq_flatMap, List.flatMap_map]
    have h1 := (tiles_range htiles).2
    rw [List.range_eq_range', show n = n - 0 by omega, ← h1]
    clear h1 hbound hok htiles
    generalize partition best 0 n = xs at hpiece
    induction xs with
    | nil => simp
    | cons x xs ih =>
      rw [List.flatMap_cons, List.flatMap_cons]
      exact ((hpiece x (by simp)).2).append (ih (fun y hy => hpiece y (List.mem_cons_of_mem _ hy)))
  · intro i l a b hi
    exact ⟨_, by rw [List.getElem?_map, hi]; rfl, (hpiece _ (List.mem_of_getElem? hi)).2⟩

/-- The hypothesis on labels is needed: with a constituent labelled `NOPARSE` in the chart words are lost. -/
theorem C31_noparse_label_loses_words (parse : Str → Nat → Nat → PTree Str) :
    partial_ (fun a b => if a = 0 ∧ b = 2 then some noparseLabel else none) parse 2 = "(ROOT (NN 0))".toList := by
  have : partition (fun a b => if a = 0 ∧ b = 2 then some noparseLabel else none) 0 2 = [(noparseLabel, 0, 2)] := by decide
  unfold partial_
  rw [this]
  simp [piece, Str.join]

/-- An instance: an item for the words 1-2 out of 4, and a tag for word 3. -/
example : partition (fun a b => if a = 1 ∧ b = 3 then some ['N', 'P'] else if a = 3 ∧ b = 4 then some ['V'] else none) 0 4 =
    [(noparseLabel, 0, 1), (['N', 'P'], 1, 3), (['V'], 3, 4)] := by decide

/-- The hypotheses of `C31_partial_parse` can be met with a discontinuous constituent. -/
example : Spec.Pre (.node ['N', 'P'] [.node ['D'] [.leaf 1], .node ['N'] [.leaf 0]]) := by
  refine ⟨rfl, ?_⟩
  intro l cs h
  simp at h
  rcases h with ⟨rfl, rfl⟩ | ⟨rfl, rfl⟩ | ⟨rfl, rfl⟩
  · exact .inr (by simp [isNode])
  · exact .inl ⟨1, rfl⟩
  · exact .inl ⟨0, rfl⟩

/-! ### Proofs: the dummy parse -/

/-- `C31` The dummy parse as a tree. -/
def Spec.flatTree (start : Str) (ts : List Str) : PTree Str :=
  .node start [.node noparseLabel (ts.zipIdx.map fun ti => .node ti.1 [.leaf ti.2])]

theorem zipIdx_leaves (ts : List Str) (k : Nat) :
    leavesL ((ts.zipIdx k).map fun ti => PTree.node ti.1 [.leaf ti.2]) = List.range' k ts.length := by
  induction ts generalizing k with
  | nil => simp
  | cons t ts ih => simp [List.range'_succ, ih]

theorem dummy_eq (start : Str) (ts : List Str) :
    (defaultparse (ts.zipIdx.map fun ti => (Nat.toDigits 10 ti.2, ti.1)) false).map (fun s => '(' :: (start ++ ' ' :: (s ++ [')']))) =
      some (flat (Spec.flatTree start ts)) := by
  rw [defaultparse, Spec.flatTree]
  simp only [Option.map_some, flat, flatL, flatL_map, Str.join, Option.some.injEq]
  simp [List.map_map, Function.comp_def, pre]

/-- **C31.** When nothing could be parsed, the dummy parse is read back as the tree in which all words, each below its tag and in order,
are the children of one constituent `NOPARSE` below the start symbol; it covers each word exactly once. -/
theorem C31_dummy (ws : Char → Bool) (hws : Bracket.Spec.Space ws) (pyInt : Str → Option Nat)
    (hint : ∀ n, pyInt (Nat.toDigits 10 n) = some n) (hR : ∀ c ∈ noparseLabel, ws c = false) (start : Str) (n : Nat)
    (tags : Option (List Str)) (ht : ∀ ts, tags = some ts → ts.length = n)
    (hl : ∀ l ∈ start :: tags.getD [], l ≠ [] ∧ ∀ c ∈ l, ws c = false ∧ c ≠ '(' ∧ c ≠ ')') :
    ∃ s ts, dummy start n tags = some s ∧ ts.length = n ∧ (∀ us, tags = some us → ts = us) ∧
      parseTree ws pyInt s = some (Spec.flatTree start ts) ∧ leaves (Spec.flatTree start ts) = List.range n := by
  have hN : ∀ l ∈ List.replicate n ['N', 'N'], l ≠ [] ∧ ∀ c ∈ l, ws c = false ∧ c ≠ '(' ∧ c ≠ ')' := by
    intro l hl
    obtain ⟨-, rfl⟩ := List.mem_replicate.1 hl
    have := hR 'N' (by simp [noparseLabel])
    simp [this]
  have main : ∀ ts : List Str, ts.length = n → (∀ l ∈ ts, l ≠ [] ∧ ∀ c ∈ l, ws c = false ∧ c ≠ '(' ∧ c ≠ ')') →
      parseTree ws pyInt (flat (Spec.flatTree start ts)) = some (Spec.flatTree start ts) ∧
        leaves (Spec.flatTree start ts) = List.range n := by
    intro ts hlen hts
    constructor
    · unfold Spec.flatTree
      refine C12_parse_str ws hws pyInt hint _ _ ?_
      intro l cs hm
      rw [subtrees_node] at hm
      rcases List.mem_cons.1 hm with heq | hm
      · cases heq; exact hl _ (by simp)
      · rw [subtreesL_cons, subtreesL_nil, List.append_nil, subtrees_node] at hm
        rcases List.mem_cons.1 hm with heq | hm
        · cases heq
          refine ⟨by simp [noparseLabel], fun c hc => ⟨hR c hc, ?_⟩⟩
          revert c; decide
        · rw [subtreesL_eq_flatMap] at hm
          obtain ⟨c, hc, hm⟩ := List.mem_flatMap.1 hm
          obtain ⟨x, hx, rfl⟩ := List.mem_map.1 hc
          simp at hm
          obtain ⟨rfl, rfl⟩ := hm
          exact hts _ (List.fst_mem_of_mem_zipIdx hx)
    · rw [Spec.flatTree, leaves_node, leavesL_cons, leavesL_nil, List.append_nil, leaves_node, zipIdx_leaves, hlen,
        List.range_eq_range']
  unfold dummy
  cases tags with
  | none =>
    refine ⟨_, List.replicate n ['N', 'N'], dummy_eq _ _, by simp, by simp, ?_⟩
    exact main _ (by simp) hN
  | some us =>
    cases us with
    | nil =>
      have h0 : n = 0 := by simpa using (ht [] rfl).symm
      subst h0
      exact ⟨_, [], dummy_eq _ [], by simp, by simp, main [] (by simp) (by simp)⟩
    | cons u us =>
      refine ⟨_, u :: us, dummy_eq _ _, ht _ rfl, by simp, main _ (ht _ rfl) ?_⟩
      intro l hm
      exact hl l (List.mem_cons_of_mem _ hm)

/-- The right-branching tree of noun phrases. -/
def Spec.rightTree : List (Nat × Str) → PTree Str
  | [] => .node ['N', 'P'] []
  | [wt] => .node ['N', 'P'] [.node wt.2 [.leaf wt.1]]
  | wt :: wt' :: wts => .node ['N', 'P'] [.node wt.2 [.leaf wt.1], Spec.rightTree (wt' :: wts)]

/-- **C31.** The right-branching default parse of a non-empty list is the notation of a right-branching tree with the given words
and tags in order. -/
theorem C31_rightbranching (wts : List (Nat × Str)) (h : wts ≠ []) :
    defaultparse (wts.map fun wt => (Nat.toDigits 10 wt.1, wt.2)) true = some (flat (Spec.rightTree wts)) ∧
      leaves (Spec.rightTree wts) = wts.map Prod.fst := by
  induction wts with
  | nil => exact absurd rfl h
  | cons wt wts ih =>
    cases wts with
    | nil => simp [defaultparse, Spec.rightTree, flat, flatL, Str.join, pre]
    | cons wt' wts =>
      obtain ⟨h1, h2⟩ := ih (by simp)
      rw [List.map_cons] at h1
      rw [List.map_cons, List.map_cons, defaultparse, h1, Spec.rightTree]
      constructor
      · simp [flat, flatL, Str.join, pre]
      · simp [h2]

/-- For an empty list it fails (`wordstags[0]` raises IndexError). -/
theorem C31_rightbranching_empty : defaultparse [] true = none := rfl

/-- An instance of the hypotheses of `C31_dummy`. -/
example : ∀ l ∈ ['T', 'O', 'P'] :: (some [['X'], ['N', 'N']]).getD [], l ≠ [] ∧ ∀ c ∈ l, wsBN c = false ∧ c ≠ '(' ∧ c ≠ ')' := by decide

end Disco.Partition
