import Verif.Draw.Coords
import Mathlib.Data.List.Nodup

/-!
# Drawing trees: the placement of nodes of continuous trees

The invariant of the loop over levels (tree.py:1234-1262), and the coordinates that result from it.
-/

namespace Disco.Draw
open Disco

/-- What the proofs use about the nodes of a continuous tree of height `H`. -/
structure Ctx (H : Nat) (N : List Nd) : Prop where
  nodup : (N.map (·.id)).Nodup
  root : ∃ r ∈ N, r.id = 0 ∧ r.height = H ∧ r.leaf = false
  root_parent : ∀ a ∈ N, a.id = 0 → a.parent = 0
  ne : ∀ a ∈ N, a.leaves ≠ []
  height : ∀ a ∈ N, a.height < a.pheight ∧ 1 ≤ a.height
  top : ∀ a ∈ N, a.id ≠ 0 → a.pheight ≤ H
  isLeaf : ∀ a ∈ N, (a.leaf = true → a.height = 1 ∧ ∃ i, a.leaves = [i]) ∧ (a.leaf = false → 2 ≤ a.height)
  up : ∀ a ∈ N, a.id ≠ 0 → ∃ q ∈ N, q.id = a.parent ∧ q.height = a.pheight ∧ q.leaf = false ∧ (∀ x ∈ a.leaves, x ∈ q.leaves) ∧ q.id < a.id
  down : ∀ a ∈ N, a.leaf = false → ∀ x ∈ a.leaves, ∃ c ∈ N, c.parent = a.id ∧ x ∈ c.leaves ∧ a.id < c.id
  rel : ∀ a ∈ N, ∀ b ∈ N, a.id ≠ b.id → Rel a b

theorem ctx_nodesOf (t : PTree Unit) (hc : Spec.Continuous t) (hn : nonempty t = true) (hh : 2 ≤ heightT t) : Ctx (heightT t) (nodesOf t) := by
  cases t with
  | leaf i => rw [heightT] at hh; omega
  | node l cs =>
    have F := facts_number 0 (heightT (.node l cs) + 1) 0 (.node l cs) hc hn (Nat.lt_succ_self _)
    have hc' := hc
    have hn' := hn
    rw [Spec.Continuous] at hc'
    rw [nonempty, Bool.and_eq_true] at hn'
    have G := facts_numberL 0 (heightL cs + 1) 1 cs hc'.1 hc'.2 hn'.2 (Nat.lt_succ_self _)
    have e : nodesOf (.node l cs) = ⟨0, 0, heightT (.node l cs) + 1, false, heightL cs + 1, leavesL cs⟩ :: (numberL 0 (heightL cs + 1) 1 cs).1 := by
      rw [nodesOf, number]
    have hH : heightT (.node l cs) = heightL cs + 1 := by rw [heightT]
    have tops : ∀ a ∈ nodesOf (.node l cs), a.id ≠ 0 → a.pheight ≤ heightT (.node l cs) ∧ a ∈ (numberL 0 (heightL cs + 1) 1 cs).1 := by
      intro a ha h0
      rw [e] at ha
      rcases List.mem_cons.mp ha with rfl | ha
      · exact absurd rfl h0
      · exact ⟨by rw [hH]; exact (G.height a ha).2.1, ha⟩
    refine ⟨?_, ?_, ?_, F.ne, fun a ha => ⟨(F.height a ha).1, (F.height a ha).2.2⟩, fun a ha h => (tops a ha h).1, F.isLeaf, ?_, F.down, F.rel⟩
    · show ((number 0 _ 0 _).1.map (·.id)).Nodup
      rw [F.ids]; exact List.nodup_range'
    · rw [e]
      exact ⟨_, List.mem_cons_self, rfl, by rw [hH], rfl⟩
    · intro a ha h0
      rcases F.up a ha with ⟨h, _⟩ | ⟨q, _, _, _, _, _, h⟩
      · exact h
      · omega
    · intro a ha h0
      rcases F.up a ha with ⟨_, h⟩ | h
      · have := (tops a ha h0).1; omega
      · exact h

section
variable {H : Nat} {N : List Nd}

theorem Ctx.inj (C : Ctx H N) {a b : Nd} (ha : a ∈ N) (hb : b ∈ N) (h : a.id = b.id) : a = b :=
  List.inj_on_of_nodup_map C.nodup ha hb h

theorem Ctx.height_lt (C : Ctx H N) {a : Nd} (ha : a ∈ N) (h : a.id ≠ 0) : a.height < H := by
  have := C.top a ha h
  have := (C.height a ha).1
  omega

theorem Ctx.height_root (C : Ctx H N) {a : Nd} (ha : a ∈ N) (h : a.id = 0) : a.height = H ∧ a.leaf = false := by
  obtain ⟨r, hr, h0, h1, h2⟩ := C.root
  have : a = r := C.inj ha hr (by rw [h, h0])
  subst this
  exact ⟨h1, h2⟩

theorem Ctx.sep (C : Ctx H N) {a b : Nd} (ha : a ∈ N) (hb : b ∈ N) (h : a.id ≠ b.id) (h1 : a.height < b.pheight) (h2 : b.height < a.pheight) :
    Spec.disjoint a.leaves b.leaves := by
  rcases C.rel a ha b hb h with h | h | h
  · exact h
  · omega
  · omega

/-- The columns between the first and the last word of a node. -/
def inSpan (a : Nd) (c : Nat) : Prop := 2 * minL a.leaves ≤ c ∧ c ≤ 2 * maxL a.leaves

theorem span_disjoint {a b : Nd} (ha : a.leaves ≠ []) (hb : b.leaves ≠ []) (h : Spec.disjoint a.leaves b.leaves) {c : Nat} (h1 : inSpan a c)
    (h2 : inSpan b c) : False := by
  obtain ⟨h1, h1'⟩ := h1
  obtain ⟨h2, h2'⟩ := h2
  rcases h with h | h
  · have := h _ (maxL_mem ha) _ (minL_mem hb); omega
  · have := h _ (minL_mem ha) _ (maxL_mem hb); omega

theorem span_sub {a b : Nd} (ha : a.leaves ≠ []) (h : ∀ x ∈ a.leaves, x ∈ b.leaves) {c : Nat} (h1 : inSpan a c) : inSpan b c := by
  obtain ⟨h1, h2⟩ := h1
  have e1 := minL_le (h _ (minL_mem ha))
  have e2 := le_maxL (h _ (maxL_mem ha))
  constructor <;> omega

/-- The row of the grid on which a node is placed; the root is on an extra row. -/
def rowOf (a : Nd) : Nat := a.height - 1 + (if a.id = 0 then 1 else 0)

theorem Ctx.row_lt (C : Ctx H N) {a b : Nd} (ha : a ∈ N) (hb : b ∈ N) (h : a.height < b.height) : rowOf a < rowOf b := by
  have h1 := (C.height a ha).2
  unfold rowOf
  by_cases h0 : a.id = 0
  · have := (C.height_root ha h0).1
    by_cases h0' : b.id = 0
    · have := (C.height_root hb h0').1; omega
    · have := C.height_lt hb h0'; omega
  · simp only [if_neg h0]
    split <;> omega

theorem Ctx.row_eq (C : Ctx H N) {a b : Nd} (ha : a ∈ N) (hb : b ∈ N) (h : rowOf a = rowOf b) : a.height = b.height := by
  rcases Nat.lt_trichotomy a.height b.height with h' | h' | h'
  · have := C.row_lt ha hb h'; omega
  · exact h'
  · have := C.row_lt hb ha h'; omega

theorem Ctx.row_le (C : Ctx H N) {a b : Nd} (ha : a ∈ N) (hb : b ∈ N) (h : rowOf a ≤ rowOf b) : a.height ≤ b.height := by
  rcases Nat.lt_or_ge b.height a.height with h' | h'
  · have := C.row_lt hb ha h'; omega
  · exact h'

/-- A row. -/
def rowAt (m : List Row) (k : Nat) : Row := m.getD k (fun _ => .empty)

/-- The invariant: `P` are the nodes placed, `col` their columns. -/
structure Inv (N : List Nd) (P : Nd → Prop) (col : Nat → Nat) (m : List Row) (cc : Cols) : Prop where
  sub : ∀ a, P a → a ∈ N
  pos : 1 ≤ m.length
  span : ∀ a, P a → inSpan a (col a.id)
  low : ∀ a, P a → rowOf a < m.length
  cell : ∀ a, P a → rowAt m (rowOf a) (col a.id) = .node a.id
  node : ∀ k c id, rowAt m k c = .node id → ∃ a, P a ∧ a.id = id ∧ rowOf a = k ∧ col a.id = c
  cols : ∀ p x, x ∈ cc p ↔ ∃ a, P a ∧ a.id ≠ 0 ∧ a.parent = p ∧ x = (rowOf a, col a.id)
  nodup : ∀ p, (cc p).Nodup
  opened : ∀ c, (rowAt m (m.length - 1) c = .vert ∨ ∃ id, rowAt m (m.length - 1) c = .node id) ↔
    ∃ a, P a ∧ (∀ q, P q → q.id = a.parent → q.id = a.id) ∧ col a.id = c
  corner : ∀ c, rowAt m (m.length - 1) c = .corner → ∃ q, P q ∧ rowOf q + 1 = m.length ∧ inSpan q c
  full : ∀ a ∈ N, rowOf a + 1 < m.length → P a
  between : ∀ a, P a → a.leaf = false → ∃ x y, P x ∧ P y ∧ x.id ≠ 0 ∧ y.id ≠ 0 ∧ x.parent = a.id ∧ y.parent = a.id ∧
    col x.id ≤ col a.id ∧ col a.id ≤ col y.id

theorem rowAt_append_last (m : List Row) (r : Row) : rowAt (m ++ [r]) m.length = r := by
  unfold rowAt
  rw [List.getD_eq_getElem?_getD]
  simp

theorem rowAt_append_lt (m : List Row) (r : Row) {k : Nat} (h : k < m.length) : rowAt (m ++ [r]) k = rowAt m k := by
  unfold rowAt
  rw [List.getD_eq_getElem?_getD, List.getD_eq_getElem?_getD, List.getElem?_append_left h]

theorem rowAt_ge (m : List Row) {k : Nat} (h : m.length ≤ k) : rowAt m k = fun _ => .empty := by
  unfold rowAt
  rw [List.getD_eq_getElem?_getD, List.getElem?_eq_none h]; rfl

theorem rowAt_last (m : List Row) (_h : 1 ≤ m.length) : m.getLastD (fun _ => .empty) = rowAt m (m.length - 1) := by
  unfold rowAt
  rw [List.getD_eq_getElem?_getD, List.getLastD_eq_getLast?, List.getLast?_eq_getElem?]

theorem rowAt_modify (m : List Row) (f : Row → Row) {k : Nat} (h : k < m.length) (j : Nat) :
    rowAt (m.modify k f) j = if j = k then f (rowAt m k) else rowAt m j := by
  unfold rowAt
  rw [List.getD_eq_getElem?_getD, List.getElem?_modify]
  by_cases hj : j = k
  · subst hj
    simp [List.getD_eq_getElem?_getD, List.getElem?_eq_getElem h]
  · rw [if_neg hj]
    simp [Ne.symm hj, List.getD_eq_getElem?_getD]

/-- Adding a row (tree.py:1237-1238). -/
theorem Inv.push {P : Nd → Prop} {col : Nat → Nat} {m : List Row} {cc : Cols} (I : Inv N P col m cc)
    (hfull : ∀ a ∈ N, rowOf a + 1 ≤ m.length → P a) : Inv N P col (m ++ [copyRow (m.getLastD (fun _ => .empty))]) cc := by
  have hlen : (m ++ [copyRow (m.getLastD (fun _ => .empty))]).length = m.length + 1 := by simp
  have hlast : ∀ c, rowAt (m ++ [copyRow (m.getLastD (fun _ => .empty))]) m.length c = copyRow (rowAt m (m.length - 1)) c := by
    intro c
    rw [rowAt_append_last, rowAt_last m I.pos]
  refine ⟨I.sub, by omega, I.span, ?_, ?_, ?_, I.cols, I.nodup, ?_, ?_, ?_, I.between⟩
  · intro a ha; have := I.low a ha; omega
  · intro a ha
    rw [rowAt_append_lt _ _ (I.low a ha)]
    exact I.cell a ha
  · intro k c id h
    rcases Nat.lt_trichotomy k m.length with hk | hk | hk
    · rw [rowAt_append_lt _ _ hk] at h
      exact I.node k c id h
    · subst hk
      rw [hlast, copyRow] at h
      split at h <;> cases h
    · rw [rowAt_ge _ (by omega)] at h
      cases h
  · intro c
    rw [hlen, Nat.add_sub_cancel, hlast, ← I.opened c, copyRow]
    cases hr : rowAt m (m.length - 1) c <;> simp
  · intro c h
    rw [hlen, Nat.add_sub_cancel, hlast, copyRow] at h
    split at h <;> cases h
  · intro a ha h
    exact hfull a ha (by omega)

theorem fold_corner (xs : List (Nat × Nat)) : ∀ (row : Row) (c : Nat),
    xs.foldl (fun row x => setCell row x.2 .corner) row c = if c ∈ xs.map Prod.snd then .corner else row c := by
  induction xs with
  | nil => intro row c; simp
  | cons x xs ih =>
    intro row c
    rw [List.foldl_cons, ih, List.map_cons, setCell]
    by_cases h : c ∈ xs.map Prod.snd
    · rw [if_pos h, if_pos (List.mem_cons_of_mem _ h)]
    · rw [if_neg h]
      by_cases h' : c = x.2
      · rw [if_pos h', if_pos (by rw [h']; exact List.mem_cons_self)]
      · rw [if_neg h', if_neg (by rw [List.mem_cons]; rintro (h1 | h1); exact h' h1; exact h h1)]

theorem placeRow_eq (row : Row) (xs : List (Nat × Nat)) (i id c : Nat) :
    placeRow row xs i id c = if c = i then .node id else if c ∈ xs.map Prod.snd then .corner else row c := by
  rw [placeRow, setCell, fold_corner]

theorem mem_addCol (cc : Cols) (p : Nat) (y : Nat × Nat) (q : Nat) (x : Nat × Nat) : x ∈ addCol cc p y q ↔ x ∈ cc q ∨ (q = p ∧ x = y) := by
  unfold addCol
  split
  · rename_i h
    simp only [List.mem_append, List.mem_singleton]
    simp [h.1]
  · rename_i h
    constructor
    · exact fun h => .inl h
    · rintro (h' | ⟨h1, h2⟩)
      · exact h'
      · subst h2
        by_cases hm : x ∈ cc q
        · exact hm
        · exact absurd ⟨h1, hm⟩ h

theorem nodup_addCol (cc : Cols) (p : Nat) (y : Nat × Nat) (h : ∀ q, (cc q).Nodup) (q : Nat) : (addCol cc p y q).Nodup := by
  unfold addCol
  split
  · rename_i h'
    rw [List.nodup_append]
    refine ⟨h q, by simp, ?_⟩
    intro a ha b hb
    rw [List.mem_singleton] at hb
    subst hb
    rintro rfl
    exact h'.2 ha
  · exact h q

/-- What is in a row under a node that is about to be placed. -/
theorem Inv.free (C : Ctx H N) {P : Nd → Prop} {col : Nat → Nat} {m : List Row} {cc : Cols} (I : Inv N P col m cc) {a : Nd} (ha : a ∈ N)
    (hP : ¬ P a) (hrow : rowOf a + 1 = m.length) {c : Nat} (hc : inSpan a c) :
    rowAt m (m.length - 1) c = .empty ∨ (rowAt m (m.length - 1) c = .vert ∧ c ∈ (cc a.id).map Prod.snd) := by
  have hne := C.ne a ha
  have other : ∀ b, P b → b.id ≠ a.id := by
    intro b hb h
    exact hP (C.inj (I.sub b hb) ha h ▸ hb)
  have same : ∀ b, P b → rowOf b + 1 = m.length → inSpan b c → False := by
    intro b hb hr hs
    have hbN := I.sub b hb
    have e : b.height = a.height := C.row_eq hbN ha (by omega)
    have h1 := (C.height a ha).1
    have h2 := (C.height b hbN).1
    exact span_disjoint (C.ne b hbN) hne (C.sep hbN ha (other b hb) (by omega) (by omega)) hs hc
  cases hx : rowAt m (m.length - 1) c with
  | empty => exact .inl rfl
  | corner =>
    obtain ⟨q, hq, hr, hs⟩ := I.corner c hx
    exact (same q hq hr hs).elim
  | node id =>
    obtain ⟨b, hb, _, hr, hcol⟩ := I.node _ c id hx
    have := I.span b hb
    rw [hcol] at this
    exact (same b hb (by have := I.pos; omega) this).elim
  | vert =>
    right
    refine ⟨rfl, ?_⟩
    obtain ⟨b, hb, hop, hcol⟩ := (I.opened c).mp (.inl hx)
    have hbN := I.sub b hb
    have hs := I.span b hb
    rw [hcol] at hs
    have hlow := I.low b hb
    have hle : b.height ≤ a.height := C.row_le hbN ha (by omega)
    have hb0 : b.id ≠ 0 := by
      intro h0
      have h1 := (C.height_root hbN h0).1
      have h2 : a.id ≠ 0 := fun h => other b hb (by rw [h0, h])
      have := C.height_lt ha h2
      omega
    obtain ⟨q, hqN, hq1, hq2, _, hq4, hq5⟩ := C.up b hbN hb0
    have hnd : ¬ Spec.disjoint b.leaves a.leaves := fun h => span_disjoint (C.ne b hbN) hne h hs hc
    rcases C.rel b hbN a ha (other b hb) with h | h | h
    · exact absurd h hnd
    · have := (C.height a ha).1; omega
    · -- the parent of b is not above a
      have hqa : q.id = a.id := by
        by_contra hne'
        rcases Nat.lt_or_ge q.height a.height with hlt | hge
        · have hPq : P q := I.full q hqN (by have := C.row_lt hqN ha hlt; omega)
          have := hop q hPq hq1
          omega
        · have h1 := (C.height a ha).1
          have h2 := (C.height q hqN).1
          exact hnd (disjoint_mono (C.sep hqN ha hne' (by omega) (by omega)) hq4 (fun x hx => hx))
      rw [List.mem_map]
      refine ⟨(rowOf b, col b.id), ?_, hcol⟩
      rw [I.cols]
      exact ⟨b, hb, hb0, by rw [← hq1, hqa], rfl⟩

/-- The columns of the children of a node that is about to be placed. -/
theorem Inv.cand_span (C : Ctx H N) {P : Nd → Prop} {col : Nat → Nat} {m : List Row} {cc : Cols} (I : Inv N P col m cc) {a : Nd} (ha : a ∈ N)
    {x : Nat × Nat} (hx : x ∈ cc a.id) : inSpan a x.2 := by
  obtain ⟨b, hb, hb0, hbp, rfl⟩ := (I.cols _ _).mp hx
  have hbN := I.sub b hb
  obtain ⟨q, hqN, hq1, _, _, hq4, _⟩ := C.up b hbN hb0
  have : q = a := C.inj hqN ha (by rw [hq1, hbp])
  subst this
  exact span_sub (C.ne b hbN) hq4 (I.span b hb)


/-- Placing a node (tree.py:1252-1262). -/
theorem Inv.place (C : Ctx H N) {P : Nd → Prop} {col : Nat → Nat} {m : List Row} {cc : Cols} (I : Inv N P col m cc) {a : Nd} (ha : a ∈ N)
    (hP : ¬ P a) (hrow : rowOf a + 1 = m.length) {i : Nat} (hi : inSpan a i) (hbt : ∃ x ∈ cc a.id, ∃ y ∈ cc a.id, x.2 ≤ i ∧ i ≤ y.2) :
    Inv N (fun b => P b ∨ b = a) (fun id => if id = a.id then i else col id)
      (m.modify (rowOf a) (fun row => placeRow row (cc a.id) i a.id))
      (if a.id = 0 then cc else addCol cc a.parent (rowOf a, i)) := by
  have hne := C.ne a ha
  have other : ∀ b, P b → b.id ≠ a.id := by
    intro b hb h
    exact hP (C.inj (I.sub b hb) ha h ▸ hb)
  have hcol : ∀ b, P b → (if b.id = a.id then i else col b.id) = col b.id := by
    intro b hb
    rw [if_neg (other b hb)]
  have hlen : (m.modify (rowOf a) (fun row => placeRow row (cc a.id) i a.id)).length = m.length := by simp
  have hrl : rowOf a < m.length := by omega
  have hL : m.length - 1 = rowOf a := by omega
  have hrw : ∀ k c, rowAt (m.modify (rowOf a) (fun row => placeRow row (cc a.id) i a.id)) k c =
      if k = rowOf a then (if c = i then .node a.id else if c ∈ (cc a.id).map Prod.snd then .corner else rowAt m (rowOf a) c)
      else rowAt m k c := by
    intro k c
    rw [rowAt_modify _ _ hrl]
    by_cases hk : k = rowOf a
    · rw [if_pos hk, if_pos hk, placeRow_eq]
    · rw [if_neg hk, if_neg hk]
  have hcs : ∀ c, c ∈ (cc a.id).map Prod.snd → inSpan a c := by
    intro c hc
    obtain ⟨x, hx, rfl⟩ := List.mem_map.mp hc
    exact I.cand_span C ha hx
  have sameRow : ∀ b, P b → rowOf b = rowOf a → ∀ c, inSpan b c → inSpan a c → False := by
    intro b hb hr c hs hc
    have hbN := I.sub b hb
    have e : b.height = a.height := C.row_eq hbN ha hr
    have h1 := (C.height a ha).1
    have h2 := (C.height b hbN).1
    exact span_disjoint (C.ne b hbN) hne (C.sep hbN ha (other b hb) (by omega) (by omega)) hs hc
  refine ⟨?_, ?_, ?_, ?_, ?_, ?_, ?_, ?_, ?_, ?_, ?_, ?_⟩
  · rintro b (hb | rfl)
    · exact I.sub b hb
    · exact ha
  · rw [hlen]; exact I.pos
  · rintro b (hb | rfl)
    · rw [hcol b hb]; exact I.span b hb
    · rw [if_pos rfl]; exact hi
  · rw [hlen]
    rintro b (hb | rfl)
    · exact I.low b hb
    · exact hrl
  · rintro b (hb | rfl)
    · rw [hcol b hb, hrw]
      by_cases hr : rowOf b = rowOf a
      · rw [if_pos hr]
        have h1 : col b.id ≠ i := fun h => sameRow b hb hr i (h ▸ I.span b hb) hi
        have h2 : col b.id ∉ (cc a.id).map Prod.snd := fun h => sameRow b hb hr _ (I.span b hb) (hcs _ h)
        rw [if_neg h1, if_neg h2, ← hr]
        exact I.cell b hb
      · rw [if_neg hr]
        exact I.cell b hb
    · rw [hrw, if_pos rfl, if_pos rfl, if_pos rfl]
  · intro k c id h
    rw [hrw] at h
    by_cases hk : k = rowOf a
    · rw [if_pos hk] at h
      by_cases hc : c = i
      · rw [if_pos hc] at h
        injection h with h
        exact ⟨a, .inr rfl, h, hk.symm, by rw [if_pos rfl, hc]⟩
      · rw [if_neg hc] at h
        by_cases hc2 : c ∈ (cc a.id).map Prod.snd
        · rw [if_pos hc2] at h; cases h
        · rw [if_neg hc2] at h
          obtain ⟨b, hb, h1, h2, h3⟩ := I.node _ c id h
          exact ⟨b, .inl hb, h1, by rw [h2, hk], by rw [hcol b hb, h3]⟩
    · rw [if_neg hk] at h
      obtain ⟨b, hb, h1, h2, h3⟩ := I.node _ c id h
      exact ⟨b, .inl hb, h1, h2, by rw [hcol b hb, h3]⟩
  · intro p x
    have old : (∃ b, P b ∧ b.id ≠ 0 ∧ b.parent = p ∧ x = (rowOf b, if b.id = a.id then i else col b.id)) ↔ x ∈ cc p := by
      rw [I.cols]
      constructor
      · rintro ⟨b, hb, h0, h1, h2⟩
        exact ⟨b, hb, h0, h1, by rw [h2, hcol b hb]⟩
      · rintro ⟨b, hb, h0, h1, h2⟩
        exact ⟨b, hb, h0, h1, by rw [h2, hcol b hb]⟩
    by_cases h0 : a.id = 0
    · rw [if_pos h0, ← old]
      constructor
      · rintro ⟨b, hb, h⟩
        exact ⟨b, .inl hb, h⟩
      · rintro ⟨b, hb | rfl, h⟩
        · exact ⟨b, hb, h⟩
        · exact absurd h0 h.1
    · rw [if_neg h0, mem_addCol, ← old]
      constructor
      · rintro (⟨b, hb, h⟩ | ⟨h1, h2⟩)
        · exact ⟨b, .inl hb, h⟩
        · exact ⟨a, .inr rfl, h0, h1.symm, by rw [h2, if_pos rfl]⟩
      · rintro ⟨b, hb | rfl, h⟩
        · exact .inl ⟨b, hb, h⟩
        · refine .inr ⟨h.2.1.symm, ?_⟩
          rw [h.2.2, if_pos rfl]
  · intro p
    by_cases h0 : a.id = 0
    · rw [if_pos h0]; exact I.nodup p
    · rw [if_neg h0]; exact nodup_addCol _ _ _ I.nodup p
  · intro c
    rw [hlen, hL, hrw, if_pos rfl]
    constructor
    · intro h
      by_cases hc : c = i
      · refine ⟨a, .inr rfl, ?_, by rw [if_pos rfl, hc]⟩
        rintro q (hq | rfl) hqp
        · have hqN := I.sub q hq
          by_cases h0 : a.id = 0
          · exfalso
            exact other q hq (by rw [hqp, h0]; exact C.root_parent a ha h0)
          · obtain ⟨q', hq', e1, e2, _⟩ := C.up a ha h0
            have : q' = q := C.inj hq' hqN (by rw [e1, hqp])
            subst this
            have h1 := C.row_lt ha hqN (by rw [e2]; exact (C.height a ha).1)
            have := I.low q' hq
            omega
        · rfl
      · rw [if_neg hc] at h
        by_cases hc2 : c ∈ (cc a.id).map Prod.snd
        · rw [if_pos hc2] at h
          simp at h
        · rw [if_neg hc2, ← hL, I.opened] at h
          obtain ⟨b, hb, hop, hbc⟩ := h
          refine ⟨b, .inl hb, ?_, by rw [hcol b hb, hbc]⟩
          rintro q (hq | rfl) hqp
          · exact hop q hq hqp
          · exfalso
            by_cases hb0 : b.id = 0
            · have hbN := I.sub b hb
              have e1 := C.height_root hbN hb0
              have : q.id ≠ 0 := fun h => other b hb (by rw [h, hb0])
              have e2 := C.height_lt ha this
              have e3 := C.row_lt ha hbN (by omega)
              have := I.low b hb
              omega
            · apply hc2
              rw [List.mem_map]
              exact ⟨(rowOf b, col b.id), (I.cols _ _).mpr ⟨b, hb, hb0, hqp.symm, rfl⟩, hbc⟩
    · rintro ⟨b, hb, hop, hbc⟩
      by_cases hc : c = i
      · rw [if_pos hc]; exact .inr ⟨_, rfl⟩
      · rw [if_neg hc]
        rcases hb with hb | rfl
        · rw [hcol b hb] at hbc
          have hbN := I.sub b hb
          have hop' : ∀ q, P q → q.id = b.parent → q.id = b.id := fun q hq h => hop q (.inl hq) h
          have hba : a.id ≠ b.parent := by
            intro h
            exact other b hb (hop a (.inr rfl) h).symm
          by_cases hc2 : c ∈ (cc a.id).map Prod.snd
          · exfalso
            obtain ⟨x, hx, hxc⟩ := List.mem_map.mp hc2
            obtain ⟨d, hd, hd0, hdp, rfl⟩ := (I.cols _ _).mp hx
            dsimp only at hxc
            have hdN := I.sub d hd
            have hbd : b.id ≠ d.id := by
              intro h
              have := C.inj hbN hdN h
              subst this
              exact hba hdp.symm
            obtain ⟨q, hqN, q1, q2, _, q4, _⟩ := C.up d hdN hd0
            have hqa : q = a := C.inj hqN ha (by rw [q1, hdp])
            subst hqa
            have hsd := I.span d hd
            rw [hxc] at hsd
            have hsb := I.span b hb
            rw [hbc] at hsb
            have hnd : ¬ Spec.disjoint b.leaves d.leaves := fun h => span_disjoint (C.ne b hbN) (C.ne d hdN) h hsb hsd
            have hlow := I.low b hb
            have hle : b.height ≤ q.height := C.row_le hbN ha (by omega)
            have hdh := (C.height d hdN).1
            have hbh := (C.height b hbN).1
            have hb0 : b.id ≠ 0 := by
              intro h0
              have h1 := (C.height_root hbN h0).1
              have h2 : q.id ≠ 0 := fun h => other b hb (by rw [h0, h])
              have := C.height_lt ha h2
              omega
            rcases C.rel b hbN d hdN hbd with h | h | h
            · exact hnd h
            · have hbq : Spec.disjoint b.leaves q.leaves := C.sep hbN ha (other b hb) (by have := (C.height q ha).1; omega) (by omega)
              exact hnd (disjoint_mono hbq (fun x hx => hx) q4)
            · obtain ⟨p, hpN, p1, p2, _, _, p5⟩ := C.up b hbN hb0
              have hPp : P p := I.full p hpN (by have := C.row_lt hpN ha (by omega); omega)
              have := hop' p hPp p1
              omega
          · rw [if_neg hc2, ← hL, I.opened]
            exact ⟨b, hb, hop', hbc⟩
        · rw [if_pos rfl] at hbc
          exact absurd hbc.symm hc
  · intro c h
    rw [hlen, hL, hrw, if_pos rfl] at h
    by_cases hc : c = i
    · rw [if_pos hc] at h; cases h
    · rw [if_neg hc] at h
      by_cases hc2 : c ∈ (cc a.id).map Prod.snd
      · exact ⟨a, .inr rfl, by rw [hlen]; exact hrow, hcs c hc2⟩
      · rw [if_neg hc2, ← hL] at h
        obtain ⟨q, hq, h1, h2⟩ := I.corner c h
        exact ⟨q, .inl hq, by rw [hlen]; exact h1, h2⟩
  · intro b hb h
    rw [hlen] at h
    exact .inl (I.full b hb h)
  · rintro b (hb | rfl) hl
    · obtain ⟨x, y, hx, hy, h0, h0', h1, h2, h3, h4⟩ := I.between b hb hl
      exact ⟨x, y, .inl hx, .inl hy, h0, h0', h1, h2, by rw [hcol x hx, hcol b hb]; exact h3, by rw [hcol y hy, hcol b hb]; exact h4⟩
    · obtain ⟨x, hx, y, hy, h1, h2⟩ := hbt
      obtain ⟨x', hx', x0, xp, rfl⟩ := (I.cols _ _).mp hx
      obtain ⟨y', hy', y0, yp, rfl⟩ := (I.cols _ _).mp hy
      refine ⟨x', y', .inl hx', .inl hy', x0, y0, xp, yp, ?_, ?_⟩
      · rw [hcol x' hx', if_pos rfl]; exact h1
      · rw [hcol y' hy', if_pos rfl]; exact h2

theorem sum_ge (m : Nat) : ∀ l : List Nat, (∀ x ∈ l, m ≤ x) → m * l.length ≤ l.sum
  | [], _ => by simp
  | a :: l, h => by
    have := sum_ge m l (fun x hx => h x (List.mem_cons_of_mem _ hx))
    have := h a List.mem_cons_self
    rw [List.length_cons, List.sum_cons, Nat.mul_succ]
    omega

theorem sum_le' (m : Nat) : ∀ l : List Nat, (∀ x ∈ l, x ≤ m) → l.sum ≤ m * l.length
  | [], _ => by simp
  | a :: l, h => by
    have := sum_le' m l (fun x hx => h x (List.mem_cons_of_mem _ hx))
    have := h a List.mem_cons_self
    rw [List.length_cons, List.sum_cons, Nat.mul_succ]
    omega

theorem sum_lt (m : Nat) : ∀ l : List Nat, (∀ x ∈ l, x ≤ m) → (∃ x ∈ l, x < m) → l.sum < m * l.length
  | [], _, h => by obtain ⟨x, hx, _⟩ := h; cases hx
  | a :: l, h, hx => by
    have h1 := sum_le' m l (fun x hx => h x (List.mem_cons_of_mem _ hx))
    have h2 := h a List.mem_cons_self
    rw [List.length_cons, List.sum_cons, Nat.mul_succ]
    obtain ⟨x, hx, hlt⟩ := hx
    rcases List.mem_cons.mp hx with rfl | hx
    · omega
    · have := sum_lt m l (fun x hx => h x (List.mem_cons_of_mem _ hx)) ⟨x, hx, hlt⟩
      omega

/-- The preferred column is between the first and the last child. -/
theorem centerOf_bounds (leaves cs : List Nat) (hne : cs ≠ []) (hlt : minL cs < maxL cs) :
    minL cs ≤ centerOf leaves cs ∧ centerOf leaves cs < maxL cs := by
  have hpos : 0 < cs.length := List.length_pos_iff.mpr hne
  have e1 : minL cs ≤ cs.sum / cs.length := by
    rw [Nat.le_div_iff_mul_le hpos]
    exact sum_ge _ _ (fun x hx => minL_le hx)
  have e2 : cs.sum / cs.length < maxL cs := by
    rw [Nat.div_lt_iff_lt_mul hpos]
    exact sum_lt _ _ (fun x hx => le_maxL hx) ⟨_, minL_mem hne, hlt⟩
  unfold centerOf
  dsimp only
  generalize 2 * leaves.sum / leaves.length = c1
  generalize cs.sum / cs.length = av at e1 e2
  have hc2 : ∀ c2, c2 = (if minL cs < maxL cs ∧ ¬ (minL cs < c1 ∧ c1 < maxL cs) then av else c1) → minL cs ≤ c2 ∧ c2 < maxL cs := by
    intro c2 h
    split at h <;> omega
  generalize hg : (if minL cs < maxL cs ∧ ¬ (minL cs < c1 ∧ c1 < maxL cs) then av else c1) = c2
  obtain ⟨h1, h2⟩ := hc2 c2 hg.symm
  split
  · split <;> omega
  · omega

theorem scan_first (row : Row) (cands : List Nat) (lo hi fuel c : Nat) (h : c < hi) (hf : row c = .empty ∨ c ∈ cands) :
    scan row cands lo hi (fuel + 1) c c = some c := by
  rw [scan]
  have h1 : (c : Int) > lo ∨ (c : Int) < hi := .inr (by omega)
  have h2 : (c : Int) < hi ∧ (row (c : Int).toNat = .empty ∨ (c : Int).toNat ∈ cands) := ⟨by omega, by simpa using hf⟩
  rw [if_pos h1, if_pos h2]
  simp

theorem rowLoop_ok (cands : List (Nat × Nat)) (leaves : List Nat) (width f r : Nat) (m : List Row) (hne : cands ≠ []) (hnd : cands.Nodup)
    (hdist : ∀ x ∈ cands, ∀ y ∈ cands, x ≠ y → x.2 ≠ y.2)
    (hfree : ∀ c, minL (cands.map Prod.snd) ≤ c → c ≤ maxL (cands.map Prod.snd) → rowAt (addRow m r) r c = .empty ∨
      (rowAt (addRow m r) r c = .vert ∧ c ∈ cands.map Prod.snd)) :
    ∃ i, rowLoop cands width (centerOf leaves (cands.map Prod.snd)) (f + 1) r m = some (r, i, addRow m r) ∧
      ∃ x ∈ cands, ∃ y ∈ cands, x.2 ≤ i ∧ i ≤ y.2 := by
  have hcs : cands.map Prod.snd ≠ [] := by simpa using hne
  rw [rowLoop.eq_def]
  dsimp only
  split
  · rename_i x
    exact ⟨x.2, rfl, x, List.mem_singleton.mpr rfl, x, List.mem_singleton.mpr rfl, Nat.le_refl _, Nat.le_refl _⟩
  · rename_i hns
    have hlt : minL (cands.map Prod.snd) < maxL (cands.map Prod.snd) := by
      rcases cands with _ | ⟨x, _ | ⟨y, l⟩⟩
      · exact absurd rfl hne
      · exact absurd rfl (hns x)
      · have hxy : x ≠ y := by
          rw [List.nodup_cons] at hnd
          rintro rfl
          exact hnd.1 List.mem_cons_self
        have hd := hdist x (by simp) y (by simp) hxy
        have hx : x.2 ∈ (x :: y :: l).map Prod.snd := by simp
        have hy : y.2 ∈ (x :: y :: l).map Prod.snd := by simp
        have h1 := minL_le hx
        have h2 := minL_le hy
        have h3 := le_maxL hx
        have h4 := le_maxL hy
        omega
    have hb := centerOf_bounds leaves _ hcs hlt
    have hfs : freeSpan ((addRow m r).getD r (fun _ => .empty)) (minL (cands.map Prod.snd)) (maxL (cands.map Prod.snd)) = true := by
      rw [freeSpan, List.all_eq_true]
      intro c hc
      rw [List.mem_range'_1] at hc
      rcases hfree c (by omega) (by omega) with h | ⟨h, _⟩
      · unfold rowAt at h; rw [h]; rfl
      · unfold rowAt at h; rw [h]; rfl
    have hfc : freeColumn ((addRow m r).getD r (fun _ => .empty)) (cands.map Prod.snd) width (centerOf leaves (cands.map Prod.snd)) =
        some (centerOf leaves (cands.map Prod.snd)) := by
      rw [freeColumn, scan_first]
      · exact hb.2
      · rcases hfree _ hb.1 (by omega) with h | ⟨_, h⟩
        · exact .inl h
        · exact .inr h
    rw [if_pos hfs, hfc]
    obtain ⟨x, hx, hx'⟩ := List.mem_map.mp (minL_mem hcs)
    obtain ⟨y, hy, hy'⟩ := List.mem_map.mp (maxL_mem hcs)
    exact ⟨_, rfl, x, hx, y, hy, by omega, by omega⟩

/-- What `findcell` needs of the children of a node. -/
theorem Inv.cands (C : Ctx H N) {P : Nd → Prop} {col : Nat → Nat} {m : List Row} {cc : Cols} (I : Inv N P col m cc) {a : Nd} (ha : a ∈ N)
    (hl : a.leaf = false) (hrow : m.length ≤ rowOf a + 1) (hch : ∀ b ∈ N, b.height < a.height → P b) :
    cc a.id ≠ [] ∧ (∀ x ∈ cc a.id, ∀ y ∈ cc a.id, x ≠ y → x.2 ≠ y.2) := by
  have _ := hrow
  constructor
  · obtain ⟨c, hc, h1, _, h3⟩ := C.down a ha hl _ (minL_mem (C.ne a ha))
    obtain ⟨q, hq, e1, e2, _⟩ := C.up c hc (by omega)
    have : q = a := C.inj hq ha (by rw [e1, h1])
    subst this
    have hPc : P c := hch c hc (by rw [e2]; exact (C.height c hc).1)
    have : (rowOf c, col c.id) ∈ cc q.id := (I.cols _ _).mpr ⟨c, hPc, by omega, h1, rfl⟩
    exact List.ne_nil_of_mem this
  · intro x hx y hy hxy hcol
    obtain ⟨b, hb, hb0, hbp, rfl⟩ := (I.cols _ _).mp hx
    obtain ⟨d, hd, hd0, hdp, rfl⟩ := (I.cols _ _).mp hy
    have hbN := I.sub b hb
    have hdN := I.sub d hd
    have hne : b.id ≠ d.id := by
      intro h
      exact hxy (by rw [C.inj hbN hdN h])
    obtain ⟨q, hq, q1, q2, _⟩ := C.up b hbN hb0
    obtain ⟨q', hq', q1', q2', _⟩ := C.up d hdN hd0
    have : q = q' := C.inj hq hq' (by rw [q1, q1', hbp, hdp])
    subst this
    have h1 := (C.height b hbN).1
    have h2 := (C.height d hdN).1
    have hdis := C.sep hbN hdN hne (by omega) (by omega)
    have s1 := I.span b hb
    dsimp only at hcol
    rw [hcol] at s1
    exact span_disjoint (C.ne b hbN) (C.ne d hdN) hdis s1 (I.span d hd)

/-- `findcell` finds a cell for a node whose row is the last one. -/
theorem Inv.findcell_ok (C : Ctx H N) {P : Nd → Prop} {col : Nat → Nat} {m : List Row} {cc : Cols} (I : Inv N P col m cc) {a : Nd} (ha : a ∈ N)
    (hl : a.leaf = false) (hP : ¬ P a) (hrow : rowOf a + 1 = m.length) (m0 : List Row) (f r width : Nat)
    (hm : addRow m0 r = m) (hr : r = rowOf a) :
    ∃ i, rowLoop (cc a.id) width (centerOf a.leaves ((cc a.id).map Prod.snd)) (f + 1) r m0 = some (rowOf a, i, m) ∧ inSpan a i ∧
      ∃ x ∈ cc a.id, ∃ y ∈ cc a.id, x.2 ≤ i ∧ i ≤ y.2 := by
  subst hr
  obtain ⟨h1, h2⟩ := I.cands C ha hl (by omega) (fun b hb h => I.full b hb (by have := C.row_lt hb ha h; omega))
  have hcs : (cc a.id).map Prod.snd ≠ [] := by simpa using h1
  have hspan : ∀ c ∈ (cc a.id).map Prod.snd, inSpan a c := by
    intro c hc
    obtain ⟨x, hx, rfl⟩ := List.mem_map.mp hc
    exact I.cand_span C ha hx
  have hL : m.length - 1 = rowOf a := by omega
  obtain ⟨i, hi, x, hx, y, hy, hxi, hiy⟩ := rowLoop_ok (cc a.id) a.leaves width f (rowOf a) m0 h1 (I.nodup _) h2 (by
    intro c hc1 hc2
    rw [hm, ← hL]
    apply I.free C ha hP hrow
    have s1 := hspan _ (minL_mem hcs)
    have s2 := hspan _ (maxL_mem hcs)
    unfold inSpan at s1 s2 ⊢
    omega)
  refine ⟨i, by rw [hi, hm], ?_, x, hx, y, hy, hxi, hiy⟩
  have s1 := I.cand_span C ha hx
  have s2 := I.cand_span C ha hy
  unfold inSpan at s1 s2 ⊢
  omega

/-- A level under the root. -/
theorem levelLoop_ok (C : Ctx H N) (width h : Nat) (hh : h < H) : ∀ (todo : List Nd) (P : Nd → Prop) (col : Nat → Nat) (m : List Row) (cc : Cols),
    Inv N P col m cc → m.length = h → (∀ a ∈ todo, a ∈ N ∧ a.leaf = false ∧ a.height = h ∧ ¬ P a) → (todo.map (·.id)).Nodup →
    ∃ m' cc' col', levelLoop width (h - 1) todo m cc = some (m', cc') ∧ Inv N (fun b => P b ∨ b ∈ todo) col' m' cc' ∧ m'.length = h
  | [], P, col, m, cc, I, hm, _, _ => by
    refine ⟨m, cc, col, by rw [levelLoop], ?_, hm⟩
    have : (fun b => P b ∨ b ∈ ([] : List Nd)) = P := by funext b; simp
    rw [this]; exact I
  | a :: todo, P, col, m, cc, I, hm, ht, hn => by
    obtain ⟨ha, hl, hah, hP⟩ := ht a List.mem_cons_self
    have ha0 : a.id ≠ 0 := by
      intro h0
      have := (C.height_root ha h0).1
      omega
    have hpos := (C.height a ha).2
    have hro : rowOf a = h - 1 := by unfold rowOf; rw [if_neg ha0]; omega
    have hadd : addRow m (h - 1) = m := by unfold addRow; rw [if_neg (by omega)]
    obtain ⟨i, hi, hs, hb⟩ := I.findcell_ok C ha hl hP (by omega) m 1 (h - 1) width hadd hro.symm
    have I' := I.place C ha hP (by omega) hs hb
    rw [List.map_cons, List.nodup_cons] at hn
    obtain ⟨m', cc', col', h1, h2, h3⟩ := levelLoop_ok C width h hh todo _ _ _ _ I' (by rw [List.length_modify]; exact hm) (by
      intro b hbt
      obtain ⟨q1, q2, q3, q4⟩ := ht b (List.mem_cons_of_mem _ hbt)
      refine ⟨q1, q2, q3, ?_⟩
      rintro (hb | rfl)
      · exact q4 hb
      · exact hn.1 (List.mem_map.mpr ⟨b, hbt, rfl⟩)) hn.2
    refine ⟨m', cc', col', ?_, ?_, h3⟩
    · rw [levelLoop, findcell]
      rw [if_neg ha0]
      have : m.length + 1 - (h - 1) = 1 + 1 := by omega
      rw [this, hi]
      exact h1
    · have : (fun b => P b ∨ b ∈ a :: todo) = (fun b => (P b ∨ b = a) ∨ b ∈ todo) := by
        funext b
        simp [or_assoc]
      rw [this]; exact h2

theorem mem_level {h : Nat} {a : Nd} : a ∈ level N h ↔ a ∈ N ∧ a.leaf = false ∧ a.height = h := by
  rw [level, StableSort.mem, List.mem_filter]
  simp

theorem level_nodup (C : Ctx H N) (h : Nat) : ((level N h).map (·.id)).Nodup := by
  have p : (level N h).Perm (N.filter (fun a => !a.leaf && decide (a.height = h))) := StableSort.perm _
  rw [(p.map _).nodup_iff]
  exact C.nodup.sublist (List.Sublist.map _ List.filter_sublist)

/-- The levels under the root. -/
theorem levels_mid (C : Ctx H N) (width : Nat) (rest : List Nat) : ∀ (k h : Nat) (col : Nat → Nat) (m : List Row) (cc : Cols), h + k = H → 2 ≤ h →
    Inv N (fun b => b ∈ N ∧ b.height < h) col m cc → m.length = h - 1 →
    ∃ m' cc' col', levels width N (List.range' h k ++ rest) m cc = levels width N rest m' cc' ∧
      Inv N (fun b => b ∈ N ∧ b.height < H) col' m' cc' ∧ m'.length = H - 1
  | 0, h, col, m, cc, hk, h2, I, hm => by
    have : h = H := by omega
    subst this
    exact ⟨m, cc, col, by simp, I, hm⟩
  | k + 1, h, col, m, cc, hk, h2, I, hm => by
    have I1 := I.push (by
      intro a ha hr
      refine ⟨ha, ?_⟩
      have h1 := (C.height a ha).2
      unfold rowOf at hr
      split at hr
      · rename_i h0
        have := (C.height_root ha h0).1
        omega
      · omega)
    obtain ⟨m', cc', col', e, I', hm'⟩ := levelLoop_ok C width h (by omega) (level N h) _ _ _ _ I1 (by simp; omega) (by
      intro a ha
      rw [mem_level] at ha
      refine ⟨ha.1, ha.2.1, ha.2.2, ?_⟩
      rintro ⟨_, h'⟩
      omega) (level_nodup C h)
    have hP : (fun b => (b ∈ N ∧ b.height < h) ∨ b ∈ level N h) = (fun b => b ∈ N ∧ b.height < h + 1) := by
      funext b
      rw [mem_level]
      apply propext
      constructor
      · rintro (⟨h1, h3⟩ | ⟨h1, _, h3⟩)
        · exact ⟨h1, by omega⟩
        · exact ⟨h1, by omega⟩
      · rintro ⟨h1, h3⟩
        by_cases hb : b.height < h
        · exact .inl ⟨h1, hb⟩
        · refine .inr ⟨h1, ?_, by omega⟩
          cases hl : b.leaf with
          | false => rfl
          | true =>
            have := ((C.isLeaf b h1).1 hl).1
            omega
    rw [hP] at I'
    obtain ⟨m2, cc2, col2, e2, I2, hm2⟩ := levels_mid C width rest k (h + 1) col' m' cc' (by omega) (by omega) I' (by omega)
    refine ⟨m2, cc2, col2, ?_, I2, hm2⟩
    rw [List.range'_succ, List.cons_append, levels, hm, e]
    exact e2

theorem root_level (C : Ctx H N) : ∃ r, level N H = [r] ∧ r ∈ N ∧ r.id = 0 ∧ r.height = H ∧ r.leaf = false := by
  obtain ⟨r, hr, h0, h1, h2⟩ := C.root
  have hmem : r ∈ level N H := mem_level.mpr ⟨hr, h2, h1⟩
  have hall : ∀ a ∈ level N H, a = r := by
    intro a ha
    rw [mem_level] at ha
    by_cases h : a.id = 0
    · exact C.inj ha.1 hr (by rw [h, h0])
    · have := C.height_lt ha.1 h
      omega
  have hnd : (level N H).Nodup := List.Nodup.of_map _ (level_nodup C H)
  refine ⟨r, ?_, hr, h0, h1, h2⟩
  cases hL : level N H with
  | nil => rw [hL] at hmem; cases hmem
  | cons a l =>
    rw [hL] at hall hnd
    have e1 := hall a List.mem_cons_self
    subst e1
    cases l with
    | nil => rfl
    | cons b l =>
      have e2 := hall b (by simp)
      subst e2
      simp at hnd

/-- The level of the root. -/
theorem levels_root (C : Ctx H N) (hH : 2 ≤ H) (width : Nat) (col : Nat → Nat) (m : List Row) (cc : Cols)
    (I : Inv N (fun b => b ∈ N ∧ b.height < H) col m cc) (hm : m.length = H - 1) :
    ∃ m' cc' col', levels width N [H] m cc = some (m', cc') ∧ Inv N (fun b => b ∈ N) col' m' cc' ∧ m'.length = H + 1 ∧
      ∀ c, rowAt m' (H - 1) c = .empty ∨ rowAt m' (H - 1) c = .vert := by
  obtain ⟨r, hr, hrN, h0, h1, h2⟩ := root_level C
  have hro : rowOf r = H := by unfold rowOf; rw [if_pos h0]; omega
  have hlow : ∀ a ∈ N, rowOf a + 1 ≤ H → a ∈ N ∧ a.height < H := by
    intro a ha h
    refine ⟨ha, ?_⟩
    by_cases ha0 : a.id = 0
    · have := (C.height_root ha ha0).1
      unfold rowOf at h
      rw [if_pos ha0] at h
      omega
    · exact C.height_lt ha ha0
  have I1 := I.push (fun a ha h => hlow a ha (by omega))
  have hm1 : (m ++ [copyRow (m.getLastD (fun _ => .empty))]).length = H := by simp; omega
  have hc1 : ∀ c, rowAt (m ++ [copyRow (m.getLastD (fun _ => .empty))]) (H - 1) c = .empty ∨
      rowAt (m ++ [copyRow (m.getLastD (fun _ => .empty))]) (H - 1) c = .vert := by
    intro c
    rw [← hm, rowAt_append_last, copyRow]
    split <;> simp
  generalize hgm : m ++ [copyRow (m.getLastD (fun _ => .empty))] = m1 at I1 hm1 hc1
  have I2 := I1.push (fun a ha h => hlow a ha (by omega))
  have hadd : addRow m1 H = m1 ++ [copyRow (m1.getLastD (fun _ => .empty))] := by
    unfold addRow
    rw [if_pos hm1.symm]
  have hm2 : (m1 ++ [copyRow (m1.getLastD (fun _ => .empty))]).length = H + 1 := by simp [hm1]
  have hc2 : ∀ c, rowAt (m1 ++ [copyRow (m1.getLastD (fun _ => .empty))]) (H - 1) c = .empty ∨
      rowAt (m1 ++ [copyRow (m1.getLastD (fun _ => .empty))]) (H - 1) c = .vert := by
    intro c
    rw [rowAt_append_lt _ _ (by omega)]
    exact hc1 c
  generalize m1 ++ [copyRow (m1.getLastD (fun _ => .empty))] = m2 at I2 hadd hm2 hc2
  have hnP : ¬ (r ∈ N ∧ r.height < H) := by rintro ⟨_, h⟩; omega
  obtain ⟨i, hi, hs, hb⟩ := I2.findcell_ok C hrN h2 hnP (by omega) m1 0 H width hadd hro.symm
  have I3 := I2.place C hrN hnP (by omega) hs hb
  have hP : (fun b => (b ∈ N ∧ b.height < H) ∨ b = r) = (fun b => b ∈ N) := by
    funext b
    apply propext
    constructor
    · rintro (h | rfl)
      · exact h.1
      · exact hrN
    · intro hb
      by_cases hb0 : b.id = 0
      · exact .inr (C.inj hb hrN (by rw [hb0, h0]))
      · exact .inl ⟨hb, C.height_lt hb hb0⟩
  rw [hP] at I3
  refine ⟨_, _, _, ?_, I3, ?_, ?_⟩
  · rw [levels, hgm, hr, levelLoop, findcell, if_pos h0]
    have : m1.length + 1 - m1.length = 0 + 1 := by omega
    rw [this, hm1, hi]
    dsimp only
    rw [levelLoop]
    dsimp only
    rw [levels]
  · rw [List.length_modify]; exact hm2
  · intro c
    rw [rowAt_modify _ _ (by omega), if_neg (by omega)]
    exact hc2 c

/-! ## The terminals -/

theorem fold_term : ∀ (l : List Nd) (row : Row) (c : Nat),
    (∃ a ∈ l, 2 * a.leaves.headD 0 = c ∧ l.foldl (fun row a => setCell row (2 * a.leaves.headD 0) (.node a.id)) row c = .node a.id) ∨
    (l.foldl (fun row a => setCell row (2 * a.leaves.headD 0) (.node a.id)) row c = row c ∧ ∀ a ∈ l, 2 * a.leaves.headD 0 ≠ c)
  | [], row, c => .inr ⟨rfl, by simp⟩
  | a :: l, row, c => by
    rw [List.foldl_cons]
    rcases fold_term l (setCell row (2 * a.leaves.headD 0) (.node a.id)) c with ⟨b, hb, h1, h2⟩ | ⟨h1, h2⟩
    · exact .inl ⟨b, List.mem_cons_of_mem _ hb, h1, h2⟩
    · by_cases hc : c = 2 * a.leaves.headD 0
      · left
        refine ⟨a, List.mem_cons_self, hc.symm, ?_⟩
        rw [h1, setCell, if_pos hc]
      · right
        refine ⟨by rw [h1, setCell, if_neg hc], ?_⟩
        intro b hb
        rcases List.mem_cons.mp hb with rfl | hb
        · exact Ne.symm hc
        · exact h2 b hb

theorem fold_termCols : ∀ (l : List Nd) (cc : Cols) (p : Nat) (x : Nat × Nat),
    x ∈ l.foldl (fun cc a => addCol cc a.parent (0, 2 * a.leaves.headD 0)) cc p ↔
      x ∈ cc p ∨ ∃ a ∈ l, a.parent = p ∧ x = (0, 2 * a.leaves.headD 0)
  | [], cc, p, x => by simp
  | a :: l, cc, p, x => by
    rw [List.foldl_cons, fold_termCols l, mem_addCol]
    constructor
    · rintro ((h | ⟨h1, h2⟩) | ⟨b, hb, h⟩)
      · exact .inl h
      · exact .inr ⟨a, List.mem_cons_self, h1.symm, h2⟩
      · exact .inr ⟨b, List.mem_cons_of_mem _ hb, h⟩
    · rintro (h | ⟨b, hb, h1, h2⟩)
      · exact .inl (.inl h)
      · rcases List.mem_cons.mp hb with rfl | hb
        · exact .inl (.inr ⟨h1.symm, h2⟩)
        · exact .inr ⟨b, hb, h1, h2⟩

theorem fold_termCols_nodup : ∀ (l : List Nd) (cc : Cols), (∀ p, (cc p).Nodup) → ∀ p,
    (l.foldl (fun cc a => addCol cc a.parent (0, 2 * a.leaves.headD 0)) cc p).Nodup
  | [], _, h, p => h p
  | a :: l, cc, h, p => by
    rw [List.foldl_cons]
    exact fold_termCols_nodup l _ (nodup_addCol _ _ _ h) p

/-- The column of a terminal. -/
def col0 (N : List Nd) (id : Nat) : Nat :=
  match N.find? (fun a => a.id == id) with
  | some a => 2 * a.leaves.headD 0
  | none => 0

theorem col0_eq (C : Ctx H N) {a : Nd} (ha : a ∈ N) : col0 N a.id = 2 * a.leaves.headD 0 := by
  unfold col0
  cases h : N.find? (fun b => b.id == a.id) with
  | none =>
    have := List.find?_eq_none.mp h a ha
    simp at this
  | some b =>
    have h1 := List.find?_some h
    have h2 := List.mem_of_find?_eq_some h
    have : b = a := C.inj h2 ha (by simpa using h1)
    rw [this]

theorem inv_init (C : Ctx H N) (hH : 2 ≤ H) :
    Inv N (fun b => b ∈ N ∧ b.height < 2) (col0 N) [termRow N] (termCols N) := by
  have isl : ∀ a ∈ N, a.height < 2 → a.leaf = true ∧ a.height = 1 := by
    intro a ha h
    have := (C.height a ha).2
    cases hl : a.leaf with
    | true => exact ⟨rfl, by omega⟩
    | false => have := (C.isLeaf a ha).2 hl; omega
  have nz : ∀ a ∈ N, a.height < 2 → a.id ≠ 0 := by
    intro a ha h h0
    have := (C.height_root ha h0).1
    omega
  have row0 : ∀ a ∈ N, a.height < 2 → rowOf a = 0 := by
    intro a ha h
    unfold rowOf
    rw [if_neg (nz a ha h)]
    omega
  have hmem : ∀ a, a ∈ N.filter (·.leaf) ↔ a ∈ N ∧ a.height < 2 := by
    intro a
    rw [List.mem_filter]
    constructor
    · rintro ⟨h1, h2⟩
      exact ⟨h1, by have := ((C.isLeaf a h1).1 h2).1; omega⟩
    · rintro ⟨h1, h2⟩
      exact ⟨h1, (isl a h1 h2).1⟩
  have hsp : ∀ a ∈ N, a.height < 2 → inSpan a (2 * a.leaves.headD 0) := by
    intro a ha h
    obtain ⟨i, hi⟩ := ((C.isLeaf a ha).1 (isl a ha h).1).2
    unfold inSpan
    rw [hi]
    simp [minL, maxL]
  have uniq : ∀ a ∈ N, a.height < 2 → ∀ b ∈ N, b.height < 2 → 2 * a.leaves.headD 0 = 2 * b.leaves.headD 0 → a = b := by
    intro a ha h b hb h' heq
    by_contra hne
    have hid : a.id ≠ b.id := fun h => hne (C.inj ha hb h)
    have h1 := (C.height a ha)
    have h2 := (C.height b hb)
    have s1 := hsp a ha h
    rw [heq] at s1
    exact span_disjoint (C.ne a ha) (C.ne b hb) (C.sep ha hb hid (by omega) (by omega)) s1 (hsp b hb h')
  have hrow : ∀ c, rowAt [termRow N] 0 c = termRow N c := fun c => rfl
  have hcell : ∀ a ∈ N, a.height < 2 → termRow N (2 * a.leaves.headD 0) = .node a.id := by
    intro a ha h
    rcases fold_term (N.filter (·.leaf)) (fun _ => .empty) (2 * a.leaves.headD 0) with ⟨b, hb, h1, h2⟩ | ⟨_, h2⟩
    · have hb' := (hmem b).mp hb
      rw [termRow, h2, uniq b hb'.1 hb'.2 a ha h h1]
    · exact absurd rfl (h2 a ((hmem a).mpr ⟨ha, h⟩))
  have hnode : ∀ c, (∃ a, (a ∈ N ∧ a.height < 2) ∧ termRow N c = .node a.id ∧ 2 * a.leaves.headD 0 = c) ∨ termRow N c = .empty := by
    intro c
    rcases fold_term (N.filter (·.leaf)) (fun _ => .empty) c with ⟨b, hb, h1, h2⟩ | ⟨h1, _⟩
    · exact .inl ⟨b, (hmem b).mp hb, h2, h1⟩
    · exact .inr h1
  refine ⟨fun a h => h.1, by simp, ?_, ?_, ?_, ?_, ?_, ?_, ?_, ?_, ?_, ?_⟩
  · rintro a ⟨ha, h⟩
    rw [col0_eq C ha]
    exact hsp a ha h
  · rintro a ⟨ha, h⟩
    rw [row0 a ha h]
    simp
  · rintro a ⟨ha, h⟩
    rw [row0 a ha h, hrow, col0_eq C ha]
    exact hcell a ha h
  · intro k c id h
    rcases Nat.eq_zero_or_pos k with rfl | hk
    · rw [hrow] at h
      rcases hnode c with ⟨a, ⟨ha, hh⟩, h1, h2⟩ | h1
      · rw [h1] at h
        injection h with h
        exact ⟨a, ⟨ha, hh⟩, h, row0 a ha hh, by rw [col0_eq C ha, h2]⟩
      · rw [h1] at h; cases h
    · rw [rowAt_ge _ (by simp only [List.length_singleton]; omega)] at h
      cases h
  · intro p x
    rw [termCols, fold_termCols]
    constructor
    · rintro (h | ⟨a, ha, h1, h2⟩)
      · cases h
      · obtain ⟨ha1, ha2⟩ := (hmem a).mp ha
        exact ⟨a, ⟨ha1, ha2⟩, nz a ha1 ha2, h1, by rw [h2, row0 a ha1 ha2, col0_eq C ha1]⟩
    · rintro ⟨a, ⟨ha1, ha2⟩, _, h1, h2⟩
      refine .inr ⟨a, (hmem a).mpr ⟨ha1, ha2⟩, h1, ?_⟩
      rw [h2, row0 a ha1 ha2, col0_eq C ha1]
  · intro p
    rw [termCols]
    exact fold_termCols_nodup _ _ (fun _ => List.nodup_nil) p
  · intro c
    have hL : [termRow N].length - 1 = 0 := rfl
    rw [hL, hrow]
    constructor
    · intro h
      rcases hnode c with ⟨a, ⟨ha, hh⟩, h1, h2⟩ | h1
      · refine ⟨a, ⟨ha, hh⟩, ?_, by rw [col0_eq C ha, h2]⟩
        rintro q ⟨hq, hq2⟩ hqp
        obtain ⟨q', hq', e1, e2, e3, _⟩ := C.up a ha (nz a ha hh)
        have : q' = q := C.inj hq' hq (by rw [e1, hqp])
        subst this
        have := (isl q' hq hq2).1
        rw [e3] at this
        cases this
      · rw [h1] at h
        simp at h
    · rintro ⟨a, ⟨ha, hh⟩, _, hc⟩
      rw [← hc, col0_eq C ha, hcell a ha hh]
      exact .inr ⟨_, rfl⟩
  · intro c h
    have hL : [termRow N].length - 1 = 0 := rfl
    rw [hL, hrow] at h
    rcases hnode c with ⟨a, _, h1, _⟩ | h1
    · rw [h1] at h; cases h
    · rw [h1] at h; cases h
  · intro a ha h
    simp at h
  · rintro a ⟨ha, hh⟩ hl
    have := (isl a ha hh).1
    rw [hl] at this
    cases this

/-- The grid of a continuous tree. -/
theorem levels_ok (C : Ctx H N) (hH : 2 ≤ H) (width : Nat) :
    ∃ m cc col, levels width N (List.range' 2 (H - 1)) [termRow N] (termCols N) = some (m, cc) ∧ Inv N (fun b => b ∈ N) col m cc ∧
      m.length = H + 1 ∧ ∀ c, rowAt m (H - 1) c = .empty ∨ rowAt m (H - 1) c = .vert := by
  have hr : List.range' 2 (H - 1) = List.range' 2 (H - 2) ++ [H] := by
    have e : H - 1 = (H - 2) + 1 := by omega
    rw [e, List.range'_concat]
    congr 2
    omega
  rw [hr]
  obtain ⟨m1, cc1, col1, e1, I1, hm1⟩ := levels_mid C width [H] (H - 2) 2 (col0 N) [termRow N] (termCols N) (by omega) (by omega)
    (inv_init C hH) rfl
  rw [e1]
  obtain ⟨m2, cc2, col2, e2, I2, h3, h4⟩ := levels_root C hH width col1 m1 cc1 I1 hm1
  exact ⟨m2, cc2, col2, e2, I2, h3, h4⟩

/-! ## The coordinates -/

theorem fold_set_get {V : Type} : ∀ (L : List (Nat × V)) (d : Dict Nat V) (k : Nat),
    (∃ v, (k, v) ∈ L ∧ (L.foldl (fun d x => d.set x.1 x.2) d).get? k = some v) ∨
    ((∀ v, (k, v) ∉ L) ∧ (L.foldl (fun d x => d.set x.1 x.2) d).get? k = d.get? k)
  | [], d, k => .inr ⟨by simp, rfl⟩
  | x :: L, d, k => by
    rw [List.foldl_cons]
    rcases fold_set_get L (d.set x.1 x.2) k with ⟨v, h1, h2⟩ | ⟨h1, h2⟩
    · exact .inl ⟨v, List.mem_cons_of_mem _ h1, h2⟩
    · rw [Dict.get?_set] at h2
      by_cases hk : k = x.1
      · left
        refine ⟨x.2, by rw [hk]; exact List.mem_cons_self, ?_⟩
        rw [h2]
        simp [hk]
      · right
        refine ⟨?_, ?_⟩
        · intro v hv
          rcases List.mem_cons.mp hv with h | h
          · exact hk (by rw [← h])
          · exact h1 v h
        · rw [h2]
          simp [Ne.symm hk]

theorem mem_rowEntries (cols : List Nat) (row : Row) (n id r j : Nat) :
    (id, (r, j)) ∈ rowEntries cols row n ↔ r = n ∧ ∃ c, cols[j]? = some c ∧ row c = .node id := by
  unfold rowEntries
  rw [List.mem_filterMap]
  constructor
  · rintro ⟨⟨c, k⟩, hx, h⟩
    rw [List.mem_zipIdx_iff_getElem?] at hx
    dsimp only at hx h
    split at h
    · rename_i id' hid
      simp only [Option.some.injEq, Prod.mk.injEq] at h
      obtain ⟨rfl, rfl, rfl⟩ := h
      exact ⟨rfl, c, hx, hid⟩
    · cases h
  · rintro ⟨rfl, c, hc, hid⟩
    refine ⟨(c, j), List.mem_zipIdx_iff_getElem?.mpr hc, ?_⟩
    dsimp only
    rw [hid]

theorem mem_entries (rows : List Row) (cols : List Nat) (id r j : Nat) :
    (id, (r, j)) ∈ rows.zipIdx.flatMap (fun x => rowEntries cols x.1 x.2) ↔
      ∃ row c, rows[r]? = some row ∧ cols[j]? = some c ∧ row c = .node id := by
  rw [List.mem_flatMap]
  constructor
  · rintro ⟨⟨row, k⟩, hx, h⟩
    rw [List.mem_zipIdx_iff_getElem?] at hx
    obtain ⟨rfl, c, hc, hid⟩ := (mem_rowEntries _ _ _ _ _ _).mp h
    exact ⟨row, c, hx, hc, hid⟩
  · rintro ⟨row, c, hr, hc, hid⟩
    exact ⟨(row, r), List.mem_zipIdx_iff_getElem?.mpr hr, (mem_rowEntries _ _ _ _ _ _).mpr ⟨rfl, c, hc, hid⟩⟩

theorem rowAt_mem {m : List Row} {k : Nat} (h : k < m.length) : rowAt m k ∈ m := by
  unfold rowAt
  rw [List.getD_eq_getElem?_getD, List.getElem?_eq_getElem h]
  exact List.getElem_mem h

theorem rowAt_getElem? {m : List Row} {k : Nat} (h : k < m.length) : m[k]? = some (rowAt m k) := by
  unfold rowAt
  rw [List.getD_eq_getElem?_getD, List.getElem?_eq_getElem h]
  rfl

/-- The columns of nodes remain. -/
theorem col_kept {col : Nat → Nat} {m : List Row} {cc : Cols} (I : Inv N (fun b => b ∈ N) col m cc) (W : Nat) {a : Nd} (ha : a ∈ N)
    (hw : 2 * maxL a.leaves < W) : col a.id ∈ keptCols m W := by
  rw [keptCols, List.mem_filter, List.mem_range]
  refine ⟨by have := I.span a ha; unfold inSpan at this; omega, ?_⟩
  rw [List.any_eq_true]
  refine ⟨_, rowAt_mem (I.low a ha), ?_⟩
  rw [I.cell a ha]
  simp

theorem kept_row {col : Nat → Nat} {m : List Row} {cc : Cols} (I : Inv N (fun b => b ∈ N) col m cc) (W : Nat) {a : Nd} (ha : a ∈ N)
    (hw : 2 * maxL a.leaves < W) :
    (!(keptCols m W).all (fun c => decide (rowAt m (rowOf a) c = .empty) || decide (rowAt m (rowOf a) c = .vert))) = true := by
  rw [Bool.not_eq_true', List.all_eq_false]
  refine ⟨col a.id, col_kept I W ha hw, ?_⟩
  rw [I.cell a ha]
  simp

/-- The rows that remain: that of the root, and the others, but not the copy under the root. -/
theorem keptRows_eq (C : Ctx H N) (hH : 2 ≤ H) {col : Nat → Nat} {m : List Row} {cc : Cols} (I : Inv N (fun b => b ∈ N) col m cc) (W : Nat)
    (hw : ∀ a ∈ N, 2 * maxL a.leaves < W) (hm : m.length = H + 1) (hcopy : ∀ c, rowAt m (H - 1) c = .empty ∨ rowAt m (H - 1) c = .vert)
    (hall : ∀ k, 1 ≤ k → k ≤ H → ∃ a ∈ N, a.height = k) :
    keptRows m W = rowAt m H :: (m.take (H - 1)).reverse := by
  have hd : m = m.take (H - 1) ++ [rowAt m (H - 1), rowAt m H] := by
    have e1 : m.drop (H - 1) = [rowAt m (H - 1), rowAt m H] := by
      rw [List.drop_eq_getElem_cons (by omega), List.drop_eq_getElem_cons (by omega), List.drop_eq_nil_of_le (by omega)]
      have e : H - 1 + 1 = H := by omega
      have h1 := rowAt_getElem? (m := m) (k := H - 1) (by omega)
      have h2 := rowAt_getElem? (m := m) (k := H) (by omega)
      rw [List.getElem?_eq_getElem (by omega)] at h1 h2
      injection h1 with h1
      injection h2 with h2
      simp only [e, h1, h2]
    conv => lhs; rw [← List.take_append_drop (H - 1) m, e1]
  have hrows : ∀ k, k < H - 1 → ∃ a ∈ N, rowOf a = k := by
    intro k hk
    obtain ⟨a, ha, h⟩ := hall (k + 1) (by omega) (by omega)
    refine ⟨a, ha, ?_⟩
    have : a.id ≠ 0 := by
      intro h0
      have := (C.height_root ha h0).1
      omega
    unfold rowOf
    rw [if_neg this]
    omega
  unfold keptRows
  conv => lhs; arg 2; arg 1; rw [hd]
  rw [List.reverse_append, List.filter_append]
  have e2 : [rowAt m (H - 1), rowAt m H].reverse = [rowAt m H, rowAt m (H - 1)] := rfl
  have k1 : (!(keptCols m W).all (fun c => decide (rowAt m H c = .empty) || decide (rowAt m H c = .vert))) = true := by
    obtain ⟨r, hr, h0, h1, h2⟩ := C.root
    have := kept_row I W hr (hw r hr)
    have e : rowOf r = H := by unfold rowOf; rw [if_pos h0]; omega
    rw [e] at this
    exact this
  have k2 : ¬ (!(keptCols m W).all (fun c => decide (rowAt m (H - 1) c = .empty) || decide (rowAt m (H - 1) c = .vert))) = true := by
    rw [Bool.not_eq_true', Bool.not_eq_false, List.all_eq_true]
    intro c _
    rcases hcopy c with h | h <;> rw [h] <;> rfl
  rw [e2, List.filter_cons_of_pos (by simpa only using k1), List.filter_cons_of_neg (by simpa only using k2), List.filter_nil]
  rw [List.filter_eq_self.mpr, List.singleton_append]
  intro row hrow
  rw [List.mem_reverse, List.mem_take_iff_getElem] at hrow
  obtain ⟨k, hk, rfl⟩ := hrow
  obtain ⟨a, ha, hr⟩ := hrows k (by omega)
  have h1 := kept_row I W ha (hw a ha)
  have h2 := rowAt_getElem? (m := m) (k := k) (by omega)
  rw [List.getElem?_eq_getElem (by omega)] at h2
  injection h2 with h2
  rw [hr, ← h2] at h1
  exact h1

/-- The coordinates of nodes. -/
theorem coords_iff (C : Ctx H N) (hH : 2 ≤ H) {col : Nat → Nat} {m : List Row} {cc : Cols} (I : Inv N (fun b => b ∈ N) col m cc) (W : Nat)
    (hw : ∀ a ∈ N, 2 * maxL a.leaves < W) (hm : m.length = H + 1) (hcopy : ∀ c, rowAt m (H - 1) c = .empty ∨ rowAt m (H - 1) c = .vert)
    (hall : ∀ k, 1 ≤ k → k ≤ H → ∃ a ∈ N, a.height = k) (id r j : Nat) :
    (id, (r, j)) ∈ (keptRows m W).zipIdx.flatMap (fun x => rowEntries (keptCols m W) x.1 x.2) ↔
      ∃ a ∈ N, a.id = id ∧ r + a.height = H ∧ (keptCols m W)[j]? = some (col a.id) := by
  rw [mem_entries, keptRows_eq C hH I W hw hm hcopy hall]
  have hrow : ∀ row, (rowAt m H :: (m.take (H - 1)).reverse)[r]? = some row ↔ r < H ∧ row = rowAt m (if r = 0 then H else H - 1 - r) := by
    intro row
    cases r with
    | zero =>
      simp only [List.getElem?_cons_zero, Option.some.injEq, if_true]
      constructor
      · rintro rfl; exact ⟨by omega, rfl⟩
      · rintro ⟨_, rfl⟩; rfl
    | succ r =>
      rw [List.getElem?_cons_succ, if_neg (by omega)]
      by_cases hr : r < H - 1
      · have hl : r < (m.take (H - 1)).length := by rw [List.length_take]; omega
        rw [List.getElem?_reverse hl, List.getElem?_take, List.length_take]
        have e : min (H - 1) m.length - 1 - r = H - 1 - (r + 1) := by omega
        rw [e, if_pos (by omega), rowAt_getElem? (by omega)]
        simp only [Option.some.injEq]
        constructor
        · rintro rfl; exact ⟨by omega, rfl⟩
        · rintro ⟨_, rfl⟩; rfl
      · rw [List.getElem?_eq_none (by rw [List.length_reverse, List.length_take]; omega)]
        constructor
        · intro h; cases h
        · rintro ⟨h, _⟩; omega
  constructor
  · rintro ⟨row, c, h1, h2, h3⟩
    obtain ⟨hr, rfl⟩ := (hrow row).mp h1
    obtain ⟨a, ha, a1, a2, a3⟩ := I.node _ c id h3
    refine ⟨a, ha, a1, ?_, by rw [h2, a3]⟩
    have hpos := (C.height a ha).2
    unfold rowOf at a2
    by_cases h0 : a.id = 0
    · have := (C.height_root ha h0).1
      rw [if_pos h0] at a2
      split at a2 <;> omega
    · have := C.height_lt ha h0
      rw [if_neg h0] at a2
      split at a2 <;> omega
  · rintro ⟨a, ha, rfl, h1, h2⟩
    have hpos := (C.height a ha).2
    refine ⟨_, col a.id, (hrow _).mpr ⟨by omega, rfl⟩, h2, ?_⟩
    have e : (if r = 0 then H else H - 1 - r) = rowOf a := by
      unfold rowOf
      by_cases h0 : a.id = 0
      · have := (C.height_root ha h0).1
        rw [if_pos h0, if_pos (by omega)]
        omega
      · have := C.height_lt ha h0
        rw [if_neg h0, if_neg (by omega)]
        omega
    rw [e]
    exact I.cell a ha

theorem keptCols_lt (m : List Row) (W : Nat) {j k c d : Nat} (hj : (keptCols m W)[j]? = some c) (hk : (keptCols m W)[k]? = some d) : j < k ↔ c < d := by
  have hp : (keptCols m W).Pairwise (· < ·) := List.Pairwise.sublist List.filter_sublist List.pairwise_lt_range
  obtain ⟨hj', e1⟩ := List.getElem?_eq_some_iff.mp hj
  obtain ⟨hk', e2⟩ := List.getElem?_eq_some_iff.mp hk
  rw [List.pairwise_iff_getElem] at hp
  rcases Nat.lt_trichotomy j k with h | h | h
  · have := hp j k hj' hk' h
    constructor <;> intro <;> omega
  · subst h
    rw [e1] at e2
    omega
  · have := hp k j hk' hj' h
    constructor <;> intro <;> omega

theorem coords_get (C : Ctx H N) (hH : 2 ≤ H) {col : Nat → Nat} {m : List Row} {cc : Cols} (I : Inv N (fun b => b ∈ N) col m cc) (W : Nat)
    (hw : ∀ a ∈ N, 2 * maxL a.leaves < W) (hm : m.length = H + 1) (hcopy : ∀ c, rowAt m (H - 1) c = .empty ∨ rowAt m (H - 1) c = .vert)
    (hall : ∀ k, 1 ≤ k → k ≤ H → ∃ a ∈ N, a.height = k) :
    (∀ a ∈ N, ∃ r j, (coordsOf m W).get? a.id = some (r, j) ∧ r + a.height = H ∧ (keptCols m W)[j]? = some (col a.id)) ∧
    (∀ id, (∀ a ∈ N, a.id ≠ id) → (coordsOf m W).get? id = none) := by
  have key := coords_iff C hH I W hw hm hcopy hall
  constructor
  · intro a ha
    have hk := col_kept I W ha (hw a ha)
    obtain ⟨j, hj, hj'⟩ := List.getElem_of_mem hk
    have hlt : a.height ≤ H := by
      by_cases h0 : a.id = 0
      · exact Nat.le_of_eq (C.height_root ha h0).1
      · exact Nat.le_of_lt (C.height_lt ha h0)
    have hmem := (key a.id (H - a.height) j).mpr ⟨a, ha, rfl, by omega, by rw [List.getElem?_eq_getElem hj, hj']⟩
    rcases fold_set_get ((keptRows m W).zipIdx.flatMap (fun x => rowEntries (keptCols m W) x.1 x.2)) [] a.id with ⟨v, h1, h2⟩ | ⟨h1, _⟩
    · obtain ⟨r, i⟩ := v
      obtain ⟨b, hb, b1, b2, b3⟩ := (key a.id r i).mp h1
      have := C.inj hb ha b1
      subst this
      exact ⟨r, i, h2, b2, b3⟩
    · exact absurd hmem (h1 _)
  · intro id hid
    rcases fold_set_get ((keptRows m W).zipIdx.flatMap (fun x => rowEntries (keptCols m W) x.1 x.2)) [] id with ⟨v, h1, h2⟩ | ⟨_, h2⟩
    · obtain ⟨r, i⟩ := v
      obtain ⟨b, hb, b1, _⟩ := (key id r i).mp h1
      exact absurd b1 (hid b hb)
    · exact h2

end

/-! ## Specification -/

/-- The node `x` is a child of the node `a`. -/
def Spec.Child (x a : Nd) : Prop := x.parent = a.id ∧ x.id ≠ 0

/-- A drawing: coordinates (row, column) of the nodes of a tree of height `H`, with row 0 at the top; a node is connected to its children by a
horizontal line on its own row, from the column of its first to that of its last child, and a vertical line down from there to each child. -/
structure Spec.Drawing (N : List Nd) (H : Nat) (coords : Dict Nat (Nat × Nat)) : Prop where
  /-- Every node has coordinates; the row is determined by the height of the node. -/
  total : ∀ a ∈ N, ∃ r c, coords.get? a.id = some (r, c) ∧ r + a.height = H
  /-- Nothing else has coordinates. -/
  only : ∀ id, coords.get? id ≠ none → ∃ a ∈ N, a.id = id
  /-- No two nodes at the same place. -/
  distinct : ∀ a ∈ N, ∀ b ∈ N, coords.get? a.id = coords.get? b.id → a = b
  /-- The terminals are in the order of the words. -/
  words : ∀ a ∈ N, ∀ b ∈ N, ∀ i j, a.leaf = true → b.leaf = true → a.leaves = [i] → b.leaves = [j] → i < j →
    ∀ ra ca rb cb, coords.get? a.id = some (ra, ca) → coords.get? b.id = some (rb, cb) → ca < cb
  /-- A node is above its children, and between the first and the last of them. -/
  between : ∀ a ∈ N, a.leaf = false → ∃ x ∈ N, ∃ y ∈ N, Spec.Child x a ∧ Spec.Child y a ∧
    ∀ ra ca rx cx ry cy, coords.get? a.id = some (ra, ca) → coords.get? x.id = some (rx, cx) → coords.get? y.id = some (ry, cy) →
      cx ≤ ca ∧ ca ≤ cy ∧ ra < rx ∧ ra < ry
  /-- On the horizontal line of a node there is no other node of that row. -/
  hline_node : ∀ a ∈ N, ∀ b ∈ N, ∀ x ∈ N, ∀ y ∈ N, a ≠ b → Spec.Child x a → Spec.Child y a →
    ∀ r cb rx cx ry cy ca, coords.get? a.id = some (r, ca) → coords.get? b.id = some (r, cb) → coords.get? x.id = some (rx, cx) →
      coords.get? y.id = some (ry, cy) → ¬ (cx ≤ cb ∧ cb ≤ cy)
  /-- The horizontal lines of two nodes of the same row do not overlap. -/
  hlines : ∀ a ∈ N, ∀ b ∈ N, ∀ x ∈ N, ∀ y ∈ N, ∀ z ∈ N, a ≠ b → Spec.Child x a → Spec.Child y a → Spec.Child z b →
    ∀ r ca cb rx cx ry cy rz cz, coords.get? a.id = some (r, ca) → coords.get? b.id = some (r, cb) → coords.get? x.id = some (rx, cx) →
      coords.get? y.id = some (ry, cy) → coords.get? z.id = some (rz, cz) → ¬ (cx ≤ cz ∧ cz ≤ cy)
  /-- On the vertical line from a node up to its parent there is no other node. -/
  vline_node : ∀ q ∈ N, ∀ b ∈ N, ∀ a ∈ N, Spec.Child b q → ∀ rq cq rb cb ra ca, coords.get? q.id = some (rq, cq) →
    coords.get? b.id = some (rb, cb) → coords.get? a.id = some (ra, ca) → rq < ra → ra < rb → ca ≠ cb
  /-- The vertical line from a node up to its parent does not cross a horizontal line. -/
  cross : ∀ q ∈ N, ∀ b ∈ N, ∀ a ∈ N, ∀ x ∈ N, ∀ y ∈ N, Spec.Child b q → Spec.Child x a → Spec.Child y a →
    ∀ rq cq rb cb ra ca rx cx ry cy, coords.get? q.id = some (rq, cq) → coords.get? b.id = some (rb, cb) → coords.get? a.id = some (ra, ca) →
      coords.get? x.id = some (rx, cx) → coords.get? y.id = some (ry, cy) → rq < ra → ra < rb → ¬ (cx ≤ cb ∧ cb ≤ cy)

/-! ## Theorems -/

theorem nodes_lt {t : PTree Unit} {n : Nat} (h : ∀ i ∈ leavesT t, i < n) (hn : nonempty t = true) : ∀ a ∈ nodesOf (sortT t), a.leaves ≠ [] →
    2 * maxL a.leaves < 2 * n := by
  intro a ha hne
  have _ := hn
  have h1 := number_sub 0 (heightT (sortT t) + 1) 0 (sortT t) a ha _ (maxL_mem hne)
  have := h _ ((sortT_leaves t).mem_iff.mp h1)
  omega

theorem drawing_of {H : Nat} {N : List Nd} (C : Ctx H N) {col : Nat → Nat} {m : List Row} {cc : Cols} (I : Inv N (fun b => b ∈ N) col m cc) (W : Nat)
    (h1 : ∀ a ∈ N, ∃ r j, (coordsOf m W).get? a.id = some (r, j) ∧ r + a.height = H ∧ (keptCols m W)[j]? = some (col a.id))
    (h2 : ∀ id, (∀ a ∈ N, a.id ≠ id) → (coordsOf m W).get? id = none) : Spec.Drawing N H (coordsOf m W) := by
  have get : ∀ a ∈ N, ∀ r c, (coordsOf m W).get? a.id = some (r, c) → r + a.height = H ∧ (keptCols m W)[c]? = some (col a.id) := by
    intro a ha r c h
    obtain ⟨r', c', e, e1, e2⟩ := h1 a ha
    rw [e] at h
    injection h with h
    injection h with h h'
    subst h; subst h'
    exact ⟨e1, e2⟩
  have lt : ∀ {a b : Nd} {r c r' c' : Nat}, a ∈ N → b ∈ N → (coordsOf m W).get? a.id = some (r, c) →
      (coordsOf m W).get? b.id = some (r', c') → (c < c' ↔ col a.id < col b.id) := by
    intro a b r c r' c' ha hb e e'
    exact keptCols_lt m W (get a ha r c e).2 (get b hb r' c' e').2
  have le : ∀ {a b : Nd} {r c r' c' : Nat}, a ∈ N → b ∈ N → (coordsOf m W).get? a.id = some (r, c) →
      (coordsOf m W).get? b.id = some (r', c') → (c ≤ c' ↔ col a.id ≤ col b.id) := by
    intro a b r c r' c' ha hb e e'
    have := lt hb ha e' e
    omega
  have child : ∀ x ∈ N, ∀ a ∈ N, Spec.Child x a → a.height = x.pheight ∧ (∀ i ∈ x.leaves, i ∈ a.leaves) ∧ inSpan a (col x.id) := by
    rintro x hx a ha ⟨hp, h0⟩
    obtain ⟨q, hq, q1, q2, _, q4, _⟩ := C.up x hx h0
    have : q = a := C.inj hq ha (by rw [q1, hp])
    subst this
    exact ⟨q2, q4, span_sub (C.ne x hx) q4 (I.span x hx)⟩
  have inBetween : ∀ x ∈ N, ∀ y ∈ N, ∀ a ∈ N, Spec.Child x a → Spec.Child y a → ∀ c, col x.id ≤ c → c ≤ col y.id → inSpan a c := by
    intro x hx y hy a ha hxa hya c hc1 hc2
    have s1 := (child x hx a ha hxa).2.2
    have s2 := (child y hy a ha hya).2.2
    unfold inSpan at s1 s2 ⊢
    omega
  have sameRow : ∀ a ∈ N, ∀ b ∈ N, a ≠ b → a.height = b.height → ∀ c, inSpan a c → inSpan b c → False := by
    intro a ha b hb hab hh c hca hcb
    have e1 := (C.height a ha).1
    have e2 := (C.height b hb).1
    exact span_disjoint (C.ne a ha) (C.ne b hb) (C.sep ha hb (fun h => hab (C.inj ha hb h)) (by omega) (by omega)) hca hcb
  have mid : ∀ q ∈ N, ∀ b ∈ N, ∀ a ∈ N, Spec.Child b q → b.height < a.height → a.height < q.height → ¬ inSpan a (col b.id) := by
    intro q hq b hb a ha hbq h3 h4 hs
    have e1 := (child b hb q hq hbq).1
    have e2 := (C.height a ha).1
    have hab : a.id ≠ b.id := fun h => by rw [C.inj ha hb h] at h3; omega
    exact span_disjoint (C.ne a ha) (C.ne b hb) (C.sep ha hb hab (by omega) (by omega)) hs (I.span b hb)
  constructor
  · intro a ha
    obtain ⟨r, c, e, e1, _⟩ := h1 a ha
    exact ⟨r, c, e, e1⟩
  · intro id hid
    by_contra hno
    exact hid (h2 id (fun a ha h => hno ⟨a, ha, h⟩))
  · intro a ha b hb h
    obtain ⟨r, c, e, e1, e2⟩ := h1 a ha
    obtain ⟨r', c', e', e1', e2'⟩ := h1 b hb
    rw [e, e'] at h
    injection h with h
    injection h with h h'
    subst h; subst h'
    rw [e2] at e2'
    injection e2' with e2'
    by_contra hab
    refine sameRow a ha b hb hab (by omega) (col a.id) (I.span a ha) ?_
    rw [e2']
    exact I.span b hb
  · intro a ha b hb i j _ _ hi hj hij ra ca rb cb e e'
    rw [lt ha hb e e']
    have s1 := I.span a ha
    have s2 := I.span b hb
    unfold inSpan at s1 s2
    rw [hi] at s1
    rw [hj] at s2
    simp only [minL, maxL] at s1 s2
    omega
  · intro a ha hl
    obtain ⟨x, y, hx, hy, x0, y0, xp, yp, hle1, hle2⟩ := I.between a ha hl
    refine ⟨x, hx, y, hy, ⟨xp, x0⟩, ⟨yp, y0⟩, ?_⟩
    intro ra ca rx cx ry cy ea ex ey
    have e1 := (child x hx a ha ⟨xp, x0⟩).1
    have e2 := (child y hy a ha ⟨yp, y0⟩).1
    have f1 := (C.height x hx).1
    have f2 := (C.height y hy).1
    have g1 := (get a ha _ _ ea).1
    have g2 := (get x hx _ _ ex).1
    have g3 := (get y hy _ _ ey).1
    exact ⟨(le hx ha ex ea).mpr hle1, (le ha hy ea ey).mpr hle2, by omega, by omega⟩
  · rintro a ha b hb x hx y hy hab hxa hya r cb rx cx ry cy ca ea eb ex ey ⟨hc1, hc2⟩
    have g1 := (get a ha _ _ ea).1
    have g2 := (get b hb _ _ eb).1
    refine sameRow a ha b hb hab (by omega) (col b.id) ?_ (I.span b hb)
    exact inBetween x hx y hy a ha hxa hya _ ((le hx hb ex eb).mp hc1) ((le hb hy eb ey).mp hc2)
  · rintro a ha b hb x hx y hy z hz hab hxa hya hzb r ca cb rx cx ry cy rz cz ea eb ex ey ez ⟨hc1, hc2⟩
    have g1 := (get a ha _ _ ea).1
    have g2 := (get b hb _ _ eb).1
    refine sameRow a ha b hb hab (by omega) (col z.id) ?_ (child z hz b hb hzb).2.2
    exact inBetween x hx y hy a ha hxa hya _ ((le hx hz ex ez).mp hc1) ((le hz hy ez ey).mp hc2)
  · intro q hq b hb a ha hbq rq cq rb cb ra ca eq eb ea hr1 hr2 hcc
    have g1 := (get q hq _ _ eq).1
    have g2 := (get b hb _ _ eb).1
    have g3 := (get a ha _ _ ea).1
    have hco : col a.id = col b.id := by
      have i1 := lt ha hb ea eb
      have i2 := lt hb ha eb ea
      omega
    apply mid q hq b hb a ha hbq (by omega) (by omega)
    rw [← hco]
    exact I.span a ha
  · rintro q hq b hb a ha x hx y hy hbq hxa hya rq cq rb cb ra ca rx cx ry cy eq eb ea ex ey hr1 hr2 ⟨hc1, hc2⟩
    have g1 := (get q hq _ _ eq).1
    have g2 := (get b hb _ _ eb).1
    have g3 := (get a ha _ _ ea).1
    apply mid q hq b hb a ha hbq (by omega) (by omega)
    exact inBetween x hx y hy a ha hxa hya _ ((le hx hb ex eb).mp hc1) ((le hb hy eb ey).mp hc2)

/-- Every continuous tree is drawn: there is no exception, every node has its own place, and lines do not cross nodes or other lines. -/
theorem C70_continuous (t : PTree Unit) (n : Nat) (hv : Spec.Valid t n) (hc : Spec.Continuous t) :
    ∃ coords, nodecoords t n = some coords ∧ Spec.Drawing (nodesOf (sortT t)) (heightT t) coords := by
  obtain ⟨hnd, hlt, hne, hH⟩ := hv
  have C := ctx_nodesOf (sortT t) (sortT_continuous t hc) (sortT_nonempty t hne) (by rw [sortT_height]; exact hH)
  rw [sortT_height] at C
  obtain ⟨m, cc, col, e, I, hm, hcopy⟩ := levels_ok C hH (2 * n)
  have hg : grid t n = some m := by
    unfold grid
    rw [if_neg, e]
    · rfl
    · rintro (h | ⟨i, hi, h⟩ | h)
      · exact h hnd
      · have := hlt i hi; omega
      · rw [hne] at h; cases h
  have hw : ∀ a ∈ nodesOf (sortT t), 2 * maxL a.leaves < 2 * n := fun a ha => nodes_lt hlt hne a ha (C.ne a ha)
  have hall : ∀ k, 1 ≤ k → k ≤ heightT t → ∃ a ∈ nodesOf (sortT t), a.height = k := by
    intro k h1 h2
    exact exists_height 0 _ 0 (sortT t) (sortT_nonempty t hne) k h1 (by rw [sortT_height]; exact h2)
  obtain ⟨h1, h2⟩ := coords_get C hH I (2 * n) hw hm hcopy hall
  refine ⟨coordsOf m (2 * n), ?_, drawing_of C I _ h1 h2⟩
  rw [nodecoords, hg]
  rfl

/-- The words of a tree that is drawn occur once and are in the sentence, and no node is empty; all else is an exception. -/
theorem C70_rejects (t : PTree Unit) (n : Nat) (h : ¬ ((leavesT t).Nodup ∧ (∀ i ∈ leavesT t, i < n) ∧ nonempty t = true)) : nodecoords t n = none := by
  have hg : grid t n = none := by
    unfold grid
    rw [if_pos]
    by_contra hno
    push Not at hno
    apply h
    refine ⟨hno.1, fun i hi => hno.2.1 i hi, ?_⟩
    cases hb : nonempty t with
    | true => rfl
    | false => exact absurd hb hno.2.2
  rw [nodecoords, hg]
  rfl

/-- A continuous tree: (S (NP 0 1) (VP 2 (NP 3))). -/
def Spec.example : PTree Unit := .node () [.node () [.leaf 0, .leaf 1], .node () [.leaf 2, .node () [.leaf 3]]]

example : Spec.Valid Spec.example 4 ∧ Spec.Continuous Spec.example := by
  refine ⟨⟨by decide, by decide, by decide, by decide⟩, ?_⟩
  simp only [Spec.example, Spec.Continuous, Spec.ContinuousL, List.pairwise_cons, List.mem_cons, List.not_mem_nil, or_false, forall_eq, leavesT,
    leavesL, List.Pairwise.nil, Spec.disjoint]
  simp

example : nodecoords Spec.example 4 = some [(0, (0, 3)), (4, (1, 5)), (1, (2, 1)), (6, (2, 6)), (2, (3, 0)), (3, (3, 2)), (5, (3, 4)), (7, (3, 6))] := by
  decide +kernel

/-- Every tree can be drawn, with a place for every node. -/
def Spec.AllDrawn : Prop := ∀ (t : PTree Unit) (n : Nat), Spec.Valid t n → ∃ coords, nodecoords t n = some coords ∧
  ∀ a ∈ nodesOf (sortT t), coords.get? a.id ≠ none

/-- A discontinuous tree for which no free cell is found. -/
def Spec.stuck : PTree Unit :=
  .node () [.leaf 3, .node () [.node () [.leaf 5, .leaf 0], .node () [.node () [.leaf 4, .node () [.leaf 1]], .node () [.leaf 2]]]]

/-- A discontinuous tree of which two nodes are put in the same cell. -/
def Spec.lost : PTree Unit :=
  .node () [.node () [.node () [.leaf 6, .node () [.leaf 2, .leaf 3]]],
    .node () [.node () [.node () [.leaf 4, .leaf 0]], .node () [.node () [.node () [.leaf 1], .leaf 5]]]]

/-- Not every discontinuous tree is drawn: for this one there is the exception "could not find a free cell". -/
theorem C70_exception_disagreement : Spec.Valid Spec.stuck 6 ∧ nodecoords Spec.stuck 6 = none :=
  ⟨⟨by decide, by decide, by decide, by decide⟩, by decide +kernel⟩

/-- Not every node of a discontinuous tree has a place: for this tree there are coordinates, but the one of a node is overwritten. -/
theorem C70_lost_disagreement : Spec.Valid Spec.lost 7 ∧ ((nodesOf (sortT Spec.lost)).map (·.id)).Nodup ∧
    ∃ coords, nodecoords Spec.lost 7 = some coords ∧ ∃ a ∈ nodesOf (sortT Spec.lost), coords.get? a.id = none := by
  refine ⟨⟨by decide, by decide, by decide, by decide⟩, by decide +kernel, ?_⟩
  have h : ((nodecoords Spec.lost 7).map (fun coords => (nodesOf (sortT Spec.lost)).any (fun a => (coords.get? a.id).isNone))) = some true := by
    decide +kernel
  cases hc : nodecoords Spec.lost 7 with
  | none => rw [hc] at h; cases h
  | some coords =>
    rw [hc] at h
    simp only [Option.map_some, Option.some.injEq, List.any_eq_true] at h
    obtain ⟨a, ha, h⟩ := h
    exact ⟨coords, rfl, a, ha, by simpa using h⟩

theorem C70_not_all : ¬ Spec.AllDrawn := by
  intro h
  obtain ⟨coords, h1, _⟩ := h _ _ C70_exception_disagreement.1
  rw [C70_exception_disagreement.2] at h1
  cases h1

end Disco.Draw
