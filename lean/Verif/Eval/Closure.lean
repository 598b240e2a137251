import Mathlib.Data.Finset.Card
import Mathlib.Data.Finset.Union
import Mathlib.Data.Finset.Lattice.Lemmas
import Mathlib.Logic.Relation
/-!
# C30: transitive closure of equivalence pairs (eval.py:710-739)

Sets are finite sets; the order in which Python iterates over a set and the element which `set.pop` returns are arbitrary, so the function
is modelled as a transition system in which each of these choices is left open. The theorems hold for every choice.
-/
namespace Disco.Closure

variable {α : Type} [DecidableEq α]

/-- `edges[a].add(b)` (eval.py:723-726), `edges` is a `defaultdict(set)`. -/
def addEdge (edges : α → Finset α) (a b : α) : α → Finset α := fun x => if x = a then insert b (edges a) else edges x

/-- `for a, b in eqpairs: edges[a].add(b); edges[b].add(a)` (eval.py:724-726). -/
def mkEdges (pairs : List (α × α)) : α → Finset α :=
  pairs.foldl (fun e p => addEdge (addEdge e p.1 p.2) p.2 p.1) (fun _ => ∅)

/-- Keys of `edges` after the loop. -/
def mkKeys (pairs : List (α × α)) : Finset α := pairs.foldl (fun ks p => insert p.2 (insert p.1 ks)) ∅

/-- State of the main loop (eval.py:727-738): `todo` are the elements of `set(edges)` not visited yet by the `for` loop, `cur` is `none`
between iterations and `some (elem, eqclasses[elem], agenda)` in the `while` loop. The class of the current `elem` is stored
in `cur` until its `while` loop ends; the keys are distinct, so the place where it is stored makes no difference. -/
structure St (α : Type) [DecidableEq α] where
  todo : Finset α
  edges : α → Finset α
  seen : Finset α
  classes : List (α × Finset α)
  cur : Option (α × Finset α × Finset α)

/-- State before the `for` loop (eval.py:727-728). -/
def init (pairs : List (α × α)) : St α := ⟨mkKeys pairs, mkEdges pairs, ∅, [], none⟩

/-- One step (eval.py:729-738). -/
inductive Step : St α → St α → Prop
  /-- `if elem in seen: continue` -/
  | skip (s : St α) (e : α) : s.cur = none → e ∈ s.todo → e ∈ s.seen → Step s { s with todo := s.todo.erase e }
  /-- `eqclasses[elem] = set(); agenda = edges.pop(elem)`; later look-ups of `elem` in the `defaultdict` give the empty set. -/
  | start (s : St α) (e : α) : s.cur = none → e ∈ s.todo → e ∉ s.seen →
      Step s { s with todo := s.todo.erase e, edges := fun x => if x = e then ∅ else s.edges x, cur := some (e, ∅, s.edges e) }
  /-- body of `while agenda` with `eqelem = x`, any element of the agenda -/
  | pop (s : St α) (e : α) (c a : Finset α) (x : α) : s.cur = some (e, c, a) → x ∈ a →
      Step s { s with seen := insert x s.seen, cur := some (e, insert x c, a.erase x ∪ (s.edges x \ insert x s.seen)) }
  /-- the agenda is empty -/
  | finish (s : St α) (e : α) (c : Finset α) : s.cur = some (e, c, ∅) →
      Step s { s with classes := s.classes ++ [(e, c)], cur := none }

/-- The function returns `s.classes`. -/
def Done (s : St α) : Prop := s.todo = ∅ ∧ s.cur = none

/-- States that occur in a run on `pairs`. -/
def Reach (pairs : List (α × α)) (s : St α) : Prop := Relation.ReflTransGen Step (init pairs) s

/-! ### Specification -/

/-- Connected by a chain of pairs, in either direction. -/
def Spec.Conn (pairs : List (α × α)) : α → α → Prop := Relation.EqvGen (fun a b => (a, b) ∈ pairs)

/-- The elements that occur in the pairs. -/
def Spec.elems (pairs : List (α × α)) : List α := pairs.map Prod.fst ++ pairs.map Prod.snd

/-! ### Lemmas -/

theorem mkEdges_aux (pairs : List (α × α)) : ∀ (e : α → Finset α) (x y : α),
    y ∈ (pairs.foldl (fun e p => addEdge (addEdge e p.1 p.2) p.2 p.1) e) x ↔ y ∈ e x ∨ (x, y) ∈ pairs ∨ (y, x) ∈ pairs := by
  induction pairs with
  | nil => intro e x y; simp
  | cons p ps ih =>
    obtain ⟨a, b⟩ := p
    intro e x y
    rw [List.foldl_cons, ih]
    simp only [addEdge]
    split_ifs <;> simp_all <;> tauto

theorem mem_mkEdges (pairs : List (α × α)) (x y : α) : y ∈ mkEdges pairs x ↔ (x, y) ∈ pairs ∨ (y, x) ∈ pairs := by
  rw [mkEdges, mkEdges_aux]; simp

theorem mkKeys_aux (pairs : List (α × α)) : ∀ (ks : Finset α) (x : α),
    x ∈ (pairs.foldl (fun ks p => insert p.2 (insert p.1 ks)) ks) ↔ x ∈ ks ∨ x ∈ Spec.elems pairs := by
  induction pairs with
  | nil => intro e x; simp [Spec.elems]
  | cons p ps ih =>
    intro e x
    rw [List.foldl_cons, ih]
    simp [Spec.elems]
    tauto

theorem mem_mkKeys (pairs : List (α × α)) (x : α) : x ∈ mkKeys pairs ↔ x ∈ Spec.elems pairs := by
  rw [mkKeys, mkKeys_aux]; simp

theorem key_iff_edge (pairs : List (α × α)) (x : α) : x ∈ Spec.elems pairs ↔ ∃ y, y ∈ mkEdges pairs x := by
  simp only [mem_mkEdges, Spec.elems, List.mem_append, List.mem_map]
  constructor
  · rintro (⟨⟨a, b⟩, h, rfl⟩ | ⟨⟨a, b⟩, h, rfl⟩)
    · exact ⟨b, Or.inl h⟩
    · exact ⟨a, Or.inr h⟩
  · rintro ⟨y, h | h⟩
    · exact Or.inl ⟨_, h, rfl⟩
    · exact Or.inr ⟨_, h, rfl⟩

theorem edge_symm (pairs : List (α × α)) (x y : α) (h : y ∈ mkEdges pairs x) : x ∈ mkEdges pairs y := by
  rw [mem_mkEdges] at *; tauto

theorem edge_conn (pairs : List (α × α)) (x y : α) (h : y ∈ mkEdges pairs x) : Spec.Conn pairs x y := by
  rcases (mem_mkEdges pairs x y).1 h with h | h
  · exact Relation.EqvGen.rel _ _ h
  · exact (Relation.EqvGen.rel _ _ h).symm

omit [DecidableEq α] in
theorem Spec.Conn.symm {pairs : List (α × α)} {x y : α} (h : Spec.Conn pairs x y) : Spec.Conn pairs y x := Relation.EqvGen.symm _ _ h

omit [DecidableEq α] in
theorem Spec.Conn.trans {pairs : List (α × α)} {x y z : α} (h : Spec.Conn pairs x y) (h' : Spec.Conn pairs y z) : Spec.Conn pairs x z :=
  Relation.EqvGen.trans _ _ _ h h'

/-- A set closed under edges contains everything connected to a member. -/
theorem closed_conn (pairs : List (α × α)) (c : Finset α) (hc : ∀ x ∈ c, mkEdges pairs x ⊆ c) {x y : α} (h : Spec.Conn pairs x y) :
    x ∈ c ↔ y ∈ c := by
  induction h with
  | rel a b h =>
    exact ⟨fun ha => hc a ha ((mem_mkEdges _ _ _).2 (Or.inl h)), fun hb => hc b hb ((mem_mkEdges _ _ _).2 (Or.inr h))⟩
  | refl => exact Iff.rfl
  | symm a b _ ih => exact ih.symm
  | trans a b c _ _ ih1 ih2 => exact ih1.trans ih2

/-- `c` is the connected component of `e`. -/
def IsComp (pairs : List (α × α)) (e : α) (c : Finset α) : Prop := e ∈ Spec.elems pairs ∧ ∀ y, y ∈ c ↔ Spec.Conn pairs e y

structure Inv (pairs : List (α × α)) (s : St α) : Prop where
  todo_sub : ∀ x ∈ s.todo, x ∈ Spec.elems pairs
  classes_comp : ∀ p ∈ s.classes, IsComp pairs p.1 p.2
  visited : ∀ x ∈ Spec.elems pairs, x ∈ s.todo ∨ x ∈ s.seen ∨ ∃ c a, s.cur = some (x, c, a)
  keys : (s.classes.map Prod.fst).Pairwise (fun a b => ¬ Spec.Conn pairs a b)
  seen_none : s.cur = none → ∀ x, x ∈ s.seen ↔ ∃ p ∈ s.classes, x ∈ p.2
  edges_sub : ∀ x, s.edges x ⊆ mkEdges pairs x
  edges_ne : ∀ x, s.edges x ≠ mkEdges pairs x → x ∈ s.seen ∨ ∃ c a, s.cur = some (x, c, a)
  cur_some : ∀ e c a, s.cur = some (e, c, a) → e ∈ Spec.elems pairs ∧ (∀ x, x ∈ s.seen ↔ x ∈ c ∨ ∃ p ∈ s.classes, x ∈ p.2) ∧
    (∀ x ∈ c ∪ a, Spec.Conn pairs e x) ∧ (∀ x ∈ a, x ∉ s.seen) ∧ (∀ x ∈ insert e c, mkEdges pairs x ⊆ c ∪ a) ∧
    (∀ p ∈ s.classes, e ∉ p.2)

theorem inv_init (pairs : List (α × α)) : Inv pairs (init pairs) where
  todo_sub x hx := (mem_mkKeys pairs x).1 hx
  classes_comp p hp := by simp [init] at hp
  visited x hx := Or.inl ((mem_mkKeys pairs x).2 hx)
  keys := by simp [init]
  seen_none _ x := by simp [init]
  edges_sub x := Finset.Subset.refl _
  edges_ne x h := absurd rfl h
  cur_some e c a h := by simp [init] at h

theorem inv_step {pairs : List (α × α)} {s s' : St α} (hi : Inv pairs s) (h : Step s s') : Inv pairs s' := by
  cases h with
  | skip e hc he hs =>
    refine ⟨fun x hx => hi.todo_sub x (Finset.mem_of_mem_erase hx), hi.classes_comp, ?_, hi.keys, hi.seen_none, hi.edges_sub, hi.edges_ne, hi.cur_some⟩
    intro x hx
    by_cases hxe : x = e
    · subst hxe; exact Or.inr (Or.inl hs)
    · rcases hi.visited x hx with h | h
      · exact Or.inl (Finset.mem_erase.2 ⟨hxe, h⟩)
      · exact Or.inr h
  | start e hc he hs =>
    have hE : s.edges e = mkEdges pairs e := by
      by_contra hne
      rcases hi.edges_ne e hne with h | ⟨c, a, h⟩
      · exact hs h
      · rw [hc] at h; simp at h
    have hnp : ∀ p ∈ s.classes, e ∉ p.2 := fun p hp hep => hs ((hi.seen_none hc e).2 ⟨p, hp, hep⟩)
    refine ⟨fun x hx => hi.todo_sub x (Finset.mem_of_mem_erase hx), hi.classes_comp, ?_, hi.keys, by simp, ?_, ?_, ?_⟩
    · intro x hx
      by_cases hxe : x = e
      · subst hxe; exact Or.inr (Or.inr ⟨_, _, rfl⟩)
      · rcases hi.visited x hx with h | h | ⟨c, a, h⟩
        · exact Or.inl (Finset.mem_erase.2 ⟨hxe, h⟩)
        · exact Or.inr (Or.inl h)
        · rw [hc] at h; simp at h
    · intro x
      by_cases hxe : x = e
      · simp [hxe]
      · simpa [hxe] using hi.edges_sub x
    · intro x hne
      by_cases hxe : x = e
      · subst hxe; exact Or.inr ⟨_, _, rfl⟩
      · simp only [hxe, if_false] at hne
        rcases hi.edges_ne x hne with h | ⟨c, a, h⟩
        · exact Or.inl h
        · rw [hc] at h; simp at h
    · intro e' c' a' h
      simp only [Option.some.injEq, Prod.mk.injEq] at h
      obtain ⟨rfl, rfl, rfl⟩ := h
      refine ⟨hi.todo_sub _ he, fun x => by simp [hi.seen_none hc x], ?_, ?_, ?_, hnp⟩
      · intro x hx
        simp only [Finset.empty_union] at hx
        exact edge_conn _ _ _ (hE ▸ hx)
      · intro x hx hxs
        obtain ⟨p, hp, hxp⟩ := (hi.seen_none hc x).1 hxs
        refine hnp p hp (((hi.classes_comp p hp).2 _).2 ?_)
        exact (((hi.classes_comp p hp).2 _).1 hxp).trans (edge_conn _ _ _ (hE ▸ hx)).symm
      · intro x hx
        simp only [Finset.mem_insert, Finset.notMem_empty, or_false] at hx
        subst hx
        simp [hE]
  | pop e c a x hc hx =>
    obtain ⟨he, hseen, hconn, hdisj, hclosed, hnp⟩ := hi.cur_some e c a hc
    have hxs : x ∉ s.seen := hdisj x hx
    have hex : Spec.Conn pairs e x := hconn x (Finset.mem_union_right _ hx)
    refine ⟨hi.todo_sub, hi.classes_comp, ?_, hi.keys, by simp, hi.edges_sub, ?_, ?_⟩
    · intro y hy
      rcases hi.visited y hy with h | h | ⟨c', a', h⟩
      · exact Or.inl h
      · exact Or.inr (Or.inl (Finset.mem_insert_of_mem h))
      · rw [hc] at h
        simp only [Option.some.injEq, Prod.mk.injEq] at h
        obtain ⟨rfl, _, _⟩ := h
        exact Or.inr (Or.inr ⟨_, _, rfl⟩)
    · intro y hne
      rcases hi.edges_ne y hne with h | ⟨c', a', h⟩
      · exact Or.inl (Finset.mem_insert_of_mem h)
      · rw [hc] at h
        simp only [Option.some.injEq, Prod.mk.injEq] at h
        obtain ⟨rfl, _, _⟩ := h
        exact Or.inr ⟨_, _, rfl⟩
    · intro e' c' a' h
      simp only [Option.some.injEq, Prod.mk.injEq] at h
      obtain ⟨rfl, rfl, rfl⟩ := h
      have hsub : s.edges x ⊆ mkEdges pairs x ∧ (x = e ∨ s.edges x = mkEdges pairs x) := by
        refine ⟨hi.edges_sub x, ?_⟩
        by_cases hEq : s.edges x = mkEdges pairs x
        · exact Or.inr hEq
        · rcases hi.edges_ne x hEq with h | ⟨c', a', h⟩
          · exact absurd h hxs
          · rw [hc] at h
            simp only [Option.some.injEq, Prod.mk.injEq] at h
            exact Or.inl h.1.symm
      refine ⟨he, ?_, ?_, ?_, ?_, hnp⟩
      · intro y
        simp only [Finset.mem_insert, hseen y]
        tauto
      · intro y hy
        simp only [Finset.mem_union, Finset.mem_insert, Finset.mem_erase, Finset.mem_sdiff] at hy
        rcases hy with (rfl | hy) | hy | hy
        · exact hex
        · exact hconn y (Finset.mem_union_left _ hy)
        · exact hconn y (Finset.mem_union_right _ hy.2)
        · exact hex.trans (edge_conn _ _ _ (hsub.1 hy.1))
      · intro y hy
        simp only [Finset.mem_union, Finset.mem_erase, Finset.mem_sdiff] at hy
        rcases hy with ⟨h1, h2⟩ | ⟨_, h2⟩
        · simp only [Finset.mem_insert, not_or]; exact ⟨h1, hdisj y h2⟩
        · exact h2
      · intro y hy z hz
        have old : y ∈ insert e c → z ∈ insert x c ∪ (a.erase x ∪ (s.edges x \ insert x s.seen)) := by
          intro hy'
          have := hclosed y hy' hz
          simp only [Finset.mem_union, Finset.mem_insert, Finset.mem_erase] at this ⊢
          tauto
        by_cases hyx : y ∈ insert e c
        · exact old hyx
        · have hyx' : y = x := by
            simp only [Finset.mem_insert] at hy hyx; tauto
          subst hyx'
          have hEq : s.edges y = mkEdges pairs y := by
            rcases hsub.2 with h | h
            · subst h; exact absurd (Finset.mem_insert_self _ _) hyx
            · exact h
          by_cases hzs : z ∈ insert y s.seen
          · rcases Finset.mem_insert.1 hzs with rfl | hzs
            · simp
            · rcases (hseen z).1 hzs with h | ⟨p, hp, hzp⟩
              · simp [h]
              · refine absurd (((hi.classes_comp p hp).2 _).2 ?_) (hnp p hp)
                exact (((hi.classes_comp p hp).2 _).1 hzp).trans ((hex.trans (edge_conn _ _ _ hz)).symm)
          · refine Finset.mem_union_right _ (Finset.mem_union_right _ ?_)
            rw [Finset.mem_sdiff, hEq]; exact ⟨hz, hzs⟩
  | finish e c hc =>
    obtain ⟨he, hseen, hconn, hdisj, hclosed, hnp⟩ := hi.cur_some e c ∅ hc
    have hcl : ∀ x ∈ insert e c, mkEdges pairs x ⊆ c := by simpa using hclosed
    have hec : e ∈ c := by
      obtain ⟨y, hy⟩ := (key_iff_edge pairs e).1 he
      have hyc : y ∈ c := hcl e (Finset.mem_insert_self _ _) hy
      exact hcl y (Finset.mem_insert_of_mem hyc) (edge_symm _ _ _ hy)
    have hcomp : IsComp pairs e c := by
      refine ⟨he, fun y => ⟨fun hy => hconn y (Finset.mem_union_left _ hy), fun hy => ?_⟩⟩
      exact (closed_conn pairs c (fun x hx => hcl x (Finset.mem_insert_of_mem hx)) hy).1 hec
    refine ⟨hi.todo_sub, ?_, ?_, ?_, ?_, hi.edges_sub, ?_, by simp⟩
    · intro p hp
      rcases List.mem_append.1 hp with hp | hp
      · exact hi.classes_comp p hp
      · rw [List.mem_singleton] at hp; subst hp; exact hcomp
    · intro x hx
      rcases hi.visited x hx with h | h | ⟨c', a', h⟩
      · exact Or.inl h
      · exact Or.inr (Or.inl h)
      · rw [hc] at h
        simp only [Option.some.injEq, Prod.mk.injEq] at h
        obtain ⟨rfl, _, _⟩ := h
        exact Or.inr (Or.inl ((hseen e).2 (Or.inl hec)))
    · rw [List.map_append, List.pairwise_append]
      refine ⟨hi.keys, by simp, ?_⟩
      intro k hk k' hk'
      simp only [List.map_cons, List.map_nil, List.mem_singleton] at hk'
      subst hk'
      obtain ⟨p, hp, rfl⟩ := List.mem_map.1 hk
      exact fun h => hnp p hp (((hi.classes_comp p hp).2 _).2 h)
    · intro _ x
      rw [hseen]
      simp only [List.mem_append, List.mem_singleton]
      constructor
      · rintro (h | ⟨p, hp, h⟩)
        · exact ⟨_, Or.inr rfl, h⟩
        · exact ⟨p, Or.inl hp, h⟩
      · rintro ⟨p, hp | rfl, h⟩
        · exact Or.inr ⟨p, hp, h⟩
        · exact Or.inl h
    · intro x hne
      rcases hi.edges_ne x hne with h | ⟨c', a', h⟩
      · exact Or.inl h
      · rw [hc] at h
        simp only [Option.some.injEq, Prod.mk.injEq] at h
        obtain ⟨rfl, _, _⟩ := h
        exact Or.inl ((hseen e).2 (Or.inl hec))

theorem inv_reach {pairs : List (α × α)} {s : St α} (h : Reach pairs s) : Inv pairs s := by
  induction h with
  | refl => exact inv_init pairs
  | tail _ h2 ih => exact inv_step ih h2

theorem conn_elems {pairs : List (α × α)} {x y : α} (h : Spec.Conn pairs x y) (hx : x ∈ Spec.elems pairs) : y ∈ Spec.elems pairs := by
  rw [← mem_mkKeys] at *
  refine (closed_conn pairs (mkKeys pairs) (fun a _ b hb => ?_) h).1 hx
  rw [mem_mkKeys, key_iff_edge]
  exact ⟨a, edge_symm _ _ _ hb⟩

/-- Number of steps left, at most. -/
def measure (pairs : List (α × α)) (s : St α) : Nat :=
  2 * s.todo.card + (mkKeys pairs \ s.seen).card + (if s.cur.isSome then 1 else 0)

theorem measure_step {pairs : List (α × α)} {s s' : St α} (hi : Inv pairs s) (h : Step s s') : measure pairs s' < measure pairs s := by
  cases h with
  | skip e hc he hs =>
    have := Finset.card_erase_lt_of_mem he
    simp only [measure]; omega
  | start e hc he hs =>
    have := Finset.card_erase_lt_of_mem he
    simp only [measure, hc, Option.isSome_some, Option.isSome_none]; simp; omega
  | pop e c a x hc hx =>
    obtain ⟨he, hseen, hconn, hdisj, hclosed, hnp⟩ := hi.cur_some e c a hc
    have hxU : x ∈ mkKeys pairs := (mem_mkKeys _ _).2 (conn_elems (hconn x (Finset.mem_union_right _ hx)) he)
    have : (mkKeys pairs \ insert x s.seen).card < (mkKeys pairs \ s.seen).card := by
      apply Finset.card_lt_card
      rw [Finset.ssubset_iff_of_subset]
      · exact ⟨x, Finset.mem_sdiff.2 ⟨hxU, hdisj x hx⟩, by simp⟩
      · exact Finset.sdiff_subset_sdiff (Finset.Subset.refl _) (Finset.subset_insert _ _)
    simp only [measure, hc, Option.isSome_some]; omega
  | finish e c hc => simp [measure, hc]

/-! ### C30 -/

/-- **C30.** When the function returns, for every order in which sets are traversed: each class is the set of everything connected to its
key; every element that occurs in the pairs is in a class; and there is exactly one class per connected component. -/
theorem C30_classes (pairs : List (α × α)) (s : St α) (hr : Reach pairs s) (hd : Done s) :
    (∀ k c, (k, c) ∈ s.classes → k ∈ Spec.elems pairs ∧ ∀ x, x ∈ c ↔ Spec.Conn pairs k x) ∧
    (∀ x ∈ Spec.elems pairs, ∃ k c, (k, c) ∈ s.classes ∧ x ∈ c) ∧
    (s.classes.map Prod.fst).Pairwise (fun a b => ¬ Spec.Conn pairs a b) := by
  have hi := inv_reach hr
  refine ⟨fun k c h => hi.classes_comp _ h, fun x hx => ?_, hi.keys⟩
  rcases hi.visited x hx with h | h | ⟨c, a, h⟩
  · rw [hd.1] at h; simp at h
  · obtain ⟨p, hp, hxp⟩ := (hi.seen_none hd.2 x).1 h
    exact ⟨p.1, p.2, hp, hxp⟩
  · rw [hd.2] at h; simp at h

/-- **C30.** Two elements that occur in the pairs are put in the same class if and only if a chain of pairs connects them. -/
theorem C30_same_class_iff (pairs : List (α × α)) (s : St α) (hr : Reach pairs s) (hd : Done s) (x y : α)
    (hx : x ∈ Spec.elems pairs) (_hy : y ∈ Spec.elems pairs) :
    (∃ k c, (k, c) ∈ s.classes ∧ x ∈ c ∧ y ∈ c) ↔ Spec.Conn pairs x y := by
  obtain ⟨h1, h2, _⟩ := C30_classes pairs s hr hd
  constructor
  · rintro ⟨k, c, hk, hxc, hyc⟩
    exact (((h1 k c hk).2 x).1 hxc).symm.trans (((h1 k c hk).2 y).1 hyc)
  · intro h
    obtain ⟨k, c, hk, hxc⟩ := h2 x hx
    exact ⟨k, c, hk, hxc, ((h1 k c hk).2 y).2 ((((h1 k c hk).2 x).1 hxc).trans h)⟩

/-- **C30.** The keys are distinct and the classes are disjoint: no element is in two of them. -/
theorem C30_disjoint (pairs : List (α × α)) (s : St α) (hr : Reach pairs s) (hd : Done s) :
    s.classes.Pairwise (fun p q => p.1 ≠ q.1 ∧ Disjoint p.2 q.2) := by
  obtain ⟨h1, _, h3⟩ := C30_classes pairs s hr hd
  rw [List.pairwise_map] at h3
  refine h3.imp_of_mem (fun {p q} hp hq h => ⟨fun he => h (he ▸ Relation.EqvGen.refl _), ?_⟩)
  rw [Finset.disjoint_left]
  intro x hxp hxq
  exact h ((((h1 p.1 p.2 hp).2 x).1 hxp).trans (((h1 q.1 q.2 hq).2 x).1 hxq).symm)

/-- **C30.** The function always returns: a reachable state is either final or has a next step, and there is no infinite run. -/
theorem C30_terminates (pairs : List (α × α)) :
    (∀ s : St α, Reach pairs s → Done s ∨ ∃ s', Step s s') ∧
    ¬ ∃ f : Nat → St α, f 0 = init pairs ∧ ∀ n, Step (f n) (f (n + 1)) := by
  constructor
  · intro s _
    cases hc : s.cur with
    | none =>
      by_cases ht : s.todo = ∅
      · exact Or.inl ⟨ht, hc⟩
      · obtain ⟨e, he⟩ := Finset.nonempty_iff_ne_empty.2 ht
        by_cases hs : e ∈ s.seen
        · exact Or.inr ⟨_, Step.skip s e hc he hs⟩
        · exact Or.inr ⟨_, Step.start s e hc he hs⟩
    | some p =>
      obtain ⟨e, c, a⟩ := p
      by_cases ha : a = ∅
      · subst ha; exact Or.inr ⟨_, Step.finish s e c hc⟩
      · obtain ⟨x, hx⟩ := Finset.nonempty_iff_ne_empty.2 ha
        exact Or.inr ⟨_, Step.pop s e c a x hc hx⟩
  · rintro ⟨f, h0, hf⟩
    have hr : ∀ n, Reach pairs (f n) := by
      intro n
      induction n with
      | zero => rw [h0]; exact Relation.ReflTransGen.refl
      | succ n ih => exact ih.tail (hf n)
    have hm : ∀ n, measure pairs (f n) + n ≤ measure pairs (f 0) := by
      intro n
      induction n with
      | zero => simp
      | succ n ih => have := measure_step (inv_reach (hr n)) (hf n); omega
    have := hm (measure pairs (f 0) + 1)
    omega

/-- A run that reaches a final state exists for every input. -/
theorem exists_done (pairs : List (α × α)) : ∃ s : St α, Reach pairs s ∧ Done s := by
  have : ∀ n (s : St α), Reach pairs s → measure pairs s = n → ∃ s, Reach pairs s ∧ Done s := by
    intro n
    induction n using Nat.strong_induction_on with
    | _ n ih =>
      intro s hr hn
      rcases (C30_terminates pairs).1 s hr with h | ⟨s', h⟩
      · exact ⟨s, hr, h⟩
      · exact ih _ (hn ▸ measure_step (inv_reach hr) h) s' (hr.tail h) rfl
  exact this _ _ Relation.ReflTransGen.refl rfl

/-- Three elements in a chain and a separate pair: the hypotheses of the theorems are met, with two classes. -/
example : ∃ s : St Nat, Reach [(1, 2), (2, 3), (5, 4)] s ∧ Done s ∧ Spec.Conn [(1, 2), (2, 3), (5, 4)] 1 3 ∧
    ¬ Spec.Conn [(1, 2), (2, 3), (5, 4)] 1 4 := by
  obtain ⟨s, h1, h2⟩ := exists_done [((1 : Nat), 2), (2, 3), (5, 4)]
  refine ⟨s, h1, h2, Relation.EqvGen.trans _ 2 _ (.rel _ _ (by simp)) (.rel _ _ (by simp)), fun h => ?_⟩
  have := (closed_conn _ {1, 2, 3} (by decide +kernel) h).1 (by decide)
  simp at this

end Disco.Closure
