import Mathlib.Order.Defs.LinearOrder
import Mathlib.Data.Nat.Basic
import Verif.Heap.Heapq
/-!
# C17: `util.merge` (util.py:347-396), an n-way merge with `heapq`
-/
namespace Disco.Merge
open Disco.Heap

variable {A V : Type} [LinearOrder V]

/-- `Entry((item, items), key(item), cnt)` (util.py:200-213) as used by `merge`; an iterator is
the list of items it will still yield. -/
structure Entry (A V : Type) where
  item : A
  rest : List A
  value : V
  count : Nat

/-- `Entry.__lt__` (util.py:207-209). -/
def Entry.lt (a b : Entry A V) : Bool :=
  decide (a.value < b.value) || (decide (a.value = b.value) && decide (a.count < b.count))

/-- The initial `for cnt, it in enumerate(iterables, 1)` loop (util.py:368-375): exhausted iterables are
skipped but use up a number. -/
def initEntries (key : A → V) : Nat → List (List A) → List (Entry A V)
  | _, [] => []
  | cnt, [] :: its => initEntries key (cnt + 1) its
  | cnt, (x :: xs) :: its => ⟨x, xs, key x, cnt⟩ :: initEntries key (cnt + 1) its

/-- The loop `while len(heap) > 1` with its inner loop, and the final `if heap` (util.py:378-396); one unit of `fuel` per
item. -/
def mergeLoop (key : A → V) : (fuel : Nat) → List (Entry A V) → List A
  | 0, _ => []
  | _ + 1, [] => []
  | _ + 1, [e] => e.item :: e.rest
  | fuel + 1, e :: e2 :: h =>
    e.item :: match e.rest with
      | x :: xs => mergeLoop key fuel (heapreplace Entry.lt (e :: e2 :: h) ⟨x, xs, key x, e.count⟩)
      | [] => match heappop Entry.lt (e :: e2 :: h) with
        | some (_, h') => mergeLoop key fuel h'
        | none => []

/-- `list(merge(*iterables, key=key))` (util.py:347-396). The number of items bounds the number of iterations
(that this is enough is part of `C17_merge`). -/
def merge (key : A → V) (iterables : List (List A)) : List A :=
  mergeLoop key (iterables.flatten.length + 1) (heapify Entry.lt (initEntries key 1 iterables))

/-! ### Proof -/

/-- Order on entries: by value, then by number of the iterable. -/
def Entry.le (a b : Entry A V) : Prop := a.value < b.value ∨ (a.value = b.value ∧ a.count ≤ b.count)

omit [LinearOrder V] in
theorem compat [LinearOrder V] : Compat (Entry.lt (A := A) (V := V)) Entry.le where
  trans := by
    rintro a b c (h | ⟨h, h'⟩) (g | ⟨g, g'⟩)
    · exact Or.inl (lt_trans h g)
    · exact Or.inl (g ▸ h)
    · exact Or.inl (h ▸ g)
    · exact Or.inr ⟨h.trans g, Nat.le_trans h' g'⟩
  of_lt := by
    intro a b h
    simp only [Entry.lt, Bool.or_eq_true, Bool.and_eq_true, decide_eq_true_eq] at h
    rcases h with h | ⟨h, h'⟩
    · exact Or.inl h
    · exact Or.inr ⟨h, by omega⟩
  of_not_lt := by
    intro a b h
    simp only [Entry.lt, Bool.or_eq_false_iff, Bool.and_eq_false_iff, decide_eq_false_iff_not] at h
    obtain ⟨h1, h2⟩ := h
    rcases lt_or_eq_of_le (not_lt.1 h1) with h3 | h3
    · exact Or.inl h3
    · rcases h2 with h2 | h2
      · exact absurd h3.symm h2
      · exact Or.inr ⟨h3, by omega⟩

/-- The entry of a numbered iterable. -/
def toEntry (key : A → V) (p : Nat × List A) : Option (Entry A V) :=
  match p.2 with
  | [] => none
  | x :: xs => some ⟨x, xs, key x, p.1⟩

theorem initEntries_eq (key : A → V) (its : List (List A)) : ∀ n, ∃ ls : List (Nat × List A),
    ls.map Prod.snd = its ∧ ls.Pairwise (fun a b => a.1 < b.1) ∧ (∀ p ∈ ls, n ≤ p.1) ∧
    initEntries key n its = ls.filterMap (toEntry key) := by
  induction its with
  | nil => intro n; exact ⟨[], by simp [initEntries]⟩
  | cons it its ih =>
    intro n
    obtain ⟨ls, h1, h2, h3, h4⟩ := ih (n + 1)
    refine ⟨(n, it) :: ls, by simp [h1], List.pairwise_cons.2 ⟨fun p hp => ?_, h2⟩, ?_, ?_⟩
    · have := h3 p hp; simp only; omega
    · intro p hp
      rcases List.mem_cons.1 hp with rfl | hp
      · exact Nat.le_refl _
      · have := h3 p hp; omega
    · cases it with
      | nil => rw [initEntries, h4, List.filterMap_cons_none rfl]
      | cons x xs => rw [initEntries, h4]; rfl

/-- What is left to be output, as numbered iterables. -/
def remaining (ls : List (Nat × List A)) : List A := (ls.map Prod.snd).flatten

/-- `out` is the stable merge of `flat`. -/
def Stable (key : A → V) (flat out : List A) : Prop :=
  out.Perm flat ∧ out.Pairwise (fun a b => key a ≤ key b) ∧
  ∀ k, out.filter (fun a => decide (key a = k)) = flat.filter (fun a => decide (key a = k))

theorem mergeLoop_spec (key : A → V) (fuel : Nat) : ∀ (ls : List (Nat × List A)) (h : List (Entry A V)),
    ls.Pairwise (fun a b => a.1 < b.1) → (∀ p ∈ ls, p.2.Pairwise (fun a b => key a ≤ key b)) →
    h.Perm (ls.filterMap (toEntry key)) → IsHeap Entry.le h → (remaining ls).length < fuel →
    Stable key (remaining ls) (mergeLoop key fuel h) := by
  induction fuel with
  | zero => intro ls h _ _ _ _ hf; omega
  | succ fuel ih =>
    intro ls h hnum hsorted hperm hheap hfuel
    cases h with
    | nil =>
      have hnil := hperm.symm.eq_nil
      have : remaining ls = [] := by
        rw [remaining, List.flatten_eq_nil_iff]
        intro l hl
        obtain ⟨p, hp, rfl⟩ := List.mem_map.1 hl
        have := List.filterMap_eq_nil_iff.1 hnil p hp
        unfold toEntry at this
        split at this
        · assumption
        · simp at this
      rw [this]
      simp [mergeLoop, Stable]
    | cons e h =>
      -- locate the top entry
      have htop : ∀ x ∈ e :: h, Entry.le e x := heap_root_min compat _ hheap e rfl
      have hmem : e ∈ ls.filterMap (toEntry key) := hperm.subset (by simp)
      obtain ⟨p, hp, hpe⟩ := List.mem_filterMap.1 hmem
      obtain ⟨pre, post, hls⟩ := List.append_of_mem hp
      obtain ⟨n, l⟩ := p
      cases l with
      | nil => simp [toEntry] at hpe
      | cons x xs =>
        have he : e = ⟨x, xs, key x, n⟩ := by simpa [toEntry] using hpe.symm
        have hperm' : h.Perm ((pre ++ post).filterMap (toEntry key)) := by
          have : (e :: h).Perm (e :: (pre ++ post).filterMap (toEntry key)) := by
            refine hperm.trans ?_
            rw [hls, List.filterMap_append, List.filterMap_cons, hpe, List.filterMap_append]
            exact List.perm_middle
          exact this.cons_inv
        have hle : ∀ q ∈ ls, ∀ y ys, q.2 = y :: ys → Entry.le e ⟨y, ys, key y, q.1⟩ := by
          intro q hq y ys hy
          apply htop
          apply hperm.symm.subset
          exact List.mem_filterMap.2 ⟨q, hq, by simp [toEntry, hy]⟩
        have hnum' := hnum
        rw [hls, List.pairwise_append, List.pairwise_cons] at hnum'
        -- all remaining elements are at least key x, and strictly more in earlier iterables
        have hpre : ∀ a ∈ remaining pre, key x < key a := by
          intro a ha
          obtain ⟨l, hl, hal⟩ := List.mem_flatten.1 ha
          obtain ⟨q, hq, rfl⟩ := List.mem_map.1 hl
          have hqls : q ∈ ls := by rw [hls]; exact List.mem_append_left _ hq
          cases hq2 : q.2 with
          | nil => rw [hq2] at hal; simp at hal
          | cons y ys =>
            have h1 := hle q hqls y ys hq2
            have h2 := hnum'.2.2 q hq (n, x :: xs) (by simp)
            have h3 : key x < key y := by
              rw [he] at h1
              rcases h1 with h1 | ⟨h1, h1'⟩
              · exact h1
              · simp only at h1' h2; omega
            have h4 := hsorted q hqls
            rw [hq2] at h4 hal
            rcases List.mem_cons.1 hal with rfl | hal
            · exact h3
            · exact lt_of_lt_of_le h3 ((List.pairwise_cons.1 h4).1 a hal)
        have hpost : ∀ a ∈ remaining post, key x ≤ key a := by
          intro a ha
          obtain ⟨l, hl, hal⟩ := List.mem_flatten.1 ha
          obtain ⟨q, hq, rfl⟩ := List.mem_map.1 hl
          have hqls : q ∈ ls := by rw [hls]; simp [hq]
          cases hq2 : q.2 with
          | nil => rw [hq2] at hal; simp at hal
          | cons y ys =>
            have h1 := hle q hqls y ys hq2
            have h3 : key x ≤ key y := by
              rw [he] at h1
              rcases h1 with h1 | ⟨h1, _⟩
              · exact le_of_lt h1
              · exact le_of_eq h1
            have h4 := hsorted q hqls
            rw [hq2] at h4 hal
            rcases List.mem_cons.1 hal with rfl | hal
            · exact h3
            · exact le_trans h3 ((List.pairwise_cons.1 h4).1 a hal)
        have hself : ∀ a ∈ xs, key x ≤ key a := by
          have := hsorted (n, x :: xs) hp
          exact (List.pairwise_cons.1 this).1
        have hrem : remaining ls = remaining pre ++ x :: (xs ++ remaining post) := by
          rw [hls]; simp [remaining]
        have hrem' : remaining (pre ++ (n, xs) :: post) = remaining pre ++ (xs ++ remaining post) := by
          simp [remaining]
        -- it suffices that the rest is the stable merge of the rest
        have step : ∀ out, Stable key (remaining (pre ++ (n, xs) :: post)) out →
            Stable key (remaining ls) (x :: out) := by
          rintro out ⟨s1, s2, s3⟩
          refine ⟨?_, List.pairwise_cons.2 ⟨fun a ha => ?_, s2⟩, fun k => ?_⟩
          · rw [hrem]
            refine ((s1.cons x).trans ?_)
            rw [hrem']
            exact List.perm_middle.symm
          · have := s1.subset ha
            rw [hrem'] at this
            rcases List.mem_append.1 this with h | h
            · exact le_of_lt (hpre a h)
            · rcases List.mem_append.1 h with h | h
              · exact hself a h
              · exact hpost a h
          · rw [List.filter_cons, s3, hrem, hrem']
            by_cases hk : key x = k
            · have : (remaining pre).filter (fun a => decide (key a = k)) = [] := by
                rw [List.filter_eq_nil_iff]
                intro a ha hc
                have h1 := hpre a ha
                simp only [decide_eq_true_eq] at hc
                rw [hc, hk] at h1
                exact lt_irrefl _ h1
              simp only [List.filter_append, this, List.filter_cons, hk, decide_true, if_true,
                List.nil_append]
            · simp [hk]
        have hnum2 : (pre ++ (n, xs) :: post).Pairwise (fun a b => a.1 < b.1) := by
          rw [List.pairwise_append, List.pairwise_cons]
          refine ⟨hnum'.1, hnum'.2.1, fun a ha b hb => ?_⟩
          rcases List.mem_cons.1 hb with rfl | hb
          · exact hnum'.2.2 a ha (n, x :: xs) (by simp)
          · exact hnum'.2.2 a ha b (by simp [hb])
        have hsorted2 : ∀ p ∈ pre ++ (n, xs) :: post, p.2.Pairwise (fun a b => key a ≤ key b) := by
          intro q hq
          rcases List.mem_append.1 hq with hq | hq
          · exact hsorted q (by rw [hls]; simp [hq])
          · rcases List.mem_cons.1 hq with rfl | hq
            · exact (List.pairwise_cons.1 (hsorted (n, x :: xs) hp)).2
            · exact hsorted q (by rw [hls]; simp [hq])
        have hfuel2 : (remaining (pre ++ (n, xs) :: post)).length < fuel := by
          have h1 := congrArg List.length hrem
          have h2 := congrArg List.length hrem'
          simp at h1 h2
          omega
        cases h with
        | nil =>
          -- a single iterator remains
          rw [mergeLoop, he]
          apply step
          have hz : ∀ q ∈ pre ++ post, q.2 = [] := by
            intro q hq
            have := List.filterMap_eq_nil_iff.1 hperm'.symm.eq_nil q hq
            unfold toEntry at this
            split at this
            · assumption
            · simp at this
          have hz1 : remaining pre = [] := by
            rw [remaining, List.flatten_eq_nil_iff]
            intro l hl
            obtain ⟨p, hp, rfl⟩ := List.mem_map.1 hl
            exact hz p (by simp [hp])
          have hz2 : remaining post = [] := by
            rw [remaining, List.flatten_eq_nil_iff]
            intro l hl
            obtain ⟨p, hp, rfl⟩ := List.mem_map.1 hl
            exact hz p (by simp [hp])
          rw [hrem', hz1, hz2]
          simp only [List.nil_append, List.append_nil]
          exact ⟨List.Perm.refl _, hsorted2 (n, xs) (by simp), fun _ => rfl⟩
        | cons e2 h =>
          rw [mergeLoop]
          have hi : e.item = x := by rw [he]
          have hr : e.rest = xs := by rw [he]
          have hcnt : e.count = n := by rw [he]
          rw [hi, hr, hcnt]
          apply step
          cases hxs : xs with
          | nil =>
            simp only
            have hpop := heappop_spec compat (e :: e2 :: h) hheap
            -- the popped entry is the root
            cases hpo : heappop Entry.lt (e :: e2 :: h) with
            | none => rw [hpo] at hpop; simp at hpop
            | some r =>
              obtain ⟨top, h'⟩ := r
              rw [hpo] at hpop
              simp only at hpop ⊢
              have htop' : top = e := by
                unfold heappop at hpo
                cases hl : (e :: e2 :: h).getLast? with
                | none => rw [hl] at hpo; simp at hpo
                | some last =>
                  rw [hl] at hpo
                  simp only [List.dropLast_cons_cons] at hpo
                  injection hpo with hpo
                  injection hpo with hpo1 hpo2
                  exact hpo1.symm
              subst htop'
              have hp1 : (e2 :: h).Perm h' := hpop.1.cons_inv
              rw [hxs] at hnum2 hsorted2 hfuel2
              apply ih _ h' hnum2 hsorted2 _ hpop.2.1 hfuel2
              refine hp1.symm.trans (hperm'.trans ?_)
              rw [List.filterMap_append, List.filterMap_append, List.filterMap_cons]
              simp [toEntry]
          | cons y ys =>
            simp only
            have hrep := heapreplace_spec compat e (e2 :: h) ⟨y, ys, key y, n⟩ hheap
            rw [hxs] at hnum2 hsorted2 hfuel2
            apply ih _ _ hnum2 hsorted2 _ hrep.1 hfuel2
            refine hrep.2.trans ((hperm'.cons _).trans ?_)
            rw [List.filterMap_append, List.filterMap_append, List.filterMap_cons]
            simp only [toEntry]
            exact List.perm_middle.symm

/-- **C17.** Merging iterables that are each sorted by `key`: the result contains each item exactly as
often as the inputs do, is sorted by `key`, and is stable: items with the same key come in the order of the
iterables they come from (and of their position there). -/
theorem C17_merge (key : A → V) (iterables : List (List A))
    (hsorted : ∀ l ∈ iterables, l.Pairwise (fun a b => key a ≤ key b)) :
    (merge key iterables).Perm iterables.flatten ∧
    (merge key iterables).Pairwise (fun a b => key a ≤ key b) ∧
    ∀ k, (merge key iterables).filter (fun a => decide (key a = k))
      = iterables.flatten.filter (fun a => decide (key a = k)) := by
  obtain ⟨ls, h1, h2, _, h4⟩ := initEntries_eq key iterables 1
  have hh := heapify_spec (compat (A := A) (V := V)) (initEntries key 1 iterables)
  have hrem : remaining ls = iterables.flatten := by rw [remaining, h1]
  have := mergeLoop_spec key (iterables.flatten.length + 1) ls
    (heapify Entry.lt (initEntries key 1 iterables)) h2
    (fun p hp => hsorted p.2 (by rw [← h1]; exact List.mem_map_of_mem hp))
    (by rw [← h4]; exact hh.2) hh.1 (by rw [hrem]; omega)
  rw [hrem] at this
  exact this

example : merge (A := Nat × Char) (V := Nat) Prod.fst [[(0, 'a'), (2, 'a')], [], [(0, 'c'), (1, 'c'), (2, 'c'), (3, 'c')]]
    = [(0, 'a'), (0, 'c'), (1, 'c'), (2, 'a'), (2, 'c'), (3, 'c')] := by decide +kernel

end Disco.Merge
