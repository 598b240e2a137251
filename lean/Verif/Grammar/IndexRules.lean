import Verif.Grammar.Convert
/-!
# C46: the index of the rules by label (`Grammar._indexrules`, `revrulemap`)

Pointers into an array are modelled as positions. `std::sort` is a parameter `srt`, of which only is used that it gives a sorted permutation.
-/
namespace Disco.IndexRules
open Disco.Convert

/-- The inner loop of `mergeBy`: insert from the second list while its head goes before `x`. -/
def mergeGo {α : Type} (lt : α → α → Bool) (x : α) (xs : List α) (k : List α → List α) : List α → List α
  | [] => x :: xs
  | y :: ys => if lt y x then y :: mergeGo lt x xs k ys else x :: k (y :: ys)

/-- `std::inplace_merge`. -/
def mergeBy {α : Type} (lt : α → α → Bool) : List α → List α → List α
  | [], ys => ys
  | x :: xs, ys => mergeGo lt x xs (mergeBy lt xs) ys

/-- `lt0` (_grammar.pxi:27-28). -/
def lt0 (a b : PRule) : Bool := if a.key.lhs = b.key.lhs then decide (a.no < b.no) else decide (a.key.lhs < b.key.lhs)
/-- `lt1` (_grammar.pxi:29-32). -/
def lt1 (a b : PRule) : Bool := if a.key.rhs1 = b.key.rhs1 then decide (a.key.lhs < b.key.lhs) else decide (a.key.rhs1 < b.key.rhs1)
/-- `lt2` (_grammar.pxi:33-34). -/
def lt2 (a b : PRule) : Bool := if a.key.rhs2 = b.key.rhs2 then decide (a.prob < b.prob) else decide (a.key.rhs2 < b.key.rhs2)

/-- The values of the argument `idx`: 0, 1, 2. -/
inductive Idx
  | i0 | i1 | i2
  deriving DecidableEq

/-- The position on which the rules are indexed (_grammar.pxi:694-699). -/
def idxOf : Idx → PRule → Nat
  | .i0, r => r.key.lhs
  | .i1, r => r.key.rhs1
  | .i2, r => r.key.rhs2

/-- The comparison function (_grammar.pxi:671-686). -/
def cmp : Idx → PRule → PRule → Bool
  | .i0 => lt0
  | .i1 => lt1
  | .i2 => lt2

/-- The loop that makes the index (_grammar.pxi:692-703). -/
def indexLoop : List Nat → Nat → Nat → List Nat → List Nat
  | [], _, _, dest => dest
  | l :: ls, n, prev, dest => indexLoop ls (n + 1) l (if l ≠ prev then dest.set l n else dest)

/-- The array and the index after `_indexrules` (_grammar.pxi:655-705); `old` are the rules already indexed, `new` the rules that were added. -/
def indexrules (idx : Idx) (srt : List PRule → List PRule) (nont : Nat) (old new : List PRule) : List PRule × List Nat :=
  let arr := mergeBy (cmp idx) old (srt new)
  (arr, indexLoop (arr.map (idxOf idx)) 0 nont (List.replicate nont 0))

/-- The sentinel rule at the end of the array (_grammar.pxi:704-705). -/
def sentinel (nont : Nat) : PRule := ⟨⟨nont, nont, nont, 0, 0⟩, 0, 0⟩

/-- How the index is used: the rules from the pointer for a label on, until the label changes (for example plcfrs.pyx:430-440, pcfg.pyx:487-489). -/
def rulesFor (idx : Idx) (nont : Nat) (p : List PRule × List Nat) (l : Nat) : List PRule :=
  ((p.1 ++ [sentinel nont]).drop (p.2.getD l 0)).takeWhile (fun r => decide (idxOf idx r = l))

/-- The index after a sequence of `addrules`; each step has the number of nonterminals at that point, the new rules, and the change of weights of
the older rules since the last step (normalisation). -/
def history (idx : Idx) (srt : List PRule → List PRule) : List PRule × List Nat → List (Nat × List PRule × (PRule → PRule)) → List PRule × List Nat
  | p, [] => p
  | p, (nont, new, f) :: rest => history idx srt (indexrules idx srt nont (p.1.map f) new) rest

/-- `revrulemap` (_grammar.pxi:375-379). -/
def revrulemap (arr : List PRule) : List Nat := (arr.zipIdx).foldl (fun rev x => rev.set x.1.no x.2) (List.replicate arr.length 0)

/-! ### Lemmas -/

theorem mergeGo_perm {α : Type} (lt : α → α → Bool) (x : α) (xs : List α) (k : List α → List α) (hk : ∀ ys, (k ys).Perm (xs ++ ys)) (ys : List α) :
    (mergeGo lt x xs k ys).Perm (x :: xs ++ ys) := by
  induction ys with
  | nil => simp [mergeGo]
  | cons y ys ih =>
    rw [mergeGo]
    split
    · exact (ih.cons y).trans (List.perm_middle.symm)
    · exact (hk (y :: ys)).cons x

theorem mergeBy_perm {α : Type} (lt : α → α → Bool) (xs ys : List α) : (mergeBy lt xs ys).Perm (xs ++ ys) := by
  induction xs generalizing ys with
  | nil => exact List.Perm.refl _
  | cons x xs ih => exact mergeGo_perm lt x xs _ (fun ys => ih ys) ys

/-- Merging two lists that are sorted by a key gives a list sorted by that key, also if they are not sorted by the rest of the comparison. -/
theorem mergeBy_sorted {α : Type} (lt : α → α → Bool) (key : α → Nat) (h1 : ∀ a b, key a < key b → lt a b = true) (h2 : ∀ a b, key b < key a → lt a b = false)
    {xs ys : List α} (hx : xs.Pairwise (fun a b => key a ≤ key b)) (hy : ys.Pairwise (fun a b => key a ≤ key b)) :
    (mergeBy lt xs ys).Pairwise (fun a b => key a ≤ key b) := by
  induction xs generalizing ys with
  | nil => exact hy
  | cons x xs ih =>
    rw [mergeBy]
    rw [List.pairwise_cons] at hx
    induction ys with
    | nil => rw [mergeGo]; exact List.pairwise_cons.2 hx
    | cons y ys ihy =>
      have hy' := List.pairwise_cons.1 hy
      rw [mergeGo]
      split
      · rename_i hlt
        have hxy : key y ≤ key x := by
          by_contra hc
          rw [h2 y x (by omega)] at hlt
          cases hlt
        refine List.pairwise_cons.2 ⟨?_, ihy hy'.2⟩
        intro b hb
        have := (mergeGo_perm lt x xs _ (fun ys => mergeBy_perm lt xs ys) ys).mem_iff.1 hb
        rcases List.mem_append.1 this with hm | hm
        · rcases List.mem_cons.1 hm with rfl | hm
          · exact hxy
          · exact le_trans hxy (hx.1 b hm)
        · exact hy'.1 b hm
      · rename_i hlt
        have hxy : key x ≤ key y := by
          by_contra hc
          exact hlt (h1 y x (by omega))
        refine List.pairwise_cons.2 ⟨?_, ih hx.2 hy⟩
        intro b hb
        have := (mergeBy_perm lt xs (y :: ys)).mem_iff.1 hb
        rcases List.mem_append.1 this with hm | hm
        · exact hx.1 b hm
        · rcases List.mem_cons.1 hm with rfl | hm
          · exact hxy
          · exact le_trans hxy (hy'.1 b hm)

theorem cmp_lt (idx : Idx) (a b : PRule) (h : idxOf idx a < idxOf idx b) : cmp idx a b = true := by
  cases idx
  · have h : a.key.lhs < b.key.lhs := h
    show lt0 a b = true
    rw [lt0, if_neg (by omega)]; simpa using h
  · have h : a.key.rhs1 < b.key.rhs1 := h
    show lt1 a b = true
    rw [lt1, if_neg (by omega)]; simpa using h
  · have h : a.key.rhs2 < b.key.rhs2 := h
    show lt2 a b = true
    rw [lt2, if_neg (by omega)]; simpa using h

theorem cmp_gt (idx : Idx) (a b : PRule) (h : idxOf idx b < idxOf idx a) : cmp idx a b = false := by
  cases idx
  · have h : b.key.lhs < a.key.lhs := h
    show lt0 a b = false
    rw [lt0, if_neg (by omega)]; simp; omega
  · have h : b.key.rhs1 < a.key.rhs1 := h
    show lt1 a b = false
    rw [lt1, if_neg (by omega)]; simp; omega
  · have h : b.key.rhs2 < a.key.rhs2 := h
    show lt2 a b = false
    rw [lt2, if_neg (by omega)]; simp; omega

theorem indexLoop_length (ls : List Nat) (n prev : Nat) (dest : List Nat) : (indexLoop ls n prev dest).length = dest.length := by
  induction ls generalizing n prev dest with
  | nil => rfl
  | cons l ls ih =>
    rw [indexLoop, ih]
    split <;> simp

theorem indexLoop_spec (ls : List Nat) (n prev : Nat) (dest : List Nat) (hs : ls.Pairwise (· ≤ ·)) (hl : ∀ l ∈ ls, l < dest.length)
    (hp : prev ∈ ls → ls.head? = some prev) (x : Nat) :
    (indexLoop ls n prev dest).getD x 0 = if x ∈ ls ∧ x ≠ prev then n + ls.idxOf x else dest.getD x 0 := by
  induction ls generalizing n prev dest with
  | nil => simp [indexLoop]
  | cons l ls ih =>
    have hs' := List.pairwise_cons.1 hs
    rw [indexLoop, ih (n + 1) l _ hs'.2 ?_ ?_]
    · by_cases hlp : l = prev
      · subst hlp
        simp only [ne_eq, not_true_eq_false, if_false]
        by_cases hx : x ∈ ls ∧ x ≠ l
        · rw [if_pos hx, if_pos ⟨List.mem_cons_of_mem _ hx.1, hx.2⟩, List.idxOf_cons_ne _ (Ne.symm hx.2)]
          omega
        · rw [if_neg hx, if_neg]
          rintro ⟨h1, h2⟩
          rcases List.mem_cons.1 h1 with h1 | h1
          · exact h2 h1
          · exact hx ⟨h1, h2⟩
      · have hpn : prev ∉ l :: ls := by
          intro hm
          have := hp hm
          simp at this
          exact hlp this
        simp only [ne_eq, hlp, not_false_eq_true, if_true]
        by_cases hxl : x = l
        · subst hxl
          have hxd := hl x List.mem_cons_self
          rw [if_neg (by simp), if_pos ⟨List.mem_cons_self, hlp⟩, List.idxOf_cons_self, List.getD_eq_getElem?_getD, List.getElem?_set_self hxd, Option.getD_some, Nat.add_zero]
        · by_cases hx : x ∈ ls
          · have hxp : x ≠ prev := by rintro rfl; exact hpn (List.mem_cons_of_mem _ hx)
            rw [if_pos ⟨hx, hxl⟩, if_pos ⟨List.mem_cons_of_mem _ hx, hxp⟩, List.idxOf_cons_ne _ (Ne.symm hxl), Nat.add_assoc, Nat.add_comm 1]
          · rw [if_neg (fun h => hx h.1), if_neg]
            · rw [List.getD_eq_getElem?_getD, List.getElem?_set_ne (Ne.symm hxl), ← List.getD_eq_getElem?_getD]
            · rintro ⟨h1, _⟩
              rcases List.mem_cons.1 h1 with h1 | h1
              · exact hxl h1
              · exact hx h1
    · intro y hy
      have := hl y (List.mem_cons_of_mem _ hy)
      split
      · simpa using this
      · exact this
    · intro hm
      cases ls with
      | nil => simp at hm
      | cons z zs =>
        have h1 := hs'.1 z List.mem_cons_self
        have : z ≤ l := by
          rcases List.mem_cons.1 hm with h | h
          · omega
          · exact (List.pairwise_cons.1 hs'.2).1 l h
        simp; omega

/-- From the first entry with a key on, while the key stays the same: all entries with that key. -/
theorem takeWhile_sorted {α : Type} (key : α → Nat) (xs : List α) (hs : xs.Pairwise (fun a b => key a ≤ key b)) (s : α) (x : Nat) (hx : key s ≠ x)
    (hm : x ∈ xs.map key) : ((xs ++ [s]).drop ((xs.map key).idxOf x)).takeWhile (fun r => decide (key r = x)) = xs.filter (fun r => decide (key r = x)) := by
  induction xs with
  | nil => simp at hm
  | cons a xs ih =>
    have hs' := List.pairwise_cons.1 hs
    rw [List.map_cons]
    by_cases ha : key a = x
    · rw [ha, List.idxOf_cons_self, List.drop_zero]
      clear ih hm
      have key' : ∀ ys : List α, ys.Pairwise (fun a b => key a ≤ key b) → (∀ y ∈ ys, x ≤ key y) →
          (ys ++ [s]).takeWhile (fun r => decide (key r = x)) = ys.filter (fun r => decide (key r = x)) := by
        intro ys
        induction ys with
        | nil => intro _ _; simp [hx]
        | cons y ys ih =>
          intro hp hge
          have hp' := List.pairwise_cons.1 hp
          rw [List.cons_append, List.takeWhile_cons, List.filter_cons]
          by_cases hy : key y = x
          · simp only [hy, decide_true, if_true]
            rw [ih hp'.2 (fun z hz => hge z (by simp [hz]))]
          · simp only [hy, decide_false, Bool.false_eq_true, if_false]
            symm
            rw [List.filter_eq_nil_iff]
            intro z hz
            have := hp'.1 z hz
            have := hge y (by simp)
            simp
            omega
      refine key' (a :: xs) hs ?_
      intro y hy
      rcases List.mem_cons.1 hy with rfl | hy
      · omega
      · have := hs'.1 y hy; omega
    · rw [List.idxOf_cons_ne _ ha, List.cons_append, List.drop_succ_cons, ih hs'.2, List.filter_cons, if_neg (by simpa using ha)]
      simp only [List.map_cons, List.mem_cons] at hm
      exact hm.resolve_left (fun h => ha h.symm)

theorem rulesFor_indexrules (idx : Idx) (nont : Nat) (arr : List PRule) (hs : arr.Pairwise (fun a b => idxOf idx a ≤ idxOf idx b))
    (hl : ∀ r ∈ arr, idxOf idx r < nont) (l : Nat) (hll : l < nont) :
    rulesFor idx nont (arr, indexLoop (arr.map (idxOf idx)) 0 nont (List.replicate nont 0)) l = arr.filter (fun r => decide (idxOf idx r = l)) := by
  have hsent : idxOf idx (sentinel nont) = nont := by cases idx <;> rfl
  have hspec := indexLoop_spec (arr.map (idxOf idx)) 0 nont (List.replicate nont 0) (by rw [List.pairwise_map]; exact hs)
    (by simpa using hl) (by
      intro hm
      obtain ⟨r, hr, he⟩ := List.mem_map.1 hm
      have := hl r hr
      omega) l
  rw [rulesFor, hspec]
  have hz : (List.replicate nont 0).getD l 0 = 0 := by
    rw [List.getD_eq_getElem?_getD, List.getElem?_replicate]
    split <;> rfl
  by_cases hm : l ∈ arr.map (idxOf idx)
  · rw [if_pos ⟨hm, by omega⟩, Nat.zero_add]
    exact takeWhile_sorted (idxOf idx) arr hs (sentinel nont) l (by rw [hsent]; omega) hm
  · rw [if_neg (fun h => hm h.1), hz, List.drop_zero]
    have hnil : arr.filter (fun r => decide (idxOf idx r = l)) = [] := by
      rw [List.filter_eq_nil_iff]
      intro r hr he
      simp only [decide_eq_true_eq] at he
      exact hm (List.mem_map.2 ⟨r, hr, he⟩)
    rw [hnil]
    cases arr with
    | nil =>
      rw [List.nil_append, List.takeWhile_cons, if_neg]
      simp [hsent]; omega
    | cons a arr =>
      rw [List.cons_append, List.takeWhile_cons, if_neg]
      intro he
      simp only [decide_eq_true_eq] at he
      exact hm (by simp [he])

/-- What is used of `std::sort`. -/
structure SortSpec (idx : Idx) (srt : List PRule → List PRule) : Prop where
  perm : ∀ xs, (srt xs).Perm xs
  sorted : ∀ xs, (srt xs).Pairwise (fun a b => cmp idx b a = false)

theorem SortSpec.key {idx : Idx} {srt : List PRule → List PRule} (h : SortSpec idx srt) (xs : List PRule) : (srt xs).Pairwise (fun a b => idxOf idx a ≤ idxOf idx b) := by
  refine (h.sorted xs).imp ?_
  intro a b hab
  by_contra hc
  rw [cmp_lt idx b a (by omega)] at hab
  cases hab

theorem idxOf_congr (idx : Idx) {a b : PRule} (h : a.key = b.key) : idxOf idx a = idxOf idx b := by
  cases idx <;> simp [idxOf, h]

end Disco.IndexRules
namespace Disco
open Disco.Convert Disco.IndexRules

/-- **C46** After reading rules and any number of later additions, with changes of the weights in between, looking up the rules for a label through the
index (by left-hand side, first or second child) gives exactly the rules with that label in that position, each once: no rule is missed or found under a
wrong label. The whole array holds exactly the rules added (up to their weights). -/
theorem C46_index (idx : Idx) {srt : List PRule → List PRule} (hs : SortSpec idx srt) (steps : List (Nat × List PRule × (PRule → PRule)))
    (hf : ∀ s ∈ steps, ∀ r, (s.2.2 r).key = r.key ∧ (s.2.2 r).no = r.no)
    (nont : Nat) (hlast : (steps.getLast?.map Prod.fst) = some nont) (hl : ∀ s ∈ steps, ∀ r ∈ s.2.1, idxOf idx r < nont) (l : Nat) (hll : l < nont) :
    let p := history idx srt ([], []) steps
    rulesFor idx nont p l = p.1.filter (fun r => decide (idxOf idx r = l)) ∧
    (p.1.map (fun r => (r.key, r.no))).Perm (steps.flatMap (fun s => s.2.1.map (fun r => (r.key, r.no)))) ∧
    ∀ k no, (k, no) ∈ (rulesFor idx nont p l).map (fun r => (r.key, r.no)) ↔
      ∃ s ∈ steps, ∃ r ∈ s.2.1, r.key = k ∧ r.no = no ∧ idxOf idx r = l := by
  intro p
  have gen : ∀ (steps : List (Nat × List PRule × (PRule → PRule))) (p0 : List PRule × List Nat), steps ≠ [] →
      (∀ s ∈ steps, ∀ r, (s.2.2 r).key = r.key ∧ (s.2.2 r).no = r.no) → p0.1.Pairwise (fun a b => idxOf idx a ≤ idxOf idx b) →
      ∀ nont, (steps.getLast?.map Prod.fst) = some nont →
      (history idx srt p0 steps).2 = indexLoop ((history idx srt p0 steps).1.map (idxOf idx)) 0 nont (List.replicate nont 0) ∧
      (history idx srt p0 steps).1.Pairwise (fun a b => idxOf idx a ≤ idxOf idx b) ∧
      ((history idx srt p0 steps).1.map (fun r => (r.key, r.no))).Perm (p0.1.map (fun r => (r.key, r.no)) ++ steps.flatMap (fun s => s.2.1.map (fun r => (r.key, r.no)))) := by
    intro steps
    induction steps with
    | nil => intro _ h; exact absurd rfl h
    | cons s rest ih =>
      intro p0 _ hf hp nont hlast
      obtain ⟨n, new, f⟩ := s
      have hff := hf _ List.mem_cons_self
      have hsorted : (indexrules idx srt n (p0.1.map f) new).1.Pairwise (fun a b => idxOf idx a ≤ idxOf idx b) := by
        refine mergeBy_sorted (cmp idx) (idxOf idx) (cmp_lt idx) (cmp_gt idx) ?_ (hs.key new)
        rw [List.pairwise_map]
        refine hp.imp ?_
        intro a b hab
        rw [idxOf_congr idx (hff a).1, idxOf_congr idx (hff b).1]
        exact hab
      have hperm : ((indexrules idx srt n (p0.1.map f) new).1.map (fun r => (r.key, r.no))).Perm (p0.1.map (fun r => (r.key, r.no)) ++ new.map (fun r => (r.key, r.no))) := by
        refine ((mergeBy_perm (cmp idx) (p0.1.map f) (srt new)).map _).trans ?_
        rw [List.map_append, List.map_map]
        refine List.Perm.append ?_ ((hs.perm new).map _)
        rw [show ((fun r : PRule => (r.key, r.no)) ∘ f) = (fun r => (r.key, r.no)) from funext (fun r => by simp only [Function.comp]; rw [(hff r).1, (hff r).2])]
      cases rest with
      | nil =>
        simp only [List.getLast?_singleton, Option.map_some, Option.some.injEq] at hlast
        subst hlast
        rw [history, history]
        refine ⟨rfl, hsorted, ?_⟩
        simpa using hperm
      | cons s' rest =>
        rw [history]
        have := ih (indexrules idx srt n (p0.1.map f) new) (by simp) (fun s hs => hf s (List.mem_cons_of_mem _ hs)) hsorted nont
          (by rw [List.getLast?_cons_cons] at hlast; exact hlast)
        refine ⟨this.1, this.2.1, this.2.2.trans ?_⟩
        rw [List.flatMap_cons (x := (n, new, f)), ← List.append_assoc]
        exact hperm.append_right _
  have hne : steps ≠ [] := by rintro rfl; simp at hlast
  obtain ⟨g1, g2, g3⟩ := gen steps ([], []) hne hf List.Pairwise.nil nont hlast
  rw [List.map_nil, List.nil_append] at g3
  have hmem : ∀ k no, (k, no) ∈ p.1.map (fun r => (r.key, r.no)) ↔ ∃ s ∈ steps, ∃ r ∈ s.2.1, r.key = k ∧ r.no = no := by
    intro k no
    rw [g3.mem_iff, List.mem_flatMap]
    constructor
    · rintro ⟨s, hs, hm⟩
      obtain ⟨r, hr, he⟩ := List.mem_map.1 hm
      exact ⟨s, hs, r, hr, (Prod.mk.inj he).1, (Prod.mk.inj he).2⟩
    · rintro ⟨s, hs, r, hr, rfl, rfl⟩
      exact ⟨s, hs, List.mem_map.2 ⟨r, hr, rfl⟩⟩
  have hlab : ∀ r ∈ p.1, idxOf idx r < nont := by
    intro r hr
    obtain ⟨s, hs, r', hr', hk, _⟩ := (hmem r.key r.no).1 (List.mem_map.2 ⟨r, hr, rfl⟩)
    rw [← idxOf_congr idx hk]
    exact hl s hs r' hr'
  have hfor : rulesFor idx nont p l = p.1.filter (fun r => decide (idxOf idx r = l)) := by
    have := rulesFor_indexrules idx nont p.1 g2 hlab l hll
    rw [← g1] at this
    exact this
  refine ⟨hfor, g3, ?_⟩
  intro k no
  rw [hfor]
  constructor
  · intro hm
    obtain ⟨r, hr, he⟩ := List.mem_map.1 hm
    obtain ⟨hr, hi⟩ := List.mem_filter.1 hr
    obtain ⟨s, hs, r', hr', hk, hn⟩ := (hmem k no).1 (List.mem_map.2 ⟨r, hr, he⟩)
    refine ⟨s, hs, r', hr', hk, hn, ?_⟩
    rw [← (Prod.mk.inj he).1] at hk
    rw [idxOf_congr idx hk]
    simpa using hi
  · rintro ⟨s, hs, r, hr, hk, hn, hi⟩
    obtain ⟨r', hr', he⟩ := List.mem_map.1 ((hmem k no).2 ⟨s, hs, r, hr, hk, hn⟩)
    refine List.mem_map.2 ⟨r', List.mem_filter.2 ⟨hr', ?_⟩, he⟩
    rw [← (Prod.mk.inj he).1] at hk
    rw [← idxOf_congr idx hk]
    simpa using hi

theorem IndexRules.foldl_set (xs : List (PRule × Nat)) (rev : List Nat) (h : (xs.map (fun x => x.1.no)).Nodup) (x : PRule × Nat) (hx : x ∈ xs) (hl : x.1.no < rev.length) :
    (xs.foldl (fun rev x => rev.set x.1.no x.2) rev)[x.1.no]? = some x.2 := by
  have keep : ∀ (ys : List (PRule × Nat)) (rev : List Nat) (i : Nat), (∀ y ∈ ys, y.1.no ≠ i) → (ys.foldl (fun rev x => rev.set x.1.no x.2) rev)[i]? = rev[i]? := by
    intro ys
    induction ys with
    | nil => intro rev i _; rfl
    | cons y ys ih =>
      intro rev i hy
      rw [List.foldl_cons, ih _ _ (fun z hz => hy z (List.mem_cons_of_mem _ hz)), List.getElem?_set_ne (hy y List.mem_cons_self)]
  induction xs generalizing rev with
  | nil => cases hx
  | cons y ys ih =>
    rw [List.map_cons, List.nodup_cons] at h
    rw [List.foldl_cons]
    rcases List.mem_cons.1 hx with rfl | hx
    · rw [keep, List.getElem?_set_self hl]
      intro z hz he
      exact h.1 (List.mem_map.2 ⟨z, hz, he⟩)
    · exact ih _ h.2 hx (by simpa using hl)

/-- **C46** The map from the original number of a rule to its place in the sorted array is right for every rule. -/
theorem C46_revrulemap (arr : List PRule) (h : (arr.map PRule.no).Perm (List.range arr.length)) (n : Nat) (hn : n < arr.length) :
    ∃ i r, (revrulemap arr)[n]? = some i ∧ arr[i]? = some r ∧ r.no = n := by
  have hmem : n ∈ arr.map PRule.no := h.mem_iff.2 (List.mem_range.2 hn)
  obtain ⟨r, hr, rfl⟩ := List.mem_map.1 hmem
  obtain ⟨i, hi⟩ := List.getElem?_of_mem hr
  have hz : (r, i) ∈ arr.zipIdx := by
    rw [List.mem_zipIdx_iff_getElem?]
    exact hi
  have hnd : ((arr.zipIdx).map (fun x => x.1.no)).Nodup := by
    have : (arr.zipIdx).map (fun x => x.1.no) = arr.map PRule.no := by
      rw [show (fun x : PRule × Nat => x.1.no) = PRule.no ∘ Prod.fst from rfl, ← List.map_map, List.zipIdx_map_fst]
    rw [this]
    exact h.nodup_iff.2 List.nodup_range
  refine ⟨i, r, ?_, hi, rfl⟩
  exact foldl_set arr.zipIdx (List.replicate arr.length 0) hnd (r, i) hz (by simpa using hn)

namespace IndexRules.Ex

/-- A rule by lhs, rhs1, number. -/
def r (a b c no : Nat) : PRule := ⟨⟨a, b, c, 0, 1⟩, no, no⟩

/-- Insertion sort with `lt0`. -/
def srt (xs : List PRule) : List PRule := stableSort (fun a b => !(cmp .i0 b a)) xs

example : SortSpec .i0 srt where
  perm := fun xs => StableSort.perm xs
  sorted := fun xs => by
    have := StableSort.pairwise (le := fun a b : PRule => !(cmp .i0 b a)) ?_ ?_ xs
    · simpa [srt] using this
    · intro a b c
      simp only [cmp, lt0, Bool.not_eq_true']
      repeat' split
      all_goals simp only [decide_eq_false_iff_not]; omega
    · intro a b
      simp only [cmp, lt0, Bool.or_eq_true, Bool.not_eq_true']
      repeat' split
      all_goals simp only [decide_eq_false_iff_not]; omega

/-- Two additions. -/
def steps : List (Nat × List PRule × (PRule → PRule)) := [(4, [r 3 2 0 0, r 1 3 0 1, r 3 3 2 2], id), (5, [r 4 2 2 3, r 1 2 2 4], fun x => { x with prob := 7 })]

example : (history .i0 srt ([], []) steps).1.map PRule.no = [1, 4, 0, 2, 3] ∧ (rulesFor .i0 5 (history .i0 srt ([], []) steps) 3).map PRule.no = [0, 2] ∧
    rulesFor .i0 5 (history .i0 srt ([], []) steps) 2 = [] ∧ revrulemap (history .i0 srt ([], []) steps).1 = [2, 0, 3, 4, 1] := by decide +kernel
example : steps.getLast?.map Prod.fst = some 5 ∧ (∀ s ∈ steps, ∀ r ∈ s.2.1, idxOf .i0 r < 5) ∧
    ((history .i0 srt ([], []) steps).1.map PRule.no).Perm (List.range 5) := by decide +kernel
example : ∀ s ∈ steps, ∀ r, (s.2.2 r).key = r.key ∧ (s.2.2 r).no = r.no := by
  intro s hs r
  simp only [steps, List.mem_cons, List.not_mem_nil, or_false] at hs
  rcases hs with rfl | rfl <;> exact ⟨rfl, rfl⟩
end IndexRules.Ex
end Disco
