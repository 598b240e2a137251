import Verif.Util.Merge
import Verif.Basic.Dict
import Mathlib.Algebra.Field.Rat
import Mathlib.Algebra.BigOperators.Group.List.Basic
import Mathlib.Data.List.Nodup
import Mathlib.Tactic.NormNum
/-!
# C35: merging sorted grammar files (grammar.py:1206-1275)

Lines are represented by what the code extracts from them: key (rule, word or fragment) and weight(s). Simplification: weights are exact
rational numbers instead of floats, and `%g` formatting is left out.
-/
namespace Disco.SumRuns

variable {K X B : Type} [LinearOrder K]

/-- The loop shared by `sumlex` (grammar.py:1233-1249) and `sumfrags` (grammar.py:1254-1265): `cur` is `prev` with what was accumulated
for it; a new key yields the previous result and starts from `zero`. -/
def runsLoop (zero : B) (add : B → X → B) : Option (K × B) → List (K × X) → List (K × B)
  | none, [] => []
  | some c, [] => [c]
  | none, (k, x) :: xs => runsLoop zero add (some (k, add zero x)) xs
  | some (p, b), (k, x) :: xs =>
    if k ≠ p then (p, b) :: runsLoop zero add (some (k, add zero x)) xs
    else runsLoop zero add (some (p, add b x)) xs

/-- `sumfrags(iterable, n)` (grammar.py:1252-1265). -/
def sumfrags (n : Nat) (lines : List (K × Rat)) : List (K × Rat) :=
  (runsLoop 0 (· + ·) none lines).map (fun p => (p.1, p.2 / n))

/-- `if tag not in tags: tags[tag] = 0.0` and `tags[tag] += w` (grammar.py:1244-1246). -/
def addTag {T : Type} [DecidableEq T] (tags : Dict T Rat) (p : T × Rat) : Dict T Rat :=
  tags.set p.1 ((tags.get? p.1).getD 0 + p.2)

/-- `sumlex(iterable, n)` (grammar.py:1231-1249); a line is a word with a list of tags with weights. A word without tags is not
written (`if tags`). -/
def sumlex {T : Type} [DecidableEq T] (n : Nat) (lines : List (K × List (T × Rat))) : List (K × List (T × Rat)) :=
  ((runsLoop ([] : Dict T Rat) (fun d line => line.foldl addTag d) none lines).filter (fun p => !p.2.isEmpty)).map
    (fun p => (p.1, p.2.map (fun q => (q.1, q.2 / n))))

/-- `sumrules(iterable, n)` (grammar.py:1206-1228). When the key changes, the rule on the *current* line is written with the weight of the
previous one. `none`: the `UnboundLocalError` for an empty iterable. -/
def sumrulesLoop (n : Nat) (prev : K) (w1 : Rat) (rule : K) : List (K × Rat) → List (K × Rat)
  | [] => [(rule, w1 / n)]
  | (k, w) :: xs =>
    if k ≠ prev then (k, w1 / n) :: sumrulesLoop n k (0 + w) k xs
    else sumrulesLoop n prev (w1 + w) k xs

/-- `sumrules`; the first line only sets `prev` and `w1` (`prev is not None` is false). -/
def sumrules (n : Nat) : List (K × Rat) → Option (List (K × Rat))
  | [] => none
  | (k, w) :: xs => some (sumrulesLoop n k (0 + w) k xs)

/-! ### Specification -/

/-- Total weight of a key. -/
def Spec.total (lines : List (K × Rat)) (k : K) : Rat := ((lines.filter (fun p => decide (p.1 = k))).map Prod.snd).sum

/-- The output lists each key of the input once, in order, with its total weight divided by `n`. -/
def Spec.Totals (n : Nat) (lines out : List (K × Rat)) : Prop :=
  out.Pairwise (fun a b => a.1 < b.1) ∧
  ∀ k w, (k, w) ∈ out ↔ k ∈ lines.map Prod.fst ∧ w = Spec.total lines k / n

/-- All `(tag, weight)` pairs of a word. -/
def Spec.tagsOf {T : Type} (lines : List (K × List (T × Rat))) (k : K) : List (T × Rat) :=
  (lines.filter (fun p => decide (p.1 = k))).flatMap Prod.snd

/-- Sorted by key. -/
def Spec.Sorted {Y : Type} (lines : List (K × Y)) : Prop := lines.Pairwise (fun a b => a.1 ≤ b.1)

/-! ### Lemmas -/

/-- What is accumulated for a key. -/
def acc (add : B → X → B) (b : B) (xs : List (K × X)) (k : K) : B :=
  ((xs.filter (fun p => decide (p.1 = k))).map Prod.snd).foldl add b

theorem runsLoop_some (zero : B) (add : B → X → B) (xs : List (K × X)) : ∀ (p : K) (b : B),
    (∀ x ∈ xs, p ≤ x.1) → Spec.Sorted xs →
    (runsLoop zero add (some (p, b)) xs).Pairwise (fun a b => a.1 < b.1) ∧
    (∀ q ∈ runsLoop zero add (some (p, b)) xs, p ≤ q.1) ∧
    ∀ k c, (k, c) ∈ runsLoop zero add (some (p, b)) xs ↔
      (k = p ∧ c = acc add b xs p) ∨ (k ≠ p ∧ k ∈ xs.map Prod.fst ∧ c = acc add zero xs k) := by
  induction xs with
  | nil =>
    intro p b _ _
    rw [runsLoop]
    simp [acc]
  | cons y xs ih =>
    obtain ⟨j, x⟩ := y
    intro p b hp hs
    obtain ⟨hs1, hs2⟩ := List.pairwise_cons.1 hs
    have hpj : p ≤ j := hp (j, x) (by simp)
    rw [runsLoop]
    by_cases hj : j = p
    · subst hj
      rw [if_neg (by simp)]
      obtain ⟨i1, i2, i3⟩ := ih j (add b x) (fun y hy => hs1 y hy) hs2
      refine ⟨i1, i2, fun k c => ?_⟩
      rw [i3 k c]
      have e1 : acc add b ((j, x) :: xs) j = acc add (add b x) xs j := by simp [acc]
      rw [e1]
      constructor
      · rintro (⟨rfl, rfl⟩ | ⟨h1, h2, h3⟩)
        · exact Or.inl ⟨rfl, rfl⟩
        · exact Or.inr ⟨h1, by simp [h2], by rw [h3]; simp [acc, Ne.symm h1]⟩
      · rintro (⟨rfl, rfl⟩ | ⟨h1, h2, h3⟩)
        · exact Or.inl ⟨rfl, rfl⟩
        · refine Or.inr ⟨h1, ?_, by rw [h3]; simp [acc, Ne.symm h1]⟩
          simpa [h1] using h2
    · rw [if_pos hj]
      have hlt : p < j := lt_of_le_of_ne hpj (Ne.symm hj)
      obtain ⟨i1, i2, i3⟩ := ih j (add zero x) (fun y hy => hs1 y hy) hs2
      have hnot : ∀ q ∈ (j, x) :: xs, q.1 ≠ p := by
        intro q hq
        rcases List.mem_cons.1 hq with rfl | hq
        · exact hj
        · exact ne_of_gt (lt_of_lt_of_le hlt (hs1 q hq))
      have hacc : ∀ b, acc add b ((j, x) :: xs) p = b := by
        intro b
        rw [acc, List.filter_eq_nil_iff.2 (fun q hq => by simpa using hnot q hq)]; rfl
      refine ⟨List.pairwise_cons.2 ⟨fun q hq => lt_of_lt_of_le hlt (i2 q hq), i1⟩, ?_, fun k c => ?_⟩
      · intro q hq
        rcases List.mem_cons.1 hq with rfl | hq
        · exact le_refl _
        · exact le_trans hpj (i2 q hq)
      · rw [List.mem_cons, i3 k c, hacc]
        have e1 : acc add zero ((j, x) :: xs) j = acc add (add zero x) xs j := by simp [acc]
        have e2 : ∀ k, k ≠ j → acc add zero ((j, x) :: xs) k = acc add zero xs k := by
          intro k hk; simp [acc, Ne.symm hk]
        constructor
        · rintro (h | ⟨rfl, rfl⟩ | ⟨h1, h2, h3⟩)
          · injection h with h1 h2; exact Or.inl ⟨h1, h2⟩
          · exact Or.inr ⟨hj, by simp, e1.symm⟩
          · refine Or.inr ⟨?_, by simp [h2], by rw [e2 k h1]; exact h3⟩
            obtain ⟨q, hq, rfl⟩ := List.mem_map.1 h2
            exact hnot q (by simp [hq])
        · rintro (⟨rfl, rfl⟩ | ⟨h1, h2, h3⟩)
          · exact Or.inl rfl
          · right
            by_cases hkj : k = j
            · subst hkj; exact Or.inl ⟨rfl, by rw [h3, e1]⟩
            · exact Or.inr ⟨hkj, by simpa [hkj] using h2, by rw [h3, e2 k hkj]⟩

theorem runs_spec (zero : B) (add : B → X → B) (xs : List (K × X)) (hs : Spec.Sorted xs) :
    (runsLoop zero add none xs).Pairwise (fun a b => a.1 < b.1) ∧
    ∀ k c, (k, c) ∈ runsLoop zero add none xs ↔ k ∈ xs.map Prod.fst ∧ c = acc add zero xs k := by
  cases xs with
  | nil => simp [runsLoop]
  | cons y xs =>
    obtain ⟨j, x⟩ := y
    obtain ⟨hs1, hs2⟩ := List.pairwise_cons.1 hs
    rw [runsLoop]
    obtain ⟨i1, _, i3⟩ := runsLoop_some zero add xs j (add zero x) (fun y hy => hs1 y hy) hs2
    refine ⟨i1, fun k c => ?_⟩
    rw [i3]
    have e1 : acc add zero ((j, x) :: xs) j = acc add (add zero x) xs j := by simp [acc]
    by_cases hk : k = j
    · subst hk; simp [e1]
    · have e2 : acc add zero ((j, x) :: xs) k = acc add zero xs k := by simp [acc, Ne.symm hk]
      simp [hk, e2]

theorem acc_sum (xs : List (K × Rat)) (k : K) : acc (· + ·) 0 xs k = Spec.total xs k := by
  rw [acc, Spec.total, List.sum_eq_foldl]

/-- **C35.** `sumfrags` on lines sorted by fragment: each fragment once, in order, with its total weight over `n`. -/
theorem C35_sumfrags (n : Nat) (lines : List (K × Rat)) (hs : Spec.Sorted lines) : Spec.Totals n lines (sumfrags n lines) := by
  obtain ⟨h1, h2⟩ := runs_spec (0 : Rat) (· + ·) lines hs
  refine ⟨by rw [sumfrags, List.pairwise_map]; exact h1, fun k w => ?_⟩
  rw [sumfrags, List.mem_map]
  constructor
  · rintro ⟨⟨k', c⟩, hm, he⟩
    simp only [Prod.mk.injEq] at he
    obtain ⟨rfl, rfl⟩ := he
    obtain ⟨h3, h4⟩ := (h2 _ _).1 hm
    exact ⟨h3, by rw [h4, acc_sum]⟩
  · rintro ⟨h3, rfl⟩
    exact ⟨(k, acc (· + ·) 0 lines k), (h2 _ _).2 ⟨h3, rfl⟩, by simp [acc_sum]⟩

/-- **C35.** Merging sorted fragment files adds up the weights over all files. -/
theorem C35_merge_frags (n : Nat) (files : List (List (K × Rat))) (hs : ∀ f ∈ files, Spec.Sorted f) :
    Spec.Totals n files.flatten (sumfrags n (Merge.merge Prod.fst files)) := by
  obtain ⟨h1, h2, _⟩ := Merge.C17_merge (Prod.fst : K × Rat → K) files hs
  obtain ⟨t1, t2⟩ := C35_sumfrags n _ h2
  refine ⟨t1, fun k w => ?_⟩
  rw [t2, (h1.map Prod.fst).mem_iff, Spec.total, Spec.total, ((h1.filter _).map Prod.snd).sum_eq]

/-! ### sumlex -/

theorem addTag_get {T : Type} [DecidableEq T] (ps : List (T × Rat)) : ∀ (d : Dict T Rat) (t : T),
    (ps.foldl addTag d).get? t = if t ∈ ps.map Prod.fst ∨ (d.get? t).isSome
      then some ((d.get? t).getD 0 + ((ps.filter (fun p => decide (p.1 = t))).map Prod.snd).sum) else none := by
  induction ps with
  | nil =>
    intro d t
    cases h : d.get? t <;> simp [h]
  | cons p ps ih =>
    intro d t
    rw [List.foldl_cons, ih]
    simp only [addTag, Dict.get?_set]
    by_cases hp : p.1 = t
    · simp [hp, add_assoc]
    · have hp' : ¬ t = p.1 := fun h => hp h.symm
      simp only [List.map_cons, List.mem_cons, hp', false_or, List.filter_cons, hp, decide_false, Bool.false_eq_true, if_false]

theorem addTag_wf {T : Type} [DecidableEq T] (ps : List (T × Rat)) : ∀ d : Dict T Rat, d.WF → (ps.foldl addTag d).WF := by
  induction ps with
  | nil => intro d h; exact h
  | cons p ps ih => intro d h; exact ih _ (h.set _ _)

theorem foldl_lines {T : Type} [DecidableEq T] (ls : List (List (T × Rat))) : ∀ d : Dict T Rat,
    ls.foldl (fun d line => line.foldl addTag d) d = ls.flatten.foldl addTag d := by
  induction ls with
  | nil => intro d; rfl
  | cons l ls ih => intro d; rw [List.foldl_cons, ih, List.flatten_cons, List.foldl_append]

/-- **C35.** `sumlex` on lines sorted by word: each word with at least one tag occurs once, in order; it has each of its tags once, with
the total weight of that tag over `n`. -/
theorem C35_sumlex {T : Type} [DecidableEq T] (n : Nat) (lines : List (K × List (T × Rat))) (hs : Spec.Sorted lines) :
    (sumlex n lines).Pairwise (fun a b => a.1 < b.1) ∧
    (∀ k, k ∈ (sumlex n lines).map Prod.fst ↔ Spec.tagsOf lines k ≠ []) ∧
    ∀ k tags, (k, tags) ∈ sumlex n lines → (tags.map Prod.fst).Nodup ∧
      ∀ t w, (t, w) ∈ tags ↔ t ∈ (Spec.tagsOf lines k).map Prod.fst ∧
        w = (((Spec.tagsOf lines k).filter (fun p => decide (p.1 = t))).map Prod.snd).sum / n := by
  obtain ⟨h1, h2⟩ := runs_spec ([] : Dict T Rat) (fun d line => line.foldl addTag d) lines hs
  have hacc : ∀ k, acc (fun (d : Dict T Rat) line => line.foldl addTag d) [] lines k = (Spec.tagsOf lines k).foldl addTag [] := by
    intro k
    rw [acc, foldl_lines, Spec.tagsOf, List.flatMap_def]
  have hget : ∀ k t, Dict.get? ((Spec.tagsOf lines k).foldl addTag []) t = if t ∈ (Spec.tagsOf lines k).map Prod.fst
      then some (((Spec.tagsOf lines k).filter (fun p => decide (p.1 = t))).map Prod.snd).sum else none := by
    intro k t
    rw [addTag_get]
    by_cases h : t ∈ (Spec.tagsOf lines k).map Prod.fst
    · rw [if_pos (Or.inl h), if_pos h]; simp [Dict.get?]
    · rw [if_neg (by simp [Dict.get?, h]), if_neg h]
  have hwf : ∀ k, Dict.WF ((Spec.tagsOf lines k).foldl addTag []) := fun k => addTag_wf _ [] List.nodup_nil
  have hempty : ∀ k, (Spec.tagsOf lines k).foldl addTag [] = [] ↔ Spec.tagsOf lines k = [] := by
    intro k
    constructor
    · intro h
      cases ht : Spec.tagsOf lines k with
      | nil => rfl
      | cons p ps =>
        have := hget k p.1
        rw [h, if_pos (by rw [ht]; simp)] at this
        simp [Dict.get?] at this
    · intro h; rw [h]; rfl
  refine ⟨by rw [sumlex, List.pairwise_map]; exact h1.filter _, ?_, ?_⟩
  · intro k
    simp only [sumlex, List.map_map, List.mem_map, List.mem_filter]
    constructor
    · rintro ⟨⟨k', c⟩, ⟨hm, hne⟩, rfl⟩
      obtain ⟨_, h4⟩ := (h2 _ _).1 hm
      rw [hacc] at h4
      intro hn
      rw [(hempty k').2 hn] at h4
      rw [h4] at hne; simp at hne
    · intro hne
      refine ⟨(k, (Spec.tagsOf lines k).foldl addTag []), ⟨(h2 _ _).2 ⟨?_, (hacc k).symm⟩, ?_⟩, rfl⟩
      · obtain ⟨p, hp⟩ := List.exists_mem_of_ne_nil _ hne
        obtain ⟨q, hq, _⟩ := List.mem_flatMap.1 hp
        obtain ⟨hq1, hq2⟩ := List.mem_filter.1 hq
        exact List.mem_map.2 ⟨q, hq1, by simpa using hq2⟩
      · simp only [Bool.not_eq_true', List.isEmpty_eq_false_iff]
        exact fun h => hne ((hempty k).1 h)
  · intro k tags hm
    rw [sumlex, List.mem_map] at hm
    obtain ⟨⟨k', c⟩, hm, he⟩ := hm
    simp only [Prod.mk.injEq] at he
    obtain ⟨rfl, rfl⟩ := he
    obtain ⟨_, h4⟩ := (h2 _ _).1 (List.mem_filter.1 hm).1
    rw [hacc] at h4
    subst h4
    refine ⟨by rw [List.map_map]; exact hwf k', fun t w => ?_⟩
    rw [List.mem_map]
    constructor
    · rintro ⟨⟨t', v⟩, hq, he⟩
      simp only [Prod.mk.injEq] at he
      obtain ⟨rfl, rfl⟩ := he
      have := Dict.get?_of_mem (hwf k') hq
      rw [hget] at this
      split at this
      · rename_i hin
        injection this with this
        exact ⟨hin, by rw [this]⟩
      · simp at this
    · rintro ⟨hin, rfl⟩
      have := hget k' t
      rw [if_pos hin] at this
      exact ⟨_, Dict.mem_of_get? this, rfl⟩

/-! ### sumrules -/

/-- Each weight is moved to the next key; the last weight stays where it is. -/
def Spec.shifted : List (K × Rat) → List (K × Rat)
  | [] => []
  | [p] => [p]
  | (_, w) :: (k, v) :: ps => (k, w) :: Spec.shifted ((k, v) :: ps)

theorem sumrulesLoop_eq (n : Nat) (xs : List (K × Rat)) : ∀ (p : K) (w : Rat),
    sumrulesLoop n p w p xs = Spec.shifted ((runsLoop 0 (· + ·) (some (p, w)) xs).map (fun q => (q.1, q.2 / n))) ∧
    ∃ w' rs, runsLoop 0 (· + ·) (some (p, w)) xs = (p, w') :: rs := by
  induction xs with
  | nil => intro p w; exact ⟨rfl, w, [], rfl⟩
  | cons y xs ih =>
    obtain ⟨j, x⟩ := y
    intro p w
    by_cases hj : j = p
    · subst hj
      obtain ⟨h1, h2⟩ := ih j (w + x)
      rw [sumrulesLoop, runsLoop, if_neg (by simp), if_neg (by simp)]
      exact ⟨h1, h2⟩
    · obtain ⟨h1, w', rs, h2⟩ := ih j (0 + x)
      rw [sumrulesLoop, runsLoop, if_pos hj, if_pos hj]
      refine ⟨?_, w, _, rfl⟩
      rw [h1, h2]
      rfl

/-- **C35 (disagreement).** What `sumrules` does instead, for any input that is not empty: the weight of each rule is written with the
next rule, so the first rule is dropped and the last rule is written twice. `sumfrags` on the same lines gives the right totals. -/
theorem C35_sumrules_shifted (n : Nat) (lines : List (K × Rat)) (h : lines ≠ []) :
    sumrules n lines = some (Spec.shifted (sumfrags n lines)) := by
  cases lines with
  | nil => exact absurd rfl h
  | cons line lines =>
    obtain ⟨k, w⟩ := line
    rw [sumrules, (sumrulesLoop_eq n lines k (0 + w)).1]
    rfl

/-- **C35 (disagreement).** Hence two rules with weights 1 and 2 come out as the second rule twice; an empty input raises an exception. -/
theorem C35_sumrules_wrong : Spec.Sorted [((0 : Nat), (1 : Rat)), (1, 2)] ∧
    sumrules 1 [((0 : Nat), (1 : Rat)), (1, 2)] = some [(1, 1), (1, 2)] ∧
    ¬ Spec.Totals 1 [((0 : Nat), (1 : Rat)), (1, 2)] [(1, 1), (1, 2)] ∧
    sumrules 1 ([] : List (Nat × Rat)) = none := by
  refine ⟨by simp [Spec.Sorted], by simp [sumrules, sumrulesLoop], fun h => ?_, rfl⟩
  have := h.1
  simp at this

/-- **C35.** The only case in which `sumrules` agrees with the property: a single rule. -/
theorem C35_sumrules_partial (n : Nat) (lines : List (K × Rat)) (h : lines ≠ []) (k : K) (hk : ∀ p ∈ lines, p.1 = k) :
    ∃ out, sumrules n lines = some out ∧ Spec.Totals n lines out := by
  refine ⟨_, C35_sumrules_shifted n lines h, ?_⟩
  have hs : Spec.Sorted lines := List.pairwise_iff_forall_sublist.2 (fun {a b} hab => by
    rw [hk a (hab.subset (by simp)), hk b (hab.subset (by simp))])
  have ht := C35_sumfrags n lines hs
  have : ∀ p ∈ sumfrags n lines, p.1 = k := by
    intro p hp
    obtain ⟨q, hq, he⟩ := List.mem_map.1 ((ht.2 p.1 p.2).1 hp).1
    rw [← he]; exact hk q hq
  cases hf : sumfrags n lines with
  | nil => rw [hf] at ht; exact ht
  | cons a l =>
    cases l with
    | nil => rw [hf] at ht; exact ht
    | cons b l =>
      have h1 := (List.pairwise_cons.1 (hf ▸ ht.1)).1 b (by simp)
      rw [this a (by simp [hf]), this b (by simp [hf])] at h1
      exact absurd h1 (lt_irrefl _)

example : Spec.Sorted [((0 : Nat), (1 : Rat)), (0, 2), (3, 1)] := by simp [Spec.Sorted]

example : sumfrags 2 [((0 : Nat), (1 : Rat)), (0, 2), (3, 1)] = [(0, 3 / 2), (3, 1 / 2)] := by
  simp [sumfrags, runsLoop]; norm_num

end Disco.SumRuns
