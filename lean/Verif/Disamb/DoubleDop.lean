import Verif.Disamb.DerivFrags
import Verif.Disamb.LogProb
import Mathlib.Algebra.Order.Ring.Rat
/-!
# C57: Double-DOP derivations (theorems), and examples
-/
namespace Disco.Disamb
open PTree _root_.Disco.Bracket

section
variable {C K D : Type} [LinearOrder C] [Field K] [LinearOrder K]

/-- **C57 (most probable parse, Double-DOP).** Each tree that is recovered from some entry is returned once, with the sum of the probabilities
of the entries from which it is recovered and the fragments of one of them (a most probable one, when the entries are ordered by cost). -/
theorem C57_mpp_doubledop (p : C → K) (trunc : C → ℤ) {F : Type} (frags : D → F) (es : List (Option Str × C × K × D)) :
    ((marginalizeDD p trunc frags .mpp es).map Prod.fst).Nodup ∧
    (∀ e ∈ es, ∀ t, e.1 = some t → ∃ r ∈ marginalizeDD p trunc frags .mpp es, r.1 = t) ∧
    ∀ r ∈ marginalizeDD p trunc frags .mpp es, ∃ e ∈ es, e.1 = some r.1 ∧
      r.2.1 = .prob ((es.filter (fun x => x.1 = some r.1)).map (fun x => p x.2.1)).sum ∧ r.2.2 = frags e.2.2.2 ∧
      (es.Pairwise (fun a b => a.2.1 ≤ b.2.1) → ∀ x ∈ es, x.1 = some r.1 → e.2.1 ≤ x.2.1) := by
  unfold marginalizeDD
  simp only []
  set xs := es.filterMap (fun e : Option Str × C × K × D => e.1.map (fun t => (t, e.2.1, e.2.2.2))) with hxs
  have hfil : ∀ k, xs.filter (fun x => x.1 = k) = (es.filter (fun e => e.1 = some k)).map (fun e => (k, e.2.1, e.2.2.2)) := by
    intro k
    rw [hxs]
    clear hxs xs
    induction es with
    | nil => rfl
    | cons e es ih =>
      obtain ⟨o, c, q, d⟩ := e
      cases o with
      | none => simpa using ih
      | some t =>
        by_cases ht : t = k
        · subst ht; simpa using ih
        · simpa [ht] using ih
  refine ⟨?_, ?_, ?_⟩
  · rw [List.map_map]
    exact wf_foldl_upd (fun x : Str × C × D => x.1) _ xs [] (by simp [Dict.WF, Dict.keys])
  · intro e he t het
    have hm : e ∈ es.filter (fun e => e.1 = some t) := by rw [List.mem_filter]; exact ⟨he, by simp [het]⟩
    obtain ⟨e', rest, he'⟩ := List.exists_cons_of_ne_nil (List.ne_nil_of_mem hm)
    have := (items_mpp xs t _ _).2 ⟨_, _, by rw [hfil, he', List.map_cons], rfl, rfl⟩
    exact ⟨_, List.mem_map_of_mem this, rfl⟩
  · intro r hr
    obtain ⟨⟨k, cs, n⟩, hm, rfl⟩ := List.mem_map.1 hr
    obtain ⟨x, rest, h1, rfl, rfl⟩ := (items_mpp xs k cs n).1 hm
    rw [hfil] at h1
    cases hf : es.filter (fun e => decide (e.1 = some k)) with
    | nil => rw [hf] at h1; cases h1
    | cons e rest' =>
      have he : e ∈ es ∧ e.1 = some k := by
        have : e ∈ es.filter (fun e => decide (e.1 = some k)) := by rw [hf]; simp
        simpa using List.mem_filter.1 this
      rw [hf, List.map_cons] at h1
      injection h1 with e1 e2
      subst e1 e2
      refine ⟨e, he.1, he.2, ?_, rfl, ?_⟩
      · simp only []
        simp [total, List.map_map, Function.comp_def]
      · intro hs x hx hxk
        have hm : x ∈ e :: rest' := by rw [← hf, List.mem_filter]; exact ⟨hx, by simpa using hxk⟩
        have hp : (e :: rest').Pairwise (fun a b => a.2.1 ≤ b.2.1) := by rw [← hf]; exact hs.filter _
        rcases List.mem_cons.1 hm with rfl | hm
        · exact le_rfl
        · exact (List.pairwise_cons.1 hp).1 x hm

/-- **C57 (most probable derivation, Double-DOP).** Each tree that is recovered from some entry is returned once, with the greatest probability of
such an entry and the fragments of an entry with this probability. -/
theorem C57_mpd_doubledop (p : C → K) (hp : Antitone p) (trunc : C → ℤ) {F : Type} (frags : D → F) (es : List (Option Str × C × K × D)) :
    ((marginalizeDD p trunc frags .mpd es).map Prod.fst).Nodup ∧
    (∀ e ∈ es, ∀ t, e.1 = some t → ∃ r ∈ marginalizeDD p trunc frags .mpd es, r.1 = t) ∧
    ∀ r ∈ marginalizeDD p trunc frags .mpd es, ∃ e ∈ es, e.1 = some r.1 ∧ r.2.1 = .prob (p e.2.1) ∧ r.2.2 = frags e.2.2.2 ∧
      ∀ x ∈ es, x.1 = some r.1 → p x.2.1 ≤ p e.2.1 := by
  unfold marginalizeDD
  simp only []
  set xs := es.filterMap (fun e : Option Str × C × K × D => e.1.map (fun t => (t, e.2.1, e.2.2.2))) with hxs
  have hmem : ∀ e ∈ es, ∀ t, e.1 = some t → (t, e.2.1, e.2.2.2) ∈ xs := by
    intro e he t het
    rw [hxs, List.mem_filterMap]
    exact ⟨e, he, by rw [het]; rfl⟩
  obtain ⟨hi, hc⟩ := items_mpd xs
  refine ⟨?_, ?_, ?_⟩
  · rw [List.map_map]
    exact wf_foldl_upd (fun x : Str × C × D => x.1) _ xs [] (by simp [Dict.WF, Dict.keys])
  · intro e he t het
    obtain ⟨c, n, hm⟩ := hc _ (hmem e he t het)
    exact ⟨_, List.mem_map_of_mem hm, rfl⟩
  · intro r hr
    obtain ⟨⟨k, c, n⟩, hm, rfl⟩ := List.mem_map.1 hr
    obtain ⟨h1, h2⟩ := hi k c n hm
    rw [hxs, List.mem_filterMap] at h1
    obtain ⟨e, he, hee⟩ := h1
    obtain ⟨t, ht, hte⟩ := Option.map_eq_some_iff.1 hee
    injection hte with e1 e2
    injection e2 with e2 e3
    subst e1 e2 e3
    exact ⟨e, he, ht, rfl, rfl, fun x hx hxt => hp (h2 _ (hmem x hx t hxt) rfl)⟩

/-- **C57 (shortest derivation, Double-DOP).** Each tree that is recovered from an entry of least cost `m` is returned once, with the greatest
probability in the other model among these entries and the fragments of such an entry. -/
theorem C57_shortest_doubledop (p : C → K) (trunc : C → ℤ) {F : Type} (frags : D → F) (es : List (Option Str × C × K × D))
    (m : C) (hm : ∀ e ∈ es, m ≤ e.2.1) (hm' : ∃ e ∈ es, e.2.1 = m) :
    ((marginalizeDD p trunc frags .shortest es).map Prod.fst).Nodup ∧
    (∀ e ∈ es, ∀ t, e.1 = some t → e.2.1 = m → ∃ r ∈ marginalizeDD p trunc frags .shortest es, r.1 = t) ∧
    ∀ r ∈ marginalizeDD p trunc frags .shortest es, ∃ e ∈ es, e.1 = some r.1 ∧ e.2.1 = m ∧ r.2.1 = .short (-trunc m) e.2.2.1 ∧
      r.2.2 = frags e.2.2.2 ∧ ∀ x ∈ es, x.1 = some r.1 → x.2.1 = m → x.2.2.1 ≤ e.2.2.1 := by
  unfold marginalizeDD
  simp only []
  have hos : onlyShortest (fun e : Option Str × C × K × D => e.2.1) es = es.filter (fun e => e.2.1 = m) := by
    obtain ⟨e, he, hem⟩ := hm'
    obtain ⟨m', h1, ⟨y, hy, hy'⟩, h3⟩ := onlyShortest_spec (fun e : Option Str × C × K × D => e.2.1) es e he
    have : m' = m := by
      apply le_antisymm
      · rw [← hem]; exact h1 e he
      · rw [← hy']; exact hm y hy
    rw [h3, this]
  rw [hos]
  set xs := (es.filter (fun e => e.2.1 = m)).filterMap (fun e : Option Str × C × K × D => e.1.map (fun t => (t, (trunc e.2.1, e.2.2.1), e.2.2.2))) with hxs
  have hmem : ∀ e ∈ es, ∀ t, e.1 = some t → e.2.1 = m → (t, (trunc e.2.1, e.2.2.1), e.2.2.2) ∈ xs := by
    intro e he t het hem
    rw [hxs, List.mem_filterMap]
    exact ⟨e, by rw [List.mem_filter]; exact ⟨he, by simpa using hem⟩, by rw [het]; rfl⟩
  obtain ⟨hi, hc⟩ := items_shortDD xs
  refine ⟨?_, ?_, ?_⟩
  · rw [List.map_map]
    exact wf_foldl_upd (fun x : Str × (ℤ × K) × D => x.1) _ xs [] (by simp [Dict.WF, Dict.keys])
  · intro e he t het hem
    obtain ⟨c, n, hm⟩ := hc _ (hmem e he t het hem)
    exact ⟨_, List.mem_map_of_mem hm, rfl⟩
  · intro r hr
    obtain ⟨⟨k, ⟨a, b⟩, n⟩, hm2, rfl⟩ := List.mem_map.1 hr
    obtain ⟨h1, h2⟩ := hi k (a, b) n hm2
    rw [hxs, List.mem_filterMap] at h1
    obtain ⟨e, he, hee⟩ := h1
    rw [List.mem_filter, decide_eq_true_iff] at he
    obtain ⟨t, ht, hte⟩ := Option.map_eq_some_iff.1 hee
    injection hte with e1 e2
    injection e2 with e2 e3
    injection e2 with e2 e4
    subst e1 e2 e3 e4
    refine ⟨e, he.1, ht, he.2, by rw [he.2], rfl, fun x hx hxt hxm => ?_⟩
    have := h2 _ (hmem x hx t hxt hxm) rfl
    rw [Prod.Lex.le_iff] at this
    rcases this with this | this
    · rw [show (ofLex (toLex (trunc x.2.1, x.2.2.1))).1 = trunc x.2.1 from rfl,
        show (ofLex (toLex (trunc e.2.1, e.2.2.1))).1 = trunc e.2.1 from rfl, hxm, he.2] at this
      exact absurd this (lt_irrefl _)
    · exact this.2
end

/-! ### Examples -/

/-- `(S (NP@1 0) (VP 1))`: two derivations of one tree, `exB` with a fragment boundary at `NP`; and another tree. -/
def exA : PTree Str := .node ['S'] [.node ['N', 'P', '@', '1', '-', '2'] [.leaf 0], .node ['V', 'P'] [.leaf 1]]
def exA' : PTree Str := .node ['S'] [.node ['N', 'P', '@', '3', '-', '7'] [.leaf 0], .node ['V', 'P'] [.leaf 1]]
def exB : PTree Str := .node ['S'] [.node ['N', 'P'] [.leaf 0], .node ['V', 'P'] [.leaf 1]]
def exC : PTree Str := .node ['S'] [.node ['P', 'P', '^', 'S'] [.leaf 0], .node ['V', 'P'] [.leaf 1]]

/-- Costs are natural numbers, the probability of cost `n` is `2 ^ -n`. -/
def exP (n : Nat) : ℚ := 1 / 2 ^ n

def exDs : List (PTree Str × Nat) := [(exA, 1), (exC, 1), (exB, 2), (exA', 3)]

theorem exDs_good : ∀ d ∈ exDs, Spec.Good wsBN d.1 := by
  have lab : ∀ l : Str, l ∈ [['S'], ['N', 'P', '@', '1', '-', '2'], ['N', 'P', '@', '3', '-', '7'], ['N', 'P'], ['V', 'P'], ['P', 'P', '^', 'S']] →
      Spec.Label l ∧ l ≠ [] ∧ ∀ c ∈ l, wsBN c = false ∧ c ≠ '(' ∧ c ≠ ')' := by
    intro l hl
    simp only [List.mem_cons, List.not_mem_nil, or_false] at hl
    rcases hl with rfl | rfl | rfl | rfl | rfl | rfl
    · exact ⟨.inl (by decide), by decide, by decide⟩
    · exact ⟨.inr ⟨['N', 'P'], ['1', '-', '2'], by decide, by decide, by decide, by decide, rfl⟩, by decide, by decide⟩
    · exact ⟨.inr ⟨['N', 'P'], ['3', '-', '7'], by decide, by decide, by decide, by decide, rfl⟩, by decide, by decide⟩
    · exact ⟨.inl (by decide), by decide, by decide⟩
    · exact ⟨.inl (by decide), by decide, by decide⟩
    · exact ⟨.inl (by decide), by decide, by decide⟩
  have sub : ∀ d ∈ exDs, d.1.isNode ∧ ∀ l cs, .node l cs ∈ subtrees d.1 →
      l ∈ [['S'], ['N', 'P', '@', '1', '-', '2'], ['N', 'P', '@', '3', '-', '7'], ['N', 'P'], ['V', 'P'], ['P', 'P', '^', 'S']] := by
    intro d hd
    simp only [exDs, List.mem_cons, List.not_mem_nil, or_false] at hd
    rcases hd with rfl | rfl | rfl | rfl <;> refine ⟨rfl, fun l cs h => ?_⟩ <;>
      simp only [exA, exA', exB, exC, subtrees, subtreesL, List.append_nil, List.nil_append, List.cons_append, List.mem_cons, node.injEq,
        List.not_mem_nil, or_false] at h <;> rcases h with ⟨rfl, _⟩ | ⟨rfl, _⟩ | ⟨rfl, _⟩ <;> decide
  intro d hd
  obtain ⟨h1, h2⟩ := sub d hd
  exact ⟨h1, fun l cs h => (lab l (h2 l cs h)).1, fun l cs h => (lab l (h2 l cs h)).2⟩

theorem exP_anti : Antitone exP := by
  intro a b h
  unfold exP
  exact one_div_le_one_div_of_le (by positivity) (pow_le_pow_right₀ (by norm_num) h)

/-- The derivations as strings. -/
def exStr : List (Str × Nat) := exDs.map (fun d => (flat d.1, d.2))

/-- The most probable parse: the tree of `exA`, `exA'` and `exB` has probability 1/2 + 1/4 + 1/8. -/
example : (marginalizeDop exP (fun n => -n) id .mpp exStr []).map (fun r => (String.ofList r.1, r.2.1)) =
    [("(S (NP 0) (VP 1))", .prob (7 / 8)), ("(S (PP^S 0) (VP 1))", .prob (1 / 2))] := by decide +kernel

/-- The shortest derivations. -/
example : (marginalizeDop exP (fun n => -n) id .shortest exStr [1 / 3, 1 / 5, 1 / 7, 1 / 9]).map (fun r => (String.ofList r.1, r.2.1)) =
    [("(S (NP 0) (VP 1))", .short 1 (1 / 3)), ("(S (PP^S 0) (VP 1))", .short 1 (1 / 5))] := by decide +kernel

/-- **C57 (disagreement).** With the most probable derivation as objective, one parse tree can occur several times among the results, with
different probabilities, since the results are grouped by derivation up to addresses rather than by parse tree. -/
theorem C57_mpd_disagreement : ∃ ds : List (PTree Str × Nat), (∀ d ∈ ds, Spec.Good wsBN d.1) ∧
    ¬ ((marginalizeDop exP (fun n => -n) id .mpd (ds.map (fun d => (flat d.1, d.2))) []).map Prod.fst).Nodup := by
  refine ⟨exDs, exDs_good, ?_⟩
  decide +kernel

/-- The hypotheses of `C57_mpp`, `C57_mpd`, `C57_shortest` and `C57_sldop` are met. -/
example := C57_mpp wsBN wsBN_space exP (fun n => -n) id exDs [] exDs_good
example := C57_mpd wsBN wsBN_space exP exP_anti (fun n => -n) id exDs [] exDs_good
example := C57_shortest wsBN wsBN_space exP (fun n => -(n : ℤ)) id exDs [1 / 3, 1 / 5, 1 / 7, 1 / 9] exDs_good (by decide +kernel) rfl 1
  (by decide +kernel) ⟨(exA, 1), by simp [exDs], rfl⟩
example := C57_sldop wsBN wsBN_space exP id 1 exDs exDs_good (by decide +kernel) (by
  intro d hd l cs h hi
  have hc : '}' ∈ l := hi.subset (by simp)
  have := ((exDs_good d hd).2.1 l cs h)
  simp only [exDs, List.mem_cons, List.not_mem_nil, or_false] at hd
  rcases hd with rfl | rfl | rfl | rfl <;>
    simp only [exA, exA', exB, exC, subtrees, subtreesL, List.append_nil, List.nil_append, List.cons_append, List.mem_cons, node.injEq,
      List.not_mem_nil, or_false] at h <;> rcases h with ⟨rfl, _⟩ | ⟨rfl, _⟩ | ⟨rfl, _⟩ <;> revert hc <;> decide)

example : (sldopSimple wsBN exP id 1 exStr).map (fun r => (String.ofList r.1, r.2.1, String.ofList r.2.2)) =
    [("(S (NP 0) (VP 1))", .short (-2) (7 / 8), "(S (NP@1-2 0) (VP 1))")] := by decide +kernel

/-- Double-DOP: two entries for one tree, and one entry whose tree cannot be recovered. -/
def exEs : List (Option Str × Nat × ℚ × Nat) := [(some ['A'], 1, 1 / 3, 0), (none, 1, 1, 1), (some ['B'], 1, 1 / 5, 2), (some ['A'], 1, 1 / 2, 3), (some ['A'], 4, 1, 4)]

example : marginalizeDD exP (fun n => -n) id .mpp exEs = [(['A'], .prob (1 + 1 / 16), 0), (['B'], .prob (1 / 2), 2)] := by decide +kernel
example : marginalizeDD exP (fun n => -n) id .shortest exEs = [(['A'], .short 1 (1 / 2), 3), (['B'], .short 1 (1 / 5), 2)] := by decide +kernel
example := C57_shortest_doubledop exP (fun n => -(n : ℤ)) id exEs 1 (by decide +kernel) ⟨_, by simp [exEs]; exact .inl rfl, rfl⟩

/-- Constraints: the label `PP^S` counts as `PP`. -/
example : constrain wsBN (fun s => some (Nat.ofDigitChars 10 s 0)) [(['P', 'P'], [0])] [(['N', 'P'], [0])]
    (marginalizeDop exP (fun n => -(n : ℤ)) id .mpp exStr []) = some [(flat exC, .prob (1 / 2), flat exC)] := by
  have e : marginalizeDop exP (fun n => -(n : ℤ)) id .mpp exStr [] =
      [(exB, Score.prob (7 / 8 : ℚ), flat exA), (exC, .prob (1 / 2), flat exC)].map (fun r => (flat r.1, r.2)) := by decide +kernel
  have u : ∀ l : Str, l ∈ [['S'], ['N', 'P'], ['V', 'P']] → Spec.Unsplit l l := by
    intro l hl
    simp only [List.mem_cons, List.not_mem_nil, or_false] at hl
    rcases hl with rfl | rfl | rfl <;> exact .inr ⟨_, [], [], [], by simp; rfl, by simp, by simp, by decide, .inl rfl, .inl rfl, .inl rfl⟩
  have u' : Spec.Unsplit ['P', 'P', '^', 'S'] ['P', 'P'] :=
    .inr ⟨['P', 'P'], [], [], ['^', 'S'], rfl, rfl, by decide, by decide, .inl rfl, .inl rfl, .inr ⟨['S'], rfl, by decide, by decide⟩⟩
  have hB := exDs_good (exB, 2) (by simp [exDs])
  have hC := exDs_good (exC, 1) (by simp [exDs])
  rw [e, C57_constraints wsBN wsBN_space _ (fun n => by simp)]
  · have hB' : ¬ Spec.Has exB (['P', 'P'], [0]) := by
      rintro ⟨l, cs, h, hu, _⟩
      simp only [exB, subtrees, subtreesL, List.append_nil, List.nil_append, List.cons_append, List.mem_cons, node.injEq,
        List.not_mem_nil, or_false] at h
      have hl : unsplit l = ['P', 'P'] := splitLabel_unsplit hu
      rcases h with ⟨rfl, _⟩ | ⟨rfl, _⟩ | ⟨rfl, _⟩ <;> revert hl <;> decide
    have hC' : Spec.Has exC (['P', 'P'], [0]) :=
      ⟨['P', 'P', '^', 'S'], [.leaf 0], by simp [exC, subtrees, subtreesL], u', by simp [leaves, leavesL], by simp⟩
    have hC2 : ¬ Spec.Has exC (['N', 'P'], [0]) := by
      rintro ⟨l, cs, h, hu, _⟩
      simp only [exC, subtrees, subtreesL, List.append_nil, List.nil_append, List.cons_append, List.mem_cons, node.injEq,
        List.not_mem_nil, or_false] at h
      have hl : unsplit l = ['N', 'P'] := splitLabel_unsplit hu
      rcases h with ⟨rfl, _⟩ | ⟨rfl, _⟩ | ⟨rfl, _⟩ <;> revert hl <;> decide
    simp [hB', hC', hC2]
  · intro r hr
    simp only [List.mem_cons, List.not_mem_nil, or_false] at hr
    rcases hr with rfl | rfl
    · refine ⟨rfl, hB.2.2, fun l cs h => ?_⟩
      simp only [exB, subtrees, subtreesL, List.append_nil, List.nil_append, List.cons_append, List.mem_cons, node.injEq,
        List.not_mem_nil, or_false] at h
      rcases h with ⟨rfl, _⟩ | ⟨rfl, _⟩ | ⟨rfl, _⟩ <;> exact ⟨_, u _ (by decide)⟩
    · refine ⟨rfl, hC.2.2, fun l cs h => ?_⟩
      simp only [exC, subtrees, subtreesL, List.append_nil, List.nil_append, List.cons_append, List.mem_cons, node.injEq,
        List.not_mem_nil, or_false] at h
      rcases h with ⟨rfl, _⟩ | ⟨rfl, _⟩ | ⟨rfl, _⟩
      · exact ⟨_, u _ (by decide)⟩
      · exact ⟨_, u'⟩
      · exact ⟨_, u _ (by decide)⟩

/-- The fragments of `exA`. -/
example := C57_fragments wsBN wsBN_space (fun s => some (Nat.ofDigitChars 10 s 0)) (fun n => by simp) ['S'] _ (exDs_good (exA, 1) (by simp [exDs])) (by decide)
  (by decide +kernel)

end Disco.Disamb
