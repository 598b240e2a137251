import Verif.Parse.Outside
import Verif.Parse.Cky
/-!
# C55, continued: pruning by posterior probability; inside and outside probabilities for the charts of the PCFG parser
-/
set_option linter.unusedSectionVars false
namespace Disco.Inside

section threshold
variable {ι : Type} [DecidableEq ι] {K : Type} [Field K] [LinearOrder K]

/-- **C55**: Pruning: an item remains if and only if the derivations in which it occurs have more than the given part of the total probability of the sentence. There is an error if and only if the
threshold is not between 0 and 1 or the probability of the sentence is zero. -/
theorem C55_threshold {F : Forest ι K} {order : List ι} (B : Spec.BottomUp F order) {span : ι → Nat → Prop} (S : Spec.Spans F span) (root : ι) (all : List ι) (threshold : K) :
    ∃ sent : K, Spec.Total F root (fun _ => True) sent ∧
      (posteriorthreshold F order root all threshold = none ↔ ¬ (0 < threshold ∧ threshold < 1) ∨ sent = 0) ∧
      ∀ items, posteriorthreshold F order root all threshold = some items →
        ∀ i, ∃ mass : K, Spec.Total F root (fun d => i ∈ d.items) mass ∧ (i ∈ items ↔ i ∈ all ∧ threshold * sent < mass) := by
  refine ⟨getinside F order root, C55_inside B root, ?_, ?_⟩
  · unfold posteriorthreshold
    by_cases h : 0 < threshold ∧ threshold < 1
    · rw [if_neg (not_not.2 h)]
      by_cases h0 : getinside F order root = 0
      · simp [h0]
      · simp [h0, h]
    · rw [if_pos h]; simp [h]
  · intro items h i
    refine ⟨_, C55_outside B S root i, ?_⟩
    unfold posteriorthreshold at h
    split at h
    · cases h
    · dsimp only at h
      split at h
      · cases h
      · rw [Option.some.injEq] at h
        subst h
        simp

end threshold

/-! ### Example: two derivations -/

namespace Examples

/-- Items 1, 2 (words), 3, 4 (phrases), 5 (root): the root has two derivations, one of them by a unary rule. -/
def F : Forest Nat Rat
  | 1 => [.lex (1 / 2)]
  | 2 => [.lex (1 / 3), .lex (1 / 6)]
  | 3 => [.bin (1 / 2) 1 2]
  | 4 => [.un (1 / 4) 3, .bin (1 / 8) 1 2]
  | 5 => [.un 1 4]
  | _ => []

theorem bottomUp : Spec.BottomUp F [1, 2, 3, 4, 5] where
  nodup := by decide
  all := by
    intro i h
    match i with
    | 0 => exact absurd rfl h
    | 1 => decide
    | 2 => decide
    | 3 => decide
    | 4 => decide
    | 5 => decide
    | i + 6 => exact absurd rfl h
  un := by
    have h : ∀ k < 5, ∀ e ∈ F ([1, 2, 3, 4, 5].getD k 0), (match e with | .un _ l => decide (l ∈ [1, 2, 3, 4, 5].take k) | _ => true) = true := by decide +kernel
    intro pre i post e p l hm
    have hk : pre.length < 5 := by have := congrArg List.length e; simp at this; omega
    have hi : [1, 2, 3, 4, 5].getD pre.length 0 = i := by rw [e]; simp
    have := h pre.length hk (.un p l) (by rw [hi]; exact hm)
    rw [e] at this
    simpa using this
  bin := by
    have h : ∀ k < 5, ∀ e ∈ F ([1, 2, 3, 4, 5].getD k 0), (match e with | .bin _ l r => decide (l ∈ [1, 2, 3, 4, 5].take k ∧ r ∈ [1, 2, 3, 4, 5].take k) | _ => true) = true := by decide +kernel
    intro pre i post e p l r hm
    have hk : pre.length < 5 := by have := congrArg List.length e; simp at this; omega
    have hi : [1, 2, 3, 4, 5].getD pre.length 0 = i := by rw [e]; simp
    have := h pre.length hk (.bin p l r) (by rw [hi]; exact hm)
    rw [e] at this
    simpa using this

/-- What the items cover. -/
def span (i n : Nat) : Prop := i = 1 ∧ n = 0 ∨ i = 2 ∧ n = 1 ∨ i ≠ 1 ∧ i ≠ 2 ∧ n ≤ 1

theorem spans : Spec.Spans F span where
  nonempty i := by
    by_cases h1 : i = 1
    · exact ⟨0, by simp [span, h1]⟩
    by_cases h2 : i = 2
    · exact ⟨1, by simp [span, h2]⟩
    · exact ⟨0, by simp [span, h1, h2]⟩
  un i p l h n := by
    match i with
    | 0 => simp [F] at h
    | 1 => simp [F] at h
    | 2 => simp [F] at h
    | 3 => simp [F] at h
    | 4 => simp [F] at h; obtain ⟨-, rfl⟩ := h; simp [span]
    | 5 => simp [F] at h; obtain ⟨-, rfl⟩ := h; simp [span]
    | i + 6 => simp [F] at h
  bin i p l r h n := by
    match i with
    | 0 => simp [F] at h
    | 1 => simp [F] at h
    | 2 => simp [F] at h
    | 3 => simp [F] at h; obtain ⟨-, rfl, rfl⟩ := h; simp [span]; omega
    | 4 => simp [F] at h; obtain ⟨-, rfl, rfl⟩ := h; simp [span]; omega
    | 5 => simp [F] at h
    | i + 6 => simp [F] at h

example : getinside F [1, 2, 3, 4, 5] 5 = 1 / 16 ∧ getinside F [1, 2, 3, 4, 5] 3 = 1 / 8 := by decide +kernel
example : posteriorthreshold F [1, 2, 3, 4, 5] 5 [0, 1, 2, 3, 4, 5] (3 / 5) = some [1, 2, 4, 5] := by decide +kernel
example : posteriorthreshold F [1, 2, 3, 4, 5] 5 [0, 1, 2, 3, 4, 5] (2 / 5) = some [1, 2, 3, 4, 5] := by decide +kernel
example : posteriorthreshold F [1, 2, 3, 4, 5] 5 [0, 1, 2, 3, 4, 5] 1 = none := by decide +kernel
example : posteriorthreshold F [1, 2, 3, 4, 5] 6 [0, 1, 2, 3, 4, 5] (1 / 2) = none := by decide +kernel

end Examples

/-! ### The charts of the PCFG parser -/

section chart
variable {R : Type} [AddCommGroup R] [LinearOrder R] [IsOrderedAddMonoid R] {K : Type}

/-- The edges of a CFG chart: the children are found with `chart._left` and `chart._right` (pcfg.pyx:117-136, 311-328), the probability of a lexical edge with `chart.lexprob` (containers.pyx:141-165). -/
def chartForest (prob : R → K) (lexprob : Cky.Item → K) (st : Cky.State R) : Forest Cky.Item K := fun x => (st.forest x).map fun e =>
  match e.rule with
  | none => .lex (lexprob x)
  | some r => if r.rhs2 = 0 then .un (prob r.prob) ⟨x.start, x.stop, r.rhs1⟩ else .bin (prob r.prob) ⟨x.start, e.mid, r.rhs1⟩ ⟨e.mid, x.stop, r.rhs2⟩

/-- The new items cover a cell. -/
def Grow (left right : Nat) (st st' : Cky.State R) : Prop := ∃ new, st'.items = st.items ++ new ∧ ∀ x ∈ new, x.start = left ∧ x.stop = right

theorem Grow.refl {left right : Nat} {st st' : Cky.State R} (h : st'.items = st.items) : Grow left right st st' := ⟨[], by simp [h]⟩

theorem Grow.trans {left right : Nat} {st st' st'' : Cky.State R} (h : Grow left right st st') (h' : Grow left right st' st'') : Grow left right st st'' := by
  obtain ⟨a, h1, h2⟩ := h
  obtain ⟨b, h3, h4⟩ := h'
  refine ⟨a ++ b, by rw [h3, h1, List.append_assoc], fun x hx => ?_⟩
  rcases List.mem_append.1 hx with hx | hx
  · exact h2 x hx
  · exact h4 x hx

theorem grow_updateProb {left right l : Nat} (st : Cky.State R) (p : R) : Grow left right st (Cky.updateProb st ⟨left, right, l⟩ p) := by
  unfold Cky.updateProb
  split
  · exact ⟨[_], rfl, by simp⟩
  · split
    · exact .refl rfl
    · exact .refl rfl

theorem grow_foldl {left right : Nat} {β : Type} (f : Cky.State R → β → Cky.State R) (hf : ∀ st b, Grow left right st (f st b)) (bs : List β) : ∀ st, Grow left right st (bs.foldl f st) := by
  induction bs with
  | nil => intro st; exact .refl rfl
  | cons b bs ih => intro st; exact (hf st b).trans (ih _)

theorem grow_split {left right : Nat} (r : Cky.PRule R) (st : Cky.State R) (mid : Nat) : Grow left right st (Cky.split left right r st mid) := by
  unfold Cky.split
  split
  · exact .refl rfl
  · split
    · exact .refl rfl
    · exact (grow_updateProb st _).trans (.refl rfl)

theorem grow_binaryLabel {left right : Nat} (g : Cky.Grammar R) (st : Cky.State R) (lhs : Nat) : Grow left right st (Cky.binaryLabel g left right st lhs) := by
  unfold Cky.binaryLabel
  have h := grow_foldl (left := left) (right := right) (fun st r => (Cky.splits st.mf left right r).foldl (Cky.split left right r) st)
    (fun st r => grow_foldl _ (grow_split r) _ st) (g.bylhs.filter (fun r => decide (r.lhs = lhs))) st
  dsimp only
  split
  · exact h.trans (.refl rfl)
  · exact h

theorem grow_unaryRule {left right : Nat} (prob : Option R) (p : Cky.State R × Dict Nat (Option R)) (r : Cky.PRule R) : Grow left right p.1 (Cky.unaryRule left right prob p r).1 := by
  unfold Cky.unaryRule
  cases prob with
  | none => exact .refl rfl
  | some c =>
    dsimp only
    split
    · exact (grow_updateProb p.1 _).trans (.refl rfl)
    · exact .refl rfl

theorem grow_unaryRules {left right : Nat} (prob : Option R) (rs : List (Cky.PRule R)) : ∀ p : Cky.State R × Dict Nat (Option R),
    Grow left right p.1 (rs.foldl (Cky.unaryRule left right prob) p).1 := by
  induction rs with
  | nil => intro p; exact .refl rfl
  | cons r rs ih => intro p; exact (grow_unaryRule prob p r).trans (ih _)

theorem grow_unaryLoop {g : Cky.Grammar R} {pick : Cky.Pick R} {left right : Nat} : ∀ (fuel i : Nat) (p : Cky.State R × Dict Nat (Option R)) (st' : Cky.State R),
    Cky.unaryLoop g pick left right fuel i p = some st' → Grow left right p.1 st' := by
  intro fuel
  induction fuel with
  | zero =>
    rintro i ⟨st, a⟩ st' h
    unfold Cky.unaryLoop at h
    split at h
    · cases h; exact .refl rfl
    · cases h
  | succ fuel ih =>
    rintro i ⟨st, a⟩ st' h
    unfold Cky.unaryLoop at h
    split at h
    · cases h; exact .refl rfl
    · refine Grow.trans ?_ (ih _ _ _ h)
      exact grow_unaryRules _ _ (st, _)

theorem grow_cell {k : Cky.Kind} {g : Cky.Grammar R} {pick : Cky.Pick R} {fuel left right : Nat} {st st' : Cky.State R} (h : Cky.cell k g pick fuel left right st = some st') :
    Grow left right st st' :=
  (grow_foldl _ (grow_binaryLabel g) _ st).trans (grow_unaryLoop _ _ _ _ h)

theorem grow_word {k : Cky.Kind} {g : Cky.Grammar R} {pick : Cky.Pick R} {fuel left : Nat} {st st' : Cky.State R} (h : Cky.word k g pick fuel left st = some (some st')) :
    Grow left (left + 1) st st' := by
  unfold Cky.word at h
  split at h
  · cases h
  · rw [Option.some.injEq] at h
    have h1 := grow_unaryLoop _ _ _ _ h
    refine Grow.trans (grow_foldl _ (fun st x => ?_) _ st) h1
    exact (grow_updateProb st x.2).trans (.refl rfl)

/-- Sorted by length, with a maximum. -/
def Sorted (st : Cky.State R) (m : Nat) : Prop := st.items.Pairwise (fun x y => x.stop - x.start ≤ y.stop - y.start) ∧ ∀ x ∈ st.items, x.stop - x.start ≤ m

theorem Sorted.grow {left right m : Nat} {st st' : Cky.State R} (h : Sorted st m) (hg : Grow left right st st') (hm : m ≤ right - left) : Sorted st' (right - left) := by
  obtain ⟨new, h1, h2⟩ := hg
  constructor
  · rw [h1, List.pairwise_append]
    refine ⟨h.1, ?_, ?_⟩
    · refine List.Pairwise.imp_of_mem (R := fun _ _ => True) ?_ (List.pairwise_of_forall fun _ _ => trivial)
      intro a b ha hb _
      have := h2 a ha
      have := h2 b hb
      omega
    · intro a ha b hb
      have := h.2 a ha
      have := h2 b hb
      omega
  · intro x hx
    rw [h1, List.mem_append] at hx
    rcases hx with hx | hx
    · exact (h.2 x hx).trans hm
    · have := h2 x hx; omega

theorem sorted_populate {k : Cky.Kind} {g : Cky.Grammar R} {pick : Cky.Pick R} {fuel : Nat} : ∀ (ws : List Nat) {st st' : Cky.State R}, Sorted st 1 → Cky.populate k g pick fuel ws st = some (.ok st') →
    Sorted st' 1 := by
  intro ws
  induction ws with
  | nil => intro st st' h e; simp only [Cky.populate, Option.some.injEq, Cky.Result.ok.injEq] at e; exact e ▸ h
  | cons i ws ih =>
    intro st st' h e
    rw [Cky.populate] at e
    split at e
    · cases e
    · obtain ⟨st1, h1, h2⟩ := Option.bind_eq_some_iff.1 e
      subst h1
      have := h.grow (grow_word ‹_›) (by omega)
      exact ih (by simpa using this) h2

theorem sorted_run {k : Cky.Kind} {g : Cky.Grammar R} {pick : Cky.Pick R} {fuel : Nat} : ∀ (cs : List (Nat × Nat)) {m : Nat} {st st' : Cky.State R}, Sorted st m →
    (cs.map fun c => c.2 - c.1).Pairwise (· ≤ ·) → (∀ c ∈ cs, m ≤ c.2 - c.1) → Cky.run k g pick fuel cs st = some st' → ∃ m, Sorted st' m := by
  intro cs
  induction cs with
  | nil => intro m st st' h _ _ e; simp only [Cky.run, Option.some.injEq] at e; exact ⟨m, e ▸ h⟩
  | cons c cs ih =>
    obtain ⟨l, r⟩ := c
    intro m st st' h hs hm e
    rw [Cky.run] at e
    obtain ⟨st1, h1, h2⟩ := Option.bind_eq_some_iff.1 e
    rw [List.map_cons, List.pairwise_cons] at hs
    refine ih (h.grow (grow_cell h1) (hm (l, r) (by simp))) hs.2 (fun c hc => hs.1 _ (List.mem_map.2 ⟨c, hc, rfl⟩)) h2

theorem cells_sorted (n : Nat) : ((Cky.cells n).map fun c => c.2 - c.1).Pairwise (· ≤ ·) ∧ ∀ c ∈ Cky.cells n, 2 ≤ c.2 - c.1 := by
  have hm : ∀ s, ∀ c ∈ Cky.cellsFrom n s, c.2 - c.1 = s := by
    intro s c hc
    simp only [Cky.cellsFrom, List.mem_map] at hc
    obtain ⟨l, -, rfl⟩ := hc
    simp
  constructor
  · unfold Cky.cells
    rw [List.map_flatMap, List.pairwise_flatMap]
    constructor
    · intro s _
      rw [List.pairwise_map]
      refine List.Pairwise.imp_of_mem (R := fun _ _ => True) ?_ (List.pairwise_of_forall fun _ _ => trivial)
      intro a b ha hb _
      rw [hm s a ha, hm s b hb]
    · refine List.Pairwise.imp (R := (· < ·)) ?_ List.pairwise_lt_range'
      intro s t hst x hx y hy
      obtain ⟨a, ha, rfl⟩ := List.mem_map.1 hx
      obtain ⟨b, hb, rfl⟩ := List.mem_map.1 hy
      rw [hm s a ha, hm t b hb]
      exact hst.le
  · intro c hc
    unfold Cky.cells at hc
    obtain ⟨s, h1, h2⟩ := List.mem_flatMap.1 hc
    rw [hm s c h2]
    exact (List.mem_range'_1.1 h1).1

/-- The items of a chart are in the order of the length of their spans. -/
theorem items_sorted {k : Cky.Kind} {g : Cky.Grammar R} {pick : Cky.Pick R} {n fuel : Nat} {st : Cky.State R} (h : Cky.parse k g pick n fuel = some (.ok st)) :
    st.items.Pairwise (fun x y => x.stop - x.start ≤ y.stop - y.start) := by
  obtain ⟨st1, e1, e2⟩ := Cky.parse_ok h
  have h0 : Sorted (Cky.State.init n : Cky.State R) 1 := by constructor <;> simp [Cky.State.init]
  obtain ⟨m, hs⟩ := sorted_run _ (sorted_populate _ h0 e1) (cells_sorted n).1 (fun c hc => by have := (cells_sorted n).2 c hc; omega) e2
  exact hs.1

/-- **C55**: With a grammar without unary rules, the items of a chart from the PCFG parser are in bottom-up order: so the inside and outside probabilities computed for the chart are the total probabilities
of the derivations. -/
theorem C55_chart [CommRing K] {g : Cky.Grammar R} {n : Nat} (U : Cky.Spec.Usable g n) (hu : ∀ r ∈ g.bylhs, r.rhs2 ≠ 0) {pick : Cky.Pick R} (hp : Cky.Spec.Picks pick) {k : Cky.Kind} {fuel : Nat}
    {st : Cky.State R} (h : Cky.parse k g pick n fuel = some (.ok st)) (prob : R → K) (lexprob : Cky.Item → K) (root x : Cky.Item) :
    let F := chartForest prob lexprob st
    let ins := getinside F st.items
    Spec.Total F x (fun _ => True) (ins x) ∧ Spec.Total F root (fun d => x ∈ d.items) (ins x * getoutside F st.items root ins x) := by
  obtain ⟨-, h2, ⟨h3, h4⟩, h5⟩ := Cky.C24_cky U hp h
  have hs := items_sorted h
  have hedge : ∀ x e, e ∈ chartForest prob lexprob st x → (∃ p, e = .lex p) ∧ x ∈ st.items ∧ x.start < x.stop ∨
      ∃ p mid l r, e = .bin p ⟨x.start, mid, l⟩ ⟨mid, x.stop, r⟩ ∧ x.start < mid ∧ mid < x.stop ∧ (⟨x.start, mid, l⟩ : Cky.Item) ∈ st.items ∧ (⟨mid, x.stop, r⟩ : Cky.Item) ∈ st.items ∧ x ∈ st.items := by
    intro x e he
    obtain ⟨⟨ru, mid⟩, h6, h7⟩ := List.mem_map.1 he
    have h8 := (h5 _ _).1 h6
    cases ru with
    | none =>
      obtain ⟨g1, g2, -, p, g3⟩ := h8
      have hd : Cky.Spec.Derives g n x.start x.stop x.label p := by rw [g2]; exact .lex g1 g3
      exact Or.inl ⟨⟨_, h7.symm⟩, (h4 x).2 ⟨p, hd⟩, (Cky.derives_lt hd).1⟩
    | some r =>
      obtain ⟨g1, g2, ⟨g3, -⟩ | ⟨g3, ⟨c, g4⟩, d, g5⟩⟩ := h8
      · exact absurd g3 (hu r g1)
      · dsimp only at h7 g4 g5
        rw [if_neg g3] at h7
        refine Or.inr ⟨_, _, _, _, h7.symm, (Cky.derives_lt g4).1, (Cky.derives_lt g5).1, (h4 _).2 ⟨c, g4⟩, (h4 _).2 ⟨d, g5⟩, (h4 _).2 ⟨_, g2 ▸ Cky.Spec.Derives.binary g1 g3 g4 g5⟩⟩
  have hpre : ∀ pre i post, st.items = pre ++ i :: post → ∀ y ∈ st.items, y.stop - y.start < i.stop - i.start → y ∈ pre := by
    intro pre i post e y hy hlt
    rw [e, List.mem_append, List.mem_cons] at hy
    rcases hy with hy | rfl | hy
    · exact hy
    · omega
    · rw [e, List.pairwise_append, List.pairwise_cons] at hs
      have := hs.2.1.1 y hy
      omega
  have B : Spec.BottomUp (chartForest prob lexprob st) st.items := by
    refine ⟨h3, ?_, ?_, ?_⟩
    · intro i hi
      obtain ⟨e, he⟩ := List.exists_mem_of_ne_nil _ hi
      rcases hedge i e he with ⟨-, h, -⟩ | ⟨_, _, _, _, -, -, -, -, -, h⟩
      · exact h
      · exact h
    · intro pre i post e p l hm
      rcases hedge _ _ hm with ⟨⟨_, h⟩, -⟩ | ⟨_, _, _, _, h, -⟩
      · cases h
      · cases h
    · intro pre i post e p l r hm
      rcases hedge _ _ hm with ⟨⟨_, h⟩, -⟩ | ⟨_, mid, _, _, h, g1, g2, g3, g4, -⟩
      · cases h
      · cases h
        exact ⟨hpre _ _ _ e _ g3 (by dsimp only; omega), hpre _ _ _ e _ g4 (by dsimp only; omega)⟩
  have S : Spec.Spans (chartForest prob lexprob st) (fun x n => x.start ≤ n ∧ (n < x.stop ∨ n = x.start ∧ x.stop ≤ x.start)) := by
    refine ⟨fun i => ⟨i.start, by omega⟩, ?_, ?_⟩
    · intro i p l hm
      rcases hedge _ _ hm with ⟨⟨_, h⟩, -⟩ | ⟨_, _, _, _, h, -⟩
      · cases h
      · cases h
    · intro i p l r hm n
      rcases hedge _ _ hm with ⟨⟨_, h⟩, -⟩ | ⟨_, mid, _, _, h, g1, g2, -⟩
      · cases h
      · cases h
        dsimp only
        omega
  exact ⟨C55_inside B x, C55_outside B S root x⟩

/-- A grammar with a unary rule: the word has tags 1 and 2, and there is a rule 1 → 2. -/
def Examples.gu : Cky.Grammar Int := ⟨3, [⟨1, 2, 0, 1, 0⟩], [⟨1, 2, 0, 1, 0⟩], fun _ => [(1, 2), (2, 1)]⟩

theorem Examples.gu_usable : Cky.Spec.Usable Examples.gu 1 where
  rules := by decide +kernel
  unary := by decide +kernel
  nodup := by decide +kernel
  tags := by decide +kernel
  lexlt := by decide +kernel

/-- The probability for a cost in the example, `2 ^ -c`. -/
def Examples.prob (c : Int) : Rat := 1 / 2 ^ c.toNat

/-- The probability of the lexical rules in the example. -/
def Examples.lexprob (x : Cky.Item) : Rat := if x.label = 1 then 1 / 4 else 1 / 2

/-- **C55**: With unary rules, the inside probabilities are too low: the items of a cell are numbered in the order in which they are first found, not in bottom-up order. Here the item for label 1 has two
derivations with total probability 1/2, but its inside probability is 1/4. -/
theorem C55_unary_disagreement : ∃ (g : Cky.Grammar Int) (st : Cky.State Int) (x : Cky.Item), Cky.Spec.Usable g 1 ∧ Cky.parse .sparse g Cky.firstLeast 1 10 = some (.ok st) ∧
    Spec.Total (chartForest Examples.prob Examples.lexprob st) x (fun _ => True) (1 / 2) ∧ getinside (chartForest Examples.prob Examples.lexprob st) st.items x = 1 / 4 := by
  have h : (match Cky.parse .sparse Examples.gu Cky.firstLeast 1 10 with
      | some (.ok st) => (st.items, st.forest ⟨0, 1, 1⟩, st.forest ⟨0, 1, 2⟩, getinside (chartForest Examples.prob Examples.lexprob st) st.items ⟨0, 1, 1⟩) | _ => ([], [], [], 0)) =
      ([⟨0, 1, 1⟩, ⟨0, 1, 2⟩], [⟨none, 1⟩, ⟨some ⟨1, 2, 0, 1, 0⟩, 1⟩], [⟨none, 1⟩], 1 / 4) := by decide +kernel
  cases e : Cky.parse .sparse Examples.gu Cky.firstLeast 1 10 with
  | none => rw [e] at h; simp at h
  | some r =>
    cases r with
    | notags i => rw [e] at h; simp at h
    | ok st =>
      rw [e] at h
      simp only [Prod.mk.injEq] at h
      obtain ⟨-, h2, h3, h4⟩ := h
      refine ⟨Examples.gu, st, ⟨0, 1, 1⟩, Examples.gu_usable, e, ?_, h4⟩
      have f1 : chartForest Examples.prob Examples.lexprob st ⟨0, 1, 1⟩ = [.lex (1 / 4), .un (1 / 2) ⟨0, 1, 2⟩] := by unfold chartForest; rw [h2]; decide +kernel
      have f2 : chartForest Examples.prob Examples.lexprob st ⟨0, 1, 2⟩ = [.lex (1 / 2)] := by unfold chartForest; rw [h3]; decide +kernel
      refine ⟨[(.lex ⟨0, 1, 1⟩ 0, 1 / 4), (.un ⟨0, 1, 1⟩ 1 (.lex ⟨0, 1, 2⟩ 0), 1 / 2 * (1 / 2))], by decide, fun d q => ?_, by decide +kernel⟩
      simp only [List.mem_cons, List.not_mem_nil, or_false, and_true, Prod.mk.injEq]
      constructor
      · rintro (⟨rfl, rfl⟩ | ⟨rfl, rfl⟩)
        · exact .lex (by rw [f1]; rfl)
        · exact .un (by rw [f1]; rfl) (.lex (by rw [f2]; rfl))
      · intro hd
        generalize hx : (⟨0, 1, 1⟩ : Cky.Item) = x at hd
        cases hd with
        | @lex _ k p h6 =>
          subst hx
          rw [f1] at h6
          match k with
          | 0 => cases h6; exact Or.inl ⟨rfl, rfl⟩
          | 1 => cases h6
          | k + 2 => cases h6
        | @un _ l k p q d h6 h7 =>
          subst hx
          rw [f1] at h6
          match k with
          | 0 => cases h6
          | 1 =>
            simp only [List.getElem?_cons_succ, List.getElem?_cons_zero, Option.some.injEq, Edge.un.injEq] at h6
            obtain ⟨rfl, rfl⟩ := h6
            generalize hy : (⟨0, 1, 2⟩ : Cky.Item) = y at h7
            cases h7 with
            | @lex _ k p h8 =>
              subst hy
              rw [f2] at h8
              match k with
              | 0 => cases h8; exact Or.inr ⟨rfl, rfl⟩
              | k + 1 => cases h8
            | @un _ _ k _ _ _ h8 _ => subst hy; rw [f2] at h8; match k with
              | 0 => cases h8
              | k + 1 => cases h8
            | @bin _ _ _ k _ _ _ _ _ h8 _ _ => subst hy; rw [f2] at h8; match k with
              | 0 => cases h8
              | k + 1 => cases h8
          | k + 2 => cases h6
        | @bin _ _ _ k _ _ _ _ _ h6 _ _ =>
          subst hx
          rw [f1] at h6
          match k with
          | 0 => cases h6
          | 1 => cases h6
          | k + 2 => cases h6

/-- Non-vacuity of `C55_chart`: a sentence of four words and binary rules. -/
example : Cky.Spec.Usable Cky.Examples.gl 4 ∧ (∀ r ∈ Cky.Examples.gl.bylhs, r.rhs2 ≠ 0) ∧
    (match Cky.parse .sparse Cky.Examples.gl Cky.firstLeast 4 10 with | some (.ok st) => st.items.length | _ => 0) = 7 := by
  refine ⟨Cky.Examples.gl_usable, by decide +kernel, by decide +kernel⟩

end chart

end Disco.Inside
