import Verif.Estimate.Astar
/-!
# C59: parsing a PCFG with SX estimates (runexp.py:517-535, plcfrs.pyx:424-443)
-/
set_option linter.unusedSectionVars false
namespace Disco.Astar
open Dict Bits Plcfrs

variable {R : Type} [AddCommGroup R] [LinearOrder R] [IsOrderedAddMonoid R]

/-! ### Model -/

/-- `outside[label, left, right, 0]` with `left = nextset(vec, 0)`, `right = lensent - length - left` (plcfrs.pyx:437-443, 499-505). For a unary rule the code also subtracts the number of gaps
(424-431), which is 0 with a PCFG. -/
def sxEst (out : Estimate.Out → Option R) (n : Nat) (x : Item Word) : Option R :=
  (nextset x.vec 0).bind (fun left => out (x.label, left, n - popcount x.vec - left))

/-! ### Specification -/

/-- Both representations have the same rules; the binary rules are context-free; the tags of the words are in the lexicon of the grammar. -/
structure Spec.Pcfg (g : Grammar R) (G : Estimate.Gram R) (n : Nat) : Prop where
  lex : ∀ i < n, ∀ x ∈ g.lexicon i, x ∈ G.lexical
  unary : ∀ r ∈ g.unary, ⟨r.lhs, r.rhs1, 0, r.prob⟩ ∈ G.bylhs
  binary : ∀ r ∈ g.lbinary, r.rhs2 ≠ 0 ∧ ⟨r.lhs, r.rhs1, r.rhs2, r.prob⟩ ∈ G.bylhs
  encodes : ∀ r ∈ g.lbinary, Concat.Spec.Encodes r.args r.lengths [[0, 1]]

/-! ### Intervals -/

/-- The positions from `a` up to `b`. -/
def iv (a b : Nat) (j : Nat) : Bool := decide (a ≤ j ∧ j < b)

theorem members_iv {a b N : Nat} (hb : b ≤ N) : Concat.Spec.members (iv a b) N 0 = List.range' a (b - a) := by
  rw [Concat.Spec.members, Nat.sub_zero]
  refine List.Perm.eq_of_pairwise (le := (· < ·)) (fun x y _ _ h1 h2 => by omega) ((List.pairwise_lt_range' (s := 0) (n := N)).filter _) List.pairwise_lt_range' ?_
  refine (List.perm_ext_iff_of_nodup ((List.nodup_range' (s := 0) (n := N)).filter _) List.nodup_range').2 ?_
  intro j
  simp only [List.mem_filter, List.mem_range'_1, iv, decide_eq_true_eq]
  omega

theorem spans_iv {a b N : Nat} (hab : a < b) (hb : b ≤ N) : Concat.Spec.spans (iv a b) N = [List.range' a (b - a)] := by
  rw [Concat.Spec.spans, members_iv hb]
  have := SplitDisc.runs_range (b - a - 1) a [] (by simp)
  rw [List.append_nil, show b - a - 1 + 1 = b - a by omega] at this
  rw [this]; rfl

/-- Two intervals are composed by the yield function of a context-free rule exactly if they are adjacent. -/
theorem composes_iv {a b c d N : Nat} (hab : a < b) (hb : b ≤ N) (hcd : c < d) (hd : d ≤ N) (h : Concat.Spec.Composes [[0, 1]] (iv a b) (iv c d) N) : c = b := by
  obtain ⟨h1, h2⟩ := h
  rw [spans_iv hab hb, spans_iv hcd hd] at h1
  simp only [Prods.Spec.apply, Prods.Spec.argument, Prods.Spec.drop1, if_true, Option.map_some] at h1
  simp only [Nat.one_ne_zero, if_false, Option.map_some, Option.bind_some, List.append_nil, Option.some.injEq, Prod.mk.injEq] at h1
  have h3 := h1.1
  have hfl := congrArg List.flatten h3
  rw [Concat.Spec.spans, SplitDisc.runs_flatten] at hfl
  simp only [List.flatten_cons, List.flatten_nil, List.append_nil] at hfl
  have hs : (List.range' a (b - a) ++ List.range' c (d - c)).Pairwise (· < ·) := by
    rw [hfl, Concat.Spec.members]
    exact List.Pairwise.filter _ List.pairwise_lt_range'
  have hbc : b ≤ c := by
    have := (List.pairwise_append.1 hs).2.2 (b - 1) (by rw [List.mem_range'_1]; omega) c (by rw [List.mem_range'_1]; omega)
    omega
  by_contra hne
  rw [Concat.Spec.spans, ← hfl] at h3
  have hr := SplitDisc.runs_range (b - a - 1) a (List.range' c (d - c)) (by
    rw [show d - c = d - c - 1 + 1 by omega, List.range'_succ]
    simp only [List.head?_cons, ne_eq, Option.some.injEq]
    omega)
  rw [show b - a - 1 + 1 = b - a by omega] at hr
  rw [hr] at h3
  have hr2 := SplitDisc.runs_range (d - c - 1) c [] (by simp)
  rw [List.append_nil, show d - c - 1 + 1 = d - c by omega] at hr2
  rw [hr2] at h3
  have := congrArg List.length h3
  simp at this

section
variable {g : Grammar R} {G : Estimate.Gram R} {allowed : Item Word → Bool} {n : Nat}

/-- Derived items cover intervals. -/
theorem derives_iv (P : Spec.Pcfg g G n) (hn : n ≤ 64) {x : Item Word} {c : R} (h : Spec.Derives smallOps g allowed n x c) :
    ∃ a b, a < b ∧ b ≤ n ∧ x.vec.getLsbD = iv a b ∧ popcount x.vec = b - a ∧ Estimate.Spec.Inside G x.label (b - a) c := by
  have L := laws_small hn
  induction h with
  | @lex i t p hi ht ha =>
    refine ⟨i, i + 1, by omega, hi, ?_, ?_, ?_⟩
    · funext j
      have := L.unit_mem i hi j
      simp only at this ⊢
      rw [this, iv]
      congr 1
      simp only [eq_iff_iff]; omega
    · have := L.unit_count i hi
      simp only at this ⊢
      rw [show i + 1 - i = 1 by omega]; exact this
    · rw [show i + 1 - i = 1 by omega]
      exact .lex (P.lex i hi _ ht)
  | @unary r v c hr _ ha ih =>
    obtain ⟨a, b, h1, h2, h3, h4, h5⟩ := ih
    exact ⟨a, b, h1, h2, h3, h4, by rw [add_comm]; exact .unary (P.unary r hr) rfl h5⟩
  | @binary r v w c d hr hv hw hc ha ih1 ih2 =>
    obtain ⟨a, b, h1, h2, h3, h4, h5⟩ := ih1
    obtain ⟨a', b', k1, k2, k3, k4, k5⟩ := ih2
    simp only at h3 k3 h4 k4
    have hcomp := (Concat.C41_concat_small _ _ v w _ (P.encodes r hr) (by rw [h3, spans_iv h1 (by omega)]; rfl) (by rw [k3, spans_iv k1 (by omega)]; rfl)).1 hc
    rw [h3, k3] at hcomp
    have hadj := composes_iv h1 (by omega) k1 (by omega) hcomp
    subst hadj
    refine ⟨a, b', by omega, k2, ?_, ?_, ?_⟩
    · funext j
      have := L.combine_mem v (derives_univ L hv).1 w (derives_univ L hw).1 _ _ hc j
      simp only at this ⊢
      rw [this, h3, k3, iv, iv, iv, ← Bool.decide_or]
      congr 1
      simp only [eq_iff_iff]; omega
    · have := L.combine_count v (derives_univ L hv).1 w (derives_univ L hw).1 _ _ hc
      simp only at this ⊢
      rw [show popcount (smallOps.combine v w) = popcount v + popcount w from this, h4, k4]; omega
    · have := Estimate.Spec.Inside.binary (P.binary r hr).2 (P.binary r hr).1 h5 k5
      simp only at this ⊢
      rw [show b' - a = a' - a + (b' - a') by omega, add_comm (c + d) r.prob, ← add_assoc]
      exact this

theorem nextset_iv {v : Word} {a b : Nat} (hab : a < b) (h : v.getLsbD = iv a b) : nextset v 0 = some a := by
  have := C10_nextset v 0
  rw [h] at this
  cases hs : nextset v 0 with
  | none =>
    rw [hs] at this
    have := this a (by omega)
    simp [iv] at this; omega
  | some i =>
    rw [hs] at this
    obtain ⟨_, h1, h2⟩ := this
    simp only [iv, decide_eq_true_eq] at h1
    by_contra hne
    have := h2 a (by omega) (by have : i ≠ a := fun e => hne (by rw [e]); omega)
    simp [iv] at this; omega

theorem sxEst_iv {out : Estimate.Out → Option R} {l a b : Nat} {v : Word} (hab : a < b) (hb : b ≤ n) (h : v.getLsbD = iv a b) (hc : popcount v = b - a) :
    sxEst out n ⟨l, v⟩ = out (l, a, n - b) := by
  rw [sxEst]
  simp only [nextset_iv hab h, Option.bind_some, hc]
  rw [show n - (b - a) - a = n - b by omega]

/-- The SX estimates are consistent. -/
theorem sx_consistent (P : Spec.Pcfg g G n) (hn : n ≤ 64) {goal maxlen : Nat} (hmax : n ≤ maxlen) {out : Estimate.Out → Option R}
    (h : ∀ l left right, left + right < maxlen → Estimate.Spec.Best (Estimate.Spec.Context G goal l left right) (out (l, left, right))) :
    Spec.Consistent (sxEst out n) smallOps g allowed n where
  unary r hr v c e hd he := by
    obtain ⟨a, b, h1, h2, h3, h4, h5⟩ := derives_iv P hn hd
    simp only at h3 h4
    rw [sxEst_iv h1 h2 h3 h4] at he ⊢
    exact (Estimate.C59_consistent h (P.unary r hr) he).1 rfl (by omega)
  left r hr v w c d e hv hw hc he := by
    obtain ⟨a, b, h1, h2, h3, h4, h5⟩ := derives_iv P hn hv
    obtain ⟨a', b', k1, k2, k3, k4, k5⟩ := derives_iv P hn hw
    simp only at h3 h4 k3 k4
    have hcomp := (Concat.C41_concat_small _ _ v w _ (P.encodes r hr) (by rw [h3, spans_iv h1 (by omega)]; rfl) (by rw [k3, spans_iv k1 (by omega)]; rfl)).1 hc
    rw [h3, k3] at hcomp
    have hadj := composes_iv h1 (by omega) k1 (by omega) hcomp
    subst hadj
    have L := laws_small hn
    have hvu := L.combine_mem v (derives_univ L hv).1 w (derives_univ L hw).1 _ _ hc
    have hcu := L.combine_count v (derives_univ L hv).1 w (derives_univ L hw).1 _ _ hc
    have hu : (smallOps.combine v w).getLsbD = iv a b' := by
      funext j
      rw [hvu j, h3, k3, iv, iv, iv, ← Bool.decide_or]
      congr 1
      simp only [eq_iff_iff]; omega
    have hcu' : popcount (smallOps.combine v w) = b' - a := by
      rw [show popcount (smallOps.combine v w) = popcount v + popcount w from hcu, h4, k4]; omega
    rw [sxEst_iv (by omega) k2 hu hcu'] at he
    rw [sxEst_iv h1 h2 h3 h4]
    obtain ⟨e', h6, h7⟩ := (Estimate.C59_consistent h (P.binary r hr).2 he).2.1 (P.binary r hr).1 (b' - a') d (by omega) k5
    rw [show n - b' + (b' - a') = n - a' by omega] at h6
    exact ⟨e', h6, by rw [add_assoc, add_comm d]; rw [add_assoc] at h7; exact h7⟩
  right r hr v w c d e hv hw hc he := by
    obtain ⟨a, b, h1, h2, h3, h4, h5⟩ := derives_iv P hn hv
    obtain ⟨a', b', k1, k2, k3, k4, k5⟩ := derives_iv P hn hw
    simp only at h3 h4 k3 k4
    have hcomp := (Concat.C41_concat_small _ _ v w _ (P.encodes r hr) (by rw [h3, spans_iv h1 (by omega)]; rfl) (by rw [k3, spans_iv k1 (by omega)]; rfl)).1 hc
    rw [h3, k3] at hcomp
    have hadj := composes_iv h1 (by omega) k1 (by omega) hcomp
    subst hadj
    have L := laws_small hn
    have hvu := L.combine_mem v (derives_univ L hv).1 w (derives_univ L hw).1 _ _ hc
    have hcu := L.combine_count v (derives_univ L hv).1 w (derives_univ L hw).1 _ _ hc
    have hu : (smallOps.combine v w).getLsbD = iv a b' := by
      funext j
      rw [hvu j, h3, k3, iv, iv, iv, ← Bool.decide_or]
      congr 1
      simp only [eq_iff_iff]; omega
    have hcu' : popcount (smallOps.combine v w) = b' - a := by
      rw [show popcount (smallOps.combine v w) = popcount v + popcount w from hcu, h4, k4]; omega
    rw [sxEst_iv (by omega) k2 hu hcu'] at he
    rw [sxEst_iv k1 k2 k3 k4]
    obtain ⟨e', h6, h7⟩ := (Estimate.C59_consistent h (P.binary r hr).2 he).2.2 (P.binary r hr).1 (a' - a) c (by omega) h5
    rw [show a + (a' - a) = a' by omega] at h6
    exact ⟨e', h6, by rw [add_assoc, add_comm c]; rw [add_assoc] at h7; exact h7⟩

/-- **C59**: a sentence of at most `maxlen` (and 64) words, parsed with a PCFG and the table that `getpcfgestimates` computes for it, gets the same best cost as without estimates, provided that this is at most
`MAX_LOGPROB`. -/
theorem C59_sx (P : Spec.Pcfg g G n) (UG : Estimate.Spec.Usable G) (hn : 0 < n) (hn2 : n ≤ 64) {maxlen : Nat} (hmax : n ≤ maxlen) {start : Nat} (U : Spec.Parsable g n start) {M : R}
    {pickI : Dict Estimate.In R → Estimate.In} (hpI : Estimate.Spec.PicksLeast pickI) {pickO : Dict Estimate.Out R → Estimate.Out} (hpO : Estimate.Spec.PicksLeast pickO) {fuelI fuelO : Nat}
    (hfI : (Estimate.labels G).length * (maxlen + 1) ≤ fuelI) (hfO : (2 * G.bylhs.length + 1) * (maxlen * maxlen) ≤ fuelO)
    {pick : Nat → Dict (Item Word) (R × R) → Item Word} (hp : Spec.PicksLeast pick) (ex : Bool) {labels : List Nat} (hlex : ∀ i < n, ∀ t p, (t, p) ∈ g.lexicon i → t ∈ labels)
    (hun : ∀ r ∈ g.unary, r.lhs ∈ labels) (hbin : ∀ r ∈ g.lbinary, r.lhs ∈ labels) {fuel : Nat} (hf : labels.length * 2 ^ n ≤ fuel) {goal : Word} (hgoal : ∀ j, goal.getLsbD j = decide (j < n)) :
    ∃ out, Estimate.getpcfgestimates G maxlen start pickI pickO fuelI fuelO = some out ∧
      ((∃ i < n, parse (sxEst out n) M smallOps g allowed pick ⟨start, goal⟩ ex n fuel = some (.notags i) ∧ ∀ d, Spec.Derives smallOps g allowed n ⟨start, goal⟩ d → M < d) ∨
      ∃ st, parse (sxEst out n) M smallOps g allowed pick ⟨start, goal⟩ ex n fuel = some (.ok st) ∧
        (∀ c, st.probs ⟨start, goal⟩ = some c ↔ IsLeast {d | Spec.Derives smallOps g allowed n ⟨start, goal⟩ d} c ∧ c ≤ M) ∧
        ((∃ d, Spec.Derives smallOps g allowed n ⟨start, goal⟩ d ∧ d ≤ M) → st.probs ⟨start, goal⟩ ≠ none) ∧
        ∀ x c, st.probs x = some c → IsLeast {d | Spec.Derives smallOps g allowed n x d} c ∧ ∃ e ∈ st.forest x, Spec.Explains smallOps g st.probs x c e) := by
  obtain ⟨out, h1, h2⟩ := Estimate.C59_estimates (goal := start) UG (by omega : 1 ≤ maxlen) hpI hpO hfI hfO
  refine ⟨out, h1, ?_⟩
  have L := laws_small hn2
  have hiv : goal.getLsbD = iv 0 n := by
    funext j
    rw [hgoal, iv]
    congr 1
    simp
  have hcount : popcount goal = n := by
    rw [popcount, List.countP_eq_length_filter]
    have : (List.range 64).filter goal.getLsbD = List.range n := by
      have := members_iv (a := 0) hn2
      rw [Concat.Spec.members, Nat.sub_zero, ← hiv] at this
      rw [List.range_eq_range', this, Nat.sub_zero, List.range_eq_range']
    rw [this, List.length_range]
  refine C59_astar (goal := ⟨start, goal⟩) (M := M) (fuel := fuel) L hn U (sx_consistent P hn2 hmax h2) ?_ (fun j hj => by simp [hgoal, hj]) hp ex
    (items := labels.flatMap (fun t => (allSets n makeSmall).map (fun v => (⟨t, v⟩ : Item Word)))) ?_ ?_
  · rw [sxEst_iv hn (le_refl _) hiv (by rw [hcount]; omega), Nat.sub_self]
    have hb := h2 start 0 0 (by omega)
    cases ho : out (start, 0, 0) with
    | none => rw [ho] at hb; exact absurd .goal (hb 0)
    | some c =>
      rw [ho] at hb
      rw [le_antisymm (hb.2 0 .goal) (Estimate.context_nonneg UG hb.1)]
  · intro x c hx
    refine List.mem_flatMap.2 ⟨x.label, ?_, List.mem_map.2 ⟨x.vec, (derives_univ L hx).1, rfl⟩⟩
    cases hx with
    | lex hi ht _ => exact hlex _ hi _ _ ht
    | unary hr _ _ => exact hun _ hr
    | binary hr _ _ _ _ => exact hbin _ hr
  · refine le_trans (le_of_eq ?_) hf
    rw [← length_allSets n makeSmall]
    clear hlex hun hbin hf
    induction labels with
    | nil => simp
    | cons t labels ih => rw [List.flatMap_cons, List.length_append, ih, List.length_map, List.length_cons, Nat.succ_mul, Nat.add_comm]

end

/-! ### Examples -/

/-- S (1) → N (2) P (4), P → V (3) N | V, with the words n, v, n. -/
def exG : Estimate.Gram Int where
  nonterminals := 5
  lexical := [(2, 1), (3, 2)]
  unary := [⟨4, 3, 0, 4⟩]
  lbinary := [⟨1, 2, 4, 1⟩, ⟨4, 3, 2, 2⟩]
  rbinary := [⟨4, 3, 2, 2⟩, ⟨1, 2, 4, 1⟩]
  bylhs := [⟨1, 2, 4, 1⟩, ⟨4, 3, 0, 4⟩, ⟨4, 3, 2, 2⟩]

/-- The same grammar for the parser. -/
def exg : Grammar Int where
  unary := [⟨4, 3, 0, 0, 0, 4, 0⟩]
  lbinary := [⟨1, 2, 4, 0b10, 0b10, 1, 1⟩, ⟨4, 3, 2, 0b10, 0b10, 2, 2⟩]
  rbinary := [⟨4, 3, 2, 0b10, 0b10, 2, 2⟩, ⟨1, 2, 4, 0b10, 0b10, 1, 1⟩]
  lexicon i := if i = 1 then [(3, 2)] else [(2, 1)]

theorem exEncodes : Concat.Spec.Encodes 0b10 0b10 [[0, 1]] := by
  obtain ⟨s, h1, h2, _⟩ := YieldBits.C41_readYF [[0, 1]] ⟨by decide, by decide, by decide⟩
  have e : YieldBits.readYF (YieldBits.Spec.text [[0, 1]]) = some ⟨0b10, 0b10, 2, 1, 1, 1⟩ := by decide +kernel
  rw [e] at h1
  injection h1 with h1; subst h1
  exact h2

example : Spec.Pcfg exg exG 3 ∧ Spec.Parsable exg 3 1 ∧ Estimate.Spec.Usable exG := by
  refine ⟨⟨?_, by decide, by decide, ?_⟩, ⟨by decide, by decide, ?_, by decide⟩, ⟨by decide, by decide, ?_, ?_, ?_, ?_⟩⟩
  · intro i hi x hx
    rcases (by omega : i = 0 ∨ i = 1 ∨ i = 2) with rfl | rfl | rfl <;> revert hx <;> simp [exg, exG] <;> rintro rfl <;> simp
  · intro r hr
    simp only [exg, List.mem_cons, List.not_mem_nil, or_false] at hr
    rcases hr with rfl | rfl <;> exact exEncodes
  · intro r; simp only [exg, List.mem_cons, List.not_mem_nil, or_false]; exact or_comm
  · intro r
    constructor
    · intro h; simp only [exG, List.mem_singleton] at h; subst h; decide
    · rintro ⟨h, h0⟩
      simp only [exG, List.mem_cons, List.not_mem_nil, or_false] at h
      rcases h with rfl | rfl | rfl
      · cases h0
      · decide
      · cases h0
  · intro r
    constructor
    · intro h; simp only [exG, List.mem_cons, List.not_mem_nil, or_false] at h; rcases h with rfl | rfl <;> decide
    · rintro ⟨h, h0⟩
      simp only [exG, List.mem_cons, List.not_mem_nil, or_false] at h
      rcases h with rfl | rfl | rfl
      · decide
      · exact absurd rfl h0
      · decide
  · intro r
    constructor
    · intro h; simp only [exG, List.mem_cons, List.not_mem_nil, or_false] at h; rcases h with rfl | rfl <;> decide
    · rintro ⟨h, h0⟩
      simp only [exG, List.mem_cons, List.not_mem_nil, or_false] at h
      rcases h with rfl | rfl | rfl
      · decide
      · exact absurd rfl h0
      · decide
  · intro l
    exact ⟨(List.length_filter_le _ _).trans (by decide), (List.length_filter_le _ _).trans (by decide), (List.length_filter_le _ _).trans (by decide)⟩

/-- The cost of the goal, with estimates and a value for `MAX_LOGPROB`. -/
def exCost (M : Int) (ex : Bool) : Option (Option Int) :=
  (Estimate.getpcfgestimates exG 4 1 Estimate.pickMin Estimate.pickMin 99 999).bind (fun out =>
    match parse (sxEst out 3) M smallOps exg (fun _ => true) (pickFirst ⟨0, 0⟩) ⟨1, 7⟩ ex 3 40 with
    | some (.ok st) => some (st.probs ⟨1, 7⟩)
    | _ => none)

-- 1 + 1 + (2 + 2 + 1)
example : exCost 300 false = some (some 7) ∧ exCost 300 true = some (some 7) := by decide +kernel

/-- A grammar in which every derivation of the sentence is unlikely: S (1) → N (2) N costs 100, the word costs 150. -/
def farG : Estimate.Gram Int where
  nonterminals := 3
  lexical := [(2, 150)]
  unary := []
  lbinary := [⟨1, 2, 2, 100⟩]
  rbinary := [⟨1, 2, 2, 100⟩]
  bylhs := [⟨1, 2, 2, 100⟩]

/-- The same grammar for the parser. -/
def farg : Grammar Int where
  unary := []
  lbinary := [⟨1, 2, 2, 0b10, 0b10, 100, 0⟩]
  rbinary := [⟨1, 2, 2, 0b10, 0b10, 100, 0⟩]
  lexicon _ := [(2, 150)]

/-- **C59, disagreement**: with estimates, a sentence whose best derivation costs more than `MAX_LOGPROB` (300) gets no parse (the first word is reported to have no tags), although the parser finds the derivation
without estimates. -/
theorem C59_max_disagreement : ((Estimate.getpcfgestimates farG 2 1 Estimate.pickMin Estimate.pickMin 99 99).bind (fun out =>
      match parse (sxEst out 2) 300 smallOps farg (fun _ => true) (pickFirst ⟨0, 0⟩) ⟨1, 3⟩ false 2 8 with
      | some (.notags i) => some i
      | _ => none)) = some 0 ∧
    (match Plcfrs.parse smallOps farg 300 (fun _ => true) (pickFirst ⟨0, 0⟩) ⟨1, 3⟩ false 2 8 with
      | some (.ok st) => st.probs ⟨1, 3⟩
      | _ => none) = some 400 ∧
    Spec.Derives smallOps farg (fun _ => true) 2 ⟨1, 3⟩ 400 := by
  refine ⟨by decide +kernel, by decide +kernel, ?_⟩
  have h1 : Spec.Derives smallOps farg (fun _ => true) 2 ⟨2, 1⟩ 150 := .lex (o := smallOps) (i := 0) (by decide) (by decide) rfl
  have h2 : Spec.Derives smallOps farg (fun _ => true) 2 ⟨2, 2⟩ 150 := .lex (o := smallOps) (i := 1) (by decide) (by decide) rfl
  exact .binary (r := ⟨1, 2, 2, 0b10, 0b10, 100, 0⟩) (by decide) h1 h2 (by decide +kernel) rfl

end Disco.Astar
