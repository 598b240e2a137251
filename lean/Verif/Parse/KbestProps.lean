import Verif.Parse.KbestRun
import Mathlib.Algebra.Order.Group.Nat
/-!
# C26: k-best extraction is sound, ordered, free of duplicates and complete
-/
set_option linter.unusedSectionVars false
namespace Disco.Kbest

variable {V R : Type} [DecidableEq V] [AddCommMonoid R] [LinearOrder R] [IsOrderedAddMonoid R]
variable {ch : Chart V R} {lc : V → R} {ht : V → Nat} {k1 : Nat}

/-! ### Derivations denoted by ranked edges -/

theorem isDeriv_cost {v : V} {d : Deriv} {c c' : R} (h : Spec.IsDeriv ch lc v d c) (h' : Spec.IsDeriv ch lc v d c') : c = c' := by
  induction h generalizing c' with
  | lex => cases h'; rfl
  | un he hr hb _ ih =>
    cases h' with
    | un he' hr' hb' h2 =>
      rw [hr] at hr'; cases hr'
      rw [ih h2]
  | bin he hr hb _ _ ih ih' =>
    cases h' with
    | bin he' hr' hb' h2 h3 =>
      rw [hr] at hr'; cases hr'
      rw [ih h2, ih' h3]

theorem den_total (hok : Spec.Ok ch lc ht) {st : State V R} (hi : Inv ch lc k1 st) (n : Nat) : ∀ {v : V} {re : RE} {c : R}, ht v ≤ n →
    Val ch lc st v re c → ∃ d, Den ch st v re d ∧ Spec.IsDeriv ch lc v d c := by
  induction n with
  | zero =>
    intro v re c hv h
    cases h with
    | lex h1 h2 => exact ⟨_, .lex h2, .lex h1 h2⟩
    | un h1 h2 h3 h4 => have := hok.acycl _ _ _ h1 h2; omega
    | bin h1 h2 h3 h4 h5 => have := hok.acycl _ _ _ h1 h2; omega
  | succ n ih =>
    intro v re c hv h
    cases h with
    | lex h1 h2 => exact ⟨_, .lex h2, .lex h1 h2⟩
    | un h1 h2 h3 h4 =>
      have hl := hok.acycl _ _ _ h1 h2
      obtain ⟨d, hd, hd'⟩ := ih (by omega) (hi.VL_val hok _ (List.mem_of_getElem? h4))
      exact ⟨_, .un h2 h3 h4 hd, .un h1 h2 h3 hd'⟩
    | bin h1 h2 h3 h4 h5 =>
      have hl := hok.acycl _ _ _ h1 h2
      have hr := hok.acycr _ _ _ h1 h2 h3
      obtain ⟨d, hd, hd'⟩ := ih (by omega) (hi.VL_val hok _ (List.mem_of_getElem? h4))
      obtain ⟨e, he, he'⟩ := ih (by omega) (hi.VL_val hok _ (List.mem_of_getElem? h5))
      exact ⟨_, .bin h2 h3 h4 hd h5 he, .bin h1 h2 h3 hd' he'⟩

theorem den_fun {st : State V R} {v : V} {re : RE} {d d' : Deriv} (h : Den ch st v re d) (h' : Den ch st v re d') : d = d' := by
  induction h generalizing d' with
  | lex => cases h'; rfl
  | un h1 h2 h3 _ ih =>
    cases h' with
    | un _ _ h3' h4' =>
      rw [h3] at h3'; cases h3'
      rw [ih h4']
  | bin h1 h2 h3 _ h5 _ ih ih' =>
    cases h' with
    | bin _ _ h3' h4' h5' h6' =>
      rw [h3] at h3'; cases h3'
      rw [h5] at h5'; cases h5'
      rw [ih h4', ih' h6']

theorem nodup_get {xs : List (RE × R)} (h : (xs.map Prod.fst).Nodup) {i j : Nat} {x y : RE × R} (hx : xs[i]? = some x)
    (hy : xs[j]? = some y) (he : x.1 = y.1) : i = j := by
  rw [List.getElem?_eq_some_iff] at hx hy
  obtain ⟨hi, rfl⟩ := hx
  obtain ⟨hj, rfl⟩ := hy
  have := (List.nodup_iff_injective_get.1 h) (a₁ := ⟨i, by simpa using hi⟩) (a₂ := ⟨j, by simpa using hj⟩) (by simpa using he)
  simpa using this

theorem den_inj {st : State V R} (hi : Inv ch lc k1 st) {v : V} {re re' : RE} {d : Deriv} (h : Den ch st v re d)
    (h' : Den ch st v re' d) : re = re' := by
  induction h generalizing re' with
  | lex => cases h'; rfl
  | un h1 h2 h3 _ ih =>
    cases h' with
    | un _ _ h3' h4' =>
      have := nodup_get (hi.VL_nodup _) h3 h3' (ih h4')
      rw [this]
  | bin h1 h2 h3 _ h5 _ ih ih' =>
    cases h' with
    | bin _ _ h3' h4' h5' h6' =>
      have e1 := nodup_get (hi.VL_nodup _) h3 h3' (ih h4')
      have e2 := nodup_get (hi.VL_nodup _) h5 h5' (ih' h6')
      rw [e1, e2]

/-! ### Completeness: the order of the rank vectors -/

/-- Comparison of ranks. -/
def optLe : Option Nat → Option Nat → Prop
  | none, none => True
  | some a, some b => a ≤ b
  | _, _ => False

/-- The same edge with smaller or equal ranks. -/
def RE.le (y x : RE) : Prop := y.edge = x.edge ∧ ∀ i, optLe (y.rank i) (x.rank i)

theorem RE.ext' {x y : RE} (h : x.edge = y.edge) (hr : ∀ i, x.rank i = y.rank i) : x = y := by
  cases x; cases y
  have h1 := hr false
  have h2 := hr true
  simp only [RE.rank] at h1 h2 h
  simp [h, h1, h2]

theorem RE.le_refl (x : RE) : x.le x := by
  refine ⟨rfl, fun i => ?_⟩
  cases x.rank i <;> simp [optLe]

theorem RE.le_init {x y : RE} (hx : ¬ x.noninit) (h : y.le x) : y = x := by
  refine RE.ext' h.1 fun i => ?_
  have h1 := h.2 i
  cases hx' : x.rank i with
  | none => rw [hx'] at h1; cases hy : y.rank i with
    | none => rfl
    | some a => rw [hy] at h1; exact h1.elim
  | some b =>
    cases b with
    | succ b => exact absurd ⟨i, b, hx'⟩ hx
    | zero =>
      rw [hx'] at h1
      cases hy : y.rank i with
      | none => rw [hy] at h1; exact h1.elim
      | some a => rw [hy] at h1; simp only [optLe, Nat.le_zero] at h1; rw [h1]

/-- A ranked edge with one rank replaced. -/
def RE.setRank (x : RE) (a : Nat) : Bool → RE
  | false => { x with left := some a }
  | true => { x with right := some a }

theorem setRank_edge (x : RE) (a : Nat) (i : Bool) : (x.setRank a i).edge = x.edge := by cases i <;> rfl
theorem setRank_rank (x : RE) (a : Nat) (i j : Bool) : (x.setRank a i).rank j = if j = i then some a else x.rank j := by
  cases i <;> cases j <;> rfl
theorem bump_edge (x : RE) (i : Bool) : (x.bump i).edge = x.edge := by cases i <;> rfl
theorem bump_rank (x : RE) (i j : Bool) : (x.bump i).rank j = if j = i then (x.rank j).map (· + 1) else x.rank j := by
  cases i <;> cases j <;> rfl

/-- Costs increase with the ranks. -/
theorem val_mono {st : State V R} (hi : Inv ch lc k1 st) {v : V} {x y : RE} {c c' : R} (hx : Val ch lc st v x c) (hy : Val ch lc st v y c')
    (h : y.le x) : c' ≤ c := by
  obtain ⟨he, hr⟩ := h
  have h0 := hr false
  have h1 := hr true
  cases hx with
  | lex a1 a2 =>
    cases hy with
    | lex b1 b2 => exact _root_.le_refl _
    | un b1 b2 b3 b4 => simp [RE.rank, optLe] at h0
    | bin b1 b2 b3 b4 b5 => simp [RE.rank, optLe] at h0
  | un a1 a2 a3 a4 =>
    cases hy with
    | lex b1 b2 => simp [RE.rank, optLe] at h0
    | un b1 b2 b3 b4 =>
      simp only at he; subst he
      rw [a2] at b2; cases b2
      have := pairwise_get (hi.VL_sorted _) b4 a4 h0
      gcongr
    | bin b1 b2 b3 b4 b5 => simp [RE.rank, optLe] at h1
  | bin a1 a2 a3 a4 a5 =>
    cases hy with
    | lex b1 b2 => simp [RE.rank, optLe] at h0
    | un b1 b2 b3 b4 => simp [RE.rank, optLe] at h1
    | bin b1 b2 b3 b4 b5 =>
      simp only at he; subst he
      rw [a2] at b2; cases b2
      exact add_le_add (add_le_add (_root_.le_refl _) (pairwise_get (hi.VL_sorted _) b4 a4 h0)) (pairwise_get (hi.VL_sorted _) b5 a5 h1)

/-- Each entry comes after all entries with smaller ranks; `S` are the keys before the list. -/
def Down (S : RE → Prop) : List (RE × R) → Prop
  | [] => True
  | x :: xs => (∀ y : RE, y.le x.1 → y ≠ x.1 → S y) ∧ Down (fun t => S t ∨ t = x.1) xs

theorem Down.mono {S S' : RE → Prop} {xs : List (RE × R)} (h : Down S xs) (hS : ∀ t, S t → S' t) : Down S' xs := by
  induction xs generalizing S S' with
  | nil => exact True.intro
  | cons x xs ih => exact ⟨fun y h1 h2 => hS _ (h.1 y h1 h2), ih h.2 (fun t => Or.imp_left (hS t))⟩

theorem Down.append {S : RE → Prop} {xs ys : List (RE × R)} :
    Down S (xs ++ ys) ↔ Down S xs ∧ Down (fun t => S t ∨ t ∈ xs.map Prod.fst) ys := by
  induction xs generalizing S with
  | nil => simp [Down]
  | cons x xs ih =>
    rw [List.cons_append, Down, Down, ih, and_assoc]
    refine and_congr_right fun _ => and_congr_right fun _ => ?_
    have : (fun t => (S t ∨ t = x.1) ∨ t ∈ xs.map Prod.fst) = fun t => S t ∨ t ∈ (x :: xs).map Prod.fst := by
      funext t
      simp only [List.map_cons, List.mem_cons, eq_iff_iff]
      tauto
    rw [this]

theorem Down.mem {S : RE → Prop} {xs : List (RE × R)} (h : Down S xs) {x : RE × R} (hx : x ∈ xs) {y : RE} (hle : y.le x.1) :
    S y ∨ y ∈ xs.map Prod.fst := by
  obtain ⟨A, B, rfl⟩ := List.append_of_mem hx
  by_cases he : y = x.1
  · right; rw [he]; simp
  · rcases (Down.append.1 h).2.1 y hle he with h | h
    · exact .inl h
    · right; rw [List.map_append]; exact List.mem_append_left _ h

/-- The second invariant, which holds in the absence of collisions. -/
structure Comp (ch : Chart V R) (st : State V R) : Prop where
  col : ∀ v, ∀ re ∈ st.explored, re.edge ∈ ch.forest v → re ∈ (st.L v ++ st.candL v).map Prod.fst
  down : ∀ v, Down (fun _ => False) (st.L v ++ st.candL v)
  rule : ∀ re ∈ st.explored, re.edge.rule ≠ none

theorem Comp.start : Comp ch (⟨fun _ => [], fun _ => none, []⟩ : State V R) where
  col := by simp
  down := by intro v; simp [State.candL, Down]
  rule := by simp

theorem Val.rule_of_rank {st : State V R} {v : V} {re : RE} {c : R} (h : Val ch lc st v re c) {i : Bool} {r : Nat}
    (hr : re.rank i = some r) : re.edge.rule ≠ none := by
  cases h with
  | lex h1 h2 => cases i <;> cases hr
  | un h1 h2 h3 h4 => simp [h2]
  | bin h1 h2 h3 h4 h5 => simp [h2]

theorem Comp.step (hnc : Spec.NoCollision ch) {v : V} {st st' : State V R} (h : Step ch k1 v st st')
    (hi : Inv ch lc k1 st) (hc : Comp ch st) : Comp ch st' := by
  cases h with
  | visit h1 h2 =>
    have hL0 := hi.unv v h2
    have hcL0 : st.candL v = [] := by simp [State.candL, h2]
    have hcL : ∀ w, (State.candL { st with cand := upd st.cand v (some (ch.gc v k1)) } w) = if w = v then ch.gc v k1 else st.candL w := by
      intro w; unfold State.candL upd; simp only; split <;> simp
    refine ⟨?_, ?_, hc.rule⟩
    · intro w re hre he
      have := hc.col w re hre he
      rw [hcL]
      split
      next hw => subst hw; rw [hL0, hcL0] at this; cases this
      next hw => exact this
    · intro w
      rw [hcL]
      split
      next hw =>
        subst hw
        rw [hL0, List.nil_append]
        have : ∀ (xs : List (RE × R)) (S : RE → Prop), (∀ x ∈ xs, ¬ x.1.noninit) → Down S xs := by
          intro xs
          induction xs with
          | nil => intro S _; exact True.intro
          | cons x xs ih =>
            intro S hx
            refine ⟨fun y hle hne => absurd (RE.le_init (hx x (by simp)) hle) hne, ih _ (fun x' hx' => hx x' (List.mem_cons_of_mem _ hx'))⟩
        refine this _ _ ?_
        intro x hx
        obtain ⟨e, -, rfl⟩ := gc_mem ch hx
        exact entry_init _ _
      next hw => exact hc.down w
  | @push _ _ x i r p h1 h2 h3 h4 h5 =>
    have hxm := getLast_mem h1
    have hxW : x ∈ st.L v ++ st.candL v := List.mem_append_left _ hxm
    have hxv := hi.val v x hxW
    have hcL : ∀ w, (st.push v (x.1.bump i) p).candL w = if w = v then st.candL v ++ [(x.1.bump i, p)] else st.candL w := by
      intro w; unfold State.push State.candL upd; simp only; split <;> simp
    have hL : ∀ w, (st.push v (x.1.bump i) p).L w = st.L w := fun w => rfl
    have hrule : (x.1.bump i).edge.rule ≠ none := by rw [bump_edge]; exact hxv.rule_of_rank h2
    refine ⟨?_, ?_, ?_⟩
    · intro w re hre he
      rw [hcL, hL]
      rcases List.mem_cons.1 hre with rfl | hre
      · have : w = v := hnc w v (x.1.bump i).edge hrule he (by rw [bump_edge]; exact hxv.edge)
        subst this
        rw [if_pos rfl, ← List.append_assoc, List.map_append]
        exact List.mem_append_right _ (by simp)
      · have := hc.col w re hre he
        split
        next hw =>
          subst hw
          rw [← List.append_assoc, List.map_append]
          exact List.mem_append_left _ this
        next hw => exact this
    · intro w
      rw [hcL, hL]
      split
      next hw =>
        subst hw
        rw [← List.append_assoc, Down.append]
        refine ⟨hc.down w, ?_, True.intro⟩
        intro y hle hne
        right
        simp only at hle hne
        -- the rank of y in the coordinate that was increased
        have hyi := hle.2 i
        rw [bump_rank, if_pos rfl, h2] at hyi
        cases hy : y.rank i with
        | none => rw [hy] at hyi; exact hyi.elim
        | some a =>
          rw [hy] at hyi
          simp only [Option.map_some, optLe] at hyi
          rcases Nat.lt_or_ge r a with hlt | hge
          · have ha : a = r + 1 := by omega
            subst ha
            -- y is the successor of an entry before x
            let y0 := y.setRank r i
            have hy0x : y0.le x.1 := by
              refine ⟨by rw [setRank_edge]; exact hle.1.trans (bump_edge _ _), fun j => ?_⟩
              rw [setRank_rank]
              split
              next hj => subst hj; rw [h2]; simp [optLe]
              next hj =>
                have := hle.2 j
                rw [bump_rank, if_neg hj] at this
                exact this
            have hy0b : y0.bump i = y := by
              refine RE.ext' (by rw [bump_edge, setRank_edge]) fun j => ?_
              rw [bump_rank, setRank_rank]
              split
              next hj => subst hj; rw [hy]; rfl
              next hj => rfl
            have hy0ne : y0 ≠ x.1 := by
              intro he
              rw [he] at hy0b
              exact hne hy0b.symm
            obtain ⟨D, hD⟩ := List.getLast?_eq_some_iff.1 h1
            have hdown := hc.down w
            rw [hD, List.append_assoc, Down.append] at hdown
            have hmem := hdown.2.1 y0 hy0x hy0ne
            simp only [false_or] at hmem
            obtain ⟨z, hz, hze⟩ := List.mem_map.1 hmem
            have hpr := hi.proc w z (by rw [hD]; simpa using hz) i
            have hbe : y ∈ st.explored := by
              by_contra hb
              have := (hpr r (by rw [hze, setRank_rank, if_pos rfl]) (by rw [hze, hy0b]; exact hb)).2
              rw [hze, hy0x.1] at this
              omega
            exact hc.col w y hbe (by rw [hle.1, bump_edge]; exact hxv.edge)
          · -- y is below x
            have hyx : y.le x.1 := by
              refine ⟨hle.1.trans (bump_edge _ _), fun j => ?_⟩
              by_cases hj : j = i
              · subst hj; rw [hy, h2]; exact hge
              · have := hle.2 j
                rw [bump_rank, if_neg hj] at this
                exact this
            rcases (hc.down w).mem hxW hyx with h | h
            · exact h.elim
            · exact h
      next hw => exact hc.down w
    · intro re hre
      rcases List.mem_cons.1 hre with rfl | hre
      · exact hrule
      · exact hc.rule re hre
  | @pop _ _ c y rest h1 h2 h3 =>
    obtain ⟨A, B, hcc, hrest, hA, hB⟩ := popMin_some h2
    have hcand : st.candL v = A ++ y :: B := by rw [candL_of h1, hcc]
    have hL : ∀ w, upd st.L v (st.L v ++ [y]) w = if w = v then st.L v ++ [y] else st.L w := fun w => rfl
    have hcL : ∀ w, State.candL { st with L := upd st.L v (st.L v ++ [y]), cand := upd st.cand v (some rest) } w =
        if w = v then A ++ B else st.candL w := by
      intro w; unfold State.candL upd; simp only; split <;> simp [hrest]
    have hperm : (st.L v ++ [y] ++ (A ++ B)).Perm (st.L v ++ st.candL v) := by
      rw [hcand, List.append_assoc]
      refine List.Perm.append_left _ ?_
      exact (List.perm_middle (l₁ := A) (l₂ := B) (a := y)).symm
    refine ⟨?_, ?_, hc.rule⟩
    · intro w re hre he
      have := hc.col w re hre he
      simp only [hL, hcL]
      by_cases hw : w = v
      · subst hw
        simp only [if_true]
        exact (hperm.map _).mem_iff.2 this
      · simp only [hw, if_false]; exact this
    · intro w
      simp only [hL, hcL]
      by_cases hw : w = v
      · subst hw
        simp only [if_true]
        have hd := hc.down w
        rw [hcand, Down.append] at hd
        obtain ⟨hd1, hd2⟩ := hd
        rw [Down.append] at hd2
        obtain ⟨hd2, hd3, hd4⟩ := hd2
        rw [Down.append, Down.append]
        refine ⟨⟨hd1, ?_, True.intro⟩, ?_⟩
        · intro t hle hne
          rcases hd3 t hle hne with (h | h) | h
          · exact h.elim
          · exact .inr h
          · exfalso
            obtain ⟨z, hz, rfl⟩ := List.mem_map.1 h
            have hzW : z ∈ st.L w ++ st.candL w := by rw [hcand]; simp [hz]
            have hyW : y ∈ st.L w ++ st.candL w := by rw [hcand]; simp
            exact absurd (hA z hz) (not_lt.2 (val_mono hi (hi.val w y hyW) (hi.val w z hzW) hle))
        · rw [Down.append]
          refine ⟨hd2.mono ?_, hd4.mono ?_⟩
          · intro t ht
            rcases ht with ht | ht
            · exact ht.elim
            · right; rw [List.map_append]; exact List.mem_append_left _ ht
          · intro t ht
            rw [List.map_append]
            rcases ht with ((ht | ht) | ht) | ht
            · exact ht.elim
            · exact .inl (.inr (List.mem_append_left _ ht))
            · exact .inr ht
            · exact .inl (.inr (List.mem_append_right _ (by simp [ht])))
      · simp only [hw, if_false]
        exact hc.down w

theorem Steps.comp (hok : Spec.Ok ch lc ht) (hnc : Spec.NoCollision ch) {h : Nat} {st st' : State V R} (hs : Steps ch k1 ht h st st')
    (hi : Inv ch lc k1 st) (hc : Comp ch st) : Comp ch st' := by
  have : Inv ch lc k1 st' ∧ Comp ch st' := by
    induction hs with
    | refl => exact ⟨hi, hc⟩
    | tail _ hstep ih =>
      obtain ⟨v, -, hstep⟩ := hstep
      exact ⟨ih.1.step hok hstep, ih.2.step hnc hstep ih.1⟩
  exact this.2

/-! ### Completeness: every derivation is found or no better than what was found -/

/-- The status of a derivation of an item with cost `c`. -/
def Goal (ch : Chart V R) (k1 : Nat) (st : State V R) (v : V) (d : Deriv) (c : R) : Prop :=
  (∃ x ∈ VL ch st v, Den ch st v x.1 d) ∨ ((∀ x ∈ VL ch st v, x.2 ≤ c) ∧ ¬ Done ch st v) ∨
    (k1 ≤ (VL ch st v).length ∧ ∀ x ∈ (VL ch st v).take k1, x.2 ≤ c)

/-- If a sorted list has `n` entries that cost at most `c`, then so do its first `n` entries. -/
theorem take_le {L : List (RE × R)} (hs : L.Pairwise (fun x y => x.2 ≤ y.2)) {T : List RE} (hT : T.Nodup) {c : R}
    (hm : ∀ t ∈ T, ∃ y ∈ L, y.1 = t ∧ y.2 ≤ c) : T.length ≤ L.length ∧ ∀ x ∈ L.take T.length, x.2 ≤ c := by
  constructor
  · have : T.Subperm (L.map Prod.fst) := by
      refine hT.subperm fun t ht => ?_
      obtain ⟨y, hy, rfl, -⟩ := hm t ht
      exact List.mem_map_of_mem hy
    simpa using this.length_le
  · intro x hx
    by_contra hlt
    rw [not_le] at hlt
    obtain ⟨i, hi, hxi⟩ := List.mem_iff_getElem.1 hx
    rw [List.getElem_take] at hxi
    rw [List.length_take] at hi
    have : T.Subperm ((L.take i).map Prod.fst) := by
      refine hT.subperm fun t ht => ?_
      obtain ⟨y, hy, rfl, hyc⟩ := hm t ht
      obtain ⟨j, hj, hyj⟩ := List.mem_iff_getElem.1 hy
      have hji : j < i := by
        by_contra hge
        have hp := pairwise_get hs (x := x) (y := y) (i := i) (j := j) (by rw [List.getElem?_eq_getElem (by omega), hxi])
          (by rw [List.getElem?_eq_getElem hj, hyj]) (by omega)
        exact absurd (hlt.trans_le hp) (not_lt.2 hyc)
      refine List.mem_map_of_mem ?_
      rw [List.mem_iff_getElem]
      exact ⟨j, by rw [List.length_take]; omega, by rw [List.getElem_take]; exact hyj⟩
    have := this.length_le
    simp only [List.length_map, List.length_take] at this
    omega

/-- A rank that may still lead to the derivation `d` of the child. -/
def Tgt (ch : Chart V R) (k1 : Nat) (st : State V R) (u : V) (d : Deriv) (a : Nat) : Prop :=
  (∃ t z, a ≤ t ∧ (VL ch st u)[t]? = some z ∧ Den ch st u z.1 d) ∨ (a < k1 ∧ ∀ z ∈ VL ch st u, ¬ Den ch st u z.1 d)

theorem tgt_cost (hok : Spec.Ok ch lc ht) {st : State V R} (hi : Inv ch lc k1 st) {u : V} {d : Deriv} {c : R}
    (hd : Spec.IsDeriv ch lc u d c) (hg : Goal ch k1 st u d c) {a : Nat} (ht' : Tgt ch k1 st u d a) {z : RE × R}
    (hz : (VL ch st u)[a]? = some z) : z.2 ≤ c := by
  rcases ht' with ⟨t, z', hat, hz', hden⟩ | ⟨ha, hnd⟩
  · obtain ⟨d', hd1, hd2⟩ := den_total hok hi (ht u) (Nat.le_refl _) (hi.VL_val hok u (List.mem_of_getElem? hz'))
    have := den_fun hden hd1
    subst this
    rw [isDeriv_cost hd hd2]
    exact pairwise_get (hi.VL_sorted u) hz hz' hat
  · rcases hg with ⟨x, hx, hxd⟩ | ⟨h, -⟩ | ⟨-, h⟩
    · exact absurd hxd (hnd x hx)
    · exact h z (List.mem_of_getElem? hz)
    · refine h z ?_
      rw [List.getElem?_eq_some_iff] at hz
      obtain ⟨h1, h2⟩ := hz
      rw [List.mem_iff_getElem]
      exact ⟨a, by rw [List.length_take]; omega, by rw [List.getElem_take]; exact h2⟩

theorem done_L_ne (hk1 : 0 < k1) {st : State V R} (hi : Inv ch lc k1 st) {u : V} (hd : Done ch st u) : st.L u ≠ [] := by
  intro h0
  obtain ⟨h1, h2⟩ := hi.fresh u [] h0 hd.cand
  exact gc_ne ch h2 hk1 h1.symm

/-- From a processed entry one can proceed towards the derivation of a child, or there are enough entries. -/
theorem walk_step (hk1 : 0 < k1) {st : State V R} (hi : Inv ch lc k1 st) {v : V} {re : RE} {i : Bool} {a : Nat} {d : Deriv} {c : R}
    (hp : Proc ch st v re i) (hr : re.rank i = some a) (hg : Goal ch k1 st (ch.child v re.edge i) d c)
    (ht' : Tgt ch k1 st (ch.child v re.edge i) d a)
    (hne : ∀ z, (VL ch st (ch.child v re.edge i))[a]? = some z → ¬ Den ch st (ch.child v re.edge i) z.1 d) :
    (re.bump i ∈ st.explored ∧ Tgt ch k1 st (ch.child v re.edge i) d (a + 1)) ∨ a + 1 = k1 := by
  rcases ht' with ⟨t, z, hat, hz, hden⟩ | ⟨ha, hnd⟩
  · have hlt : a < t := by
      rcases Nat.lt_or_eq_of_le hat with h | rfl
      · exact h
      · exact absurd hden (hne z hz)
    refine .inl ⟨?_, .inl ⟨t, z, hlt, hz, hden⟩⟩
    by_contra hb
    obtain ⟨h1, h2⟩ := hp a hr hb
    rw [VL_of_L (done_L_ne hk1 hi h1), List.getElem?_eq_some_iff] at hz
    have := hz.1
    omega
  · rcases Nat.lt_or_ge (a + 1) k1 with hlt | hge
    · refine .inl ⟨?_, .inr ⟨hlt, hnd⟩⟩
      by_contra hb
      obtain ⟨h1, h2⟩ := hp a hr hb
      rcases hg with ⟨x, hx, hxd⟩ | ⟨-, h⟩ | ⟨h, -⟩
      · exact hnd x hx hxd
      · exact h h1
      · rw [VL_of_L (done_L_ne hk1 hi h1)] at h
        omega
    · exact .inr (by omega)

/-- The edge and the parts of a derivation. -/
def Deriv.edge : Deriv → Edge
  | .lex e => e
  | .un e _ => e
  | .bin e _ _ => e

def Deriv.sub : Deriv → Bool → Option Deriv
  | .lex _, _ => none
  | .un _ d, false => some d
  | .un _ _, true => none
  | .bin _ d _, false => some d
  | .bin _ _ d, true => some d

/-- A valid ranked edge with the edge of a derivation has ranks for exactly the parts of the derivation. -/
theorem shape {st : State V R} {v : V} {re : RE} {c c' : R} {d : Deriv} (h : Val ch lc st v re c') (hd : Spec.IsDeriv ch lc v d c)
    (he : re.edge = d.edge) (i : Bool) : ((re.rank i).isSome = true ↔ (d.sub i).isSome = true) := by
  cases h with
  | lex h1 h2 =>
    cases hd with
    | lex g1 g2 => cases i <;> simp [RE.rank, Deriv.sub]
    | un g1 g2 g3 g4 => simp only [Deriv.edge] at he; subst he; rw [h2] at g2; cases g2
    | bin g1 g2 g3 g4 g5 => simp only [Deriv.edge] at he; subst he; rw [h2] at g2; cases g2
  | un h1 h2 h3 h4 =>
    cases hd with
    | lex g1 g2 => simp only [Deriv.edge] at he; subst he; rw [h2] at g2; cases g2
    | un g1 g2 g3 g4 => cases i <;> simp [RE.rank, Deriv.sub]
    | bin g1 g2 g3 g4 g5 => simp only [Deriv.edge] at he; subst he; rw [h2] at g2; cases g2; rw [h3] at g3; cases g3
  | bin h1 h2 h3 h4 h5 =>
    cases hd with
    | lex g1 g2 => simp only [Deriv.edge] at he; subst he; rw [h2] at g2; cases g2
    | un g1 g2 g3 g4 => simp only [Deriv.edge] at he; subst he; rw [h2] at g2; cases g2; rw [h3] at g3; cases g3
    | bin g1 g2 g3 g4 g5 => cases i <;> simp [RE.rank, Deriv.sub]

/-- What is known about the parts of a derivation. -/
def Parts (ch : Chart V R) (lc : V → R) (k1 : Nat) (st : State V R) (v : V) (d : Deriv) : Prop :=
  ∀ i d1, d.sub i = some d1 → ∃ c1, Spec.IsDeriv ch lc (ch.child v d.edge i) d1 c1 ∧ Goal ch k1 st (ch.child v d.edge i) d1 c1

/-- A ranked edge that may lead to the derivation. -/
def Lead (ch : Chart V R) (k1 : Nat) (st : State V R) (v : V) (d : Deriv) (re : RE) : Prop :=
  re.edge = d.edge ∧ ∀ i d1, d.sub i = some d1 → ∀ r, re.rank i = some r → Tgt ch k1 st (ch.child v d.edge i) d1 r

theorem lead_cost (hok : Spec.Ok ch lc ht) {st : State V R} (hi : Inv ch lc k1 st) {v : V} {re : RE} {c c' : R} {d : Deriv}
    (h : Val ch lc st v re c') (hd : Spec.IsDeriv ch lc v d c) (hparts : Parts ch lc k1 st v d) (hlead : Lead ch k1 st v d re) : c' ≤ c := by
  obtain ⟨he, hl⟩ := hlead
  have hsh := shape h hd he
  cases h with
  | lex h1 h2 =>
    cases hd with
    | lex g1 g2 => exact _root_.le_refl _
    | un g1 g2 g3 g4 => have := hsh false; simp [RE.rank, Deriv.sub] at this
    | bin g1 g2 g3 g4 g5 => have := hsh false; simp [RE.rank, Deriv.sub] at this
  | un h1 h2 h3 h4 =>
    cases hd with
    | lex g1 g2 => have := hsh false; simp [RE.rank, Deriv.sub] at this
    | un g1 g2 g3 g4 =>
      simp only [Deriv.edge] at he; subst he
      rw [h2] at g2; cases g2
      obtain ⟨c1, hd1, hg1⟩ := hparts false _ rfl
      have := tgt_cost hok hi hd1 hg1 (hl false _ rfl _ rfl) h4
      rw [isDeriv_cost g4 hd1]
      gcongr
    | bin g1 g2 g3 g4 g5 => have := hsh true; simp [RE.rank, Deriv.sub] at this
  | bin h1 h2 h3 h4 h5 =>
    cases hd with
    | lex g1 g2 => have := hsh false; simp [RE.rank, Deriv.sub] at this
    | un g1 g2 g3 g4 => have := hsh true; simp [RE.rank, Deriv.sub] at this
    | bin g1 g2 g3 g4 g5 =>
      simp only [Deriv.edge] at he; subst he
      rw [h2] at g2; cases g2
      obtain ⟨c1, hd1, hg1⟩ := hparts false _ rfl
      obtain ⟨c2, hd2, hg2⟩ := hparts true _ rfl
      rw [isDeriv_cost g4 hd1, isDeriv_cost g5 hd2]
      exact add_le_add (add_le_add (_root_.le_refl _) (tgt_cost hok hi hd1 hg1 (hl false _ rfl _ rfl) h4))
        (tgt_cost hok hi hd2 hg2 (hl true _ rfl _ rfl) h5)

theorem lead_exact {st : State V R} {v : V} {re : RE} {c c' : R} {d : Deriv} (h : Val ch lc st v re c') (hd : Spec.IsDeriv ch lc v d c)
    (he : re.edge = d.edge) (hex : ∀ i d1, d.sub i = some d1 → ∀ r, re.rank i = some r →
      ∃ z, (VL ch st (ch.child v d.edge i))[r]? = some z ∧ Den ch st (ch.child v d.edge i) z.1 d1) : Den ch st v re d := by
  have hsh := shape h hd he
  cases h with
  | lex h1 h2 =>
    cases hd with
    | lex g1 g2 => simp only [Deriv.edge] at he; subst he; exact .lex h2
    | un g1 g2 g3 g4 => have := hsh false; simp [RE.rank, Deriv.sub] at this
    | bin g1 g2 g3 g4 g5 => have := hsh false; simp [RE.rank, Deriv.sub] at this
  | un h1 h2 h3 h4 =>
    cases hd with
    | lex g1 g2 => have := hsh false; simp [RE.rank, Deriv.sub] at this
    | un g1 g2 g3 g4 =>
      simp only [Deriv.edge] at he; subst he
      obtain ⟨z, hz, hz'⟩ := hex false _ rfl _ rfl
      exact .un h2 h3 hz hz'
    | bin g1 g2 g3 g4 g5 => have := hsh true; simp [RE.rank, Deriv.sub] at this
  | bin h1 h2 h3 h4 h5 =>
    cases hd with
    | lex g1 g2 => have := hsh false; simp [RE.rank, Deriv.sub] at this
    | un g1 g2 g3 g4 => have := hsh true; simp [RE.rank, Deriv.sub] at this
    | bin g1 g2 g3 g4 g5 =>
      simp only [Deriv.edge] at he; subst he
      obtain ⟨z, hz, hz'⟩ := hex false _ rfl _ rfl
      obtain ⟨y, hy, hy'⟩ := hex true _ rfl _ rfl
      exact .bin h2 h3 hz hz' hy hy'

/-- The sum of the ranks. -/
def RE.sum (re : RE) : Nat := re.left.getD 0 + re.right.getD 0

theorem bump_sum {re : RE} {i : Bool} {r : Nat} (h : re.rank i = some r) : (re.bump i).sum = re.sum + 1 := by
  cases i with
  | false => simp only [RE.rank] at h; simp [RE.bump, RE.sum, h]; omega
  | true => simp only [RE.rank] at h; simp [RE.bump, RE.sum, h]; omega

/-- One entry: it is the derivation, or no better than what was found, or one of its neighbours leads to the derivation. -/
theorem walkStep (hok : Spec.Ok ch lc ht) (hk1 : 0 < k1) {st : State V R} (hi : Inv ch lc k1 st) (hc : Comp ch st) {v : V} {d : Deriv} {c : R}
    (hd : Spec.IsDeriv ch lc v d c) (hparts : Parts ch lc k1 st v d) (hL : st.L v ≠ []) {x : RE × R} (hx : x ∈ st.L v ++ st.candL v)
    (hlead : Lead ch k1 st v d x.1)
    (hrec : ∀ i r, x.1.rank i = some r → x.1.bump i ∈ (st.L v ++ st.candL v).map Prod.fst → Lead ch k1 st v d (x.1.bump i) →
      Goal ch k1 st v d c) : Goal ch k1 st v d c := by
  have hVL := VL_of_L (ch := ch) hL
  have hxv := hi.val v x hx
  have hxc := lead_cost hok hi hxv hd hparts hlead
  rcases List.mem_append.1 hx with hxL | hxC
  swap
  · refine .inr (.inl ⟨?_, ?_⟩)
    · intro y hy
      rw [hVL] at hy
      exact (hi.le v y hy x hxC).trans hxc
    · intro hdone
      rw [candL_of hdone.cand] at hxC
      cases hxC
  have hP : (∀ i, Proc ch st v x.1 i) ∨ ((st.L v).getLast? = some x ∧ ¬ Done ch st v) := by
    by_cases hdone : Done ch st v
    · exact .inl fun i => hdone.proc hxL i
    · rcases dropLast_or_last hxL with h | h
      · exact .inl fun i => hi.proc v x h i
      · exact .inr ⟨h, hdone⟩
  rcases hP with hP | ⟨hlast, hnd⟩
  swap
  · refine .inr (.inl ⟨?_, hnd⟩)
    intro y hy
    rw [hVL] at hy
    exact (getLast_max (hi.sorted v) hlast y hy).trans hxc
  by_cases hex : ∀ i d1, d.sub i = some d1 → ∀ r, x.1.rank i = some r →
      ∃ z, (VL ch st (ch.child v d.edge i))[r]? = some z ∧ Den ch st (ch.child v d.edge i) z.1 d1
  · exact .inl ⟨x, by rw [hVL]; exact hxL, lead_exact hxv hd hlead.1 hex⟩
  push Not at hex
  obtain ⟨i, d1, hsub, r, hr, hne⟩ := hex
  obtain ⟨c1, hd1, hg1⟩ := hparts i d1 hsub
  have hchild : ch.child v x.1.edge i = ch.child v d.edge i := by rw [hlead.1]
  have hstep := walk_step hk1 hi (hP i) hr (by rw [hchild]; exact hg1) (by rw [hchild]; exact hlead.2 i d1 hsub r hr)
    (by rw [hchild]; exact hne)
  rcases hstep with ⟨hexp, htgt⟩ | hk
  · refine hrec i r hr (hc.col v _ hexp (by rw [bump_edge]; exact hxv.edge)) ⟨by rw [bump_edge]; exact hlead.1, ?_⟩
    intro j d2 hj r' hr'
    rw [bump_rank] at hr'
    split at hr'
    next hji =>
      subst hji
      rw [hr] at hr'
      cases hr'
      rw [hsub] at hj
      cases hj
      rw [hchild] at htgt
      exact htgt
    next hji => exact hlead.2 j d2 hj r' hr'
  · right; right
    have hdown := (Down.append.1 (hc.down v)).1
    have hT : ((List.range k1).map (fun a => x.1.setRank a i)).Nodup := by
      refine List.Nodup.map ?_ List.nodup_range
      intro a b hab
      have := congrArg (fun y => y.rank i) hab
      simpa [setRank_rank] using this
    have := take_le (L := st.L v) (hi.sorted v) hT (c := c) (by
      intro t ht
      obtain ⟨a, ha, rfl⟩ := List.mem_map.1 ht
      rw [List.mem_range] at ha
      have hle : (x.1.setRank a i).le x.1 := by
        refine ⟨setRank_edge _ _ _, fun j => ?_⟩
        rw [setRank_rank]
        split
        next hj => subst hj; rw [hr]; simp only [optLe]; omega
        next hj => exact (RE.le_refl x.1).2 j
      rcases hdown.mem hxL hle with h | h
      · exact h.elim
      · obtain ⟨y, hy, hye⟩ := List.mem_map.1 h
        refine ⟨y, hy, hye, (val_mono hi hxv (hi.val v y (List.mem_append_left _ hy)) (by rw [hye]; exact hle)).trans hxc⟩)
    rw [hVL]
    simpa using this

theorem walk (hok : Spec.Ok ch lc ht) (hk1 : 0 < k1) {st : State V R} (hi : Inv ch lc k1 st) (hc : Comp ch st) {v : V} {d : Deriv} {c : R}
    (hd : Spec.IsDeriv ch lc v d c) (hparts : Parts ch lc k1 st v d) (hL : st.L v ≠ []) (B : Nat)
    (hB : ∀ x ∈ st.L v ++ st.candL v, x.1.sum ≤ B) (n : Nat) : ∀ x ∈ st.L v ++ st.candL v, Lead ch k1 st v d x.1 → B - x.1.sum ≤ n →
    Goal ch k1 st v d c := by
  induction n with
  | zero =>
    intro x hx hlead hn
    refine walkStep hok hk1 hi hc hd hparts hL hx hlead ?_
    intro i r hr hmem
    obtain ⟨z, hz, hze⟩ := List.mem_map.1 hmem
    have := hB z hz
    rw [hze, bump_sum hr] at this
    have := hB x hx
    omega
  | succ n ih =>
    intro x hx hlead hn
    refine walkStep hok hk1 hi hc hd hparts hL hx hlead ?_
    intro i r hr hmem hlead'
    obtain ⟨z, hz, hze⟩ := List.mem_map.1 hmem
    refine ih z hz (by rw [hze]; exact hlead') ?_
    rw [hze, bump_sum hr]
    omega

/-- The initial entry of the edge of a derivation may lead to it. -/
theorem lead_entry (hk1 : 0 < k1) {st : State V R} {v : V} {d : Deriv} : Lead ch k1 st v d (ch.entry v d.edge).1 := by
  refine ⟨entry_edge _ _ _, ?_⟩
  intro i d1 hs r hr
  have hr0 : r = 0 := by
    cases r with
    | zero => rfl
    | succ r => exact absurd ⟨i, r, hr⟩ (entry_init _ _)
  subst hr0
  by_cases h : ∃ z ∈ VL ch st (ch.child v d.edge i), Den ch st (ch.child v d.edge i) z.1 d1
  · obtain ⟨z, hz, hden⟩ := h
    obtain ⟨t, ht⟩ := List.mem_iff_getElem?.1 hz
    exact .inl ⟨t, z, Nat.zero_le _, ht, hden⟩
  · push Not at h
    exact .inr ⟨hk1, h⟩

theorem Deriv.edge_mem {v : V} {d : Deriv} {c : R} (hd : Spec.IsDeriv ch lc v d c) : d.edge ∈ ch.forest v := by
  cases hd <;> assumption

theorem goal_of_parts (hok : Spec.Ok ch lc ht) (hk1 : 0 < k1) {st : State V R} (hi : Inv ch lc k1 st) (hc : Comp ch st) {v : V} {d : Deriv}
    {c : R} (hd : Spec.IsDeriv ch lc v d c) (hparts : Parts ch lc k1 st v d) : Goal ch k1 st v d c := by
  have hmem := Deriv.edge_mem hd
  by_cases hL : st.L v = []
  · right; left
    refine ⟨?_, fun hdone => done_L_ne hk1 hi hdone hL⟩
    obtain ⟨x, hx, -⟩ := gc_one ch (List.ne_nil_of_mem hmem)
    have hv := gc_one_vit hok hx
    intro y hy
    rw [VL, if_pos hL, hx, List.mem_singleton] at hy
    rw [hy, hv]
    exact hok.vit_le v d c hd
  have hVL := VL_of_L (ch := ch) hL
  have hcand : ∃ cs, st.cand v = some cs := by
    cases h : st.cand v with
    | none => exact absurd (hi.unv v h) hL
    | some cs => exact ⟨cs, rfl⟩
  obtain ⟨cs, hcs⟩ := hcand
  have hlead : Lead ch k1 st v d (ch.entry v d.edge).1 := lead_entry hk1
  have hval : Val ch lc st v (ch.entry v d.edge).1 (ch.entry v d.edge).2 := val_entry hok st (hi.VL_head hok) hmem
  have hcost := lead_cost hok hi hval hd hparts hlead
  have hinit : ∀ x ∈ ch.gc v k1, x ∈ st.L v ++ st.candL v := hi.init v (by rw [hcs]; simp)
  rcases gc_complete ch k1 hmem with h | ⟨hlen, hle⟩
  · obtain ⟨B, hB⟩ : ∃ B, ∀ x ∈ st.L v ++ st.candL v, x.1.sum ≤ B := by
      generalize st.L v ++ st.candL v = xs
      induction xs with
      | nil => exact ⟨0, by simp⟩
      | cons x xs ih =>
        obtain ⟨B, hB⟩ := ih
        refine ⟨B + x.1.sum, ?_⟩
        intro y hy
        rcases List.mem_cons.1 hy with rfl | hy
        · omega
        · have := hB y hy
          omega
    exact walk hok hk1 hi hc hd hparts hL B hB _ _ (hinit _ h) hlead (Nat.le_refl _)
  · by_cases hC : ∃ x ∈ ch.gc v k1, x ∈ st.candL v
    · obtain ⟨x, hx, hxC⟩ := hC
      right; left
      refine ⟨?_, ?_⟩
      · intro y hy
        rw [hVL] at hy
        exact (hi.le v y hy x hxC).trans ((hle x hx).trans hcost)
      · intro hdone
        rw [candL_of hdone.cand] at hxC
        cases hxC
    · push Not at hC
      right; right
      have := take_le (L := st.L v) (hi.sorted v) (gc_nodup ch v k1) (c := c) (by
        intro t ht
        obtain ⟨y, hy, rfl⟩ := List.mem_map.1 ht
        refine ⟨y, ?_, rfl, (hle y hy).trans hcost⟩
        rcases List.mem_append.1 (hinit y hy) with h | h
        · exact h
        · exact absurd h (hC y hy))
      rw [hVL]
      simpa [hlen] using this

theorem complete (hok : Spec.Ok ch lc ht) (hk1 : 0 < k1) {st : State V R} (hi : Inv ch lc k1 st) (hc : Comp ch st) {v : V} {d : Deriv} {c : R}
    (hd : Spec.IsDeriv ch lc v d c) : Goal ch k1 st v d c := by
  induction hd with
  | lex h1 h2 => exact goal_of_parts hok hk1 hi hc (.lex h1 h2) (by intro i d1 h; cases i <;> cases h)
  | un h1 h2 h3 h4 ih =>
    refine goal_of_parts hok hk1 hi hc (.un h1 h2 h3 h4) ?_
    intro i d1 h
    cases i with
    | true => cases h
    | false => cases h; exact ⟨_, h4, ih⟩
  | bin h1 h2 h3 h4 h5 ih ih' =>
    refine goal_of_parts hok hk1 hi hc (.bin h1 h2 h3 h4 h5) ?_
    intro i d1 h
    cases i with
    | true => cases h; exact ⟨_, h5, ih'⟩
    | false => cases h; exact ⟨_, h4, ih⟩

/-! ### Reading off the derivations -/

/-- Items that were not visited may have been given their first entry. -/
def FillOf (ch : Chart V R) (st0 st : State V R) : Prop := ∀ u, st.L u = st0.L u ∨ (st0.L u = [] ∧ st.L u = ch.gc u 1)

/-- Entries that exist are not changed. -/
def Keep (st st' : State V R) : Prop := ∀ u, st.L u ≠ [] → st'.L u = st.L u

theorem Keep.trans {st st' st'' : State V R} (h : Keep st st') (h' : Keep st' st'') : Keep st st'' := by
  intro u hu
  have h1 := h u hu
  rw [h' u (by rw [h1]; exact hu), h1]

theorem FillOf.get {st0 st : State V R} (h : FillOf ch st0 st) {u : V} (hu : st.L u ≠ []) : st.L u = VL ch st0 u := by
  rcases h u with h1 | ⟨h1, h2⟩
  · rw [VL, if_neg (by rw [← h1]; exact hu), h1]
  · rw [VL, if_pos h1, h2]

theorem fill_spec {st0 st : State V R} (hf : FillOf ch st0 st) {u : V} (hu : ch.forest u ≠ []) {i : Nat}
    {z : RE × R} (hz : (VL ch st0 u)[i]? = some z) :
    ∃ st', ch.fill u i st = some st' ∧ FillOf ch st0 st' ∧ Keep st st' ∧ st'.L u ≠ [] ∧ (st'.L u)[i]? = some z := by
  unfold Chart.fill
  split
  next h0 =>
    have h00 : st0.L u = [] := by
      rcases hf u with h | ⟨h, -⟩
      · rw [← h]; exact h0
      · exact h
    obtain ⟨x, hx, -⟩ := gc_one ch hu
    rw [VL, if_pos h00, hx] at hz
    have hi0 : i = 0 := by
      rw [List.getElem?_eq_some_iff] at hz
      obtain ⟨h1, -⟩ := hz
      simpa using h1
    subst hi0
    rw [if_pos rfl, hx]
    simp only [popMin]
    refine ⟨_, rfl, ?_, ?_, ?_, ?_⟩
    · intro w
      by_cases hw : w = u
      · subst hw
        right
        exact ⟨h00, by simp only [upd_same]; exact hx.symm⟩
      · simp only [upd_ne _ _ hw]
        exact hf w
    · intro w hw
      have : w ≠ u := by rintro rfl; exact hw h0
      simp only [upd_ne _ _ this]
    · simp only [upd_same]; simp
    · simp only [upd_same]; exact hz
  next h0 =>
    refine ⟨st, rfl, hf, fun _ _ => rfl, h0, ?_⟩
    rw [hf.get h0]
    exact hz

/-- A derivation can be read off from any state that agrees with `st` below the height of `v`. -/
def Ready (ch : Chart V R) (ht : V → Nat) (st0 st : State V R) (n : Nat) (v : V) (re : RE) (d : Deriv) : Prop :=
  Den ch st0 v re d ∧ ∀ st' : State V R, (∀ u, ht u < ht v → st.L u ≠ [] → st'.L u = st.L u) → ch.getderiv st' n v re = some d

theorem Ready.keep {st0 st st1 : State V R} {n : Nat} {v : V} {re : RE} {d : Deriv} (h : Ready ch ht st0 st n v re d) (hk : Keep st st1) :
    Ready ch ht st0 st1 n v re d := by
  refine ⟨h.1, fun st' h' => h.2 st' fun u hu hne => ?_⟩
  have := hk u hne
  rw [h' u hu (by rw [this]; exact hne), this]

theorem exploreChild_spec (hok : Spec.Ok ch lc ht) {k1 : Nat} {st0 st : State V R} (hi : Inv ch lc k1 st0) (hf : FillOf ch st0 st) {u : V}
    (hu : ch.forest u ≠ []) {i n : Nat} {z : RE × R} (hz : (VL ch st0 u)[i]? = some z)
    (ih : ∀ {re : RE} {c : R} {st : State V R}, FillOf ch st0 st → Val ch lc st0 u re c →
      ∃ st' d, ch.explore n u re st = some (true, st') ∧ FillOf ch st0 st' ∧ Keep st st' ∧ Ready ch ht st0 st' n u re d) :
    ∃ st' d, ch.exploreChild (ch.explore n) u (some i) st = some (true, st') ∧ FillOf ch st0 st' ∧ Keep st st' ∧ st'.L u ≠ [] ∧
      (st'.L u)[i]? = some z ∧ Ready ch ht st0 st' n u z.1 d := by
  obtain ⟨st1, h1, h2, h3, h4, h5⟩ := fill_spec hf hu hz
  obtain ⟨st2, d, h6, h7, h8, h9⟩ := ih h2 (hi.VL_val hok u (List.mem_of_getElem? hz))
  have hL := h8 u h4
  refine ⟨st2, d, ?_, h7, h3.trans h8, by rw [hL]; exact h4, by rw [hL]; exact h5, h9⟩
  simp only [Chart.exploreChild, h1, h5, h6]

theorem explore_spec (hok : Spec.Ok ch lc ht) {k1 : Nat} {st0 : State V R} (hi : Inv ch lc k1 st0) (n : Nat) : ∀ {v : V} {re : RE} {c : R}
    {st : State V R}, ht v < n → FillOf ch st0 st → Val ch lc st0 v re c →
    ∃ st' d, ch.explore n v re st = some (true, st') ∧ FillOf ch st0 st' ∧ Keep st st' ∧ Ready ch ht st0 st' n v re d := by
  induction n with
  | zero => intro v re c st hv; omega
  | succ n ih =>
    intro v re c st hv hf hval
    cases hval with
    | lex h1 h2 =>
      refine ⟨st, _, by simp [Chart.explore, h2], hf, fun _ _ => rfl, .lex h2, fun st' _ => by simp [Chart.getderiv, h2]⟩
    | un h1 h2 h3 h4 =>
      have hl := hok.acycl _ _ _ h1 h2
      obtain ⟨st1, d, g1, g2, g3, g4, g5, g6⟩ := exploreChild_spec hok hi hf (hok.nel _ _ _ h1 h2) h4 (ih (by omega))
      refine ⟨st1, .un _ d, ?_, g2, g3, .un h2 h3 h4 g6.1, ?_⟩
      · simp only [Chart.explore, h2, g1]; rfl
      · intro st' hst
        have e1 := hst _ hl g4
        have e2 := g6.2 st' (fun u hu hne => hst u (by omega) hne)
        simp only [Chart.getderiv, h2, e1, g5, e2]
    | bin h1 h2 h3 h4 h5 =>
      have hl := hok.acycl _ _ _ h1 h2
      have hr := hok.acycr _ _ _ h1 h2 h3
      obtain ⟨st1, d, g1, g2, g3, g4, g5, g6⟩ := exploreChild_spec hok hi hf (hok.nel _ _ _ h1 h2) h4 (ih (by omega))
      obtain ⟨st2, d', f1, f2, f3, f4, f5, f6⟩ := exploreChild_spec hok hi g2 (hok.ner _ _ _ h1 h2 h3) h5 (ih (by omega))
      refine ⟨st2, .bin _ d d', ?_, f2, g3.trans f3, .bin h2 h3 h4 g6.1 h5 f6.1, ?_⟩
      · simp only [Chart.explore, h2, g1, f1]
      · intro st' hst
        have g4' := f3 _ g4
        have e1 := hst _ hl (by rw [g4']; exact g4)
        have e2 := (g6.keep f3).2 st' (fun u hu hne => hst u (by omega) hne)
        have e3 := hst _ hr f4
        have e4 := f6.2 st' (fun u hu hne => hst u (by omega) hne)
        simp only [Chart.getderiv, h2, e1, g4', g5, e2, e3, f5, e4, Option.map_some]

theorem exploreAll_spec (hok : Spec.Ok ch lc ht) {k1 : Nat} {st0 : State V R} (hi : Inv ch lc k1 st0) {n : Nat} {v : V} (hv : ht v < n)
    (xs : List (RE × R)) : ∀ {st : State V R}, FillOf ch st0 st → (∀ x ∈ xs, Val ch lc st0 v x.1 x.2) →
    ∃ st', ch.exploreAll n v xs st = some (xs, st') ∧ Keep st st' ∧ ∀ x ∈ xs, ∃ d, Ready ch ht st0 st' n v x.1 d := by
  induction xs with
  | nil => intro st _ _; exact ⟨st, rfl, fun _ _ => rfl, by simp⟩
  | cons x xs ih =>
    intro st hf hval
    obtain ⟨st1, d, h1, h2, h3, h4⟩ := explore_spec hok hi n hv hf (hval x (by simp))
    obtain ⟨st2, h5, h6, h7⟩ := ih h2 (fun y hy => hval y (List.mem_cons_of_mem _ hy))
    refine ⟨st2, ?_, h3.trans h6, ?_⟩
    · simp only [Chart.exploreAll, h1, h5, Option.map_some, if_true]
    · intro y hy
      rcases List.mem_cons.1 hy with rfl | hy
      · exact ⟨d, h4.keep h6⟩
      · exact h7 y hy

theorem mapOpt_spec {α β : Type} {f : α → Option β} {P : α → β → Prop} {xs : List α} (h : ∀ x ∈ xs, ∃ y, f x = some y ∧ P x y) :
    ∃ ys, mapOpt f xs = some ys ∧ List.Forall₂ P xs ys := by
  induction xs with
  | nil => exact ⟨[], rfl, .nil⟩
  | cons x xs ih =>
    obtain ⟨y, hy, hp⟩ := h x (by simp)
    obtain ⟨ys, hys, hps⟩ := ih (fun x' hx' => h x' (List.mem_cons_of_mem _ hx'))
    exact ⟨y :: ys, by simp [mapOpt, hy, hys], .cons hp hps⟩

/-- What `lazykbest` returns, in terms of the final state of `lazykthbest`. -/
theorem lazykbest_spec (hok : Spec.Ok ch lc ht) {maxdepth k : Nat} {root : V} (hroot : ch.forest root ≠ []) (hd : ht root < maxdepth)
    (hk : 0 < k) : ∃ res st, ch.lazykbest maxdepth root k = some res ∧ Inv ch lc k st ∧ (Spec.NoCollision ch → Comp ch st) ∧
      (k ≤ (st.L root).length ∨ Done ch st root) ∧ st.L root ≠ [] ∧
      List.Forall₂ (fun x y => Den ch st root x.1 y.1 ∧ y.2 = x.2) ((st.L root).take k) res := by
  obtain ⟨st, h1, h2, h3, h4⟩ := kth_spec hok hk maxdepth root k ⟨fun _ => [], fun _ => none, []⟩ (Inv.start k) (by omega) hroot
  have hi : Inv ch lc k st := (h2.inv hok (Inv.start k)).1
  obtain ⟨st1, h5, h6, h7⟩ := exploreAll_spec hok hi hd ((st.L root).take k) (st := st) (fun u => .inl rfl)
    (fun x hx => hi.val root x (List.mem_append_left _ (List.mem_of_mem_take hx)))
  obtain ⟨res, h8, h9⟩ := mapOpt_spec (f := fun x : RE × R =>
      (ch.getderiv { st1 with L := upd st1.L root ((st.L root).take k) } maxdepth root x.1).map fun d => (d, x.2))
      (P := fun x y => Den ch st root x.1 y.1 ∧ y.2 = x.2) (xs := (st.L root).take k) (by
    intro x hx
    obtain ⟨d, hr1, hr2⟩ := h7 x hx
    have := hr2 { st1 with L := upd st1.L root ((st.L root).take k) } (by
      intro u hu _
      exact upd_ne _ _ (by rintro rfl; omega))
    exact ⟨(d, x.2), by rw [this]; rfl, hr1, rfl⟩)
  refine ⟨res, st, ?_, hi, fun hnc => h2.comp hok hnc (Inv.start k) Comp.start, h3, h4, h9⟩
  have hmax : max k 1 = k := by omega
  simp only [Chart.lazykbest, h1, hmax, h5]
  exact h8

/-! ### The properties -/

/-- C26 (soundness): for a chart without cycles whose height is below the limit, `lazykbest` succeeds, and returns between 1 and `k`
derivations of the root with their true costs, in order of cost, without duplicates; the first one is a best derivation. -/
theorem C26_kbest_sound (hok : Spec.Ok ch lc ht) {maxdepth k : Nat} {root : V} (hroot : ch.forest root ≠ []) (hd : ht root < maxdepth)
    (hk : 0 < k) : ∃ res, ch.lazykbest maxdepth root k = some res ∧ res ≠ [] ∧ res.length ≤ k ∧
      (∀ x ∈ res, Spec.IsDeriv ch lc root x.1 x.2) ∧ res.Pairwise (fun x y => x.2 ≤ y.2) ∧ (res.map Prod.fst).Nodup ∧
      (∀ x, res.head? = some x → ∀ d c, Spec.IsDeriv ch lc root d c → x.2 ≤ c) := by
  obtain ⟨res, st, h1, hi, -, -, h4, h5⟩ := lazykbest_spec hok hroot hd hk
  have hlen : ((st.L root).take k).length = res.length := h5.length_eq
  have hVL := VL_of_L (ch := ch) h4
  have hder : ∀ x y, x ∈ (st.L root).take k → Den ch st root x.1 y → Spec.IsDeriv ch lc root y x.2 := by
    intro x y hx hden
    obtain ⟨d, hd1, hd2⟩ := den_total hok hi _ (Nat.le_refl _) (hi.val root x (List.mem_append_left _ (List.mem_of_mem_take hx)))
    rw [den_fun hden hd1]
    exact hd2
  have hsorted : ((st.L root).take k).Pairwise (fun x y => x.2 ≤ y.2) := (hi.sorted root).sublist (List.take_sublist _ _)
  have hnodup : ((st.L root).take k).Pairwise (fun x y => x.1 ≠ y.1) := by
    have := hi.VL_nodup root
    rw [hVL, List.Nodup, List.pairwise_map] at this
    exact this.sublist (List.take_sublist _ _)
  have htne : (st.L root).take k ≠ [] := by
    intro h0
    rw [List.take_eq_nil_iff] at h0
    rcases h0 with h0 | h0
    · omega
    · exact h4 h0
  have hhead : ∀ x ∈ ((st.L root).take k).head?, x.2 = ch.vit root := by
    intro x hx
    obtain ⟨z, hz, hzv⟩ := hi.VL_head hok root hroot
    rw [hVL] at hz
    rw [List.head?_take, if_neg (by omega), List.head?_eq_getElem?, hz] at hx
    cases hx
    exact hzv
  refine ⟨res, h1, ?_, ?_, ?_, ?_, ?_, ?_⟩
  · rintro rfl
    exact htne (List.length_eq_zero_iff.1 (by simpa using hlen))
  · rw [← hlen, List.length_take]; omega
  · clear hsorted hnodup htne hhead hlen h1
    generalize (st.L root).take k = xs at *
    induction h5 with
    | nil => simp
    | cons h _ ih =>
      intro y hy
      rcases List.mem_cons.1 hy with rfl | hy
      · rw [h.2]; exact hder _ _ (by simp) h.1
      · exact ih (fun x y hx => hder x y (List.mem_cons_of_mem _ hx)) y hy
  · clear hder hnodup htne hhead hlen h1
    generalize (st.L root).take k = xs at *
    induction h5 with
    | nil => simp
    | @cons a b as bs h hs ih =>
      rw [List.pairwise_cons] at hsorted ⊢
      refine ⟨?_, ih hsorted.2⟩
      intro y hy
      obtain ⟨i, hi', hyi⟩ := List.mem_iff_getElem.1 hy
      have := (List.forall₂_iff_get.1 hs).2 i (by rw [hs.length_eq]; exact hi') hi'
      simp only [List.get_eq_getElem] at this
      rw [← hyi, this.2, h.2]
      exact hsorted.1 _ (List.getElem_mem _)
  · clear hder hsorted htne hhead hlen h1
    generalize (st.L root).take k = xs at *
    induction h5 with
    | nil => simp
    | @cons a b as bs h hs ih =>
      rw [List.pairwise_cons] at hnodup
      rw [List.map_cons, List.nodup_cons]
      refine ⟨?_, ih hnodup.2⟩
      intro hmem
      obtain ⟨y, hy, hye⟩ := List.mem_map.1 hmem
      obtain ⟨i, hi', hyi⟩ := List.mem_iff_getElem.1 hy
      have := (List.forall₂_iff_get.1 hs).2 i (by rw [hs.length_eq]; exact hi') hi'
      simp only [List.get_eq_getElem] at this
      rw [hyi] at this
      refine hnodup.1 _ (List.getElem_mem (by rw [hs.length_eq]; exact hi')) (den_inj hi h.1 (by rw [← hye]; exact this.1))
  · intro x hx d c hdc
    generalize (st.L root).take k = xs at *
    cases h5 with
    | nil => cases hx
    | cons h hs =>
      cases hx
      rw [h.2, hhead _ rfl]
      exact hok.vit_le root d c hdc

/-- C26 (completeness): if moreover no two items share an edge with the same rule and position, then every derivation of the root is among
the results, or there are `k` results and none of them costs more than it: the results are `k` best derivations, and all of them if there
are fewer. -/
theorem C26_kbest_complete (hok : Spec.Ok ch lc ht) (hnc : Spec.NoCollision ch) {maxdepth k : Nat} {root : V} (hroot : ch.forest root ≠ [])
    (hd : ht root < maxdepth) (hk : 0 < k) : ∃ res, ch.lazykbest maxdepth root k = some res ∧
      ∀ d c, Spec.IsDeriv ch lc root d c → (d, c) ∈ res ∨ (res.length = k ∧ ∀ x ∈ res, x.2 ≤ c) := by
  obtain ⟨res, st, h1, hi, hcomp, h3, h4, h5⟩ := lazykbest_spec hok hroot hd hk
  have hlen : ((st.L root).take k).length = res.length := h5.length_eq
  have hVL := VL_of_L (ch := ch) h4
  refine ⟨res, h1, ?_⟩
  intro d c hdc
  have hall : k ≤ (st.L root).length → (∀ x ∈ (st.L root).take k, x.2 ≤ c) → res.length = k ∧ ∀ x ∈ res, x.2 ≤ c := by
    intro hle hx
    refine ⟨by rw [← hlen, List.length_take]; omega, ?_⟩
    intro y hy
    obtain ⟨i, hi', hyi⟩ := List.mem_iff_getElem.1 hy
    have := (List.forall₂_iff_get.1 h5).2 i (by rw [hlen]; exact hi') hi'
    simp only [List.get_eq_getElem] at this
    rw [← hyi, this.2]
    exact hx _ (List.getElem_mem _)
  rcases complete hok hk hi (hcomp hnc) hdc with ⟨x, hx, hden⟩ | ⟨hx, hnd⟩ | ⟨hx, hx'⟩
  · rw [hVL] at hx
    have hxc : x.2 = c := by
      obtain ⟨d', hd1, hd2⟩ := den_total hok hi _ (Nat.le_refl _) (hi.val root x (List.mem_append_left _ hx))
      rw [← den_fun hden hd1] at hd2
      exact isDeriv_cost hd2 hdc
    obtain ⟨i, hi', hxi⟩ := List.mem_iff_getElem.1 hx
    rcases Nat.lt_or_ge i k with hik | hik
    · left
      have hil : i < ((st.L root).take k).length := by rw [List.length_take]; omega
      have := (List.forall₂_iff_get.1 h5).2 i hil (by rw [← hlen]; exact hil)
      simp only [List.get_eq_getElem, List.getElem_take, hxi] at this
      have hd' := den_fun hden this.1
      have : res[i]'(by rw [← hlen]; exact hil) = (d, c) := Prod.ext hd'.symm (this.2.trans hxc)
      rw [← this]
      exact List.getElem_mem _
    · right
      refine hall (by omega) ?_
      intro y hy
      obtain ⟨j, hj, hyj⟩ := List.mem_iff_getElem.1 hy
      rw [List.length_take] at hj
      rw [List.getElem_take] at hyj
      rw [← hxc]
      exact pairwise_get (hi.sorted root) (i := j) (j := i) (by rw [List.getElem?_eq_getElem (by omega), hyj])
        (by rw [List.getElem?_eq_getElem hi', hxi]) (by omega)
  · right
    rw [hVL] at hx
    refine hall (h3.resolve_right hnd) fun y hy => hx y (List.mem_of_mem_take hy)
  · right
    rw [hVL] at hx hx'
    exact hall hx hx'

/-! ### Examples and disagreements -/

/-- Conditions on single edges that suffice for `Ok`. -/
theorem ok_of_local
    (acycl : ∀ v, ∀ e ∈ ch.forest v, e.rule ≠ none → ht (ch.left v e) < ht v ∧ ch.forest (ch.left v e) ≠ [])
    (acycr : ∀ v, ∀ e ∈ ch.forest v, ∀ r ∈ e.rule, ch.binary r = true → ht (ch.right v e) < ht v ∧ ch.forest (ch.right v e) ≠ [])
    (hle : ∀ v, ∀ e ∈ ch.forest v, ch.vit v ≤ (ch.entry v e).2)
    (hex : ∀ v, ch.forest v ≠ [] → ∃ e ∈ ch.forest v, ch.vit v = (ch.entry v e).2)
    (hlex : ∀ v, ∀ e ∈ ch.forest v, e.rule = none → ch.vit v = lc v) : Spec.Ok ch lc ht where
  acycl v e r he hr := (acycl v e he (by simp [hr])).1
  acycr v e r he hr hb := (acycr v e he r hr hb).1
  nel v e r he hr := (acycl v e he (by simp [hr])).2
  ner v e r he hr hb := (acycr v e he r hr hb).2
  lex := hlex
  vit_le := by
    intro v d c h
    induction h with
    | lex h1 h2 => exact (hlex _ _ h1 h2).le
    | un h1 h2 h3 _ ih =>
      have := hle _ _ h1
      simp only [Chart.entry, h2, h3, Bool.false_eq_true, if_false] at this
      exact this.trans (add_le_add (_root_.le_refl _) ih)
    | bin h1 h2 h3 _ _ ih ih' =>
      have := hle _ _ h1
      simp only [Chart.entry, h2, h3, if_true] at this
      exact this.trans (add_le_add (add_le_add (_root_.le_refl _) ih) ih')
  vit_ex := by
    have key : ∀ n v, ht v ≤ n → ch.forest v ≠ [] → ∃ d, Spec.IsDeriv ch lc v d (ch.vit v) := by
      intro n
      induction n with
      | zero =>
        intro v hv hne
        obtain ⟨e, he, hc⟩ := hex v hne
        cases hr : e.rule with
        | none => exact ⟨.lex e, by rw [hlex v e he hr]; exact .lex he hr⟩
        | some r => have := (acycl v e he (by simp [hr])).1; omega
      | succ n ih =>
        intro v hv hne
        obtain ⟨e, he, hc⟩ := hex v hne
        cases hr : e.rule with
        | none => exact ⟨.lex e, by rw [hlex v e he hr]; exact .lex he hr⟩
        | some r =>
          obtain ⟨hl, hln⟩ := acycl v e he (by simp [hr])
          obtain ⟨d, hd⟩ := ih _ (by omega) hln
          cases hb : ch.binary r with
          | false =>
            simp only [Chart.entry, hr, hb, Bool.false_eq_true, if_false] at hc
            exact ⟨.un e d, by rw [hc]; exact .un he hr hb hd⟩
          | true =>
            obtain ⟨hl', hln'⟩ := acycr v e he r hr hb
            obtain ⟨d', hd'⟩ := ih _ (by omega) hln'
            simp only [Chart.entry, hr, hb, if_true] at hc
            exact ⟨.bin e d d', by rw [hc]; exact .bin he hr hb hd hd'⟩
    exact fun v hne => key _ v (Nat.le_refl _) hne

/-- A chart given by tables: for each item its edges with the items they point to. -/
def Chart.ofTable (n : Nat) (t : List (List (Edge × Nat × Nat) × Nat)) (prob : List Nat) (binary : List Bool) : Chart (Fin (n + 1)) Nat where
  forest v := ((t[v.1]?.map Prod.fst).getD []).map Prod.fst
  vit v := (t[v.1]?.map Prod.snd).getD 0
  prob r := prob[r]?.getD 0
  binary r := binary[r]?.getD false
  left v e := match (((t[v.1]?.map Prod.fst).getD []).find? (fun x => x.1 == e)) with
    | some x => Fin.ofNat (n + 1) x.2.1
    | none => 0
  right v e := match (((t[v.1]?.map Prod.fst).getD []).find? (fun x => x.1 == e)) with
    | some x => Fin.ofNat (n + 1) x.2.2
    | none => 0

/-- The chart of a PCFG for a sentence of two words: rule 0 is S → A B (mid 1), rules 1, 2 are A → C | D, rules 3, 4 are B → C | D; the items
are S[0,2], A[0,1], B[1,2], C[0,1], D[0,1], C[1,2], D[1,2]. -/
def exChart : Chart (Fin 7) Nat := Chart.ofTable 6
  [([(⟨some 0, 1⟩, 1, 2)], 3), ([(⟨some 1, 1⟩, 3, 0), (⟨some 2, 1⟩, 4, 0)], 1), ([(⟨some 3, 2⟩, 5, 0), (⟨some 4, 2⟩, 6, 0)], 1),
    ([(⟨none, 0⟩, 0, 0)], 0), ([(⟨none, 0⟩, 0, 0)], 0), ([(⟨none, 1⟩, 0, 0)], 0), ([(⟨none, 1⟩, 0, 0)], 0)]
  [1, 1, 3, 1, 2] [true, false, false, false, false]

/-- The example satisfies the hypotheses of both theorems; its four derivations cost 3, 4, 5 and 6. -/
example : Spec.Ok exChart (fun _ => 0) (fun v => if v = 0 then 2 else if v.1 ≤ 2 then 1 else 0) ∧ Spec.NoCollision exChart ∧
    (exChart.lazykbest 200 0 3).map (·.map Prod.snd) = some [3, 4, 5] ∧
    (exChart.lazykbest 200 0 9).map (·.map Prod.snd) = some [3, 4, 5, 6] := by
  refine ⟨ok_of_local ?_ ?_ ?_ ?_ ?_, ?_, ?_, ?_⟩
  · decide +kernel
  · decide +kernel
  · decide +kernel
  · decide +kernel
  · decide +kernel
  · have : ∀ v w, ∀ e ∈ exChart.forest v, e.rule ≠ none → e ∈ exChart.forest w → v = w := by decide +kernel
    exact fun v w e he hv hw => this v w e hv he hw
  · decide +kernel
  · decide +kernel

/-- The chart of a PCFG for a sentence of four words with the rules 0: S → A D, 1: A → B C, 2: B → E, 3: B → F, 4: C → C C, 5: D → D D;
the items are S[0,4], A[0,2], A[0,3], D[2,4], D[3,4], B[0,1], C[1,2], C[1,3], C[2,3], D[2,3], E[0,1], F[0,1]. -/
def sharedChart : Chart (Fin 12) Nat := Chart.ofTable 11
  [([(⟨some 0, 2⟩, 1, 3), (⟨some 0, 3⟩, 2, 4)], 4), ([(⟨some 1, 1⟩, 5, 6)], 2), ([(⟨some 1, 1⟩, 5, 7)], 3), ([(⟨some 5, 3⟩, 9, 4)], 1),
    ([(⟨none, 3⟩, 0, 0)], 0), ([(⟨some 2, 1⟩, 10, 0), (⟨some 3, 1⟩, 11, 0)], 1), ([(⟨none, 1⟩, 0, 0)], 0), ([(⟨some 4, 2⟩, 6, 8)], 1),
    ([(⟨none, 2⟩, 0, 0)], 0), ([(⟨none, 2⟩, 0, 0)], 0), ([(⟨none, 0⟩, 0, 0)], 0), ([(⟨none, 0⟩, 0, 0)], 0)]
  [1, 1, 1, 2, 1, 1] [true, true, false, false, true, true]

/-- The set of explored ranked edges is shared by all items although a ranked edge does not say to which item it belongs. The edges of
A[0,2] and A[0,3] have the same rule and the same midpoint, so that the second derivation of one of them is never considered: a chart with
the four derivations, two of cost 4 and two of cost 5, yields only three. -/
theorem C26_collision_disagrees : Spec.Ok sharedChart (fun _ => 0) (fun v => [4, 3, 3, 2, 0, 1, 0, 1, 0, 0, 0, 0][v.1]?.getD 0) ∧
    (sharedChart.lazykbest 200 0 100).map (·.map Prod.snd) = some [4, 4, 5] ∧
    ∃ d d' : Deriv, d ≠ d' ∧ Spec.IsDeriv sharedChart (fun _ => 0) 0 d 5 ∧ Spec.IsDeriv sharedChart (fun _ => 0) 0 d' 5 := by
  refine ⟨ok_of_local ?_ ?_ ?_ ?_ ?_, ?_, ?_⟩
  · decide +kernel
  · decide +kernel
  · decide +kernel
  · decide +kernel
  · decide +kernel
  · decide +kernel
  · refine ⟨.bin ⟨some 0, 2⟩ (.bin ⟨some 1, 1⟩ (.un ⟨some 3, 1⟩ (.lex ⟨none, 0⟩)) (.lex ⟨none, 1⟩)) (.bin ⟨some 5, 3⟩ (.lex ⟨none, 2⟩) (.lex ⟨none, 3⟩)),
      .bin ⟨some 0, 3⟩ (.bin ⟨some 1, 1⟩ (.un ⟨some 3, 1⟩ (.lex ⟨none, 0⟩)) (.bin ⟨some 4, 2⟩ (.lex ⟨none, 1⟩) (.lex ⟨none, 2⟩))) (.lex ⟨none, 3⟩),
      by decide, ?_, ?_⟩
    · exact .bin (r := 0) (c := 3) (c' := 1) (by decide +kernel) rfl rfl
        (.bin (r := 1) (c := 2) (c' := 0) (by decide +kernel) rfl rfl (.un (r := 3) (c := 0) (by decide +kernel) rfl rfl
          (.lex (by decide +kernel) rfl)) (.lex (by decide +kernel) rfl))
        (.bin (r := 5) (c := 0) (c' := 0) (by decide +kernel) rfl rfl (.lex (by decide +kernel) rfl) (.lex (by decide +kernel) rfl))
    · exact .bin (r := 0) (c := 4) (c' := 0) (by decide +kernel) rfl rfl
        (.bin (r := 1) (c := 2) (c' := 1) (by decide +kernel) rfl rfl (.un (r := 3) (c := 0) (by decide +kernel) rfl rfl
          (.lex (by decide +kernel) rfl))
          (.bin (r := 4) (c := 0) (c' := 0) (by decide +kernel) rfl rfl (.lex (by decide +kernel) rfl) (.lex (by decide +kernel) rfl)))
        (.lex (by decide +kernel) rfl)

/-- The chart for one word with A → B (rule 0, cost 1), A → w (cost 5), B → w (cost 1). -/
def lexChart : Chart (Fin 2) Nat := Chart.ofTable 1 [([(⟨none, 0⟩, 0, 0), (⟨some 0, 1⟩, 1, 0)], 2), ([(⟨none, 0⟩, 0, 0)], 1)] [1] [false]

/-- A lexical edge is given the cost `subtreeprob` of its item. If the item has a better derivation through a unary rule, then the lexical
derivation is reported with the cost of that derivation: 2 instead of 5. -/
theorem C26_lexical_cost_disagrees :
    lexChart.lazykbest 200 0 2 = some [(.lex ⟨none, 0⟩, 2), (.un ⟨some 0, 1⟩ (.lex ⟨none, 0⟩), 2)] ∧
    Spec.IsDeriv lexChart (fun v => if v = 0 then 5 else 1) 0 (.lex ⟨none, 0⟩) 5 ∧
    ¬ Spec.IsDeriv lexChart (fun v => if v = 0 then 5 else 1) 0 (.lex ⟨none, 0⟩) 2 := by
  have h : Spec.IsDeriv lexChart (fun v => if v = 0 then 5 else 1) 0 (.lex ⟨none, 0⟩) 5 := .lex (by decide +kernel) rfl
  refine ⟨by decide +kernel, h, fun h' => ?_⟩
  have := isDeriv_cost h h'
  omega

end Disco.Kbest
