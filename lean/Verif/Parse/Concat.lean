import Verif.Grammar.Productions
import Verif.Bits.Tricks
/-!
# C41: combining two chart items with a rule (`concat`, plcfrs.pyx:941-1050)

`concat` decides whether the yield function of a binary rule composes the yields of two items. Yields are bit vectors: one word for short
sentences (`SmallChartItem`), an array of words for long ones (`FatChartItem`); the yield function is given by two words of bits.
-/
namespace Disco.Concat
open Bits PTree Prods

/-- The loop over the elements of the yield function, for `SmallChartItem` (plcfrs.pyx:985-1008); `todo` iterations are left, `n` is the
index of the next element. -/
def loopSmall (args lengths : Word) : Nat → Nat → Word → Word → Word → Bool
  | 0, _, lvec, rvec, _ => decide (lvec = 0) && decide (rvec = 0)
  | todo + 1, n, lvec, rvec, mask =>
    if args.getLsbD n then  -- component from right vector
      if rvec &&& mask = 0 then false
      else
        let rvec := rvec ||| (rvec - 1)
        let mask := rvec &&& (~~~rvec - 1)
        let lvec := lvec &&& ~~~mask
        let rvec := rvec &&& ~~~mask
        if lengths.getLsbD n then
          if (lvec ^^^ rvec) &&& (mask + 1) ≠ 0 then false
          else loopSmall args lengths todo (n + 1) lvec rvec (((~~~lvec &&& (lvec - 1)) &&& (~~~rvec &&& (rvec - 1))) + 1)
        else loopSmall args lengths todo (n + 1) lvec rvec (mask + 1)
    else  -- component from left vector
      if lvec &&& mask = 0 then false
      else
        let lvec := lvec ||| (lvec - 1)
        let mask := lvec &&& (~~~lvec - 1)
        let lvec := lvec &&& ~~~mask
        let rvec := rvec &&& ~~~mask
        if lengths.getLsbD n then
          if (lvec ^^^ rvec) &&& (mask + 1) ≠ 0 then false
          else loopSmall args lengths todo (n + 1) lvec rvec (((~~~lvec &&& (lvec - 1)) &&& (~~~rvec &&& (rvec - 1))) + 1)
        else loopSmall args lengths todo (n + 1) lvec rvec (mask + 1)

/-- `concat` for `SmallChartItem` (plcfrs.pyx:978-1010). -/
def concatSmall (args lengths lvec rvec : Word) : Bool :=
  if lvec &&& rvec ≠ 0 then false
  else loopSmall args lengths (bitlength lengths) 0 lvec rvec (if args.getLsbD 0 then rvec else lvec)

/-- The loop for `FatChartItem` (plcfrs.pyx:1019-1050); position -1 is `none`. -/
def loopFat (args lengths : Word) (alvec arvec : List Word) : Nat → Nat → Option Nat → Option Nat → Bool
  | 0, _, lpos, rpos => decide (lpos = none) && decide (rpos = none)
  | todo + 1, n, lpos, rpos =>
    if args.getLsbD n then
      match rpos with
      | none => false
      | some r =>
        if lpos.any (· ≤ r) then false
        else
          let e := anextunset arvec r
          if lpos.any (· < e) then false
          else if lengths.getLsbD n then
            if testbit alvec e then false
            else loopFat args lengths alvec arvec todo (n + 1) lpos (anextset arvec e)
          else if !testbit alvec e then false
          else loopFat args lengths alvec arvec todo (n + 1) lpos (anextset arvec e)
    else
      match lpos with
      | none => false
      | some l =>
        if rpos.any (· ≤ l) then false
        else
          let e := anextunset alvec l
          if rpos.any (· < e) then false
          else if lengths.getLsbD n then
            if testbit arvec e then false
            else loopFat args lengths alvec arvec todo (n + 1) (anextset alvec e) rpos
          else if !testbit arvec e then false
          else loopFat args lengths alvec arvec todo (n + 1) (anextset alvec e) rpos

/-- `if alvec[n] & arvec[n]` for some slot (plcfrs.pyx:1014-1016). -/
def overlap : List Word → List Word → Bool
  | a :: as, b :: bs => if a &&& b ≠ 0 then true else overlap as bs
  | _, _ => false

/-- `concat` for `FatChartItem` (plcfrs.pyx:1011-1050). -/
def concatFat (args lengths : Word) (alvec arvec : List Word) : Bool :=
  if overlap alvec arvec then false
  else loopFat args lengths alvec arvec (bitlength lengths) 0 (anextset alvec 0) (anextset arvec 0)

/-! ### Specification -/

/-- The members of a set in `[pos, N)`, in order. -/
def Spec.members (S : Nat → Bool) (N pos : Nat) : List Nat := (List.range' pos (N - pos)).filter S

/-- The spans (maximal runs) of a set of positions below `N`. -/
def Spec.spans (S : Nat → Bool) (N : Nat) : List (List Nat) := SplitDisc.Spec.runs (Spec.members S N 0)

/-- A yield function composes two sets of positions: applied to the spans of left (0) and right (1) it uses all of them, in order, and gives
exactly the spans of the union. -/
def Spec.Composes (yf : List (List Nat)) (L R : Nat → Bool) (N : Nat) : Prop :=
  Prods.Spec.apply yf (fun i => if i = 0 then Spec.spans L N else if i = 1 then Spec.spans R N else []) =
      some (Spec.spans (fun k => L k || R k) N, fun _ => []) ∧ ∀ k, ¬ (L k = true ∧ R k = true)

/-- The elements of a yield function with a flag for the last of each argument. -/
def Spec.elements (yf : List (List Nat)) : List (Nat × Bool) :=
  yf.flatMap (fun a => a.mapIdx (fun i x => (x, decide (i + 1 = a.length))))

/-- The bits of a rule encode a yield function (the format of the rules: bit `n` of `args` tells whether element `n` comes from the right,
bit `n` of `lengths` whether element `n` is the last one of its argument). -/
def Spec.Encodes (args lengths : Word) (yf : List (List Nat)) : Prop :=
  (∀ a ∈ yf, a ≠ [] ∧ ∀ x ∈ a, x = 0 ∨ x = 1) ∧ (Spec.elements yf).length ≤ 64 ∧
    ∀ n, (args.getLsbD n = true ↔ ∃ b, (Spec.elements yf)[n]? = some (1, b)) ∧
      (lengths.getLsbD n = true ↔ ∃ x, (Spec.elements yf)[n]? = some (x, true))

/-! ### Sets of positions -/

/-- `t` is the end of the run of `S` that starts at `s`. -/
structure RunEnd (S : Nat → Bool) (N s e : Nat) : Prop where
  lt : s < e
  le : e ≤ N
  mem : ∀ k, s ≤ k → k < e → S k = true
  stop : S e = false

theorem members_cons {S : Nat → Bool} {N pos : Nat} (h : pos < N) :
    Spec.members S N pos = if S pos then pos :: Spec.members S N (pos + 1) else Spec.members S N (pos + 1) := by
  rw [Spec.members, Spec.members, show N - pos = (N - (pos + 1)) + 1 by omega, List.range'_succ, List.filter_cons]

theorem members_ge {S : Nat → Bool} {N pos : Nat} (h : N ≤ pos) : Spec.members S N pos = [] := by
  rw [Spec.members, show N - pos = 0 by omega]; rfl

theorem mem_members {S : Nat → Bool} {N pos k : Nat} : k ∈ Spec.members S N pos ↔ pos ≤ k ∧ k < N ∧ S k = true := by
  rw [Spec.members, List.mem_filter, List.mem_range'_1]
  constructor
  · rintro ⟨⟨h1, h2⟩, h3⟩; exact ⟨h1, by omega, h3⟩
  · rintro ⟨h1, h2, h3⟩; exact ⟨⟨h1, by omega⟩, h3⟩

theorem members_skip {S : Nat → Bool} {N : Nat} (d : Nat) : ∀ {pos : Nat}, (∀ k, pos ≤ k → k < pos + d → S k = false) →
    Spec.members S N pos = Spec.members S N (pos + d) := by
  induction d with
  | zero => intro pos _; rfl
  | succ d ih =>
    intro pos h
    rw [show pos + (d + 1) = (pos + 1) + d by omega, ← ih (fun k h1 h2 => h k (by omega) (by omega))]
    by_cases hp : pos < N
    · rw [members_cons hp, h pos (by omega) (by omega)]; rfl
    · rw [members_ge (by omega), members_ge (by omega)]

theorem members_skip' {S : Nat → Bool} {N pos e : Nat} (hle : pos ≤ e) (h : ∀ k, pos ≤ k → k < e → S k = false) :
    Spec.members S N pos = Spec.members S N e := by
  have := members_skip (S := S) (N := N) (e - pos) (pos := pos) (fun k h1 h2 => h k h1 (by omega))
  rwa [show pos + (e - pos) = e by omega] at this

theorem members_run {S : Nat → Bool} {N : Nat} (d : Nat) : ∀ {s : Nat}, s + d ≤ N → (∀ k, s ≤ k → k < s + d → S k = true) →
    Spec.members S N s = List.range' s d ++ Spec.members S N (s + d) := by
  induction d with
  | zero => intro s _ _; rfl
  | succ d ih =>
    intro s hle h
    rw [members_cons (by omega), h s (by omega) (by omega), if_pos rfl, ih (by omega) (fun k h1 h2 => h k (by omega) (by omega)),
      List.range'_succ, show s + (d + 1) = s + 1 + d by omega]
    rfl

theorem members_head {S : Nat → Bool} {N e : Nat} (h : (Spec.members S N e).head? = some e) : S e = true :=
  (mem_members.1 (List.mem_of_mem_head? h)).2.2

theorem members_head_self {S : Nat → Bool} {N e : Nat} (he : e < N) (h : S e = true) : (Spec.members S N e).head? = some e := by
  rw [members_cons he, h]; rfl

theorem runs_members {S : Nat → Bool} {N pos s e : Nat} (hle : pos ≤ s) (hgap : ∀ k, pos ≤ k → k < s → S k = false) (h : RunEnd S N s e) :
    SplitDisc.Spec.runs (Spec.members S N pos) = List.range' s (e - s) :: SplitDisc.Spec.runs (Spec.members S N e) := by
  have h1 := h.lt
  rw [members_skip' hle hgap, members_run (S := S) (e - s) (by have := h.le; omega) (fun k a b => h.mem k a (by omega)),
    show s + (e - s) = e by omega, show e - s = (e - s - 1) + 1 by omega]
  refine SplitDisc.runs_range _ _ _ (fun hh => ?_)
  rw [show s + (e - s - 1) + 1 = e by omega] at hh
  have := members_head hh
  rw [h.stop] at this
  cases this

/-- A run followed by something adjacent. -/
theorem runs_adjacent (n : Nat) : ∀ (a : Nat) (rest f : List Nat) (fs : List (List Nat)), rest.head? = some (a + n + 1) →
    SplitDisc.Spec.runs rest = f :: fs → SplitDisc.Spec.runs (List.range' a (n + 1) ++ rest) = (List.range' a (n + 1) ++ f) :: fs := by
  induction n with
  | zero =>
    intro a rest f fs h hr
    obtain ⟨r, rs, h1, h2⟩ := SplitDisc.runs_cons_next a rest (by simpa using h)
    rw [hr] at h1
    cases h1
    exact h2
  | succ n ih =>
    intro a rest f fs h hr
    have := ih (a + 1) rest f fs (by rw [h]; congr 1; omega) hr
    rw [List.range'_succ, List.cons_append]
    obtain ⟨r, rs, h1, h2⟩ := SplitDisc.runs_cons_next a (List.range' (a + 1) (n + 1) ++ rest) (by simp [List.range'_succ])
    rw [this] at h1
    cases h1
    exact h2

theorem runs_length_mono {S : Nat → Bool} {N : Nat} (d : Nat) : ∀ {pos : Nat},
    (SplitDisc.Spec.runs (Spec.members S N (pos + d))).length ≤ (SplitDisc.Spec.runs (Spec.members S N pos)).length := by
  induction d with
  | zero => intro pos; exact Nat.le_refl _
  | succ d ih =>
    intro pos
    rw [show pos + (d + 1) = (pos + 1) + d by omega]
    refine Nat.le_trans ih ?_
    by_cases hp : pos < N
    · rw [members_cons hp]
      split
      · by_cases hh : (Spec.members S N (pos + 1)).head? = some (pos + 1)
        · obtain ⟨r, rs, h1, h2⟩ := SplitDisc.runs_cons_next pos _ hh
          rw [h1, h2]; simp
        · rw [SplitDisc.runs_cons_gap pos _ hh]; simp
      · exact Nat.le_refl _
    · rw [members_ge (by omega), members_ge (by omega)]

/-! ### One element of the yield function -/

/-- The spans left at position `pos`. -/
def spansAt (S : Nat → Nat → Bool) (N pos : Nat) (i : Nat) : List (List Nat) :=
  if i < 2 then SplitDisc.Spec.runs (Spec.members (S i) N pos) else []

/-- The union of both sides. -/
def both (S : Nat → Nat → Bool) (k : Nat) : Bool := S 0 k || S 1 k

/-- The yield function composes what is left at `pos`. -/
def Good (S : Nat → Nat → Bool) (N pos : Nat) (yf : List (List Nat)) : Prop :=
  Prods.Spec.apply yf (spansAt S N pos) = some (SplitDisc.Spec.runs (Spec.members (both S) N pos), fun _ => [])

theorem apply_cons_cons (i : Nat) (bs : List Nat) (as : List (List Nat)) (s : Nat → List (List Nat)) (r : List Nat) (rs : List (List Nat))
    (h : s i = r :: rs) : Prods.Spec.apply ((i :: bs) :: as) s =
      ((Prods.Spec.argument bs (Prods.Spec.drop1 s i rs)).bind (fun p => (Prods.Spec.apply as p.2).map (fun q => ((r ++ p.1) :: q.1, q.2)))) := by
  rw [Prods.Spec.apply, Prods.Spec.argument, h]
  simp only
  cases Prods.Spec.argument bs (Prods.Spec.drop1 s i rs) <;> rfl

/-- Case A: nothing is left on the side that is asked for. -/
theorem good_none {S : Nat → Nat → Bool} {N pos i : Nat} {bs : List Nat} {as : List (List Nat)} (hi : i < 2)
    (h : ∀ k, pos ≤ k → S i k = false) : ¬ Good S N pos ((i :: bs) :: as) := by
  intro hg
  have e : spansAt S N pos i = [] := by
    rw [spansAt, if_pos hi]
    have : Spec.members (S i) N pos = [] := by
      rw [List.eq_nil_iff_forall_not_mem]
      intro k hk
      obtain ⟨h1, _, h3⟩ := mem_members.1 hk
      rw [h k h1] at h3
      cases h3
    rw [this]; rfl
  rw [Good, Prods.Spec.apply, Prods.Spec.argument, e] at hg
  cases hg

theorem members_both_head {S : Nat → Nat → Bool} {N pos k : Nat} (h1 : pos ≤ k) (h2 : k < N) (hb : both S k = true) :
    ∃ x rest, Spec.members (both S) N pos = x :: rest ∧ x ≤ k := by
  have hm : k ∈ Spec.members (both S) N pos := mem_members.2 ⟨h1, h2, hb⟩
  have hs : (Spec.members (both S) N pos).Pairwise (· < ·) := List.Pairwise.filter _ List.pairwise_lt_range'
  cases hc : Spec.members (both S) N pos with
  | nil => rw [hc] at hm; simp at hm
  | cons x rest =>
    refine ⟨x, rest, rfl, ?_⟩
    rw [hc] at hm hs
    rcases List.mem_cons.1 hm with rfl | hm
    · exact Nat.le_refl _
    · exact Nat.le_of_lt ((List.pairwise_cons.1 hs).1 k hm)

theorem runs_head {x : Nat} {rest : List Nat} {r : List Nat} {rs : List (List Nat)} (h : SplitDisc.Spec.runs (x :: rest) = r :: rs) : r.head? = some x := by
  have := SplitDisc.runs_flatten (x :: rest)
  rw [h] at this
  have hr := SplitDisc.runs_ne (x :: rest) r (by rw [h]; simp)
  cases r with
  | nil => exact absurd rfl hr
  | cons y r => simp at this; simp [this.1]

/-- Case B: the other side has something that comes before. -/
theorem good_before {S : Nat → Nat → Bool} {N pos i s e o k : Nat} {bs : List Nat} {as : List (List Nat)} (hi : i < 2) (ho : o < 2)
    (hle : pos ≤ s) (hgap : ∀ k, pos ≤ k → k < s → S i k = false) (h : RunEnd (S i) N s e) (hk : pos ≤ k) (hk2 : k < s) (hok : S o k = true) :
    ¬ Good S N pos ((i :: bs) :: as) := by
  intro hg
  have e1 : spansAt S N pos i = List.range' s (e - s) :: SplitDisc.Spec.runs (Spec.members (S i) N e) := by
    rw [spansAt, if_pos hi, runs_members hle hgap h]
  rw [Good, apply_cons_cons _ _ _ _ _ _ e1] at hg
  simp only [Option.bind_eq_some_iff, Option.map_eq_some_iff] at hg
  obtain ⟨p, _, q, _, hg⟩ := hg
  simp only [Prod.mk.injEq] at hg
  have hb : both S k = true := by
    rcases (show o = 0 ∨ o = 1 by omega) with rfl | rfl <;> simp [both, hok]
  obtain ⟨x, rest, hx, hxk⟩ := members_both_head (N := N) hk (by have := h.le; have := h.lt; omega) hb
  rw [hx] at hg
  have := runs_head hg.1.symm
  rw [show e - s = (e - s - 1) + 1 by have := h.lt; omega, List.range'_succ] at this
  simp at this
  omega

theorem members_both_run {S : Nat → Nat → Bool} {N pos i o s e : Nat} (hi : i < 2) (hoi : o = 1 - i) (hle : pos ≤ s)
    (hgap : ∀ k, pos ≤ k → k < s → S i k = false) (h : RunEnd (S i) N s e) (hoth : ∀ k, pos ≤ k → k < e → S o k = false) :
    Spec.members (both S) N pos = List.range' s (e - s) ++ Spec.members (both S) N e := by
  have hl := h.lt
  have hb : ∀ k, both S k = (S i k || S o k) := by
    intro k
    rcases (show i = 0 ∨ i = 1 by omega) with rfl | rfl
    · subst hoi; rfl
    · subst hoi; simp [both, Bool.or_comm]
  rw [members_skip' hle (fun k h1 h2 => by rw [hb, hgap k h1 h2, hoth k h1 (by omega)]; rfl),
    members_run (e - s) (by have := h.le; omega) (fun k h1 h2 => by rw [hb, h.mem k h1 (by omega)]; rfl),
    show s + (e - s) = e by omega]

theorem spansAt_drop {S : Nat → Nat → Bool} {N pos i o s e : Nat} (hi : i < 2) (hoi : o = 1 - i) (hle : pos ≤ s) (h : RunEnd (S i) N s e)
    (hoth : ∀ k, pos ≤ k → k < e → S o k = false) :
    Prods.Spec.drop1 (spansAt S N pos) i (SplitDisc.Spec.runs (Spec.members (S i) N e)) = spansAt S N e := by
  refine drop1_eta (by rw [spansAt, if_pos hi]) (fun j hj => ?_)
  rw [spansAt, spansAt]
  by_cases hj2 : j < 2
  · rw [if_pos hj2, if_pos hj2]
    have : j = o := by omega
    subst this
    rw [members_skip' (by have := h.lt; omega) hoth]
  · rw [if_neg hj2, if_neg hj2]

/-- Case C, last element of an argument: it must be followed by a gap. -/
theorem good_last {S : Nat → Nat → Bool} {N pos i o s e : Nat} {as : List (List Nat)} (hi : i < 2) (hoi : o = 1 - i) (hle : pos ≤ s)
    (hgap : ∀ k, pos ≤ k → k < s → S i k = false) (h : RunEnd (S i) N s e) (hoth : ∀ k, pos ≤ k → k < e → S o k = false)
    (hN : ∀ j k, S j k = true → k < N) : Good S N pos ([i] :: as) ↔ S o e = false ∧ Good S N e as := by
  have hl := h.lt
  have e1 : spansAt S N pos i = List.range' s (e - s) :: SplitDisc.Spec.runs (Spec.members (S i) N e) := by
    rw [spansAt, if_pos hi, runs_members hle hgap h]
  have hrw : Good S N pos ([i] :: as) ↔ (Prods.Spec.apply as (spansAt S N e)).map (fun q => (List.range' s (e - s) :: q.1, q.2)) =
      some (SplitDisc.Spec.runs (List.range' s (e - s) ++ Spec.members (both S) N e), fun _ => []) := by
    rw [Good, apply_cons_cons _ _ _ _ _ _ e1, spansAt_drop hi hoi hle h hoth, members_both_run hi hoi hle hgap h hoth]
    simp [Prods.Spec.argument]
  rw [hrw]
  by_cases hoe : S o e = true
  · simp only [hoe, Bool.true_eq_false, false_and, iff_false]
    intro hc
    have he : e < N := hN o e hoe
    have hb : both S e = true := by
      rcases (show i = 0 ∨ i = 1 by omega) with rfl | rfl <;> subst hoi <;> simp [both, hoe]
    have hh := members_head_self he hb
    cases hr : SplitDisc.Spec.runs (Spec.members (both S) N e) with
    | nil =>
      have := SplitDisc.runs_flatten (Spec.members (both S) N e)
      rw [hr] at this
      rw [← this] at hh
      simp at hh
    | cons f fs =>
      have hf := SplitDisc.runs_ne (Spec.members (both S) N e) f (by rw [hr]; simp)
      rw [show e - s = (e - s - 1) + 1 by omega] at hc
      rw [runs_adjacent (e - s - 1) s _ f fs (by rw [hh]; congr 1; omega) hr] at hc
      simp only [Option.map_eq_some_iff, Prod.mk.injEq, List.cons.injEq] at hc
      obtain ⟨q, _, ⟨hc, _⟩, _⟩ := hc
      exact hf (List.append_right_eq_self.1 hc.symm)
  · simp only [Bool.not_eq_true] at hoe
    simp only [hoe, true_and]
    have hb : both S e = false := by
      rcases (show i = 0 ∨ i = 1 by omega) with rfl | rfl <;> subst hoi <;> simp [both, hoe, h.stop]
    have hru : SplitDisc.Spec.runs (List.range' s (e - s) ++ Spec.members (both S) N e) =
        List.range' s (e - s) :: SplitDisc.Spec.runs (Spec.members (both S) N e) := by
      rw [show e - s = (e - s - 1) + 1 by omega]
      refine SplitDisc.runs_range _ _ _ (fun hh => ?_)
      rw [show s + (e - s - 1) + 1 = e by omega] at hh
      have := members_head hh
      rw [hb] at this
      cases this
    rw [hru, Good]
    cases Prods.Spec.apply as (spansAt S N e) with
    | none => simp
    | some q => simp [Prod.ext_iff]

/-- Case C, not the last element of an argument: the other side must go on. -/
theorem good_more {S : Nat → Nat → Bool} {N pos i o s e j : Nat} {bs : List Nat} {as : List (List Nat)} (hi : i < 2) (hoi : o = 1 - i) (hle : pos ≤ s)
    (hgap : ∀ k, pos ≤ k → k < s → S i k = false) (h : RunEnd (S i) N s e) (hoth : ∀ k, pos ≤ k → k < e → S o k = false)
    (hN : ∀ j k, S j k = true → k < N) : Good S N pos ((i :: j :: bs) :: as) ↔ S o e = true ∧ Good S N e ((j :: bs) :: as) := by
  have hl := h.lt
  have e1 : spansAt S N pos i = List.range' s (e - s) :: SplitDisc.Spec.runs (Spec.members (S i) N e) := by
    rw [spansAt, if_pos hi, runs_members hle hgap h]
  have hrw : Good S N pos ((i :: j :: bs) :: as) ↔
      ((Prods.Spec.argument (j :: bs) (spansAt S N e)).bind (fun p => (Prods.Spec.apply as p.2).map (fun q => ((List.range' s (e - s) ++ p.1) :: q.1, q.2)))) =
      some (SplitDisc.Spec.runs (List.range' s (e - s) ++ Spec.members (both S) N e), fun _ => []) := by
    rw [Good, apply_cons_cons _ _ _ _ _ _ e1, spansAt_drop hi hoi hle h hoth, members_both_run hi hoi hle hgap h hoth]
  have hne : ∀ p, Prods.Spec.argument (j :: bs) (spansAt S N e) = some p → p.1 ≠ [] := by
    intro p hp
    rw [Prods.Spec.argument] at hp
    split at hp
    · cases hp
    · rename_i r rs hs
      simp only [Option.map_eq_some_iff] at hp
      obtain ⟨p', _, rfl⟩ := hp
      have : r ≠ [] := by
        rw [spansAt] at hs
        split at hs
        · exact SplitDisc.runs_ne _ r (by rw [hs]; simp)
        · cases hs
      simp [this]
  rw [hrw]
  by_cases hoe : S o e = true
  · simp only [hoe, true_and]
    have he : e < N := hN o e hoe
    have hb : both S e = true := by
      rcases (show i = 0 ∨ i = 1 by omega) with rfl | rfl <;> subst hoi <;> simp [both, hoe]
    have hh := members_head_self he hb
    rw [Good, Prods.Spec.apply]
    cases hr : SplitDisc.Spec.runs (Spec.members (both S) N e) with
    | nil =>
      have := SplitDisc.runs_flatten (Spec.members (both S) N e)
      rw [hr] at this
      rw [← this] at hh
      simp at hh
    | cons f fs =>
      have hru := runs_adjacent (e - s - 1) s _ f fs (by rw [hh]; congr 1; omega) hr
      rw [show e - s - 1 + 1 = e - s by omega] at hru
      rw [hru]
      cases Prods.Spec.argument (j :: bs) (spansAt S N e) with
      | none => simp
      | some p =>
        simp only [Option.bind_some]
        cases Prods.Spec.apply as p.2 with
        | none => simp
        | some q => simp
  · simp only [Bool.not_eq_true] at hoe
    simp only [hoe, Bool.false_eq_true, false_and, iff_false]
    have hb : both S e = false := by
      rcases (show i = 0 ∨ i = 1 by omega) with rfl | rfl <;> subst hoi <;> simp [both, hoe, h.stop]
    have hru : SplitDisc.Spec.runs (List.range' s (e - s) ++ Spec.members (both S) N e) =
        List.range' s (e - s) :: SplitDisc.Spec.runs (Spec.members (both S) N e) := by
      rw [show e - s = (e - s - 1) + 1 by omega]
      refine SplitDisc.runs_range _ _ _ (fun hh => ?_)
      rw [show s + (e - s - 1) + 1 = e by omega] at hh
      have := members_head hh
      rw [hb] at this
      cases this
    rw [hru]
    cases hp : Prods.Spec.argument (j :: bs) (spansAt S N e) with
    | none => simp
    | some p =>
      have := hne p hp
      simp only [Option.bind_some, Option.map_eq_some_iff, Prod.mk.injEq, List.cons.injEq, not_exists, not_and]
      intro q _ hc
      exact absurd (List.append_right_eq_self.1 hc.1) this

/-- The end: nothing is left. -/
theorem good_nil {S : Nat → Nat → Bool} {N pos : Nat} (hN : ∀ j k, S j k = true → k < N) :
    Good S N pos [] ↔ ∀ k, pos ≤ k → S 0 k = false ∧ S 1 k = false := by
  rw [Good, Prods.Spec.apply]
  simp only [Option.some.injEq, Prod.mk.injEq]
  have hmem : ∀ T : Nat → Bool, (∀ k, T k = true → k < N) → (SplitDisc.Spec.runs (Spec.members T N pos) = [] ↔ ∀ k, pos ≤ k → T k = false) := by
    intro T hT
    constructor
    · intro h k hk
      by_contra hc
      have hc : T k = true := by simpa using hc
      have hm : k ∈ Spec.members T N pos := mem_members.2 ⟨hk, hT k hc, hc⟩
      have := SplitDisc.runs_flatten (Spec.members T N pos)
      rw [h] at this
      rw [← this] at hm
      simp at hm
    · intro h
      have : Spec.members T N pos = [] := by
        rw [List.eq_nil_iff_forall_not_mem]
        intro k hk
        obtain ⟨h1, _, h3⟩ := mem_members.1 hk
        rw [h k h1] at h3
        cases h3
      rw [this]; rfl
  constructor
  · rintro ⟨h1, h2⟩ k hk
    have a0 := congrFun h2 0
    have a1 := congrFun h2 1
    simp only [spansAt, if_pos (show 0 < 2 by omega), if_pos (show 1 < 2 by omega)] at a0 a1
    exact ⟨(hmem _ (hN 0)).1 a0 k hk, (hmem _ (hN 1)).1 a1 k hk⟩
  · intro h
    refine ⟨((hmem (both S) (fun k hk => ?_)).2 (fun k hk => by simp [both, h k hk])).symm, ?_⟩
    · simp only [both, Bool.or_eq_true] at hk
      rcases hk with hk | hk
      · exact hN 0 k hk
      · exact hN 1 k hk
    · funext j
      rw [spansAt]
      split
      · rcases (show j = 0 ∨ j = 1 by omega) with rfl | rfl
        · exact (hmem _ (hN 0)).2 (fun k hk => (h k hk).1)
        · exact (hmem _ (hN 1)).2 (fun k hk => (h k hk).2)
      · rfl

/-! ### The bits of the rule -/

theorem elements_last (i : Nat) (as : List (List Nat)) : Spec.elements ([i] :: as) = (i, true) :: Spec.elements as := by
  simp [Spec.elements]

theorem elements_more (i j : Nat) (bs : List Nat) (as : List (List Nat)) :
    Spec.elements ((i :: j :: bs) :: as) = (i, false) :: Spec.elements ((j :: bs) :: as) := by
  simp [Spec.elements, List.mapIdx_cons]

/-- The bits from position `n` on describe these elements. -/
def BitsFrom (args lengths : Word) (n : Nat) (els : List (Nat × Bool)) : Prop :=
  ∀ i x b, els[i]? = some (x, b) → args.getLsbD (n + i) = decide (x = 1) ∧ lengths.getLsbD (n + i) = b

theorem BitsFrom.head {args lengths : Word} {n x : Nat} {b : Bool} {els : List (Nat × Bool)} (h : BitsFrom args lengths n ((x, b) :: els)) :
    args.getLsbD n = decide (x = 1) ∧ lengths.getLsbD n = b := h 0 x b rfl

theorem BitsFrom.tail {args lengths : Word} {n : Nat} {y : Nat × Bool} {els : List (Nat × Bool)} (h : BitsFrom args lengths n (y :: els)) :
    BitsFrom args lengths (n + 1) els := by
  intro i x b hi
  have := h (i + 1) x b (by simpa using hi)
  rwa [show n + (i + 1) = n + 1 + i by omega] at this

/-- A well-formed yield function. -/
def WFyf (yf : List (List Nat)) : Prop := ∀ a ∈ yf, a ≠ [] ∧ ∀ x ∈ a, x = 0 ∨ x = 1

theorem WFyf.tail {a : List Nat} {as : List (List Nat)} (h : WFyf (a :: as)) : WFyf as := fun b hb => h b (by simp [hb])

theorem WFyf.rest {i j : Nat} {bs : List Nat} {as : List (List Nat)} (h : WFyf ((i :: j :: bs) :: as)) : WFyf ((j :: bs) :: as) := by
  intro b hb
  rcases List.mem_cons.1 hb with rfl | hb
  · exact ⟨by simp, fun x hx => (h (i :: j :: bs) (by simp)).2 x (List.mem_cons_of_mem _ hx)⟩
  · exact h b (by simp [hb])

theorem WFyf.head_lt {i : Nat} {bs : List Nat} {as : List (List Nat)} (h : WFyf ((i :: bs) :: as)) : i < 2 := by
  rcases (h (i :: bs) (by simp)).2 i (by simp) with rfl | rfl <;> omega

/-- Induction over the elements of a well-formed yield function. -/
theorem yf_ind {P : List (List Nat) → Prop} (h0 : P []) (h1 : ∀ i as, WFyf ([i] :: as) → P as → P ([i] :: as))
    (h2 : ∀ i j bs as, WFyf ((i :: j :: bs) :: as) → P ((j :: bs) :: as) → P ((i :: j :: bs) :: as)) : ∀ yf, WFyf yf → P yf := by
  intro yf
  induction yf with
  | nil => exact fun _ => h0
  | cons a as ih =>
    intro h
    induction a with
    | nil => exact absurd rfl (h [] (by simp)).1
    | cons i bs ihb =>
      cases bs with
      | nil => exact h1 i as h (ih h.tail)
      | cons j bs => exact h2 i j bs as h (ihb h.rest)

/-! ### Long sentences -/

/-- The two sides. -/
def sides (P Q : Nat → Bool) (i : Nat) : Nat → Bool := if i = 0 then P else if i = 1 then Q else fun _ => false

theorem next_skip {S : Nat → Bool} {pos e : Nat} {p : Option Nat} (h : Bits.Spec.NextMember S pos p) (hle : pos ≤ e)
    (hp : ∀ l, p = some l → e ≤ l) : Bits.Spec.NextMember S e p ∧ ∀ k, pos ≤ k → k < e → S k = false := by
  cases p with
  | none => exact ⟨fun j hj => h j (by omega), fun k h1 _ => h k h1⟩
  | some l =>
    have := hp l rfl
    exact ⟨⟨this, h.2.1, fun j h1 h2 => h.2.2 j (by omega) h2⟩, fun k h1 h2 => h.2.2 k h1 (by omega)⟩

theorem runEnd_anextunset {vec : List Word} {s : Nat} (h : abit vec s = true) : RunEnd (abit vec) (64 * vec.length) s (anextunset vec s) := by
  have hs : s < 64 * vec.length := by
    by_contra hc
    rw [abit_ge (by omega)] at h
    cases h
  obtain ⟨⟨h1, h3, h4⟩, h2⟩ := C10_anextunset vec s (by omega)
  have h3 : abit vec (anextunset vec s) = false := by simpa using h3
  refine ⟨?_, h2, fun k a b => by simpa using h4 k a b, h3⟩
  rcases Nat.lt_or_eq_of_le h1 with h1 | h1
  · exact h1
  · rw [← h1, h] at h3; cases h3

theorem testbit_eq (vec : List Word) (b : Nat) : testbit vec b = abit vec b := by
  have hm : b % 64 < 64 := Nat.mod_lt _ (by omega)
  rw [testbit, abit]
  generalize vec.getD (b / 64) 0 = w
  rw [Bool.eq_iff_iff, decide_eq_true_iff]
  constructor
  · intro h
    obtain ⟨i, _, hi⟩ := exists_bit_of_ne_zero h
    rw [BitVec.getLsbD_and, getLsbD_one_shift _ _ hm] at hi
    simp only [Bool.and_eq_true, decide_eq_true_eq] at hi
    rw [← hi.2]; exact hi.1
  · intro h e
    have : (w &&& (1#64 <<< (b % 64))).getLsbD (b % 64) = true := by
      rw [BitVec.getLsbD_and, getLsbD_one_shift _ _ hm, h]; simp
    rw [e] at this
    simp at this

/-- One element, seen from the abstract side: `own` is asked for, with next position `p`; `oth` has next position `q`. -/
theorem good_iff_step {S : Nat → Nat → Bool} {N pos i o : Nat} {p q : Option Nat} (hi : i < 2) (hoi : o = 1 - i) (hd : ∀ k, ¬ (S 0 k = true ∧ S 1 k = true))
    (hN : ∀ j k, S j k = true → k < N) (hp : Bits.Spec.NextMember (S i) pos p) (hq : Bits.Spec.NextMember (S o) pos q) (end_ : Nat → Nat)
    (hend : ∀ s, S i s = true → RunEnd (S i) N s (end_ s)) :
    (∀ as, Good S N pos ([i] :: as) ↔ ∃ s, p = some s ∧ (∀ l, q = some l → end_ s ≤ l) ∧ S o (end_ s) = false ∧ Good S N (end_ s) as) ∧
    (∀ j bs as, Good S N pos ((i :: j :: bs) :: as) ↔ ∃ s, p = some s ∧ (∀ l, q = some l → end_ s ≤ l) ∧ S o (end_ s) = true ∧
      Good S N (end_ s) ((j :: bs) :: as)) := by
  have hd' : ∀ k, ¬ (S i k = true ∧ S o k = true) := by
    intro k
    rcases (show i = 0 ∨ i = 1 by omega) with rfl | rfl <;> subst hoi
    · exact hd k
    · exact fun h => hd k h.symm
  cases p with
  | none =>
    exact ⟨fun as => ⟨fun h => absurd h (good_none hi hp), by simp⟩, fun j bs as => ⟨fun h => absurd h (good_none hi hp), by simp⟩⟩
  | some s =>
    obtain ⟨hp1, hp2, hp3⟩ := hp
    have he := hend s hp2
    by_cases hb : ∀ l, q = some l → end_ s ≤ l
    · have hoth := (next_skip hq (show pos ≤ end_ s by have := he.lt; omega) hb).2
      constructor
      · intro as
        rw [good_last hi hoi hp1 hp3 he hoth hN]
        exact ⟨fun h => ⟨s, rfl, hb, h.1, h.2⟩, fun ⟨s', hs, _, h1, h2⟩ => by cases hs; exact ⟨h1, h2⟩⟩
      · intro j bs as
        rw [good_more hi hoi hp1 hp3 he hoth hN]
        exact ⟨fun h => ⟨s, rfl, hb, h.1, h.2⟩, fun ⟨s', hs, _, h1, h2⟩ => by cases hs; exact ⟨h1, h2⟩⟩
    · have hbf : ∀ bs as, ¬ Good S N pos ((i :: bs) :: as) := by
        intro bs as
        simp only [not_forall] at hb
        obtain ⟨l, hl, hlt⟩ := hb
        subst hl
        obtain ⟨q1, q2, q3⟩ := hq
        have : l < s := by
          by_contra hc
          exact hd' l ⟨he.mem l (by omega) (by omega), q2⟩
        exact good_before hi (show o < 2 by omega) hp1 hp3 he q1 this q2
      constructor
      · intro as
        refine ⟨fun h => absurd h (hbf _ _), ?_⟩
        rintro ⟨s', hs, h, _⟩
        cases hs
        exact absurd h hb
      · intro j bs as
        refine ⟨fun h => absurd h (hbf _ _), ?_⟩
        rintro ⟨s', hs, h, _⟩
        cases hs
        exact absurd h hb

theorem loopFat_spec {args lengths : Word} {A B : List Word} (hlen : A.length = B.length)
    (hd : ∀ k, ¬ (abit A k = true ∧ abit B k = true)) : ∀ yf, WFyf yf → ∀ n pos lpos rpos, BitsFrom args lengths n (Spec.elements yf) →
    Bits.Spec.NextMember (abit A) pos lpos → Bits.Spec.NextMember (abit B) pos rpos →
    (loopFat args lengths A B (Spec.elements yf).length n lpos rpos = true ↔ Good (sides (abit A) (abit B)) (64 * A.length) pos yf) := by
  have hN : ∀ j k, sides (abit A) (abit B) j k = true → k < 64 * A.length := by
    intro j k h
    by_contra hc
    simp only [sides] at h
    split at h
    · rw [abit_ge (by omega)] at h; cases h
    · split at h
      · rw [abit_ge (by omega)] at h; cases h
      · cases h
  have hend0 : ∀ s, sides (abit A) (abit B) 0 s = true → RunEnd (sides (abit A) (abit B) 0) (64 * A.length) s (anextunset A s) :=
    fun s h => runEnd_anextunset h
  have hend1 : ∀ s, sides (abit A) (abit B) 1 s = true → RunEnd (sides (abit A) (abit B) 1) (64 * A.length) s (anextunset B s) :=
    fun s h => by rw [hlen]; exact runEnd_anextunset h
  -- one step, whatever comes after
  have step : ∀ (i : Nat) (b : Bool) (els : List (Nat × Bool)) (n pos : Nat) (lpos rpos : Option Nat) (G : Nat → Prop), i < 2 →
      BitsFrom args lengths n ((i, b) :: els) → Bits.Spec.NextMember (abit A) pos lpos → Bits.Spec.NextMember (abit B) pos rpos →
      (∀ pos' lpos' rpos', Bits.Spec.NextMember (abit A) pos' lpos' → Bits.Spec.NextMember (abit B) pos' rpos' →
        (loopFat args lengths A B els.length (n + 1) lpos' rpos' = true ↔ G pos')) →
      (loopFat args lengths A B ((i, b) :: els).length n lpos rpos = true ↔
        if i = 1 then ∃ s, rpos = some s ∧ (∀ l, lpos = some l → anextunset B s ≤ l) ∧ abit A (anextunset B s) = !b ∧ G (anextunset B s)
        else ∃ s, lpos = some s ∧ (∀ l, rpos = some l → anextunset A s ≤ l) ∧ abit B (anextunset A s) = !b ∧ G (anextunset A s)) := by
    intro i b els n pos lpos rpos G hi hb hl hr ih
    obtain ⟨ha, hln⟩ := hb.head
    rw [List.length_cons]
    unfold loopFat
    rw [ha, hln]
    rcases (show i = 0 ∨ i = 1 by omega) with rfl | rfl
    · rw [if_neg (by simp), if_neg (by simp)]
      cases lpos with
      | none => simp
      | some l =>
        have hre := runEnd_anextunset hl.2.1
        have hlt := hre.lt
        simp only [testbit_eq, Option.some.injEq, exists_eq_left']
        have key : ∀ X : Bool, ((if rpos.any (· ≤ l) = true then false else
            if rpos.any (· < anextunset A l) = true then false else X) = true) ↔
            (∀ r, rpos = some r → anextunset A l ≤ r) ∧ X = true := by
          intro X
          cases rpos with
          | none => simp
          | some r =>
            by_cases h1 : r < anextunset A l
            · by_cases h2 : r ≤ l <;> simp [h1, h2] <;> omega
            · have h2 : ¬ r ≤ l := by omega
              simp [h1, h2]; omega
        rw [key]
        refine and_congr_right (fun hr' => ?_)
        have hi' := ih (anextunset A l) (anextset A (anextunset A l)) rpos (C10_anextset A _)
          (next_skip hr (by have := hl.1; omega) hr').1
        cases b with
        | true =>
          cases hx : abit B (anextunset A l) <;> simp [hi']
        | false =>
          cases hx : abit B (anextunset A l) <;> simp [hi']
    · rw [if_pos (by simp), if_pos rfl]
      cases rpos with
      | none => simp
      | some r =>
        have hre := runEnd_anextunset hr.2.1
        have hlt := hre.lt
        simp only [testbit_eq, Option.some.injEq, exists_eq_left']
        have key : ∀ X : Bool, ((if lpos.any (· ≤ r) = true then false else
            if lpos.any (· < anextunset B r) = true then false else X) = true) ↔
            (∀ l, lpos = some l → anextunset B r ≤ l) ∧ X = true := by
          intro X
          cases lpos with
          | none => simp
          | some l =>
            by_cases h1 : l < anextunset B r
            · by_cases h2 : l ≤ r <;> simp [h1, h2] <;> omega
            · have h2 : ¬ l ≤ r := by omega
              simp [h1, h2]; omega
        rw [key]
        refine and_congr_right (fun hl' => ?_)
        have hi' := ih (anextunset B r) lpos (anextset B (anextunset B r)) (next_skip hl (by have := hr.1; omega) hl').1 (C10_anextset B _)
        cases b with
        | true =>
          cases hx : abit A (anextunset B r) <;> simp [hi']
        | false =>
          cases hx : abit A (anextunset B r) <;> simp [hi']
  intro yf hyf
  refine yf_ind (P := fun yf => ∀ n pos lpos rpos, BitsFrom args lengths n (Spec.elements yf) →
    Bits.Spec.NextMember (abit A) pos lpos → Bits.Spec.NextMember (abit B) pos rpos →
    (loopFat args lengths A B (Spec.elements yf).length n lpos rpos = true ↔ Good (sides (abit A) (abit B)) (64 * A.length) pos yf)) ?_ ?_ ?_ yf hyf
  · intro n pos lpos rpos _ hl hr
    rw [good_nil hN]
    simp only [Spec.elements, List.flatMap_nil, List.length_nil, loopFat, Bool.and_eq_true, decide_eq_true_eq]
    constructor
    · rintro ⟨rfl, rfl⟩ k hk
      exact ⟨hl k hk, hr k hk⟩
    · intro h
      constructor
      · cases lpos with
        | none => rfl
        | some l => have := (h l hl.1).1; rw [show sides (abit A) (abit B) 0 l = abit A l from rfl, hl.2.1] at this; cases this
      · cases rpos with
        | none => rfl
        | some l => have := (h l hr.1).2; rw [show sides (abit A) (abit B) 1 l = abit B l from rfl, hr.2.1] at this; cases this
  · intro i as hw ih n pos lpos rpos hb hl hr
    rw [elements_last] at hb ⊢
    have hi := hw.head_lt
    rw [step i true _ n pos lpos rpos (fun p => Good (sides (abit A) (abit B)) (64 * A.length) p as) hi hb hl hr
      (fun p l r hl hr => ih (n + 1) p l r hb.tail hl hr)]
    rcases (show i = 0 ∨ i = 1 by omega) with rfl | rfl
    · rw [if_neg (by simp)]
      exact ((good_iff_step (S := sides (abit A) (abit B)) hi rfl hd hN hl hr _ hend0).1 as).symm
    · rw [if_pos rfl]
      exact ((good_iff_step (S := sides (abit A) (abit B)) hi rfl hd hN hr hl _ hend1).1 as).symm
  · intro i j bs as hw ih n pos lpos rpos hb hl hr
    rw [elements_more] at hb ⊢
    have hi := hw.head_lt
    rw [step i false _ n pos lpos rpos (fun p => Good (sides (abit A) (abit B)) (64 * A.length) p ((j :: bs) :: as)) hi hb hl hr
      (fun p l r hl hr => ih (n + 1) p l r hb.tail hl hr)]
    rcases (show i = 0 ∨ i = 1 by omega) with rfl | rfl
    · rw [if_neg (by simp)]
      exact ((good_iff_step (S := sides (abit A) (abit B)) hi rfl hd hN hl hr _ hend0).2 j bs as).symm
    · rw [if_pos rfl]
      exact ((good_iff_step (S := sides (abit A) (abit B)) hi rfl hd hN hr hl _ hend1).2 j bs as).symm

/-! ### Short sentences -/

/-- `v` holds the members of `S` from `pos` on. -/
def Holds (v : Word) (S : Nat → Bool) (pos : Nat) : Prop := ∀ k, v.getLsbD k = (S k && decide (pos ≤ k))

/-- `mask` is the bit of the first member of either side from `pos` on. -/
def GapMask (mask : Word) (S : Nat → Nat → Bool) (pos : Nat) : Prop :=
  ∀ k, k < 64 → (mask.getLsbD k = true ↔ pos ≤ k ∧ both S k = true ∧ ∀ j, pos ≤ j → j < k → both S j = false)

theorem and_eq_zero {a b : Word} : a &&& b = 0 ↔ ∀ k, k < 64 → ¬ (a.getLsbD k = true ∧ b.getLsbD k = true) := by
  constructor
  · intro h k _ hk
    have : (a &&& b).getLsbD k = true := by rw [BitVec.getLsbD_and, hk.1, hk.2]; rfl
    rw [h] at this
    simp at this
  · intro h
    apply BitVec.eq_of_getLsbD_eq
    intro k hk
    have := h k hk
    rw [BitVec.getLsbD_and]
    cases h1 : a.getLsbD k <;> cases h2 : b.getLsbD k <;> simp_all

theorem exists_runEnd {S : Nat → Bool} (hN : ∀ k, S k = true → k < 64) {s : Nat} (h : S s = true) : ∃ e, RunEnd S 64 s e := by
  have key : ∀ d s, s + d = 64 → S s = true → ∃ e, RunEnd S 64 s e := by
    intro d
    induction d with
    | zero => intro s hs h; have := hN s h; omega
    | succ d ih =>
      intro s hs h
      cases hn : S (s + 1) with
      | false => exact ⟨s + 1, by omega, by have := hN s h; omega, fun k a b => by rw [show k = s by omega]; exact h, hn⟩
      | true =>
        obtain ⟨e, h1, h2, h3, h4⟩ := ih (s + 1) (by omega) hn
        refine ⟨e, by omega, h2, fun k a b => ?_, h4⟩
        rcases Nat.lt_or_eq_of_le a with a | a
        · exact h3 k (by omega) b
        · rw [← a]; exact h
  exact key (64 - s) s (by have := hN s h; omega) h

/-- What one step does to the two vectors and the mask. -/
theorem small_step {v w : Word} {S T : Nat → Bool} {pos s e : Nat} (hv : Holds v S pos) (hw : Holds w T pos) (hs : pos ≤ s) (hSs : S s = true)
    (hgap : ∀ k, pos ≤ k → k < s → S k = false) (he : RunEnd S 64 s e) :
    (∀ k, k < 64 → ((v ||| (v - 1)) &&& (~~~(v ||| (v - 1)) - 1)).getLsbD k = decide (k < e)) ∧
    Holds ((v ||| (v - 1)) &&& ~~~((v ||| (v - 1)) &&& (~~~(v ||| (v - 1)) - 1))) S e ∧
    Holds (w &&& ~~~((v ||| (v - 1)) &&& (~~~(v ||| (v - 1)) - 1))) T e := by
  have hlt := he.lt
  have hl : Lowest v s := by
    refine ⟨by rw [hv, hSs]; simpa using hs, fun k hk => ?_⟩
    rw [hv]
    by_cases hp : pos ≤ k
    · rw [hgap k hp hk]; rfl
    · simp [hp]
  have hf : ∀ k, (v ||| (v - 1)).getLsbD k = (decide (k < s) || (S k && decide (pos ≤ k))) := fun k => by rw [getLsbD_fill hl, hv]
  have hm : ∀ k, ((v ||| (v - 1)) &&& (~~~(v ||| (v - 1)) - 1)).getLsbD k = decide (k < e) := by
    intro k
    refine getLsbD_ones (fun k hk => ?_) ?_ k
    · rw [hf]
      by_cases h1 : k < s
      · simp [h1]
      · rw [he.mem k (by omega) hk]; simp; omega
    · rw [hf, he.stop]; simp; omega
  have h64 : ∀ k, ¬ k < 64 → e ≤ k := fun k hk => by have := he.le; omega
  refine ⟨fun k _ => hm k, fun k => ?_, fun k => ?_⟩
  · rw [BitVec.getLsbD_and, hf, BitVec.getLsbD_not, hm]
    by_cases hk : k < 64
    · by_cases hke : k < e
      · have : ¬ e ≤ k := by omega
        simp [hke, this]
      · have a : ¬ k < s := by omega
        have b : pos ≤ k := by omega
        have c : e ≤ k := by omega
        simp [hke, a, b, c, hk]
    · have : S k = false := by
        have h := hv k
        rw [BitVec.getLsbD_of_ge _ _ (by omega)] at h
        have b : pos ≤ k := by have := h64 k hk; omega
        simpa [b] using h.symm
      simp [hk, this]
  · rw [BitVec.getLsbD_and, hw, BitVec.getLsbD_not, hm]
    by_cases hk : k < 64
    · by_cases hke : k < e
      · have : ¬ e ≤ k := by omega
        simp [hke, this]
      · have b : pos ≤ k := by omega
        have c : e ≤ k := by omega
        simp [hke, b, c, hk]
    · have : T k = false := by
        have h := hw k
        rw [BitVec.getLsbD_of_ge _ _ (by omega)] at h
        have b : pos ≤ k := by have := h64 k hk; omega
        simpa [b] using h.symm
      simp [hk, this]

theorem first_member (S : Nat → Bool) (pos : Nat) : ∃ p, Bits.Spec.NextMember (fun k => S k && decide (k < 64)) pos p := by
  have key : ∀ d pos, pos + d = 64 → ∃ p, Bits.Spec.NextMember (fun k => S k && decide (k < 64)) pos p := by
    intro d
    induction d with
    | zero => intro pos h; exact ⟨none, fun j hj => by simp; omega⟩
    | succ d ih =>
      intro pos h
      cases hp : S pos with
      | true => exact ⟨some pos, by omega, by simp [hp]; omega, fun j a b => by omega⟩
      | false =>
        obtain ⟨p, hp'⟩ := ih (pos + 1) (by omega)
        refine ⟨p, ?_⟩
        cases p with
        | none => intro j hj; rcases Nat.lt_or_eq_of_le hj with hj | rfl
                  · exact hp' j hj
                  · simp [hp]
        | some i =>
          refine ⟨by have := hp'.1; omega, hp'.2.1, fun j a b => ?_⟩
          rcases Nat.lt_or_eq_of_le a with a | rfl
          · exact hp'.2.2 j a b
          · simp [hp]
  by_cases h : pos ≤ 64
  · exact key (64 - pos) pos (by omega)
  · exact ⟨none, fun j hj => by simp; omega⟩

/-- The mask after a gap. -/
theorem gapMask_next {l r : Word} {S : Nat → Nat → Bool} {e : Nat} (hl : Holds l (S 0) e) (hr : Holds r (S 1) e) (hN : ∀ j k, S j k = true → k < 64) :
    GapMask (((~~~l &&& (l - 1)) &&& (~~~r &&& (r - 1))) + 1) S e := by
  have low : ∀ (v : Word) (T : Nat → Bool), Holds v T e → (∀ k, T k = true → k < 64) →
      ∃ c, c ≤ 64 ∧ (∀ k, (~~~v &&& (v - 1)).getLsbD k = decide (k < c)) ∧ (∀ k, e ≤ k → k < c → T k = false) ∧
        (c < 64 → e ≤ c ∧ T c = true) := by
    intro v T hv hT
    by_cases h0 : v = 0
    · refine ⟨64, Nat.le_refl _, fun k => getLsbD_zeros (fun k _ => by rw [h0]; simp) (by omega) (Nat.le_refl _) k, fun k hk _ => ?_, by omega⟩
      have := hv k
      rw [h0] at this
      simpa [hk] using this.symm
    · obtain ⟨c, hc⟩ := exists_lowest h0
      have hc64 := hc.lt
      have hcs := hc.set
      rw [hv] at hcs
      simp only [Bool.and_eq_true, decide_eq_true_eq] at hcs
      refine ⟨c, by omega, fun k => getLsbD_zeros hc.least (fun _ => hc.set) (by omega) k, fun k a b => ?_, fun _ => ⟨hcs.2, hcs.1⟩⟩
      have := hc.least k b
      rw [hv] at this
      simpa [a] using this
  obtain ⟨c, c1, c2, c3, c4⟩ := low l (S 0) hl (hN 0)
  obtain ⟨d, d1, d2, d3, d4⟩ := low r (S 1) hr (hN 1)
  intro k hk
  rw [getLsbD_mask_succ (e := min c d) (fun k _ => by
    rw [BitVec.getLsbD_and, c2, d2]
    by_cases a : k < c <;> by_cases b : k < d <;> simp [a, b] <;> omega) k hk]
  simp only [decide_eq_true_eq]
  constructor
  · rintro rfl
    rcases Nat.le_total c d with hcd | hcd
    · rw [Nat.min_eq_left hcd] at hk ⊢
      obtain ⟨a, b⟩ := c4 hk
      exact ⟨a, by simp [both, b], fun j x y => by simp [both, c3 j x y, d3 j x (by omega)]⟩
    · rw [Nat.min_eq_right hcd] at hk ⊢
      obtain ⟨a, b⟩ := d4 hk
      exact ⟨a, by simp [both, b], fun j x y => by simp [both, c3 j x (by omega), d3 j x y]⟩
  · rintro ⟨h1, h2, h3⟩
    have hc : ¬ k < c ∨ ¬ k < d := by
      by_contra hh
      simp only [not_or, not_not] at hh
      rw [both, c3 k h1 hh.1, d3 k h1 hh.2] at h2
      cases h2
    refine Nat.le_antisymm ?_ (by omega)
    rw [Nat.le_min]
    constructor
    · by_contra hh
      have hh : c < k := by omega
      obtain ⟨a, b⟩ := c4 (by omega)
      have := h3 c a hh
      simp [both, b] at this
    · by_contra hh
      have hh : d < k := by omega
      obtain ⟨a, b⟩ := d4 (by omega)
      have := h3 d a hh
      simp [both, b] at this

theorem next_of_bound {S : Nat → Bool} (hN : ∀ k, S k = true → k < 64) (pos : Nat) : ∃ p, Bits.Spec.NextMember S pos p := by
  obtain ⟨p, hp⟩ := first_member S pos
  have e : (fun k => S k && decide (k < 64)) = S := by
    funext k
    cases h : S k with
    | false => rfl
    | true => simpa using hN k h
  rw [e] at hp
  exact ⟨p, hp⟩

/-- One iteration, when the side asked for has a member in the mask: whatever the mask was, the loop goes on after the run. -/
theorem loopSmall_step {args lengths : Word} {S : Nat → Nat → Bool} (hN : ∀ j k, S j k = true → k < 64) {i : Nat} {b : Bool} {els : List (Nat × Bool)}
    {n pos s e : Nat} {l r mask : Word} (hi : i < 2) (hb : BitsFrom args lengths n ((i, b) :: els)) (hl : Holds l (S 0) pos) (hr : Holds r (S 1) pos)
    (hne : (if i = 1 then r else l) &&& mask ≠ 0) (hs : pos ≤ s) (hSs : S i s = true) (hgap : ∀ k, pos ≤ k → k < s → S i k = false)
    (he : RunEnd (S i) 64 s e) :
    ∃ l' r' m1 m2, Holds l' (S 0) e ∧ Holds r' (S 1) e ∧ GapMask m1 S e ∧ (∀ k, k < 64 → m2.getLsbD k = decide (k = e)) ∧
      (loopSmall args lengths ((i, b) :: els).length n l r mask = true ↔
        if b then S (1 - i) e = false ∧ loopSmall args lengths els.length (n + 1) l' r' m1 = true
        else loopSmall args lengths els.length (n + 1) l' r' m2 = true) := by
  obtain ⟨ha, hln⟩ := hb.head
  have hgapcheck : ∀ (l' r' m : Word), Holds l' (S 0) e → Holds r' (S 1) e → (∀ k, k < 64 → m.getLsbD k = decide (k = e)) →
      ((l' ^^^ r') &&& m = 0 ↔ S (1 - i) e = false) := by
    intro l' r' m h1 h2 h3
    rw [and_eq_zero]
    have hxor : ∀ k, (l' ^^^ r').getLsbD k = ((S 0 k && decide (e ≤ k)) ^^ (S 1 k && decide (e ≤ k))) := fun k => by rw [BitVec.getLsbD_xor, h1, h2]
    have hst := he.stop
    constructor
    · intro h
      by_contra hc
      have hc : S (1 - i) e = true := by simpa using hc
      have he64 := hN _ _ hc
      refine h e he64 ⟨?_, by rw [h3 e he64]; simp⟩
      rw [hxor]
      rcases (show i = 0 ∨ i = 1 by omega) with rfl | rfl
      · simp at hc; simp [hst, hc]
      · simp at hc; simp [hst, hc]
    · intro h k hk hh
      rw [h3 k hk] at hh
      have hke : k = e := by simpa using hh.2
      subst hke
      rw [hxor] at hh
      rcases (show i = 0 ∨ i = 1 by omega) with rfl | rfl
      · simp at h; simp [hst, h] at hh
      · simp at h; simp [hst, h] at hh
  rcases (show i = 0 ∨ i = 1 by omega) with rfl | rfl
  · obtain ⟨hm, h1, h2⟩ := small_step hl hr hs hSs hgap he
    have hm2 := getLsbD_mask_succ hm
    refine ⟨_, _, _, _, h1, h2, gapMask_next h1 h2 hN, hm2, ?_⟩
    rw [List.length_cons, loopSmall, ha, hln, if_neg (by simp)]
    rw [if_neg (by simp)] at hne
    rw [if_neg hne]
    cases b with
    | false => simp only [Bool.false_eq_true, if_false]
    | true =>
      simp only [if_true]
      have hg := hgapcheck _ _ _ h1 h2 hm2
      by_cases hc : S (1 - 0) e = false
      · have := hg.2 hc
        rw [if_neg (not_not.2 this)]
        simp [hc]
      · have : ¬ _ := fun hh => hc (hg.1 hh)
        rw [if_pos this]
        simp [hc]
  · obtain ⟨hm, h1, h2⟩ := small_step hr hl hs hSs hgap he
    have hm2 := getLsbD_mask_succ hm
    refine ⟨_, _, _, _, h2, h1, gapMask_next h2 h1 hN, hm2, ?_⟩
    rw [List.length_cons, loopSmall, ha, hln, if_pos (by simp)]
    rw [if_pos rfl] at hne
    rw [if_neg hne]
    cases b with
    | false => simp only [Bool.false_eq_true, if_false]
    | true =>
      simp only [if_true]
      have hg := hgapcheck _ _ _ h2 h1 hm2
      by_cases hc : S (1 - 1) e = false
      · have := hg.2 hc
        rw [if_neg (not_not.2 this)]
        simp [hc]
      · have : ¬ _ := fun hh => hc (hg.1 hh)
        rw [if_pos this]
        simp [hc]

theorem loopSmall_fail {args lengths : Word} {i : Nat} {b : Bool} {els : List (Nat × Bool)} {n : Nat} {l r mask : Word} (hi : i < 2)
    (hb : BitsFrom args lengths n ((i, b) :: els)) (h0 : (if i = 1 then r else l) &&& mask = 0) :
    loopSmall args lengths ((i, b) :: els).length n l r mask = false := by
  obtain ⟨ha, _⟩ := hb.head
  rw [List.length_cons, loopSmall, ha]
  rcases (show i = 0 ∨ i = 1 by omega) with rfl | rfl
  · rw [if_neg (by simp)]
    rw [if_neg (by simp)] at h0
    rw [if_pos h0]
  · rw [if_pos (by simp)]
    rw [if_pos rfl] at h0
    rw [if_pos h0]

/-- Continue without a gap: the other side must have a member right here. -/
theorem loopSmall_adj {args lengths : Word} {S : Nat → Nat → Bool}
    {j : Nat} {bs : List Nat} {as : List (List Nat)} {n e : Nat} {l r m : Word} (hj : j < 2) (hb : BitsFrom args lengths n (Spec.elements ((j :: bs) :: as)))
    (hl : Holds l (S 0) e) (hr : Holds r (S 1) e) (hm : ∀ k, k < 64 → m.getLsbD k = decide (k = e)) (P : Prop)
    (ih : GapMask m S e → (loopSmall args lengths (Spec.elements ((j :: bs) :: as)).length n l r m = true ↔ P)) :
    loopSmall args lengths (Spec.elements ((j :: bs) :: as)).length n l r m = true ↔ both S e = true ∧ P := by
  by_cases hbe : both S e = true
  · have hg : GapMask m S e := by
      intro k hk
      rw [hm k hk]
      simp only [decide_eq_true_eq]
      constructor
      · rintro rfl
        exact ⟨Nat.le_refl _, hbe, fun j a b => by omega⟩
      · rintro ⟨h1, h2, h3⟩
        by_contra hc
        have := h3 e (Nat.le_refl _) (by omega)
        rw [hbe] at this
        cases this
    rw [ih hg]
    simp [hbe]
  · simp only [hbe, false_and, iff_false, Bool.false_eq_true]
    have hz : ∀ i, i < 2 → (if i = 1 then r else l) &&& m = 0 := by
      intro i hi
      rw [and_eq_zero]
      intro k hk hh
      rw [hm k hk] at hh
      have : k = e := by simpa using hh.2
      subst this
      simp only [both, Bool.or_eq_true, not_or] at hbe
      rcases (show i = 0 ∨ i = 1 by omega) with rfl | rfl
      · rw [if_neg (by simp), hl] at hh; simp [hbe.1] at hh
      · rw [if_pos rfl, hr] at hh; simp [hbe.2] at hh
    have : ∃ b els, Spec.elements ((j :: bs) :: as) = (j, b) :: els := by
      cases bs with
      | nil => exact ⟨_, _, elements_last j as⟩
      | cons c bs => exact ⟨_, _, elements_more j c bs as⟩
    obtain ⟨b, els, he⟩ := this
    rw [he] at hb ⊢
    rw [loopSmall_fail hj hb (hz j hj)]
    simp

/-- The side asked for has a member in the mask iff it comes first. -/
theorem mask_hits {S : Nat → Nat → Bool} (hN : ∀ j k, S j k = true → k < 64) (hd : ∀ k, ¬ (S 0 k = true ∧ S 1 k = true))
    {i pos : Nat} {l r mask : Word} {p q : Option Nat} (hi : i < 2) (hl : Holds l (S 0) pos) (hr : Holds r (S 1) pos) (hm : GapMask mask S pos)
    (hp : Bits.Spec.NextMember (S i) pos p) (hq : Bits.Spec.NextMember (S (1 - i)) pos q) :
    (if i = 1 then r else l) &&& mask ≠ 0 ↔ ∃ s, p = some s ∧ ∀ t, q = some t → s < t := by
  have hv : Holds (if i = 1 then r else l) (S i) pos := by
    rcases (show i = 0 ∨ i = 1 by omega) with rfl | rfl
    · simpa using hl
    · simpa using hr
  have hb : ∀ k, both S k = (S i k || S (1 - i) k) := by
    intro k
    rcases (show i = 0 ∨ i = 1 by omega) with rfl | rfl
    · rfl
    · simp [both, Bool.or_comm]
  have hd' : ∀ k, ¬ (S i k = true ∧ S (1 - i) k = true) := by
    intro k
    rcases (show i = 0 ∨ i = 1 by omega) with rfl | rfl
    · exact hd k
    · exact fun h => hd k h.symm
  rw [ne_eq, and_eq_zero]
  constructor
  · intro h
    simp only [not_forall, not_not] at h
    obtain ⟨k, hk, h1, h2⟩ := h
    rw [hv] at h1
    simp only [Bool.and_eq_true, decide_eq_true_eq] at h1
    obtain ⟨_, _, hmin⟩ := (hm k hk).1 h2
    cases p with
    | none => rw [hp k h1.2] at h1; exact absurd h1.1 (by simp)
    | some s =>
      have hsk : s = k := by
        by_contra hc
        rcases Nat.lt_or_gt_of_ne hc with hc | hc
        · have := hmin s hp.1 hc
          rw [hb, hp.2.1] at this
          simp at this
        · have := hp.2.2 k h1.2 hc
          rw [h1.1] at this
          cases this
      subst hsk
      refine ⟨s, rfl, fun t ht => ?_⟩
      subst ht
      by_contra hc
      rcases Nat.lt_or_eq_of_le (Nat.le_of_not_lt hc) with hc | hc
      · have := hmin t hq.1 hc
        rw [hb, hq.2.1] at this
        simp at this
      · subst hc; exact hd' t ⟨hp.2.1, hq.2.1⟩
  · rintro ⟨s, rfl, h⟩ hz
    obtain ⟨p1, p2, p3⟩ := hp
    have hs := hN i s p2
    refine hz s hs ⟨by rw [hv, p2]; simpa using p1, (hm s hs).2 ⟨p1, by rw [hb, p2]; rfl, fun k a b => ?_⟩⟩
    rw [hb, p3 k a b, Bool.false_or]
    cases q with
    | none => exact hq k a
    | some t => exact hq.2.2 k a (by have := h t rfl; omega)

/-- After a run, no member of the other side lies before its end iff none lies before its start. -/
theorem before_end {S : Nat → Nat → Bool} (hd : ∀ k, ¬ (S 0 k = true ∧ S 1 k = true)) {i pos s e : Nat} {q : Option Nat} (hi : i < 2)
    (hq : Bits.Spec.NextMember (S (1 - i)) pos q) (he : RunEnd (S i) 64 s e) : (∀ t, q = some t → s < t) ↔ ∀ t, q = some t → e ≤ t := by
  have hd' : ∀ k, ¬ (S i k = true ∧ S (1 - i) k = true) := by
    intro k
    rcases (show i = 0 ∨ i = 1 by omega) with rfl | rfl
    · exact hd k
    · exact fun h => hd k h.symm
  constructor
  · intro h t ht
    subst ht
    by_contra hc
    have := h t rfl
    exact hd' t ⟨he.mem t (by omega) (by omega), hq.2.1⟩
  · intro h t ht
    have := h t ht
    have := he.lt
    omega

theorem loopSmall_spec {args lengths : Word} {S : Nat → Nat → Bool} (hN : ∀ j k, S j k = true → k < 64)
    (hd : ∀ k, ¬ (S 0 k = true ∧ S 1 k = true)) : ∀ yf, WFyf yf → ∀ n pos l r mask, BitsFrom args lengths n (Spec.elements yf) →
    Holds l (S 0) pos → Holds r (S 1) pos → GapMask mask S pos →
    (loopSmall args lengths (Spec.elements yf).length n l r mask = true ↔ Good S 64 pos yf) := by
  have hrun : ∀ i, ∃ f : Nat → Nat, ∀ s, S i s = true → RunEnd (S i) 64 s (f s) := by
    intro i
    have : ∀ s, ∃ e, S i s = true → RunEnd (S i) 64 s e := by
      intro s
      cases h : S i s with
      | false => exact ⟨0, by simp⟩
      | true => obtain ⟨e, he⟩ := exists_runEnd (hN i) h; exact ⟨e, fun _ => he⟩
    exact ⟨fun s => Classical.choose (this s), fun s => Classical.choose_spec (this s)⟩
  intro yf hyf
  refine yf_ind (P := fun yf => ∀ n pos l r mask, BitsFrom args lengths n (Spec.elements yf) →
    Holds l (S 0) pos → Holds r (S 1) pos → GapMask mask S pos →
    (loopSmall args lengths (Spec.elements yf).length n l r mask = true ↔ Good S 64 pos yf)) ?_ ?_ ?_ yf hyf
  · intro n pos l r mask _ hl hr _
    rw [good_nil hN]
    simp only [Spec.elements, List.flatMap_nil, List.length_nil, loopSmall, Bool.and_eq_true, decide_eq_true_eq]
    have hz : ∀ (v : Word) (T : Nat → Bool), Holds v T pos → (∀ k, T k = true → k < 64) → (v = 0 ↔ ∀ k, pos ≤ k → T k = false) := by
      intro v T hv hT
      constructor
      · rintro rfl k hk
        have := hv k
        simpa [hk] using this.symm
      · intro h
        apply BitVec.eq_of_getLsbD_eq
        intro k _
        rw [hv]
        by_cases hk : pos ≤ k
        · rw [h k hk]; simp
        · simp [hk]
    rw [hz l _ hl (hN 0), hz r _ hr (hN 1)]
    exact ⟨fun h k hk => ⟨h.1 k hk, h.2 k hk⟩, fun h => ⟨fun k hk => (h k hk).1, fun k hk => (h k hk).2⟩⟩
  · intro i as hw ih n pos l r mask hb hl hr hm
    rw [elements_last] at hb ⊢
    have hi := hw.head_lt
    obtain ⟨p, hp⟩ := next_of_bound (hN i) pos
    obtain ⟨q, hq⟩ := next_of_bound (hN (1 - i)) pos
    obtain ⟨f, hf⟩ := hrun i
    rw [(good_iff_step hi rfl hd hN hp hq f hf).1 as]
    by_cases hh : (if i = 1 then r else l) &&& mask ≠ 0
    · obtain ⟨s, rfl, hst⟩ := (mask_hits hN hd hi hl hr hm hp hq).1 hh
      have he := hf s hp.2.1
      obtain ⟨l', r', m1, m2, a1, a2, a3, _, a5⟩ := loopSmall_step hN hi hb hl hr hh hp.1 hp.2.1 hp.2.2 he
      rw [a5, if_pos rfl, ih (n + 1) (f s) l' r' m1 hb.tail a1 a2 a3]
      have hst' := (before_end hd hi hq he).1 hst
      exact ⟨fun h => ⟨s, rfl, hst', h.1, h.2⟩, fun ⟨s', hs, _, h1, h2⟩ => by cases hs; exact ⟨h1, h2⟩⟩
    · rw [loopSmall_fail hi hb (not_not.1 hh)]
      simp only [Bool.false_eq_true, false_iff]
      rintro ⟨s, rfl, hst, _⟩
      exact hh ((mask_hits hN hd hi hl hr hm hp hq).2 ⟨s, rfl, (before_end hd hi hq (hf s hp.2.1)).2 hst⟩)
  · intro i j bs as hw ih n pos l r mask hb hl hr hm
    rw [elements_more] at hb ⊢
    have hi := hw.head_lt
    obtain ⟨p, hp⟩ := next_of_bound (hN i) pos
    obtain ⟨q, hq⟩ := next_of_bound (hN (1 - i)) pos
    obtain ⟨f, hf⟩ := hrun i
    rw [(good_iff_step hi rfl hd hN hp hq f hf).2 j bs as]
    by_cases hh : (if i = 1 then r else l) &&& mask ≠ 0
    · obtain ⟨s, rfl, hst⟩ := (mask_hits hN hd hi hl hr hm hp hq).1 hh
      have he := hf s hp.2.1
      obtain ⟨l', r', m1, m2, a1, a2, _, a4, a5⟩ := loopSmall_step hN hi hb hl hr hh hp.1 hp.2.1 hp.2.2 he
      rw [a5, if_neg (by simp), loopSmall_adj hw.rest.head_lt hb.tail a1 a2 a4 _ (fun hg => ih (n + 1) (f s) l' r' m2 hb.tail a1 a2 hg)]
      have hst' := (before_end hd hi hq he).1 hst
      have hbe : both S (f s) = S (1 - i) (f s) := by
        have := he.stop
        rcases (show i = 0 ∨ i = 1 by omega) with rfl | rfl <;> simp [both, this]
      rw [hbe]
      exact ⟨fun h => ⟨s, rfl, hst', h.1, h.2⟩, fun ⟨s', hs, _, h1, h2⟩ => by cases hs; exact ⟨h1, h2⟩⟩
    · rw [loopSmall_fail hi hb (not_not.1 hh)]
      simp only [Bool.false_eq_true, false_iff]
      rintro ⟨s, rfl, hst, _⟩
      exact hh ((mask_hits hN hd hi hl hr hm hp hq).2 ⟨s, rfl, (before_end hd hi hq (hf s hp.2.1)).2 hst⟩)

/-! ### The whole function -/

theorem encodes_wf {args lengths : Word} {yf : List (List Nat)} (h : Spec.Encodes args lengths yf) : WFyf yf := h.1

theorem elements_side {yf : List (List Nat)} (h : WFyf yf) : ∀ y ∈ Spec.elements yf, y.1 = 0 ∨ y.1 = 1 := by
  intro y hy
  simp only [Spec.elements, List.mem_flatMap] at hy
  obtain ⟨a, ha, hy⟩ := hy
  obtain ⟨i, hi, rfl⟩ := List.mem_mapIdx.1 hy
  exact (h a ha).2 _ (List.getElem_mem _)

theorem encodes_bits {args lengths : Word} {yf : List (List Nat)} (h : Spec.Encodes args lengths yf) : BitsFrom args lengths 0 (Spec.elements yf) := by
  intro i x b hi
  have hx := elements_side h.1 (x, b) (List.mem_of_getElem? hi)
  obtain ⟨h1, h2⟩ := h.2.2 i
  rw [Nat.zero_add]
  constructor
  · rw [Bool.eq_iff_iff, h1, hi]
    simp
  · cases b with
    | true => exact h2.2 ⟨x, hi⟩
    | false =>
      rw [← Bool.not_eq_true, h2, hi]
      simp

theorem elements_getLast {yf : List (List Nat)} (h : WFyf yf) (hne : yf ≠ []) : ∃ x, (Spec.elements yf)[(Spec.elements yf).length - 1]? = some (x, true) ∧
    0 < (Spec.elements yf).length := by
  refine yf_ind (P := fun yf => yf ≠ [] → ∃ x, (Spec.elements yf)[(Spec.elements yf).length - 1]? = some (x, true) ∧
    0 < (Spec.elements yf).length) (fun h => absurd rfl h) ?_ ?_ yf h hne
  · intro i as _ ih _
    rw [elements_last]
    cases as with
    | nil => exact ⟨i, by simp [Spec.elements], by simp⟩
    | cons a as =>
      obtain ⟨x, h1, h2⟩ := ih (by simp)
      refine ⟨x, ?_, by simp⟩
      rw [List.length_cons, Nat.add_sub_cancel, show (Spec.elements (a :: as)).length = ((Spec.elements (a :: as)).length - 1) + 1 by omega,
        List.getElem?_cons_succ]
      exact h1
  · intro i j bs as _ ih _
    rw [elements_more]
    obtain ⟨x, h1, h2⟩ := ih (by simp)
    refine ⟨x, ?_, by simp⟩
    rw [List.length_cons, Nat.add_sub_cancel, show (Spec.elements ((j :: bs) :: as)).length = ((Spec.elements ((j :: bs) :: as)).length - 1) + 1 by omega,
      List.getElem?_cons_succ]
    exact h1

theorem encodes_length {args lengths : Word} {yf : List (List Nat)} (h : Spec.Encodes args lengths yf) :
    bitlength lengths = (Spec.elements yf).length := by
  obtain ⟨b1, b2, b3⟩ := C10_bitlength lengths
  cases yf with
  | nil =>
    have : lengths = 0 := by
      apply BitVec.eq_of_getLsbD_eq
      intro k _
      have := (h.2.2 k).2
      simp [Spec.elements] at this
      simp [this]
    rw [b1.2 this]; rfl
  | cons a as =>
    obtain ⟨x, h1, h2⟩ := elements_getLast h.1 (by simp)
    have hlast := (h.2.2 _).2.2 ⟨x, h1⟩
    have hne : lengths ≠ 0 := by
      intro h0
      rw [h0] at hlast
      simp at hlast
    refine Nat.le_antisymm ?_ ?_
    · obtain ⟨y, hy⟩ := (h.2.2 _).2.1 (b3 hne)
      have := (List.getElem?_eq_some_iff.1 hy).1
      have : bitlength lengths ≠ 0 := fun h => hne (b1.1 h)
      omega
    · by_contra hc
      have := b2 ((Spec.elements (a :: as)).length - 1) (by omega)
      rw [hlast] at this
      cases this

theorem composes_iff {L R : Nat → Bool} {N : Nat} {yf : List (List Nat)} :
    Spec.Composes yf L R N ↔ Good (sides L R) N 0 yf ∧ ∀ k, ¬ (L k = true ∧ R k = true) := by
  have e : (fun i => if i = 0 then Spec.spans L N else if i = 1 then Spec.spans R N else []) = spansAt (sides L R) N 0 := by
    funext i
    rw [spansAt]
    by_cases h0 : i = 0
    · subst h0; simp [Spec.spans, sides]
    · by_cases h1 : i = 1
      · subst h1; simp [Spec.spans, sides]
      · rw [if_neg h0, if_neg h1, if_neg (by omega)]
  rw [Spec.Composes, e]
  rfl

theorem overlap_iff : ∀ (A B : List Word), A.length = B.length → (overlap A B = false ↔ ∀ k, ¬ (abit A k = true ∧ abit B k = true)) := by
  intro A
  induction A with
  | nil => intro B _; simp [overlap]
  | cons a A ih =>
    intro B hl
    cases B with
    | nil => simp at hl
    | cons b B =>
      have ih := ih B (by simpa using hl)
      rw [overlap]
      by_cases h : a &&& b = 0
      · rw [if_neg (not_not.2 h), ih]
        rw [and_eq_zero] at h
        constructor
        · intro hh k
          by_cases hk : k < 64
          · rw [abit_cons_lt hk, abit_cons_lt hk]; exact h k hk
          · rw [abit_cons_ge (by omega), abit_cons_ge (by omega)]; exact hh _
        · intro hh k
          have := hh (k + 64)
          rwa [abit_cons_ge (by omega), abit_cons_ge (by omega), Nat.add_sub_cancel] at this
      · rw [if_pos h]
        simp only [Bool.true_eq_false, false_iff]
        intro hh
        refine h (and_eq_zero.2 (fun k hk => ?_))
        have := hh k
        rwa [abit_cons_lt hk, abit_cons_lt hk] at this

/-- **C41** (long sentences). Two items combine under a rule exactly if their yields are disjoint and the rule's yield function, applied to the
spans of the left and right item, uses up all spans in order and gives exactly the spans of the union. -/
theorem C41_concat_fat (args lengths : Word) (yf : List (List Nat)) (A B : List Word) (he : Spec.Encodes args lengths yf) (hlen : A.length = B.length) :
    concatFat args lengths A B = true ↔ Spec.Composes yf (abit A) (abit B) (64 * A.length) := by
  rw [composes_iff, ← overlap_iff A B hlen, concatFat]
  cases ho : overlap A B with
  | true => simp
  | false =>
    rw [if_neg (by simp), encodes_length he]
    rw [loopFat_spec hlen ((overlap_iff A B hlen).1 ho) yf he.1 0 0 _ _ (encodes_bits he) (C10_anextset A 0) (C10_anextset B 0)]
    simp

/-- The number of spans still to come is smaller after a span of the same side. -/
theorem fewer_after {S : Nat → Bool} (hN : ∀ k, S k = true → k < 64) {t e : Nat} (ht : Bits.Spec.NextMember S 0 (some t))
    (hstop : ∃ s, t < s ∧ s < e ∧ S s = false) : (SplitDisc.Spec.runs (Spec.members S 64 e)).length < (SplitDisc.Spec.runs (Spec.members S 64 0)).length := by
  obtain ⟨e', he'⟩ := exists_runEnd hN ht.2.1
  obtain ⟨s, h1, h2, h3⟩ := hstop
  have hes : e' ≤ s := by
    by_contra hc
    have := he'.mem s (by omega) (by omega)
    rw [h3] at this
    cases this
  rw [runs_members (Nat.zero_le t) (fun k _ hk => ht.2.2 k (Nat.zero_le _) hk) he', List.length_cons]
  have := runs_length_mono (S := S) (N := 64) (e - e') (pos := e')
  rw [show e' + (e - e') = e by omega] at this
  omega

theorem good_mentions {S : Nat → Nat → Bool} {N pos o : Nat} {yf : List (List Nat)} (ho : o < 2) (h : Good S N pos yf) :
    Prods.Spec.mentions yf o = (SplitDisc.Spec.runs (Spec.members (S o) N pos)).length := by
  have := (apply_count o yf _ _ _ h).1
  rw [spansAt, if_pos ho] at this
  simpa using this.symm

/-- **C41** (short sentences). The same for the variant on single words, provided that the fan-out of both items is what the rule expects. -/
theorem C41_concat_small (args lengths l r : Word) (yf : List (List Nat)) (he : Spec.Encodes args lengths yf)
    (hfl : Prods.Spec.mentions yf 0 = (Spec.spans l.getLsbD 64).length) (hfr : Prods.Spec.mentions yf 1 = (Spec.spans r.getLsbD 64).length) :
    concatSmall args lengths l r = true ↔ Spec.Composes yf l.getLsbD r.getLsbD 64 := by
  rw [composes_iff, concatSmall]
  have hdis : l &&& r = 0 ↔ ∀ k, ¬ (l.getLsbD k = true ∧ r.getLsbD k = true) := by
    rw [and_eq_zero]
    exact ⟨fun h k hk => h k (BitVec.lt_of_getLsbD hk.1) hk, fun h k _ => h k⟩
  rw [← hdis]
  by_cases h0 : l &&& r = 0
  swap
  · rw [if_pos h0]; simp only [h0, and_false, Bool.false_eq_true]
  rw [if_neg (not_not.2 h0), encodes_length he]
  simp only [h0, and_true]
  have hd := hdis.1 h0
  generalize hS : sides l.getLsbD r.getLsbD = S
  have hS0 : S 0 = l.getLsbD := by rw [← hS]; rfl
  have hS1 : S 1 = r.getLsbD := by rw [← hS]; rfl
  have hN : ∀ j k, S j k = true → k < 64 := by
    intro j k h
    rw [← hS] at h
    simp only [sides] at h
    split at h
    · exact BitVec.lt_of_getLsbD h
    · split at h
      · exact BitVec.lt_of_getLsbD h
      · cases h
  have hdS : ∀ k, ¬ (S 0 k = true ∧ S 1 k = true) := by rw [hS0, hS1]; exact hd
  have hl : Holds l (S 0) 0 := fun k => by rw [hS0]; simp
  have hr : Holds r (S 1) 0 := fun k => by rw [hS1]; simp
  have hmen : ∀ o, o < 2 → Prods.Spec.mentions yf o = (SplitDisc.Spec.runs (Spec.members (S o) 64 0)).length := by
    intro o ho
    rcases (show o = 0 ∨ o = 1 by omega) with rfl | rfl
    · rw [hS0, hfl]; rfl
    · rw [hS1, hfr]; rfl
  have hbits := encodes_bits he
  have hwf := he.1
  have hrun : ∀ i, ∃ f : Nat → Nat, ∀ s, S i s = true → RunEnd (S i) 64 s (f s) := by
    intro i
    have : ∀ s, ∃ e, S i s = true → RunEnd (S i) 64 s e := by
      intro s
      cases h : S i s with
      | false => exact ⟨0, by simp⟩
      | true => obtain ⟨e, he⟩ := exists_runEnd (hN i) h; exact ⟨e, fun _ => he⟩
    exact ⟨fun s => Classical.choose (this s), fun s => Classical.choose_spec (this s)⟩
  -- the other side cannot come first
  have hfirst : ∀ i bs as rest s e q, yf = (i :: bs) :: as → i < 2 → rest.flatten = bs ++ as.flatten → Good S 64 e rest →
      RunEnd (S i) 64 s e → Bits.Spec.NextMember (S (1 - i)) 0 q → ∀ t, q = some t → e ≤ t := by
    intro i bs as rest s e q hyf hi hrest hg hre hq t ht
    subst ht
    by_contra hc
    have hd' : ∀ k, ¬ (S i k = true ∧ S (1 - i) k = true) := by
      intro k
      rcases (show i = 0 ∨ i = 1 by omega) with rfl | rfl
      · exact hdS k
      · exact fun h => hdS k h.symm
    have hts : t < s := by
      by_contra hts
      exact hd' t ⟨hre.mem t (by omega) (by omega), hq.2.1⟩
    have hso : S (1 - i) s = false := by
      have := hd' s
      have hm := hre.mem s (Nat.le_refl _) hre.lt
      simpa [hm] using this
    have h1 := fewer_after (hN (1 - i)) hq ⟨s, hts, hre.lt, hso⟩
    have h2 := good_mentions (o := 1 - i) (by omega) hg
    have h3 := hmen (1 - i) (by omega)
    have h4 : Prods.Spec.mentions yf (1 - i) = Prods.Spec.mentions rest (1 - i) := by
      rw [Prods.Spec.mentions, Prods.Spec.mentions, hrest, hyf]
      simp only [List.flatten_cons, List.cons_append, List.count_cons]
      rw [if_neg (by simp; omega), Nat.add_zero]
    omega
  cases hyf : yf with
  | nil =>
    rw [hyf] at hbits
    have := loopSmall_spec hN hdS [] (by simp [WFyf]) 0 0 l r _ hbits hl hr (gapMask_next hl hr hN)
    simp only [Spec.elements, List.flatMap_nil, List.length_nil, loopSmall] at this ⊢
    exact this
  | cons a as =>
    cases a with
    | nil => exact absurd rfl (hwf [] (by rw [hyf]; simp)).1
    | cons i bs =>
      rw [hyf] at hbits
      have hw : WFyf ((i :: bs) :: as) := hyf ▸ hwf
      have hi := hw.head_lt
      obtain ⟨p, hp⟩ := next_of_bound (hN i) 0
      obtain ⟨q, hq⟩ := next_of_bound (hN (1 - i)) 0
      obtain ⟨f, hf⟩ := hrun i
      have hmask : ∀ b els, BitsFrom args lengths 0 ((i, b) :: els) → (if args.getLsbD 0 = true then r else l) = (if i = 1 then r else l) := by
        intro b els hb
        rw [hb.head.1]; simp
      have hv : Holds (if i = 1 then r else l) (S i) 0 := by
        rcases (show i = 0 ∨ i = 1 by omega) with rfl | rfl
        · simpa using hl
        · simpa using hr
      have hzero : (if i = 1 then r else l) &&& (if i = 1 then r else l) = 0 ↔ p = none := by
        rw [and_eq_zero]
        constructor
        · intro h
          cases p with
          | none => rfl
          | some s =>
            have hs := hp.2.1
            exact absurd ⟨by rw [hv, hs]; simp, by rw [hv, hs]; simp⟩ (h s (hN _ _ hs))
        · rintro rfl k _ hk
          rw [hv, hp k (Nat.zero_le _)] at hk
          simp at hk
      cases bs with
      | nil =>
        rw [elements_last] at hbits ⊢
        rw [hmask _ _ hbits, (good_iff_step hi rfl hdS hN hp hq f hf).1 as]
        cases p with
        | none => rw [loopSmall_fail hi hbits (hzero.2 rfl)]; simp
        | some s =>
          have hre := hf s hp.2.1
          obtain ⟨l', r', m1, m2, a1, a2, a3, _, a5⟩ := loopSmall_step hN hi hbits hl hr (fun h => by simpa using hzero.1 h) hp.1 hp.2.1 hp.2.2 hre
          rw [a5, if_pos rfl, loopSmall_spec hN hdS as hw.tail 1 (f s) l' r' m1 hbits.tail a1 a2 a3]
          constructor
          · rintro ⟨h1, h2⟩
            exact ⟨s, rfl, hfirst i [] as as s (f s) q hyf hi (by simp) h2 hre hq, h1, h2⟩
          · rintro ⟨s', hs, _, h1, h2⟩
            cases hs
            exact ⟨h1, h2⟩
      | cons j bs =>
        rw [elements_more] at hbits ⊢
        rw [hmask _ _ hbits, (good_iff_step hi rfl hdS hN hp hq f hf).2 j bs as]
        cases p with
        | none => rw [loopSmall_fail hi hbits (hzero.2 rfl)]; simp
        | some s =>
          have hre := hf s hp.2.1
          obtain ⟨l', r', m1, m2, a1, a2, _, a4, a5⟩ := loopSmall_step hN hi hbits hl hr (fun h => by simpa using hzero.1 h) hp.1 hp.2.1 hp.2.2 hre
          rw [a5, if_neg (by simp), loopSmall_adj hw.rest.head_lt hbits.tail a1 a2 a4 _
            (fun hg => loopSmall_spec hN hdS ((j :: bs) :: as) hw.rest 1 (f s) l' r' m2 hbits.tail a1 a2 hg)]
          have hbe : both S (f s) = S (1 - i) (f s) := by
            have := hre.stop
            rcases (show i = 0 ∨ i = 1 by omega) with rfl | rfl <;> simp [both, this]
          rw [hbe]
          constructor
          · rintro ⟨h1, h2⟩
            exact ⟨s, rfl, hfirst i (j :: bs) as ((j :: bs) :: as) s (f s) q hyf hi (by simp) h2 hre hq, h1, h2⟩
          · rintro ⟨s', hs, _, h1, h2⟩
            cases hs
            exact ⟨h1, h2⟩

/-- Without the proviso the two variants differ: an item with two spans where the rule expects one is accepted by the variant for short
sentences, which looks for the first element of the yield function anywhere, and rejected by the one for long sentences. -/
theorem C41_small_unchecked : concatSmall 0b01 0b10 0b101 0b010 = true ∧ concatFat 0b01 0b10 [0b101] [0b010] = false := by decide +kernel


end Disco.Concat
