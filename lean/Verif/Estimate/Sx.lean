import Verif.Basic.Dict
import Mathlib.Algebra.Order.Monoid.Defs
import Mathlib.Algebra.Order.Monoid.Unbundled.Basic
import Mathlib.Algebra.Order.Group.Nat
import Mathlib.Order.Bounds.Defs
import Mathlib.Logic.Function.Basic
import Mathlib.Data.List.Nodup
import Mathlib.Data.List.ProdSigma
/-!
# C59: outside estimates for A* parsing with a PCFG: `pcfginsidesx` (estimates.pyx:397-451), `pcfgoutsidesx` (454-511), `getpcfgestimates` (370-394)

Simplifications: costs (negative log probabilities) are exact elements of an ordered monoid instead of floats, `INFINITY` and an absent entry are `none`. The agendas are dictionaries
from which any entry with a least value may be taken (C18, C19). The debug output is not modelled. The rule arrays are lists; the entries from `grammar.unary[label]` up to the next
label are the rules with this label (C46).
-/
set_option linter.unusedSectionVars false
namespace Disco.Estimate
open Dict

variable {R : Type} [AddCommMonoid R] [LinearOrder R] [IsOrderedAddMonoid R]

/-! ### Model -/

/-- `ProbRule` (containers.pxd) without yield function; `rhs2` is 0 for a unary rule. -/
structure Rule (R : Type) where
  lhs : Nat
  rhs1 : Nat
  rhs2 : Nat
  prob : R
  deriving DecidableEq

/-- The parts of `Grammar` that are used (containers.pxd:531-560). -/
structure Gram (R : Type) where
  nonterminals : Nat
  lexical : List (Nat × R)
  unary : List (Rule R)
  lbinary : List (Rule R)
  rbinary : List (Rule R)
  bylhs : List (Rule R)

/-- `agenda.setifbetter(k, v)` (_containers.h:140-153). -/
def setIfBetter {K : Type} [DecidableEq K] (a : Dict K R) (k : K) (v : R) : Dict K R :=
  match get? a k with
  | none => Dict.set a k v
  | some w => if v < w then Dict.set a k v else a

/-- An item: label and number of words. -/
abbrev In := Nat × Nat

/-- `setifbetter` for a new item, unless it already has a score. -/
def propose (ins : In → Option R) (a : Dict In R) (y : In) (c : R) : Dict In R := if (ins y).isNone then setIfBetter a y c else a

/-- The unary rules (estimates.pyx:421-427). -/
def inUnary (g : Gram R) (ins : In → Option R) (x : In) (c : R) (a : Dict In R) : Dict In R :=
  ((g.unary.filter (fun r => decide (r.rhs1 = x.1))).take g.nonterminals).foldl (fun a r => propose ins a (r.lhs, x.2) (r.prob + c)) a

/-- The lengths of the sibling: `range(1, maxlen - item.vec + 1)`. -/
def sizes (maxlen len : Nat) : List Nat := List.range' 1 (maxlen - len)

/-- The binary rules with the item on the left (estimates.pyx:429-438). -/
def inLeft (g : Gram R) (maxlen : Nat) (ins : In → Option R) (x : In) (c : R) (a : Dict In R) : Dict In R :=
  ((g.lbinary.filter (fun r => decide (r.rhs1 = x.1))).take g.nonterminals).foldl (fun a r =>
    (sizes maxlen x.2).foldl (fun a vec => match ins (r.rhs2, vec) with
      | none => a
      | some d => propose ins a (r.lhs, x.2 + vec) (r.prob + c + d)) a) a

/-- The binary rules with the item on the right (estimates.pyx:440-449). -/
def inRight (g : Gram R) (maxlen : Nat) (ins : In → Option R) (x : In) (c : R) (a : Dict In R) : Dict In R :=
  ((g.rbinary.filter (fun r => decide (r.rhs2 = x.1))).take g.nonterminals).foldl (fun a r =>
    (sizes maxlen x.2).foldl (fun a vec => match ins (r.rhs1, vec) with
      | none => a
      | some d => propose ins a (r.lhs, vec + x.2) (r.prob + d + c)) a) a

/-- The main loop of `pcfginsidesx` (estimates.pyx:412-450) for a number of rounds; `none` if it takes more. `pick` is the choice of the agenda. -/
def inLoop (g : Gram R) (maxlen : Nat) (pick : Dict In R → In) : Nat → (In → Option R) → Dict In R → Option (In → Option R)
  | fuel, ins, a =>
    if a.isEmpty then some ins
    else match fuel with
      | 0 => none
      | fuel + 1 => (get? a (pick a)).bind (fun c =>
        let x := pick a
        let a := erase a x
        let ins := if (ins x).all (fun d => decide (c < d)) then Function.update ins x (some c) else ins
        inLoop g maxlen pick fuel ins (inRight g maxlen ins x c (inLeft g maxlen ins x c (inUnary g ins x c a))))

/-- `pcfginsidesx(grammar, maxlen)` (estimates.pyx:397-451). -/
def pcfginsidesx (g : Gram R) (maxlen : Nat) (pick : Dict In R → In) (fuel : Nat) : Option (In → Option R) :=
  inLoop g maxlen pick fuel (fun _ => none) (g.lexical.foldl (fun a r => setIfBetter a (r.1, 1) r.2) [])

/-- An item of the outside estimates: label, number of words to the left and to the right. -/
abbrev Out := Nat × Nat × Nat

/-- `if score < outside[...]: agenda[...] = outside[...] = score`. -/
def relax (st : (Out → Option R) × Dict Out R) (y : Out) (score : R) : (Out → Option R) × Dict Out R :=
  if (st.1 y).all (fun d => decide (score < d)) then (Function.update st.1 y (some score), Dict.set st.2 y score) else st

/-- One rule (estimates.pyx:475-509). -/
def outRule (ins : In → Option R) (maxlen : Nat) (x : Out) (c : R) (st : (Out → Option R) × Dict Out R) (r : Rule R) : (Out → Option R) × Dict Out R :=
  if r.rhs2 = 0 then relax st (r.rhs1, x.2.1, x.2.2) (r.prob + c)
  else
    let sibsizes := List.range' 1 (maxlen - x.2.1 - x.2.2 - 1)
    let st := sibsizes.foldl (fun st s => match ins (r.rhs2, s) with
      | none => st
      | some d => relax st (r.rhs1, x.2.1, x.2.2 + s) (r.prob + c + d)) st
    sibsizes.foldl (fun st s => match ins (r.rhs1, s) with
      | none => st
      | some d => relax st (r.rhs2, x.2.1 + s, x.2.2) (r.prob + d + c)) st

/-- The main loop of `pcfgoutsidesx` (estimates.pyx:467-510) for a number of rounds. -/
def outLoop (g : Gram R) (ins : In → Option R) (maxlen : Nat) (pick : Dict Out R → Out) : Nat → (Out → Option R) × Dict Out R → Option (Out → Option R)
  | fuel, st =>
    if st.2.isEmpty then some st.1
    else match fuel with
      | 0 => none
      | fuel + 1 => (get? st.2 (pick st.2)).bind (fun c =>
        let x := pick st.2
        outLoop g ins maxlen pick fuel ((g.bylhs.filter (fun r => decide (r.lhs = x.1))).foldl (outRule ins maxlen x c) (st.1, erase st.2 x)))

/-- `pcfgoutsidesx(grammar, insidescores, goal, maxlen)` (estimates.pyx:454-511). -/
def pcfgoutsidesx (g : Gram R) (ins : In → Option R) (goal maxlen : Nat) (pick : Dict Out R → Out) (fuel : Nat) : Option (Out → Option R) :=
  outLoop g ins maxlen pick fuel (Function.update (fun _ => none) (goal, 0, 0) (some 0), [((goal, 0, 0), 0)])

/-- `getpcfgestimates(grammar, maxlen, rootlabel)` (estimates.pyx:370-375). -/
def getpcfgestimates (g : Gram R) (maxlen goal : Nat) (pickI : Dict In R → In) (pickO : Dict Out R → Out) (fuelI fuelO : Nat) : Option (Out → Option R) :=
  (pcfginsidesx g maxlen pickI fuelI).bind (fun ins => pcfgoutsidesx g ins goal maxlen pickO fuelO)

/-! ### Specification -/

/-- The label derives some sequence of `len` words with this cost. -/
inductive Spec.Inside (g : Gram R) : Nat → Nat → R → Prop
  | lex {l p} : (l, p) ∈ g.lexical → Inside g l 1 p
  | unary {r len c} : r ∈ g.bylhs → r.rhs2 = 0 → Inside g r.rhs1 len c → Inside g r.lhs len (r.prob + c)
  | binary {r a b c d} : r ∈ g.bylhs → r.rhs2 ≠ 0 → Inside g r.rhs1 a c → Inside g r.rhs2 b d → Inside g r.lhs (a + b) (r.prob + c + d)

/-- There is a derivation of the goal with this cost in which a constituent with the label is left out that has `left` words before and `right` words after it. -/
inductive Spec.Context (g : Gram R) (goal : Nat) : Nat → Nat → Nat → R → Prop
  | goal : Context g goal goal 0 0 0
  | unary {r left right c} : r ∈ g.bylhs → r.rhs2 = 0 → Context g goal r.lhs left right c → Context g goal r.rhs1 left right (r.prob + c)
  | onleft {r left right c s d} : r ∈ g.bylhs → r.rhs2 ≠ 0 → Context g goal r.lhs left right c → Spec.Inside g r.rhs2 s d → Context g goal r.rhs1 left (right + s) (r.prob + c + d)
  | onright {r left right c s d} : r ∈ g.bylhs → r.rhs2 ≠ 0 → Context g goal r.lhs left right c → Spec.Inside g r.rhs1 s d → Context g goal r.rhs2 (left + s) right (r.prob + c + d)

/-- The costs are not negative; the four arrays have the same rules; label 0 (Epsilon) is not used; no label has more rules than there are nonterminals in which it is the first or only
(or, the second) child. -/
structure Spec.Usable (g : Gram R) : Prop where
  lex : ∀ x ∈ g.lexical, 0 ≤ x.2
  prob : ∀ r ∈ g.bylhs, 0 ≤ r.prob
  unary : ∀ r, r ∈ g.unary ↔ r ∈ g.bylhs ∧ r.rhs2 = 0
  lbinary : ∀ r, r ∈ g.lbinary ↔ r ∈ g.bylhs ∧ r.rhs2 ≠ 0
  rbinary : ∀ r, r ∈ g.rbinary ↔ r ∈ g.bylhs ∧ r.rhs2 ≠ 0
  few : ∀ l, (g.unary.filter (fun r => decide (r.rhs1 = l))).length ≤ g.nonterminals ∧ (g.lbinary.filter (fun r => decide (r.rhs1 = l))).length ≤ g.nonterminals ∧
    (g.rbinary.filter (fun r => decide (r.rhs2 = l))).length ≤ g.nonterminals

/-- The agenda returns an entry with a least value. -/
def Spec.PicksLeast {K : Type} [DecidableEq K] (pick : Dict K R → K) : Prop := ∀ a : Dict K R, a ≠ [] → WF a → ∃ v, get? a (pick a) = some v ∧ ∀ y w, get? a y = some w → v ≤ w

/-- `c` is the least cost in a set of costs, or there are none. -/
def Spec.Best (P : R → Prop) : Option R → Prop
  | none => ∀ c, ¬ P c
  | some c => P c ∧ ∀ d, P d → c ≤ d

/-! ### Inside -/

section
variable {g : Gram R} {maxlen : Nat}

theorem inside_nonneg (U : Spec.Usable g) {l len : Nat} {c : R} (h : Spec.Inside g l len c) : 0 ≤ c := by
  induction h with
  | lex h => exact U.lex _ h
  | unary hr _ _ ih => exact add_nonneg (U.prob _ hr) ih
  | binary hr _ _ _ ih1 ih2 => exact add_nonneg (add_nonneg (U.prob _ hr) ih1) ih2

theorem inside_pos {l len : Nat} {c : R} (h : Spec.Inside g l len c) : 0 < len := by
  induction h with
  | lex h => omega
  | unary hr _ _ ih => exact ih
  | binary hr _ _ _ ih1 ih2 => omega

/-- The item is in the agenda with at most this cost, or has a score. -/
def Have (ins : In → Option R) (a : Dict In R) (y : In) (c : R) : Prop := (ins y).isSome ∨ ∃ d, get? a y = some d ∧ d ≤ c

theorem setIfBetter_get {K : Type} [DecidableEq K] (a : Dict K R) (k : K) (v : R) (j : K) :
    get? (setIfBetter a k v) j = if j = k then some (match get? a k with | none => v | some w => min v w) else get? a j := by
  unfold setIfBetter
  cases h : get? a k with
  | none =>
    simp only [get?_set]
    by_cases hj : j = k
    · subst hj; simp
    · rw [if_neg hj, if_neg (Ne.symm hj)]
  | some w =>
    simp only
    split
    · rename_i hlt
      rw [get?_set, min_eq_left hlt.le]
      by_cases hj : j = k
      · subst hj; simp
      · rw [if_neg hj, if_neg (Ne.symm hj)]
    · rename_i hlt
      by_cases hj : j = k
      · subst hj; rw [if_pos rfl, h, min_eq_right (not_lt.1 hlt)]
      · rw [if_neg hj]

theorem setIfBetter_wf {K : Type} [DecidableEq K] {a : Dict K R} (h : WF a) (k : K) (v : R) : WF (setIfBetter a k v) := by
  unfold setIfBetter
  split
  · exact h.set _ _
  · split
    · exact h.set _ _
    · exact h

/-- Facts about the agenda that hold all the time: the entries satisfy `P` and have no score; more proposals keep what was there. -/
structure AOk (ins : In → Option R) (P : In → R → Prop) (a : Dict In R) : Prop where
  wf : WF a
  sound : ∀ y d, get? a y = some d → P y d ∧ ins y = none

theorem setIfBetter_ok {ins : In → Option R} {P : In → R → Prop} {a : Dict In R} (h : AOk ins P a) {y : In} {c : R} (hP : P y c) (hy : ins y = none) :
    AOk ins P (setIfBetter a y c) ∧ (∀ z d, Have ins a z d → Have ins (setIfBetter a y c) z d) ∧ Have ins (setIfBetter a y c) y c := by
  refine ⟨⟨setIfBetter_wf h.wf _ _, ?_⟩, ?_, ?_⟩
  · intro z d hz
    rw [setIfBetter_get] at hz
    split at hz
    · rename_i hzy
      subst hzy
      injection hz with hz
      refine ⟨?_, hy⟩
      cases ha : get? a z with
      | none => rw [ha] at hz; simp only at hz; exact hz ▸ hP
      | some w =>
        rw [ha] at hz
        simp only at hz
        rcases min_choice c w with hm | hm
        · rw [← hz, hm]; exact hP
        · rw [← hz, hm]; exact (h.sound z w ha).1
    · exact h.sound z d hz
  · rintro z d (hz | ⟨e, he, hle⟩)
    · exact .inl hz
    · right
      rw [setIfBetter_get]
      by_cases hzy : z = y
      · subst hzy
        rw [if_pos rfl, he]
        exact ⟨_, rfl, (min_le_right _ _).trans hle⟩
      · rw [if_neg hzy]; exact ⟨e, he, hle⟩
  · right
    rw [setIfBetter_get, if_pos rfl]
    refine ⟨_, rfl, ?_⟩
    cases get? a y with
    | none => exact le_refl _
    | some w => exact min_le_left _ _

theorem propose_ok {ins : In → Option R} {P : In → R → Prop} {a : Dict In R} (h : AOk ins P a) {y : In} {c : R} (hP : P y c) :
    AOk ins P (propose ins a y c) ∧ (∀ z d, Have ins a z d → Have ins (propose ins a y c) z d) ∧ Have ins (propose ins a y c) y c := by
  unfold propose
  split
  · rename_i hy
    exact setIfBetter_ok h hP (Option.isNone_iff_eq_none.1 hy)
  · rename_i hy
    refine ⟨h, fun _ _ hh => hh, .inl ?_⟩
    cases hi : ins y with
    | none => rw [hi] at hy; simp at hy
    | some d => rfl

/-- A loop of proposals: `f x` lists the proposals for `x`. -/
theorem fold_ok {α : Type} {ins : In → Option R} {P : In → R → Prop} {F : Dict In R → α → Dict In R} {Q : α → In → R → Prop}
    (hF : ∀ a x, AOk ins P a → AOk ins P (F a x) ∧ (∀ z d, Have ins a z d → Have ins (F a x) z d) ∧ ∀ y c, Q x y c → Have ins (F a x) y c) :
    ∀ (xs : List α) (a : Dict In R), AOk ins P a → AOk ins P (xs.foldl F a) ∧ (∀ z d, Have ins a z d → Have ins (xs.foldl F a) z d) ∧
      ∀ x ∈ xs, ∀ y c, Q x y c → Have ins (xs.foldl F a) y c := by
  intro xs
  induction xs with
  | nil => intro a h; exact ⟨h, fun _ _ h => h, by simp⟩
  | cons x xs ih =>
    intro a h
    obtain ⟨h1, h2, h3⟩ := hF a x h
    obtain ⟨e1, e2, e3⟩ := ih (F a x) h1
    refine ⟨e1, fun z d hz => e2 z d (h2 z d hz), ?_⟩
    intro x' hx' y c hQ
    rcases List.mem_cons.1 hx' with rfl | hx'
    · exact e2 _ _ (h3 y c hQ)
    · exact e3 x' hx' y c hQ

theorem fold_ok' {α : Type} {ins : In → Option R} {P : In → R → Prop} {F : Dict In R → α → Dict In R} {Q : α → In → R → Prop} (xs : List α)
    (hF : ∀ x ∈ xs, ∀ a, AOk ins P a → AOk ins P (F a x) ∧ (∀ z d, Have ins a z d → Have ins (F a x) z d) ∧ ∀ y c, Q x y c → Have ins (F a x) y c) :
    ∀ (a : Dict In R), AOk ins P a → AOk ins P (xs.foldl F a) ∧ (∀ z d, Have ins a z d → Have ins (xs.foldl F a) z d) ∧
      ∀ x ∈ xs, ∀ y c, Q x y c → Have ins (xs.foldl F a) y c := by
  induction xs with
  | nil => intro a h; exact ⟨h, fun _ _ h => h, by simp⟩
  | cons x xs ih =>
    intro a h
    obtain ⟨h1, h2, h3⟩ := hF x (by simp) a h
    obtain ⟨e1, e2, e3⟩ := ih (fun x hx => hF x (List.mem_cons_of_mem _ hx)) (F a x) h1
    refine ⟨e1, fun z d hz => e2 z d (h2 z d hz), ?_⟩
    intro x' hx' y c hQ
    rcases List.mem_cons.1 hx' with rfl | hx'
    · exact e2 _ _ (h3 y c hQ)
    · exact e3 x' hx' y c hQ

/-- Every combination of scored items that a rule allows, at most `maxlen` words long. -/
inductive Step (g : Gram R) (maxlen : Nat) (ins : In → Option R) : In → R → Prop
  | lex {l p} : (l, p) ∈ g.lexical → Step g maxlen ins (l, 1) p
  | unary {r len c} : r ∈ g.bylhs → r.rhs2 = 0 → ins (r.rhs1, len) = some c → Step g maxlen ins (r.lhs, len) (r.prob + c)
  | binary {r a b c d} : r ∈ g.bylhs → r.rhs2 ≠ 0 → ins (r.rhs1, a) = some c → ins (r.rhs2, b) = some d → a + b ≤ maxlen → Step g maxlen ins (r.lhs, a + b) (r.prob + c + d)

/-- The invariant of the loop. -/
structure Inv (g : Gram R) (maxlen : Nat) (ins : In → Option R) (a : Dict In R) : Prop where
  aok : AOk ins (fun y d => Spec.Inside g y.1 y.2 d ∧ y.2 ≤ maxlen) a
  best : ∀ x c, ins x = some c → Spec.Inside g x.1 x.2 c ∧ x.2 ≤ maxlen ∧ ∀ d, Spec.Inside g x.1 x.2 d → c ≤ d
  closed : ∀ y c, Step g maxlen ins y c → Have ins a y c

/-- An item without score costs at least as much as something in the agenda. -/
theorem frontier (U : Spec.Usable g) {ins : In → Option R} {a : Dict In R} (I : Inv g maxlen ins a) {l len : Nat} {c : R} (h : Spec.Inside g l len c) (hlen : len ≤ maxlen)
    (hno : ins (l, len) = none) : ∃ y d, get? a y = some d ∧ d ≤ c := by
  have have_none : ∀ y c, ins y = none → Have ins a y c → ∃ y d, get? a y = some d ∧ d ≤ c := by
    rintro y c hy (h | ⟨d, h1, h2⟩)
    · rw [hy] at h; cases h
    · exact ⟨y, d, h1, h2⟩
  induction h with
  | lex h => exact have_none _ _ hno (I.closed _ _ (.lex h))
  | @unary r len c hr h0 h ih =>
    cases hi : ins (r.rhs1, len) with
    | none =>
      obtain ⟨y, d, h1, h2⟩ := ih hlen hi
      exact ⟨y, d, h1, h2.trans (le_add_of_nonneg_left (U.prob _ hr))⟩
    | some e =>
      obtain ⟨y, d, h1, h2⟩ := have_none _ _ hno (I.closed _ _ (.unary hr h0 hi))
      exact ⟨y, d, h1, h2.trans (add_le_add (le_refl _) ((I.best _ _ hi).2.2 _ h))⟩
  | @binary r a' b c d hr h0 h1 h2 ih1 ih2 =>
    cases hi : ins (r.rhs1, a') with
    | none =>
      obtain ⟨y, e, h3, h4⟩ := ih1 (by omega) hi
      refine ⟨y, e, h3, h4.trans ?_⟩
      rw [add_assoc, add_comm c, ← add_assoc]
      exact le_add_of_nonneg_left (add_nonneg (U.prob _ hr) (inside_nonneg U h2))
    | some e =>
      cases hj : ins (r.rhs2, b) with
      | none =>
        obtain ⟨y, e, h3, h4⟩ := ih2 (by omega) hj
        exact ⟨y, e, h3, h4.trans (le_add_of_nonneg_left (add_nonneg (U.prob _ hr) (inside_nonneg U h1)))⟩
      | some f =>
        obtain ⟨y, d', h3, h4⟩ := have_none _ _ hno (I.closed _ _ (.binary hr h0 hi hj hlen))
        exact ⟨y, d', h3, h4.trans (add_le_add (add_le_add (le_refl _) ((I.best _ _ hi).2.2 _ h1)) ((I.best _ _ hj).2.2 _ h2))⟩

theorem take_few {α : Type} {xs : List α} {n : Nat} (h : xs.length ≤ n) : xs.take n = xs := List.take_of_length_le h

/-- One round keeps the invariant. -/
theorem round_inv (U : Spec.Usable g) {ins : In → Option R} {a : Dict In R} (I : Inv g maxlen ins a) {x : In} {c : R} (hx : get? a x = some c) (hmin : ∀ y d, get? a y = some d → c ≤ d) :
    ins x = none ∧ Inv g maxlen (Function.update ins x (some c))
      (inRight g maxlen (Function.update ins x (some c)) x c (inLeft g maxlen (Function.update ins x (some c)) x c (inUnary g (Function.update ins x (some c)) x c (erase a x)))) := by
  obtain ⟨⟨hD, hlen⟩, hnone⟩ := I.aok.sound x c hx
  refine ⟨hnone, ?_⟩
  have hbest : ∀ z d, Function.update ins x (some c) z = some d → Spec.Inside g z.1 z.2 d ∧ z.2 ≤ maxlen ∧ ∀ e, Spec.Inside g z.1 z.2 e → d ≤ e := by
    intro z d hz
    by_cases hzx : z = x
    · subst hzx
      rw [Function.update_self] at hz
      injection hz with hz; subst hz
      refine ⟨hD, hlen, fun e he => ?_⟩
      obtain ⟨y, d, h1, h2⟩ := frontier U I he hlen hnone
      exact (hmin y d h1).trans h2
    · rw [Function.update_of_ne hzx] at hz
      exact I.best z d hz
  generalize hins : Function.update ins x (some c) = ins' at hbest ⊢
  have hself : ins' x = some c := by rw [← hins, Function.update_self]
  have hold : ∀ z, z ≠ x → ins' z = ins z := by intro z hz; rw [← hins, Function.update_of_ne hz]
  have A0 : AOk ins' (fun y d => Spec.Inside g y.1 y.2 d ∧ y.2 ≤ maxlen) (erase a x) := by
    refine ⟨I.aok.wf.erase x, ?_⟩
    intro y d hy
    rw [get?_erase I.aok.wf] at hy
    split at hy
    · cases hy
    · rename_i hne
      have := I.aok.sound y d hy
      exact ⟨this.1, by rw [hold y (fun h => hne h.symm)]; exact this.2⟩
  have H0 : ∀ y d, Have ins a y d → Have ins' (erase a x) y d := by
    rintro y d hy
    by_cases hyx : y = x
    · left; rw [hyx, hself]; rfl
    · rcases hy with h | ⟨e, h1, h2⟩
      · left; rw [hold y hyx]; exact h
      · right
        rw [get?_erase I.aok.wf, if_neg (fun h => hyx h.symm)]
        exact ⟨e, h1, h2⟩
  obtain ⟨A1, K1, N1⟩ := fold_ok' (ins := ins') (P := fun y d => Spec.Inside g y.1 y.2 d ∧ y.2 ≤ maxlen) (F := fun a r => propose ins' a (r.lhs, x.2) (r.prob + c))
    (Q := fun r y d => y = (r.lhs, x.2) ∧ d = r.prob + c) ((g.unary.filter (fun r => decide (r.rhs1 = x.1))).take g.nonterminals) (by
      intro r hr a ha
      rw [take_few (U.few x.1).1, List.mem_filter, decide_eq_true_eq, U.unary] at hr
      obtain ⟨e1, e2, e3⟩ := propose_ok ha (y := (r.lhs, x.2)) (c := r.prob + c) ⟨.unary hr.1.1 hr.1.2 (by rw [hr.2]; exact hD), hlen⟩
      refine ⟨e1, e2, ?_⟩
      rintro y d ⟨rfl, rfl⟩
      exact e3) (erase a x) A0
  rw [take_few (U.few x.1).1] at N1
  change AOk _ _ (inUnary g ins' x c (erase a x)) at A1
  change ∀ z d, _ → Have _ (inUnary g ins' x c (erase a x)) z d at K1
  replace N1 : ∀ r ∈ g.bylhs, r.rhs2 = 0 → r.rhs1 = x.1 → Have ins' (inUnary g ins' x c (erase a x)) (r.lhs, x.2) (r.prob + c) := by
    intro r hr h0 h1
    have := N1 r (by rw [List.mem_filter, U.unary]; exact ⟨⟨hr, h0⟩, by simpa using h1⟩) _ _ ⟨rfl, rfl⟩
    rw [inUnary, take_few (U.few x.1).1]
    exact this
  generalize inUnary g ins' x c (erase a x) = a1 at A1 K1 N1 ⊢
  have hsz : ∀ vec, vec ∈ sizes maxlen x.2 ↔ 1 ≤ vec ∧ x.2 + vec ≤ maxlen := by
    intro vec
    rw [sizes, List.mem_range'_1]
    omega
  obtain ⟨A2, K2, N2⟩ := fold_ok' (ins := ins') (P := fun y d => Spec.Inside g y.1 y.2 d ∧ y.2 ≤ maxlen) (F := fun a r => (sizes maxlen x.2).foldl (fun a vec => match ins' (r.rhs2, vec) with
      | none => a
      | some d => propose ins' a (r.lhs, x.2 + vec) (r.prob + c + d)) a)
    (Q := fun r y d => ∃ vec e, 1 ≤ vec ∧ x.2 + vec ≤ maxlen ∧ ins' (r.rhs2, vec) = some e ∧ y = (r.lhs, x.2 + vec) ∧ d = r.prob + c + e)
    ((g.lbinary.filter (fun r => decide (r.rhs1 = x.1))).take g.nonterminals) (by
      intro r hr a ha
      rw [take_few (U.few x.1).2.1, List.mem_filter, decide_eq_true_eq, U.lbinary] at hr
      obtain ⟨e1, e2, e3⟩ := fold_ok' (ins := ins') (P := fun y d => Spec.Inside g y.1 y.2 d ∧ y.2 ≤ maxlen)
        (F := fun a vec => match ins' (r.rhs2, vec) with
          | none => a
          | some d => propose ins' a (r.lhs, x.2 + vec) (r.prob + c + d))
        (Q := fun vec y d => ∃ e, ins' (r.rhs2, vec) = some e ∧ y = (r.lhs, x.2 + vec) ∧ d = r.prob + c + e) (sizes maxlen x.2) (by
          intro vec hvec a ha
          rw [hsz] at hvec
          cases hi : ins' (r.rhs2, vec) with
          | none => exact ⟨ha, fun _ _ h => h, by rintro y d ⟨e, h, _⟩; cases h⟩
          | some e =>
            obtain ⟨f1, f2, f3⟩ := propose_ok ha (y := (r.lhs, x.2 + vec)) (c := r.prob + c + e) ⟨.binary hr.1.1 hr.1.2 (by rw [hr.2]; exact hD) (hbest _ _ hi).1, hvec.2⟩
            refine ⟨f1, f2, ?_⟩
            rintro y d ⟨e', h, rfl, rfl⟩
            injection h with h; subst h
            exact f3) a ha
      refine ⟨e1, e2, ?_⟩
      rintro y d ⟨vec, e, h1, h2, h3, h4⟩
      exact e3 vec ((hsz vec).2 ⟨h1, h2⟩) y d ⟨e, h3, h4⟩) a1 A1
  rw [take_few (U.few x.1).2.1] at N2
  change AOk _ _ (inLeft g maxlen ins' x c a1) at A2
  change ∀ z d, _ → Have _ (inLeft g maxlen ins' x c a1) z d at K2
  replace N2 : ∀ r ∈ g.bylhs, r.rhs2 ≠ 0 → r.rhs1 = x.1 → ∀ vec e, 1 ≤ vec → x.2 + vec ≤ maxlen → ins' (r.rhs2, vec) = some e →
      Have ins' (inLeft g maxlen ins' x c a1) (r.lhs, x.2 + vec) (r.prob + c + e) := by
    intro r hr h0 h1 vec e h2 h3 h4
    have := N2 r (by rw [List.mem_filter, U.lbinary]; exact ⟨⟨hr, h0⟩, by simpa using h1⟩) _ _ ⟨vec, e, h2, h3, h4, rfl, rfl⟩
    rw [inLeft, take_few (U.few x.1).2.1]
    exact this
  generalize inLeft g maxlen ins' x c a1 = a2 at A2 K2 N2 ⊢
  obtain ⟨A3, K3, N3⟩ := fold_ok' (ins := ins') (P := fun y d => Spec.Inside g y.1 y.2 d ∧ y.2 ≤ maxlen) (F := fun a r => (sizes maxlen x.2).foldl (fun a vec => match ins' (r.rhs1, vec) with
      | none => a
      | some d => propose ins' a (r.lhs, vec + x.2) (r.prob + d + c)) a)
    (Q := fun r y d => ∃ vec e, 1 ≤ vec ∧ x.2 + vec ≤ maxlen ∧ ins' (r.rhs1, vec) = some e ∧ y = (r.lhs, vec + x.2) ∧ d = r.prob + e + c)
    ((g.rbinary.filter (fun r => decide (r.rhs2 = x.1))).take g.nonterminals) (by
      intro r hr a ha
      rw [take_few (U.few x.1).2.2, List.mem_filter, decide_eq_true_eq, U.rbinary] at hr
      obtain ⟨e1, e2, e3⟩ := fold_ok' (ins := ins') (P := fun y d => Spec.Inside g y.1 y.2 d ∧ y.2 ≤ maxlen)
        (F := fun a vec => match ins' (r.rhs1, vec) with
          | none => a
          | some d => propose ins' a (r.lhs, vec + x.2) (r.prob + d + c))
        (Q := fun vec y d => ∃ e, ins' (r.rhs1, vec) = some e ∧ y = (r.lhs, vec + x.2) ∧ d = r.prob + e + c) (sizes maxlen x.2) (by
          intro vec hvec a ha
          rw [hsz] at hvec
          cases hi : ins' (r.rhs1, vec) with
          | none => exact ⟨ha, fun _ _ h => h, by rintro y d ⟨e, h, _⟩; cases h⟩
          | some e =>
            obtain ⟨f1, f2, f3⟩ := propose_ok ha (y := (r.lhs, vec + x.2)) (c := r.prob + e + c) ⟨.binary hr.1.1 hr.1.2 (hbest _ _ hi).1 (by rw [hr.2]; exact hD), by
              show vec + x.2 ≤ maxlen
              omega⟩
            refine ⟨f1, f2, ?_⟩
            rintro y d ⟨e', h, rfl, rfl⟩
            injection h with h; subst h
            exact f3) a ha
      refine ⟨e1, e2, ?_⟩
      rintro y d ⟨vec, e, h1, h2, h3, h4⟩
      exact e3 vec ((hsz vec).2 ⟨h1, h2⟩) y d ⟨e, h3, h4⟩) a2 A2
  rw [take_few (U.few x.1).2.2] at N3
  change AOk _ _ (inRight g maxlen ins' x c a2) at A3
  change ∀ z d, _ → Have _ (inRight g maxlen ins' x c a2) z d at K3
  replace N3 : ∀ r ∈ g.bylhs, r.rhs2 ≠ 0 → r.rhs2 = x.1 → ∀ vec e, 1 ≤ vec → x.2 + vec ≤ maxlen → ins' (r.rhs1, vec) = some e →
      Have ins' (inRight g maxlen ins' x c a2) (r.lhs, vec + x.2) (r.prob + e + c) := by
    intro r hr h0 h1 vec e h2 h3 h4
    have := N3 r (by rw [List.mem_filter, U.rbinary]; exact ⟨⟨hr, h0⟩, by simpa using h1⟩) _ _ ⟨vec, e, h2, h3, h4, rfl, rfl⟩
    rw [inRight, take_few (U.few x.1).2.2]
    exact this
  generalize inRight g maxlen ins' x c a2 = a3 at A3 K3 N3 ⊢
  refine ⟨A3, hbest, ?_⟩
  intro y d hs
  have keep : Have ins a y d → Have ins' a3 y d := fun h => K3 _ _ (K2 _ _ (K1 _ _ (H0 _ _ h)))
  cases hs with
  | lex h => exact keep (I.closed _ _ (.lex h))
  | @unary r len e hr h0 hi =>
    by_cases hex : (r.rhs1, len) = x
    · rw [hex, hself] at hi
      injection hi with hi; subst hi
      have := N1 r hr h0 (by rw [← hex])
      rw [← hex] at this
      exact K3 _ _ (K2 _ _ this)
    · rw [hold _ hex] at hi
      exact keep (I.closed _ _ (.unary hr h0 hi))
  | @binary r p q e f hr h0 hi hj hpq =>
    by_cases hex : (r.rhs1, p) = x
    · have hq := inside_pos (hbest _ _ hj).1
      simp only at hq
      have := N2 r hr h0 (by rw [← hex]) q f (by omega) (by rw [← hex]; exact hpq) hj
      rw [hex, hself] at hi
      injection hi with hi; subst hi
      rw [← hex] at this
      exact K3 _ _ this
    · by_cases hex2 : (r.rhs2, q) = x
      · have hp := inside_pos (hbest _ _ hi).1
        simp only at hp
        have := N3 r hr h0 (by rw [← hex2]) p e (by omega) (by rw [← hex2]; simp only; omega) hi
        rw [hex2, hself] at hj
        injection hj with hj; subst hj
        rw [← hex2] at this
        exact this
      · rw [hold _ hex] at hi
        rw [hold _ hex2] at hj
        exact keep (I.closed _ _ (.binary hr h0 hi hj hpq))

/-- The labels that derive something. -/
def labels (g : Gram R) : List Nat := (g.lexical.map Prod.fst ++ g.bylhs.map Rule.lhs)

theorem inside_label {l len : Nat} {c : R} (h : Spec.Inside g l len c) : l ∈ labels g := by
  unfold labels
  cases h with
  | lex h => exact List.mem_append_left _ (List.mem_map_of_mem h)
  | unary h => exact List.mem_append_right _ (List.mem_map_of_mem h)
  | binary h => exact List.mem_append_right _ (List.mem_map_of_mem h)

/-- All items. -/
def allItems (g : Gram R) (maxlen : Nat) : List In := (labels g) ×ˢ (List.range (maxlen + 1))

theorem count_lt {α : Type} [DecidableEq α] (xs : List α) {p q : α → Bool} (hpq : ∀ x, q x = true → p x = true) {x : α} (hx : x ∈ xs) (hp : p x = true) (hq : q x = false) :
    xs.countP q < xs.countP p := by
  induction xs with
  | nil => cases hx
  | cons y ys ih =>
    rw [List.countP_cons, List.countP_cons]
    have hle : ys.countP q ≤ ys.countP p := List.countP_mono_left (fun z _ h => hpq z h)
    rcases List.mem_cons.1 hx with rfl | hx
    · simp [hp, hq]; omega
    · have := ih hx
      by_cases h1 : q y = true
      · simp [h1, hpq y h1]; exact this
      · by_cases h2 : p y = true
        · simp [h1, h2]; omega
        · simp [h1, h2]; exact this

theorem inLoop_spec (U : Spec.Usable g) {pick : Dict In R → In} (hp : Spec.PicksLeast pick) : ∀ (fuel : Nat) (ins : In → Option R) (a : Dict In R), Inv g maxlen ins a →
    (allItems g maxlen).countP (fun y => (ins y).isNone) ≤ fuel → ∃ res, inLoop g maxlen pick fuel ins a = some res ∧ Inv g maxlen res [] := by
  intro fuel
  induction fuel with
  | zero =>
    intro ins a I hfuel
    have ha : a = [] := by
      by_contra hne
      obtain ⟨v, hv, _⟩ := hp a hne I.aok.wf
      obtain ⟨⟨h1, h2⟩, h3⟩ := I.aok.sound _ _ hv
      have : 0 < (allItems g maxlen).countP (fun y => (ins y).isNone) := by
        rw [List.countP_pos_iff]
        refine ⟨pick a, ?_, by simp [h3]⟩
        exact List.mem_product.2 ⟨inside_label h1, List.mem_range.2 (by omega)⟩
      omega
    subst ha
    exact ⟨ins, by rw [inLoop]; rfl, I⟩
  | succ fuel ih =>
    intro ins a I hfuel
    by_cases hne : a = []
    · subst hne
      exact ⟨ins, by rw [inLoop]; rfl, I⟩
    · obtain ⟨v, hv, hmin⟩ := hp a hne I.aok.wf
      obtain ⟨hnone, I'⟩ := round_inv U I hv hmin
      obtain ⟨⟨h1, h2⟩, h3⟩ := I.aok.sound _ _ hv
      have hlt : (allItems g maxlen).countP (fun y => (Function.update ins (pick a) (some v) y).isNone) < (allItems g maxlen).countP (fun y => (ins y).isNone) := by
        refine count_lt _ ?_ (x := pick a) (List.mem_product.2 ⟨inside_label h1, List.mem_range.2 (by omega)⟩) (by simp [hnone]) (by simp)
        intro y hy
        by_cases hyx : y = pick a
        · subst hyx; simp at hy
        · rwa [Function.update_of_ne hyx] at hy
      obtain ⟨res, r1, r2⟩ := ih _ _ I' (by omega)
      refine ⟨res, ?_, r2⟩
      rw [inLoop]
      have : a.isEmpty = false := by cases a with
        | nil => exact absurd rfl hne
        | cons => rfl
      simp only [this, Bool.false_eq_true, if_false, hv, Option.bind_some, hnone, Option.all_none, if_true]
      exact r1

/-- **C59**: `pcfginsidesx` terminates, and its score for a label and a number of words is the least cost of any derivation of that many words from the label; there is no score if there is no
derivation. -/
theorem C59_inside (U : Spec.Usable g) (hlen : 1 ≤ maxlen) {pick : Dict In R → In} (hp : Spec.PicksLeast pick) {fuel : Nat} (hf : (labels g).length * (maxlen + 1) ≤ fuel) :
    ∃ ins, pcfginsidesx g maxlen pick fuel = some ins ∧ ∀ l len, len ≤ maxlen → Spec.Best (Spec.Inside g l len) (ins (l, len)) := by
  have hinit : Inv g maxlen (fun _ => none) (g.lexical.foldl (fun a r => setIfBetter a (r.1, 1) r.2) []) := by
    obtain ⟨A, _, N⟩ := fold_ok' (ins := fun _ => none) (P := fun y d => Spec.Inside g y.1 y.2 d ∧ y.2 ≤ maxlen) (F := fun a r => setIfBetter a (r.1, 1) r.2)
      (Q := fun r y d => y = (r.1, 1) ∧ d = r.2) g.lexical (by
        intro r hr a ha
        obtain ⟨e1, e2, e3⟩ := setIfBetter_ok ha (y := (r.1, 1)) (c := r.2) ⟨.lex hr, hlen⟩ rfl
        refine ⟨e1, e2, ?_⟩
        rintro y d ⟨rfl, rfl⟩
        exact e3) [] ⟨List.nodup_nil, by intro y d h; cases h⟩
    refine ⟨A, (by intro x c h; cases h), ?_⟩
    intro y c hs
    cases hs with
    | lex h => exact N _ h _ _ ⟨rfl, rfl⟩
    | unary _ _ h => cases h
    | binary _ _ h => cases h
  obtain ⟨ins, h1, I⟩ := inLoop_spec U hp fuel _ _ hinit (by
    refine (List.countP_le_length).trans ?_
    rw [allItems, List.length_product, List.length_range]
    exact hf)
  refine ⟨ins, h1, fun l len hl => ?_⟩
  cases hi : ins (l, len) with
  | none =>
    intro c hc
    obtain ⟨y, d, h2, _⟩ := frontier U I hc hl hi
    cases h2
  | some c => exact ⟨(I.best _ _ hi).1, (I.best _ _ hi).2.2⟩

end

/-! ### Outside -/

section
variable {g : Gram R} {goal maxlen : Nat}

theorem context_nonneg (U : Spec.Usable g) {l left right : Nat} {c : R} (h : Spec.Context g goal l left right c) : 0 ≤ c := by
  induction h with
  | goal => exact le_refl _
  | unary hr _ _ ih => exact add_nonneg (U.prob _ hr) ih
  | onleft hr _ _ hi ih => exact add_nonneg (add_nonneg (U.prob _ hr) ih) (inside_nonneg U hi)
  | onright hr _ _ hi ih => exact add_nonneg (add_nonneg (U.prob _ hr) ih) (inside_nonneg U hi)

/-- The scores are those of contexts, and the entries of the agenda are current. -/
structure OOk (P : Out → R → Prop) (st : (Out → Option R) × Dict Out R) : Prop where
  wf : WF st.2
  ag : ∀ x c, get? st.2 x = some c → st.1 x = some c
  sound : ∀ x c, st.1 x = some c → P x c

/-- What is kept when scores of at least `T` are proposed. -/
structure ORel (P : Out → R → Prop) (T : R) (st st' : (Out → Option R) × Dict Out R) : Prop where
  ok : OOk P st → OOk P st'
  le : ∀ y d, st.1 y = some d → ∃ d', st'.1 y = some d' ∧ d' ≤ d
  keep : ∀ y, get? st'.2 y = none → st'.1 y = st.1 y ∧ get? st.2 y = none
  low : ∀ z d, st.1 z = some d → d ≤ T → st'.1 z = some d ∧ get? st'.2 z = get? st.2 z
  bound : ∀ y c, get? st'.2 y = some c → get? st.2 y = some c ∨ T ≤ c

theorem ORel.refl (P : Out → R → Prop) (T : R) (st : (Out → Option R) × Dict Out R) : ORel P T st st :=
  ⟨id, fun _ d h => ⟨d, h, le_refl _⟩, fun _ h => ⟨rfl, h⟩, fun _ _ h _ => ⟨h, rfl⟩, fun _ _ h => .inl h⟩

theorem ORel.trans {P : Out → R → Prop} {T : R} {s1 s2 s3 : (Out → Option R) × Dict Out R} (h : ORel P T s1 s2) (h' : ORel P T s2 s3) : ORel P T s1 s3 where
  ok := h'.ok ∘ h.ok
  le y d hd := by
    obtain ⟨d', h1, h2⟩ := h.le y d hd
    obtain ⟨d'', h3, h4⟩ := h'.le y d' h1
    exact ⟨d'', h3, h4.trans h2⟩
  keep y hy := by
    obtain ⟨h1, h2⟩ := h'.keep y hy
    obtain ⟨h3, h4⟩ := h.keep y h2
    exact ⟨h1.trans h3, h4⟩
  low z d hz hd := by
    obtain ⟨h1, h2⟩ := h.low z d hz hd
    obtain ⟨h3, h4⟩ := h'.low z d h1 hd
    exact ⟨h3, h4.trans h2⟩
  bound y c hy := by
    rcases h'.bound y c hy with h1 | h1
    · exact h.bound y c h1
    · exact .inr h1

theorem relax_rel {P : Out → R → Prop} {T : R} (st : (Out → Option R) × Dict Out R) {y : Out} {s : R} (hP : P y s) (hT : T ≤ s) :
    ORel P T st (relax st y s) ∧ ∃ d, (relax st y s).1 y = some d ∧ d ≤ s := by
  unfold relax
  split
  · rename_i hlt
    have hlow : ∀ z d, st.1 z = some d → d ≤ T → z ≠ y := by
      rintro z d hz hd rfl
      rw [hz, Option.all_some, decide_eq_true_eq] at hlt
      exact absurd (hd.trans hT) (not_le.2 hlt)
    refine ⟨⟨?_, ?_, ?_, ?_, ?_⟩, s, by simp, le_refl _⟩
    · rintro ⟨h1, h2, h3⟩
      refine ⟨h1.set _ _, ?_, ?_⟩
      · intro x c hx
        simp only [get?_set] at hx
        split at hx
        · rename_i hyx
          subst hyx
          simpa using hx
        · rename_i hyx
          simp only
          rw [Function.update_of_ne (Ne.symm hyx)]
          exact h2 x c hx
      · intro x c hx
        simp only at hx
        by_cases hxy : x = y
        · subst hxy
          rw [Function.update_self] at hx
          injection hx with hx; subst hx
          exact hP
        · rw [Function.update_of_ne hxy] at hx
          exact h3 x c hx
    · intro z d hz
      simp only
      by_cases hzy : z = y
      · subst hzy
        rw [hz, Option.all_some, decide_eq_true_eq] at hlt
        exact ⟨s, by simp, hlt.le⟩
      · exact ⟨d, by rw [Function.update_of_ne hzy]; exact hz, le_refl _⟩
    · intro z hz
      simp only [get?_set] at hz
      split at hz
      · cases hz
      · rename_i hyz
        exact ⟨by simp only; rw [Function.update_of_ne (Ne.symm hyz)], hz⟩
    · intro z d hz hd
      have hne := hlow z d hz hd
      simp only [get?_set]
      rw [Function.update_of_ne hne, if_neg (Ne.symm hne)]
      exact ⟨hz, rfl⟩
    · intro z c hz
      simp only [get?_set] at hz
      split at hz
      · injection hz with hz; subst hz
        exact .inr hT
      · exact .inl hz
  · rename_i hlt
    refine ⟨ORel.refl P T st, ?_⟩
    cases hy : st.1 y with
    | none => rw [hy] at hlt; simp at hlt
    | some d =>
      rw [hy, Option.all_some, decide_eq_true_eq, not_lt] at hlt
      exact ⟨d, rfl, hlt⟩

theorem fold_rel {α : Type} {P : Out → R → Prop} {T : R} {F : (Out → Option R) × Dict Out R → α → (Out → Option R) × Dict Out R} {Q : α → Out → R → Prop} (xs : List α)
    (hF : ∀ x ∈ xs, ∀ st, ORel P T st (F st x) ∧ ∀ y c, Q x y c → ∃ d, (F st x).1 y = some d ∧ d ≤ c) :
    ∀ st, ORel P T st (xs.foldl F st) ∧ ∀ x ∈ xs, ∀ y c, Q x y c → ∃ d, (xs.foldl F st).1 y = some d ∧ d ≤ c := by
  induction xs with
  | nil => intro st; exact ⟨ORel.refl P T st, by simp⟩
  | cons x xs ih =>
    intro st
    obtain ⟨h1, h2⟩ := hF x (by simp) st
    obtain ⟨e1, e2⟩ := ih (fun x hx => hF x (List.mem_cons_of_mem _ hx)) (F st x)
    refine ⟨h1.trans e1, ?_⟩
    intro x' hx' y c hQ
    rcases List.mem_cons.1 hx' with rfl | hx'
    · obtain ⟨d, h3, h4⟩ := h2 y c hQ
      obtain ⟨d', h5, h6⟩ := e1.le y d h3
      exact ⟨d', h5, h6.trans h4⟩
    · exact e2 x' hx' y c hQ

/-- The children of `x` by one rule, with their scores. -/
inductive OStep (ins : In → Option R) (maxlen : Nat) (x : Out) (c : R) (r : Rule R) : Out → R → Prop
  | unary : r.rhs2 = 0 → OStep ins maxlen x c r (r.rhs1, x.2.1, x.2.2) (r.prob + c)
  | onleft {s d} : r.rhs2 ≠ 0 → 1 ≤ s → x.2.1 + x.2.2 + s < maxlen → ins (r.rhs2, s) = some d → OStep ins maxlen x c r (r.rhs1, x.2.1, x.2.2 + s) (r.prob + c + d)
  | onright {s d} : r.rhs2 ≠ 0 → 1 ≤ s → x.2.1 + x.2.2 + s < maxlen → ins (r.rhs1, s) = some d → OStep ins maxlen x c r (r.rhs2, x.2.1 + s, x.2.2) (r.prob + c + d)

/-- `P`: the score belongs to a context of fewer than `maxlen` words. -/
def IsCtx (g : Gram R) (goal maxlen : Nat) (x : Out) (c : R) : Prop := Spec.Context g goal x.1 x.2.1 x.2.2 c ∧ x.2.1 + x.2.2 < maxlen

theorem outRule_rel (U : Spec.Usable g) {ins : In → Option R} (hins : ∀ l len, len ≤ maxlen → Spec.Best (Spec.Inside g l len) (ins (l, len))) {x : Out} {c : R} (hx : IsCtx g goal maxlen x c)
    {r : Rule R} (hr : r ∈ g.bylhs) (hl : r.lhs = x.1) (st : (Out → Option R) × Dict Out R) :
    ORel (IsCtx g goal maxlen) c st (outRule ins maxlen x c st r) ∧ ∀ y d, OStep ins maxlen x c r y d → ∃ e, (outRule ins maxlen x c st r).1 y = some e ∧ e ≤ d := by
  obtain ⟨hx1, hx2⟩ := hx
  rw [← hl] at hx1
  have hsome : ∀ l s d, s ≤ maxlen → ins (l, s) = some d → Spec.Inside g l s d := by
    intro l s d hs h
    have := hins l s hs
    rw [h] at this
    exact this.1
  unfold outRule
  split
  · rename_i h0
    obtain ⟨h1, h2⟩ := relax_rel (P := IsCtx g goal maxlen) (T := c) st (y := (r.rhs1, x.2.1, x.2.2)) (s := r.prob + c) ⟨.unary hr h0 hx1, hx2⟩ (le_add_of_nonneg_left (U.prob r hr))
    refine ⟨h1, ?_⟩
    intro y d hs
    cases hs with
    | unary => exact h2
    | onleft h => exact absurd h0 h
    | onright h => exact absurd h0 h
  · rename_i h0
    simp only
    have hsz : ∀ s, s ∈ List.range' 1 (maxlen - x.2.1 - x.2.2 - 1) ↔ 1 ≤ s ∧ x.2.1 + x.2.2 + s < maxlen := by
      intro s
      rw [List.mem_range'_1]
      omega
    obtain ⟨A1, A2⟩ := fold_rel (P := IsCtx g goal maxlen) (T := c) (F := fun st s => match ins (r.rhs2, s) with
        | none => st
        | some d => relax st (r.rhs1, x.2.1, x.2.2 + s) (r.prob + c + d))
      (Q := fun s y d => ∃ e, ins (r.rhs2, s) = some e ∧ y = (r.rhs1, x.2.1, x.2.2 + s) ∧ d = r.prob + c + e) (List.range' 1 (maxlen - x.2.1 - x.2.2 - 1)) (by
        intro s hs st
        rw [hsz] at hs
        cases hi : ins (r.rhs2, s) with
        | none => exact ⟨ORel.refl _ _ _, by rintro y d ⟨e, h, _⟩; cases h⟩
        | some d =>
          have hd := hsome _ _ _ (by omega) hi
          obtain ⟨h1, h2⟩ := relax_rel (P := IsCtx g goal maxlen) (T := c) st (y := (r.rhs1, x.2.1, x.2.2 + s)) (s := r.prob + c + d)
            ⟨.onleft hr h0 hx1 hd, by show x.2.1 + (x.2.2 + s) < maxlen; omega⟩
            (by rw [add_assoc, add_comm c, ← add_assoc]; exact le_add_of_nonneg_left (add_nonneg (U.prob r hr) (inside_nonneg U hd)))
          refine ⟨h1, ?_⟩
          rintro y d' ⟨e, h, rfl, rfl⟩
          injection h with h; subst h
          exact h2) st
    generalize (List.range' 1 (maxlen - x.2.1 - x.2.2 - 1)).foldl (fun st s => match ins (r.rhs2, s) with
        | none => st
        | some d => relax st (r.rhs1, x.2.1, x.2.2 + s) (r.prob + c + d)) st = st1 at A1 A2 ⊢
    obtain ⟨B1, B2⟩ := fold_rel (P := IsCtx g goal maxlen) (T := c) (F := fun st s => match ins (r.rhs1, s) with
        | none => st
        | some d => relax st (r.rhs2, x.2.1 + s, x.2.2) (r.prob + d + c))
      (Q := fun s y d => ∃ e, ins (r.rhs1, s) = some e ∧ y = (r.rhs2, x.2.1 + s, x.2.2) ∧ d = r.prob + c + e) (List.range' 1 (maxlen - x.2.1 - x.2.2 - 1)) (by
        intro s hs st
        rw [hsz] at hs
        cases hi : ins (r.rhs1, s) with
        | none => exact ⟨ORel.refl _ _ _, by rintro y d ⟨e, h, _⟩; cases h⟩
        | some d =>
          have hd := hsome _ _ _ (by omega) hi
          have hcomm : r.prob + d + c = r.prob + c + d := by rw [add_assoc, add_comm d, ← add_assoc]
          obtain ⟨h1, h2⟩ := relax_rel (P := IsCtx g goal maxlen) (T := c) st (y := (r.rhs2, x.2.1 + s, x.2.2)) (s := r.prob + d + c)
            ⟨by rw [hcomm]; exact .onright hr h0 hx1 hd, by show x.2.1 + s + x.2.2 < maxlen; omega⟩
            (le_add_of_nonneg_left (add_nonneg (U.prob r hr) (inside_nonneg U hd)))
          refine ⟨h1, ?_⟩
          rintro y d' ⟨e, h, rfl, rfl⟩
          injection h with h; subst h
          rw [hcomm] at h2
          simpa only [hcomm] using h2) st1
    refine ⟨A1.trans B1, ?_⟩
    intro y d hs
    cases hs with
    | unary h => exact absurd h h0
    | @onleft s e _ h1 h2 h3 =>
      obtain ⟨d', h4, h5⟩ := A2 s ((hsz s).2 ⟨h1, h2⟩) _ _ ⟨e, h3, rfl, rfl⟩
      obtain ⟨d'', h6, h7⟩ := B1.le _ _ h4
      exact ⟨d'', h6, h7.trans h5⟩
    | @onright s e _ h1 h2 h3 => exact B2 s ((hsz s).2 ⟨h1, h2⟩) _ _ ⟨e, h3, rfl, rfl⟩

/-- The invariant of the loop; `T` is the last score taken from the agenda. -/
structure OInv (g : Gram R) (ins : In → Option R) (goal maxlen : Nat) (T : R) (st : (Out → Option R) × Dict Out R) : Prop where
  ok : OOk (IsCtx g goal maxlen) st
  start : ∃ d, st.1 (goal, 0, 0) = some d ∧ d ≤ 0
  closed : ∀ x c, st.1 x = some c → get? st.2 x = none → ∀ r ∈ g.bylhs, r.lhs = x.1 → ∀ y d, OStep ins maxlen x c r y d → ∃ e, st.1 y = some e ∧ e ≤ d
  above : ∀ x c, get? st.2 x = some c → T ≤ c
  below : ∀ x c, st.1 x = some c → get? st.2 x = none → c ≤ T

/-- All items. -/
def outItems (g : Gram R) (goal maxlen : Nat) : List Out := (goal :: g.bylhs.flatMap (fun r => [r.rhs1, r.rhs2])) ×ˢ ((List.range maxlen) ×ˢ (List.range maxlen))

theorem context_label {l left right : Nat} {c : R} (h : Spec.Context g goal l left right c) : l ∈ goal :: g.bylhs.flatMap (fun r => [r.rhs1, r.rhs2]) := by
  cases h with
  | goal => simp
  | unary hr => exact List.mem_cons_of_mem _ (List.mem_flatMap.2 ⟨_, hr, by simp⟩)
  | onleft hr => exact List.mem_cons_of_mem _ (List.mem_flatMap.2 ⟨_, hr, by simp⟩)
  | onright hr => exact List.mem_cons_of_mem _ (List.mem_flatMap.2 ⟨_, hr, by simp⟩)

theorem mem_outItems {x : Out} {c : R} (h : IsCtx g goal maxlen x c) : x ∈ outItems g goal maxlen := by
  obtain ⟨h1, h2⟩ := h
  obtain ⟨l, left, right⟩ := x
  simp only at h1 h2
  exact List.mem_product.2 ⟨context_label h1, List.mem_product.2 ⟨List.mem_range.2 (by show left < maxlen; omega), List.mem_range.2 (by show right < maxlen; omega)⟩⟩

/-- The item has been taken from the agenda. -/
def taken (st : (Out → Option R) × Dict Out R) (x : Out) : Bool := (st.1 x).isSome && (get? st.2 x).isNone

theorem outLoop_spec (U : Spec.Usable g) {ins : In → Option R} (hins : ∀ l len, len ≤ maxlen → Spec.Best (Spec.Inside g l len) (ins (l, len))) {pick : Dict Out R → Out} (hp : Spec.PicksLeast pick) :
    ∀ (fuel : Nat) (T : R) (st : (Out → Option R) × Dict Out R), OInv g ins goal maxlen T st → (outItems g goal maxlen).countP (fun y => !taken st y) ≤ fuel →
    ∃ out, outLoop g ins maxlen pick fuel st = some out ∧ ∃ T, OInv g ins goal maxlen T (out, []) := by
  have hdone : ∀ (fuel : Nat) (T : R) (st : (Out → Option R) × Dict Out R), OInv g ins goal maxlen T st → st.2 = [] →
      ∃ out, outLoop g ins maxlen pick fuel st = some out ∧ ∃ T, OInv g ins goal maxlen T (out, []) := by
    intro fuel T st I h
    refine ⟨st.1, ?_, T, by rw [← h]; exact I⟩
    unfold outLoop
    simp [h]
  intro fuel
  induction fuel with
  | zero =>
    intro T st I hfuel
    apply hdone 0 T st I
    by_contra hne
    obtain ⟨v, hv, _⟩ := hp st.2 hne I.ok.wf
    have : 0 < (outItems g goal maxlen).countP (fun y => !taken st y) := by
      rw [List.countP_pos_iff]
      exact ⟨pick st.2, mem_outItems (I.ok.sound _ _ (I.ok.ag _ _ hv)), by simp [taken, hv]⟩
    omega
  | succ fuel ih =>
    intro T st I hfuel
    by_cases hne : st.2 = []
    · exact hdone _ T st I hne
    · obtain ⟨c, hv, hmin⟩ := hp st.2 hne I.ok.wf
      have hx := I.ok.ag _ _ hv
      have hctx := I.ok.sound _ _ hx
      generalize hpx : pick st.2 = x at hv hx hctx
      have hTc : T ≤ c := I.above _ _ hv
      obtain ⟨A1, A2⟩ := fold_rel (P := IsCtx g goal maxlen) (T := c) (F := outRule ins maxlen x c) (Q := fun r y d => OStep ins maxlen x c r y d)
        (g.bylhs.filter (fun r => decide (r.lhs = x.1))) (by
          intro r hr st
          rw [List.mem_filter, decide_eq_true_eq] at hr
          exact outRule_rel U hins hctx hr.1 hr.2 st) (st.1, erase st.2 x)
      have herase : ∀ y, get? (erase st.2 x) y = if x = y then none else get? st.2 y := fun y => get?_erase I.ok.wf x y
      have hok : OOk (IsCtx g goal maxlen) (st.1, erase st.2 x) := by
        refine ⟨I.ok.wf.erase x, ?_, I.ok.sound⟩
        intro y d hy
        simp only [herase] at hy
        split at hy
        · cases hy
        · exact I.ok.ag y d hy
      have hlow : ∀ z d, st.1 z = some d → get? (erase st.2 x) z = none → d ≤ c := by
        intro z d hz hz'
        rw [herase] at hz'
        split at hz'
        · rename_i hxz
          subst hxz
          rw [hx] at hz
          injection hz with hz
          exact hz ▸ le_refl _
        · exact (I.below z d hz hz').trans hTc
      have hI : OInv g ins goal maxlen c ((g.bylhs.filter (fun r => decide (r.lhs = x.1))).foldl (outRule ins maxlen x c) (st.1, erase st.2 x)) := by
        refine ⟨A1.ok hok, ?_, ?_, ?_, ?_⟩
        · obtain ⟨d, h1, h2⟩ := I.start
          obtain ⟨d', h3, h4⟩ := A1.le _ _ h1
          exact ⟨d', h3, h4.trans h2⟩
        · intro z d hz hz' r hr hl y e hs
          obtain ⟨h1, h2⟩ := A1.keep z hz'
          rw [h1] at hz
          simp only at hz h2
          rw [herase] at h2
          split at h2
          · rename_i hxz
            subst hxz
            rw [hx] at hz
            injection hz with hz; subst hz
            exact A2 r (List.mem_filter.2 ⟨hr, by simpa using hl⟩) y e hs
          · obtain ⟨f, h3, h4⟩ := I.closed z d hz h2 r hr hl y e hs
            obtain ⟨f', h5, h6⟩ := A1.le _ _ h3
            exact ⟨f', h5, h6.trans h4⟩
        · intro z d hz
          rcases A1.bound z d hz with h1 | h1
          · simp only [herase] at h1
            split at h1
            · cases h1
            · exact hmin z d h1
          · exact h1
        · intro z d hz hz'
          obtain ⟨h1, h2⟩ := A1.keep z hz'
          rw [h1] at hz
          exact hlow z d hz h2
      have htx : taken ((g.bylhs.filter (fun r => decide (r.lhs = x.1))).foldl (outRule ins maxlen x c) (st.1, erase st.2 x)) x = true := by
        obtain ⟨h1, h2⟩ := A1.low x c hx (le_refl _)
        rw [taken, h1, h2]
        simp [herase]
      have hkeep : ∀ z, taken st z = true → taken ((g.bylhs.filter (fun r => decide (r.lhs = x.1))).foldl (outRule ins maxlen x c) (st.1, erase st.2 x)) z = true := by
        intro z hz
        rw [taken, Bool.and_eq_true] at hz
        obtain ⟨d, hd⟩ := Option.isSome_iff_exists.1 hz.1
        have hn := Option.isNone_iff_eq_none.1 hz.2
        obtain ⟨h1, h2⟩ := A1.low z d hd ((I.below z d hd hn).trans hTc)
        rw [taken, h1, h2]
        simp only [herase, hn]
        simp
      have hlt : (outItems g goal maxlen).countP (fun y => !taken ((g.bylhs.filter (fun r => decide (r.lhs = x.1))).foldl (outRule ins maxlen x c) (st.1, erase st.2 x)) y) <
          (outItems g goal maxlen).countP (fun y => !taken st y) := by
        refine count_lt _ ?_ (x := x) (mem_outItems hctx) (by simp [taken, hv]) (by simp only [htx]; rfl)
        intro y hy
        cases ht : taken st y with
        | false => rfl
        | true =>
          rw [hkeep y ht] at hy
          cases hy
      obtain ⟨out, h1, h2⟩ := ih c _ hI (by omega)
      refine ⟨out, ?_, h2⟩
      rw [outLoop]
      have : st.2.isEmpty = false := by
        cases h : st.2 with
        | nil => exact absurd h hne
        | cons => rfl
      simp only [this, Bool.false_eq_true, if_false, hpx, hv, Option.bind_some]
      exact h1

/-- **C59**: given correct inside scores, `pcfgoutsidesx` terminates, and its score for a label with `left` and `right` words around it is the least cost of any such context, i.e. of completing a
constituent to a derivation of the goal; there is no finite score if there is no such context. -/
theorem C59_outside (U : Spec.Usable g) (hlen : 1 ≤ maxlen) {ins : In → Option R} (hins : ∀ l len, len ≤ maxlen → Spec.Best (Spec.Inside g l len) (ins (l, len))) {pick : Dict Out R → Out}
    (hp : Spec.PicksLeast pick) {fuel : Nat} (hf : (2 * g.bylhs.length + 1) * (maxlen * maxlen) ≤ fuel) :
    ∃ out, pcfgoutsidesx g ins goal maxlen pick fuel = some out ∧ ∀ l left right, left + right < maxlen → Spec.Best (Spec.Context g goal l left right) (out (l, left, right)) := by
  have hinit : OInv g ins goal maxlen 0 (Function.update (fun _ => none) (goal, 0, 0) (some 0), [((goal, 0, 0), 0)]) := by
    have hget : ∀ x c, get? ([((goal, 0, 0), 0)] : Dict Out R) x = some c → x = (goal, 0, 0) ∧ c = 0 := by
      intro x c h
      rw [get?] at h
      split at h
      · rename_i hx
        injection h with h
        exact ⟨hx.symm, h.symm⟩
      · cases h
    have hsome : ∀ x c, Function.update (fun _ : Out => (none : Option R)) (goal, 0, 0) (some 0) x = some c → x = (goal, 0, 0) ∧ c = 0 := by
      intro x c h
      by_cases hx : x = (goal, 0, 0)
      · subst hx
        rw [Function.update_self] at h
        injection h with h
        exact ⟨rfl, h.symm⟩
      · rw [Function.update_of_ne hx] at h; cases h
    have hin : get? ([((goal, 0, 0), 0)] : Dict Out R) (goal, 0, 0) = some 0 := by simp [get?]
    refine ⟨⟨by simp [WF, keys], ?_, ?_⟩, ⟨0, by simp, le_refl _⟩, ?_, ?_, ?_⟩
    · intro x c h
      obtain ⟨rfl, rfl⟩ := hget x c h
      simp
    · intro x c h
      obtain ⟨rfl, rfl⟩ := hsome x c h
      exact ⟨.goal, by show 0 + 0 < maxlen; omega⟩
    · intro x c h h'
      obtain ⟨rfl, rfl⟩ := hsome x c h
      rw [hin] at h'; cases h'
    · intro x c h
      exact (hget x c h).2 ▸ le_refl _
    · intro x c h h'
      exact (hsome x c h).2 ▸ le_refl _
  obtain ⟨out, h1, T, I⟩ := outLoop_spec U hins hp fuel 0 _ hinit (by
    refine (List.countP_le_length).trans ?_
    rw [outItems, List.length_product, List.length_product, List.length_range, List.length_cons]
    have : (g.bylhs.flatMap (fun r => [r.rhs1, r.rhs2])).length = 2 * g.bylhs.length := by
      induction g.bylhs with
      | nil => rfl
      | cons r rs ih => rw [List.flatMap_cons, List.length_append, ih]; simp; omega
    rw [this]
    exact hf)
  refine ⟨out, h1, ?_⟩
  have key : ∀ l left right c, Spec.Context g goal l left right c → left + right < maxlen → ∃ d, out (l, left, right) = some d ∧ d ≤ c := by
    intro l left right c h
    have hbest : ∀ l s d, s ≤ maxlen → Spec.Inside g l s d → ∃ e, ins (l, s) = some e ∧ e ≤ d := by
      intro l s d hs hd
      have := hins l s hs
      cases hi : ins (l, s) with
      | none => rw [hi] at this; exact absurd hd (this d)
      | some e => rw [hi] at this; exact ⟨e, rfl, this.2 d hd⟩
    induction h with
    | goal => intro _; exact I.start
    | @unary r left right c hr h0 _ ih =>
      intro hlt
      obtain ⟨d, h2, h3⟩ := ih hlt
      obtain ⟨e, h4, h5⟩ := I.closed _ _ h2 rfl r hr rfl _ _ (.unary h0)
      exact ⟨e, h4, h5.trans (add_le_add (le_refl _) h3)⟩
    | @onleft r left right c s d hr h0 _ hi ih =>
      intro hlt
      obtain ⟨d', h2, h3⟩ := ih (by omega)
      obtain ⟨e', h6, h7⟩ := hbest _ _ _ (by omega) hi
      obtain ⟨e, h4, h5⟩ := I.closed _ _ h2 rfl r hr rfl _ _ (.onleft h0 (inside_pos hi) (by show left + right + s < maxlen; omega) h6)
      exact ⟨e, h4, h5.trans (add_le_add (add_le_add (le_refl _) h3) h7)⟩
    | @onright r left right c s d hr h0 _ hi ih =>
      intro hlt
      obtain ⟨d', h2, h3⟩ := ih (by omega)
      obtain ⟨e', h6, h7⟩ := hbest _ _ _ (by omega) hi
      obtain ⟨e, h4, h5⟩ := I.closed _ _ h2 rfl r hr rfl _ _ (.onright h0 (inside_pos hi) (by show left + right + s < maxlen; omega) h6)
      exact ⟨e, h4, h5.trans (add_le_add (add_le_add (le_refl _) h3) h7)⟩
  intro l left right hlt
  cases ho : out (l, left, right) with
  | none =>
    intro c hc
    obtain ⟨d, h2, _⟩ := key l left right c hc hlt
    rw [ho] at h2; cases h2
  | some c =>
    refine ⟨(I.ok.sound _ _ ho).1, fun d hd => ?_⟩
    obtain ⟨e, h2, h3⟩ := key l left right d hd hlt
    rw [ho] at h2
    injection h2 with h2; subst h2
    exact h3

/-- **C59**: `getpcfgestimates` returns, for every label and every number of words to the left and right, less than `maxlen` together, the least cost of a context. -/
theorem C59_estimates (U : Spec.Usable g) (hlen : 1 ≤ maxlen) {pickI : Dict In R → In} (hpI : Spec.PicksLeast pickI) {pickO : Dict Out R → Out} (hpO : Spec.PicksLeast pickO)
    {fuelI fuelO : Nat} (hfI : (labels g).length * (maxlen + 1) ≤ fuelI) (hfO : (2 * g.bylhs.length + 1) * (maxlen * maxlen) ≤ fuelO) :
    ∃ out, getpcfgestimates g maxlen goal pickI pickO fuelI fuelO = some out ∧ ∀ l left right, left + right < maxlen → Spec.Best (Spec.Context g goal l left right) (out (l, left, right)) := by
  obtain ⟨ins, h1, h2⟩ := C59_inside U hlen hpI hfI
  obtain ⟨out, h3, h4⟩ := C59_outside (goal := goal) U hlen h2 hpO hfO
  exact ⟨out, by rw [getpcfgestimates, h1]; exact h3, h4⟩

end

/-! ### Consistency -/

/-- **C59**: the estimates are consistent: a rule with the estimate for its left-hand side, and the cost of any derivation of the sibling, is not less than the estimate for a child. -/
theorem C59_consistent {g : Gram R} {goal maxlen : Nat} {out : Out → Option R} (h : ∀ l left right, left + right < maxlen → Spec.Best (Spec.Context g goal l left right) (out (l, left, right)))
    {r : Rule R} (hr : r ∈ g.bylhs) {left right : Nat} {c : R} (hc : out (r.lhs, left, right) = some c) :
    (r.rhs2 = 0 → left + right < maxlen → ∃ d, out (r.rhs1, left, right) = some d ∧ d ≤ r.prob + c) ∧
    (r.rhs2 ≠ 0 → ∀ s e, left + right + s < maxlen → Spec.Inside g r.rhs2 s e → ∃ d, out (r.rhs1, left, right + s) = some d ∧ d ≤ r.prob + c + e) ∧
    (r.rhs2 ≠ 0 → ∀ s e, left + right + s < maxlen → Spec.Inside g r.rhs1 s e → ∃ d, out (r.rhs2, left + s, right) = some d ∧ d ≤ r.prob + c + e) := by
  have get : ∀ l a b x, a + b < maxlen → Spec.Context g goal l a b x → ∃ d, out (l, a, b) = some d ∧ d ≤ x := by
    intro l a b x hab hx
    have := h l a b hab
    cases ho : out (l, a, b) with
    | none => rw [ho] at this; exact absurd hx (this x)
    | some d => rw [ho] at this; exact ⟨d, rfl, this.2 x hx⟩
  have ctx : left + right < maxlen → Spec.Context g goal r.lhs left right c := by
    intro hlt
    have := h r.lhs left right hlt
    rw [hc] at this
    exact this.1
  refine ⟨fun h0 hlt => get _ _ _ _ hlt (.unary hr h0 (ctx hlt)), fun h0 s e hlt hi => ?_, fun h0 s e hlt hi => ?_⟩
  · exact get _ _ _ _ (by omega) (.onleft hr h0 (ctx (by omega)) hi)
  · exact get _ _ _ _ (by omega) (.onright hr h0 (ctx (by omega)) hi)

/-! ### Examples -/

/-- An entry with a least value. -/
def pickMin {K : Type} [Inhabited K] : Dict K R → K
  | [] => default
  | x :: rest => (rest.foldl (fun (y : K × R) z => if z.2 < y.2 then z else y) x).1

theorem foldl_min {K : Type} : ∀ (rest : List (K × R)) (x : K × R), (rest.foldl (fun (y : K × R) z => if z.2 < y.2 then z else y) x) ∈ x :: rest ∧
    ∀ y ∈ x :: rest, (rest.foldl (fun (y : K × R) z => if z.2 < y.2 then z else y) x).2 ≤ y.2 := by
  intro rest
  induction rest with
  | nil => intro x; exact ⟨by simp, by simp⟩
  | cons z rest ih =>
    intro x
    rw [List.foldl_cons]
    obtain ⟨h1, h2⟩ := ih (if z.2 < x.2 then z else x)
    refine ⟨?_, ?_⟩
    · rcases List.mem_cons.1 h1 with h | h
      · rw [h]; split <;> simp
      · exact List.mem_cons_of_mem _ (List.mem_cons_of_mem _ h)
    · intro y hy
      have h0 := h2 (if z.2 < x.2 then z else x) (by simp)
      rcases List.mem_cons.1 hy with rfl | hy
      · refine h0.trans ?_
        split
        · rename_i hlt; exact hlt.le
        · exact le_refl _
      · rcases List.mem_cons.1 hy with rfl | hy
        · refine h0.trans ?_
          split
          · exact le_refl _
          · rename_i hlt; exact not_lt.1 hlt
        · exact h2 y (List.mem_cons_of_mem _ hy)

theorem pickMin_least {K : Type} [DecidableEq K] [Inhabited K] : Spec.PicksLeast (pickMin : Dict K R → K) := by
  intro a ha hwf
  cases a with
  | nil => exact absurd rfl ha
  | cons x rest =>
    obtain ⟨h1, h2⟩ := foldl_min rest x
    exact ⟨_, get?_of_mem hwf h1, fun y w hy => h2 (y, w) (mem_of_get? hy)⟩

/-- The labels are S = 1, A = 2, B = 3, C = 4; the rules S → A B, A → C, B → B C. -/
def exGram : Gram Nat where
  nonterminals := 5
  lexical := [(4, 1), (3, 5), (2, 7)]
  unary := [⟨2, 4, 0, 2⟩]
  lbinary := [⟨1, 2, 3, 1⟩, ⟨3, 3, 4, 1⟩]
  rbinary := [⟨1, 2, 3, 1⟩, ⟨3, 3, 4, 1⟩]
  bylhs := [⟨1, 2, 3, 1⟩, ⟨2, 4, 0, 2⟩, ⟨3, 3, 4, 1⟩]

theorem exGram_usable : Spec.Usable exGram where
  lex := by decide
  prob := by decide
  unary r := by
    simp only [exGram, List.mem_cons, List.not_mem_nil, or_false]
    constructor
    · rintro rfl; simp
    · rintro ⟨rfl | rfl | rfl, h⟩ <;> simp at h ⊢
  lbinary r := by
    simp only [exGram, List.mem_cons, List.not_mem_nil, or_false]
    constructor
    · rintro (rfl | rfl) <;> simp
    · rintro ⟨rfl | rfl | rfl, h⟩ <;> simp at h ⊢
  rbinary r := by
    simp only [exGram, List.mem_cons, List.not_mem_nil, or_false]
    constructor
    · rintro (rfl | rfl) <;> simp
    · rintro ⟨rfl | rfl | rfl, h⟩ <;> simp at h ⊢
  few l := ⟨(List.length_filter_le _ _).trans (by decide), (List.length_filter_le _ _).trans (by decide), (List.length_filter_le _ _).trans (by decide)⟩

/-- The hypotheses hold for this grammar; the estimate for C with two words on the left and one on the right: S → A B, B → (B → B C) C. -/
example : Spec.Usable exGram ∧ (getpcfgestimates exGram 4 1 pickMin pickMin 99 999).map (fun out => [out (4, 2, 1), out (2, 0, 2), out (3, 1, 0), out (1, 1, 0)]) =
    some [some 12, some 8, some 4, none] := ⟨exGram_usable, by decide +kernel⟩

/-- The labels are S = 1, A = 2, B = 3, C = 4, X = 5. Seven binary rules have B as right child, X → A B is the least probable one. The rules are ordered as `_indexrules` orders them. -/
def badGram : Gram Nat where
  nonterminals := 6
  lexical := [(2, 1), (3, 2)]
  unary := []
  lbinary := [⟨2, 2, 3, 1⟩, ⟨3, 2, 3, 1⟩, ⟨4, 2, 3, 1⟩, ⟨5, 2, 3, 9⟩, ⟨2, 3, 3, 1⟩, ⟨3, 3, 3, 1⟩, ⟨4, 3, 3, 1⟩, ⟨1, 5, 2, 1⟩]
  rbinary := [⟨1, 5, 2, 1⟩, ⟨2, 2, 3, 1⟩, ⟨3, 2, 3, 1⟩, ⟨4, 2, 3, 1⟩, ⟨2, 3, 3, 1⟩, ⟨3, 3, 3, 1⟩, ⟨4, 3, 3, 1⟩, ⟨5, 2, 3, 9⟩]
  bylhs := [⟨1, 5, 2, 1⟩, ⟨2, 2, 3, 1⟩, ⟨2, 3, 3, 1⟩, ⟨3, 2, 3, 1⟩, ⟨3, 3, 3, 1⟩, ⟨4, 2, 3, 1⟩, ⟨4, 3, 3, 1⟩, ⟨5, 2, 3, 9⟩]

/-- **C59 fails**: only as many binary rules with a given child are considered as there are nonterminals. For a grammar with more such rules, the estimate can be infinite although there is a
derivation, which A* parsing then does not find. -/
theorem C59_truncation_disagreement : (getpcfgestimates badGram 4 1 pickMin pickMin 99 999).map (fun out => out (2, 2, 0)) = some none ∧ Spec.Context badGram 1 2 2 0 13 := by
  refine ⟨by decide +kernel, ?_⟩
  have h1 : Spec.Inside badGram 5 2 12 := Spec.Inside.binary (g := badGram) (r := ⟨5, 2, 3, 9⟩) (a := 1) (b := 1) (c := 1) (d := 2) (by decide) (by decide) (.lex (by decide)) (.lex (by decide))
  exact Spec.Context.onright (g := badGram) (goal := 1) (r := ⟨1, 5, 2, 1⟩) (left := 0) (right := 0) (c := 0) (s := 2) (d := 12) (by decide) (by decide) .goal h1

end Disco.Estimate
