import Mathlib.Data.Prod.Lex
import Mathlib.Data.Finset.Card
import Mathlib.Data.Nat.Bitwise
import Verif.Util.Agenda
import Verif.Bits.Runs
/-!
# C62: optimal binarization, `minimalbinarization` (treetransforms.py:753-882) with `head=None`: the search

The agenda is the model of `PyAgenda` of C18. The children of the constituent are numbered; two children never compare equal as trees
(they cover different, non-empty sets of positions), so a tree built of them is a key of the dictionaries in the same way as its
structure `PT` with the numbers of the children. The label of a new node depends on the covered children only (`PT.node` keeps
that set, see `labelOf` in `OptBinTop`).
-/
set_option linter.unusedSectionVars false
namespace Disco.OptBin
open Disco.PyAgenda

/-- A score, a pair compared lexicographically (`complexityfanout`, `fanoutcomplexity`, treetransforms.py:897-904). -/
abbrev Sc := Nat ×ₗ Nat

/-- The value of an item: the maximum score, followed by the sum of the complexities (treetransforms.py:862-865). -/
abbrev Val := Sc ×ₗ Nat

/-- A partial binarization: a child of the constituent, or the result of `newproduction` (treetransforms.py:782-792), with the set of covered
children (from which the label is made) and the attribute `bitset`. -/
inductive PT where
  | child (i : Nat)
  | node (sib bits : Nat) (a b : PT)
deriving DecidableEq, Repr

/-- What is searched: the number of children, their bitsets and scores, and `score` for a new node, as a function of its bitset and those of
its two parts. -/
structure Prob where
  n : Nat
  cb : Nat → Nat
  sc0 : Nat → Sc
  sc : Nat → Nat → Nat → Sc

/-- `p.bitset`. -/
def PT.bits (P : Prob) : PT → Nat
  | .child i => P.cb i
  | .node _ b _ _ => b

/-- The four data structures (treetransforms.py:800-814). -/
structure St where
  agenda : Agenda PT Val
  work : Dict PT Val
  nonterms : Dict PT Nat
  rev : Dict Nat PT

/-- The first loop (treetransforms.py:817-822), for the first `k` children. -/
def initialK (P : Prob) (k : Nat) : St :=
  (List.range k).foldl (fun st i =>
    { nonterms := st.nonterms.set (.child i) (1 <<< i), rev := st.rev.set (1 <<< i) (.child i),
      work := st.work.set (.child i) (toLex (P.sc0 i, 0)), agenda := setitem st.agenda (.child i) (toLex (P.sc0 i, 0)) })
    ⟨empty, [], [], []⟩

/-- All children. -/
def initial (P : Prob) : St := initialK P P.n

/-- `nonterms[p2] = p2nonterms; revnonterms[p2nonterms] = p2; agenda[p2] = workingset[p2] = x2` (treetransforms.py:874-876). -/
def addItem (st : St) (p2 : PT) (s2 : Nat) (x2 : Val) : St :=
  { nonterms := st.nonterms.set p2 s2, rev := st.rev.set s2 p2, work := st.work.set p2 x2, agenda := setitem st.agenda p2 x2 }

/-- `del nonterms[a], workingset[a]; if a in agenda: del agenda[a]` (treetransforms.py:871-873); `none` is a `KeyError`. -/
def dropItem (st : St) (a : PT) : Option St :=
  match st.nonterms.get? a, st.work.get? a with
  | some _, some _ => some ⟨if (st.agenda.mapping.get? a).isSome then (delitem st.agenda a).2 else st.agenda,
      st.work.erase a, st.nonterms.erase a, st.rev⟩
  | _, _ => none

/-- The value of the combination of two items (treetransforms.py:861-865). -/
def combine (P : Prob) (p p1 : PT) (x y : Val) : Val :=
  let s := P.sc (p.bits P ||| p1.bits P) (p.bits P) (p1.bits P)
  toLex (max (max s (ofLex y).1) (ofLex x).1, (ofLex s).1 + (ofLex x).2 + (ofLex y).2)

/-- `if p2nonterms not in revnonterms or workingset[revnonterms[p2nonterms]] > x2` (treetransforms.py:868-876). -/
def enter (st : St) (p2 : PT) (s2 : Nat) (x2 : Val) : Option St :=
  match st.rev.get? s2 with
  | none => some (addItem st p2 s2 x2)
  | some a => match st.work.get? a with
    | none => none
    | some w => if x2 < w then (dropItem st a).map fun st' => addItem st' p2 s2 x2 else some st

/-- The body of the inner loop (treetransforms.py:842-876) for the item `p` with value `x` and an item `p1` of the working set with value `y`. -/
def consider (P : Prob) (p : PT) (x : Val) (st : St) (p1 : PT) (y : Val) : Option St :=
  if (st.work.get? p1).isNone then some st
  else match st.nonterms.get? p, st.nonterms.get? p1 with
    | some sp, some sp1 =>
      if sp &&& sp1 ≠ 0 then some st
      else enter st (.node (sp ||| sp1) (p.bits P ||| p1.bits P) p p1) (sp ||| sp1) (combine P p p1 x y)
    | _, _ => none

/-- `for p1, y in list(workingset.items())` (treetransforms.py:841). -/
def inner (P : Prob) (p : PT) (x : Val) : List (PT × Val) → St → Option St
  | [], st => some st
  | (p1, y) :: l, st => match consider P p x st p1 y with
    | none => none
    | some st' => inner P p x l st'

/-- Results of the search. -/
inductive Res where
  | found (p : PT)
  | valueError
  | keyError
  | outOfFuel
deriving DecidableEq, Repr

/-- `while agenda` (treetransforms.py:835-877). -/
def search (P : Prob) : (fuel : Nat) → St → Res
  | 0, _ => .outOfFuel
  | fuel + 1, st =>
    if st.agenda.length = 0 then .valueError
    else match popitem st.agenda with
      | (.item p x, ag) => match st.nonterms.get? p with
        | none => .keyError
        | some sp =>
          if sp = (1 <<< P.n) - 1 then .found p
          else match inner P p x st.work { st with agenda := ag } with
            | none => .keyError
            | some st' => search P fuel st'
      | _ => .keyError

/-- The search (treetransforms.py:815-877). -/
def findBin (P : Prob) (fuel : Nat) : Res := search P fuel (initial P)

/-! ## Specification -/

/-- Binarizations: binary trees over the numbered children. -/
inductive Spec.Bin where
  | leaf (i : Nat)
  | node (a b : Spec.Bin)
deriving DecidableEq, Repr

/-- The children, from left to right. -/
def Spec.Bin.leaves : Spec.Bin → List Nat
  | .leaf i => [i]
  | .node a b => a.leaves ++ b.leaves

/-- The positions covered. -/
def Spec.Bin.bits (P : Prob) : Spec.Bin → Nat
  | .leaf i => P.cb i
  | .node a b => a.bits P ||| b.bits P

/-- The worst score of its nodes: those of the children, and those of the new nodes. -/
def Spec.Bin.worst (P : Prob) : Spec.Bin → Sc
  | .leaf i => P.sc0 i
  | .node a b => max (P.sc (a.bits P ||| b.bits P) (a.bits P) (b.bits P)) (max (a.worst P) (b.worst P))

/-- The sum of the complexities (first components) of the new nodes. -/
def Spec.Bin.total (P : Prob) : Spec.Bin → Nat
  | .leaf _ => 0
  | .node a b => (ofLex (P.sc (a.bits P ||| b.bits P) (a.bits P) (b.bits P))).1 + a.total P + b.total P

/-- Each of the `n` children occurs once. -/
def Spec.Bin.Complete (n : Nat) (t : Spec.Bin) : Prop := t.leaves.Perm (List.range n)

/-- The binary tree of a partial binarization. -/
def PT.tree : PT → Spec.Bin
  | .child i => .leaf i
  | .node _ _ a b => .node a.tree b.tree

/-- The recorded sets of children are those of the subtrees. -/
def PT.Recorded (P : Prob) : PT → Prop
  | .child _ => True
  | .node s b a c => a.Recorded P ∧ c.Recorded P ∧ b = a.tree.bits P ||| c.tree.bits P ∧
      ∀ i, s.testBit i = true ↔ i ∈ (Spec.Bin.node a.tree c.tree).leaves

/-- The complexity is symmetric. -/
def Prob.Symm (P : Prob) : Prop := ∀ s a b, P.sc s a b = P.sc s b a

/-! ## Helper lemmas -/

/-- The set of covered children. -/
def PT.cover : PT → Nat
  | .child i => 1 <<< i
  | .node s _ _ _ => s

/-- The value of a tree. -/
def PT.val (P : Prob) : PT → Val
  | .child i => toLex (P.sc0 i, 0)
  | .node _ _ a b => combine P a b (a.val P) (b.val P)

/-- Well-formed partial binarizations. -/
def PT.Good (P : Prob) : PT → Prop
  | .child i => i < P.n
  | .node s b a c => a.Good P ∧ c.Good P ∧ a.cover &&& c.cover = 0 ∧ s = a.cover ||| c.cover ∧ b = a.bits P ||| c.bits P

theorem testBit_one_shift (i j : Nat) : (1 <<< i).testBit j = true ↔ j = i := by
  rw [Nat.one_shiftLeft, Nat.testBit_two_pow]; simp [eq_comm]

theorem land_zero {a b : Nat} : a &&& b = 0 ↔ ∀ i, ¬ (a.testBit i = true ∧ b.testBit i = true) := by
  constructor
  · intro h i ⟨h1, h2⟩
    have : (a &&& b).testBit i = true := by rw [Nat.testBit_and, h1, h2]; rfl
    rw [h] at this; simp at this
  · intro h
    apply Nat.eq_of_testBit_eq
    intro i
    rw [Nat.testBit_and, Nat.zero_testBit]
    have := h i
    cases ha : a.testBit i <;> cases hb : b.testBit i <;> simp_all

theorem goal_bit (n i : Nat) : ((1 <<< n) - 1).testBit i = true ↔ i < n := by
  rw [Nat.one_shiftLeft, Nat.testBit_two_pow_sub_one]; simp

variable {P : Prob}

theorem PT.Good.cover {t : PT} (h : t.Good P) (i : Nat) : t.cover.testBit i = true ↔ i ∈ t.tree.leaves := by
  induction t with
  | child j => simp only [PT.cover, PT.tree, Spec.Bin.leaves, List.mem_singleton]; exact testBit_one_shift j i
  | node s b a c iha ihc =>
    obtain ⟨h1, h2, -, h4, -⟩ := h
    show s.testBit i = true ↔ _
    simp only [h4, PT.tree, Spec.Bin.leaves, List.mem_append, Nat.testBit_or, Bool.or_eq_true, iha h1, ihc h2]

theorem PT.Good.bits {t : PT} (h : t.Good P) : t.bits P = t.tree.bits P := by
  induction t with
  | child j => rfl
  | node s b a c iha ihc =>
    obtain ⟨h1, h2, -, -, h5⟩ := h
    show b = _
    simp only [h5, PT.tree, Spec.Bin.bits, iha h1, ihc h2]

theorem PT.Good.recorded {t : PT} (h : t.Good P) : t.Recorded P := by
  induction t with
  | child j => exact True.intro
  | node s b a c iha ihc =>
    have hh := h
    obtain ⟨h1, h2, -, -, h5⟩ := h
    exact ⟨iha h1, ihc h2, by rw [h5, h1.bits, h2.bits], fun i => hh.cover i⟩

theorem PT.Good.nodup {t : PT} (h : t.Good P) : t.tree.leaves.Nodup := by
  induction t with
  | child j => simp [PT.tree, Spec.Bin.leaves]
  | node s b a c iha ihc =>
    obtain ⟨h1, h2, h3, -, -⟩ := h
    simp only [PT.tree, Spec.Bin.leaves]
    rw [List.nodup_append]
    refine ⟨iha h1, ihc h2, ?_⟩
    intro i hi j hj hij
    subst hij
    exact land_zero.1 h3 i ⟨(h1.cover i).2 hi, (h2.cover i).2 hj⟩

theorem PT.Good.lt {t : PT} (h : t.Good P) : ∀ i ∈ t.tree.leaves, i < P.n := by
  induction t with
  | child j => simpa [PT.tree, Spec.Bin.leaves] using (show j < P.n from h)
  | node s b a c iha ihc =>
    obtain ⟨h1, h2, -⟩ := h
    intro i hi
    simp only [PT.tree, Spec.Bin.leaves, List.mem_append] at hi
    exact hi.elim (iha h1 i) (ihc h2 i)

theorem Spec.Bin.leaves_ne (t : Spec.Bin) : ∃ i, i ∈ t.leaves := by
  induction t with
  | leaf i => exact ⟨i, by simp [Spec.Bin.leaves]⟩
  | node a b iha _ => obtain ⟨i, hi⟩ := iha; exact ⟨i, by simp [Spec.Bin.leaves, hi]⟩

theorem Spec.Bin.bits_mem (t : Spec.Bin) (k : Nat) : (t.bits P).testBit k = true ↔ ∃ i ∈ t.leaves, (P.cb i).testBit k = true := by
  induction t with
  | leaf i => simp [Spec.Bin.leaves, Spec.Bin.bits]
  | node a b iha ihb =>
    simp only [Spec.Bin.leaves, Spec.Bin.bits, Nat.testBit_or, Bool.or_eq_true, iha, ihb, List.mem_append]
    constructor
    · rintro (⟨i, h, h'⟩ | ⟨i, h, h'⟩)
      · exact ⟨i, .inl h, h'⟩
      · exact ⟨i, .inr h, h'⟩
    · rintro ⟨i, h | h, h'⟩
      · exact .inl ⟨i, h, h'⟩
      · exact .inr ⟨i, h, h'⟩

theorem Spec.Bin.bits_congr {t t' : Spec.Bin} (h : ∀ i, i ∈ t.leaves ↔ i ∈ t'.leaves) : t.bits P = t'.bits P := by
  apply Nat.eq_of_testBit_eq
  intro k
  rw [Bool.eq_iff_iff, Spec.Bin.bits_mem, Spec.Bin.bits_mem]
  simp only [h]

theorem PT.Good.val_worst {t : PT} (h : t.Good P) : (ofLex (t.val P)).1 = t.tree.worst P := by
  induction t with
  | child j => rfl
  | node s b a c iha ihc =>
    obtain ⟨h1, h2, -, -, -⟩ := h
    simp only [PT.val, combine, ofLex_toLex, PT.tree, Spec.Bin.worst, iha h1, ihc h2, h1.bits, h2.bits]
    rw [max_assoc, max_comm (c.tree.worst P)]

theorem PT.Good.val_total {t : PT} (h : t.Good P) : (ofLex (t.val P)).2 = t.tree.total P := by
  induction t with
  | child j => rfl
  | node s b a c iha ihc =>
    obtain ⟨h1, h2, -, -, -⟩ := h
    simp only [PT.val, combine, ofLex_toLex, PT.tree, Spec.Bin.total, iha h1, ihc h2, h1.bits, h2.bits]

theorem le_combine (p p1 : PT) (x y : Val) : x ≤ combine P p p1 x y := by
  rw [Prod.Lex.le_iff]
  simp only [combine, ofLex_toLex]
  rcases lt_or_eq_of_le (le_max_right (max (P.sc (p.bits P ||| p1.bits P) (p.bits P) (p1.bits P)) (ofLex y).1) (ofLex x).1) with h | h
  · exact .inl h
  · exact .inr ⟨h, by omega⟩

theorem fst_le_of_le {x y : Val} (h : x ≤ y) : (ofLex x).1 ≤ (ofLex y).1 := by
  rcases Prod.Lex.le_iff.1 h with h | ⟨h, -⟩
  · exact h.le
  · exact h.le

theorem lt_of_fst_lt {x y : Val} (h : (ofLex x).1 < (ofLex y).1) : x < y := Prod.Lex.lt_iff.2 (.inl h)

/-- The contents of the agenda of a state. -/
abbrev St.ag (st : St) : PT → Option Val := contents st.agenda

/-- Items that were popped. -/
def St.Done (st : St) (a : PT) : Prop := (st.work.get? a).isSome ∧ st.ag a = none

/-- The part of the invariant that holds in the inner loop too. -/
structure Base (P : Prob) (st : St) : Prop where
  ainv : PyAgenda.Inv st.agenda
  wwf : st.work.WF
  nwf : st.nonterms.WF
  work : ∀ a v, st.work.get? a = some v → st.nonterms.get? a = some a.cover ∧ st.rev.get? a.cover = some a ∧ v = a.val P ∧ a.Good P
  rev : ∀ s a, st.rev.get? s = some a → (st.work.get? a).isSome ∧ a.cover = s
  ag : ∀ a v, st.ag a = some v → st.work.get? a = some v
  done : ∀ a b w, st.Done a → st.ag b = some w → a.val P ≤ w
  base : ∀ i, i < P.n → ∃ a, st.rev.get? (1 <<< i) = some a ∧ (ofLex (a.val P)).1 ≤ P.sc0 i

/-- There is an item for the union of two items that is not worse than their combination. -/
def Cov (P : Prob) (st : St) (a b : PT) : Prop :=
  ∃ c, st.rev.get? (a.cover ||| b.cover) = some c ∧
    (ofLex (c.val P)).1 ≤ max (P.sc (a.bits P ||| b.bits P) (a.bits P) (b.bits P)) (max (ofLex (a.val P)).1 (ofLex (b.val P)).1)

/-- Items are only replaced by better ones. -/
def Improves (P : Prob) (st st' : St) : Prop :=
  ∀ s a, st.rev.get? s = some a → ∃ a', st'.rev.get? s = some a' ∧ a'.val P ≤ a.val P

theorem Improves.refl (st : St) : Improves P st st := fun _ a h => ⟨a, h, le_rfl⟩

theorem Improves.trans {st st' st'' : St} (h : Improves P st st') (h' : Improves P st' st'') : Improves P st st'' := by
  intro s a ha
  obtain ⟨a', h1, h2⟩ := h s a ha
  obtain ⟨a'', h3, h4⟩ := h' s a' h1
  exact ⟨a'', h3, h4.trans h2⟩

theorem Cov.improve {st st' : St} (h : Improves P st st') {a b : PT} (hc : Cov P st a b) : Cov P st' a b := by
  obtain ⟨c, h1, h2⟩ := hc
  obtain ⟨c', h3, h4⟩ := h _ c h1
  exact ⟨c', h3, (fst_le_of_le h4).trans h2⟩

theorem contents_none {a : Agenda PT Val} (h : PyAgenda.Inv a) (k : PT) : contents a k = none ↔ a.mapping.get? k = none := by
  have := contents_isSome h k
  cases hc : contents a k <;> cases hm : a.mapping.get? k <;> simp_all

/-- Removing an item. -/
theorem dropItem_spec {st : St} (hB : Base P st) {a : PT} {w : Val} (hw : st.work.get? a = some w) :
    ∃ st', dropItem st a = some st' ∧ PyAgenda.Inv st'.agenda ∧ st'.work = st.work.erase a ∧ st'.nonterms = st.nonterms.erase a ∧
      st'.rev = st.rev ∧ st'.ag = PyAgenda.Spec.upd st.ag a none := by
  obtain ⟨h1, -⟩ := hB.work a w hw
  refine ⟨⟨if (st.agenda.mapping.get? a).isSome then (delitem st.agenda a).2 else st.agenda,
      st.work.erase a, st.nonterms.erase a, st.rev⟩, by simp only [dropItem, h1, hw], ?_, rfl, rfl, rfl, ?_⟩
  · simp only
    cases hm : st.agenda.mapping.get? a with
    | none => simpa using hB.ainv
    | some i =>
      simp only [Option.isSome_some, if_true, delitem, hm]
      exact (remove_inv hB.ainv a i hm).1
  · simp only [St.ag]
    cases hm : st.agenda.mapping.get? a with
    | none =>
      simp only [Option.isSome_none, Bool.false_eq_true, if_false]
      funext k
      rw [PyAgenda.Spec.upd]
      split
      · rename_i h; subst h; exact (contents_none hB.ainv a).2 hm
      · rfl
    | some i =>
      simp only [Option.isSome_some, if_true, delitem, hm]
      exact (remove_inv hB.ainv a i hm).2

/-- What the inner loop keeps: `p` with value `x` was popped. -/
structure Loop (P : Prob) (p : PT) (x : Val) (st : St) : Prop extends Base P st where
  pdone : st.Done p
  px : x = p.val P
  low : ∀ b w, st.ag b = some w → x ≤ w
  high : ∀ a, st.Done a → a.val P ≤ x

theorem addItem_spec {st st0 : St} (hB : Base P st) {p2 : PT} (hg : p2.Good P) {x : Val} (hx : x ≤ p2.val P)
    (hhigh : ∀ a, st.Done a → a.val P ≤ x) (hw : st.work.get? p2 = none)
    (h0 : st0 = st ∧ st.rev.get? p2.cover = none ∨ ∃ a w, st.rev.get? p2.cover = some a ∧ st.work.get? a = some w ∧ p2.val P < w ∧
      st.ag a = some w ∧ PyAgenda.Inv st0.agenda ∧ st0.work = st.work.erase a ∧ st0.nonterms = st.nonterms.erase a ∧
      st0.rev = st.rev ∧ st0.ag = PyAgenda.Spec.upd st.ag a none) :
    Base P (addItem st0 p2 p2.cover (p2.val P)) ∧ (∀ b, (addItem st0 p2 p2.cover (p2.val P)).Done b ↔ st.Done b) ∧
      Improves P st (addItem st0 p2 p2.cover (p2.val P)) ∧ (∀ b w, (addItem st0 p2 p2.cover (p2.val P)).ag b = some w → st.ag b = some w ∨ w = p2.val P) ∧
      (addItem st0 p2 p2.cover (p2.val P)).rev.get? p2.cover = some p2 := by
  have hkeep : PyAgenda.Inv st0.agenda ∧ st0.work.WF ∧ st0.nonterms.WF ∧ st0.rev = st.rev ∧ st0.work.get? p2 = none ∧
      (∀ b v, st0.work.get? b = some v → st.work.get? b = some v ∧ st0.nonterms.get? b = st.nonterms.get? b ∧ b.cover ≠ p2.cover) ∧
      (∀ b v, st.work.get? b = some v → b.cover ≠ p2.cover → st0.work.get? b = some v) ∧
      (∀ b, b.cover ≠ p2.cover → st0.ag b = st.ag b) ∧ (∀ b v, st0.ag b = some v → st.ag b = some v ∧ b.cover ≠ p2.cover) ∧
      (∀ b, st.Done b → b.cover ≠ p2.cover) := by
    have hcov : ∀ a, st.rev.get? p2.cover = some a → ∀ b v, st.work.get? b = some v → b.cover = p2.cover → b = a := by
      intro a ha b v hb hc
      have := (hB.work b v hb).2.1
      rw [hc, ha] at this
      exact (Option.some.inj this).symm
    rcases h0 with ⟨rfl, hr⟩ | ⟨a, w, hra, hwa, hlt, haa, i1, i2, i3, i4, i5⟩
    · have hne : ∀ b v, st0.work.get? b = some v → b.cover ≠ p2.cover := by
        intro b v hb hc
        have := (hB.work b v hb).2.1
        rw [hc, hr] at this
        cases this
      refine ⟨hB.ainv, hB.wwf, hB.nwf, rfl, hw, fun b v h => ⟨h, rfl, hne b v h⟩, fun b v h _ => h, fun _ _ => rfl,
        fun b v h => ⟨h, hne b v (hB.ag b v h)⟩, ?_⟩
      intro b hb
      obtain ⟨v, hv⟩ := Option.isSome_iff_exists.1 hb.1
      exact hne b v hv
    · have hac : a.cover = p2.cover := (hB.rev _ a hra).2
      refine ⟨i1, i2 ▸ hB.wwf.erase a, i3 ▸ hB.nwf.erase a, i4, ?_, ?_, ?_, ?_, ?_, ?_⟩
      · rw [i2, Dict.get?_erase hB.wwf]; split
        · rfl
        · exact hw
      · intro b v hb
        rw [i2, Dict.get?_erase hB.wwf] at hb
        split at hb
        · cases hb
        · rename_i hne
          refine ⟨hb, by rw [i3, Dict.get?_erase hB.nwf, if_neg hne], fun hc => hne (hcov a hra b v hb hc).symm⟩
      · intro b v hb hc
        rw [i2, Dict.get?_erase hB.wwf, if_neg (by rintro rfl; exact hc hac)]
        exact hb
      · intro b hc
        rw [i5, PyAgenda.Spec.upd, if_neg (by rintro rfl; exact hc hac)]
      · intro b v hb
        rw [i5, PyAgenda.Spec.upd] at hb
        split at hb
        · cases hb
        · rename_i hne
          exact ⟨hb, fun hc => hne (hcov a hra b v (hB.ag b v hb) hc).symm⟩
      · intro b hb hc
        obtain ⟨v, hv⟩ := Option.isSome_iff_exists.1 hb.1
        have := hcov a hra b v hv hc
        subst this
        rw [hb.2] at haa
        cases haa
  obtain ⟨k1, k2, k3, k4, k5, k6, k7, k8, k9, k10⟩ := hkeep
  obtain ⟨s1, s2⟩ := setitem_inv k1 p2 (p2.val P)
  have hag : (addItem st0 p2 p2.cover (p2.val P)).ag = PyAgenda.Spec.upd st0.ag p2 (some (p2.val P)) := s2
  have hwork : ∀ b, (addItem st0 p2 p2.cover (p2.val P)).work.get? b = if p2 = b then some (p2.val P) else st0.work.get? b :=
    fun b => Dict.get?_set _ _ _ _
  have hnon : ∀ b, (addItem st0 p2 p2.cover (p2.val P)).nonterms.get? b = if p2 = b then some p2.cover else st0.nonterms.get? b :=
    fun b => Dict.get?_set _ _ _ _
  have hrev : ∀ s, (addItem st0 p2 p2.cover (p2.val P)).rev.get? s = if p2.cover = s then some p2 else st.rev.get? s := by
    intro s
    rw [← k4]
    exact Dict.get?_set _ _ _ _
  have hdone : ∀ b, (addItem st0 p2 p2.cover (p2.val P)).Done b ↔ st.Done b := by
    intro b
    rw [St.Done, St.Done, hwork, hag, PyAgenda.Spec.upd]
    by_cases h : p2 = b
    · subst h
      simp [hw]
    · rw [if_neg h, if_neg h]
      constructor
      · rintro ⟨h1, h2⟩
        obtain ⟨v, hv⟩ := Option.isSome_iff_exists.1 h1
        obtain ⟨h3, -, h4⟩ := k6 b v hv
        exact ⟨by simp [h3], by rw [← k8 b h4]; exact h2⟩
      · intro hb
        have hc := k10 b hb
        obtain ⟨v, hv⟩ := Option.isSome_iff_exists.1 hb.1
        exact ⟨by simp [k7 b v hv hc], by rw [k8 b hc]; exact hb.2⟩
  have hagc : ∀ b w, (addItem st0 p2 p2.cover (p2.val P)).ag b = some w → st.ag b = some w ∨ w = p2.val P := by
    intro b w hb
    rw [hag, PyAgenda.Spec.upd] at hb
    split at hb
    · exact .inr (Option.some.inj hb).symm
    · exact .inl (k9 b w hb).1
  have himp : Improves P st (addItem st0 p2 p2.cover (p2.val P)) := by
    intro s a ha
    rw [hrev]
    by_cases hs : p2.cover = s
    · rw [if_pos hs]
      refine ⟨p2, rfl, ?_⟩
      subst hs
      rcases h0 with ⟨-, hr⟩ | ⟨a', w, hra, hwa, hlt, -⟩
      · rw [hr] at ha; cases ha
      · rw [hra] at ha
        cases ha
        rw [← (hB.work _ _ hwa).2.2.1]
        exact hlt.le
    · rw [if_neg hs]
      exact ⟨a, ha, le_rfl⟩
  refine ⟨⟨s1, k2.set _ _, k3.set _ _, ?_, ?_, ?_, ?_, ?_⟩, hdone, himp, hagc, by rw [hrev, if_pos rfl]⟩
  · intro a v ha
    rw [hwork] at ha
    split at ha
    · rename_i h
      subst h
      exact ⟨by rw [hnon, if_pos rfl], by rw [hrev, if_pos rfl], (Option.some.inj ha).symm, hg⟩
    · rename_i h
      obtain ⟨h1, h2, h3⟩ := k6 a v ha
      obtain ⟨h4, h5, h6, h7⟩ := hB.work a v h1
      exact ⟨by rw [hnon, if_neg h, h2, h4], by rw [hrev, if_neg (Ne.symm h3), h5], h6, h7⟩
  · intro s a ha
    rw [hrev] at ha
    split at ha
    · rename_i h
      cases ha
      exact ⟨by rw [hwork, if_pos rfl]; rfl, h⟩
    · rename_i h
      obtain ⟨h1, h2⟩ := hB.rev s a ha
      obtain ⟨v, hv⟩ := Option.isSome_iff_exists.1 h1
      refine ⟨?_, h2⟩
      rw [hwork]
      split
      · rfl
      · rw [k7 a v hv (by rw [h2]; exact Ne.symm h)]; rfl
  · intro a v ha
    rw [hag, PyAgenda.Spec.upd] at ha
    rw [hwork]
    split at ha
    · rename_i h
      rw [if_pos h]
      exact ha
    · rename_i h
      obtain ⟨h1, h2⟩ := k9 a v ha
      rw [if_neg h]
      exact k7 a v (hB.ag a v h1) h2
  · intro a b w ha hb
    rw [hdone] at ha
    rcases hagc b w hb with h | h
    · exact hB.done a b w ha h
    · rw [h]
      exact (hhigh a ha).trans hx
  · intro i hi
    obtain ⟨a, h1, h2⟩ := hB.base i hi
    obtain ⟨a', h3, h4⟩ := himp _ a h1
    exact ⟨a', h3, (fst_le_of_le h4).trans h2⟩

theorem max3 (s x y : Sc) : max (max s y) x = max s (max x y) := by rw [max_assoc, max_comm y]

theorem consider_spec {p : PT} {x : Val} {st : St} (hL : Loop P p x st) (p1 : PT) (y : Val) (hy : y = p1.val P) :
    ∃ st', consider P p x st p1 y = some st' ∧ Loop P p x st' ∧ (∀ b, st'.Done b ↔ st.Done b) ∧ Improves P st st' ∧
      ((st.work.get? p1).isSome → p.cover &&& p1.cover = 0 → Cov P st' p p1) := by
  have hB := hL.toBase
  rw [consider]
  cases h1 : st.work.get? p1 with
  | none => exact ⟨st, by simp, hL, fun _ => Iff.rfl, Improves.refl st, by simp⟩
  | some y' =>
    obtain ⟨w1, w2, w3, w4⟩ := hB.work p1 y' h1
    obtain ⟨xv, hxv⟩ := Option.isSome_iff_exists.1 hL.pdone.1
    obtain ⟨v1, v2, v3, v4⟩ := hB.work p xv hxv
    simp only [Option.isNone_some, Bool.false_eq_true, if_false, v1, w1]
    by_cases hd : p.cover &&& p1.cover = 0
    · rw [if_neg (by simpa using hd)]
      let p2 : PT := .node (p.cover ||| p1.cover) (p.bits P ||| p1.bits P) p p1
      have hp2c : p2.cover = p.cover ||| p1.cover := rfl
      have hval : combine P p p1 x y = p2.val P := by rw [hL.px, hy]; rfl
      have hg : p2.Good P := ⟨v4, w4, hd, rfl, rfl⟩
      have hxle : x ≤ p2.val P := by rw [← hval]; exact le_combine p p1 x y
      have hfst : (ofLex (p2.val P)).1 = max (P.sc (p.bits P ||| p1.bits P) (p.bits P) (p1.bits P)) (max (ofLex (p.val P)).1 (ofLex (p1.val P)).1) := by
        show max (max _ _) _ = _
        rw [max3]
      rw [hval]
      show ∃ st', enter st p2 p2.cover (p2.val P) = some st' ∧ _
      have fin : ∀ st0, (st0 = st ∧ st.rev.get? p2.cover = none ∨ ∃ a w, st.rev.get? p2.cover = some a ∧ st.work.get? a = some w ∧ p2.val P < w ∧
          st.ag a = some w ∧ PyAgenda.Inv st0.agenda ∧ st0.work = st.work.erase a ∧ st0.nonterms = st.nonterms.erase a ∧
          st0.rev = st.rev ∧ st0.ag = PyAgenda.Spec.upd st.ag a none) → st.work.get? p2 = none →
          Loop P p x (addItem st0 p2 p2.cover (p2.val P)) ∧ (∀ b, (addItem st0 p2 p2.cover (p2.val P)).Done b ↔ st.Done b) ∧
          Improves P st (addItem st0 p2 p2.cover (p2.val P)) ∧ Cov P (addItem st0 p2 p2.cover (p2.val P)) p p1 := by
        intro st0 h0 hw
        obtain ⟨a1, a2, a3, a4, a5⟩ := addItem_spec hB hg hxle hL.high hw h0
        refine ⟨⟨a1, (a2 p).2 hL.pdone, hL.px, ?_, fun a ha => hL.high a ((a2 a).1 ha)⟩, a2, a3, p2, a5, hfst.le⟩
        intro b w hb
        rcases a4 b w hb with h | h
        · exact hL.low b w h
        · rw [h]; exact hxle
      cases hr : st.rev.get? p2.cover with
      | none =>
        have hw : st.work.get? p2 = none := by
          cases h : st.work.get? p2 with
          | none => rfl
          | some v =>
            have := (hB.work p2 v h).2.1
            rw [hr] at this
            cases this
        obtain ⟨f1, f2, f3, f4⟩ := fin st (.inl ⟨rfl, hr⟩) hw
        exact ⟨_, by simp only [enter, hr], f1, f2, f3, fun _ _ => f4⟩
      | some a =>
        obtain ⟨r1, r2⟩ := hB.rev _ a hr
        obtain ⟨w, hw⟩ := Option.isSome_iff_exists.1 r1
        obtain ⟨q1, q2, q3, q4⟩ := hB.work a w hw
        by_cases hlt : p2.val P < w
        · have haa : st.ag a = some w := by
            cases h : st.ag a with
            | none =>
              have := hL.high a ⟨r1, h⟩
              rw [← q3] at this
              exact absurd (this.trans hxle) (not_le.2 hlt)
            | some w' =>
              have := hB.ag a w' h
              rw [hw] at this
              exact this.symm
          have hw2 : st.work.get? p2 = none := by
            cases h : st.work.get? p2 with
            | none => rfl
            | some v =>
              have := (hB.work p2 v h).2.1
              rw [hr] at this
              cases this
              rw [q3] at hlt
              exact absurd hlt (lt_irrefl _)
          obtain ⟨st0, d1, d2⟩ := dropItem_spec hB hw
          obtain ⟨f1, f2, f3, f4⟩ := fin st0 (.inr ⟨a, w, hr, hw, hlt, haa, d2⟩) hw2
          exact ⟨_, by simp only [enter, hr, hw, if_pos hlt, d1, Option.map_some], f1, f2, f3, fun _ _ => f4⟩
        · refine ⟨st, by simp only [enter, hr, hw, if_neg hlt], hL, fun _ => Iff.rfl, Improves.refl st, fun _ _ => ⟨a, hr, ?_⟩⟩
          rw [← hfst, ← q3]
          exact fst_le_of_le (not_lt.1 hlt)
    · rw [if_pos (by simpa using hd)]
      exact ⟨st, rfl, hL, fun _ => Iff.rfl, Improves.refl st, fun _ h => absurd h hd⟩

theorem inner_spec {p : PT} {x : Val} (l : List (PT × Val)) : ∀ {st : St}, Loop P p x st → (∀ q ∈ l, q.2 = q.1.val P) →
    ∃ st', inner P p x l st = some st' ∧ Loop P p x st' ∧ (∀ b, st'.Done b ↔ st.Done b) ∧ Improves P st st' ∧
      ∀ q ∈ l, st.Done q.1 → p.cover &&& q.1.cover = 0 → Cov P st' p q.1 := by
  induction l with
  | nil => intro st h _; exact ⟨st, rfl, h, fun _ => Iff.rfl, Improves.refl st, by simp⟩
  | cons q l ih =>
    obtain ⟨p1, y⟩ := q
    intro st hL hy
    obtain ⟨st1, a1, a2, a3, a4, a5⟩ := consider_spec hL p1 y (hy _ List.mem_cons_self)
    obtain ⟨st2, b1, b2, b3, b4, b5⟩ := ih a2 (fun q hq => hy q (List.mem_cons_of_mem _ hq))
    refine ⟨st2, by simp only [inner, a1]; exact b1, b2, fun b => (b3 b).trans (a3 b), a4.trans b4, ?_⟩
    intro q hq hd hdis
    rcases List.mem_cons.1 hq with rfl | hq
    · exact (a5 hd.1 hdis).improve b4
    · exact b5 q hq ((a3 _).2 hd) hdis

/-- The invariant of the main loop. -/
structure Main (P : Prob) (st : St) : Prop extends Base P st where
  cov : ∀ a b, st.Done a → st.Done b → a.cover &&& b.cover = 0 → Cov P st a b
  goal : ∀ a, st.Done a → a.cover ≠ (1 <<< P.n) - 1

theorem Cov.symm (hs : P.Symm) {st : St} {a b : PT} (h : Cov P st a b) : Cov P st b a := by
  obtain ⟨c, h1, h2⟩ := h
  refine ⟨c, by rw [Nat.lor_comm]; exact h1, ?_⟩
  rw [Nat.lor_comm, hs, max_comm (ofLex (b.val P)).1]
  exact h2

theorem land_self_ne {a : PT} (h : a.Good P) : a.cover &&& a.cover ≠ 0 := by
  obtain ⟨i, hi⟩ := a.tree.leaves_ne
  intro h0
  have := (h.cover i).2 hi
  exact land_zero.1 h0 i ⟨this, this⟩

/-- One iteration of the main loop. -/
theorem step_main (hs : P.Symm) {st : St} (hM : Main P st) {p : PT} {x : Val} {ag : Agenda PT Val} (hpop : popitem st.agenda = (.item p x, ag)) :
    st.nonterms.get? p = some p.cover ∧ st.ag p = some x ∧ x = p.val P ∧ p.Good P ∧ (∀ b w, st.ag b = some w → x ≤ w) ∧
    (p.cover ≠ (1 <<< P.n) - 1 → ∃ st', inner P p x st.work { st with agenda := ag } = some st' ∧ Main P st' ∧
      st'.Done p ∧ ∀ a, st.Done a → st'.Done a) := by
  obtain ⟨i1, i2⟩ := popitem_inv hM.ainv
  rw [hpop] at i1 i2
  simp only at i1 i2
  generalize hc : contents ag = m at i2
  cases i2 with
  | popitem _ _ hpx hmin =>
    have hwp := hM.ag p x hpx
    obtain ⟨w1, w2, w3, w4⟩ := hM.work p x hwp
    refine ⟨w1, hpx, w3, w4, hmin, fun hgoal => ?_⟩
    let st1 : St := { st with agenda := ag }
    have hag1 : st1.ag = PyAgenda.Spec.upd st.ag p none := hc
    have hd1 : ∀ a, st1.Done a ↔ a = p ∨ st.Done a := by
      intro a
      rw [St.Done, St.Done, hag1, PyAgenda.Spec.upd]
      by_cases h : p = a
      · subst h; simp [st1, hwp]
      · rw [if_neg h]
        constructor
        · exact fun h => .inr h
        · rintro (h' | h')
          · exact absurd h'.symm h
          · exact h'
    have hag1' : ∀ b w, st1.ag b = some w → st.ag b = some w := by
      intro b w hb
      rw [hag1, PyAgenda.Spec.upd] at hb
      split at hb
      · cases hb
      · exact hb
    have hhigh : ∀ a, st1.Done a → a.val P ≤ x := by
      intro a ha
      rcases (hd1 a).1 ha with rfl | ha
      · exact w3.ge
      · exact hM.done a p x ha hpx
    have hL : Loop P p x st1 := by
      refine ⟨⟨i1, hM.wwf, hM.nwf, hM.work, hM.rev, fun a v h => hM.ag a v (hag1' a v h), ?_, hM.base⟩, (hd1 p).2 (.inl rfl), w3,
        fun b w h => hmin b w (hag1' b w h), hhigh⟩
      intro a b w ha hb
      exact (hhigh a ha).trans (hmin b w (hag1' b w hb))
    obtain ⟨st', a1, a2, a3, a4, a5⟩ := inner_spec st.work hL (fun q hq => by
      obtain ⟨b, v⟩ := q
      exact (hM.work b v (Dict.get?_of_mem hM.wwf hq)).2.2.1)
    have hcovp : ∀ a, st.Done a → p.cover &&& a.cover = 0 → Cov P st' p a := by
      intro a ha hdis
      obtain ⟨v, hv⟩ := Option.isSome_iff_exists.1 ha.1
      exact a5 (a, v) (Dict.mem_of_get? hv) ((hd1 a).2 (.inr ha)) hdis
    have hback : ∀ a, st'.Done a → a = p ∨ st.Done a := fun a ha => (hd1 a).1 ((a3 a).1 ha)
    refine ⟨st', a1, ⟨a2.toBase, ?_, ?_⟩, (a3 p).2 ((hd1 p).2 (.inl rfl)), fun a ha => (a3 a).2 ((hd1 a).2 (.inr ha))⟩
    · intro a b ha hb hdis
      rcases hback a ha with rfl | ha
      · rcases hback b hb with rfl | hb
        · exact absurd hdis (land_self_ne w4)
        · exact hcovp b hb hdis
      · rcases hback b hb with rfl | hb
        · exact (hcovp a ha (by rw [Nat.land_comm]; exact hdis)).symm hs
        · exact (hM.cov a b ha hb hdis).improve a4
    · intro a ha
      rcases hback a ha with rfl | ha
      · exact hgoal
      · exact hM.goal a ha

/-- While the items that are not worse than `T` were popped, there are items for all subtrees of `T` that are not worse. -/
theorem items_of {st : St} (hM : Main P st) (B : Sc) (hdone : ∀ a, (st.work.get? a).isSome → (ofLex (a.val P)).1 ≤ B → st.ag a = none)
    (t : Spec.Bin) (hnd : t.leaves.Nodup) (hlt : ∀ i ∈ t.leaves, i < P.n) (hB : t.worst P ≤ B) :
    ∃ a, st.Done a ∧ a.Good P ∧ (ofLex (a.val P)).1 ≤ t.worst P ∧ ∀ i, i ∈ a.tree.leaves ↔ i ∈ t.leaves := by
  have main : ∀ (s : Nat) (a : PT) (v : Sc), st.rev.get? s = some a → (ofLex (a.val P)).1 ≤ v → v ≤ B → (∀ i, s.testBit i = true ↔ i ∈ t.leaves) →
      v ≤ t.worst P →
      ∃ a, st.Done a ∧ a.Good P ∧ (ofLex (a.val P)).1 ≤ t.worst P ∧ ∀ i, i ∈ a.tree.leaves ↔ i ∈ t.leaves := by
    intro s a v hr hv hvB hs hvt
    obtain ⟨h1, h2⟩ := hM.rev s a hr
    obtain ⟨w, hw⟩ := Option.isSome_iff_exists.1 h1
    have hg := (hM.work a w hw).2.2.2
    refine ⟨a, ⟨h1, hdone a h1 (hv.trans hvB)⟩, hg, hv.trans hvt, fun i => ?_⟩
    rw [← hg.cover i, h2, hs i]
  induction t with
  | leaf i =>
    obtain ⟨a, h1, h2⟩ := hM.base i (hlt i (by simp [Spec.Bin.leaves]))
    refine main _ a _ h1 h2 hB (fun j => ?_) le_rfl
    rw [testBit_one_shift]; simp [Spec.Bin.leaves]
  | node t1 t2 ih1 ih2 =>
    simp only [Spec.Bin.leaves, List.nodup_append] at hnd
    simp only [Spec.Bin.leaves, List.mem_append] at hlt
    have hB' := hB
    simp only [Spec.Bin.worst, max_le_iff] at hB'
    obtain ⟨hB0, hB1, hB2⟩ := hB'
    have sub : ∀ (u : Spec.Bin), u.worst P ≤ B → ∀ (s : Nat) (a : PT) (v : Sc), st.rev.get? s = some a → (ofLex (a.val P)).1 ≤ v → v ≤ B →
      (∀ i, s.testBit i = true ↔ i ∈ u.leaves) → v ≤ u.worst P →
      ∃ a, st.Done a ∧ a.Good P ∧ (ofLex (a.val P)).1 ≤ u.worst P ∧ ∀ i, i ∈ a.tree.leaves ↔ i ∈ u.leaves := by
      intro u _ s a v hr hv hvB hs hvt
      obtain ⟨h1, h2⟩ := hM.rev s a hr
      obtain ⟨w, hw⟩ := Option.isSome_iff_exists.1 h1
      have hg := (hM.work a w hw).2.2.2
      refine ⟨a, ⟨h1, hdone a h1 (hv.trans hvB)⟩, hg, hv.trans hvt, fun i => ?_⟩
      rw [← hg.cover i, h2, hs i]
    obtain ⟨a, a1, a2, a3, a4⟩ := ih1 hnd.1 (fun i hi => hlt i (.inl hi)) hB1 (sub t1 hB1)
    obtain ⟨b, b1, b2, b3, b4⟩ := ih2 hnd.2.1 (fun i hi => hlt i (.inr hi)) hB2 (sub t2 hB2)
    have hdis : a.cover &&& b.cover = 0 := by
      rw [land_zero]
      rintro i ⟨hi, hj⟩
      rw [a2.cover, a4] at hi
      rw [b2.cover, b4] at hj
      exact hnd.2.2 i hi i hj rfl
    obtain ⟨c, c1, c2⟩ := hM.cov a b a1 b1 hdis
    rw [a2.bits, b2.bits, Spec.Bin.bits_congr a4, Spec.Bin.bits_congr b4] at c2
    have hle := c2.trans (max_le_max le_rfl (max_le_max a3 b3))
    refine main _ c _ c1 hle hB (fun i => ?_) le_rfl
    rw [Nat.testBit_or, Bool.or_eq_true, a2.cover, b2.cover, a4, b4]
    simp [Spec.Bin.leaves]

/-- A binarization with `n + 1` children. -/
def comb : Nat → Spec.Bin
  | 0 => .leaf 0
  | n + 1 => .node (comb n) (.leaf (n + 1))

theorem comb_leaves (n : Nat) : (comb n).leaves = List.range (n + 1) := by
  induction n with
  | zero => rfl
  | succ n ih => rw [comb, Spec.Bin.leaves, ih, Spec.Bin.leaves, List.range_succ (n := n + 1)]

theorem Spec.Bin.Complete.nodup {n : Nat} {t : Spec.Bin} (h : t.Complete n) : t.leaves.Nodup := h.nodup_iff.2 List.nodup_range

theorem Spec.Bin.Complete.mem {n : Nat} {t : Spec.Bin} (h : t.Complete n) (i : Nat) : i ∈ t.leaves ↔ i < n := by
  rw [h.mem_iff, List.mem_range]

theorem complete_of {t : PT} (hg : t.Good P) (hc : t.cover = (1 <<< P.n) - 1) : t.tree.Complete P.n := by
  rw [Spec.Bin.Complete, List.perm_ext_iff_of_nodup hg.nodup List.nodup_range]
  intro i
  rw [← hg.cover i, hc, goal_bit, List.mem_range]

theorem cover_of {t : PT} (hg : t.Good P) {u : Spec.Bin} (hu : u.Complete P.n) (h : ∀ i, i ∈ t.tree.leaves ↔ i ∈ u.leaves) :
    t.cover = (1 <<< P.n) - 1 := by
  apply Nat.eq_of_testBit_eq
  intro i
  rw [Bool.eq_iff_iff, hg.cover, h, hu.mem, goal_bit]

theorem cover_lt {t : PT} (hg : t.Good P) : t.cover < 2 ^ P.n := by
  apply Nat.lt_pow_two_of_testBit
  intro i hi
  have : ¬ t.cover.testBit i = true := by
    rw [hg.cover]
    intro h
    have := hg.lt i h
    omega
  simpa using this

/-- The sets of children of which an item was popped. -/
noncomputable def doneSets (P : Prob) (st : St) : Finset Nat := by
  classical
  exact (Finset.range (2 ^ P.n)).filter fun s => ∃ a, st.Done a ∧ a.cover = s

theorem doneSets_lt {st st' : St} (hM' : Main P st') (h : ∀ a, st.Done a → st'.Done a) {p : PT} (hp : st'.Done p) (hn : ¬ st.Done p) :
    (doneSets P st).card < (doneSets P st').card := by
  classical
  obtain ⟨v, hv⟩ := Option.isSome_iff_exists.1 hp.1
  have hg := (hM'.work p v hv).2.2.2
  apply Finset.card_lt_card
  rw [Finset.ssubset_iff_of_subset]
  · refine ⟨p.cover, ?_, ?_⟩
    · simp only [doneSets, Finset.mem_filter, Finset.mem_range]
      exact ⟨cover_lt hg, p, hp, rfl⟩
    · simp only [doneSets, Finset.mem_filter, Finset.mem_range, not_and, not_exists]
      rintro - a ha hc
      apply hn
      have h1 := h a ha
      obtain ⟨w, hw⟩ := Option.isSome_iff_exists.1 h1.1
      have e1 := (hM'.work a w hw).2.1
      have e2 := (hM'.work p v hv).2.1
      rw [hc, e2] at e1
      cases e1
      exact ha
  · intro s hs
    simp only [doneSets, Finset.mem_filter, Finset.mem_range] at hs ⊢
    obtain ⟨h1, a, h2, h3⟩ := hs
    exact ⟨h1, a, h a h2, h3⟩

theorem doneSets_le {st : St} (hM : Main P st) : (doneSets P st).card < 2 ^ P.n := by
  classical
  have : (doneSets P st).card < (Finset.range (2 ^ P.n)).card := by
    apply Finset.card_lt_card
    rw [Finset.ssubset_iff_of_subset (by unfold doneSets; exact Finset.filter_subset _ _)]
    refine ⟨0, by simp [Nat.two_pow_pos], ?_⟩
    simp only [doneSets, Finset.mem_filter, not_and, not_exists]
    rintro - a ha hc
    obtain ⟨w, hw⟩ := Option.isSome_iff_exists.1 ha.1
    have hg := (hM.work a w hw).2.2.2
    apply land_self_ne hg
    rw [hc]; rfl
  simpa using this

theorem search_spec (hs : P.Symm) (hn : 0 < P.n) (fuel : Nat) : ∀ st, Main P st → 2 ^ P.n ≤ fuel + (doneSets P st).card →
    ∃ p, search P fuel st = .found p ∧ p.Good P ∧ p.tree.Complete P.n ∧ ∀ t : Spec.Bin, t.Complete P.n → p.tree.worst P ≤ t.worst P := by
  induction fuel with
  | zero => intro st hM h; have := doneSets_le hM; omega
  | succ fuel ih =>
    intro st hM hf
    have exhausted : (∀ k, st.ag k = none) → False := by
      intro hnone
      have hc : (comb (P.n - 1)).Complete P.n := by
        rw [Spec.Bin.Complete, comb_leaves, Nat.sub_add_cancel hn]
      obtain ⟨a, a1, a2, a3, a4⟩ := items_of hM ((comb (P.n - 1)).worst P) (fun a _ _ => hnone a) (comb (P.n - 1)) hc.nodup (fun i hi => (hc.mem i).1 hi) le_rfl
      exact hM.goal a a1 (cover_of a2 hc a4)
    have hlen : st.agenda.length ≠ 0 := by
      intro h0
      apply exhausted
      intro k
      rw [hM.ainv.len] at h0
      have : st.agenda.mapping = [] := List.eq_nil_of_length_eq_zero (by omega)
      rw [St.ag, contents_none hM.ainv, this]
      rfl
    rw [search, if_neg hlen]
    obtain ⟨i1, i2⟩ := popitem_inv hM.ainv
    rcases hpop : popitem st.agenda with ⟨out, ag⟩
    rw [hpop] at i1 i2
    simp only at i1 i2
    generalize contents ag = m at i2
    cases i2 with
    | popEmpty h => exact (exhausted h).elim
    | popitem p x hpx hmin =>
      obtain ⟨b1, b2, b3, b4, b5, b6⟩ := step_main hs hM hpop
      simp only [b1]
      by_cases hg : p.cover = (1 <<< P.n) - 1
      · rw [if_pos hg]
        refine ⟨p, rfl, b4, complete_of b4 hg, fun t ht => ?_⟩
        by_contra hlt
        rw [not_le] at hlt
        have hx : (ofLex x).1 = p.tree.worst P := by rw [b3, b4.val_worst]
        obtain ⟨a, a1, a2, a3, a4⟩ := items_of hM (t.worst P) (fun a ha hle => by
          cases h : st.ag a with
          | none => rfl
          | some w =>
            have h1 := b5 a w h
            have h2 := (hM.work a w (hM.ag a w h)).2.2.1
            have h3 := fst_le_of_le h1
            rw [hx, h2] at h3
            exact absurd (h3.trans hle) (not_le.2 hlt)) t ht.nodup (fun i hi => (ht.mem i).1 hi) le_rfl
        exact hM.goal a a1 (cover_of a2 ht a4)
      · rw [if_neg hg]
        obtain ⟨st', c1, c2, c3, c4⟩ := b6 hg
        rw [c1]
        refine ih st' c2 ?_
        have hnd : ¬ st.Done p := fun h => by rw [h.2] at b2; cases b2
        have := doneSets_lt c2 c4 c3 hnd
        omega

/-- The state after the first loop. -/
theorem initial_main : Main P (initial P) := by
  have key : ∀ k, ∀ st, initialK P k = st →
    PyAgenda.Inv st.agenda ∧ st.work.WF ∧ st.nonterms.WF ∧
    (∀ a, st.ag a = st.work.get? a) ∧
    (∀ a v, st.work.get? a = some v ↔ ∃ i < k, a = .child i ∧ v = toLex (P.sc0 i, 0)) ∧
    (∀ i < k, st.nonterms.get? (.child i) = some (1 <<< i)) ∧
    (∀ s a, st.rev.get? s = some a ↔ ∃ i < k, s = 1 <<< i ∧ a = .child i) := by
    intro k
    induction k with
    | zero =>
      rintro st rfl
      show PyAgenda.Inv (empty : Agenda PT Val) ∧ Dict.WF ([] : Dict PT Val) ∧ Dict.WF ([] : Dict PT Nat) ∧ (∀ a, contents (empty : Agenda PT Val) a = Dict.get? ([] : Dict PT Val) a) ∧
        (∀ a v, Dict.get? ([] : Dict PT Val) a = some v ↔ _) ∧ (∀ i < 0, Dict.get? ([] : Dict PT Nat) (.child i) = some (1 <<< i)) ∧
        (∀ s a, Dict.get? ([] : Dict Nat PT) s = some a ↔ _)
      refine ⟨PyAgenda.Inv.empty, by simp [Dict.WF, Dict.keys], by simp [Dict.WF, Dict.keys], fun a => rfl, ?_, ?_, ?_⟩ <;>
        simp [Dict.get?]
    | succ k ih =>
      rintro st' rfl
      obtain ⟨h1, h2, h3, h4, h5, h6, h7⟩ := ih _ rfl
      rw [initialK, List.range_succ, List.foldl_append, List.foldl_cons, List.foldl_nil, ← initialK]
      obtain ⟨s1, s2⟩ := setitem_inv h1 (.child k) (toLex (P.sc0 k, 0))
      refine ⟨s1, h2.set _ _, h3.set _ _, ?_, ?_, ?_, ?_⟩
      · intro a
        rw [St.ag, s2, PyAgenda.Spec.upd, Dict.get?_set, ← h4]
      · intro a v
        rw [Dict.get?_set]
        split
        · rename_i h
          subst h
          constructor
          · intro h; exact ⟨k, by omega, rfl, (Option.some.inj h).symm⟩
          · rintro ⟨i, -, h, rfl⟩
            cases h
            rfl
        · rename_i h
          rw [h5]
          constructor
          · rintro ⟨i, hi, h'⟩; exact ⟨i, by omega, h'⟩
          · rintro ⟨i, hi, rfl, h'⟩
            refine ⟨i, ?_, rfl, h'⟩
            rcases Nat.lt_succ_iff_lt_or_eq.1 hi with hi | rfl
            · exact hi
            · exact absurd rfl h
      · intro i hi
        rw [Dict.get?_set]
        split
        · rename_i h; cases h; rfl
        · rename_i h
          refine h6 i ?_
          rcases Nat.lt_succ_iff_lt_or_eq.1 hi with hi | rfl
          · exact hi
          · exact absurd rfl h
      · intro s a
        rw [Dict.get?_set]
        split
        · rename_i h
          subst h
          constructor
          · intro h; exact ⟨k, by omega, rfl, (Option.some.inj h).symm⟩
          · rintro ⟨i, -, h, rfl⟩
            have : k = i := (testBit_one_shift i k).1 (by rw [← h]; exact (testBit_one_shift k k).2 rfl)
            subst this
            rfl
        · rename_i h
          rw [h7]
          constructor
          · rintro ⟨i, hi, h'⟩; exact ⟨i, by omega, h'⟩
          · rintro ⟨i, hi, rfl, h'⟩
            refine ⟨i, ?_, rfl, h'⟩
            rcases Nat.lt_succ_iff_lt_or_eq.1 hi with hi | rfl
            · exact hi
            · exact absurd rfl h
  obtain ⟨h1, h2, h3, h4, h5, h6, h7⟩ := key P.n _ rfl
  have nodone : ∀ a, ¬ (initial P).Done a := by
    rintro a ⟨ha, hb⟩
    rw [show (initial P).ag a = (initial P).work.get? a from h4 a] at hb
    rw [hb] at ha
    cases ha
  refine ⟨⟨h1, h2, h3, ?_, ?_, ?_, ?_, ?_⟩, ?_, ?_⟩
  · intro a v ha
    obtain ⟨i, hi, rfl, rfl⟩ := (h5 a v).1 ha
    exact ⟨h6 i hi, (h7 _ _).2 ⟨i, hi, rfl, rfl⟩, rfl, hi⟩
  · intro s a ha
    obtain ⟨i, hi, rfl, rfl⟩ := (h7 s a).1 ha
    exact ⟨by show ((initialK P P.n).work.get? _).isSome = true; rw [(h5 _ _).2 ⟨i, hi, rfl, rfl⟩]; rfl, rfl⟩
  · intro a v ha
    rw [show (initial P).ag a = (initial P).work.get? a from h4 a] at ha
    exact ha
  · intro a b w ha; exact absurd ha (nodone a)
  · intro i hi
    exact ⟨.child i, (h7 _ _).2 ⟨i, hi, rfl, rfl⟩, le_rfl⟩
  · intro a b ha; exact absurd ha (nodone a)
  · intro a ha; exact absurd ha (nodone a)

/-! ## Results -/

/-- **C62**: for a constituent with `n ≥ 1` children and any symmetric scoring function the search terminates within `2 ^ n` iterations, without an
exception, and returns a binarization of all the children, such that the worst score of its nodes is minimal among all binarizations. -/
theorem C62_search (P : Prob) (hs : P.Symm) (hn : 0 < P.n) (fuel : Nat) (hf : 2 ^ P.n ≤ fuel) :
    ∃ p, findBin P fuel = .found p ∧ p.Recorded P ∧ p.tree.Complete P.n ∧ ∀ t : Spec.Bin, t.Complete P.n → p.tree.worst P ≤ t.worst P := by
  obtain ⟨p, h1, h2, h3, h4⟩ := search_spec hs hn fuel (initial P) initial_main (by omega)
  exact ⟨p, h1, h2.recorded, h3, h4⟩

end Disco.OptBin
