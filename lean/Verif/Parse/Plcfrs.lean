import Verif.Basic.Dict
import Verif.Parse.Concat
import Mathlib.Algebra.Order.Group.Defs
import Mathlib.Algebra.Order.Group.Nat
import Mathlib.Algebra.Order.Monoid.Unbundled.Pow
import Mathlib.Tactic.Abel
import Mathlib.Logic.Function.Basic
import Mathlib.Order.Bounds.Defs
import Mathlib.Data.List.Nodup
/-!
# C25: the agenda parser for LCFRS, `parse_main` (plcfrs.pyx:355-600), `process_edge` (602-665), `populatepos` (668-829), `process_lexedge` (832-879)

Simplifications: costs (negative log probabilities) are exact elements of a linearly ordered group instead of floats. Modelled with the defaults
`tags=None`, `estimates=None`, `beam_beta=0`, `postagging=None` and an empty rule mask. The whitelist is a predicate on items. Items are identified
with their values instead of their numbers: the arrays `chart.probs` and `chart.parseforest` are functions of items. The agenda is a dictionary from
which any entry with a least value may be taken (C19: this is what `Agenda.pop` does if values only decrease).
-/
set_option linter.unusedSectionVars false
namespace Disco.Plcfrs
open Dict Bits

variable {V : Type} [DecidableEq V] {R : Type} [AddCommGroup R] [LinearOrder R] [IsOrderedAddMonoid R]

/-! ### Model -/

/-- `SmallChartItem`, `FatChartItem` (containers.pxd): a label and a bit vector. -/
structure Item (V : Type) where
  label : Nat
  vec : V
  deriving DecidableEq

/-- `ProbRule` (containers.pxd). -/
structure PRule (R : Type) where
  lhs : Nat
  rhs1 : Nat
  rhs2 : Nat
  args : Word
  lengths : Word
  prob : R
  no : Nat
  deriving DecidableEq

/-- The operations that differ between `SmallChartItem` and `FatChartItem`. -/
structure Ops (V : Type) where
  /-- a single word -/
  unit : Nat → V
  /-- `concat(rule, left, right)` (plcfrs.pyx:947-1043) -/
  concat : Word → Word → V → V → Bool
  /-- `combine_item` (plcfrs.pyx:938-944) -/
  combine : V → V → V
  /-- `bitcount`, `abitcount` -/
  count : V → Nat

/-- The parts of the grammar for a sentence: the rule arrays, and for each word the pairs of label and cost found under `lexicalbyword` (plcfrs.pyx:705-721). -/
structure Grammar (R : Type) where
  unary : List (PRule R)
  lbinary : List (PRule R)
  rbinary : List (PRule R)
  lexicon : Nat → List (Nat × R)

/-- `Edge` (containers.pxd): the rule is `NULL` for a lexical edge; otherwise the left item is stored. -/
inductive Edge (V R : Type) where
  | lex (word : Nat)
  | rule (r : PRule R) (left : Item V)
  deriving DecidableEq

/-- The chart and the agenda. A missing cost is `INFINITY`. -/
structure State (V R : Type) where
  items : List (Item V)
  probs : Item V → Option R
  forest : Item V → List (Edge V R)
  agenda : Dict (Item V) (R × R)

/-- `a < b` for pairs. -/
def ltPair (a b : R × R) : Bool := decide (a.1 < b.1) || (decide (a.1 = b.1) && decide (a.2 < b.2))

/-- `agenda.setifbetter(k, v)` (_containers.h:140-153). -/
def setIfBetter (a : Dict (Item V) (R × R)) (k : Item V) (v : R × R) : Dict (Item V) (R × R) :=
  match get? a k with
  | none => Dict.set a k v
  | some w => if ltPair v w then Dict.set a k v else a

/-- `chart.addedge`, `chart.addlexedge` (plcfrs.pyx:31-36, 73-80). -/
def addEdge (st : State V R) (x : Item V) (e : Edge V R) : State V R := { st with forest := Function.update st.forest x (st.forest x ++ [e]) }

/-- `process_edge` (plcfrs.pyx:602-665). -/
def processEdge (allowed : Item V → Bool) (st : State V R) (x : Item V) (prob score : R) (r : PRule R) (left : Item V) : State V R :=
  if (get? st.agenda x).isNone && (st.forest x).isEmpty then
    if allowed x then
      addEdge { st with items := if x ∈ st.items then st.items else st.items ++ [x], agenda := Dict.set st.agenda x (score, prob) } x (.rule r left)
    else st
  else if (get? st.agenda x).isSome then addEdge { st with agenda := setIfBetter st.agenda x (score, prob) } x (.rule r left)
  else if (st.probs x).all (fun c => decide (prob < c)) then addEdge { st with agenda := Dict.set st.agenda x (score, prob) } x (.rule r left)
  else addEdge st x (.rule r left)

/-- The unary rules for an item (plcfrs.pyx:421-465); `M` is `MAX_LOGPROB`. -/
def unaries (o : Ops V) (g : Grammar R) (M : R) (allowed : Item V → Bool) (x : Item V) (prob : R) (st : State V R) : State V R :=
  (g.unary.filter (fun r => decide (r.rhs1 = x.label))).foldl
    (fun st r => processEdge allowed st ⟨r.lhs, x.vec⟩ (prob + r.prob) (prob + r.prob + o.count x.vec • M) r x) st

/-- The binary rules with the item on the right (plcfrs.pyx:466-530). -/
def rights (o : Ops V) (g : Grammar R) (M : R) (allowed : Item V → Bool) (x : Item V) (prob : R) (st : State V R) : State V R :=
  (g.rbinary.filter (fun r => decide (r.rhs2 = x.label))).foldl (fun st r =>
    (st.items.filter (fun y => decide (y.label = r.rhs1))).foldl (fun st sib =>
      if o.concat r.args r.lengths sib.vec x.vec then
        match st.probs sib with
        | none => st
        | some p => processEdge allowed st ⟨r.lhs, o.combine sib.vec x.vec⟩ (prob + p + r.prob)
            (prob + p + r.prob + o.count (o.combine sib.vec x.vec) • M) r sib
      else st) st) st

/-- The binary rules with the item on the left (plcfrs.pyx:531-592). -/
def lefts (o : Ops V) (g : Grammar R) (M : R) (allowed : Item V → Bool) (x : Item V) (prob : R) (st : State V R) : State V R :=
  (g.lbinary.filter (fun r => decide (r.rhs1 = x.label))).foldl (fun st r =>
    (st.items.filter (fun y => decide (y.label = r.rhs2))).foldl (fun st sib =>
      if o.concat r.args r.lengths x.vec sib.vec then
        match st.probs sib with
        | none => st
        | some p => processEdge allowed st ⟨r.lhs, o.combine x.vec sib.vec⟩ (prob + p + r.prob)
            (prob + p + r.prob + o.count (o.combine x.vec sib.vec) • M) r x
      else st) st) st

/-- `chart.updateprob` (plcfrs.pyx:38-40). -/
def updateProb (st : State V R) (x : Item V) (prob : R) : State V R :=
  if (st.probs x).all (fun c => decide (prob < c)) then { st with probs := Function.update st.probs x (some prob) } else st

/-- The main loop (plcfrs.pyx:396-594), for a number of rounds; `none` if it takes more rounds. `pick` is the choice of the agenda, which may depend on the round. -/
def loop (o : Ops V) (g : Grammar R) (M : R) (allowed : Item V → Bool) (pick : Nat → Dict (Item V) (R × R) → Item V) (goal : Item V) (exhaustive : Bool) :
    Nat → State V R → Option (State V R)
  | fuel, st =>
    if st.agenda.isEmpty then some st
    else match fuel with
      | 0 => none
      | fuel + 1 => (get? st.agenda (pick fuel st.agenda)).bind (fun v =>
        let x := pick fuel st.agenda
        let st := updateProb { st with agenda := erase st.agenda x } x v.2
        if x = goal then (if exhaustive then loop o g M allowed pick goal exhaustive fuel st else some st)
        else loop o g M allowed pick goal exhaustive fuel
          (lefts o g M allowed x v.2 (rights o g M allowed x v.2 (unaries o g M allowed x v.2 st))))

/-- `process_lexedge` (plcfrs.pyx:832-879); the exception is `none`. -/
def processLex (allowed : Item V → Bool) (st : State V R) (x : Item V) (prob : R) (word : Nat) : Option (State V R × Bool) :=
  let st := { st with items := if x ∈ st.items then st.items else st.items ++ [x] }
  if (get? st.agenda x).isSome then some (st, false)
  else if !(st.forest x).isEmpty then none
  else if !allowed x then some (st, false)
  else some (addEdge { st with agenda := Dict.set st.agenda x (prob, prob) } x (.lex word), true)

/-- The lexical rules of one word (plcfrs.pyx:722-757). -/
def tagWord (o : Ops V) (allowed : Item V → Bool) (i : Nat) : List (Nat × R) → State V R × Bool → Option (State V R × Bool)
  | [], st => some st
  | (t, p) :: rest, (st, recognized) =>
    (processLex allowed st ⟨t, o.unit i⟩ p i).bind (fun (st, ok) => tagWord o allowed i rest (st, recognized || ok))

/-- The result of `parse`: a chart, or the message that a word has no tags, or an exception. -/
inductive Result (α : Type) where
  | ok (a : α)
  | notags (word : Nat)
  | error

/-- `populatepos` (plcfrs.pyx:668-829). -/
def populate (o : Ops V) (g : Grammar R) (allowed : Item V → Bool) : List Nat → State V R → Result (State V R)
  | [], st => .ok st
  | i :: rest, st => match tagWord o allowed i (g.lexicon i) (st, false) with
    | none => .error
    | some (st, true) => populate o g allowed rest st
    | some (_, false) => .notags i

/-- The empty chart. -/
def State.init : State V R := ⟨[], fun _ => none, fun _ => [], []⟩

/-- `parse` (plcfrs.pyx:306-353) and `parse_main` (plcfrs.pyx:396-404; `assert not agenda.empty()` is an exception) for a sentence of `n` words; `none` if the main loop takes more rounds than `fuel`. -/
def parse (o : Ops V) (g : Grammar R) (M : R) (allowed : Item V → Bool) (pick : Nat → Dict (Item V) (R × R) → Item V) (goal : Item V) (exhaustive : Bool)
    (n fuel : Nat) : Option (Result (State V R)) :=
  match populate o g allowed (List.range n) State.init with
  | .ok st => if st.agenda.isEmpty then some .error else (loop o g M allowed pick goal exhaustive fuel st).map .ok
  | .notags i => some (.notags i)
  | .error => some .error

/-! ### Specification -/

/-- The items that have a derivation with a certain cost, with every item of the derivation on the whitelist. -/
inductive Spec.Derives (o : Ops V) (g : Grammar R) (allowed : Item V → Bool) (n : Nat) : Item V → R → Prop
  | lex {i t p} : i < n → (t, p) ∈ g.lexicon i → allowed ⟨t, o.unit i⟩ = true → Derives o g allowed n ⟨t, o.unit i⟩ p
  | unary {r v c} : r ∈ g.unary → Derives o g allowed n ⟨r.rhs1, v⟩ c → allowed ⟨r.lhs, v⟩ = true → Derives o g allowed n ⟨r.lhs, v⟩ (c + r.prob)
  | binary {r v w c d} : r ∈ g.lbinary → Derives o g allowed n ⟨r.rhs1, v⟩ c → Derives o g allowed n ⟨r.rhs2, w⟩ d →
      o.concat r.args r.lengths v w = true → allowed ⟨r.lhs, o.combine v w⟩ = true → Derives o g allowed n ⟨r.lhs, o.combine v w⟩ (c + d + r.prob)

/-- The edges that a complete chart has for an item. -/
def Spec.IsEdge (o : Ops V) (g : Grammar R) (allowed : Item V → Bool) (n : Nat) (x : Item V) : Edge V R → Prop
  | .lex i => allowed x = true ∧ i < n ∧ x.vec = o.unit i ∧ ∃ p, (x.label, p) ∈ g.lexicon i
  | .rule r left => allowed x = true ∧ (∃ c, Spec.Derives o g allowed n left c) ∧ r.lhs = x.label ∧ left.label = r.rhs1 ∧
      (r ∈ g.unary ∧ x.vec = left.vec ∨
       r ∈ g.lbinary ∧ ∃ w, (∃ d, Spec.Derives o g allowed n ⟨r.rhs2, w⟩ d) ∧ o.concat r.args r.lengths left.vec w = true ∧ x.vec = o.combine left.vec w)

/-- What is used of the bit vectors: `univ` lists all bit vectors of the right size, `mem` is membership of a position. -/
structure Spec.Laws (o : Ops V) (n : Nat) (univ : List V) (mem : V → Nat → Bool) : Prop where
  unit_univ : ∀ i < n, o.unit i ∈ univ
  unit_count : ∀ i < n, o.count (o.unit i) = 1
  unit_mem : ∀ i < n, ∀ j, mem (o.unit i) j = decide (j = i)
  combine_univ : ∀ v ∈ univ, ∀ w ∈ univ, ∀ a l, o.concat a l v w = true → o.combine v w ∈ univ
  combine_count : ∀ v ∈ univ, ∀ w ∈ univ, ∀ a l, o.concat a l v w = true → o.count (o.combine v w) = o.count v + o.count w
  combine_mem : ∀ v ∈ univ, ∀ w ∈ univ, ∀ a l, o.concat a l v w = true → ∀ j, mem (o.combine v w) j = (mem v j || mem w j)
  cancel : ∀ v ∈ univ, ∀ w ∈ univ, ∀ w' ∈ univ, ∀ a l, o.concat a l v w = true → o.concat a l v w' = true → o.combine v w = o.combine v w' → w = w'
  irrefl : ∀ v ∈ univ, 0 < o.count v → ∀ a l, o.concat a l v v = false

/-- The grammar: costs are not negative; the two arrays of binary rules have the same rules, each once; a word does not have the same tag twice; no tag of
a word is the left-hand side of a unary rule; the goal is not on a right-hand side. -/
structure Spec.Usable (g : Grammar R) (n : Nat) (M : R) (goal : Nat) : Prop where
  max : 0 ≤ M
  unary : ∀ r ∈ g.unary, 0 ≤ r.prob ∧ r.rhs1 ≠ goal ∧ r ∉ g.lbinary
  binary : ∀ r ∈ g.lbinary, 0 ≤ r.prob ∧ r.rhs1 ≠ goal ∧ r.rhs2 ≠ goal
  lex : ∀ i < n, ∀ t p, (t, p) ∈ g.lexicon i → 0 ≤ p ∧ ∀ r ∈ g.unary, r.lhs ≠ t
  tags : ∀ i < n, ((g.lexicon i).map Prod.fst).Nodup
  perm : g.rbinary.Perm g.lbinary
  nodup : g.unary.Nodup ∧ g.lbinary.Nodup

/-- The agenda returns an entry with a least value; which one may be different in each round. -/
def Spec.PicksLeast (pick : Nat → Dict (Item V) (R × R) → Item V) : Prop :=
  ∀ (k : Nat) (a : Dict (Item V) (R × R)), a ≠ [] → WF a → ∃ v, get? a (pick k a) = some v ∧ ∀ y w, get? a y = some w → ltPair w v = false

/-! ### Derivations -/

section
variable {o : Ops V} {g : Grammar R} {allowed : Item V → Bool} {n : Nat} {univ : List V} {mem : V → Nat → Bool} {M : R} {start : Nat}

theorem derives_allowed {x : Item V} {c : R} (h : Spec.Derives o g allowed n x c) : allowed x = true := by
  cases h <;> assumption

theorem derives_univ (L : Spec.Laws o n univ mem) {x : Item V} {c : R} (h : Spec.Derives o g allowed n x c) : x.vec ∈ univ ∧ 0 < o.count x.vec := by
  induction h with
  | lex hi ht ha => exact ⟨L.unit_univ _ hi, by simp [L.unit_count _ hi]⟩
  | unary hr _ ha ih => exact ih
  | binary hr _ _ hc ha ih1 ih2 => exact ⟨L.combine_univ _ ih1.1 _ ih2.1 _ _ hc, by simp only; rw [L.combine_count _ ih1.1 _ ih2.1 _ _ hc]; have := ih1.2; omega⟩

theorem derives_nonneg (U : Spec.Usable g n M start) {x : Item V} {c : R} (h : Spec.Derives o g allowed n x c) : 0 ≤ c := by
  induction h with
  | lex hi ht ha => exact (U.lex _ hi _ _ ht).1
  | unary hr _ ha ih => exact add_nonneg ih (U.unary _ hr).1
  | binary hr _ _ hc ha ih1 ih2 => exact add_nonneg (add_nonneg ih1 ih2) (U.binary _ hr).1

/-- A word of the sentence with a tag. -/
def IsTag (o : Ops V) (g : Grammar R) (n : Nat) (x : Item V) : Prop := ∃ i < n, ∃ p, (x.label, p) ∈ g.lexicon i ∧ x.vec = o.unit i

open Classical in
/-- What the score of an item adds to its cost. -/
noncomputable def bonus (o : Ops V) (g : Grammar R) (n : Nat) (M : R) (x : Item V) : R := if IsTag o g n x then 0 else o.count x.vec • M

theorem bonus_le (hM : 0 ≤ M) (x : Item V) : bonus o g n M x ≤ o.count x.vec • M := by
  rw [bonus]; split
  · exact nsmul_nonneg hM _
  · exact le_refl _

theorem bonus_nonneg (hM : 0 ≤ M) (x : Item V) : 0 ≤ bonus o g n M x := by
  rw [bonus]; split
  · exact le_refl _
  · exact nsmul_nonneg hM _

theorem bonus_tag {i t : Nat} {p : R} (hi : i < n) (h : (t, p) ∈ g.lexicon i) : bonus o g n M ⟨t, o.unit i⟩ = 0 := by
  rw [bonus, if_pos ⟨i, hi, p, h, rfl⟩]

theorem bonus_unary (U : Spec.Usable g n M start) {r : PRule R} (hr : r ∈ g.unary) (v : V) : bonus o g n M ⟨r.lhs, v⟩ = o.count v • M := by
  rw [bonus, if_neg]
  rintro ⟨i, hi, p, hp, _⟩
  exact (U.lex i hi _ _ hp).2 r hr rfl

theorem bonus_binary (L : Spec.Laws o n univ mem) {v w : V} (hv : v ∈ univ ∧ 0 < o.count v) (hw : w ∈ univ ∧ 0 < o.count w) {a l : Word} (h : o.concat a l v w = true) (t : Nat) :
    bonus o g n M ⟨t, o.combine v w⟩ = o.count (o.combine v w) • M := by
  rw [bonus, if_neg]
  rintro ⟨i, hi, p, hp, e⟩
  have h1 := L.combine_count v hv.1 w hw.1 a l h
  simp only at e
  rw [e, L.unit_count i hi] at h1
  have := hv.2; have := hw.2; omega

/-! ### Adding edges -/

/-- An edge that is about to be added. -/
structure Prop' (V R : Type) where
  item : Item V
  prob : R
  score : R
  rule : PRule R
  left : Item V

/-- Adding an edge. -/
def add (allowed : Item V → Bool) (st : State V R) (e : Prop' V R) : State V R := processEdge allowed st e.item e.prob e.score e.rule e.left

/-- The facts about the chart that hold all the time. `T` is the score of the last item from the agenda. -/
structure Good (o : Ops V) (g : Grammar R) (allowed : Item V → Bool) (n : Nat) (M : R) (T : R) (st : State V R) : Prop where
  wf : WF st.agenda
  agenda : ∀ x s c, get? st.agenda x = some (s, c) → Spec.Derives o g allowed n x c ∧ s = c + bonus o g n M x ∧ T ≤ s ∧ st.probs x = none
  probs : ∀ x c, st.probs x = some c → Spec.Derives o g allowed n x c ∧ c + bonus o g n M x ≤ T
  forest : ∀ x, st.forest x = [] ↔ get? st.agenda x = none ∧ st.probs x = none
  items : ∀ x, st.forest x ≠ [] → x ∈ st.items
  nodup : st.items.Nodup

/-- The item has been found, with a cost of at most `c`. -/
def Known (st : State V R) (x : Item V) (c : R) : Prop := (∃ d, st.probs x = some d ∧ d ≤ c) ∨ ∃ s d, get? st.agenda x = some (s, d) ∧ d ≤ c

/-- What one edge changes. -/
structure Added (allowed : Item V → Bool) (st st' : State V R) (es : List (Prop' V R)) : Prop where
  probs : st'.probs = st.probs
  known : ∀ x c, Known st x c → Known st' x c
  fresh : ∀ e ∈ es, allowed e.item = true → Known st' e.item e.prob
  forest : ∀ x, st'.forest x = st.forest x ++ (es.filter (fun e => decide (e.item = x) && allowed x)).map (fun e => .rule e.rule e.left)
  items : ∃ new, st'.items = st.items ++ new ∧ ∀ x ∈ new, st.probs x = none

theorem get?_set_self {K W : Type} [DecidableEq K] (d : Dict K W) (k : K) (v : W) : get? (Dict.set d k v) k = some v := by rw [get?_set, if_pos rfl]

theorem not_allowed {T : R} {st : State V R} (G : Good o g allowed n M T st) {x : Item V} (h : allowed x = false) : get? st.agenda x = none ∧ st.probs x = none ∧ st.forest x = [] := by
  have h1 : get? st.agenda x = none := by
    cases hg : get? st.agenda x with
    | none => rfl
    | some v =>
      have := derives_allowed (G.agenda x v.1 v.2 hg).1
      rw [h] at this; cases this
  have h2 : st.probs x = none := by
    cases hg : st.probs x with
    | none => rfl
    | some c =>
      have := derives_allowed (G.probs x c hg).1
      rw [h] at this; cases this
  exact ⟨h1, h2, (G.forest x).2 ⟨h1, h2⟩⟩

theorem good_entry {T : R} {st : State V R} (G : Good o g allowed n M T st) {x : Item V} {prob score : R} {r : PRule R} {left : Item V} (ha : allowed x = true)
    {a' : Dict (Item V) (R × R)} {its : List (Item V)} {s' c' : R} (hwf : WF a') (hget : ∀ y, get? a' y = if x = y then some (s', c') else get? st.agenda y)
    (hnone : st.probs x = none) (hD : Spec.Derives o g allowed n x c') (hs : s' = c' + bonus o g n M x) (hT : T ≤ s') (hle : c' ≤ prob)
    (hold : ∀ s c, get? st.agenda x = some (s, c) → c' ≤ c) (hits : its = if x ∈ st.items then st.items else st.items ++ [x]) :
    Good o g allowed n M T (addEdge { st with items := its, agenda := a' } x (.rule r left)) ∧
    Added allowed st (addEdge { st with items := its, agenda := a' } x (.rule r left)) [⟨x, prob, score, r, left⟩] := by
  have hforest : ∀ y, (addEdge { st with items := its, agenda := a' } x (.rule r left)).forest y =
      st.forest y ++ (([⟨x, prob, score, r, left⟩] : List (Prop' V R)).filter (fun e => decide (e.item = y) && allowed y)).map (fun e => .rule e.rule e.left) := by
    intro y
    simp only [addEdge]
    by_cases hy : x = y
    · subst hy; simp [ha]
    · rw [Function.update_of_ne (Ne.symm hy)]; simp [hy]
  have hne : ∀ y, (addEdge { st with items := its, agenda := a' } x (.rule r left)).forest y = [] ↔ y ≠ x ∧ st.forest y = [] := by
    intro y
    rw [hforest]
    by_cases hy : x = y
    · subst hy; simp [ha]
    · simp [hy, Ne.symm hy]
  have hsub : ∀ y, y = x ∨ y ∈ st.items → y ∈ its := by
    intro y hy
    rw [hits]
    split
    · rename_i h
      rcases hy with rfl | hy
      · exact h
      · exact hy
    · rcases hy with rfl | hy <;> simp_all
  refine ⟨⟨hwf, ?_, G.probs, ?_, ?_, ?_⟩, rfl, ?_, ?_, hforest, ?_⟩
  · intro y s c hy
    simp only [addEdge] at hy ⊢
    rw [hget] at hy
    split at hy
    · rename_i e
      subst e
      simp only [Option.some.injEq, Prod.mk.injEq] at hy
      obtain ⟨rfl, rfl⟩ := hy
      exact ⟨hD, hs, hT, hnone⟩
    · exact G.agenda y s c hy
  · intro y
    rw [hne, G.forest]
    simp only [addEdge, hget]
    by_cases hy : x = y
    · subst hy; simp
    · simp [hy, Ne.symm hy]
  · intro y hy
    refine hsub y ?_
    by_cases hyx : y = x
    · exact Or.inl hyx
    · exact Or.inr (G.items y (fun e => hy ((hne y).2 ⟨hyx, e⟩)))
  · simp only [addEdge]
    rw [hits]
    split
    · exact G.nodup
    · rename_i h
      rw [List.nodup_append]
      refine ⟨G.nodup, by simp, ?_⟩
      intro a hmem b hb e
      simp only [List.mem_singleton] at hb
      rw [hb] at e
      rw [e] at hmem
      exact h hmem
  · intro y c hk
    rcases hk with ⟨d, h1, h2⟩ | ⟨s, d, h1, h2⟩
    · exact Or.inl ⟨d, h1, h2⟩
    · right
      simp only [addEdge, hget]
      by_cases hy : x = y
      · subst hy
        exact ⟨s', c', by simp, le_trans (hold s d h1) h2⟩
      · exact ⟨s, d, by simp [hy, h1], h2⟩
  · intro e he _
    simp only [List.mem_singleton] at he
    subst he
    exact Or.inr ⟨s', c', by simp [addEdge, hget], hle⟩
  · refine ⟨if x ∈ st.items then [] else [x], ?_, ?_⟩
    · simp only [addEdge, hits]; split <;> simp
    · intro y hy
      split at hy
      · simp at hy
      · simp only [List.mem_singleton] at hy
        subst hy; exact hnone

theorem good_add {T : R} {st : State V R} (G : Good o g allowed n M T st) (e : Prop' V R) (hd : allowed e.item = true → Spec.Derives o g allowed n e.item e.prob)
    (hs : e.score = e.prob + bonus o g n M e.item) (hT : T ≤ e.score) : Good o g allowed n M T (add allowed st e) ∧ Added allowed st (add allowed st e) [e] := by
  obtain ⟨x, prob, score, r, left⟩ := e
  simp only at hd hs hT
  simp only [add]
  cases ha : allowed x with
  | false =>
    obtain ⟨h1, h2, h3⟩ := not_allowed G ha
    have e : processEdge allowed st x prob score r left = st := by
      rw [processEdge, h1, h3, ha]; simp
    rw [e]
    refine ⟨G, rfl, fun _ _ h => h, ?_, ?_, ⟨[], by simp⟩⟩
    · intro e he; simp only [List.mem_singleton] at he; subst he; simp [ha]
    · intro y
      by_cases hy : x = y
      · subst hy; simp [ha]
      · simp [hy]
  | true =>
    have hd := hd ha
    cases hg : get? st.agenda x with
    | some w =>
      obtain ⟨s, c⟩ := w
      obtain ⟨hD, hsc, hTs, hp⟩ := G.agenda x s c hg
      have hx : x ∈ st.items := G.items x (fun e => by rw [G.forest, hg] at e; simp at e)
      have e : processEdge allowed st x prob score r left = addEdge { st with items := st.items, agenda := setIfBetter st.agenda x (score, prob) } x (.rule r left) := by
        rw [processEdge, hg]; simp
      rw [e]
      by_cases hb : ltPair (score, prob) (s, c) = true
      · refine good_entry G ha (s' := score) (c' := prob) ?_ ?_ hp hd hs hT (le_refl _) ?_ (by rw [if_pos hx])
        · rw [setIfBetter, hg]; simp only [hb, if_true]; exact G.wf.set _ _
        · intro y; rw [setIfBetter, hg]; simp only [hb, if_true]; exact get?_set _ _ _ _
        · intro s1 c1 h1
          rw [hg] at h1
          simp only [Option.some.injEq, Prod.mk.injEq] at h1
          obtain ⟨rfl, rfl⟩ := h1
          simp only [ltPair, Bool.or_eq_true, Bool.and_eq_true, decide_eq_true_eq] at hb
          rcases hb with hb | ⟨_, hb⟩
          · rw [hs, hsc] at hb
            exact le_of_lt (lt_of_add_lt_add_right hb)
          · exact le_of_lt hb
      · refine good_entry G ha (s' := s) (c' := c) ?_ ?_ hp hD hsc hTs ?_ ?_ (by rw [if_pos hx])
        · rw [setIfBetter, hg]; simp only [hb]; exact G.wf
        · intro y; rw [setIfBetter, hg]; simp only [hb]
          by_cases hy : x = y
          · subst hy; simp [hg]
          · simp [hy]
        · simp only [ltPair, Bool.or_eq_true, Bool.and_eq_true, decide_eq_true_eq, not_or] at hb
          have := not_lt.1 hb.1
          rw [hs, hsc] at this
          exact le_of_add_le_add_right this
        · intro s1 c1 h1
          rw [hg] at h1
          simp only [Option.some.injEq, Prod.mk.injEq] at h1
          exact h1.2.le
    | none =>
      cases hp : st.probs x with
      | none =>
        have hf := (G.forest x).2 ⟨hg, hp⟩
        have e : processEdge allowed st x prob score r left = 
            addEdge { st with items := (if x ∈ st.items then st.items else st.items ++ [x]), agenda := Dict.set st.agenda x (score, prob) } x (.rule r left) := by
          rw [processEdge, hg, hf, ha]; simp
        rw [e]
        exact good_entry G ha (s' := score) (c' := prob) (G.wf.set _ _) (fun y => get?_set _ _ _ _) hp hd hs hT (le_refl _) (by intro s c h; rw [hg] at h; cases h) rfl
      | some c =>
        obtain ⟨hD, hc⟩ := G.probs x c hp
        have hcp : c ≤ prob := by
          have := le_trans hc hT
          rw [hs] at this
          exact le_of_add_le_add_right this
        have hf : st.forest x ≠ [] := fun e => by rw [G.forest, hp] at e; simp at e
        have hf' : (st.forest x).isEmpty = false := by cases h : st.forest x <;> simp_all
        have e : processEdge allowed st x prob score r left = addEdge st x (.rule r left) := by
          rw [processEdge, hg, hf', hp]
          simp [not_lt.2 hcp]
        rw [e]
        have hforest : ∀ y, (addEdge st x (.rule r left)).forest y =
            st.forest y ++ (([⟨x, prob, score, r, left⟩] : List (Prop' V R)).filter (fun e => decide (e.item = y) && allowed y)).map (fun e => .rule e.rule e.left) := by
          intro y
          simp only [addEdge]
          by_cases hy : x = y
          · subst hy; simp [ha]
          · rw [Function.update_of_ne (Ne.symm hy)]; simp [hy]
        have hne : ∀ y, (addEdge st x (.rule r left)).forest y = [] ↔ st.forest y = [] := by
          intro y
          rw [hforest]
          by_cases hy : x = y
          · subst hy; simp [ha, hf]
          · simp [hy]
        refine ⟨⟨G.wf, G.agenda, G.probs, ?_, ?_, G.nodup⟩, rfl, fun _ _ h => h, ?_, hforest, ⟨[], by simp [addEdge]⟩⟩
        · intro y; rw [hne]; exact G.forest y
        · intro y hy; exact G.items y (fun e => hy ((hne y).2 e))
        · intro e he _
          simp only [List.mem_singleton] at he
          subst he
          exact Or.inl ⟨c, hp, hcp⟩

theorem Added.trans {st st1 st2 : State V R} {es es' : List (Prop' V R)} (h1 : Added allowed st st1 es) (h2 : Added allowed st1 st2 es') : Added allowed st st2 (es ++ es') where
  probs := by rw [h2.probs, h1.probs]
  known := fun x c h => h2.known x c (h1.known x c h)
  fresh := by
    intro e he ha
    rcases List.mem_append.1 he with he | he
    · exact h2.known _ _ (h1.fresh e he ha)
    · exact h2.fresh e he ha
  forest := by intro x; rw [h2.forest, h1.forest, List.filter_append, List.map_append, List.append_assoc]
  items := by
    obtain ⟨n1, e1, k1⟩ := h1.items
    obtain ⟨n2, e2, k2⟩ := h2.items
    refine ⟨n1 ++ n2, by rw [e2, e1, List.append_assoc], ?_⟩
    intro x hx
    rcases List.mem_append.1 hx with hx | hx
    · exact k1 x hx
    · rw [← h1.probs]; exact k2 x hx

theorem Added.nil (st : State V R) : Added allowed st st [] := ⟨rfl, fun _ _ h => h, by simp, by simp, ⟨[], by simp⟩⟩

/-- The edges of a new item are correct. -/
def Sound (o : Ops V) (g : Grammar R) (allowed : Item V → Bool) (n : Nat) (M T : R) (e : Prop' V R) : Prop :=
  (allowed e.item = true → Spec.Derives o g allowed n e.item e.prob) ∧ e.score = e.prob + bonus o g n M e.item ∧ T ≤ e.score

theorem good_addAll {T : R} (es : List (Prop' V R)) : ∀ {st : State V R}, Good o g allowed n M T st → (∀ e ∈ es, Sound o g allowed n M T e) →
    Good o g allowed n M T (es.foldl (add allowed) st) ∧ Added allowed st (es.foldl (add allowed) st) es := by
  induction es with
  | nil => intro st G _; exact ⟨G, Added.nil st⟩
  | cons e es ih =>
    intro st G h
    obtain ⟨h1, h2, h3⟩ := h e (by simp)
    obtain ⟨G1, A1⟩ := good_add G e h1 h2 h3
    obtain ⟨G2, A2⟩ := ih G1 (fun e he => h e (by simp [he]))
    exact ⟨G2, A1.trans A2⟩

/-! ### The edges from one item -/

/-- The edges made by `unaries`. -/
def unaryProps (o : Ops V) (g : Grammar R) (M : R) (x : Item V) (prob : R) : List (Prop' V R) :=
  (g.unary.filter (fun r => decide (r.rhs1 = x.label))).map (fun r => ⟨⟨r.lhs, x.vec⟩, prob + r.prob, prob + r.prob + o.count x.vec • M, r, x⟩)

/-- The edge made by `rights` for a rule and a sibling. -/
def rightProp (o : Ops V) (M : R) (probs : Item V → Option R) (x : Item V) (prob : R) (r : PRule R) (sib : Item V) : Option (Prop' V R) :=
  if o.concat r.args r.lengths sib.vec x.vec then
    (probs sib).map (fun p => ⟨⟨r.lhs, o.combine sib.vec x.vec⟩, prob + p + r.prob, prob + p + r.prob + o.count (o.combine sib.vec x.vec) • M, r, sib⟩)
  else none

/-- The edges made by `rights`. -/
def rightProps (o : Ops V) (M : R) (items : List (Item V)) (probs : Item V → Option R) (x : Item V) (prob : R) (rules : List (PRule R)) : List (Prop' V R) :=
  rules.flatMap (fun r => (items.filter (fun y => decide (y.label = r.rhs1))).filterMap (rightProp o M probs x prob r))

/-- The edge made by `lefts` for a rule and a sibling. -/
def leftProp (o : Ops V) (M : R) (probs : Item V → Option R) (x : Item V) (prob : R) (r : PRule R) (sib : Item V) : Option (Prop' V R) :=
  if o.concat r.args r.lengths x.vec sib.vec then
    (probs sib).map (fun p => ⟨⟨r.lhs, o.combine x.vec sib.vec⟩, prob + p + r.prob, prob + p + r.prob + o.count (o.combine x.vec sib.vec) • M, r, x⟩)
  else none

/-- The edges made by `lefts`. -/
def leftProps (o : Ops V) (M : R) (items : List (Item V)) (probs : Item V → Option R) (x : Item V) (prob : R) (rules : List (PRule R)) : List (Prop' V R) :=
  rules.flatMap (fun r => (items.filter (fun y => decide (y.label = r.rhs2))).filterMap (leftProp o M probs x prob r))

theorem processEdge_probs (st : State V R) (x : Item V) (prob score : R) (r : PRule R) (left : Item V) : (processEdge allowed st x prob score r left).probs = st.probs := by
  unfold processEdge addEdge; split <;> [split; split] <;> [rfl; rfl; rfl; split] <;> rfl

theorem unaries_eq (x : Item V) (prob : R) (st : State V R) : unaries o g M allowed x prob st = (unaryProps o g M x prob).foldl (add allowed) st := by
  rw [unaries, unaryProps, List.foldl_map]; rfl

theorem rights_inner (x : Item V) (prob : R) (r : PRule R) (sibs : List (Item V)) (st : State V R) :
    sibs.foldl (fun st sib =>
      if o.concat r.args r.lengths sib.vec x.vec then
        match st.probs sib with
        | none => st
        | some p => processEdge allowed st ⟨r.lhs, o.combine sib.vec x.vec⟩ (prob + p + r.prob)
            (prob + p + r.prob + o.count (o.combine sib.vec x.vec) • M) r sib
      else st) st = (sibs.filterMap (rightProp o M st.probs x prob r)).foldl (add allowed) st := by
  induction sibs generalizing st with
  | nil => rfl
  | cons s sibs ih =>
    rw [List.foldl_cons, ih]
    by_cases hc : o.concat r.args r.lengths s.vec x.vec = true
    · cases hp : st.probs s with
      | none =>
        have e : rightProp o M st.probs x prob r s = none := by rw [rightProp, if_pos hc, hp]; rfl
        rw [List.filterMap_cons_none e]
        simp only [hc, if_true]
      | some p =>
        have e : rightProp o M st.probs x prob r s = some ⟨⟨r.lhs, o.combine s.vec x.vec⟩, prob + p + r.prob, prob + p + r.prob + o.count (o.combine s.vec x.vec) • M, r, s⟩ := by
          rw [rightProp, if_pos hc, hp]; rfl
        rw [List.filterMap_cons_some e]
        simp only [hc, if_true, processEdge_probs, List.foldl_cons, add]
    · have e : rightProp o M st.probs x prob r s = none := by rw [rightProp, if_neg hc]
      rw [List.filterMap_cons_none e]
      simp only [hc, if_false, Bool.false_eq_true]

theorem lefts_inner (x : Item V) (prob : R) (r : PRule R) (sibs : List (Item V)) (st : State V R) :
    sibs.foldl (fun st sib =>
      if o.concat r.args r.lengths x.vec sib.vec then
        match st.probs sib with
        | none => st
        | some p => processEdge allowed st ⟨r.lhs, o.combine x.vec sib.vec⟩ (prob + p + r.prob)
            (prob + p + r.prob + o.count (o.combine x.vec sib.vec) • M) r x
      else st) st = (sibs.filterMap (leftProp o M st.probs x prob r)).foldl (add allowed) st := by
  induction sibs generalizing st with
  | nil => rfl
  | cons s sibs ih =>
    rw [List.foldl_cons, ih]
    by_cases hc : o.concat r.args r.lengths x.vec s.vec = true
    · cases hp : st.probs s with
      | none =>
        have e : leftProp o M st.probs x prob r s = none := by rw [leftProp, if_pos hc, hp]; rfl
        rw [List.filterMap_cons_none e]
        simp only [hc, if_true]
      | some p =>
        have e : leftProp o M st.probs x prob r s = some ⟨⟨r.lhs, o.combine x.vec s.vec⟩, prob + p + r.prob, prob + p + r.prob + o.count (o.combine x.vec s.vec) • M, r, x⟩ := by
          rw [leftProp, if_pos hc, hp]; rfl
        rw [List.filterMap_cons_some e]
        simp only [hc, if_true, processEdge_probs, List.foldl_cons, add]
    · have e : leftProp o M st.probs x prob r s = none := by rw [leftProp, if_neg hc]
      rw [List.filterMap_cons_none e]
      simp only [hc, if_false, Bool.false_eq_true]

theorem rightProp_none {probs : Item V → Option R} {x sib : Item V} {prob : R} {r : PRule R} (h : probs sib = none) : rightProp o M probs x prob r sib = none := by
  rw [rightProp, h]; split <;> rfl

theorem leftProp_none {probs : Item V → Option R} {x sib : Item V} {prob : R} {r : PRule R} (h : probs sib = none) : leftProp o M probs x prob r sib = none := by
  rw [leftProp, h]; split <;> rfl

theorem rightProp_some {probs : Item V → Option R} {x sib : Item V} {prob : R} {r : PRule R} {q : Prop' V R} (h : rightProp o M probs x prob r sib = some q) :
    o.concat r.args r.lengths sib.vec x.vec = true ∧ ∃ p, probs sib = some p ∧
      q = ⟨⟨r.lhs, o.combine sib.vec x.vec⟩, prob + p + r.prob, prob + p + r.prob + o.count (o.combine sib.vec x.vec) • M, r, sib⟩ := by
  rw [rightProp] at h
  split at h
  · rename_i hc
    obtain ⟨p, hp, e⟩ := Option.map_eq_some_iff.1 h
    exact ⟨hc, p, hp, e.symm⟩
  · cases h

theorem leftProp_some {probs : Item V → Option R} {x sib : Item V} {prob : R} {r : PRule R} {q : Prop' V R} (h : leftProp o M probs x prob r sib = some q) :
    o.concat r.args r.lengths x.vec sib.vec = true ∧ ∃ p, probs sib = some p ∧
      q = ⟨⟨r.lhs, o.combine x.vec sib.vec⟩, prob + p + r.prob, prob + p + r.prob + o.count (o.combine x.vec sib.vec) • M, r, x⟩ := by
  rw [leftProp] at h
  split at h
  · rename_i hc
    obtain ⟨p, hp, e⟩ := Option.map_eq_some_iff.1 h
    exact ⟨hc, p, hp, e.symm⟩
  · cases h

theorem filterMap_new {α β : Type} (f : α → Option β) (q : α → Bool) (l new : List α) (h : ∀ x ∈ new, f x = none) :
    ((l ++ new).filter q).filterMap f = (l.filter q).filterMap f := by
  rw [List.filter_append, List.filterMap_append]
  have : (new.filter q).filterMap f = [] := by
    rw [List.filterMap_eq_nil_iff]
    intro a ha
    exact h a (List.mem_filter.1 ha).1
  rw [this, List.append_nil]

theorem rights_eq {T : R} (x : Item V) (prob : R) (items : List (Item V)) (probs : Item V → Option R) : ∀ (rules : List (PRule R)) (st : State V R) (new : List (Item V)),
    Good o g allowed n M T st → st.items = items ++ new → (∀ y ∈ new, probs y = none) → st.probs = probs →
    (∀ e ∈ rightProps o M items probs x prob rules, Sound o g allowed n M T e) →
    rules.foldl (fun st r =>
      (st.items.filter (fun y => decide (y.label = r.rhs1))).foldl (fun st sib =>
        if o.concat r.args r.lengths sib.vec x.vec then
          match st.probs sib with
          | none => st
          | some p => processEdge allowed st ⟨r.lhs, o.combine sib.vec x.vec⟩ (prob + p + r.prob)
              (prob + p + r.prob + o.count (o.combine sib.vec x.vec) • M) r sib
        else st) st) st = (rightProps o M items probs x prob rules).foldl (add allowed) st := by
  intro rules
  induction rules with
  | nil => intros; rfl
  | cons r rules ih =>
    intro st new G hi hn hp hs
    rw [List.foldl_cons, rights_inner, rightProps, List.flatMap_cons, List.foldl_append]
    have e : ((st.items.filter (fun y => decide (y.label = r.rhs1))).filterMap (rightProp o M st.probs x prob r)) =
        ((items.filter (fun y => decide (y.label = r.rhs1))).filterMap (rightProp o M probs x prob r)) := by
      rw [hi, hp]
      exact filterMap_new _ _ _ _ (fun y hy => rightProp_none (hn y hy))
    rw [e]
    rw [rightProps, List.flatMap_cons] at hs
    obtain ⟨G1, A1⟩ := good_addAll _ G (fun e he => hs e (List.mem_append_left _ he))
    obtain ⟨new1, hi1, hn1⟩ := A1.items
    refine ih _ (new ++ new1) G1 (by rw [hi1, hi, List.append_assoc]) ?_ (by rw [A1.probs, hp]) (fun e he => hs e (List.mem_append_right _ he))
    intro y hy
    rcases List.mem_append.1 hy with hy | hy
    · exact hn y hy
    · rw [← hp]; exact hn1 y hy

theorem lefts_eq {T : R} (x : Item V) (prob : R) (items : List (Item V)) (probs : Item V → Option R) : ∀ (rules : List (PRule R)) (st : State V R) (new : List (Item V)),
    Good o g allowed n M T st → st.items = items ++ new → (∀ y ∈ new, probs y = none) → st.probs = probs →
    (∀ e ∈ leftProps o M items probs x prob rules, Sound o g allowed n M T e) →
    rules.foldl (fun st r =>
      (st.items.filter (fun y => decide (y.label = r.rhs2))).foldl (fun st sib =>
        if o.concat r.args r.lengths x.vec sib.vec then
          match st.probs sib with
          | none => st
          | some p => processEdge allowed st ⟨r.lhs, o.combine x.vec sib.vec⟩ (prob + p + r.prob)
              (prob + p + r.prob + o.count (o.combine x.vec sib.vec) • M) r x
        else st) st) st = (leftProps o M items probs x prob rules).foldl (add allowed) st := by
  intro rules
  induction rules with
  | nil => intros; rfl
  | cons r rules ih =>
    intro st new G hi hn hp hs
    rw [List.foldl_cons, lefts_inner, leftProps, List.flatMap_cons, List.foldl_append]
    have e : ((st.items.filter (fun y => decide (y.label = r.rhs2))).filterMap (leftProp o M st.probs x prob r)) =
        ((items.filter (fun y => decide (y.label = r.rhs2))).filterMap (leftProp o M probs x prob r)) := by
      rw [hi, hp]
      exact filterMap_new _ _ _ _ (fun y hy => leftProp_none (hn y hy))
    rw [e]
    rw [leftProps, List.flatMap_cons] at hs
    obtain ⟨G1, A1⟩ := good_addAll _ G (fun e he => hs e (List.mem_append_left _ he))
    obtain ⟨new1, hi1, hn1⟩ := A1.items
    refine ih _ (new ++ new1) G1 (by rw [hi1, hi, List.append_assoc]) ?_ (by rw [A1.probs, hp]) (fun e he => hs e (List.mem_append_right _ he))
    intro y hy
    rcases List.mem_append.1 hy with hy | hy
    · exact hn y hy
    · rw [← hp]; exact hn1 y hy

/-- All edges from one item. -/
def props (o : Ops V) (g : Grammar R) (M : R) (st : State V R) (x : Item V) (prob : R) : List (Prop' V R) :=
  unaryProps o g M x prob ++ (rightProps o M st.items st.probs x prob (g.rbinary.filter (fun r => decide (r.rhs2 = x.label))) ++
    leftProps o M st.items st.probs x prob (g.lbinary.filter (fun r => decide (r.rhs1 = x.label))))

theorem mem_unaryProps {x : Item V} {prob : R} {e : Prop' V R} : e ∈ unaryProps o g M x prob ↔
    ∃ r ∈ g.unary, r.rhs1 = x.label ∧ e = ⟨⟨r.lhs, x.vec⟩, prob + r.prob, prob + r.prob + o.count x.vec • M, r, x⟩ := by
  simp only [unaryProps, List.mem_map, List.mem_filter, decide_eq_true_eq, and_assoc, eq_comm (a := e)]

theorem mem_rightProps {items : List (Item V)} {probs : Item V → Option R} {x : Item V} {prob : R} {rules : List (PRule R)} {e : Prop' V R} :
    e ∈ rightProps o M items probs x prob rules ↔ ∃ r ∈ rules, ∃ sib ∈ items, sib.label = r.rhs1 ∧ o.concat r.args r.lengths sib.vec x.vec = true ∧ ∃ p, probs sib = some p ∧
      e = ⟨⟨r.lhs, o.combine sib.vec x.vec⟩, prob + p + r.prob, prob + p + r.prob + o.count (o.combine sib.vec x.vec) • M, r, sib⟩ := by
  simp only [rightProps, List.mem_flatMap, List.mem_filterMap, List.mem_filter, decide_eq_true_eq, and_assoc, rightProp]
  refine exists_congr (fun r => and_congr_right (fun _ => exists_congr (fun s => and_congr_right (fun _ => and_congr_right (fun _ => ?_)))))
  by_cases h : o.concat r.args r.lengths s.vec x.vec = true
  · simp only [h, if_true, Option.map_eq_some_iff, true_and, eq_comm (a := e)]
  · simp [h]

theorem mem_leftProps {items : List (Item V)} {probs : Item V → Option R} {x : Item V} {prob : R} {rules : List (PRule R)} {e : Prop' V R} :
    e ∈ leftProps o M items probs x prob rules ↔ ∃ r ∈ rules, ∃ sib ∈ items, sib.label = r.rhs2 ∧ o.concat r.args r.lengths x.vec sib.vec = true ∧ ∃ p, probs sib = some p ∧
      e = ⟨⟨r.lhs, o.combine x.vec sib.vec⟩, prob + p + r.prob, prob + p + r.prob + o.count (o.combine x.vec sib.vec) • M, r, x⟩ := by
  simp only [leftProps, List.mem_flatMap, List.mem_filterMap, List.mem_filter, decide_eq_true_eq, and_assoc, leftProp]
  refine exists_congr (fun r => and_congr_right (fun _ => exists_congr (fun s => and_congr_right (fun _ => and_congr_right (fun _ => ?_)))))
  by_cases h : o.concat r.args r.lengths x.vec s.vec = true
  · simp only [h, if_true, Option.map_eq_some_iff, true_and, eq_comm (a := e)]
  · simp [h]

theorem item_eta (x : Item V) (t : Nat) (h : x.label = t) : x = ⟨t, x.vec⟩ := by cases x; simp_all

theorem props_sound (L : Spec.Laws o n univ mem) (U : Spec.Usable g n M start) {T : R} {st : State V R} (G : Good o g allowed n M T st) {x : Item V} {prob : R}
    (hx : Spec.Derives o g allowed n x prob) (hT : T = prob + bonus o g n M x) : ∀ e ∈ props o g M st x prob, Sound o g allowed n M T e := by
  intro e he
  have hux := derives_univ L hx
  have hbx := bonus_le (o := o) (g := g) (n := n) U.max x
  rcases List.mem_append.1 he with he | he
  · obtain ⟨r, hr, hl, rfl⟩ := mem_unaryProps.1 he
    have hx' := hx
    rw [item_eta x _ hl.symm] at hx'
    refine ⟨fun ha => .unary hr hx' ha, by rw [bonus_unary U hr], ?_⟩
    rw [hT]
    exact add_le_add (le_add_of_nonneg_right (U.unary r hr).1) hbx
  · rcases List.mem_append.1 he with he | he
    · obtain ⟨r, hr, sib, hs, hl, hc, p, hp, rfl⟩ := mem_rightProps.1 he
      rw [List.mem_filter, decide_eq_true_eq] at hr
      obtain ⟨hr, hl2⟩ := hr
      have hr := U.perm.mem_iff.1 hr
      have hsd := (G.probs sib p hp).1
      have hus := derives_univ L hsd
      have hx' := hx
      rw [item_eta x _ hl2.symm] at hx'
      have hsd' := hsd
      rw [item_eta sib _ hl] at hsd'
      refine ⟨fun ha => ?_, by rw [bonus_binary L hus hux hc], ?_⟩
      · have := Spec.Derives.binary hr hsd' hx' hc ha
        rwa [add_comm p prob] at this
      · rw [hT, L.combine_count _ hus.1 _ hux.1 _ _ hc, add_nsmul, add_comm (o.count sib.vec • M), ← add_assoc]
        refine le_add_of_le_of_nonneg (add_le_add ?_ hbx) (nsmul_nonneg U.max _)
        rw [add_assoc]
        exact le_add_of_nonneg_right (add_nonneg (derives_nonneg U hsd) (U.binary r hr).1)
    · obtain ⟨r, hr, sib, hs, hl, hc, p, hp, rfl⟩ := mem_leftProps.1 he
      rw [List.mem_filter, decide_eq_true_eq] at hr
      obtain ⟨hr, hl2⟩ := hr
      have hsd := (G.probs sib p hp).1
      have hus := derives_univ L hsd
      have hx' := hx
      rw [item_eta x _ hl2.symm] at hx'
      have hsd' := hsd
      rw [item_eta sib _ hl] at hsd'
      refine ⟨fun ha => .binary hr hx' hsd' hc ha, by rw [bonus_binary L hux hus hc], ?_⟩
      rw [hT, L.combine_count _ hux.1 _ hus.1 _ _ hc, add_nsmul, ← add_assoc]
      refine le_add_of_le_of_nonneg (add_le_add ?_ hbx) (nsmul_nonneg U.max _)
      rw [add_assoc]
      exact le_add_of_nonneg_right (add_nonneg (derives_nonneg U hsd) (U.binary r hr).1)

theorem expand_eq (L : Spec.Laws o n univ mem) (U : Spec.Usable g n M start) {T : R} {st : State V R} (G : Good o g allowed n M T st) {x : Item V} {prob : R}
    (hx : Spec.Derives o g allowed n x prob) (hT : T = prob + bonus o g n M x) :
    lefts o g M allowed x prob (rights o g M allowed x prob (unaries o g M allowed x prob st)) = (props o g M st x prob).foldl (add allowed) st := by
  have hs := props_sound L U G hx hT
  rw [props, List.foldl_append, List.foldl_append, unaries_eq]
  obtain ⟨G1, A1⟩ := good_addAll _ G (fun e he => hs e (List.mem_append_left _ he))
  obtain ⟨new1, hi1, hn1⟩ := A1.items
  have hr : rights o g M allowed x prob ((unaryProps o g M x prob).foldl (add allowed) st) = _ :=
    rights_eq x prob st.items st.probs _ _ new1 G1 hi1 hn1 A1.probs (fun e he => hs e (List.mem_append_right _ (List.mem_append_left _ he)))
  rw [hr]
  obtain ⟨G2, A2⟩ := good_addAll _ G1 (fun e he => hs e (List.mem_append_right _ (List.mem_append_left _ he)))
  obtain ⟨new2, hi2, hn2⟩ := (A1.trans A2).items
  exact lefts_eq x prob st.items st.probs _ _ new2 G2 hi2 hn2 (A1.trans A2).probs (fun e he => hs e (List.mem_append_right _ (List.mem_append_right _ he)))

/-! ### The invariant of the main loop -/

/-- The edges with premises that have been taken from the agenda. -/
def EdgeIn (o : Ops V) (g : Grammar R) (allowed : Item V → Bool) (n : Nat) (probs : Item V → Option R) (x : Item V) : Edge V R → Prop
  | .lex i => allowed x = true ∧ i < n ∧ x.vec = o.unit i ∧ ∃ p, (x.label, p) ∈ g.lexicon i
  | .rule r left => allowed x = true ∧ probs left ≠ none ∧ r.lhs = x.label ∧ left.label = r.rhs1 ∧
      (r ∈ g.unary ∧ x.vec = left.vec ∨
       r ∈ g.lbinary ∧ ∃ w, probs ⟨r.rhs2, w⟩ ≠ none ∧ o.concat r.args r.lengths left.vec w = true ∧ x.vec = o.combine left.vec w)

structure Inv (o : Ops V) (g : Grammar R) (allowed : Item V → Bool) (n : Nat) (M : R) (T : R) (st : State V R) : Prop extends Good o g allowed n M T st where
  lex : ∀ i < n, ∀ t p, (t, p) ∈ g.lexicon i → allowed ⟨t, o.unit i⟩ = true → Known st ⟨t, o.unit i⟩ p
  un : ∀ r ∈ g.unary, ∀ v c, st.probs ⟨r.rhs1, v⟩ = some c → allowed ⟨r.lhs, v⟩ = true → Known st ⟨r.lhs, v⟩ (c + r.prob)
  bin : ∀ r ∈ g.lbinary, ∀ v w c d, st.probs ⟨r.rhs1, v⟩ = some c → st.probs ⟨r.rhs2, w⟩ = some d → o.concat r.args r.lengths v w = true →
    allowed ⟨r.lhs, o.combine v w⟩ = true → Known st ⟨r.lhs, o.combine v w⟩ (c + d + r.prob)
  opt : ∀ x c, st.probs x = some c → ∀ d, Spec.Derives o g allowed n x d → c ≤ d
  edges : ∀ x e, e ∈ st.forest x ↔ EdgeIn o g allowed n st.probs x e
  once : ∀ x, (st.forest x).Nodup

/-- Every derivation is in the chart, or some item with at most its score is in the agenda. -/
theorem frontier (L : Spec.Laws o n univ mem) (U : Spec.Usable g n M start) {T : R} {st : State V R} (I : Inv o g allowed n M T st) {z : Item V} {d : R}
    (h : Spec.Derives o g allowed n z d) :
    (∃ c, st.probs z = some c ∧ c ≤ d) ∨ ∃ y s c, get? st.agenda y = some (s, c) ∧ s ≤ d + bonus o g n M z := by
  have known : ∀ z d, Known st z d → (∃ c, st.probs z = some c ∧ c ≤ d) ∨ ∃ y s c, get? st.agenda y = some (s, c) ∧ s ≤ d + bonus o g n M z := by
    intro z d hk
    rcases hk with h | ⟨s, c, h1, h2⟩
    · exact Or.inl h
    · exact Or.inr ⟨z, s, c, h1, by rw [(I.agenda z s c h1).2.1]; exact add_le_add_left h2 _⟩
  have weaken : ∀ {z : Item V} {d : R}, (∃ c, st.probs z = some c ∧ c ≤ d) → ∀ e, d ≤ e → ∃ c, st.probs z = some c ∧ c ≤ e := by
    rintro z d ⟨c, h1, h2⟩ e he; exact ⟨c, h1, le_trans h2 he⟩
  induction h with
  | lex hi ht ha => exact known _ _ (I.lex _ hi _ _ ht ha)
  | @unary r v c hr hd ha ih =>
    rcases ih with ⟨c', h1, h2⟩ | ⟨y, s, c', h1, h2⟩
    · rcases known _ _ (I.un r hr v c' h1 ha) with h | ⟨y, s, c1, h3, h4⟩
      · exact Or.inl (weaken h _ (add_le_add_left h2 _))
      · exact Or.inr ⟨y, s, c1, h3, le_trans h4 (add_le_add_left (add_le_add_left h2 _) _)⟩
    · refine Or.inr ⟨y, s, c', h1, le_trans h2 ?_⟩
      rw [bonus_unary U hr]
      exact add_le_add (le_add_of_nonneg_right (U.unary r hr).1) (bonus_le U.max _)
  | @binary r v w c d hr hv hw hc ha ih1 ih2 =>
    have huv := derives_univ L hv
    have huw := derives_univ L hw
    rcases ih1 with ⟨c', h1, h2⟩ | ⟨y, s, c', h1, h2⟩
    · rcases ih2 with ⟨d', h3, h4⟩ | ⟨y, s, d', h3, h4⟩
      · have hle : c' + d' + r.prob ≤ c + d + r.prob := add_le_add_left (add_le_add h2 h4) _
        rcases known _ _ (I.bin r hr v w c' d' h1 h3 hc ha) with h | ⟨y, s, c1, h5, h6⟩
        · exact Or.inl (weaken h _ hle)
        · exact Or.inr ⟨y, s, c1, h5, le_trans h6 (add_le_add_left hle _)⟩
      · refine Or.inr ⟨y, s, d', h3, le_trans h4 ?_⟩
        rw [bonus_binary L huv huw hc, L.combine_count _ huv.1 _ huw.1 _ _ hc, add_nsmul, add_comm (o.count v • M), ← add_assoc]
        refine le_add_of_le_of_nonneg (add_le_add ?_ (bonus_le U.max _)) (nsmul_nonneg U.max _)
        rw [add_comm c d, add_assoc]
        exact le_add_of_nonneg_right (add_nonneg (derives_nonneg U hv) (U.binary r hr).1)
    · refine Or.inr ⟨y, s, c', h1, le_trans h2 ?_⟩
      rw [bonus_binary L huv huw hc, L.combine_count _ huv.1 _ huw.1 _ _ hc, add_nsmul, ← add_assoc]
      refine le_add_of_le_of_nonneg (add_le_add ?_ (bonus_le U.max _)) (nsmul_nonneg U.max _)
      rw [add_assoc]
      exact le_add_of_nonneg_right (add_nonneg (derives_nonneg U hw) (U.binary r hr).1)

/-- The state after an item is taken from the agenda. -/
def popped (st : State V R) (x : Item V) (c : R) : State V R := updateProb { st with agenda := erase st.agenda x } x c

section
variable {T s c : R} {st : State V R} {x : Item V}

theorem popped_eq (G : Good o g allowed n M T st) (hx : get? st.agenda x = some (s, c)) :
    popped st x c = { st with agenda := erase st.agenda x, probs := Function.update st.probs x (some c) } := by
  rw [popped, updateProb, (G.agenda x s c hx).2.2.2]; rfl

theorem popped_good (G : Good o g allowed n M T st) (hx : get? st.agenda x = some (s, c)) (hl : ∀ y w, get? st.agenda y = some w → s ≤ w.1) :
    Good o g allowed n M s (popped st x c) := by
  obtain ⟨hD, hs, hT, hp⟩ := G.agenda x s c hx
  rw [popped_eq G hx]
  have hget := fun y => get?_erase G.wf x y
  refine ⟨G.wf.erase _, ?_, ?_, ?_, G.items, G.nodup⟩
  · intro y s' c' hy
    simp only [hget] at hy ⊢
    split at hy
    · cases hy
    · rename_i hne
      obtain ⟨h1, h2, h3, h4⟩ := G.agenda y s' c' hy
      refine ⟨h1, h2, hl y _ hy, ?_⟩
      rw [Function.update_of_ne (Ne.symm hne)]; exact h4
  · intro y c' hy
    simp only at hy
    by_cases hyx : y = x
    · subst hyx
      rw [Function.update_self] at hy
      injection hy with hy; subst hy
      exact ⟨hD, hs ▸ le_refl _⟩
    · rw [Function.update_of_ne hyx] at hy
      obtain ⟨h1, h2⟩ := G.probs y c' hy
      exact ⟨h1, le_trans h2 hT⟩
  · intro y
    simp only [hget]
    by_cases hyx : y = x
    · subst hyx
      simp only [G.forest, hx, Function.update_self]; simp
    · rw [Function.update_of_ne hyx, if_neg (Ne.symm hyx)]; exact G.forest y

theorem popped_known (G : Good o g allowed n M T st) (hx : get? st.agenda x = some (s, c)) {z : Item V} {d : R} (h : Known st z d) : Known (popped st x c) z d := by
  rw [popped_eq G hx]
  by_cases hz : z = x
  · subst hz
    rcases h with ⟨e, h1, _⟩ | ⟨s', e, h1, h2⟩
    · rw [(G.agenda z s c hx).2.2.2] at h1; cases h1
    · rw [hx] at h1
      simp only [Option.some.injEq, Prod.mk.injEq] at h1
      obtain ⟨_, rfl⟩ := h1
      exact Or.inl ⟨c, by simp, h2⟩
  · rcases h with ⟨e, h1, h2⟩ | ⟨s', e, h1, h2⟩
    · exact Or.inl ⟨e, by simp [Function.update_of_ne hz, h1], h2⟩
    · exact Or.inr ⟨s', e, by simp [get?_erase G.wf, Ne.symm hz, h1], h2⟩

/-- The new edges of an item are those with the item of the agenda as a premise. -/
theorem edges_new (U : Spec.Usable g n M start) {st1 : State V R} (hp : st1.probs = Function.update st.probs x (some c)) (hit : ∀ y, st1.probs y ≠ none → y ∈ st1.items)
    (z : Item V) (e : Edge V R) :
    EdgeIn o g allowed n st1.probs z e ↔ EdgeIn o g allowed n st.probs z e ∨
      allowed z = true ∧ ∃ q ∈ props o g M st1 x c, q.item = z ∧ e = .rule q.rule q.left := by
  have up : ∀ y, st1.probs y ≠ none ↔ y = x ∨ st.probs y ≠ none := by
    intro y; rw [hp]
    by_cases h : y = x
    · subst h; simp
    · simp [h]
  cases e with
  | lex i => simp [EdgeIn]
  | rule r left =>
    simp only [EdgeIn, Edge.rule.injEq]
    constructor
    · rintro ⟨ha, hpl, hlhs, hl, h⟩
      rcases h with ⟨hr, hv⟩ | ⟨hr, w, hw, hc, hv⟩
      · rcases (up left).1 hpl with rfl | hpl'
        · refine Or.inr ⟨ha, _, List.mem_append_left _ (mem_unaryProps.2 ⟨r, hr, hl.symm, rfl⟩), ?_, rfl, rfl⟩
          cases z; simp_all
        · exact Or.inl ⟨ha, hpl', hlhs, hl, Or.inl ⟨hr, hv⟩⟩
      · rcases (up left).1 hpl with rfl | hpl'
        · right
          obtain ⟨p, hpw⟩ := Option.ne_none_iff_exists'.1 hw
          refine ⟨ha, _, List.mem_append_right _ (List.mem_append_right _ (mem_leftProps.2
            ⟨r, List.mem_filter.2 ⟨hr, by simp [hl]⟩, ⟨r.rhs2, w⟩, hit _ hw, rfl, hc, p, hpw, rfl⟩)), ?_, rfl, rfl⟩
          cases z; simp_all
        · rcases (up _).1 hw with hwx | hw'
          · right
            obtain ⟨p, hpw⟩ := Option.ne_none_iff_exists'.1 hpl
            subst hwx
            refine ⟨ha, _, List.mem_append_right _ (List.mem_append_left _ (mem_rightProps.2
              ⟨r, List.mem_filter.2 ⟨U.perm.mem_iff.2 hr, by simp⟩, left, hit _ hpl, hl, hc, p, hpw, rfl⟩)), ?_, rfl, rfl⟩
            cases z; simp_all
          · exact Or.inl ⟨ha, hpl', hlhs, hl, Or.inr ⟨hr, w, hw', hc, hv⟩⟩
    · rintro (⟨ha, hpl, hlhs, hl, h⟩ | ⟨ha, q, hq, rfl, rfl, rfl⟩)
      · refine ⟨ha, (up _).2 (Or.inr hpl), hlhs, hl, ?_⟩
        rcases h with h | ⟨hr, w, hw, h⟩
        · exact Or.inl h
        · exact Or.inr ⟨hr, w, (up _).2 (Or.inr hw), h⟩
      · refine ⟨ha, ?_⟩
        rcases List.mem_append.1 hq with hq | hq
        · obtain ⟨r, hr, hl, rfl⟩ := mem_unaryProps.1 hq
          exact ⟨(up _).2 (Or.inl rfl), rfl, hl.symm, Or.inl ⟨hr, rfl⟩⟩
        · rcases List.mem_append.1 hq with hq | hq
          · obtain ⟨r, hr, sib, hs, hl, hc, p, hpp, rfl⟩ := mem_rightProps.1 hq
            rw [List.mem_filter, decide_eq_true_eq] at hr
            refine ⟨by rw [hpp]; simp, rfl, hl, Or.inr ⟨U.perm.mem_iff.1 hr.1, x.vec, ?_, hc, rfl⟩⟩
            rw [← item_eta x _ hr.2.symm]
            exact (up _).2 (Or.inl rfl)
          · obtain ⟨r, hr, sib, hs, hl, hc, p, hpp, rfl⟩ := mem_leftProps.1 hq
            rw [List.mem_filter, decide_eq_true_eq] at hr
            refine ⟨(up _).2 (Or.inl rfl), rfl, hr.2.symm, Or.inr ⟨hr.1, sib.vec, ?_, hc, rfl⟩⟩
            rw [← item_eta sib _ hl, hpp]; simp

/-- No edge is made twice for the same item. -/
theorem props_nodup (L : Spec.Laws o n univ mem) (U : Spec.Usable g n M start) {T' : R} {st1 : State V R} (G : Good o g allowed n M T' st1) (hx : Spec.Derives o g allowed n x c) :
    ((props o g M st1 x c).map (fun q => (q.item, q.rule, q.left))).Nodup := by
  have hux := derives_univ L hx
  have hus : ∀ y p, st1.probs y = some p → y.vec ∈ univ ∧ 0 < o.count y.vec := fun y p h => derives_univ L (G.probs y p h).1
  rw [props, List.map_append, List.map_append, List.nodup_append, List.nodup_append]
  refine ⟨?_, ⟨?_, ?_, ?_⟩, ?_⟩
  · rw [unaryProps, List.map_map]
    refine List.Nodup.map_on ?_ (U.nodup.1.filter _)
    intro a _ b _ h
    simp only [Function.comp, Prod.mk.injEq] at h
    exact h.2.1
  · rw [rightProps, List.map_flatMap, List.nodup_flatMap]
    constructor
    · intro r _
      rw [List.map_filterMap]
      refine List.Nodup.filterMap ?_ (G.nodup.filter _)
      intro a a' b ha ha'
      simp only [Option.mem_def, Option.map_eq_some_iff] at ha ha'
      obtain ⟨q, hq, rfl⟩ := ha
      obtain ⟨q', hq', h⟩ := ha'
      obtain ⟨_, _, _, rfl⟩ := rightProp_some hq
      obtain ⟨_, _, _, rfl⟩ := rightProp_some hq'
      simp only [Prod.mk.injEq] at h
      exact h.2.2.symm
    · refine List.Pairwise.imp ?_ ((U.perm.nodup_iff.2 U.nodup.2).filter _)
      intro r r' hne
      simp only [Function.onFun]
      intro q hq hq'
      simp only [List.mem_map, List.mem_filterMap] at hq hq'
      obtain ⟨b, ⟨_, _, h1⟩, rfl⟩ := hq
      obtain ⟨b', ⟨_, _, h1'⟩, h2'⟩ := hq'
      obtain ⟨_, _, _, rfl⟩ := rightProp_some h1
      obtain ⟨_, _, _, rfl⟩ := rightProp_some h1'
      simp only [Prod.mk.injEq] at h2'
      exact hne h2'.2.1.symm
  · rw [leftProps, List.map_flatMap, List.nodup_flatMap]
    constructor
    · intro r _
      rw [List.map_filterMap, List.filterMap_filter]
      refine List.Nodup.filterMap ?_ G.nodup
      intro a a' b ha ha'
      simp only [Option.mem_def] at ha ha'
      by_cases hla : a.label = r.rhs2
      · by_cases hla' : a'.label = r.rhs2
        · simp only [hla, hla', decide_true, if_true, Option.map_eq_some_iff] at ha ha'
          obtain ⟨q, hq, rfl⟩ := ha
          obtain ⟨q', hq', h⟩ := ha'
          obtain ⟨hc, p, hp, rfl⟩ := leftProp_some hq
          obtain ⟨hc', p', hp', rfl⟩ := leftProp_some hq'
          simp only [Prod.mk.injEq, Item.mk.injEq, true_and, and_true] at h
          have := L.cancel _ hux.1 _ (hus _ _ hp).1 _ (hus _ _ hp').1 _ _ hc hc' h.symm
          cases a; cases a'; simp_all
        · simp [hla'] at ha'
      · simp [hla] at ha
    · refine List.Pairwise.imp ?_ (U.nodup.2.filter _)
      intro r r' hne
      simp only [Function.onFun]
      intro q hq hq'
      simp only [List.mem_map, List.mem_filterMap] at hq hq'
      obtain ⟨b, ⟨_, _, h1⟩, rfl⟩ := hq
      obtain ⟨b', ⟨_, _, h1'⟩, h2'⟩ := hq'
      obtain ⟨_, _, _, rfl⟩ := leftProp_some h1
      obtain ⟨_, _, _, rfl⟩ := leftProp_some h1'
      simp only [Prod.mk.injEq] at h2'
      exact hne h2'.2.1.symm
  · rintro k hk k' hk' rfl
    obtain ⟨q, hq, rfl⟩ := List.mem_map.1 hk
    obtain ⟨q', hq', h⟩ := List.mem_map.1 hk'
    obtain ⟨r, hr, sib, hs, hl, hc, p, hpp, rfl⟩ := mem_rightProps.1 hq
    obtain ⟨r', hr', sib', hs', hl', hc', p', hpp', rfl⟩ := mem_leftProps.1 hq'
    simp only [Prod.mk.injEq] at h
    obtain ⟨_, _, rfl⟩ := h
    rw [L.irrefl _ hux.1 hux.2] at hc
    cases hc
  · rintro k hk k' hk' rfl
    obtain ⟨q, hq, rfl⟩ := List.mem_map.1 hk
    obtain ⟨r, hr, _, rfl⟩ := mem_unaryProps.1 hq
    rcases List.mem_append.1 hk' with hk' | hk'
    · obtain ⟨q', hq', h⟩ := List.mem_map.1 hk'
      obtain ⟨r', hr', sib', hs', hl', hc', p', hpp', rfl⟩ := mem_rightProps.1 hq'
      simp only [Prod.mk.injEq] at h
      obtain ⟨_, rfl, _⟩ := h
      exact (U.unary _ hr).2.2 (U.perm.mem_iff.1 (List.mem_filter.1 hr').1)
    · obtain ⟨q', hq', h⟩ := List.mem_map.1 hk'
      obtain ⟨r', hr', sib', hs', hl', hc', p', hpp', rfl⟩ := mem_leftProps.1 hq'
      simp only [Prod.mk.injEq] at h
      obtain ⟨_, rfl, _⟩ := h
      exact (U.unary _ hr).2.2 (List.mem_filter.1 hr').1

/-- One round of the main loop. -/
theorem inv_step (L : Spec.Laws o n univ mem) (U : Spec.Usable g n M start) (I : Inv o g allowed n M T st) (hx : get? st.agenda x = some (s, c))
    (hl : ∀ y w, get? st.agenda y = some w → s ≤ w.1) :
    Inv o g allowed n M s ((props o g M (popped st x c) x c).foldl (add allowed) (popped st x c)) ∧
    ((props o g M (popped st x c) x c).foldl (add allowed) (popped st x c)).probs = Function.update st.probs x (some c) := by
  have G := I.toGood
  obtain ⟨hD, hs, hT, hp⟩ := G.agenda x s c hx
  have G1 := popped_good G hx hl
  have hsound := props_sound L U G1 hD hs
  obtain ⟨G2, A⟩ := good_addAll _ G1 hsound
  have hprobs1 : (popped st x c).probs = Function.update st.probs x (some c) := by rw [popped_eq G hx]
  have hforest1 : (popped st x c).forest = st.forest := by rw [popped_eq G hx]
  have hprobs2 : ((props o g M (popped st x c) x c).foldl (add allowed) (popped st x c)).probs = Function.update st.probs x (some c) := by rw [A.probs, hprobs1]
  have keep : ∀ z d, Known st z d → Known ((props o g M (popped st x c) x c).foldl (add allowed) (popped st x c)) z d :=
    fun z d h => A.known z d (popped_known G hx h)
  have hit : ∀ y, (popped st x c).probs y ≠ none → y ∈ (popped st x c).items := by
    intro y hy
    refine G1.items y (fun e => hy ((G1.forest y).1 e).2)
  refine ⟨⟨G2, ?_, ?_, ?_, ?_, ?_, ?_⟩, hprobs2⟩
  · intro i hi t p ht ha; exact keep _ _ (I.lex i hi t p ht ha)
  · intro r hr v d hd ha
    rw [hprobs2] at hd
    by_cases hv : (⟨r.rhs1, v⟩ : Item V) = x
    · rw [hv, Function.update_self] at hd
      injection hd with hd; subst hd
      subst hv
      exact A.fresh _ (List.mem_append_left _ (mem_unaryProps.2 ⟨r, hr, rfl, rfl⟩)) ha
    · rw [Function.update_of_ne hv] at hd
      exact keep _ _ (I.un r hr v d hd ha)
  · intro r hr v w d e hd he hc ha
    rw [← A.probs] at hit
    rw [A.probs] at hd he hit
    by_cases hv : (⟨r.rhs1, v⟩ : Item V) = x
    · have hd' := hd
      rw [hprobs1, hv, Function.update_self] at hd'
      injection hd' with hd'; subst hd'
      have := A.fresh _ (List.mem_append_right _ (List.mem_append_right _ (mem_leftProps.2
        ⟨r, List.mem_filter.2 ⟨hr, by rw [← hv]; simp⟩, ⟨r.rhs2, w⟩, hit _ (by rw [he]; simp), rfl, by rw [← hv]; exact hc, e, he, rfl⟩)))
      simp only [← hv] at this ⊢
      exact this ha
    · by_cases hw : (⟨r.rhs2, w⟩ : Item V) = x
      · have he' := he
        rw [hprobs1, hw, Function.update_self] at he'
        injection he' with he'; subst he'
        have := A.fresh _ (List.mem_append_right _ (List.mem_append_left _ (mem_rightProps.2
          ⟨r, List.mem_filter.2 ⟨U.perm.mem_iff.2 hr, by rw [← hw]; simp⟩, ⟨r.rhs1, v⟩, hit _ (by rw [hd]; simp), rfl, by rw [← hw]; exact hc, d, hd, rfl⟩)))
        simp only [← hw] at this ⊢
        rw [add_comm d c]
        exact this ha
      · rw [hprobs1, Function.update_of_ne hv] at hd
        rw [hprobs1, Function.update_of_ne hw] at he
        exact keep _ _ (I.bin r hr v w d e hd he hc ha)
  · intro y d hd e he
    rw [hprobs2] at hd
    by_cases hy : y = x
    · subst hy
      rw [Function.update_self] at hd
      injection hd with hd; subst hd
      rcases frontier L U I he with ⟨d, h1, _⟩ | ⟨z, s', c', h1, h2⟩
      · rw [hp] at h1; cases h1
      · have := le_trans (hl z _ h1) h2
        rw [hs] at this
        exact le_of_add_le_add_right this
    · rw [Function.update_of_ne hy] at hd
      exact I.opt y d hd e he
  · intro z e
    rw [A.probs, edges_new (M := M) U hprobs1 hit, A.forest, hforest1, List.mem_append, I.edges]
    refine or_congr Iff.rfl ?_
    simp only [List.mem_map, List.mem_filter, Bool.and_eq_true, decide_eq_true_eq]
    constructor
    · rintro ⟨q, ⟨hq, hz, ha⟩, rfl⟩; exact ⟨ha, q, hq, hz, rfl⟩
    · rintro ⟨ha, q, hq, hz, rfl⟩; exact ⟨q, ⟨hq, hz, ha⟩, rfl⟩
  · intro z
    rw [A.forest, hforest1, List.nodup_append]
    refine ⟨I.once z, ?_, ?_⟩
    · have h1 := props_nodup (M := M) L U G1 hD
      have h2 := List.Nodup.of_map _ h1
      refine List.Nodup.map_on ?_ (h2.filter _)
      intro a ha b hb e
      simp only [List.mem_filter, Bool.and_eq_true, decide_eq_true_eq] at ha hb
      simp only [Edge.rule.injEq] at e
      exact List.inj_on_of_nodup_map h1 ha.1 hb.1 (by simp [ha.2.1, hb.2.1, e.1, e.2])
    · rintro e he e' he' rfl
      rw [I.edges] at he
      simp only [List.mem_map, List.mem_filter, Bool.and_eq_true, decide_eq_true_eq] at he'
      obtain ⟨q, ⟨hq, hz, ha⟩, rfl⟩ := he'
      subst hz
      obtain ⟨_, hpl, _, _, h⟩ := he
      rcases List.mem_append.1 hq with hq | hq
      · obtain ⟨r, hr, _, rfl⟩ := mem_unaryProps.1 hq
        exact hpl hp
      · rcases List.mem_append.1 hq with hq | hq
        · obtain ⟨r, hr, sib, hs, hl, hc, p, hpp, rfl⟩ := mem_rightProps.1 hq
          rw [List.mem_filter, decide_eq_true_eq] at hr
          rcases h with ⟨hru, _⟩ | ⟨_, w, hw, hcw, hv⟩
          · exact (U.unary r hru).2.2 (U.perm.mem_iff.1 hr.1)
          · obtain ⟨pw, hpw⟩ := Option.ne_none_iff_exists'.1 hw
            have hus := derives_univ L (G1.probs _ _ hpp).1
            have := L.cancel _ hus.1 _ (derives_univ L hD).1 _ (derives_univ L (G.probs _ _ hpw).1).1 _ _ hc hcw hv
            simp only at this hw
            rw [← this, ← item_eta x _ hr.2.symm] at hw
            exact hw hp
        · obtain ⟨r, hr, sib, hs, hl, hc, p, hpp, rfl⟩ := mem_leftProps.1 hq
          exact hpl hp

theorem props_goal (U : Spec.Usable g n M x.label) : props o g M st x c = [] := by
  have h1 : g.unary.filter (fun r => decide (r.rhs1 = x.label)) = [] := by
    rw [List.filter_eq_nil_iff]; intro r hr; simp [(U.unary r hr).2.1]
  have h2 : g.rbinary.filter (fun r => decide (r.rhs2 = x.label)) = [] := by
    rw [List.filter_eq_nil_iff]; intro r hr; simp [(U.binary r (U.perm.mem_iff.1 hr)).2.2]
  have h3 : g.lbinary.filter (fun r => decide (r.rhs1 = x.label)) = [] := by
    rw [List.filter_eq_nil_iff]; intro r hr; simp [(U.binary r hr).2.1]
  rw [props, unaryProps, h1, h2, h3]; rfl

end

theorem picks {pick : Nat → Dict (Item V) (R × R) → Item V} (hp : Spec.PicksLeast pick) (fuel : Nat) {st : State V R} {T : R} (G : Good o g allowed n M T st) (h : st.agenda ≠ []) :
    ∃ s c, get? st.agenda (pick fuel st.agenda) = some (s, c) ∧ ∀ y w, get? st.agenda y = some w → s ≤ w.1 := by
  obtain ⟨⟨s, c⟩, h1, h2⟩ := hp fuel st.agenda h G.wf
  refine ⟨s, c, h1, ?_⟩
  intro y w hy
  have := h2 y w hy
  simp only [ltPair, Bool.or_eq_false_iff, decide_eq_false_iff_not] at this
  exact not_lt.1 this.1

/-- A round of the loop as one equation. -/
theorem loop_succ (L : Spec.Laws o n univ mem) {goal : Item V} (U : Spec.Usable g n M goal.label) {pick : Nat → Dict (Item V) (R × R) → Item V} {ex : Bool} {fuel : Nat} {T s c : R} {st : State V R}
    (I : Inv o g allowed n M T st) (hne : st.agenda ≠ []) (hx : get? st.agenda (pick fuel st.agenda) = some (s, c)) (hl : ∀ y w, get? st.agenda y = some w → s ≤ w.1) :
    loop o g M allowed pick goal ex (fuel + 1) st = 
      let st2 := (props o g M (popped st (pick fuel st.agenda) c) (pick fuel st.agenda) c).foldl (add allowed) (popped st (pick fuel st.agenda) c)
      if pick fuel st.agenda = goal ∧ ex = false then some st2 else loop o g M allowed pick goal ex fuel st2 := by
  have he : st.agenda.isEmpty = false := by cases h : st.agenda <;> simp_all
  have G := I.toGood
  rw [loop]
  simp only [he, Bool.false_eq_true, if_false, hx, Option.bind_some]
  by_cases hg : pick fuel st.agenda = goal
  · rw [if_pos hg]
    have hnil : props o g M (popped st (pick fuel st.agenda) c) (pick fuel st.agenda) c = [] := by
      rw [hg]; exact props_goal U
    simp only [hnil, List.foldl_nil]
    cases ex
    · simp [hg, popped]
    · simp [popped]
  · rw [if_neg hg, if_neg (fun h => hg h.1)]
    have G1 := popped_good G hx hl
    have hD := (G.agenda _ s c hx).1
    have hs := (G.agenda _ s c hx).2.1
    have := expand_eq L U G1 hD hs
    simp only [popped] at this ⊢
    rw [this]

theorem loop_inv (L : Spec.Laws o n univ mem) {goal : Item V} (U : Spec.Usable g n M goal.label) {pick : Nat → Dict (Item V) (R × R) → Item V} (hp : Spec.PicksLeast pick) {ex : Bool} :
    ∀ {fuel : Nat} {T : R} {st st' : State V R}, Inv o g allowed n M T st → loop o g M allowed pick goal ex fuel st = some st' →
      ∃ T', Inv o g allowed n M T' st' ∧ (st'.agenda = [] ∨ ex = false ∧ st'.probs goal ≠ none) := by
  intro fuel
  induction fuel with
  | zero =>
    intro T st st' I h
    rw [loop] at h
    split at h
    · rename_i he
      injection h with h; subst h
      exact ⟨T, I, Or.inl (List.isEmpty_iff.1 he)⟩
    · cases h
  | succ fuel ih =>
    intro T st st' I h
    by_cases hne : st.agenda = []
    · rw [loop, hne] at h
      simp only [List.isEmpty_nil, if_true, Option.some.injEq] at h
      subst h
      exact ⟨T, I, Or.inl hne⟩
    · obtain ⟨s, c, hx, hl⟩ := picks hp fuel I.toGood hne
      rw [loop_succ L U I hne hx hl] at h
      obtain ⟨I2, hpr⟩ := inv_step L U I hx hl
      simp only at h
      split at h
      · rename_i hg
        injection h with h; subst h
        refine ⟨s, I2, Or.inr ⟨hg.2, ?_⟩⟩
        rw [hpr, hg.1, Function.update_self]; simp
      · exact ih I2 h

theorem count_update (probs : Item V → Option R) (x : Item V) (c : R) (h : probs x = none) (all : List (Item V)) (hmem : x ∈ all) :
    (all.filter (fun y => (Function.update probs x (some c) y).isNone)).length < (all.filter (fun y => (probs y).isNone)).length := by
  induction all with
  | nil => cases hmem
  | cons a all ih =>
    have hle : (all.filter (fun y => (Function.update probs x (some c) y).isNone)).length ≤ (all.filter (fun y => (probs y).isNone)).length := by
      refine List.Sublist.length_le (List.monotone_filter_right all ?_)
      intro y hy
      by_cases hyx : y = x
      · subst hyx; simp at hy
      · rwa [Function.update_of_ne hyx] at hy
    by_cases hax : a = x
    · subst hax
      rw [List.filter_cons_of_neg (by simp), List.filter_cons_of_pos (by simp [h]), List.length_cons]
      exact Nat.lt_succ_of_le hle
    · have := ih (by rcases List.mem_cons.1 hmem with h | h; exact absurd h.symm hax; exact h)
      simp only [List.filter_cons, Function.update_of_ne hax]
      split <;> simp_all

theorem loop_terminates (L : Spec.Laws o n univ mem) {goal : Item V} (U : Spec.Usable g n M goal.label) {pick : Nat → Dict (Item V) (R × R) → Item V} (hp : Spec.PicksLeast pick) {ex : Bool}
    (all : List (Item V)) (hall : ∀ x c, Spec.Derives o g allowed n x c → x ∈ all) :
    ∀ {fuel : Nat} {T : R} {st : State V R}, Inv o g allowed n M T st → (all.filter (fun x => (st.probs x).isNone)).length ≤ fuel →
      loop o g M allowed pick goal ex fuel st ≠ none := by
  intro fuel
  induction fuel with
  | zero =>
    intro T st I hf
    by_cases hne : st.agenda = []
    · rw [loop, hne]; simp
    · exfalso
      obtain ⟨s, c, hx, hl⟩ := picks hp 0 I.toGood hne
      obtain ⟨hD, _, _, hpr⟩ := I.agenda _ _ _ hx
      have : pick 0 st.agenda ∈ all.filter (fun x => (st.probs x).isNone) := List.mem_filter.2 ⟨hall _ _ hD, by rw [hpr]; rfl⟩
      rw [List.length_eq_zero_iff.1 (Nat.le_zero.1 hf)] at this
      cases this
  | succ fuel ih =>
    intro T st I hf
    by_cases hne : st.agenda = []
    · rw [loop, hne]; simp
    · obtain ⟨s, c, hx, hl⟩ := picks hp fuel I.toGood hne
      rw [loop_succ L U I hne hx hl]
      obtain ⟨I2, hpr⟩ := inv_step L U I hx hl
      simp only
      split
      · simp
      · refine ih I2 ?_
        rw [hpr]
        obtain ⟨hD, _, _, hprx⟩ := I.agenda _ _ _ hx
        refine Nat.le_of_lt_succ (lt_of_lt_of_le ?_ hf)
        exact count_update st.probs _ c hprx all (hall _ _ hD)

/-! ### Lexical items -/

/-- The chart while words are being tagged; `done` are the lexical rules so far. -/
structure Lex (o : Ops V) (g : Grammar R) (allowed : Item V → Bool) (n : Nat) (M : R) (done : List (Nat × Nat × R)) (st : State V R) : Prop extends Good o g allowed n M 0 st where
  noprob : ∀ x, st.probs x = none
  known : ∀ i t p, (i, t, p) ∈ done → allowed ⟨t, o.unit i⟩ = true → get? st.agenda ⟨t, o.unit i⟩ = some (p, p)
  lexical : ∀ x, st.forest x = [] ∨ allowed x = true ∧ ∃ i t p, (i, t, p) ∈ done ∧ x = ⟨t, o.unit i⟩ ∧ st.forest x = [.lex i]

theorem unit_inj (L : Spec.Laws o n univ mem) {i j : Nat} (hi : i < n) (hj : j < n) (h : o.unit i = o.unit j) : i = j := by
  have h1 := L.unit_mem i hi i
  rw [h, L.unit_mem j hj i] at h1
  simpa using h1

theorem processLex_lex (L : Spec.Laws o n univ mem) (U : Spec.Usable g n M start) {done : List (Nat × Nat × R)} {st : State V R} (I : Lex o g allowed n M done st)
    (hdone : ∀ i t p, (i, t, p) ∈ done → i < n) {i t : Nat} {p : R} (hi : i < n) (ht : (t, p) ∈ g.lexicon i) (hnew : ∀ q, (i, t, q) ∉ done) :
    ∃ st', processLex allowed st ⟨t, o.unit i⟩ p i = some (st', allowed ⟨t, o.unit i⟩) ∧ Lex o g allowed n M (done ++ [(i, t, p)]) st' := by
  have hne : ∀ j u q, (j, u, q) ∈ done → (⟨u, o.unit j⟩ : Item V) ≠ ⟨t, o.unit i⟩ := by
    intro j u q hm e
    injection e with e1 e2
    subst e1
    have := unit_inj L (hdone _ _ _ hm) hi e2
    subst this
    exact hnew q hm
  have hf : st.forest ⟨t, o.unit i⟩ = [] := by
    rcases I.lexical ⟨t, o.unit i⟩ with h | ⟨_, j, u, q, hm, e, _⟩
    · exact h
    · exact absurd e.symm (hne j u q hm)
  have hg := ((I.forest _).1 hf).1
  rw [processLex]
  simp only [hg, hf, Option.isSome_none, Bool.false_eq_true, if_false, List.isEmpty_nil, Bool.not_true]
  have hits : ∀ y, y ∈ st.items → y ∈ (if (⟨t, o.unit i⟩ : Item V) ∈ st.items then st.items else st.items ++ [⟨t, o.unit i⟩]) := by
    intro y hy; split <;> simp [hy]
  have hself : (⟨t, o.unit i⟩ : Item V) ∈ (if (⟨t, o.unit i⟩ : Item V) ∈ st.items then st.items else st.items ++ [⟨t, o.unit i⟩]) := by
    split
    · assumption
    · simp
  have hnd : (if (⟨t, o.unit i⟩ : Item V) ∈ st.items then st.items else st.items ++ [⟨t, o.unit i⟩]).Nodup := by
    split
    · exact I.nodup
    · rename_i h
      rw [List.nodup_append]
      refine ⟨I.nodup, by simp, ?_⟩
      intro a ha b hb e
      simp only [List.mem_singleton] at hb
      rw [hb] at e; rw [e] at ha; exact h ha
  cases ha : allowed ⟨t, o.unit i⟩ with
  | false =>
    simp only [Bool.not_false, if_true]
    refine ⟨_, rfl, ⟨⟨I.wf, I.agenda, I.probs, I.forest, fun x hx => hits x (I.items x hx), hnd⟩, I.noprob, ?_, ?_⟩⟩
    · intro j u q hm hal
      rcases List.mem_append.1 hm with hm | hm
      · exact I.known j u q hm hal
      · simp only [List.mem_singleton, Prod.mk.injEq] at hm
        obtain ⟨rfl, rfl, rfl⟩ := hm
        rw [ha] at hal; cases hal
    · intro x
      rcases I.lexical x with h | ⟨h0, j, u, q, hm, h⟩
      · exact Or.inl h
      · exact Or.inr ⟨h0, j, u, q, List.mem_append_left _ hm, h⟩
  | true =>
    simp only [Bool.not_true, Bool.false_eq_true, if_false]
    have hforest : ∀ x, (addEdge { st with items := (if (⟨t, o.unit i⟩ : Item V) ∈ st.items then st.items else st.items ++ [⟨t, o.unit i⟩]), agenda := Dict.set st.agenda ⟨t, o.unit i⟩ (p, p) }
        (⟨t, o.unit i⟩ : Item V) (.lex i)).forest x = if x = ⟨t, o.unit i⟩ then [.lex i] else st.forest x := by
      intro x
      simp only [addEdge]
      by_cases hx : x = ⟨t, o.unit i⟩
      · subst hx; simp [hf]
      · rw [Function.update_of_ne hx, if_neg hx]
    refine ⟨_, rfl, ⟨⟨I.wf.set _ _, ?_, I.probs, ?_, ?_, hnd⟩, I.noprob, ?_, ?_⟩⟩
    · intro x s c hx
      simp only [addEdge, get?_set] at hx ⊢
      split at hx
      · rename_i e
        subst e
        simp only [Option.some.injEq, Prod.mk.injEq] at hx
        obtain ⟨rfl, rfl⟩ := hx
        exact ⟨.lex hi ht ha, by rw [bonus_tag hi ht, add_zero], (U.lex i hi t p ht).1, I.noprob _⟩
      · exact I.agenda x s c hx
    · intro x
      rw [hforest]
      simp only [addEdge, get?_set]
      by_cases hx : x = ⟨t, o.unit i⟩
      · subst hx; simp
      · rw [if_neg hx, if_neg (Ne.symm hx)]; exact I.forest x
    · intro x hx
      rw [hforest] at hx
      simp only [addEdge]
      by_cases hxe : x = ⟨t, o.unit i⟩
      · subst hxe; exact hself
      · rw [if_neg hxe] at hx; exact hits x (I.items x hx)
    · intro j u q hm hal
      simp only [addEdge, get?_set]
      rcases List.mem_append.1 hm with hm | hm
      · rw [if_neg (Ne.symm (hne j u q hm))]
        exact I.known j u q hm hal
      · simp only [List.mem_singleton, Prod.mk.injEq] at hm
        obtain ⟨rfl, rfl, rfl⟩ := hm
        rw [if_pos rfl]
    · intro x
      rw [hforest]
      by_cases hx : x = ⟨t, o.unit i⟩
      · subst hx
        right
        exact ⟨ha, i, t, p, by simp, rfl, by simp⟩
      · rw [if_neg hx]
        rcases I.lexical x with h | ⟨h0, j, u, q, hm, h⟩
        · exact Or.inl h
        · exact Or.inr ⟨h0, j, u, q, List.mem_append_left _ hm, h⟩

theorem tagWord_lex (L : Spec.Laws o n univ mem) (U : Spec.Usable g n M start) {i : Nat} (hi : i < n) : ∀ (tags : List (Nat × R)) {done : List (Nat × Nat × R)} {st : State V R} {b : Bool},
    Lex o g allowed n M done st → (∀ i t p, (i, t, p) ∈ done → i < n) → (∀ x ∈ tags, x ∈ g.lexicon i) → (tags.map Prod.fst).Nodup → (∀ x ∈ tags, ∀ q, (i, x.1, q) ∉ done) →
    ∃ st', tagWord o allowed i tags (st, b) = some (st', b || tags.any (fun x => allowed ⟨x.1, o.unit i⟩)) ∧ Lex o g allowed n M (done ++ tags.map (fun x => (i, x))) st' := by
  intro tags
  induction tags with
  | nil => intro done st b I _ _ _ _; exact ⟨st, by simp [tagWord], by simpa using I⟩
  | cons x tags ih =>
    intro done st b I hd hsub hnd hnew
    obtain ⟨t, p⟩ := x
    rw [List.map_cons, List.nodup_cons] at hnd
    obtain ⟨st1, h1, I1⟩ := processLex_lex L U I hd hi (p := p) (hsub _ (by simp)) (hnew (t, p) (by simp))
    obtain ⟨st2, h2, I2⟩ := ih (b := b || allowed ⟨t, o.unit i⟩) I1 (by
        intro j u q hm
        rcases List.mem_append.1 hm with hm | hm
        · exact hd j u q hm
        · simp only [List.mem_singleton, Prod.mk.injEq] at hm
          rw [hm.1]; exact hi) (fun x hx => hsub x (by simp [hx])) hnd.2 (by
        intro x hx q hm
        rcases List.mem_append.1 hm with hm | hm
        · exact hnew x (by simp [hx]) q hm
        · simp only [List.mem_singleton, Prod.mk.injEq] at hm
          exact hnd.1 (List.mem_map.2 ⟨x, hx, hm.2.1⟩))
    refine ⟨st2, ?_, by simpa using I2⟩
    rw [tagWord, h1, Option.bind_some]
    simp only
    rw [h2, List.any_cons, Bool.or_assoc]

/-- The lexical rules for some words. -/
def lexRules (g : Grammar R) (words : List Nat) : List (Nat × Nat × R) := words.flatMap (fun i => (g.lexicon i).map (fun x => (i, x)))

theorem populate_lex (L : Spec.Laws o n univ mem) (U : Spec.Usable g n M start) : ∀ (words : List Nat) {done : List (Nat × Nat × R)} {st : State V R},
    Lex o g allowed n M done st → (∀ i t p, (i, t, p) ∈ done → i < n) → (∀ i ∈ words, i < n) → words.Nodup → (∀ i ∈ words, ∀ x, (i, x) ∉ done) →
    (∃ i ∈ words, populate o g allowed words st = .notags i ∧ ∀ t p, (t, p) ∈ g.lexicon i → allowed ⟨t, o.unit i⟩ = false) ∨
    ∃ st', populate o g allowed words st = .ok st' ∧ Lex o g allowed n M (done ++ lexRules g words) st' := by
  intro words
  induction words with
  | nil => intro done st I _ _ _ _; exact Or.inr ⟨st, rfl, by simpa [lexRules] using I⟩
  | cons i words ih =>
    intro done st I hd hw hnd hnew
    rw [List.nodup_cons] at hnd
    have hi := hw i (by simp)
    obtain ⟨st1, h1, I1⟩ := tagWord_lex L U hi (g.lexicon i) (b := false) I hd (fun x hx => hx) (U.tags i hi) (fun x _ q => hnew i (by simp) (x.1, q))
    rw [populate, h1, Bool.false_or]
    cases ha : (g.lexicon i).any (fun x => allowed ⟨x.1, o.unit i⟩) with
    | false =>
      refine Or.inl ⟨i, by simp, rfl, ?_⟩
      intro t p ht
      rw [List.any_eq_false] at ha
      simpa using ha (t, p) ht
    | true =>
      simp only
      rcases ih I1 (by
        intro j u q hm
        rcases List.mem_append.1 hm with hm | hm
        · exact hd j u q hm
        · obtain ⟨x, _, hx⟩ := List.mem_map.1 hm
          injection hx with h1 h2
          rw [← h1]; exact hi) (fun j hj => hw j (by simp [hj])) hnd.2 (by
        intro j hj x hm
        rcases List.mem_append.1 hm with hm | hm
        · exact hnew j (by simp [hj]) x hm
        · obtain ⟨y, _, hy⟩ := List.mem_map.1 hm
          injection hy with h1 h2
          exact hnd.1 (h1 ▸ hj)) with ⟨j, hj, h, h'⟩ | ⟨st2, h2, I2⟩
      · exact Or.inl ⟨j, by simp [hj], h, h'⟩
      · refine Or.inr ⟨st2, h2, ?_⟩
        rw [lexRules, List.flatMap_cons, ← List.append_assoc]
        exact I2

theorem tagWord_some {i : Nat} : ∀ (tags : List (Nat × R)) {st st' : State V R} {b : Bool}, tagWord o allowed i tags (st, b) = some (st', true) →
    b = true ∨ ∃ t p, (t, p) ∈ tags ∧ allowed ⟨t, o.unit i⟩ = true := by
  intro tags
  induction tags with
  | nil =>
    intro st st' b h
    rw [tagWord] at h
    simp only [Option.some.injEq, Prod.mk.injEq] at h
    exact Or.inl h.2
  | cons x tags ih =>
    intro st st' b h
    obtain ⟨t, p⟩ := x
    rw [tagWord] at h
    obtain ⟨⟨st1, ok⟩, h1, h2⟩ := Option.bind_eq_some_iff.1 h
    rcases ih h2 with h3 | ⟨u, q, hm, ha⟩
    · rw [Bool.or_eq_true] at h3
      rcases h3 with h3 | h3
      · exact Or.inl h3
      · right
        refine ⟨t, p, by simp, ?_⟩
        subst h3
        rw [processLex] at h1
        simp only at h1
        split at h1
        · simp at h1
        · split at h1
          · simp at h1
          · split at h1
            · simp at h1
            · rename_i h4; simpa using h4
    · exact Or.inr ⟨u, q, by simp [hm], ha⟩

theorem populate_some : ∀ (words : List Nat) (st : State V R) {st' : State V R}, populate o g allowed words st = .ok st' →
    ∀ i ∈ words, ∃ t p, (t, p) ∈ g.lexicon i ∧ allowed ⟨t, o.unit i⟩ = true := by
  intro words
  induction words with
  | nil => intro _ _ _ i hi; cases hi
  | cons j words ih =>
    intro st st' h i hi
    rw [populate] at h
    split at h
    · cases h
    · rename_i st1 h1
      rcases List.mem_cons.1 hi with rfl | hi
      · rcases tagWord_some _ h1 with h2 | h2
        · cases h2
        · exact h2
      · exact ih st1 h i hi
    · cases h

theorem init_lex : Lex o g allowed n M [] (State.init : State V R) where
  wf := by simp [State.init, WF, keys]
  agenda := by simp [State.init, get?]
  probs := by simp [State.init]
  forest := by simp [State.init, get?]
  items := by simp [State.init]
  nodup := by simp [State.init]
  noprob := by simp [State.init]
  known := by simp
  lexical := by simp [State.init]

theorem lex_inv (L : Spec.Laws o n univ mem) {st : State V R} (I : Lex o g allowed n M (lexRules g (List.range n)) st) : Inv o g allowed n M 0 st where
  toGood := I.toGood
  lex := by
    intro i hi t p ht ha
    refine Or.inr ⟨p, p, I.known i t p ?_ ha, le_refl _⟩
    exact List.mem_flatMap.2 ⟨i, List.mem_range.2 hi, List.mem_map.2 ⟨(t, p), ht, rfl⟩⟩
  un := by intro r _ v c h; rw [I.noprob] at h; cases h
  bin := by intro r _ v w c d h; rw [I.noprob] at h; cases h
  opt := by intro x c h; rw [I.noprob] at h; cases h
  edges := by
    intro x e
    constructor
    · intro he
      rcases I.lexical x with h | ⟨ha, i, t, p, hm, rfl, h⟩
      · rw [h] at he; cases he
      · rw [h, List.mem_singleton] at he
        subst he
        obtain ⟨j, hj, hm⟩ := List.mem_flatMap.1 hm
        obtain ⟨y, hy, e⟩ := List.mem_map.1 hm
        injection e with e1 e2
        subst e1; subst e2
        exact ⟨ha, List.mem_range.1 hj, rfl, p, hy⟩
    · intro he
      cases e with
      | lex i =>
        obtain ⟨ha, hi, hv, p, hp⟩ := he
        have hx : x = ⟨x.label, o.unit i⟩ := by cases x; simp_all
        rw [hx] at ha
        have hg := I.known i x.label p (List.mem_flatMap.2 ⟨i, List.mem_range.2 hi, List.mem_map.2 ⟨_, hp, rfl⟩⟩) ha
        rcases I.lexical x with h | ⟨_, j, t, q, hm, h, hf⟩
        · rw [I.forest, hx, hg] at h
          cases h.1
        · obtain ⟨k, hk, hm⟩ := List.mem_flatMap.1 hm
          obtain ⟨y, hy, e⟩ := List.mem_map.1 hm
          injection e with e1 e2
          subst e1
          have : k = i := by
            refine unit_inj L (List.mem_range.1 hk) hi ?_
            rw [← hv, h]
          subst this
          rw [hf]; simp
      | rule r left =>
        obtain ⟨_, h, _⟩ := he
        exact absurd (I.noprob left) h
  once := by
    intro x
    rcases I.lexical x with h | ⟨_, i, t, p, _, _, h⟩ <;> rw [h] <;> simp

/-- Every word of a derived item has a tag. -/
theorem derives_mem (L : Spec.Laws o n univ mem) {x : Item V} {c : R} (h : Spec.Derives o g allowed n x c) :
    ∀ j, mem x.vec j = true → ∃ t p, (t, p) ∈ g.lexicon j ∧ allowed ⟨t, o.unit j⟩ = true := by
  induction h with
  | @lex i t p hi ht ha =>
    intro j hj
    simp only [L.unit_mem i hi, decide_eq_true_eq] at hj
    subst hj
    exact ⟨t, p, ht, ha⟩
  | unary _ _ _ ih => exact ih
  | binary hr hv hw hc ha ih1 ih2 =>
    intro j hj
    simp only [L.combine_mem _ (derives_univ L hv).1 _ (derives_univ L hw).1 _ _ hc, Bool.or_eq_true] at hj
    rcases hj with hj | hj
    · exact ih1 j hj
    · exact ih2 j hj

/-! ### Property -/

theorem parse_cases (L : Spec.Laws o n univ mem) (hn : 0 < n) {goal : Item V} (U : Spec.Usable g n M goal.label) {pick : Nat → Dict (Item V) (R × R) → Item V} (ex : Bool) (fuel : Nat) :
    (∃ i < n, parse o g M allowed pick goal ex n fuel = some (.notags i) ∧ ∀ t p, (t, p) ∈ g.lexicon i → allowed ⟨t, o.unit i⟩ = false) ∨
    ∃ st, Inv o g allowed n M 0 st ∧ (∀ x, st.probs x = none) ∧ parse o g M allowed pick goal ex n fuel = (loop o g M allowed pick goal ex fuel st).map .ok := by
  rcases populate_lex L U (List.range n) (init_lex (allowed := allowed)) (by simp) (by simp) List.nodup_range (by simp) with ⟨i, hi, h, h'⟩ | ⟨st, h, I⟩
  · exact Or.inl ⟨i, List.mem_range.1 hi, by rw [parse, h], h'⟩
  · simp only [List.nil_append] at I
    by_cases he : st.agenda = []
    · left
      refine ⟨0, hn, ?_⟩
      exfalso
      obtain ⟨t, p, ht, ha⟩ := populate_some (List.range n) _ h 0 (List.mem_range.2 hn)
      have := I.known 0 t p (List.mem_flatMap.2 ⟨0, List.mem_range.2 hn, List.mem_map.2 ⟨(t, p), ht, rfl⟩⟩) ha
      rw [he] at this; cases this
    · have he' : st.agenda.isEmpty = false := by cases h : st.agenda <;> simp_all
      exact Or.inr ⟨st, lex_inv L I, I.noprob, by rw [parse, h]; simp [he']⟩

/-- **C25**: with `exhaustive`, the chart contains exactly the items that have a derivation from the words of the sentence, each with the least cost of its derivations;
the edges of each item are exactly the ways to make it from items with a derivation, and no edge occurs twice. -/
theorem C25_viterbi (L : Spec.Laws o n univ mem) (hn : 0 < n) {goal : Item V} (U : Spec.Usable g n M goal.label) {pick : Nat → Dict (Item V) (R × R) → Item V} (hp : Spec.PicksLeast pick) {fuel : Nat}
    {st : State V R} (h : parse o g M allowed pick goal true n fuel = some (.ok st)) :
    (∀ x c, st.probs x = some c ↔ IsLeast {d | Spec.Derives o g allowed n x d} c) ∧
    (∀ x e, e ∈ st.forest x ↔ Spec.IsEdge o g allowed n x e) ∧ ∀ x, (st.forest x).Nodup := by
  rcases parse_cases L hn U (allowed := allowed) (pick := pick) true fuel with ⟨i, _, h1, _⟩ | ⟨st0, I0, _, h1⟩
  · rw [h1] at h; cases h
  · rw [h1] at h
    obtain ⟨st1, h2, h3⟩ := Option.map_eq_some_iff.1 h
    injection h3 with h3; subst h3
    obtain ⟨T, I, hA⟩ := loop_inv L U hp I0 h2
    have hA : st1.agenda = [] := by rcases hA with h | ⟨h, _⟩; exact h; cases h
    have hex : ∀ x d, Spec.Derives o g allowed n x d → ∃ c, st1.probs x = some c ∧ c ≤ d := by
      intro x d hd
      rcases frontier L U I hd with h | ⟨y, s, c, h, _⟩
      · exact h
      · rw [hA] at h; cases h
    have hdom : ∀ x, st1.probs x ≠ none ↔ ∃ c, Spec.Derives o g allowed n x c := by
      intro x
      constructor
      · intro h
        obtain ⟨c, hc⟩ := Option.ne_none_iff_exists'.1 h
        exact ⟨c, (I.probs x c hc).1⟩
      · rintro ⟨d, hd⟩
        obtain ⟨c, hc, _⟩ := hex x d hd
        rw [hc]; simp
    refine ⟨?_, ?_, I.once⟩
    · intro x c
      constructor
      · intro hc; exact ⟨(I.probs x c hc).1, fun d hd => I.opt x c hc d hd⟩
      · rintro ⟨h1, h2⟩
        obtain ⟨c', hc', hle⟩ := hex x c h1
        rw [hc', le_antisymm hle (h2 (I.probs x c' hc').1)]
    · intro x e
      rw [I.edges]
      cases e with
      | lex i => exact Iff.rfl
      | rule r left => simp only [EdgeIn, Spec.IsEdge, hdom]

/-- **C25**: without `exhaustive`, the goal is in the chart if and only if it has a derivation, with the least cost of its derivations; the costs of the other items in the chart
are least costs as well, and all edges are correct. -/
theorem C25_goal (L : Spec.Laws o n univ mem) (hn : 0 < n) {goal : Item V} (U : Spec.Usable g n M goal.label) {pick : Nat → Dict (Item V) (R × R) → Item V} (hp : Spec.PicksLeast pick) {ex : Bool} {fuel : Nat}
    {st : State V R} (h : parse o g M allowed pick goal ex n fuel = some (.ok st)) :
    (∀ c, st.probs goal = some c ↔ IsLeast {d | Spec.Derives o g allowed n goal d} c) ∧ ((∃ d, Spec.Derives o g allowed n goal d) → st.probs goal ≠ none) ∧
    (∀ x c, st.probs x = some c → IsLeast {d | Spec.Derives o g allowed n x d} c) ∧
    (∀ x e, e ∈ st.forest x → Spec.IsEdge o g allowed n x e) ∧ ∀ x, (st.forest x).Nodup := by
  rcases parse_cases L hn U (allowed := allowed) (pick := pick) ex fuel with ⟨i, _, h1, _⟩ | ⟨st0, I0, _, h1⟩
  · rw [h1] at h; cases h
  · rw [h1] at h
    obtain ⟨st1, h2, h3⟩ := Option.map_eq_some_iff.1 h
    injection h3 with h3; subst h3
    obtain ⟨T, I, hA⟩ := loop_inv L U hp I0 h2
    have hleast : ∀ x c, st1.probs x = some c → IsLeast {d | Spec.Derives o g allowed n x d} c := fun x c hc => ⟨(I.probs x c hc).1, fun d hd => I.opt x c hc d hd⟩
    have hex : (∃ d, Spec.Derives o g allowed n goal d) → st1.probs goal ≠ none := by
      rintro ⟨d, hd⟩
      rcases hA with hA | ⟨_, hA⟩
      · rcases frontier L U I hd with ⟨c, hc, _⟩ | ⟨y, s, c, h, _⟩
        · rw [hc]; simp
        · rw [hA] at h; cases h
      · exact hA
    refine ⟨?_, hex, hleast, ?_, I.once⟩
    · intro c
      refine ⟨hleast goal c, ?_⟩
      rintro ⟨h1, h2⟩
      obtain ⟨c', hc'⟩ := Option.ne_none_iff_exists'.1 (hex ⟨c, h1⟩)
      obtain ⟨h3, h4⟩ := hleast goal c' hc'
      rw [hc', le_antisymm (h4 h1) (h2 h3)]
    · intro x e he
      rw [I.edges] at he
      cases e with
      | lex i => exact he
      | rule r left =>
        have hdom : ∀ y, st1.probs y ≠ none → ∃ c, Spec.Derives o g allowed n y c := by
          intro y h
          obtain ⟨c, hc⟩ := Option.ne_none_iff_exists'.1 h
          exact ⟨c, (I.probs y c hc).1⟩
        obtain ⟨ha, hpl, hlhs, hl, h⟩ := he
        refine ⟨ha, hdom _ hpl, hlhs, hl, ?_⟩
        rcases h with h | ⟨hr, w, hw, h⟩
        · exact Or.inl h
        · exact Or.inr ⟨hr, w, hdom _ hw, h⟩

/-- **C25**: the parser stops, without an exception; the number of rounds is at most the number of items, i.e., pairs of a label and a bit vector. -/
theorem C25_terminates (L : Spec.Laws o n univ mem) (hn : 0 < n) {goal : Item V} (U : Spec.Usable g n M goal.label) {pick : Nat → Dict (Item V) (R × R) → Item V} (hp : Spec.PicksLeast pick) (ex : Bool)
    {labels : List Nat} (hlex : ∀ i < n, ∀ t p, (t, p) ∈ g.lexicon i → t ∈ labels) (hun : ∀ r ∈ g.unary, r.lhs ∈ labels) (hbin : ∀ r ∈ g.lbinary, r.lhs ∈ labels)
    {fuel : Nat} (hf : labels.length * univ.length ≤ fuel) :
    (∃ i < n, parse o g M allowed pick goal ex n fuel = some (.notags i)) ∨ ∃ st, parse o g M allowed pick goal ex n fuel = some (.ok st) := by
  rcases parse_cases L hn U (allowed := allowed) (pick := pick) ex fuel with ⟨i, hi, h1, _⟩ | ⟨st0, I0, hnone, h1⟩
  · exact Or.inl ⟨i, hi, h1⟩
  · right
    have hall : ∀ x c, Spec.Derives o g allowed n x c → x ∈ labels.flatMap (fun t => univ.map (fun v => (⟨t, v⟩ : Item V))) := by
      intro x c hx
      refine List.mem_flatMap.2 ⟨x.label, ?_, List.mem_map.2 ⟨x.vec, (derives_univ L hx).1, rfl⟩⟩
      cases hx with
      | lex hi ht _ => exact hlex _ hi _ _ ht
      | unary hr _ _ => exact hun _ hr
      | binary hr _ _ _ _ => exact hbin _ hr
    have hlen : (labels.flatMap (fun t => univ.map (fun v => (⟨t, v⟩ : Item V)))).length = labels.length * univ.length := by
      clear hlex hun hbin hf hall h1
      induction labels with
      | nil => simp
      | cons t labels ih => rw [List.flatMap_cons, List.length_append, ih, List.length_map, List.length_cons, Nat.succ_mul, Nat.add_comm]
    have := loop_terminates L U hp (ex := ex) _ hall I0 (fuel := fuel) (le_trans (List.length_filter_le _ _) (hlen ▸ hf))
    obtain ⟨st, hst⟩ := Option.ne_none_iff_exists'.1 this
    exact ⟨st, by rw [h1, hst]; rfl⟩

/-- **C25**: if the parser reports that a word has no tags, then no item that covers the word has a derivation. -/
theorem C25_notags (L : Spec.Laws o n univ mem) (hn : 0 < n) {goal : Item V} (U : Spec.Usable g n M goal.label) {pick : Nat → Dict (Item V) (R × R) → Item V} {ex : Bool} {fuel i : Nat}
    (h : parse o g M allowed pick goal ex n fuel = some (.notags i)) : i < n ∧ ∀ x : Item V, mem x.vec i = true → ¬ ∃ d, Spec.Derives o g allowed n x d := by
  rcases parse_cases L hn U (allowed := allowed) (pick := pick) ex fuel with ⟨j, hj, h1, h2⟩ | ⟨st0, I0, _, h1⟩
  · rw [h1] at h
    injection h with h; injection h with h; subst h
    refine ⟨hj, ?_⟩
    rintro x hx ⟨d, hd⟩
    obtain ⟨t, p, ht, ha⟩ := derives_mem L hd j hx
    rw [h2 t p ht] at ha; cases ha
  · rw [h1] at h
    obtain ⟨st1, h2, h3⟩ := Option.map_eq_some_iff.1 h
    cases h3

end

end Disco.Plcfrs
