import Mathlib.Algebra.BigOperators.Group.List.Basic
import Mathlib.Algebra.BigOperators.Ring.List
import Mathlib.Algebra.Field.Rat
import Mathlib.Algebra.Order.Field.Basic
import Mathlib.Algebra.Order.Ring.Rat
import Mathlib.Data.List.Nodup
import Mathlib.Data.List.Induction
import Mathlib.Data.List.Pairwise
import Mathlib.Logic.Function.Basic
import Mathlib.Tactic.Ring
/-!
# C55: inside and outside probabilities and pruning by posterior probability, `getinside`, `getoutside`, `posteriorthreshold` (coarsetofine.pyx:182-289)

Simplifications: probabilities are elements of a (linearly ordered) field instead of floats. An item is an element of a type, the vectors `inside` and `outside` are functions of items;
edges of the parse forest have the children that `chart._left` and `chart._right` would give. The message is left out.
-/
set_option linter.unusedSectionVars false
namespace Disco.Inside

variable {ι : Type} [DecidableEq ι] {K : Type}

/-! ### Models -/

/-- An edge of `chart.parseforest[item]`: lexical (`edge.rule is NULL`, with the probability of `chart.lexprob`), unary (`rhs2 == 0`) or binary, with the probability of the rule and children. -/
inductive Edge (ι K : Type) where
  | lex (p : K)
  | un (p : K) (l : ι)
  | bin (p : K) (l r : ι)
  deriving DecidableEq

/-- `chart.parseforest`. -/
abbrev Forest (ι K : Type) := ι → List (Edge ι K)

/-- The probability for one edge in `getinside` (coarsetofine.pyx:234-254). -/
def edgeInside [Semiring K] (ins : ι → K) : Edge ι K → K
  | .lex p => p
  | .un p l => p * ins l
  | .bin p l r => p * ins l * ins r

/-- `chart.inside[item] += prob` for all edges of an item (coarsetofine.pyx:233-256). -/
def insideItem [Semiring K] (F : Forest ι K) (ins : ι → K) (i : ι) : ι → K :=
  (F i).foldl (fun ins e => Function.update ins i (ins i + edgeInside ins e)) ins

/-- `getinside` (coarsetofine.pyx:214-256); `order` has the items `chart.getitemidx(n)` for `n` from 1 to `chart.numitems()`. -/
def getinside [Semiring K] (F : Forest ι K) (order : List ι) : ι → K := order.foldl (insideItem F) (fun _ => 0)

/-- One edge in `getoutside` (coarsetofine.pyx:273-288). -/
def outsideEdge [Semiring K] (ins : ι → K) (i : ι) (out : ι → K) : Edge ι K → ι → K
  | .lex _ => out
  | .un p l => Function.update out l (out l + p * out i)
  | .bin p l r =>
    let outsideprob := out i
    let out := Function.update out l (out l + p * ins r * outsideprob)
    Function.update out r (out r + p * ins l * outsideprob)

/-- `getoutside` (coarsetofine.pyx:259-288). -/
def getoutside [Semiring K] (F : Forest ι K) (order : List ι) (root : ι) (ins : ι → K) : ι → K :=
  order.reverse.foldl (fun out i => (F i).foldl (outsideEdge ins i) out) (Function.update (fun _ => 0) root 1)

/-- `posteriorthreshold` (coarsetofine.pyx:182-211): the remaining items, or an exception. `all` are the indices of the vector `chart.inside`. Simplification: `inside` and
`outside` have not been computed before. -/
def posteriorthreshold [Field K] [LinearOrder K] (F : Forest ι K) (order : List ι) (root : ι) (all : List ι) (threshold : K) : Option (List ι) :=
  if ¬ (0 < threshold ∧ threshold < 1) then none
  else
    let ins := getinside F order
    let out := getoutside F order root ins
    let sentprob := ins root
    let threshold := threshold * sentprob
    if sentprob = 0 then none
    else some (all.filter fun i => decide (threshold < ins i * out i))

/-! ### Specification -/

/-- A derivation: an item, which of its edges is used, and derivations of the children. -/
inductive Deriv (ι : Type) where
  | lex (i : ι) (k : Nat)
  | un (i : ι) (k : Nat) (d : Deriv ι)
  | bin (i : ι) (k : Nat) (d e : Deriv ι)
  deriving DecidableEq

/-- Derivations in the forest, and their probability: the product of the probabilities of the edges. -/
inductive Spec.Derives [Semiring K] (F : Forest ι K) : ι → Deriv ι → K → Prop
  | lex {i : ι} {k : Nat} {p : K} : (F i)[k]? = some (.lex p) → Derives F i (.lex i k) p
  | un {i l : ι} {k : Nat} {p q : K} {d : Deriv ι} : (F i)[k]? = some (.un p l) → Derives F l d q → Derives F i (.un i k d) (p * q)
  | bin {i l r : ι} {k : Nat} {p q s : K} {d e : Deriv ι} : (F i)[k]? = some (.bin p l r) → Derives F l d q → Derives F r e s → Derives F i (.bin i k d e) (p * q * s)

/-- The items in a derivation. -/
def Deriv.items : Deriv ι → List ι
  | .lex i _ => [i]
  | .un i _ d => i :: d.items
  | .bin i _ d e => i :: (d.items ++ e.items)

/-- The total probability of all derivations with a property. -/
def Spec.Total [Semiring K] (F : Forest ι K) (i : ι) (P : Deriv ι → Prop) (x : K) : Prop :=
  ∃ L : List (Deriv ι × K), L.Nodup ∧ (∀ d q, (d, q) ∈ L ↔ Spec.Derives F i d q ∧ P d) ∧ x = (L.map Prod.snd).sum

/-- The items are in bottom-up order: children before parents. Items which are not in the list have no edges. -/
structure Spec.BottomUp (F : Forest ι K) (order : List ι) : Prop where
  nodup : order.Nodup
  all : ∀ i, F i ≠ [] → i ∈ order
  un : ∀ pre i post, order = pre ++ i :: post → ∀ p l, .un p l ∈ F i → l ∈ pre
  bin : ∀ pre i post, order = pre ++ i :: post → ∀ p l r, .bin p l r ∈ F i → l ∈ pre ∧ r ∈ pre

/-- Items cover non-empty sets of words: the children of a binary edge cover disjoint parts of what their parent covers. -/
structure Spec.Spans (F : Forest ι K) (span : ι → Nat → Prop) : Prop where
  nonempty : ∀ i, ∃ n, span i n
  un : ∀ i p l, .un p l ∈ F i → ∀ n, span l n → span i n
  bin : ∀ i p l r, .bin p l r ∈ F i → ∀ n, (span l n → span i n) ∧ (span r n → span i n) ∧ ¬ (span l n ∧ span r n)

/-! ### Inside -/

section inside
variable [CommRing K]

/-- A list of all derivations. -/
def En (F : Forest ι K) (i : ι) (L : List (Deriv ι × K)) : Prop := L.Nodup ∧ ∀ d q, (d, q) ∈ L ↔ Spec.Derives F i d q

/-- The derivations that start with an edge. -/
def edgeDers (f : ι → List (Deriv ι × K)) (i : ι) (k : Nat) : Edge ι K → List (Deriv ι × K)
  | .lex p => [(.lex i k, p)]
  | .un p l => (f l).map fun x => (.un i k x.1, p * x.2)
  | .bin p l r => (f l).flatMap fun x => (f r).map fun y => (.bin i k x.1 y.1, p * x.2 * y.2)

omit [DecidableEq ι] in
theorem derives_prob {F : Forest ι K} {i j : ι} {d : Deriv ι} {q s : K} (h : Spec.Derives F i d q) (h' : Spec.Derives F j d s) : i = j ∧ q = s := by
  induction h generalizing j s with
  | lex h =>
    cases h' with
    | lex h2 => rw [h, Option.some.injEq] at h2; cases h2; exact ⟨rfl, rfl⟩
  | un h _ ih =>
    cases h' with
    | un h2 h3 => rw [h, Option.some.injEq] at h2; cases h2; exact ⟨rfl, by rw [(ih h3).2]⟩
  | bin h _ _ ih ih2 =>
    cases h' with
    | bin h2 h3 h4 => rw [h, Option.some.injEq] at h2; cases h2; exact ⟨rfl, by rw [(ih h3).2, (ih2 h4).2]⟩

omit [DecidableEq ι] in
theorem sum_edgeDers (f : ι → List (Deriv ι × K)) (i : ι) (k : Nat) (e : Edge ι K) :
    ((edgeDers f i k e).map Prod.snd).sum = edgeInside (fun j => ((f j).map Prod.snd).sum) e := by
  cases e with
  | lex p => simp [edgeDers, edgeInside]
  | un p l =>
    simp only [edgeDers, edgeInside, List.map_map]
    rw [← List.sum_map_mul_left]; rfl
  | bin p l r =>
    simp only [edgeDers, edgeInside]
    generalize f r = M
    induction f l with
    | nil => simp
    | cons x L ih =>
      simp only [List.flatMap_cons, List.map_append, List.sum_append, ih, List.map_map, List.map_cons, List.sum_cons]
      have : (M.map (Prod.snd ∘ fun y => (Deriv.bin i k x.1 y.1, p * x.2 * y.2))).sum = p * x.2 * (M.map Prod.snd).sum := by
        rw [← List.sum_map_mul_left]; rfl
      rw [this]; ring

omit [DecidableEq ι] in
theorem mem_edgeDers {F : Forest ι K} {f : ι → List (Deriv ι × K)} {i : ι} {k : Nat} {e : Edge ι K} (he : (F i)[k]? = some e)
    (hu : ∀ p l, e = .un p l → En F l (f l)) (hb : ∀ p l r, e = .bin p l r → En F l (f l) ∧ En F r (f r)) :
    (edgeDers f i k e).Nodup ∧ ∀ d q, (d, q) ∈ edgeDers f i k e ↔ Spec.Derives F i d q ∧
      ((∃ d', d = .un i k d') ∨ (∃ d' e', d = .bin i k d' e') ∨ d = .lex i k) := by
  cases e with
  | lex p =>
    refine ⟨by simp [edgeDers], fun d q => ?_⟩
    simp only [edgeDers, List.mem_singleton, Prod.mk.injEq]
    constructor
    · rintro ⟨rfl, rfl⟩; exact ⟨.lex he, Or.inr (Or.inr rfl)⟩
    · rintro ⟨h, ⟨d', rfl⟩ | ⟨d', e', rfl⟩ | rfl⟩
      · cases h with | un h2 => rw [he] at h2; cases h2
      · cases h with | bin h2 => rw [he] at h2; cases h2
      · cases h with | lex h2 => rw [he] at h2; cases h2; exact ⟨rfl, rfl⟩
  | un p l =>
    obtain ⟨h1, h2⟩ := hu p l rfl
    constructor
    · simp only [edgeDers]
      refine List.Nodup.map_on ?_ h1
      rintro ⟨d, q⟩ hx ⟨d', q'⟩ hy e
      simp only [Prod.mk.injEq, Deriv.un.injEq, true_and] at e
      obtain ⟨rfl, -⟩ := e
      rw [(derives_prob ((h2 _ _).1 hx) ((h2 _ _).1 hy)).2]
    · intro d q
      simp only [edgeDers, List.mem_map, Prod.mk.injEq, Prod.exists]
      constructor
      · rintro ⟨d', q', h3, rfl, rfl⟩
        exact ⟨.un he ((h2 _ _).1 h3), Or.inl ⟨_, rfl⟩⟩
      · rintro ⟨h, ⟨d', rfl⟩ | ⟨d', e', rfl⟩ | rfl⟩
        · cases h with | un h3 h4 => rw [he] at h3; cases h3; exact ⟨_, _, (h2 _ _).2 h4, rfl, rfl⟩
        · cases h with | bin h3 => rw [he] at h3; cases h3
        · cases h with | lex h3 => rw [he] at h3; cases h3
  | bin p l r =>
    obtain ⟨⟨h1, h2⟩, g1, g2⟩ := hb p l r rfl
    constructor
    · simp only [edgeDers]
      rw [List.nodup_flatMap]
      constructor
      · intro x hx
        refine List.Nodup.map_on ?_ g1
        rintro ⟨d, q⟩ hx ⟨d', q'⟩ hy e
        simp only [Prod.mk.injEq, Deriv.bin.injEq, true_and] at e
        obtain ⟨rfl, -⟩ := e
        rw [(derives_prob ((g2 _ _).1 hx) ((g2 _ _).1 hy)).2]
      · refine (List.pairwise_iff_forall_sublist.2 ?_ : List.Pairwise _ (f l))
        rintro ⟨d, q⟩ ⟨d', q'⟩ hs
        have hm1 := hs.subset (by simp : (d, q) ∈ [(d, q), (d', q')])
        have hm2 := hs.subset (by simp : (d', q') ∈ [(d, q), (d', q')])
        have hne : (d, q) ≠ (d', q') := by have := h1.sublist hs; simpa using this
        rintro ⟨D, Q⟩ ha hb'
        simp only [List.mem_map, Prod.mk.injEq, Prod.exists] at ha hb'
        obtain ⟨a, b, -, rfl, -⟩ := ha
        obtain ⟨a', b', -, e, -⟩ := hb'
        simp only [Deriv.bin.injEq, true_and] at e
        obtain ⟨rfl, -⟩ := e
        exact hne (by rw [(derives_prob ((h2 _ _).1 hm1) ((h2 _ _).1 hm2)).2])
    · intro d q
      simp only [edgeDers, List.mem_flatMap, List.mem_map, Prod.mk.injEq, Prod.exists]
      constructor
      · rintro ⟨d', q', h3, d'', q'', h4, rfl, rfl⟩
        exact ⟨.bin he ((h2 _ _).1 h3) ((g2 _ _).1 h4), Or.inr (Or.inl ⟨_, _, rfl⟩)⟩
      · rintro ⟨h, ⟨d', rfl⟩ | ⟨d', e', rfl⟩ | rfl⟩
        · cases h with | un h3 h4 => rw [he] at h3; cases h3
        · cases h with | bin h3 h4 h5 => rw [he] at h3; cases h3; exact ⟨_, _, (h2 _ _).2 h4, _, _, (g2 _ _).2 h5, rfl, rfl⟩
        · cases h with | lex h3 => rw [he] at h3; cases h3

/-- All derivations of an item, from those of the children. -/
theorem en_item {F : Forest ι K} {f : ι → List (Deriv ι × K)} {i : ι} (hu : ∀ p l, .un p l ∈ F i → En F l (f l))
    (hb : ∀ p l r, .bin p l r ∈ F i → En F l (f l) ∧ En F r (f r)) : ∃ L, En F i L ∧ (L.map Prod.snd).sum = ((F i).map (edgeInside fun j => ((f j).map Prod.snd).sum)).sum := by
  have key : ∀ m ≤ (F i).length, ∃ L : List (Deriv ι × K), L.Nodup ∧ (∀ d q, (d, q) ∈ L ↔ Spec.Derives F i d q ∧
      ∃ k < m, (∃ d', d = .un i k d') ∨ (∃ d' e', d = .bin i k d' e') ∨ d = .lex i k) ∧
      (L.map Prod.snd).sum = (((F i).take m).map (edgeInside fun j => ((f j).map Prod.snd).sum)).sum := by
    intro m
    induction m with
    | zero => intro _; exact ⟨[], by simp⟩
    | succ m ih =>
      intro hm
      obtain ⟨L, h1, h2, h3⟩ := ih (by omega)
      have he := List.getElem?_eq_getElem (l := F i) (i := m) (by omega)
      have hmem := List.getElem_mem (l := F i) (n := m) (by omega)
      obtain ⟨g1, g2⟩ := mem_edgeDers (f := f) he (fun p l e => hu p l (e ▸ hmem)) (fun p l r e => hb p l r (e ▸ hmem))
      refine ⟨L ++ edgeDers f i m (F i)[m], ?_, ?_, ?_⟩
      · refine List.Nodup.append h1 g1 ?_
        rintro ⟨d, q⟩ ha hb'
        obtain ⟨-, k, hk, h4⟩ := (h2 d q).1 ha
        obtain ⟨-, h5⟩ := (g2 d q).1 hb'
        rcases h4 with ⟨d', rfl⟩ | ⟨d', e', rfl⟩ | rfl <;> simp at h5 <;> omega
      · intro d q
        rw [List.mem_append, h2, g2]
        constructor
        · rintro (⟨h, k, hk, h4⟩ | ⟨h, h4⟩)
          · exact ⟨h, k, by omega, h4⟩
          · exact ⟨h, m, by omega, h4⟩
        · rintro ⟨h, k, hk, h4⟩
          rcases Nat.lt_or_ge k m with hk' | hk'
          · exact Or.inl ⟨h, k, hk', h4⟩
          · obtain rfl : k = m := by omega
            exact Or.inr ⟨h, h4⟩
      · rw [List.map_append, List.sum_append, h3, sum_edgeDers, List.take_add_one, he, Option.toList_some, List.map_append, List.sum_append]
        simp
  obtain ⟨L, h1, h2, h3⟩ := key (F i).length le_rfl
  refine ⟨L, ⟨h1, fun d q => ?_⟩, by rw [h3, List.take_length]⟩
  rw [h2]
  refine ⟨fun h => h.1, fun h => ⟨h, ?_⟩⟩
  cases h with
  | lex h => exact ⟨_, (List.getElem?_eq_some_iff.1 h).1, Or.inr (Or.inr rfl)⟩
  | un h _ => exact ⟨_, (List.getElem?_eq_some_iff.1 h).1, Or.inl ⟨_, rfl⟩⟩
  | bin h _ _ => exact ⟨_, (List.getElem?_eq_some_iff.1 h).1, Or.inr (Or.inl ⟨_, _, rfl⟩)⟩

theorem edgeInside_congr {ins ins' : ι → K} {e : Edge ι K} (hu : ∀ p l, e = .un p l → ins l = ins' l) (hb : ∀ p l r, e = .bin p l r → ins l = ins' l ∧ ins r = ins' r) :
    edgeInside ins e = edgeInside ins' e := by
  cases e with
  | lex p => rfl
  | un p l => simp [edgeInside, hu p l rfl]
  | bin p l r => simp [edgeInside, (hb p l r rfl).1, (hb p l r rfl).2]

theorem insideItem_eq {F : Forest ι K} {i : ι} (hu : ∀ p l, .un p l ∈ F i → l ≠ i) (hb : ∀ p l r, .bin p l r ∈ F i → l ≠ i ∧ r ≠ i) (ins : ι → K) :
    insideItem F ins i = Function.update ins i (ins i + ((F i).map (edgeInside ins)).sum) := by
  unfold insideItem
  generalize F i = es at hu hb
  induction es generalizing ins with
  | nil => simp
  | cons e es ih =>
    rw [List.foldl_cons, ih _ (fun p l h => hu p l (by simp [h])) (fun p l r h => hb p l r (by simp [h]))]
    have : es.map (edgeInside (Function.update ins i (ins i + edgeInside ins e))) = es.map (edgeInside ins) := by
      refine List.map_congr_left fun x hx => edgeInside_congr ?_ ?_
      · rintro p l rfl; rw [Function.update_of_ne (hu p l (by simp [hx]))]
      · rintro p l r rfl
        have := hb p l r (by simp [hx])
        rw [Function.update_of_ne this.1, Function.update_of_ne this.2]; exact ⟨rfl, rfl⟩
    rw [this]
    simp [add_assoc]

theorem inside_loop {F : Forest ι K} {order : List ι} (B : Spec.BottomUp F order) : ∀ pre post, order = pre ++ post → ∀ j,
    (j ∈ pre → ∃ L, En F j L ∧ (pre.foldl (insideItem F) (fun _ => 0)) j = (L.map Prod.snd).sum) ∧ (j ∉ pre → (pre.foldl (insideItem F) (fun _ => (0 : K))) j = 0) := by
  intro pre
  induction pre using List.reverseRecOn with
  | nil => intro post _ j; simp
  | append_singleton pre i ih =>
    intro post e j
    have e' : order = pre ++ i :: post := by rw [e]; simp
    have hnd : i ∉ pre := by
      have := B.nodup
      rw [e'] at this
      intro h
      exact (List.nodup_append.1 this).2.2 i h i (by simp) rfl
    have ih' := ih (i :: post) e'
    rw [List.foldl_append, List.foldl_cons, List.foldl_nil]
    generalize pre.foldl (insideItem F) (fun _ => (0 : K)) = ins at ih'
    have hu : ∀ p l, .un p l ∈ F i → l ≠ i := fun p l h => by rintro rfl; exact hnd (B.un _ _ _ e' _ _ h)
    have hb : ∀ p l r, .bin p l r ∈ F i → l ≠ i ∧ r ≠ i :=
      fun p l r h => ⟨by rintro rfl; exact hnd (B.bin _ _ _ e' _ _ _ h).1, by rintro rfl; exact hnd (B.bin _ _ _ e' _ _ _ h).2⟩
    rw [insideItem_eq hu hb]
    constructor
    · intro hj
      rcases List.mem_append.1 hj with hj | hj
      · have : j ≠ i := fun h => hnd (h ▸ ‹j ∈ pre›)
        rw [Function.update_of_ne this]
        exact (ih' j).1 hj
      · rw [List.mem_singleton] at hj
        subst hj
        have hf : ∀ l, ∃ L, l ∈ pre → En F l L ∧ ins l = (L.map Prod.snd).sum := by
          intro l
          by_cases hl : l ∈ pre
          · obtain ⟨L, h⟩ := (ih' l).1 hl
            exact ⟨L, fun _ => h⟩
          · exact ⟨[], fun h => absurd h hl⟩
        choose f hf using hf
        obtain ⟨L, h1, h2⟩ := en_item (F := F) (f := f) (i := j) (fun p l h => (hf l (B.un _ _ _ e' _ _ h)).1)
          (fun p l r h => ⟨(hf l (B.bin _ _ _ e' _ _ _ h).1).1, (hf r (B.bin _ _ _ e' _ _ _ h).2).1⟩)
        refine ⟨L, h1, ?_⟩
        rw [Function.update_self, (ih' j).2 hnd, zero_add, h2]
        congr 1
        refine List.map_congr_left fun x hx => edgeInside_congr ?_ ?_
        · rintro p l rfl; exact (hf l (B.un _ _ _ e' _ _ hx)).2
        · rintro p l r rfl
          have := B.bin _ _ _ e' _ _ _ hx
          exact ⟨(hf l this.1).2, (hf r this.2).2⟩
    · intro hj
      simp only [List.mem_append, List.mem_singleton, not_or] at hj
      rw [Function.update_of_ne hj.2]
      exact (ih' j).2 hj.1

theorem inside_en {F : Forest ι K} {order : List ι} (B : Spec.BottomUp F order) (j : ι) : ∃ L, En F j L ∧ getinside F order j = (L.map Prod.snd).sum := by
  by_cases hj : j ∈ order
  · exact (inside_loop B order [] (by simp) j).1 hj
  · have h0 : F j = [] := by by_contra h; exact hj (B.all j h)
    refine ⟨[], ⟨by simp, fun d q => ?_⟩, by rw [getinside, (inside_loop B order [] (by simp) j).2 hj]; rfl⟩
    simp only [List.not_mem_nil, false_iff]
    intro h
    cases h with
    | lex h => simp [h0] at h
    | un h => simp [h0] at h
    | bin h => simp [h0] at h

/-- **C55**: Inside probabilities: when items are in bottom-up order, the inside probability of an item is the sum of the probabilities of all its derivations in the chart. -/
theorem C55_inside {F : Forest ι K} {order : List ι} (B : Spec.BottomUp F order) (i : ι) : Spec.Total F i (fun _ => True) (getinside F order i) := by
  obtain ⟨L, h1, h2⟩ := inside_en B i
  exact ⟨L, h1.1, by simpa using h1.2, h2⟩

end inside

end Disco.Inside
