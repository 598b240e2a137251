import Verif.Trees.OptBin
import Verif.Trees.Factor
import Mathlib.Data.List.Sort
/-!
# C62: `minimalbinarization` and `optimalbinarize` (treetransforms.py:728-882) on trees

The trees are the annotated trees of C40 (`Factor.BT`). The variant with `head` is not modelled. The argument `parentstr` is empty (`v=1`).
-/
namespace Disco.OptBin
open Factor (BT)

/-- The scoring functions. -/
inductive Fun where
  | complexityfanout
  | fanoutcomplexity
deriving DecidableEq

/-- The score of a node with fan-out `f` and sum `k` of the fan-outs of its children (treetransforms.py:897-904). -/
def Fun.mk : Fun → Nat → Nat → Sc
  | .complexityfanout, f, k => toLex (f + k, f)
  | .fanoutcomplexity, f, k => toLex (f, f + k)

/-- `fanout(tree)` (treetransforms.py:881-883); `none` if the attribute is missing. -/
def fan : BT → Option Nat
  | .leaf _ => some 1
  | .node _ b _ => b.map Bits.fanout

/-- `score(a)` (treetransforms.py:897-904); an index has no children (`TypeError`). -/
def score (f : Fun) : BT → Option Sc
  | .leaf _ => none
  | .node _ b cs => match b, cs.mapM fan with
    | some b, some ks => some (f.mk (Bits.fanout b) ks.sum)
    | _, _ => none

/-- The search problem for the children of a constituent. -/
def prob (f : Fun) (cs : List BT) : Prob :=
  { n := cs.length, cb := fun i => ((cs[i]?).bind BT.bits?).getD 0, sc0 := fun i => ((cs[i]?).bind (score f)).getD (toLex (0, 0)), sc := fun m a b => f.mk (Bits.fanout m) (Bits.fanout a + Bits.fanout b) }

/-- The label of `newproduction` (treetransforms.py:785-789) with `siblings = getbits(s)`. -/
def labelOf (l sep : Str) (labels : List Str) (s : Nat) : Str :=
  l ++ (sep ++ '<' :: (Str.join [','] ((Bits.getbits s).map fun x => labels.getD x []) ++ ['>']))

/-- The tree of a partial binarization. -/
def build (l sep : Str) (labels : List Str) (cs : List BT) : PT → BT
  | .child i => cs.getD i (.leaf 0)
  | .node s b x y => .node (labelOf l sep labels s) (some b) [build l sep labels cs x, build l sep labels cs y]

/-- `p[:]`, the children of the item found (treetransforms.py:838). -/
def kids (l sep : Str) (labels : List Str) (cs : List BT) : PT → List BT
  | .child i => match cs.getD i (.leaf 0) with
    | .leaf _ => []
    | .node _ _ ds => ds
  | .node _ _ x y => [build l sep labels cs x, build l sep labels cs y]

/-- The parameters of the call of `factorconstituent` (treetransforms.py:798). -/
def factorCfg (sep : Str) (h : Nat) : Factor.Cfg := ⟨sep, h, true, false, false, [], BT.label?⟩

/-- `minimalbinarization(tree, score, sep, head=None, h=h)` (treetransforms.py:753-877). -/
def minimal (f : Fun) (sep : Str) (h : Nat) : BT → Option BT
  | .leaf i => some (.leaf i)
  | .node l b cs =>
    if cs.length ≤ 2 then some (.node l b cs)
    else match b.map Bits.fanout, cs.mapM fan with
      | some fo, some fs =>
        if fo = 1 ∧ fs.all (fun x => decide (x = 1)) then ((factorCfg sep h).factor 2 none l b cs).map Prod.fst
        else match cs.mapM BT.label?, cs.mapM BT.bits?, cs.mapM (score f) with
          | some labels, some _, some _ => match findBin (prob f cs) (2 ^ cs.length) with
            | .found p => some (.node l b (kids l sep labels cs p))
            | _ => none
          | _, _, _ => none
      | _, _ => none

mutual
/-- `_optimalbinarize(tree, fun, sep, False, h, 1, ())` (treetransforms.py:740-750). -/
def optimal (f : Fun) (sep : Str) (h : Nat) : BT → Option BT
  | .leaf i => some (.leaf i)
  | .node l b cs => match optimalL f sep h cs with
    | none => none
    | some cs' => minimal f sep h (.node l b cs')
/-- The children. -/
def optimalL (f : Fun) (sep : Str) (h : Nat) : List BT → Option (List BT)
  | [] => some []
  | c :: cs => match optimal f sep h c, optimalL f sep h cs with
    | some c', some cs' => some (c' :: cs')
    | _, _ => none
end

/-! ## Specification -/

/-- The label of an artificial node that covers the children with the given numbers: it names them in increasing order. -/
def Spec.artLabel (l sep : Str) (cs : List BT) (leaves : List Nat) : Str :=
  l ++ (sep ++ '<' :: (Str.join [','] (((List.range cs.length).filter fun i => decide (i ∈ leaves)).map fun i => ((cs[i]?).bind BT.label?).getD []) ++ ['>']))

/-- The tree is the binarization below the root: the leaves are children, the other nodes are artificial nodes. -/
inductive Spec.Realizes (l sep : Str) (cs : List BT) : Spec.Bin → BT → Prop
  | leaf {i c} : cs[i]? = some c → Spec.Realizes l sep cs (.leaf i) c
  | node {a b x y s m} : Spec.Realizes l sep cs a x → Spec.Realizes l sep cs b y → s = Spec.artLabel l sep cs (a.leaves ++ b.leaves) →
      (∀ k, m.testBit k = true ↔ ∃ i ∈ a.leaves ++ b.leaves, ∃ c u, cs[i]? = some c ∧ c.bits? = some u ∧ u.testBit k = true) →
      Spec.Realizes l sep cs (.node a b) (.node s (some m) [x, y])

/-- `t` is the binarization `B` of the constituent with label `l`, bitset `b` and children `cs`. -/
def Spec.IsBin (l sep : Str) (b : Option Nat) (cs : List BT) (B : Spec.Bin) (t : BT) : Prop :=
  ∃ B1 B2 x y, B = .node B1 B2 ∧ t = .node l b [x, y] ∧ Spec.Realizes l sep cs B1 x ∧ Spec.Realizes l sep cs B2 y

/-- A constituent as produced by `addbitsets` from a tree in canonical order (`canonicalize`): the children are constituents that cover
disjoint non-empty sets of positions, whose union is that of the constituent, and they are ordered by their first position. -/
structure Spec.Annotated (f : Fun) (m : Nat) (cs : List BT) : Prop where
  node : ∀ c ∈ cs, ∃ l u ds, c = .node l (some u) ds ∧ u ≠ 0 ∧ ∃ s, score f c = some s
  union : ∀ k, m.testBit k = true ↔ ∃ c ∈ cs, ∃ u, c.bits? = some u ∧ u.testBit k = true
  disj : cs.Pairwise fun c d => ∀ u v, c.bits? = some u → d.bits? = some v → u &&& v = 0
  order : cs.Pairwise fun c d => ∀ u v, c.bits? = some u → d.bits? = some v → ∃ i, u.testBit i = true ∧ ∀ j, v.testBit j = true → i < j

/-! ## Helper lemmas -/

theorem sorted_eq {l l' : List Nat} (h : l.Pairwise (· < ·)) (h' : l'.Pairwise (· < ·)) (hm : ∀ i, i ∈ l ↔ i ∈ l') : l = l' :=
  List.Perm.eq_of_pairwise' (r := (· < ·)) h h' ((List.perm_ext_iff_of_nodup (h.imp Nat.ne_of_lt) (h'.imp Nat.ne_of_lt)).2 hm)

theorem mapM_some {A B : Type} {g : A → Option B} {l : List A} (h : ∀ a ∈ l, ∃ b, g a = some b) : ∃ r, l.mapM g = some r := by
  induction l with
  | nil => exact ⟨[], rfl⟩
  | cons a l ih =>
    obtain ⟨b, hb⟩ := h a List.mem_cons_self
    obtain ⟨r, hr⟩ := ih fun x hx => h x (List.mem_cons_of_mem _ hx)
    exact ⟨b :: r, by simp [List.mapM_cons, hb, hr]⟩

theorem mapM_getD {A B : Type} {g : A → Option B} {l : List A} {r : List B} (h : l.mapM g = some r) (i : Nat) : r[i]? = (l[i]?).bind g := by
  induction l generalizing r i with
  | nil =>
    simp only [List.mapM_nil] at h
    cases h
    simp
  | cons a l ih =>
    simp only [List.mapM_cons] at h
    cases ha : g a with
    | none => simp [ha] at h
    | some b =>
      cases hr : l.mapM g with
      | none => simp [ha, hr] at h
      | some r' =>
        simp [ha, hr] at h
        subst h
        cases i with
        | zero => simp [ha]
        | succ i => simpa using ih hr i

theorem prob_symm (f : Fun) (cs : List BT) : (prob f cs).Symm := by
  intro s a b
  simp only [prob]
  rw [Nat.add_comm]

theorem bits_prob {f : Fun} {cs : List BT} (hc : ∀ c ∈ cs, ∃ u, c.bits? = some u) {t : Spec.Bin} (ht : ∀ i ∈ t.leaves, i < cs.length) (k : Nat) :
    (t.bits (prob f cs)).testBit k = true ↔ ∃ i ∈ t.leaves, ∃ c u, cs[i]? = some c ∧ c.bits? = some u ∧ u.testBit k = true := by
  rw [Spec.Bin.bits_mem]
  constructor
  · rintro ⟨i, hi, h⟩
    have hl := ht i hi
    obtain ⟨u, hu⟩ := hc cs[i] (List.getElem_mem _)
    refine ⟨i, hi, cs[i], u, List.getElem?_eq_getElem hl, hu, ?_⟩
    simpa [prob, List.getElem?_eq_getElem hl, hu] using h
  · rintro ⟨i, hi, c, u, h1, h2, h3⟩
    exact ⟨i, hi, by simpa [prob, h1, h2] using h3⟩

theorem labelOf_eq {l sep : Str} {cs : List BT} {labels : List Str} (hl : cs.mapM BT.label? = some labels) {s : Nat} {leaves : List Nat}
    (hs : ∀ i, s.testBit i = true ↔ i ∈ leaves) (hlt : ∀ i ∈ leaves, i < cs.length) : labelOf l sep labels s = Spec.artLabel l sep cs leaves := by
  have hb : Bits.getbits s = (List.range cs.length).filter fun i => decide (i ∈ leaves) := by
    obtain ⟨h1, h2⟩ := Bits.C09_getbits s
    refine sorted_eq h1 ((List.pairwise_lt_range).filter _) fun i => ?_
    rw [h2, hs]
    simp only [List.mem_filter, List.mem_range, decide_eq_true_eq]
    exact ⟨fun h => ⟨hlt i h, h⟩, fun h => h.2⟩
  rw [labelOf, Spec.artLabel, hb]
  have : ∀ x, labels.getD x [] = ((cs[x]?).bind BT.label?).getD [] := by
    intro x
    rw [List.getD_eq_getElem?_getD, mapM_getD hl]
  simp only [this]

theorem build_realizes {f : Fun} {l sep : Str} {cs : List BT} {labels : List Str} (hl : cs.mapM BT.label? = some labels)
    (hc : ∀ c ∈ cs, ∃ u, c.bits? = some u) {p : PT} (hr : p.Recorded (prob f cs)) (hlt : ∀ i ∈ p.tree.leaves, i < cs.length) :
    Spec.Realizes l sep cs p.tree (build l sep labels cs p) := by
  induction p with
  | child i =>
    have hi : i < cs.length := hlt i (by simp [PT.tree, Spec.Bin.leaves])
    refine .leaf ?_
    simp [build, List.getElem?_eq_getElem hi]
  | node s b x y ihx ihy =>
    obtain ⟨h1, h2, h3, h4⟩ := hr
    simp only [PT.tree, Spec.Bin.leaves, List.mem_append] at hlt
    refine .node (ihx h1 fun i hi => hlt i (.inl hi)) (ihy h2 fun i hi => hlt i (.inr hi)) (labelOf_eq hl h4 (by simpa using hlt)) ?_
    intro k
    rw [h3]
    exact bits_prob (t := .node x.tree y.tree) hc (by simpa [Spec.Bin.leaves] using hlt) k

/-! ### Continuous constituents -/

/-- The positions form an interval. -/
def Interval (m : Nat) : Prop := ∃ a b, a ≤ b ∧ ∀ k, m.testBit k = true ↔ a ≤ k ∧ k ≤ b

theorem fanout_interval {m : Nat} (h : Interval m) : Bits.fanout m = 1 := by
  obtain ⟨a, b, hab, h⟩ := h
  have : Bits.Spec.ListsRuns (fun k => m.testBit k = true) [(a, b)] := by
    refine ⟨by simp, ?_⟩
    rintro ⟨i, j⟩
    simp only [List.mem_singleton, Prod.mk.injEq, Bits.Spec.MaxRun, h]
    constructor
    · rintro ⟨rfl, rfl⟩
      exact ⟨hab, fun k h1 h2 => ⟨h1, h2⟩, fun k h1 h2 => by omega, by omega⟩
    · rintro ⟨h1, h2, h3, h4⟩
      have e1 := h2 i le_rfl h1
      have e2 := h2 j h1 le_rfl
      have e3 : i = a := by
        by_contra hne
        exact h3 (i - 1) (by omega) (by omega)
      exact ⟨e3, by omega⟩
  exact (Bits.C09_fanout m _ this).1

theorem interval_fanout {m : Nat} (h : Bits.fanout m = 1) : Interval m := by
  rw [Bits.C09_fanout_intervals] at h
  have hr := Bits.C32_intervals m
  match hi : Bits.intervals m, h with
  | [(a, b)], _ =>
    rw [hi] at hr
    have hab := (hr.2 (a, b)).1 (by simp)
    refine ⟨a, b, hab.1, fun k => ⟨fun hk => ?_, fun hk => hab.2.1 k hk.1 hk.2⟩⟩
    -- the maximal run around `k`
    obtain ⟨i, hi1, hi2, hi3⟩ : ∃ i, i ≤ k ∧ (∀ x, i ≤ x → x ≤ k → m.testBit x = true) ∧ ∀ y, y + 1 = i → m.testBit y ≠ true := by
      clear hab hr hi
      induction k with
      | zero => exact ⟨0, le_rfl, fun x _ h => by simpa [Nat.le_zero.1 h] using hk, by omega⟩
      | succ k ih =>
        cases hb : m.testBit k with
        | false => exact ⟨k + 1, le_rfl, fun x h1 h2 => by rw [show x = k + 1 by omega]; exact hk, fun y hy => by
            rw [show y = k by omega, hb]; simp⟩
        | true =>
          obtain ⟨i, h1, h2, h3⟩ := ih hb
          refine ⟨i, by omega, fun x h4 h5 => ?_, h3⟩
          rcases Nat.lt_or_ge x (k + 1) with h | h
          · exact h2 x h4 (by omega)
          · rw [show x = k + 1 by omega]; exact hk
    obtain ⟨j, hj1, hj2, hj3⟩ : ∃ j, k ≤ j ∧ (∀ x, k ≤ x → x ≤ j → m.testBit x = true) ∧ m.testBit (j + 1) ≠ true := by
      have hlim : ∃ d, m.testBit (k + d + 1) ≠ true := by
        refine ⟨m, ?_⟩
        rw [Nat.testBit_lt_two_pow]
        · simp
        · calc m < 2 ^ m := Nat.lt_two_pow_self
            _ ≤ 2 ^ (k + m + 1) := Nat.pow_le_pow_right (by omega) (by omega)
      classical
      obtain ⟨d, hd1, hd2⟩ : ∃ d, m.testBit (k + d + 1) ≠ true ∧ ∀ e < d, m.testBit (k + e + 1) = true :=
        ⟨Nat.find hlim, Nat.find_spec hlim, fun e he => by simpa using Nat.find_min hlim he⟩
      refine ⟨k + d, by omega, fun x h1 h2 => ?_, hd1⟩
      rcases Nat.eq_or_lt_of_le h1 with rfl | h
      · exact hk
      · have := hd2 (x - k - 1) (by omega)
        rwa [show k + (x - k - 1) + 1 = x by omega] at this
    have := (hr.2 (i, j)).2 ⟨by omega, fun x h1 h2 => by
      rcases Nat.le_total x k with h | h
      · exact hi2 x h1 h
      · exact hj2 x h h2, hi3, hj3⟩
    simp only [List.mem_singleton, Prod.mk.injEq] at this
    omega

/-- The right-branching binarization of the children `k`, ..., `k + d`. -/
def rightComb (k : Nat) : Nat → Spec.Bin
  | 0 => .leaf k
  | d + 1 => .node (.leaf k) (rightComb (k + 1) d)

theorem rightComb_leaves (k d : Nat) : (rightComb k d).leaves = List.range' k (d + 1) := by
  induction d generalizing k with
  | zero => rfl
  | succ d ih => rw [rightComb, Spec.Bin.leaves, ih, Spec.Bin.leaves, List.range'_succ (n := d + 1)]; rfl

theorem worst_le {P : Prob} {B : Sc} {t : Spec.Bin} (h0 : ∀ i ∈ t.leaves, P.sc0 i ≤ B) : (match t with
    | .leaf _ => True
    | .node a b => P.sc (a.bits P ||| b.bits P) (a.bits P) (b.bits P) ≤ B ∧ a.worst P ≤ B ∧ b.worst P ≤ B) → t.worst P ≤ B := by
  cases t with
  | leaf i => intro _; exact h0 i (by simp [Spec.Bin.leaves])
  | node a b => rintro ⟨h1, h2, h3⟩; exact max_le h1 (max_le h2 h3)

theorem leaf_le_worst {P : Prob} {t : Spec.Bin} {i : Nat} (h : i ∈ t.leaves) : P.sc0 i ≤ t.worst P := by
  induction t with
  | leaf j => simp only [Spec.Bin.leaves, List.mem_singleton] at h; subst h; exact le_rfl
  | node a b iha ihb =>
    rcases List.mem_append.1 h with h | h
    · exact (iha h).trans ((le_max_left _ _).trans (le_max_right _ _))
    · exact (ihb h).trans ((le_max_right _ _).trans (le_max_right _ _))

theorem fanout_pos {m : Nat} (h : m ≠ 0) : 1 ≤ Bits.fanout m := by
  obtain ⟨k, hk⟩ : ∃ k, m.testBit k = true := by
    by_contra hn
    apply h
    apply Nat.eq_of_testBit_eq
    intro i
    rw [Nat.zero_testBit]
    cases hb : m.testBit i with
    | false => rfl
    | true => exact absurd ⟨i, hb⟩ hn
  rw [Bits.C09_fanout_intervals]
  by_contra h0
  have hnil : Bits.intervals m = [] := List.eq_nil_of_length_eq_zero (by omega)
  have hb : k ∈ Bits.getbits m := ((Bits.C09_getbits m).2 k).2 hk
  rw [Bits.intervals] at hnil
  cases hg : Bits.getbits m with
  | nil => rw [hg] at hb; cases hb
  | cons x l =>
    rw [hg] at hnil
    have key : ∀ (l : List Nat) (s : Nat × Nat), Bits.intervalsLoop (some s) l ≠ [] := by
      intro l
      induction l with
      | nil => intro s; simp [Bits.intervalsLoop]
      | cons y l ih =>
        intro s
        simp only [Bits.intervalsLoop]
        split
        · exact ih _
        · simp
    simp only [Bits.intervalsLoop] at hnil
    exact key _ _ hnil

theorem fun_mono (f : Fun) {a b c d : Nat} (h1 : a ≤ c) (h2 : b ≤ d) : f.mk a b ≤ f.mk c d := by
  cases f with
  | complexityfanout =>
    rw [Prod.Lex.le_iff]
    simp only [Fun.mk, ofLex_toLex]
    rcases Nat.lt_or_ge (a + b) (c + d) with h | h
    · exact .inl h
    · exact .inr ⟨by omega, h1⟩
  | fanoutcomplexity =>
    rw [Prod.Lex.le_iff]
    simp only [Fun.mk, ofLex_toLex]
    rcases Nat.lt_or_ge a c with h | h
    · exact .inl h
    · exact .inr ⟨by omega, by omega⟩

variable {f : Fun} {m : Nat} {cs : List BT}

theorem Spec.Annotated.bits (h : Spec.Annotated f m cs) : ∀ c ∈ cs, ∃ u, c.bits? = some u := by
  intro c hc
  obtain ⟨l, u, ds, rfl, -⟩ := h.node c hc
  exact ⟨u, rfl⟩

theorem Spec.Annotated.children (h : Spec.Annotated f m cs) (sep : Str) (hh : Nat) : Factor.Spec.Children (factorCfg sep hh) cs := by
  intro c hc
  obtain ⟨l, u, ds, rfl, -⟩ := h.node c hc
  exact ⟨⟨u, rfl⟩, l, rfl⟩

/-- All the positions of a suffix of the children of a continuous constituent form an interval. -/
theorem suffix_interval (h : Spec.Annotated f m cs) (hm : Bits.fanout m = 1) (hcs : ∀ c ∈ cs, fan c = some 1) {t : Spec.Bin} {k : Nat}
    (hk : k < cs.length) (ht : ∀ i, i ∈ t.leaves ↔ k ≤ i ∧ i < cs.length) : Interval (t.bits (prob f cs)) := by
  obtain ⟨a, b, hab, hmi⟩ := interval_fanout hm
  have hint : ∀ i (hi : i < cs.length), ∃ u x y, (cs[i]).bits? = some u ∧ x ≤ y ∧ ∀ j, u.testBit j = true ↔ x ≤ j ∧ j ≤ y := by
    intro i hi
    obtain ⟨l, u, ds, he, -⟩ := h.node cs[i] (List.getElem_mem _)
    have := hcs cs[i] (List.getElem_mem _)
    rw [he, fan, Option.map_some, Option.some.injEq] at this
    obtain ⟨x, y, hxy, hu⟩ := interval_fanout this
    exact ⟨u, x, y, by rw [he]; rfl, hxy, hu⟩
  obtain ⟨uk, xk, yk, hk1, hk2, hk3⟩ := hint k hk
  have hxk : m.testBit xk = true := (h.union xk).2 ⟨cs[k], List.getElem_mem _, uk, hk1, (hk3 xk).2 ⟨le_rfl, hk2⟩⟩
  rw [hmi] at hxk
  have hlts : ∀ i ∈ t.leaves, i < cs.length := fun i hi => ((ht i).1 hi).2
  refine ⟨xk, b, hxk.2, fun j => ?_⟩
  rw [bits_prob h.bits hlts]
  constructor
  · rintro ⟨i, hi, c, u, h1, h2, h3⟩
    rw [ht] at hi
    have hc : c ∈ cs := List.mem_of_getElem? h1
    have hjm := (hmi j).1 ((h.union j).2 ⟨c, hc, u, h2, h3⟩)
    refine ⟨?_, hjm.2⟩
    rw [List.getElem?_eq_getElem hi.2] at h1
    cases h1
    rcases Nat.eq_or_lt_of_le hi.1 with rfl | hlt
    · rw [h2] at hk1
      cases hk1
      exact ((hk3 j).1 h3).1
    · obtain ⟨z, hz1, hz2⟩ := List.pairwise_iff_getElem.1 h.order k i hk hi.2 hlt uk u hk1 h2
      have := (hk3 z).1 hz1
      have := hz2 j h3
      omega
  · rintro ⟨hj1, hj2⟩
    obtain ⟨c, hc, u, h2, h3⟩ := (h.union j).1 ((hmi j).2 ⟨by omega, hj2⟩)
    obtain ⟨i, hi, rfl⟩ := List.getElem_of_mem hc
    refine ⟨i, (ht i).2 ⟨?_, hi⟩, cs[i], u, List.getElem?_eq_getElem hi, h2, h3⟩
    by_contra hlt
    rw [not_le] at hlt
    obtain ⟨z, hz1, hz2⟩ := List.pairwise_iff_getElem.1 h.order i k hi hk hlt u uk h2 hk1
    obtain ⟨u', x, y, e1, e2, e3⟩ := hint i hi
    rw [h2] at e1
    cases e1
    have hzx := hz2 xk ((hk3 xk).2 ⟨le_rfl, hk2⟩)
    have hx := (e3 z).1 hz1
    have hy := (e3 j).1 h3
    have hin : u.testBit xk = true := (e3 xk).2 ⟨by omega, by omega⟩
    have hd := List.pairwise_iff_getElem.1 h.disj i k hi hk hlt u uk h2 hk1
    exact land_zero.1 hd xk ⟨hin, (hk3 xk).2 ⟨le_rfl, hk2⟩⟩

/-- The right-branching binarization of a continuous constituent is as good as any. -/
theorem comb_optimal (h : Spec.Annotated f m cs) (hm : Bits.fanout m = 1) (hcs : ∀ c ∈ cs, fan c = some 1) (hn : 2 ≤ cs.length)
    {t : Spec.Bin} (ht : t.Complete cs.length) : (rightComb 0 (cs.length - 1)).worst (prob f cs) ≤ t.worst (prob f cs) := by
  have hroot : f.mk 1 2 ≤ t.worst (prob f cs) := by
    cases t with
    | leaf i =>
      have := ht.length_eq
      simp only [Spec.Bin.leaves, List.length_singleton, List.length_range] at this
      omega
    | node a b =>
      refine le_trans ?_ (le_max_left _ _)
      have hne : ∀ u : Spec.Bin, (∀ i ∈ u.leaves, i < cs.length) → u.bits (prob f cs) ≠ 0 := by
        intro u hu h0
        obtain ⟨i, hi⟩ := u.leaves_ne
        obtain ⟨l, v, ds, he, hv, -⟩ := h.node (cs[i]'(hu i hi)) (List.getElem_mem _)
        apply hv
        apply Nat.eq_of_testBit_eq
        intro k
        rw [Nat.zero_testBit]
        cases hb : v.testBit k with
        | false => rfl
        | true =>
          have := (bits_prob (f := f) h.bits hu k).2 ⟨i, hi, _, v, List.getElem?_eq_getElem (hu i hi), by rw [he]; rfl, hb⟩
          rw [h0] at this
          simp at this
      have hall : ∀ i ∈ (Spec.Bin.node a b).leaves, i < cs.length := fun i hi => (ht.mem i).1 hi
      have ha := fanout_pos (hne a fun i hi => hall i (List.mem_append_left _ hi))
      have hb := fanout_pos (hne b fun i hi => hall i (List.mem_append_right _ hi))
      have hab := fanout_pos (hne (.node a b) hall)
      exact fun_mono f hab (by omega)
  have hleaf : ∀ i < cs.length, (prob f cs).sc0 i ≤ t.worst (prob f cs) := fun i hi => leaf_le_worst ((ht.mem i).2 hi)
  have main : ∀ d k, k + d + 1 = cs.length → (rightComb k d).worst (prob f cs) ≤ t.worst (prob f cs) := by
    intro d
    induction d with
    | zero => intro k hk; exact hleaf k (by omega)
    | succ d ih =>
      intro k hk
      refine max_le ?_ (max_le (hleaf k (by omega)) (ih (k + 1) (by omega)))
      have i1 : Interval ((rightComb k (d + 1)).bits (prob f cs)) := suffix_interval h hm hcs (k := k) (by omega) (fun i => by
        rw [rightComb_leaves, List.mem_range'_1]; omega)
      have i2 : Interval ((rightComb (k + 1) d).bits (prob f cs)) := suffix_interval h hm hcs (k := k + 1) (by omega) (fun i => by
        rw [rightComb_leaves, List.mem_range'_1]; omega)
      have e1 := fanout_interval i1
      have e2 := fanout_interval i2
      have e3 : Bits.fanout ((Spec.Bin.leaf k).bits (prob f cs)) = 1 := by
        have hk' : k < cs.length := by omega
        obtain ⟨l, v, ds, he, -⟩ := h.node cs[k] (List.getElem_mem _)
        have := hcs cs[k] (List.getElem_mem _)
        rw [he, fan, Option.map_some, Option.some.injEq] at this
        simpa [Spec.Bin.bits, prob, List.getElem?_eq_getElem hk', he, BT.bits?] using this
      rw [rightComb, Spec.Bin.bits] at e1
      show f.mk (Bits.fanout _) (Bits.fanout _ + Bits.fanout _) ≤ _
      rw [e1, e2, e3]
      exact hroot
  exact main (cs.length - 1) 0 (by omega)

/-- A right-branching chain is the right-branching binarization. -/
theorem chain_realizes {l sep : Str} {hh : Nat} (hch : Factor.Spec.Children (factorCfg sep hh) cs) (hlen : cs.length ≤ hh) {xs : List BT} {p : BT} {b : Nat}
    (h : Factor.Spec.RightChain (Factor.Spec.ArtRight (factorCfg sep hh) l none) xs p b) : ∀ k, xs = cs.drop k → k < cs.length →
    Spec.Realizes l sep cs (rightComb k (cs.length - k - 1)) p ∧
    ∀ j, b.testBit j = true ↔ ∃ c ∈ xs, ∃ u, c.bits? = some u ∧ u.testBit j = true := by
  induction h with
  | @one c b hb =>
    intro k hk hlt
    have hl : cs.length - k = 1 := by have := congrArg List.length hk; simpa using this.symm
    rw [hl]
    refine ⟨.leaf ?_, by simp [hb]⟩
    rw [List.drop_eq_getElem_cons hlt] at hk
    injection hk with hk _
    rw [List.getElem?_eq_getElem hlt, ← hk]
  | @step xs p b c b' lab hchain hb hart ih =>
    intro k hk hlt
    rw [List.drop_eq_getElem_cons hlt] at hk
    injection hk with hk1 hk2
    have hlt' : k + 1 < cs.length := by
      have h1 : xs ≠ [] := by cases hchain <;> simp
      by_contra hn
      rw [List.drop_eq_nil_of_le (by omega)] at hk2
      exact h1 hk2
    obtain ⟨ih1, ih2⟩ := ih (k + 1) hk2 hlt'
    have hbits : ∀ j, (b' ||| b).testBit j = true ↔ ∃ c' ∈ c :: xs, ∃ u, c'.bits? = some u ∧ u.testBit j = true := by
      intro j
      rw [Nat.testBit_or, Bool.or_eq_true, ih2]
      constructor
      · rintro (h1 | ⟨c', h1, h2⟩)
        · exact ⟨c, by simp, b', hb, h1⟩
        · exact ⟨c', by simp [h1], h2⟩
      · rintro ⟨c', h1, u, h2, h3⟩
        rcases List.mem_cons.1 h1 with rfl | h1
        · rw [hb] at h2
          cases h2
          exact .inl h3
        · exact .inr ⟨c', h1, u, h2, h3⟩
    refine ⟨?_, hbits⟩
    rw [show cs.length - k - 1 = (cs.length - (k + 1) - 1) + 1 by omega, rightComb]
    have hmem : ∀ i, i ∈ (Spec.Bin.leaf k).leaves ++ (rightComb (k + 1) (cs.length - (k + 1) - 1)).leaves ↔ k ≤ i ∧ i < cs.length := by
      intro i
      rw [rightComb_leaves, List.mem_append, List.mem_range'_1]
      simp only [Spec.Bin.leaves, List.mem_singleton]
      omega
    refine .node (.leaf (by rw [List.getElem?_eq_getElem hlt, ← hk1])) ih1 ?_ ?_
    · have hcx : c :: xs = cs.drop k := by rw [List.drop_eq_getElem_cons hlt, hk1, hk2]
      unfold Factor.Spec.ArtRight at hart
      simp only [Option.isSome_none, Bool.false_eq_true, if_false, Factor.Spec.NamedRight] at hart
      obtain ⟨ls, y, h1, h2, h3⟩ := hart
      have hy : y = [] := by simpa [Factor.Cfg.yf, factorCfg] using h2.symm
      rw [h3, hy]
      have htake : (c :: xs).take (factorCfg sep hh).h = c :: xs := List.take_of_length_le (by
        rw [hcx, List.length_drop]; show cs.length - k ≤ hh; omega)
      rw [htake, hcx] at h1
      have hfil : (ls.filter fun l => decide (l ∉ (factorCfg sep hh).filter)) = ls := by simp [factorCfg]
      rw [hfil]
      have hls : ls = ((List.range cs.length).filter fun i => decide (i ∈ (Spec.Bin.leaf k).leaves ++ (rightComb (k + 1) (cs.length - (k + 1) - 1)).leaves)).map fun i => ((cs[i]?).bind BT.label?).getD [] := by
        have hr : ((List.range cs.length).filter fun i => decide (i ∈ (Spec.Bin.leaf k).leaves ++ (rightComb (k + 1) (cs.length - (k + 1) - 1)).leaves)) = List.range' k (cs.length - k) := by
          refine sorted_eq ((List.pairwise_lt_range).filter _) (List.pairwise_lt_range' ..) fun i => ?_
          simp only [List.mem_filter, List.mem_range, decide_eq_true_eq, hmem, List.mem_range'_1]
          omega
        rw [hr]
        apply List.ext_getElem?
        intro i
        rw [mapM_getD h1, List.getElem?_map, List.getElem?_drop]
        rcases Nat.lt_or_ge i (cs.length - k) with hi | hi
        · rw [List.getElem?_range' hi]
          have hki : k + i < cs.length := by omega
          obtain ⟨-, lab', hlab⟩ := hch cs[k + i] (List.getElem_mem _)
          have hlab' : (cs[k + i]).label? = some lab' := hlab
          simp [List.getElem?_eq_getElem hki, hlab', factorCfg]
        · rw [List.getElem?_eq_none (by omega), List.getElem?_eq_none (by simpa using hi)]
          rfl
      rw [Spec.artLabel, ← hls]
      simp [Factor.Cfg.label, factorCfg]
    · intro j
      rw [hbits]
      constructor
      · rintro ⟨c', h1, u, h2, h3⟩
        have : c' ∈ cs.drop k := by rw [List.drop_eq_getElem_cons hlt, ← hk1, ← hk2]; exact h1
        obtain ⟨i, hi⟩ := List.mem_iff_getElem?.1 this
        rw [List.getElem?_drop] at hi
        have := (List.getElem?_eq_some_iff.1 hi).1
        exact ⟨k + i, (hmem _).2 ⟨by omega, this⟩, c', u, hi, h2, h3⟩
      · rintro ⟨i, hi, c', u, h1, h2, h3⟩
        rw [hmem] at hi
        refine ⟨c', ?_, u, h2, h3⟩
        rw [hk1, hk2, ← List.drop_eq_getElem_cons hlt]
        apply List.mem_iff_getElem?.2
        exact ⟨i - k, by rw [List.getElem?_drop, show k + (i - k) = i by omega]; exact h1⟩

/-! ## Results -/

theorem score_some {f : Fun} {l : Str} {u : Nat} {ds : List BT} (h : ∀ d ∈ ds, ∃ k, fan d = some k) : ∃ s, score f (.node l (some u) ds) = some s := by
  obtain ⟨ks, hk⟩ := mapM_some h
  exact ⟨f.mk (Bits.fanout u) ks.sum, by simp only [score, hk]⟩

/-- **C62**: the binarization of a constituent with more than two children (in canonical order, with `bitset` attributes): it is a
binarization of the children whose artificial nodes are labeled with the children that they cover, and no other binarization has a smaller worst
score. -/
theorem C62_minimal {f : Fun} {m : Nat} {cs : List BT} (h : Spec.Annotated f m cs) (hn : 2 < cs.length) (l sep : Str) (hh : Nat) (hlen : cs.length ≤ hh) :
    ∃ t B, minimal f sep hh (.node l (some m) cs) = some t ∧ B.Complete cs.length ∧ Spec.IsBin l sep (some m) cs B t ∧
      ∀ B' : Spec.Bin, B'.Complete cs.length → B.worst (prob f cs) ≤ B'.worst (prob f cs) := by
  obtain ⟨fs, hfs⟩ : ∃ fs, cs.mapM fan = some fs := mapM_some fun c hc => by
    obtain ⟨l, u, ds, rfl, -⟩ := h.node c hc
    exact ⟨_, rfl⟩
  simp only [minimal, if_neg (Nat.not_le_of_lt hn), Option.map_some, hfs]
  by_cases hc : Bits.fanout m = 1 ∧ fs.all (fun x => decide (x = 1)) = true
  · rw [if_pos hc]
    obtain ⟨hm, hall⟩ := hc
    have hcs : ∀ c ∈ cs, fan c = some 1 := by
      intro c hc
      obtain ⟨i, hi, rfl⟩ := List.getElem_of_mem hc
      have := mapM_getD hfs i
      rw [List.getElem?_eq_getElem hi, Option.bind_some] at this
      obtain ⟨l', u, ds, he, -⟩ := h.node cs[i] (List.getElem_mem _)
      rw [he] at this ⊢
      simp only [fan, Option.map_some] at this ⊢
      have hmem := List.mem_of_getElem? this
      have := List.all_eq_true.1 hall _ hmem
      simp only [decide_eq_true_eq] at this
      rw [this]
    obtain ⟨p, b, c0, b0, ids', e1, e2, e3, e4, -⟩ := Factor.C40_factor_right (factorCfg sep hh) rfl 2 none l (some m) (h.children sep hh) hn hn
    cases cs with
    | nil => simp at hn
    | cons c cs =>
      rw [List.head?_cons] at e2
      obtain rfl : c = c0 := Option.some.inj e2
      rw [List.tail_cons] at e4
      obtain ⟨r1, r2⟩ := chain_realizes (h.children sep hh) hlen e4 1 rfl (by simp only [List.length_cons] at hn ⊢; omega)
      have hb : b0 ||| b = m := by
        apply Nat.eq_of_testBit_eq
        intro j
        rw [Bool.eq_iff_iff, h.union, Nat.testBit_or, Bool.or_eq_true, r2]
        constructor
        · rintro (h1 | ⟨c', h1, h2⟩)
          · exact ⟨c, by simp, b0, e3, h1⟩
          · exact ⟨c', by simp [h1], h2⟩
        · rintro ⟨c', h1, u, h2, h3⟩
          rcases List.mem_cons.1 h1 with rfl | h1
          · rw [e3] at h2
            cases h2
            exact .inl h3
          · exact .inr ⟨c', h1, u, h2, h3⟩
      rw [e1, hb]
      refine ⟨_, rightComb 0 ((c :: cs).length - 1), rfl, ?_, ?_, fun B' hB' => comb_optimal h hm hcs (by omega) hB'⟩
      · rw [Spec.Bin.Complete, rightComb_leaves, List.length_cons, Nat.add_sub_cancel, List.range_eq_range']
      · refine ⟨.leaf 0, rightComb 1 ((c :: cs).length - 1 - 1), c, p, ?_, rfl, .leaf rfl, r1⟩
        rw [show (c :: cs).length - 1 = ((c :: cs).length - 1 - 1) + 1 by simp only [List.length_cons] at hn ⊢; omega, rightComb]
        rfl
  · rw [if_neg hc]
    obtain ⟨labels, hl⟩ : ∃ ls, cs.mapM BT.label? = some ls := mapM_some fun c hc => by
      obtain ⟨l, u, ds, rfl, -⟩ := h.node c hc
      exact ⟨_, rfl⟩
    obtain ⟨bs, hbs⟩ : ∃ bs, cs.mapM BT.bits? = some bs := mapM_some h.bits
    obtain ⟨ss, hss⟩ : ∃ ss, cs.mapM (score f) = some ss := mapM_some fun c hc => by
      obtain ⟨l, u, ds, -, -, hs⟩ := h.node c hc
      exact hs
    obtain ⟨p, p1, p2, p3, p4⟩ := C62_search (prob f cs) (prob_symm f cs) (by show 0 < cs.length; omega) (2 ^ cs.length) le_rfl
    rw [hl, hbs, hss]
    simp only [p1]
    refine ⟨_, p.tree, rfl, p3, ?_, p4⟩
    have hlt : ∀ i ∈ p.tree.leaves, i < cs.length := fun i hi => (p3.mem i).1 hi
    cases p with
    | child i =>
      have := p3.length_eq
      simp only [PT.tree, Spec.Bin.leaves, List.length_singleton, List.length_range, prob] at this
      omega
    | node s b x y =>
      obtain ⟨q1, q2, -, -⟩ := p2
      simp only [PT.tree, Spec.Bin.leaves, List.mem_append] at hlt
      exact ⟨x.tree, y.tree, _, _, rfl, rfl, build_realizes hl h.bits q1 fun i hi => hlt i (.inl hi), build_realizes hl h.bits q2 fun i hi => hlt i (.inr hi)⟩

/-- Trees in canonical order with `bitset` attributes. -/
inductive Spec.Wf : BT → Prop
  | leaf (i) : Spec.Wf (.leaf i)
  | node {l m cs} : m ≠ 0 → (∀ c ∈ cs, Spec.Wf c) →
      (2 < cs.length → (∀ c ∈ cs, ∃ l u ds, c = .node l (some u) ds) ∧
        (∀ k, m.testBit k = true ↔ ∃ c ∈ cs, ∃ u, c.bits? = some u ∧ u.testBit k = true) ∧
        (cs.Pairwise fun c d => ∀ u v, c.bits? = some u → d.bits? = some v → u &&& v = 0) ∧
        (cs.Pairwise fun c d => ∀ u v, c.bits? = some u → d.bits? = some v → ∃ i, u.testBit i = true ∧ ∀ j, v.testBit j = true → i < j)) →
      Spec.Wf (.node l (some m) cs)

/-- `Spec.OptTree f sep t t'`: `t'` is `t` with every constituent that has more than two children replaced by a binarization with the least worst score. -/
inductive Spec.OptTree (f : Fun) (sep : Str) : BT → BT → Prop
  | leaf (i) : Spec.OptTree f sep (.leaf i) (.leaf i)
  | small {l b cs cs'} : cs.length ≤ 2 → List.Forall₂ (Spec.OptTree f sep) cs cs' → Spec.OptTree f sep (.node l b cs) (.node l b cs')
  | big {l b cs cs' B t} : 2 < cs.length → List.Forall₂ (Spec.OptTree f sep) cs cs' → B.Complete cs'.length → Spec.IsBin l sep b cs' B t →
      (∀ B' : Spec.Bin, B'.Complete cs'.length → B.worst (prob f cs') ≤ B'.worst (prob f cs')) → Spec.OptTree f sep (.node l b cs) t

theorem optimalL_eq (f : Fun) (sep : Str) (h : Nat) (cs : List BT) : optimalL f sep h cs = cs.mapM (optimal f sep h) := by
  induction cs with
  | nil => rfl
  | cons c cs ih =>
    rw [optimalL, List.mapM_cons, ih]
    cases optimal f sep h c with
    | none => rfl
    | some c' => cases cs.mapM (optimal f sep h) <;> rfl

/-- Every node has at most `h` children. -/
inductive Spec.Narrow (h : Nat) : BT → Prop
  | leaf (i) : Spec.Narrow h (.leaf i)
  | node {l b cs} : cs.length ≤ h → (∀ c ∈ cs, Spec.Narrow h c) → Spec.Narrow h (.node l b cs)

theorem Spec.Realizes.fan {l sep : Str} {cs : List BT} {B : Spec.Bin} {t : BT} (h : Spec.Realizes l sep cs B t) (hcs : ∀ c ∈ cs, ∃ k, OptBin.fan c = some k) :
    ∃ k, OptBin.fan t = some k := by
  cases h with
  | leaf h => exact hcs _ (List.mem_of_getElem? h)
  | node => exact ⟨_, rfl⟩

theorem forall₂_pairwise {A B : Type} {R : A → B → Prop} {S : A → A → Prop} {S' : B → B → Prop} {l : List A} {l' : List B} (h : List.Forall₂ R l l')
    (hs : l.Pairwise S) (hh : ∀ a a' b b', R a b → R a' b' → S a a' → S' b b') : l'.Pairwise S' := by
  induction h with
  | nil => exact .nil
  | @cons a b l l' hab hl ih =>
    rw [List.pairwise_cons] at hs ⊢
    refine ⟨fun b' hb' => ?_, ih hs.2⟩
    obtain ⟨i, hi, rfl⟩ := List.getElem_of_mem hb'
    have hi' : i < l.length := by rw [hl.length_eq]; exact hi
    exact hh a l[i] b l'[i] hab (by
      have := List.forall₂_iff_get.1 hl
      exact this.2 i hi' hi) (hs.1 _ (List.getElem_mem _))

/-- **C62**: `optimalbinarize` replaces every constituent with more than two children by a binarization with the least worst score, and does not change
anything else. -/
theorem C62_optimalbinarize (f : Fun) (sep : Str) (h : Nat) {t : BT} (ht : Spec.Wf t) (hn : Spec.Narrow h t) :
    ∃ t', optimal f sep h t = some t' ∧ Spec.OptTree f sep t t' := by
  suffices H : ∃ t', optimal f sep h t = some t' ∧ Spec.OptTree f sep t t' ∧ t'.bits? = t.bits? ∧ t'.label? = t.label? ∧
      (∀ l b ds, t' = .node l b ds → ∀ d ∈ ds, ∃ k, fan d = some k) ∧ (∃ k, fan t' = some k) ∧ ∀ l b ds, t = .node l b ds → b ≠ some 0 by
    obtain ⟨t', h1, h2, -⟩ := H
    exact ⟨t', h1, h2⟩
  induction ht with
  | leaf i => exact ⟨.leaf i, rfl, .leaf i, rfl, rfl, by simp, ⟨1, rfl⟩, by simp⟩
  | @node l m cs hm hcs hbig ih =>
    have hnw : cs.length ≤ h ∧ ∀ c ∈ cs, Spec.Narrow h c := by
      cases hn with
      | node h1 h2 => exact ⟨h1, h2⟩
    have ih' := fun c hc => ih c hc (hnw.2 c hc)
    clear ih
    obtain ⟨cs', hcs'⟩ : ∃ r, cs.mapM (optimal f sep h) = some r := mapM_some fun c hc => by
      obtain ⟨t', h1, -⟩ := ih' c hc
      exact ⟨t', h1⟩
    let R : BT → BT → Prop := fun t t' => Spec.OptTree f sep t t' ∧ t'.bits? = t.bits? ∧ t'.label? = t.label? ∧
      (∀ l b ds, t' = .node l b ds → ∀ d ∈ ds, ∃ k, fan d = some k) ∧ (∃ k, fan t' = some k) ∧ ∀ l b ds, t = .node l b ds → b ≠ some 0
    have hR : List.Forall₂ R cs cs' := by
      clear hbig hnw hcs hn
      induction cs generalizing cs' with
      | nil => simp at hcs'; subst hcs'; exact .nil
      | cons c cs ih =>
        obtain ⟨t', h1, h2⟩ := ih' c List.mem_cons_self
        rw [List.mapM_cons, h1] at hcs'
        cases hr : cs.mapM (optimal f sep h) with
        | none => simp [hr] at hcs'
        | some r =>
          simp [hr] at hcs'
          subst hcs'
          exact .cons h2 (ih (fun d hd => ih' d (List.mem_cons_of_mem _ hd)) r hr)
    have hlen : cs'.length = cs.length := hR.length_eq.symm
    have hopt : List.Forall₂ (Spec.OptTree f sep) cs cs' := hR.imp fun _ _ h => h.1
    have hmem : ∀ d ∈ cs', ∃ c ∈ cs, R c d := by
      intro d hd
      obtain ⟨i, hi, rfl⟩ := List.getElem_of_mem hd
      exact ⟨cs[i], List.getElem_mem _, (List.forall₂_iff_get.1 hR).2 i (by omega) hi⟩
    have hmem' : ∀ c ∈ cs, ∃ d ∈ cs', R c d := by
      intro c hc
      obtain ⟨i, hi, rfl⟩ := List.getElem_of_mem hc
      exact ⟨cs'[i], List.getElem_mem _, (List.forall₂_iff_get.1 hR).2 i hi (by omega)⟩
    have hfan : ∀ d ∈ cs', ∃ k, fan d = some k := fun d hd => by
      obtain ⟨c, -, hc⟩ := hmem d hd
      exact hc.2.2.2.2.1
    rw [optimal, optimalL_eq, hcs']
    rcases Nat.lt_or_ge 2 cs.length with h2 | h2
    · obtain ⟨g1, g2, g3, g4⟩ := hbig h2
      have hA : Spec.Annotated f m cs' := by
        refine ⟨?_, ?_, ?_, ?_⟩
        · intro d hd
          obtain ⟨c, hc, q1, q2, q3, q4, q5, q6⟩ := hmem d hd
          obtain ⟨l', u, ds, rfl⟩ := g1 c hc
          cases d with
          | leaf i => simp [BT.label?] at q3
          | node l'' b'' ds'' =>
            simp only [BT.bits?] at q2
            subst q2
            refine ⟨l'', u, ds'', rfl, ?_, score_some (q4 _ _ _ rfl)⟩
            rintro rfl
            exact q6 _ _ _ rfl rfl
        · intro k
          rw [g2]
          constructor
          · rintro ⟨c, hc, u, h3, h4⟩
            obtain ⟨d, hd, q⟩ := hmem' c hc
            exact ⟨d, hd, u, by rw [q.2.1]; exact h3, h4⟩
          · rintro ⟨d, hd, u, h3, h4⟩
            obtain ⟨c, hc, q⟩ := hmem d hd
            exact ⟨c, hc, u, by rw [← q.2.1]; exact h3, h4⟩
        · refine forall₂_pairwise hR g3 ?_
          intro a a' b b' q q' hs u v hu hv
          exact hs u v (by rw [← q.2.1]; exact hu) (by rw [← q'.2.1]; exact hv)
        · refine forall₂_pairwise hR g4 ?_
          intro a a' b b' q q' hs u v hu hv
          exact hs u v (by rw [← q.2.1]; exact hu) (by rw [← q'.2.1]; exact hv)
      obtain ⟨t', B, e1, e2, e3, e4⟩ := C62_minimal hA (by omega) l sep h (by omega)
      refine ⟨t', e1, .big h2 hopt e2 e3 e4, ?_⟩
      obtain ⟨B1, B2, x, y, -, rfl, r1, r2⟩ := e3
      refine ⟨rfl, rfl, ?_, ⟨_, rfl⟩, ?_⟩
      · intro l' b' ds he d hd
        cases he
        simp only [List.mem_cons, List.not_mem_nil, or_false] at hd
        rcases hd with rfl | rfl
        · exact r1.fan hfan
        · exact r2.fan hfan
      · intro l' b' ds he
        cases he
        simpa using hm
    · refine ⟨.node l (some m) cs', by simp only [minimal]; rw [if_pos (by omega)], .small h2 hopt, rfl, rfl, ?_, ⟨_, rfl⟩, ?_⟩
      · intro l' b' ds he d hd
        cases he
        exact hfan d hd
      · intro l' b' ds he
        cases he
        simpa using hm

/-! ## Example: the tree of the docstring (treetransforms.py:774-784) -/

/-- `(B1 (t 6) (t 13))` etc. -/
def exNode (l : String) (ps : List Nat) : BT := .node l.toList (some (Bits.bitsetOf ps)) (ps.map fun p => .node ['t'] (some (1 <<< p)) [.leaf p])

/-- The children in canonical order. -/
def exCs : List BT := [exNode "B4" [0, 5, 8], exNode "B3" [1, 9, 11, 14, 16], exNode "B2" [3, 7, 10], exNode "B1" [6, 13]]

theorem exCs_annotated : Spec.Annotated .complexityfanout (Bits.bitsetOf [0, 1, 3, 5, 6, 7, 8, 9, 10, 11, 13, 14, 16]) exCs := by
  refine ⟨?_, ?_, ?_, ?_⟩
  · intro c hc
    simp only [exCs, List.mem_cons, List.not_mem_nil, or_false] at hc
    rcases hc with rfl | rfl | rfl | rfl <;> exact ⟨_, _, _, rfl, by decide, _, rfl⟩
  · intro k
    rw [Bits.C09_bitsetOf _ (by decide)]
    simp only [exCs, exNode, List.mem_cons, List.not_mem_nil, or_false, exists_eq_or_imp, exists_eq_left, BT.bits?, Option.some.injEq, exists_eq_left']
    rw [Bits.C09_bitsetOf _ (by decide), Bits.C09_bitsetOf _ (by decide), Bits.C09_bitsetOf _ (by decide), Bits.C09_bitsetOf _ (by decide)]
    simp only [List.mem_cons, List.not_mem_nil, or_false]
    omega
  · rw [List.pairwise_iff_getElem]
    intro i j hi hj hij u v hu hv
    have key : ∀ i < 4, ∀ j < 4, i < j → (((exCs[i]?).bind BT.bits?).getD 0) &&& (((exCs[j]?).bind BT.bits?).getD 0) = 0 := by decide +kernel
    have := key i hi j hj hij
    rwa [List.getElem?_eq_getElem hi, List.getElem?_eq_getElem hj, Option.bind_some, Option.bind_some, hu, hv] at this
  · rw [List.pairwise_iff_getElem]
    intro i j hi hj hij u v hu hv
    have key : ∀ i < 4, ∀ j < 4, i < j → ∃ k < 20, (((exCs[i]?).bind BT.bits?).getD 0).testBit k = true ∧ (((exCs[j]?).bind BT.bits?).getD 0) % 2 ^ (k + 1) = 0 := by decide +kernel
    obtain ⟨k, -, h1, h2⟩ := key i hi j hj hij
    rw [List.getElem?_eq_getElem hi, Option.bind_some, hu] at h1
    rw [List.getElem?_eq_getElem hj, Option.bind_some, hv] at h2
    refine ⟨k, h1, fun x hx => ?_⟩
    by_contra hle
    have : (v % 2 ^ (k + 1)).testBit x = true := by rw [Nat.testBit_mod_two_pow]; simp [show x < k + 1 by omega]; exact hx
    simp only [Option.getD_some] at h2
    rw [h2] at this
    simp at this

example : Spec.Wf (.node ['A'] (some (Bits.bitsetOf [0, 1, 3, 5, 6, 7, 8, 9, 10, 11, 13, 14, 16])) (exCs.map fun c => match c with
    | .leaf i => .leaf i
    | .node l b _ => .node l b [])) := by
  refine .node (by decide) ?_ fun _ => ⟨?_, ?_, ?_, ?_⟩
  · intro c hc
    simp only [exCs, exNode, List.map_cons, List.map_nil, List.mem_cons, List.not_mem_nil, or_false] at hc
    rcases hc with rfl | rfl | rfl | rfl <;> exact .node (by decide) (by simp) (by simp)
  · intro c hc
    simp only [exCs, exNode, List.map_cons, List.map_nil, List.mem_cons, List.not_mem_nil, or_false] at hc
    rcases hc with rfl | rfl | rfl | rfl <;> exact ⟨_, _, _, rfl⟩
  · intro k
    rw [exCs_annotated.union]
    simp [exCs, exNode, BT.bits?]
  · exact exCs_annotated.disj.map _ (fun c d h u v hu hv => h u v (by cases c <;> exact hu) (by cases d <;> exact hv))
  · exact exCs_annotated.order.map _ (fun c d h u v hu hv => h u v (by cases c <;> exact hu) (by cases d <;> exact hv))

/-- The worst score of a binarization that was found. -/
def foundWorst (f : Fun) (cs : List BT) : Option (Nat × Nat) :=
  match findBin (prob f cs) (2 ^ cs.length) with
  | .found p => some (ofLex (p.tree.worst (prob f cs)))
  | _ => none

/-- The values in the docstring: the maximum of `complexityfanout` is (14, 6), and with the other criterion the best is fan-out 5. -/
example : foundWorst .complexityfanout exCs = some (14, 6) ∧ foundWorst .fanoutcomplexity exCs = some (5, 15) := by decide +kernel

/-- A constituent with five children on positions 0-11. -/
def exSum : List BT := [exNode "A" [2], exNode "B" [1, 4, 9], exNode "C" [6, 11], exNode "D" [8], exNode "E" [0, 3, 5, 7, 10]]

/-- **C62, disagreement**: the sum of the complexities, by which items with the same worst score are compared (treetransforms.py:864-865), is not minimal: here another
binarization has the same worst score (10, 5) and the sum 27 instead of 29. An item with a smaller sum is lost when a part with a smaller worst score replaces it. -/
theorem C62_sum_disagreement : ∃ (p : PT) (B : Spec.Bin), findBin (prob .complexityfanout exSum) (2 ^ exSum.length) = .found p ∧ B.Complete exSum.length ∧
    B.worst (prob .complexityfanout exSum) = p.tree.worst (prob .complexityfanout exSum) ∧
    B.total (prob .complexityfanout exSum) < p.tree.total (prob .complexityfanout exSum) := by
  refine ⟨_, .node (.node (.node (.node (.leaf 0) (.leaf 3)) (.leaf 1)) (.leaf 4)) (.leaf 2),
    (show _ = Res.found (.node 31 4095 (.node 27 1983 (.node 11 790 (.child 3) (.node 3 534 (.child 0) (.child 1))) (.child 4)) (.child 2)) by decide +kernel), ?_, ?_, ?_⟩
  · rw [Spec.Bin.Complete]; decide +kernel
  · decide +kernel
  · decide +kernel

end Disco.OptBin
