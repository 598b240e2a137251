import Verif.Parse.PlcfrsItems
/-!
# C58: coarse-to-fine pruning, the whitelist check: `checkwhitelist` (plcfrs.pyx:878-940), `CFGtoSmallChartItem`, `CFGtoFatChartItem` (containers.pyx:34-51)
-/
set_option linter.unusedSectionVars false
namespace Disco.Ctf
open Bits Concat
open Plcfrs (Item)

variable {V : Type} [DecidableEq V]

/-! ### Model -/

/-- `Whitelist` (containers.pxd:608-618): for each coarse label a set of items (`small` or `fat`), and the mappings of the fine grammar. Sets are lists of which only membership matters. -/
structure Whitelist (V : Type) where
  items : Nat → List (Item V)
  mapping : Nat → Nat
  splitmapping : Nat → List Nat

/-- The operations on bit vectors that differ between the two kinds of items. -/
structure SpanOps (V : Type) where
  nextset : V → Nat → Option Nat
  nextunset : V → Nat → Nat
  span : Nat → Nat → V

/-- `SmallChartItem`: `nextset`, `nextunset`, `(1UL << b) - (1UL << a)` (plcfrs.pyx:903-914). -/
def smallSpan : SpanOps Word where
  nextset := nextset
  nextunset := nextunset
  span a b := (1#64 <<< b) - (1#64 <<< a)

/-- `FatChartItem`: `anextset`, `anextunset`, `memset` followed by `SETBIT` for each position (plcfrs.pyx:915-929). -/
def fatSpan (slots : Nat) : SpanOps (List Word) where
  nextset := anextset
  nextunset := anextunset
  span a b := (List.range' a (b - a)).foldl setbit (List.replicate slots 0)

/-- The `while a != -1` loop of `checkwhitelist` (plcfrs.pyx:905-914, 917-929), starting from position `b` for a number of rounds; `comp` gives the label of component `cnt`.
`none` if the label is read beyond the end of a vector. -/
def components (s : SpanOps V) (wl : Whitelist V) (vec : V) (comp : Nat → Option Nat) : Nat → Nat → Nat → Option Bool
  | 0, _, _ => none
  | f + 1, cnt, b =>
    match s.nextset vec b with
    | none => some true
    | some a =>
      match comp cnt with
      | none => none
      | some label =>
        if (⟨label, s.span a (s.nextunset vec a)⟩ : Item V) ∈ wl.items label then components s wl vec comp f (cnt + 1) (s.nextunset vec a) else some false

/-- `checkwhitelist(newitem, whitelist, splitprune, markorigin)` (plcfrs.pyx:878-940); `N` is the number of bits of a vector. The label of `newitem` is modified in place in the
code (and restored only when returning True); the callers return at once when the result is False. -/
def checkwhitelist (s : SpanOps V) (N : Nat) (whitelist : Option (Whitelist V)) (splitprune markorigin : Bool) (x : Item V) : Option Bool :=
  match whitelist with
  | none => some true
  | some wl =>
    if splitprune then
      if markorigin then
        if (wl.splitmapping x.label).isEmpty then some true
        else components s wl x.vec (fun cnt => (wl.splitmapping x.label)[cnt]?) (N + 1) 0 0
      else if wl.mapping x.label ≠ 0 then some true
      else match (wl.splitmapping x.label)[0]? with
        | none => none
        | some label => components s wl x.vec (fun _ => some label) (N + 1) 0 0
    else if wl.mapping x.label ≠ 0 then some (decide ((⟨wl.mapping x.label, x.vec⟩ : Item V) ∈ wl.items (wl.mapping x.label)))
    else some true

/-- The call in `process_edge` as made by `parse_main` (plcfrs.pyx:456-458, 523-525, 586-588): items whose label has fan-out 1 are not split. -/
def check (s : SpanOps V) (N : Nat) (whitelist : Option (Whitelist V)) (splitprune markorigin : Bool) (fanout : Nat → Nat) (x : Item V) : Option Bool :=
  checkwhitelist s N whitelist (splitprune && decide (fanout x.label ≠ 1)) markorigin x

/-- `CFGtoSmallChartItem(label, start, end)` (containers.pyx:34-37). -/
def cfgToSmall (label start stop : Nat) : Item Word := ⟨label, (1#64 <<< stop) - (1#64 <<< start)⟩

/-- `CFGtoFatChartItem(label, start, end)` (containers.pyx:40-51). The shifts in the first branch are by 64 or more if `end` is at least 64, which C leaves undefined;
here, as on x86, they are modulo 64. -/
def cfgToFat (slots label start stop : Nat) : Item (List Word) :=
  ⟨label,
    if start / 64 = stop / 64 then (List.replicate slots 0).set (start / 64) ((1#64 <<< (stop % 64)) - (1#64 <<< (start % 64)))
    else ((List.range' (start / 64 + 1) (stop / 64 - (start / 64 + 1))).foldl (fun v n => v.set n (BitVec.allOnes 64))
      ((List.replicate slots 0).set (start / 64) (BitVec.allOnes 64 <<< (start % 64)))).set (stop / 64) ((1#64 <<< (stop % 64)) - 1)⟩

/-! ### Specification -/

/-- The item for a coarse label and a set of positions is on the whitelist. -/
def Spec.Listed (mem : V → Nat → Bool) (wl : Whitelist V) (label : Nat) (S : List Nat) : Prop :=
  ∃ y ∈ wl.items label, y.label = label ∧ ∀ j, mem y.vec j = true ↔ j ∈ S

/-- An item of the fine grammar is allowed: its label is never blocked, or the coarse items to which it is projected are all on the whitelist.
Without `split` this is the item with the coarse label and the same positions; with `split` there is one coarse item for each component. -/
def Spec.Allowed (mem : V → Nat → Bool) (N : Nat) (wl : Whitelist V) (split : Bool) (x : Item V) : Prop :=
  let spans := Concat.Spec.spans (mem x.vec) N
  if split then wl.splitmapping x.label = [] ∨ ∀ (i : Nat) (S : List Nat) (label : Nat), spans[i]? = some S → (wl.splitmapping x.label)[i]? = some label → Spec.Listed mem wl label S
  else wl.mapping x.label = 0 ∨ Spec.Listed mem wl (wl.mapping x.label) spans.flatten

/-- What is used of the bit vectors with `N` bits. -/
structure Spec.SpanLaws (s : SpanOps V) (N : Nat) (valid : V → Prop) (mem : V → Nat → Bool) : Prop where
  next : ∀ v, valid v → ∀ pos, Bits.Spec.NextMember (mem v) pos (s.nextset v pos)
  unset : ∀ v, valid v → ∀ p, mem v p = true → RunEnd (mem v) N p (s.nextunset v p)
  span : ∀ a b, a < b → b ≤ N → valid (s.span a b) ∧ ∀ j, mem (s.span a b) j = decide (a ≤ j ∧ j < b)
  ext : ∀ v w, valid v → valid w → (∀ j, mem v j = mem w j) → v = w
  below : ∀ v, valid v → ∀ j, mem v j = true → j < N

/-! ### Laws -/

theorem getLsbD_span {a b : Nat} (hab : a < b) (hb : b ≤ 64) (j : Nat) : ((1#64 <<< b) - (1#64 <<< a)).getLsbD j = decide (a ≤ j ∧ j < b) := by
  have h1 : ((1#64 <<< b) - (1#64 <<< a)).toNat = 2 ^ b - 2 ^ a := by
    have ha : (1#64 <<< a).toNat = 2 ^ a := by
      rw [BitVec.toNat_shiftLeft]
      simp only [BitVec.toNat_ofNat, Nat.shiftLeft_eq]
      rw [show (1 % 2 ^ 64 : Nat) = 1 by decide, Nat.one_mul, Nat.mod_eq_of_lt (Nat.pow_lt_pow_right (by decide) (by omega))]
    have hlt : (2 : Nat) ^ a < 2 ^ b := Nat.pow_lt_pow_right (by decide) hab
    have hle : (2 : Nat) ^ b ≤ 2 ^ 64 := Nat.pow_le_pow_right (by decide) hb
    rw [BitVec.toNat_sub, ha]
    rcases Nat.lt_or_eq_of_le hb with hb' | hb'
    · have hb2 : (1#64 <<< b).toNat = 2 ^ b := by
        rw [BitVec.toNat_shiftLeft]
        simp only [BitVec.toNat_ofNat, Nat.shiftLeft_eq]
        rw [show (1 % 2 ^ 64 : Nat) = 1 by decide, Nat.one_mul, Nat.mod_eq_of_lt (Nat.pow_lt_pow_right (by decide) hb')]
      rw [hb2, show 2 ^ 64 - 2 ^ a + 2 ^ b = (2 ^ b - 2 ^ a) + 2 ^ 64 by omega, Nat.add_mod_right, Nat.mod_eq_of_lt (by omega)]
    · subst hb'
      have : (1#64 <<< 64).toNat = 0 := by decide
      have h2 : 0 < 2 ^ a := Nat.pow_pos (by decide)
      rw [this, Nat.add_zero, Nat.mod_eq_of_lt (by omega)]
  have h2 : (2 : Nat) ^ b - 2 ^ a = 2 ^ a * (2 ^ (b - a) - 1) := by
    rw [Nat.mul_sub, ← Nat.pow_add, show a + (b - a) = b by omega, Nat.mul_one]
  rw [BitVec.getLsbD, h1, h2, Nat.testBit_two_pow_mul, Nat.testBit_two_pow_sub_one]
  rw [Bool.eq_iff_iff]
  simp only [Bool.and_eq_true, decide_eq_true_eq]
  omega

theorem spanLaws_small : Spec.SpanLaws smallSpan 64 (fun _ => True) (fun v j => v.getLsbD j) where
  next := fun v _ pos => C10_nextset v pos
  unset := by
    intro v _ p h
    have hp : p < 64 := by
      by_contra hc
      rw [BitVec.getLsbD_of_ge _ _ (by omega)] at h
      cases h
    obtain ⟨h1, h2, h3, h4⟩ := C10_nextunset v p hp
    refine ⟨?_, h2, h4, h3⟩
    rcases Nat.lt_or_eq_of_le h1 with h1 | h1
    · exact h1
    · rw [← h1, h] at h3; cases h3
  span := fun a b hab hb => ⟨trivial, getLsbD_span hab hb⟩
  ext := fun v w _ _ h => BitVec.eq_of_getLsbD_eq (fun i _ => h i)
  below := by
    intro v _ j h
    by_contra hc
    rw [BitVec.getLsbD_of_ge _ _ (by omega)] at h
    cases h

theorem foldl_setbit (l : List Nat) : ∀ (v : List Word), (∀ i ∈ l, i < 64 * v.length) →
    (l.foldl setbit v).length = v.length ∧ ∀ j, abit (l.foldl setbit v) j = (abit v j || decide (j ∈ l)) := by
  induction l with
  | nil => intro v _; simp
  | cons i l ih =>
    intro v h
    obtain ⟨h1, h2⟩ := ih (setbit v i) (fun k hk => by rw [Plcfrs.length_setbit]; exact h k (by simp [hk]))
    refine ⟨by rw [List.foldl_cons, h1, Plcfrs.length_setbit], fun j => ?_⟩
    rw [List.foldl_cons, h2, (C10_single_bit v i (h i (by simp))).1]
    rw [Bool.eq_iff_iff]
    simp only [Bool.or_eq_true, decide_eq_true_eq, List.mem_cons]
    tauto

theorem spanLaws_fat (slots : Nat) : Spec.SpanLaws (fatSpan slots) (64 * slots) (fun v => v.length = slots) abit where
  next := fun v _ pos => C10_anextset v pos
  unset := fun v hv p h => by subst hv; exact runEnd_anextunset h
  span := by
    intro a b hab hb
    obtain ⟨h1, h2⟩ := foldl_setbit (List.range' a (b - a)) (List.replicate slots 0) (by
      intro i hi
      rw [List.mem_range'_1] at hi
      rw [List.length_replicate]
      omega)
    refine ⟨by rw [fatSpan, h1, List.length_replicate], fun j => ?_⟩
    show abit ((List.range' a (b - a)).foldl setbit (List.replicate slots 0)) j = _
    rw [h2, Plcfrs.abit_replicate, Bool.false_or, decide_eq_decide, List.mem_range'_1]
    omega
  ext := fun v w hv hw h => Plcfrs.abit_ext (hv.trans hw.symm) h
  below := by
    intro v hv j h
    subst hv
    by_contra hc
    rw [abit_ge (by omega)] at h
    cases h

/-! ### The check -/

section
variable {s : SpanOps V} {N : Nat} {valid : V → Prop} {mem : V → Nat → Bool} {wl : Whitelist V}

theorem listed_iff (L : Spec.SpanLaws s N valid mem) (hw : ∀ label, ∀ y ∈ wl.items label, valid y.vec) {label : Nat} {v : V} (hv : valid v) {S : List Nat}
    (hS : ∀ j, mem v j = true ↔ j ∈ S) : (⟨label, v⟩ : Item V) ∈ wl.items label ↔ Spec.Listed mem wl label S := by
  constructor
  · exact fun h => ⟨_, h, rfl, hS⟩
  · rintro ⟨⟨l, w⟩, h, rfl, h2⟩
    rw [L.ext v w hv (hw _ _ h) (fun j => by rw [Bool.eq_iff_iff, hS, h2])]
    exact h

theorem components_spec (L : Spec.SpanLaws s N valid mem) (hw : ∀ label, ∀ y ∈ wl.items label, valid y.vec) {v : V} (hv : valid v) (comp : Nat → Option Nat) :
    ∀ (f cnt b : Nat), N < f + b → b ≤ N → (∀ i, i < (SplitDisc.Spec.runs (Concat.Spec.members (mem v) N b)).length → comp (cnt + i) ≠ none) →
    ∃ r, components s wl v comp f cnt b = some r ∧ (r = true ↔ ∀ i S label, (SplitDisc.Spec.runs (Concat.Spec.members (mem v) N b))[i]? = some S → comp (cnt + i) = some label →
      Spec.Listed mem wl label S) := by
  intro f
  induction f with
  | zero =>
    intro cnt b hf hb
    omega
  | succ f ih =>
    intro cnt b hf hb hc
    have hn := L.next v hv b
    rw [components]
    cases ha : s.nextset v b with
    | none =>
      rw [ha] at hn
      refine ⟨true, rfl, ?_⟩
      have : Concat.Spec.members (mem v) N b = [] := by
        rw [Concat.Spec.members, List.filter_eq_nil_iff]
        intro j hj
        rw [List.mem_range'_1] at hj
        rw [hn j hj.1]; simp
      rw [this]
      simp [SplitDisc.Spec.runs]
    | some a =>
      rw [ha] at hn
      obtain ⟨h1, h2, h3⟩ := hn
      have hr := L.unset v hv a h2
      have hruns := runs_members h1 h3 hr
      obtain ⟨hv1, hv2⟩ := L.span a (s.nextunset v a) hr.lt hr.le
      rw [hruns] at hc ⊢
      obtain ⟨label, hl⟩ := Option.ne_none_iff_exists'.1 (hc 0 (by simp))
      rw [Nat.add_zero] at hl
      have hlist := listed_iff (label := label) (S := List.range' a (s.nextunset v a - a)) L hw hv1 (fun j => by
        rw [hv2, decide_eq_true_eq, List.mem_range'_1]
        have := hr.lt
        omega)
      simp only [hl]
      split
      · rename_i hin
        obtain ⟨r, hr1, hr2⟩ := ih (cnt + 1) (s.nextunset v a) (by have := hr.lt; omega) hr.le (fun i hi => by
          have := hc (i + 1) (by simpa using hi)
          rwa [show cnt + (i + 1) = cnt + 1 + i by omega] at this)
        refine ⟨r, hr1, ?_⟩
        rw [hr2]
        constructor
        · intro h i S lab hi hlab
          cases i with
          | zero =>
            simp only [List.getElem?_cons_zero, Option.some.injEq] at hi
            rw [Nat.add_zero, hl] at hlab
            cases hlab; subst hi
            exact hlist.1 hin
          | succ i =>
            rw [List.getElem?_cons_succ] at hi
            exact h i S lab hi (by rw [show cnt + 1 + i = cnt + (i + 1) by omega]; exact hlab)
        · intro h i S lab hi hlab
          exact h (i + 1) S lab (by rw [List.getElem?_cons_succ]; exact hi) (by rw [show cnt + (i + 1) = cnt + 1 + i by omega]; exact hlab)
      · rename_i hin
        refine ⟨false, rfl, ?_⟩
        simp only [Bool.false_eq_true, false_iff]
        exact fun h => hin (hlist.2 (h 0 _ label (by rw [List.getElem?_cons_zero]) hl))

theorem flatten_spans (L : Spec.SpanLaws s N valid mem) {v : V} (hv : valid v) (j : Nat) : mem v j = true ↔ j ∈ (Concat.Spec.spans (mem v) N).flatten := by
  rw [Concat.Spec.spans, SplitDisc.runs_flatten, Concat.Spec.members, List.mem_filter, List.mem_range'_1]
  constructor
  · exact fun h => ⟨⟨by omega, by have := L.below v hv j h; omega⟩, h⟩
  · exact fun h => h.2

/-- The result of the check, for `splitprune` only with `markorigin`. -/
theorem checkwhitelist_spec (L : Spec.SpanLaws s N valid mem) (hw : ∀ label, ∀ y ∈ wl.items label, valid y.vec) {x : Item V} (hx : valid x.vec) (split : Bool)
    (hsm : split = true → wl.splitmapping x.label = [] ∨ (Concat.Spec.spans (mem x.vec) N).length ≤ (wl.splitmapping x.label).length) :
    ∃ r, checkwhitelist s N (some wl) split true x = some r ∧ (r = true ↔ Spec.Allowed mem N wl split x) := by
  rw [checkwhitelist]
  unfold Spec.Allowed
  cases split with
  | true =>
    simp only [if_true]
    by_cases he : wl.splitmapping x.label = []
    · exact ⟨true, by simp [he], by simp [he]⟩
    · rw [if_neg (by simpa using he)]
      have hlen := (hsm rfl).resolve_left he
      obtain ⟨r, h1, h2⟩ := components_spec L hw hx (fun cnt => (wl.splitmapping x.label)[cnt]?) (N + 1) 0 0 (by omega) (by omega) (fun i hi => by
        simp only [Nat.zero_add]
        have : i < (wl.splitmapping x.label).length := Nat.lt_of_lt_of_le hi hlen
        simp [this])
      refine ⟨r, h1, ?_⟩
      rw [h2]
      simp only [Nat.zero_add, he, false_or]
      rfl
  | false =>
    simp only [Bool.false_eq_true, if_false]
    by_cases hm : wl.mapping x.label = 0
    · exact ⟨true, by simp [hm], by simp [hm]⟩
    · rw [if_pos hm]
      refine ⟨_, rfl, ?_⟩
      rw [decide_eq_true_eq, listed_iff L hw hx (flatten_spans L hx)]
      simp [hm]

/-! ### Properties -/

/-- **C58**: without a whitelist every item is allowed. -/
theorem C58_nowhitelist (s : SpanOps V) (N : Nat) (sp mo : Bool) (fanout : Nat → Nat) (x : Item V) : check s N none sp mo fanout x = some true := rfl

end

/-- The number of components of an item is the fan-out of its label, and a label has no components in the coarse grammar or as many as its fan-out. -/
def Spec.FanoutOk (mem : V → Nat → Bool) (N : Nat) (wl : Whitelist V) (fanout : Nat → Nat) (x : Item V) : Prop :=
  (Concat.Spec.spans (mem x.vec) N).length = fanout x.label ∧ (fanout x.label ≠ 1 → wl.splitmapping x.label = [] ∨ (wl.splitmapping x.label).length = fanout x.label)

/-- **C58**: an item with a bit vector of one word passes the check exactly if its label is never blocked or all coarse items to which it is projected are on the whitelist:
with `splitprune`, a discontinuous item is projected to one coarse item per component. -/
theorem C58_check_small (wl : Whitelist Word) (sp : Bool) (fanout : Nat → Nat) (x : Item Word) (hf : Spec.FanoutOk (fun v j => v.getLsbD j) 64 wl fanout x) :
    ∃ r, check smallSpan 64 (some wl) sp true fanout x = some r ∧
      (r = true ↔ Spec.Allowed (fun v j => v.getLsbD j) 64 wl (sp && decide (fanout x.label ≠ 1)) x) := by
  refine checkwhitelist_spec spanLaws_small (fun _ _ _ => trivial) trivial _ (fun h => ?_)
  simp only [Bool.and_eq_true, decide_eq_true_eq] at h
  rcases hf.2 h.2 with h' | h'
  · exact .inl h'
  · exact .inr (by rw [hf.1, h'])

/-- **C58**: the same for bit vectors of several words. -/
theorem C58_check_fat {slots : Nat} (wl : Whitelist (List Word)) (hw : ∀ label, ∀ y ∈ wl.items label, y.vec.length = slots) (sp : Bool) (fanout : Nat → Nat) (x : Item (List Word))
    (hx : x.vec.length = slots) (hf : Spec.FanoutOk abit (64 * slots) wl fanout x) :
    ∃ r, check (fatSpan slots) (64 * slots) (some wl) sp true fanout x = some r ∧
      (r = true ↔ Spec.Allowed abit (64 * slots) wl (sp && decide (fanout x.label ≠ 1)) x) := by
  refine checkwhitelist_spec (spanLaws_fat slots) hw hx _ (fun h => ?_)
  simp only [Bool.and_eq_true, decide_eq_true_eq] at h
  rcases hf.2 h.2 with h' | h'
  · exact .inl h'
  · exact .inr (by rw [hf.1, h'])

/-- **C58**: the items made from the spans of a CFG chart have exactly the positions of the span. -/
theorem C58_cfg_small {label start stop : Nat} (h : start < stop) (h2 : stop ≤ 64) (j : Nat) :
    (cfgToSmall label start stop).label = label ∧ (cfgToSmall label start stop).vec.getLsbD j = decide (start ≤ j ∧ j < stop) :=
  ⟨rfl, getLsbD_span h h2 j⟩

theorem abit_set (v : List Word) (i : Nat) (w : Word) (j : Nat) : abit (v.set i w) j = if j / 64 = i ∧ i < v.length then w.getLsbD (j % 64) else abit v j := by
  unfold abit
  rw [List.getD_eq_getElem?_getD, List.getElem?_set, List.getD_eq_getElem?_getD]
  by_cases h : i = j / 64
  · subst h
    by_cases h2 : j / 64 < v.length
    · simp [h2]
    · simp [h2]
  · simp [h, Ne.symm h]

theorem foldl_set_ones (l : List Nat) : ∀ v : List Word, (l.foldl (fun v n => v.set n (BitVec.allOnes 64)) v).length = v.length ∧
    ∀ j, abit (l.foldl (fun v n => v.set n (BitVec.allOnes 64)) v) j = if j / 64 ∈ l ∧ j / 64 < v.length then true else abit v j := by
  induction l with
  | nil => intro v; simp
  | cons i l ih =>
    intro v
    obtain ⟨h1, h2⟩ := ih (v.set i (BitVec.allOnes 64))
    rw [List.length_set] at h1 h2
    refine ⟨h1, fun j => ?_⟩
    rw [List.foldl_cons, h2, abit_set]
    by_cases h3 : j / 64 < v.length
    · have hm : j % 64 < 64 := Nat.mod_lt _ (by omega)
      by_cases h4 : j / 64 ∈ l
      · simp [h3, h4]
      · by_cases h5 : j / 64 = i
        · subst h5
          rw [if_neg (fun hh => h4 hh.1), if_pos ⟨rfl, h3⟩, if_pos ⟨List.mem_cons_self, h3⟩, BitVec.getLsbD_allOnes]
          simpa using hm
        · simp [h4, h5]
    · have : ¬ (j / 64 = i ∧ i < v.length) := by rintro ⟨rfl, h⟩; exact h3 h
      simp [h3, this]

/-- **C58**: the same for bit vectors of several words. -/
theorem C58_cfg_fat {slots label start stop : Nat} (h : start < stop) (h2 : stop < 64 * slots) (j : Nat) :
    (cfgToFat slots label start stop).label = label ∧ (cfgToFat slots label start stop).vec.length = slots ∧
      abit (cfgToFat slots label start stop).vec j = decide (start ≤ j ∧ j < stop) := by
  have hm : j % 64 < 64 := Nat.mod_lt _ (by omega)
  refine ⟨rfl, ?_, ?_⟩
  · unfold cfgToFat
    split
    · simp
    · simp only
      rw [List.length_set, (foldl_set_ones _ _).1, List.length_set, List.length_replicate]
  · unfold cfgToFat
    simp only
    split
    · rename_i hs
      rw [abit_set, List.length_replicate, Plcfrs.abit_replicate]
      by_cases hj : j / 64 = start / 64
      · rw [if_pos ⟨hj, by omega⟩, getLsbD_span (by omega) (by omega), decide_eq_decide]
        omega
      · rw [if_neg (fun hh => hj hh.1)]
        symm
        rw [decide_eq_false_iff_not]
        omega
    · rename_i hs
      rw [abit_set, (foldl_set_ones _ _).1, List.length_set, List.length_replicate]
      by_cases hj : j / 64 = stop / 64
      · rw [if_pos ⟨hj, by omega⟩]
        by_cases hz : stop % 64 = 0
        · rw [hz]
          have : (1#64 <<< 0 - 1 : Word) = 0 := by decide
          rw [this]
          simp only [BitVec.ofNat_eq_ofNat, BitVec.getLsbD_zero]
          symm
          rw [decide_eq_false_iff_not]
          omega
        · have := getLsbD_span (a := 0) (b := stop % 64) (by omega) (by omega) (j % 64)
          rw [BitVec.shiftLeft_zero] at this
          refine Eq.trans this ?_
          rw [decide_eq_decide]
          omega
      · rw [if_neg (fun hh => hj hh.1), (foldl_set_ones _ _).2, List.length_set, List.length_replicate]
        by_cases hr : j / 64 ∈ List.range' (start / 64 + 1) (stop / 64 - (start / 64 + 1))
        · have hr' := List.mem_range'_1.1 hr
          rw [if_pos ⟨hr, by omega⟩]
          symm
          rw [decide_eq_true_eq]
          omega
        · rw [if_neg (fun hh => hr hh.1), abit_set, List.length_replicate, Plcfrs.abit_replicate]
          rw [List.mem_range'_1] at hr
          by_cases hst : j / 64 = start / 64
          · rw [if_pos ⟨hst, by omega⟩, BitVec.getLsbD_shiftLeft, BitVec.getLsbD_allOnes, Bool.eq_iff_iff]
            simp only [Bool.and_eq_true, decide_eq_true_eq, Bool.not_eq_true', decide_eq_false_iff_not]
            omega
          · rw [if_neg (fun hh => hst hh.1)]
            symm
            rw [decide_eq_false_iff_not]
            omega

namespace Examples

/-- Coarse labels 1 = `NP`, 2 = `VP*0`, 3 = `VP*1`; fine labels 1 = `NP`, 2 = `VP_2`. On the whitelist: `NP[0,1]`, `VP*0[0]`, `VP*1[2,3]`. -/
def wl : Whitelist Word where
  items l := if l = 1 then [⟨1, 0b11⟩] else if l = 2 then [⟨2, 0b1⟩] else if l = 3 then [⟨3, 0b1100⟩] else []
  mapping l := if l = 1 then 1 else if l = 2 then 5 else 0
  splitmapping l := if l = 2 then [2, 3] else []

def fanout (l : Nat) : Nat := if l = 2 then 2 else 1

example : check smallSpan 64 (some wl) true true fanout ⟨2, 0b1101⟩ = some true := by decide +kernel
example : check smallSpan 64 (some wl) true true fanout ⟨2, 0b0101⟩ = some false := by decide +kernel
example : check smallSpan 64 (some wl) true true fanout ⟨1, 0b11⟩ = some true := by decide +kernel
example : check smallSpan 64 (some wl) true true fanout ⟨1, 0b110⟩ = some false := by decide +kernel
example : check smallSpan 64 (some wl) true true fanout ⟨3, 0b110⟩ = some true := by decide +kernel
example : Spec.FanoutOk (fun v j => v.getLsbD j) 64 wl fanout ⟨2, 0b1101⟩ := ⟨by decide +kernel, by decide +kernel⟩
example : Spec.FanoutOk (fun v j => v.getLsbD j) 64 wl fanout ⟨1, 0b11⟩ := ⟨by decide +kernel, by decide +kernel⟩

/-- Without `markorigin` the coarse label of all components is the same, 2 = `VP*`. -/
def wl2 : Whitelist Word where
  items l := if l = 2 then [⟨2, 0b1⟩] else []
  mapping l := if l = 2 then 2 else 0
  splitmapping _ := []

end Examples

/-- **C58**, disagreement: with `splitprune` but without `markorigin` ("every discontinuous node will result in multiple lookups into whitelist to see whether it should be
allowed", coarsetofine.pyx:57-60; "treat VP_2[101] as {VP*[100], VP*[001]} for pruning", parser.py:121) there is no lookup at all: any discontinuous item with a label
that is mapped passes, here `VP_2[0011]` though neither component is on the whitelist; and for a label that is never blocked, an empty vector is read. -/
theorem C58_splitprune_disagreement :
    check smallSpan 64 (some Examples.wl2) true false Examples.fanout ⟨2, 0b1010⟩ = some true ∧ (∀ y ∈ Examples.wl2.items 2, y.vec = 0b1) ∧
    (∀ (x : Item Word) (fanout : Nat → Nat), fanout x.label ≠ 1 → Examples.wl2.mapping x.label ≠ 0 → check smallSpan 64 (some Examples.wl2) true false fanout x = some true) ∧
    ∀ (x : Item Word) (fanout : Nat → Nat), fanout x.label ≠ 1 → Examples.wl2.mapping x.label = 0 → check smallSpan 64 (some Examples.wl2) true false fanout x = none := by
  refine ⟨by decide +kernel, by decide, ?_, ?_⟩
  · intro x fo h1 h2
    simp [check, checkwhitelist, h1, h2]
  · intro x fo h1 h2
    have h3 : Examples.wl2.splitmapping x.label = [] := rfl
    simp [check, checkwhitelist, h1, h2, h3]

end Disco.Ctf
