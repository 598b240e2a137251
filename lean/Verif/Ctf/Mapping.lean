import Mathlib.Data.List.Basic
import Mathlib.Data.List.Range
import Mathlib.Tactic.Tauto
/-!
# C58: the mapping of fine to coarse labels and rules: `Grammar.getmapping` (_grammar.pxi:821-917), `getrulemapping` (919-950), `getruleno` (965-973)

Simplifications: the two regular expressions are functions on labels (`neverblock`: whether it matches; `strip`: the result of the substitution); vectors are functions that are 0 or empty outside
the range written; a `KeyError` is `none`.
-/
namespace Disco.Ctf.Mapping

/-! ### Model -/

/-- The part of a `Grammar` that is used (containers.pxd:531-560): labels with their fan-out. Label number `n` is `tolabel[n]`. -/
structure Gram where
  tolabel : List String
  fanout : List Nat

/-- `toid[label]`. -/
def Gram.toid (g : Gram) (s : String) : Option Nat := if s ∈ g.tolabel then some (g.tolabel.idxOf s) else none

/-- The options of `getmapping`. `mapping` is the dictionary, `none` if not given. -/
structure Opts where
  neverblock : String → Bool
  strip : String → String
  mapping : Option (String → Option String)
  splitprune : Bool
  markorigin : Bool

/-- The vectors written by `getmapping`. -/
structure MapSt where
  result : Nat → Nat
  splitmapping : Nat → List Nat
  revmap : Nat → List Nat
  seen : List Nat

def upd {β : Type} (f : Nat → β) (n : Nat) (v : β) : Nat → β := fun m => if m = n then v else f m

/-- `strlabel` after the substitution and the dictionary (_grammar.pxi:868-873), with the `*` of a split label. -/
def coarseLabel (o : Opts) (fanout : Nat) (s : String) : Option String :=
  (match o.mapping with
  | none => some (o.strip s)
  | some d => d (o.strip s)).map (fun s => if fanout > 1 ∧ o.splitprune then s ++ "*" else s)

/-- The loop over the components of a split label (_grammar.pxi:877-882); the first argument has the remaining components. -/
def splitLoop (coarse : Gram) (selfmap : Bool) (n : Nat) (strlabel : String) : List Nat → MapSt → Option MapSt
  | [], st => some st
  | m :: ms, st =>
    match coarse.toid (strlabel ++ toString m) with
    | none => none
    | some c => splitLoop coarse selfmap n strlabel ms
      { st with splitmapping := upd st.splitmapping n (st.splitmapping n ++ [c]), seen := c :: st.seen, revmap := if selfmap then st.revmap else upd st.revmap c (st.revmap c ++ [n]) }

/-- The body of the loop over the labels (_grammar.pxi:865-893). -/
def step (fine coarse : Gram) (selfmap : Bool) (o : Opts) (st : MapSt) (n : Nat) : Option MapSt :=
  let s := fine.tolabel.getD n ""
  let fanout := fine.fanout.getD n 1
  if o.neverblock s then some { st with result := upd st.result n 0 }
  else match coarseLabel o fanout s with
    | none => none
    | some strlabel =>
      if fanout > 1 ∧ o.splitprune ∧ o.markorigin then
        splitLoop coarse selfmap n strlabel (List.range fanout) { st with result := upd st.result n fine.tolabel.length, splitmapping := upd st.splitmapping n [] }
      else match coarse.toid strlabel with
        | none => none
        | some c => some { st with result := upd st.result n c, revmap := if selfmap then st.revmap else upd st.revmap c (st.revmap c ++ [n]) }

/-- The loop of `getmapping(coarse, ..., startidx)` on the vectors from an earlier call. -/
def getmapping (fine coarse : Gram) (selfmap : Bool) (o : Opts) (startidx : Nat) (st : MapSt) : Option MapSt :=
  (List.range' startidx (fine.tolabel.length - startidx)).foldlM (step fine coarse selfmap o) { st with seen := [0] }

/-- The vectors of a new grammar. -/
def MapSt.empty : MapSt := ⟨fun _ => 0, fun _ => [], fun _ => [], [0]⟩

/-- The messages of `getmapping`, with the labels listed. -/
inductive Msg where
  | none
  | equal
  | notSuperset (labels : List String)
  | superset
  | notEquivalent (labels : List String)
  deriving DecidableEq

/-- The message (_grammar.pxi:894-912). Simplified: labels are listed in the order of their numbers, without a limit of ten. -/
def message (fine coarse : Gram) (startidx : Nat) (debug : Bool) (st : MapSt) : Msg :=
  if startidx ≠ 0 ∨ debug = false then .none
  else if (List.range coarse.tolabel.length).all (fun a => decide (a ∈ st.seen)) && st.seen.all (fun a => decide (a < coarse.tolabel.length)) then .equal
  else
    let labels := ((List.range coarse.tolabel.length).filter (fun a => decide (a ∉ st.seen))).map (fun a => coarse.tolabel.getD a "")
    if coarse.tolabel.length > fine.tolabel.length then .notSuperset labels
    else if coarse.tolabel.length < fine.tolabel.length then .superset
    else .notEquivalent labels

/-- `Rule` (containers.pxd): the key of `rulenos`. -/
structure Rule where
  lhs : Nat
  rhs1 : Nat
  rhs2 : Nat
  args : Nat
  lengths : Nat
  deriving DecidableEq

/-- `rulenos[key]` for a C++ hash map: a key that is absent is inserted with value 0. -/
def lookup (rulenos : List (Rule × Nat)) (key : Rule) : Nat × List (Rule × Nat) :=
  match rulenos.find? (fun x => decide (x.1 = key)) with
  | some x => (x.2, rulenos)
  | none => (0, rulenos ++ [(key, 0)])

/-- The key of the coarse rule of a rule (_grammar.pxi:938-944). -/
def coarseKey (fine coarse : Gram) (strip : String → String) (r : Rule) : Option Rule :=
  match coarse.toid (strip (fine.tolabel.getD r.lhs "")), coarse.toid (strip (fine.tolabel.getD r.rhs1 "")), coarse.toid (strip (fine.tolabel.getD r.rhs2 "")) with
  | some a, some b, some c => some ⟨a, b, c, r.args, r.lengths⟩
  | _, _, _ => none

/-- `getrulemapping(coarse, striplabelre)` (_grammar.pxi:919-950), the loop over the rules with their numbers `rule.no`: the mapping and the `rulenos` of the coarse grammar. -/
def getrulemapping (fine coarse : Gram) (strip : String → String) : List (Rule × Nat) → List (Rule × Nat) → (Nat → List Nat) → Option ((Nat → List Nat) × List (Rule × Nat))
  | [], rulenos, rulemapping => some (rulemapping, rulenos)
  | (r, no) :: rules, rulenos, rulemapping =>
    match coarseKey fine coarse strip r with
    | none => none
    | some key =>
      let (m, rulenos) := lookup rulenos key
      getrulemapping fine coarse strip rules rulenos (upd rulemapping m (rulemapping m ++ [no]))

/-! ### Lemmas -/

theorem toid_spec {g : Gram} {s : String} {c : Nat} (h : g.toid s = some c) : g.tolabel[c]? = some s := by
  unfold Gram.toid at h
  split at h
  · rename_i hs
    injection h with h
    subst h
    exact List.getElem?_eq_some_iff.2 ⟨List.idxOf_lt_length_of_mem hs, List.getElem_idxOf _⟩
  · cases h

theorem splitLoop_spec (coarse : Gram) (selfmap : Bool) (n : Nat) (s : String) : ∀ (ms : List Nat) (st : MapSt),
    (splitLoop coarse selfmap n s ms st = none ↔ ∃ m ∈ ms, coarse.toid (s ++ toString m) = none) ∧
    ∀ st', splitLoop coarse selfmap n s ms st = some st' →
      st'.result = st.result ∧ (∀ k ≠ n, st'.splitmapping k = st.splitmapping k) ∧
      (∃ cs, st'.splitmapping n = st.splitmapping n ++ cs ∧ List.Forall₂ (fun m c => coarse.toid (s ++ toString m) = some c) ms cs ∧
        ∀ c k, k ∈ st'.revmap c ↔ k ∈ st.revmap c ∨ (selfmap = false ∧ k = n ∧ c ∈ cs)) := by
  intro ms
  induction ms with
  | nil =>
    intro st
    refine ⟨by simp [splitLoop], ?_⟩
    intro st' h
    rw [splitLoop] at h
    injection h with h; subst h
    exact ⟨rfl, fun _ _ => rfl, [], by simp, .nil, by simp⟩
  | cons m ms ih =>
    intro st
    rw [splitLoop]
    cases hc : coarse.toid (s ++ toString m) with
    | none => exact ⟨⟨fun _ => ⟨m, List.mem_cons_self, hc⟩, fun _ => rfl⟩, by simp⟩
    | some c =>
      simp only
      obtain ⟨h1, h2⟩ := ih { st with splitmapping := upd st.splitmapping n (st.splitmapping n ++ [c]), seen := c :: st.seen, revmap := if selfmap then st.revmap else upd st.revmap c (st.revmap c ++ [n]) }
      refine ⟨?_, ?_⟩
      · rw [h1]
        constructor
        · rintro ⟨k, hk, hk'⟩; exact ⟨k, List.mem_cons_of_mem _ hk, hk'⟩
        · rintro ⟨k, hk, hk'⟩
          rcases List.mem_cons.1 hk with rfl | hk
          · rw [hc] at hk'; cases hk'
          · exact ⟨k, hk, hk'⟩
      intro st' h
      obtain ⟨e1, e2, cs, e3, e4, e5⟩ := h2 st' h
      refine ⟨e1, ?_, c :: cs, ?_, .cons hc e4, ?_⟩
      · intro k hk
        rw [e2 k hk]
        simp [upd, hk]
      · rw [e3]; simp [upd]
      · intro c' k
        rw [e5]
        cases selfmap with
        | true => simp
        | false =>
          simp only [Bool.false_eq_true, if_false, upd, List.mem_cons, true_and]
          by_cases hcc : c' = c
          · subst hcc; simp; tauto
          · simp [hcc]

/-! ### Specification -/

/-- The label or labels of the coarse grammar to which a label has to be mapped. -/
def Spec.Mapped (coarse : Gram) (o : Opts) (fanout : Nat) (s : String) (whole : Nat) (comps : List Nat) : Prop :=
  ∃ t, (match o.mapping with
      | none => t = o.strip s
      | some d => d (o.strip s) = some t) ∧
    if fanout > 1 ∧ o.splitprune ∧ o.markorigin then comps.length = fanout ∧ ∀ m c : Nat, comps[m]? = some c → coarse.tolabel[c]? = some (t ++ "*" ++ toString m)
    else coarse.tolabel[whole]? = some (if fanout > 1 ∧ o.splitprune then t ++ "*" else t)

/-! ### Properties -/

theorem step_none {fine coarse : Gram} {selfmap : Bool} {o : Opts} {st : MapSt} {n : Nat} (h : step fine coarse selfmap o st n = none) :
    o.neverblock (fine.tolabel.getD n "") = false ∧ ¬ ∃ whole comps, Spec.Mapped coarse o (fine.fanout.getD n 1) (fine.tolabel.getD n "") whole comps := by
  have toid_none : ∀ s, coarse.toid s = none → ∀ c : Nat, coarse.tolabel[c]? ≠ some s := by
    intro s hs c hc
    have : s ∈ coarse.tolabel := List.mem_of_getElem? hc
    rw [Gram.toid, if_pos this] at hs
    cases hs
  unfold step at h
  simp only at h
  split at h
  · cases h
  · rename_i hnb
    refine ⟨by simpa using hnb, ?_⟩
    rintro ⟨whole, comps, t, ht, hm⟩
    have hcl : coarseLabel o (fine.fanout.getD n 1) (fine.tolabel.getD n "") = some (if fine.fanout.getD n 1 > 1 ∧ o.splitprune then t ++ "*" else t) := by
      unfold coarseLabel
      cases hmp : o.mapping with
      | none => rw [hmp] at ht; simp only at ht; subst ht; rfl
      | some d => rw [hmp] at ht; simp only at ht; simp only [ht, Option.map_some]
    rw [hcl] at h
    simp only at h
    split at h
    · rename_i hsp
      rw [if_pos hsp] at hm
      rw [if_pos ⟨hsp.1, hsp.2.1⟩] at h
      obtain ⟨m, hm1, hm2⟩ := (splitLoop_spec _ _ _ _ _ _).1.1 h
      rw [List.mem_range, ← hm.1] at hm1
      exact toid_none _ hm2 _ (hm.2 m comps[m] (List.getElem?_eq_getElem hm1))
    · rename_i hsp
      rw [if_neg hsp] at hm
      split at h
      · rename_i hh
        exact toid_none _ hh _ hm
      · cases h

theorem step_some {fine coarse : Gram} {selfmap : Bool} {o : Opts} {st st' : MapSt} {n : Nat} (h : step fine coarse selfmap o st n = some st') :
    (∀ k ≠ n, st'.result k = st.result k ∧ st'.splitmapping k = st.splitmapping k) ∧
    (o.neverblock (fine.tolabel.getD n "") = true → st'.result n = 0 ∧ st'.splitmapping n = st.splitmapping n ∧ st'.revmap = st.revmap) ∧
    (o.neverblock (fine.tolabel.getD n "") = false → Spec.Mapped coarse o (fine.fanout.getD n 1) (fine.tolabel.getD n "") (st'.result n) (st'.splitmapping n) ∧
      (¬ (fine.fanout.getD n 1 > 1 ∧ o.splitprune ∧ o.markorigin) → st'.splitmapping n = st.splitmapping n) ∧
      ∀ c k, k ∈ st'.revmap c ↔ k ∈ st.revmap c ∨ selfmap = false ∧ k = n ∧
        if fine.fanout.getD n 1 > 1 ∧ o.splitprune ∧ o.markorigin then c ∈ st'.splitmapping n else c = st'.result n) := by
  unfold step at h
  simp only at h
  split at h
  · rename_i hnb
    injection h with h; subst h
    refine ⟨fun k hk => ⟨by simp [upd, hk], rfl⟩, fun _ => ⟨by simp [upd], rfl, rfl⟩, fun hh => ?_⟩
    rw [hh] at hnb; cases hnb
  · rename_i hnb
    split at h
    · cases h
    · rename_i strlabel hcl
      obtain ⟨t, ht, rfl⟩ : ∃ t, (match o.mapping with
          | none => t = o.strip (fine.tolabel.getD n "")
          | some d => d (o.strip (fine.tolabel.getD n "")) = some t) ∧ (if fine.fanout.getD n 1 > 1 ∧ o.splitprune then t ++ "*" else t) = strlabel := by
        unfold coarseLabel at hcl
        obtain ⟨t, h1, h2⟩ := Option.map_eq_some_iff.1 hcl
        refine ⟨t, ?_, h2⟩
        cases hmp : o.mapping with
        | none => rw [hmp] at h1; simp only at h1; injection h1 with h1; exact h1.symm
        | some d => rw [hmp] at h1; exact h1
      split at h
      · rename_i hsp
        obtain ⟨e1, e2, cs, e3, e4, e5⟩ := (splitLoop_spec _ _ _ _ _ _).2 st' h
        simp only [upd, if_true, List.nil_append] at e3
        refine ⟨fun k hk => ⟨by rw [e1]; simp [upd, hk], by rw [e2 k hk]; simp [upd, hk]⟩, fun hh => absurd hh hnb, fun _ => ⟨⟨t, ht, ?_⟩, fun hh => absurd hsp hh, fun c k => ?_⟩⟩
        · rw [if_pos hsp, e3]
          have hl := e4.length_eq
          rw [List.length_range] at hl
          refine ⟨hl.symm, fun m c hc => ?_⟩
          have hm : m < cs.length := (List.getElem?_eq_some_iff.1 hc).1
          have := (List.forall₂_iff_get.1 e4).2 m (by rw [List.length_range]; omega) hm
          simp only [List.get_eq_getElem, List.getElem_range] at this
          rw [if_pos ⟨hsp.1, hsp.2.1⟩, (List.getElem?_eq_some_iff.1 hc).2] at this
          exact toid_spec this
        · rw [e5, if_pos hsp, e3]
      · rename_i hsp
        split at h
        · cases h
        · rename_i c hc
          injection h with h; subst h
          refine ⟨fun k hk => ⟨by simp [upd, hk], rfl⟩, fun hh => absurd hh hnb, fun _ => ⟨⟨t, ht, ?_⟩, fun _ => rfl, fun c' k => ?_⟩⟩
          · rw [if_neg hsp]
            simp only [upd, if_true]
            exact toid_spec hc
          · rw [if_neg hsp]
            cases selfmap with
            | true => simp
            | false =>
              simp only [Bool.false_eq_true, if_false, upd, if_true, true_and]
              by_cases hcc : c' = c
              · subst hcc; simp
              · simp [hcc]

/-- The loop from `startidx`. -/
theorem loop_spec (fine coarse : Gram) (selfmap : Bool) (o : Opts) : ∀ (len startidx : Nat) (st : MapSt),
    ((List.range' startidx len).foldlM (step fine coarse selfmap o) st = none → ∃ n, startidx ≤ n ∧ n < startidx + len ∧ o.neverblock (fine.tolabel.getD n "") = false ∧
      ¬ ∃ whole comps, Spec.Mapped coarse o (fine.fanout.getD n 1) (fine.tolabel.getD n "") whole comps) ∧
    ∀ st', (List.range' startidx len).foldlM (step fine coarse selfmap o) st = some st' →
      (∀ n, ¬ (startidx ≤ n ∧ n < startidx + len) → st'.result n = st.result n ∧ st'.splitmapping n = st.splitmapping n) ∧
      (∀ n, startidx ≤ n → n < startidx + len → (o.neverblock (fine.tolabel.getD n "") = true → st'.result n = 0) ∧
        (o.neverblock (fine.tolabel.getD n "") = false → Spec.Mapped coarse o (fine.fanout.getD n 1) (fine.tolabel.getD n "") (st'.result n) (st'.splitmapping n))) ∧
      ∀ c k, k ∈ st'.revmap c ↔ k ∈ st.revmap c ∨ selfmap = false ∧ startidx ≤ k ∧ k < startidx + len ∧ o.neverblock (fine.tolabel.getD k "") = false ∧
        if fine.fanout.getD k 1 > 1 ∧ o.splitprune ∧ o.markorigin then c ∈ st'.splitmapping k else c = st'.result k := by
  intro len
  induction len with
  | zero =>
    intro startidx st
    refine ⟨by simp, ?_⟩
    intro st' h
    simp only [List.range'_zero, List.foldlM_nil] at h
    injection h with h; subst h
    exact ⟨fun _ _ => ⟨rfl, rfl⟩, fun n h1 h2 => by omega, fun c k => ⟨.inl, fun h => h.elim id (fun ⟨_, _, _, _⟩ => by omega)⟩⟩
  | succ len ih =>
    intro startidx st
    rw [List.range'_succ, List.foldlM_cons]
    cases hs : step fine coarse selfmap o st startidx with
    | none => exact ⟨fun _ => ⟨startidx, by omega, by omega, step_none hs⟩, by simp⟩
    | some st1 =>
      obtain ⟨h1, h2⟩ := ih (startidx + 1) st1
      obtain ⟨s1, s2, s3⟩ := step_some hs
      simp only [Option.bind_eq_bind, Option.bind_some]
      refine ⟨?_, ?_⟩
      · intro h
        obtain ⟨n, a, b, c⟩ := h1 h
        exact ⟨n, by omega, by omega, c⟩
      · intro st' h
        obtain ⟨e1, e2, e3⟩ := h2 st' h
        obtain ⟨r1, r2⟩ := e1 startidx (by omega)
        refine ⟨?_, ?_, ?_⟩
        · intro n hn
          obtain ⟨a, b⟩ := e1 n (by omega)
          obtain ⟨c, d⟩ := s1 n (by omega)
          exact ⟨a.trans c, b.trans d⟩
        · intro n hn hn'
          by_cases hns : n = startidx
          · subst hns
            rw [r1, r2]
            exact ⟨fun h => (s2 h).1, fun h => (s3 h).1⟩
          · exact e2 n (by omega) (by omega)
        · intro c k
          rw [e3]
          by_cases hks : k = startidx
          · subst hks
            have hlt : ¬ (k + 1 ≤ k) := by omega
            simp only [hlt, false_and, and_false, or_false]
            cases hnb : o.neverblock (fine.tolabel.getD k "") with
            | true => rw [(s2 hnb).2.2]; simp
            | false =>
              rw [(s3 hnb).2.2, r1, r2]
              have h1 : k < k + (len + 1) := by omega
              simp [h1]
          · have : k ∈ st1.revmap c ↔ k ∈ st.revmap c := by
              cases hnb : o.neverblock (fine.tolabel.getD startidx "") with
              | true => rw [(s2 hnb).2.2]
              | false => rw [(s3 hnb).2.2]; simp [hks]
            rw [this]
            have h2 : startidx + 1 ≤ k ↔ startidx ≤ k := by omega
            have h3 : k < startidx + 1 + len ↔ k < startidx + (len + 1) := by omega
            rw [h2, h3]

/-- **C58**: `getmapping` on a new grammar raises `KeyError` exactly if some label that may be blocked has no coarse label; otherwise every label that may be blocked is mapped to the number of its
coarse label, or its components to the numbers of the coarse labels of the components, every other label is mapped to 0, and `revmap` is the inverse relation. -/
theorem C58_mapping (fine coarse : Gram) (selfmap : Bool) (o : Opts) :
    (getmapping fine coarse selfmap o 0 .empty = none ↔ ∃ n < fine.tolabel.length, o.neverblock (fine.tolabel.getD n "") = false ∧
      ¬ ∃ whole comps, Spec.Mapped coarse o (fine.fanout.getD n 1) (fine.tolabel.getD n "") whole comps) ∧
    ∀ st, getmapping fine coarse selfmap o 0 .empty = some st →
      (∀ n < fine.tolabel.length, (o.neverblock (fine.tolabel.getD n "") = true → st.result n = 0) ∧
        (o.neverblock (fine.tolabel.getD n "") = false → Spec.Mapped coarse o (fine.fanout.getD n 1) (fine.tolabel.getD n "") (st.result n) (st.splitmapping n))) ∧
      ∀ c k, k ∈ st.revmap c ↔ selfmap = false ∧ k < fine.tolabel.length ∧ o.neverblock (fine.tolabel.getD k "") = false ∧
        if fine.fanout.getD k 1 > 1 ∧ o.splitprune ∧ o.markorigin then c ∈ st.splitmapping k else c = st.result k := by
  obtain ⟨h1, h2⟩ := loop_spec fine coarse selfmap o (fine.tolabel.length - 0) 0 { MapSt.empty with seen := [0] }
  simp only [Nat.sub_zero, Nat.zero_add] at h1 h2
  refine ⟨⟨?_, ?_⟩, ?_⟩
  · intro h
    obtain ⟨n, _, hn, h3⟩ := h1 h
    exact ⟨n, hn, h3⟩
  · rintro ⟨n, hn, h3, h4⟩
    cases hg : getmapping fine coarse selfmap o 0 .empty with
    | none => rfl
    | some st => exact absurd ⟨_, _, ((h2 st hg).2.1 n (by omega) hn).2 h3⟩ h4
  · intro st h
    obtain ⟨_, e2, e3⟩ := h2 st h
    refine ⟨fun n hn => e2 n (by omega) hn, fun c k => ?_⟩
    rw [e3]
    simp [MapSt.empty]

/-- **C58**: after adding labels to a grammar, a call with `startidx` the earlier number of labels gives the same mapping as a single call for all labels (for labels without split components). -/
theorem C58_mapping_incremental (fine coarse : Gram) (o : Opts) (hsp : (o.splitprune && o.markorigin) = false) (newlabels : List String) (newfanout : List Nat) (hl : fine.fanout.length = fine.tolabel.length) :
    getmapping ⟨fine.tolabel ++ newlabels, fine.fanout ++ newfanout⟩ coarse false o 0 .empty =
      (getmapping fine coarse false o 0 .empty).bind (getmapping ⟨fine.tolabel ++ newlabels, fine.fanout ++ newfanout⟩ coarse false o fine.tolabel.length) := by
  have hseen : ∀ (g : Gram) (ns : List Nat) (st st' : MapSt), st.seen = [0] → ns.foldlM (step g coarse false o) st = some st' → st'.seen = [0] := by
    intro g ns
    induction ns with
    | nil => intro st st' h h2; rw [List.foldlM_nil] at h2; injection h2 with h2; subst h2; exact h
    | cons n ns ih =>
      intro st st' h h2
      rw [List.foldlM_cons] at h2
      obtain ⟨st1, h3, h4⟩ := Option.bind_eq_some_iff.1 h2
      refine ih st1 st' ?_ h4
      unfold step at h3
      simp only at h3
      split at h3
      · injection h3 with h3; subst h3; exact h
      · split at h3
        · cases h3
        · split at h3
          · rename_i hh
            rw [hh.2.1, hh.2.2] at hsp
            cases hsp
          · split at h3
            · cases h3
            · injection h3 with h3; subst h3; exact h
  have hsame : ∀ n < fine.tolabel.length, ∀ st, step ⟨fine.tolabel ++ newlabels, fine.fanout ++ newfanout⟩ coarse false o st n = step fine coarse false o st n := by
    intro n hn st
    have h1 : (fine.tolabel ++ newlabels).getD n "" = fine.tolabel.getD n "" := by
      rw [List.getD_eq_getElem?_getD, List.getElem?_append_left hn, ← List.getD_eq_getElem?_getD]
    have h2 : (fine.fanout ++ newfanout).getD n 1 = fine.fanout.getD n 1 := by
      rw [List.getD_eq_getElem?_getD, List.getElem?_append_left (by omega), ← List.getD_eq_getElem?_getD]
    have h3 : ∀ k, ¬ (k > 1 ∧ o.splitprune = true ∧ o.markorigin = true) := by
      rintro k ⟨_, h4, h5⟩
      rw [h4, h5] at hsp
      cases hsp
    unfold step
    simp only [h1, h2, h3, if_false]
  have hfold : ∀ (ns : List Nat), (∀ n ∈ ns, n < fine.tolabel.length) → ∀ st, ns.foldlM (step ⟨fine.tolabel ++ newlabels, fine.fanout ++ newfanout⟩ coarse false o) st =
      ns.foldlM (step fine coarse false o) st := by
    intro ns
    induction ns with
    | nil => intro _ st; rfl
    | cons n ns ih =>
      intro h st
      rw [List.foldlM_cons, List.foldlM_cons, hsame n (h n (by simp))]
      congr 1
      funext st1
      exact ih (fun m hm => h m (List.mem_cons_of_mem _ hm)) st1
  unfold getmapping
  simp only [Nat.sub_zero, List.length_append]
  rw [← List.range'_append_1, List.foldlM_append, hfold _ (by simp [List.mem_range'_1])]
  simp only [Option.bind_eq_bind, Nat.zero_add]
  cases hg : (List.range' 0 fine.tolabel.length).foldlM (step fine coarse false o) { MapSt.empty with seen := [0] } with
  | none => rfl
  | some st =>
    have := hseen fine _ _ _ rfl hg
    simp only [Option.bind_some]
    rw [show fine.tolabel.length + newlabels.length - fine.tolabel.length = newlabels.length by omega]
    have : ({ st with seen := [0] } : MapSt) = st := by rw [← this]
    rw [this]

/-- **C58 fails**: the message is never `label sets are equal` unless split components are marked, even for two equal grammars, because only components are recorded as seen. -/
theorem C58_message_disagreement (fine coarse : Gram) (selfmap : Bool) (o : Opts) (hsp : (o.splitprune && o.markorigin) = false) (hc : 2 ≤ coarse.tolabel.length) {st : MapSt}
    (h : getmapping fine coarse selfmap o 0 .empty = some st) (debug : Bool) : message fine coarse 0 debug st ≠ .equal := by
  have hseen : ∀ (ns : List Nat) (st st' : MapSt), st.seen = [0] → ns.foldlM (step fine coarse selfmap o) st = some st' → st'.seen = [0] := by
    intro ns
    induction ns with
    | nil => intro st st' h h2; rw [List.foldlM_nil] at h2; injection h2 with h2; subst h2; exact h
    | cons n ns ih =>
      intro st st' h h2
      rw [List.foldlM_cons] at h2
      obtain ⟨st1, h3, h4⟩ := Option.bind_eq_some_iff.1 h2
      refine ih st1 st' ?_ h4
      unfold step at h3
      simp only at h3
      split at h3
      · injection h3 with h3; subst h3; exact h
      · split at h3
        · cases h3
        · split at h3
          · rename_i hh
            rw [hh.2.1, hh.2.2] at hsp
            cases hsp
          · split at h3
            · cases h3
            · injection h3 with h3; subst h3; exact h
  have hs := hseen _ _ st rfl h
  unfold message
  split
  · simp
  · have : (List.range coarse.tolabel.length).all (fun a => decide (a ∈ st.seen)) = false := by
      rw [List.all_eq_false]
      exact ⟨1, List.mem_range.2 (by omega), by rw [hs]; simp⟩
    rw [this]
    simp only [Bool.false_and, Bool.false_eq_true, if_false]
    split
    · simp
    · split <;> simp

theorem find_of_mem {rulenos : List (Rule × Nat)} {key : Rule} (h : ∃ m, (key, m) ∈ rulenos) : ∃ x ∈ rulenos, x.1 = key ∧ rulenos.find? (fun x => decide (x.1 = key)) = some x := by
  obtain ⟨m, hm⟩ := h
  cases hf : rulenos.find? (fun x => decide (x.1 = key)) with
  | none =>
    have := List.find?_eq_none.1 hf _ hm
    simp at this
  | some x => exact ⟨x, List.mem_of_find?_eq_some hf, by simpa using List.find?_some hf, rfl⟩

theorem rulemapping_loop (fine coarse : Gram) (strip : String → String) {rulenos : List (Rule × Nat)} (huniq : ∀ x ∈ rulenos, ∀ y ∈ rulenos, x.1 = y.1 → x = y) :
    ∀ (rules : List (Rule × Nat)), (∀ r ∈ rules, ∃ key, coarseKey fine coarse strip r.1 = some key ∧ ∃ m, (key, m) ∈ rulenos) → ∀ rm, ∃ rm',
      getrulemapping fine coarse strip rules rulenos rm = some (rm', rulenos) ∧
      ∀ m, rm' m = rm m ++ (rules.filter (fun r => (coarseKey fine coarse strip r.1).any (fun key => decide ((key, m) ∈ rulenos)))).map Prod.snd := by
  intro rules
  induction rules with
  | nil => intro _ rm; exact ⟨rm, rfl, by simp⟩
  | cons r rules ih =>
    intro h rm
    obtain ⟨r, no⟩ := r
    obtain ⟨key, hk, hm⟩ := h (r, no) (by simp)
    obtain ⟨x, hx, hx1, hx2⟩ := find_of_mem hm
    obtain ⟨rm', h1, h2⟩ := ih (fun r hr => h r (List.mem_cons_of_mem _ hr)) (upd rm x.2 (rm x.2 ++ [no]))
    refine ⟨rm', ?_, ?_⟩
    · rw [getrulemapping, hk]
      simp only [lookup, hx2]
      exact h1
    · intro m
      rw [h2, List.filter_cons]
      have hiff : (coarseKey fine coarse strip r).any (fun key => decide ((key, m) ∈ rulenos)) = true ↔ m = x.2 := by
        simp only at hk
        rw [hk, Option.any_some, decide_eq_true_eq]
        constructor
        · intro hm'
          have := huniq _ hm' _ hx hx1.symm
          rw [← this]
        · rintro rfl
          rw [← hx1]; exact hx
      by_cases hmx : m = x.2
      · rw [if_pos (hiff.2 hmx)]
        subst hmx
        simp [upd]
      · rw [if_neg (fun h1 => hmx (hiff.1 h1))]
        simp [upd, hmx]

/-- **C58**: if the coarse grammar has every stripped rule, `getrulemapping` maps each coarse rule to the numbers of exactly the rules that become this rule when their labels are stripped,
in order. -/
theorem C58_rulemapping (fine coarse : Gram) (strip : String → String) {rulenos : List (Rule × Nat)} (huniq : ∀ x ∈ rulenos, ∀ y ∈ rulenos, x.1 = y.1 → x = y) {rules : List (Rule × Nat)}
    (h : ∀ r ∈ rules, ∃ key, coarseKey fine coarse strip r.1 = some key ∧ ∃ m, (key, m) ∈ rulenos) :
    ∃ rm, getrulemapping fine coarse strip rules rulenos (fun _ => []) = some (rm, rulenos) ∧
      ∀ m, rm m = (rules.filter (fun r => (coarseKey fine coarse strip r.1).any (fun key => decide ((key, m) ∈ rulenos)))).map Prod.snd := by
  obtain ⟨rm, h1, h2⟩ := rulemapping_loop fine coarse strip huniq rules h (fun _ => [])
  exact ⟨rm, h1, fun m => by rw [h2]; simp⟩

/-- **C58 fails**: the number reported for a production that the grammar does not have (`getruleno`, and in `getrulemapping`) is 0, which is the number of a rule, and the production is recorded from
then on as if it were that rule. -/
theorem C58_ruleno_disagreement (rulenos : List (Rule × Nat)) (key : Rule) (h : ∀ x ∈ rulenos, x.1 ≠ key) :
    (lookup rulenos key).1 = 0 ∧ (key, 0) ∈ (lookup rulenos key).2 := by
  have : rulenos.find? (fun x => decide (x.1 = key)) = none := List.find?_eq_none.2 (fun x hx => by simpa using h x hx)
  simp [lookup, this]

/-! ### Examples -/

/-- A grammar with labels as in a DOP reduction and its coarse grammar. -/
def exFine : Gram := ⟨["Epsilon", "S", "NP@1", "NP@2", "VP|<x>", "VP_2@3"], [0, 1, 1, 1, 1, 2]⟩

def exCoarse : Gram := ⟨["Epsilon", "S", "NP", "VP_2"], [0, 1, 1, 2]⟩

def exSplit : Gram := ⟨["Epsilon", "S", "NP", "VP_2*0", "VP_2*1"], [0, 1, 1, 1, 1]⟩

def exStrip (s : String) : String := if s = "NP@1" ∨ s = "NP@2" then "NP" else if s = "VP_2@3" then "VP_2" else s

def exOpts (split : Bool) : Opts := ⟨fun s => decide (s = "VP|<x>"), exStrip, none, split, split⟩

example : (getmapping exFine exCoarse false (exOpts false) 0 .empty).map (fun st => ((List.range 6).map st.result, (List.range 4).map st.revmap)) =
      some ([0, 1, 2, 2, 0, 3], [[0], [1], [2, 3], [5]]) ∧
    (getmapping exFine exSplit false (exOpts true) 0 .empty).map (fun st => ((List.range 6).map st.result, (List.range 6).map st.splitmapping, (List.range 5).map st.revmap)) =
      some ([0, 1, 2, 2, 0, 6], [[], [], [], [], [], [3, 4]], [[0], [1], [2, 3], [5], [5]]) ∧
    (getmapping exFine exSplit false (exOpts false) 0 .empty).isNone = true := by decide +kernel

/-- The message for two equal grammars. -/
example : (getmapping exCoarse exCoarse false (exOpts false) 0 .empty).map (message exCoarse exCoarse 0 true) = some (.notEquivalent ["S", "NP", "VP_2"]) := by decide +kernel

/-- The rules S → NP@1 NP@2 and S → NP@2 NP@2. -/
example : (getrulemapping exFine exCoarse exStrip [(⟨1, 2, 3, 2, 2⟩, 0), (⟨1, 3, 3, 2, 2⟩, 1)] [(⟨1, 2, 2, 2, 2⟩, 0)] (fun _ => [])).map (fun x => x.1 0) = some [0, 1] := by decide +kernel

end Disco.Ctf.Mapping
