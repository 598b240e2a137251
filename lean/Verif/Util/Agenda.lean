import Mathlib.Order.Defs.LinearOrder
import Mathlib.Data.Nat.Basic
import Verif.Heap.Heapq
import Verif.Basic.Dict
/-!
# C18: `util.PyAgenda` (util.py:216-344), the pure Python updatable priority queue

`Entry` objects are shared between the heap and the mapping and their `count` is overwritten in place, so they live in an
arena (`ents`), and heap and mapping hold references (indices in the arena).
-/
set_option linter.unusedSectionVars false
namespace Disco.PyAgenda
open Disco.Heap

variable {K V : Type} [DecidableEq K] [LinearOrder V]

/-- `Entry` (util.py:200-213). -/
structure Entry (K V : Type) where
  key : K
  value : V
  count : Nat
deriving DecidableEq

/-- `Entry.__lt__` (util.py:207-209). -/
def Entry.lt (a b : Entry K V) : Bool :=
  decide (a.value < b.value) || (decide (a.value = b.value) && decide (a.count < b.count))

/-- The attributes of a `PyAgenda` (util.py:224-229), with the arena of entries. -/
structure Agenda (K V : Type) where
  ents : List (Entry K V)
  heap : List Nat
  mapping : Dict K Nat
  counter : Nat
  length : Int
deriving DecidableEq

/-- `PyAgenda()` (util.py:224-229). -/
def empty : Agenda K V := ⟨[], [], [], 1, 0⟩

/-- Comparison of two entry references, with the counts they have now (dangling references, which do not
occur in Python, come last). -/
def ltRef (ents : List (Entry K V)) (i j : Nat) : Bool :=
  match ents[i]?, ents[j]? with
  | some a, some b => Entry.lt a b
  | some _, none => true
  | none, _ => false

/-- `ents[i].count = INVALID` (INVALID = 0, util.py:197). -/
def invalidate (ents : List (Entry K V)) (i : Nat) : List (Entry K V) :=
  ents.modify i fun e => { e with count := 0 }

/-- `agenda[key] = value`: `__setitem__` (util.py:300-310). -/
def setitem (a : Agenda K V) (k : K) (v : V) : Agenda K V :=
  match a.mapping.get? k with
  | some old =>
    let cnt := match a.ents[old]? with
      | some e => e.count
      | none => 0
    let ents := invalidate a.ents old ++ [⟨k, v, cnt⟩]
    { a with ents := ents, mapping := a.mapping.set k a.ents.length,
             heap := heappush (ltRef ents) a.heap a.ents.length }
  | none =>
    let ents := a.ents ++ [⟨k, v, a.counter⟩]
    { ents := ents, mapping := a.mapping.set k a.ents.length,
      heap := heappush (ltRef ents) a.heap a.ents.length,
      length := a.length + 1, counter := a.counter + 1 }

/-- Results of the operations; exceptions are values. -/
inductive Out (K V : Type)
  | done
  | value (v : V)
  | item (k : K) (v : V)
  | truth (b : Bool)
  | size (n : Int)
  | keyError
  | indexError
deriving DecidableEq

/-- `agenda.pop(key)` (util.py:261-268; the case `key is None` is `popitem`). -/
def pop (a : Agenda K V) (k : K) : Out K V × Agenda K V :=
  match a.mapping.get? k with
  | none => (.keyError, a)
  | some i => match a.ents[i]? with
    | none => (.keyError, a)
    | some e => (.value e.value,
        { a with mapping := a.mapping.erase k, ents := invalidate a.ents i, length := a.length - 1 })

/-- `del agenda[key]`: `__delitem__` (util.py:312-316). -/
def delitem (a : Agenda K V) (k : K) : Out K V × Agenda K V :=
  match a.mapping.get? k with
  | none => (.keyError, a)
  | some i => (.done,
      { a with mapping := a.mapping.erase k, ents := invalidate a.ents i, length := a.length - 1 })

/-- The loop of `popitem` (util.py:272-275): pop entries until one is valid; `none` is the
IndexError of `heappop`, after which the heap is empty. -/
def popLoop (ents : List (Entry K V)) : (fuel : Nat) → List Nat → Option (Entry K V × List Nat)
  | 0, _ => none
  | fuel + 1, h => match heappop (ltRef ents) h with
    | none => none
    | some (i, h') => match ents[i]? with
      | none => none
      | some e => if e.count = 0 then popLoop ents fuel h' else some (e, h')

/-- `agenda.popitem()` (util.py:270-278). -/
def popitem (a : Agenda K V) : Out K V × Agenda K V :=
  match popLoop a.ents (a.heap.length + 1) a.heap with
  | none => (.indexError, { a with heap := [] })
  | some (e, h) => (.item e.key e.value,
      { a with heap := h, mapping := a.mapping.erase e.key, length := a.length - 1 })

/-- The loop of `peekitem` (util.py:253-257). -/
def peekLoop (ents : List (Entry K V)) : (fuel : Nat) → (entry n : Nat) → List Nat → Out K V × List Nat
  | 0, _, _, h => (.indexError, h)
  | fuel + 1, entry, n, h => match ents[entry]? with
    | none => (.indexError, h)
    | some e =>
      if e.count = 0 then
        if n = 1 then (.indexError, h)
        else match heappop (ltRef ents) h with
          | none => (.indexError, h)
          | some (i, h') => peekLoop ents fuel i (n - 1) h'
      else (.item e.key e.value, h)

/-- `agenda.peekitem()` (util.py:247-258). -/
def peekitem (a : Agenda K V) : Out K V × Agenda K V :=
  match a.heap with
  | [] => (.indexError, a)
  | top :: _ =>
    let r := peekLoop a.ents (a.heap.length + 1) top a.heap.length a.heap
    (r.1, { a with heap := r.2 })

/-- `agenda.clear()` (util.py:288-292). -/
def clear (a : Agenda K V) : Agenda K V := { a with counter := 1, heap := [], mapping := [] }

/-- `agenda[key]` (util.py:297-298). -/
def getitem (a : Agenda K V) (k : K) : Out K V :=
  match a.mapping.get? k with
  | none => .keyError
  | some i => match a.ents[i]? with
    | none => .keyError
    | some e => .value e.value

/-- The dictionary-like operations. -/
inductive Op (K V : Type)
  | set (k : K) (v : V)
  | del (k : K)
  | pop (k : K)
  | popitem
  | get (k : K)
  | contains (k : K)
  | len
  | bool
  | peekitem
  | clear
deriving DecidableEq

/-- One operation. -/
def step (a : Agenda K V) : Op K V → Out K V × Agenda K V
  | .set k v => (.done, setitem a k v)
  | .del k => delitem a k
  | .pop k => pop a k
  | .popitem => popitem a
  | .get k => (getitem a k, a)
  | .contains k => (.truth (a.mapping.get? k).isSome, a)   -- util.py:294-295
  | .len => (.size a.length, a)                            -- util.py:328-329
  | .bool => (.truth (a.length ≠ 0), a)                    -- util.py:331-332
  | .peekitem => peekitem a
  | .clear => (.done, clear a)

/-- A history of operations with their results. -/
def run (a : Agenda K V) : List (Op K V) → List (Out K V) × Agenda K V
  | [] => ([], a)
  | op :: ops =>
    let r := step a op
    let r' := run r.2 ops
    (r.1 :: r'.1, r'.2)

/-! ## Specification: a finite map from keys to priorities with pop-minimum -/

/-- `l` lists the keys on which `m` is defined, each once. -/
def Spec.Domain (m : K → Option V) (l : List K) : Prop := l.Nodup ∧ ∀ k, k ∈ l ↔ (m k).isSome

/-- The map `m` updated at `k`. -/
def Spec.upd (m : K → Option V) (k : K) (o : Option V) : K → Option V := fun j => if k = j then o else m j

/-- Allowed result and new contents of an operation on contents `m`. -/
inductive Spec.Step (m : K → Option V) : Op K V → Out K V → (K → Option V) → Prop
  | set (k v) : Spec.Step m (.set k v) .done (Spec.upd m k (some v))
  | del (k v) : m k = some v → Spec.Step m (.del k) .done (Spec.upd m k none)
  | delMissing (k) : m k = none → Spec.Step m (.del k) .keyError m
  | pop (k v) : m k = some v → Spec.Step m (.pop k) (.value v) (Spec.upd m k none)
  | popMissing (k) : m k = none → Spec.Step m (.pop k) .keyError m
  | popitem (k v) : m k = some v → (∀ j w, m j = some w → v ≤ w) →
      Spec.Step m .popitem (.item k v) (Spec.upd m k none)
  | popEmpty : (∀ k, m k = none) → Spec.Step m .popitem .indexError m
  | get (k v) : m k = some v → Spec.Step m (.get k) (.value v) m
  | getMissing (k) : m k = none → Spec.Step m (.get k) .keyError m
  | contains (k) : Spec.Step m (.contains k) (.truth (m k).isSome) m
  | len (l) : Spec.Domain m l → Spec.Step m .len (.size l.length) m
  | bool (b : Bool) : (b = true ↔ ∃ k, (m k).isSome) → Spec.Step m .bool (.truth b) m
  | peek (k v) : m k = some v → (∀ j w, m j = some w → v ≤ w) → Spec.Step m .peekitem (.item k v) m
  | peekEmpty : (∀ k, m k = none) → Spec.Step m .peekitem .indexError m
  | clear : Spec.Step m .clear .done (fun _ => none)

/-- Allowed results of a history. -/
inductive Spec.Run : (K → Option V) → List (Op K V) → List (Out K V) → (K → Option V) → Prop
  | nil (m) : Spec.Run m [] [] m
  | cons {m op out m' ops outs m''} : Spec.Step m op out m' → Spec.Run m' ops outs m'' →
      Spec.Run m (op :: ops) (out :: outs) m''

/-! ## Refinement -/

/-- Contents of an agenda. -/
def contents (a : Agenda K V) : K → Option V := fun k =>
  (a.mapping.get? k).bind fun i => (a.ents[i]?).map (·.value)

/-- Order of entry references by value (ignoring the count). -/
def leRef (ents : List (Entry K V)) (i j : Nat) : Prop :=
  match ents[i]?, ents[j]? with
  | some a, some b => a.value ≤ b.value
  | some _, none => True
  | none, some _ => False
  | none, none => True

/-- Invariant of reachable agendas (without `peekitem`/`clear`). -/
structure Inv (a : Agenda K V) : Prop where
  wf : a.mapping.WF
  map : ∀ k i, a.mapping.get? k = some i → i ∈ a.heap ∧ ∃ e, a.ents[i]? = some e ∧ e.key = k ∧ e.count ≠ 0
  valid : ∀ i ∈ a.heap, ∃ e, a.ents[i]? = some e ∧ (e.count ≠ 0 → a.mapping.get? e.key = some i)
  heap : IsHeap (leRef a.ents) a.heap
  nodup : a.heap.Nodup
  len : a.length = a.mapping.length
  pos : 0 < a.counter

theorem compat (ents : List (Entry K V)) : Compat (ltRef ents) (leRef ents) where
  trans := by
    intro a b c
    unfold leRef
    cases ents[a]? <;> cases ents[b]? <;> cases ents[c]? <;> simp
    exact le_trans
  of_lt := by
    intro a b
    unfold leRef ltRef
    cases ents[a]? <;> cases ents[b]? <;> simp [Entry.lt]
    rintro (h | ⟨h, _⟩)
    · exact le_of_lt h
    · exact le_of_eq h
  of_not_lt := by
    intro a b
    unfold leRef ltRef
    cases ents[a]? <;> cases ents[b]? <;> simp [Entry.lt]
    intro h _
    exact h

theorem isHeap_congr {le le' : Nat → Nat → Prop} {h : List Nat}
    (hle : ∀ i ∈ h, ∀ j ∈ h, le i j → le' i j) (hh : IsHeap le h) : IsHeap le' h := by
  intro c hc0 hc a b ha hb
  exact hle a (List.mem_of_getElem? ha) b (List.mem_of_getElem? hb) (hh c hc0 hc a b ha hb)

omit [DecidableEq K] in
theorem invalidate_get (ents : List (Entry K V)) (i j : Nat) :
    (invalidate ents i)[j]? = (ents[j]?).map fun e => if i = j then { e with count := 0 } else e := by
  unfold invalidate
  rw [List.getElem?_modify]
  cases ents[j]? <;> simp

omit [DecidableEq K] in
theorem invalidate_length (ents : List (Entry K V)) (i : Nat) : (invalidate ents i).length = ents.length := by
  simp [invalidate]

theorem lt_of_get {A : Type} {l : List A} {i : Nat} {x : A} (h : l[i]? = some x) : i < l.length :=
  (List.getElem?_eq_some_iff.1 h).1

/-- Invalidating an entry keeps the order by value. -/
theorem leRef_invalidate (ents : List (Entry K V)) (x i j : Nat) (h : leRef ents i j) :
    leRef (invalidate ents x) i j := by
  unfold leRef at *
  rw [invalidate_get, invalidate_get]
  cases h1 : ents[i]? <;> cases h2 : ents[j]? <;> simp_all
  split <;> split <;> exact h

theorem leRef_append (ents : List (Entry K V)) (e : Entry K V) (i j : Nat) (hi : i < ents.length)
    (hj : j < ents.length) (h : leRef ents i j) : leRef (ents ++ [e]) i j := by
  unfold leRef at *
  rwa [List.getElem?_append_left hi, List.getElem?_append_left hj]

theorem Inv.empty : Inv (empty : Agenda K V) where
  wf := List.nodup_nil
  map := by intro k i h; simp [PyAgenda.empty, Dict.get?] at h
  valid := by intro i h; simp [PyAgenda.empty] at h
  heap := by intro c _ _ a b ha _; simp [PyAgenda.empty] at ha
  nodup := List.nodup_nil
  len := rfl
  pos := Nat.one_pos

theorem Inv.heap_lt {a : Agenda K V} (h : Inv a) {i : Nat} (hi : i ∈ a.heap) : i < a.ents.length := by
  obtain ⟨e, he, _⟩ := h.valid i hi
  exact lt_of_get he

/-- Two keys never share an entry. -/
theorem Inv.inj {a : Agenda K V} (h : Inv a) {k j : K} {i : Nat} (hk : a.mapping.get? k = some i)
    (hj : a.mapping.get? j = some i) : k = j := by
  obtain ⟨_, e, he, hek, _⟩ := h.map k i hk
  obtain ⟨_, e', he', hej, _⟩ := h.map j i hj
  rw [he] at he'
  injection he' with he'
  rw [← hek, ← hej, he']

/-- Common part of `__setitem__`: pushing a new valid entry for `k`, after `ents` was changed to `ents'`
by invalidating the old entry of `k` (if any). -/
theorem setitem_inv {a : Agenda K V} (h : Inv a) (k : K) (v : V) :
    Inv (setitem a k v) ∧ contents (setitem a k v) = Spec.upd (contents a) k (some v) := by
  -- facts about any arena `E` that agrees with the old one except for validity of the old entry
  have main : ∀ (E : List (Entry K V)) (c : Nat) (len : Int) (cnt : Nat), c ≠ 0 → 0 < cnt →
      E.length = a.ents.length →
      (∀ i j, leRef a.ents i j → leRef E i j) →
      (∀ i e, a.ents[i]? = some e → ∃ e', E[i]? = some e' ∧ e'.key = e.key ∧ e'.value = e.value ∧
        (a.mapping.get? k ≠ some i → e' = e) ∧ (a.mapping.get? k = some i → e'.count = 0)) →
      len = (a.mapping.set k a.ents.length).length →
      Inv (⟨E ++ [⟨k, v, c⟩], heappush (ltRef (E ++ [⟨k, v, c⟩])) a.heap a.ents.length,
        a.mapping.set k a.ents.length, cnt, len⟩ : Agenda K V) ∧
      contents (⟨E ++ [⟨k, v, c⟩], heappush (ltRef (E ++ [⟨k, v, c⟩])) a.heap a.ents.length,
        a.mapping.set k a.ents.length, cnt, len⟩ : Agenda K V) = Spec.upd (contents a) k (some v) := by
    intro E c len cnt hc hcnt hEl hle hE hlen
    have hnew : (E ++ [⟨k, v, c⟩])[a.ents.length]? = some ⟨k, v, c⟩ := by
      rw [← hEl]; simp
    have hold : ∀ i, i < a.ents.length → (E ++ [⟨k, v, c⟩])[i]? = E[i]? := by
      intro i hi
      rw [List.getElem?_append_left (by omega)]
    have hheap : IsHeap (leRef (E ++ [⟨k, v, c⟩])) a.heap := by
      refine isHeap_congr ?_ h.heap
      intro i hi j hj hij
      exact leRef_append _ _ _ _ (by rw [hEl]; exact h.heap_lt hi) (by rw [hEl]; exact h.heap_lt hj)
        (hle i j hij)
    obtain ⟨hp1, hp2⟩ := heappush_spec (compat (E ++ [⟨k, v, c⟩])) a.heap a.ents.length hheap
    refine ⟨⟨h.wf.set _ _, ?_, ?_, hp1, ?_, hlen, hcnt⟩, ?_⟩
    · intro j i hj
      simp only at hj ⊢
      rw [Dict.get?_set] at hj
      split at hj
      · rename_i hkj
        injection hj with hj
        subst hj; subst hkj
        exact ⟨hp2.symm.subset (by simp), _, hnew, rfl, hc⟩
      · rename_i hkj
        obtain ⟨h1, e, h2, h3, h4⟩ := h.map j i hj
        refine ⟨hp2.symm.subset (by simp [h1]), e, ?_, h3, h4⟩
        rw [hold i (lt_of_get h2)]
        obtain ⟨e', g1, g2, g3, g4, g5⟩ := hE i e h2
        rw [g1, g4 (fun hki => hkj (h.inj hki hj))]
    · intro i hi
      simp only at hi ⊢
      rcases List.mem_cons.1 (hp2.subset hi) with rfl | hi
      · exact ⟨_, hnew, fun _ => by rw [Dict.get?_set]; simp⟩
      · obtain ⟨e, h1, h2⟩ := h.valid i hi
        obtain ⟨e', g1, g2, g3, g4, g5⟩ := hE i e h1
        refine ⟨e', by rw [hold i (lt_of_get h1)]; exact g1, fun hne => ?_⟩
        by_cases hki : a.mapping.get? k = some i
        · exact absurd (g5 hki) hne
        · have := g4 hki
          subst this
          have h3 := h2 hne
          rw [Dict.get?_set, if_neg, h3]
          rintro rfl
          exact hki h3
    · refine hp2.symm.nodup ?_
      rw [List.nodup_cons]
      exact ⟨fun hm => Nat.lt_irrefl _ (h.heap_lt hm), h.nodup⟩
    · funext j
      simp only [contents, Spec.upd, Dict.get?_set]
      split
      · simp [hnew]
      · rename_i hkj
        cases hj : a.mapping.get? j with
        | none => rfl
        | some i =>
          obtain ⟨_, e, h2, _, _⟩ := h.map j i hj
          obtain ⟨e', g1, g2, g3, g4, g5⟩ := hE i e h2
          simp only [Option.bind_some]
          rw [hold i (lt_of_get h2), g1, h2]
          simp [g3]
  unfold setitem
  cases hk : a.mapping.get? k with
  | none =>
    simp only
    refine main a.ents a.counter _ _ (Nat.ne_of_gt h.pos) (by have := h.pos; omega) rfl (fun _ _ h => h) ?_ ?_
    · intro i e he
      exact ⟨e, he, rfl, rfl, fun _ => rfl, fun hc => by rw [hk] at hc; simp at hc⟩
    · rw [Dict.length_set, hk, h.len]; simp
  | some old =>
    obtain ⟨g1, e, g2, g3, g4⟩ := h.map k old hk
    simp only [g2]
    refine main (invalidate a.ents old) e.count _ _ g4 h.pos (invalidate_length _ _)
      (fun i j => leRef_invalidate _ _ _ _) ?_ ?_
    · intro i e' he'
      refine ⟨_, by rw [invalidate_get, he']; rfl, ?_, ?_, ?_, ?_⟩
      · split <;> rfl
      · split <;> rfl
      · intro hne
        rw [hk] at hne
        exact if_neg (fun he => hne (by rw [he]))
      · intro heq
        rw [hk] at heq
        injection heq with heq
        simp only [heq, if_true]
    · rw [Dict.length_set, hk, h.len]; simp

/-- Removing key `k` with entry `i`. -/
theorem remove_inv {a : Agenda K V} (h : Inv a) (k : K) (i : Nat) (hk : a.mapping.get? k = some i) :
    Inv { a with mapping := a.mapping.erase k, ents := invalidate a.ents i, length := a.length - 1 } ∧
    contents { a with mapping := a.mapping.erase k, ents := invalidate a.ents i, length := a.length - 1 }
      = Spec.upd (contents a) k none := by
  refine ⟨⟨h.wf.erase _, ?_, ?_, ?_, h.nodup, ?_, h.pos⟩, ?_⟩
  · intro j x hj
    simp only at hj ⊢
    rw [Dict.get?_erase h.wf] at hj
    split at hj
    · simp at hj
    · rename_i hkj
      obtain ⟨h1, e, h2, h3, h4⟩ := h.map j x hj
      refine ⟨h1, e, ?_, h3, h4⟩
      rw [invalidate_get, h2]
      have : i ≠ x := by rintro rfl; exact hkj (h.inj hk hj)
      simp [this]
  · intro x hx
    simp only at hx ⊢
    obtain ⟨e, h1, h2⟩ := h.valid x hx
    refine ⟨_, by rw [invalidate_get, h1]; rfl, ?_⟩
    by_cases hix : i = x
    · simp [hix]
    · simp only [hix, if_false]
      intro hne
      rw [Dict.get?_erase h.wf, if_neg, h2 hne]
      intro hke
      have := h2 hne
      rw [← hke, hk] at this
      injection this with this
      exact hix this
  · exact isHeap_congr (fun _ _ _ _ => leRef_invalidate _ _ _ _) h.heap
  · simp only
    rw [Dict.length_erase, hk, h.len]
    have : 0 < a.mapping.length := by
      cases hm : a.mapping with
      | nil => rw [hm] at hk; simp [Dict.get?] at hk
      | cons => simp
    simp
    omega
  · funext j
    simp only [contents, Spec.upd, Dict.get?_erase h.wf]
    split
    · rfl
    · cases hj : a.mapping.get? j with
      | none => rfl
      | some x =>
        simp only [Option.bind_some]
        rw [invalidate_get]
        cases a.ents[x]? with
        | none => rfl
        | some e => simp; split <;> rfl

theorem popLoop_spec (ents : List (Entry K V)) (fuel : Nat) : ∀ heap : List Nat, heap.length < fuel →
    IsHeap (leRef ents) heap → heap.Nodup → (∀ i ∈ heap, ∃ e, ents[i]? = some e) →
    match popLoop ents fuel heap with
    | none => ∀ i ∈ heap, ∃ e, ents[i]? = some e ∧ e.count = 0
    | some (e, h') => ∃ i ∈ heap, ents[i]? = some e ∧ e.count ≠ 0 ∧ IsHeap (leRef ents) h' ∧ h'.Nodup ∧
        i ∉ h' ∧ (∀ j ∈ h', j ∈ heap) ∧
        (∀ j ∈ heap, j = i ∨ j ∈ h' ∨ ∃ e', ents[j]? = some e' ∧ e'.count = 0) ∧
        ∀ j ∈ heap, ∀ e', ents[j]? = some e' → e'.count ≠ 0 → e.value ≤ e'.value := by
  induction fuel with
  | zero => intro heap h; omega
  | succ fuel ih =>
    intro heap hlen hheap hnd hval
    have hpop := heappop_spec (compat ents) heap hheap
    rw [popLoop]
    cases hp : heappop (ltRef ents) heap with
    | none =>
      rw [hp] at hpop
      simp only at hpop ⊢
      subst hpop
      simp
    | some r =>
      obtain ⟨i, h'⟩ := r
      rw [hp] at hpop
      simp only at hpop ⊢
      obtain ⟨p1, p2, p3⟩ := hpop
      have hmi : i ∈ heap := p1.symm.subset (by simp)
      obtain ⟨e, he⟩ := hval i hmi
      have hnd' := p1.nodup hnd
      rw [List.nodup_cons] at hnd'
      rw [he]
      simp only
      have hsub : ∀ j ∈ h', j ∈ heap := fun j hj => p1.symm.subset (by simp [hj])
      have hcase : ∀ j ∈ heap, j = i ∨ j ∈ h' := fun j hj => List.mem_cons.1 (p1.subset hj)
      by_cases h0 : e.count = 0
      · rw [if_pos h0]
        have := ih h' (by have := p1.length_eq; simp at this; omega) p2 hnd'.2
          (fun j hj => hval j (hsub j hj))
        cases hl : popLoop ents fuel h' with
        | none =>
          rw [hl] at this
          simp only at this ⊢
          intro j hj
          rcases hcase j hj with rfl | hj
          · exact ⟨e, he, h0⟩
          · exact this j hj
        | some r =>
          obtain ⟨e1, h1⟩ := r
          rw [hl] at this
          simp only at this ⊢
          obtain ⟨x, q1, q2, q3, q4, q5, q6, q7, q8, q9⟩ := this
          refine ⟨x, hsub x q1, q2, q3, q4, q5, q6, fun j hj => hsub j (q7 j hj), ?_, ?_⟩
          · intro j hj
            rcases hcase j hj with rfl | hj
            · exact Or.inr (Or.inr ⟨e, he, h0⟩)
            · exact q8 j hj
          · intro j hj e' he' hne
            rcases hcase j hj with rfl | hj
            · rw [he] at he'; injection he' with he'; subst he'; exact absurd h0 hne
            · exact q9 j hj e' he' hne
      · rw [if_neg h0]
        refine ⟨i, hmi, he, h0, p2, hnd'.2, hnd'.1, hsub, ?_, ?_⟩
        · intro j hj
          rcases hcase j hj with h | h
          · exact Or.inl h
          · exact Or.inr (Or.inl h)
        · intro j hj e' he' _
          have := p3 j hj
          unfold leRef at this
          rw [he, he'] at this
          exact this

theorem popitem_inv {a : Agenda K V} (h : Inv a) :
    Inv (popitem a).2 ∧ Spec.Step (contents a) .popitem (popitem a).1 (contents (popitem a).2) := by
  have hl := popLoop_spec a.ents (a.heap.length + 1) a.heap (by omega) h.heap h.nodup
    (fun i hi => by obtain ⟨e, he, _⟩ := h.valid i hi; exact ⟨e, he⟩)
  unfold popitem
  cases hp : popLoop a.ents (a.heap.length + 1) a.heap with
  | none =>
    rw [hp] at hl
    simp only at hl ⊢
    have hmap : ∀ k, a.mapping.get? k = none := by
      intro k
      cases hk : a.mapping.get? k with
      | none => rfl
      | some i =>
        obtain ⟨h1, e, h2, _, h4⟩ := h.map k i hk
        obtain ⟨e', h2', h0⟩ := hl i h1
        rw [h2] at h2'
        injection h2' with h2'
        subst h2'
        exact absurd h0 h4
    refine ⟨⟨h.wf, ?_, by simp, ?_, by simp, h.len, h.pos⟩, ?_⟩
    · intro k i hk; simp only at hk; rw [hmap k] at hk; simp at hk
    · intro c _ _ x y hx _; simp at hx
    · exact Spec.Step.popEmpty (fun k => by simp [contents, hmap k])
  | some r =>
    obtain ⟨e, h'⟩ := r
    rw [hp] at hl
    simp only at hl ⊢
    obtain ⟨i, q1, q2, q3, q4, q5, q6, q7, q8, q9⟩ := hl
    obtain ⟨e', he', hv⟩ := h.valid i q1
    rw [q2] at he'
    injection he' with he'
    subst he'
    have hki := hv q3
    refine ⟨⟨h.wf.erase _, ?_, ?_, q4, q5, ?_, h.pos⟩, ?_⟩
    · intro j x hj
      simp only at hj ⊢
      rw [Dict.get?_erase h.wf] at hj
      split at hj
      · simp at hj
      · rename_i hkj
        obtain ⟨h1, e', h2, h3, h4⟩ := h.map j x hj
        refine ⟨?_, e', h2, h3, h4⟩
        rcases q8 x h1 with rfl | hx | ⟨e'', hx, h0⟩
        · exact absurd (h.inj hki hj) hkj
        · exact hx
        · rw [h2] at hx; injection hx with hx; subst hx; exact absurd h0 h4
    · intro x hx
      simp only at hx ⊢
      obtain ⟨e', h1, h2⟩ := h.valid x (q7 x hx)
      refine ⟨e', h1, fun hne => ?_⟩
      rw [Dict.get?_erase h.wf, if_neg, h2 hne]
      intro hke
      have := h2 hne
      rw [← hke, hki] at this
      injection this with this
      subst this
      exact q6 hx
    · simp only
      rw [Dict.length_erase, hki, h.len]
      have : 0 < a.mapping.length := by
        cases hm : a.mapping with
        | nil => rw [hm] at hki; simp [Dict.get?] at hki
        | cons => simp
      simp
      omega
    · have hc : contents { a with heap := h', mapping := a.mapping.erase e.key, length := a.length - 1 }
          = Spec.upd (contents a) e.key none := by
        funext j
        simp only [contents, Spec.upd, Dict.get?_erase h.wf]
        split <;> rfl
      rw [hc]
      refine Spec.Step.popitem e.key e.value (by simp [contents, hki, q2]) ?_
      intro j w hj
      simp only [contents] at hj
      cases hm : a.mapping.get? j with
      | none => rw [hm] at hj; simp at hj
      | some x =>
        obtain ⟨h1, e', h2, _, h4⟩ := h.map j x hm
        rw [hm] at hj
        simp [h2] at hj
        subst hj
        exact q9 x h1 e' h2 h4

/-- The contents are the domain of the mapping. -/
theorem contents_isSome {a : Agenda K V} (h : Inv a) (k : K) :
    (contents a k).isSome = (a.mapping.get? k).isSome := by
  unfold contents
  cases hk : a.mapping.get? k with
  | none => rfl
  | some i =>
    obtain ⟨_, e, h2, _⟩ := h.map k i hk
    simp [h2]

theorem step_inv {a : Agenda K V} (h : Inv a) (op : Op K V) (h1 : op ≠ .peekitem) (h2 : op ≠ .clear) :
    Inv (step a op).2 ∧ Spec.Step (contents a) op (step a op).1 (contents (step a op).2) := by
  have hnone : ∀ k, a.mapping.get? k = none → contents a k = none := fun k hk => by simp [contents, hk]
  cases op with
  | set k v =>
    obtain ⟨i1, i2⟩ := setitem_inv h k v
    exact ⟨i1, by simp only [step]; rw [i2]; exact .set k v⟩
  | del k =>
    simp only [step, delitem]
    cases hk : a.mapping.get? k with
    | none => exact ⟨h, .delMissing k (hnone k hk)⟩
    | some i =>
      obtain ⟨_, e, he, _⟩ := h.map k i hk
      obtain ⟨i1, i2⟩ := remove_inv h k i hk
      exact ⟨i1, by simp only; rw [i2]; exact .del k e.value (by simp [contents, hk, he])⟩
  | pop k =>
    simp only [step, pop]
    cases hk : a.mapping.get? k with
    | none => exact ⟨h, .popMissing k (hnone k hk)⟩
    | some i =>
      obtain ⟨_, e, he, _⟩ := h.map k i hk
      obtain ⟨i1, i2⟩ := remove_inv h k i hk
      simp only [he]
      exact ⟨i1, by rw [i2]; exact .pop k e.value (by simp [contents, hk, he])⟩
  | popitem => exact popitem_inv h
  | get k =>
    simp only [step, getitem]
    cases hk : a.mapping.get? k with
    | none => exact ⟨h, .getMissing k (hnone k hk)⟩
    | some i =>
      obtain ⟨_, e, he, _⟩ := h.map k i hk
      simp only [he]
      exact ⟨h, .get k e.value (by simp [contents, hk, he])⟩
  | contains k =>
    refine ⟨h, ?_⟩
    simp only [step]
    rw [← contents_isSome h]
    exact .contains k
  | len =>
    refine ⟨h, ?_⟩
    simp only [step]
    have : a.length = (a.mapping.keys.length : Int) := by rw [h.len]; simp [Dict.keys]
    rw [this]
    exact .len _ ⟨h.wf, fun k => by rw [Dict.mem_keys, contents_isSome h]⟩
  | bool =>
    refine ⟨h, .bool _ ?_⟩
    rw [h.len]
    simp only [decide_eq_true_eq]
    constructor
    · intro hne
      cases hm : a.mapping with
      | nil => rw [hm] at hne; simp at hne
      | cons p d => exact ⟨p.1, by rw [contents_isSome h, hm]; simp [Dict.get?]⟩
    · rintro ⟨k, hk⟩ h0
      rw [contents_isSome h] at hk
      cases hm : a.mapping with
      | nil => rw [hm] at hk; simp [Dict.get?] at hk
      | cons p d => rw [hm] at h0; simp at h0; omega
  | peekitem => exact absurd rfl h1
  | clear => exact absurd rfl h2

theorem run_inv (ops : List (Op K V)) (hops : ∀ op ∈ ops, op ≠ .peekitem ∧ op ≠ .clear) : ∀ a : Agenda K V,
    Inv a → Inv (run a ops).2 ∧ Spec.Run (contents a) ops (run a ops).1 (contents (run a ops).2) := by
  induction ops with
  | nil => intro a h; exact ⟨h, .nil _⟩
  | cons op ops ih =>
    intro a h
    obtain ⟨s1, s2⟩ := step_inv h op (hops op (by simp)).1 (hops op (by simp)).2
    obtain ⟨r1, r2⟩ := ih (fun o ho => hops o (by simp [ho])) _ s1
    exact ⟨r1, .cons s2 r2⟩

/-- **C18.** Starting from the empty agenda, any history of
assignments, deletions, pops and queries gives results allowed by a finite map with pop-minimum. The operations `peekitem` and `clear`
do not satisfy this, see `C18_peekitem_fails` and `C18_clear_fails`. -/
theorem C18_agenda (ops : List (Op K V)) (hops : ∀ op ∈ ops, op ≠ .peekitem ∧ op ≠ .clear) :
    Spec.Run (fun _ => none) ops (run empty ops).1 (contents (run empty ops).2) :=
  (run_inv ops hops empty Inv.empty).2

example : (run (empty : Agenda Nat Nat) [.set 0 5, .set 1 3, .set 0 2, .del 1, .set 2 9, .popitem, .len, .popitem, .popitem]).1
    = [.done, .done, .done, .done, .done, .item 0 2, .size 1, .item 2 9, .indexError] := by decide +kernel

/-- **C18 (disagreement).** `peekitem` raises IndexError on a nonempty agenda when the entry on top of the heap was invalidated. -/
theorem C18_peekitem_fails : ∃ ops outs : List _, ∃ m,
    (run (empty : Agenda Nat Nat) (ops ++ [.peekitem])).1 = outs ++ [.indexError] ∧
    Spec.Run (fun _ => none) ops outs m ∧ m 1 = some 2 := by
  refine ⟨[.set 0 1, .set 1 2, .del 0], [.done, .done, .done],
    contents (run (empty : Agenda Nat Nat) [.set 0 1, .set 1 2, .del 0]).2, by decide +kernel, ?_, by decide +kernel⟩
  have := C18_agenda (K := Nat) (V := Nat) [.set 0 1, .set 1 2, .del 0] (by simp)
  rwa [show (run (empty : Agenda Nat Nat) [.set 0 1, .set 1 2, .del 0]).1 = [.done, .done, .done] by decide +kernel] at this

/-- **C18 (disagreement).** `peekitem` can remove the item it returns from the heap, so that it is never popped: after
`peekitem` returned item 2, `len` still is 2, but `popitem` returns another, worse, item and then fails. -/
theorem C18_peekitem_loses_item :
    (run (empty : Agenda Nat Nat) [.set 0 1, .set 2 2, .set 3 3, .del 0, .peekitem, .len, .popitem, .popitem]).1
      = [.done, .done, .done, .done, .item 2 2, .size 2, .item 3 3, .indexError] := by decide +kernel

/-- **C18 (disagreement).** `clear` does not reset the length. -/
theorem C18_clear_fails :
    (run (empty : Agenda Nat Nat) [.set 0 1, .clear, .len, .bool, .popitem]).1
      = [.done, .done, .size 1, .truth true, .indexError] := by decide +kernel

/-- **C18 (disagreement).** Ties are not always broken by insertion order (the class documents that
"equivalent values are preserved in insertion order", and an update keeps the count of the first insertion): key 0 was inserted
first and has the same priority as key 2, but key 2 is popped first. Invalidated entries have count 0, which breaks
the heap order among entries with equal values. -/
theorem C18_fifo_fails :
    (run (empty : Agenda Nat Nat) [.set 0 2, .set 2 1, .set 1 1, .set 1 1, .set 0 2, .set 0 1, .get 0, .popitem]).1
      = [.done, .done, .done, .done, .done, .done, .value 1, .item 2 1] := by decide +kernel

/-! ### Insertion order, when no entry is ever invalidated -/

/-- Histories without updates and deletions: contents are a list in insertion order, an assignment to a new key appends, `popitem`
takes the first of the items with the least priority. -/
inductive Spec.FifoRun : List (K × V) → List (Op K V) → List (Out K V) → Prop
  | nil (q) : Spec.FifoRun q [] []
  | set {q k v ops outs} : (∀ w, (k, w) ∉ q) → Spec.FifoRun (q ++ [(k, v)]) ops outs →
      Spec.FifoRun q (.set k v :: ops) (.done :: outs)
  | pop {xs ys k v ops outs} : (∀ p ∈ xs, v < p.2) → (∀ p ∈ ys, v ≤ p.2) → Spec.FifoRun (xs ++ ys) ops outs →
      Spec.FifoRun (xs ++ (k, v) :: ys) (.popitem :: ops) (.item k v :: outs)
  | popEmpty {ops outs} : Spec.FifoRun [] ops outs → Spec.FifoRun [] (.popitem :: ops) (.indexError :: outs)

/-- The client only assigns to keys that are not in the agenda, and pops. -/
def Spec.NoUpdates : List K → List (Op K V) → List (Out K V) → Prop
  | _, [], _ => True
  | ks, .set k _ :: ops, _ :: outs => k ∉ ks ∧ Spec.NoUpdates (k :: ks) ops outs
  | ks, .popitem :: ops, .item k _ :: outs => Spec.NoUpdates (ks.erase k) ops outs
  | ks, .popitem :: ops, _ :: outs => Spec.NoUpdates ks ops outs
  | _, _ :: _, _ => False

/-- Order of entry references by value and count. -/
def leRef2 (ents : List (Entry K V)) (i j : Nat) : Prop :=
  match ents[i]?, ents[j]? with
  | some a, some b => a.value < b.value ∨ (a.value = b.value ∧ a.count ≤ b.count)
  | some _, none => True
  | none, some _ => False
  | none, none => True

theorem compat2 (ents : List (Entry K V)) : Compat (ltRef ents) (leRef2 ents) where
  trans := by
    intro a b c
    unfold leRef2
    cases ents[a]? <;> cases ents[b]? <;> cases ents[c]? <;> simp
    rintro (h | ⟨h, h'⟩) (g | ⟨g, g'⟩)
    · exact Or.inl (lt_trans h g)
    · exact Or.inl (g ▸ h)
    · exact Or.inl (h ▸ g)
    · exact Or.inr ⟨h.trans g, Nat.le_trans h' g'⟩
  of_lt := by
    intro a b
    unfold leRef2 ltRef
    cases ents[a]? <;> cases ents[b]? <;> simp [Entry.lt]
    rintro (h | ⟨h, h'⟩)
    · exact Or.inl h
    · exact Or.inr ⟨h, by omega⟩
  of_not_lt := by
    intro a b
    unfold leRef2 ltRef
    cases ents[a]? <;> cases ents[b]? <;> simp [Entry.lt]
    intro h h2
    rcases lt_or_eq_of_le h with h3 | h3
    · exact Or.inl h3
    · exact Or.inr ⟨h3, h2 h3.symm⟩

/-- The agenda `a` represents the references `q` in insertion order. -/
structure Fifo (a : Agenda K V) (q : List Nat) : Prop where
  wf : a.mapping.WF
  heap : IsHeap (leRef2 a.ents) a.heap
  perm : a.heap.Perm q
  sorted : q.Pairwise (fun i j => ∀ e e', a.ents[i]? = some e → a.ents[j]? = some e' → e.count < e'.count)
  ent : ∀ i ∈ q, ∃ e, a.ents[i]? = some e ∧ 0 < e.count ∧ e.count < a.counter ∧ a.mapping.get? e.key = some i
  map : ∀ k i, a.mapping.get? k = some i → i ∈ q ∧ ∀ e, a.ents[i]? = some e → e.key = k
  pos : 0 < a.counter

/-- The items of references. -/
def items (ents : List (Entry K V)) (q : List Nat) : List (K × V) :=
  q.filterMap (fun i => (ents[i]?).map (fun e => (e.key, e.value)))

theorem Fifo.lt {a : Agenda K V} {q : List Nat} (h : Fifo a q) {i : Nat} (hi : i ∈ q) : i < a.ents.length := by
  obtain ⟨e, he, _⟩ := h.ent i hi
  exact lt_of_get he

theorem items_append_ents (ents : List (Entry K V)) (x : Entry K V) (q : List Nat) (hq : ∀ i ∈ q, i < ents.length) :
    items (ents ++ [x]) q = items ents q := by
  unfold items
  induction q with
  | nil => rfl
  | cons i q ih =>
    rw [List.filterMap_cons, List.filterMap_cons, ih (fun j hj => hq j (by simp [hj])), List.getElem?_append_left (hq i (by simp))]

theorem fifo_set {a : Agenda K V} {q : List Nat} (h : Fifo a q) (k : K) (v : V) (hk : a.mapping.get? k = none) :
    Fifo (setitem a k v) (q ++ [a.ents.length]) ∧
    items (setitem a k v).ents (q ++ [a.ents.length]) = items a.ents q ++ [(k, v)] := by
  have hget : ∀ i, i < a.ents.length → (a.ents ++ [⟨k, v, a.counter⟩])[i]? = a.ents[i]? :=
    fun i hi => List.getElem?_append_left hi
  have hnew : (a.ents ++ [(⟨k, v, a.counter⟩ : Entry K V)])[a.ents.length]? = some ⟨k, v, a.counter⟩ := by simp
  have hh : IsHeap (leRef2 (a.ents ++ [⟨k, v, a.counter⟩])) a.heap := by
    refine isHeap_congr ?_ h.heap
    intro i hi j hj hij
    unfold leRef2 at *
    rwa [hget i (h.lt (h.perm.subset hi)), hget j (h.lt (h.perm.subset hj))]
  obtain ⟨p1, p2⟩ := heappush_spec (compat2 (a.ents ++ [⟨k, v, a.counter⟩])) a.heap a.ents.length hh
  unfold setitem
  rw [hk]
  simp only
  refine ⟨⟨h.wf.set _ _, p1, ?_, ?_, ?_, ?_, by simp⟩, ?_⟩
  · exact p2.trans (((List.Perm.cons _ h.perm)).trans (List.perm_append_singleton _ _).symm)
  · rw [List.pairwise_append]
    refine ⟨?_, by simp, ?_⟩
    · refine h.sorted.imp_of_mem ?_
      intro i j hi hj hij e e' he he'
      simp only at he he'
      rw [hget i (h.lt hi)] at he
      rw [hget j (h.lt hj)] at he'
      exact hij e e' he he'
    · intro i hi j hj e e' he he'
      simp only [List.mem_singleton] at hj
      subst hj
      simp only at he he'
      rw [hget i (h.lt hi)] at he
      rw [hnew] at he'
      injection he' with he'
      obtain ⟨e0, he0, _, hc, _⟩ := h.ent i hi
      rw [he] at he0
      injection he0 with he0
      subst he0; subst he'
      exact hc
  · intro i hi
    rcases List.mem_append.1 hi with hi | hi
    · obtain ⟨e0, he0, hc0, hc, hm⟩ := h.ent i hi
      refine ⟨e0, by rw [hget i (h.lt hi)]; exact he0, hc0, by simp only; omega, ?_⟩
      rw [Dict.get?_set, if_neg, hm]
      rintro rfl
      rw [hk] at hm; simp at hm
    · simp only [List.mem_singleton] at hi
      subst hi
      exact ⟨_, hnew, h.pos, by simp, by rw [Dict.get?_set]; simp⟩
  · intro j i hj
    rw [Dict.get?_set] at hj
    split at hj
    · rename_i hkj
      injection hj with hj; subst hj; subst hkj
      refine ⟨by simp, fun e he => ?_⟩
      simp only at he
      rw [hnew] at he
      injection he with he
      rw [← he]
    · refine ⟨List.mem_append_left _ (h.map j i hj).1, fun e he => ?_⟩
      simp only at he
      rw [hget i (h.lt (h.map j i hj).1)] at he
      exact (h.map j i hj).2 e he
  · have := items_append_ents a.ents ⟨k, v, a.counter⟩ q (fun i hi => h.lt hi)
    unfold items at this ⊢
    rw [List.filterMap_append, this]
    simp

theorem fifo_pop {a : Agenda K V} {q : List Nat} (h : Fifo a q) :
    (q = [] ∧ (popitem a).1 = .indexError ∧ Fifo (popitem a).2 []) ∨
    ∃ xs ys i e, q = xs ++ i :: ys ∧ a.ents[i]? = some e ∧ (popitem a).1 = .item e.key e.value ∧
      Fifo (popitem a).2 (xs ++ ys) ∧ (popitem a).2.ents = a.ents ∧
      (∀ p ∈ items a.ents xs, e.value < p.2) ∧ (∀ p ∈ items a.ents ys, e.value ≤ p.2) := by
  have hpop := heappop_spec (compat2 a.ents) a.heap h.heap
  unfold popitem
  cases hp : heappop (ltRef a.ents) a.heap with
  | none =>
    rw [hp] at hpop
    simp only at hpop
    left
    have hq : q = [] := by
      have := h.perm
      rw [hpop] at this
      exact List.nil_perm.1 this
    subst hq
    rw [popLoop, hp]
    refine ⟨rfl, rfl, ⟨h.wf, ?_, by simp, by simp, by simp, h.map, h.pos⟩⟩
    intro c _ _ x y hx _
    simp at hx
  | some r =>
    obtain ⟨i, h'⟩ := r
    rw [hp] at hpop
    simp only at hpop
    obtain ⟨p1, p2, p3⟩ := hpop
    right
    have hi : i ∈ q := h.perm.subset (p1.symm.subset (by simp))
    obtain ⟨e, he, hc0, hc, hm⟩ := h.ent i hi
    obtain ⟨xs, ys, rfl⟩ := List.append_of_mem hi
    rw [popLoop, hp]
    simp only [he, if_neg (Nat.ne_of_gt hc0)]
    have hmin : ∀ j ∈ xs ++ i :: ys, ∀ e', a.ents[j]? = some e' → e.value < e'.value ∨ (e.value = e'.value ∧ e.count ≤ e'.count) := by
      intro j hj e' he'
      have := p3 j (h.perm.symm.subset hj)
      unfold leRef2 at this
      rwa [he, he'] at this
    have hsorted := List.pairwise_append.1 h.sorted
    have hiys := List.pairwise_cons.1 hsorted.2.1
    have hnd : ∀ j ∈ xs ++ ys, ∀ e', a.ents[j]? = some e' → e'.count ≠ e.count := by
      intro j hj e' he' heq
      rcases List.mem_append.1 hj with hj | hj
      · have := hsorted.2.2 j hj i (by simp) e' e he' he
        omega
      · have := hiys.1 j hj e e' he he'
        omega
    refine ⟨xs, ys, i, e, rfl, he, rfl, ⟨h.wf.erase _, p2, ?_, ?_, ?_, ?_, h.pos⟩, trivial, ?_, ?_⟩
    · have := (p1.symm.trans h.perm).trans (List.perm_middle (a := i) (l₁ := xs) (l₂ := ys))
      exact this.cons_inv
    · rw [List.pairwise_append]
      exact ⟨hsorted.1, hiys.2, fun x hx y hy => hsorted.2.2 x hx y (by simp [hy])⟩
    · intro j hj
      have hj' : j ∈ xs ++ i :: ys := by
        rcases List.mem_append.1 hj with hj | hj <;> simp [hj]
      obtain ⟨e', he', c0, c1, m'⟩ := h.ent j hj'
      refine ⟨e', he', c0, c1, ?_⟩
      rw [Dict.get?_erase h.wf, if_neg, m']
      intro hke
      rw [← hke, hm] at m'
      injection m' with m'
      subst m'
      rw [he] at he'
      injection he' with he'
      subst he'
      exact hnd i hj e he rfl
    · intro k j hj
      simp only at hj
      rw [Dict.get?_erase h.wf] at hj
      split at hj
      · simp at hj
      · rename_i hne
        obtain ⟨hmem, hkey⟩ := h.map k j hj
        refine ⟨?_, hkey⟩
        rcases List.mem_append.1 hmem with hx | hx
        · simp [hx]
        · rcases List.mem_cons.1 hx with rfl | hx
          · exact absurd (hkey e he) hne
          · simp [hx]
    · intro p hp'
      obtain ⟨j, hj, hjp⟩ := List.mem_filterMap.1 hp'
      obtain ⟨e', he', c0, c1, m'⟩ := h.ent j (by simp [hj])
      rw [he'] at hjp
      simp at hjp
      subst hjp
      rcases hmin j (by simp [hj]) e' he' with hlt | ⟨_, hle⟩
      · exact hlt
      · have := hsorted.2.2 j hj i (by simp) e' e he' he
        omega
    · intro p hp'
      obtain ⟨j, hj, hjp⟩ := List.mem_filterMap.1 hp'
      obtain ⟨e', he', c0, c1, m'⟩ := h.ent j (by simp [hj])
      rw [he'] at hjp
      simp at hjp
      subst hjp
      rcases hmin j (by simp [hj]) e' he' with hlt | ⟨heq, _⟩
      · exact le_of_lt hlt
      · exact le_of_eq heq

theorem fifo_run (ops : List (Op K V)) : ∀ (a : Agenda K V) (q : List Nat) (ks : List K), Fifo a q → ks.Nodup →
    (∀ k, k ∈ ks ↔ (a.mapping.get? k).isSome) → Spec.NoUpdates ks ops (run a ops).1 →
    Spec.FifoRun (items a.ents q) ops (run a ops).1 := by
  induction ops with
  | nil => intro a q ks h _ _ _; exact .nil _
  | cons op ops ih =>
    intro a q ks h hnd hks hn
    cases op with
    | set k v =>
      simp only [run, step, Spec.NoUpdates] at hn ⊢
      obtain ⟨hk, hn⟩ := hn
      have hk0 : a.mapping.get? k = none := by
        cases hg : a.mapping.get? k with
        | none => rfl
        | some i => exact absurd ((hks k).2 (by rw [hg]; rfl)) hk
      obtain ⟨h1, h2⟩ := fifo_set h k v hk0
      refine .set ?_ ?_
      · intro w hw
        obtain ⟨j, hj, hjp⟩ := List.mem_filterMap.1 hw
        obtain ⟨e', he', _, _, m'⟩ := h.ent j hj
        rw [he'] at hjp
        simp at hjp
        rw [hjp.1, hk0] at m'
        simp at m'
      · rw [← h2]
        refine ih _ _ (k :: ks) h1 (List.nodup_cons.2 ⟨hk, hnd⟩) ?_ hn
        intro j
        have : (setitem a k v).mapping = a.mapping.set k a.ents.length := by
          unfold setitem; rw [hk0]
        rw [this, Dict.get?_set, List.mem_cons, hks j]
        by_cases hkj : k = j
        · simp [hkj]
        · simp [hkj, Ne.symm hkj]
    | popitem =>
      simp only [run, step] at hn ⊢
      have hmap : ∀ e : Entry K V, (popitem a).1 = .item e.key e.value → (popitem a).2.mapping = a.mapping.erase e.key := by
        intro e he
        unfold popitem at he ⊢
        cases hp : popLoop a.ents (a.heap.length + 1) a.heap with
        | none => rw [hp] at he; simp at he
        | some r => rw [hp] at he; simp at he; simp [he.1]
      rcases fifo_pop h with ⟨rfl, h1, h2⟩ | ⟨xs, ys, i, e, rfl, he, h1, h2, h3, h4, h5⟩
      · rw [h1] at hn ⊢
        simp only [Spec.NoUpdates] at hn
        have hm : ∀ k, a.mapping.get? k = none := by
          intro k
          cases hg : a.mapping.get? k with
          | none => rfl
          | some i => exact absurd (h.map k i hg).1 (by simp)
        have hks' : ks = [] := List.eq_nil_iff_forall_not_mem.2 (fun k hk => by
          have := (hks k).1 hk; rw [hm k] at this; simp at this)
        refine .popEmpty ?_
        have := ih (popitem a).2 [] ks h2 hnd (fun k => by
          rw [hks']
          simp only [List.not_mem_nil, false_iff]
          cases hg : (popitem a).2.mapping.get? k with
          | none => simp
          | some i => exact absurd (h2.map k i hg).1 (by simp)) hn
        simpa [items] using this
      · have hm := hmap e h1
        rw [h1] at hn ⊢
        simp only [Spec.NoUpdates] at hn
        have e1 : items a.ents (xs ++ i :: ys) = items a.ents xs ++ (e.key, e.value) :: items a.ents ys := by
          unfold items
          rw [List.filterMap_append, List.filterMap_cons, he]; rfl
        rw [e1]
        refine .pop h4 h5 ?_
        have := ih (popitem a).2 (xs ++ ys) (ks.erase e.key) h2 (hnd.erase _) (fun k => by
          rw [hm, Dict.get?_erase h.wf, hnd.mem_erase_iff, hks k]
          by_cases hke : e.key = k
          · simp [hke]
          · simp [hke, Ne.symm hke]) hn
        rw [h3] at this
        unfold items at this ⊢
        rwa [List.filterMap_append] at this
    | del k => simp [Spec.NoUpdates] at hn
    | pop k => simp [Spec.NoUpdates] at hn
    | get k => simp [Spec.NoUpdates] at hn
    | contains k => simp [Spec.NoUpdates] at hn
    | len => simp [Spec.NoUpdates] at hn
    | bool => simp [Spec.NoUpdates] at hn
    | peekitem => simp [Spec.NoUpdates] at hn
    | clear => simp [Spec.NoUpdates] at hn

/-- **C18.** "Equivalent values are preserved in insertion order" holds for histories in which keys are only assigned when they are not
in the agenda and taken out with `popitem`: each `popitem` returns the first inserted item among those with the least priority. -/
theorem C18_fifo (ops : List (Op K V)) (h : Spec.NoUpdates [] ops (run empty ops).1) :
    Spec.FifoRun [] ops (run (empty : Agenda K V) ops).1 := by
  have := fifo_run ops (empty : Agenda K V) [] [] ⟨List.nodup_nil, by intro c _ _ x y hx _; simp [empty] at hx, by simp [empty],
    by simp, by simp, by intro k i hk; simp [empty, Dict.get?] at hk, Nat.one_pos⟩ List.nodup_nil
    (by intro k; simp [empty, Dict.get?]) h
  simpa [items] using this

example : Spec.NoUpdates [] [Op.set 5 1, .set 3 1, .popitem, .set 5 1, .popitem, .popitem]
    (run (empty : Agenda Nat Nat) [.set 5 1, .set 3 1, .popitem, .set 5 1, .popitem, .popitem]).1 := by
  rw [show (run (empty : Agenda Nat Nat) [.set 5 1, .set 3 1, .popitem, .set 5 1, .popitem, .popitem]).1 =
    [.done, .done, .item 5 1, .done, .item 3 1, .item 5 1] by decide +kernel]
  simp [Spec.NoUpdates]

end Disco.PyAgenda
