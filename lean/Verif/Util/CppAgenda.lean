import Mathlib.Order.Defs.LinearOrder
import Mathlib.Data.Nat.Basic
import Verif.Basic.Dict
/-!
# C19: the C++ `Agenda` (discodop/_containers.h:39-207) used by the LCFRS parser and k-best extraction

The binary heap (`gheap` priority queue, third party) is modelled as a bag of entries with an arbitrary function that
takes out an entry that is minimal with respect to `CmpRev` (value, then count): `PickSpec`. The hash map is a
`Dict`. Wrap-around of the 32-bit counter is not modelled.
-/
set_option linter.unusedSectionVars false
namespace Disco.CppAgenda

variable {K V : Type} [DecidableEq K] [LinearOrder V]

/-- `Agenda::Entry` (_containers.h:41-48). -/
structure Entry (K V : Type) where
  key : K
  value : V
  count : Nat
deriving DecidableEq

/-- `Cmp` is less-or-equal on (value, count) (_containers.h:179-185). -/
def Entry.le (a b : Entry K V) : Prop := a.value < b.value ∨ (a.value = b.value ∧ a.count ≤ b.count)

/-- Contract of the third-party heap: `top`/`pop` take out an entry that is minimal by (value, count). -/
def PickSpec (pick : List (Entry K V) → Option (Entry K V × List (Entry K V))) : Prop :=
  ∀ h, match pick h with
    | none => h = []
    | some (e, r) => h.Perm (e :: r) ∧ ∀ x ∈ h, Entry.le e x

/-- Data members (_containers.h:198-205). -/
structure Agenda (K V : Type) where
  map : Dict K (V × Nat)
  heap : List (Entry K V)
  counter : Nat
deriving DecidableEq

/-- `Agenda()` (_containers.h:52). -/
def empty : Agenda K V := ⟨[], [], 0⟩

/-- `setitem` (_containers.h:129-139). -/
def setitem (a : Agenda K V) (k : K) (v : V) : Agenda K V :=
  ⟨a.map.set k (v, a.counter + 1), ⟨k, v, a.counter + 1⟩ :: a.heap, a.counter + 1⟩

/-- `setifbetter` (_containers.h:140-153). -/
def setifbetter (a : Agenda K V) (k : K) (v : V) : Agenda K V :=
  match a.map.get? k with
  | none => ⟨a.map.set k (v, a.counter + 1), ⟨k, v, a.counter + 1⟩ :: a.heap, a.counter + 1⟩
  | some (v', c) => if v < v' then ⟨a.map.set k (v, c), ⟨k, v, c⟩ :: a.heap, a.counter⟩ else a

/-- The loop of `pop` (_containers.h:160-173): drop entries whose key is not in the map. -/
def popLoop (pick : List (Entry K V) → Option (Entry K V × List (Entry K V))) (map : Dict K (V × Nat)) :
    (fuel : Nat) → List (Entry K V) → Option (Entry K V × List (Entry K V))
  | 0, _ => none
  | fuel + 1, h => match pick h with
    | none => none
    | some (e, r) => if (map.get? e.key).isSome then some (e, r) else popLoop pick map fuel r

/-- `pop` (_containers.h:154-176); `none` is the uninitialised `noitem`. -/
def pop (pick : List (Entry K V) → Option (Entry K V × List (Entry K V))) (a : Agenda K V) :
    Option (K × V) × Agenda K V :=
  if a.map = [] then (none, a)
  else match popLoop pick a.map (a.heap.length + 1) a.heap with
    | none => (none, { a with heap := [] })
    | some (e, r) => (some (e.key, e.value), { a with heap := r, map := a.map.erase e.key })

/-- Operations of a client. -/
inductive Op (K V : Type)
  | setitem (k : K) (v : V)
  | setifbetter (k : K) (v : V)
  | pop

/-- One operation. -/
def step (pick : List (Entry K V) → Option (Entry K V × List (Entry K V))) (a : Agenda K V) :
    Op K V → Option (K × V) × Agenda K V
  | .setitem k v => (none, setitem a k v)
  | .setifbetter k v => (none, setifbetter a k v)
  | .pop => pop pick a

/-- A history: results of the operations. -/
def run (pick : List (Entry K V) → Option (Entry K V × List (Entry K V))) (a : Agenda K V) :
    List (Op K V) → List (Option (K × V))
  | [] => []
  | op :: ops => (step pick a op).1 :: run pick (step pick a op).2 ops

/-! ## Specification -/

/-- Specification state: current priorities, and for each key the last priority it was
assigned or popped with. -/
structure Spec.State (K V : Type) where
  cur : K → Option V
  last : K → Option V

/-- A history that respects "decrease-key only": each effective assignment to a key is better than the last priority of that key,
also when the key was popped in between (this is how the parser uses the agenda). Results are those of a map with pop-minimum. -/
inductive Spec.Run : Spec.State K V → List (Op K V) → List (Option (K × V)) → Prop
  | nil (s) : Spec.Run s [] []
  | set {s k v ops outs} :
      Spec.Run ⟨fun j => if k = j then some v else s.cur j, fun j => if k = j then some v else s.last j⟩ ops outs →
      Spec.Run s (.setitem k v :: ops) (none :: outs)
  | better {s k v ops outs} : (∀ u, s.cur k = some u → v < u) →
      Spec.Run ⟨fun j => if k = j then some v else s.cur j, fun j => if k = j then some v else s.last j⟩ ops outs →
      Spec.Run s (.setifbetter k v :: ops) (none :: outs)
  | notBetter {s k v u ops outs} : s.cur k = some u → ¬ v < u → Spec.Run s ops outs →
      Spec.Run s (.setifbetter k v :: ops) (none :: outs)
  | pop {s k v ops outs} : s.cur k = some v → (∀ j w, s.cur j = some w → v ≤ w) →
      Spec.Run ⟨fun j => if k = j then none else s.cur j, s.last⟩ ops outs →
      Spec.Run s (.pop :: ops) (some (k, v) :: outs)
  | popEmpty {s ops outs} : (∀ j, s.cur j = none) → Spec.Run s ops outs →
      Spec.Run s (.pop :: ops) (none :: outs)

/-- The client only decreases priorities: `cur`/`last` are tracked along the (actual) results. -/
def Spec.Decreasing : Spec.State K V → List (Op K V) → List (Option (K × V)) → Prop
  | _, [], _ => True
  | s, .setitem k v :: ops, _ :: outs => (∀ u, s.last k = some u → v < u) ∧
      Spec.Decreasing ⟨fun j => if k = j then some v else s.cur j, fun j => if k = j then some v else s.last j⟩ ops outs
  | s, .setifbetter k v :: ops, _ :: outs =>
    match s.cur k with
    | none => (∀ u, s.last k = some u → v < u) ∧
      Spec.Decreasing ⟨fun j => if k = j then some v else s.cur j, fun j => if k = j then some v else s.last j⟩ ops outs
    | some u => if v < u
      then Spec.Decreasing ⟨fun j => if k = j then some v else s.cur j, fun j => if k = j then some v else s.last j⟩ ops outs
      else Spec.Decreasing s ops outs
  | s, .pop :: ops, some (k, _) :: outs =>
      Spec.Decreasing ⟨fun j => if k = j then none else s.cur j, s.last⟩ ops outs
  | s, .pop :: ops, none :: outs => Spec.Decreasing s ops outs
  | _, _ :: _, [] => False

/-! ## Proof -/

/-- Invariant relating the agenda to the specification state. -/
structure Inv (a : Agenda K V) (s : Spec.State K V) : Prop where
  wf : a.map.WF
  cur : ∀ k, s.cur k = (a.map.get? k).map Prod.fst
  inHeap : ∀ k v c, a.map.get? k = some (v, c) → ⟨k, v, c⟩ ∈ a.heap
  curLast : ∀ k v, s.cur k = some v → s.last k = some v
  lower : ∀ e ∈ a.heap, ∃ u, s.last e.key = some u ∧ u ≤ e.value

theorem Inv.init : Inv (empty : Agenda K V) ⟨fun _ => none, fun _ => none⟩ where
  wf := List.nodup_nil
  cur := fun _ => rfl
  inHeap := by intro k v c h; simp [empty, Dict.get?] at h
  curLast := by intro k v h; simp at h
  lower := by intro e h; simp [empty] at h

theorem Inv.insert {a : Agenda K V} {s : Spec.State K V} (h : Inv a s) (k : K) (v : V) (c n : Nat)
    (hlt : ∀ u, s.last k = some u → v ≤ u) :
    Inv ⟨a.map.set k (v, c), ⟨k, v, c⟩ :: a.heap, n⟩
      ⟨fun j => if k = j then some v else s.cur j, fun j => if k = j then some v else s.last j⟩ where
  wf := h.wf.set _ _
  cur := by
    intro j
    simp only [Dict.get?_set, h.cur]
    split <;> rfl
  inHeap := by
    intro j w d hj
    simp only [Dict.get?_set] at hj ⊢
    split at hj
    · rename_i he; subst he
      injection hj with hj; injection hj with h1 h2; subst h1; subst h2; simp
    · exact List.mem_cons_of_mem _ (h.inHeap j w d hj)
  curLast := by
    intro j w
    simp only
    split
    · exact fun h => h
    · exact h.curLast j w
  lower := by
    intro e he
    rcases List.mem_cons.1 he with rfl | he
    · exact ⟨v, by simp, le_refl _⟩
    · obtain ⟨u, hu, hle⟩ := h.lower e he
      by_cases hk : k = e.key
      · refine ⟨v, by simp [hk], ?_⟩
        rw [← hk] at hu
        exact le_trans (hlt u hu) hle
      · exact ⟨u, by simp [hk, hu], hle⟩

theorem popLoop_spec {pick : List (Entry K V) → Option (Entry K V × List (Entry K V))} (hp : PickSpec pick)
    (map : Dict K (V × Nat)) (fuel : Nat) : ∀ h : List (Entry K V), h.length < fuel →
    match popLoop pick map fuel h with
    | none => ∀ e ∈ h, map.get? e.key = none
    | some (e, r) => e ∈ h ∧ (map.get? e.key).isSome ∧ (∀ x ∈ r, x ∈ h) ∧
        (∀ x ∈ h, (map.get? x.key).isSome → x.key = e.key ∨ x ∈ r) ∧
        ∀ x ∈ h, (map.get? x.key).isSome → Entry.le e x := by
  induction fuel with
  | zero => intro h hl; omega
  | succ fuel ih =>
    intro h hl
    have hpick := hp h
    rw [popLoop]
    cases hpk : pick h with
    | none =>
      rw [hpk] at hpick
      simp only at hpick ⊢
      subst hpick; simp
    | some r =>
      obtain ⟨e, r⟩ := r
      rw [hpk] at hpick
      simp only at hpick ⊢
      obtain ⟨p1, p2⟩ := hpick
      have hcase : ∀ x ∈ h, x = e ∨ x ∈ r := fun x hx => List.mem_cons.1 (p1.subset hx)
      have hsub : ∀ x ∈ r, x ∈ h := fun x hx => p1.symm.subset (by simp [hx])
      by_cases hm : (map.get? e.key).isSome = true
      · rw [if_pos hm]
        refine ⟨p1.symm.subset (by simp), hm, hsub, ?_, fun x hx _ => p2 x hx⟩
        intro x hx _
        rcases hcase x hx with rfl | hx
        · exact Or.inl rfl
        · exact Or.inr hx
      · rw [if_neg hm]
        have := ih r (by have := p1.length_eq; simp at this; omega)
        cases hl2 : popLoop pick map fuel r with
        | none =>
          rw [hl2] at this
          simp only at this ⊢
          intro x hx
          rcases hcase x hx with rfl | hx
          · simpa using hm
          · exact this x hx
        | some q =>
          obtain ⟨e', r'⟩ := q
          rw [hl2] at this
          simp only at this ⊢
          obtain ⟨q1, q2, q3, q4, q5⟩ := this
          refine ⟨hsub _ q1, q2, fun x hx => hsub x (q3 x hx), ?_, ?_⟩
          · intro x hx hs
            rcases hcase x hx with rfl | hx
            · exact absurd hs hm
            · exact q4 x hx hs
          · intro x hx hs
            rcases hcase x hx with rfl | hx
            · exact absurd hs hm
            · exact q5 x hx hs

theorem run_spec {pick : List (Entry K V) → Option (Entry K V × List (Entry K V))} (hp : PickSpec pick)
    (ops : List (Op K V)) : ∀ (a : Agenda K V) (s : Spec.State K V), Inv a s →
    Spec.Decreasing s ops (run pick a ops) → Spec.Run s ops (run pick a ops) := by
  induction ops with
  | nil => intro a s _ _; exact .nil s
  | cons op ops ih =>
    intro a s hinv hdec
    cases op with
    | setitem k v =>
      simp only [run, step, Spec.Decreasing] at hdec ⊢
      exact .set (ih _ _ (hinv.insert k v _ _ (fun u hu => le_of_lt (hdec.1 u hu))) hdec.2)
    | setifbetter k v =>
      simp only [run, step, Spec.Decreasing, setifbetter] at hdec ⊢
      have hc := hinv.cur k
      cases hk : a.map.get? k with
      | none =>
        rw [hk] at hc
        simp only [Option.map_none] at hc
        simp only [hk, hc] at hdec ⊢
        exact .better (by rw [hc]; simp)
          (ih _ _ (hinv.insert k v _ _ (fun u hu => le_of_lt (hdec.1 u hu))) hdec.2)
      | some p =>
        obtain ⟨u, c⟩ := p
        rw [hk] at hc
        simp only [Option.map_some] at hc
        simp only [hk, hc] at hdec ⊢
        by_cases hvu : v < u
        · simp only [if_pos hvu] at hdec ⊢
          refine .better (by rw [hc]; intro u' hu'; injection hu' with hu'; subst hu'; exact hvu)
            (ih _ _ (hinv.insert k v _ _ ?_) hdec)
          intro u' hu'
          have := hinv.curLast k u hc
          rw [this] at hu'
          injection hu' with hu'
          subst hu'
          exact le_of_lt hvu
        · simp only [if_neg hvu] at hdec ⊢
          exact .notBetter hc hvu (ih _ _ hinv hdec)
    | pop =>
      simp only [run, step, pop] at hdec ⊢
      by_cases hm : a.map = []
      · simp only [if_pos hm, Spec.Decreasing] at hdec ⊢
        refine .popEmpty ?_ (ih _ _ hinv hdec)
        intro j; rw [hinv.cur, hm]; rfl
      · simp only [if_neg hm] at hdec ⊢
        have hl := popLoop_spec hp a.map (a.heap.length + 1) a.heap (by omega)
        cases hpl : popLoop pick a.map (a.heap.length + 1) a.heap with
        | none =>
          exfalso
          rw [hpl] at hl
          simp only at hl
          cases hmap : a.map with
          | nil => exact hm hmap
          | cons p d =>
            obtain ⟨k, v, c⟩ := p
            have hk : a.map.get? k = some (v, c) := by rw [hmap]; simp [Dict.get?]
            have := hl _ (hinv.inHeap k v c hk)
            simp only at this
            rw [hk] at this; simp at this
        | some q =>
          obtain ⟨e, r⟩ := q
          rw [hpl] at hl
          simp only [hpl, Spec.Decreasing] at hl hdec ⊢
          obtain ⟨q1, q2, q3, q4, q5⟩ := hl
          obtain ⟨⟨v, c⟩, hk⟩ := Option.isSome_iff_exists.1 q2
          have hcur : s.cur e.key = some v := by rw [hinv.cur, hk]; rfl
          have hmin : ∀ j w, s.cur j = some w → e.value ≤ w := by
            intro j w hj
            rw [hinv.cur] at hj
            cases hmj : a.map.get? j with
            | none => rw [hmj] at hj; simp at hj
            | some p =>
              obtain ⟨w', d⟩ := p
              rw [hmj] at hj
              simp at hj
              subst hj
              rcases q5 _ (hinv.inHeap j w' d hmj) (by simp [hmj]) with h | h
              · exact le_of_lt h
              · exact le_of_eq h.1
          have hev : e.value = v := by
            apply le_antisymm (hmin _ _ hcur)
            obtain ⟨u, hu, hle⟩ := hinv.lower e q1
            rw [hinv.curLast _ _ hcur] at hu
            injection hu with hu
            subst hu
            exact hle
          refine .pop (by rw [hcur, hev]) hmin (ih _ _ ?_ hdec)
          refine ⟨hinv.wf.erase _, ?_, ?_, ?_, fun x hx => hinv.lower x (q3 x hx)⟩
          · intro j
            simp only
            rw [Dict.get?_erase hinv.wf]
            split
            · rfl
            · exact hinv.cur j
          · intro j w d hj
            simp only at hj ⊢
            rw [Dict.get?_erase hinv.wf] at hj
            split at hj
            · simp at hj
            · rename_i hne
              rcases q4 _ (hinv.inHeap j w d hj) (by simp [hj]) with h | h
              · exact absurd h.symm hne
              · exact h
          · intro j w
            simp only
            split
            · intro h; simp at h
            · exact hinv.curLast j w

/-- **C19.** For every history in which assignments only ever improve the priority of a key, each `pop` returns a key of the
agenda together with its current (best) priority, which is minimal among all keys in the agenda. -/
theorem C19_pop_best {pick : List (Entry K V) → Option (Entry K V × List (Entry K V))} (hp : PickSpec pick)
    (ops : List (Op K V))
    (hdec : Spec.Decreasing ⟨fun _ => none, fun _ => none⟩ ops (run pick (empty : Agenda K V) ops)) :
    Spec.Run ⟨fun _ => none, fun _ => none⟩ ops (run pick (empty : Agenda K V) ops) :=
  run_spec hp ops _ _ Inv.init hdec

/-- A concrete heap: linear search for a minimal entry. -/
def pickMin : List (Entry K V) → Option (Entry K V × List (Entry K V))
  | [] => none
  | e :: h => match pickMin h with
    | none => some (e, [])
    | some (m, r) =>
      if m.value < e.value ∨ (m.value = e.value ∧ m.count < e.count) then some (m, e :: r) else some (e, m :: r)

/-- The contract of the heap is satisfiable. -/
theorem pickMin_spec : PickSpec (pickMin : List (Entry K V) → _) := by
  intro h
  induction h with
  | nil => simp [pickMin]
  | cons e h ih =>
    rw [pickMin]
    cases hm : pickMin h with
    | none =>
      rw [hm] at ih
      simp only at ih ⊢
      subst ih
      refine ⟨List.Perm.refl _, ?_⟩
      intro x hx; simp at hx; subst hx; exact Or.inr ⟨rfl, Nat.le_refl _⟩
    | some q =>
      obtain ⟨m, r⟩ := q
      rw [hm] at ih
      simp only at ih ⊢
      obtain ⟨i1, i2⟩ := ih
      by_cases hlt : m.value < e.value ∨ (m.value = e.value ∧ m.count < e.count)
      · rw [if_pos hlt]
        refine ⟨(i1.cons e).trans (List.Perm.swap _ _ _), ?_⟩
        intro x hx
        rcases List.mem_cons.1 hx with rfl | hx
        · rcases hlt with h | ⟨h, h'⟩
          · exact Or.inl h
          · exact Or.inr ⟨h, by omega⟩
        · exact i2 x hx
      · rw [if_neg hlt]
        refine ⟨i1.cons e, ?_⟩
        intro x hx
        have hem : Entry.le e m := by
          simp only [not_or, not_and, not_lt] at hlt
          rcases lt_or_eq_of_le hlt.1 with h | h
          · exact Or.inl h
          · exact Or.inr ⟨h, hlt.2 h.symm⟩
        rcases List.mem_cons.1 hx with rfl | hx
        · exact Or.inr ⟨rfl, Nat.le_refl _⟩
        · rcases hem with h | ⟨h, h'⟩ <;> rcases i2 x hx with g | ⟨g, g'⟩
          · exact Or.inl (lt_trans h g)
          · exact Or.inl (g ▸ h)
          · exact Or.inl (h ▸ g)
          · exact Or.inr ⟨h.trans g, by omega⟩

example : run (pickMin (K := Nat) (V := Nat)) empty
    [.setitem 7 5, .setitem 8 4, .setifbetter 7 3, .setifbetter 8 6, .pop, .setitem 7 2, .pop, .pop, .pop]
      = [none, none, none, none, some (7, 3), none, some (7, 2), some (8, 4), none] := by decide +kernel

example : Spec.Decreasing (K := Nat) (V := Nat) ⟨fun _ => none, fun _ => none⟩
    [.setitem 7 5, .setitem 8 4, .setifbetter 7 3, .setifbetter 8 6, .pop, .setitem 7 2, .pop, .pop, .pop]
    [none, none, none, none, some (7, 3), none, some (7, 2), some (8, 4), none] := by
  simp [Spec.Decreasing]

/-- **C19 (disagreement outside the decrease-key discipline).** After a key with a stale entry in the heap is popped and inserted again with a
worse priority, `pop` returns the stale priority: the item was last assigned 7, is returned with 5. -/
theorem C19_stale_priority :
    run (pickMin (K := Nat) (V := Nat)) empty [.setitem 0 5, .setifbetter 0 3, .pop, .setitem 0 7, .pop]
      = [none, none, some (0, 3), none, some (0, 5)] := by decide +kernel

end Disco.CppAgenda
