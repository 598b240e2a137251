import Verif.Bits.Yield
import Verif.Basic.Str
import Verif.Basic.Dict
import Verif.Grammar.DopReduction
/-!
# C40: `factorconstituent` (treetransforms.py:384-450) and `UniqueIDs` (grammar.py:960-989)
-/
namespace Disco.Factor
open Bits

/-- An `ImmutableTree`; the attribute `bitset` may be missing. -/
inductive BT where
  | leaf (i : Nat)
  | node (l : Str) (bits : Option Nat) (cs : List BT)
deriving Repr

/-- `node.label`; an index has none. -/
def BT.label? : BT → Option Str
  | .leaf _ => none
  | .node l _ _ => some l

/-- `node.bitset`. -/
def BT.bits? : BT → Option Nat
  | .leaf _ => none
  | .node _ b _ => b

mutual
/-- `node.leaves()`. -/
def BT.leaves : BT → List Nat
  | .leaf i => [i]
  | .node _ _ cs => BT.leavesL cs
/-- The leaves of a list of children. -/
def BT.leavesL : List BT → List Nat
  | [] => []
  | c :: cs => c.leaves ++ BT.leavesL cs
end

/-- `UniqueIDs` (grammar.py:972-975). -/
structure IDs where
  pre : Str
  cnt : Nat
  ids : Dict Str Str
deriving Repr

/-- `UniqueIDs.__getitem__` (grammar.py:977-982). -/
def IDs.get (s : IDs) (key : Str) : Str × IDs :=
  match Dict.get? s.ids key with
  | some v => (v, s)
  | none => (s.pre ++ Nat.toDigits 10 s.cnt, { s with ids := Dict.set s.ids key (s.pre ++ Nat.toDigits 10 s.cnt), cnt := s.cnt + 1 })

/-- `UniqueIDs.__next__` (grammar.py:984-986). -/
def IDs.next (s : IDs) : Str × IDs := (s.pre ++ Nat.toDigits 10 s.cnt, { s with cnt := s.cnt + 1 })

/-- The parameters of `factorconstituent` (treetransforms.py:384-386); `factor` is `'left'` or `'right'`. -/
structure Cfg where
  sep : Str
  h : Nat
  right : Bool
  markfanout : Bool
  markyf : Bool
  filter : List Str
  lf : BT → Option Str

/-- `','.join(labelfun(child) for child in xs if labelfun(child) not in filterlabels)`. -/
def Cfg.labels (g : Cfg) (xs : List BT) : Option Str :=
  (xs.mapM g.lf).map fun ls => Str.join [','] (ls.filter fun l => decide (l ∉ g.filter))

/-- `key += getyf(left, right)` if `markyf` (treetransforms.py:424-425, 432-433). -/
def Cfg.yf (g : Cfg) (left right : BT) : Option Str :=
  if g.markyf then
    match left.bits?, right.bits? with
    | some a, some b => getyf a (some b)
    | _, _ => none
  else some []

/-- The key (treetransforms.py:421-437): `xs` are the children that are named in it; `fresh` holds in the last iteration. -/
def Cfg.key (g : Cfg) (ids : Option IDs) (xs : List BT) (left right : BT) (fresh : Bool) : Option (Str × Option IDs) :=
  match ids with
  | none => match g.labels xs, g.yf left right with
    | some k, some y => some (k ++ y, none)
    | _, _ => none
  | some s =>
    if fresh then some (s.next.1, some s.next.2)
    else match g.labels xs, g.yf left right with
      | some k, some y => some ((s.get (k ++ y)).1, some (s.get (k ++ y)).2)
      | _, _ => none

/-- The new label (treetransforms.py:438-442). -/
def Cfg.label (g : Cfg) (l key : Str) (bits : Nat) : Str :=
  l ++ (g.sep ++ '<' :: (key ++ '>' :: (if g.markfanout = true ∧ 1 < fanout bits then '_' :: Nat.toDigits 10 (fanout bits) else [])))

/-- One iteration (treetransforms.py:419-445). -/
def Cfg.step (g : Cfg) (l : Str) (cs : List BT) (i : Nat) (prev : BT) (ids : Option IDs) : Option (BT × Option IDs) :=
  match cs[i]? with
  | none => none
  | some c => match c.bits?, prev.bits? with
    | some cb, some pb =>
      if g.right then
        match g.key ids ((cs.drop i).take g.h) c prev (decide (i ≤ 1)) with
        | none => none
        | some (k, ids') => some (.node (g.label l k (cb ||| pb)) (some (cb ||| pb)) [c, prev], ids')
      else
        match g.key ids ((cs.take (i + 1)).drop (i + 1 - g.h)) prev c (decide (cs.length - 2 ≤ i)) with
        | none => none
        | some (k, ids') => some (.node (g.label l k (cb ||| pb)) (some (cb ||| pb)) [prev, c], ids')
    | _, _ => none

/-- The loop (treetransforms.py:419-445) over the remaining indices. -/
def Cfg.loop (g : Cfg) (l : Str) (cs : List BT) : List Nat → BT → Option IDs → Option (BT × Option IDs)
  | [], prev, ids => some (prev, ids)
  | i :: is, prev, ids => match g.step l cs i prev ids with
    | none => none
    | some (p, ids') => g.loop l cs is p ids'

/-- The case of one or two children (treetransforms.py:399-409): the artificial node has no attribute `bitset`. -/
def Cfg.short (g : Cfg) (l : Str) (bits : Option Nat) (cs : List BT) (ids : Option IDs) : Option (BT × Option IDs) :=
  match ids with
  | some s => some (.node l bits [.node (l ++ (g.sep ++ '<' :: (s.next.1 ++ ['>']))) none cs], some s.next.2)
  | none => match g.labels (cs.take g.h), (match g.markyf, cs with
      | false, _ => some []
      | true, [c] => c.bits?.bind fun a => getyf a none
      | true, c :: c' :: _ => g.yf c c'
      | true, [] => none) with
    | some k, some y => some (.node l bits [.node (l ++ (g.sep ++ '<' :: (k ++ y ++ ['>']))) none cs], none)
    | _, _ => none

/-- `factorconstituent(node, ...)` (treetransforms.py:384-450) for the node `.node l bits cs`. -/
def Cfg.factor (g : Cfg) (threshold : Nat) (ids : Option IDs) (l : Str) (bits : Option Nat) (cs : List BT) : Option (BT × Option IDs) :=
  if cs.length ≤ threshold then some (.node l bits cs, ids)
  else if cs.length ≤ 2 then g.short l bits cs ids
  else if g.right then
    match cs.getLast?, cs.head? with
    | some last, some c0 => match g.loop l cs (List.range' 1 (cs.length - 2)).reverse last ids with
      | none => none
      | some (prev, ids') => match c0.bits?, prev.bits? with
        | some a, some b => some (.node l (some (a ||| b)) [c0, prev], ids')
        | _, _ => none
    | _, _ => none
  else
    match cs.head?, cs.getLast? with
    | some c0, some last => match g.loop l cs (List.range' 1 (cs.length - 2)) c0 ids with
      | none => none
      | some (prev, ids') => match last.bits?, prev.bits? with
        | some a, some b => some (.node l (some (a ||| b)) [prev, last], ids')
        | _, _ => none
    | _, _ => none

/-! ### Specification -/

/-- `Art xs p q l`: the label `l` is right for an artificial node with the parts `p` and `q`, which covers the children `xs`.
`LeftChain Art xs p b`: `p` covers the children `xs` from left to right by artificial nodes that have an original child on the right;
`b` is its bitset. -/
inductive Spec.LeftChain (Art : List BT → BT → BT → Nat → Str → Prop) : List BT → BT → Nat → Prop
  | one {c b} : c.bits? = some b → Spec.LeftChain Art [c] c b
  | step {xs p b c b' l} : Spec.LeftChain Art xs p b → c.bits? = some b' → Art (xs ++ [c]) p c (b' ||| b) l →
      Spec.LeftChain Art (xs ++ [c]) (.node l (some (b' ||| b)) [p, c]) (b' ||| b)

/-- The same from right to left. -/
inductive Spec.RightChain (Art : List BT → BT → BT → Nat → Str → Prop) : List BT → BT → Nat → Prop
  | one {c b} : c.bits? = some b → Spec.RightChain Art [c] c b
  | step {xs p b c b' l} : Spec.RightChain Art xs p b → c.bits? = some b' → Art (c :: xs) c p (b' ||| b) l →
      Spec.RightChain Art (c :: xs) (.node l (some (b' ||| b)) [c, p]) (b' ||| b)

/-- The children are nodes with bitsets and labels. -/
def Spec.Children (g : Cfg) (cs : List BT) : Prop := ∀ c ∈ cs, (∃ b, c.bits? = some b) ∧ ∃ l, g.lf c = some l

/-- An artificial label made of any key. -/
def Spec.Marked (g : Cfg) (l : Str) : List BT → BT → BT → Nat → Str → Prop := fun _ _ _ b q => ∃ key, q = g.label l key b

/-- Without IDs: the key has the labels of the last `h` children that are covered, except those that are filtered, and the yield function
of the two parts. -/
def Spec.NamedLeft (g : Cfg) (l : Str) : List BT → BT → BT → Nat → Str → Prop := fun xs p q b k =>
  ∃ ls y, (xs.drop (xs.length - g.h)).mapM g.lf = some ls ∧ g.yf p q = some y ∧
    k = g.label l (Str.join [','] (ls.filter fun l => decide (l ∉ g.filter)) ++ y) b

/-- Without IDs, right-factored: the first `h` children that are covered. -/
def Spec.NamedRight (g : Cfg) (l : Str) : List BT → BT → BT → Nat → Str → Prop := fun xs p q b k =>
  ∃ ls y, (xs.take g.h).mapM g.lf = some ls ∧ g.yf p q = some y ∧
    k = g.label l (Str.join [','] (ls.filter fun l => decide (l ∉ g.filter)) ++ y) b

/-- A request to a source of IDs: a new ID, or the one for a key. -/
inductive Spec.Op where
  | next
  | key (k : Str)
deriving DecidableEq

/-- The IDs returned for a sequence of requests. -/
def Spec.run : List Spec.Op → IDs → List Str
  | [], _ => []
  | .next :: ops, s => s.next.1 :: Spec.run ops s.next.2
  | .key k :: ops, s => (s.get k).1 :: Spec.run ops (s.get k).2

/-! ### UniqueIDs -/

/-- The IDs in the dictionary are numbers below the counter, and no number is used twice. -/
structure IDs.WF (s : IDs) : Prop where
  lt : ∀ k v, Dict.get? s.ids k = some v → ∃ n < s.cnt, v = s.pre ++ Nat.toDigits 10 n
  inj : ∀ k k' v, Dict.get? s.ids k = some v → Dict.get? s.ids k' = some v → k = k'

theorem id_inj {pre : Str} {a b : Nat} (h : pre ++ Nat.toDigits 10 a = pre ++ Nat.toDigits 10 b) : a = b :=
  Dop.digits_inj (List.append_cancel_left h)

theorem IDs.next_wf {s : IDs} (h : s.WF) : s.next.2.WF :=
  ⟨fun k v hv => let ⟨n, hn, he⟩ := h.lt k v hv; ⟨n, Nat.lt_succ_of_lt hn, he⟩, h.inj⟩

theorem IDs.get_wf {s : IDs} (h : s.WF) (key : Str) : (s.get key).2.WF ∧ (s.get key).2.pre = s.pre ∧ s.cnt ≤ (s.get key).2.cnt ∧
    (∀ k v, Dict.get? s.ids k = some v → Dict.get? (s.get key).2.ids k = some v) ∧ Dict.get? (s.get key).2.ids key = some (s.get key).1 ∧
    (∀ v, v = (s.get key).1 → (Dict.get? s.ids key = some v ∨ v = s.pre ++ Nat.toDigits 10 s.cnt)) := by
  unfold IDs.get
  cases hg : Dict.get? s.ids key with
  | some v => exact ⟨h, rfl, Nat.le_refl _, fun _ _ h => h, hg, fun v' hv => .inl (by rw [hv])⟩
  | none =>
    refine ⟨⟨?_, ?_⟩, rfl, Nat.le_succ _, ?_, ?_, fun v hv => .inr hv⟩
    · intro k v hv
      rw [Dict.get?_set] at hv
      split at hv
      · cases hv; exact ⟨s.cnt, Nat.lt_succ_self _, rfl⟩
      · obtain ⟨n, hn, he⟩ := h.lt k v hv; exact ⟨n, Nat.lt_succ_of_lt hn, he⟩
    · intro k k' v hk hk'
      rw [Dict.get?_set] at hk hk'
      split at hk
      next h1 =>
        split at hk'
        next h2 => exact h1.symm.trans h2
        next h2 =>
          cases hk
          obtain ⟨n, hn, he⟩ := h.lt k' _ hk'
          have := id_inj he
          omega
      next h1 =>
        split at hk'
        next h2 =>
          cases hk'
          obtain ⟨n, hn, he⟩ := h.lt k _ hk
          have := id_inj he
          omega
        next h2 => exact h.inj k k' v hk hk'
    · intro k v hv
      simp only
      rw [Dict.get?_set]
      split
      next h1 => subst h1; rw [hg] at hv; cases hv
      next h1 => exact hv
    · simp only
      rw [Dict.get?_set]; simp

/-- What comes later differs from what was handed out as new. -/
theorem run_fresh (ops : List Spec.Op) : ∀ (s : IDs), s.WF → ∀ n < s.cnt, (∀ k, Dict.get? s.ids k ≠ some (s.pre ++ Nat.toDigits 10 n)) →
    s.pre ++ Nat.toDigits 10 n ∉ Spec.run ops s := by
  induction ops with
  | nil => intro s _ n _ _; simp [Spec.run]
  | cons op ops ih =>
    intro s hs n hn hk
    cases op with
    | next =>
      simp only [Spec.run, List.mem_cons, not_or]
      refine ⟨?_, ih _ (IDs.next_wf hs) n (Nat.lt_succ_of_lt hn) hk⟩
      intro he
      have := id_inj he
      omega
    | key k =>
      obtain ⟨h1, h2, h3, h4, h5, h6⟩ := IDs.get_wf hs k
      simp only [Spec.run, List.mem_cons, not_or]
      have hne : ∀ v, v = (s.get k).1 → v ≠ s.pre ++ Nat.toDigits 10 n := by
        intro v hv he
        rcases h6 v hv with h | h
        · exact hk k (by rw [← he]; exact h)
        · rw [h] at he
          have := id_inj he
          omega
      refine ⟨fun he => hne _ rfl he.symm, ?_⟩
      rw [← h2]
      refine ih _ h1 n (by omega) ?_
      intro k' hk'
      rw [h2] at hk'
      by_cases hkk : k' = k
      · subst hkk
        rw [h5] at hk'
        exact hne _ rfl (Option.some.inj hk')
      · unfold IDs.get at hk'
        split at hk'
        · exact hk k' hk'
        · simp only at hk'
          rw [Dict.get?_set, if_neg (Ne.symm hkk)] at hk'
          exact hk k' hk'

/-- What comes later for the same key is the same, and differs for other requests. -/
theorem run_key (ops : List Spec.Op) : ∀ (s : IDs), s.WF → ∀ k v, Dict.get? s.ids k = some v → ∀ (j : Nat) (o : Spec.Op) (w : Str), ops[j]? = some o →
    (Spec.run ops s)[j]? = some w → (w = v ↔ o = .key k) := by
  induction ops with
  | nil => intro s _ k v _ j o w h; simp at h
  | cons op ops ih =>
    intro s hs k v hk j o w ho hw
    cases op with
    | next =>
      cases j with
      | zero =>
        simp only [Spec.run, List.getElem?_cons_zero, Option.some.injEq] at ho hw
        subst ho hw
        obtain ⟨n, hn, he⟩ := hs.lt k v hk
        simp only [reduceCtorEq, iff_false]
        intro h
        rw [IDs.next, he] at h
        have := id_inj h
        omega
      | succ j => exact ih _ (IDs.next_wf hs) k v hk j o w (by simpa using ho) (by simpa [Spec.run] using hw)
    | key k' =>
      obtain ⟨h1, h2, h3, h4, h5, h6⟩ := IDs.get_wf hs k'
      cases j with
      | zero =>
        simp only [Spec.run, List.getElem?_cons_zero, Option.some.injEq] at ho hw
        subst ho hw
        constructor
        · intro h
          rw [h] at h5
          rw [h1.inj k' k v h5 (h4 k v hk)]
        · intro h
          cases h
          rw [h4 k v hk] at h5
          exact (Option.some.inj h5).symm
      | succ j => exact ih _ h1 k v (h4 k v hk) j o w (by simpa using ho) (by simpa [Spec.run] using hw)

/-- **C23 (IDs).** In every history of requests to `UniqueIDs`, an ID requested by iteration differs from all others, and IDs requested
for keys agree exactly if the keys agree. -/
theorem C23_unique_ids (pre : Str) (ops : List Spec.Op) {i j : Nat} (hij : i < j) {a b : Spec.Op} {v w : Str} (ha : ops[i]? = some a)
    (hb : ops[j]? = some b) (hv : (Spec.run ops ⟨pre, 0, []⟩)[i]? = some v) (hw : (Spec.run ops ⟨pre, 0, []⟩)[j]? = some w) :
    v = w ↔ ∃ k, a = .key k ∧ b = .key k := by
  have key : ∀ (ops : List Spec.Op) (s : IDs), s.WF → ∀ {i j : Nat}, i < j → ∀ {a b : Spec.Op} {v w : Str}, ops[i]? = some a →
      ops[j]? = some b → (Spec.run ops s)[i]? = some v → (Spec.run ops s)[j]? = some w → (v = w ↔ ∃ k, a = .key k ∧ b = .key k) := by
    intro ops
    induction ops with
    | nil => intro s _ i j _ a b v w h; simp at h
    | cons op ops ih =>
      intro s hs i j hij a b v w ha hb hv hw
      obtain ⟨j, rfl⟩ : ∃ j', j = j' + 1 := ⟨j - 1, by omega⟩
      simp only [List.getElem?_cons_succ] at hb
      cases i with
      | zero =>
        simp only [List.getElem?_cons_zero, Option.some.injEq] at ha
        subst ha
        cases op with
        | next =>
          simp only [Spec.run, List.getElem?_cons_zero, List.getElem?_cons_succ, Option.some.injEq] at hv hw
          simp only [reduceCtorEq, false_and, exists_false, iff_false]
          intro h
          have := run_fresh ops s.next.2 (IDs.next_wf hs) s.cnt (Nat.lt_succ_self _) (by
            intro k hk
            obtain ⟨n, hn, he⟩ := hs.lt k _ hk
            have := id_inj he
            omega)
          refine this ?_
          have hw' := List.mem_of_getElem? hw
          rw [← h, ← hv] at hw'
          exact hw'
        | key k =>
          simp only [Spec.run, List.getElem?_cons_zero, List.getElem?_cons_succ, Option.some.injEq] at hv hw
          obtain ⟨h1, h2, h3, h4, h5, h6⟩ := IDs.get_wf hs k
          have := run_key ops _ h1 k _ h5 j b w hb hw
          rw [← hv, eq_comm, this]
          constructor
          · intro h; exact ⟨k, rfl, h⟩
          · rintro ⟨k', hk, hk'⟩; cases hk; exact hk'
      | succ i =>
        simp only [List.getElem?_cons_succ] at ha
        cases op with
        | next =>
          simp only [Spec.run, List.getElem?_cons_succ] at hv hw
          exact ih _ (IDs.next_wf hs) (by omega) ha hb hv hw
        | key k =>
          simp only [Spec.run, List.getElem?_cons_succ] at hv hw
          exact ih _ (IDs.get_wf hs k).1 (by omega) ha hb hv hw
  exact key ops ⟨pre, 0, []⟩ ⟨by simp [Dict.get?], by simp [Dict.get?]⟩ hij ha hb hv hw

/-- The documented example. -/
example : Spec.run [.next, .key ['f', 'o', 'o'], .key ['b', 'a', 'r'], .key ['f', 'o', 'o']] ⟨[], 0, []⟩ = [['0'], ['1'], ['2'], ['1']] := by
  decide +kernel

/-! ### factorconstituent -/

theorem getyf_some (a b : Nat) : ∃ y, getyf a (some b) = some y := by
  unfold getyf
  simp only [getyfLoop_eq, Option.map_some]
  exact ⟨_, rfl⟩

theorem yf_some (g : Cfg) {p q : BT} {a b : Nat} (hp : p.bits? = some a) (hq : q.bits? = some b) : ∃ y, g.yf p q = some y := by
  unfold Cfg.yf
  split
  · rw [hp, hq]; exact getyf_some a b
  · exact ⟨_, rfl⟩

theorem mapM_some {α β : Type} {f : α → Option β} {xs : List α} (h : ∀ x ∈ xs, ∃ y, f x = some y) : ∃ ys, xs.mapM f = some ys := by
  induction xs with
  | nil => exact ⟨[], rfl⟩
  | cons x xs ih =>
    obtain ⟨y, hy⟩ := h x (by simp)
    obtain ⟨ys, hys⟩ := ih (fun z hz => h z (List.mem_cons_of_mem _ hz))
    exact ⟨y :: ys, by simp [hy, hys]⟩

theorem labels_some (g : Cfg) {cs xs : List BT} (h : Spec.Children g cs) (hx : ∀ x ∈ xs, x ∈ cs) :
    ∃ ls, xs.mapM g.lf = some ls ∧ g.labels xs = some (Str.join [','] (ls.filter fun l => decide (l ∉ g.filter))) := by
  obtain ⟨ls, hls⟩ := mapM_some (f := g.lf) (xs := xs) (fun x hx' => (h x (hx x hx')).2)
  exact ⟨ls, hls, by simp [Cfg.labels, hls]⟩

/-- Later states of a source of IDs. -/
structure IDs.Ext (s s' : IDs) : Prop where
  wf : s'.WF
  pre : s'.pre = s.pre
  cnt : s.cnt ≤ s'.cnt
  old : ∀ k v, Dict.get? s.ids k = some v → Dict.get? s'.ids k = some v

theorem IDs.Ext.refl {s : IDs} (h : s.WF) : IDs.Ext s s := ⟨h, rfl, Nat.le_refl _, fun _ _ h => h⟩

theorem IDs.Ext.trans {a b c : IDs} (h : IDs.Ext a b) (h' : IDs.Ext b c) : IDs.Ext a c :=
  ⟨h'.wf, h'.pre.trans h.pre, h.cnt.trans h'.cnt, fun k v hv => h'.old k v (h.old k v hv)⟩

/-- The label of an artificial node: the key is given by the labels of the children, or any key if there is a source of IDs. -/
def Spec.ArtLeft (g : Cfg) (l : Str) (ids : Option IDs) : List BT → BT → BT → Nat → Str → Prop :=
  if ids.isSome then Spec.Marked g l else Spec.NamedLeft g l

def Spec.ArtRight (g : Cfg) (l : Str) (ids : Option IDs) : List BT → BT → BT → Nat → Str → Prop :=
  if ids.isSome then Spec.Marked g l else Spec.NamedRight g l

/-- What is known about the state of the IDs after a key was made. -/
def IdsAfter (g : Cfg) (l : Str) (fresh : Bool) (b : Nat) (q : Str) : Option IDs → Option IDs → Prop
  | none, ids' => ids' = none
  | some s, ids' => ∃ s', ids' = some s' ∧ (s.WF → IDs.Ext s s') ∧ (fresh = true → q = g.label l s.next.1 b ∧ s' = s.next.2)

theorem key_spec (g : Cfg) {cs xs : List BT} (hch : Spec.Children g cs) (hx : ∀ x ∈ xs, x ∈ cs) {p q : BT} {a b : Nat} (hp : p.bits? = some a)
    (hq : q.bits? = some b) (ids : Option IDs) (fresh : Bool) (l : Str) (bits : Nat) : ∃ k ids', g.key ids xs p q fresh = some (k, ids') ∧
      IdsAfter g l fresh bits (g.label l k bits) ids ids' ∧
      (ids = none → ∃ ls y, xs.mapM g.lf = some ls ∧ g.yf p q = some y ∧ k = Str.join [','] (ls.filter fun l => decide (l ∉ g.filter)) ++ y) := by
  obtain ⟨y, hy⟩ := yf_some g hp hq
  obtain ⟨ls, hls, hlab⟩ := labels_some g hch hx
  cases ids with
  | none => exact ⟨_, _, by simp only [Cfg.key, hlab, hy], rfl, fun _ => ⟨ls, y, hls, hy, rfl⟩⟩
  | some s =>
    cases fresh with
    | true => exact ⟨_, _, rfl, ⟨_, rfl, fun h => ⟨IDs.next_wf h, rfl, Nat.le_succ _, fun _ _ h => h⟩, fun _ => ⟨rfl, rfl⟩⟩, by simp⟩
    | false =>
      refine ⟨(s.get (Str.join [','] (ls.filter fun l => decide (l ∉ g.filter)) ++ y)).1,
        some (s.get (Str.join [','] (ls.filter fun l => decide (l ∉ g.filter)) ++ y)).2,
        by simp only [Cfg.key, hlab, hy, Bool.false_eq_true, if_false], ⟨_, rfl, fun h => ?_, by simp⟩, by simp⟩
      obtain ⟨h1, h2, h3, h4, -, -⟩ := IDs.get_wf h (Str.join [','] (ls.filter fun l => decide (l ∉ g.filter)) ++ y)
      exact ⟨h1, h2, h3, h4⟩

theorem Spec.LeftChain.bits {Art : List BT → BT → BT → Nat → Str → Prop} {xs : List BT} {p : BT} {b : Nat} (h : Spec.LeftChain Art xs p b) :
    p.bits? = some b := by
  cases h with
  | one h => exact h
  | step h h' ha => rfl

theorem Spec.RightChain.bits {Art : List BT → BT → BT → Nat → Str → Prop} {xs : List BT} {p : BT} {b : Nat} (h : Spec.RightChain Art xs p b) :
    p.bits? = some b := by
  cases h with
  | one h => exact h
  | step h h' ha => rfl

theorem step_left (g : Cfg) (hr : g.right = false) {cs : List BT} (hch : Spec.Children g cs) (l : Str) {ids0 ids : Option IDs}
    (hids : ids.isSome = ids0.isSome) {i : Nat} (hi : i < cs.length) {p : BT} {b : Nat}
    (hp : Spec.LeftChain (Spec.ArtLeft g l ids0) (cs.take i) p b) :
    ∃ q b' ids', g.step l cs i p ids = some (.node q (some b') [p, cs[i]], ids') ∧ ids'.isSome = ids0.isSome ∧
      Spec.LeftChain (Spec.ArtLeft g l ids0) (cs.take (i + 1)) (.node q (some b') [p, cs[i]]) b' ∧
      IdsAfter g l (decide (cs.length - 2 ≤ i)) b' q ids ids' := by
  obtain ⟨⟨cb, hcb⟩, -⟩ := hch cs[i] (List.getElem_mem _)
  obtain ⟨k, ids', h1, h2, h3⟩ := key_spec g hch (xs := (cs.take (i + 1)).drop (i + 1 - g.h))
    (fun x hx => List.mem_of_mem_take (List.mem_of_mem_drop hx)) hp.bits hcb ids (decide (cs.length - 2 ≤ i)) l (cb ||| b)
  refine ⟨g.label l k (cb ||| b), cb ||| b, ids', ?_, ?_, ?_, h2⟩
  · simp only [Cfg.step, List.getElem?_eq_getElem hi, hcb, hp.bits, hr, Bool.false_eq_true, if_false, h1]
  · cases ids with
    | none => rw [← hids, h2]
    | some s => obtain ⟨s', hs', -⟩ := h2; rw [← hids, hs']; rfl
  · rw [List.take_add_one, List.getElem?_eq_getElem hi, Option.toList_some]
    refine .step hp hcb ?_
    unfold Spec.ArtLeft
    cases hs : ids0.isSome with
    | true => exact ⟨k, rfl⟩
    | false =>
      rw [hs] at hids
      obtain ⟨ls, y, h4, h5, h6⟩ := h3 (by cases ids with | none => rfl | some _ => cases hids)
      have hlen : (cs.take i).length = i := by rw [List.length_take]; omega
      refine ⟨ls, y, ?_, h5, by rw [h6]⟩
      rw [List.take_add_one, List.getElem?_eq_getElem hi, Option.toList_some] at h4
      rw [List.length_append, hlen]
      exact h4

theorem step_right (g : Cfg) (hr : g.right = true) {cs : List BT} (hch : Spec.Children g cs) (l : Str) {ids0 ids : Option IDs}
    (hids : ids.isSome = ids0.isSome) {i : Nat} (hi : i < cs.length) {p : BT} {b : Nat}
    (hp : Spec.RightChain (Spec.ArtRight g l ids0) (cs.drop (i + 1)) p b) :
    ∃ q b' ids', g.step l cs i p ids = some (.node q (some b') [cs[i], p], ids') ∧ ids'.isSome = ids0.isSome ∧
      Spec.RightChain (Spec.ArtRight g l ids0) (cs.drop i) (.node q (some b') [cs[i], p]) b' ∧
      IdsAfter g l (decide (i ≤ 1)) b' q ids ids' := by
  obtain ⟨⟨cb, hcb⟩, -⟩ := hch cs[i] (List.getElem_mem _)
  obtain ⟨k, ids', h1, h2, h3⟩ := key_spec g hch (xs := (cs.drop i).take g.h)
    (fun x hx => List.mem_of_mem_drop (List.mem_of_mem_take hx)) hcb hp.bits ids (decide (i ≤ 1)) l (cb ||| b)
  refine ⟨g.label l k (cb ||| b), cb ||| b, ids', ?_, ?_, ?_, h2⟩
  · simp only [Cfg.step, List.getElem?_eq_getElem hi, hcb, hp.bits, hr, if_true, h1]
  · cases ids with
    | none => rw [← hids, h2]
    | some s => obtain ⟨s', hs', -⟩ := h2; rw [← hids, hs']; rfl
  · rw [List.drop_eq_getElem_cons hi] at h3 ⊢
    refine .step hp hcb ?_
    unfold Spec.ArtRight
    cases hs : ids0.isSome with
    | true => exact ⟨k, rfl⟩
    | false =>
      rw [hs] at hids
      obtain ⟨ls, y, h4, h5, h6⟩ := h3 (by cases ids with | none => rfl | some _ => cases hids)
      exact ⟨ls, y, h4, h5, by rw [h6]⟩

/-- The extension of the source of IDs, if there is one. -/
def IdsExt : Option IDs → Option IDs → Prop
  | none, ids' => ids' = none
  | some s, ids' => ∃ s', ids' = some s' ∧ (s.WF → IDs.Ext s s')

theorem IdsExt.refl (ids : Option IDs) : IdsExt ids ids := by
  cases ids with
  | none => rfl
  | some s => exact ⟨s, rfl, fun h => .refl h⟩

theorem IdsExt.trans {a b c : Option IDs} (h : IdsExt a b) (h' : IdsExt b c) : IdsExt a c := by
  cases a with
  | none => simp only [IdsExt] at h; subst h; exact h'
  | some s =>
    obtain ⟨s', rfl, h1⟩ := h
    obtain ⟨s'', rfl, h2⟩ := h'
    exact ⟨s'', rfl, fun hw => (h1 hw).trans (h2 (h1 hw).wf)⟩

theorem IdsAfter.ext {g : Cfg} {l : Str} {fresh : Bool} {b : Nat} {q : Str} {a c : Option IDs} (h : IdsAfter g l fresh b q a c) : IdsExt a c := by
  cases a with
  | none => exact h
  | some s => obtain ⟨s', h1, h2, -⟩ := h; exact ⟨s', h1, h2⟩

theorem loop_append (g : Cfg) (l : Str) (cs : List BT) (is js : List Nat) : ∀ p ids, g.loop l cs (is ++ js) p ids =
    match g.loop l cs is p ids with
    | none => none
    | some (p', ids') => g.loop l cs js p' ids' := by
  induction is with
  | nil => intro p ids; rfl
  | cons i is ih =>
    intro p ids
    simp only [List.cons_append, Cfg.loop]
    cases g.step l cs i p ids with
    | none => rfl
    | some x => exact ih _ _

theorem loop_left (g : Cfg) (hr : g.right = false) {cs : List BT} (hch : Spec.Children g cs) (l : Str) {ids0 : Option IDs} (n : Nat) :
    ∀ {i : Nat} {p : BT} {b : Nat} {ids : Option IDs}, i + n ≤ cs.length → ids.isSome = ids0.isSome →
    Spec.LeftChain (Spec.ArtLeft g l ids0) (cs.take i) p b →
    ∃ p' b' ids', g.loop l cs (List.range' i n) p ids = some (p', ids') ∧ ids'.isSome = ids0.isSome ∧
      Spec.LeftChain (Spec.ArtLeft g l ids0) (cs.take (i + n)) p' b' ∧ IdsExt ids ids' := by
  induction n with
  | zero => intro i p b ids _ hids hp; exact ⟨p, b, ids, rfl, hids, hp, .refl _⟩
  | succ n ih =>
    intro i p b ids hi hids hp
    obtain ⟨q, b', ids', h1, h2, h3, h4⟩ := step_left g hr hch l hids (i := i) (by omega) hp
    obtain ⟨p', b'', ids'', h5, h6, h7, h8⟩ := ih (i := i + 1) (by omega) h2 h3
    refine ⟨p', b'', ids'', ?_, h6, by rw [show i + (n + 1) = i + 1 + n by omega]; exact h7, h4.ext.trans h8⟩
    rw [List.range'_succ, Cfg.loop, h1]
    exact h5

theorem loop_right (g : Cfg) (hr : g.right = true) {cs : List BT} (hch : Spec.Children g cs) (l : Str) {ids0 : Option IDs} (n : Nat) :
    ∀ {m : Nat} {p : BT} {b : Nat} {ids : Option IDs}, m + n < cs.length → ids.isSome = ids0.isSome →
    Spec.RightChain (Spec.ArtRight g l ids0) (cs.drop (m + n + 1)) p b →
    ∃ p' b' ids', g.loop l cs (List.range' (m + 1) n).reverse p ids = some (p', ids') ∧ ids'.isSome = ids0.isSome ∧
      Spec.RightChain (Spec.ArtRight g l ids0) (cs.drop (m + 1)) p' b' ∧ IdsExt ids ids' := by
  induction n with
  | zero => intro m p b ids _ hids hp; exact ⟨p, b, ids, rfl, hids, hp, .refl _⟩
  | succ n ih =>
    intro m p b ids hi hids hp
    obtain ⟨q, b', ids', h1, h2, h3, h4⟩ := step_right g hr hch l hids (i := m + n + 1) (by omega) hp
    obtain ⟨p', b'', ids'', h5, h6, h7, h8⟩ := ih (m := m) (by omega) h2 h3
    refine ⟨p', b'', ids'', ?_, h6, h7, h4.ext.trans h8⟩
    have : List.range' (m + 1) (n + 1) = List.range' (m + 1) n ++ [m + n + 1] := by
      rw [List.range'_concat]; simp; omega
    rw [this, List.reverse_append, List.reverse_singleton, List.singleton_append, Cfg.loop, h1]
    exact h5

/-- The new ID in the label of the topmost artificial node. -/
def Spec.TopFresh (g : Cfg) (l : Str) (p : BT) (b : Nat) : Option IDs → Option IDs → Prop
  | none, ids' => ids' = none
  | some s, ids' => s.WF → ∃ s' n, ids' = some s' ∧ IDs.Ext s s' ∧ s.cnt ≤ n ∧ n < s'.cnt ∧
      p.label? = some (g.label l (s.pre ++ Nat.toDigits 10 n) b) ∧ ∀ k, Dict.get? s'.ids k ≠ some (s.pre ++ Nat.toDigits 10 n)

theorem topFresh_of {g : Cfg} {l q : Str} {ids ids1 ids2 : Option IDs} {b : Nat} {x : Option Nat} {ys : List BT} (h1 : IdsExt ids ids1)
    (h2 : IdsAfter g l true b q ids1 ids2) : Spec.TopFresh g l (.node q x ys) b ids ids2 := by
  cases ids with
  | none => simp only [IdsExt] at h1; subst h1; exact h2
  | some s =>
    obtain ⟨s1, rfl, h1⟩ := h1
    obtain ⟨s2, rfl, h3, h4⟩ := h2
    obtain ⟨h5, h6⟩ := h4 rfl
    intro hw
    have e1 := h1 hw
    have e2 := h3 e1.wf
    refine ⟨s2, s1.cnt, rfl, e1.trans e2, e1.cnt, by rw [h6]; exact Nat.lt_succ_self _, ?_, ?_⟩
    · rw [h5, IDs.next, e1.pre]; rfl
    · intro k hk
      rw [h6] at hk
      obtain ⟨n, hn, he⟩ := e1.wf.lt k _ hk
      rw [e1.pre] at he
      have := id_inj he
      omega

/-- **C40 (left).** Left-factoring a node with more than two children (and more than the threshold) yields a node with the same label and
two children, the last original child on the right; the left one covers the other children from left to right by artificial nodes. All
have the union of the bitsets of their children, and labels made of the label of the node, the separator and a key. With a source of
IDs, the topmost artificial node has a new ID. -/
theorem C40_factor_left (g : Cfg) (hr : g.right = false) (threshold : Nat) (ids : Option IDs) (l : Str) (bits : Option Nat) {cs : List BT}
    (hch : Spec.Children g cs) (hlen : 2 < cs.length) (ht : threshold < cs.length) :
    ∃ p b last bl ids', g.factor threshold ids l bits cs = some (.node l (some (bl ||| b)) [p, last], ids') ∧
      cs.getLast? = some last ∧ last.bits? = some bl ∧ Spec.LeftChain (Spec.ArtLeft g l ids) cs.dropLast p b ∧
      Spec.TopFresh g l p b ids ids' := by
  obtain ⟨c0, rest, rfl⟩ : ∃ c0 rest, cs = c0 :: rest := by
    cases cs with
    | nil => simp at hlen
    | cons c0 rest => exact ⟨c0, rest, rfl⟩
  generalize hcs : c0 :: rest = cs at *
  have hhead : cs.head? = some c0 := by rw [← hcs]; rfl
  have h0 : (cs.take 1) = [c0] := by rw [← hcs]; simp
  obtain ⟨⟨b0, hb0⟩, -⟩ := hch c0 (by rw [← hcs]; simp)
  obtain ⟨last, hlast⟩ : ∃ last, cs.getLast? = some last := by
    rw [← hcs]; exact ⟨_, List.getLast?_eq_some_getLast (by simp)⟩
  obtain ⟨⟨bl, hbl⟩, -⟩ := hch last (List.mem_of_getLast? hlast)
  obtain ⟨p1, b1, ids1, h1, h2, h3, h4⟩ := loop_left g hr hch l (ids0 := ids) (cs.length - 3) (i := 1) (p := c0) (b := b0) (ids := ids)
    (by omega) rfl (by rw [h0]; exact .one hb0)
  obtain ⟨q, b2, ids2, h5, h6, h7, h8⟩ := step_left g hr hch l h2 (i := 1 + (cs.length - 3)) (by omega) h3
  have hfr : decide (cs.length - 2 ≤ 1 + (cs.length - 3)) = true := by simp; omega
  rw [hfr] at h8
  refine ⟨.node q (some b2) [p1, cs[1 + (cs.length - 3)]], b2, last, bl, ids2, ?_, hlast, hbl, ?_, topFresh_of h4 h8⟩
  · have hrange : List.range' 1 (cs.length - 2) = List.range' 1 (cs.length - 3) ++ [1 + (cs.length - 3)] := by
      rw [show cs.length - 2 = cs.length - 3 + 1 by omega, List.range'_concat]; simp
    simp only [Cfg.factor, if_neg (Nat.not_le_of_lt ht), if_neg (Nat.not_le_of_lt hlen), hr, Bool.false_eq_true, if_false, hhead, hlast, hrange,
      loop_append, h1, Cfg.loop, h5, hbl, h7.bits]
  · rw [List.dropLast_eq_take]
    rw [show 1 + (cs.length - 3) + 1 = cs.length - 1 by omega] at h7
    exact h7

/-- **C40 (right).** The same for right-factoring. -/
theorem C40_factor_right (g : Cfg) (hr : g.right = true) (threshold : Nat) (ids : Option IDs) (l : Str) (bits : Option Nat) {cs : List BT}
    (hch : Spec.Children g cs) (hlen : 2 < cs.length) (ht : threshold < cs.length) :
    ∃ p b first bf ids', g.factor threshold ids l bits cs = some (.node l (some (bf ||| b)) [first, p], ids') ∧
      cs.head? = some first ∧ first.bits? = some bf ∧ Spec.RightChain (Spec.ArtRight g l ids) cs.tail p b ∧
      Spec.TopFresh g l p b ids ids' := by
  obtain ⟨c0, rest, rfl⟩ : ∃ c0 rest, cs = c0 :: rest := by
    cases cs with
    | nil => simp at hlen
    | cons c0 rest => exact ⟨c0, rest, rfl⟩
  generalize hcs : c0 :: rest = cs at *
  have hhead : cs.head? = some c0 := by rw [← hcs]; rfl
  obtain ⟨⟨b0, hb0⟩, -⟩ := hch c0 (by rw [← hcs]; simp)
  obtain ⟨last, hlast⟩ : ∃ last, cs.getLast? = some last := by
    rw [← hcs]; exact ⟨_, List.getLast?_eq_some_getLast (by simp)⟩
  obtain ⟨⟨bl, hbl⟩, -⟩ := hch last (List.mem_of_getLast? hlast)
  have hdrop : cs.drop (1 + (cs.length - 3) + 1) = [last] := by
    obtain ⟨ys, hys⟩ := List.getLast?_eq_some_iff.1 hlast
    have : ys.length = cs.length - 1 := by rw [hys]; simp
    rw [show 1 + (cs.length - 3) + 1 = ys.length by omega, hys]
    simp
  obtain ⟨p1, b1, ids1, h1, h2, h3, h4⟩ := loop_right g hr hch l (ids0 := ids) (cs.length - 3) (m := 1) (p := last) (b := bl) (ids := ids)
    (by omega) rfl (by rw [hdrop]; exact .one hbl)
  obtain ⟨q, b2, ids2, h5, h6, h7, h8⟩ := step_right g hr hch l h2 (i := 1) (by omega) h3
  refine ⟨.node q (some b2) [cs[1], p1], b2, c0, b0, ids2, ?_, hhead, hb0, ?_, topFresh_of h4 h8⟩
  · have hrange : List.range' 1 (cs.length - 2) = 1 :: List.range' (1 + 1) (cs.length - 3) := by
      rw [show cs.length - 2 = cs.length - 3 + 1 by omega, List.range'_succ]
    simp only [Cfg.factor, if_neg (Nat.not_le_of_lt ht), if_neg (Nat.not_le_of_lt hlen), hr, if_true, hhead, hlast, hrange,
      List.reverse_cons, loop_append, h1, Cfg.loop, h5, hb0, h7.bits]
  · rw [← List.drop_one]
    exact h7

/-- **C40 (threshold).** A node with few children is returned unchanged. -/
theorem C40_threshold (g : Cfg) (threshold : Nat) (ids : Option IDs) (l : Str) (bits : Option Nat) (cs : List BT) (h : cs.length ≤ threshold) :
    g.factor threshold ids l bits cs = some (.node l bits cs, ids) := by rw [Cfg.factor, if_pos h]

/-- The bits of a chain. -/
theorem Spec.LeftChain.mem {Art : List BT → BT → BT → Nat → Str → Prop} {xs : List BT} {p : BT} {b : Nat} (h : Spec.LeftChain Art xs p b) :
    (∀ k, b.testBit k = true ↔ ∃ c ∈ xs, ∃ x, c.bits? = some x ∧ x.testBit k = true) ∧ p.leaves = BT.leavesL xs := by
  have happ : ∀ xs ys : List BT, BT.leavesL (xs ++ ys) = BT.leavesL xs ++ BT.leavesL ys := by
    intro xs ys; induction xs with
    | nil => rfl
    | cons x xs ih => simp [BT.leavesL, ih]
  induction h with
  | one h => exact ⟨fun k => by simp [h], by simp [BT.leavesL]⟩
  | step h h' ha ih =>
    refine ⟨fun k => ?_, ?_⟩
    · rw [Nat.testBit_or, Bool.or_eq_true, ih.1 k]
      constructor
      · rintro (h1 | ⟨c, hc, x, hx⟩)
        · exact ⟨_, by simp, _, h', h1⟩
        · exact ⟨c, by simp [hc], x, hx⟩
      · rintro ⟨c, hc, x, hx, hk⟩
        rcases List.mem_append.1 hc with hc | hc
        · exact .inr ⟨c, hc, x, hx, hk⟩
        · simp only [List.mem_singleton] at hc
          subst hc
          rw [h'] at hx
          cases hx
          exact .inl hk
    · rw [happ, ← ih.2]; simp [BT.leaves, BT.leavesL]

theorem Spec.RightChain.mem {Art : List BT → BT → BT → Nat → Str → Prop} {xs : List BT} {p : BT} {b : Nat} (h : Spec.RightChain Art xs p b) :
    (∀ k, b.testBit k = true ↔ ∃ c ∈ xs, ∃ x, c.bits? = some x ∧ x.testBit k = true) ∧ p.leaves = BT.leavesL xs := by
  induction h with
  | one h => exact ⟨fun k => by simp [h], by simp [BT.leavesL]⟩
  | step h h' ha ih =>
    refine ⟨fun k => ?_, ?_⟩
    · rw [Nat.testBit_or, Bool.or_eq_true, ih.1 k]
      constructor
      · rintro (h1 | ⟨c, hc, x, hx⟩)
        · exact ⟨_, by simp, _, h', h1⟩
        · exact ⟨c, by simp [hc], x, hx⟩
      · rintro ⟨c, hc, x, hx, hk⟩
        rcases List.mem_cons.1 hc with rfl | hc
        · rw [h'] at hx
          cases hx
          exact .inl hk
        · exact .inr ⟨c, hc, x, hx, hk⟩
    · rw [BT.leavesL, ← ih.2]; simp [BT.leaves, BT.leavesL]

/-- **C40 (contents).** The result has the same label, the union of the bitsets of the children and the same leaves in the same order. -/
theorem C40_contents (g : Cfg) (threshold : Nat) (ids : Option IDs) (l : Str) (bits : Option Nat) {cs : List BT}
    (hch : Spec.Children g cs) (hlen : 2 < cs.length) (ht : threshold < cs.length) :
    ∃ t b ids', g.factor threshold ids l bits cs = some (t, ids') ∧ t.label? = some l ∧ t.bits? = some b ∧ t.leaves = BT.leavesL cs ∧
      ∀ k, b.testBit k = true ↔ ∃ c ∈ cs, ∃ x, c.bits? = some x ∧ x.testBit k = true := by
  cases hr : g.right with
  | false =>
    obtain ⟨p, b, last, bl, ids', h1, h2, h3, h4, -⟩ := C40_factor_left g hr threshold ids l bits hch hlen ht
    obtain ⟨ys, hys⟩ := List.getLast?_eq_some_iff.1 h2
    have hd : cs.dropLast = ys := by rw [hys]; simp
    rw [hd] at h4
    have hl := (Spec.LeftChain.step (l := []) (Art := fun _ _ _ _ _ => True) (xs := ys) (p := p) (b := b) (c := last) (b' := bl) (by
      clear h1 hch hlen ht h2 hys hd
      induction h4 with
      | one h => exact .one h
      | step _ h' _ ih => exact .step ih h' True.intro) h3 True.intro).mem
    rw [← hys] at hl
    exact ⟨_, _, ids', h1, rfl, rfl, hl.2, hl.1⟩
  | true =>
    obtain ⟨p, b, first, bf, ids', h1, h2, h3, h4, -⟩ := C40_factor_right g hr threshold ids l bits hch hlen ht
    cases cs with
    | nil => simp at hlen
    | cons c0 rest =>
      cases h2
      rw [List.tail_cons] at h4
      have hl := (Spec.RightChain.step (l := []) (Art := fun _ _ _ _ _ => True) (xs := rest) (p := p) (b := b) (c := first) (b' := bf) (by
        clear h1 hch hlen ht
        induction h4 with
        | one h => exact .one h
        | step _ h' _ ih => exact .step ih h' True.intro) h3 True.intro).mem
      exact ⟨_, _, ids', h1, rfl, rfl, hl.2, hl.1⟩

/-- A discontinuous constituent with four children; the second one covers positions 1 and 3. -/
def exChildren : List BT := [.node ['A'] (some 1) [.leaf 0], .node ['B'] (some 10) [.leaf 1, .leaf 3], .node ['C'] (some 4) [.leaf 2],
  .node ['D'] (some 16) [.leaf 4]]

def exCfg (right markyf : Bool) (h : Nat) : Cfg := ⟨['|'], h, right, true, markyf, [], BT.label?⟩

example : Spec.Children (exCfg false true 999) exChildren ∧ (exCfg false true 999).factor 2 none ['S'] none exChildren =
    some (.node ['S'] (some 31) [.node "S|<A,B,C;010>".toList (some 15)
      [.node "S|<A,B;01,1>_2".toList (some 11) [.node ['A'] (some 1) [.leaf 0], .node ['B'] (some 10) [.leaf 1, .leaf 3]],
        .node ['C'] (some 4) [.leaf 2]], .node ['D'] (some 16) [.leaf 4]], none) := by
  refine ⟨?_, by rfl⟩
  intro c hc
  simp only [exChildren, List.mem_cons, List.not_mem_nil, or_false] at hc
  rcases hc with rfl | rfl | rfl | rfl <;> exact ⟨⟨_, rfl⟩, ⟨_, rfl⟩⟩

/-- One or two children above the threshold: the artificial node that is added has no bitset (so that it cannot be a child of a
constituent that is factored later), and with `markyf` a single child that does not cover position 0 raises an error. -/
theorem C40_short_disagrees : (exCfg true false 999).factor 1 none ['S'] (some 3) [.node ['A'] (some 1) [.leaf 0], .node ['B'] (some 2) [.leaf 1]] =
      some (.node ['S'] (some 3) [.node "S|<A,B>".toList none [.node ['A'] (some 1) [.leaf 0], .node ['B'] (some 2) [.leaf 1]]], none) ∧
    (exCfg true true 999).factor 0 none ['S'] (some 2) [.node ['B'] (some 2) [.leaf 1]] = none := by
  exact ⟨by rfl, by rfl⟩

end Disco.Factor
