import Mathlib.Data.List.Basic
import Mathlib.Data.List.Nodup
import Mathlib.Tactic.SplitIfs
import Mathlib.Tactic.Tauto
import Verif.Basic.Tree
/-!
# C15: `ParentedTree` (tree.py:655-936): parent pointers under mutation

Objects live in a heap: each has a label, a list of children and a parent pointer. Methods are functions on the heap that either return a value
or raise, in both cases with the heap they leave behind.
-/
namespace Disco.Parented

/-- A child: a terminal, or a reference to another `ParentedTree` object. (Other kinds of trees are not modelled; `_setparent` rejects them.) -/
inductive Child where
  | leaf (i : Nat)
  | ref (n : Nat)
  deriving DecidableEq, Repr

/-- The `ParentedTree` objects: attributes `label`, `children`, `_parent`; objects are numbered in the order of their creation. -/
structure Heap where
  next : Nat
  label : Nat → Str
  kids : Nat → List Child
  par : Nat → Option Nat

/-- Exceptions. -/
inductive Err where
  | value | index | assertion | type | attribute
  deriving DecidableEq, Repr

/-- A piece of code: result or exception, and the heap afterwards. -/
def M (α : Type) := Heap → Except Err α × Heap

namespace M
def pure {α : Type} (a : α) : M α := fun h => (.ok a, h)
def throw {α : Type} (e : Err) : M α := fun h => (.error e, h)
def bind {α β : Type} (m : M α) (f : α → M β) : M β := fun h =>
  match m h with
  | (.ok a, h') => f a h'
  | (.error e, h') => (.error e, h')
instance : Monad M where
  pure := pure
  bind := bind
end M

/-- `node._parent = p`. -/
def Heap.setPar (h : Heap) (c : Nat) (p : Option Nat) : Heap := { h with par := fun x => if x = c then p else h.par x }

/-- `node.children = cs`. -/
def Heap.setKids (h : Heap) (n : Nat) (cs : List Child) : Heap := { h with kids := fun x => if x = n then cs else h.kids x }

/-- The current list of children. -/
def kids (n : Nat) : M (List Child) := fun h => (.ok (h.kids n), h)

/-- Assign the list of children (the effect of the list methods that `Tree` delegates to, tree.py:146-174). -/
def setKids (n : Nat) (cs : List Child) : M Unit := fun h => (.ok (), h.setKids n cs)

/-- The current parent. -/
def parent (n : Nat) : M (Option Nat) := fun h => (.ok (h.par n), h)

/-- A `for` loop. -/
def forEach {α : Type} : List α → (α → M Unit) → M Unit
  | [], _ => M.pure ()
  | x :: xs, f => M.bind (f x) fun _ => forEach xs f

/-- `_setparent(child, _index, dry_run)` (tree.py:765-787). -/
def setparent (self c : Nat) (dry : Bool) : M Unit := fun h =>
  if (h.par c).isSome then (.error .value, h) else (.ok (), if dry then h else h.setPar c (some self))

/-- `_delparent(child, index)` (tree.py:752-763). -/
def delparent (self c i : Nat) : M Unit := fun h =>
  if (h.kids self)[i]? = some (.ref c) ∧ h.par c = some self then (.ok (), h.setPar c none) else (.error .assertion, h)

/-- `if isinstance(child, Tree): self._setparent(child, ...)`. -/
def adopt (self : Nat) (dry : Bool) : Child → M Unit
  | .leaf _ => M.pure ()
  | .ref c => setparent self c dry

/-- `if isinstance(self[i], Tree): self._delparent(self[i], i)`; `IndexError` if there is no such child. -/
def release (self i : Nat) : M Unit := fun h =>
  match (h.kids self)[i]? with
  | none => (.error .index, h)
  | some (.leaf _) => (.ok (), h)
  | some (.ref c) => delparent self c i h

/-- `ParentedTree.__init__` (tree.py:679-692). If the check in the first loop fails, the new object is unreachable and the heap is as before. -/
def new (label : Str) (cs : List Child) : M Nat := fun h =>
  let self := h.next
  let h1 : Heap := { (h.setKids self cs).setPar self none with next := h.next + 1, label := fun x => if x = self then label else h.label x }
  match forEach cs (adopt self true) h1 with
  | (.error e, _) => (.error e, h)
  | (.ok _, h2) => M.bind (forEach cs (adopt self false)) (fun _ => M.pure self) h2

/-- Negative indices (tree.py:802-805 and others): `if index < 0: index += len(self)`, then `IndexError` if still negative. -/
def index (len : Nat) (i : Int) : Option Nat :=
  let i := if i < 0 then i + len else i
  if i < 0 then none else some i.toNat

/-- `slice_bounds` (util.py:137-147), for slices without a step. -/
def sliceBounds (len : Nat) (start stop : Option Int) : Nat × Nat :=
  let start := start.getD 0
  let stop := stop.getD len
  let start := if start < 0 then max 0 (len + start) else start
  let stop := if stop < 0 then max 0 (len + stop) else stop
  let stop := if stop > 0 ∧ ¬ stop - 1 < len then (len : Int) else stop
  (min start stop |>.toNat, stop.toNat)

/-- The bounds that Python lists use for `xs[start:stop]` (assignment and deletion): both are cut off at the length, and an empty slice is at
`start`. -/
def pySlice (len : Nat) (start stop : Option Int) : Nat × Nat :=
  let adj (i : Int) : Nat := if i < 0 then (max 0 (len + i)).toNat else min i.toNat len
  let s := adj (start.getD 0)
  let e := adj (stop.getD len)
  (s, max s e)

/-- `__delitem__` with a slice (tree.py:793-800). -/
def delSlice (self : Nat) (start stop : Option Int) : M Unit :=
  M.bind (kids self) fun cs =>
  let b := sliceBounds cs.length start stop
  M.bind (forEach (List.range' b.1 (b.2 - b.1)) (release self)) fun _ =>
  let p := pySlice cs.length start stop
  setKids self (cs.take p.1 ++ cs.drop p.2)

/-- `__delitem__` with an integer (tree.py:801-809); also `pop` (tree.py:893-900), which returns the child in addition. -/
def pop (self : Nat) (i : Int) : M Child :=
  M.bind (kids self) fun cs =>
  match index cs.length i with
  | none => M.throw .index
  | some k =>
    M.bind (release self k) fun _ =>
    match cs[k]? with
    | none => M.throw .index
    | some c => M.bind (setKids self (cs.eraseIdx k)) fun _ => M.pure c

/-- `__setitem__` with a slice (tree.py:818-840). -/
def setSlice (self : Nat) (start stop : Option Int) (value : List Child) : M Unit :=
  M.bind (kids self) fun cs =>
  let b := sliceBounds cs.length start stop
  M.bind (forEach value (adopt self true)) fun _ =>
  M.bind (forEach (List.range' b.1 (b.2 - b.1)) (release self)) fun _ =>
  M.bind (forEach value (adopt self false)) fun _ =>
  let p := pySlice cs.length start stop
  setKids self (cs.take p.1 ++ value ++ cs.drop p.2)

/-- `__setitem__` with an integer (tree.py:841-855). -/
def setItem (self : Nat) (i : Int) (value : Child) : M Unit :=
  M.bind (kids self) fun cs =>
  match index cs.length i with
  | none => M.throw .index
  | some k =>
    match cs[k]? with
    | none => M.throw .index
    | some c =>
      if value = c then M.pure ()
      else
        M.bind (adopt self false value) fun _ =>
        M.bind (release self k) fun _ =>
        setKids self (cs.set k value)

/-- `append` (tree.py:863-866). -/
def append (self : Nat) (child : Child) : M Unit :=
  M.bind (adopt self false child) fun _ => M.bind (kids self) fun cs => setKids self (cs ++ [child])

/-- `extend` (tree.py:868-872). -/
def extend (self : Nat) (children : List Child) : M Unit := forEach children (append self)

/-- `insert` (tree.py:874-885). -/
def insert (self : Nat) (i : Int) (child : Child) : M Unit :=
  M.bind (kids self) fun cs =>
  let i := if i < 0 then i + cs.length else i
  let i := if i < 0 then 0 else i
  M.bind (adopt self false child) fun _ =>
  setKids self (cs.take i.toNat ++ child :: cs.drop i.toNat)

/-- `remove` (tree.py:902-908): `eq` says which children compare equal to the argument; `ValueError` if there is none. -/
def remove (self : Nat) (eq : Child → Bool) : M Unit :=
  M.bind (kids self) fun cs =>
  match cs.findIdx? eq with
  | none => M.throw .value
  | some k => M.bind (release self k) fun _ => setKids self (cs.eraseIdx k)

/-- `parent_index` (tree.py:698-711). -/
def parentIndex (self : Nat) : M (Option Nat) := fun h =>
  match h.par self with
  | none => (.ok none, h)
  | some p =>
    match (h.kids p).findIdx? (· = .ref self) with
    | some i => (.ok (some i), h)
    | none => (.error .value, h)

/-- `left_sibling` (tree.py:713-718). -/
def leftSibling (self : Nat) : M (Option Child) :=
  M.bind (parentIndex self) fun i? => M.bind (parent self) fun p? =>
  match p?, i? with
  | some p, some i => if 0 < i then M.bind (kids p) fun cs => M.pure cs[i - 1]? else M.pure none
  | _, _ => M.pure none

/-- `right_sibling` (tree.py:720-725). -/
def rightSibling (self : Nat) : M (Option Child) :=
  M.bind (parentIndex self) fun i? => M.bind (parent self) fun p? =>
  match p?, i? with
  | some p, some i => M.bind (kids p) fun cs => if i < cs.length - 1 then M.pure cs[i + 1]? else M.pure none
  | _, _ => M.pure none

/-- `detach` (tree.py:910-916); returns the node itself. -/
def detach (self : Nat) : M Child :=
  M.bind (parent self) fun p? =>
  match p? with
  | none => M.pure (.ref self)
  | some p => M.bind (parentIndex self) fun i? =>
    match i? with
    | none => M.throw .type
    | some i => pop p i

/-- `disown` (tree.py:918-922). -/
def disown (self : Nat) : M (List Child) :=
  M.bind (kids self) fun cs => M.bind (setSlice self none none []) fun _ => M.pure cs

/-- `spliceabove` (tree.py:924-930). -/
def spliceabove (self : Nat) (label : Str) : M Nat :=
  M.bind (parentIndex self) fun i? =>
  M.bind (parent self) fun p? =>
  M.bind (detach self) fun c =>
  M.bind (new label [c]) fun n =>
  match p?, i? with
  | some p, some i => M.bind (insert p i (.ref n)) fun _ => M.pure n
  | _, _ => M.throw .attribute

/-- `splicebelow` (tree.py:932-936). -/
def splicebelow (self : Nat) (label : Str) : M Nat :=
  M.bind (disown self) fun cs =>
  M.bind (new label cs) fun n =>
  M.bind (append self (.ref n)) fun _ => M.pure n

/-- `prune` (tree.py:938-942). -/
def prune (self : Nat) : M Unit :=
  M.bind (parentIndex self) fun i? =>
  M.bind (disown self) fun cs =>
  M.bind (parent self) fun p? =>
  match p?, i? with
  | some p, some i => setSlice p (some i) (some (i + 1)) cs
  | _, _ => M.throw .type

/-- `root` (tree.py:736-741), with a bound on the number of iterations. -/
def rootF (h : Heap) : Nat → Nat → Option Nat
  | 0, _ => none
  | f + 1, n => match h.par n with
    | none => some n
    | some p => rootF h f p

/-- `treeposition` (tree.py:727-734), with a bound on the depth of the recursion; `none` also for the exception of `parent_index`. -/
def positionF (h : Heap) : Nat → Nat → Option (List Nat)
  | 0, _ => none
  | f + 1, n => match h.par n with
    | none => some []
    | some p => match positionF h f p, (parentIndex n h).1 with
      | some pos, .ok (some i) => some (pos ++ [i])
      | _, _ => none

/-- `root[position]` (tree.py:196-205). -/
def getPos (h : Heap) : Nat → List Nat → Option Child
  | n, [] => some (.ref n)
  | n, i :: is => match (h.kids n)[i]? with
    | none => none
    | some (.ref c) => getPos h c is
    | some (.leaf w) => if is = [] then some (.leaf w) else none

/-! ### Specification -/

/-- The constituents in a list of children. -/
def refs (cs : List Child) : List Nat := cs.filterMap fun | .leaf _ => none | .ref n => some n

/-- Parent pointers and lists of children agree, and no object occurs twice. -/
structure Spec.Inv (h : Heap) : Prop where
  /-- a child has its parent as parent -/
  down : ∀ p c, c ∈ refs (h.kids p) → h.par c = some p
  /-- a node with a parent is a child of it -/
  up : ∀ p c, h.par c = some p → c ∈ refs (h.kids p)
  /-- no object is twice a child -/
  once : ∀ p, (refs (h.kids p)).Nodup
  /-- there is nothing beyond the objects that exist -/
  fresh : ∀ n, h.next ≤ n → h.kids n = [] ∧ h.par n = none

/-- The intended effect of all methods that change the children of a node: `r` children from position `k` are replaced by `V`, the parent pointers
of the former are cleared and those of the latter set. -/
def Spec.splice (h : Heap) (self k r : Nat) (V : List Child) : Heap :=
  { h with
    kids := fun n => if n = self then (h.kids self).take k ++ V ++ (h.kids self).drop (k + r) else h.kids n
    par := fun c => if c ∈ refs V then some self else if c ∈ refs (((h.kids self).drop k).take r) then none else h.par c }

/-- The trees in `V` can be added: none has a parent, and none occurs twice. -/
structure Spec.Addable (h : Heap) (V : List Child) : Prop where
  free : ∀ c ∈ refs V, h.par c = none
  once : (refs V).Nodup

/-! ### Lemmas -/

section
open Spec

@[simp] theorem refs_nil : refs [] = [] := rfl
@[simp] theorem refs_leaf (i : Nat) (cs) : refs (.leaf i :: cs) = refs cs := by simp [refs]
@[simp] theorem refs_ref (n : Nat) (cs) : refs (.ref n :: cs) = n :: refs cs := by simp [refs]
@[simp] theorem refs_append (a b : List Child) : refs (a ++ b) = refs a ++ refs b := by simp [refs]
theorem mem_refs {c : Nat} {cs : List Child} : c ∈ refs cs ↔ .ref c ∈ cs := by
  induction cs with
  | nil => simp
  | cons x xs ih => cases x <;> simp [ih]

theorem split3 {α : Type} (l : List α) (k r : Nat) : l = l.take k ++ (l.drop k).take r ++ l.drop (k + r) := by
  rw [List.append_assoc, ← List.drop_drop, List.take_append_drop, List.take_append_drop]

theorem splice_inv {h : Heap} (hi : Inv h) {self : Nat} (hs : self < h.next) (k r : Nat) {V : List Child} (hv : Addable h V)
    (hlt : ∀ c ∈ refs V, c < h.next) : Inv (splice h self k r V) := by
  obtain ⟨l, hl⟩ : ∃ l, l = h.kids self := ⟨_, rfl⟩
  have e := split3 l k r
  have hr := congrArg refs e
  simp only [refs_append] at hr
  have hn := hi.once self
  rw [← hl, hr, List.nodup_append, List.nodup_append] at hn
  obtain ⟨⟨n1, n2, d1⟩, n3, d2⟩ := hn
  have hpar : ∀ c, c ∈ refs l → h.par c = some self := fun c hc => hi.down self c (by rw [← hl]; exact hc)
  have vnot : ∀ c, c ∈ refs V → c ∉ refs l := fun c hc hm => by
    have := hpar c hm; rw [hv.free c hc] at this; cases this
  have mid : ∀ c, c ∈ refs ((l.drop k).take r) → c ∈ refs l := fun c hc => by rw [hr]; simp [hc]
  refine ⟨?_, ?_, ?_, ?_⟩
  · intro p c hc
    simp only [splice] at hc ⊢
    rw [← hl] at hc ⊢
    by_cases hp : p = self
    · subst hp
      simp only [if_true, refs_append, List.mem_append] at hc
      by_cases hcv : c ∈ refs V
      · simp [hcv]
      · rw [if_neg hcv]
        have : c ∉ refs ((l.drop k).take r) := by
          intro hm
          rcases hc with (h1 | h1) | h1
          · exact d1 c h1 c hm rfl
          · exact hcv h1
          · exact d2 c (by simp [hm]) c h1 rfl
        rw [if_neg this]
        refine hpar c ?_
        rw [hr]
        simp only [List.mem_append]
        tauto
    · rw [if_neg hp] at hc
      have hcp := hi.down p c hc
      have a : c ∉ refs V := fun hm => by rw [hv.free c hm] at hcp; cases hcp
      have b : c ∉ refs ((l.drop k).take r) := fun hm => by
        have := hpar c (mid c hm); rw [hcp] at this; exact hp (by simpa using this)
      rw [if_neg a, if_neg b]; exact hcp
  · intro p c hc
    simp only [splice] at hc ⊢
    rw [← hl] at hc ⊢
    split at hc
    · next hm =>
      have : self = p := by simpa using hc
      subst this
      simp [hm]
    · split at hc
      · cases hc
      · next h1 h2 =>
        have := hi.up p c hc
        split
        · next hp =>
          subst hp
          rw [← hl, hr] at this
          simp only [refs_append, List.mem_append] at this ⊢
          tauto
        · exact this
  · intro p
    simp only [splice]
    rw [← hl]
    split
    · simp only [refs_append]
      rw [List.nodup_append, List.nodup_append]
      refine ⟨⟨n1, hv.once, ?_⟩, n3, ?_⟩
      · intro a ha b hb e; subst e
        exact vnot a hb (by rw [hr]; simp [ha])
      · intro a ha b hb e; subst e
        rcases List.mem_append.1 ha with h1 | h1
        · exact d2 a (by simp [h1]) a hb rfl
        · exact vnot a h1 (by rw [hr]; simp [hb])
    · exact hi.once p
  · intro n hn
    simp only [splice] at hn ⊢
    have := hi.fresh n hn
    refine ⟨?_, ?_⟩
    · rw [if_neg (by omega)]; exact this.1
    · rw [if_neg (fun hm => by have := hlt n hm; omega)]
      split
      · rfl
      · exact this.2

theorem forEach_nil {α : Type} (f : α → M Unit) (h : Heap) : forEach [] f h = (.ok (), h) := rfl
theorem forEach_cons {α : Type} (x : α) (xs : List α) (f : α → M Unit) (h : Heap) :
    forEach (x :: xs) f h = M.bind (f x) (fun _ => forEach xs f) h := rfl
theorem bind_ok {α β : Type} {m : M α} {f : α → M β} {h h' : Heap} {a : α} (e : m h = (.ok a, h')) : M.bind m f h = f a h' := by
  simp [M.bind, e]
theorem bind_error {α β : Type} {m : M α} {f : α → M β} {h h' : Heap} {x : Err} (e : m h = (.error x, h')) : M.bind m f h = (.error x, h') := by
  simp [M.bind, e]

/-- The first loop over the new children: only a check. -/
theorem adopt_dry (self : Nat) (V : List Child) (h : Heap) :
    ((∀ c ∈ refs V, h.par c = none) → forEach V (adopt self true) h = (.ok (), h)) ∧
    ((∃ c ∈ refs V, h.par c ≠ none) → forEach V (adopt self true) h = (.error .value, h)) := by
  induction V with
  | nil => exact ⟨fun _ => rfl, by simp⟩
  | cons x V ih =>
    cases x with
    | leaf i => simpa [forEach_cons, M.bind, adopt, M.pure] using ih
    | ref c =>
      rw [forEach_cons]
      refine ⟨fun hv => ?_, fun hv => ?_⟩
      · have hc := hv c (by simp)
        rw [bind_ok (a := ()) (h' := h) (by simp [adopt, setparent, hc])]
        exact ih.1 fun d hd => hv d (by simp [hd])
      · by_cases hc : h.par c = none
        · rw [bind_ok (a := ()) (h' := h) (by simp [adopt, setparent, hc])]
          refine ih.2 ?_
          obtain ⟨d, hd, hne⟩ := hv
          rcases List.mem_cons.1 (by simpa using hd : d ∈ c :: refs V) with e | hm
          · subst e; exact absurd hc hne
          · exact ⟨d, hm, hne⟩
        · rw [bind_error (x := .value) (h' := h)]
          obtain ⟨p, hp⟩ := Option.ne_none_iff_exists'.1 hc
          simp [adopt, setparent, hp]

/-- Setting the parents of the new children. -/
def setPars (h : Heap) (self : Nat) (V : List Child) : Heap := { h with par := fun c => if c ∈ refs V then some self else h.par c }

theorem adopt_all (self : Nat) (V : List Child) (h : Heap) (hv : Addable h V) :
    forEach V (adopt self false) h = (.ok (), setPars h self V) := by
  induction V generalizing h with
  | nil => simp [forEach_nil, setPars]
  | cons x V ih =>
    cases x with
    | leaf i =>
      rw [forEach_cons, bind_ok (a := ()) (h' := h) (by simp [adopt, M.pure]), ih h ⟨by simpa using hv.free, by simpa using hv.once⟩]
      simp [setPars]
    | ref c =>
      have hc := hv.free c (by simp)
      have ho : c ∉ refs V ∧ (refs V).Nodup := by simpa using hv.once
      rw [forEach_cons, bind_ok (a := ()) (h' := h.setPar c (some self)) (by simp [adopt, setparent, hc]), ih]
      · simp only [setPars, Heap.setPar, refs_ref, List.mem_cons]
        congr 2
        funext d
        by_cases h1 : d = c
        · subst h1; simp [ho.1]
        · simp [h1]
      · refine ⟨fun d hd => ?_, ho.2⟩
        have : d ≠ c := fun e => ho.1 (e ▸ hd)
        simp only [Heap.setPar, if_neg this]
        exact hv.free d (by simp [hd])

/-- Clearing the parents of removed children. -/
def clearPars (h : Heap) (R : List Child) : Heap := { h with par := fun c => if c ∈ refs R then none else h.par c }

theorem release_ok {h : Heap} {self i : Nat} (hd : ∀ c, c ∈ refs (h.kids self) → h.par c = some self) {x : Child} (hx : (h.kids self)[i]? = some x) :
    release self i h = (.ok (), clearPars h [x]) := by
  unfold release
  rw [hx]
  cases x with
  | leaf w => simp [clearPars]
  | ref c =>
    have := hd c (mem_refs.2 (List.mem_of_getElem? hx))
    simp only [delparent]
    rw [if_pos ⟨hx, this⟩]
    simp [clearPars, Heap.setPar]

theorem release_all (self : Nat) (s n : Nat) (h : Heap) (hn : (refs (h.kids self)).Nodup) (hle : s + n ≤ (h.kids self).length)
    (hd : ∀ c, c ∈ refs ((h.kids self).drop s) → h.par c = some self) :
    forEach (List.range' s n) (release self) h = (.ok (), clearPars h (((h.kids self).drop s).take n)) := by
  induction n generalizing s h with
  | zero => simp [forEach_nil, clearPars]
  | succ n ih =>
    have hlt : s < (h.kids self).length := by omega
    have e1 : (h.kids self).drop s = (h.kids self)[s] :: (h.kids self).drop (s + 1) := List.drop_eq_getElem_cons hlt
    have hx : (h.kids self)[s]? = some (h.kids self)[s] := List.getElem?_eq_getElem hlt
    have nd : (refs ((h.kids self)[s] :: (h.kids self).drop (s + 1))).Nodup := by
      rw [← e1]
      exact hn.sublist (List.Sublist.filterMap _ (List.drop_sublist _ _))
    have hrel : release self s h = (.ok (), clearPars h [(h.kids self)[s]]) := by
      unfold release
      rw [hx]
      generalize (h.kids self)[s] = x at hx e1
      cases x with
      | leaf w => simp [clearPars]
      | ref c =>
        have := hd c (by rw [e1]; simp)
        simp only [delparent]
        rw [if_pos ⟨hx, this⟩]
        simp [clearPars, Heap.setPar]
    rw [List.range'_succ, forEach_cons, bind_ok hrel]
    have hk : (clearPars h [(h.kids self)[s]]).kids = h.kids := rfl
    rw [ih (s + 1) _ (by rw [hk]; exact hn) (by rw [hk]; omega)]
    · rw [hk, e1, List.take_succ_cons]
      simp only [clearPars]
      congr 2
      funext c
      generalize (h.kids self)[s] = x
      cases x with
      | leaf w => simp
      | ref d => by_cases h1 : c = d <;> simp [h1]
    · intro c hc
      rw [hk] at hc
      have := hd c (by rw [e1]; generalize (h.kids self)[s] = x; cases x <;> simp [hc])
      simp only [clearPars]
      rw [if_neg]
      · exact this
      · intro hm
        generalize (h.kids self)[s] = x at hm nd
        cases x with
        | leaf w => simp at hm
        | ref d =>
          simp at hm nd
          subst hm
          exact nd.1 hc

theorem setSlice_bounds (len : Nat) (start stop : Option Int) :
    let b := sliceBounds len start stop
    let p := pySlice len start stop
    b.1 ≤ b.2 ∧ b.2 ≤ len ∧ p.1 ≤ p.2 ∧ p.2 ≤ len ∧ b.2 - b.1 = p.2 - p.1 ∧ (p.1 < p.2 → b = p) := by
  simp only [sliceBounds, pySlice]
  generalize start.getD 0 = s
  generalize stop.getD (len : Int) = e
  refine ⟨?_, ?_, ?_, ?_, ?_, ?_⟩
  · split_ifs <;> omega
  · split_ifs <;> omega
  · split_ifs <;> omega
  · split_ifs <;> omega
  · split_ifs <;> omega
  · intro h
    rw [Prod.mk.injEq]
    split_ifs at h ⊢ <;> omega

theorem heap_ext {h h' : Heap} (h1 : h.next = h'.next) (h2 : h.label = h'.label) (h3 : ∀ n, h.kids n = h'.kids n) (h4 : ∀ n, h.par n = h'.par n) :
    h = h' := by
  cases h; cases h'
  simp only [Heap.mk.injEq]
  exact ⟨h1, h2, funext h3, funext h4⟩

/-! ### What the methods do -/

/-- **C15** `tree[start:stop] = value`: with trees that have no parent and do not occur twice, the slice is replaced and all parent pointers are
updated. If one of the new trees has a parent, `ValueError` and nothing changes. -/
theorem C15_setSlice {h : Heap} (hi : Inv h) (self : Nat) (start stop : Option Int) (V : List Child) :
    (Addable h V → setSlice self start stop V h =
      (.ok (), splice h self (pySlice (h.kids self).length start stop).1
        ((pySlice (h.kids self).length start stop).2 - (pySlice (h.kids self).length start stop).1) V)) ∧
    ((∃ c ∈ refs V, h.par c ≠ none) → setSlice self start stop V h = (.error .value, h)) := by
  unfold setSlice
  rw [bind_ok (m := kids self) (a := h.kids self) (h' := h) rfl]
  obtain ⟨b1, b2, b3, b4, b5, b6⟩ := setSlice_bounds (h.kids self).length start stop
  refine ⟨fun hv => ?_, fun hv => ?_⟩
  · rw [bind_ok ((adopt_dry self V h).1 hv.free),
      bind_ok (release_all self _ _ h (hi.once self) (by omega) fun c hc => hi.down self c
        (by rw [mem_refs] at hc ⊢; exact List.mem_of_mem_drop hc)),
      bind_ok (adopt_all self V _ ⟨fun c hc => by simp [clearPars, hv.free c hc], hv.once⟩)]
    simp only [setKids, Prod.mk.injEq, true_and]
    generalize hp : pySlice (h.kids self).length start stop = p at *
    generalize hb : sliceBounds (h.kids self).length start stop = b at *
    refine heap_ext rfl rfl (fun n => ?_) (fun c => ?_)
    · simp only [Heap.setKids, setPars, clearPars, splice]
      rw [show p.1 + (p.2 - p.1) = p.2 by omega]
    · simp only [Heap.setKids, setPars, clearPars, splice]
      rcases Nat.lt_or_ge p.1 p.2 with h1 | h1
      · rw [b6 h1]
      · rw [show b.2 - b.1 = 0 by omega, show p.2 - p.1 = 0 by omega]
        simp
  · rw [bind_error ((adopt_dry self V h).2 hv)]

/-- **C15** `del tree[start:stop]`. -/
theorem C15_delSlice {h : Heap} (hi : Inv h) (self : Nat) (start stop : Option Int) :
    delSlice self start stop h = (.ok (), splice h self (pySlice (h.kids self).length start stop).1
        ((pySlice (h.kids self).length start stop).2 - (pySlice (h.kids self).length start stop).1) []) := by
  unfold delSlice
  rw [bind_ok (m := kids self) (a := h.kids self) (h' := h) rfl]
  obtain ⟨b1, b2, b3, b4, b5, b6⟩ := setSlice_bounds (h.kids self).length start stop
  rw [bind_ok (release_all self _ _ h (hi.once self) (by omega) fun c hc => hi.down self c
        (by rw [mem_refs] at hc ⊢; exact List.mem_of_mem_drop hc))]
  simp only [setKids, Prod.mk.injEq, true_and]
  generalize hp : pySlice (h.kids self).length start stop = p at *
  generalize hb : sliceBounds (h.kids self).length start stop = b at *
  refine heap_ext rfl rfl (fun n => ?_) (fun c => ?_)
  · simp only [Heap.setKids, clearPars, splice]
    rw [show p.1 + (p.2 - p.1) = p.2 by omega]
    simp
  · simp only [Heap.setKids, clearPars, splice]
    rcases Nat.lt_or_ge p.1 p.2 with h1 | h1
    · rw [b6 h1]; simp
    · rw [show b.2 - b.1 = 0 by omega, show p.2 - p.1 = 0 by omega]
      simp

theorem take_one {l : List Child} {k : Nat} {c : Child} (h : l[k]? = some c) : (l.drop k).take 1 = [c] := by
  obtain ⟨hk, rfl⟩ := List.getElem?_eq_some_iff.1 h
  rw [List.drop_eq_getElem_cons hk]; rfl

theorem kill_one {h : Heap} (hi : Inv h) (self k : Nat) {c : Child} (hc : (h.kids self)[k]? = some c) :
    release self k h = (.ok (), clearPars h [c]) ∧
    (clearPars h [c]).setKids self ((h.kids self).eraseIdx k) = splice h self k 1 [] := by
  refine ⟨release_ok (fun d hd => hi.down self d hd) hc, heap_ext rfl rfl (fun n => ?_) (fun d => ?_)⟩
  · simp [Heap.setKids, clearPars, splice, List.eraseIdx_eq_take_drop_succ]
  · simp [Heap.setKids, clearPars, splice, take_one hc]

/-- **C15** `tree.pop(i)` and `del tree[i]`: removes the child at that position (negative positions count from the end), or `IndexError` and
nothing changes. -/
theorem C15_pop {h : Heap} (hi : Inv h) (self : Nat) (i : Int) :
    (∀ k c, index (h.kids self).length i = some k → (h.kids self)[k]? = some c → pop self i h = (.ok c, splice h self k 1 [])) ∧
    ((∀ k, index (h.kids self).length i = some k → (h.kids self)[k]? = none) → pop self i h = (.error .index, h)) := by
  unfold pop
  rw [bind_ok (m := kids self) (a := h.kids self) (h' := h) rfl]
  refine ⟨fun k c hk hc => ?_, fun hn => ?_⟩
  · obtain ⟨h1, h2⟩ := kill_one hi self k hc
    rw [hk]
    simp only
    rw [bind_ok h1, hc]
    simp only
    rw [bind_ok (m := setKids self _) (a := ()) (h' := splice h self k 1 []) (by rw [← h2]; rfl)]
    rfl
  · cases hk : index (h.kids self).length i with
    | none => rfl
    | some k =>
      simp only
      rw [bind_error (x := .index) (h' := h)]
      simp [release, hn k hk]

/-- **C15** `tree.remove(x)`: removes the first child that compares equal, or `ValueError` and nothing changes. -/
theorem C15_remove {h : Heap} (hi : Inv h) (self : Nat) (eq : Child → Bool) :
    (∀ k, (h.kids self).findIdx? eq = some k → remove self eq h = (.ok (), splice h self k 1 [])) ∧
    ((h.kids self).findIdx? eq = none → remove self eq h = (.error .value, h)) := by
  unfold remove
  rw [bind_ok (m := kids self) (a := h.kids self) (h' := h) rfl]
  refine ⟨fun k hk => ?_, fun hn => ?_⟩
  · have hlt : k < (h.kids self).length := (List.findIdx?_eq_some_iff_getElem.1 hk).1
    obtain ⟨h1, h2⟩ := kill_one hi self k (List.getElem?_eq_getElem hlt)
    rw [hk]
    simp only
    rw [bind_ok h1, ← h2]; rfl
  · rw [hn]; rfl

/-- Adding one child. -/
theorem adopt_one (h : Heap) (self : Nat) (x : Child) :
    (Addable h [x] → adopt self false x h = (.ok (), setPars h self [x])) ∧ (¬Addable h [x] → adopt self false x h = (.error .value, h)) := by
  cases x with
  | leaf i => exact ⟨fun _ => by simp [adopt, M.pure, setPars], fun hn => absurd ⟨by simp, by simp⟩ hn⟩
  | ref c =>
    refine ⟨fun hv => ?_, fun hn => ?_⟩
    · have := hv.free c (by simp)
      simp [adopt, setparent, this, setPars, Heap.setPar]
    · have : h.par c ≠ none := fun e => hn ⟨by simp [e], by simp⟩
      obtain ⟨p, hp⟩ := Option.ne_none_iff_exists'.1 this
      simp [adopt, setparent, hp]

/-- **C15** `tree[i] = value`: nothing happens if the child there is `value` already; otherwise it is replaced, or an exception is raised
and nothing changes (`IndexError`, or `ValueError` if the new tree has a parent). -/
theorem C15_setItem {h : Heap} (hi : Inv h) (self : Nat) (i : Int) (value : Child) :
    (∀ k c, index (h.kids self).length i = some k → (h.kids self)[k]? = some c →
      (value = c → setItem self i value h = (.ok (), h)) ∧
      (value ≠ c → Addable h [value] → setItem self i value h = (.ok (), splice h self k 1 [value])) ∧
      (value ≠ c → ¬Addable h [value] → setItem self i value h = (.error .value, h))) ∧
    ((∀ k, index (h.kids self).length i = some k → (h.kids self)[k]? = none) → setItem self i value h = (.error .index, h)) := by
  unfold setItem
  rw [bind_ok (m := kids self) (a := h.kids self) (h' := h) rfl]
  refine ⟨fun k c hk hc => ?_, fun hn => ?_⟩
  · rw [hk]
    simp only [hc]
    refine ⟨fun e => by rw [if_pos e]; rfl, fun e hv => ?_, fun e hv => ?_⟩
    · rw [if_neg e, bind_ok ((adopt_one h self value).1 hv)]
      have hrel : release self k (setPars h self [value]) = (.ok (), clearPars (setPars h self [value]) [c]) := by
        refine release_ok (fun d hd => ?_) hc
        simp only [setPars] at hd ⊢
        split
        · rfl
        · exact hi.down self d hd
      rw [bind_ok hrel]
      simp only [setKids, Prod.mk.injEq, true_and]
      have hne : ∀ d, d ∈ refs [value] → d ∈ refs [c] → False := by
        intro d h1 h2
        have := hi.down self d (mem_refs.2 (by rw [mem_refs] at h2; rw [List.mem_singleton] at h2; rw [h2]; exact List.mem_of_getElem? hc))
        rw [hv.free d h1] at this; cases this
      have hlt : k < (h.kids self).length := (List.getElem?_eq_some_iff.1 hc).1
      refine heap_ext rfl rfl (fun n => ?_) (fun d => ?_)
      · simp only [Heap.setKids, clearPars, setPars, splice, List.set_eq_take_append_cons_drop, if_pos hlt]
        simp
      · simp only [Heap.setKids, clearPars, setPars, splice, take_one hc]
        by_cases h1 : d ∈ refs [value]
        · rw [if_neg (fun h2 => hne d h1 h2), if_pos h1, if_pos h1]
        · rw [if_neg h1, if_neg h1]
    · rw [if_neg e, bind_error ((adopt_one h self value).2 hv)]
  · cases hk : index (h.kids self).length i with
    | none => rfl
    | some k => simp only [hn k hk]; rfl

/-- **C15** `tree.append(child)`: adds the child at the end, or `ValueError` if it has a parent, and nothing changes. -/
theorem C15_append (h : Heap) (self : Nat) (child : Child) :
    (Addable h [child] → append self child h = (.ok (), splice h self (h.kids self).length 0 [child])) ∧
    (¬Addable h [child] → append self child h = (.error .value, h)) := by
  unfold append
  refine ⟨fun hv => ?_, fun hv => by rw [bind_error ((adopt_one h self child).2 hv)]⟩
  rw [bind_ok ((adopt_one h self child).1 hv), bind_ok (m := kids self) (a := h.kids self) (h' := setPars h self [child]) rfl]
  simp only [setKids, Prod.mk.injEq, true_and]
  refine heap_ext rfl rfl (fun n => ?_) (fun d => ?_)
  · simp [Heap.setKids, setPars, splice]
  · simp [Heap.setKids, setPars, splice]

/-- The position where `list.insert` inserts: negative positions count from the end, and positions outside the list are cut off. -/
def Spec.insertAt (len : Nat) (i : Int) : Nat := if i < 0 then (max 0 (i + len)).toNat else min i.toNat len

/-- **C15** `tree.insert(i, child)`: adds the child at the place where `list.insert` would, or `ValueError` if it has a parent, and nothing
changes. -/
theorem C15_insert (h : Heap) (self : Nat) (i : Int) (child : Child) :
    (Addable h [child] → insert self i child h = (.ok (), splice h self (Spec.insertAt (h.kids self).length i) 0 [child])) ∧
    (¬Addable h [child] → insert self i child h = (.error .value, h)) := by
  unfold insert
  rw [bind_ok (m := kids self) (a := h.kids self) (h' := h) rfl]
  refine ⟨fun hv => ?_, fun hv => bind_error ((adopt_one h self child).2 hv)⟩
  refine (bind_ok ((adopt_one h self child).1 hv)).trans ?_
  simp only [setKids, Prod.mk.injEq, true_and]
  refine heap_ext rfl rfl (fun n => ?_) (fun d => ?_)
  · simp only [Heap.setKids, setPars, splice, Nat.add_zero]
    split
    · obtain ⟨l, hl⟩ : ∃ l, l = h.kids self := ⟨_, rfl⟩
      rw [← hl]
      obtain ⟨m, hm⟩ : ∃ m : Nat, m = (if (if i < 0 then i + (l.length : Int) else i) < 0 then 0 else if i < 0 then i + (l.length : Int) else i).toNat := ⟨_, rfl⟩
      rw [← hm]
      have e : Spec.insertAt l.length i = min m l.length := by
        unfold Spec.insertAt
        split_ifs at hm ⊢ <;> omega
      rw [e]
      rcases Nat.le_total m l.length with h1 | h1
      · rw [Nat.min_eq_left h1]; simp
      · rw [Nat.min_eq_right h1, List.take_of_length_le h1, List.drop_of_length_le h1]; simp
    · rfl
  · simp [Heap.setKids, setPars, splice]

/-- A new object without children. -/
def alloc (h : Heap) (label : Str) : Heap :=
  { h with next := h.next + 1, label := fun x => if x = h.next then label else h.label x }

theorem alloc_inv {h : Heap} (hi : Inv h) (label : Str) : Inv (alloc h label) :=
  ⟨hi.down, hi.up, hi.once, fun n hn => hi.fresh n (by simp [alloc] at hn; omega)⟩

/-- **C15** `ParentedTree(label, children)`: a new node with these children, or `ValueError` if one has a parent, and nothing changes. -/
theorem C15_new {h : Heap} (hi : Inv h) (label : Str) (V : List Child) :
    (Addable h V → (∀ c ∈ refs V, c < h.next) → new label V h = (.ok h.next, splice (alloc h label) h.next 0 0 V)) ∧
    ((∃ c ∈ refs V, c < h.next ∧ h.par c ≠ none) → new label V h = (.error .value, h)) := by
  obtain ⟨f1, f2⟩ := hi.fresh h.next (Nat.le_refl _)
  unfold new
  simp only
  generalize hh : ({ (h.setKids h.next V).setPar h.next none with next := h.next + 1, label := fun x => if x = h.next then label else h.label x } : Heap) = h1
  have hpar : ∀ c, h1.par c = h.par c := by
    intro c
    rw [← hh]
    simp only [Heap.setPar, Heap.setKids]
    split
    · next e => rw [e, f2]
    · rfl
  refine ⟨fun hv hlt => ?_, fun ⟨c, hc, _, hp⟩ => ?_⟩
  · rw [(adopt_dry h.next V h1).1 (fun c hc => by rw [hpar]; exact hv.free c hc)]
    simp only
    rw [bind_ok (adopt_all h.next V h1 ⟨fun c hc => by rw [hpar]; exact hv.free c hc, hv.once⟩)]
    simp only [M.pure, Prod.mk.injEq, true_and]
    refine heap_ext ?_ ?_ (fun n => ?_) (fun c => ?_)
    · rw [← hh]; rfl
    · rw [← hh]; rfl
    · rw [← hh]
      simp only [setPars, Heap.setKids, Heap.setPar, splice, alloc]
      split <;> simp [f1]
    · simp only [setPars, splice, alloc, f1, hpar]
      simp
  · rw [(adopt_dry h.next V h1).2 ⟨c, hc, by rw [hpar]; exact hp⟩]

theorem find_ref {l : List Child} {c : Nat} (hc : c ∈ refs l) : ∃ k, l.findIdx? (· = .ref c) = some k ∧ l[k]? = some (.ref c) := by
  have hm : Child.ref c ∈ l := mem_refs.1 hc
  cases hk : l.findIdx? (· = .ref c) with
  | none =>
    rw [List.findIdx?_eq_none_iff] at hk
    have := hk _ hm
    simp at this
  | some k =>
    obtain ⟨h1, h2, _⟩ := List.findIdx?_eq_some_iff_getElem.1 hk
    simp only [decide_eq_true_eq] at h2
    exact ⟨k, rfl, by rw [List.getElem?_eq_getElem h1, h2]⟩

/-- **C15** `parent_index` does not fail, and gives the position of the node among the children of its parent. -/
theorem C15_parentIndex {h : Heap} (hi : Inv h) (n : Nat) :
    (h.par n = none → parentIndex n h = (.ok none, h)) ∧
    (∀ p, h.par n = some p → ∃ k, parentIndex n h = (.ok (some k), h) ∧ (h.kids p)[k]? = some (.ref n) ∧
      ∀ k', (h.kids p)[k']? = some (.ref n) → k' = k) := by
  refine ⟨fun e => by simp [parentIndex, e], fun p e => ?_⟩
  obtain ⟨k, h1, h2⟩ := find_ref (hi.up p n e)
  refine ⟨k, by simp [parentIndex, e, h1], h2, fun k' hk' => ?_⟩
  have hn := hi.once p
  have key : ∀ (l : List Child) (a b : Nat), (refs l).Nodup → l[a]? = some (.ref n) → l[b]? = some (.ref n) → a = b := by
    intro l
    induction l with
    | nil => intro a b _ h; simp at h
    | cons x l ih =>
      intro a b hnd ha hb
      have hnd' : (refs l).Nodup := by cases x <;> simp at hnd <;> [exact hnd; exact hnd.2]
      cases a with
      | zero =>
        cases b with
        | zero => rfl
        | succ b =>
          simp at ha hb
          subst ha
          simp at hnd
          exact absurd (mem_refs.2 (List.mem_of_getElem? hb)) hnd.1
      | succ a =>
        cases b with
        | zero =>
          simp at ha hb
          subst hb
          simp at hnd
          exact absurd (mem_refs.2 (List.mem_of_getElem? ha)) hnd.1
        | succ b =>
          simp at ha hb
          rw [ih a b hnd' ha hb]
  exact key _ _ _ hn hk' h2

/-- **C15** `left_sibling` and `right_sibling` are the neighbours among the children of the parent. -/
theorem C15_siblings {h : Heap} (hi : Inv h) (n : Nat) :
    (h.par n = none → leftSibling n h = (.ok none, h) ∧ rightSibling n h = (.ok none, h)) ∧
    (∀ p A B, h.par n = some p → h.kids p = A ++ .ref n :: B → leftSibling n h = (.ok A.getLast?, h) ∧ rightSibling n h = (.ok B.head?, h)) := by
  refine ⟨fun e => ?_, fun p A B e hk => ?_⟩
  · have hp := (C15_parentIndex hi n).1 e
    unfold leftSibling rightSibling
    rw [bind_ok hp, bind_ok hp, bind_ok (m := parent n) (a := h.par n) (h' := h) rfl, bind_ok (m := parent n) (a := h.par n) (h' := h) rfl, e]
    exact ⟨rfl, rfl⟩
  · obtain ⟨k, hp, hk2, hu⟩ := (C15_parentIndex hi n).2 p e
    have hA : A.length = k := hu _ (by rw [hk]; simp)
    unfold leftSibling rightSibling
    rw [bind_ok hp, bind_ok hp, bind_ok (m := parent n) (a := h.par n) (h' := h) rfl, bind_ok (m := parent n) (a := h.par n) (h' := h) rfl, e]
    simp only
    constructor
    · split
      · rw [bind_ok (m := kids p) (a := h.kids p) (h' := h) rfl, hk, List.getElem?_append_left (by omega), List.getLast?_eq_getElem?, hA]
        rfl
      · have : A = [] := List.length_eq_zero_iff.1 (by omega)
        rw [this]; rfl
    · rw [bind_ok (m := kids p) (a := h.kids p) (h' := h) rfl, hk]
      have hB : (A ++ Child.ref n :: B)[k + 1]? = B.head? := by
        rw [List.getElem?_append_right (by omega), show k + 1 - A.length = 0 + 1 by omega, List.getElem?_cons_succ]
        cases B <;> rfl
      split
      · rw [hB]; rfl
      · next hlt =>
        simp at hlt
        have : B = [] := List.length_eq_zero_iff.1 (by omega)
        rw [this]; rfl

/-- **C15** `detach` removes the node from its parent, if any, and returns it. -/
theorem C15_detach {h : Heap} (hi : Inv h) (n : Nat) :
    (h.par n = none → detach n h = (.ok (.ref n), h)) ∧
    (∀ p k, h.par n = some p → (h.kids p)[k]? = some (.ref n) → detach n h = (.ok (.ref n), splice h p k 1 [])) := by
  unfold detach
  rw [bind_ok (m := parent n) (a := h.par n) (h' := h) rfl]
  refine ⟨fun e => by rw [e]; rfl, fun p k e hk => ?_⟩
  obtain ⟨k', hp, hk2, hu⟩ := (C15_parentIndex hi n).2 p e
  have := hu k hk; subst this
  rw [e]
  simp only
  rw [bind_ok hp]
  simp only
  refine (C15_pop hi p k).1 k (.ref n) ?_ hk
  simp [index, show ¬((k : Int) < 0) by omega]

theorem pySlice_all (len : Nat) : pySlice len none none = (0, len) := by
  simp only [pySlice, Option.getD_none]
  split_ifs <;> simp <;> omega

/-- **C15** `disown` removes all children and returns them. -/
theorem C15_disown {h : Heap} (hi : Inv h) (n : Nat) : disown n h = (.ok (h.kids n), splice h n 0 (h.kids n).length []) := by
  unfold disown
  rw [bind_ok (m := kids n) (a := h.kids n) (h' := h) rfl,
    bind_ok ((C15_setSlice hi n none none []).1 ⟨by simp, by simp⟩), pySlice_all]
  simp [M.pure]

/-- **C15** `extend`: adds all children at the end. -/
theorem C15_extend (V : List Child) (self : Nat) : ∀ (h : Heap), Addable h V →
    extend self V h = (.ok (), splice h self (h.kids self).length 0 V) := by
  induction V with
  | nil =>
    intro h _
    show (_, _) = _
    rw [Prod.mk.injEq]
    refine ⟨rfl, heap_ext rfl rfl (fun n => ?_) (fun d => ?_)⟩
    · simp only [splice]; split <;> simp_all
    · simp [splice]
  | cons x V ih =>
    intro h hv
    have hx : Addable h [x] := by
      cases x with
      | leaf i => exact ⟨by simp, by simp⟩
      | ref c => exact ⟨by simpa using hv.free c (by simp), by simp⟩
    show M.bind (append self x) (fun _ => extend self V) h = _
    rw [bind_ok ((C15_append h self x).1 hx), ih]
    · rw [Prod.mk.injEq]
      refine ⟨rfl, heap_ext rfl rfl (fun n => ?_) (fun d => ?_)⟩
      · simp only [splice, if_true, List.take_length, Nat.add_zero, List.drop_length, List.append_nil]
        split <;> simp
      · simp only [splice]
        cases x <;> simp
        rename_i c
        by_cases h1 : d = c <;> simp [h1]
    · cases x with
      | leaf i => exact ⟨fun c hc => by simpa [splice] using hv.free c (by simpa using hc), by simpa using hv.once⟩
      | ref c =>
        have ho : c ∉ refs V ∧ (refs V).Nodup := by simpa using hv.once
        refine ⟨fun d hd => ?_, ho.2⟩
        have : d ≠ c := fun e => ho.1 (e ▸ hd)
        simpa [splice, this] using hv.free d (by simp [hd])

theorem kid_lt {h : Heap} (hi : Inv h) {p c : Nat} (hc : c ∈ refs (h.kids p)) : c < h.next := by
  rcases Nat.lt_or_ge c h.next with h1 | h1
  · exact h1
  · have := hi.down p c hc; rw [(hi.fresh c h1).2] at this; cases this

theorem parent_lt {h : Heap} (hi : Inv h) {p c : Nat} (hc : h.par c = some p) : p < h.next := by
  rcases Nat.lt_or_ge p h.next with h1 | h1
  · exact h1
  · have := hi.up p c hc; rw [(hi.fresh p h1).1] at this; simp at this

theorem child_lt {h : Heap} (hi : Inv h) {p c : Nat} (hc : h.par c = some p) : c < h.next := kid_lt hi (hi.up p c hc)

/-- **C15** `spliceabove`: the new node takes the place of the node among the children of its parent, and has the node as its only child. -/
theorem C15_spliceabove {h : Heap} (hi : Inv h) {n p k : Nat} (label : Str) (e : h.par n = some p) (hk : (h.kids p)[k]? = some (.ref n)) :
    spliceabove n label h = (.ok h.next,
      { next := h.next + 1
        label := fun x => if x = h.next then label else h.label x
        kids := fun x => if x = p then (h.kids p).set k (.ref h.next) else if x = h.next then [.ref n] else h.kids x
        par := fun x => if x = n then some h.next else if x = h.next then some p else h.par x }) := by
  have hlt := child_lt hi e
  have hplt := parent_lt hi e
  have hklt : k < (h.kids p).length := (List.getElem?_eq_some_iff.1 hk).1
  obtain ⟨k', hp, _, hu⟩ := (C15_parentIndex hi n).2 p e
  have := hu k hk; subst this
  have hi1 : Inv (splice h p k 1 []) := splice_inv hi hplt k 1 ⟨by simp, by simp⟩ (by simp)
  have hnp : (splice h p k 1 []).par n = none := by simp [splice, take_one hk]
  unfold spliceabove
  rw [bind_ok hp, bind_ok (m := parent n) (a := h.par n) (h' := h) rfl, e, bind_ok ((C15_detach hi n).2 p k e hk),
    bind_ok ((C15_new hi1 label [.ref n]).1 ⟨by simpa using hnp, by simp⟩ (by simpa [splice] using hlt))]
  simp only
  have ha : Addable (splice (alloc (splice h p k 1 []) label) (splice h p k 1 []).next 0 0 [.ref n]) [.ref (splice h p k 1 []).next] := by
    refine ⟨?_, by simp⟩
    simp only [refs_ref, refs_nil, List.mem_singleton, forall_eq]
    have h1 : ¬ h.next = n := by omega
    have h2 : h.par h.next = none := (hi.fresh _ (Nat.le_refl _)).2
    simp [splice, alloc, h1, h2, take_one hk]
  rw [bind_ok ((C15_insert _ p k (.ref (splice h p k 1 []).next)).1 ha)]
  show (_, _) = _
  rw [Prod.mk.injEq]
  refine ⟨rfl, heap_ext rfl rfl (fun x => ?_) (fun x => ?_)⟩
  · have hpn : p ≠ h.next := by omega
    have hin : Spec.insertAt ((h.kids p).take k ++ (h.kids p).drop (k + 1)).length (k : Int) = k := by
      unfold Spec.insertAt
      rw [if_neg (by omega)]
      simp; omega
    by_cases hx : x = p
    · subst hx
      simp only [splice, alloc, if_true, if_neg hpn, List.append_nil, hin, Nat.add_zero]
      rw [List.take_append_of_le_length (by simp; omega), List.drop_append_of_le_length (by simp; omega), List.take_take, Nat.min_self,
        List.drop_of_length_le (l := (h.kids x).take k) (by rw [List.length_take]; exact Nat.min_le_left _ _), List.set_eq_take_append_cons_drop, if_pos hklt]
      simp
    · simp only [splice, alloc, if_neg hx]
      have := (hi.fresh h.next (Nat.le_refl _)).1
      split
      · simp [Ne.symm hpn, this]
      · rfl
  · simp only [splice, alloc, take_one hk, refs_ref, refs_nil, List.mem_singleton, List.not_mem_nil, if_false, List.take_zero]
    by_cases h1 : x = h.next
    · have : x ≠ n := by omega
      simp [h1]; omega
    · simp only [if_neg h1]
      by_cases h2 : x = n <;> simp [h2]

/-- **C15** `splicebelow`: the new node becomes the only child of the node, and takes over its children. -/
theorem C15_splicebelow {h : Heap} (hi : Inv h) {n : Nat} (hn : n < h.next) (label : Str) :
    splicebelow n label h = (.ok h.next,
      { next := h.next + 1
        label := fun x => if x = h.next then label else h.label x
        kids := fun x => if x = n then [.ref h.next] else if x = h.next then h.kids n else h.kids x
        par := fun x => if x = h.next then some n else if x ∈ refs (h.kids n) then some h.next else h.par x }) := by
  have hi1 : Inv (splice h n 0 (h.kids n).length []) := splice_inv hi hn _ _ ⟨by simp, by simp⟩ (by simp)
  have hne : n ≠ h.next := by omega
  have hnk : h.next ∉ refs (h.kids n) := fun hm => absurd (kid_lt hi hm) (by omega)
  obtain ⟨f1, f2⟩ := hi.fresh h.next (Nat.le_refl _)
  unfold splicebelow
  rw [bind_ok (C15_disown hi n), bind_ok ((C15_new hi1 label (h.kids n)).1
    ⟨fun c hc => by simp [splice, hc], hi.once n⟩ (fun c hc => kid_lt hi hc))]
  have ha : Addable (splice (alloc (splice h n 0 (h.kids n).length []) label) (splice h n 0 (h.kids n).length []).next 0 0 (h.kids n))
      [.ref (splice h n 0 (h.kids n).length []).next] := by
    refine ⟨?_, by simp⟩
    simp only [refs_ref, refs_nil, List.mem_singleton, forall_eq]
    simp [splice, alloc, hnk, f2]
  rw [bind_ok ((C15_append _ n _).1 ha)]
  show (_, _) = _
  rw [Prod.mk.injEq]
  refine ⟨rfl, heap_ext rfl rfl (fun x => ?_) (fun x => ?_)⟩
  · simp only [splice, alloc]
    by_cases h1 : x = n
    · simp [h1, hne]
    · simp only [if_neg h1, if_neg (Ne.symm hne)]
      split
      · simp [f1]
      · rfl
  · simp only [splice, alloc]
    by_cases h1 : x = h.next
    · simp [h1]
    · simp [h1]
      split <;> rfl

theorem pySlice_one (len k : Nat) (hk : k < len) : pySlice len (some (k : Int)) (some ((k : Int) + 1)) = (k, k + 1) := by
  simp only [pySlice, Option.getD_some]
  rw [Prod.mk.injEq]
  refine ⟨?_, ?_⟩ <;> split_ifs <;> omega

/-- **C15** `prune`: the children of the node take its place among the children of its parent; the node is left without parent and children. -/
theorem C15_prune {h : Heap} (hi : Inv h) {n p : Nat} {A B : List Child} (e : h.par n = some p) (hne : p ≠ n)
    (hk : h.kids p = A ++ .ref n :: B) :
    prune n h = (.ok (),
      { h with
        kids := fun x => if x = n then [] else if x = p then A ++ h.kids n ++ B else h.kids x
        par := fun x => if x = n then none else if x ∈ refs (h.kids n) then some p else h.par x }) := by
  have hlt := child_lt hi e
  have hplt := parent_lt hi e
  obtain ⟨k, hp, hk2, hu⟩ := (C15_parentIndex hi n).2 p e
  have hA : A.length = k := hu _ (by rw [hk]; simp)
  have hklt : k < (h.kids p).length := (List.getElem?_eq_some_iff.1 hk2).1
  have hi1 : Inv (splice h n 0 (h.kids n).length []) := splice_inv hi hlt _ _ ⟨by simp, by simp⟩ (by simp)
  have hnn : n ∉ refs (h.kids n) := fun hm => by
    have := hi.down n n hm; rw [e] at this; exact hne (by simpa using this)
  unfold prune
  rw [bind_ok hp, bind_ok (C15_disown hi n), bind_ok (m := parent n) (a := some p) (h' := splice h n 0 (h.kids n).length []) (by
    simp [parent, splice, hnn, e])]
  simp only
  have hkp : (splice h n 0 (h.kids n).length []).kids p = h.kids p := by simp [splice, hne]
  rw [(C15_setSlice hi1 p (some (k : Int)) (some ((k : Int) + 1)) (h.kids n)).1 ⟨fun c hc => by simp [splice, hc], hi.once n⟩, hkp,
    pySlice_one _ _ hklt]
  rw [Prod.mk.injEq]
  refine ⟨rfl, heap_ext rfl rfl (fun x => ?_) (fun x => ?_)⟩
  · show (if x = p then _ else _) = _
    rw [hkp]
    by_cases h1 : x = p
    · subst h1
      simp only [if_true, if_neg hne]
      rw [hk, ← hA]
      simp
    · rw [if_neg h1]
      simp only [if_neg h1, splice]
      split <;> simp
  · show (if _ then _ else _) = _
    rw [hkp]
    have : ((h.kids p).drop k).take (k + 1 - k) = [.ref n] := by
      rw [show k + 1 - k = 1 by omega, take_one hk2]
    simp only [this, refs_ref, refs_nil, List.mem_singleton, splice, List.not_mem_nil, if_false, List.drop_zero, List.take_length]
    by_cases h1 : x = n
    · simp [h1, hnn]
    · simp only [if_neg h1]
      split <;> rfl

/-! ### Histories -/

/-- The methods, with their arguments. -/
inductive Op where
  | new (label : Str) (V : List Child)
  | append (self : Nat) (c : Child)
  | extend (self : Nat) (V : List Child)
  | insert (self : Nat) (i : Int) (c : Child)
  | pop (self : Nat) (i : Int)
  | delSlice (self : Nat) (start stop : Option Int)
  | setItem (self : Nat) (i : Int) (c : Child)
  | setSlice (self : Nat) (start stop : Option Int) (V : List Child)
  | remove (self : Nat) (eq : Child → Bool)
  | detach (self : Nat)
  | disown (self : Nat)
  | spliceabove (self : Nat) (label : Str)
  | splicebelow (self : Nat) (label : Str)
  | prune (self : Nat)

/-- The heap after a call, whether it returned or raised an exception. -/
def Op.run : Op → Heap → Heap
  | .new l V, h => (Parented.new l V h).2
  | .append s c, h => (Parented.append s c h).2
  | .extend s V, h => (Parented.extend s V h).2
  | .insert s i c, h => (Parented.insert s i c h).2
  | .pop s i, h => (Parented.pop s i h).2
  | .delSlice s a b, h => (Parented.delSlice s a b h).2
  | .setItem s i c, h => (Parented.setItem s i c h).2
  | .setSlice s a b V, h => (Parented.setSlice s a b V h).2
  | .remove s eq, h => (Parented.remove s eq h).2
  | .detach s, h => (Parented.detach s h).2
  | .disown s, h => (Parented.disown s h).2
  | .spliceabove s l, h => (Parented.spliceabove s l h).2
  | .splicebelow s l, h => (Parented.splicebelow s l h).2
  | .prune s, h => (Parented.prune s h).2

/-- The object whose method is called. -/
def Op.target : Op → Option Nat
  | .new _ _ => none
  | .append s _ | .extend s _ | .insert s _ _ | .pop s _ | .delSlice s _ _ | .setItem s _ _ | .setSlice s _ _ _ | .remove s _ | .detach s | .disown s
  | .spliceabove s _ | .splicebelow s _ | .prune s => some s

/-- The children given as argument. -/
def Op.args : Op → List Child
  | .new _ V | .extend _ V | .setSlice _ _ _ V => V
  | .append _ c | .insert _ _ c | .setItem _ _ c => [c]
  | _ => []

/-- The objects mentioned exist, and no tree is given twice (except to `extend`). -/
structure Op.Ok (h : Heap) (op : Op) : Prop where
  target : ∀ s ∈ op.target, s < h.next
  args : ∀ c ∈ refs op.args, c < h.next
  once : (∀ s V, op ≠ .extend s V) → (refs op.args).Nodup

theorem not_addable {h : Heap} {V : List Child} (ho : (refs V).Nodup) (hn : ¬Addable h V) : ∃ c ∈ refs V, h.par c ≠ none := by
  by_contra hc
  refine hn ⟨fun c hm => ?_, ho⟩
  by_contra h1
  exact hc ⟨c, hm, h1⟩

theorem append_inv {h : Heap} (hi : Inv h) {s : Nat} (hs : s < h.next) {c : Child} (hc : ∀ x ∈ refs [c], x < h.next) :
    Inv (append s c h).2 ∧ (append s c h).2.next = h.next := by
  by_cases hv : Addable h [c]
  · rw [(C15_append h s c).1 hv]; exact ⟨splice_inv hi hs _ _ hv hc, rfl⟩
  · rw [(C15_append h s c).2 hv]; exact ⟨hi, rfl⟩

theorem extend_inv (s : Nat) (V : List Child) : ∀ {h : Heap}, Inv h → s < h.next → (∀ c ∈ refs V, c < h.next) → Inv (extend s V h).2 := by
  induction V with
  | nil => intro h hi _ _; exact hi
  | cons x V ih =>
    intro h hi hs hc
    have h1 := append_inv hi hs (c := x) (fun c hm => hc c (by cases x <;> simp at hm ⊢; exact Or.inl hm))
    show Inv (M.bind (append s x) (fun _ => extend s V) h).2
    rcases he : append s x h with ⟨r, h'⟩
    rw [he] at h1
    cases r with
    | error y => rw [bind_error he]; exact h1.1
    | ok y =>
      rw [bind_ok he]
      refine ih h1.1 ?_ fun c hm => ?_
      · have := h1.2; simp only at this; omega
      · have := h1.2; simp only at this; have := hc c (by cases x <;> simp [hm]); omega

theorem new_inv {h : Heap} (hi : Inv h) (l : Str) {V : List Child} (hlt : ∀ c ∈ refs V, c < h.next) (ho : (refs V).Nodup) :
    Inv (new l V h).2 := by
  by_cases hv : Addable h V
  · rw [(C15_new hi l V).1 hv hlt]
    refine splice_inv (alloc_inv hi l) (by simp [alloc]) _ _ ⟨hv.free, hv.once⟩ fun c hc => ?_
    have := hlt c hc
    simp only [alloc]; omega
  · obtain ⟨c, hc, hp⟩ := not_addable ho hv
    rw [(C15_new hi l V).2 ⟨c, hc, hlt c hc, hp⟩]; exact hi

theorem insert_inv {h : Heap} (hi : Inv h) {s : Nat} (hs : s < h.next) (i : Int) {c : Child} (hc : ∀ x ∈ refs [c], x < h.next) :
    Inv (insert s i c h).2 := by
  by_cases hv : Addable h [c]
  · rw [(C15_insert h s i c).1 hv]; exact splice_inv hi hs _ _ hv hc
  · rw [(C15_insert h s i c).2 hv]; exact hi

theorem setSlice_inv {h : Heap} (hi : Inv h) {s : Nat} (hs : s < h.next) (a b : Option Int) {V : List Child} (hlt : ∀ c ∈ refs V, c < h.next)
    (ho : (refs V).Nodup) : Inv (setSlice s a b V h).2 := by
  by_cases hv : Addable h V
  · rw [(C15_setSlice hi s a b V).1 hv]; exact splice_inv hi hs _ _ hv hlt
  · rw [(C15_setSlice hi s a b V).2 (not_addable ho hv)]; exact hi

theorem detach_inv {h : Heap} (hi : Inv h) (s : Nat) : Inv (detach s h).2 := by
  cases e : h.par s with
  | none => rw [(C15_detach hi s).1 e]; exact hi
  | some p =>
    obtain ⟨k, _, hk, _⟩ := (C15_parentIndex hi s).2 p e
    rw [(C15_detach hi s).2 p k e hk]
    exact splice_inv hi (parent_lt hi e) _ _ ⟨by simp, by simp⟩ (by simp)

/-- **C15** Every method, whether it returns or raises, leaves parent pointers and children in agreement. -/
theorem C15_step {h : Heap} (hi : Inv h) (op : Op) (ok : op.Ok h) : Inv (op.run h) := by
  have nil : Addable h [] := ⟨by simp, by simp⟩
  cases op with
  | new l V => exact new_inv hi l ok.args (ok.once (by simp))
  | append s c => exact (append_inv hi (ok.target s rfl) ok.args).1
  | extend s V => exact extend_inv s V hi (ok.target s rfl) ok.args
  | insert s i c => exact insert_inv hi (ok.target s rfl) i ok.args
  | pop s i =>
    have hs := ok.target s rfl
    show Inv (pop s i h).2
    by_cases hk : ∃ k c, index (h.kids s).length i = some k ∧ (h.kids s)[k]? = some c
    · obtain ⟨k, c, h1, h2⟩ := hk
      rw [(C15_pop hi s i).1 k c h1 h2]
      exact splice_inv hi hs _ _ nil (by simp)
    · rw [(C15_pop hi s i).2]
      · exact hi
      · intro k h1
        cases h2 : (h.kids s)[k]? with
        | none => rfl
        | some c => exact absurd ⟨k, c, h1, h2⟩ hk
  | delSlice s a b =>
    show Inv (delSlice s a b h).2
    rw [C15_delSlice hi]
    exact splice_inv hi (ok.target s rfl) _ _ nil (by simp)
  | setItem s i v =>
    have hs := ok.target s rfl
    show Inv (setItem s i v h).2
    by_cases hk : ∃ k c, index (h.kids s).length i = some k ∧ (h.kids s)[k]? = some c
    · obtain ⟨k, c, h1, h2⟩ := hk
      obtain ⟨r1, r2, r3⟩ := (C15_setItem hi s i v).1 k c h1 h2
      by_cases hc : v = c
      · rw [r1 hc]; exact hi
      · by_cases hv : Addable h [v]
        · rw [r2 hc hv]; exact splice_inv hi hs _ _ hv ok.args
        · rw [r3 hc hv]; exact hi
    · rw [(C15_setItem hi s i v).2]
      · exact hi
      · intro k h1
        cases h2 : (h.kids s)[k]? with
        | none => rfl
        | some c => exact absurd ⟨k, c, h1, h2⟩ hk
  | setSlice s a b V => exact setSlice_inv hi (ok.target s rfl) a b ok.args (ok.once (by simp))
  | remove s eq =>
    show Inv (remove s eq h).2
    cases hf : (h.kids s).findIdx? eq with
    | none => rw [(C15_remove hi s eq).2 hf]; exact hi
    | some k => rw [(C15_remove hi s eq).1 k hf]; exact splice_inv hi (ok.target s rfl) _ _ nil (by simp)
  | detach s => exact detach_inv hi s
  | disown s =>
    show Inv (disown s h).2
    rw [C15_disown hi]
    exact splice_inv hi (ok.target s rfl) _ _ nil (by simp)
  | spliceabove s l =>
    have hs := ok.target s rfl
    show Inv (spliceabove s l h).2
    cases e : h.par s with
    | none =>
      unfold spliceabove
      rw [bind_ok ((C15_parentIndex hi s).1 e), bind_ok (m := parent s) (a := h.par s) (h' := h) rfl, bind_ok ((C15_detach hi s).1 e),
        bind_ok ((C15_new hi l [.ref s]).1 ⟨by simpa using e, by simp⟩ (by simpa using hs)), e]
      have := new_inv hi l (V := [.ref s]) (by simpa using hs) (by simp)
      rw [(C15_new hi l [.ref s]).1 ⟨by simpa using e, by simp⟩ (by simpa using hs)] at this
      exact this
    | some p =>
      obtain ⟨k, hp, hk, _⟩ := (C15_parentIndex hi s).2 p e
      have hd := detach_inv hi s
      rw [(C15_detach hi s).2 p k e hk] at hd
      have ha : Addable (splice h p k 1 []) [.ref s] := ⟨by simp [splice, take_one hk], by simp⟩
      have hl : ∀ c ∈ refs [.ref s], c < (splice h p k 1 []).next := by simpa [splice] using hs
      have hn := new_inv hd l (V := [.ref s]) hl (by simp)
      unfold spliceabove
      rw [bind_ok hp, bind_ok (m := parent s) (a := h.par s) (h' := h) rfl, bind_ok ((C15_detach hi s).2 p k e hk),
        bind_ok ((C15_new hd l [.ref s]).1 ha hl), e]
      rw [(C15_new hd l [.ref s]).1 ha hl] at hn
      simp only at hn ⊢
      have := insert_inv hn (s := p) (by have := parent_lt hi e; simp only [splice, alloc]; omega) (k : Int)
        (c := .ref (splice h p k 1 []).next) (by simp [splice, alloc])
      generalize insert p (k : Int) (.ref (splice h p k 1 []).next) = m at this ⊢
      generalize splice (alloc (splice h p k 1 []) l) (splice h p k 1 []).next 0 0 [.ref s] = h1 at this ⊢
      rcases he : m h1 with ⟨r, h'⟩
      rw [he] at this
      cases r with
      | error y => rw [bind_error he]; exact this
      | ok y => rw [bind_ok he]; exact this
  | splicebelow s l =>
    have hs := ok.target s rfl
    show Inv (splicebelow s l h).2
    have hi1 : Inv (splice h s 0 (h.kids s).length []) := splice_inv hi hs _ _ nil (by simp)
    have hn := new_inv hi1 l (V := h.kids s) (fun c hc => kid_lt hi hc) (hi.once s)
    unfold splicebelow
    rw [bind_ok (C15_disown hi s)]
    have en := (C15_new hi1 l (h.kids s)).1 ⟨fun c hc => by simp [splice, hc], hi.once s⟩ (fun c hc => kid_lt hi hc)
    rw [bind_ok en]
    rw [en] at hn
    have := (append_inv hn (s := s) (by simp only [splice, alloc]; omega) (c := .ref (splice h s 0 (h.kids s).length []).next)
      (by simp [splice, alloc])).1
    generalize append s (.ref (splice h s 0 (h.kids s).length []).next) = m at this ⊢
    generalize (splice (alloc (splice h s 0 (h.kids s).length []) l) (splice h s 0 (h.kids s).length []).next 0 0 (h.kids s)) = h1 at this ⊢
    rcases he : m h1 with ⟨r, h'⟩
    rw [he] at this
    cases r with
    | error y => rw [bind_error he]; exact this
    | ok y => rw [bind_ok he]; exact this
  | prune s =>
    have hs := ok.target s rfl
    show Inv (prune s h).2
    have hi1 : Inv (splice h s 0 (h.kids s).length []) := splice_inv hi hs _ _ nil (by simp)
    obtain ⟨i?, hp⟩ : ∃ i?, parentIndex s h = (.ok i?, h) := by
      cases e : h.par s with
      | none => exact ⟨_, (C15_parentIndex hi s).1 e⟩
      | some p => obtain ⟨k, hp, _⟩ := (C15_parentIndex hi s).2 p e; exact ⟨_, hp⟩
    unfold prune
    rw [bind_ok hp, bind_ok (C15_disown hi s), bind_ok (m := parent s) (a := (splice h s 0 (h.kids s).length []).par s)
      (h' := splice h s 0 (h.kids s).length []) rfl]
    cases e : (splice h s 0 (h.kids s).length []).par s with
    | none => exact hi1
    | some p =>
      cases i? with
      | none => exact hi1
      | some k => exact setSlice_inv hi1 (parent_lt hi1 e) _ _ (fun c hc => kid_lt hi hc) (hi.once s)

/-- No objects. -/
def Heap.empty : Heap := ⟨0, fun _ => [], fun _ => [], fun _ => none⟩

/-- A sequence of calls from an empty heap. -/
inductive Spec.Reachable : Heap → Prop where
  | start : Reachable .empty
  | step {h : Heap} (op : Op) : Reachable h → op.Ok h → Reachable (op.run h)

/-- **C15** After any sequence of calls, including calls that raised exceptions: `c.parent is p` exactly when `c` is one of the children of `p`,
and no tree is twice a child. -/
theorem C15_history {h : Heap} (hr : Reachable h) :
    (∀ p c, h.par c = some p ↔ .ref c ∈ h.kids p) ∧ ∀ p, (refs (h.kids p)).Nodup := by
  have hi : Inv h := by
    induction hr with
    | start => exact ⟨by simp [Heap.empty], by simp [Heap.empty], by simp [Heap.empty], by simp [Heap.empty]⟩
    | step op _ ok ih => exact C15_step ih op ok
  exact ⟨fun p c => ⟨fun h1 => mem_refs.1 (hi.up p c h1), fun h1 => hi.down p c (mem_refs.2 h1)⟩, hi.once⟩

/-! ### Cycles, `root` and `treeposition` -/

/-- `x` is `c` or a descendant of `c`. -/
inductive Spec.Below (h : Heap) (c : Nat) : Nat → Prop where
  | self : Below h c c
  | child {x y : Nat} : h.par x = some y → Below h c y → Below h c x

/-- Following parent pointers ends. -/
def Spec.Acyclic (h : Heap) : Prop := ∃ rank : Nat → Nat, ∀ a b, h.par a = some b → rank b < rank a

theorem splice_acyclic {h : Heap} (ha : Acyclic h) {self : Nat} (k r : Nat) {V : List Child} (hs : ∀ c ∈ refs V, ¬Below h c self) :
    Acyclic (splice h self k r V) := by
  obtain ⟨rank, hr⟩ := ha
  classical
  refine ⟨fun x => if ∃ c ∈ refs V, Below h c x then rank x + rank self + 1 else rank x, fun a b hab => ?_⟩
  simp only [splice] at hab
  split at hab
  · next hm =>
    have : self = b := by simpa using hab
    subst this
    have e1 : ∃ c ∈ refs V, Below h c a := ⟨a, hm, Spec.Below.self⟩
    have e2 : ¬∃ c ∈ refs V, Below h c self := fun ⟨c, hc, hb⟩ => hs c hc hb
    beta_reduce
    rw [if_pos e1, if_neg e2]
    omega
  · split at hab
    · cases hab
    · next hm _ =>
      have hlt := hr a b hab
      have iff : (∃ c ∈ refs V, Below h c a) ↔ (∃ c ∈ refs V, Below h c b) := by
        constructor
        · rintro ⟨c, hc, hb⟩
          cases hb with
          | self => exact absurd hc hm
          | child h1 h2 => rw [hab] at h1; cases h1; exact ⟨c, hc, h2⟩
        · rintro ⟨c, hc, hb⟩; exact ⟨c, hc, .child hab hb⟩
      by_cases hb : ∃ c ∈ refs V, Below h c b
      · simp only [iff, if_pos hb]; omega
      · simp only [iff, if_neg hb]; exact hlt

/-- None of the trees given as argument contains the object to which it is added. -/
def Op.Safe (h : Heap) (op : Op) : Prop := ∀ s ∈ op.target, ∀ c ∈ refs op.args, ¬Below h c s

theorem below_alloc (h : Heap) (l : Str) (c x : Nat) : Below (alloc h l) c x ↔ Below h c x := by
  constructor
  · intro hb; induction hb with
    | self => exact .self
    | child h1 _ ih => exact .child h1 ih
  · intro hb; induction hb with
    | self => exact .self
    | child h1 _ ih => exact .child h1 ih

/-- A node without parent is below itself only. -/
theorem below_root {h : Heap} {c x : Nat} (hx : h.par x = none) (hb : Below h c x) : c = x := by
  cases hb with
  | self => rfl
  | child h1 _ => rw [hx] at h1; cases h1

theorem below_trans {h : Heap} {a b c : Nat} (h1 : Below h a b) (h2 : Below h b c) : Below h a c := by
  induction h2 with
  | self => exact h1
  | child e _ ih => exact .child e ih

theorem not_below_child {h : Heap} (ha : Acyclic h) {c p : Nat} (e : h.par c = some p) : ¬Below h c p := by
  obtain ⟨rank, hr⟩ := ha
  have key : ∀ x, Below h c x → rank c ≤ rank x := by
    intro x hb
    induction hb with
    | self => exact Nat.le_refl _
    | child e _ ih => have := hr _ _ e; omega
  intro hb
  have := key p hb
  have := hr c p e
  omega

/-- Parent pointers after removing children: paths can only get shorter. -/
theorem below_splice_nil {h : Heap} {s k r c x : Nat} (hb : Below (splice h s k r []) c x) : Below h c x := by
  induction hb with
  | self => exact .self
  | child h1 _ ih =>
    simp only [splice, refs_nil, List.not_mem_nil, if_false] at h1
    split at h1
    · cases h1
    · exact .child h1 ih

theorem new_acyclic {h : Heap} (hi : Inv h) (ha : Acyclic h) (l : Str) {V : List Child} (hlt : ∀ c ∈ refs V, c < h.next) (ho : (refs V).Nodup) :
    Acyclic (new l V h).2 := by
  by_cases hv : Addable h V
  · rw [(C15_new hi l V).1 hv hlt]
    refine splice_acyclic (h := alloc h l) ha _ _ fun c hc hb => ?_
    rw [below_alloc] at hb
    have := below_root (hi.fresh h.next (Nat.le_refl _)).2 hb
    have := hlt c hc
    omega
  · obtain ⟨c, hc, hp⟩ := not_addable ho hv
    rw [(C15_new hi l V).2 ⟨c, hc, hlt c hc, hp⟩]; exact ha

theorem append_acyclic {h : Heap} (ha : Acyclic h) {s : Nat} {c : Child} (hs : ∀ x ∈ refs [c], ¬Below h x s) :
    Acyclic (append s c h).2 := by
  by_cases hv : Addable h [c]
  · rw [(C15_append h s c).1 hv]; exact splice_acyclic ha _ _ hs
  · rw [(C15_append h s c).2 hv]; exact ha

/-- Adding other trees to `s` does not put `s` below another root. -/
theorem below_splice {h : Heap} {s k r c x : Nat} {V : List Child} (hx : ¬∃ d ∈ refs V, Below h d x)
    (hb : Below (splice h s k r V) c x) : Below h c x := by
  induction hb with
  | self => exact .self
  | @child x y h1 _ ih =>
    simp only [splice] at h1
    split at h1
    · next hm => exact absurd ⟨x, hm, .self⟩ hx
    · split at h1
      · cases h1
      · refine .child h1 (ih fun ⟨d, hd, hb⟩ => hx ⟨d, hd, .child h1 hb⟩)

theorem extend_acyclic (s : Nat) (V : List Child) : ∀ {h : Heap}, Acyclic h → (∀ c ∈ refs V, ¬Below h c s) → Acyclic (extend s V h).2 := by
  induction V with
  | nil => intro h hi _; exact hi
  | cons x V ih =>
    intro h ha hs
    have hx : ∀ c ∈ refs [x], ¬Below h c s := fun c hm => hs c (by cases x <;> simp at hm ⊢; exact Or.inl hm)
    have h1 := append_acyclic ha hx
    show Acyclic (M.bind (append s x) (fun _ => extend s V) h).2
    by_cases hv : Addable h [x]
    · rw [bind_ok ((C15_append h s x).1 hv)]
      refine ih (splice_acyclic ha _ _ hx) fun c hc hb => ?_
      exact hs c (by cases x <;> simp [hc]) (below_splice (fun ⟨d, hd, hb⟩ => hx d hd hb) hb)
    · rw [bind_error ((C15_append h s x).2 hv)]; exact ha

theorem setSlice_acyclic {h : Heap} (hi : Inv h) (ha : Acyclic h) {s : Nat} (a b : Option Int) {V : List Child} 
    (ho : (refs V).Nodup) (hs : ∀ c ∈ refs V, ¬Below h c s) : Acyclic (setSlice s a b V h).2 := by
  by_cases hv : Addable h V
  · rw [(C15_setSlice hi s a b V).1 hv]; exact splice_acyclic ha _ _ hs
  · rw [(C15_setSlice hi s a b V).2 (not_addable ho hv)]; exact ha

theorem detach_acyclic {h : Heap} (hi : Inv h) (ha : Acyclic h) (s : Nat) : Acyclic (detach s h).2 := by
  cases e : h.par s with
  | none => rw [(C15_detach hi s).1 e]; exact ha
  | some p =>
    obtain ⟨k, _, hk, _⟩ := (C15_parentIndex hi s).2 p e
    rw [(C15_detach hi s).2 p k e hk]
    exact splice_acyclic ha _ _ (by simp)

/-- **C15** No method makes a cycle, unless a tree is added to itself or to one of its own descendants. -/
theorem C15_acyclic {h : Heap} (hi : Inv h) (ha : Acyclic h) (op : Op) (ok : op.Ok h) (safe : op.Safe h) : Acyclic (op.run h) := by
  cases op with
  | new l V => exact new_acyclic hi ha l ok.args (ok.once (by simp))
  | append s c => exact append_acyclic ha (safe s rfl)
  | extend s V => exact extend_acyclic s V ha (safe s rfl)
  | insert s i c =>
    show Acyclic (insert s i c h).2
    by_cases hv : Addable h [c]
    · rw [(C15_insert h s i c).1 hv]; exact splice_acyclic ha _ _ (safe s rfl)
    · rw [(C15_insert h s i c).2 hv]; exact ha
  | pop s i =>
    show Acyclic (pop s i h).2
    by_cases hk : ∃ k c, index (h.kids s).length i = some k ∧ (h.kids s)[k]? = some c
    · obtain ⟨k, c, h1, h2⟩ := hk
      rw [(C15_pop hi s i).1 k c h1 h2]
      exact splice_acyclic ha _ _ (by simp)
    · rw [(C15_pop hi s i).2]
      · exact ha
      · intro k h1
        cases h2 : (h.kids s)[k]? with
        | none => rfl
        | some c => exact absurd ⟨k, c, h1, h2⟩ hk
  | delSlice s a b =>
    show Acyclic (delSlice s a b h).2
    rw [C15_delSlice hi]
    exact splice_acyclic ha _ _ (by simp)
  | setItem s i v =>
    show Acyclic (setItem s i v h).2
    by_cases hk : ∃ k c, index (h.kids s).length i = some k ∧ (h.kids s)[k]? = some c
    · obtain ⟨k, c, h1, h2⟩ := hk
      obtain ⟨r1, r2, r3⟩ := (C15_setItem hi s i v).1 k c h1 h2
      by_cases hc : v = c
      · rw [r1 hc]; exact ha
      · by_cases hv : Addable h [v]
        · rw [r2 hc hv]; exact splice_acyclic ha _ _ (safe s rfl)
        · rw [r3 hc hv]; exact ha
    · rw [(C15_setItem hi s i v).2]
      · exact ha
      · intro k h1
        cases h2 : (h.kids s)[k]? with
        | none => rfl
        | some c => exact absurd ⟨k, c, h1, h2⟩ hk
  | setSlice s a b V => exact setSlice_acyclic hi ha a b (ok.once (by simp)) (safe s rfl)
  | remove s eq =>
    show Acyclic (remove s eq h).2
    cases hf : (h.kids s).findIdx? eq with
    | none => rw [(C15_remove hi s eq).2 hf]; exact ha
    | some k => rw [(C15_remove hi s eq).1 k hf]; exact splice_acyclic ha _ _ (by simp)
  | detach s => exact detach_acyclic hi ha s
  | disown s =>
    show Acyclic (disown s h).2
    rw [C15_disown hi]
    exact splice_acyclic ha _ _ (by simp)
  | spliceabove s l =>
    have hs := ok.target s rfl
    show Acyclic (spliceabove s l h).2
    cases e : h.par s with
    | none =>
      unfold spliceabove
      rw [bind_ok ((C15_parentIndex hi s).1 e), bind_ok (m := parent s) (a := h.par s) (h' := h) rfl, bind_ok ((C15_detach hi s).1 e),
        bind_ok ((C15_new hi l [.ref s]).1 ⟨by simpa using e, by simp⟩ (by simpa using hs)), e]
      have := new_acyclic hi ha l (V := [.ref s]) (by simpa using hs) (by simp)
      rw [(C15_new hi l [.ref s]).1 ⟨by simpa using e, by simp⟩ (by simpa using hs)] at this
      exact this
    | some p =>
      obtain ⟨k, hp, hk, _⟩ := (C15_parentIndex hi s).2 p e
      rw [C15_spliceabove hi l e hk]
      obtain ⟨rank, hr⟩ := ha
      have hplt := parent_lt hi e
      refine ⟨fun x => if x = h.next then 2 * rank p + 1 else 2 * rank x, fun a b hab => ?_⟩
      simp only at hab ⊢
      split at hab
      · next h1 =>
        have h2 := hr s p e
        have : h.next = b := by simpa using hab
        subst this
        rw [if_pos rfl, if_neg (by omega), h1]; omega
      · split at hab
        · next h1 =>
          have : p = b := by simpa using hab
          subst this
          rw [if_pos h1, if_neg (by omega)]; omega
        · next h1 h2 =>
          have := parent_lt hi hab
          have := hr a b hab
          rw [if_neg h2, if_neg (by omega)]; omega
  | splicebelow s l =>
    have hs := ok.target s rfl
    show Acyclic (splicebelow s l h).2
    rw [C15_splicebelow hi hs]
    obtain ⟨rank, hr⟩ := ha
    refine ⟨fun x => if x = h.next then 2 * rank s + 1 else 2 * rank x, fun a b hab => ?_⟩
    simp only at hab ⊢
    split at hab
    · next h1 =>
      have : s = b := by simpa using hab
      subst this
      rw [if_pos h1, if_neg (by omega)]; omega
    · split at hab
      · next h1 h2 =>
        have h3 := hr a s (hi.down s a h2)
        have : h.next = b := by simpa using hab
        subst this
        rw [if_pos rfl, if_neg h1]; omega
      · next h1 h2 =>
        have := parent_lt hi hab
        have := hr a b hab
        rw [if_neg h1, if_neg (by omega)]; omega
  | prune s =>
    have hs := ok.target s rfl
    show Acyclic (prune s h).2
    cases e : h.par s with
    | none =>
      unfold prune
      rw [bind_ok ((C15_parentIndex hi s).1 e), bind_ok (C15_disown hi s), bind_ok (m := parent s) (a := (splice h s 0 (h.kids s).length []).par s)
        (h' := splice h s 0 (h.kids s).length []) rfl]
      have : (splice h s 0 (h.kids s).length []).par s = none := by simp [splice, e]
      rw [this]
      exact splice_acyclic ha _ _ (by simp)
    | some p =>
      obtain ⟨rank, hr⟩ := ha
      have hlt := hr s p e
      have hne : p ≠ s := fun h1 => by rw [h1] at hlt; omega
      obtain ⟨A, B, hk⟩ := List.append_of_mem (mem_refs.1 (hi.up p s e))
      rw [C15_prune hi e hne hk]
      refine ⟨rank, fun a b hab => ?_⟩
      simp only at hab
      split at hab
      · cases hab
      · split at hab
        · next h2 =>
          have h3 := hr a s (hi.down s a h2)
          have : p = b := by simpa using hab
          subst this
          omega
        · exact hr a b hab

theorem root_aux {h : Heap} (hi : Inv h) {rank : Nat → Nat} (hr : ∀ a b, h.par a = some b → rank b < rank a) :
    ∀ (f n : Nat), rank n < f → ∃ r pos, (∀ g, f ≤ g → rootF h g n = some r ∧ positionF h g n = some pos) ∧ h.par r = none ∧
      Below h r n ∧ ∀ is, getPos h r (pos ++ is) = getPos h n is := by
  intro f
  induction f with
  | zero => intro n hn; omega
  | succ f ih =>
    intro n hn
    cases e : h.par n with
    | none =>
      refine ⟨n, [], fun g hg => ?_, e, .self, fun is => rfl⟩
      obtain ⟨g, rfl⟩ : ∃ g', g = g' + 1 := ⟨g - 1, by omega⟩
      exact ⟨by rw [rootF, e], by rw [positionF, e]⟩
    | some p =>
      obtain ⟨r, pos, h1, h2, h3, h4⟩ := ih p (by have := hr n p e; omega)
      obtain ⟨k, hp, hk, _⟩ := (C15_parentIndex hi n).2 p e
      refine ⟨r, pos ++ [k], fun g hg => ?_, h2, .child e h3, fun is => ?_⟩
      · obtain ⟨g, rfl⟩ : ∃ g', g = g' + 1 := ⟨g - 1, by omega⟩
        obtain ⟨a, b⟩ := h1 g (by omega)
        refine ⟨by rw [rootF, e]; exact a, ?_⟩
        rw [positionF, e]
        simp only
        rw [b, hp]
      · rw [List.append_assoc, h4, List.singleton_append, getPos, hk]

/-- **C15** Without cycles, `root` and `treeposition` return: `root` is an ancestor (or the node itself) without parent, and
`tree.root[tree.treeposition] is tree`. -/
theorem C15_root {h : Heap} (hi : Inv h) (ha : Acyclic h) (n : Nat) :
    ∃ f r pos, (∀ g, f ≤ g → rootF h g n = some r ∧ positionF h g n = some pos) ∧ h.par r = none ∧ Below h r n ∧
      getPos h r pos = some (.ref n) := by
  obtain ⟨rank, hr⟩ := ha
  obtain ⟨r, pos, h1, h2, h3, h4⟩ := root_aux hi hr (rank n + 1) n (Nat.lt_succ_self _)
  refine ⟨rank n + 1, r, pos, h1, h2, h3, ?_⟩
  have := h4 []
  rw [List.append_nil] at this
  rw [this]; rfl

/-- A sequence of calls that never adds a tree to itself or to one of its descendants. -/
inductive Spec.SafelyReachable : Heap → Prop where
  | start : SafelyReachable .empty
  | step {h : Heap} (op : Op) : SafelyReachable h → op.Ok h → op.Safe h → SafelyReachable (op.run h)

theorem safely_reachable {h : Heap} (hr : SafelyReachable h) : Inv h ∧ Acyclic h := by
  induction hr with
  | start => exact ⟨⟨by simp [Heap.empty], by simp [Heap.empty], by simp [Heap.empty], by simp [Heap.empty]⟩, ⟨fun _ => 0, by simp [Heap.empty]⟩⟩
  | step op _ ok safe ih => exact ⟨C15_step ih.1 op ok, C15_acyclic ih.1 ih.2 op ok safe⟩

/-- **C15** After any sequence of calls that never adds a tree to itself or to one of its descendants, including calls that raised exceptions,
`root` and `treeposition` return, and `tree.root[tree.treeposition] is tree`. -/
theorem C15_history_root {h : Heap} (hr : SafelyReachable h) (n : Nat) :
    ∃ f r pos, (∀ g, f ≤ g → rootF h g n = some r ∧ positionF h g n = some pos) ∧ h.par r = none ∧ Below h r n ∧
      getPos h r pos = some (.ref n) :=
  C15_root (safely_reachable hr).1 (safely_reachable hr).2 n

/-! ### Disagreements -/

/-- **C15** (disagreement) "Any attempt to reuse a single ParentedTree as a child of more than one parent (or as multiple children of the same
parent) will cause a ValueError": it does, but the attempt to construct a tree with the same child twice leaves the child with a parent that
nobody has, so that it cannot be added anywhere. -/
theorem C15_new_twice (h : Heap) (l : Str) (c : Nat) (hc : c < h.next) (hp : h.par c = none) :
    ∃ h', new l [.ref c, .ref c] h = (.error .value, h') ∧ h'.par c = some h.next ∧ ∀ s, append s (.ref c) h' = (.error .value, h') := by
  have hne : c ≠ h.next := by omega
  refine ⟨{ ((h.setKids h.next [.ref c, .ref c]).setPar h.next none).setPar c (some h.next) with
      next := h.next + 1, label := fun x => if x = h.next then l else h.label x }, ?_, ?_, fun s => (C15_append _ s (.ref c)).2 ?_⟩
  · simp [new, forEach, M.bind, M.pure, adopt, setparent, Heap.setPar, Heap.setKids, hp, hne]
  · simp [Heap.setPar]
  · intro ha
    have := ha.free c (by simp)
    simp [Heap.setPar] at this

/-- **C15** (disagreement) Slice assignment with the same tree twice raises `ValueError` after the children that were to be replaced have lost
their parent pointers: they are still children of the node. -/
theorem C15_setSlice_twice {h : Heap} (hi : Inv h) (s c : Nat) (hp : h.par c = none) :
    ∃ h', setSlice s none none [.ref c, .ref c] h = (.error .value, h') ∧ h'.kids = h.kids ∧ h'.par c = some s ∧
      ∀ d ∈ refs (h.kids s), h'.par d = none := by
  refine ⟨(clearPars h (h.kids s)).setPar c (some s), ?_, rfl, by simp [Heap.setPar], fun d hd => ?_⟩
  · have hb : sliceBounds (h.kids s).length none none = (0, (h.kids s).length) := by
      simp only [sliceBounds, Option.getD_none]
      rw [Prod.mk.injEq]
      refine ⟨?_, ?_⟩ <;> split_ifs <;> omega
    unfold setSlice
    rw [bind_ok (m := kids s) (a := h.kids s) (h' := h) rfl, bind_ok ((adopt_dry s _ h).1 (by simpa using hp)), hb,
      bind_ok (release_all s _ _ h (hi.once s) (by simp) fun d hd => hi.down s d (by simpa using hd))]
    refine bind_error ?_
    simp [forEach, M.bind, adopt, setparent, Heap.setPar, clearPars, hp]
  · have : d ≠ c := fun e => by
      have := hi.down s d hd; rw [e, hp] at this; cases this
    simp [Heap.setPar, this, clearPars, hd]

/-- **C15** (disagreement) The comment in slice assignment says that it supports reversing the children of a node; this raises `ValueError`. -/
theorem C15_reverse {h : Heap} (hi : Inv h) (s : Nat) (hs : refs (h.kids s) ≠ []) :
    setSlice s none none (h.kids s).reverse h = (.error .value, h) := by
  refine (C15_setSlice hi s none none _).2 ?_
  obtain ⟨c, hc⟩ := List.exists_mem_of_ne_nil _ hs
  refine ⟨c, ?_, ?_⟩
  · rw [mem_refs] at hc ⊢; simpa using hc
  · rw [hi.down s c hc]; simp

/-- **C15** (disagreement) Nothing prevents adding a tree to itself: `tree.append(tree)` on a tree without parent succeeds, and after that `root`
does not return. -/
theorem C15_append_self (h : Heap) (s : Nat) (hp : h.par s = none) :
    ∃ h', append s (.ref s) h = (.ok (), h') ∧ ∀ f, rootF h' f s = none := by
  refine ⟨_, (C15_append h s (.ref s)).1 ⟨by simpa using hp, by simp⟩, fun f => ?_⟩
  induction f with
  | zero => rfl
  | succ f ih =>
    rw [rootF]
    simpa [splice] using ih

/-- **C15** (disagreement) `spliceabove` on a tree without parent raises `AttributeError`, but only after giving it the new node as parent. -/
theorem C15_spliceabove_root {h : Heap} (hi : Inv h) (s : Nat) (hs : s < h.next) (hp : h.par s = none) (l : Str) :
    ∃ h', spliceabove s l h = (.error .attribute, h') ∧ h'.par s = some h.next := by
  refine ⟨splice (alloc h l) h.next 0 0 [.ref s], ?_, by simp [splice]⟩
  unfold spliceabove
  rw [bind_ok ((C15_parentIndex hi s).1 hp), bind_ok (m := parent s) (a := h.par s) (h' := h) rfl, bind_ok ((C15_detach hi s).1 hp),
    bind_ok ((C15_new hi l [.ref s]).1 ⟨by simpa using hp, by simp⟩ (by simpa using hs)), hp]
  rfl

/-- **C15** (disagreement) `prune` on a tree without parent raises `TypeError`, but only after removing its children. -/
theorem C15_prune_root {h : Heap} (hi : Inv h) (s : Nat) (hp : h.par s = none) :
    ∃ h', prune s h = (.error .type, h') ∧ h'.kids s = [] := by
  refine ⟨splice h s 0 (h.kids s).length [], ?_, by simp [splice]⟩
  unfold prune
  rw [bind_ok ((C15_parentIndex hi s).1 hp), bind_ok (C15_disown hi s), bind_ok (m := parent s) (a := none)
    (h' := splice h s 0 (h.kids s).length []) (by simp [parent, splice, hp])]
  rfl

/-! ### Examples -/

/-- `(S (NP 0) (VP (V 1) 2))`, made by calls. -/
def Spec.example1 : Heap := List.foldl (fun h (op : Op) => op.run h) Heap.empty
  [.new ['S'] [], .new ['N'] [.leaf 0], .new ['V'] [.leaf 1], .new ['W'] [], .append 3 (.ref 2), .append 3 (.leaf 2), .extend 0 [.ref 3],
    .insert 0 0 (.ref 1)]

example : (example1.kids 0, example1.kids 3,
    example1.par 2, rootF example1 5 2,
    positionF example1 5 2)
  = ([.ref 1, .ref 3], [.ref 2, .leaf 2], some 3, some 0, some [1, 0]) := by decide +kernel

/-- The conditions of the theorem about histories are met by these calls. -/
example : SafelyReachable (Op.run (.insert 0 0 (.ref 1)) (Op.run (.append 0 (.leaf 7)) (Op.run (.new ['N'] [.leaf 0]) (Op.run (.new ['S'] []) .empty)))) := by
  refine .step _ (.step _ (.step _ (.step _ .start ?_ ?_) ?_ ?_) ?_ ?_) ?_ ?_
  · exact ⟨by simp [Op.target], by simp [Op.args], by simp [Op.args]⟩
  · simp [Op.Safe, Op.target]
  · exact ⟨by simp [Op.target], by simp [Op.args], by simp [Op.args]⟩
  · simp [Op.Safe, Op.target]
  · exact ⟨by simp [Op.target]; decide, by simp [Op.args], by simp [Op.args]⟩
  · simp [Op.Safe, Op.target, Op.args]
  · exact ⟨by simp [Op.target]; decide, by simp [Op.args]; decide, by simp [Op.args]⟩
  · simp only [Op.Safe, Op.target, Op.args, Option.mem_some_iff, forall_eq', refs_ref, refs_nil, List.mem_singleton, forall_eq]
    intro hb
    have := below_root (by decide) hb
    omega

/-- A tree with a parent cannot be added elsewhere; it can after `detach`. -/
example : let h := example1
    (append 1 (.ref 2) h).1 = .error .value ∧ (M.bind (detach 2) (fun c => append 1 c) h).1 = .ok () ∧
    (M.bind (detach 2) (fun c => append 1 c) h).2.kids 3 = [.leaf 2] ∧ (M.bind (detach 2) (fun c => append 1 c) h).2.par 2 = some 1 := by
  decide +kernel

end
end Disco.Parented
