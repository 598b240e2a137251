import Mathlib.Data.List.Nodup
import Mathlib.Tactic.ByContra
import Verif.Basic.Dict
import Verif.Grammar.YieldBits
/-!
# C53: `Vocabulary` (containers.pyx:702-946)
-/
namespace Disco.Frag.Vocab
open Prods

/-! ### Models -/

/-- `struct Rule` (containers.pxd; containers.pyx:731-740): numbers of labels and the yield function. -/
structure RuleS where
  lhs : Nat
  rhs1 : Nat
  rhs2 : Nat
  args : Nat
  lengths : Nat
deriving DecidableEq, Repr

/-- A `Vocabulary` object. `prodbuf` is the array of structs one after the other; `labelbuf` all labels one after the other, and `labelidx` where each starts.
Simplification: the buffer has characters, not UTF-8 bytes (encoding a concatenation is the concatenation of the encodings). -/
structure Vocabulary where
  prods : Dict RuleS Nat
  labels : Dict Str Nat
  prodbuf : List RuleS
  labelidx : List Nat
  labelbuf : Str
deriving DecidableEq, Repr

/-- `Vocabulary.__init__` (containers.pyx:710-719). -/
def init : Vocabulary := ⟨[], [(epsilon, 0)], [], [0, epsilon.length], epsilon⟩

/-- `Vocabulary._getlabelid` (containers.pyx:753-758). -/
def getlabelid (v : Vocabulary) (label : Str) : Vocabulary × Nat :=
  match Dict.get? v.labels label with
  | some n => (v, n)
  | none =>
    let buf := v.labelbuf ++ label
    (⟨v.prods, Dict.set v.labels label v.labels.length, v.prodbuf, v.labelidx ++ [buf.length], buf⟩, v.labels.length)

/-- `Vocabulary._getprodid` (containers.pyx:744-751). -/
def getprodid (v : Vocabulary) (prod : RuleS) : Vocabulary × Nat :=
  match Dict.get? v.prods prod with
  | some n => (v, n)
  | none => (⟨Dict.set v.prods prod v.prods.length, v.labels, v.prodbuf ++ [prod], v.labelidx, v.labelbuf⟩, v.prods.length)

/-- `self._getlabelid(r[k]) if len(r) > k else 0`. -/
def optLabel (v : Vocabulary) (label : Option Str) : Vocabulary × Nat :=
  match label with
  | some s => getlabelid v s
  | none => (v, 0)

/-- `Vocabulary.getprod` (containers.pyx:729-742); `none` for an exception. -/
def getprod (v : Vocabulary) (r : Prods.Rule) : Option (Vocabulary × Nat) :=
  match r.nts with
  | [] => none
  | l :: rest =>
    let a := getlabelid v l
    let b := optLabel a.1 rest[0]?
    let c := optLabel b.1 rest[1]?
    if b.2 = 0 ∧ rest ≠ [] then
      match r.yf with
      | .spans _ => none
      | .word w =>
        let d := getlabelid c.1 w
        some (getprodid d.1 ⟨a.2, b.2, c.2, d.2, 0⟩)
    else
      match r.yf with
      | .word _ => none
      | .spans yf => (YieldBits.getyf (0, 0, 0) yf).map fun y => getprodid c.1 ⟨a.2, b.2, c.2, y.1, y.2.1⟩

/-- `Vocabulary.idtolabel` (containers.pyx:760-762). -/
def idtolabel (v : Vocabulary) (i : Nat) : Str :=
  (v.labelbuf.drop (v.labelidx[i]?.getD 0)).take (v.labelidx[i + 1]?.getD 0 - v.labelidx[i]?.getD 0)

/-- Indexing `prodbuf`. -/
def ruleOf (v : Vocabulary) (prodno : Int) : RuleS := v.prodbuf[prodno.toNat]?.getD ⟨0, 0, 0, 0, 0⟩

/-- `Vocabulary.getlabel` (containers.pyx:764-771). -/
def getlabel (v : Vocabulary) (prodno : Int) : Str :=
  if prodno < 0 then ['<', 'U', 'N', 'K', 'N', 'O', 'W', 'N', '>'] else idtolabel v (ruleOf v prodno).lhs

/-- `Vocabulary.getword` (containers.pyx:773-782). -/
def getword (v : Vocabulary) (prodno : Int) : Option Str :=
  if prodno < 0 then some ['<', 'U', 'N', 'K', 'N', 'O', 'W', 'N', '>']
  else if (ruleOf v prodno).args = 0 then none
  else some (idtolabel v (ruleOf v prodno).args)

/-- `Vocabulary.islexical` (containers.pyx:784-790). -/
def islexical (v : Vocabulary) (prodno : Int) : Bool :=
  if prodno < 0 then false else decide ((ruleOf v prodno).args ≠ 0 ∧ (ruleOf v prodno).lengths = 0)

/-- Part of a file. Simplification: numbers, structs and characters are not encoded as bytes. -/
inductive Cell where
  | num (n : Nat)
  | rule (r : RuleS)
  | char (c : Char)
deriving DecidableEq, Repr

/-- `Vocabulary.tofile` (containers.pyx:825-843) and `__getstate__` (containers.pyx:896-906). -/
def tofile (v : Vocabulary) : List Cell :=
  [.num v.prods.length, .num (v.labels.length + 1), .num v.labelbuf.length] ++ v.prodbuf.map .rule ++ v.labelidx.map .num ++ v.labelbuf.map .char

/-- `fread`: the first `n` items, of the type for which `f` is defined. -/
def readN {α : Type} (f : Cell → Option α) (n : Nat) (cells : List Cell) : Option (List α × List Cell) :=
  if cells.length < n then none else ((cells.take n).mapM f).map fun l => (l, cells.drop n)

/-- A number. -/
def asNum : Cell → Option Nat
  | .num n => some n
  | _ => none
/-- A struct. -/
def asRule : Cell → Option RuleS
  | .rule r => some r
  | _ => none
/-- A character. -/
def asChar : Cell → Option Char
  | .char c => some c
  | _ => none

/-- `Vocabulary.fromfile` (containers.pyx:845-894) and `__setstate__` (containers.pyx:908-946); `none` for `IOError`. -/
def fromfile (cells : List Cell) : Option Vocabulary := do
  let (header, rest) ← readN asNum 3 cells
  let (prodbuf, rest) ← readN asRule (header[0]?.getD 0) rest
  let (labelidx, rest) ← readN asNum (header[1]?.getD 0) rest
  let (labelbuf, _) ← readN asChar (header[2]?.getD 0) rest
  let v : Vocabulary := ⟨[], [], prodbuf, labelidx, labelbuf⟩
  pure { v with
    prods := (List.range prodbuf.length).foldl (fun d n => Dict.set d (prodbuf[n]?.getD ⟨0, 0, 0, 0, 0⟩) n) []
    labels := (List.range (labelidx.length - 1)).foldl (fun d n => Dict.set d (idtolabel v n) n) [] }

/-! ### Specification -/

/-- A production as made by `lcfrsproductions` from a binarized tree (C20): a word with its tag; a substitution site; or a unary or binary production. No label or
word is `'Epsilon'`, and the yield function fits in 31 bits. -/
inductive Spec.Production : Prods.Rule → Prop
  | word {l w : Str} (hl : l ≠ epsilon) (hw : w ≠ epsilon) : Production ⟨[l, epsilon], .word w⟩
  | site {l : Str} (hl : l ≠ epsilon) : Production ⟨[l], .spans []⟩
  | un {l m : Str} {yf : List (List Nat)} (hl : l ≠ epsilon) (hm : m ≠ epsilon) (hy : YieldBits.Spec.Fits yf) : Production ⟨[l, m], .spans yf⟩
  | bin {l m n : Str} {yf : List (List Nat)} (hl : l ≠ epsilon) (hm : m ≠ epsilon) (hn : n ≠ epsilon) (hy : YieldBits.Spec.Fits yf) : Production ⟨[l, m, n], .spans yf⟩

/-- Objects that can be made by `Vocabulary()` and successful calls of `getprod` with such productions, starting from `v`. -/
inductive Spec.Steps : Vocabulary → Vocabulary → Prop
  | refl {v : Vocabulary} : Steps v v
  | step {v w u : Vocabulary} {r : Prods.Rule} {n : Nat} (h : Steps v w) (hr : Spec.Production r) (hg : getprod w r = some (u, n)) : Steps v u

/-! ### The invariant -/

/-- Where each label starts. -/
def offsets (ls : List Str) : List Nat := (List.range (ls.length + 1)).map fun i => (ls.take i).flatten.length

/-- The numbering of a list. -/
def number {α : Type} (l : List α) : Dict α Nat := l.zipIdx

/-- The object has these labels and productions. -/
structure Has (v : Vocabulary) (ls : List Str) : Prop where
  eps : ls[0]? = some epsilon
  nodup : ls.Nodup
  labels : v.labels = number ls
  buf : v.labelbuf = ls.flatten
  idx : v.labelidx = offsets ls
  pnodup : v.prodbuf.Nodup
  prods : v.prods = number v.prodbuf

theorem keys_number {α : Type} (l : List α) : Dict.keys (number l) = l := by simp [Dict.keys, number]

theorem get?_number {α : Type} [DecidableEq α] {l : List α} (h : l.Nodup) (x : α) (n : Nat) : Dict.get? (number l) x = some n ↔ l[n]? = some x := by
  have hwf : Dict.WF (number l) := by rw [Dict.WF, keys_number]; exact h
  have hmem : ∀ x n, (x, n) ∈ number l ↔ l[n]? = some x := by
    intro x n
    rw [number, List.mem_zipIdx_iff_getElem?]
  constructor
  · intro h'; exact (hmem x n).1 (Dict.mem_of_get? h')
  · intro h'; exact Dict.get?_of_mem hwf ((hmem x n).2 h')

theorem get?_number_none {α : Type} [DecidableEq α] {l : List α} {x : α} : Dict.get? (number l) x = none ↔ x ∉ l := by
  have := Dict.mem_keys (d := number l) (k := x)
  rw [keys_number] at this
  rw [this]
  cases Dict.get? (number l) x <;> simp

theorem set_new {α : Type} [DecidableEq α] (d : Dict α Nat) (x : α) (n : Nat) : x ∉ Dict.keys d → Dict.set d x n = d ++ [(x, n)] := by
  induction d with
  | nil => intro _; rfl
  | cons p d ih =>
    intro h
    obtain ⟨k, v⟩ := p
    simp only [Dict.keys, List.map_cons, List.mem_cons, not_or] at h
    simp only [Dict.set]
    rw [if_neg (fun e => h.1 e.symm), ih h.2]
    rfl

theorem set_number {α : Type} [DecidableEq α] {l : List α} {x : α} (h : x ∉ l) : Dict.set (number l) x l.length = number (l ++ [x]) := by
  rw [set_new _ _ _ (by rw [keys_number]; exact h), number, number, List.zipIdx_append]
  simp

theorem length_number {α : Type} (l : List α) : (number l).length = l.length := by simp [number]

theorem offsets_append (ls : List Str) (l : Str) : offsets (ls ++ [l]) = offsets ls ++ [(ls ++ [l]).flatten.length] := by
  unfold offsets
  rw [List.length_append, List.length_singleton, List.range_succ, List.map_append]
  congr 1
  · refine List.map_congr_left fun i hi => ?_
    rw [List.mem_range] at hi
    rw [List.take_append_of_le_length (by omega)]
  · simp only [List.map_cons, List.map_nil]
    rw [List.take_of_length_le (by simp)]

theorem getlabelid_spec {v : Vocabulary} {ls : List Str} (h : Has v ls) (s : Str) : ∃ ls', Has (getlabelid v s).1 ls' ∧ ls <+: ls' ∧ ls'[(getlabelid v s).2]? = some s ∧
    (getlabelid v s).1.prodbuf = v.prodbuf ∧ (s ∈ ls → (getlabelid v s).1 = v) := by
  unfold getlabelid
  rw [h.labels]
  cases hg : Dict.get? (number ls) s with
  | some n => exact ⟨ls, h, List.prefix_refl _, (get?_number h.nodup s n).1 hg, rfl, fun _ => rfl⟩
  | none =>
    have hn := get?_number_none.1 hg
    refine ⟨ls ++ [s], ⟨?_, ?_, ?_, ?_, ?_, h.pnodup, h.prods⟩, List.prefix_append _ _, ?_, rfl, fun h' => absurd h' hn⟩
    · have := h.eps
      obtain ⟨h1, h2⟩ := List.getElem?_eq_some_iff.1 this
      rw [List.getElem?_append_left h1]; exact this
    · rw [List.nodup_append]
      exact ⟨h.nodup, by simp, fun a ha b hb e => hn (by rw [List.mem_singleton] at hb; rw [← hb, ← e]; exact ha)⟩
    · simp only [length_number]; exact set_number hn
    · simp [h.buf]
    · simp only [h.idx, h.buf, offsets_append]; simp
    · simp [length_number]

theorem optLabel_spec {v : Vocabulary} {ls : List Str} (h : Has v ls) (o : Option Str) : ∃ ls', Has (optLabel v o).1 ls' ∧ ls <+: ls' ∧
    (∀ s, o = some s → ls'[(optLabel v o).2]? = some s) ∧ (o = none → (optLabel v o).2 = 0) ∧
    (optLabel v o).1.prodbuf = v.prodbuf ∧ ((∀ s, o = some s → s ∈ ls) → (optLabel v o).1 = v) := by
  cases o with
  | none => exact ⟨ls, h, List.prefix_refl _, by simp, fun _ => rfl, rfl, fun _ => rfl⟩
  | some s =>
    obtain ⟨ls', h1, h2, h3, h4, h5⟩ := getlabelid_spec h s
    refine ⟨ls', h1, h2, fun s' hs => ?_, by simp, h4, fun hs => h5 (hs s rfl)⟩
    rw [Option.some.injEq] at hs
    subst hs; exact h3

theorem getprodid_spec {v : Vocabulary} {ls : List Str} (h : Has v ls) (p : RuleS) : Has (getprodid v p).1 ls ∧ v.prodbuf <+: (getprodid v p).1.prodbuf ∧
    (getprodid v p).1.prodbuf[(getprodid v p).2]? = some p ∧ (p ∈ v.prodbuf → (getprodid v p).1 = v) := by
  unfold getprodid
  rw [h.prods]
  cases hg : Dict.get? (number v.prodbuf) p with
  | some n => exact ⟨h, List.prefix_refl _, (get?_number h.pnodup p n).1 hg, fun _ => rfl⟩
  | none =>
    have hn := get?_number_none.1 hg
    refine ⟨⟨h.eps, h.nodup, h.labels, h.buf, h.idx, ?_, ?_⟩, List.prefix_append _ _, ?_, fun h' => absurd h' hn⟩
    · simp only
      rw [List.nodup_append]
      exact ⟨h.pnodup, by simp, fun a ha b hb e => hn (by rw [List.mem_singleton] at hb; rw [← hb, ← e]; exact ha)⟩
    · simp only [length_number]; exact set_number hn
    · simp [length_number]

/-- The struct of a production, for a list of labels. -/
inductive Encodes (ls : List Str) : Prods.Rule → RuleS → Prop
  | word {l w : Str} {e : RuleS} (h1 : ls[e.lhs]? = some l) (h2 : e.rhs1 = 0) (h3 : e.rhs2 = 0) (h4 : ls[e.args]? = some w) (h5 : e.lengths = 0) : Encodes ls ⟨[l, epsilon], .word w⟩ e
  | site {l : Str} {e : RuleS} (h1 : ls[e.lhs]? = some l) (h2 : e.rhs1 = 0) (h3 : e.rhs2 = 0) (h4 : e.args = 0) (h5 : e.lengths = 0) : Encodes ls ⟨[l], .spans []⟩ e
  | un {l m : Str} {yf : List (List Nat)} {e : RuleS} (h1 : ls[e.lhs]? = some l) (h2 : ls[e.rhs1]? = some m) (h3 : e.rhs2 = 0)
      (h4 : YieldBits.HoldsArgs e.args yf.flatten) (h5 : YieldBits.HoldsLengths e.lengths yf) : Encodes ls ⟨[l, m], .spans yf⟩ e
  | bin {l m n : Str} {yf : List (List Nat)} {e : RuleS} (h1 : ls[e.lhs]? = some l) (h2 : ls[e.rhs1]? = some m) (h3 : ls[e.rhs2]? = some n)
      (h4 : YieldBits.HoldsArgs e.args yf.flatten) (h5 : YieldBits.HoldsLengths e.lengths yf) : Encodes ls ⟨[l, m, n], .spans yf⟩ e

theorem prefix_get {α : Type} {l l' : List α} (h : l <+: l') {n : Nat} {x : α} (hx : l[n]? = some x) : l'[n]? = some x := by
  obtain ⟨r, rfl⟩ := h
  rw [List.getElem?_append_left (List.getElem?_eq_some_iff.1 hx).1]; exact hx

theorem Encodes.mono {ls ls' : List Str} {r : Prods.Rule} {e : RuleS} (hp : ls <+: ls') (h : Encodes ls r e) : Encodes ls' r e := by
  cases h with
  | word h1 h2 h3 h4 h5 => exact .word (prefix_get hp h1) h2 h3 (prefix_get hp h4) h5
  | site h1 h2 h3 h4 h5 => exact .site (prefix_get hp h1) h2 h3 h4 h5
  | un h1 h2 h3 h4 h5 => exact .un (prefix_get hp h1) (prefix_get hp h2) h3 h4 h5
  | bin h1 h2 h3 h4 h5 => exact .bin (prefix_get hp h1) (prefix_get hp h2) (prefix_get hp h3) h4 h5

theorem get_inj {ls : List Str} (hn : ls.Nodup) {i j : Nat} {x : Str} (hi : ls[i]? = some x) (hj : ls[j]? = some x) : i = j := by
  obtain ⟨h1, h2⟩ := List.getElem?_eq_some_iff.1 hi
  obtain ⟨h3, h4⟩ := List.getElem?_eq_some_iff.1 hj
  exact (List.Nodup.getElem_inj_iff hn).1 (h2.trans h4.symm)

/-! ### Yield functions are determined by their bits -/

/-- The elements of an argument, marking the last. -/
def marked : List Nat → List (Nat × Bool)
  | [] => []
  | [x] => [(x, true)]
  | x :: y :: r => (x, false) :: marked (y :: r)

theorem marked_eq (a : List Nat) : a.mapIdx (fun i x => (x, decide (i + 1 = a.length))) = marked a := by
  induction a with
  | nil => rfl
  | cons x a ih =>
    cases a with
    | nil => simp [marked]
    | cons y r =>
      rw [List.mapIdx_cons, marked, ← ih]
      simp

theorem elements_marked (yf : List (List Nat)) : Concat.Spec.elements yf = yf.flatMap marked := by
  unfold Concat.Spec.elements
  refine congrArg (fun f => List.flatMap f yf) ?_
  funext a
  exact marked_eq a

theorem marked_append_inj (a : List Nat) : ∀ (b : List Nat) (E F : List (Nat × Bool)), a ≠ [] → b ≠ [] → marked a ++ E = marked b ++ F → a = b ∧ E = F := by
  induction a with
  | nil => intro b E F h; simp at h
  | cons x a ih =>
    intro b E F _ hb h
    cases b with
    | nil => simp at hb
    | cons y b =>
      cases a with
      | nil =>
        cases b with
        | nil => simp [marked] at h; simp [h]
        | cons z b => simp [marked] at h
      | cons x' a =>
        cases b with
        | nil => simp [marked] at h
        | cons z b =>
          simp only [marked, List.cons_append, List.cons.injEq, Prod.mk.injEq, and_true] at h
          obtain ⟨h1, h2⟩ := ih (z :: b) E F (by simp) (by simp) h.2
          exact ⟨by rw [h.1, h1], h2⟩

theorem elements_inj (yf : List (List Nat)) : ∀ (yg : List (List Nat)), (∀ a ∈ yf, a ≠ []) → (∀ a ∈ yg, a ≠ []) → yf.flatMap marked = yg.flatMap marked → yf = yg := by
  induction yf with
  | nil =>
    intro yg _ hg h
    cases yg with
    | nil => rfl
    | cons b yg =>
      have := hg b (by simp)
      cases b with
      | nil => simp at this
      | cons x b => cases b <;> simp [marked] at h
  | cons a yf ih =>
    intro yg hf hg h
    cases yg with
    | nil =>
      have := hf a (by simp)
      cases a with
      | nil => simp at this
      | cons x b => cases b <;> simp [marked] at h
    | cons b yg =>
      rw [List.flatMap_cons, List.flatMap_cons] at h
      obtain ⟨h1, h2⟩ := marked_append_inj a b _ _ (hf a (by simp)) (hg b (by simp)) h
      rw [h1, ih yg (fun c hc => hf c (by simp [hc])) (fun c hc => hg c (by simp [hc])) h2]

theorem marked_last (a : List Nat) (h : a ≠ []) : ∃ l x, marked a = l ++ [(x, true)] := by
  induction a with
  | nil => simp at h
  | cons x a ih =>
    cases a with
    | nil => exact ⟨[], x, rfl⟩
    | cons y r =>
      obtain ⟨l, z, e⟩ := ih (by simp)
      exact ⟨(x, false) :: l, z, by rw [marked, e]; rfl⟩

theorem elements_last (yf : List (List Nat)) (hne : yf ≠ []) (h : ∀ a ∈ yf, a ≠ []) : ∃ l x, yf.flatMap marked = l ++ [(x, true)] := by
  obtain ⟨init, a, rfl⟩ : ∃ init a, yf = init ++ [a] := ⟨yf.dropLast, yf.getLast hne, (List.dropLast_append_getLast hne).symm⟩
  obtain ⟨l, x, e⟩ := marked_last a (h a (by simp))
  exact ⟨init.flatMap marked ++ l, x, by rw [List.flatMap_append]; simp [e]⟩

theorem bits_inj {args lengths : Nat} {yf yg : List (List Nat)} (hf : YieldBits.Spec.Fits yf) (hg : YieldBits.Spec.Fits yg) (a1 : YieldBits.HoldsArgs args yf.flatten)
    (l1 : YieldBits.HoldsLengths lengths yf) (a2 : YieldBits.HoldsArgs args yg.flatten) (l2 : YieldBits.HoldsLengths lengths yg) : yf = yg := by
  have hlen : ∀ {yf yg : List (List Nat)}, YieldBits.Spec.Fits yf → YieldBits.HoldsLengths lengths yf → YieldBits.HoldsLengths lengths yg →
      (Concat.Spec.elements yf).length ≤ (Concat.Spec.elements yg).length := by
    intro yf yg hf l1 l2
    obtain ⟨l, x, e⟩ := elements_last yf hf.1 fun a ha => (hf.2.1 a ha).1
    rw [← elements_marked] at e
    have h1 := l1 l.length
    rw [e] at h1
    simp only [List.getElem?_append_right (Nat.le_refl _), Nat.sub_self, List.getElem?_cons_zero, Option.map_some, decide_true] at h1
    rw [l2 l.length] at h1
    rw [e]
    by_contra hc
    rw [List.getElem?_eq_none (by simp at hc; omega)] at h1
    simp at h1
  have hl := Nat.le_antisymm (hlen hf l1 l2) (hlen hg l2 l1)
  refine elements_inj yf yg (fun a ha => (hf.2.1 a ha).1) (fun a ha => (hg.2.1 a ha).1) ?_
  rw [← elements_marked, ← elements_marked]
  apply List.ext_getElem hl
  intro n h1 h2
  have e1 := YieldBits.elements_fst yf
  have e2 := YieldBits.elements_fst yg
  have f1 := a1.2 n
  rw [a2.2 n, ← e1, ← e2, List.getElem?_map, List.getElem?_map, List.getElem?_eq_getElem h1, List.getElem?_eq_getElem h2] at f1
  have g1 := l1 n
  rw [l2 n, List.getElem?_eq_getElem h1, List.getElem?_eq_getElem h2] at g1
  have d : ∀ {yf : List (List Nat)} (hf : YieldBits.Spec.Fits yf), ∀ y ∈ Concat.Spec.elements yf, y.1 = 0 ∨ y.1 = 1 := by
    intro yf hf y hy
    have : y.1 ∈ yf.flatten := by rw [← YieldBits.elements_fst]; exact List.mem_map_of_mem hy
    obtain ⟨a, ha, hya⟩ := List.mem_flatten.1 this
    exact (hf.2.1 a ha).2 _ hya
  have d1 := d hf _ (List.getElem_mem h1)
  have d2 := d hg _ (List.getElem_mem h2)
  revert f1 g1 d1 d2
  generalize (Concat.Spec.elements yf)[n] = y
  generalize (Concat.Spec.elements yg)[n] = z
  obtain ⟨y1, y2⟩ := y
  obtain ⟨z1, z2⟩ := z
  simp only [Option.map_some, Option.some.injEq, decide_eq_decide]
  intro f1 g1 d1 d2
  have : y2 = z2 := by cases y2 <;> cases z2 <;> simp_all
  have : y1 = z1 := by omega
  simp_all

/-! ### Productions are determined by their struct -/

theorem Encodes.inj {ls : List Str} (he : ls[0]? = some epsilon) {r r' : Prods.Rule} {e : RuleS} (hr : Spec.Production r) (hr' : Spec.Production r')
    (h : Encodes ls r e) (h' : Encodes ls r' e) : r = r' := by
  have nz : ∀ {i : Nat} {s : Str}, ls[i]? = some s → s ≠ epsilon → i ≠ 0 := by
    intro i s h1 h2 h3
    rw [h3, he, Option.some.injEq] at h1
    exact h2 h1.symm
  have same : ∀ {i : Nat} {s t : Str}, ls[i]? = some s → ls[i]? = some t → s = t := by
    intro i s t h1 h2
    rw [h1, Option.some.injEq] at h2
    exact h2
  cases h with
  | word h1 h2 h3 h4 h5 =>
    cases h' with
    | word g1 g2 g3 g4 g5 => rw [same h1 g1, same h4 g4]
    | site g1 g2 g3 g4 g5 => cases hr with | word hl hw => exact absurd g4 (nz h4 hw)
    | un g1 g2 g3 g4 g5 => cases hr' with | un hl hm hy => exact absurd h2 (nz g2 hm)
    | bin g1 g2 g3 g4 g5 => cases hr' with | bin hl hm hn hy => exact absurd h2 (nz g2 hm)
  | site h1 h2 h3 h4 h5 =>
    cases h' with
    | word g1 g2 g3 g4 g5 => cases hr' with | word hl hw => exact absurd h4 (nz g4 hw)
    | site g1 g2 g3 g4 g5 => rw [same h1 g1]
    | un g1 g2 g3 g4 g5 => cases hr' with | un hl hm hy => exact absurd h2 (nz g2 hm)
    | bin g1 g2 g3 g4 g5 => cases hr' with | bin hl hm hn hy => exact absurd h2 (nz g2 hm)
  | un h1 h2 h3 h4 h5 =>
    cases hr with
    | un hl hm hy =>
      cases h' with
      | word g1 g2 g3 g4 g5 => exact absurd g2 (nz h2 hm)
      | site g1 g2 g3 g4 g5 => exact absurd g2 (nz h2 hm)
      | un g1 g2 g3 g4 g5 =>
        cases hr' with
        | un hl' hm' hy' => rw [same h1 g1, same h2 g2, bits_inj hy hy' h4 h5 g4 g5]
      | bin g1 g2 g3 g4 g5 => cases hr' with | bin hl' hm' hn' hy' => exact absurd h3 (nz g3 hn')
  | bin h1 h2 h3 h4 h5 =>
    cases hr with
    | bin hl hm hn' hy =>
      cases h' with
      | word g1 g2 g3 g4 g5 => exact absurd g2 (nz h2 hm)
      | site g1 g2 g3 g4 g5 => exact absurd g2 (nz h2 hm)
      | un g1 g2 g3 g4 g5 => exact absurd g3 (nz h3 hn')
      | bin g1 g2 g3 g4 g5 =>
        cases hr' with
        | bin hl' hm' hn'' hy' => rw [same h1 g1, same h2 g2, same h3 g3, bits_inj hy hy' h4 h5 g4 g5]

theorem Encodes.unique {ls : List Str} (hn : ls.Nodup) {r : Prods.Rule} {e e' : RuleS} (_ : Spec.Production r) (h : Encodes ls r e) (h' : Encodes ls r e') : e = e' := by
  obtain ⟨a, b, c, d, f⟩ := e
  obtain ⟨a', b', c', d', f'⟩ := e'
  cases h with
  | word h1 h2 h3 h4 h5 =>
    cases h' with
    | word g1 g2 g3 g4 g5 =>
      simp only at *
      rw [get_inj hn h1 g1, get_inj hn h4 g4, h2, h3, h5, g2, g3, g5]
  | site h1 h2 h3 h4 h5 =>
    cases h' with
    | site g1 g2 g3 g4 g5 =>
      simp only at *
      rw [get_inj hn h1 g1, h2, h3, h4, h5, g2, g3, g4, g5]
  | un h1 h2 h3 h4 h5 =>
    cases h' with
    | un g1 g2 g3 g4 g5 =>
      simp only at *
      rw [get_inj hn h1 g1, get_inj hn h2 g2, h3, g3, YieldBits.holds_unique h4 g4, YieldBits.holdsLengths_unique h5 g5]
  | bin h1 h2 h3 h4 h5 =>
    cases h' with
    | bin g1 g2 g3 g4 g5 =>
      simp only at *
      rw [get_inj hn h1 g1, get_inj hn h2 g2, get_inj hn h3 g3, YieldBits.holds_unique h4 g4, YieldBits.holdsLengths_unique h5 g5]

theorem getprod_finish {v c : Vocabulary} {ls ls' : List Str} {r : Prods.Rule} {p : RuleS} (hr : Spec.Production r) (hc : Has c ls') (hp : ls <+: ls')
    (hb : c.prodbuf = v.prodbuf) (hg : getprod v r = some (getprodid c p)) (he : Encodes ls' r p) (hs : ∀ e', Encodes ls r e' → c = v) :
    ∃ u n ls' e, getprod v r = some (u, n) ∧ Has u ls' ∧ ls <+: ls' ∧
    v.prodbuf <+: u.prodbuf ∧ u.prodbuf[n]? = some e ∧ Encodes ls' r e ∧ (∀ e', Encodes ls r e' → e' ∈ v.prodbuf → u = v) := by
  obtain ⟨f1, f2, f3, f4⟩ := getprodid_spec hc p
  refine ⟨(getprodid c p).1, (getprodid c p).2, ls', p, hg, f1, hp, hb ▸ f2, f3, he, fun e' he' hm => ?_⟩
  have e1 := Encodes.unique hc.nodup hr he (he'.mono hp)
  rw [f4 (by rw [hb, e1]; exact hm), hs e' he']

/-- `getprod` succeeds; the object has the production at this number; and when the labels and the production were there already, nothing changes. -/
theorem getprod_spec {v : Vocabulary} {ls : List Str} (h : Has v ls) {r : Prods.Rule} (hr : Spec.Production r) : ∃ u n ls' e, getprod v r = some (u, n) ∧ Has u ls' ∧ ls <+: ls' ∧
    v.prodbuf <+: u.prodbuf ∧ u.prodbuf[n]? = some e ∧ Encodes ls' r e ∧ (∀ e', Encodes ls r e' → e' ∈ v.prodbuf → u = v) := by
  have nz : ∀ {v : Vocabulary} {ls : List Str} (_ : Has v ls) {i : Nat} {s : Str}, ls[i]? = some s → s ≠ epsilon → i ≠ 0 := by
    intro v ls h i s h1 h2 h3
    rw [h3, h.eps, Option.some.injEq] at h1
    exact h2 h1.symm
  have zero : ∀ {v : Vocabulary} {ls : List Str} (_ : Has v ls) {i : Nat}, ls[i]? = some epsilon → i = 0 := fun {v ls} h {i} h1 => get_inj h.nodup h1 h.eps
  have mem : ∀ {ls : List Str} {i : Nat} {s : Str}, ls[i]? = some s → s ∈ ls := fun h => List.mem_of_getElem? h
  have hr0 := hr
  cases hr with
  | @word l w hl hw =>
    obtain ⟨ls1, a1, a2, a3, a4, a5⟩ := getlabelid_spec h l
    obtain ⟨ls2, b1, b2, b3, -, b4, b5⟩ := optLabel_spec a1 (some epsilon)
    obtain ⟨ls3, c1, c2, -, c3, c4, c5⟩ := optLabel_spec b1 none
    obtain ⟨ls4, d1, d2, d3, d4, d5⟩ := getlabelid_spec c1 w
    have e1 := zero b1 (b3 _ rfl)
    refine getprod_finish (p := ⟨(getlabelid v l).2, (optLabel (getlabelid v l).1 (some epsilon)).2, (optLabel (optLabel (getlabelid v l).1 (some epsilon)).1 none).2,
        (getlabelid (optLabel (optLabel (getlabelid v l).1 (some epsilon)).1 none).1 w).2, 0⟩) hr0 d1 (((a2.trans b2).trans c2).trans d2) (by rw [d4, c4, b4, a4]) ?_
      (.word (prefix_get ((b2.trans c2).trans d2) a3) e1 (c3 rfl) d3 rfl) ?_
    · simp only [getprod, List.getElem?_cons_zero, List.getElem?_cons_succ, List.getElem?_nil]
      rw [if_pos ⟨e1, by simp⟩]
    · intro e' he'
      cases he' with
      | word g1 g2 g3 g4 g5 =>
        rw [d5 (c2.subset (b2.subset (a2.subset (mem g4)))), c5 (by simp), b5 (by simp only [Option.some.injEq]; rintro s rfl; exact a2.subset (mem h.eps)), a5 (mem g1)]
  | @site l hl =>
    obtain ⟨ls1, a1, a2, a3, a4, a5⟩ := getlabelid_spec h l
    obtain ⟨ls2, b1, b2, -, b3, b4, b5⟩ := optLabel_spec a1 none
    obtain ⟨ls3, c1, c2, -, c3, c4, c5⟩ := optLabel_spec b1 none
    refine getprod_finish (p := ⟨(getlabelid v l).2, (optLabel (getlabelid v l).1 none).2, (optLabel (optLabel (getlabelid v l).1 none).1 none).2, 0, 0⟩)
      hr0 c1 ((a2.trans b2).trans c2) (by rw [c4, b4, a4]) ?_ (.site (prefix_get (b2.trans c2) a3) (b3 rfl) (c3 rfl) rfl rfl) ?_
    · simp [getprod, YieldBits.getyf]
    · intro e' he'
      cases he' with
      | site g1 g2 g3 g4 g5 => rw [c5 (by simp), b5 (by simp), a5 (mem g1)]
  | @un l m yf hl hm hy =>
    obtain ⟨ls1, a1, a2, a3, a4, a5⟩ := getlabelid_spec h l
    obtain ⟨ls2, b1, b2, b3, -, b4, b5⟩ := optLabel_spec a1 (some m)
    obtain ⟨ls3, c1, c2, -, c3, c4, c5⟩ := optLabel_spec b1 none
    obtain ⟨args, lengths, y1, y2, y3⟩ := YieldBits.getyf_spec yf hy.2.1 0 0 [] ⟨by simp, by simp⟩ (fun n => by simp [Concat.Spec.elements])
    simp only [List.nil_append, List.flatten_nil, List.length_nil] at y1 y2 y3
    have e1 := nz b1 (b3 _ rfl) hm
    refine getprod_finish (p := ⟨(getlabelid v l).2, (optLabel (getlabelid v l).1 (some m)).2, (optLabel (optLabel (getlabelid v l).1 (some m)).1 none).2, args, lengths⟩)
      hr0 c1 ((a2.trans b2).trans c2) (by rw [c4, b4, a4]) ?_ (.un (prefix_get (b2.trans c2) a3) (prefix_get c2 (b3 _ rfl)) (c3 rfl) y2 y3) ?_
    · simp only [getprod, List.getElem?_cons_zero, List.getElem?_cons_succ, List.getElem?_nil]
      rw [if_neg (fun hc => e1 hc.1), y1, Option.map_some]
    · intro e' he'
      cases he' with
      | un g1 g2 g3 g4 g5 => rw [c5 (by simp), b5 (by simp only [Option.some.injEq]; rintro s rfl; exact a2.subset (mem g2)), a5 (mem g1)]
  | @bin l m n yf hl hm hn hy =>
    obtain ⟨ls1, a1, a2, a3, a4, a5⟩ := getlabelid_spec h l
    obtain ⟨ls2, b1, b2, b3, -, b4, b5⟩ := optLabel_spec a1 (some m)
    obtain ⟨ls3, c1, c2, c3, -, c4, c5⟩ := optLabel_spec b1 (some n)
    obtain ⟨args, lengths, y1, y2, y3⟩ := YieldBits.getyf_spec yf hy.2.1 0 0 [] ⟨by simp, by simp⟩ (fun n => by simp [Concat.Spec.elements])
    simp only [List.nil_append, List.flatten_nil, List.length_nil] at y1 y2 y3
    have e1 := nz b1 (b3 _ rfl) hm
    refine getprod_finish (p := ⟨(getlabelid v l).2, (optLabel (getlabelid v l).1 (some m)).2, (optLabel (optLabel (getlabelid v l).1 (some m)).1 (some n)).2, args, lengths⟩)
      hr0 c1 ((a2.trans b2).trans c2) (by rw [c4, b4, a4]) ?_ (.bin (prefix_get (b2.trans c2) a3) (prefix_get c2 (b3 _ rfl)) (c3 _ rfl) y2 y3) ?_
    · simp only [getprod, List.getElem?_cons_zero, List.getElem?_cons_succ, List.getElem?_nil]
      rw [if_neg (fun hc => e1 hc.1), y1, Option.map_some]
    · intro e' he'
      cases he' with
      | bin g1 g2 g3 g4 g5 =>
        rw [c5 (by simp only [Option.some.injEq]; rintro s rfl; exact b2.subset (a2.subset (mem g3))), b5 (by simp only [Option.some.injEq]; rintro s rfl; exact a2.subset (mem g2)), a5 (mem g1)]

/-! ### Histories -/

theorem has_init : Has init [epsilon] := by
  refine ⟨rfl, by simp, rfl, by simp [init], rfl, List.nodup_nil, rfl⟩

theorem steps_has {v u : Vocabulary} {ls : List Str} (h : Spec.Steps v u) (hv : Has v ls) : ∃ ls', Has u ls' ∧ ls <+: ls' ∧ v.prodbuf <+: u.prodbuf := by
  induction h with
  | refl => exact ⟨ls, hv, List.prefix_refl _, List.prefix_refl _⟩
  | step h hr hg ih =>
    obtain ⟨ls1, h1, h2, h3⟩ := ih
    obtain ⟨u', n', ls2, e, g1, g2, g3, g4, -⟩ := getprod_spec h1 hr
    rw [hg, Option.some.injEq, Prod.mk.injEq] at g1
    obtain ⟨rfl, rfl⟩ := g1
    exact ⟨ls2, g2, h2.trans g3, h3.trans g4⟩

/-- **C53**: `getprod` never fails on productions of a binarized tree. At any later time, the same production gets the same number, without changing the object;
and different productions get different numbers. -/
theorem C53_getprod {v : Vocabulary} (hv : Spec.Steps init v) {r : Prods.Rule} (hr : Spec.Production r) : ∃ u n, getprod v r = some (u, n) ∧
    ∀ w, Spec.Steps u w → ∀ r', Spec.Production r' → ∃ w' n', getprod w r' = some (w', n') ∧ (n' = n ↔ r' = r) ∧ (r' = r → w' = w) := by
  obtain ⟨ls, h1, -⟩ := steps_has hv has_init
  obtain ⟨u, n, ls2, e, g1, g2, g3, g4, g5, g6, -⟩ := getprod_spec h1 hr
  refine ⟨u, n, g1, fun w hw r' hr' => ?_⟩
  obtain ⟨ls3, h2, h3, h4⟩ := steps_has hw g2
  obtain ⟨w', n', ls4, e', k1, k2, k3, k4, k5, k6, k7⟩ := getprod_spec h2 hr'
  refine ⟨w', n', k1, ⟨?_, ?_⟩, ?_⟩
  · rintro rfl
    have e1 := prefix_get (h4.trans k4) g5
    rw [k5, Option.some.injEq] at e1
    subst e1
    exact Encodes.inj k2.eps hr' hr k6 (g6.mono (h3.trans k3))
  · rintro rfl
    have := Encodes.unique k2.nodup hr k6 (g6.mono (h3.trans k3))
    subst this
    have e1 := prefix_get (h4.trans k4) g5
    obtain ⟨a1, a2⟩ := List.getElem?_eq_some_iff.1 e1
    obtain ⟨b1, b2⟩ := List.getElem?_eq_some_iff.1 k5
    exact (List.Nodup.getElem_inj_iff k2.pnodup).1 (b2.trans a2.symm)
  · rintro rfl
    exact k7 e (g6.mono h3) (h4.subset (List.mem_of_getElem? g5))

theorem offsets_get {ls : List Str} {i : Nat} (h : i ≤ ls.length) : (offsets ls)[i]?.getD 0 = (ls.take i).flatten.length := by
  unfold offsets
  rw [List.getElem?_map, List.getElem?_range (by omega)]
  rfl

theorem idtolabel_spec {v : Vocabulary} {ls : List Str} (h : Has v ls) {i : Nat} {s : Str} (hi : ls[i]? = some s) : idtolabel v i = s := by
  obtain ⟨h1, h2⟩ := List.getElem?_eq_some_iff.1 hi
  unfold idtolabel
  rw [h.idx, h.buf, offsets_get (by omega), offsets_get (by omega)]
  have e : ls = ls.take i ++ s :: ls.drop (i + 1) := by
    rw [← h2, List.getElem_cons_drop, List.take_append_drop]
  have e2 : (ls.take (i + 1)).flatten = (ls.take i).flatten ++ s := by
    rw [List.take_succ_eq_append_getElem h1, List.flatten_append, h2]; simp
  rw [e2]
  have e3 : ls.flatten = (ls.take i).flatten ++ (s ++ (ls.drop (i + 1)).flatten) := by
    conv => lhs; rw [e]
    rw [List.flatten_append, List.flatten_cons]
  rw [e3, List.drop_left, List.length_append, Nat.add_sub_cancel_left, List.take_left]

/-- **C53**: At any later time, the number of a production gives back its left-hand side label, its word if it is lexical and nothing otherwise if it is a
substitution site. -/
theorem C53_lookup {v u w : Vocabulary} (hv : Spec.Steps init v) {r : Prods.Rule} (hr : Spec.Production r) {n : Nat} (hg : getprod v r = some (u, n))
    (hw : Spec.Steps u w) : r.nts[0]? = some (getlabel w n) ∧
      (∀ x, r.yf = .word x → getword w n = some x ∧ islexical w n = true) ∧ (r.yf = .spans [] → getword w n = none) ∧ (∀ yf, r.yf = .spans yf → islexical w n = false) := by
  obtain ⟨ls, h1, -⟩ := steps_has hv has_init
  obtain ⟨u', n', ls2, e, g1, g2, g3, g4, g5, g6, -⟩ := getprod_spec h1 hr
  rw [hg, Option.some.injEq, Prod.mk.injEq] at g1
  obtain ⟨rfl, rfl⟩ := g1
  obtain ⟨ls3, h2, h3, h4⟩ := steps_has hw g2
  have he : ruleOf w (n : Int) = e := by
    unfold ruleOf
    rw [Int.toNat_natCast, prefix_get h4 g5]; rfl
  have hn : ¬ ((n : Int) < 0) := by omega
  have g7 := g6.mono h3
  unfold getlabel getword islexical
  simp only [hn, if_false, he]
  have nz : ∀ {i : Nat} {s : Str}, ls3[i]? = some s → s ≠ epsilon → i ≠ 0 := by
    intro i s h1 h4 h3
    rw [h3, h2.eps, Option.some.injEq] at h1
    exact h4 h1.symm
  have len : ∀ {yf : List (List Nat)}, YieldBits.Spec.Fits yf → YieldBits.HoldsLengths e.lengths yf → e.lengths ≠ 0 := by
    intro yf hy hl h0
    obtain ⟨l, x, hx⟩ := elements_last yf hy.1 fun a ha => (hy.2.1 a ha).1
    have := hl l.length
    rw [h0, elements_marked, hx] at this
    simp at this
  cases g7 with
  | word k1 k2 k3 k4 k5 =>
    cases hr with
    | word hl hw' =>
      refine ⟨by simp [idtolabel_spec h2 k1], ?_, by simp, by simp⟩
      intro x hx
      simp only [YF.word.injEq] at hx
      subst hx
      rw [if_neg (nz k4 hw'), idtolabel_spec h2 k4]
      exact ⟨rfl, by simp [nz k4 hw', k5]⟩
  | site k1 k2 k3 k4 k5 => exact ⟨by simp [idtolabel_spec h2 k1], by simp, by simp [k4], by simp [k4]⟩
  | un k1 k2 k3 k4 k5 =>
    cases hr with
    | un hl hm hy =>
      refine ⟨by simp [idtolabel_spec h2 k1], by simp, ?_, by simp [len hy k5]⟩
      intro h; simp only [YF.spans.injEq] at h; exact absurd h hy.1
  | bin k1 k2 k3 k4 k5 =>
    cases hr with
    | bin hl hm hn' hy =>
      refine ⟨by simp [idtolabel_spec h2 k1], by simp, ?_, by simp [len hy k5]⟩
      intro h; simp only [YF.spans.injEq] at h; exact absurd h hy.1

/-! ### Files -/

theorem readN_map {α : Type} {f : Cell → Option α} {g : α → Cell} (h : ∀ x, f (g x) = some x) (l : List α) (rest : List Cell) :
    readN f l.length (l.map g ++ rest) = some (l, rest) := by
  unfold readN
  rw [if_neg (by simp)]
  have e1 : (l.map g ++ rest).take l.length = l.map g := by
    have := List.take_left (l₁ := l.map g) (l₂ := rest)
    rwa [List.length_map] at this
  have e2 : (l.map g ++ rest).drop l.length = rest := by
    have := List.drop_left (l₁ := l.map g) (l₂ := rest)
    rwa [List.length_map] at this
  have e3 : (l.map g).mapM f = some l := by
    clear e1 e2
    induction l with
    | nil => rfl
    | cons x l ih => simp [h, ih]
  rw [e1, e2, e3]
  rfl

theorem foldl_number {α : Type} [DecidableEq α] (f : Nat → α) (l : List α) (h : l.Nodup) (hf : ∀ n x, l[n]? = some x → f n = x) : ∀ k, k ≤ l.length →
    (List.range k).foldl (fun d n => Dict.set d (f n) n) [] = number (l.take k) := by
  intro k
  induction k with
  | zero => intro _; rfl
  | succ k ih =>
    intro hk
    rw [List.range_succ, List.foldl_append, ih (by omega), List.foldl_cons, List.foldl_nil, hf k l[k] (List.getElem?_eq_getElem (by omega)),
      List.take_succ_eq_append_getElem (by omega)]
    have hn : l[k] ∉ l.take k := by
      intro hm
      obtain ⟨i, hi, e⟩ := List.mem_iff_getElem.1 hm
      rw [List.getElem_take] at e
      have := (List.Nodup.getElem_inj_iff h).1 e
      rw [List.length_take] at hi
      omega
    have := set_number hn
    rw [List.length_take, Nat.min_eq_left (by omega)] at this
    exact this

/-- **C53**: Reading a file written by `tofile`, or a pickle, gives an equal object. -/
theorem C53_file {v : Vocabulary} (hv : Spec.Steps init v) : fromfile (tofile v) = some v := by
  obtain ⟨ls, h, -⟩ := steps_has hv has_init
  have hl1 : v.prods.length = v.prodbuf.length := by rw [h.prods, length_number]
  have hl2 : v.labels.length + 1 = v.labelidx.length := by rw [h.labels, length_number, h.idx, offsets]; simp
  have e0 : tofile v = ([v.prods.length, v.labels.length + 1, v.labelbuf.length].map Cell.num) ++ (v.prodbuf.map .rule ++ (v.labelidx.map .num ++ (v.labelbuf.map .char ++ []))) := by
    simp [tofile]
  unfold fromfile
  rw [e0]
  have r0 := readN_map (f := asNum) (g := Cell.num) (fun _ => rfl) [v.prods.length, v.labels.length + 1, v.labelbuf.length]
    (v.prodbuf.map .rule ++ (v.labelidx.map .num ++ (v.labelbuf.map .char ++ [])))
  simp only [List.length_cons, List.length_nil] at r0
  have r1 := readN_map (f := asRule) (g := Cell.rule) (fun _ => rfl) v.prodbuf (v.labelidx.map .num ++ (v.labelbuf.map .char ++ []))
  have r2 := readN_map (f := asNum) (g := Cell.num) (fun _ => rfl) v.labelidx (v.labelbuf.map .char ++ [])
  have r3 := readN_map (f := asChar) (g := Cell.char) (fun _ => rfl) v.labelbuf []
  rw [r0]
  simp only [Option.bind_eq_bind, Option.bind_some, List.getElem?_cons_zero, List.getElem?_cons_succ, Option.getD_some, hl1, hl2]
  rw [r1]
  simp only [Option.bind_some]
  rw [r2]
  simp only [Option.bind_some]
  rw [r3]
  simp only [Option.bind_some, Option.pure_def, Option.some.injEq]
  have p1 := foldl_number (fun n => v.prodbuf[n]?.getD ⟨0, 0, 0, 0, 0⟩) v.prodbuf h.pnodup (fun n x hx => by simp [hx]) v.prodbuf.length (Nat.le_refl _)
  have p2 := foldl_number (fun n => idtolabel (⟨[], [], v.prodbuf, v.labelidx, v.labelbuf⟩ : Vocabulary) n) ls h.nodup (fun n x hx => idtolabel_spec h hx) ls.length (Nat.le_refl _)
  rw [List.take_length] at p1 p2
  have hl3 : v.labelidx.length - 1 = ls.length := by rw [h.idx, offsets]; simp
  rw [hl3, p1, p2, ← h.prods, ← h.labels]

/-! ### Examples -/

def exRules : List Prods.Rule := [⟨[['S'], ['N', 'P'], ['V', 'P', '_', '2']], .spans [[1, 0, 1]]⟩, ⟨[['N', 'P'], epsilon], .word ['M', 'a', 'r', 'y']⟩,
  ⟨[['V', 'P', '_', '2'], ['V'], ['A']], .spans [[0], [1]]⟩, ⟨[['V']], .spans []⟩]

/-- A vocabulary with all kinds of productions. -/
example : ∃ v, Spec.Steps init v ∧ v.prodbuf.length = 4 ∧ getword v 1 = some ['M', 'a', 'r', 'y'] ∧ getlabel v 2 = ['V', 'P', '_', '2'] ∧ getword v 3 = none := by
  refine ⟨_, .step (r := exRules[3]) (n := 3) (.step (r := exRules[2]) (n := 2) (.step (r := exRules[1]) (n := 1) (.step (r := exRules[0]) (n := 0) .refl
    (.bin (by decide) (by decide) (by decide) ⟨by decide, by decide, by decide⟩) rfl) (.word (by decide) (by decide)) rfl)
    (.bin (by decide) (by decide) (by decide) ⟨by decide, by decide, by decide⟩) rfl) (.site (by decide)) rfl, ?_⟩
  decide +kernel

/-- **C53 (disagreement)**: A word `Epsilon` is confused with a substitution site: the production of a preterminal with this word gets the number of a substitution
site with the same label, it has no word, and it is not lexical. -/
theorem C53_epsilon : (getprod init ⟨[['N'], epsilon], .word epsilon⟩).bind (fun x => getprod x.1 ⟨[['N']], .spans []⟩) = getprod init ⟨[['N'], epsilon], .word epsilon⟩ ∧
    (getprod init ⟨[['N'], epsilon], .word epsilon⟩).map (fun x => (getword x.1 x.2, islexical x.1 x.2)) = some (none, false) := by decide +kernel

end Disco.Frag.Vocab
