import Verif.Basic.Dict
import Verif.Eval.Transform
/-!
# C81: which sentences of a corpus are used

Corpus readers for bracketed trees (treebank.py:126-249), the choice of training and test sentences (runexp.py:85-110, 227-262), and the pairs of trees
that are evaluated (eval.py:644-656). Reading single lines is a parameter.
-/
namespace Disco.CorpusSel
open EvalTransform (sortedPos)

/-- `Item` (treebank.py:33-41). -/
structure Item where
  tree : PTree Str
  sent : List Str
  block : Str
  deriving DecidableEq

/-- `enumerate(xs, start)`. -/
def enumFrom {α : Type} : Nat → List α → List (Nat × α)
  | _, [] => []
  | n, x :: xs => (n, x) :: enumFrom (n + 1) xs

/-- `BracketCorpusReader._read_blocks` (treebank.py:218-221): a file is given by its lines, with their line endings. -/
def readBlocks (files : List (List Str)) : List (Nat × Str) := files.flatMap fun f => enumFrom 1 (f.filter (· ≠ []))

/-- `islice(xs, start, end)`, for `None` and natural numbers. -/
def islice {α : Type} (s e : Option Nat) (xs : List α) : List α :=
  (match e with | none => xs | some e => xs.take e).drop (s.getD 0)

/-- `OrderedDict(pairs)`. -/
def ofPairs {α : Type} (ps : List (Nat × α)) : Dict Nat α := ps.foldl (fun d p => d.set p.1 p.2) []

/-- `self._parsetree(a)` for each block, in order; `none` is an exception. -/
def parseAll (parse : Str → Option Item) : List (Nat × Str) → Option (List (Nat × Item))
  | [] => some []
  | (n, a) :: r => match parse a, parseAll parse r with
    | some x, some xs => some ((n, x) :: xs)
    | _, _ => none

/-- `list(itertrees(start, end))` (treebank.py:126-134). -/
def itertrees (parse : Str → Option Item) (files : List (List Str)) (s e : Option Nat) : Option (List (Nat × Item)) :=
  parseAll parse (islice s e (readBlocks files))

/-- The value of `_trees_cache` (treebank.py:140-142). -/
def parsed (parse : Str → Option Item) (files : List (List Str)) : Option (Dict Nat Item) := (parseAll parse (readBlocks files)).map ofPairs

/-- `[(w, t) for w, (_, t) in zip(a.sent, sorted(a.tree.pos()))]` (treebank.py:160-162). -/
def tagged (x : Item) : List (Str × Str) := List.zipWith (fun w p => (w, p.2)) x.sent (sortedPos x.tree)

/-- What a program does with a corpus reader: the methods, and changing the objects under a key of `trees()` or `sents()` in place (for example, binarizing
the tree). -/
inductive Op where
  | trees
  | sents
  | tagged
  | blocks
  | iter (s e : Option Nat)
  | modify (k : Nat) (f : Item → Item)

/-- The methods. -/
def Op.isQuery : Op → Bool
  | .modify _ _ => false
  | _ => true

/-- What is returned; `error` is an exception, `done` the absence of an answer. -/
inductive Ans where
  | error
  | done
  | trees (d : Dict Nat (PTree Str))
  | sents (d : Dict Nat (List Str))
  | tagged (d : Dict Nat (List (Str × Str)))
  | blocks (d : Dict Nat Str)
  | items (l : List (Nat × Item))
  deriving DecidableEq

/-- `self._trees_cache` after the test `if not self._trees_cache` (treebank.py:140); the cache is `[]` if it is `None` or empty. -/
def filled (parse : Str → Option Item) (files : List (List Str)) (cache : Dict Nat Item) : Option (Dict Nat Item) :=
  if cache = [] then parsed parse files else some cache

/-- A method that uses the cache (treebank.py:136-162). -/
def withCache (parse : Str → Option Item) (files : List (List Str)) (cache : Dict Nat Item) (f : Dict Nat Item → Ans) : Dict Nat Item × Ans :=
  match filled parse files cache with
  | none => (cache, .error)
  | some d => (d, f d)

/-- One operation. The trees and sentences in the dictionaries that are returned are the objects in the cache. -/
def step (parse : Str → Option Item) (files : List (List Str)) (cache : Dict Nat Item) : Op → Dict Nat Item × Ans
  | .trees => withCache parse files cache fun d => .trees (d.map fun p => (p.1, p.2.tree))
  | .sents => withCache parse files cache fun d => .sents (d.map fun p => (p.1, p.2.sent))
  | .tagged => withCache parse files cache fun d => .tagged (d.map fun p => (p.1, tagged p.2))
  | .blocks => (cache, .blocks (ofPairs (readBlocks files)))
  | .iter s e => (cache, match itertrees parse files s e with | none => .error | some l => .items l)
  | .modify k f => (cache.map fun p => if p.1 = k then (p.1, f p.2) else p, .done)

/-- A history. -/
def exec (parse : Str → Option Item) (files : List (List Str)) : Dict Nat Item → List Op → List Ans
  | _, [] => []
  | cache, op :: ops => (step parse files cache op).2 :: exec parse files (step parse files cache op).1 ops

/-- `traincorpus.numsents`, `testcorpus.numsents`: a number, or a fraction `a / b` (rounding of floating point numbers is not modelled). -/
inductive Num where
  | count (n : Nat)
  | frac (a b : Nat)

/-- `int(numsents * len(...))` (runexp.py:90-92, 235-236). -/
def Num.get (len : Nat) : Num → Nat
  | .count n => n
  | .frac a b => a * len / b

/-- `1 <= len(item.sent) <= maxwords`. -/
def fits (maxwords : Nat) (x : Item) : Bool := decide (1 ≤ x.sent.length) && decide (x.sent.length ≤ maxwords)

/-- The training set (runexp.py:237-239), with the number of sentences already known. -/
def trainset (parse : Str → Option Item) (files : List (List Str)) (skip numsents maxwords : Nat) : Option (List Item) :=
  (itertrees parse files (some skip) (some (skip + numsents))).map fun l => (l.map Prod.snd).filter (fits maxwords)

/-- The test set (runexp.py:93-110): a dictionary; `train` is `traincorpus.numsents`. -/
def testset (parse : Str → Option Item) (files : List (List Str)) (skiptrain : Bool) (train skip numsents maxwords : Nat) : Option (Dict Nat Item) :=
  (itertrees parse files (some (if skiptrain then skip + train else skip)) (some ((if skiptrain then skip + train else skip) + numsents))).map fun l =>
    ofPairs (l.filter fun p => fits maxwords p.2)

/-- `len(train.sents())` (runexp.py:236). -/
def numsents (parse : Str → Option Item) (files : List (List Str)) : Option Nat := (parsed parse files).map List.length

/-- The calls of `evaluator.add` (eval.py:644-656): sentence number, gold item, candidate item; `none` is `KeyError`. -/
def evalPairs (gold : Dict Nat Item) : Dict Nat Item → Option (List (Nat × Item × Item))
  | [] => some []
  | (n, c) :: r => match gold.get? n, evalPairs gold r with
    | some g, some l => some ((n, g, c) :: l)
    | _, _ => none

/-- `ensureroot` (treebank.py:175-179). -/
def ensureRoot (root : Str) : PTree Str → PTree Str
  | .leaf i => .leaf i
  | .node l cs => if l = [] then .node root cs else if l ≠ root then .node root [.node l cs] else .node l cs

/-! ### Specification -/

/-- Line `k` (counted from 1) of the last file that has at least `k` lines. -/
def Spec.lastLine (files : List (List Str)) (k : Nat) : Option Str :=
  if k = 0 then none else (files.reverse.find? fun f => k ≤ f.length).bind fun f => f[k - 1]?

/-- The length of the longest file. -/
def Spec.longest (files : List (List Str)) : Nat := (files.map List.length).foldl max 0

/-- The files have no empty lines (lines come with their line endings) and every line can be read. -/
structure Spec.Readable (parse : Str → Option Item) (item : Str → Item) (files : List (List Str)) : Prop where
  ne : ∀ f ∈ files, ∀ l ∈ f, l ≠ []
  ok : ∀ f ∈ files, ∀ l ∈ f, parse l = some (item l)

/-! ### Lemmas -/

theorem enumFrom_length {α : Type} (n : Nat) (l : List α) : (enumFrom n l).length = l.length := by
  induction l generalizing n with
  | nil => rfl
  | cons x l ih => simp [enumFrom, ih]

theorem enumFrom_getElem? {α : Type} (n : Nat) (l : List α) (i : Nat) : (enumFrom n l)[i]? = l[i]?.map fun x => (n + i, x) := by
  induction l generalizing n i with
  | nil => simp [enumFrom]
  | cons x l ih =>
    cases i with
    | zero => simp [enumFrom]
    | succ i => rw [enumFrom, List.getElem?_cons_succ, ih, List.getElem?_cons_succ]; congr 1; funext y; congr 1; omega

theorem enumFrom_map {α β : Type} (f : α → β) (n : Nat) (l : List α) : enumFrom n (l.map f) = (enumFrom n l).map fun p => (p.1, f p.2) := by
  induction l generalizing n with
  | nil => rfl
  | cons x l ih => simp [enumFrom, ih]

theorem parseAll_ok {parse : Str → Option Item} {item : Str → Item} {l : List (Nat × Str)} (h : ∀ p ∈ l, parse p.2 = some (item p.2)) :
    parseAll parse l = some (l.map fun p => (p.1, item p.2)) := by
  induction l with
  | nil => rfl
  | cons p l ih =>
    obtain ⟨n, a⟩ := p
    rw [parseAll, h (n, a) (by simp), ih (fun q hq => h q (by simp [hq]))]
    rfl

theorem filter_ne {files : List (List Str)} (h : ∀ f ∈ files, ∀ l ∈ f, l ≠ []) : readBlocks files = files.flatMap (enumFrom 1) := by
  induction files with
  | nil => rfl
  | cons f fs ih =>
    have := ih (fun g hg => h g (by simp [hg]))
    rw [readBlocks] at this ⊢
    rw [List.flatMap_cons, List.flatMap_cons, this, List.filter_eq_self.2]
    intro a ha
    simpa using h f (by simp) a ha

theorem mem_readBlocks {files : List (List Str)} {p : Nat × Str} (h : p ∈ readBlocks files) : ∃ f ∈ files, p.2 ∈ f := by
  rw [readBlocks, List.mem_flatMap] at h
  obtain ⟨f, hf, hp⟩ := h
  refine ⟨f, hf, ?_⟩
  obtain ⟨i, hi⟩ := List.getElem?_of_mem hp
  rw [enumFrom_getElem?] at hi
  cases hx : (f.filter (· ≠ []))[i]? with
  | none => rw [hx] at hi; simp at hi
  | some x =>
    rw [hx] at hi
    have : p = (1 + i, x) := by simpa using hi.symm
    rw [this]
    exact List.mem_of_mem_filter (List.mem_of_getElem? hx)

theorem mem_islice {α : Type} {s e : Option Nat} {xs : List α} {x : α} (h : x ∈ islice s e xs) : x ∈ xs := by
  cases e with
  | none => exact List.mem_of_mem_drop h
  | some e => exact List.mem_of_mem_take (List.mem_of_mem_drop h)

theorem islice_map {α β : Type} (f : α → β) (s e : Option Nat) (xs : List α) : islice s e (xs.map f) = (islice s e xs).map f := by
  cases e <;> simp [islice, List.map_drop, List.map_take]

theorem itertrees_eq {parse : Str → Option Item} {item : Str → Item} {files : List (List Str)} (h : Spec.Readable parse item files) (s e : Option Nat) :
    itertrees parse files s e = some ((islice s e (files.flatMap (enumFrom 1))).map fun p => (p.1, item p.2)) := by
  rw [itertrees, parseAll_ok (item := item), filter_ne h.ne]
  intro p hp
  obtain ⟨f, hf, hpf⟩ := mem_readBlocks (mem_islice hp)
  exact h.ok f hf _ hpf

theorem parsed_eq {parse : Str → Option Item} {item : Str → Item} {files : List (List Str)} (h : Spec.Readable parse item files) :
    parsed parse files = some (ofPairs (files.flatMap fun f => enumFrom 1 (f.map item))) := by
  rw [parsed, parseAll_ok (item := item), filter_ne h.ne, Option.map_some, List.map_flatMap]
  · congr 3
    funext f
    rw [enumFrom_map]
  · intro p hp
    obtain ⟨f, hf, hpf⟩ := mem_readBlocks hp
    exact h.ok f hf _ hpf

theorem keys_set {α : Type} (d : Dict Nat α) (k : Nat) (v : α) : (d.set k v).keys = if k ∈ d.keys then d.keys else d.keys ++ [k] := by
  induction d with
  | nil => simp [Dict.set, Dict.keys]
  | cons p d ih =>
    obtain ⟨k', v'⟩ := p
    rw [Dict.set]
    by_cases h : k' = k
    · simp [h, Dict.keys]
    · rw [if_neg h]
      simp only [Dict.keys, List.map_cons, List.mem_cons] at ih ⊢
      rw [ih]
      by_cases h2 : k ∈ d.map Prod.fst
      · simp [h2]
      · simp [h2, Ne.symm h]

/-- Adding the lines of one file. -/
theorem setFile {α : Type} (l : List α) : ∀ (j m : Nat) (d : Dict Nat α), d.keys = List.range' 1 m → j ≤ m →
    ((enumFrom (j + 1) l).foldl (fun d p => d.set p.1 p.2) d).keys = List.range' 1 (max m (j + l.length)) ∧
    ∀ k, ((enumFrom (j + 1) l).foldl (fun d p => d.set p.1 p.2) d).get? k =
      if j < k ∧ k ≤ j + l.length then l[k - 1 - j]? else d.get? k := by
  induction l with
  | nil =>
    intro j m d hd hj
    refine ⟨by simp [enumFrom, hd, Nat.max_eq_left hj], fun k => ?_⟩
    rw [if_neg (by simp)]; rfl
  | cons x l ih =>
    intro j m d hd hj
    rw [enumFrom, List.foldl_cons]
    have hk : (d.set (j + 1) x).keys = List.range' 1 (max m (j + 1)) := by
      rw [keys_set, hd]
      by_cases h : j + 1 ≤ m
      · rw [if_pos (by rw [List.mem_range'_1]; omega), Nat.max_eq_left h]
      · have : m = j := by omega
        subst this
        rw [if_neg (by rw [List.mem_range'_1]; omega), Nat.max_eq_right (by omega), List.range'_concat]
        simp [Nat.add_comm]
    obtain ⟨h1, h2⟩ := ih (j + 1) (max m (j + 1)) (d.set (j + 1) x) hk (by omega)
    refine ⟨by rw [h1]; congr 1; simp; omega, fun k => ?_⟩
    rw [h2 k, Dict.get?_set]
    simp only [List.length_cons]
    by_cases h3 : j + 1 < k ∧ k ≤ j + 1 + l.length
    · rw [if_pos h3, if_pos (by omega), show k - 1 - j = (k - 1 - (j + 1)) + 1 by omega, List.getElem?_cons_succ]
    · rw [if_neg h3]
      by_cases h4 : j + 1 = k
      · rw [if_pos h4, if_pos (by omega), show k - 1 - j = 0 by omega]; rfl
      · rw [if_neg h4, if_neg (by omega)]

theorem ofFiles {α : Type} (fs : List (List α)) :
    (ofPairs (fs.flatMap (enumFrom 1))).keys = List.range' 1 ((fs.map List.length).foldl max 0) ∧
    ∀ k, (ofPairs (fs.flatMap (enumFrom 1))).get? k =
      if k = 0 then none else (fs.reverse.find? fun f => k ≤ f.length).bind fun f => f[k - 1]? := by
  induction fs using List.reverseRecOn with
  | nil => exact ⟨rfl, fun k => by simp [ofPairs, Dict.get?]⟩
  | append_singleton fs f ih =>
    obtain ⟨h1, h2⟩ := ih
    have e : ofPairs ((fs ++ [f]).flatMap (enumFrom 1)) = (enumFrom (0 + 1) f).foldl (fun d p => d.set p.1 p.2) (ofPairs (fs.flatMap (enumFrom 1))) := by
      simp [ofPairs, List.flatMap_append, List.foldl_append]
    obtain ⟨h3, h4⟩ := setFile f 0 _ _ h1 (Nat.zero_le _)
    rw [e]
    refine ⟨by rw [h3]; simp, fun k => ?_⟩
    rw [h4 k, h2 k]
    simp only [List.reverse_append, List.reverse_cons, List.reverse_nil, List.nil_append, List.singleton_append, List.find?_cons, Nat.zero_add, Nat.sub_zero]
    by_cases hk : k = 0
    · simp [hk]
    · by_cases h5 : k ≤ f.length
      · simp [h5, hk, Nat.pos_of_ne_zero hk]
      · simp [h5, hk]

theorem length_of_keys {α : Type} {d : Dict Nat α} {m : Nat} (h : d.keys = List.range' 1 m) : d.length = m := by
  have := congrArg List.length h
  simpa [Dict.keys] using this

theorem longest_single {α : Type} (f : List α) : (([f] : List (List α)).map List.length).foldl max 0 = f.length := by simp

theorem parsed_spec {parse : Str → Option Item} {item : Str → Item} {files : List (List Str)} (h : Spec.Readable parse item files) :
    ∃ d, parsed parse files = some d ∧ d.keys = List.range' 1 (Spec.longest files) ∧ ∀ k, d.get? k = (Spec.lastLine files k).map item := by
  have e : files.flatMap (fun f => enumFrom 1 (f.map item)) = (files.map (List.map item)).flatMap (enumFrom 1) := by rw [List.flatMap_map]
  obtain ⟨h1, h2⟩ := ofFiles (files.map (List.map item))
  refine ⟨_, parsed_eq h, ?_, fun k => ?_⟩
  · rw [e, h1, Spec.longest]
    congr 2
    rw [List.map_map]
    exact List.map_congr_left fun f _ => by simp
  · rw [e, h2 k, Spec.lastLine]
    by_cases hk : k = 0
    · simp [hk]
    · simp only [if_neg hk]
      rw [← List.map_reverse, List.find?_map]
      have : (fun f : List Str => (fun f : List Item => decide (k ≤ f.length)) (f.map item)) = fun f : List Str => decide (k ≤ f.length) := by
        funext f; simp
      simp only [Function.comp_def, List.length_map]
      cases (files.reverse.find? fun f => decide (k ≤ f.length)) with
      | none => rfl
      | some f => simp

theorem exec_append (parse : Str → Option Item) (files : List (List Str)) (a b : List Op) : ∀ cache,
    ∃ cache', exec parse files cache (a ++ b) = exec parse files cache a ++ exec parse files cache' b := by
  induction a with
  | nil => intro cache; exact ⟨cache, rfl⟩
  | cons o a ih =>
    intro cache
    obtain ⟨c, hc⟩ := ih (step parse files cache o).1
    exact ⟨c, by simp [exec, hc]⟩

/-- The cache is empty or what has been read. -/
def Fresh (parse : Str → Option Item) (files : List (List Str)) (cache : Dict Nat Item) : Prop := cache = [] ∨ parsed parse files = some cache

theorem filled_fresh {parse : Str → Option Item} {files : List (List Str)} {cache : Dict Nat Item} (h : Fresh parse files cache) :
    filled parse files cache = parsed parse files := by
  rw [filled]
  split
  · rfl
  · rename_i hne
    rcases h with h | h
    · exact absurd h hne
    · exact h.symm

theorem withCache_fresh {parse : Str → Option Item} {files : List (List Str)} {cache : Dict Nat Item} (h : Fresh parse files cache) (f : Dict Nat Item → Ans) :
    (withCache parse files cache f).2 = (withCache parse files [] f).2 ∧ Fresh parse files (withCache parse files cache f).1 := by
  rw [withCache, withCache, filled_fresh h, filled_fresh (cache := []) (Or.inl rfl)]
  cases hp : parsed parse files with
  | none => exact ⟨rfl, h⟩
  | some d => exact ⟨rfl, Or.inr hp⟩

theorem step_fresh {parse : Str → Option Item} {files : List (List Str)} {cache : Dict Nat Item} (h : Fresh parse files cache) {op : Op}
    (ho : op.isQuery = true) : (step parse files cache op).2 = (step parse files [] op).2 ∧ Fresh parse files (step parse files cache op).1 := by
  cases op with
  | trees => exact withCache_fresh h _
  | sents => exact withCache_fresh h _
  | tagged => exact withCache_fresh h _
  | blocks => exact ⟨rfl, h⟩
  | iter s e => exact ⟨rfl, h⟩
  | modify k f => simp [Op.isQuery] at ho

/-! ### C81 -/

/-- **C81**, histories. As long as the objects that are returned are not changed, each answer of a corpus reader is the one that a new reader would
give, whatever has been asked before; also when reading fails. -/
theorem C81_history (parse : Str → Option Item) (files : List (List Str)) (ops : List Op) (h : ∀ op ∈ ops, op.isQuery = true) :
    exec parse files [] ops = ops.map fun op => (step parse files [] op).2 := by
  have key : ∀ (ops : List Op) (cache : Dict Nat Item), Fresh parse files cache → (∀ op ∈ ops, op.isQuery = true) →
      exec parse files cache ops = ops.map fun op => (step parse files [] op).2 := by
    intro ops
    induction ops with
    | nil => intro _ _ _; rfl
    | cons o ops ih =>
      intro cache hc ho
      obtain ⟨h1, h2⟩ := step_fresh hc (ho o (by simp))
      rw [exec, List.map_cons, h1, ih _ h2 fun op hop => ho op (by simp [hop])]
  exact key ops [] (Or.inl rfl) h

/-- **C81**, histories with changes. What `itertrees` and `blocks` return never depends on what has been done before, even if trees have been changed in
place. -/
theorem C81_history_iter (parse : Str → Option Item) (files : List (List Str)) (before : List Op) (op : Op)
    (h : op = .blocks ∨ ∃ s e, op = .iter s e) :
    exec parse files [] (before ++ [op]) = exec parse files [] before ++ [(step parse files [] op).2] := by
  obtain ⟨c, hc⟩ := exec_append parse files before [op] []
  rw [hc]
  rcases h with rfl | ⟨s, e, rfl⟩ <;> rfl

/-- **C81**, disagreement: `trees` returns the trees of the cache. If a tree that it has returned is changed in place (as `binarize` does), then `trees`,
`sents` and `tagged_sents` return the changed objects from then on. -/
theorem C81_alias_disagreement (parse : Str → Option Item) (item : Str → Item) (files : List (List Str)) (h : Spec.Readable parse item files) (k : Nat)
    (f : Item → Item) (l : Str) (hl : Spec.lastLine files k = some l) :
    ∃ d : Dict Nat (PTree Str), exec parse files [] [.trees, .modify k f, .trees] =
      [(step parse files [] .trees).2, .done, .trees d] ∧ d.get? k = some (f (item l)).tree := by
  obtain ⟨d, h1, h2, h3⟩ := parsed_spec h
  have hget : ∀ (d : Dict Nat Item) (x : Item), d.get? k = some x →
      (Dict.get? ((d.map fun p => if p.1 = k then (p.1, f p.2) else p).map fun p => (p.1, p.2.tree)) k) = some (f x).tree := by
    intro d x
    induction d with
    | nil => intro hx; simp [Dict.get?] at hx
    | cons p d ih =>
      intro hx
      obtain ⟨n, y⟩ := p
      rw [Dict.get?] at hx
      by_cases hn : n = k
      · rw [if_pos hn] at hx
        cases hx
        simp [hn, Dict.get?]
      · rw [if_neg hn] at hx
        simp only [List.map_cons, if_neg hn, Dict.get?]
        exact ih hx
  have hne : d ≠ [] := by
    rintro rfl
    have := h3 k
    rw [hl] at this
    simp [Dict.get?] at this
  have hfill : filled parse files [] = some d := by rw [filled, if_pos rfl, h1]
  refine ⟨(d.map fun p => if p.1 = k then (p.1, f p.2) else p).map fun p => (p.1, p.2.tree), ?_, hget d (item l) (by rw [h3, hl]; rfl)⟩
  have hne2 : (d.map fun p => if p.1 = k then (p.1, f p.2) else p) ≠ [] := by simpa using hne
  simp only [exec, step, withCache, hfill]
  rw [filled, if_neg hne2]

/-- **C81**, one file. The sentences of a file have the keys 1, 2, ... in the order of the lines; `itertrees(start, end)` gives those from position `start`
up to `end`, and `trees` gives the same trees under the same keys. -/
theorem C81_file {parse : Str → Option Item} {item : Str → Item} {f : List Str} (h : Spec.Readable parse item [f]) :
    (∀ s e, ∃ r, itertrees parse [f] (some s) (some e) = some r ∧ r.length = min e f.length - s ∧
      ∀ i, i < r.length → ∃ l, f[s + i]? = some l ∧ r[i]? = some (s + i + 1, item l)) ∧
    itertrees parse [f] none none = parsed parse [f] ∧
    ∃ d, parsed parse [f] = some d ∧ d.keys = List.range' 1 f.length ∧ ∀ k, d.get? (k + 1) = f[k]?.map item := by
  have e1 : ([f] : List (List Str)).flatMap (enumFrom 1) = enumFrom 1 f := by simp
  refine ⟨fun s e => ⟨_, itertrees_eq h _ _, ?_, ?_⟩, ?_, ?_⟩
  · rw [e1]; simp [islice, enumFrom_length]
  · rw [e1]
    intro i hi
    simp only [islice, Option.getD_some, List.length_map, List.length_drop, List.length_take, enumFrom_length] at hi
    have hlt : s + i < f.length := by omega
    refine ⟨f[s + i], List.getElem?_eq_getElem hlt, ?_⟩
    simp only [islice, Option.getD_some, List.getElem?_map, List.getElem?_drop]
    rw [List.getElem?_take, if_pos (by omega), enumFrom_getElem?, List.getElem?_eq_getElem hlt]
    simp [Nat.add_comm]
  · obtain ⟨d, h1, h2, h3⟩ := parsed_spec h
    rw [itertrees_eq h, h1, e1]
    congr 1
    simp only [islice, Option.getD_none, List.drop_zero]
    have hk : d.keys = List.range' 1 f.length := by rw [h2, Spec.longest, longest_single]
    have hlen := length_of_keys hk
    refine List.ext_getElem? fun i => ?_
    rw [List.getElem?_map, enumFrom_getElem?]
    by_cases hi : i < f.length
    · have hi' : i < d.length := by omega
      rw [List.getElem?_eq_getElem hi, List.getElem?_eq_getElem hi']
      have k1 : d[i].1 = 1 + i := by
        have := congrArg (fun l => l[i]?) hk
        simp only [Dict.keys, List.getElem?_map, List.getElem?_eq_getElem hi', Option.map_some] at this
        rw [List.getElem?_range' (by omega)] at this
        simpa [Nat.add_comm] using this
      have hwf : d.WF := by rw [Dict.WF, hk]; exact List.nodup_range'
      have k2 := Dict.get?_of_mem hwf (k := d[i].1) (v := d[i].2) (List.getElem_mem hi')
      rw [h3, k1, Spec.lastLine, if_neg (by omega)] at k2
      have k3 : (([f] : List (List Str)).reverse.find? fun g => decide (1 + i ≤ g.length)) = some f := by
        simp [show 1 + i ≤ f.length by omega]
      rw [k3, Option.bind_some, show 1 + i - 1 = i by omega, List.getElem?_eq_getElem hi] at k2
      have k4 : item f[i] = d[i].2 := by simpa using k2
      simp only [Option.map_some, Option.some.injEq]
      exact Prod.ext k1.symm k4
    · rw [List.getElem?_eq_none (by omega), List.getElem?_eq_none (by omega)]
      rfl
  · obtain ⟨d, h1, h2, h3⟩ := parsed_spec h
    refine ⟨d, h1, by rw [h2, Spec.longest, longest_single], fun k => ?_⟩
    rw [h3, Spec.lastLine, if_neg (by omega)]
    by_cases hk : k + 1 ≤ f.length
    · simp [hk]
    · have : f[k]? = none := List.getElem?_eq_none (by omega)
      simp [hk, this]

/-- **C81**, several files: what the dictionaries contain. The number of sentences is that of the longest file; under key `k` is line `k` of the last file
with at least `k` lines. `itertrees` has all sentences of all files. -/
theorem C81_files {parse : Str → Option Item} {item : Str → Item} {files : List (List Str)} (h : Spec.Readable parse item files) :
    (∃ d, parsed parse files = some d ∧ d.keys = List.range' 1 (Spec.longest files) ∧ ∀ k, d.get? k = (Spec.lastLine files k).map item) ∧
    ∃ r, itertrees parse files none none = some r ∧ r.map Prod.snd = files.flatten.map item := by
  refine ⟨parsed_spec h, _, itertrees_eq h _ _, ?_⟩
  simp only [islice, Option.getD_none, List.drop_zero, List.map_map]
  induction files with
  | nil => rfl
  | cons f fs ih =>
    rw [List.flatMap_cons, List.map_append, ih ⟨fun g hg => h.ne g (by simp [hg]), fun g hg => h.ok g (by simp [hg])⟩, List.flatten_cons, List.map_append]
    congr 1
    clear ih h
    generalize 1 = n
    induction f generalizing n with
    | nil => rfl
    | cons x f ih => rw [enumFrom, List.map_cons, ih]; rfl

theorem foldl_max (l : List Nat) : ∀ a, l.foldl max a ≤ a + l.sum := by
  induction l with
  | nil => intro a; simp
  | cons x l ih => intro a; rw [List.foldl_cons, List.sum_cons]; have := ih (max a x); omega

/-- **C81**, disagreement: whenever the pattern matches two files that are not empty, `trees` and `sents` lack sentences that `itertrees` has. -/
theorem C81_lost_disagreement {parse : Str → Option Item} {item : Str → Item} (f g : List Str) (hf : f ≠ []) (hg : g ≠ []) (rest : List (List Str))
    (h : Spec.Readable parse item (f :: g :: rest)) :
    ∃ d r, parsed parse (f :: g :: rest) = some d ∧ itertrees parse (f :: g :: rest) none none = some r ∧ d.length < r.length := by
  obtain ⟨⟨d, h1, h2, -⟩, r, h4, h5⟩ := C81_files h
  refine ⟨d, r, h1, h4, ?_⟩
  have h6 := congrArg List.length h5
  have hf' := List.length_pos_iff.2 hf
  have hg' := List.length_pos_iff.2 hg
  rw [length_of_keys h2, Spec.longest]
  simp only [List.length_map, List.length_flatten, List.map_cons, List.sum_cons] at h6
  rw [h6]
  simp only [List.map_cons, List.foldl_cons]
  have := foldl_max (rest.map List.length) (max (max 0 f.length) g.length)
  omega

/-- **C81**, tags. In `tagged_sents`, each word is paired with the tag above the terminal with its index. -/
theorem C81_tagged (x : Item) (h : EvalTransform.Spec.Over x.sent.length x.tree) :
    (tagged x).length = x.sent.length ∧ ∀ i w, x.sent[i]? = some w → (tagged x)[i]? = some (w, EvalTransform.Spec.tag x.tree i) := by
  rw [tagged, EvalTransform.sortedPos_eq h]
  refine ⟨by simp, fun i w hw => ?_⟩
  have hi := (List.getElem?_eq_some_iff.1 hw).1
  rw [List.getElem?_zipWith, hw]
  simp [hi]

/-! ### Training and test sets -/

theorem slice_file {parse : Str → Option Item} {item : Str → Item} {f : List Str} (h : Spec.Readable parse item [f]) (s n : Nat) :
    itertrees parse [f] (some s) (some (s + n)) = some ((enumFrom (s + 1) ((f.drop s).take n)).map fun p => (p.1, item p.2)) := by
  rw [itertrees_eq h]
  congr 2
  refine List.ext_getElem? fun i => ?_
  simp only [islice, Option.getD_some, List.flatMap_cons, List.flatMap_nil, List.append_nil, List.getElem?_drop, List.getElem?_take, enumFrom_getElem?]
  by_cases hi : i < n
  · rw [if_pos (by omega), if_pos hi]; congr 1; funext x; congr 1; omega
  · rw [if_neg (by omega), if_neg hi]; rfl

theorem map_snd_enumFrom {α β : Type} (f : α → β) (n : Nat) (l : List α) : ((enumFrom n l).map fun p => (p.1, f p.2)).map Prod.snd = l.map f := by
  induction l generalizing n with
  | nil => rfl
  | cons x l ih => simp only [enumFrom, List.map_cons]; rw [ih]

/-- **C81**, training set. From a single file, it consists of the trees of lines `skip + 1` to `skip + numsents`, in this order, without those that have no
words or more than `maxwords`. -/
theorem C81_train {parse : Str → Option Item} {item : Str → Item} {f : List Str} (h : Spec.Readable parse item [f]) (skip n maxwords : Nat) :
    trainset parse [f] skip n maxwords =
      some ((((f.drop skip).take n).map item).filter fun x => 1 ≤ x.sent.length ∧ x.sent.length ≤ maxwords) := by
  rw [trainset, slice_file h, Option.map_some, map_snd_enumFrom]
  congr 2
  funext x
  rw [fits, Bool.decide_and]

theorem ofPairs_get? {α : Type} (l : List (Nat × α)) (h : (l.map Prod.fst).Nodup) : ofPairs l = l := by
  have key : ∀ (l : List (Nat × α)) (d : Dict Nat α), (d.keys ++ l.map Prod.fst).Nodup → l.foldl (fun d p => d.set p.1 p.2) d = d ++ l := by
    intro l
    induction l with
    | nil => intro d _; simp
    | cons p l ih =>
      intro d hd
      have hset : ∀ (d : Dict Nat α), p.1 ∉ d.keys → d.set p.1 p.2 = d ++ [p] := by
        intro d
        induction d with
        | nil => intro _; rfl
        | cons q d ih =>
          intro hq
          obtain ⟨k, v⟩ := q
          simp only [Dict.keys, List.map_cons, List.mem_cons, not_or] at hq
          rw [Dict.set, if_neg (Ne.symm hq.1), ih hq.2]
          rfl
      have hp : p.1 ∉ d.keys := by
        intro hm
        rw [List.nodup_append] at hd
        exact hd.2.2 _ hm _ (by simp) rfl
      rw [List.foldl_cons, hset d hp, ih]
      · simp
      · simpa [Dict.keys] using hd
  have := key l [] (by simpa [Dict.keys] using h)
  rw [ofPairs, this]; rfl

theorem enumFrom_keys {α : Type} (n : Nat) (l : List α) : (enumFrom n l).map Prod.fst = List.range' n l.length := by
  induction l generalizing n with
  | nil => rfl
  | cons x l ih => simp [enumFrom, ih, List.range'_succ]

/-- **C81**, test set. From a single file, it has just the sentences of the lines from `skip + 1` on (counted after the first `train` lines with
`skiptrain`), `numsents` lines, with at least one word and at most `maxwords`; each is under the number of its line, and they are in order. -/
theorem C81_test {parse : Str → Option Item} {item : Str → Item} {f : List Str} (h : Spec.Readable parse item [f]) (skiptrain : Bool)
    (train skip n maxwords : Nat) :
    ∃ d, testset parse [f] skiptrain train skip n maxwords = some d ∧ d.keys.Pairwise (· < ·) ∧
      ∀ k x, d.get? k = some x ↔ ∃ i l, k = i + 1 ∧ f[i]? = some l ∧ x = item l ∧ (if skiptrain then skip + train else skip) ≤ i ∧
        i < (if skiptrain then skip + train else skip) + n ∧ 1 ≤ x.sent.length ∧ x.sent.length ≤ maxwords := by
  generalize hs : (if skiptrain then skip + train else skip) = s
  let l := ((enumFrom (s + 1) ((f.drop s).take n)).map fun p => (p.1, item p.2))
  have hkeys : l.map Prod.fst = List.range' (s + 1) ((f.drop s).take n).length := by
    rw [← enumFrom_keys, List.map_map]
    rfl
  have hsub : ((l.filter fun p => fits maxwords p.2).map Prod.fst).Sublist (l.map Prod.fst) := List.filter_sublist.map _
  have hnd : ((l.filter fun p => fits maxwords p.2).map Prod.fst).Nodup := by
    refine hsub.nodup ?_
    rw [hkeys]; exact List.nodup_range'
  refine ⟨l.filter fun p => fits maxwords p.2, ?_, ?_, ?_⟩
  · rw [testset, hs, slice_file h, Option.map_some, ofPairs_get? _ hnd]
  · refine List.Pairwise.sublist hsub ?_
    rw [hkeys]
    exact List.pairwise_lt_range'
  · intro k x
    have hmem : (k, x) ∈ l ↔ ∃ i y, k = i + 1 ∧ f[i]? = some y ∧ x = item y ∧ s ≤ i ∧ i < s + n := by
      constructor
      · intro hm
        obtain ⟨j, hj⟩ := List.getElem?_of_mem hm
        simp only [l, List.getElem?_map, enumFrom_getElem?, List.getElem?_take, List.getElem?_drop] at hj
        by_cases hjn : j < n
        · rw [if_pos hjn] at hj
          cases hy : f[s + j]? with
          | none => rw [hy] at hj; simp at hj
          | some y =>
            rw [hy] at hj
            simp only [Option.map_some, Option.some.injEq, Prod.mk.injEq] at hj
            exact ⟨s + j, y, by omega, hy, hj.2.symm, by omega, by omega⟩
        · rw [if_neg hjn] at hj; simp at hj
      · rintro ⟨i, y, rfl, hy, rfl, h1, h2⟩
        refine List.mem_of_getElem? (i := i - s) ?_
        simp only [l, List.getElem?_map, enumFrom_getElem?, List.getElem?_take, List.getElem?_drop]
        rw [if_pos (by omega), show s + (i - s) = i by omega, hy]
        simp only [Option.map_some, Option.some.injEq, Prod.mk.injEq, and_true]
        omega
    constructor
    · intro hg
      have := Dict.mem_of_get? hg
      rw [List.mem_filter, hmem] at this
      obtain ⟨⟨i, y, h1, h2, h3, h4, h5⟩, h6⟩ := this
      simp only [fits, Bool.and_eq_true, decide_eq_true_eq] at h6
      exact ⟨i, y, h1, h2, h3, h4, h5, h6.1, h6.2⟩
    · rintro ⟨i, y, h1, h2, h3, h4, h5, h6, h7⟩
      refine Dict.get?_of_mem (by rw [Dict.WF, Dict.keys]; exact hnd) ?_
      rw [List.mem_filter, hmem]
      exact ⟨⟨i, y, h1, h2, h3, h4, h5⟩, by simp [fits, h6, h7]⟩

theorem mem_slice {parse : Str → Option Item} {item : Str → Item} {f : List Str} (h : Spec.Readable parse item [f]) (s n : Nat) :
    ∃ r, itertrees parse [f] (some s) (some (s + n)) = some r ∧
      ∀ k x, (k, x) ∈ r ↔ ∃ i y, k = i + 1 ∧ f[i]? = some y ∧ x = item y ∧ s ≤ i ∧ i < s + n := by
  refine ⟨_, slice_file h s n, fun k x => ?_⟩
  constructor
  · intro hm
    obtain ⟨j, hj⟩ := List.getElem?_of_mem hm
    simp only [List.getElem?_map, enumFrom_getElem?, List.getElem?_take, List.getElem?_drop] at hj
    by_cases hjn : j < n
    · rw [if_pos hjn] at hj
      cases hy : f[s + j]? with
      | none => rw [hy] at hj; simp at hj
      | some y =>
        rw [hy] at hj
        simp only [Option.map_some, Option.some.injEq, Prod.mk.injEq] at hj
        exact ⟨s + j, y, by omega, hy, hj.2.symm, by omega, by omega⟩
    · rw [if_neg hjn] at hj; simp at hj
  · rintro ⟨i, y, rfl, hy, rfl, h1, h2⟩
    refine List.mem_of_getElem? (i := i - s) ?_
    simp only [List.getElem?_map, enumFrom_getElem?, List.getElem?_take, List.getElem?_drop]
    rw [if_pos (by omega), show s + (i - s) = i by omega, hy]
    simp only [Option.map_some, Option.some.injEq, Prod.mk.injEq, and_true]
    omega

/-- **C81**, disjointness. With `skiptrain`, when training and test set are from the same file: no sentence of the test set is among those from which the
training set is chosen, provided that at least as many lines are skipped for the test set as for the training set. -/
theorem C81_disjoint {parse : Str → Option Item} {item : Str → Item} {f : List Str} (h : Spec.Readable parse item [f])
    (trainskip train trainmax testskip n testmax : Nat) (hle : trainskip ≤ testskip) :
    ∃ r d, itertrees parse [f] (some trainskip) (some (trainskip + train)) = some r ∧
      trainset parse [f] trainskip train trainmax = some ((r.map Prod.snd).filter fun x => 1 ≤ x.sent.length ∧ x.sent.length ≤ trainmax) ∧
      testset parse [f] true train testskip n testmax = some d ∧ ∀ k ∈ d.keys, k ∉ r.map Prod.fst := by
  obtain ⟨r, hr, hm⟩ := mem_slice h trainskip train
  obtain ⟨d, hd, -, hg⟩ := C81_test h true train testskip n testmax
  refine ⟨r, d, hr, ?_, hd, fun k hk hkr => ?_⟩
  · rw [trainset, hr, Option.map_some]
    congr 2
    funext x
    rw [fits, Bool.decide_and]
  · rw [Dict.mem_keys] at hk
    obtain ⟨x, hx⟩ := Option.isSome_iff_exists.1 hk
    obtain ⟨i, l, h1, -, -, h2, -⟩ := (hg k x).1 hx
    obtain ⟨⟨k', y⟩, hy, rfl⟩ := List.mem_map.1 hkr
    obtain ⟨j, l', h3, -, -, -, h4⟩ := (hm k' y).1 hy
    simp only [if_true] at h2
    simp only at h1
    omega

/-- **C81**, disagreement: `skiptrain` only takes account of the number of training sentences, not of the sentences that are skipped before the training
set. Whenever more lines are skipped for the training set than for the test set, and the file is long enough: if the first sentence that is in both ranges
has an admissible length, it is in the training set and in the test set. -/
theorem C81_overlap_disagreement {parse : Str → Option Item} {item : Str → Item} {f : List Str} (h : Spec.Readable parse item [f])
    (trainskip train trainmax testskip n testmax : Nat) (hlt : testskip < trainskip) (ht : 0 < train) (hn : trainskip < testskip + train + n) (hn0 : 0 < n)
    (l : Str) (hl : f[max trainskip (testskip + train)]? = some l) (h1 : 1 ≤ (item l).sent.length) (h2 : (item l).sent.length ≤ min trainmax testmax) :
    ∃ tr d, trainset parse [f] trainskip train trainmax = some tr ∧ testset parse [f] true train testskip n testmax = some d ∧
      item l ∈ tr ∧ d.get? (max trainskip (testskip + train) + 1) = some (item l) := by
  obtain ⟨d, hd, -, hg⟩ := C81_test h true train testskip n testmax
  refine ⟨_, d, C81_train h _ _ _, hd, ?_, (hg _ _).2 ⟨max trainskip (testskip + train), l, rfl, hl, rfl, ?_⟩⟩
  · rw [List.mem_filter]
    refine ⟨List.mem_map.2 ⟨l, List.mem_of_getElem? (i := max trainskip (testskip + train) - trainskip) ?_, rfl⟩, ?_⟩
    · rw [List.getElem?_take, if_pos (by omega), List.getElem?_drop, show trainskip + (max trainskip (testskip + train) - trainskip) = max trainskip (testskip + train) by omega, hl]
    · simp; omega
  · simp only [if_true]; omega

/-- **C81**, fractions. When `numsents` is a fraction `a / b`, it is a fraction of the length of the file, rounded down: never more than there are. With
several files, it is a fraction of the length of the longest file (not of the number of sentences that are read). -/
theorem C81_fraction {parse : Str → Option Item} {item : Str → Item} {files : List (List Str)} (h : Spec.Readable parse item files) (a b : Nat) (hab : a ≤ b) :
    (numsents parse files).map (fun len => (Num.frac a b).get len) = some (a * Spec.longest files / b) ∧
    a * Spec.longest files / b ≤ Spec.longest files ∧ (∀ f, files = [f] → Spec.longest files = f.length) := by
  obtain ⟨d, h1, h2, -⟩ := parsed_spec h
  refine ⟨by rw [numsents, h1, Option.map_some, Option.map_some, length_of_keys h2]; rfl, ?_, ?_⟩
  · exact Nat.div_le_of_le_mul (Nat.mul_le_mul_right _ hab)
  · rintro f rfl; rw [Spec.longest, longest_single]

/-! ### Evaluation -/

/-- **C81**, evaluation. The pairs that are evaluated are the candidate trees in their order, each with the gold tree under the same key. There is an
exception exactly if a candidate has no gold tree. Gold trees without candidate have no influence: sentences for which there is no parse are not counted. -/
theorem C81_eval (gold cand : Dict Nat Item) :
    (evalPairs gold cand = none ↔ ∃ p ∈ cand, p.1 ∉ gold.keys) ∧
    (∀ r, evalPairs gold cand = some r → r.map (fun x => (x.1, x.2.2)) = cand ∧ ∀ x ∈ r, gold.get? x.1 = some x.2.1) ∧
    ∀ gold' : Dict Nat Item, (∀ k ∈ cand.keys, gold'.get? k = gold.get? k) → evalPairs gold' cand = evalPairs gold cand := by
  refine ⟨?_, ?_, ?_⟩
  · induction cand with
    | nil => simp [evalPairs]
    | cons p cand ih =>
      obtain ⟨n, c⟩ := p
      rw [evalPairs]
      cases hg : gold.get? n with
      | none =>
        simp only [true_iff]
        exact ⟨(n, c), by simp, by rw [Dict.mem_keys, hg]; simp⟩
      | some g =>
        have hn : n ∈ gold.keys := by rw [Dict.mem_keys, hg]; rfl
        cases he : evalPairs gold cand with
        | none =>
          simp only [true_iff]
          obtain ⟨p, hp, hk⟩ := ih.1 he
          exact ⟨p, by simp [hp], hk⟩
        | some r =>
          simp only [reduceCtorEq, false_iff]
          rintro ⟨p, hp, hk⟩
          rcases List.mem_cons.1 hp with rfl | hp
          · exact hk hn
          · have := ih.2 ⟨p, hp, hk⟩
            rw [he] at this; simp at this
  · induction cand with
    | nil => intro r hr; simp only [evalPairs, Option.some.injEq] at hr; subst hr; simp
    | cons p cand ih =>
      obtain ⟨n, c⟩ := p
      intro r hr
      rw [evalPairs] at hr
      cases hg : gold.get? n with
      | none => rw [hg] at hr; simp at hr
      | some g =>
        rw [hg] at hr
        cases he : evalPairs gold cand with
        | none => rw [he] at hr; simp at hr
        | some r' =>
          rw [he] at hr
          simp only [Option.some.injEq] at hr
          subst hr
          obtain ⟨h1, h2⟩ := ih r' he
          refine ⟨by simp [h1], fun x hx => ?_⟩
          rcases List.mem_cons.1 hx with rfl | hx
          · exact hg
          · exact h2 x hx
  · intro gold' hk
    induction cand with
    | nil => rfl
    | cons p cand ih =>
      obtain ⟨n, c⟩ := p
      rw [evalPairs, evalPairs, hk n (by simp [Dict.keys]), ih fun k hk' => hk k (by simp only [Dict.keys] at hk' ⊢; simp [hk'])]

/-! ### Root label -/

/-- **C81**, root. With `ensureroot`, the root has the given label, the terminals and their order are unchanged, and doing it again changes nothing. A tree
that already has this root is unchanged; an empty root label is replaced; in other cases the whole tree is the only child of the new root. -/
theorem C81_root (root : Str) (l : Str) (cs : List (PTree Str)) :
    (∃ ds, ensureRoot root (.node l cs) = .node root ds) ∧ (ensureRoot root (.node l cs)).leaves = (PTree.node l cs).leaves ∧
    ensureRoot root (ensureRoot root (.node l cs)) = ensureRoot root (.node l cs) ∧
    (l ≠ [] → l ≠ root → ensureRoot root (.node l cs) = .node root [.node l cs]) ∧ (l = [] ∨ l = root → ensureRoot root (.node l cs) = .node root cs) := by
  by_cases h1 : l = []
  · subst h1
    refine ⟨⟨cs, by simp [ensureRoot]⟩, by simp [ensureRoot, PTree.leaves], ?_, by simp, by simp [ensureRoot]⟩
    by_cases h2 : root = []
    · simp [ensureRoot, h2]
    · simp [ensureRoot, h2]
  · by_cases h2 : l = root
    · subst h2; simp [ensureRoot, h1]
    · refine ⟨⟨[.node l cs], by simp [ensureRoot, h1, h2]⟩, by simp [ensureRoot, h1, h2, PTree.leaves, PTree.leavesL], ?_, by simp [ensureRoot, h1, h2], by simp [h1, h2]⟩
      by_cases h3 : root = []
      · simp [ensureRoot, h1, h3]
      · simp [ensureRoot, h1, h2, h3]

/-! ### Witnesses -/

/-- Stands for `_parsetree`: a sentence with one word. -/
def exItem (l : Str) : Item := ⟨.node "S".toList [.node "A".toList [.leaf 0]], [l.dropLast], l⟩

/-- The same, with a failure for blank lines. -/
def exParse (l : Str) : Option Item := if l = ['\n'] then none else some (exItem l)

/-- Two files. -/
def exFiles : List (List Str) := [["a\n".toList, "b\n".toList, "c\n".toList], ["d\n".toList, "e\n".toList]]

theorem exReadable : Spec.Readable exParse exItem exFiles := by
  constructor <;> (intro f hf l hl; simp only [exFiles, List.mem_cons, List.not_mem_nil, or_false] at hf; rcases hf with rfl | rfl <;> (revert l; decide +kernel))

-- The hypotheses of `C81_files`, `C81_lost_disagreement`, `C81_alias_disagreement` hold: three of five sentences are left; a change is seen.
example : ∃ d r, parsed exParse exFiles = some d ∧ itertrees exParse exFiles none none = some r ∧ d.length < r.length :=
  C81_lost_disagreement _ _ (by simp) (by simp) [] exReadable
example : (parsed exParse exFiles).map (·.map fun p => (p.1, p.2.sent)) = some [(1, ["d".toList]), (2, ["e".toList]), (3, ["c".toList])] := by decide +kernel
example := C81_alias_disagreement exParse exItem exFiles exReadable 2 (fun x => { x with tree := .node "T".toList [] }) "e\n".toList (by decide +kernel)

-- A history of queries on a file with a blank line: the same exception each time, but `itertrees` can give the sentences before it.
example : exec exParse [["a\n".toList, "\n".toList]] [] [.trees, .iter none (some 1), .sents] = [.error, .items [(1, exItem "a\n".toList)], .error] := by
  rw [C81_history]
  · decide +kernel
  · decide +kernel

-- One file.
theorem exReadable1 : Spec.Readable exParse exItem [["a\n".toList, "b\n".toList, "c\n".toList]] := by
  constructor <;> (intro f hf l hl; rw [List.mem_singleton.1 hf] at hl; revert l; decide +kernel)
example := C81_file exReadable1
example : trainset exParse [["a\n".toList, "b\n".toList, "c\n".toList]] 1 1 40 = some [exItem "b\n".toList] := by
  rw [C81_train exReadable1]; decide +kernel

/-- **C81**, disagreement for test sets from several files: of two chosen sentences with the same line number, one is left out. -/
theorem C81_testset_disagreement :
    (itertrees exParse exFiles (some 0) (some 5)).map (·.length) = some 5 ∧
    (testset exParse exFiles false 0 0 5 40).map (·.map fun p => (p.1, p.2.sent)) = some [(1, ["d".toList]), (2, ["e".toList]), (3, ["c".toList])] := by
  decide +kernel

-- The hypotheses of `C81_disjoint` and `C81_overlap_disagreement` hold.
example := C81_disjoint exReadable1 0 1 40 0 2 40 (Nat.le_refl 0)
example := C81_overlap_disagreement exReadable1 1 1 40 0 2 40 (by omega) (by omega) (by omega) (by omega) "b\n".toList (by decide +kernel) (by decide +kernel)
  (by decide +kernel)

-- Training and test set are the same: the first two sentences skipped, then two for training; the test set starts after the first two.
example : trainset exParse [["a\n".toList, "b\n".toList, "c\n".toList, "d\n".toList]] 2 2 40 = some [exItem "c\n".toList, exItem "d\n".toList] ∧
    (testset exParse [["a\n".toList, "b\n".toList, "c\n".toList, "d\n".toList]] true 2 0 2 40).map (·.map Prod.snd) =
      some [exItem "c\n".toList, exItem "d\n".toList] := by decide +kernel

-- Tags.
example := C81_tagged ⟨EvalTransform.goldT, EvalTransform.exsent, []⟩ EvalTransform.over_gold
example : tagged ⟨.node "S".toList [.node "B".toList [.leaf 1], .node "A".toList [.leaf 0]], ["x".toList, "y".toList], []⟩ =
      [("x".toList, "A".toList), ("y".toList, "B".toList)] := by decide +kernel
end Disco.CorpusSel
