import Verif.Basic.Dict
import Verif.Basic.Str
import Mathlib.Data.List.Basic
/-!
# C92: reading a corpus of Alpino XML files

`AlpinoCorpusReader.blocks`, `_read_blocks` and `_parse` (treebank.py:428-467), with `itertrees` and `trees` (118-146) for this reader.

Simplifications: reading XML (`ElementTree.fromstring`) is a parameter, and so is turning a document into an item (`alpinotree` and the transformations in
`_parsetree`), which does not depend on other files (C75). Files can be opened. The cache is left out, as it only affects callers that change trees (C81).
-/
namespace Disco.AlpinoCorpus

/-! ## Model -/

/-- `os.path.split(p)`. -/
def split (p : Str) : Str × Str :=
  let tail := (p.reverse.takeWhile (· ≠ '/')).reverse
  let head := p.take (p.length - tail.length)
  (if head.all (· = '/') then head else (head.reverse.dropWhile (· = '/')).reverse, tail)

/-- `os.path.join(a, b)`. -/
def join (a b : Str) : Str :=
  if ['/'].isPrefixOf b then b
  else if a = [] ∨ ['/'].isSuffixOf a then a ++ b
  else a ++ '/' :: b

/-- The key of a sentence (treebank.py:447-449). -/
def key (p : Str) : Str :=
  let n := join (split (split p).1).2 (split p).2
  n.take (n.length - 4)

/-- What goes wrong: the local variable has no value, or the document cannot be turned into a tree. -/
inductive Err where
  | unbound
  | parse
  deriving DecidableEq

/-- What an iterator gives, and the exception that it ends with, if any. -/
abbrev Res (α : Type) := List α × Option Err

variable {B X T : Type}

/-- `_read_blocks` (treebank.py:439-457), with the value of the variable `xmlblock`; a file is a path and its contents. -/
def readBlocks (fromstring : B → Option X) : Option X → List (Str × B) → Res (Str × B × X)
  | _, [] => ([], none)
  | xmlblock, (path, raw) :: r =>
    match (fromstring raw).or xmlblock with
    | none => ([], some .unbound)
    | some x => ((key path, raw, x) :: (readBlocks fromstring (some x) r).1, (readBlocks fromstring (some x) r).2)

/-- `islice(xs, start, end)` for an iterator that may raise: it reads as many elements as the larger of the two says. -/
def islice {α : Type} (s : Nat) (e : Option Nat) (xs : Res α) : Res α :=
  match e with
  | none => (xs.1.drop s, xs.2)
  | some e => ((xs.1.take e).drop s, if max s e ≤ xs.1.length then none else xs.2)

/-- `for n, a in …: yield n, self._parsetree(a)` (treebank.py:126-127). -/
def parseAll (parse : X → Option T) : List (Str × B × X) → Option Err → Res (Str × T)
  | [], err => ([], err)
  | (n, _, x) :: r, err =>
    match parse x with
    | none => ([], some .parse)
    | some t => ((n, t) :: (parseAll parse r err).1, (parseAll parse r err).2)

/-- `itertrees(start, end)` (treebank.py:118-127). -/
def itertrees (fromstring : B → Option X) (parse : X → Option T) (files : List (Str × B)) (s : Nat) (e : Option Nat) : Res (Str × T) :=
  parseAll parse (islice s e (readBlocks fromstring none files)).1 (islice s e (readBlocks fromstring none files)).2

/-- `OrderedDict(xs)`. -/
def ofPairs {α : Type} (xs : List (Str × α)) : Dict Str α := xs.foldl (fun d p => d.set p.1 p.2) []

/-- `OrderedDict(xs)` for an iterator that may raise. -/
def orderedDict {α : Type} (xs : Res (Str × α)) : Except Err (Dict Str α) :=
  match xs.2 with
  | some e => .error e
  | none => .ok (ofPairs xs.1)

/-- `trees()` (treebank.py:129-136). -/
def trees (fromstring : B → Option X) (parse : X → Option T) (files : List (Str × B)) : Except Err (Dict Str T) :=
  orderedDict (itertrees fromstring parse files 0 none)

/-- `blocks()` (treebank.py:430-437). -/
def blocks (fromstring : B → Option X) (files : List (Str × B)) : Except Err (Dict Str B) :=
  orderedDict ((readBlocks fromstring none files).1.map fun x => (x.1, x.2.1), (readBlocks fromstring none files).2)

/-! ## Specification -/

/-- The last of these files that is well-formed, as a document. -/
def Spec.lastDocument (fromstring : B → Option X) (files : List (Str × B)) : Option X := (files.filterMap fun f => fromstring f.2).getLast?

/-- The file is in directory `sub` and is called `name.xml`. -/
def Spec.Named (p sub name : Str) : Prop := sub ≠ [] ∧ '/' ∉ sub ∧ '/' ∉ name ∧
  (p = sub ++ '/' :: (name ++ ['.', 'x', 'm', 'l']) ∨ ∃ pre, p = pre ++ '/' :: (sub ++ '/' :: (name ++ ['.', 'x', 'm', 'l'])))

/-! ## Lemmas -/

theorem takeWhile_slash {t : Str} (h : '/' ∉ t) : t.takeWhile (fun c => decide (c ≠ '/')) = t := by
  induction t with
  | nil => rfl
  | cons c t ih =>
    rw [List.mem_cons, not_or] at h
    rw [List.takeWhile_cons_of_pos (by simpa using fun e => h.1 e.symm), ih h.2]

theorem tail_eq {a t : Str} (h : '/' ∉ t) : ((a ++ '/' :: t).reverse.takeWhile (fun c => decide (c ≠ '/'))).reverse = t := by
  have hr : '/' ∉ t.reverse := by simpa using h
  rw [show (a ++ '/' :: t).reverse = t.reverse ++ '/' :: a.reverse by simp, List.takeWhile_append_of_pos]
  · simp
  · intro x hx
    simp only [ne_eq, decide_not, Bool.not_eq_eq_eq_not, Bool.not_true, decide_eq_false_iff_not]
    rintro rfl
    exact hr hx

theorem split_none {t : Str} (h : '/' ∉ t) : split t = ([], t) := by
  have hr : '/' ∉ t.reverse := by simpa using h
  unfold split
  simp only
  rw [takeWhile_slash hr, List.reverse_reverse, Nat.sub_self, List.take_zero]
  rfl

theorem split_eq {a t : Str} {c : Char} (h : '/' ∉ t) (hc : c ≠ '/') : split (a ++ c :: '/' :: t) = (a ++ [c], t) := by
  unfold split
  have ht := tail_eq (a := a ++ [c]) h
  rw [show a ++ [c] ++ '/' :: t = a ++ c :: '/' :: t by simp] at ht
  simp only
  rw [ht]
  have hh : (a ++ c :: '/' :: t).take ((a ++ c :: '/' :: t).length - t.length) = a ++ [c, '/'] := by
    rw [show a ++ c :: '/' :: t = (a ++ [c, '/']) ++ t by simp]
    exact List.take_left' (by rw [List.length_append (as := a ++ [c, '/']), Nat.add_sub_cancel, List.length_append])
  rw [hh, if_neg (by simp [hc])]
  simp [hc]

theorem split_snd {a t : Str} (h : '/' ∉ t) : (split (a ++ '/' :: t)).2 = t := by
  unfold split
  exact tail_eq h

theorem key_eq {p sub name : Str} (h : Spec.Named p sub name) : key p = sub ++ '/' :: name := by
  obtain ⟨h1, h2, h3, h4⟩ := h
  obtain ⟨s, c, rfl⟩ : ∃ s c, sub = s ++ [c] := ⟨sub.dropLast, sub.getLast h1, (List.dropLast_append_getLast h1).symm⟩
  have hc : c ≠ '/' := by rintro rfl; exact h2 (by simp)
  have hn : '/' ∉ name ++ ['.', 'x', 'm', 'l'] := by simp [h3]
  have hj : join (s ++ [c]) (name ++ ['.', 'x', 'm', 'l']) = s ++ [c] ++ '/' :: (name ++ ['.', 'x', 'm', 'l']) := by
    unfold join
    rw [if_neg, if_neg]
    · rw [not_or, List.isSuffixOf_iff_suffix]
      refine ⟨by simp, ?_⟩
      rintro ⟨r, hr⟩
      have := congrArg List.getLast? hr
      simp at this
      exact hc this.symm
    · rw [List.isPrefixOf_iff_prefix]
      rintro ⟨r, hr⟩
      exact hn (by rw [← hr]; simp)
  have key1 : (split p).2 = name ++ ['.', 'x', 'm', 'l'] ∧ (split (split p).1).2 = s ++ [c] := by
    rcases h4 with rfl | ⟨pre, rfl⟩
    · rw [show s ++ [c] ++ '/' :: (name ++ ['.', 'x', 'm', 'l']) = s ++ c :: '/' :: (name ++ ['.', 'x', 'm', 'l']) by simp, split_eq hn hc, split_none h2]
      exact ⟨rfl, rfl⟩
    · rw [show pre ++ '/' :: (s ++ [c] ++ '/' :: (name ++ ['.', 'x', 'm', 'l'])) = (pre ++ '/' :: s) ++ c :: '/' :: (name ++ ['.', 'x', 'm', 'l']) by simp,
        split_eq hn hc]
      refine ⟨rfl, ?_⟩
      simp only
      rw [show pre ++ '/' :: s ++ [c] = pre ++ '/' :: (s ++ [c]) by simp, split_snd h2]
  unfold key
  rw [key1.1, key1.2, hj]
  simp only
  rw [show s ++ [c] ++ '/' :: (name ++ ['.', 'x', 'm', 'l']) = (s ++ [c] ++ '/' :: name) ++ ['.', 'x', 'm', 'l'] by simp, List.length_append]
  exact List.take_left' (by simp)

theorem named_inj {sub name sub' name' : Str} (h : '/' ∉ sub) (h' : '/' ∉ sub') (e : sub ++ '/' :: name = sub' ++ '/' :: name') : sub = sub' ∧ name = name' := by
  rw [List.append_eq_append_iff] at e
  rcases e with ⟨w, e1, e2⟩ | ⟨w, e1, e2⟩
  · cases w with
    | nil => simp at e1 e2; exact ⟨e1.symm, e2⟩
    | cons d w =>
      simp only [List.cons_append, List.cons.injEq] at e2
      exact absurd (by rw [e1, ← e2.1]; simp) h'
  · cases w with
    | nil => simp at e1 e2; exact ⟨e1, e2.symm⟩
    | cons d w =>
      simp only [List.cons_append, List.cons.injEq] at e2
      exact absurd (by rw [e1, ← e2.1]; simp) h

/-- Reading from a state in which a document has been read never raises. -/
theorem readBlocks_some (fromstring : B → Option X) (x : X) (files : List (Str × B)) :
    (readBlocks fromstring (some x) files).2 = none ∧ (readBlocks fromstring (some x) files).1.length = files.length ∧
    ∀ i p raw, files[i]? = some (p, raw) →
      (readBlocks fromstring (some x) files).1[i]? = some (key p, raw, (Spec.lastDocument fromstring (files.take (i + 1))).getD x) := by
  induction files generalizing x with
  | nil => simp [readBlocks]
  | cons f r ih =>
    obtain ⟨path, raw⟩ := f
    have hx : (fromstring raw).or (some x) = some ((fromstring raw).getD x) := by cases fromstring raw <;> rfl
    obtain ⟨h1, h2, h3⟩ := ih ((fromstring raw).getD x)
    rw [readBlocks, hx]
    refine ⟨h1, by simp [h2], ?_⟩
    intro i p raw' hi
    cases i with
    | zero =>
      simp only [List.getElem?_cons_zero, Option.some.injEq, Prod.mk.injEq] at hi ⊢
      obtain ⟨rfl, rfl⟩ := hi
      refine ⟨rfl, rfl, ?_⟩
      simp only [Spec.lastDocument, Nat.zero_add, List.take_succ_cons, List.take_zero, List.filterMap_cons, List.filterMap_nil]
      cases fromstring raw <;> rfl
    | succ i =>
      simp only [List.getElem?_cons_succ] at hi ⊢
      rw [h3 i p raw' hi]
      simp only [Spec.lastDocument, List.take_succ_cons, List.filterMap_cons]
      cases hf : fromstring raw with
      | none => rfl
      | some y =>
        simp only [Option.getD_some, List.getLast?_cons]

theorem readBlocks_first (fromstring : B → Option X) (p : Str) (raw : B) (r : List (Str × B)) {x : X} (h : fromstring raw = some x) :
    readBlocks fromstring none ((p, raw) :: r) = readBlocks fromstring (some x) ((p, raw) :: r) := by
  rw [readBlocks, readBlocks, h]
  rfl

theorem parseAll_ok (parse : X → Option T) (t : X → T) (xs : List (Str × B × X)) (h : ∀ x ∈ xs, parse x.2.2 = some (t x.2.2)) (err : Option Err) :
    parseAll parse xs err = (xs.map fun x => (x.1, t x.2.2), err) := by
  induction xs with
  | nil => rfl
  | cons x xs ih =>
    obtain ⟨n, b, x⟩ := x
    rw [parseAll, h _ (List.mem_cons_self), ih (fun y hy => h y (List.mem_cons_of_mem _ hy))]
    rfl

theorem ofPairs_get? {α : Type} (xs : List (Str × α)) (d : Dict Str α) (k : Str) :
    (xs.foldl (fun d p => d.set p.1 p.2) d).get? k = (((xs.filter fun p => decide (p.1 = k)).getLast?).map Prod.snd).or (d.get? k) := by
  induction xs generalizing d with
  | nil => rfl
  | cons x xs ih =>
    rw [List.foldl_cons, ih, Dict.get?_set]
    by_cases h : x.1 = k
    · rw [List.filter_cons_of_pos (by simpa using h), List.getLast?_cons, if_pos h]
      cases (xs.filter fun p => decide (p.1 = k)).getLast? <;> rfl
    · rw [List.filter_cons_of_neg (by simpa using h), if_neg h]

theorem mem_keys_ofPairs {α : Type} (xs : List (Str × α)) (d : Dict Str α) (k : Str) :
    k ∈ (xs.foldl (fun d p => d.set p.1 p.2) d).keys ↔ k ∈ xs.map Prod.fst ∨ k ∈ d.keys := by
  induction xs generalizing d with
  | nil => simp
  | cons x xs ih => rw [List.foldl_cons, ih, Dict.mem_keys_set]; simp [or_assoc, or_left_comm]

theorem set_new {α : Type} (d : Dict Str α) (k : Str) (v : α) (h : k ∉ d.keys) : d.set k v = d ++ [(k, v)] := by
  induction d with
  | nil => rfl
  | cons p d ih =>
    obtain ⟨j, w⟩ := p
    simp only [Dict.keys, List.map_cons, List.mem_cons, not_or] at h
    rw [Dict.set, if_neg (fun e => h.1 e.symm), ih h.2]
    rfl

theorem ofPairs_nodup {α : Type} (xs : List (Str × α)) (d : Dict Str α) (h : (d.keys ++ xs.map Prod.fst).Nodup) :
    xs.foldl (fun d p => d.set p.1 p.2) d = d ++ xs := by
  induction xs generalizing d with
  | nil => simp
  | cons x xs ih =>
    have hx : x.1 ∉ d.keys := by
      rw [List.map_cons, List.nodup_append] at h
      intro hm
      exact h.2.2 _ hm _ (List.mem_cons_self) rfl
    rw [List.foldl_cons, set_new _ _ _ hx, ih]
    · simp
    · simpa [Dict.keys] using h

theorem wf_ofPairs {α : Type} (xs : List (Str × α)) (d : Dict Str α) (h : d.WF) : (xs.foldl (fun d p => d.set p.1 p.2) d).WF := by
  induction xs generalizing d with
  | nil => exact h
  | cons x xs ih => exact ih _ (h.set x.1 x.2)

theorem lastDocument_some (fromstring : B → Option X) (p : Str) (raw : B) (r : List (Str × B)) {x : X} (h : fromstring raw = some x) :
    ∃ y, Spec.lastDocument fromstring ((p, raw) :: r) = some y := by
  simp [Spec.lastDocument, h, List.getLast?_cons]

theorem readBlocks_all (fromstring : B → Option X) (p : Str) (raw : B) (r : List (Str × B)) {x : X} (h : fromstring raw = some x) :
    (readBlocks fromstring none ((p, raw) :: r)).2 = none ∧ (readBlocks fromstring none ((p, raw) :: r)).1.length = r.length + 1 ∧
    ∀ i q raw', ((p, raw) :: r)[i]? = some (q, raw') → ∃ y, Spec.lastDocument fromstring (((p, raw) :: r).take (i + 1)) = some y ∧
      (readBlocks fromstring none ((p, raw) :: r)).1[i]? = some (key q, raw', y) := by
  rw [readBlocks_first _ _ _ _ h]
  obtain ⟨h1, h2, h3⟩ := readBlocks_some fromstring x ((p, raw) :: r)
  refine ⟨h1, h2, fun i q raw' hi => ?_⟩
  rw [h3 i q raw' hi, List.take_succ_cons]
  obtain ⟨y, hy⟩ := lastDocument_some fromstring p raw (r.take i) h
  exact ⟨y, hy, by rw [hy]; rfl⟩

theorem mem_readBlocks {fromstring : B → Option X} {o : Option X} {files : List (Str × B)} {n : Str} {b : B} {x : X} (h : (n, b, x) ∈ (readBlocks fromstring o files).1) :
    o = some x ∨ ∃ f ∈ files, fromstring f.2 = some x := by
  induction files generalizing o with
  | nil => simp [readBlocks] at h
  | cons f r ih =>
    obtain ⟨path, raw⟩ := f
    rw [readBlocks] at h
    cases hf : fromstring raw with
    | none =>
      cases o with
      | none => simp [hf] at h
      | some y =>
        simp only [hf, Option.none_or, List.mem_cons, Prod.mk.injEq] at h
        rcases h with ⟨-, -, rfl⟩ | h
        · exact .inl rfl
        · rcases ih h with h | ⟨f, hm, h⟩
          · exact .inl h
          · exact .inr ⟨f, List.mem_cons_of_mem _ hm, h⟩
    | some y =>
      simp only [hf, Option.some_or, List.mem_cons, Prod.mk.injEq] at h
      rcases h with ⟨-, -, rfl⟩ | h
      · exact .inr ⟨_, List.mem_cons_self, hf⟩
      · rcases ih h with h | ⟨f, hm, h⟩
        · exact .inr ⟨_, List.mem_cons_self, by rw [hf]; exact h⟩
        · exact .inr ⟨f, List.mem_cons_of_mem _ hm, h⟩

theorem readBlocks_wf (fromstring : B → Option X) (doc : B → X) (o : Option X) (files : List (Str × B)) (h : ∀ f ∈ files, fromstring f.2 = some (doc f.2)) :
    readBlocks fromstring o files = (files.map fun f => (key f.1, f.2, doc f.2), none) := by
  induction files generalizing o with
  | nil => rfl
  | cons f r ih =>
    obtain ⟨path, raw⟩ := f
    rw [readBlocks, h (path, raw) List.mem_cons_self, Option.some_or]
    simp only
    rw [ih _ (fun f hf => h f (List.mem_cons_of_mem _ hf))]
    rfl

/-! ## Theorems -/

/-- **C92.** The key of a sentence is the name of its directory and the name of its file without `.xml`; hence two files have the same key if and only if
they have the same name and their directories have the same name. -/
theorem C92_keys : (∀ p sub name, Spec.Named p sub name → key p = sub ++ '/' :: name) ∧
    (∀ p q sub name sub' name', Spec.Named p sub name → Spec.Named q sub' name' → (key p = key q ↔ sub = sub' ∧ name = name')) := by
  refine ⟨fun p sub name h => key_eq h, fun p q sub name sub' name' h h' => ?_⟩
  rw [key_eq h, key_eq h']
  exact ⟨named_inj h.2.1 h'.2.1, by rintro ⟨rfl, rfl⟩; rfl⟩

/-- **C92.** If all files are well-formed and can be turned into trees, `itertrees` gives the tree of each file under its key, in the order of the files, for the
files asked for; and `trees` gives for each key the tree of the last file with this key, and `blocks` the contents of this file. With different keys, these have all
sentences in the order of the files. -/
theorem C92_wellformed (fromstring : B → Option X) (parse : X → Option T) (doc : B → X) (tree : X → T) (files : List (Str × B))
    (hd : ∀ f ∈ files, fromstring f.2 = some (doc f.2)) (ht : ∀ f ∈ files, parse (doc f.2) = some (tree (doc f.2))) :
    (∀ s e, itertrees fromstring parse files s e =
      (((files.take (e.getD files.length)).drop s).map fun f => (key f.1, tree (doc f.2)), none)) ∧
    (∃ ts bs, trees fromstring parse files = .ok ts ∧ blocks fromstring files = .ok bs ∧
      (∀ k, ts.get? k = ((files.filter fun f => decide (key f.1 = k)).getLast?).map fun f => tree (doc f.2)) ∧
      (∀ k, bs.get? k = ((files.filter fun f => decide (key f.1 = k)).getLast?).map fun f => f.2) ∧
      ((files.map fun f => key f.1).Nodup → ts = (files.map fun f => (key f.1, tree (doc f.2))) ∧ bs = files.map fun f => (key f.1, f.2))) := by
  have hr := readBlocks_wf fromstring doc none files hd
  have h1 : ∀ s e, itertrees fromstring parse files s e = (((files.take (e.getD files.length)).drop s).map fun f => (key f.1, tree (doc f.2)), none) := by
    intro s e
    have hsub : ∀ x ∈ (islice s e (readBlocks fromstring none files)).1, parse x.2.2 = some (tree x.2.2) := by
      intro x hx
      have : x ∈ (readBlocks fromstring none files).1 := by
        cases e with
        | none => exact List.mem_of_mem_drop hx
        | some e => exact List.mem_of_mem_take (List.mem_of_mem_drop hx)
      rw [hr] at this
      obtain ⟨f, hf, rfl⟩ := List.mem_map.1 this
      exact ht f hf
    rw [itertrees, parseAll_ok parse tree _ hsub, hr]
    cases e with
    | none => simp [islice, List.map_drop, Function.comp_def]
    | some e => simp [islice, List.map_drop, List.map_take, Function.comp_def]
  refine ⟨h1, ofPairs (files.map fun f => (key f.1, tree (doc f.2))), ofPairs (files.map fun f => (key f.1, f.2)), ?_, ?_, ?_, ?_, ?_⟩
  · rw [trees, h1]
    simp [orderedDict]
  · rw [blocks, hr]
    simp [orderedDict, Function.comp_def]
  · intro k
    rw [ofPairs, ofPairs_get?, List.filter_map, List.getLast?_map]
    simp [Function.comp_def, Dict.get?]
  · intro k
    rw [ofPairs, ofPairs_get?, List.filter_map, List.getLast?_map]
    simp [Function.comp_def, Dict.get?]
  · intro hn
    constructor
    · rw [ofPairs, ofPairs_nodup _ _ (by simpa [Dict.keys, Function.comp_def] using hn), List.nil_append]
    · rw [ofPairs, ofPairs_nodup _ _ (by simpa [Dict.keys, Function.comp_def] using hn), List.nil_append]

/-- **C92 (disagreement).** A file that is not well-formed is reported, but not skipped: if the first file is well-formed, there is a sentence for each file, in
order, and its tree is that of the last well-formed file up to it. Nothing is raised, and `blocks` has the contents of the file itself under this key. -/
theorem C92_stale_disagreement (fromstring : B → Option X) (parse : X → Option T) (tree : X → T) (p : Str) (raw : B) (x : X) (r : List (Str × B))
    (h : fromstring raw = some x) (ht : ∀ y, (∃ f ∈ (p, raw) :: r, fromstring f.2 = some y) → parse y = some (tree y)) :
    (itertrees fromstring parse ((p, raw) :: r) 0 none).2 = none ∧ (itertrees fromstring parse ((p, raw) :: r) 0 none).1.length = r.length + 1 ∧
    ∀ i q raw', ((p, raw) :: r)[i]? = some (q, raw') → ∃ y, Spec.lastDocument fromstring (((p, raw) :: r).take (i + 1)) = some y ∧
      (itertrees fromstring parse ((p, raw) :: r) 0 none).1[i]? = some (key q, tree y) ∧
      ∃ bs b, blocks fromstring ((p, raw) :: r) = .ok bs ∧ bs.get? (key q) = some b ∧
        ((((p, raw) :: r).map fun f => key f.1).Nodup → b = raw') := by
  obtain ⟨h1, h2, h3⟩ := readBlocks_all fromstring p raw r h
  have hp : itertrees fromstring parse ((p, raw) :: r) 0 none = ((readBlocks fromstring none ((p, raw) :: r)).1.map fun x => (x.1, tree x.2.2), none) := by
    rw [itertrees, parseAll_ok parse tree]
    · simp [islice, h1]
    · rintro ⟨n, b, y⟩ hy
      have hy : (n, b, y) ∈ (readBlocks fromstring none ((p, raw) :: r)).1 := hy
      rcases mem_readBlocks hy with hn | hn
      · simp at hn
      · exact ht y hn
  have hb : blocks fromstring ((p, raw) :: r) = .ok (ofPairs (((p, raw) :: r).map fun f => (key f.1, f.2))) := by
    have : (readBlocks fromstring none ((p, raw) :: r)).1.map (fun x => (x.1, x.2.1)) = ((p, raw) :: r).map fun f => (key f.1, f.2) := by
      apply List.ext_getElem?
      intro i
      rw [List.getElem?_map, List.getElem?_map]
      cases hi : ((p, raw) :: r)[i]? with
      | none =>
        rw [List.getElem?_eq_none_iff] at hi
        rw [List.getElem?_eq_none_iff.2 (by rw [h2]; simpa using hi)]
        rfl
      | some f =>
        obtain ⟨y, -, hy⟩ := h3 i f.1 f.2 hi
        rw [hy]
        rfl
    rw [blocks, orderedDict]
    simp only [h1]
    rw [this]
  rw [hp]
  refine ⟨rfl, by simp [h2], fun i q raw' hi => ?_⟩
  obtain ⟨y, hy, hi'⟩ := h3 i q raw' hi
  refine ⟨y, hy, by simp [List.getElem?_map, hi'], ofPairs (((p, raw) :: r).map fun f => (key f.1, f.2)), ?_⟩
  have hm : (key q, raw') ∈ ((p, raw) :: r).map fun f => (key f.1, f.2) := List.mem_map.2 ⟨_, List.mem_of_getElem? hi, rfl⟩
  have hk : key q ∈ (ofPairs (((p, raw) :: r).map fun f => (key f.1, f.2))).keys := by
    rw [ofPairs, mem_keys_ofPairs]
    exact .inl (List.mem_map.2 ⟨_, hm, rfl⟩)
  rw [Dict.mem_keys] at hk
  obtain ⟨b, hb'⟩ := Option.isSome_iff_exists.1 hk
  refine ⟨b, hb, hb', fun hn => ?_⟩
  have hwf : Dict.WF (((p, raw) :: r).map fun f => (key f.1, f.2)) := by simpa [Dict.WF, Dict.keys, Function.comp_def] using hn
  rw [ofPairs, ofPairs_nodup _ _ (by simpa [Dict.keys, Function.comp_def] using hn), List.nil_append, Dict.get?_of_mem hwf hm, Option.some.injEq] at hb'
  exact hb'.symm

/-- **C92.** If a well-formed file cannot be turned into a tree, `itertrees` gives the trees of the files before it and then raises, and `trees` raises. -/
theorem C92_parse_error (fromstring : B → Option X) (parse : X → Option T) (doc : B → X) (tree : X → T) (a b : List (Str × B)) (f : Str × B)
    (hd : ∀ g ∈ a ++ f :: b, fromstring g.2 = some (doc g.2)) (ht : ∀ g ∈ a, parse (doc g.2) = some (tree (doc g.2))) (hf : parse (doc f.2) = none) :
    itertrees fromstring parse (a ++ f :: b) 0 none = (a.map fun g => (key g.1, tree (doc g.2)), some .parse) ∧
    trees fromstring parse (a ++ f :: b) = .error .parse := by
  have h1 : itertrees fromstring parse (a ++ f :: b) 0 none = (a.map fun g => (key g.1, tree (doc g.2)), some .parse) := by
    rw [itertrees, readBlocks_wf fromstring doc none _ hd]
    simp only [islice, List.drop_zero]
    clear hd
    induction a with
    | nil => simp [parseAll, hf]
    | cons g a ih =>
      simp only [List.cons_append, List.map_cons, parseAll, ht g List.mem_cons_self]
      rw [ih (fun x hx => ht x (List.mem_cons_of_mem _ hx))]
  exact ⟨h1, by rw [trees, h1]; rfl⟩

/-- **C92 (disagreement).** If the first file is not well-formed, no sentence of the corpus can be read: every way of reading at least one sentence raises
`UnboundLocalError`. -/
theorem C92_first_disagreement (fromstring : B → Option X) (parse : X → Option T) (p : Str) (raw : B) (r : List (Str × B)) (h : fromstring raw = none) :
    trees fromstring parse ((p, raw) :: r) = .error .unbound ∧ blocks fromstring ((p, raw) :: r) = .error .unbound ∧
    ∀ s e, (e = none ∨ ∃ n, e = some (n + 1)) → itertrees fromstring parse ((p, raw) :: r) s e = ([], some .unbound) := by
  have hr : readBlocks fromstring none ((p, raw) :: r) = ([], some .unbound) := by rw [readBlocks, h]; rfl
  refine ⟨by rw [trees, itertrees, hr]; rfl, by rw [blocks, hr]; rfl, fun s e he => ?_⟩
  rcases he with rfl | ⟨n, rfl⟩
  · rw [itertrees, hr]; simp [islice, parseAll]
  · rw [itertrees, hr]
    have : ¬ max s (n + 1) ≤ 0 := by omega
    simp [islice, parseAll]

/-! ## Examples -/

/-- In the examples a document is a digit, and other contents are not well-formed. -/
def exDoc : Str → Option Char
  | [c] => if c.isDigit then some c else none
  | _ => none
def exFiles : List (Str × Str) := [("c/a/1.xml".toList, "1".toList), ("c/a/2.xml".toList, "<".toList), ("c/b/1.xml".toList, "3".toList)]

example : Spec.Named "c/a/1.xml".toList "a".toList "1".toList ∧ Spec.Named "a/1.xml".toList "a".toList "1".toList :=
  ⟨⟨by decide, by decide, by decide, .inr ⟨"c".toList, rfl⟩⟩, by decide, by decide, by decide, .inl rfl⟩

example : itertrees exDoc some exFiles 0 none = ([("a/1".toList, '1'), ("a/2".toList, '1'), ("b/1".toList, '3')], none) ∧
    itertrees exDoc some exFiles 1 (some 2) = ([("a/2".toList, '1')], none) ∧ itertrees exDoc some (exFiles.drop 1) 0 none = ([], some .unbound) := by
  refine ⟨?_, ?_, ?_⟩ <;> decide +kernel

example : itertrees exDoc (fun c => if c = '2' then none else some c) [("a/1.xml".toList, "1".toList), ("a/2.xml".toList, "2".toList), ("a/3.xml".toList, "3".toList)] 0 none =
    ([("a/1".toList, '1')], some .parse) := by decide +kernel

/-- Two files in different directories with the same key: one of the trees is lost. -/
example : itertrees exDoc some [("x/a/1.xml".toList, "1".toList), ("y/a/1.xml".toList, "2".toList)] 0 none = ([("a/1".toList, '1'), ("a/1".toList, '2')], none) ∧
    (trees exDoc some [("x/a/1.xml".toList, "1".toList), ("y/a/1.xml".toList, "2".toList)]).toOption = some [("a/1".toList, '2')] := by
  constructor <;> decide +kernel

end Disco.AlpinoCorpus
