import Verif.Basic.Dict
import Mathlib.Data.List.Basic
import Mathlib.Data.List.Flatten
import Mathlib.Data.List.Infix

/-!
# Searching lines of a text file (treesearch.py)

The line index of `RegexSearcher`, `_regex_run_query`, `_regex_run_batch`, `_getoffsets`, `extract` and `getinfo`, and the presentation of
matches: `charindices`, `applyhighlight`. A regular expression is a function from a text to the spans it matches (leftmost,
not overlapping); bytes are characters (so that every character takes one byte).
-/

namespace Disco.Lines
open Disco

/-! ## Model -/

/-- `for line in tmp` on a binary file: lines with their newline. -/
def fileLines : List Char → List (List Char)
  | [] => []
  | c :: cs =>
    if c = '\n' then ['\n'] :: fileLines cs
    else match fileLines cs with
      | [] => [[c]]
      | l :: ls => (c :: l) :: ls

/-- The characters for which `bytes.isspace` holds. -/
def isWs (c : Char) : Bool := c = ' ' || c = '\n' || c = '\t' || c = '\r' || c = '\x0b' || c = '\x0c'

/-- `line.isspace()`, for a non-empty line. -/
def isBlank (l : List Char) : Bool := l.all isWs

/-- The loop of `_indexfile` (treesearch.py:1217-1228); the bitmap is the increasing list of its elements. -/
def indexFrom (offset : Nat) : List (List Char) → List Nat
  | [] => [offset]
  | l :: ls => if isBlank l then indexFrom (offset + l.length) ls else offset :: indexFrom (offset + l.length) ls

/-- `_indexfile(filename)` (treesearch.py:1217-1228). -/
def indexFile (data : List Char) : List Nat := indexFrom 0 (fileLines data)

/-- `lineindex.rank(x)`: the number of elements at most `x`. -/
def rank (idx : List Nat) (x : Nat) : Nat := idx.countP (fun o => decide (o ≤ x))

/-- Exceptions. -/
inductive Exc where
  | index
  | value
  deriving DecidableEq, Repr

/-- `lineindex.select(i)`: the element with 0-based rank `i`. -/
def select (idx : List Nat) (i : Nat) : Except Exc Nat :=
  match idx[i]? with
  | none => .error .index
  | some o => .ok o

/-- `data[offset:nextoffset]`. -/
def slice (data : List Char) (s e : Nat) : List Char := (data.take e).drop s

/-- `s.rstrip(b'\n')`. -/
def rstripNl (s : List Char) : List Char := (s.reverse.dropWhile (fun c => decide (c = '\n'))).reverse

/-- The loop `while data[nextoffset - 1] == 10: nextoffset -= 1` of `_getoffsets` (treesearch.py:1213-1214). -/
def stripBack (data : List Char) : Nat → Nat
  | 0 => 0
  | n + 1 => if data[n]? = some '\n' then stripBack data n else n + 1

/-- `_getoffsets(lineno, lineindex, data)` (treesearch.py:1202-1215). -/
def getOffsets (lineno : Nat) (idx : List Nat) (data : Option (List Char)) : Except Exc (Nat × Nat) :=
  if 1 ≤ lineno ∧ lineno < idx.length then
    match select idx (lineno - 1), select idx lineno with
    | .ok o, .ok n => .ok (o, match data with
      | none => n
      | some d => stripBack d n)
    | _, _ => .error .index
  else .error .index

/-- A pattern: the spans it matches in a text. -/
abbrev Pattern := List Char → List (Nat × Nat)

/-- `pattern.finditer(data, s, e)`. -/
def findIter (find : Pattern) (data : List Char) (s e : Nat) : List (Nat × Nat) :=
  (find (slice data s e)).map (fun x => (x.1 + s, x.2 + s))

/-- `x or 0` for `start`. -/
def orZero (x : Option Nat) : Nat := x.getD 0

/-- `start - 1 if start else 0`. -/
def startLine (start : Option Nat) : Nat :=
  match start with
  | none => 0
  | some s => s - 1

/-- `end is None or end > len(lineindex) - 1` (treesearch.py:1099). -/
def lastLine (idx : List Nat) (end_ : Option Nat) : Bool :=
  match end_ with
  | none => true
  | some e => decide (idx.length - 1 < e)

/-- The part of a file that is searched: its offset in the file, its text, and the span to search in it; none when the result
is empty. First part of `_regex_run_query` (treesearch.py:1099-1116). -/
def chunk (data : List Char) (start end_ : Option Nat) : Except Exc (Option (Nat × List Char × Nat × Nat)) :=
  let idx := indexFile data
  let lastline := lastLine idx end_
  let e := if lastline then idx.length - 1 else orZero end_
  if idx.length < orZero start then .ok none
  else
    match select idx (startLine start), select idx e with
    | .ok startidx, .ok endidx =>
      if startidx = 0 ∧ lastline = true then
        if data = [] then .error .value        -- mmap of an empty file
        else if idx.length ≤ orZero start then .ok none
        else .ok (some (0, data, startidx, endidx))
      else
        let text := if endidx < startidx then data.drop startidx      -- read with a negative size reads everything
          else (data.drop startidx).take (endidx - startidx)
        if idx.length ≤ orZero start then .ok none
        else .ok (some (startidx, text, 0, endidx - startidx))
    | _, _ => .error .index

/-- `islice(…, maxresults)`. -/
def limit {α : Type} (maxresults : Option Nat) (xs : List α) : List α :=
  match maxresults with
  | none => xs
  | some m => xs.take m

/-- `_regex_run_query(…, indices=True, sents=False)` (treesearch.py:1085-1123): line numbers. -/
def queryIndices (find : Pattern) (data : List Char) (start end_ maxresults : Option Nat) : Except Exc (List Nat) :=
  match chunk data start end_ with
  | .error x => .error x
  | .ok none => .ok []
  | .ok (some (off, text, s, e)) =>
    .ok ((limit maxresults (findIter find text s e)).map (fun x => rank (indexFile data) (x.1 + off)))

/-- `_regex_run_query(…, indices=False, sents=False)` (treesearch.py:1137-1142), with `maxresults=None`: the number of matches. -/
def queryCount (find : Pattern) (data : List Char) (start end_ : Option Nat) : Except Exc Nat :=
  match chunk data start end_ with
  | .error x => .error x
  | .ok none => .ok 0
  | .ok (some (_, text, s, e)) => .ok (findIter find text s e).length

/-- A match: line number, sentence, span. -/
structure Hit where
  lineno : Nat
  sent : List Char
  mstart : Nat
  mend : Nat
  deriving DecidableEq, Repr

/-- One match (treesearch.py:1118-1129). -/
def hit (idx : List Nat) (off : Nat) (text : List Char) (x : Nat × Nat) : Except Exc Hit :=
  match getOffsets (rank idx (x.1 + off)) idx none with
  | .error e => .error e
  | .ok (o, n) => .ok ⟨rank idx (x.1 + off), rstripNl (slice text (o - off) (n - off)), x.1 - (o - off), x.2 - (o - off)⟩

/-- `_regex_run_query(…, indices=True, sents=True)` (treesearch.py:1085-1129). -/
def querySents (find : Pattern) (data : List Char) (start end_ maxresults : Option Nat) : Except Exc (List Hit) :=
  match chunk data start end_ with
  | .error x => .error x
  | .ok none => .ok []
  | .ok (some (off, text, s, e)) =>
    (limit maxresults (findIter find text s e)).mapM (hit (indexFile data) off text)

/-- `lineindex.select(end) if end is not None and end < len(lineindex) else len(data)` (treesearch.py:1170-1171). -/
def batchEnd (data : List Char) (idx : List Nat) (end_ : Option Nat) : Nat :=
  match end_ with
  | none => data.length
  | some e => if e < idx.length then (idx[e]?).getD 0 else data.length

/-- `_regex_run_batch(patterns, …)` with counts (treesearch.py:1155-1197). -/
def batchCounts (finds : List Pattern) (data : List Char) (start end_ : Option Nat) : Except Exc (List Nat) :=
  let idx := indexFile data
  if orZero start ≠ 0 ∧ idx.length ≤ orZero start then .ok []
  else if data = [] then .error .value
  else
    match select idx (startLine start) with
    | .error x => .error x
    | .ok startidx =>
      .ok (finds.map (fun find => (findIter find data startidx (batchEnd data idx end_)).length))

/-- `extract(filename, indices)` with the file in memory (treesearch.py:1018-1028). -/
def extractMem (data : List Char) (indices : List Nat) : Except Exc (List (List Char)) :=
  indices.mapM (fun i => match getOffsets i (indexFile data) (some data) with
    | .error e => .error e
    | .ok (o, n) => .ok (slice data o n))

/-- `extract(filename, indices)` with the file on disk (treesearch.py:1029-1035). -/
def extractDisk (data : List Char) (indices : List Nat) : Except Exc (List (List Char)) :=
  indices.mapM (fun i => match getOffsets i (indexFile data) none with
    | .error e => .error e
    | .ok (o, n) => .ok (rstripNl ((data.drop o).take (n - o))))

/-- `getinfo(filename).len` (treesearch.py:1038-1039). -/
def infoLen (data : List Char) : Nat := (indexFile data).length

/-! ## Specification -/

/-- The lines of a text, without newlines. -/
def Spec.lines : List Char → List (List Char)
  | [] => [[]]
  | c :: cs =>
    if c = '\n' then [] :: Spec.lines cs
    else match Spec.lines cs with
      | [] => [[c]]
      | l :: ls => (c :: l) :: ls

/-- The sentences: the lines that are not blank. -/
def Spec.sentences (data : List Char) : List (List Char) := (Spec.lines data).filter (fun l => !isBlank l)

/-- The sentences with their numbers, from 1. -/
def Spec.numbered (data : List Char) : List (Nat × List Char) :=
  (Spec.sentences data).zipIdx.map (fun x => (x.2 + 1, x.1))

/-- Does a sentence number lie in the interval? `None` (and 0, for the start) is no restriction. -/
def Spec.within (start end_ : Option Nat) (n : Nat) : Prop :=
  (start.getD 0 ≤ n) ∧ ∀ e, end_ = some e → n ≤ e

instance (start end_ : Option Nat) (n : Nat) : Decidable (Spec.within start end_ n) := by
  unfold Spec.within
  cases end_ with
  | none => simp only [reduceCtorEq, false_implies, implies_true, and_true]; infer_instance
  | some e => simp only [Option.some.injEq, forall_eq']; infer_instance

/-- The sentences to be searched. -/
def Spec.selected (data : List Char) (start end_ : Option Nat) : List (Nat × List Char) :=
  (Spec.numbered data).filter (fun x => decide (Spec.within start end_ x.1))

/-- A pattern that looks at one line at a time: what it matches in a text is what it matches in the lines; it matches only
non-empty strings, and nothing in blank lines. (Every regular expression without newline and with at least one non-blank
character in each match; the anchors for line begin and end are possible.) -/
structure Spec.LineLocal (find : Pattern) : Prop where
  split : ∀ a b, find (a ++ '\n' :: b) = find a ++ (find b).map (fun x => (x.1 + (a.length + 1), x.2 + (a.length + 1)))
  blank : ∀ a, isBlank a = true → find a = []
  bounds : ∀ a x, x ∈ find a → x.1 < x.2 ∧ x.2 ≤ a.length

/-- Blank lines are empty. -/
def Spec.NoSpaceLines (data : List Char) : Prop := ∀ l ∈ Spec.lines data, isBlank l = true → l = []

/-- The expected matches. -/
def Spec.hits (find : Pattern) (data : List Char) (start end_ : Option Nat) : List Hit :=
  (Spec.selected data start end_).flatMap (fun x => (find x.2).map (fun y => ⟨x.1, x.2, y.1, y.2⟩))

/-! ## Lines and blocks -/

/-- Lines joined by newlines. -/
def joinNl : List (List Char) → List Char
  | [] => []
  | [l] => l
  | l :: ls => l ++ '\n' :: joinNl ls

theorem lines_ne : ∀ data, Spec.lines data ≠ []
  | [] => by simp [Spec.lines]
  | c :: cs => by
    unfold Spec.lines
    split
    · simp
    · split <;> simp

theorem joinNl_cons (l : List Char) {ls : List (List Char)} (h : ls ≠ []) : joinNl (l :: ls) = l ++ '\n' :: joinNl ls := by
  cases ls with
  | nil => exact absurd rfl h
  | cons a ls => rfl

theorem joinNl_lines : ∀ data, joinNl (Spec.lines data) = data
  | [] => rfl
  | c :: cs => by
    have ih := joinNl_lines cs
    unfold Spec.lines
    split
    · rename_i h
      rw [joinNl_cons _ (lines_ne cs), ih, h]; rfl
    · cases hl : Spec.lines cs with
      | nil => exact absurd hl (lines_ne cs)
      | cons l ls =>
        dsimp only
        rw [hl] at ih
        cases ls with
        | nil => rw [joinNl] at ih ⊢; rw [ih]
        | cons l' ls =>
          rw [joinNl_cons _ (by simp)] at ih ⊢
          rw [← ih]; rfl

theorem lines_nl : ∀ data, ∀ l ∈ Spec.lines data, '\n' ∉ l
  | [] => by simp [Spec.lines]
  | c :: cs => by
    have ih := lines_nl cs
    unfold Spec.lines
    split
    · intro l hl
      rcases List.mem_cons.mp hl with rfl | hl
      · simp
      · exact ih l hl
    · rename_i hc
      cases hl : Spec.lines cs with
      | nil => exact absurd hl (lines_ne cs)
      | cons l ls =>
        rw [hl] at ih
        dsimp only
        intro x hx
        rcases List.mem_cons.mp hx with rfl | hx
        · intro hm
          rcases List.mem_cons.mp hm with h | h
          · exact hc h.symm
          · exact ih l (by simp) h
        · exact ih x (by simp [hx])

theorem fileLines_nl : ∀ (l x : List Char), '\n' ∉ l → fileLines (l ++ '\n' :: x) = (l ++ ['\n']) :: fileLines x
  | [], x, _ => by simp [fileLines]
  | c :: l, x, h => by
    have h1 : ¬ c = '\n' := fun e => h (by simp [e])
    have h2 : '\n' ∉ l := fun e => h (by simp [e])
    rw [List.cons_append, fileLines, if_neg h1, fileLines_nl l x h2]
    rfl

theorem fileLines_last : ∀ (l : List Char), '\n' ∉ l → fileLines l = if l = [] then [] else [l]
  | [], _ => rfl
  | c :: l, h => by
    have h1 : ¬ c = '\n' := fun e => h (by simp [e])
    have h2 : '\n' ∉ l := fun e => h (by simp [e])
    rw [fileLines, if_neg h1, fileLines_last l h2]
    cases l <;> simp

/-- Blocks: a sentence and the newlines and blank lines after it. -/
abbrev Blocks := List (List Char × List Char)

/-- The text of blocks. -/
def text : Blocks → List Char
  | [] => []
  | b :: bs => (b.1 ++ b.2) ++ text bs

/-- The offsets of blocks. -/
def offs (o : Nat) : Blocks → List Nat
  | [] => [o]
  | b :: bs => o :: offs (o + (b.1 ++ b.2).length) bs

/-- Blank text at the start, and blocks. -/
def dec : List (List Char) → List Char × Blocks
  | [] => ([], [])
  | [l] => if isBlank l then (l, []) else ([], [(l, [])])
  | l :: ls => if isBlank l then (l ++ '\n' :: (dec ls).1, (dec ls).2) else ([], (l, '\n' :: (dec ls).1) :: (dec ls).2)

theorem dec_cons (l : List Char) {ls : List (List Char)} (h : ls ≠ []) :
    dec (l :: ls) = if isBlank l then (l ++ '\n' :: (dec ls).1, (dec ls).2) else ([], (l, '\n' :: (dec ls).1) :: (dec ls).2) := by
  cases ls with
  | nil => exact absurd rfl h
  | cons a ls => rfl

/-- What holds of blocks. -/
def Good : Blocks → Prop
  | [] => True
  | (l, r) :: bs => isBlank l = false ∧ '\n' ∉ l ∧ isBlank r = true ∧ (r = [] ∨ ∃ w, r = '\n' :: w) ∧
      (bs ≠ [] → ∃ w, r = w ++ ['\n']) ∧ Good bs

theorem isBlank_append (a b : List Char) : isBlank (a ++ b) = (isBlank a && isBlank b) := by
  simp [isBlank]

theorem isBlank_nl (a : List Char) : isBlank ('\n' :: a) = isBlank a := by
  simp [isBlank, isWs]

theorem dec_spec : ∀ ls : List (List Char), ls ≠ [] → (∀ l ∈ ls, '\n' ∉ l) →
    joinNl ls = (dec ls).1 ++ text (dec ls).2 ∧ isBlank (dec ls).1 = true ∧ Good (dec ls).2 ∧
    ((dec ls).2 ≠ [] → (dec ls).1 = [] ∨ ∃ w, (dec ls).1 = w ++ ['\n']) ∧
    (∀ o, indexFrom o (fileLines (joinNl ls)) = offs (o + (dec ls).1.length) (dec ls).2) ∧
    (dec ls).2.map Prod.fst = ls.filter (fun l => !isBlank l) ∧
    ((∀ l ∈ ls, isBlank l = true → l = []) → (dec ls).1.all (fun c => decide (c = '\n')) = true ∧
      ∀ b ∈ (dec ls).2, b.2.all (fun c => decide (c = '\n')) = true)
  | [], h, _ => absurd rfl h
  | [l], _, h => by
    have hl := h l (by simp)
    by_cases hb : isBlank l = true
    · have e : dec [l] = (l, []) := by rw [dec, if_pos hb]
      rw [e, joinNl]
      refine ⟨by simp [text], hb, trivial, by simp, ?_, by simp [hb], ?_⟩
      · intro o
        rw [fileLines_last l hl]
        by_cases hn : l = []
        · subst hn; rfl
        · rw [if_neg hn, indexFrom, if_pos hb]; rfl
      · intro hh
        have := hh l (by simp) hb
        subst this; simp
    · have hb' : isBlank l = false := by simpa using hb
      have e : dec [l] = ([], [(l, [])]) := by rw [dec, if_neg hb]
      rw [e, joinNl]
      refine ⟨by simp [text], rfl, ⟨hb', hl, rfl, .inl rfl, by simp, trivial⟩, fun _ => .inl rfl, ?_, by simp [hb'], by simp⟩
      intro o
      have hn : l ≠ [] := by rintro rfl; exact hb rfl
      rw [fileLines_last l hl, if_neg hn, indexFrom, if_neg hb]
      simp [indexFrom, offs]
  | l :: l' :: ls, _, h => by
    have hne : l' :: ls ≠ [] := by simp
    obtain ⟨h1, h2, h3, h4, h5, h6, h7⟩ := dec_spec (l' :: ls) hne (fun x hx => h x (by simp [hx]))
    have hl := h l (by simp)
    rw [dec_cons l hne, joinNl_cons l hne]
    by_cases hb : isBlank l = true
    · rw [if_pos hb]
      dsimp only
      refine ⟨by rw [h1]; simp, by rw [isBlank_append, isBlank_nl, hb, h2]; rfl, h3, ?_, ?_, ?_, ?_⟩
      · intro hn
        right
        rcases h4 hn with e | ⟨w, e⟩
        · exact ⟨l, by rw [e]⟩
        · exact ⟨l ++ '\n' :: w, by rw [e]; simp⟩
      · intro o
        rw [fileLines_nl l _ hl, indexFrom, if_pos (by rw [isBlank_append, hb]; rfl), h5]
        congr 1
        simp
        omega
      · rw [h6, List.filter_cons_of_neg (a := l) (by simp [hb])]
      · intro hh
        have hle := hh l (by simp) hb
        subst hle
        have := h7 (fun x hx => hh x (by simp [hx]))
        exact ⟨by simpa using this.1, this.2⟩
    · have hb' : isBlank l = false := by simpa using hb
      rw [if_neg hb]
      dsimp only
      refine ⟨by rw [h1]; simp [text], rfl, ⟨hb', hl, by rw [isBlank_nl, h2], .inr ⟨_, rfl⟩, ?_, h3⟩, fun _ => .inl rfl, ?_, ?_, ?_⟩
      · intro hn
        rcases h4 hn with e | ⟨w, e⟩
        · exact ⟨[], by rw [e]; rfl⟩
        · exact ⟨'\n' :: w, by rw [e]; rfl⟩
      · intro o
        rw [fileLines_nl l _ hl, indexFrom, if_neg (by rw [isBlank_append, hb']; simp), h5, offs]
        congr 2
        simp
        omega
      · rw [List.map_cons, h6, List.filter_cons_of_pos (a := l) (by simp [hb'])]
      · intro hh
        have := h7 (fun x hx => hh x (by simp [hx]))
        refine ⟨rfl, ?_⟩
        intro b hb2
        rcases List.mem_cons.mp hb2 with rfl | hb2
        · simpa using this.1
        · exact this.2 b hb2

/-- The blank text at the start of a file. -/
def pre (data : List Char) : List Char := (dec (Spec.lines data)).1
/-- The blocks of a file. -/
def blocks (data : List Char) : Blocks := (dec (Spec.lines data)).2

theorem data_eq (data : List Char) : data = pre data ++ text (blocks data) := by
  have := (dec_spec _ (lines_ne data) (lines_nl data)).1
  rwa [joinNl_lines] at this

theorem good_blocks (data : List Char) : Good (blocks data) := (dec_spec _ (lines_ne data) (lines_nl data)).2.2.1

theorem index_eq (data : List Char) : indexFile data = offs (pre data).length (blocks data) := by
  have := (dec_spec _ (lines_ne data) (lines_nl data)).2.2.2.2.1 0
  rw [joinNl_lines, Nat.zero_add] at this
  exact this

theorem sentences_eq (data : List Char) : Spec.sentences data = (blocks data).map Prod.fst :=
  (dec_spec _ (lines_ne data) (lines_nl data)).2.2.2.2.2.1.symm

theorem nospace_eq (data : List Char) (h : Spec.NoSpaceLines data) : ∀ b ∈ blocks data, b.2.all (fun c => decide (c = '\n')) = true :=
  ((dec_spec _ (lines_ne data) (lines_nl data)).2.2.2.2.2.2 h).2

/-! ## Offsets -/

theorem length_offs : ∀ (bs : Blocks) (o : Nat), (offs o bs).length = bs.length + 1
  | [], _ => rfl
  | b :: bs, o => by rw [offs, List.length_cons, length_offs bs, List.length_cons]

theorem get_offs : ∀ (bs : Blocks) (o i : Nat), i ≤ bs.length → (offs o bs)[i]? = some (o + (text (bs.take i)).length)
  | bs, o, 0, _ => by cases bs <;> simp [offs, text]
  | [], _, i + 1, h => by simp at h
  | b :: bs, o, i + 1, h => by
    rw [List.length_cons] at h
    rw [offs, List.getElem?_cons_succ, get_offs bs _ i (by omega), List.take_succ_cons, text]
    simp [Nat.add_assoc]

theorem offs_ge : ∀ (bs : Blocks) (o : Nat), ∀ x ∈ offs o bs, o ≤ x
  | [], o, x, h => by simp [offs] at h; omega
  | b :: bs, o, x, h => by
    rw [offs] at h
    rcases List.mem_cons.mp h with h | h
    · omega
    · have := offs_ge bs _ x h; omega

theorem rank_offs : ∀ (bs : Blocks) (o j : Nat) (b : List Char × List Char) (s : Nat), bs[j]? = some b → s < (b.1 ++ b.2).length →
    rank (offs o bs) (o + (text (bs.take j)).length + s) = j + 1
  | [], _, _, _, _, h, _ => by simp at h
  | c :: bs, o, 0, b, s, h, hs => by
    simp at h
    subst h
    have hz : (offs (o + (c.1 ++ c.2).length) bs).countP (fun x => decide (x ≤ o + (text []).length + s)) = 0 := by
      rw [List.countP_eq_zero]
      intro x hx
      have := offs_ge bs _ x hx
      have hn : ¬ x ≤ o + (text []).length + s := by
        rw [text, List.length_nil]; omega
      simpa using hn
    rw [rank, offs, List.take_zero, List.countP_cons, hz]
    simp [text]
    try omega
  | c :: bs, o, j + 1, b, s, h, hs => by
    rw [List.getElem?_cons_succ] at h
    have ih := rank_offs bs (o + (c.1 ++ c.2).length) j b s h hs
    rw [rank] at ih ⊢
    rw [offs, List.countP_cons, List.take_succ_cons, text]
    have e : o + ((c.1 ++ c.2) ++ text (bs.take j)).length + s = o + (c.1 ++ c.2).length + (text (bs.take j)).length + s := by
      rw [List.length_append]; omega
    rw [e, ih, if_pos (by simp only [decide_eq_true_eq]; omega)]

theorem text_append : ∀ (a b : Blocks), text (a ++ b) = text a ++ text b
  | [], _ => rfl
  | x :: a, b => by simp [text, text_append a b]

theorem good_take : ∀ (bs : Blocks) (n : Nat), Good bs → Good (bs.take n)
  | _, 0, _ => trivial
  | [], _ + 1, _ => trivial
  | (l, r) :: bs, n + 1, h => by
    obtain ⟨h1, h2, h3, h4, h5, h6⟩ := h
    refine ⟨h1, h2, h3, h4, ?_, good_take bs n h6⟩
    intro hn
    apply h5
    rintro rfl
    simp at hn

theorem good_drop : ∀ (bs : Blocks) (n : Nat), Good bs → Good (bs.drop n)
  | _, 0, h => h
  | [], _ + 1, _ => trivial
  | _ :: bs, n + 1, h => good_drop bs n h.2.2.2.2.2

theorem good_get : ∀ (bs : Blocks) (j : Nat) (b : List Char × List Char), Good bs → bs[j]? = some b →
    isBlank b.1 = false ∧ '\n' ∉ b.1 ∧ isBlank b.2 = true
  | [], _, _, _, h => by simp at h
  | (l, r) :: bs, 0, b, h, e => by
    simp at e
    subst e
    exact ⟨h.1, h.2.1, h.2.2.1⟩
  | (l, r) :: bs, j + 1, b, h, e => good_get bs j b h.2.2.2.2.2 e

theorem slice_text (p : List Char) (bs : Blocks) (i j : Nat) (hij : i ≤ j) :
    slice (p ++ text bs) (p.length + (text (bs.take i)).length) (p.length + (text (bs.take j)).length) =
      text ((bs.take j).drop i) := by
  have e2 : text (bs.take j) = text (bs.take i) ++ text ((bs.take j).drop i) := by
    have := (List.take_append_drop i (bs.take j))
    rw [List.take_take, Nat.min_eq_left hij] at this
    rw [← text_append, this]
  have e3 : text bs = text (bs.take i) ++ text ((bs.take j).drop i) ++ text (bs.drop j) := by
    rw [← e2, ← text_append, List.take_append_drop]
  unfold slice
  rw [e3, e2, ← List.length_append, ← List.length_append, ← List.append_assoc, ← List.append_assoc, ← List.append_assoc,
    List.take_left, List.drop_left]

/-! ## Matches in blocks -/

/-- The matches in blocks: number of the sentence, block, its offset, span in the sentence. -/
def found (find : Pattern) (p n : Nat) : Blocks → List (Nat × (List Char × List Char) × Nat × (Nat × Nat))
  | [] => []
  | b :: bs => (find b.1).map (fun y => (n, b, p, y)) ++ found find (p + (b.1 ++ b.2).length) (n + 1) bs

theorem find_text (find : Pattern) (hf : Spec.LineLocal find) : ∀ (bs : Blocks) (p n : Nat), Good bs →
    (find (text bs)).map (fun x => (x.1 + p, x.2 + p)) = (found find p n bs).map (fun x => (x.2.2.2.1 + x.2.2.1, x.2.2.2.2 + x.2.2.1))
  | [], p, n, _ => by simp [text, found, hf.blank [] rfl]
  | (l, r) :: bs, p, n, h => by
    obtain ⟨h1, h2, h3, h4, h5, h6⟩ := h
    have ih := find_text find hf bs (p + (l ++ r).length) (n + 1) h6
    have hl : ∀ w, isBlank w = true → find (l ++ '\n' :: w) = find l := by
      intro w hw
      rw [hf.split, hf.blank w hw]; simp
    rw [found, List.map_append, ← ih, List.map_map]
    have e : find (text ((l, r) :: bs)) = find l ++ (find (text bs)).map (fun x => (x.1 + (l ++ r).length, x.2 + (l ++ r).length)) := by
      rw [text]
      cases bs with
      | nil =>
        rw [text, List.append_nil, hf.blank [] rfl]
        rcases h4 with e | ⟨w, e⟩
        · subst e; simp
        · subst e
          rw [isBlank_nl] at h3
          simp [hl w h3]
      | cons b bs =>
        obtain ⟨w, hw⟩ := h5 (by simp)
        have e2 : l ++ r ++ text (b :: bs) = (l ++ w) ++ '\n' :: text (b :: bs) := by rw [hw]; simp
        have e3 : (l ++ r).length = (l ++ w).length + 1 := by rw [hw]; simp; omega
        dsimp only
        rw [e2, hf.split, e3]
        congr 1
        rcases h4 with e | ⟨w', e⟩
        · rw [hw] at e; simp at e
        · rw [hw] at e
          cases w with
          | nil => simp
          | cons c w =>
            rw [List.cons_append, List.cons.injEq] at e
            rw [e.1]
            rw [hw, isBlank_append, Bool.and_eq_true, e.1, isBlank_nl] at h3
            exact hl w h3.1
    rw [e, List.map_append]
    congr 1
    rw [List.map_map]
    apply List.map_congr_left
    intro x _
    simp only [Function.comp_def, Prod.mk.injEq]
    omega

theorem mem_found (find : Pattern) : ∀ (bs : Blocks) (p n : Nat) (x : Nat × (List Char × List Char) × Nat × (Nat × Nat)),
    x ∈ found find p n bs → ∃ j, bs[j]? = some x.2.1 ∧ x.1 = n + j ∧ x.2.2.1 = p + (text (bs.take j)).length ∧ x.2.2.2 ∈ find x.2.1.1
  | [], _, _, _, h => by cases h
  | b :: bs, p, n, x, h => by
    rw [found] at h
    rcases List.mem_append.mp h with h | h
    · obtain ⟨y, hy, rfl⟩ := List.mem_map.mp h
      exact ⟨0, rfl, rfl, by simp [text], hy⟩
    · obtain ⟨j, h1, h2, h3, h4⟩ := mem_found find bs _ _ x h
      refine ⟨j + 1, h1, by omega, ?_, h4⟩
      rw [h3, List.take_succ_cons, text]
      simp [Nat.add_assoc]

theorem found_hits (find : Pattern) : ∀ (bs : Blocks) (p n : Nat),
    (found find p (n + 1) bs).map (fun x => (⟨x.1, x.2.1.1, x.2.2.2.1, x.2.2.2.2⟩ : Hit)) =
      (((bs.map Prod.fst).zipIdx n).map (fun x => (x.2 + 1, x.1))).flatMap (fun x => (find x.2).map (fun y => ⟨x.1, x.2, y.1, y.2⟩))
  | [], _, _ => rfl
  | b :: bs, p, n => by
    rw [found, List.map_append, found_hits find bs _ (n + 1), List.map_cons, List.zipIdx_cons, List.map_cons, List.flatMap_cons,
      List.map_map]
    rfl

theorem filter_interval {α : Type} (s e : Nat) : ∀ (xs : List α) (n : Nat),
    (xs.zipIdx n).filter (fun x => decide (s ≤ x.2 ∧ x.2 < e)) = ((xs.take (e - n)).drop (s - n)).zipIdx (max s n)
  | [], n => by simp
  | x :: xs, n => by
    rw [List.zipIdx_cons]
    by_cases h : s ≤ n ∧ n < e
    · rw [List.filter_cons_of_pos (by simpa using h), filter_interval s e xs (n + 1)]
      have e1 : s - n = 0 := by omega
      have e2 : s - (n + 1) = 0 := by omega
      have e3 : max s n = n := by omega
      have e4 : max s (n + 1) = n + 1 := by omega
      obtain ⟨k, hk⟩ : ∃ k, e - n = k + 1 := ⟨e - n - 1, by omega⟩
      have e5 : e - (n + 1) = k := by omega
      rw [e1, e2, e3, e4, hk, e5, List.take_succ_cons]
      simp
    · rw [List.filter_cons_of_neg (by simpa using h), filter_interval s e xs (n + 1)]
      by_cases he : n < e
      · have hs : n < s := by omega
        obtain ⟨k, hk⟩ : ∃ k, e - n = k + 1 := ⟨e - n - 1, by omega⟩
        obtain ⟨k', hk'⟩ : ∃ k, s - n = k + 1 := ⟨s - n - 1, by omega⟩
        have e5 : e - (n + 1) = k := by omega
        have e6 : s - (n + 1) = k' := by omega
        have e3 : max s n = s := by omega
        have e4 : max s (n + 1) = s := by omega
        rw [hk, hk', e5, e6, e3, e4, List.take_succ_cons, List.drop_succ_cons]
      · have e1 : e - n = 0 := by omega
        have e2 : e - (n + 1) = 0 := by omega
        rw [e1, e2]; simp

/-! ## The query -/

theorem within_iff (start end_ : Option Nat) (k i : Nat) (hi : i < k) :
    Spec.within start end_ (i + 1) ↔
      (startLine start ≤ i ∧ i < (match end_ with
        | none => k
        | some e => if k < e then k else e)) := by
  unfold Spec.within startLine
  cases start with
  | none =>
    cases end_ with
    | none => simp [hi]
    | some e =>
      simp only [Option.getD_none, Nat.zero_le, true_and, Option.some.injEq, forall_eq']
      split <;> omega
  | some s =>
    cases end_ with
    | none =>
      simp only [Option.getD_some, reduceCtorEq, false_implies, implies_true, and_true]
      omega
    | some e =>
      simp only [Option.getD_some, Option.some.injEq, forall_eq']
      split <;> omega

/-- The last line to search (0-based, exclusive). -/
def endLine (end_ : Option Nat) (k : Nat) : Nat :=
  match end_ with
  | none => k
  | some e => if k < e then k else e

theorem endLine_le (end_ : Option Nat) (k : Nat) : endLine end_ k ≤ k := by
  unfold endLine
  cases end_ with
  | none => exact Nat.le_refl _
  | some e => dsimp only; split <;> omega

theorem selected_eq (data : List Char) (start end_ : Option Nat) :
    Spec.selected data start end_ =
      ((((((blocks data).take (endLine end_ (blocks data).length)).drop (startLine start)).map Prod.fst).zipIdx (startLine start)).map
        (fun x => (x.2 + 1, x.1))) := by
  have h := filter_interval (startLine start) (endLine end_ (blocks data).length) ((blocks data).map Prod.fst) 0
  rw [Nat.sub_zero, Nat.sub_zero, Nat.max_eq_left (Nat.zero_le _)] at h
  rw [List.map_drop, List.map_take, ← h]
  unfold Spec.selected Spec.numbered
  rw [sentences_eq, List.filter_map]
  congr 1
  apply List.filter_congr
  intro x hx
  obtain ⟨a, i⟩ := x
  rw [List.mk_mem_zipIdx_iff_getElem?] at hx
  have hi : i < (blocks data).length := by
    have := (List.getElem?_eq_some_iff.mp hx).1
    simpa using this
  have := within_iff start end_ _ i hi
  simp only [Function.comp_def]
  exact decide_eq_decide.mpr this

/-- The matches that the query should find. -/
def expected (find : Pattern) (data : List Char) (start end_ : Option Nat) :
    List (Nat × (List Char × List Char) × Nat × (Nat × Nat)) :=
  found find ((pre data).length + (text ((blocks data).take (startLine start))).length) (startLine start + 1)
    (((blocks data).take (endLine end_ (blocks data).length)).drop (startLine start))

theorem expected_hits (find : Pattern) (data : List Char) (start end_ : Option Nat) :
    Spec.hits find data start end_ = (expected find data start end_).map (fun x => (⟨x.1, x.2.1.1, x.2.2.2.1, x.2.2.2.2⟩ : Hit)) := by
  unfold Spec.hits expected
  rw [selected_eq, found_hits]

theorem expected_none (find : Pattern) (data : List Char) (start end_ : Option Nat) (h : (blocks data).length ≤ startLine start) :
    expected find data start end_ = [] := by
  unfold expected
  rw [List.drop_eq_nil_of_le (by rw [List.length_take]; omega)]
  rfl

theorem select_idx (data : List Char) (i : Nat) (h : i ≤ (blocks data).length) :
    select (indexFile data) i = .ok ((pre data).length + (text ((blocks data).take i)).length) := by
  rw [select, index_eq, get_offs _ _ _ h]

theorem text_take_len (bs : Blocks) {i j : Nat} (h : i ≤ j) : (text (bs.take i)).length ≤ (text (bs.take j)).length := by
  have := (List.take_append_drop i (bs.take j))
  rw [List.take_take, Nat.min_eq_left h] at this
  rw [← this, text_append, List.length_append]
  omega

/-- What `chunk` gives: a part of the file (from offset `off` to `fin`) and a span in it that is the text of the sentences to search. -/
theorem chunk_spec (find : Pattern) (data : List Char) (hne : data ≠ []) (start end_ : Option Nat) :
    (chunk data start end_ = .ok none ∧ expected find data start end_ = []) ∨
    ∃ off txt s e, chunk data start end_ = .ok (some (off, txt, s, e)) ∧
      ((slice txt s e = [] ∧ expected find data start end_ = []) ∨
       (∃ fin, txt = slice data off fin ∧ (pre data).length + (text ((blocks data).take (endLine end_ (blocks data).length))).length ≤ fin ∧
         off ≤ (pre data).length + (text ((blocks data).take (startLine start))).length ∧
         slice txt s e = text (((blocks data).take (endLine end_ (blocks data).length)).drop (startLine start)) ∧
         s + off = (pre data).length + (text ((blocks data).take (startLine start))).length)) := by
  have hlen : (indexFile data).length = (blocks data).length + 1 := by rw [index_eq, length_offs]
  have hk := endLine_le end_ (blocks data).length
  have hlast : (if lastLine (indexFile data) end_ = true then (indexFile data).length - 1 else orZero end_) =
        endLine end_ (blocks data).length := by
    unfold endLine lastLine
    cases end_ with
    | none => simp [hlen]
    | some e => simp [hlen, orZero]
  unfold chunk
  dsimp only
  rw [hlast]
  by_cases h1 : (indexFile data).length < orZero start
  · rw [if_pos h1]
    refine .inl ⟨rfl, expected_none _ _ _ _ ?_⟩
    cases start with
    | none => simp [orZero] at h1
    | some s => simp [orZero, startLine] at h1 ⊢; omega
  · rw [if_neg h1]
    have hs : startLine start ≤ (blocks data).length := by
      cases start with
      | none => simp [startLine]
      | some s => simp [orZero, startLine] at h1 ⊢; omega
    rw [select_idx data _ hs, select_idx data _ hk]
    dsimp only
    have hdata : pre data ++ text (blocks data) = data := (data_eq data).symm
    by_cases h2 : (indexFile data).length ≤ orZero start
    · have hexp := expected_none find data start end_ (by
        cases start with
        | none => simp only [orZero, Option.getD_none] at h2; omega
        | some s => simp [orZero, startLine] at h2 ⊢; omega)
      simp only [if_neg hne, if_pos h2, ite_self]
      exact .inl ⟨trivial, hexp⟩
    · simp only [if_neg hne, if_neg h2]
      split
      · rename_i h3
        right
        refine ⟨_, _, _, _, rfl, ?_⟩
        by_cases hij : startLine start ≤ endLine end_ (blocks data).length
        · right
          refine ⟨data.length, by simp [slice], ?_, Nat.zero_le _, ?_, rfl⟩
          · conv => rhs; rw [← hdata]
            rw [List.length_append]
            have := text_take_len (blocks data) hk
            rw [List.take_length] at this
            omega
          · have := slice_text (pre data) (blocks data) _ _ hij
            rw [hdata] at this
            exact this
        · left
          have hle := text_take_len (blocks data) (by omega : endLine end_ (blocks data).length ≤ startLine start)
          refine ⟨?_, ?_⟩
          · unfold slice
            rw [List.drop_eq_nil_of_le]
            rw [List.length_take]; omega
          · unfold expected
            rw [List.drop_eq_nil_of_le (by rw [List.length_take]; omega)]
            rfl
      · right
        refine ⟨_, _, _, _, rfl, ?_⟩
        by_cases hij : startLine start ≤ endLine end_ (blocks data).length
        · right
          have hle := text_take_len (blocks data) hij
          rw [if_neg (by omega)]
          have hsl := slice_text (pre data) (blocks data) _ _ hij
          rw [hdata] at hsl
          have htxt : ∀ a b, a ≤ b → (data.drop a).take (b - a) = slice data a b := by
            intro a b hab
            rw [slice, List.drop_take]
          rw [htxt _ _ (by omega)]
          refine ⟨_, rfl, Nat.le_refl _, Nat.le_refl _, ?_, by omega⟩
          have hlen2 := congrArg List.length hsl
          rw [hsl, slice, List.drop_zero, List.take_of_length_le]
          have e2 := congrArg (fun x => (text x).length) (List.take_append_drop (startLine start) ((blocks data).take (endLine end_ (blocks data).length)))
          rw [text_append, List.take_take, Nat.min_eq_left hij, List.length_append] at e2
          omega
        · left
          have hle := text_take_len (blocks data) (by omega : endLine end_ (blocks data).length ≤ startLine start)
          refine ⟨?_, ?_⟩
          · unfold slice
            rw [List.drop_zero]
            have : (pre data).length + (text ((blocks data).take (endLine end_ (blocks data).length))).length -
              ((pre data).length + (text ((blocks data).take (startLine start))).length) = 0 := by omega
            rw [this, List.take_zero]
          · unfold expected
            rw [List.drop_eq_nil_of_le (by rw [List.length_take]; omega)]
            rfl

theorem limit_map {α β : Type} (m : Option Nat) (f : α → β) (l : List α) : limit m (l.map f) = (limit m l).map f := by
  unfold limit
  cases m with
  | none => rfl
  | some m => exact (List.map_take ..).symm

theorem mem_limit {α : Type} {m : Option Nat} {l : List α} {x : α} (h : x ∈ limit m l) : x ∈ l := by
  unfold limit at h
  cases m with
  | none => exact h
  | some m => exact List.mem_of_mem_take h

theorem mapM_ok {α β : Type} (f : α → Except Exc β) (g : α → β) : ∀ l : List α, (∀ x ∈ l, f x = .ok (g x)) → l.mapM f = .ok (l.map g)
  | [], _ => rfl
  | x :: l, h => by
    rw [List.mapM_cons, h x (by simp), mapM_ok f g l (fun y hy => h y (by simp [hy]))]
    rfl

/-- What is known of a match that the query should find. -/
theorem expected_mem (find : Pattern) (hf : Spec.LineLocal find) (data : List Char) (start end_ : Option Nat)
    (x : Nat × (List Char × List Char) × Nat × (Nat × Nat)) (hx : x ∈ expected find data start end_) :
    ∃ j, (blocks data)[j]? = some x.2.1 ∧ startLine start ≤ j ∧ j < endLine end_ (blocks data).length ∧ x.1 = j + 1 ∧
      x.2.2.1 = (pre data).length + (text ((blocks data).take j)).length ∧ x.2.2.2 ∈ find x.2.1.1 ∧
      rank (indexFile data) (x.2.2.2.1 + x.2.2.1) = x.1 := by
  obtain ⟨j, h1, h2, h3, h4⟩ := mem_found _ _ _ _ x hx
  rw [List.getElem?_drop] at h1
  have hj : startLine start + j < endLine end_ (blocks data).length := by
    by_contra hn
    rw [List.getElem?_take_eq_none (by omega)] at h1
    cases h1
  rw [List.getElem?_take_of_lt hj] at h1
  have hpos : x.2.2.1 = (pre data).length + (text ((blocks data).take (startLine start + j))).length := by
    rw [h3]
    have : (blocks data).take (startLine start + j) = (blocks data).take (startLine start) ++
        (((blocks data).take (endLine end_ (blocks data).length)).drop (startLine start)).take j := by
      have e := List.take_append_drop (startLine start) ((blocks data).take (startLine start + j))
      rw [List.take_take, Nat.min_eq_left (by omega)] at e
      rw [← e]
      congr 1
      rw [List.drop_take, List.drop_take, List.take_take]
      congr 1
      omega
    rw [this, text_append, List.length_append]
    omega
  refine ⟨startLine start + j, h1, by omega, hj, by omega, hpos, h4, ?_⟩
  have hb := hf.bounds _ _ h4
  rw [hpos, index_eq, Nat.add_comm x.2.2.2.1, rank_offs (blocks data) (pre data).length (startLine start + j) x.2.1 x.2.2.2.1 h1
    (by rw [List.length_append]; omega)]
  omega

/-- The spans found by the query, as offsets in the file. -/
theorem spans_eq (find : Pattern) (hf : Spec.LineLocal find) (data : List Char) (start end_ : Option Nat) (off : Nat) (txt : List Char)
    (s e : Nat) (h1 : slice txt s e = text (((blocks data).take (endLine end_ (blocks data).length)).drop (startLine start)))
    (h2 : s + off = (pre data).length + (text ((blocks data).take (startLine start))).length) :
    (findIter find txt s e).map (fun x => (x.1 + off, x.2 + off)) =
      (expected find data start end_).map (fun x => (x.2.2.2.1 + x.2.2.1, x.2.2.2.2 + x.2.2.1)) := by
  unfold findIter expected
  rw [h1, ← find_text find hf _ _ _ (good_drop _ _ (good_take _ _ (good_blocks data))), List.map_map, ← h2]
  apply List.map_congr_left
  intro x _
  simp only [Function.comp_def, Nat.add_assoc]

/-- **C69** The line numbers of a query (`counts(query, indices=True)`): for each sentence (non-blank line) within the interval, its number (from 1, blank
lines not counted) as often as the pattern matches in it, in order; with a limit the first ones. No exception on a file that is not
empty, whatever the interval. -/
theorem C69_indices (find : Pattern) (hf : Spec.LineLocal find) (data : List Char) (hne : data ≠ []) (start end_ maxresults : Option Nat) :
    queryIndices find data start end_ maxresults = .ok (limit maxresults ((Spec.hits find data start end_).map (·.lineno))) := by
  rw [expected_hits]
  rcases chunk_spec find data hne start end_ with ⟨h, he⟩ | ⟨off, txt, s, e, h, h2⟩
  · unfold queryIndices
    rw [h, he]
    cases maxresults <;> simp [limit]
  · unfold queryIndices
    rw [h]
    dsimp only
    rcases h2 with ⟨h2, he⟩ | ⟨fin, h3, _, _, h4, h5⟩
    · rw [he]
      unfold findIter
      rw [h2, hf.blank [] rfl]
      cases maxresults <;> simp [limit]
    · have hsp := spans_eq find hf data start end_ off txt s e h4 h5
      congr 1
      rw [← limit_map]
      congr 1
      have := congrArg (List.map (fun x : Nat × Nat => rank (indexFile data) x.1)) hsp
      rw [List.map_map, List.map_map] at this
      rw [List.map_map]
      refine Eq.trans this ?_
      apply List.map_congr_left
      intro x hx
      obtain ⟨j, _, _, _, _, _, _, hr⟩ := expected_mem find hf data start end_ x hx
      exact hr

/-- **C69** The number of matches (`counts(query)`) is the sum over the sentences in the interval. -/
theorem C69_count (find : Pattern) (hf : Spec.LineLocal find) (data : List Char) (hne : data ≠ []) (start end_ : Option Nat) :
    queryCount find data start end_ = .ok ((Spec.selected data start end_).map (fun x => (find x.2).length)).sum := by
  have hsum : ((Spec.selected data start end_).map (fun x => (find x.2).length)).sum = (expected find data start end_).length := by
    have := congrArg List.length (expected_hits find data start end_)
    rw [List.length_map] at this
    rw [← this, Spec.hits, List.length_flatMap]
    simp
  rw [hsum]
  rcases chunk_spec find data hne start end_ with ⟨h, he⟩ | ⟨off, txt, s, e, h, h2⟩
  · unfold queryCount
    rw [h, he]; rfl
  · unfold queryCount
    rw [h]
    dsimp only
    rcases h2 with ⟨h2, he⟩ | ⟨fin, h3, _, _, h4, h5⟩
    · rw [he]
      unfold findIter
      rw [h2, hf.blank [] rfl]; rfl
    · have := congrArg List.length (spans_eq find hf data start end_ off txt s e h4 h5)
      simp only [List.length_map] at this
      rw [this]

theorem mapM_ok' {α β γ : Type} (f : β → Except Exc γ) (u : α → β) (g : α → γ) : ∀ l : List α, (∀ x ∈ l, f (u x) = .ok (g x)) →
    (l.map u).mapM f = .ok (l.map g)
  | [], _ => rfl
  | x :: l, h => by
    rw [List.map_cons, List.mapM_cons, h x (by simp), mapM_ok' f u g l (fun y hy => h y (by simp [hy]))]
    rfl

theorem getOffsets_block (data : List Char) (j : Nat) (b : List Char × List Char) (h : (blocks data)[j]? = some b) :
    getOffsets (j + 1) (indexFile data) none =
      .ok ((pre data).length + (text ((blocks data).take j)).length,
        (pre data).length + (text ((blocks data).take j)).length + (b.1 ++ b.2).length) := by
  have hj : j < (blocks data).length := (List.getElem?_eq_some_iff.mp h).1
  have hlen : (indexFile data).length = (blocks data).length + 1 := by rw [index_eq, length_offs]
  unfold getOffsets
  rw [if_pos ⟨by omega, by omega⟩, Nat.add_sub_cancel, select_idx data j (by omega), select_idx data (j + 1) (by omega)]
  have e : (blocks data).take (j + 1) = (blocks data).take j ++ [b] := by
    rw [List.take_add_one, h]; rfl
  dsimp only
  rw [e, text_append]
  simp [text, Nat.add_assoc]

theorem slice_block (data : List Char) (j : Nat) (b : List Char × List Char) (h : (blocks data)[j]? = some b) :
    slice data ((pre data).length + (text ((blocks data).take j)).length)
      ((pre data).length + (text ((blocks data).take j)).length + (b.1 ++ b.2).length) = b.1 ++ b.2 := by
  have e : (blocks data).take (j + 1) = (blocks data).take j ++ [b] := by
    rw [List.take_add_one, h]; rfl
  have := slice_text (pre data) (blocks data) j (j + 1) (by omega)
  rw [← data_eq, e, text_append] at this
  have hlen : ((blocks data).take j).length = j := by
    rw [List.length_take]
    have := (List.getElem?_eq_some_iff.mp h).1
    omega
  rw [List.drop_left' hlen] at this
  simpa [text, Nat.add_assoc] using this

theorem slice_slice (data : List Char) (off fin o n : Nat) (h1 : off ≤ o) (h2 : n ≤ fin) :
    slice (slice data off fin) (o - off) (n - off) = slice data o n := by
  unfold slice
  rw [List.take_drop, List.drop_drop, List.take_take]
  by_cases h : o ≤ n
  · congr 1
    · omega
    · congr 1
      omega
  · rw [List.drop_eq_nil_of_le (by rw [List.length_take]; omega), List.drop_eq_nil_of_le (by rw [List.length_take]; omega)]

theorem rstripNl_append (l r : List Char) (hl : '\n' ∉ l) (hr : r.all (fun c => decide (c = '\n')) = true) : rstripNl (l ++ r) = l := by
  unfold rstripNl
  have hr' : ∀ a ∈ r.reverse, (fun c => decide (c = '\n')) a = true := by
    intro a ha
    exact List.all_eq_true.mp hr a (List.mem_reverse.mp ha)
  rw [List.reverse_append, List.dropWhile_append_of_pos hr']
  have : l.reverse.dropWhile (fun c => decide (c = '\n')) = l.reverse := by
    cases hlr : l.reverse with
    | nil => rfl
    | cons a x =>
      rw [List.dropWhile_cons_of_neg]
      have : a ∈ l := by rw [← List.mem_reverse, hlr]; simp
      simp only [decide_eq_true_eq]
      rintro rfl
      exact hl this
  rw [this, List.reverse_reverse]

/-- **C69** `sents`: when blank lines are empty, each match comes with the number of its sentence, exactly the text of this sentence,
and the columns of the match in it. No exception on a file that is not empty, whatever the interval. -/
theorem C69_sents (find : Pattern) (hf : Spec.LineLocal find) (data : List Char) (hne : data ≠ []) (hb : Spec.NoSpaceLines data)
    (start end_ maxresults : Option Nat) :
    querySents find data start end_ maxresults = .ok (limit maxresults (Spec.hits find data start end_)) := by
  rw [expected_hits]
  rcases chunk_spec find data hne start end_ with ⟨h, he⟩ | ⟨off, txt, s, e, h, h2⟩
  · unfold querySents
    rw [h, he]
    cases maxresults <;> simp [limit]
  · unfold querySents
    rw [h]
    dsimp only
    rcases h2 with ⟨h2, he⟩ | ⟨fin, h3, h3', h3'', h4, h5⟩
    · rw [he]
      unfold findIter
      rw [h2, hf.blank [] rfl]
      cases maxresults <;> simp [limit, pure, Except.pure]
    · have hsp := spans_eq find hf data start end_ off txt s e h4 h5
      have hL : findIter find txt s e = (expected find data start end_).map
          (fun x => (x.2.2.2.1 + x.2.2.1 - off, x.2.2.2.2 + x.2.2.1 - off)) := by
        have := congrArg (List.map (fun x : Nat × Nat => (x.1 - off, x.2 - off))) hsp
        rw [List.map_map, List.map_map] at this
        refine Eq.trans ?_ this
        conv => lhs; rw [← List.map_id (findIter find txt s e)]
        apply List.map_congr_left
        intro x _
        simp
      rw [hL, limit_map, limit_map, mapM_ok']
      intro x hx
      obtain ⟨j, hj, hj1, hj2, hn, hpos, hy, hr⟩ := expected_mem find hf data start end_ x (mem_limit hx)
      have hoff : off ≤ x.2.2.1 := by
        have := text_take_len (blocks data) hj1
        omega
      unfold hit
      dsimp only
      rw [Nat.sub_add_cancel (by omega), hr, hn, getOffsets_block data j x.2.1 hj]
      dsimp only
      have hsucc : (blocks data).take (j + 1) = (blocks data).take j ++ [x.2.1] := by
        rw [List.take_add_one, hj]; rfl
      have hfin : (pre data).length + (text ((blocks data).take j)).length + (x.2.1.1 ++ x.2.1.2).length ≤ fin := by
        have := text_take_len (blocks data) (by omega : j + 1 ≤ endLine end_ (blocks data).length)
        rw [hsucc, text_append] at this
        simp only [text, List.append_nil, List.length_append] at this h3' ⊢
        omega
      rw [h3, slice_slice _ _ _ _ _ (by omega) hfin, slice_block data j x.2.1 hj,
        rstripNl_append _ _ (good_get _ _ _ (good_blocks data) hj).2.1 (nospace_eq data hb _ (List.mem_of_getElem? hj))]
      congr 2 <;> omega

/-- **C69** `batchcounts`: for each of the patterns the number that `counts` gives for it. -/
theorem C69_batch (finds : List Pattern) (hf : ∀ find ∈ finds, Spec.LineLocal find) (data : List Char) (hne : data ≠ []) (start end_ : Option Nat)
    (hs : orZero start ≤ (Spec.sentences data).length) :
    batchCounts finds data start end_ =
      .ok (finds.map (fun find => ((Spec.selected data start end_).map (fun x => (find x.2).length)).sum)) := by
  rw [sentences_eq, List.length_map] at hs
  have hlen : (indexFile data).length = (blocks data).length + 1 := by rw [index_eq, length_offs]
  have hk := endLine_le end_ (blocks data).length
  have hsl : startLine start ≤ (blocks data).length := by
    cases start with
    | none => simp [startLine]
    | some s => simp only [orZero, startLine, Option.getD_some] at hs ⊢; omega
  unfold batchCounts
  dsimp only
  rw [if_neg (by omega), if_neg hne, select_idx data _ hsl]
  dsimp only
  have hdl : data.length = (pre data).length + (text ((blocks data).take (blocks data).length)).length := by
    conv => lhs; rw [data_eq data]
    rw [List.length_append, List.take_length]
  have hend : batchEnd data (indexFile data) end_ =
        (pre data).length + (text ((blocks data).take (endLine end_ (blocks data).length))).length := by
    unfold endLine batchEnd
    cases end_ with
    | none => exact hdl
    | some e =>
      dsimp only
      by_cases h : e < (indexFile data).length
      · rw [if_pos h, if_neg (by omega), index_eq, get_offs _ _ _ (by omega)]; rfl
      · rw [if_neg h, if_pos (by omega)]; exact hdl
  rw [hend]
  congr 1
  apply List.map_congr_left
  intro find hfind
  have hlf := hf find hfind
  have hsum : ((Spec.selected data start end_).map (fun x => (find x.2).length)).sum = (expected find data start end_).length := by
    have := congrArg List.length (expected_hits find data start end_)
    rw [List.length_map] at this
    rw [← this, Spec.hits, List.length_flatMap]
    simp
  rw [hsum]
  by_cases hij : startLine start ≤ endLine end_ (blocks data).length
  · have hsl2 := slice_text (pre data) (blocks data) _ _ hij
    rw [← data_eq] at hsl2
    have := congrArg List.length (spans_eq find hlf data start end_ 0 data _ _ hsl2 rfl)
    simpa only [List.length_map] using this
  · have hle := text_take_len (blocks data) (by omega : endLine end_ (blocks data).length ≤ startLine start)
    have e1 : expected find data start end_ = [] := by
      unfold expected
      rw [List.drop_eq_nil_of_le (by rw [List.length_take]; omega)]
      rfl
    have e2 : slice data ((pre data).length + (text ((blocks data).take (startLine start))).length)
        ((pre data).length + (text ((blocks data).take (endLine end_ (blocks data).length))).length) = [] := by
      unfold slice
      rw [List.drop_eq_nil_of_le]
      rw [List.length_take]; omega
    unfold findIter
    rw [e1, e2, hlf.blank [] rfl]
    rfl

/-! ## Extracting lines -/

theorem stripBack_spec (data : List Char) : ∀ n, n ≤ data.length → data.take (stripBack data n) = rstripNl (data.take n)
  | 0, _ => by simp [stripBack, rstripNl]
  | n + 1, h => by
    have hn : data[n]? = some (data[n]'(by omega)) := List.getElem?_eq_getElem (by omega)
    have ht : data.take (n + 1) = data.take n ++ [data[n]'(by omega)] := by
      rw [List.take_add_one, hn]; rfl
    unfold stripBack
    split
    · rename_i hc
      rw [stripBack_spec data n (by omega), ht]
      rw [hn] at hc
      injection hc with hc
      unfold rstripNl
      rw [List.reverse_append, List.reverse_singleton, List.singleton_append, hc, List.dropWhile_cons_of_pos (by simp)]
    · rename_i hc
      rw [ht]
      rw [hn] at hc
      unfold rstripNl
      rw [List.reverse_append, List.reverse_singleton, List.singleton_append, List.dropWhile_cons_of_neg (by
        simp only [decide_eq_true_eq]; intro e; exact hc (by rw [e])), List.reverse_cons, List.reverse_reverse]

/-- **C69** `extract`: with the file in memory or on disk, sentence numbers `i` (from 1) give the `i`-th non-blank line, when blank
lines are empty; a number of no sentence gives IndexError. -/
theorem C69_extract (data : List Char) (hb : Spec.NoSpaceLines data) (indices : List Nat) :
    ((∀ i ∈ indices, 1 ≤ i ∧ i ≤ (Spec.sentences data).length) →
      extractMem data indices = .ok (indices.map (fun i => (Spec.sentences data).getD (i - 1) [])) ∧
      extractDisk data indices = .ok (indices.map (fun i => (Spec.sentences data).getD (i - 1) []))) ∧
    (∀ i, ¬ (1 ≤ i ∧ i ≤ (Spec.sentences data).length) → extractMem data [i] = .error .index ∧ extractDisk data [i] = .error .index) := by
  have hlen : (indexFile data).length = (blocks data).length + 1 := by rw [index_eq, length_offs]
  rw [sentences_eq]
  constructor
  · intro h
    have key : ∀ i ∈ indices, ∃ b, (blocks data)[i - 1]? = some b ∧ i - 1 + 1 = i ∧
        ((blocks data).map Prod.fst).getD (i - 1) [] = b.1 := by
      intro i hi
      obtain ⟨h1, h2⟩ := h i hi
      rw [List.length_map] at h2
      refine ⟨(blocks data)[i - 1]'(by omega), List.getElem?_eq_getElem (by omega), by omega, ?_⟩
      rw [List.getD_eq_getElem?_getD, List.getElem?_map, List.getElem?_eq_getElem (by omega)]
      rfl
    constructor
    · apply mapM_ok
      intro i hi
      obtain ⟨b, h1, h2, h3⟩ := key i hi
      have hg := getOffsets_block data _ b h1
      have hsl := slice_block data _ b h1
      rw [h2] at hg
      rw [h3]
      have hle : (pre data).length + (text ((blocks data).take (i - 1))).length + (b.1 ++ b.2).length ≤ data.length := by
        have e : (blocks data).take (i - 1 + 1) = (blocks data).take (i - 1) ++ [b] := by
          rw [List.take_add_one, h1]; rfl
        have := text_take_len (blocks data) (by
          have := (List.getElem?_eq_some_iff.mp h1).1
          omega : i - 1 + 1 ≤ (blocks data).length)
        rw [e, text_append, List.take_length] at this
        conv => rhs; rw [data_eq data]
        simp only [text, List.append_nil, List.length_append] at this ⊢
        omega
      have hg' : getOffsets i (indexFile data) (some data) = .ok ((pre data).length + (text ((blocks data).take (i - 1))).length,
          stripBack data ((pre data).length + (text ((blocks data).take (i - 1))).length + (b.1 ++ b.2).length)) := by
        unfold getOffsets at hg ⊢
        split at hg
        · rename_i hc
          rw [if_pos hc]
          split at hg
          · rename_i o n ho hn
            injection hg with hg
            injection hg with hg1 hg2
            dsimp only at hg2 ⊢
            rw [hg1, hg2]
          · cases hg
        · cases hg
      rw [hg']
      dsimp only
      have hgood := good_get _ _ _ (good_blocks data) h1
      unfold slice
      rw [stripBack_spec data _ hle]
      have htake : data.take ((pre data).length + (text ((blocks data).take (i - 1))).length + (b.1 ++ b.2).length) =
          data.take ((pre data).length + (text ((blocks data).take (i - 1))).length) ++ (b.1 ++ b.2) := by
        have e := List.take_append_drop ((pre data).length + (text ((blocks data).take (i - 1))).length)
          (data.take ((pre data).length + (text ((blocks data).take (i - 1))).length + (b.1 ++ b.2).length))
        rw [List.take_take, Nat.min_eq_left (by omega)] at e
        unfold slice at hsl
        rw [hsl] at e
        exact e.symm
      rw [htake]
      have hr := nospace_eq data hb b (List.mem_of_getElem? h1)
      have hcl : ∃ x c, b.1 = x ++ [c] ∧ c ≠ '\n' := by
        rcases List.eq_nil_or_concat b.1 with e | ⟨x, c, e⟩
        · rw [e] at hgood; exact absurd hgood.1 (by decide)
        · refine ⟨x, c, by simpa using e, ?_⟩
          rintro rfl
          exact hgood.2.1 (by rw [e]; simp)
      obtain ⟨x, c, hx, hcn⟩ := hcl
      have hstrip : ∀ p : List Char, rstripNl (p ++ (b.1 ++ b.2)) = p ++ b.1 := by
        intro p
        unfold rstripNl
        have hr' : ∀ a ∈ b.2.reverse, (fun c => decide (c = '\n')) a = true := by
          intro a ha
          exact List.all_eq_true.mp hr a (List.mem_reverse.mp ha)
        rw [List.reverse_append, List.reverse_append, List.append_assoc, List.dropWhile_append_of_pos hr', hx]
        simp [hcn]
      rw [hstrip, List.drop_left' (by rw [List.length_take]; omega)]
    · apply mapM_ok
      intro i hi
      obtain ⟨b, h1, h2, h3⟩ := key i hi
      have hg := getOffsets_block data _ b h1
      have hsl := slice_block data _ b h1
      rw [h2] at hg
      rw [h3, hg]
      dsimp only
      have e : ∀ a c : Nat, (data.drop a).take (a + c - a) = slice data a (a + c) := by
        intro a c
        rw [slice, List.drop_take]
      rw [e, hsl, rstripNl_append _ _ (good_get _ _ _ (good_blocks data) h1).2.1 (nospace_eq data hb _ (List.mem_of_getElem? h1))]
  · intro i hi
    rw [List.length_map] at hi
    have hg : ∀ d, getOffsets i (indexFile data) d = .error .index := by
      intro d
      unfold getOffsets
      rw [if_neg (by omega)]
    constructor
    · unfold extractMem
      rw [List.mapM_cons, hg]; rfl
    · unfold extractDisk
      rw [List.mapM_cons, hg]; rfl

/-- **C69** (disagreement) `getinfo`: the number of sentences is one too high, for every file (the index has the end of the file as well); the
number of words, which is computed from it, too. -/
theorem C69_getinfo_disagreement (data : List Char) : infoLen data = (Spec.sentences data).length + 1 := by
  rw [infoLen, index_eq, length_offs, sentences_eq, List.length_map]

/-! ## A concrete engine: literal strings -/

/-- The leftmost, non-overlapping occurrences of a literal string: at position `pos`, with `skip` characters to skip. -/
def literalFrom (pat : List Char) : Nat → Nat → List Char → List (Nat × Nat)
  | _, _, [] => []
  | pos, skip + 1, _ :: cs => literalFrom pat (pos + 1) skip cs
  | pos, 0, c :: cs =>
    if pat.isPrefixOf (c :: cs) then (pos, pos + pat.length) :: literalFrom pat (pos + 1) (pat.length - 1) cs
    else literalFrom pat (pos + 1) 0 cs

/-- The pattern of a literal string. -/
def literal (pat : List Char) : Pattern := literalFrom pat 0 0

theorem literal_shift (pat : List Char) : ∀ (cs : List Char) (pos skip d : Nat),
    literalFrom pat (pos + d) skip cs = (literalFrom pat pos skip cs).map (fun x => (x.1 + d, x.2 + d))
  | [], _, _, _ => by simp [literalFrom]
  | c :: cs, pos, skip + 1, d => by
    rw [literalFrom, literalFrom, Nat.add_right_comm, literal_shift pat cs]
  | c :: cs, pos, 0, d => by
    rw [literalFrom, literalFrom]
    split
    · rw [Nat.add_right_comm pos d 1, literal_shift pat cs (pos + 1), List.map_cons]
      congr 1
      simp only [Prod.mk.injEq, true_and]; omega
    · rw [Nat.add_right_comm, literal_shift pat cs (pos + 1)]

theorem isPrefixOf_nl (pat : List Char) (h : '\n' ∉ pat) (b : List Char) : ∀ a : List Char,
    pat.isPrefixOf (a ++ '\n' :: b) = pat.isPrefixOf a := by
  induction pat with
  | nil => intro a; simp
  | cons p pat ih =>
    intro a
    have h1 : p ≠ '\n' := fun e => h (by simp [e])
    have h2 : '\n' ∉ pat := fun e => h (by simp [e])
    cases a with
    | nil => simp [List.isPrefixOf, h1]
    | cons c a => simp [List.isPrefixOf, ih h2]

theorem isPrefixOf_len {pat a : List Char} (h : pat.isPrefixOf a = true) : pat.length ≤ a.length := by
  rw [List.isPrefixOf_iff_prefix] at h
  exact h.length_le

theorem literal_split (pat : List Char) (hne : pat ≠ []) (h : '\n' ∉ pat) (b : List Char) : ∀ (a : List Char) (pos skip : Nat), skip ≤ a.length →
    literalFrom pat pos skip (a ++ '\n' :: b) = literalFrom pat pos skip a ++ literalFrom pat (pos + (a.length + 1)) 0 b
  | [], pos, skip, hs => by
    have : skip = 0 := by simpa using hs
    subst this
    have hp : pat.isPrefixOf ('\n' :: b) = false := by
      have := isPrefixOf_nl pat h b []
      rw [List.nil_append] at this
      rw [this]
      cases pat with
      | nil => exact absurd rfl hne
      | cons p pat => rfl
    rw [List.nil_append]
    simp [literalFrom, hp]
  | c :: a, pos, skip + 1, hs => by
    rw [List.length_cons] at hs
    rw [List.cons_append, literalFrom, literalFrom, literal_split pat hne h b a _ _ (by omega), List.length_cons]
    congr 2; omega
  | c :: a, pos, 0, _ => by
    rw [List.cons_append, literalFrom, literalFrom, ← List.cons_append, isPrefixOf_nl pat h b]
    split
    · rename_i hp
      have := isPrefixOf_len hp
      rw [List.length_cons] at this
      rw [literal_split pat hne h b a _ _ (by omega), List.cons_append, List.length_cons]
      congr 3; omega
    · rw [literal_split pat hne h b a _ _ (by omega), List.length_cons]
      congr 2; omega

theorem literal_mem (pat : List Char) : ∀ (cs : List Char) (pos skip : Nat) (x : Nat × Nat), x ∈ literalFrom pat pos skip cs →
    pos ≤ x.1 ∧ x.2 = x.1 + pat.length ∧ x.2 ≤ pos + cs.length ∧ ∀ c ∈ pat, c ∈ cs
  | [], _, _, _, h => by simp [literalFrom] at h
  | c :: cs, pos, skip + 1, x, h => by
    rw [literalFrom] at h
    obtain ⟨h1, h2, h3, h4⟩ := literal_mem pat cs _ _ x h
    refine ⟨by omega, h2, by rw [List.length_cons]; omega, fun d hd => List.mem_cons_of_mem _ (h4 d hd)⟩
  | c :: cs, pos, 0, x, h => by
    rw [literalFrom] at h
    split at h
    · rename_i hp
      rcases List.mem_cons.mp h with rfl | h
      · have := isPrefixOf_len hp
        refine ⟨Nat.le_refl _, rfl, by omega, ?_⟩
        rw [List.isPrefixOf_iff_prefix] at hp
        intro d hd
        exact hp.subset hd
      · obtain ⟨h1, h2, h3, h4⟩ := literal_mem pat cs _ _ x h
        exact ⟨by omega, h2, by rw [List.length_cons]; omega, fun d hd => List.mem_cons_of_mem _ (h4 d hd)⟩
    · obtain ⟨h1, h2, h3, h4⟩ := literal_mem pat cs _ _ x h
      exact ⟨by omega, h2, by rw [List.length_cons]; omega, fun d hd => List.mem_cons_of_mem _ (h4 d hd)⟩

/-- **C69** Literal strings without newline and with a character that is not white space satisfy the hypothesis of the theorems. -/
theorem C69_literal (pat : List Char) (h : '\n' ∉ pat) (h2 : isBlank pat = false) : Spec.LineLocal (literal pat) where
  split := by
    intro a b
    have hne : pat ≠ [] := by rintro rfl; exact absurd h2 (by decide)
    unfold literal
    rw [literal_split pat hne h b a 0 0 (Nat.zero_le _)]
    congr 1
    rw [literal_shift pat b 0 0]
  blank := by
    intro a ha
    have hw : ∃ c ∈ pat, isWs c = false := by
      by_contra hn
      push Not at hn
      have : isBlank pat = true := by
        unfold isBlank
        rw [List.all_eq_true]
        intro c hc
        have := hn c hc
        simpa using this
      rw [this] at h2; cases h2
    obtain ⟨c, hc, hcw⟩ := hw
    rw [List.eq_nil_iff_forall_not_mem]
    intro x hx
    have := (literal_mem pat a 0 0 x hx).2.2.2 c hc
    have := List.all_eq_true.mp ha c this
    rw [hcw] at this; cases this
  bounds := by
    intro a x hx
    obtain ⟨_, h3, h4, _⟩ := literal_mem pat a 0 0 x hx
    have hne : pat ≠ [] := by rintro rfl; exact absurd h2 (by decide)
    have := List.length_pos_iff.mpr hne
    constructor <;> omega

/-- A file with a blank line at the start and in the middle. -/
def exFile : List Char := "\nthe cat\n\na dog or a cat cat\nno\n".toList

example : Spec.NoSpaceLines exFile ∧ exFile ≠ [] ∧
    querySents (literal "cat".toList) exFile none none none =
      .ok [⟨1, "the cat".toList, 4, 7⟩, ⟨2, "a dog or a cat cat".toList, 11, 14⟩, ⟨2, "a dog or a cat cat".toList, 15, 18⟩] ∧
    queryIndices (literal "cat".toList) exFile (some 2) none (some 1) = .ok [2] ∧
    queryCount (literal "o".toList) exFile (some 2) (some 2) = .ok 2 ∧
    extractMem exFile [3, 1] = .ok ["no".toList, "the cat".toList] := by
  refine ⟨?_, by decide +kernel, by decide +kernel, by decide +kernel, by decide +kernel, by decide +kernel⟩
  unfold Spec.NoSpaceLines
  decide +kernel

/-- **C69** (disagreement) A blank line with a space, which is not a sentence, becomes part of the sentence before it. -/
theorem C69_space_disagreement :
    Spec.sentences "the cat\n \na dog\n".toList = ["the cat".toList, "a dog".toList] ∧
    querySents (literal "cat".toList) "the cat\n \na dog\n".toList none none none = .ok [⟨1, "the cat\n ".toList, 4, 7⟩] ∧
    extractMem "the cat\n \na dog\n".toList [1] = .ok ["the cat\n ".toList] := by decide +kernel

/-- A pattern that matches empty strings, such as `x*` on texts without x: at every position and at the end. -/
def emptyPattern : Pattern := fun a => (List.range (a.length + 1)).map (fun i => (i, i))

/-- **C69** (disagreement) A pattern that matches the empty string: the match at the end of the file has the number of a sentence which does not
exist, and `sents` fails with IndexError. -/
theorem C69_empty_match_disagreement :
    queryIndices emptyPattern "a\n".toList none none none = .ok [1, 1, 2] ∧
    (Spec.sentences "a\n".toList).length = 1 ∧
    querySents emptyPattern "a\n".toList none none none = .error .index := by decide +kernel

/-- **C69** (disagreement) An empty file: an exception (it cannot be mapped in memory) instead of no matches. -/
theorem C69_empty_file_disagreement (find : Pattern) :
    queryCount find [] none none = .error .value ∧ batchCounts [find] [] none none = .error .value := ⟨rfl, rfl⟩

/-- **C69** (disagreement) `batchcounts` with a start after the last sentence: no counts at all instead of a zero for each query. -/
theorem C69_batch_disagreement : batchCounts [literal ['a'], literal ['b']] "a\nb\n".toList (some 3) none = .ok [] ∧
    queryCount (literal ['a']) "a\nb\n".toList (some 3) none = .ok 0 := by decide +kernel

/-! ## Presentation -/

/-- The loop of `charindices` (treesearch.py:1267-1279): the range of each token. -/
def ranges (n : Nat) : Nat → Nat → List (List Char) → List (List Nat)
  | _, _, [] => []
  | cur, i, a :: rest => List.range' cur (a.length + (if i ≠ n - 1 then 1 else 0)) :: ranges n (cur + a.length + 1) (i + 1) rest

/-- `charindices(sent, indices)` (treesearch.py:1267-1281); none is a KeyError. The set is given as a list. -/
def charindices (sent : List (List Char)) (indices : List Nat) : Option (List Nat) :=
  (indices.mapM (fun n => (ranges sent.length 0 0 sent)[n]?)).map List.flatten

/-- `' '.join(sent)`, where each character comes with the number of the token that it belongs to (a space belongs to the token before
it). -/
def Spec.tagged : Nat → List (List Char) → List (Char × Nat)
  | _, [] => []
  | i, [a] => a.map (fun c => (c, i))
  | i, a :: rest => a.map (fun c => (c, i)) ++ (' ', i) :: Spec.tagged (i + 1) rest

theorem ranges_spec (n : Nat) : ∀ (sent : List (List Char)) (cur i : Nat), i + sent.length = n →
    (ranges n cur i sent).length = sent.length ∧
    ∀ (j : Nat) (r : List Nat), (ranges n cur i sent)[j]? = some r →
      ∀ c, c ∈ r ↔ cur ≤ c ∧ ((Spec.tagged i sent)[c - cur]?).map Prod.snd = some (i + j)
  | [], _, _, _ => by simp [ranges]
  | [a], cur, i, hn => by
    refine ⟨rfl, ?_⟩
    intro j r hr c
    have hi : i = n - 1 := by simp at hn; omega
    rw [ranges, if_neg (by simpa using hi), ranges] at hr
    cases j with
    | zero =>
      simp at hr
      subst hr
      rw [List.mem_range'_1, Spec.tagged]
      simp
      intro h1
      constructor
      · intro h2
        exact ⟨a[c - cur]'(by omega), List.getElem?_eq_getElem _⟩
      · rintro ⟨x, hx⟩
        have := (List.getElem?_eq_some_iff.mp hx).1
        omega
    | succ j => simp at hr
  | a :: b :: sent, cur, i, hn => by
    have hi : i ≠ n - 1 := by simp at hn; omega
    obtain ⟨hlen, ih⟩ := ranges_spec n (b :: sent) (cur + a.length + 1) (i + 1) (by simp at hn ⊢; omega)
    refine ⟨by rw [ranges, List.length_cons, hlen, List.length_cons (a := a)], ?_⟩
    intro j r hr c
    rw [ranges, if_pos hi] at hr
    have htag : Spec.tagged i (a :: b :: sent) = a.map (fun c => (c, i)) ++ (' ', i) :: Spec.tagged (i + 1) (b :: sent) := rfl
    have hge : ∀ (sent : List (List Char)) (i : Nat), ∀ x ∈ Spec.tagged i sent, i ≤ x.2 := by
      intro sent
      induction sent with
      | nil => intro i x h; simp [Spec.tagged] at h
      | cons y sent ihs =>
        intro i x h
        cases sent with
        | nil =>
          rw [Spec.tagged] at h
          obtain ⟨_, _, rfl⟩ := List.mem_map.mp h
          exact Nat.le_refl _
        | cons z sent =>
          have e : Spec.tagged i (y :: z :: sent) = y.map (fun c => (c, i)) ++ (' ', i) :: Spec.tagged (i + 1) (z :: sent) := rfl
          rw [e] at h
          rcases List.mem_append.mp h with h | h
          · obtain ⟨_, _, rfl⟩ := List.mem_map.mp h
            exact Nat.le_refl _
          · rcases List.mem_cons.mp h with rfl | h
            · exact Nat.le_refl _
            · have := ihs (i + 1) x h; omega
    -- position c - cur in the tagged list
    have hpos : ∀ d, ((Spec.tagged i (a :: b :: sent))[d]?).map Prod.snd =
        if d < a.length + 1 then some i else ((Spec.tagged (i + 1) (b :: sent))[d - (a.length + 1)]?).map Prod.snd := by
      intro d
      rw [htag, List.getElem?_append, List.length_map]
      by_cases h1 : d < a.length
      · rw [if_pos h1, if_pos (by omega), List.getElem?_map, List.getElem?_eq_getElem h1]; rfl
      · rw [if_neg h1]
        by_cases h2 : d = a.length
        · subst h2; simp
        · rw [if_neg (by omega)]
          obtain ⟨k, hk⟩ : ∃ k, d - a.length = k + 1 := ⟨d - a.length - 1, by omega⟩
          rw [hk, List.getElem?_cons_succ]
          congr 2; omega
    cases j with
    | zero =>
      simp at hr
      subst hr
      rw [List.mem_range'_1, hpos]
      constructor
      · rintro ⟨h1, h2⟩
        exact ⟨h1, by rw [if_pos (by omega)]; rfl⟩
      · rintro ⟨h1, h2⟩
        refine ⟨h1, ?_⟩
        by_contra hn2
        rw [if_neg (by omega)] at h2
        cases hg : (Spec.tagged (i + 1) (b :: sent))[c - cur - (a.length + 1)]? with
        | none => rw [hg] at h2; cases h2
        | some x =>
          rw [hg] at h2
          have := hge _ _ x (List.mem_of_getElem? hg)
          simp at h2
          omega
    | succ j =>
      rw [List.getElem?_cons_succ] at hr
      have h := ih j r hr c
      rw [h, hpos]
      constructor
      · rintro ⟨h1, h2⟩
        refine ⟨by omega, ?_⟩
        rw [if_neg (by omega)]
        have e : c - (cur + a.length + 1) = c - cur - (a.length + 1) := by omega
        rw [e] at h2
        rw [h2]
        congr 1; omega
      · rintro ⟨h1, h2⟩
        split at h2
        · simp at h2
        · refine ⟨by omega, ?_⟩
          have e : c - (cur + a.length + 1) = c - cur - (a.length + 1) := by omega
          rw [e, h2]
          congr 1; omega

theorem mapM_some {α β : Type} (f : α → Option β) : ∀ l : List α, (∀ x ∈ l, (f x).isSome = true) → ∃ ys, l.mapM f = some ys ∧
    ∀ y, y ∈ ys ↔ ∃ x ∈ l, f x = some y
  | [], _ => ⟨[], rfl, by simp⟩
  | x :: l, h => by
    obtain ⟨ys, h1, h2⟩ := mapM_some f l (fun y hy => h y (by simp [hy]))
    have hx := h x (by simp)
    obtain ⟨y, hy⟩ := Option.isSome_iff_exists.mp hx
    refine ⟨y :: ys, by rw [List.mapM_cons, hy, h1]; rfl, ?_⟩
    intro z
    rw [List.mem_cons, h2]
    constructor
    · rintro (rfl | ⟨w, hw, hz⟩)
      · exact ⟨x, by simp, hy⟩
      · exact ⟨w, by simp [hw], hz⟩
    · rintro ⟨w, hw, hz⟩
      rcases List.mem_cons.mp hw with rfl | hw
      · rw [hy] at hz; injection hz with hz; exact .inl hz.symm
      · exact .inr ⟨w, hw, hz⟩

theorem tagged_text : ∀ (sent : List (List Char)) (i : Nat),
    (Spec.tagged i sent).map Prod.fst = List.flatten (sent.intersperse [' '])
  | [], _ => rfl
  | [a], i => by simp [Spec.tagged, Function.comp_def]
  | a :: b :: sent, i => by
    have e : Spec.tagged i (a :: b :: sent) = a.map (fun c => (c, i)) ++ (' ', i) :: Spec.tagged (i + 1) (b :: sent) := rfl
    rw [e, List.map_append, List.map_cons, tagged_text (b :: sent)]
    simp [Function.comp_def]

/-- **C69** `charindices`: for token numbers of the sentence, the indices of exactly those characters of `' '.join(sent)` that belong to
one of the tokens (where the space after a token belongs to it). -/
theorem C69_charindices (sent : List (List Char)) (indices : List Nat) (h : ∀ n ∈ indices, n < sent.length) :
    (Spec.tagged 0 sent).map Prod.fst = List.flatten (sent.intersperse [' ']) ∧
    ∃ r, charindices sent indices = some r ∧
      ∀ c, c ∈ r ↔ ∃ x, (Spec.tagged 0 sent)[c]? = some x ∧ x.2 ∈ indices := by
  refine ⟨tagged_text sent 0, ?_⟩
  obtain ⟨hlen, hr⟩ := ranges_spec sent.length sent 0 0 (by omega)
  obtain ⟨ys, h1, h2⟩ := mapM_some (fun n => (ranges sent.length 0 0 sent)[n]?) indices (by
    intro n hn
    have := h n hn
    rw [List.getElem?_eq_getElem (by omega)]; rfl)
  refine ⟨ys.flatten, by rw [charindices, h1]; rfl, ?_⟩
  intro c
  rw [List.mem_flatten]
  constructor
  · rintro ⟨y, hy, hc⟩
    obtain ⟨n, hn, hg⟩ := (h2 y).mp hy
    have := ((hr n y hg c).mp hc).2
    rw [Nat.sub_zero, Nat.zero_add] at this
    obtain ⟨x, hx, hxe⟩ := Option.map_eq_some_iff.mp this
    exact ⟨x, hx, by rw [hxe]; exact hn⟩
  · rintro ⟨x, hx, hn⟩
    have hlt := h _ hn
    have hg : (ranges sent.length 0 0 sent)[x.2]? = some ((ranges sent.length 0 0 sent)[x.2]'(by omega)) := List.getElem?_eq_getElem _
    refine ⟨_, (h2 _).mpr ⟨x.2, hn, hg⟩, (hr _ _ hg c).mpr ⟨Nat.zero_le _, ?_⟩⟩
    rw [Nat.sub_zero, hx, Nat.zero_add]; rfl

example : charindices ["The".toList, "cat".toList, "is".toList, "on".toList, "the".toList, "mat".toList] [0, 2, 4] =
    some [0, 1, 2, 3, 8, 9, 10, 14, 15, 16, 17] := by decide +kernel

/-- Output of `applyhighlight`: text and escape codes. -/
inductive Out where
  | ch (c : Char)
  | reset
  | color (n : Nat)
  deriving DecidableEq, Repr

/-- The loop of `applyhighlight` (treesearch.py:1306-1320): `cur` is the current color, `pending` the text `sent[start:n]`. -/
def highlightLoop (reset : Bool) (c1 c2 : Nat) (high1 high2 : Nat → Bool) : Nat → Option Nat → List Char → List Char → List Out
  | _, cur, pending, [] => pending.map Out.ch ++ (if cur.isSome then [Out.reset] else [])
  | n, cur, pending, c :: cs =>
    if high1 n then
      if cur ≠ some c1 then
        pending.map Out.ch ++ (if reset then [Out.reset] else []) ++ [Out.color c1] ++
          highlightLoop reset c1 c2 high1 high2 (n + 1) (some c1) [c] cs
      else highlightLoop reset c1 c2 high1 high2 (n + 1) cur (pending ++ [c]) cs
    else if high2 n then
      if cur ≠ some c2 then
        pending.map Out.ch ++ (if reset then [Out.reset] else []) ++ [Out.color c2] ++
          highlightLoop reset c1 c2 high1 high2 (n + 1) (some c2) [c] cs
      else highlightLoop reset c1 c2 high1 high2 (n + 1) cur (pending ++ [c]) cs
    else if cur.isSome then
      pending.map Out.ch ++ [Out.reset] ++ highlightLoop reset c1 c2 high1 high2 (n + 1) none [c] cs
    else highlightLoop reset c1 c2 high1 high2 (n + 1) cur (pending ++ [c]) cs

/-- `applyhighlight(sent, high1, high2, reset, high1color, high2color)` (treesearch.py:1292-1324). -/
def applyhighlight (sent : List Char) (high1 high2 : Nat → Bool) (reset : Bool) (c1 c2 : Nat) : List Out :=
  highlightLoop reset c1 c2 high1 high2 0 none [] sent

/-- A terminal: the characters shown with their colors, and the color in the end. -/
def Spec.terminal : Option Nat → List Out → List (Char × Option Nat) × Option Nat
  | cur, [] => ([], cur)
  | cur, .ch c :: os => ((c, cur) :: (Spec.terminal cur os).1, (Spec.terminal cur os).2)
  | _, .reset :: os => Spec.terminal none os
  | _, .color n :: os => Spec.terminal (some n) os

theorem terminal_append : ∀ (a b : List Out) (cur : Option Nat),
    Spec.terminal cur (a ++ b) = ((Spec.terminal cur a).1 ++ (Spec.terminal (Spec.terminal cur a).2 b).1,
      (Spec.terminal (Spec.terminal cur a).2 b).2)
  | [], b, cur => rfl
  | .ch c :: a, b, cur => by simp [Spec.terminal, terminal_append a b]
  | .reset :: a, b, cur => by simp [Spec.terminal, terminal_append a b]
  | .color n :: a, b, cur => by simp [Spec.terminal, terminal_append a b]

theorem terminal_text : ∀ (p : List Char) (cur : Option Nat), Spec.terminal cur (p.map Out.ch) = (p.map (fun c => (c, cur)), cur)
  | [], _ => rfl
  | c :: p, cur => by simp [Spec.terminal, terminal_text p]

/-- The color that a character should have. -/
def Spec.wanted (c1 c2 : Nat) (high1 high2 : Nat → Bool) (n : Nat) : Option Nat :=
  if high1 n then some c1 else if high2 n then some c2 else none

theorem highlightLoop_spec (reset : Bool) (c1 c2 : Nat) (high1 high2 : Nat → Bool) : ∀ (cs : List Char) (n : Nat) (cur : Option Nat) (pending : List Char),
    Spec.terminal cur (highlightLoop reset c1 c2 high1 high2 n cur pending cs) =
      (pending.map (fun c => (c, cur)) ++ (cs.zipIdx n).map (fun x => (x.1, Spec.wanted c1 c2 high1 high2 x.2)), none)
  | [], n, cur, pending => by
    rw [highlightLoop, terminal_append, terminal_text]
    cases cur <;> simp [Spec.terminal]
  | c :: cs, n, cur, pending => by
    have ih := highlightLoop_spec reset c1 c2 high1 high2 cs (n + 1)
    rw [List.zipIdx_cons, List.map_cons]
    unfold highlightLoop
    by_cases h1 : high1 n = true
    · have hw : Spec.wanted c1 c2 high1 high2 n = some c1 := by simp [Spec.wanted, h1]
      rw [if_pos h1]
      dsimp only
      rw [hw]
      by_cases hc : cur = some c1
      · rw [if_neg (by simp [hc]), ih, hc]; simp
      · rw [if_pos hc, List.append_assoc, List.append_assoc, terminal_append, terminal_text]
        cases reset <;> simp [Spec.terminal, ih]
    · have h1' : high1 n = false := by simpa using h1
      rw [if_neg h1]
      by_cases h2 : high2 n = true
      · have hw : Spec.wanted c1 c2 high1 high2 n = some c2 := by simp [Spec.wanted, h1', h2]
        rw [if_pos h2]
        dsimp only
        rw [hw]
        by_cases hc : cur = some c2
        · rw [if_neg (by simp [hc]), ih, hc]; simp
        · rw [if_pos hc, List.append_assoc, List.append_assoc, terminal_append, terminal_text]
          cases reset <;> simp [Spec.terminal, ih]
      · have h2' : high2 n = false := by simpa using h2
        have hw : Spec.wanted c1 c2 high1 high2 n = none := by simp [Spec.wanted, h1', h2']
        rw [if_neg h2]
        dsimp only
        rw [hw]
        cases cur with
        | none => rw [if_neg (by simp), ih]; simp
        | some x =>
          rw [if_pos (by rfl : (some x).isSome = true), List.append_assoc, terminal_append, terminal_text]
          simp [Spec.terminal, ih]

/-- **C69** `applyhighlight`: a terminal that shows the output shows exactly the sentence, each character in the first color if its index is in
`high1`, else in the second if it is in `high2`, else in the normal color; and it is left in the normal color. -/
theorem C69_highlight (sent : List Char) (high1 high2 : Nat → Bool) (reset : Bool) (c1 c2 : Nat) :
    Spec.terminal none (applyhighlight sent high1 high2 reset c1 c2) =
      (sent.zipIdx.map (fun x => (x.1, Spec.wanted c1 c2 high1 high2 x.2)), none) := by
  unfold applyhighlight
  rw [highlightLoop_spec]
  simp

example : applyhighlight "abcd".toList (fun n => n = 1) (fun n => n = 2) false 31 34 =
    [.ch 'a', .color 31, .ch 'b', .color 34, .ch 'c', .reset, .ch 'd'] := by decide +kernel

end Disco.Lines
