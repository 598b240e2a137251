import Mathlib.Data.List.Basic
import Mathlib.Data.List.Perm.Basic
import Mathlib.Data.List.Infix
import Mathlib.Tactic.SplitIfs
import Verif.Format.ExportRewrite
/-!
# C14: files in the export format
-/
namespace Disco.Export
open PTree

/-! ### Model -/

/-- The first line (treebank.py:767-769). -/
def bosLine (key : Str) (comment : Option Str) : Str :=
  ['#', 'B', 'O', 'S', ' '] ++ key ++ match comment with
    | none => []
    | some [] => []
    | some c => [' ', '%', '%', ' '] ++ c

/-- The last line (treebank.py:826). -/
def eosLine (key : Str) : Str := ['#', 'E', 'O', 'S', ' '] ++ key

/-- The lines of `writeexporttree` (treebank.py:765-827), given the rows. -/
def treeLines (key : Str) (comment : Option Str) (rows : List (List Str)) : List Str :=
  bosLine key comment :: (rows.map joinTab ++ [eosLine key])

/-- `"%s\n" % "\n".join(lines)` (treebank.py:827). -/
def unlines (lines : List Str) : Str := Str.join ['\n'] lines ++ ['\n']

/-- `writeexporttree` (treebank.py:753-827) with a key; `none` models exceptions. -/
def writeexporttree (pyInt : Str → Option Int) (act : Morph) (t : PTree Lab) (sent : List Str) (key : Str) (comment : Option Str) : Option Str :=
  (writeRows pyInt act t sent).map fun rows => unlines (treeLines key comment rows)

/-- Iterating over the lines of a file opened in text mode (line endings `\n`, `\r` and `\r\n`); the lines are given without the line ending, which
`line.rstrip()` removes (treebank.py:317-318). The first argument tells that the previous character is `\r`. -/
def fileLines (cr : Bool) : Str → List Str
  | [] => []
  | c :: s =>
    if c = '\n' then (if cr then fileLines false s else [] :: fileLines false s)
    else if c = '\r' then [] :: fileLines true s
    else match fileLines false s with
      | [] => [[c]]
      | l :: ls => (c :: l) :: ls

/-- The loop of `NegraCorpusReader._read_blocks` (treebank.py:308-342): `results` are the keys seen so far, `cur` the key and lines of the block that has
been started. `none` models `ValueError`. -/
def readBlocks (ws : Char → Bool) : List Str → List Str → Option (Str × List Str) → Option (List (Str × List Str))
  | [], _, _ => some []
  | raw :: rest, results, cur =>
    if (['#', 'B', 'O', 'S', ' '] : Str).isPrefixOf (rstrip ws raw) then
      match cur, (splitWs ws (rstrip ws raw))[1]? with
      | none, some sentid => readBlocks ws rest results (some (sentid, [rstrip ws raw]))
      | _, _ => none
    else if (['#', 'E', 'O', 'S', ' '] : Str).isPrefixOf (rstrip ws raw) then
      match cur, (splitWs ws (rstrip ws raw))[1]? with
      | some (sentid, lines), some thissentid =>
        if sentid ≠ thissentid then none
        else if sentid ∈ results then none
        else match readBlocks ws rest (sentid :: results) none with
          | none => none
          | some blocks => some ((sentid, lines ++ [rstrip ws raw]) :: blocks)
      | _, _ => none
    else match cur with
      | some (sentid, lines) => readBlocks ws rest results (some (sentid, lines ++ [rstrip ws raw]))
      | none => readBlocks ws rest results none

/-- `block[0].split('%%')[1].strip() if '%%' in block[0] else None` (treebank.py:565). -/
def commentOf (ws : Char → Bool) (line : Str) : Option Str :=
  match Str.find ['%', '%'] line with
  | none => none
  | some i => some (strip ws (cutComment (line.drop (i + 2))))

/-- A treebank item (treebank.py:33-41). -/
structure TItem where
  tree : PTree Lab
  sent : List Str
  comment : Option Str
  deriving DecidableEq

/-- `_parsetree` (treebank.py:169-192) applied to `exporttree` (treebank.py:544-579), without options apart from `morphology`. -/
def parseBlock (ws : Char → Bool) (act : Morph) (block : List Str) : Option TItem :=
  match block with
  | [] => none
  | first :: rest =>
    match mapO (exportsplit ws) rest.dropLast with
    | none => none
    | some table => (parsetree act table).map fun x => ⟨x.1, x.2, commentOf ws first⟩

/-- `NegraCorpusReader(...).itertrees()` (treebank.py:116-124, 308-346): the keys and items of a file. -/
def readCorpus (ws : Char → Bool) (act : Morph) (text : Str) : Option (List (Str × TItem)) :=
  match readBlocks ws (fileLines false text) [] none with
  | none => none
  | some blocks => mapO (fun b => (parseBlock ws act b.2).map fun x => (b.1, x)) blocks

/-- A sentence to be written. -/
structure Entry where
  key : Str
  tree : PTree Lab
  sent : List Str
  comment : Option Str

/-- Writing a treebank: one call of `writeexporttree` after the other. -/
def writeCorpus (pyInt : Str → Option Int) (act : Morph) (es : List Entry) : Option Str :=
  (mapO (fun e => writeexporttree pyInt act e.tree e.sent e.key e.comment) es).map List.flatten

/-! ### Specification -/

/-- A comment that can be written: a single line, not empty, without white space at the ends and without `%%`. -/
structure Spec.CommentOk (ws : Char → Bool) (c : Str) : Prop where
  ne : c ≠ []
  stripped : strip ws c = c
  noComment : ¬ ['%', '%'] <:+: c
  noNl : '\n' ∉ c
  noCr : '\r' ∉ c

/-- A sentence that can be written: a key without white space, a comment that can be written, a tree as in `C14_tree` without empty constituents. -/
structure Spec.EntryOk (ws : Char → Bool) (pyInt : Str → Option Int) (e : Entry) : Prop where
  root : e.tree.isNode = true
  tree : Spec.Writable ws pyInt e.tree.children e.sent
  few : Spec.phrasal e.tree.children ≤ 500
  noEmpty : Canon.Spec.NoEmpty (Spec.withRoot e.tree.children)
  key : Spec.Field ws e.key
  comment : ∀ c, e.comment = some c → Spec.CommentOk ws c

/-! ### Lemmas: fields -/

section
variable {ws : Char → Bool}

theorem field_of_visible (hw : Spec.White ws) {s : Str} (hne : s ≠ []) (hv : ∀ c ∈ s, '!' ≤ c ∧ c ≤ '~') (hp : '%' ∉ s) : Spec.Field ws s :=
  ⟨hne, fun c hc => hw.visible c (hv c hc).1 (hv c hc).2, fun hi => hp (hi.subset (by simp))⟩

theorem dash_field (hw : Spec.White ws) : Spec.Field ws dash := field_of_visible hw (by decide) (by decide) (by decide)

theorem digits_visible (n : Nat) : ∀ c ∈ Nat.toDigits 10 n, c.isDigit = true := fun c hc => Nat.isDigit_of_mem_toDigits (by omega) (by omega) hc

theorem digit_props {c : Char} (h : c.isDigit = true) : ('!' ≤ c ∧ c ≤ '~') ∧ c ≠ '%' ∧ c ≠ '#' := by
  have h' : 48 ≤ c.val ∧ c.val ≤ 57 := by simpa [Char.isDigit] using h
  refine ⟨⟨?_, ?_⟩, ?_, ?_⟩
  · show ('!' : Char).val ≤ c.val
    exact UInt32.le_trans (by decide) h'.1
  · show c.val ≤ ('~' : Char).val
    exact UInt32.le_trans h'.2 (by decide)
  · rintro rfl; revert h; decide
  · rintro rfl; revert h; decide

theorem ident_field (hw : Spec.White ws) (k : Nat) : Spec.Field ws (ident k) :=
  field_of_visible hw Nat.toDigits_ne_nil (fun c hc => (digit_props (digits_visible _ c hc)).1) (fun hc => (digit_props (digits_visible _ _ hc)).2.1 rfl)

theorem hash_field (hw : Spec.White ws) (k : Nat) : Spec.Field ws ('#' :: ident k) := by
  refine field_of_visible hw (by simp) (fun c hc => ?_) (fun hc => ?_)
  · rcases List.mem_cons.1 hc with rfl | hc
    · decide
    · exact (digit_props (digits_visible _ c hc)).1
  · rcases List.mem_cons.1 hc with h | hc
    · simp at h
    · exact (digit_props (digits_visible _ _ hc)).2.1 rfl

theorem parStr_field (hw : Spec.White ws) (k : Option Nat) : Spec.Field ws (parStr k) := by
  cases k with
  | none => exact field_of_visible hw (by decide) (by decide) (by decide)
  | some k => exact ident_field hw k

theorem attr_field (hw : Spec.White ws) {l : Lab} (h : Spec.LabOk ws l) {i : Nat} (hi : 1 ≤ i) : Spec.Field ws (Spec.attr l i) := by
  rw [Spec.attr]
  split
  · exact dash_field hw
  · rename_i s hs
    split
    · exact dash_field hw
    · rename_i v hv
      split
      · exact dash_field hw
      · rename_i hne
        have : v ∈ s.drop 1 := by
          refine List.mem_of_getElem? (i := i - 1) ?_
          rw [List.getElem?_drop, show 1 + (i - 1) = i by omega]; exact hv
        rcases h.fields s hs v this with h1 | h1
        · exact absurd h1 hne
        · exact h1

theorem replace_field (hw : Spec.White ws) {s : Str} (h : Spec.Field ws s) (h1 : '(' ∉ s) (h2 : ')' ∉ s) :
    Spec.Field ws (Escape.replace ['$', '['] ['$', '('] s) := by
  have hp := paren_replace s
  rw [paren_id h1 h2] at hp
  refine ⟨replace_ne h.ne, fun c hc => ?_, fun hi => h.noComment ?_⟩
  · have hm : (if c = '(' then '[' else if c = ')' then ']' else c) ∈ s := by
      rw [← hp, paren]; exact List.mem_map.2 ⟨c, hc, rfl⟩
    by_cases e1 : c = '('
    · subst e1; exact hw.visible _ (by decide) (by decide)
    · by_cases e2 : c = ')'
      · subst e2; exact hw.visible _ (by decide) (by decide)
      · rw [if_neg e1, if_neg e2] at hm; exact h.noWs c hm
  · rw [← hp, paren]
    have := hi.map fun c => if c = '(' then '[' else if c = ')' then ']' else c
    exact this

theorem mem_pairs {xs : List Str} {e : Str × Str} (h : e ∈ pairs xs) : e.1 ∈ xs ∧ e.2 ∈ xs := by
  induction xs using pairs.induct with
  | case1 a b r ih =>
    rw [pairs, List.mem_cons] at h
    rcases h with rfl | h
    · simp
    · have := ih h; simp [this]
  | case2 xs hx =>
    rw [pairs] at h
    · simp at h
    · exact hx

theorem secEdges_field (hw : Spec.White ws) (pyInt : Str → Option Int) (ids : List Int) {l : Lab} (h : Spec.LabOk ws l) :
    (∀ f ∈ secEdges pyInt ids l, Spec.Field ws f) ∧ (secEdges pyInt ids l).length % 2 = 0 := by
  rw [secEdges_eq]
  have hm : ∀ e ∈ pairs ((l.source.getD []).drop 6), Spec.Field ws e.1 := by
    intro e he
    cases hs : l.source with
    | none => rw [hs] at he; simp [pairs] at he
    | some s => rw [hs] at he; exact h.edges s hs _ (mem_pairs he).1
  generalize pairs ((l.source.getD []).drop 6) = es at hm
  induction es with
  | nil => simp
  | cons e es ih =>
    obtain ⟨i1, i2⟩ := ih fun x hx => hm x (by simp [hx])
    rw [List.flatMap_cons]
    cases hx : secOf pyInt ids e with
    | none => rw [List.nil_append]; exact ⟨i1, i2⟩
    | some y =>
      have hy : y.1 = e.1 ∧ ∃ k, y.2 = ident k := by
        rw [secOf] at hx
        cases hp : pyInt e.2 with
        | none => rw [hp] at hx; simp at hx
        | some i =>
          rw [hp, Option.bind_some] at hx
          cases hf : ids.findIdx? (· = i) with
          | none => rw [hf] at hx; simp at hx
          | some k => rw [hf, Option.map_some, Option.some.injEq] at hx; subst hx; exact ⟨rfl, k, rfl⟩
      obtain ⟨h1, k, h2⟩ := hy
      refine ⟨fun f hf => ?_, ?_⟩
      · rw [List.mem_append] at hf
        rcases hf with hf | hf
        · simp at hf
          rcases hf with rfl | rfl
          · rw [h1]; exact hm e (by simp)
          · rw [h2]; exact ident_field hw k
        · exact i1 f hf
      · rw [List.length_append]; simp only [List.length_cons, List.length_nil]; omega

/-- A row that can be written. -/
def RowOk (ws : Char → Bool) (row : List Str) : Prop := (∀ f ∈ row, Spec.Field ws f) ∧ 6 ≤ row.length ∧ row.length % 2 = 0

theorem rows_ok (hw : Spec.White ws) {pyInt : Str → Option Int} {cs : List (PTree Lab)} {sent : List Str} (h : Spec.Writable ws pyInt cs sent) (ids : List Int) :
    ∀ row ∈ rowsF pyInt .no ids sent (itemsL none 0 cs), RowOk ws row := by
  have hok : ∀ x ∈ itemsL none 0 cs, Spec.LabOk ws x.lab := fun x hx => by
    obtain ⟨ds, hm⟩ := itemsL_labs cs none 0 x hx; exact h.labels _ _ hm
  have htk : (toks (itemsL none 0 cs)).map (·.key) = List.range sent.length := toks_keys (by
    rw [items_pre_keys cs (Writable.good h)]; exact h.terminals)
  intro row hrow
  rw [rowsF, List.mem_append] at hrow
  rcases hrow with hrow | hrow
  · obtain ⟨x, hx, rfl⟩ := List.mem_map.1 hrow
    have hxI := List.mem_filter.1 ((StableSort.perm _).subset hx)
    have hk := hok x hxI.1
    obtain ⟨s1, s2⟩ := secEdges_field hw pyInt ids hk
    have hwd : Spec.Field ws (wordAt sent x) := by
      have : x.key ∈ (toks (itemsL none 0 cs)).map (·.key) := List.mem_map.2 ⟨x, hx, rfl⟩
      rw [htk, List.mem_range] at this
      rw [wordAt, List.getElem?_eq_getElem this]
      exact h.words _ (List.getElem_mem _)
    rw [tokF, attrsD_eq hk]
    refine ⟨fun f hf => ?_, by simp, by simp; omega⟩
    rw [List.mem_append] at hf
    rcases hf with hf | hf
    · simp only [List.mem_cons, List.not_mem_nil, or_false, tagMorph, reduceCtorEq, and_false, false_and, if_false] at hf
      rcases hf with rfl | rfl | rfl | rfl | rfl | rfl
      · rw [if_neg hwd.ne]; exact hwd
      · exact attr_field hw hk (by omega)
      · rw [orDash_ne (replace_ne hk.label.ne)]; exact replace_field hw hk.label hk.noOpen hk.noClose
      · exact attr_field hw hk (by omega)
      · exact attr_field hw hk (by omega)
      · exact parStr_field hw _
    · exact s1 f hf
  · obtain ⟨x, hx, rfl⟩ := List.mem_map.1 hrow
    have hk := hok x (List.mem_filter.1 hx).1
    obtain ⟨s1, s2⟩ := secEdges_field hw pyInt ids hk
    rw [phF, attrsD_eq hk]
    refine ⟨fun f hf => ?_, by simp, by simp; omega⟩
    rw [List.mem_append] at hf
    rcases hf with hf | hf
    · simp only [List.mem_cons, List.not_mem_nil, or_false] at hf
      rcases hf with rfl | rfl | rfl | rfl | rfl | rfl
      · exact hash_field hw _
      · exact dash_field hw
      · rw [orDash_ne hk.label.ne]; exact hk.label
      · exact attr_field hw hk (by omega)
      · exact attr_field hw hk (by omega)
      · exact parStr_field hw _
    · exact s1 f hf

/-! ### Lemmas: lines -/

theorem fileLines_line {l : Str} (h1 : '\n' ∉ l) (h2 : '\r' ∉ l) (s : Str) : fileLines false (l ++ '\n' :: s) = l :: fileLines false s := by
  induction l with
  | nil => rw [List.nil_append, fileLines]; simp
  | cons c l ih =>
    rw [List.mem_cons, not_or] at h1 h2
    rw [List.cons_append, fileLines, if_neg (Ne.symm h1.1), if_neg (Ne.symm h2.1), ih h1.2 h2.2]

theorem unlines_cons (a b : Str) (r : List Str) : unlines (a :: b :: r) = a ++ '\n' :: unlines (b :: r) := by
  simp [unlines, Str.join, List.intercalate]

theorem fileLines_unlines {ls : List Str} (hne : ls ≠ []) (h : ∀ l ∈ ls, '\n' ∉ l ∧ '\r' ∉ l) (s : Str) :
    fileLines false (unlines ls ++ s) = ls ++ fileLines false s := by
  induction ls with
  | nil => exact absurd rfl hne
  | cons a ls ih =>
    obtain ⟨h1, h2⟩ := h a (by simp)
    cases ls with
    | nil =>
      rw [show unlines [a] = a ++ ['\n'] by simp [unlines, Str.join, List.intercalate], List.append_assoc, List.singleton_append, fileLines_line h1 h2]; rfl
    | cons b ls =>
      rw [unlines_cons, List.append_assoc, List.cons_append, fileLines_line h1 h2, ih (by simp) fun l hl => h l (by simp [hl])]; rfl

theorem mem_joinTab {fs : List Str} {c : Char} (h : c ∈ joinTab fs) : c = '\t' ∨ ∃ f ∈ fs, c ∈ f := by
  induction fs with
  | nil => simp [joinTab, Str.join, List.intercalate] at h
  | cons a fs ih =>
    cases fs with
    | nil =>
      rw [show joinTab [a] = a by simp [joinTab, Str.join, List.intercalate]] at h
      exact Or.inr ⟨a, by simp, h⟩
    | cons b fs =>
      rw [joinTab_cons, List.mem_append, List.mem_cons] at h
      rcases h with h | h | h
      · exact Or.inr ⟨a, by simp, h⟩
      · exact Or.inl h
      · rcases ih h with h | ⟨f, hf, h⟩
        · exact Or.inl h
        · exact Or.inr ⟨f, by simp [hf], h⟩

theorem rstrip_of_last {s : Str} (h : ∃ c ∈ s.getLast?, ws c = false) : rstrip ws s = s := by
  have := rstrip_append (ws := ws) [] h
  simpa using this

theorem getLast?_joinTab {fs : List Str} (hne : fs ≠ []) (h : ∀ f ∈ fs, Spec.Field ws f) : ∃ c ∈ (joinTab fs).getLast?, ws c = false := by
  induction fs with
  | nil => exact absurd rfl hne
  | cons a fs ih =>
    cases fs with
    | nil =>
      rw [show joinTab [a] = a by simp [joinTab, Str.join, List.intercalate]]
      have ha := h a (by simp)
      exact ⟨a.getLast ha.ne, by simp [List.getLast?_eq_some_getLast ha.ne], ha.noWs _ (List.getLast_mem _)⟩
    | cons b fs =>
      obtain ⟨c, hc, h1⟩ := ih (by simp) fun f hf => h f (by simp [hf])
      refine ⟨c, ?_, h1⟩
      rw [joinTab_cons]
      rw [show a ++ '\t' :: joinTab (b :: fs) = (a ++ ['\t']) ++ joinTab (b :: fs) by simp]
      cases hj : joinTab (b :: fs) with
      | nil => rw [hj] at hc; simp at hc
      | cons x xs => rw [hj] at hc; simpa using hc

theorem row_line (hw : Spec.White ws) {row : List Str} (h : RowOk ws row) :
    rstrip ws (joinTab row) = joinTab row ∧ '\n' ∉ joinTab row ∧ '\r' ∉ joinTab row ∧ ' ' ∉ joinTab row := by
  refine ⟨rstrip_of_last (getLast?_joinTab (by rintro rfl; simp [RowOk] at h) h.1), ?_, ?_, ?_⟩
  all_goals
    intro hc
    rcases mem_joinTab hc with e | ⟨f, hf, hc⟩
    · simp at e
    · have := (h.1 f hf).noWs _ hc
      simp [hw.newline, hw.ret, hw.blank] at this

theorem strip_ends {c : Str} (h : strip ws c = c) (hne : c ≠ []) : (∃ x ∈ c.getLast?, ws x = false) ∧ ∃ x ∈ c.head?, ws x = false := by
  have hr : ∀ s : Str, s.length = (rstrip ws s).length → s ≠ [] → ∃ x ∈ s.getLast?, ws x = false := by
    intro s hs hn
    rw [rstrip, List.length_reverse] at hs
    have h1 : s.reverse.dropWhile ws = s.reverse := (List.dropWhile_suffix ws).eq_of_length (by simpa using hs.symm)
    cases hsr : s.reverse with
    | nil => simp at hsr; exact absurd hsr hn
    | cons a r =>
      rw [hsr, List.dropWhile_cons] at h1
      refine ⟨a, by rw [List.getLast?_eq_head?_reverse, hsr]; simp, ?_⟩
      cases ha : ws a with
      | false => rfl
      | true =>
        rw [ha, if_pos rfl] at h1
        have := congrArg List.length h1
        have h2 := (List.dropWhile_suffix (l := r) ws).length_le
        simp at this; omega
  have hlen : c.length = (strip ws c).length := by rw [h]
  rw [strip] at hlen h
  have l1 : (rstrip ws (c.dropWhile ws)).length ≤ (c.dropWhile ws).length := by
    rw [rstrip, List.length_reverse]
    have := (List.dropWhile_suffix (l := (c.dropWhile ws).reverse) ws).length_le
    simpa using this
  have l2 := (List.dropWhile_suffix (l := c) ws).length_le
  have e1 : c.dropWhile ws = c := (List.dropWhile_suffix ws).eq_of_length (by omega)
  rw [e1] at h hlen
  refine ⟨hr c hlen hne, ?_⟩
  cases c with
  | nil => exact absurd rfl hne
  | cons a r =>
    refine ⟨a, by simp, ?_⟩
    rw [List.dropWhile_cons] at e1
    cases ha : ws a with
    | false => rfl
    | true =>
      rw [ha, if_pos rfl] at e1
      have := congrArg List.length e1
      have h2 := (List.dropWhile_suffix (l := r) ws).length_le
      simp at this; omega

theorem field_last {s : Str} (h : Spec.Field ws s) : ∃ c ∈ s.getLast?, ws c = false :=
  ⟨s.getLast h.ne, by simp [List.getLast?_eq_some_getLast h.ne], h.noWs _ (List.getLast_mem _)⟩

/-- The lines of markers. -/
theorem bos_line (hw : Spec.White ws) {key : Str} (hk : Spec.Field ws key) {comment : Option Str} (hc : ∀ c, comment = some c → Spec.CommentOk ws c) :
    rstrip ws (bosLine key comment) = bosLine key comment ∧ '\n' ∉ bosLine key comment ∧ '\r' ∉ bosLine key comment ∧
      (splitWs ws (bosLine key comment))[1]? = some key ∧ commentOf ws (bosLine key comment) = comment := by
  have hB : ∀ c ∈ (['#', 'B', 'O', 'S'] : Str), ws c = false := fun c hc => hw.visible c (by revert c; decide) (by revert c; decide)
  have hkn : '\n' ∉ key := fun h => by have := hk.noWs _ h; simp [hw.newline] at this
  have hkr : '\r' ∉ key := fun h => by have := hk.noWs _ h; simp [hw.ret] at this
  cases comment with
  | none =>
    have e : bosLine key none = ['#', 'B', 'O', 'S'] ++ ' ' :: key := by simp [bosLine]
    have e2 : bosLine key none = ['#', 'B', 'O', 'S', ' '] ++ key := by simp [bosLine]
    refine ⟨by rw [e2]; exact rstrip_append _ (field_last hk), ?_, ?_, ?_, ?_⟩
    · rw [e]; simp [hkn]
    · rw [e]; simp [hkr]
    · rw [e, splitWs_append (by simp) hB hw.blank, splitWs_word hk.ne hk.noWs]; rfl
    · rw [commentOf, (Str.find_eq_none_iff _ _).2]
      rw [e]
      intro hi
      rcases infix_append_cons (by decide) hi with h | h
      · have := h.subset (List.mem_cons_self); simp at this
      · exact hk.noComment h
  | some c =>
    have ho := hc c rfl
    obtain ⟨hlast, hhead⟩ := strip_ends ho.stripped ho.ne
    have e : bosLine key (some c) = ['#', 'B', 'O', 'S'] ++ ' ' :: (key ++ ' ' :: ('%' :: '%' :: ' ' :: c)) := by
      cases c with
      | nil => exact absurd rfl ho.ne
      | cons a r => simp [bosLine]
    refine ⟨?_, ?_, ?_, ?_, ?_⟩
    · rw [e, show (['#', 'B', 'O', 'S'] ++ ' ' :: (key ++ ' ' :: ('%' :: '%' :: ' ' :: c)) : Str) = (['#', 'B', 'O', 'S'] ++ ' ' :: (key ++ [' ', '%', '%', ' '])) ++ c by simp]
      exact rstrip_append _ hlast
    · rw [e]; simp [hkn, ho.noNl]
    · rw [e]; simp [hkr, ho.noCr]
    · rw [e, splitWs_append (by simp) hB hw.blank, splitWs_append hk.ne hk.noWs hw.blank]; rfl
    · have hf : ∀ (a b : Str), ¬ ['%', '%'] <:+: a → Str.find ['%', '%'] (a ++ ' ' :: '%' :: '%' :: b) = some (a.length + 1) := by
        intro a b
        induction a with
        | nil =>
          intro _
          rw [List.nil_append, Str.find, if_neg (by simp [List.isPrefixOf]), Str.find, if_pos (by simp [List.isPrefixOf])]
          rfl
        | cons x a ih =>
          intro hi
          rw [List.cons_append, Str.find, if_neg, ih (fun h => hi (h.trans (List.suffix_cons _ _).isInfix)), Option.map_some]
          · rfl
          · rw [List.isPrefixOf_iff_prefix]
            intro hp
            cases a with
            | nil => simp at hp
            | cons y a =>
              rw [List.cons_append, List.cons_prefix_cons, List.cons_prefix_cons] at hp
              exact hi (by rw [← hp.1, ← hp.2.1]; exact (show ['%', '%'] <+: '%' :: '%' :: a from ⟨a, rfl⟩).isInfix)
      have e3 : bosLine key (some c) = (['#', 'B', 'O', 'S'] ++ ' ' :: key) ++ ' ' :: '%' :: '%' :: ' ' :: c := by rw [e]; simp
      have hni : ¬ ['%', '%'] <:+: (['#', 'B', 'O', 'S'] ++ ' ' :: key : Str) := by
        intro hi
        rcases infix_append_cons (by decide) hi with h | h
        · have := h.subset (List.mem_cons_self); simp at this
        · exact hk.noComment h
      rw [commentOf, e3, hf _ _ hni]
      simp only [Option.some.injEq]
      have hdrop : ((['#', 'B', 'O', 'S'] ++ ' ' :: key) ++ ' ' :: '%' :: '%' :: ' ' :: c : Str).drop ((['#', 'B', 'O', 'S'] ++ ' ' :: key : Str).length + 1 + 2) = ' ' :: c := by
        rw [show ((['#', 'B', 'O', 'S'] ++ ' ' :: key) ++ ' ' :: '%' :: '%' :: ' ' :: c : Str) = ((['#', 'B', 'O', 'S'] ++ ' ' :: key) ++ [' ', '%', '%']) ++ ' ' :: c by simp]
        rw [List.drop_left' (by simp)]
      rw [hdrop, cutComment_eq, strip, List.dropWhile_cons, if_pos hw.blank]
      · have h1 : c.dropWhile ws = c := by
          obtain ⟨x, hx, h0⟩ := hhead
          cases c with
          | nil => simp at hx
          | cons a r => simp at hx; subst hx; rw [List.dropWhile_cons, if_neg (by simp [h0])]
        rw [h1]; exact rstrip_of_last hlast
      · intro hi
        have := infix_append_cons (a := []) (c := ' ') (p := ['%', '%']) (by decide) (by simpa using hi)
        rcases this with h | h
        · simpa using h.length_le
        · exact ho.noComment h

theorem eos_line (hw : Spec.White ws) {key : Str} (hk : Spec.Field ws key) :
    rstrip ws (eosLine key) = eosLine key ∧ '\n' ∉ eosLine key ∧ '\r' ∉ eosLine key ∧ (splitWs ws (eosLine key))[1]? = some key := by
  have hB : ∀ c ∈ (['#', 'E', 'O', 'S'] : Str), ws c = false := fun c hc => hw.visible c (by revert c; decide) (by revert c; decide)
  have hkn : '\n' ∉ key := fun h => by have := hk.noWs _ h; simp [hw.newline] at this
  have hkr : '\r' ∉ key := fun h => by have := hk.noWs _ h; simp [hw.ret] at this
  have e : eosLine key = ['#', 'E', 'O', 'S'] ++ ' ' :: key := by simp [eosLine]
  refine ⟨rstrip_append _ (field_last hk), ?_, ?_, ?_⟩
  · rw [e]; simp [hkn]
  · rw [e]; simp [hkr]
  · rw [e, splitWs_append (by simp) hB hw.blank, splitWs_word hk.ne hk.noWs]; rfl

/-- Reading one block. -/
theorem readBlocks_tree (hw : Spec.White ws) {key : Str} (hk : Spec.Field ws key) {comment : Option Str} (hc : ∀ c, comment = some c → Spec.CommentOk ws c)
    {rows : List (List Str)} (hr : ∀ row ∈ rows, RowOk ws row) (rest results : List Str) (hnew : key ∉ results) :
    readBlocks ws (treeLines key comment rows ++ rest) results none =
      (readBlocks ws rest (key :: results) none).map fun blocks => (key, treeLines key comment rows) :: blocks := by
  obtain ⟨b1, -, -, b2, -⟩ := bos_line hw hk hc
  obtain ⟨e1, -, -, e2⟩ := eos_line hw hk
  rw [treeLines, List.cons_append, readBlocks.eq_def]
  simp only [b1]
  rw [if_pos (by simp [bosLine, List.isPrefixOf])]
  simp only [b2]
  have key2 : ∀ (rows : List (List Str)) (acc : List Str), (∀ row ∈ rows, RowOk ws row) →
      readBlocks ws (rows.map joinTab ++ [eosLine key] ++ rest) results (some (key, acc)) =
        (readBlocks ws rest (key :: results) none).map fun blocks => (key, acc ++ (rows.map joinTab ++ [eosLine key])) :: blocks := by
    intro rows
    induction rows with
    | nil =>
      intro acc _
      rw [List.map_nil, List.nil_append, List.singleton_append, readBlocks.eq_def]
      simp only [e1]
      rw [if_neg (by simp [eosLine, List.isPrefixOf]), if_pos (by simp [eosLine, List.isPrefixOf])]
      simp only [e2, ne_eq, not_true, if_false, if_neg hnew]
      cases readBlocks ws rest (key :: results) none <;> rfl
    | cons row rows ih =>
      intro acc h
      obtain ⟨r1, -, -, r2⟩ := row_line hw (h row (by simp))
      have hnp : ∀ a b c d : Char, ¬ (([a, b, c, d, ' '] : Str).isPrefixOf (joinTab row) = true) := by
        intro a b c d hp
        rw [List.isPrefixOf_iff_prefix] at hp
        exact r2 (hp.subset (by simp))
      rw [List.map_cons, List.cons_append, List.cons_append, readBlocks.eq_def]
      simp only [r1]
      rw [if_neg (hnp _ _ _ _), if_neg (hnp _ _ _ _)]
      rw [ih _ fun r hr => h r (by simp [hr])]
      simp
  rw [key2 rows _ hr]
  rfl

theorem parseBlock_tree (hw : Spec.White ws) {key : Str} (hk : Spec.Field ws key) {comment : Option Str} (hc : ∀ c, comment = some c → Spec.CommentOk ws c)
    {rows : List (List Str)} (hr : ∀ row ∈ rows, RowOk ws row) (act : Morph) :
    parseBlock ws act (treeLines key comment rows) = (parsetree act rows).map fun x => ⟨x.1, x.2, comment⟩ := by
  obtain ⟨-, -, -, -, b3⟩ := bos_line hw hk hc
  rw [treeLines, parseBlock, List.dropLast_concat, b3]
  have : mapO (exportsplit ws) (rows.map joinTab) = some rows := by
    rw [mapO_map]
    have := mapO_some (f := fun a => exportsplit ws (joinTab a)) (g := fun a => a) (l := rows) fun a ha => C14_line hw a (hr a ha).1 (hr a ha).2.1 (hr a ha).2.2
    simpa using this
  rw [this]

end

/-- What is needed of the entries of a treebank. -/
structure EntryOk (ws : Char → Bool) (e : Str × Option Str × List (List Str)) : Prop where
  key : Spec.Field ws e.1
  comment : ∀ c, e.2.1 = some c → Spec.CommentOk ws c
  rows : ∀ row ∈ e.2.2, RowOk ws row

theorem readBlocks_all {ws : Char → Bool} (hw : Spec.White ws) (es : List (Str × Option Str × List (List Str))) (h : ∀ e ∈ es, EntryOk ws e) :
    ∀ results : List Str, (∀ e ∈ es, e.1 ∉ results) → (es.map (·.1)).Nodup →
      readBlocks ws (es.flatMap fun e => treeLines e.1 e.2.1 e.2.2) results none = some (es.map fun e => (e.1, treeLines e.1 e.2.1 e.2.2)) := by
  induction es with
  | nil => intro results _ _; rfl
  | cons e es ih =>
    intro results hres hnd
    rw [List.map_cons, List.nodup_cons] at hnd
    have he := h e (by simp)
    rw [List.flatMap_cons, readBlocks_tree hw he.key he.comment he.rows _ _ (hres e (by simp)), ih (fun e he => h e (by simp [he])) (e.1 :: results) ?_ hnd.2]
    · rfl
    · intro e' he'
      rw [List.mem_cons, not_or]
      exact ⟨fun hh => hnd.1 (List.mem_map.2 ⟨e', he', hh⟩), hres e' (by simp [he'])⟩

theorem fileLines_all {ws : Char → Bool} (hw : Spec.White ws) (es : List (Str × Option Str × List (List Str))) (h : ∀ e ∈ es, EntryOk ws e) :
    fileLines false (es.flatMap fun e => unlines (treeLines e.1 e.2.1 e.2.2)) = es.flatMap fun e => treeLines e.1 e.2.1 e.2.2 := by
  induction es with
  | nil => rfl
  | cons e es ih =>
    have he := h e (by simp)
    rw [List.flatMap_cons, List.flatMap_cons, fileLines_unlines (by simp [treeLines]), ih fun e he => h e (by simp [he])]
    intro l hl
    rw [treeLines, List.mem_cons, List.mem_append, List.mem_singleton] at hl
    rcases hl with rfl | hl | rfl
    · obtain ⟨-, b1, b2, -⟩ := bos_line hw he.key he.comment; exact ⟨b1, b2⟩
    · obtain ⟨row, hr, rfl⟩ := List.mem_map.1 hl
      obtain ⟨-, b1, b2, -⟩ := row_line hw (he.rows row hr); exact ⟨b1, b2⟩
    · obtain ⟨-, b1, b2, -⟩ := eos_line hw he.key; exact ⟨b1, b2⟩

/-- Reading a file is parsing the rows of each tree. -/
theorem readCorpus_all {ws : Char → Bool} (hw : Spec.White ws) (act : Morph) (es : List (Str × Option Str × List (List Str))) (h : ∀ e ∈ es, EntryOk ws e)
    (hnd : (es.map (·.1)).Nodup) :
    readCorpus ws act (es.flatMap fun e => unlines (treeLines e.1 e.2.1 e.2.2)) =
      mapO (fun e => (parsetree act e.2.2).map fun x => (e.1, ⟨x.1, x.2, e.2.1⟩)) es := by
  rw [readCorpus, fileLines_all hw es h, readBlocks_all hw es h [] (by simp) hnd]
  simp only
  rw [mapO_map]
  refine mapO_congr fun e he => ?_
  have ho := h e he
  simp only
  rw [parseBlock_tree hw ho.key ho.comment ho.rows]
  cases parsetree act e.2.2 <;> rfl

/-- One sentence. -/
theorem entry_round {ws : Char → Bool} (hw : Spec.White ws) {pyInt : Str → Option Int} (hd : Spec.ReadsDecimals pyInt) {e : Entry} (h : Spec.EntryOk ws pyInt e) :
    ∃ rows u, writeRows pyInt .no e.tree e.sent = some rows ∧ (∀ row ∈ rows, RowOk ws row) ∧ parsetree .no rows = some (u, e.sent) ∧
      Canon.canonicalize (Spec.view (Spec.withRoot e.tree.children)) = some (Spec.view u) ∧
      (Canon.Spec.Ordered (Spec.withRoot e.tree.children) → writeRows pyInt .no u e.sent = some rows) := by
  obtain ⟨key, t, sent, comment⟩ := e
  cases t with
  | leaf i => exact absurd h.root (by simp [PTree.isNode])
  | node l cs =>
    have hW : Spec.Writable ws pyInt cs sent := h.tree
    obtain ⟨ids, -, h2, -⟩ := roundtrip .no l hW h.few
    obtain ⟨rows, u, a1, a2, -, -, a5⟩ := C14_reader l hW h.few h.noEmpty
    have e1 : rows = rowsF pyInt .no ids sent (itemsL none 0 cs) := by rw [a1] at h2; exact Option.some.inj h2
    refine ⟨rows, u, a1, by rw [e1]; exact rows_ok hw hW ids, a2, a5, fun ho => ?_⟩
    obtain ⟨rows', u', b1, b2, -, b4, -⟩ := C14_exact hd l hW h.few h.noEmpty ho
    have e2 : rows' = rows := by rw [a1] at b1; exact (Option.some.inj b1).symm
    subst e2
    rw [a2] at b2
    have e3 : u = u' := (Prod.mk.inj (Option.some.inj b2)).1
    rw [e3]; exact b4

/-! ### Properties -/

/-- **C14.** A treebank written in the export format is read back: the same keys in the same order, with the same sentences, comments, and trees (in
canonical order, with root label `ROOT`). When the constituents of all trees are in the order of their terminals, writing what was read gives the same text. -/
theorem C14_corpus {ws : Char → Bool} (hw : Spec.White ws) {pyInt : Str → Option Int} (hd : Spec.ReadsDecimals pyInt) (es : List Entry)
    (h : ∀ e ∈ es, Spec.EntryOk ws pyInt e) (hkeys : (es.map (·.key)).Nodup) :
    ∃ text items, writeCorpus pyInt .no es = some text ∧ readCorpus ws .no text = some items ∧
      List.Forall₂ (fun e (r : Str × TItem) => r.1 = e.key ∧ r.2.sent = e.sent ∧ r.2.comment = e.comment ∧
        Canon.canonicalize (Spec.view (Spec.withRoot e.tree.children)) = some (Spec.view r.2.tree)) es items ∧
      ((∀ e ∈ es, Canon.Spec.Ordered (Spec.withRoot e.tree.children)) →
        writeCorpus pyInt .no (items.map fun r => ⟨r.1, r.2.tree, r.2.sent, r.2.comment⟩) = some text) := by
  obtain ⟨R, hR⟩ : ∃ R : List (Entry × List (List Str) × PTree Lab), R.map (·.1) = es ∧ ∀ x ∈ R,
      writeRows pyInt .no x.1.tree x.1.sent = some x.2.1 ∧ (∀ row ∈ x.2.1, RowOk ws row) ∧ parsetree .no x.2.1 = some (x.2.2, x.1.sent) ∧
      Canon.canonicalize (Spec.view (Spec.withRoot x.1.tree.children)) = some (Spec.view x.2.2) ∧
      (Canon.Spec.Ordered (Spec.withRoot x.1.tree.children) → writeRows pyInt .no x.2.2 x.1.sent = some x.2.1) := by
    clear hkeys
    induction es with
    | nil => exact ⟨[], rfl, by simp⟩
    | cons e es ih =>
      obtain ⟨R, h1, h2⟩ := ih fun e he => h e (by simp [he])
      obtain ⟨rows, u, h3⟩ := entry_round hw hd (h e (by simp))
      exact ⟨(e, rows, u) :: R, by simp [h1], by
        intro x hx
        rcases List.mem_cons.1 hx with rfl | hx
        · exact h3
        · exact h2 x hx⟩
  obtain ⟨hes, hR⟩ := hR
  subst hes
  refine ⟨(R.map fun x => unlines (treeLines x.1.key x.1.comment x.2.1)).flatten, R.map fun x => (x.1.key, ⟨x.2.2, x.1.sent, x.1.comment⟩), ?_, ?_, ?_, ?_⟩
  · rw [writeCorpus, mapO_map, mapO_some (g := fun x => unlines (treeLines x.1.key x.1.comment x.2.1)) fun x hx => ?_]
    · rfl
    · rw [writeexporttree, (hR x hx).1]; rfl
  · have := readCorpus_all hw .no (R.map fun x => (x.1.key, x.1.comment, x.2.1)) (fun e he => by
      obtain ⟨x, hx, rfl⟩ := List.mem_map.1 he
      have ho := h x.1 (List.mem_map.2 ⟨x, hx, rfl⟩)
      exact ⟨ho.key, ho.comment, (hR x hx).2.1⟩) (by
      rw [List.map_map] at hkeys ⊢; exact hkeys)
    rw [List.flatMap_map, List.flatMap_def] at this
    rw [this, mapO_map]
    refine mapO_some fun x hx => ?_
    simp only
    rw [(hR x hx).2.2.1]
    rfl
  · rw [List.forall₂_map_left_iff, List.forall₂_map_right_iff]
    refine List.forall₂_same.2 fun x hx => ⟨rfl, rfl, rfl, (hR x hx).2.2.2.1⟩
  · intro ho
    rw [List.map_map, writeCorpus, mapO_map, mapO_some (g := fun x => unlines (treeLines x.1.key x.1.comment x.2.1)) fun x hx => ?_]
    · rfl
    · simp only [Function.comp_apply]
      rw [writeexporttree, (hR x hx).2.2.2.2 (ho x.1 (List.mem_map.2 ⟨x, hx, rfl⟩))]; rfl

end Disco.Export
