import Verif.Basic.Counter
import Verif.Basic.Sort
import Verif.Format.Escape
import Mathlib.Data.List.Dedup
import Mathlib.Algebra.Field.Rat
/-!
# C56: unknown words (lexicon.py)

Words are lists of characters. `lower` (the method of Python strings) and `collapse` (group 2 of the regular expression `REMOVESTATESPLITS`, if it matches) are parameters; a signature function gets a word, its position
and the lexicon. A set is a list of which only membership and, for sets of words of a tag, length matters. Messages are left out.
-/
namespace Disco.Lexicon
open Disco Disco.Escape

/-- `UNK` (lexicon.py:33). -/
def UNK : Str := "_UNK".toList

/-- `[0-9]`. -/
def isDigit (c : Char) : Bool := decide ('0'.toNat ≤ c.toNat ∧ c.toNat ≤ '9'.toNat)

/-- `re.match(core + '$')`: `$` is the end, or before a newline at the end. -/
def dollar (core : Str → Bool) (w : Str) : Bool := core w || (decide (w.getLast? = some '\n') && core w.dropLast)

/-- `YEARRE.match(word)` (lexicon.py:35). -/
def year : Str → Bool := dollar fun w => decide (w.length = 4) && (decide (w.take 2 = "19".toList) || decide (w.take 2 = "20".toList)) && (w.drop 2).all isDigit

/-- `NUMBERRE.match(word)` (lexicon.py:34): digits, or optional digits, a comma, point or apostrophe, and digits. -/
def number : Str → Bool := dollar fun w =>
  match w.dropWhile isDigit with
  | [] => !w.isEmpty
  | c :: r => (decide (c = ',') || decide (c = '.') || decide (c = '\'')) && !r.isEmpty && r.all isDigit

/-- A function to produce signatures. -/
abbrev Sig := Str → Nat → (Str → Bool) → Str

/-- Tagged sentences. -/
abbrev Tagged := List (List (Str × Str))

/-- `lexmodel` (lexicon.py:120). -/
structure LexModel where
  sigs : Dict Str Nat
  words : Dict Str Nat
  lexicon : List Str
  closedclasswords : List Str
  tags : Dict Str Nat
  wordtags : Dict (Str × Str) Nat

/-- `s.add(x)`. -/
def setAdd (s : List Str) (x : Str) : List Str := if x ∈ s then s else s ++ [x]

/-- `d[k].add(x)` for a dictionary with default `set()`. -/
def addTo (d : Dict Str (List Str)) (k x : Str) : Dict Str (List Str) := Dict.set d k (setAdd ((Dict.get? d k).getD []) x)

/-- `{w.lower() for w in ws}`. -/
def lowers (lower : Str → Str) (ws : List Str) : List Str := ws.foldl (fun s w => setAdd s (lower w)) []

/-- `wordsforcollapsedtags` (lexicon.py:77-82). -/
def collapsed (lower : Str → Str) (collapse : Str → Option Str) (wordsfortag : Dict Str (List Str)) : Dict Str (List Str) :=
  wordsfortag.foldl (fun d p => match collapse p.1 with
    | some t => p.2.foldl (fun d w => addTo d t (lower w)) d
    | none => d) []

/-- Whether a tag is put in `openclasstags` (lexicon.py:83-90). -/
def isOpen (lower : Str → Str) (collapse : Str → Option Str) (wordsfortag coll : Dict Str (List Str)) (openclassthreshold : Nat) (tag : Str) : Bool :=
  match collapse tag with
  | none => decide (openclassthreshold ≤ (lowers lower ((Dict.get? wordsfortag tag).getD [])).length)
  | some t => decide (openclassthreshold ≤ ((Dict.get? coll t).getD []).length)

/-- `[(n, word) for sent in tagged_sents for n, (word, _) in enumerate(sent)]`. -/
def positions (sents : Tagged) : List (Nat × Str) := sents.flatMap fun sent => sent.zipIdx.map fun x => (x.2, x.1.1)

/-- `getunknownwordmodel` (lexicon.py:50-120). With `openclassthreshold == 0`, the variable `wordsforcollapsedtags` is not defined when it is used for the message (lexicon.py:112): there is an exception. -/
def getunknownwordmodel (lower : Str → Str) (collapse : Str → Option Str) (sents : Tagged) (unknownword : Sig) (unknownthreshold openclassthreshold : Nat) : Option LexModel :=
  let words : Dict Str Nat := Dict.addAll [] (sents.flatten.map fun x => (x.1, 1))
  let lexicon := (words.filter fun x => decide (unknownthreshold < x.2)).map Prod.fst
  let wordsfortag := sents.flatten.foldl (fun d x => addTo d x.2 x.1) []
  let tags : Dict Str Nat := Dict.addAll [] (sents.flatten.map fun x => (x.2, 1))
  let wordtags : Dict (Str × Str) Nat := Dict.addAll [] (sents.flatten.map fun x => (x, 1))
  if openclassthreshold = 0 then none
  else
    let coll := collapsed lower collapse wordsfortag
    let closedclasstags := (Dict.keys tags).filter fun t => !isOpen lower collapse wordsfortag coll openclassthreshold t
    let closedclasswords := closedclasstags.flatMap fun t => (Dict.get? wordsfortag t).getD []
    let lexicon := lexicon ++ closedclasswords
    let known := fun w => decide (w ∈ lexicon)
    let sigs : Dict Str Nat := Dict.addAll [] (((positions sents).filter fun x => !known x.2).map fun x => (unknownword x.2 x.1 known, 1))
    some ⟨sigs, words, lexicon, closedclasswords, tags, wordtags⟩

/-- `repl` in `replaceraretrainwords` (lexicon.py:125-133). -/
def repl (unknownword : Sig) (lexicon : List Str) (n : Nat) (word : Str) : Str :=
  if year word then "1970".toList
  else if number word then "000".toList
  else if word ∉ lexicon then unknownword word n (fun w => decide (w ∈ lexicon))
  else word

/-- `replaceraretrainwords` (lexicon.py:123-136). -/
def replaceraretrainwords (sents : Tagged) (unknownword : Sig) (lexicon : List Str) : List (List Str) :=
  sents.map fun sent => sent.zipIdx.map fun x => repl unknownword lexicon x.2 x.1.1

/-- One word in `replaceraretestwords` (lexicon.py:145-158). -/
def testWord (lower : Str → Str) (unknownword : Sig) (lexicon sigs : List Str) (n : Nat) (word : Str) : Str :=
  if year word then "1970".toList
  else if number word then "000".toList
  else if word ∈ lexicon then word
  else if lower word ∈ lexicon then lower word
  else
    let sig := unknownword word n (fun w => decide (w ∈ lexicon))
    if sig ∈ sigs then sig else UNK

/-- `replaceraretestwords` (lexicon.py:139-158). -/
def replaceraretestwords (lower : Str → Str) (sent : List Str) (unknownword : Sig) (lexicon sigs : List Str) : List Str :=
  sent.zipIdx.map fun x => testWord lower unknownword lexicon sigs x.2 x.1

/-- `simplesmoothlexicon` (lexicon.py:161-183); the keys are tags and words. -/
def simplesmoothlexicon (m : LexModel) (epsilon : Rat) : Dict (Str × Str) Rat :=
  let newrules : Dict (Str × Str) Rat := m.wordtags.foldl (fun d x => if x.1.1 ∉ m.lexicon then Dict.set d (x.1.2, escape (some x.1.1)) (x.2 : Rat) else d) []
  (Dict.keys m.tags).foldl (fun d tag => Dict.set d (tag, UNK) epsilon) newrules

/-- The words given to the parser after training in the same run: `getposmodel` (runexp.py:266-283), where all words of the training set are the lexicon, and `Parser.parse` (parser.py:266-274). -/
def parserInput (lower : Str → Str) (unknownword : Sig) (m : LexModel) (sent : List Str) : List Str :=
  replaceraretestwords lower (sent.map fun w => escape (some w)) unknownword (Dict.keys m.words) (Dict.keys m.sigs)

/-- The words given to the parser with a grammar from files: `readgrammars` (parser.py:800-805) and `Parser.parse` (parser.py:266-274), with the words of the grammar. -/
def parserInputDisk (lower : Str → Str) (unknownword : Sig) (grammarwords : List Str) (sent : List Str) : List Str :=
  replaceraretestwords lower (sent.map fun w => escape (some w)) unknownword (grammarwords.filter fun w => !UNK.isPrefixOf w) (grammarwords.filter fun w => UNK.isPrefixOf w)

/-! ### Signature functions -/

/-- Character classes, for characters other than ASCII too. -/
structure Chars where
  upper : Char → Bool
  lowerc : Char → Bool
  digit : Char → Bool

/-- `-` and the hyphens of `HASDASH` (lexicon.py:192). -/
def isDash (c : Char) : Bool := decide (c = '-') || decide (c.toNat = 0x2010) || decide (c.toNat = 0x2011)

/-- `unknownword4` (lexicon.py:245-278). `HASLETTER` and `LOWERUPPER` are the union of `HASLOWER` and `HASUPPER`. -/
def unknownword4 (C : Chars) (lower : Str → Str) : Sig := fun word loc _ =>
  let letters : Str := if (match word with | c :: _ => C.upper c | [] => false) then
      if !word.any C.lowerc then "-AC".toList else if loc = 0 then "-SC".toList else "-C".toList
    else if word.any C.lowerc then "-L".toList
    else if word.any fun c => C.lowerc c || C.upper c then "-U".toList
    else "-S".toList
  let digits : Str := if word.any C.digit then if word.any fun c => !C.digit c then "-n".toList else "-N".toList else []
  let punct : Str := (if '-' ∈ word then "-H".toList else []) ++ (if '.' ∈ word then "-P".toList else []) ++ (if ',' ∈ word then "-C".toList else [])
  let suffix : Str := if 3 < word.length ∧ (match word.getLast? with | some c => C.lowerc c || C.upper c | none => false) = true then '-' :: lower (word.drop (word.length - 2)) else []
  UNK ++ letters ++ digits ++ punct ++ suffix

/-- `unknownword6` (lexicon.py:207-242). -/
def unknownword6 (C : Chars) (lower : Str → Str) : Sig := fun word loc lexicon =>
  let numcaps := word.countP C.upper
  let lowered := lower word
  let caps : Str := if 1 < numcaps then "-CAPS".toList
    else if 0 < numcaps then if loc = 0 then "-INITC".toList ++ (if lexicon lowered then "-KNOWNLC".toList else []) else "-CAP".toList
    else if word.any C.lowerc then "-LC".toList else []
  let num : Str := if word.any C.digit then "-NUM".toList else []
  let dash : Str := if word.any isDash then "-DASH".toList else []
  let suffix : Str := if "s".toList.isSuffixOf lowered && decide (3 ≤ word.length) then
      match lowered.dropLast.getLast? with
      | some c => if c ∈ "siu".toList then [] else "-s".toList
      | none => []
    else if 5 ≤ word.length ∧ word.any isDash = false ∧ ¬ (word.any C.digit = true ∧ 0 < numcaps) then
      match ["ed", "ing", "ion", "er", "est", "ly", "ity", "y", "al"].find? (fun a => a.toList.isSuffixOf lowered) with
      | some a => '-' :: a.toList
      | none => []
    else []
  UNK ++ caps ++ num ++ dash ++ suffix

/-- `unknownwordbase` (lexicon.py:281-308). Simplification: with an empty word there would be an exception; here it is like a word without capital. -/
def unknownwordbase (C : Chars) (lower : Str → Str) : Sig := fun word _ _ =>
  let letters : Str := if (match word with | c :: _ => C.upper c | [] => false) then "-C".toList else "-c".toList
  let digits : Str := if word.any C.digit then if word.any fun c => !C.digit c then "-n".toList else "-N".toList else []
  let punct : Str := (if '-' ∈ word then "-H".toList else []) ++ (if word = ['.'] then "-P".toList else []) ++ (if word = [','] then "-C".toList else [])
  let suffix : Str := if 3 < word.length ∧ (match word.getLast? with | some c => C.lowerc c || C.upper c | none => false) = true then '-' :: lower (word.drop (word.length - 2)) else []
  UNK ++ letters ++ digits ++ punct ++ suffix

/-! ### Specification -/

/-- A string with the given form, or this and a newline. -/
def Spec.line (P : Str → Prop) (w : Str) : Prop := P w ∨ ∃ v, w = v ++ ['\n'] ∧ P v

/-- Digits. -/
def Spec.digits (w : Str) : Prop := ∀ c ∈ w, c ∈ "0123456789".toList

/-- A year: 19 or 20 and two digits. -/
def Spec.year : Str → Prop := Spec.line fun w => ∃ a b, Spec.digits [a, b] ∧ (w = ['1', '9', a, b] ∨ w = ['2', '0', a, b])

/-- A number: digits, possibly with one separator before the last digit. -/
def Spec.number : Str → Prop := Spec.line fun w => ∃ a b, Spec.digits a ∧ Spec.digits b ∧ b ≠ [] ∧ (w = b ∨ ∃ c ∈ [',', '.', '\''], w = a ++ c :: b)

/-- The number of tokens of a word. -/
def Spec.freq (sents : Tagged) (w : Str) : Nat := sents.flatten.countP fun x => decide (x.1 = w)

/-- Tags which are considered together. -/
def Spec.same (collapse : Str → Option Str) (t u : Str) : Prop := t = u ∨ ∃ x, collapse t = some x ∧ collapse u = some x

instance (collapse : Str → Option Str) (t u : Str) : Decidable (Spec.same collapse t u) :=
  match h : collapse t with
  | none => if e : t = u then isTrue (Or.inl e) else isFalse (by rintro (h1 | ⟨x, h1, -⟩); exact e h1; rw [h] at h1; cases h1)
  | some x => if e : t = u ∨ collapse u = some x then isTrue (by rcases e with e | e; exact Or.inl e; exact Or.inr ⟨x, h, e⟩)
      else isFalse (by rintro (h1 | ⟨y, h1, h2⟩); exact e (Or.inl h1); rw [h] at h1; cases h1; exact e (Or.inr h2))

/-- The number of word types, up to case, with a tag or tags which are considered together with it. -/
def Spec.types (lower : Str → Str) (collapse : Str → Option Str) (sents : Tagged) (t : Str) : Nat :=
  ((sents.flatten.filter fun x => decide (Spec.same collapse x.2 t)).map fun x => lower x.1).dedup.length

/-- A word has a closed class tag. -/
def Spec.closed (lower : Str → Str) (collapse : Str → Option Str) (sents : Tagged) (openclassthreshold : Nat) (w : Str) : Prop :=
  ∃ t, (w, t) ∈ sents.flatten ∧ Spec.types lower collapse sents t < openclassthreshold

/-- There are no parentheses in a word. -/
def Spec.noParens (w : Str) : Prop := '(' ∉ w ∧ ')' ∉ w

/-- The words for which the grammar has lexical productions: those in the sentences from which it is read off (escaped, see C20), and those of the extra rules. -/
def Spec.hasRule (train : List (List Str)) (extra : Dict (Str × Str) Rat) (w : Str) : Prop :=
  (∃ x ∈ train.flatten, w = escape (some x)) ∨ ∃ t, Dict.get? extra (t, w) ≠ none

end Disco.Lexicon
