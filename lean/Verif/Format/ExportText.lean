import Mathlib.Data.List.Basic
import Mathlib.Data.List.Infix
import Verif.Basic.StrLemmas
import Verif.Basic.Sort
/-!
# C14: the lines of the export format

`exportsplit` (treebank.py:582-599) and the way lines are written (treebank.py:812-826).
-/
namespace Disco.Export

/-- `s.split()` (without arguments): maximal sequences of characters that are not white space. -/
def splitWs (ws : Char → Bool) : Str → List Str
  | [] => []
  | c :: s =>
    if ws c then splitWs ws s
    else match s with
      | [] => [[c]]
      | d :: _ => if ws d then [c] :: splitWs ws s else match splitWs ws s with
        | [] => [[c]]
        | w :: r => (c :: w) :: r

/-- `s.rstrip()`. -/
def rstrip (ws : Char → Bool) (s : Str) : Str := (s.reverse.dropWhile ws).reverse

/-- `s.strip()`. -/
def strip (ws : Char → Bool) (s : Str) : Str := rstrip ws (s.dropWhile ws)

/-- The part of a line before the first `%%` (treebank.py:590-592). -/
def cutComment (line : Str) : Str :=
  match Str.find ['%', '%'] line with
  | none => line
  | some i => line.take i

/-- The empty value of a field. -/
def dash : Str := ['-', '-']

/-- `exportsplit` (treebank.py:582-599); `none` models `ValueError`. -/
def exportsplit (ws : Char → Bool) (line : Str) : Option (List Str) :=
  let fields := splitWs ws (cutComment line)
  if fields.length < 5 then none
  else if fields.length % 2 = 1 then some (fields.take 1 ++ dash :: fields.drop 1)
  else some fields

/-- `"\t".join(fields)`. -/
def joinTab (fields : List Str) : Str := Str.join ['\t'] fields

/-! ### Specification -/

/-- What is assumed of the characters that `str.split()`, `str.strip()` treat as white space: blank, tab, newline and carriage return are among them,
visible ASCII characters are not. -/
structure Spec.White (ws : Char → Bool) : Prop where
  blank : ws ' ' = true
  tab : ws '\t' = true
  newline : ws '\n' = true
  ret : ws '\r' = true
  visible : ∀ c : Char, '!' ≤ c → c ≤ '~' → ws c = false

/-- A string that can be a field: not empty, no white space, no comment sign. -/
structure Spec.Field (ws : Char → Bool) (s : Str) : Prop where
  ne : s ≠ []
  noWs : ∀ c ∈ s, ws c = false
  noComment : ¬ ['%', '%'] <:+: s

/-! ### Lemmas -/

theorem splitWs_ws {ws : Char → Bool} {c : Char} (h : ws c = true) (s : Str) : splitWs ws (c :: s) = splitWs ws s := by
  cases s <;> simp [splitWs, h]

theorem splitWs_word {ws : Char → Bool} {w : Str} (hne : w ≠ []) (h : ∀ c ∈ w, ws c = false) : splitWs ws w = [w] := by
  induction w with
  | nil => exact absurd rfl hne
  | cons c w ih =>
    have hc := h c (by simp)
    cases w with
    | nil => simp [splitWs, hc]
    | cons d w =>
      have hd := h d (by simp)
      rw [splitWs]
      simp only [hc, hd, Bool.false_eq_true, if_false]
      rw [ih (by simp) (fun x hx => h x (by simp [hx]))]

theorem splitWs_append {ws : Char → Bool} {w : Str} (hne : w ≠ []) (h : ∀ c ∈ w, ws c = false) {c : Char} (hc : ws c = true) (r : Str) :
    splitWs ws (w ++ c :: r) = w :: splitWs ws r := by
  induction w with
  | nil => exact absurd rfl hne
  | cons a w ih =>
    have ha := h a (by simp)
    cases w with
    | nil =>
      rw [List.singleton_append, splitWs]
      simp only [ha, hc, Bool.false_eq_true, if_false, if_true]
      rw [splitWs_ws hc]
    | cons d w =>
      have hd := h d (by simp)
      have := ih (by simp) (fun x hx => h x (by simp [hx]))
      rw [List.cons_append] at this ⊢
      rw [List.cons_append, splitWs]
      simp only [ha, hd, Bool.false_eq_true, if_false]
      rw [this]

theorem joinTab_cons (a b : Str) (r : List Str) : joinTab (a :: b :: r) = a ++ '\t' :: joinTab (b :: r) := by
  simp [joinTab, Str.join, List.intercalate]

theorem splitWs_joinTab {ws : Char → Bool} (hw : Spec.White ws) (fs : List Str) (h : ∀ f ∈ fs, f ≠ [] ∧ ∀ c ∈ f, ws c = false) :
    splitWs ws (joinTab fs) = fs := by
  induction fs with
  | nil => rfl
  | cons a fs ih =>
    cases fs with
    | nil =>
      have := h a (by simp)
      rw [show joinTab [a] = a by simp [joinTab, Str.join, List.intercalate], splitWs_word this.1 this.2]
    | cons b fs =>
      have := h a (by simp)
      rw [joinTab_cons, splitWs_append this.1 this.2 hw.tab, ih (fun f hf => h f (by simp [hf]))]

theorem infix_joinTab {fs : List Str} (h : ∀ f ∈ fs, ¬ ['%', '%'] <:+: f) : ¬ ['%', '%'] <:+: joinTab fs := by
  induction fs with
  | nil => intro hi; simpa [joinTab, Str.join, List.intercalate] using hi.length_le
  | cons a fs ih =>
    cases fs with
    | nil => rw [show joinTab [a] = a by simp [joinTab, Str.join, List.intercalate]]; exact h a (by simp)
    | cons b fs =>
      intro hi
      rw [joinTab_cons] at hi
      rcases infix_append_cons (by decide) hi with h1 | h1
      · exact h a (by simp) h1
      · exact ih (fun f hf => h f (by simp [hf])) h1

theorem cutComment_eq {s : Str} (h : ¬ ['%', '%'] <:+: s) : cutComment s = s := by
  rw [cutComment, (Str.find_eq_none_iff _ _).2 h]

/-- **C14** A line with fields that can be written is read back as the same fields: an even number of fields, at least 6. -/
theorem C14_line {ws : Char → Bool} (hw : Spec.White ws) (fs : List Str) (h : ∀ f ∈ fs, Spec.Field ws f) (h6 : 6 ≤ fs.length)
    (he : fs.length % 2 = 0) : exportsplit ws (joinTab fs) = some fs := by
  rw [exportsplit, cutComment_eq (infix_joinTab fun f hf => (h f hf).noComment), splitWs_joinTab hw fs fun f hf => ⟨(h f hf).ne, (h f hf).noWs⟩]
  rw [if_neg (by omega), if_neg (by omega)]

/-- **C14** A line with 5 fields (the format without lemmas) gets an empty lemma; secondary edges likewise. -/
theorem C14_line_no_lemma {ws : Char → Bool} (hw : Spec.White ws) (w : Str) (fs : List Str) (h : ∀ f ∈ w :: fs, Spec.Field ws f) (h4 : 4 ≤ fs.length)
    (he : fs.length % 2 = 0) : exportsplit ws (joinTab (w :: fs)) = some (w :: dash :: fs) := by
  rw [exportsplit, cutComment_eq (infix_joinTab fun f hf => (h f hf).noComment), splitWs_joinTab hw _ fun f hf => ⟨(h f hf).ne, (h f hf).noWs⟩]
  simp only [List.length_cons]
  rw [if_neg (by omega), if_pos (by omega)]
  simp

theorem rstrip_append {ws : Char → Bool} (a : Str) {b : Str} (h : ∃ c ∈ b.getLast?, ws c = false) : rstrip ws (a ++ b) = a ++ b := by
  obtain ⟨c, hc, hw⟩ := h
  obtain ⟨b', rfl⟩ : ∃ b', b = b' ++ [c] := List.mem_getLast?_eq_getLast hc |> fun ⟨h1, h2⟩ => ⟨b.dropLast, by rw [h2, List.dropLast_append_getLast]⟩
  rw [rstrip, List.reverse_append, List.reverse_append, List.reverse_singleton, List.singleton_append, List.cons_append, List.dropWhile_cons,
    if_neg (by simp [hw])]
  simp

end Disco.Export
