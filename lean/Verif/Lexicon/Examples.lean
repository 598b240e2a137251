import Verif.Lexicon.Cover
/-!
# C56: examples and disagreements
-/
namespace Disco.Lexicon
open Disco Disco.Escape

/-! ### Examples and disagreements -/

theorem parserInput_eq (lower : Str → Str) (unknownword : Sig) (m : LexModel) (sent : List Str) :
    parserInput lower unknownword m sent = replaceraretestwords lower (sent.map fun w => w.flatMap esc2) unknownword (Dict.keys m.words) (Dict.keys m.sigs) := by
  simp only [parserInput, escape_some]

namespace Examples

/-- `lower` for ASCII. -/
def lower (w : Str) : Str := w.map fun c => if 'A'.toNat ≤ c.toNat ∧ c.toNat ≤ 'Z'.toNat then Char.ofNat (c.toNat + 32) else c

/-- ASCII character classes. -/
def ascii : Chars := ⟨fun c => decide ('A'.toNat ≤ c.toNat ∧ c.toNat ≤ 'Z'.toNat), fun c => decide ('a'.toNat ≤ c.toNat ∧ c.toNat ≤ 'z'.toNat), isDigit⟩

/-- The function used in the examples. -/
def sig : Sig := unknownword4 ascii lower

/-- A treebank of three tagged sentences. -/
def tb : Tagged := [[("the".toList, "D".toList), ("dog".toList, "N".toList), ("barks".toList, "V".toList)], [("the".toList, "D".toList), ("cat".toList, "N".toList), ("sleeps".toList, "V".toList)],
  [("The".toList, "D".toList), ("dog".toList, "N".toList), ("costs".toList, "V".toList), ("1,000".toList, "CD".toList), ("(".toList, "P".toList), ("(".toList, "P".toList)]]

/-- Fields of the result. -/
def lexiconOf (tb : Tagged) (ut oct : Nat) : Option (List Str × List Str × List Str) := (getunknownwordmodel lower some tb sig ut oct).map fun m => (m.lexicon, m.closedclasswords, Dict.keys m.sigs)

example : (lexiconOf tb 1 2).map (fun x => (x.1.map String.ofList, x.2.1.map String.ofList, x.2.2.map String.ofList)) =
    some (["the", "dog", "(", "the", "The", "1,000", "("], ["the", "The", "1,000", "("], ["_UNK-L-ks", "_UNK-L", "_UNK-L-ps", "_UNK-L-ts"]) := by decide +kernel

/-- What the parser gets. -/
def input (tb : Tagged) (ut oct : Nat) (sent : List String) : Option (List String) :=
  (getunknownwordmodel lower some tb sig ut oct).map fun m => (parserInput lower sig m (sent.map String.toList)).map String.ofList

example : input tb 1 2 ["The", "DOG", "barks", "1990", "blorks"] = some ["The", "dog", "barks", "1970", "_UNK-L-ks"] := by simp only [input, parserInput_eq]; decide +kernel

/-- A treebank in which a number is rare. -/
def tbNum : Tagged := [[("dog".toList, "N".toList)], [("dog".toList, "N".toList)], [("1,000".toList, "CD".toList)]]

/-- A treebank with parentheses. -/
def tbParen : Tagged := [[("(".toList, "P".toList), ("dog".toList, "N".toList), (")".toList, "P".toList)], [("(".toList, "P".toList), ("cat".toList, "N".toList), (")".toList, "P".toList)]]

/-- The words with a rule. -/
def ruleWords (m : LexModel) (tb : Tagged) : List Str :=
  (replaceraretrainwords tb sig m.lexicon).flatten.map (fun w => w.flatMap esc2) ++ [UNK] ++ (Dict.keys m.words).map fun w => w.flatMap esc2

theorem hasRule_ruleWords {collapse : Str → Option Str} {tb : Tagged} {ut oct : Nat} {m : LexModel} (h : getunknownwordmodel lower collapse tb sig ut oct = some m) (eps : Rat) {w : Str}
    (hw : Spec.hasRule (replaceraretrainwords tb sig m.lexicon) (simplesmoothlexicon m eps) w) : w ∈ ruleWords m tb := by
  unfold ruleWords
  rcases hw with ⟨x, hx, rfl⟩ | ⟨t, ht⟩
  · rw [escape_some]
    exact List.mem_append_left _ (List.mem_append_left _ (List.mem_map.2 ⟨x, hx, rfl⟩))
  · rcases (C56_smooth h eps t w 0).1.1 ht with ⟨-, rfl⟩ | ⟨v, hv, -, rfl⟩
    · exact List.mem_append_left _ (List.mem_append_right _ (by simp))
    · rw [escape_some]
      exact List.mem_append_right _ (List.mem_map.2 ⟨v, (mem_words h v).2 ⟨t, hv⟩, rfl⟩)

theorem lower_noParens (w : Str) (h : Spec.noParens w) : Spec.noParens (lower w) := by
  have key : ∀ c : Char, c ≠ '(' → c ≠ ')' → (if 'A'.toNat ≤ c.toNat ∧ c.toNat ≤ 'Z'.toNat then Char.ofNat (c.toNat + 32) else c) ≠ '(' ∧
      (if 'A'.toNat ≤ c.toNat ∧ c.toNat ≤ 'Z'.toNat then Char.ofNat (c.toNat + 32) else c) ≠ ')' := by
    intro c h1 h2
    split
    · next hc =>
      have e1 : 'A'.toNat = 65 := rfl
      have e2 : 'Z'.toNat = 90 := rfl
      rw [e1, e2] at hc
      have : ∀ n, 65 ≤ n → n ≤ 90 → Char.ofNat (n + 32) ≠ '(' ∧ Char.ofNat (n + 32) ≠ ')' := by
        have h : ∀ n < 91, 65 ≤ n → Char.ofNat (n + 32) ≠ '(' ∧ Char.ofNat (n + 32) ≠ ')' := by decide +kernel
        intro n h1 h2; exact h n (by omega) h1
      exact this _ hc.1 hc.2
    · exact ⟨h1, h2⟩
  unfold lower
  constructor
  · intro hm
    obtain ⟨c, hc, e⟩ := List.mem_map.1 hm
    exact (key c (fun h' => h.1 (h' ▸ hc)) (fun h' => h.2 (h' ▸ hc))).1 e
  · intro hm
    obtain ⟨c, hc, e⟩ := List.mem_map.1 hm
    exact (key c (fun h' => h.1 (h' ▸ hc)) (fun h' => h.2 (h' ▸ hc))).2 e

theorem number_chars {w : Str} (h : Spec.year w ∨ Spec.number w) : ∀ c ∈ w, c ∈ "0123456789,.'\n".toList := by
  have hd : ∀ c ∈ "0123456789".toList, c ∈ "0123456789,.'\n".toList := by decide
  have key : ∀ (P : Str → Prop), (∀ v, P v → ∀ c ∈ v, c ∈ "0123456789,.'\n".toList) → ∀ v, Spec.line P v → ∀ c ∈ v, c ∈ "0123456789,.'\n".toList := by
    rintro P hP v (h | ⟨u, rfl, h⟩) c hc
    · exact hP v h c hc
    · rcases List.mem_append.1 hc with hc | hc
      · exact hP u h c hc
      · rw [List.mem_singleton] at hc; subst hc; decide
  rcases h with h | h
  · refine key _ ?_ w h
    rintro v ⟨a, b, hab, rfl | rfl⟩ c hc
    · simp only [List.mem_cons, List.not_mem_nil, or_false] at hc
      rcases hc with rfl | rfl | rfl | rfl
      · decide
      · decide
      · exact hd _ (hab _ (by simp))
      · exact hd _ (hab _ (by simp))
    · simp only [List.mem_cons, List.not_mem_nil, or_false] at hc
      rcases hc with rfl | rfl | rfl | rfl
      · decide
      · decide
      · exact hd _ (hab _ (by simp))
      · exact hd _ (hab _ (by simp))
  · refine key _ ?_ w h
    rintro v ⟨a, b, ha, hb, -, rfl | ⟨x, hx, rfl⟩⟩ c hc
    · exact hd _ (hb c hc)
    · rcases List.mem_append.1 hc with hc | hc
      · exact hd _ (ha c hc)
      · rcases List.mem_cons.1 hc with rfl | hc
        · exact (by decide : ∀ c ∈ [',', '.', '\''], c ∈ "0123456789,.'\n".toList) _ hx
        · exact hd _ (hb c hc)

theorem lower_number (w : Str) (h1 : ¬ Spec.year w) (h2 : ¬ Spec.number w) : ¬ Spec.year (lower w) ∧ ¬ Spec.number (lower w) := by
  have key : Spec.year (lower w) ∨ Spec.number (lower w) → lower w = w := by
    intro h
    have hc := number_chars h
    unfold lower at hc ⊢
    conv_rhs => rw [← List.map_id w]
    refine List.map_congr_left fun c hm => ?_
    have := hc _ (List.mem_map.2 ⟨c, hm, rfl⟩)
    split at this
    · next hcc =>
      exfalso
      have e1 : 'A'.toNat = 65 := rfl
      have e2 : 'Z'.toNat = 90 := rfl
      rw [e1, e2] at hcc
      have h : ∀ n < 91, 65 ≤ n → Char.ofNat (n + 32) ∉ "0123456789,.'\n".toList := by decide +kernel
      exact h _ (by omega) hcc.1 this
    · next hcc => rw [if_neg hcc]; rfl
  constructor
  · intro h; rw [key (Or.inl h)] at h; exact h1 h
  · intro h; rw [key (Or.inr h)] at h; exact h2 h

end Examples

/-- **C56**: The documentation says "If the returned signature is not part of the grammar, a default one is returned." But signatures of rare numbers in the training set are counted although these are replaced by
'000' in it: here the parser gets a signature for which there is no lexical rule. -/
theorem C56_number_disagreement : ∃ (tb : Tagged) (m : LexModel) (tok : Str), getunknownwordmodel Examples.lower some tb Examples.sig 1 1 = some m ∧
    parserInput Examples.lower Examples.sig m [tok] = ["_UNK-S-n-C".toList] ∧
    ¬ Spec.hasRule (replaceraretrainwords tb Examples.sig m.lexicon) (simplesmoothlexicon m (1 / 100)) "_UNK-S-n-C".toList := by
  have h1 : (getunknownwordmodel Examples.lower some Examples.tbNum Examples.sig 1 1).map (fun m => (replaceraretestwords Examples.lower ["1,000,000".toList.flatMap esc2] Examples.sig (Dict.keys m.words) (Dict.keys m.sigs),
      decide ("_UNK-S-n-C".toList ∈ Examples.ruleWords m Examples.tbNum))) = some (["_UNK-S-n-C".toList], false) := by decide +kernel
  obtain ⟨m, h2, h3⟩ := Option.map_eq_some_iff.1 h1
  simp only [Prod.mk.injEq, decide_eq_false_iff_not] at h3
  refine ⟨Examples.tbNum, m, "1,000,000".toList, h2, by rw [parserInput_eq]; exact h3.1, fun h => h3.2 (Examples.hasRule_ruleWords h2 _ h)⟩

/-- **C56**: Without a year in the training set, a year in a test sentence is replaced by a word without lexical rule. -/
theorem C56_year_disagreement : ∃ (tb : Tagged) (m : LexModel) (tok : Str), getunknownwordmodel Examples.lower some tb Examples.sig 1 1 = some m ∧
    parserInput Examples.lower Examples.sig m [tok] = ["1970".toList] ∧
    ¬ Spec.hasRule (replaceraretrainwords tb Examples.sig m.lexicon) (simplesmoothlexicon m (1 / 100)) "1970".toList := by
  have h1 : (getunknownwordmodel Examples.lower some Examples.tbNum Examples.sig 1 1).map (fun m => (replaceraretestwords Examples.lower ["1984".toList.flatMap esc2] Examples.sig (Dict.keys m.words) (Dict.keys m.sigs),
      decide ("1970".toList ∈ Examples.ruleWords m Examples.tbNum))) = some (["1970".toList], false) := by decide +kernel
  obtain ⟨m, h2, h3⟩ := Option.map_eq_some_iff.1 h1
  simp only [Prod.mk.injEq, decide_eq_false_iff_not] at h3
  refine ⟨Examples.tbNum, m, "1984".toList, h2, by rw [parserInput_eq]; exact h3.1, fun h => h3.2 (Examples.hasRule_ruleWords h2 _ h)⟩

/-- **C56**: A frequent word with a parenthesis is known, and the grammar has a rule for it (escaped); but in a test sentence it is treated as unknown, because the escaped word is compared with the words of the
training set, which are not escaped. -/
theorem C56_paren_disagreement : ∃ (tb : Tagged) (m : LexModel), getunknownwordmodel Examples.lower some tb Examples.sig 1 2 = some m ∧ "(".toList ∈ m.lexicon ∧
    Spec.hasRule (replaceraretrainwords tb Examples.sig m.lexicon) (simplesmoothlexicon m (1 / 100)) (escape (some "(".toList)) ∧ parserInput Examples.lower Examples.sig m ["(".toList] = [UNK] := by
  have h1 : (getunknownwordmodel Examples.lower some Examples.tbParen Examples.sig 1 2).map (fun m => (replaceraretestwords Examples.lower ["(".toList.flatMap esc2] Examples.sig (Dict.keys m.words) (Dict.keys m.sigs),
      decide ("(".toList ∈ m.lexicon), decide ("(".toList ∈ (replaceraretrainwords Examples.tbParen Examples.sig m.lexicon).flatten))) = some ([UNK], true, true) := by decide +kernel
  obtain ⟨m, h2, h3⟩ := Option.map_eq_some_iff.1 h1
  simp only [Prod.mk.injEq, decide_eq_true_eq] at h3
  exact ⟨Examples.tbParen, m, h2, h3.2.1, Or.inl ⟨_, h3.2.2, rfl⟩, by rw [parserInput_eq]; exact h3.1⟩

/-- The premises of `C56_covered` on `lower` and the signature function, for the example. -/
example : (∀ w, ¬ Spec.year w → ¬ Spec.number w → ¬ Spec.year (Examples.lower w) ∧ ¬ Spec.number (Examples.lower w)) ∧ (∀ w, Spec.noParens w → Spec.noParens (Examples.lower w)) ∧ (∀ w n lex, Spec.noParens w → Spec.noParens (Examples.sig w n lex)) :=
  ⟨Examples.lower_number, Examples.lower_noParens, fun w n lex h => (C56_signature Examples.ascii Examples.lower_noParens w n lex _ (by simp : unknownword4 Examples.ascii Examples.lower ∈ _)).2 h⟩

end Disco.Lexicon
