import Verif.Lexicon.Props
/-!
# C56, continued: words given to the parser and words of the grammar
-/
namespace Disco.Lexicon
open Disco Disco.Escape

variable {lower : Str → Str} {collapse : Str → Option Str} {sents : Tagged} {unknownword : Sig} {ut oct : Nat}

theorem escape_id {w : Str} (h : Spec.noParens w) : escape (some w) = w := by
  rw [escape_some]
  obtain ⟨h1, h2⟩ := h
  induction w with
  | nil => rfl
  | cons c w ih =>
    simp only [List.mem_cons, not_or] at h1 h2
    rw [List.flatMap_cons, ih h1.2 h2.2, esc2, if_neg (Ne.symm h1.1), if_neg (Ne.symm h2.1)]
    rfl

theorem noParens_escape (w : Option Str) : Spec.noParens (escape w) := C39_no_paren w

/-! ### Training -/

/-- **C56**: In the training set, each word is replaced by the same for all years, the same for all other numbers, its signature if it is not in the lexicon, and otherwise it is kept; the sentences keep their length. -/
theorem C56_train (lexicon : List Str) (i n : Nat) (sent : List (Str × Str)) (hs : sents[i]? = some sent) (w t : Str) (hw : sent[n]? = some (w, t)) :
    ∃ out, (replaceraretrainwords sents unknownword lexicon)[i]? = some out ∧ out.length = sent.length ∧ ∃ v, out[n]? = some v ∧
      (Spec.year w → v = "1970".toList) ∧ (Spec.number w → ¬ Spec.year w → v = "000".toList) ∧
      (¬ Spec.number w → ¬ Spec.year w → v = if w ∈ lexicon then w else unknownword w n fun x => decide (x ∈ lexicon)) := by
  refine ⟨sent.zipIdx.map fun x => repl unknownword lexicon x.2 x.1.1, by simp [replaceraretrainwords, hs], by simp, repl unknownword lexicon n w, ?_, ?_⟩
  · simp [hw]
  · obtain ⟨hy, hn⟩ := C56_year_number w
    rw [← hy, ← hn]
    unfold repl
    refine ⟨fun h => by rw [if_pos h], fun h h' => by rw [if_neg h', if_pos h], fun h h' => ?_⟩
    rw [if_neg h', if_neg h]
    by_cases h1 : w ∈ lexicon <;> simp [h1]

theorem mem_train {lexicon : List Str} {n : Nat} {w : Str} (h : (n, w) ∈ positions sents) : repl unknownword lexicon n w ∈ (replaceraretrainwords sents unknownword lexicon).flatten := by
  unfold positions at h
  obtain ⟨sent, h1, h2⟩ := List.mem_flatMap.1 h
  obtain ⟨x, h3, h4⟩ := List.mem_map.1 h2
  cases h4
  rw [List.mem_flatten]
  refine ⟨_, List.mem_map.2 ⟨sent, h1, rfl⟩, List.mem_map.2 ⟨x, h3, rfl⟩⟩

theorem exists_position {w t : Str} (h : (w, t) ∈ sents.flatten) : ∃ n, (n, w) ∈ positions sents := by
  obtain ⟨sent, h1, h2⟩ := List.mem_flatten.1 h
  obtain ⟨n, hn⟩ := List.getElem?_of_mem h2
  refine ⟨n, List.mem_flatMap.2 ⟨sent, h1, List.mem_map.2 ⟨((w, t), n), ?_, rfl⟩⟩⟩
  rw [List.mem_zipIdx_iff_getElem?]
  exact hn

theorem position_word {n : Nat} {w : Str} (h : (n, w) ∈ positions sents) : ∃ t, (w, t) ∈ sents.flatten := by
  obtain ⟨sent, h1, h2⟩ := List.mem_flatMap.1 h
  obtain ⟨⟨⟨w', t⟩, n'⟩, h3, h4⟩ := List.mem_map.1 h2
  cases h4
  exact ⟨t, List.mem_flatten.2 ⟨sent, h1, List.mem_of_getElem? (List.mem_zipIdx_iff_getElem?.1 h3)⟩⟩

/-! ### Extra rules -/

theorem foldl_set_other {β : Type} (f : β → Str × Str) (v : β → Rat) (bs : List β) (k : Str × Str) (h : ∀ b ∈ bs, f b ≠ k) : ∀ d : Dict (Str × Str) Rat,
    Dict.get? (bs.foldl (fun d b => Dict.set d (f b) (v b)) d) k = Dict.get? d k := by
  induction bs with
  | nil => intro d; rfl
  | cons b bs ih =>
    intro d
    rw [List.foldl_cons, ih (fun b' hb => h b' (List.mem_cons_of_mem _ hb)), Dict.get?_set, if_neg]
    exact h b (by simp)

theorem foldl_set_mem {β : Type} (f : β → Str × Str) (v : β → Rat) (bs : List β) (k : Str × Str) : ∀ (d : Dict (Str × Str) Rat), (∃ b ∈ bs, f b = k) →
    ∃ b ∈ bs, f b = k ∧ Dict.get? (bs.foldl (fun d b => Dict.set d (f b) (v b)) d) k = some (v b) := by
  induction bs with
  | nil => rintro d ⟨b, hb, -⟩; simp at hb
  | cons b bs ih =>
    intro d h
    rw [List.foldl_cons]
    by_cases h' : ∃ b' ∈ bs, f b' = k
    · obtain ⟨b', h1, h2, h3⟩ := ih (Dict.set d (f b) (v b)) h'
      exact ⟨b', List.mem_cons_of_mem _ h1, h2, h3⟩
    · push Not at h'
      obtain ⟨b', hb', e⟩ := h
      have : b' = b := by
        rcases List.mem_cons.1 hb' with rfl | hb'
        · rfl
        · exact absurd e (h' b' hb')
      subst this
      refine ⟨b', by simp, e, ?_⟩
      rw [foldl_set_other f v bs k h', Dict.get?_set, if_pos e]

theorem foldl_if_filter {β δ : Type} (p : β → Prop) [DecidablePred p] (f : δ → β → δ) (bs : List β) : ∀ d, bs.foldl (fun d b => if p b then f d b else d) d = (bs.filter fun b => decide (p b)).foldl f d := by
  induction bs with
  | nil => intro d; rfl
  | cons b bs ih =>
    intro d
    rw [List.foldl_cons, List.filter_cons]
    by_cases h : p b <;> simp [h, ih]

/-- **C56**: The extra lexical rules: one for the symbol for unknown words with every tag, and one for each (escaped) word that is not in the lexicon with each of the tags it occurs with; their weights are the
given constant, and the number of occurrences of the tagged word (or one which is the same when escaped). -/
theorem C56_smooth {m : LexModel} (h : getunknownwordmodel lower collapse sents unknownword ut oct = some m) (eps : Rat) (t w : Str) (q : Rat) :
    (Dict.get? (simplesmoothlexicon m eps) (t, w) ≠ none ↔ (∃ v, (v, t) ∈ sents.flatten) ∧ w = UNK ∨ ∃ v, (v, t) ∈ sents.flatten ∧ v ∉ m.lexicon ∧ w = escape (some v)) ∧
    (Dict.get? (simplesmoothlexicon m eps) (t, w) = some q → (∃ v, (v, t) ∈ sents.flatten) ∧ w = UNK ∧ q = eps ∨
      w ≠ UNK ∧ ∃ v, v ∉ m.lexicon ∧ w = escape (some v) ∧ 0 < sents.flatten.count (v, t) ∧ q = sents.flatten.count (v, t)) := by
  have key : (Dict.get? (simplesmoothlexicon m eps) (t, w) = none ∧ ¬ ((∃ v, (v, t) ∈ sents.flatten) ∧ w = UNK ∨ ∃ v, (v, t) ∈ sents.flatten ∧ v ∉ m.lexicon ∧ w = escape (some v))) ∨
      ((∃ v, (v, t) ∈ sents.flatten) ∧ w = UNK ∧ Dict.get? (simplesmoothlexicon m eps) (t, w) = some eps) ∨
      (w ≠ UNK ∧ ∃ v, (v, t) ∈ sents.flatten ∧ v ∉ m.lexicon ∧ w = escape (some v) ∧ Dict.get? (simplesmoothlexicon m eps) (t, w) = some (sents.flatten.count (v, t) : Rat)) := by
    have hwt : ∀ v u, (v, u) ∈ Dict.keys m.wordtags ↔ (v, u) ∈ sents.flatten := by
      intro v u
      rw [(model_eq h).2.2.2.1, mem_keys_ones]; simp
    have wfm : Dict.WF m.wordtags := by rw [(model_eq h).2.2.2.1]; exact wf_addAll _
    unfold simplesmoothlexicon
    dsimp only
    rw [foldl_if_filter (fun x : (Str × Str) × Nat => x.1.1 ∉ m.lexicon)]
    by_cases h1 : w = UNK ∧ t ∈ Dict.keys m.tags
    · refine Or.inr (Or.inl ⟨(mem_tags h t).1 h1.2, h1.1, ?_⟩)
      obtain ⟨b, -, -, h2⟩ := foldl_set_mem (fun tag : Str => (tag, UNK)) (fun _ => eps) (Dict.keys m.tags) (t, w) _ ⟨t, h1.2, by rw [h1.1]⟩
      exact h2
    · have hne : ∀ b ∈ Dict.keys m.tags, (fun tag : Str => (tag, UNK)) b ≠ (t, w) := by
        intro b hb e
        simp only [Prod.mk.injEq] at e
        exact h1 ⟨e.2.symm, e.1 ▸ hb⟩
      rw [foldl_set_other (fun tag : Str => (tag, UNK)) (fun _ => eps) (Dict.keys m.tags) (t, w) hne]
      by_cases h2 : ∃ b ∈ m.wordtags.filter (fun x => decide (x.1.1 ∉ m.lexicon)), (fun x : (Str × Str) × Nat => (x.1.2, escape (some x.1.1))) b = (t, w)
      · obtain ⟨⟨⟨v, u⟩, c⟩, h3, h4, h5⟩ := foldl_set_mem (fun x : (Str × Str) × Nat => (x.1.2, escape (some x.1.1))) (fun x => (x.2 : Rat)) _ (t, w) [] h2
        simp only [Prod.mk.injEq] at h4
        obtain ⟨rfl, rfl⟩ := h4
        simp only [List.mem_filter, decide_eq_true_eq] at h3
        have hk : (v, u) ∈ Dict.keys m.wordtags := List.mem_map.2 ⟨_, h3.1, rfl⟩
        refine Or.inr (Or.inr ⟨fun hu => h1 ⟨hu, (mem_tags h u).2 ⟨v, (hwt v u).1 hk⟩⟩, v, (hwt v u).1 hk, h3.2, rfl, ?_⟩)
        rw [h5, ← (C56_lexicon h).2.2.2 v u, Dict.cnt_of_mem wfm h3.1]
      · refine Or.inl ⟨?_, ?_⟩
        · push Not at h2
          rw [foldl_set_other _ (fun x => (x.2 : Rat)) _ _ h2]; rfl
        · rintro (⟨hv, rfl⟩ | ⟨v, hv, hl, rfl⟩)
          · exact h1 ⟨rfl, (mem_tags h t).2 hv⟩
          · obtain ⟨⟨k, c⟩, h3, h4⟩ := List.mem_map.1 ((hwt v t).2 hv)
            dsimp only at h4
            subst h4
            exact h2 ⟨_, by simp only [List.mem_filter, decide_eq_true_eq]; exact ⟨h3, hl⟩, rfl⟩
  constructor
  · rcases key with ⟨h1, h2⟩ | ⟨h1, h2, h3⟩ | ⟨h0, v, h1, h2, h3, h4⟩
    · exact ⟨fun h => absurd h1 h, fun h => absurd h h2⟩
    · exact ⟨fun _ => Or.inl ⟨h1, h2⟩, fun _ => by rw [h3]; simp⟩
    · exact ⟨fun _ => Or.inr ⟨v, h1, h2, h3⟩, fun _ => by rw [h4]; simp⟩
  · intro hq
    rcases key with ⟨h1, h2⟩ | ⟨h1, h2, h3⟩ | ⟨h0, v, h1, h2, h3, h4⟩
    · rw [h1] at hq; cases hq
    · rw [h3] at hq; cases hq; exact Or.inl ⟨h1, h2, rfl⟩
    · rw [h4] at hq; cases hq; exact Or.inr ⟨h0, v, h2, h3, List.count_pos_iff.2 h1, rfl⟩

/-! ### Test sentences -/

theorem mem_input {sent : List Str} {lexicon sigs : List Str} {w : Str} (h : w ∈ replaceraretestwords lower sent unknownword lexicon sigs) :
    ∃ n x, sent[n]? = some x ∧ w = testWord lower unknownword lexicon sigs n x := by
  obtain ⟨⟨x, n⟩, h1, rfl⟩ := List.mem_map.1 h
  exact ⟨n, x, List.mem_zipIdx_iff_getElem?.1 h1, rfl⟩

/-- **C56**: After training, every word given to the parser has a lexical rule, with three exceptions: '1970' if there was no year in the training set, '000' if there was no other number in it, and signatures which
only occur for (rare) numbers and years in the training set. -/
theorem C56_covered {m : LexModel} (h : getunknownwordmodel lower collapse sents unknownword ut oct = some m) (hne : ∃ x, x ∈ sents.flatten) (eps : Rat)
    (hlower : ∀ w, ¬ Spec.year w → ¬ Spec.number w → ¬ Spec.year (lower w) ∧ ¬ Spec.number (lower w)) (hparen : ∀ w, Spec.noParens w → Spec.noParens (lower w))
    (hsig : ∀ w n lex, Spec.noParens w → Spec.noParens (unknownword w n lex)) (sent : List Str) (w : Str) (hw : w ∈ parserInput lower unknownword m sent) :
    Spec.hasRule (replaceraretrainwords sents unknownword m.lexicon) (simplesmoothlexicon m eps) w ∨
    w = "1970".toList ∧ (∀ x t, (x, t) ∈ sents.flatten → ¬ Spec.year x) ∨
    w = "000".toList ∧ (∀ x t, (x, t) ∈ sents.flatten → Spec.number x → Spec.year x) ∨
    w ∈ Dict.keys m.sigs ∧ ∀ n x, (n, x) ∈ positions sents → x ∉ m.lexicon → unknownword x n (fun v => decide (v ∈ m.lexicon)) = w → Spec.year x ∨ Spec.number x := by
  have known : ∀ x, x ∈ Dict.keys m.words → Spec.noParens x → ¬ Spec.year x → ¬ Spec.number x → Spec.hasRule (replaceraretrainwords sents unknownword m.lexicon) (simplesmoothlexicon m eps) x := by
    intro x hx hp hy hn
    obtain ⟨t, ht⟩ := (mem_words h x).1 hx
    by_cases hl : x ∈ m.lexicon
    · left
      obtain ⟨n, hpos⟩ := exists_position ht
      refine ⟨_, mem_train hpos, ?_⟩
      unfold repl
      rw [if_neg (by rw [(C56_year_number x).1]; exact hy), if_neg (by rw [(C56_year_number x).2]; exact hn), if_neg (by simpa using hl), escape_id hp]
    · right
      exact ⟨t, (C56_smooth h eps t x 0).1.2 (Or.inr ⟨x, ht, hl, (escape_id hp).symm⟩)⟩
  obtain ⟨n, x, h1, rfl⟩ := mem_input hw
  obtain ⟨tok, -, rfl⟩ := List.mem_map.1 (List.mem_of_getElem? h1)
  have hp := noParens_escape (some tok)
  generalize escape (some tok) = x at hp
  obtain ⟨ey, en⟩ := C56_year_number x
  unfold testWord
  by_cases hy : year x = true
  · rw [if_pos hy]
    by_cases hex : ∃ v t, (v, t) ∈ sents.flatten ∧ Spec.year v
    · obtain ⟨v, t, hv, hvy⟩ := hex
      obtain ⟨n, hpos⟩ := exists_position hv
      refine Or.inl (Or.inl ⟨_, mem_train hpos, ?_⟩)
      unfold repl
      rw [if_pos ((C56_year_number v).1.2 hvy), escape_id (by unfold Spec.noParens; decide)]
    · push Not at hex
      exact Or.inr (Or.inl ⟨rfl, hex⟩)
  rw [if_neg hy]
  by_cases hn : number x = true
  · rw [if_pos hn]
    by_cases hex : ∃ v t, (v, t) ∈ sents.flatten ∧ Spec.number v ∧ ¬ Spec.year v
    · obtain ⟨v, t, hv, hvn, hvy⟩ := hex
      obtain ⟨n, hpos⟩ := exists_position hv
      refine Or.inl (Or.inl ⟨_, mem_train hpos, ?_⟩)
      unfold repl
      rw [if_neg (by rw [(C56_year_number v).1]; exact hvy), if_pos ((C56_year_number v).2.2 hvn), escape_id (by unfold Spec.noParens; decide)]
    · push Not at hex
      exact Or.inr (Or.inr (Or.inl ⟨rfl, hex⟩))
  rw [if_neg hn]
  rw [ey] at hy
  rw [en] at hn
  split
  · next h2 => exact Or.inl (known x h2 hp hy hn)
  · split
    · next h2 => exact Or.inl (known _ h2 (hparen x hp) (hlower x hy hn).1 (hlower x hy hn).2)
    · dsimp only
      split
      · next h2 =>
        generalize hs : unknownword x n (fun w => decide (w ∈ Dict.keys m.words)) = s at h2
        have hps : Spec.noParens s := hs ▸ hsig x n _ hp
        by_cases hex : ∃ k v, (k, v) ∈ positions sents ∧ v ∉ m.lexicon ∧ unknownword v k (fun v => decide (v ∈ m.lexicon)) = s ∧ ¬ Spec.year v ∧ ¬ Spec.number v
        · obtain ⟨k, v, h3, h4, h5, h6, h7⟩ := hex
          refine Or.inl (Or.inl ⟨_, mem_train h3, ?_⟩)
          unfold repl
          rw [if_neg (by rw [(C56_year_number v).1]; exact h6), if_neg (by rw [(C56_year_number v).2]; exact h7), if_pos h4, h5, escape_id hps]
        · refine Or.inr (Or.inr (Or.inr ⟨h2, ?_⟩))
          intro k v h3 h4 h5
          by_contra hc
          rw [not_or] at hc
          exact hex ⟨k, v, h3, h4, h5, hc.1, hc.2⟩
      · obtain ⟨⟨v, t⟩, hv⟩ := hne
        exact Or.inl (Or.inr ⟨t, (C56_smooth h eps t UNK 0).1.2 (Or.inl ⟨⟨v, hv⟩, rfl⟩)⟩)

/-- **C56**: With a grammar read from files, every word given to the parser has a lexical rule, except for the replacements of years and numbers and the symbol for unknown words. -/
theorem C56_disk (grammarwords sent : List Str) (w : Str) (hw : w ∈ parserInputDisk lower unknownword grammarwords sent) :
    w ∈ grammarwords ∨ w = "1970".toList ∨ w = "000".toList ∨ w = UNK := by
  obtain ⟨n, x, h1, rfl⟩ := mem_input hw
  unfold testWord
  split
  · exact Or.inr (Or.inl rfl)
  · split
    · exact Or.inr (Or.inr (Or.inl rfl))
    · split
      · next h => exact Or.inl (List.mem_filter.1 h).1
      · split
        · next h => exact Or.inl (List.mem_filter.1 h).1
        · dsimp only
          split
          · next h => exact Or.inl (List.mem_filter.1 h).1
          · exact Or.inr (Or.inr (Or.inr rfl))

/-- **C56**: The words given to the parser: as many as the tokens of the sentence; and a token which is a word of the training set, without parentheses and not a number, is given as it is. -/
theorem C56_known {m : LexModel} (h : getunknownwordmodel lower collapse sents unknownword ut oct = some m) (sent : List Str) :
    (parserInput lower unknownword m sent).length = sent.length ∧
    ∀ (n : Nat) (x t : Str), sent[n]? = some x → (x, t) ∈ sents.flatten → Spec.noParens x → ¬ Spec.year x → ¬ Spec.number x → (parserInput lower unknownword m sent)[n]? = some x := by
  refine ⟨by simp [parserInput, replaceraretestwords], ?_⟩
  intro n x t hn ht hp hy hnum
  have : (parserInput lower unknownword m sent)[n]? = some (testWord lower unknownword (Dict.keys m.words) (Dict.keys m.sigs) n (escape (some x))) := by
    simp [parserInput, replaceraretestwords, hn]
  rw [this, escape_id hp, testWord, if_neg (by rw [(C56_year_number x).1]; exact hy), if_neg (by rw [(C56_year_number x).2]; exact hnum), if_pos ((mem_words h x).2 ⟨t, ht⟩)]

/-! ### Signature functions -/

theorem mem_drop_noParens {w : Str} (h : Spec.noParens w) (n : Nat) : Spec.noParens (w.drop n) :=
  ⟨fun hm => h.1 (List.mem_of_mem_drop hm), fun hm => h.2 (List.mem_of_mem_drop hm)⟩

theorem noParens_append {a b : Str} (ha : Spec.noParens a) (hb : Spec.noParens b) : Spec.noParens (a ++ b) := by
  unfold Spec.noParens at *
  simp only [List.mem_append, not_or]
  exact ⟨⟨ha.1, hb.1⟩, ha.2, hb.2⟩

instance (w : Str) : Decidable (Spec.noParens w) := inferInstanceAs (Decidable (_ ∧ _))

theorem noParens_ite {p : Prop} [Decidable p] {a b : Str} (ha : Spec.noParens a) (hb : Spec.noParens b) : Spec.noParens (if p then a else b) := by split <;> assumption

/-- **C56**: Signatures start with the symbol for unknown words and, for words without parentheses, have no parentheses: so that the premise of `C56_covered` holds for these functions. -/
theorem C56_signature (C : Chars) (hparen : ∀ w, Spec.noParens w → Spec.noParens (lower w)) (w : Str) (n : Nat) (lex : Str → Bool) :
    ∀ f ∈ [unknownword4 C lower, unknownword6 C lower, unknownwordbase C lower], UNK <+: f w n lex ∧ (Spec.noParens w → Spec.noParens (f w n lex)) := by
  intro f hf
  simp only [List.mem_cons, List.not_mem_nil, or_false] at hf
  rcases hf with rfl | rfl | rfl
  · refine ⟨by unfold unknownword4; simp only [List.append_assoc]; exact List.prefix_append _ _, fun hw => ?_⟩
    unfold unknownword4
    refine noParens_append (noParens_append (noParens_append (noParens_append (by decide) ?_) ?_) (noParens_append (noParens_append ?_ ?_) ?_)) ?_
    · repeat' split
      all_goals decide
    · repeat' split
      all_goals decide
    · split <;> decide
    · split <;> decide
    · split <;> decide
    · exact noParens_ite (noParens_append (a := ['-']) (by decide) (hparen _ (mem_drop_noParens hw _))) (by decide)
  · refine ⟨by unfold unknownword6; simp only [List.append_assoc]; exact List.prefix_append _ _, fun hw => ?_⟩
    unfold unknownword6
    refine noParens_append (noParens_append (noParens_append (noParens_append (by decide) ?_) ?_) ?_) ?_
    · repeat' split
      all_goals decide
    · split <;> decide
    · split <;> decide
    · split
      · split
        · split <;> decide
        · decide
      · split
        · split
          · next a ha =>
            have : a ∈ ["ed", "ing", "ion", "er", "est", "ly", "ity", "y", "al"] := List.mem_of_find?_eq_some ha
            exact (by decide : ∀ a ∈ ["ed", "ing", "ion", "er", "est", "ly", "ity", "y", "al"], Spec.noParens ('-' :: a.toList)) a this
          · decide
        · decide
  · refine ⟨by unfold unknownwordbase; simp only [List.append_assoc]; exact List.prefix_append _ _, fun hw => ?_⟩
    unfold unknownwordbase
    refine noParens_append (noParens_append (noParens_append (noParens_append (by decide) ?_) ?_) (noParens_append (noParens_append ?_ ?_) ?_)) ?_
    · exact noParens_ite (by decide) (by decide)
    · repeat' split
      all_goals decide
    · split <;> decide
    · split <;> decide
    · split <;> decide
    · exact noParens_ite (noParens_append (a := ['-']) (by decide) (hparen _ (mem_drop_noParens hw _))) (by decide)

end Disco.Lexicon
