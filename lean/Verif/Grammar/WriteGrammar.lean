import Verif.Grammar.Convert
/-!
# C47: grammars as text (`writegrammar`, grammar.py:1060-1092; `readfields`, _grammar.pxi:1073-1090)

`Grammar(tuples)` writes its argument as text and reads that text. The formatting of weights (`'%g' % w`) is the parameter `fmt`, and the reading of
weights is the parameter `conv`.
-/
namespace Disco.WriteGrammar
open Dict Prods Escape

/-- `readfields` (_grammar.pxi:1073-1090): the fields of the first line and the remaining text; `none` when there is no end of line. -/
def readfields (buf : Str) : Option (List Str × Str) :=
  if '\n' ∈ buf then some (Str.splitAll '\t' (buf.takeWhile (fun c => decide (c ≠ '\n'))), (buf.dropWhile (fun c => decide (c ≠ '\n'))).drop 1) else none

/-- The loop over the lines (_grammar.pxi:406-413, 582-589); the first argument bounds the number of lines. -/
def readloop : Nat → Str → List (List Str)
  | 0, _ => []
  | fuel + 1, buf => (readfields buf).elim [] (fun p => p.1 :: readloop fuel p.2)

/-- The fields of all lines. -/
def readlines (buf : Str) : List (List Str) := readloop buf.length buf

/-- The text of a yield function (grammar.py:1084). For a word the characters are joined. -/
def yfText : Prods.YF → Str
  | .word w => w
  | .spans yf => YieldBits.Spec.text yf

/-- Is this rule lexical (grammar.py:1078)? -/
def isLexical (r : Rule) : Bool := decide (r.nts.length = 2 ∧ r.nts[1]? = some epsilon)

/-- The line for a phrasal rule (grammar.py:1077-1086). -/
def ruleLine (fmt : ℚ → Str) (bitpar : Bool) (r : Rule) (w : ℚ) : Str :=
  if bitpar then fmt w ++ '\t' :: Str.join ['\t'] r.nts ++ ['\n']
  else Str.join ['\t'] r.nts ++ '\t' :: yfText r.yf ++ '\t' :: fmt w ++ ['\n']

/-- `lexical.setdefault(word, []).append(x)` (grammar.py:1079). -/
def addTo (d : Dict Str (List (Str × Str))) (w : Str) (x : Str × Str) : Dict Str (List (Str × Str)) := Dict.set d w ((get? d w).getD [] ++ [x])

/-- The loop over the rules (grammar.py:1076-1086). -/
def writeLoop (fmt : ℚ → Str) (bitpar : Bool) : Str × Dict Str (List (Str × Str)) → List (Rule × ℚ) → Option (Str × Dict Str (List (Str × Str)))
  | s, [] => some s
  | (rules, lexical), (r, w) :: rest =>
    if isLexical r then
      match r.yf with
      | .word word => writeLoop fmt bitpar (rules, addTo lexical word (r.nts.headD [], fmt w)) rest
      | .spans _ => none
    else writeLoop fmt bitpar (rules ++ ruleLine fmt bitpar r w, lexical) rest

/-- One line of the lexicon (grammar.py:1088-1091); a word for which `unescape` gives `None` is an error. -/
def lexLine (e : Str × List (Str × Str)) : Option Str := (unescape e.1).map (fun w => w ++ e.2.flatMap (fun x => '\t' :: x.1 ++ ' ' :: x.2) ++ ['\n'])

/-- `writegrammar` (grammar.py:1060-1092). -/
def writegrammar (fmt : ℚ → Str) (bitpar : Bool) (g : List (Rule × ℚ)) : Option (Str × Str) := do
  let (rules, lexical) ← writeLoop fmt bitpar ([], []) g
  let lines ← lexical.mapM lexLine
  some (rules, lines.flatten)

/-! ### Specification -/

/-- Text that can be a field: no tab and no newline. -/
def Spec.Plain (s : Str) : Prop := '\t' ∉ s ∧ '\n' ∉ s

/-- A lexical rule that can be written: a tag without spaces and a word that is neither empty nor the marker of a frontier node. -/
def Spec.LexOK (r : Rule) : Prop :=
  ∃ tag word, r = ⟨[tag, epsilon], .word word⟩ ∧ Spec.Plain tag ∧ ' ' ∉ tag ∧ Spec.Plain word ∧ word ≠ [] ∧ word ≠ frontier

/-- A phrasal rule that can be written: one or two labels on the right-hand side, and a yield function in which exactly these are mentioned. -/
def Spec.RuleOK (r : Rule) : Prop :=
  ∃ yf, r.yf = .spans yf ∧ YieldBits.Spec.Fits yf ∧ (∀ l ∈ r.nts, Spec.Plain l) ∧
    ((∃ a b, r.nts = [a, b] ∧ b ≠ epsilon ∧ Prods.Spec.mentions yf 1 = 0) ∨
     (∃ a b c, r.nts = [a, b, c] ∧ 0 < Prods.Spec.mentions yf 0 ∧ 0 < Prods.Spec.mentions yf 1))

/-- A rule as the `Grammar` object keeps it: `args` and `lengths` as in C41. -/
def Spec.named (r : Rule) : Option Convert.Spec.NRule :=
  match r.nts, r.yf with
  | [a, b], .spans yf => (YieldBits.readYF (YieldBits.Spec.text yf)).map (fun s => ⟨a, b, none, s.args, s.lengths⟩)
  | [a, b, c], .spans yf => (YieldBits.readYF (YieldBits.Spec.text yf)).map (fun s => ⟨a, b, some c, s.args, s.lengths⟩)
  | _, _ => none

/-- The phrasal rules of a grammar. -/
def Spec.phrasal (conv : Str → ℚ) (fmt : ℚ → Str) (g : List (Rule × ℚ)) : List (Convert.Spec.NRule × ℚ) :=
  g.filterMap (fun x => (Spec.named x.1).map (fun n => (n, conv (fmt x.2))))

/-- The lexical entries of a grammar, with words as they occur in sentences. -/
def Spec.lexical (conv : Str → ℚ) (fmt : ℚ → Str) (g : List (Rule × ℚ)) : List ((Str × Str) × ℚ) :=
  g.filterMap (fun x => match x.1.nts, x.1.yf with
    | [tag, _], .word w => (unescape w).map (fun u => ((tag, u), conv (fmt x.2)))
    | _, _ => none)

/-! ### Lines and fields -/

theorem readfields_line {l rest : Str} (h : '\n' ∉ l) : readfields (l ++ '\n' :: rest) = some (Str.splitAll '\t' l, rest) := by
  have h1 : ∀ {l : Str}, '\n' ∉ l → (l ++ '\n' :: rest).takeWhile (fun c => decide (c ≠ '\n')) = l ∧
      (l ++ '\n' :: rest).dropWhile (fun c => decide (c ≠ '\n')) = '\n' :: rest := by
    intro l
    induction l with
    | nil => intro _; simp
    | cons c l ih =>
      intro h
      simp only [List.mem_cons, not_or] at h
      have hc : c ≠ '\n' := Ne.symm h.1
      obtain ⟨i1, i2⟩ := ih h.2
      rw [List.cons_append, List.takeWhile_cons, List.dropWhile_cons]
      rw [if_pos (by simpa using hc), if_pos (by simpa using hc)]
      exact ⟨by rw [i1], i2⟩
  rw [readfields, if_pos (by simp), (h1 h).1, (h1 h).2]
  rfl

theorem readloop_text (ls : List Str) (h : ∀ l ∈ ls, '\n' ∉ l) (last : Str) (hl : '\n' ∉ last) (fuel : Nat) (hf : ls.length ≤ fuel) :
    readloop fuel (ls.flatMap (fun l => l ++ ['\n']) ++ last) = ls.map (Str.splitAll '\t') := by
  induction ls generalizing fuel with
  | nil =>
    cases fuel with
    | zero => rfl
    | succ n => simp [readloop, readfields, hl]
  | cons l ls ih =>
    cases fuel with
    | zero => simp at hf
    | succ n =>
      rw [List.flatMap_cons, List.append_assoc, List.append_assoc, List.singleton_append, readloop, readfields_line (h l (by simp))]
      simp only [Option.elim_some, List.map_cons]
      rw [ih (fun l hl => h l (by simp [hl])) n (by simpa using hf)]

theorem readlines_last (ls : List Str) (h : ∀ l ∈ ls, '\n' ∉ l) (last : Str) (hl : '\n' ∉ last) :
    readlines (ls.flatMap (fun l => l ++ ['\n']) ++ last) = ls.map (Str.splitAll '\t') := by
  refine readloop_text ls h last hl _ ?_
  clear hl
  induction ls with
  | nil => simp
  | cons l ls ih =>
    have := ih (fun l hl => h l (by simp [hl]))
    simp only [List.flatMap_cons, List.length_append, List.length_cons, List.length_nil] at this ⊢
    omega

theorem readlines_text (ls : List Str) (h : ∀ l ∈ ls, '\n' ∉ l) : readlines (ls.flatMap (fun l => l ++ ['\n'])) = ls.map (Str.splitAll '\t') := by
  have := readlines_last ls h [] (by simp)
  rwa [List.append_nil] at this

theorem split_join (xs : List Str) (hne : xs ≠ []) (h : ∀ x ∈ xs, '\t' ∉ x) : Str.splitAll '\t' (Str.join ['\t'] xs) = xs := by
  induction xs with
  | nil => exact absurd rfl hne
  | cons x xs ih =>
    cases xs with
    | nil => simpa [Str.join] using Str.splitAll_of_not_mem (h x (by simp))
    | cons y ys =>
      have : Str.join ['\t'] (x :: y :: ys) = x ++ '\t' :: Str.join ['\t'] (y :: ys) := by simp [Str.join, List.intercalate]
      rw [this, Str.splitAll_append_cons (h x (by simp)), ih (by simp) (fun z hz => h z (by simp [hz]))]

theorem mem_join {c sep : Char} (xs : List Str) (hc : c ∈ Str.join [sep] xs) : c = sep ∨ ∃ x ∈ xs, c ∈ x := by
  induction xs with
  | nil => simp [Str.join, List.intercalate] at hc
  | cons x xs ih =>
    cases xs with
    | nil => simp [Str.join, List.intercalate] at hc; exact .inr ⟨x, by simp, hc⟩
    | cons y ys =>
      have : Str.join [sep] (x :: y :: ys) = x ++ sep :: Str.join [sep] (y :: ys) := by simp [Str.join, List.intercalate]
      rw [this] at hc
      rcases List.mem_append.1 hc with hc | hc
      · exact .inr ⟨x, by simp, hc⟩
      · rcases List.mem_cons.1 hc with hc | hc
        · exact .inl hc
        · rcases ih hc with h | ⟨z, hz, h⟩
          · exact .inl h
          · exact .inr ⟨z, List.mem_cons_of_mem _ hz, h⟩

theorem text_plain (yf : List (List Nat)) : Spec.Plain (YieldBits.Spec.text yf) := by
  have key : ∀ c ∈ YieldBits.Spec.text yf, c = ',' ∨ c = '0' ∨ c = '1' ∨ c = '?' := by
    intro c hc
    rcases mem_join _ hc with h | ⟨s, hs, hc⟩
    · exact .inl h
    · obtain ⟨a, _, rfl⟩ := List.mem_map.1 hs
      obtain ⟨d, hd, hc⟩ := List.mem_flatten.1 hc
      obtain ⟨n, _, rfl⟩ := List.mem_map.1 hd
      right
      rw [YieldBits.Spec.digit] at hc
      split at hc
      · simp at hc; exact .inl hc
      · split at hc
        · simp at hc; exact .inr (.inl hc)
        · simp at hc; exact .inr (.inr hc)
  constructor
  · intro h
    have := key _ h
    revert this
    decide
  · intro h
    have := key _ h
    revert this
    decide

theorem replace_mem (pat rep : Str) : ∀ (n : Nat) (s : Str), s.length ≤ n → ∀ c ∈ replace pat rep s, c ∈ rep ∨ c ∈ s := by
  intro n
  induction n with
  | zero =>
    intro s hs c hc
    have : s = [] := List.length_eq_zero_iff.1 (by omega)
    subst this
    rw [replace] at hc
    simp at hc
  | succ n ih =>
    intro s hs c hc
    cases s with
    | nil => rw [replace] at hc; simp at hc
    | cons d s =>
      rw [replace] at hc
      split at hc
      · rcases List.mem_append.1 hc with h | h
        · exact .inl h
        · rcases ih _ (by simp at hs ⊢; omega) c h with h | h
          · exact .inl h
          · exact .inr (List.mem_cons_of_mem _ (List.mem_of_mem_drop h))
      · rcases List.mem_cons.1 hc with rfl | h
        · exact .inr List.mem_cons_self
        · rcases ih s (by simpa using hs) c h with h | h
          · exact .inl h
          · exact .inr (List.mem_cons_of_mem _ h)

theorem unescape_plain {w u : Str} (h : unescape w = some u) (hw : Spec.Plain w) : Spec.Plain u := by
  rw [unescape] at h
  split at h
  · cases h
  · cases h
    have key : ∀ c ∈ replace rrb [')'] (replace lrb ['('] w), c = ')' ∨ c = '(' ∨ c ∈ w := by
      intro c hc
      rcases replace_mem _ _ _ _ (le_refl _) c hc with h | h
      · simp at h; exact .inl h
      · rcases replace_mem _ _ _ _ (le_refl _) c h with h | h
        · simp at h; exact .inr (.inl h)
        · exact .inr (.inr h)
    constructor
    · intro h
      rcases key _ h with h | h | h
      · exact absurd h (by decide)
      · exact absurd h (by decide)
      · exact hw.1 h
    · intro h
      rcases key _ h with h | h | h
      · exact absurd h (by decide)
      · exact absurd h (by decide)
      · exact hw.2 h

/-! ### Grouping by word -/

/-- The entries of the lexicon, word by word. -/
def flat (d : Dict Str (List (Str × Str))) : List (Str × Str × Str) := d.flatMap (fun e => e.2.map (fun x => (e.1, x)))

theorem flat_addTo (d : Dict Str (List (Str × Str))) (w : Str) (x : Str × Str) : (flat (addTo d w x)).Perm (flat d ++ [(w, x)]) := by
  have key : ∀ (d : Dict Str (List (Str × Str))), (flat (Dict.set d w ((get? d w).getD [] ++ [x]))).Perm (flat d ++ [(w, x)]) := by
    intro d
    induction d with
    | nil => simp [flat, Dict.set, get?]
    | cons e d ih =>
      obtain ⟨v, xs⟩ := e
      by_cases hv : v = w
      · subst hv
        simp only [Dict.set, get?, if_true, Option.getD_some, flat, List.flatMap_cons, List.map_append, List.map_cons, List.map_nil, List.append_assoc]
        exact List.Perm.append_left _ List.perm_append_comm
      · rw [Dict.set, if_neg hv, get?, if_neg hv, flat, List.flatMap_cons, flat, List.flatMap_cons, List.append_assoc]
        exact List.Perm.append_left _ ih
  exact key d

/-! ### The loop -/

theorem isLexical_of_lex {r : Rule} (h : Spec.LexOK r) : isLexical r = true := by
  obtain ⟨tag, word, rfl, _⟩ := h
  simp [isLexical]

theorem not_isLexical_of_rule {r : Rule} (h : Spec.RuleOK r) : isLexical r = false := by
  obtain ⟨yf, _, _, _, h | h⟩ := h
  · obtain ⟨a, b, h, hb, _⟩ := h
    simp [isLexical, h, hb]
  · obtain ⟨a, b, c, h, _⟩ := h
    simp [isLexical, h]

/-- The phrasal rules, in order. -/
def phr (g : List (Rule × ℚ)) : List (Rule × ℚ) := g.filter (fun x => !isLexical x.1)

/-- The lexical rules as (word, tag, weight). -/
def lexs (fmt : ℚ → Str) (g : List (Rule × ℚ)) : List (Str × Str × Str) :=
  g.filterMap (fun x => match x.1.nts, x.1.yf with
    | [tag, _], .word w => some (w, tag, fmt x.2)
    | _, _ => none)

theorem writeLoop_spec (fmt : ℚ → Str) (bitpar : Bool) (g : List (Rule × ℚ)) (hg : ∀ x ∈ g, Spec.LexOK x.1 ∨ Spec.RuleOK x.1) (rules : Str)
    (d : Dict Str (List (Str × Str))) : ∃ d', writeLoop fmt bitpar (rules, d) g = some (rules ++ (phr g).flatMap (fun x => ruleLine fmt bitpar x.1 x.2), d') ∧
      (flat d').Perm (flat d ++ lexs fmt g) ∧ (∀ w, w ∈ keys d' ↔ w ∈ keys d ∨ ∃ x ∈ g, ∃ nts, x.1 = ⟨nts, .word w⟩) := by
  induction g generalizing rules d with
  | nil => exact ⟨d, by simp [writeLoop, phr], by simp [lexs], by simp⟩
  | cons x g ih =>
    obtain ⟨r, w⟩ := x
    rcases hg (r, w) (by simp) with h | h
    · have hl := isLexical_of_lex h
      obtain ⟨tag, word, rfl, _⟩ := h
      obtain ⟨d', h1, h2, h3⟩ := ih (fun x hx => hg x (by simp [hx])) rules (addTo d word (tag, fmt w))
      refine ⟨d', ?_, ?_, ?_⟩
      · rw [writeLoop, if_pos hl]
        simp only [List.headD_cons]
        rw [h1]
        simp [phr, hl]
      · refine h2.trans ?_
        refine ((flat_addTo d word (tag, fmt w)).append_right _).trans ?_
        rw [List.append_assoc]
        exact List.Perm.refl _
      · intro v
        rw [h3, addTo, mem_keys_set]
        constructor
        · rintro ((rfl | h) | ⟨x, hx, nts, he⟩)
          · exact .inr ⟨_, List.mem_cons_self, _, rfl⟩
          · exact .inl h
          · exact .inr ⟨x, List.mem_cons_of_mem _ hx, nts, he⟩
        · rintro (h | ⟨x, hx, nts, he⟩)
          · exact .inl (.inr h)
          · rcases List.mem_cons.1 hx with rfl | hx
            · simp only [Rule.mk.injEq, YF.word.injEq] at he
              exact .inl (.inl he.2.symm)
            · exact .inr ⟨x, hx, nts, he⟩
    · have hl := not_isLexical_of_rule h
      obtain ⟨d', h1, h2, h3⟩ := ih (fun x hx => hg x (by simp [hx])) (rules ++ ruleLine fmt bitpar r w) d
      obtain ⟨yf, hyf, _, _, hn⟩ := h
      simp only at hyf hn
      refine ⟨d', ?_, ?_, ?_⟩
      · rw [writeLoop, if_neg (by simp [hl]), h1]
        simp [phr, hl]
      · refine h2.trans (List.Perm.append_left _ ?_)
        rcases hn with ⟨a, b, hn, _⟩ | ⟨a, b, c, hn, _⟩ <;>
        · simp only [lexs, List.filterMap_cons, hyf, hn]
          exact List.Perm.refl _
      · intro v
        rw [h3]
        constructor
        · rintro (h | ⟨x, hx, nts, he⟩)
          · exact .inl h
          · exact .inr ⟨x, List.mem_cons_of_mem _ hx, nts, he⟩
        · rintro (h | ⟨x, hx, nts, he⟩)
          · exact .inl h
          · rcases List.mem_cons.1 hx with rfl | hx
            · simp only at he
              rw [he] at hyf
              cases hyf
            · exact .inr ⟨x, hx, nts, he⟩

/-! ### Lines -/

theorem join_snoc2 (xs : List Str) (hne : xs ≠ []) (a b : Str) :
    Str.join ['\t'] (xs ++ [a, b]) = Str.join ['\t'] xs ++ '\t' :: a ++ '\t' :: b := by
  induction xs with
  | nil => exact absurd rfl hne
  | cons x xs ih =>
    cases xs with
    | nil => simp [Str.join, List.intercalate]
    | cons y ys =>
      have e : ∀ zs : List Str, zs ≠ [] → Str.join ['\t'] (x :: zs) = x ++ '\t' :: Str.join ['\t'] zs := by
        intro zs hz
        cases zs with
        | nil => exact absurd rfl hz
        | cons z zs => simp [Str.join, List.intercalate]
      rw [List.cons_append, e _ (by simp), ih (by simp), e _ (by simp)]
      simp

theorem join_cons_flat (u : Str) (xs : List Str) : Str.join ['\t'] (u :: xs) = u ++ xs.flatMap (fun x => '\t' :: x) := by
  induction xs generalizing u with
  | nil => simp [Str.join, List.intercalate]
  | cons x xs ih =>
    have : Str.join ['\t'] (u :: x :: xs) = u ++ '\t' :: Str.join ['\t'] (x :: xs) := by simp [Str.join, List.intercalate]
    rw [this, ih x]
    simp

/-- The fields of the line for a phrasal rule. -/
def fieldsOf (fmt : ℚ → Str) (x : Rule × ℚ) : List Str := x.1.nts ++ [yfText x.1.yf, fmt x.2]

theorem fieldsOf_plain {fmt : ℚ → Str} (hfmt : ∀ q, Spec.Plain (fmt q)) {x : Rule × ℚ} (h : Spec.RuleOK x.1) : ∀ f ∈ fieldsOf fmt x, Spec.Plain f := by
  obtain ⟨yf, hyf, _, hp, _⟩ := h
  intro f hf
  rcases List.mem_append.1 hf with hf | hf
  · exact hp f hf
  · simp only [List.mem_cons, List.not_mem_nil, or_false] at hf
    rcases hf with rfl | rfl
    · rw [hyf]; exact text_plain yf
    · exact hfmt _

theorem ruleLine_eq (fmt : ℚ → Str) {x : Rule × ℚ} (h : Spec.RuleOK x.1) : ruleLine fmt false x.1 x.2 = Str.join ['\t'] (fieldsOf fmt x) ++ ['\n'] := by
  have hne : x.1.nts ≠ [] := by
    obtain ⟨yf, _, _, _, ⟨a, b, h, _⟩ | ⟨a, b, c, h, _⟩⟩ := h <;> simp [h]
  rw [fieldsOf, join_snoc2 _ hne, ruleLine]
  simp

theorem rule_fieldsOf (fmt : ℚ → Str) (conv : Str → ℚ) {x : Rule × ℚ} (h : Spec.RuleOK x.1) :
    ∃ n, Spec.named x.1 = some n ∧ Convert.Spec.rule false conv (fieldsOf fmt x) = some (n, conv (fmt x.2)) := by
  obtain ⟨⟨nts, f⟩, w⟩ := x
  obtain ⟨yf, hyf, hfit, _, h⟩ := h
  simp only at hyf
  subst hyf
  obtain ⟨s, hs, _, _, _, _, s1, s2⟩ := YieldBits.C41_readYF yf hfit
  have hpos : 0 < yf.flatten.length := by
    cases yf with
    | nil => exact absurd rfl hfit.1
    | cons a as =>
      have := List.length_pos_iff.2 (hfit.2.1 a (by simp)).1
      simp; omega
  have hsum : Prods.Spec.mentions yf 0 + Prods.Spec.mentions yf 1 = yf.flatten.length := by
    have hd : ∀ xs : List Nat, (∀ x ∈ xs, x = 0 ∨ x = 1) → xs.count 0 + xs.count 1 = xs.length := by
      intro xs
      induction xs with
      | nil => intro _; rfl
      | cons x xs ih =>
        intro hx
        have := ih (fun y hy => hx y (by simp [hy]))
        rcases hx x (by simp) with rfl | rfl <;> simp <;> omega
    refine hd _ ?_
    intro x hx
    obtain ⟨a, ha, hx⟩ := List.mem_flatten.1 hx
    exact (hfit.2.1 a ha).2 x hx
  rcases h with ⟨a, b, h, hb, hm⟩ | ⟨a, b, c, h, hm0, hm1⟩
  · simp only at h
    subst h
    refine ⟨⟨a, b, none, s.args, s.lengths⟩, by simp [Spec.named, hs], ?_⟩
    have hc : ¬ (s.rhs1 = 0 ∨ s.rhs2 ≠ 0) := by omega
    simp only [Convert.Spec.rule, Convert.parseLine.eq_def, fieldsOf, yfText, List.cons_append, List.nil_append, List.reverse_cons, List.reverse_nil,
      Bool.false_eq_true, if_false, hs, Option.bind_some, List.length_cons, List.length_nil]
    rw [if_neg (fun h => hc h.2), if_neg (by omega)]
    rfl
  · simp only at h
    subst h
    refine ⟨⟨a, b, some c, s.args, s.lengths⟩, by simp [Spec.named, hs], ?_⟩
    have hc : ¬ (s.rhs1 = 0 ∨ s.rhs2 = 0) := by omega
    simp only [Convert.Spec.rule, Convert.parseLine.eq_def, fieldsOf, yfText, List.cons_append, List.nil_append, List.reverse_cons, List.reverse_nil,
      Bool.false_eq_true, if_false, hs, Option.bind_some, List.length_cons, List.length_nil]
    rw [if_neg (by omega), if_neg (fun h => hc h.2)]
    rfl

theorem named_lex {r : Rule} (h : Spec.LexOK r) : Spec.named r = none := by
  obtain ⟨tag, word, rfl, _⟩ := h
  rfl

theorem mapM_some {α β : Type} (f : α → Option β) (l : α → β) (xs : List α) (h : ∀ x ∈ xs, f x = some (l x)) : xs.mapM f = some (xs.map l) := by
  induction xs with
  | nil => rfl
  | cons x xs ih =>
    rw [List.mapM_cons, h x (by simp), ih (fun y hy => h y (by simp [hy]))]
    rfl

theorem cutSpace_tag {tag wt : Str} (h : ' ' ∉ tag) : Convert.cutSpace (tag ++ ' ' :: wt) = some (tag, wt) := by
  induction tag with
  | nil => simp [Convert.cutSpace]
  | cons c tag ih =>
    simp only [List.mem_cons, not_or] at h
    rw [List.cons_append, Convert.cutSpace, if_neg (Ne.symm h.1), ih h.2]
    rfl

end Disco.WriteGrammar
namespace Disco
open Disco.Dict Disco.Prods Disco.Escape Disco.WriteGrammar

/-- **C47** Writing a grammar as text succeeds and reading the text back gives the same grammar: every line of the rules is readable, and they are the
phrasal rules in the same order; the lexicon has exactly the lexical rules, grouped by word. Weights are what is read back from their formatted form. -/
theorem C47_roundtrip (fmt : ℚ → Str) (conv : Str → ℚ) (hfmt : ∀ q, WriteGrammar.Spec.Plain (fmt q)) (g : List (Rule × ℚ))
    (hg : ∀ x ∈ g, WriteGrammar.Spec.LexOK x.1 ∨ WriteGrammar.Spec.RuleOK x.1) :
    ∃ rules lexicon, writegrammar fmt false g = some (rules, lexicon) ∧
      (∀ f ∈ readlines rules, (Convert.Spec.rule false conv f).isSome) ∧
      Convert.Spec.rules false conv (readlines rules) = WriteGrammar.Spec.phrasal conv fmt g ∧
      (Convert.Spec.lexicon conv (readlines lexicon)).Perm (WriteGrammar.Spec.lexical conv fmt g) := by
  obtain ⟨d, h1, h2, h3⟩ := writeLoop_spec fmt false g hg [] []
  rw [List.nil_append] at h1
  have hphr : ∀ x ∈ phr g, WriteGrammar.Spec.RuleOK x.1 := by
    intro x hx
    obtain ⟨hx, hl⟩ := List.mem_filter.1 hx
    rcases hg x hx with h | h
    · rw [isLexical_of_lex h] at hl; cases hl
    · exact h
  have hrules : (phr g).flatMap (fun x => ruleLine fmt false x.1 x.2) = ((phr g).map (fun x => Str.join ['\t'] (fieldsOf fmt x))).flatMap (fun l => l ++ ['\n']) := by
    rw [List.flatMap_map]
    apply List.flatMap_congr
    intro x hx
    exact ruleLine_eq fmt (hphr x hx)
  have hread : readlines ((phr g).flatMap (fun x => ruleLine fmt false x.1 x.2)) = (phr g).map (fieldsOf fmt) := by
    rw [hrules, readlines_text, List.map_map]
    · apply List.map_congr_left
      intro x hx
      refine split_join _ (by simp [fieldsOf]) ?_
      intro f hf
      exact (fieldsOf_plain hfmt (hphr x hx) f hf).1
    · intro l hl
      obtain ⟨x, hx, rfl⟩ := List.mem_map.1 hl
      intro hc
      rcases mem_join _ hc with h | ⟨f, hf, h⟩
      · exact absurd h (by decide)
      · exact (fieldsOf_plain hfmt (hphr x hx) f hf).2 h
  -- the lexicon
  have hflat : ∀ e ∈ d, ∀ x ∈ e.2, ∃ r ∈ g, r.1 = ⟨[x.1, epsilon], .word e.1⟩ ∧ x.2 = fmt r.2 := by
    intro e he x hx
    have hm : (e.1, x) ∈ flat d := List.mem_flatMap.2 ⟨e, he, List.mem_map.2 ⟨x, hx, rfl⟩⟩
    have hm := h2.mem_iff.1 hm
    simp only [flat, List.flatMap_nil, List.nil_append, lexs, List.mem_filterMap] at hm
    obtain ⟨r, hr, hm⟩ := hm
    rcases hg r hr with h | h
    · obtain ⟨tag, word, hrr, _⟩ := h
      rw [hrr] at hm
      simp only [Option.some.injEq, Prod.ext_iff] at hm
      obtain ⟨rfl, rfl, hw⟩ := hm
      exact ⟨r, hr, hrr, hw.symm⟩
    · obtain ⟨yf, hyf, _, _, ⟨a, b, hn, _⟩ | ⟨a, b, c, hn, _⟩⟩ := h <;>
      · rw [hyf, hn] at hm
        cases hm
  have hword : ∀ e ∈ d, ∃ u, unescape e.1 = some u ∧ WriteGrammar.Spec.Plain u := by
    intro e he
    have hk : e.1 ∈ keys d := List.mem_map.2 ⟨e, he, rfl⟩
    rcases (h3 e.1).1 hk with h | ⟨x, hx, nts, hxe⟩
    · simp [keys] at h
    · rcases hg x hx with h | h
      · obtain ⟨tag, word, hr, _, _, hp, hne, hfr⟩ := h
        rw [hr] at hxe
        simp only [Rule.mk.injEq, YF.word.injEq] at hxe
        rw [← hxe.2]
        have hu : unescape word = some (replace rrb [')'] (replace lrb ['('] word)) := by rw [unescape, if_neg (by simp [hne, hfr])]
        exact ⟨_, hu, unescape_plain hu hp⟩
      · obtain ⟨yf, hyf, _⟩ := h
        rw [hxe] at hyf
        cases hyf
  have htag : ∀ e ∈ d, ∀ x ∈ e.2, WriteGrammar.Spec.Plain (x.1 ++ ' ' :: x.2) ∧ ' ' ∉ x.1 := by
    intro e he x hx
    obtain ⟨r, hr, hre, hw⟩ := hflat e he x hx
    rcases hg r hr with h | h
    · obtain ⟨tag, word, hr', h4, h5, _⟩ := h
      rw [hr'] at hre
      simp only [Rule.mk.injEq, List.cons.injEq] at hre
      rw [← hre.1.1, hw]
      have h6 := hfmt r.2
      exact ⟨⟨by simp [h4.1, h6.1], by simp [h4.2, h6.2]⟩, h5⟩
    · obtain ⟨yf, hyf, _⟩ := h
      rw [hre] at hyf
      cases hyf
  let lf : Str × List (Str × Str) → List Str := fun e => (unescape e.1).getD [] :: e.2.map (fun x => x.1 ++ ' ' :: x.2)
  have hline : ∀ e ∈ d, lexLine e = some (Str.join ['\t'] (lf e) ++ ['\n']) := by
    intro e he
    obtain ⟨u, hu, _⟩ := hword e he
    rw [lexLine, hu]
    simp only [Option.map_some, lf, hu, Option.getD_some, join_cons_flat, List.flatMap_map, List.cons_append]
  have hmap := mapM_some lexLine _ d hline
  have hplain : ∀ e ∈ d, ∀ f ∈ lf e, WriteGrammar.Spec.Plain f := by
    intro e he f hf
    rcases List.mem_cons.1 hf with rfl | hf
    · obtain ⟨u, hu, hp⟩ := hword e he
      rw [hu]; exact hp
    · obtain ⟨x, hx, rfl⟩ := List.mem_map.1 hf
      exact (htag e he x hx).1
  have hlexread : readlines (d.map (fun e => Str.join ['\t'] (lf e) ++ ['\n'])).flatten = d.map lf := by
    rw [show (d.map (fun e => Str.join ['\t'] (lf e) ++ ['\n'])).flatten = (d.map (fun e => Str.join ['\t'] (lf e))).flatMap (fun l => l ++ ['\n']) by
      rw [List.flatMap_map]; rfl, readlines_text, List.map_map]
    · apply List.map_congr_left
      intro e he
      refine split_join _ (by simp [lf]) ?_
      intro f hf
      exact (hplain e he f hf).1
    · intro l hl
      obtain ⟨e, he, rfl⟩ := List.mem_map.1 hl
      intro hc
      rcases mem_join _ hc with h | ⟨f, hf, h⟩
      · exact absurd h (by decide)
      · exact (hplain e he f hf).2 h
  refine ⟨(phr g).flatMap (fun x => ruleLine fmt false x.1 x.2), (d.map (fun e => Str.join ['\t'] (lf e) ++ ['\n'])).flatten, ?_, ?_, ?_, ?_⟩
  · rw [writegrammar, h1]
    simp only [Option.bind_eq_bind, Option.bind_some, hmap]
  · rw [hread]
    intro f hf
    obtain ⟨x, hx, rfl⟩ := List.mem_map.1 hf
    obtain ⟨n, _, hn⟩ := rule_fieldsOf fmt conv (hphr x hx)
    rw [hn]; rfl
  · rw [hread, Convert.Spec.rules, List.filterMap_map, WriteGrammar.Spec.phrasal, phr, List.filterMap_filter]
    apply List.filterMap_congr
    intro x hx
    rcases hg x hx with h | h
    · rw [isLexical_of_lex h, named_lex h]; rfl
    · obtain ⟨n, hn, hr⟩ := rule_fieldsOf fmt conv h
      rw [not_isLexical_of_rule h, hn]
      simpa using hr
  · rw [hlexread]
    let f : Str × Str × Str → (Str × Str) × ℚ := fun x => ((x.2.1, (unescape x.1).getD []), conv x.2.2)
    have e1 : Convert.Spec.lexicon conv (d.map lf) = (flat d).map f := by
      rw [Convert.Spec.lexicon, List.flatMap_map, flat, List.map_flatMap]
      apply List.flatMap_congr
      intro e he
      simp only [lf, Convert.Spec.lexRules, List.filterMap_map, List.map_map]
      rw [← List.filterMap_eq_map]
      apply List.filterMap_congr
      intro x hx
      simp only [Function.comp, cutSpace_tag (htag e he x hx).2, Option.map_some, f]
    have e2 : (lexs fmt g).map f = WriteGrammar.Spec.lexical conv fmt g := by
      rw [lexs, List.map_filterMap, WriteGrammar.Spec.lexical]
      apply List.filterMap_congr
      intro x hx
      rcases hg x hx with h | h
      · obtain ⟨tag, word, hr, _, _, hp, hne, hfr⟩ := h
        have hu : unescape word = some (replace rrb [')'] (replace lrb ['('] word)) := by rw [unescape, if_neg (by simp [hne, hfr])]
        simp only [hr, Option.map_some, f, hu, Option.getD_some]
      · obtain ⟨yf, hyf, _, _, ⟨a, b, hn, _⟩ | ⟨a, b, c, hn, _⟩⟩ := h <;> simp [hyf, hn]
    rw [e1, ← e2]
    refine (h2.map f).trans ?_
    simp [flat]

theorem WriteGrammar.incrementsOf_perm {K : Type} [DecidableEq K] {xs ys : List (K × ℚ)} (h : xs.Perm ys) (k : K) : incrementsOf k xs = incrementsOf k ys := by
  rw [incrementsOf, incrementsOf]
  exact ((h.filter _).map _).sum_eq

/-- `Grammar(tuples)` (_grammar.pxi:86-113): write as text, then read. -/
def WriteGrammar.fromTuples (fmt : ℚ → Str) (conv : Str → ℚ) (start : Str) (g : List (Rule × ℚ)) : Option Convert.Gram :=
  (writegrammar fmt false g).bind (fun p => Convert.construct false conv start (readlines p.1) (readlines p.2))

/-- **C47** A `Grammar` object made from a sequence of rules has exactly these rules: the distinct phrasal rules in order of first occurrence, with the sum
of their weights, and for every word and tag the sum of the weights of their rules. -/
theorem C47_grammar (fmt : ℚ → Str) (conv : Str → ℚ) (hfmt : ∀ q, WriteGrammar.Spec.Plain (fmt q)) {start : Str} (hs : start ≠ epsilon) (g : List (Rule × ℚ))
    (hg : ∀ x ∈ g, WriteGrammar.Spec.LexOK x.1 ∨ WriteGrammar.Spec.RuleOK x.1) {gr : Convert.Gram} (h : fromTuples fmt conv start g = some gr) :
    Convert.Spec.stored gr = addAll [] (WriteGrammar.Spec.phrasal conv fmt g) ∧
    ∀ t w, Convert.Spec.lexCount gr t w = incrementsOf (t, w) (WriteGrammar.Spec.lexical conv fmt g) := by
  obtain ⟨rules, lexicon, h1, _, h2, h3⟩ := C47_roundtrip fmt conv hfmt g hg
  rw [fromTuples, h1] at h
  have hb : Convert.build false conv start (readlines rules) (readlines lexicon) [] = some gr := by
    rw [Convert.build]
    simp only [Option.bind_some] at h
    rw [h]; rfl
  obtain ⟨a, b, _⟩ := C45_counts hs hb
  simp only [Convert.Spec.allRules, Convert.Spec.allLexicon, List.flatMap_nil, List.append_nil] at a b
  refine ⟨by rw [a, h2], ?_⟩
  intro t w
  rw [b, incrementsOf_perm h3]

/-- **C47**, disagreement with the file format: what follows the last newline is ignored without a message. -/
theorem C47_last_line_ignored (ls : List Str) (h : ∀ l ∈ ls, '\n' ∉ l) (last : Str) (hl : '\n' ∉ last) :
    readlines (ls.flatMap (fun l => l ++ ['\n']) ++ last) = readlines (ls.flatMap (fun l => l ++ ['\n'])) := by
  rw [readlines_last ls h last hl, readlines_text ls h]

namespace WriteGrammar.Ex

instance : DecidableEq (Dict Str (List (Str × Str))) := inferInstanceAs (DecidableEq (List (Str × List (Str × Str))))

/-- Digits. -/
def fmt (q : ℚ) : Str := Nat.toDigits 10 q.num.toNat

/-- A grammar with a discontinuous rule. -/
def g : List (Rule × ℚ) := [(⟨[['S'], ['V'], ['N']], .spans [[0, 1, 0]]⟩, 1), (⟨[['V'], ['N'], ['N']], .spans [[0], [1]]⟩, 2), (⟨[['N'], epsilon], .word ['a']⟩, 3),
  (⟨[['N'], epsilon], .word ['b']⟩, 1), (⟨[['N'], epsilon], .word ['a']⟩, 2)]

example : ∀ x ∈ g, WriteGrammar.Spec.LexOK x.1 ∨ WriteGrammar.Spec.RuleOK x.1 := by
  intro x hx
  simp only [g, List.mem_cons, List.not_mem_nil, or_false] at hx
  rcases hx with rfl | rfl | rfl | rfl | rfl
  · exact .inr ⟨_, rfl, ⟨by decide, by decide, by decide⟩, by simp only [WriteGrammar.Spec.Plain]; decide, .inr ⟨_, _, _, rfl, by decide +kernel, by decide +kernel⟩⟩
  · exact .inr ⟨_, rfl, ⟨by decide, by decide, by decide⟩, by simp only [WriteGrammar.Spec.Plain]; decide, .inr ⟨_, _, _, rfl, by decide +kernel, by decide +kernel⟩⟩
  · exact .inl ⟨_, _, rfl, by simp only [WriteGrammar.Spec.Plain]; decide, by decide, by simp only [WriteGrammar.Spec.Plain]; decide, by decide, by decide +kernel⟩
  · exact .inl ⟨_, _, rfl, by simp only [WriteGrammar.Spec.Plain]; decide, by decide, by simp only [WriteGrammar.Spec.Plain]; decide, by decide, by decide +kernel⟩
  · exact .inl ⟨_, _, rfl, by simp only [WriteGrammar.Spec.Plain]; decide, by decide, by simp only [WriteGrammar.Spec.Plain]; decide, by decide, by decide +kernel⟩

theorem unescape_short (c : Char) : unescape [c] = some [c] := by
  have h : [c] ≠ frontier := by
    intro h
    have := congrArg List.length h
    simp only [List.length_singleton] at this
    revert this
    decide +kernel
  rw [unescape, if_neg (by simp [h])]
  simp [replace, lrb, rrb]

theorem unescape_lrb : unescape lrb = some ['('] := by
  rw [unescape, if_neg (by decide +kernel)]
  simp [replace, lrb, rrb]

example : (fromTuples fmt Convert.Ex.conv ['S'] g).map (fun gr => (gr.rulecounts, gr.lexcounts)) = some ([1, 2], [5, 1]) := by
  have h1 : writeLoop fmt false ([], []) g = some (['S', '\t', 'V', '\t', 'N', '\t', '0', '1', '0', '\t', '1', '\n', 'V', '\t', 'N', '\t', 'N', '\t', '0', ',', '1', '\t', '2', '\n'],
    [(['a'], [(['N'], ['3']), (['N'], ['2'])]), (['b'], [(['N'], ['1'])])]) := by decide +kernel
  rw [fromTuples, writegrammar, h1]
  simp only [Option.bind_eq_bind, Option.bind_some, List.mapM_cons, List.mapM_nil, lexLine, unescape_short, Option.map_some]
  decide +kernel

end WriteGrammar.Ex

/-- **C47**, disagreement: a grammar with the words `(` and `#LRB#`, which are different, cannot be loaded: both are written as `(`, and the reader
refuses words that are listed twice. -/
theorem C47_escaped_collision : ∀ x ∈ [((⟨[['S'], ['A']], .spans [[0]]⟩ : Rule), (1 : ℚ)), (⟨[['A'], epsilon], .word ['(']⟩, 1), (⟨[['A'], epsilon], .word lrb⟩, 1)],
      (WriteGrammar.Spec.LexOK x.1 ∨ WriteGrammar.Spec.RuleOK x.1) ∧
    fromTuples WriteGrammar.Ex.fmt Convert.Ex.conv ['S'] [(⟨[['S'], ['A']], .spans [[0]]⟩, 1), (⟨[['A'], epsilon], .word ['(']⟩, 1), (⟨[['A'], epsilon], .word lrb⟩, 1)] = none := by
  have key : fromTuples WriteGrammar.Ex.fmt Convert.Ex.conv ['S'] [(⟨[['S'], ['A']], .spans [[0]]⟩, 1), (⟨[['A'], epsilon], .word ['(']⟩, 1), (⟨[['A'], epsilon], .word lrb⟩, 1)] = none := by
    have hw : writegrammar WriteGrammar.Ex.fmt false [(⟨[['S'], ['A']], .spans [[0]]⟩, 1), (⟨[['A'], epsilon], .word ['(']⟩, 1), (⟨[['A'], epsilon], .word lrb⟩, 1)] =
        some (['S', '\t', 'A', '\t', '0', '\t', '1', '\n'], ['(', '\t', 'A', ' ', '1', '\n', '(', '\t', 'A', ' ', '1', '\n']) := by
      have h1 : writeLoop WriteGrammar.Ex.fmt false ([], []) [(⟨[['S'], ['A']], .spans [[0]]⟩, 1), (⟨[['A'], epsilon], .word ['(']⟩, 1), (⟨[['A'], epsilon], .word lrb⟩, 1)] =
          some (['S', '\t', 'A', '\t', '0', '\t', '1', '\n'], [(['('], [(['A'], ['1'])]), (lrb, [(['A'], ['1'])])]) := by decide +kernel
      rw [writegrammar, h1]
      simp [lexLine, Ex.unescape_short, Ex.unescape_lrb]
    rw [fromTuples, hw, Option.bind_some]
    decide +kernel
  intro x hx
  refine ⟨?_, key⟩
  simp only [List.mem_cons, List.not_mem_nil, or_false] at hx
  rcases hx with rfl | rfl | rfl
  · exact .inr ⟨_, rfl, ⟨by decide, by decide, by decide⟩, by simp only [WriteGrammar.Spec.Plain]; decide, .inl ⟨_, _, rfl, by decide, by decide +kernel⟩⟩
  · exact .inl ⟨_, _, rfl, by simp only [WriteGrammar.Spec.Plain]; decide, by decide, by simp only [WriteGrammar.Spec.Plain]; decide, by decide, by decide +kernel⟩
  · exact .inl ⟨_, _, rfl, by simp only [WriteGrammar.Spec.Plain]; decide, by decide, by simp only [WriteGrammar.Spec.Plain]; decide, by decide, by decide +kernel⟩

end Disco
