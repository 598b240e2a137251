import Verif.Format.Escape
/-!
# C90: brackets in the Penn treebank style

`discodop/tree.py:1988-2017` (`ptbescape`, `ptbunescape`).
-/
namespace Disco.PtbEscape
open Escape (replace lrb rrb frontier replace_nil replace_hit replace_miss replace_char not_infix_tail)

/-! ## Model -/

def LRB : Str := ['-', 'L', 'R', 'B', '-']
def RRB : Str := ['-', 'R', 'R', 'B', '-']
def LCB : Str := ['-', 'L', 'C', 'B', '-']
def RCB : Str := ['-', 'R', 'C', 'B', '-']
def LSB : Str := ['-', 'L', 'S', 'B', '-']
def RSB : Str := ['-', 'R', 'S', 'B', '-']
def slash : Str := ['\\', '/']

/-- `ptbescape(token)` (tree.py:1988-2001). -/
def ptbescape : Option Str → Str
  | none => []
  | some t =>
    if t = ['{'] then LCB
    else if t = ['}'] then RCB
    else if t = ['['] then LSB
    else if t = [']'] then RSB
    else replace ['/'] slash (replace [')'] RRB (replace ['('] LRB t))

/-- `ptbunescape(token)` (tree.py:2004-2017), for a string. -/
def ptbunescape (t : Str) : Option Str :=
  if t = [] ∨ t = frontier then none
  else if t = LCB then some ['{']
  else if t = RCB then some ['}']
  else if t = LSB then some ['[']
  else if t = RSB then some [']']
  else some (replace slash ['/'] (replace rrb [')'] (replace lrb ['('] (replace RRB [')'] (replace LRB ['('] t)))))

/-! ## Specification -/

/-- Words that are not written like an escaped one. -/
structure Spec.Escapable (t : Str) : Prop where
  ne : t ≠ []
  reserved : t ∉ [frontier, LCB, RCB, LSB, RSB]
  left : ¬ ['L', 'R', 'B'] <:+: t
  right : ¬ ['R', 'R', 'B'] <:+: t

/-! ## Lemmas -/

/-- One character: all, all but the opening bracket, only the slash. -/
def esc (c : Char) : Str := if c = '(' then LRB else if c = ')' then RRB else if c = '/' then slash else [c]
def esc1 (c : Char) : Str := if c = ')' then RRB else if c = '/' then slash else [c]
def esc2 (c : Char) : Str := if c = '/' then slash else [c]

theorem body_eq (t : Str) : replace ['/'] slash (replace [')'] RRB (replace ['('] LRB t)) = t.flatMap esc := by
  rw [replace_char, replace_char, replace_char, List.flatMap_assoc, List.flatMap_assoc]
  congr 1
  funext c
  by_cases h : c = '('
  · subst h; simp [esc, LRB]
  · by_cases h2 : c = ')'
    · subst h2; simp [esc, RRB]
    · simp [esc, h, h2]

/-- The image of a character is the character or starts with `-` or a backslash. -/
def Shape (f : Char → Str) : Prop := ∀ c, f c = [c] ∨ ∃ s, f c = '-' :: s ∨ f c = '\\' :: s

theorem shape_esc : Shape esc := by
  intro c
  unfold esc
  split
  · exact .inr ⟨_, .inl rfl⟩
  · split
    · exact .inr ⟨_, .inl rfl⟩
    · split
      · exact .inr ⟨_, .inr rfl⟩
      · exact .inl rfl

theorem shape_esc1 : Shape esc1 := by
  intro c
  unfold esc1
  split
  · exact .inr ⟨_, .inl rfl⟩
  · split
    · exact .inr ⟨_, .inr rfl⟩
    · exact .inl rfl

theorem shape_esc2 : Shape esc2 := by
  intro c
  unfold esc2
  split
  · exact .inr ⟨_, .inr rfl⟩
  · exact .inl rfl

theorem prefix_shape {f : Char → Str} (hf : Shape f) : ∀ (p w s : Str), '-' ∉ p → '\\' ∉ p → w.flatMap f = p ++ s → p <+: w := by
  intro p
  induction p with
  | nil => intro w s _ _ _; simp
  | cons x p ih =>
    intro w s hp hp2 h
    cases w with
    | nil => simp at h
    | cons c w =>
      simp only [List.mem_cons, not_or] at hp hp2
      rw [List.flatMap_cons] at h
      rcases hf c with hc | ⟨t, hc | hc⟩
      · rw [hc] at h
        simp only [List.cons_append, List.nil_append, List.cons.injEq] at h
        obtain ⟨rfl, h⟩ := h
        exact List.cons_prefix_cons.2 ⟨rfl, ih w s hp.2 hp2.2 h⟩
      · rw [hc] at h
        simp only [List.cons_append, List.cons.injEq] at h
        exact absurd h.1 hp.1
      · rw [hc] at h
        simp only [List.cons_append, List.cons.injEq] at h
        exact absurd h.1 hp2.1

/-- A word part `p` that does not occur in `w` does not start the image. -/
theorem no_prefix {f : Char → Str} (hf : Shape f) {p w : Str} (h1 : '-' ∉ p) (h2 : '\\' ∉ p) (h : ¬ p <:+: w) (s : Str) : w.flatMap f ≠ p ++ s :=
  fun e => h (prefix_shape hf p w s h1 h2 e).isInfix

theorem step1 (w : Str) (h : ¬ ['L', 'R', 'B'] <:+: w) : replace LRB ['('] (w.flatMap esc) = w.flatMap esc1 := by
  induction w with
  | nil => simp [replace_nil]
  | cons c w ih =>
    have hw := not_infix_tail h
    have ih := ih hw
    have hn := no_prefix shape_esc (by decide) (by decide) hw
    rw [List.flatMap_cons, List.flatMap_cons]
    by_cases hc : c = '('
    · subst hc
      rw [show esc '(' = LRB from rfl, replace_hit _ _ _ (by simp [LRB]), ih]
      rfl
    · have miss : ∀ x, replace LRB ['('] (x :: w.flatMap esc) = x :: replace LRB ['('] (w.flatMap esc) := by
        intro x
        refine replace_miss _ _ _ _ ?_
        rintro ⟨t, ht⟩
        simp only [LRB, List.cons_append, List.nil_append, List.cons.injEq] at ht
        exact hn ('-' :: t) ht.2.symm
      by_cases hc2 : c = ')'
      · subst hc2
        rw [show esc ')' = ['-','R','R','B','-'] from rfl, show esc1 ')' = ['-','R','R','B','-'] from rfl]
        simp only [List.cons_append, List.nil_append]
        rw [replace_miss _ _ _ _ (by rintro ⟨t, ht⟩; simp [LRB] at ht), replace_miss _ _ _ _ (by rintro ⟨t, ht⟩; simp [LRB] at ht),
          replace_miss _ _ _ _ (by rintro ⟨t, ht⟩; simp [LRB] at ht), replace_miss _ _ _ _ (by rintro ⟨t, ht⟩; simp [LRB] at ht), miss, ih]
      · by_cases hc3 : c = '/'
        · subst hc3
          rw [show esc '/' = ['\\', '/'] from rfl, show esc1 '/' = ['\\', '/'] from rfl]
          simp only [List.cons_append, List.nil_append]
          rw [replace_miss _ _ _ _ (by rintro ⟨t, ht⟩; simp [LRB] at ht), miss, ih]
        · rw [show esc c = [c] by simp [esc, hc, hc2, hc3], show esc1 c = [c] by simp [esc1, hc2, hc3]]
          simp only [List.cons_append, List.nil_append]
          rw [miss, ih]

theorem step2 (w : Str) (h : ¬ ['R', 'R', 'B'] <:+: w) : replace RRB [')'] (w.flatMap esc1) = w.flatMap esc2 := by
  induction w with
  | nil => simp [replace_nil]
  | cons c w ih =>
    have hw := not_infix_tail h
    have ih := ih hw
    have hn := no_prefix shape_esc1 (by decide) (by decide) hw
    rw [List.flatMap_cons, List.flatMap_cons]
    by_cases hc : c = ')'
    · subst hc
      rw [show esc1 ')' = RRB from rfl, replace_hit _ _ _ (by simp [RRB]), ih]
      rfl
    · have miss : ∀ x, replace RRB [')'] (x :: w.flatMap esc1) = x :: replace RRB [')'] (w.flatMap esc1) := by
        intro x
        refine replace_miss _ _ _ _ ?_
        rintro ⟨t, ht⟩
        simp only [RRB, List.cons_append, List.nil_append, List.cons.injEq] at ht
        exact hn ('-' :: t) ht.2.symm
      by_cases hc3 : c = '/'
      · subst hc3
        rw [show esc1 '/' = ['\\', '/'] from rfl, show esc2 '/' = ['\\', '/'] from rfl]
        simp only [List.cons_append, List.nil_append]
        rw [replace_miss _ _ _ _ (by rintro ⟨t, ht⟩; simp [RRB] at ht), miss, ih]
      · rw [show esc1 c = [c] by simp [esc1, hc, hc3], show esc2 c = [c] by simp [esc2, hc3]]
        simp only [List.cons_append, List.nil_append]
        rw [miss, ih]

theorem step3 (x : Char) (p : Str) (hp1 : '-' ∉ p) (hp2 : '\\' ∉ p) (r : Str) (w : Str) (h : ¬ p <:+: w) :
    replace ('#' :: (p ++ [x])) r (w.flatMap esc2) = w.flatMap esc2 := by
  induction w with
  | nil => simp [replace_nil]
  | cons c w ih =>
    have hw := not_infix_tail h
    have ih := ih hw
    have hn := no_prefix shape_esc2 hp1 hp2 hw
    have miss : ∀ y, replace ('#' :: (p ++ [x])) r (y :: w.flatMap esc2) = y :: replace ('#' :: (p ++ [x])) r (w.flatMap esc2) := by
      intro y
      refine replace_miss _ _ _ _ ?_
      rintro ⟨t, ht⟩
      simp only [List.cons_append, List.append_assoc, List.nil_append, List.cons.injEq] at ht
      exact hn (x :: t) ht.2.symm
    rw [List.flatMap_cons]
    by_cases hc : c = '/'
    · subst hc
      rw [show esc2 '/' = ['\\', '/'] from rfl]
      simp only [List.cons_append, List.nil_append]
      rw [replace_miss _ _ _ _ (by rintro ⟨t, ht⟩; simp at ht), miss, ih]
    · rw [show esc2 c = [c] by simp [esc2, hc]]
      simp only [List.cons_append, List.nil_append]
      rw [miss, ih]

theorem step4 (w : Str) : replace slash ['/'] (w.flatMap esc2) = w := by
  induction w with
  | nil => simp [replace_nil]
  | cons c w ih =>
    rw [List.flatMap_cons]
    by_cases hc : c = '/'
    · subst hc
      rw [show esc2 '/' = slash from rfl, replace_hit _ _ _ (by simp [slash]), ih]
      rfl
    · rw [show esc2 c = [c] by simp [esc2, hc]]
      simp only [List.cons_append, List.nil_append]
      rw [replace_miss, ih]
      rintro ⟨t, ht⟩
      simp only [slash, List.cons_append, List.nil_append, List.cons.injEq] at ht
      obtain ⟨-, ht⟩ := ht
      cases w with
      | nil => simp at ht
      | cons d w =>
        rw [List.flatMap_cons] at ht
        by_cases hd : d = '/'
        · subst hd; simp [esc2, slash] at ht
        · rw [show esc2 d = [d] by simp [esc2, hd]] at ht
          simp only [List.cons_append, List.nil_append, List.cons.injEq] at ht
          exact hd ht.1.symm

/-- Without special characters nothing changes. -/
theorem esc_id {w : Str} (h : ∀ c ∈ w, c ≠ '(' ∧ c ≠ ')' ∧ c ≠ '/') : w.flatMap esc = w := by
  induction w with
  | nil => rfl
  | cons c w ih =>
    obtain ⟨h1, h2, h3⟩ := h c (by simp)
    rw [List.flatMap_cons, ih (fun d hd => h d (by simp [hd]))]
    simp [esc, h1, h2, h3]

theorem mem_esc {w : Str} {c : Char} (h : c ∈ w.flatMap esc) : c ≠ '(' ∧ c ≠ ')' := by
  obtain ⟨d, -, hc⟩ := List.mem_flatMap.1 h
  unfold esc LRB RRB slash at hc
  split at hc
  · simp only [List.mem_cons, List.not_mem_nil, or_false] at hc
    rcases hc with rfl | rfl | rfl | rfl | rfl <;> decide
  · split at hc
    · simp only [List.mem_cons, List.not_mem_nil, or_false] at hc
      rcases hc with rfl | rfl | rfl | rfl | rfl <;> decide
    · split at hc
      · simp at hc; rcases hc with rfl | rfl <;> decide
      · rename_i h1 h2 h3
        simp only [List.mem_singleton] at hc
        subst hc
        exact ⟨h1, h2⟩

/-- A word with a special character becomes one with an escape sequence. -/
theorem esc_special {w : Str} (h : ∃ c ∈ w, c = '(' ∨ c = ')' ∨ c = '/') :
    LRB <:+: w.flatMap esc ∨ RRB <:+: w.flatMap esc ∨ slash <:+: w.flatMap esc := by
  obtain ⟨c, hc, h⟩ := h
  obtain ⟨u, v, rfl⟩ := List.append_of_mem hc
  rw [List.flatMap_append, List.flatMap_cons]
  rcases h with rfl | rfl | rfl
  · exact .inl ⟨u.flatMap esc, v.flatMap esc, by simp [esc]⟩
  · exact .inr (.inl ⟨u.flatMap esc, v.flatMap esc, by simp [esc]⟩)
  · exact .inr (.inr ⟨u.flatMap esc, v.flatMap esc, by simp [esc]⟩)

theorem escape_body {w : Str} (h : w ∉ [['{'], ['}'], ['['], [']']]) : ptbescape (some w) = w.flatMap esc := by
  simp only [List.mem_cons, List.not_mem_nil, or_false, not_or] at h
  rw [ptbescape, if_neg h.1, if_neg h.2.1, if_neg h.2.2.1, if_neg h.2.2.2, body_eq]

theorem not_infix_of_find {p w : Str} (h : Str.find p w = none) : ¬ p <:+: w := (Str.find_eq_none_iff _ _).1 h

theorem short_plain : ∀ r ∈ [[], frontier, LCB, RCB, LSB, RSB, ['{'], ['}'], ['['], [']']], ¬ LRB <:+: r ∧ ¬ RRB <:+: r ∧ ¬ slash <:+: r := by
  intro r hr
  simp only [List.mem_cons, List.not_mem_nil, or_false] at hr
  rcases hr with rfl | rfl | rfl | rfl | rfl | rfl | rfl | rfl | rfl | rfl <;>
    refine ⟨not_infix_of_find ?_, not_infix_of_find ?_, not_infix_of_find ?_⟩ <;> decide +kernel

/-- The image of a word is short only when it is the word. -/
theorem esc_short {w r : Str} (hr : r ∈ [[], frontier, LCB, RCB, LSB, RSB, ['{'], ['}'], ['['], [']']]) (h : w.flatMap esc = r) : w = r := by
  by_cases hs : ∃ c ∈ w, c = '(' ∨ c = ')' ∨ c = '/'
  · have := esc_special hs
    rw [h] at this
    obtain ⟨h1, h2, h3⟩ := short_plain r hr
    rcases this with g | g | g
    · exact absurd g h1
    · exact absurd g h2
    · exact absurd g h3
  · rw [← h, esc_id]
    intro c hc
    refine ⟨?_, ?_, ?_⟩ <;> intro e <;> exact hs ⟨c, hc, by simp [e]⟩

theorem esc_length (w : Str) : w.length ≤ (w.flatMap esc).length := by
  induction w with
  | nil => simp
  | cons c w ih =>
    rw [List.flatMap_cons, List.length_append, List.length_cons]
    have : 1 ≤ (esc c).length := by
      unfold esc; split
      · decide
      · split
        · decide
        · split
          · decide
          · simp
    omega

/-! ## Theorems -/

/-- **C90.** `ptbunescape(ptbescape(token)) == token` for every word that does not look like an escaped one. -/
theorem C90_round (t : Str) (h : Spec.Escapable t) : ptbunescape (ptbescape (some t)) = some t := by
  by_cases hs : t ∈ [['{'], ['}'], ['['], [']']]
  · simp only [List.mem_cons, List.not_mem_nil, or_false] at hs
    rcases hs with rfl | rfl | rfl | rfl <;> decide +kernel
  · have hne : ∀ r ∈ [[], frontier, LCB, RCB, LSB, RSB], t.flatMap esc ≠ r := by
      intro r hr e
      have := esc_short (List.mem_append_left [['{'], ['}'], ['['], [']']] hr) e
      subst this
      rw [List.mem_cons] at hr
      rcases hr with hr | hr
      · exact h.ne hr
      · exact h.reserved hr
    rw [escape_body hs, ptbunescape, if_neg, if_neg (hne LCB (by simp)), if_neg (hne RCB (by simp)), if_neg (hne LSB (by simp)), if_neg (hne RSB (by simp)),
      step1 t h.left, step2 t h.right]
    · have e1 := step3 '#' ['L', 'R', 'B'] (by decide) (by decide) ['('] t h.left
      have e2 := step3 '#' ['R', 'R', 'B'] (by decide) (by decide) [')'] t h.right
      rw [show lrb = '#' :: (['L', 'R', 'B'] ++ ['#']) from rfl, e1, show rrb = '#' :: (['R', 'R', 'B'] ++ ['#']) from rfl, e2, step4]
    · rintro (e | e)
      · exact hne [] (by simp) e
      · exact hne frontier (by simp) e

/-- **C90.** `None` comes back. -/
theorem C90_none : ptbunescape (ptbescape none) = none := rfl

/-- **C90.** An escaped word has no parentheses, and is no bracket. -/
theorem C90_no_brackets (t : Option Str) : '(' ∉ ptbescape t ∧ ')' ∉ ptbescape t ∧ ptbescape t ∉ [['{'], ['}'], ['['], [']']] := by
  cases t with
  | none => decide
  | some t =>
    by_cases hs : t ∈ [['{'], ['}'], ['['], [']']]
    · simp only [List.mem_cons, List.not_mem_nil, or_false] at hs
      rcases hs with rfl | rfl | rfl | rfl <;> decide +kernel
    · rw [escape_body hs]
      refine ⟨fun h => (mem_esc h).1 rfl, fun h => (mem_esc h).2 rfl, fun h => ?_⟩
      have := esc_short (w := t) (r := t.flatMap esc) (List.mem_append_right [[], frontier, LCB, RCB, LSB, RSB] h) rfl
      rw [← this] at h
      exact hs h

theorem mem_slash {t : Str} : '/' ∈ t.flatMap esc ↔ '/' ∈ t := by
  rw [List.mem_flatMap]
  constructor
  · rintro ⟨c, hc, h⟩
    unfold esc at h
    split at h
    · exact absurd h (by decide)
    · split at h
      · exact absurd h (by decide)
      · split at h
        · rename_i e; exact e ▸ hc
        · rw [List.mem_singleton] at h; exact h ▸ hc
  · intro h
    exact ⟨'/', h, by decide⟩

/-- **C90 (disagreement).** Escaping an escaped word again changes it if and only if it has a slash, which gets another backslash: words of a treebank
that is in this notation already do not stay the same. -/
theorem C90_again (t : Str) : ptbescape (some (ptbescape (some t))) = ptbescape (some t) ↔ '/' ∉ t := by
  rw [escape_body (C90_no_brackets (some t)).2.2]
  by_cases hs : t ∈ [['{'], ['}'], ['['], [']']]
  · simp only [List.mem_cons, List.not_mem_nil, or_false] at hs
    rcases hs with rfl | rfl | rfl | rfl <;> decide +kernel
  · rw [escape_body hs]
    constructor
    · intro e h
      obtain ⟨u, v, huv⟩ := List.append_of_mem (mem_slash.2 h)
      rw [huv, List.flatMap_append, List.flatMap_cons] at e
      have := congrArg List.length e
      have h1 := esc_length u
      have h2 := esc_length v
      have h3 : (esc '/').length = 2 := by decide
      simp only [List.length_append, List.length_cons, h3] at this
      omega
    · intro h
      refine esc_id (fun c hc => ⟨(mem_esc hc).1, (mem_esc hc).2, ?_⟩)
      rintro rfl
      exact h (mem_slash.1 hc)

/-- **C90 (disagreement).** Different words have the same escaped form: a bracket and a word that is written like the escaped bracket; and a word without any
escape sequence is not restored. -/
theorem C90_collision : ptbescape (some ['(']) = ptbescape (some LRB) ∧ ptbescape (some ['{']) = ptbescape (some LCB) ∧
    ¬ LRB <:+: ")LRB-".toList ∧ ¬ RRB <:+: ")LRB-".toList ∧ ptbunescape (ptbescape (some ")LRB-".toList)) = some "-RRB(".toList := by
  refine ⟨?_, by decide +kernel, not_infix_of_find (by decide +kernel), not_infix_of_find (by decide +kernel), ?_⟩
  · rw [escape_body (by decide), escape_body (by decide)]; rfl
  · rw [escape_body (by decide +kernel), show ")LRB-".toList.flatMap esc = "-RRB-LRB-".toList by decide +kernel]
    decide +kernel

/-! ## Examples -/

example : Spec.Escapable "f(x)/2".toList ∧ ptbescape (some "f(x)/2".toList) = "f-LRB-x-RRB-\\/2".toList ∧ Spec.Escapable ['{'] := by
  refine ⟨⟨by decide +kernel, by decide +kernel, not_infix_of_find (by decide +kernel), not_infix_of_find (by decide +kernel)⟩, ?_,
    by decide, by decide +kernel, not_infix_of_find (by decide +kernel), not_infix_of_find (by decide +kernel)⟩
  rw [escape_body (by decide +kernel)]
  decide +kernel

end Disco.PtbEscape
