import Verif.Basic.StrLemmas
/-!
# C39: escaping of brackets

`discodop/tree.py:1976-1985` (`escape`, `unescape`).
-/
namespace Disco.Escape

/-- `text.replace(pat, rep)` for a non-empty pattern: leftmost, non-overlapping occurrences. -/
def replace (pat rep : Str) : Str → Str
  | [] => []
  | c :: s => if pat.isPrefixOf (c :: s) then rep ++ replace pat rep (s.drop (pat.length - 1)) else c :: replace pat rep s
termination_by s => s.length
decreasing_by all_goals (simp; try omega)

def lrb : Str := ['#', 'L', 'R', 'B', '#']
def rrb : Str := ['#', 'R', 'R', 'B', '#']
def frontier : Str := "#FRONTIER#".toList

/-- `escape` (tree.py:1976-1979). -/
def escape : Option Str → Str
  | none => []
  | some text => replace [')'] rrb (replace ['('] lrb text)

/-- `unescape` (tree.py:1982-1985). -/
def unescape (text : Str) : Option Str :=
  if text = [] ∨ text = frontier then none
  else some (replace rrb [')'] (replace lrb ['('] text))

/-! ### Lemmas -/

theorem replace_nil (pat rep : Str) : replace pat rep [] = [] := by rw [replace]

theorem replace_hit (pat rep s : Str) (h : pat ≠ []) : replace pat rep (pat ++ s) = rep ++ replace pat rep s := by
  cases pat with
  | nil => exact absurd rfl h
  | cons c pat =>
    rw [List.cons_append, replace]
    have : (c :: pat).isPrefixOf (c :: (pat ++ s)) = true := by
      rw [List.isPrefixOf_iff_prefix]
      exact ⟨s, by simp⟩
    rw [if_pos this]
    simp

theorem replace_miss (pat rep : Str) (c : Char) (s : Str) (h : ¬ pat <+: c :: s) :
    replace pat rep (c :: s) = c :: replace pat rep s := by
  rw [replace, if_neg]
  rwa [List.isPrefixOf_iff_prefix]

theorem replace_char (a : Char) (rep s : Str) :
    replace [a] rep s = s.flatMap (fun c => if c = a then rep else [c]) := by
  induction s with
  | nil => simp [replace_nil]
  | cons c s ih =>
    by_cases h : c = a
    · subst h
      have := replace_hit [c] rep s (by simp)
      simp only [List.singleton_append] at this
      rw [this, ih]; simp
    · rw [replace_miss, ih]
      · simp [h]
      · rintro ⟨t, ht⟩
        simp at ht
        exact h ht.1.symm

/-- Both brackets escaped. -/
def esc2 (c : Char) : Str := if c = '(' then lrb else if c = ')' then rrb else [c]
/-- Closing bracket escaped. -/
def esc1 (c : Char) : Str := if c = ')' then rrb else [c]

theorem escape_some (w : Str) : escape (some w) = w.flatMap esc2 := by
  rw [escape, replace_char, replace_char, List.flatMap_assoc]
  congr 1
  funext c
  by_cases h : c = '('
  · subst h; simp [esc2, lrb]
  · by_cases h2 : c = ')'
    · subst h2; simp [esc2]
    · simp [esc2, h, h2]

theorem prefix_esc {f : Char → Str} (hf : ∀ c, f c = [c] ∨ ∃ s, f c = '#' :: s) :
    ∀ (p w s : Str), '#' ∉ p → w.flatMap f = p ++ '#' :: s → p <+: w := by
  intro p
  induction p with
  | nil => intro w s _ _; simp
  | cons x p ih =>
    intro w s hp h
    cases w with
    | nil => simp at h
    | cons c w =>
      rw [List.flatMap_cons] at h
      rcases hf c with hc | ⟨t, hc⟩
      · rw [hc] at h
        simp at h
        obtain ⟨rfl, h⟩ := h
        exact List.cons_prefix_cons.2 ⟨rfl, ih w s (by simp at hp; exact hp.2) h⟩
      · rw [hc] at h
        simp at h
        simp at hp
        exact absurd h.1 hp.1

theorem esc2_shape (c : Char) : esc2 c = [c] ∨ ∃ s, esc2 c = '#' :: s := by
  unfold esc2 lrb rrb
  split
  · exact Or.inr ⟨_, rfl⟩
  · split
    · exact Or.inr ⟨_, rfl⟩
    · exact Or.inl rfl

theorem esc1_shape (c : Char) : esc1 c = [c] ∨ ∃ s, esc1 c = '#' :: s := by
  unfold esc1 rrb
  split
  · exact Or.inr ⟨_, rfl⟩
  · exact Or.inl rfl

theorem not_infix_tail {p : Str} {c : Char} {w : Str} (h : ¬ p <:+: c :: w) : ¬ p <:+: w :=
  fun h2 => h (List.infix_cons_iff.2 (Or.inr h2))

theorem unescape_first (w : Str) (h1 : ¬ "#LRB".toList <:+: w) (h2 : ¬ ")LRB".toList <:+: w) :
    replace lrb ['('] (w.flatMap esc2) = w.flatMap esc1 := by
  induction w with
  | nil => simp [replace_nil]
  | cons c w ih =>
    have ih := ih (not_infix_tail h1) (not_infix_tail h2)
    rw [List.flatMap_cons, List.flatMap_cons]
    by_cases hc : c = '('
    · subst hc
      rw [show esc2 '(' = lrb from rfl, replace_hit _ _ _ (by simp [lrb]), ih]
      rfl
    · by_cases hc2 : c = ')'
      · subst hc2
        rw [show esc2 ')' = ['#','R','R','B','#'] from rfl, show esc1 ')' = ['#','R','R','B','#'] from rfl]
        simp only [List.cons_append, List.nil_append]
        rw [replace_miss _ _ _ _ (by rintro ⟨t, ht⟩; simp [lrb] at ht),
          replace_miss _ _ _ _ (by rintro ⟨t, ht⟩; simp [lrb] at ht),
          replace_miss _ _ _ _ (by rintro ⟨t, ht⟩; simp [lrb] at ht),
          replace_miss _ _ _ _ (by rintro ⟨t, ht⟩; simp [lrb] at ht),
          replace_miss, ih]
        rintro ⟨t, ht⟩
        simp [lrb] at ht
        have := prefix_esc esc2_shape ['L','R','B'] w t (by decide) ht.symm
        exact h2 (List.infix_cons_iff.2 (Or.inl (List.cons_prefix_cons.2 ⟨rfl, this⟩)))
      · have e2 : esc2 c = [c] := by simp [esc2, hc, hc2]
        have e1 : esc1 c = [c] := by simp [esc1, hc2]
        rw [e1, e2, List.singleton_append, List.singleton_append, replace_miss, ih]
        rintro ⟨t, ht⟩
        simp [lrb] at ht
        obtain ⟨rfl, ht⟩ := ht
        have := prefix_esc esc2_shape ['L','R','B'] w t (by decide) ht.symm
        exact h1 (List.infix_cons_iff.2 (Or.inl (List.cons_prefix_cons.2 ⟨rfl, this⟩)))

theorem unescape_second (w : Str) (h : ¬ "#RRB".toList <:+: w) : replace rrb [')'] (w.flatMap esc1) = w := by
  induction w with
  | nil => simp [replace_nil]
  | cons c w ih =>
    have ih := ih (not_infix_tail h)
    rw [List.flatMap_cons]
    by_cases hc2 : c = ')'
    · subst hc2
      rw [show esc1 ')' = rrb from rfl, replace_hit _ _ _ (by simp [rrb]), ih]
      rfl
    · have e1 : esc1 c = [c] := by simp [esc1, hc2]
      rw [e1, List.singleton_append, replace_miss, ih]
      rintro ⟨t, ht⟩
      simp [rrb] at ht
      obtain ⟨rfl, ht⟩ := ht
      have := prefix_esc esc1_shape ['R','R','B'] w t (by decide) ht.symm
      exact h (List.infix_cons_iff.2 (Or.inl (List.cons_prefix_cons.2 ⟨rfl, this⟩)))

/-! ### Properties -/

/-- Words whose escaped form can be read back: not the reserved words, and no beginning of an escape sequence. -/
def Spec.Escapable (w : Str) : Prop :=
  w ≠ [] ∧ w ≠ frontier ∧ ¬ "#LRB".toList <:+: w ∧ ¬ ")LRB".toList <:+: w ∧ ¬ "#RRB".toList <:+: w

/-- **C39.** `unescape(escape(w)) == w` for every word without (beginnings of) escape sequences. -/
theorem C39_unescape_escape (w : Str) (h : Spec.Escapable w) : unescape (escape (some w)) = some w := by
  obtain ⟨h1, h2, h3, h4, h5⟩ := h
  have e := escape_some w
  have hne : ¬ (escape (some w) = [] ∨ escape (some w) = frontier) := by
    rw [e]
    rintro (h | h)
    · cases w with
      | nil => exact h1 rfl
      | cons c w =>
        rw [List.flatMap_cons, List.append_eq_nil_iff] at h
        rcases esc2_shape c with hc | ⟨s, hc⟩ <;> simp [hc] at h
    · -- no bracket in `w`, otherwise the escaped form contains more than two `#`
      have hfr : frontier = ['#','F','R','O','N','T','I','E','R','#'] := by decide +kernel
      have hkey : ∀ (p v : Str), '#' ∉ p → v.flatMap esc2 = p ++ ['#'] → v = p ++ ['#'] := by
        intro p
        induction p with
        | nil =>
          intro v _ hv
          cases v with
          | nil => simp at hv
          | cons c v =>
            rw [List.flatMap_cons] at hv
            rcases esc2_shape c with hc | ⟨s, hc⟩
            · rw [hc] at hv
              simp at hv
              obtain ⟨rfl, hv⟩ := hv
              cases v with
              | nil => rfl
              | cons d v => have := hv d (by simp); rcases esc2_shape d with hd | ⟨s, hd⟩ <;> simp [hd] at this
            · rw [hc] at hv
              simp at hv
              unfold esc2 lrb rrb at hc
              split at hc
              · simp at hc; simp [← hc] at hv
              · split at hc
                · simp at hc; simp [← hc] at hv
                · simp at hc
                  obtain ⟨rfl, rfl⟩ := hc
                  cases v with
                  | nil => rfl
                  | cons d v => have := hv.2 d (by simp); rcases esc2_shape d with hd | ⟨s, hd⟩ <;> simp [hd] at this
        | cons x p ih =>
          intro v hp hv
          cases v with
          | nil => simp at hv
          | cons c v =>
            rw [List.flatMap_cons] at hv
            simp at hp
            rcases esc2_shape c with hc | ⟨s, hc⟩
            · rw [hc] at hv
              simp at hv
              obtain ⟨rfl, hv⟩ := hv
              rw [ih v hp.2 hv]; rfl
            · rw [hc] at hv
              simp at hv
              exact absurd hv.1 hp.1
      cases w with
      | nil => exact h1 rfl
      | cons c w =>
        rw [hfr, List.flatMap_cons] at h
        have hc : esc2 c = [c] := by
          rcases esc2_shape c with hc | ⟨s, hc⟩
          · exact hc
          · exfalso
            unfold esc2 lrb rrb at hc h
            split at hc
            · rename_i hcc; simp [hcc] at h
            · split at hc
              · rename_i _ hcc; simp [hcc] at h
              · rename_i h3 h4
                simp [h3, h4] at h hc
                exact h2 (by
                  have := hkey ['F','R','O','N','T','I','E','R'] w (by decide) h.2
                  rw [this, hfr, h.1]; rfl)
        rw [hc] at h
        simp at h
        obtain ⟨rfl, h⟩ := h
        have := hkey ['F','R','O','N','T','I','E','R'] w (by decide) h
        exact h2 (by rw [this, hfr]; rfl)
  rw [unescape, if_neg hne, e, unescape_first w h3 h4, unescape_second w h5]

/-- **C39.** `None` round-trips (through the empty string). -/
theorem C39_none : unescape (escape none) = none := by simp [escape, unescape]

/-- **C39.** The escaped form of any word contains no parenthesis. -/
theorem C39_no_paren (w : Option Str) : '(' ∉ escape w ∧ ')' ∉ escape w := by
  cases w with
  | none => simp [escape]
  | some w =>
    rw [escape_some]
    constructor <;>
    · intro h
      obtain ⟨c, _, hc⟩ := List.mem_flatMap.1 h
      unfold esc2 lrb rrb at hc
      split at hc
      · simp at hc
      · split at hc
        · simp at hc
        · rename_i h1 h2
          simp only [List.mem_singleton] at hc
          first | exact h1 hc.symm | exact h2 hc.symm

theorem escape_eq_nil {w : Option Str} (h : escape w = []) : w = none ∨ w = some [] := by
  cases w with
  | none => exact Or.inl rfl
  | some w =>
    right
    rw [escape_some] at h
    cases w with
    | nil => rfl
    | cons c w =>
      rw [List.flatMap_cons, List.append_eq_nil_iff] at h
      rcases esc2_shape c with hc | ⟨s, hc⟩ <;> simp [hc] at h

/-- The characters of the escaped form are those of the word and of the escape sequences. -/
theorem mem_escape {w : Str} {c : Char} (h : c ∈ escape (some w)) : c ∈ w ∨ c ∈ lrb ∨ c ∈ rrb := by
  rw [escape_some] at h
  obtain ⟨d, hd, hc⟩ := List.mem_flatMap.1 h
  unfold esc2 at hc
  split at hc
  · exact Or.inr (Or.inl hc)
  · split at hc
    · exact Or.inr (Or.inr hc)
    · simp at hc; subst hc; exact Or.inl hd

/-- **C39 (disagreement).** A word that contains no escape sequence but is not restored: `)LRB(`. -/
theorem C39_overlap_not_restored :
    ¬ lrb <:+: [')','L','R','B','('] ∧ ¬ rrb <:+: [')','L','R','B','('] ∧
    unescape (escape (some [')','L','R','B','('])) = some ['#','R','R','B','(','L','R','B','#'] := by
  refine ⟨(Str.find_eq_none_iff _ _).1 (by decide +kernel), (Str.find_eq_none_iff _ _).1 (by decide +kernel), ?_⟩
  rw [escape_some, show [')','L','R','B','('].flatMap esc2 =
    ['#','R','R','B','#','L','R','B','#','L','R','B','#'] by decide +kernel, unescape, if_neg (by decide +kernel)]
  congr 1
  rw [show replace lrb ['('] ['#','R','R','B','#','L','R','B','#','L','R','B','#'] =
    ['#','R','R','B','(','L','R','B','#'] by simp [replace, lrb]]
  simp [replace, rrb]

/-- The empty word comes back as `None`. -/
theorem C39_empty_word : unescape (escape (some [])) = none := by
  simp only [escape, replace_nil]; simp [unescape]

example : Spec.Escapable "f(x)#R)".toList := by
  exact ⟨by decide +kernel, by decide +kernel, (Str.find_eq_none_iff _ _).1 (by decide +kernel),
    (Str.find_eq_none_iff _ _).1 (by decide +kernel), (Str.find_eq_none_iff _ _).1 (by decide +kernel)⟩

end Disco.Escape
