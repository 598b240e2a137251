import Verif.Basic.Str
/-! Lemmas on the string primitives. -/
namespace Disco

theorem Str.find_isSome_iff (p s : Str) : (Str.find p s).isSome ↔ p <:+: s := by
  induction s with
  | nil =>
    simp only [Str.find]
    cases p <;> simp
  | cons c s ih =>
    simp only [Str.find]
    split
    · rename_i h
      simp only [Option.isSome_some, true_iff]
      exact (List.isPrefixOf_iff_prefix.1 h).isInfix
    · rename_i h
      rw [List.infix_cons_iff]
      simp only [Option.isSome_map, ih]
      constructor
      · exact fun h => Or.inr h
      · rintro (h1 | h1)
        · exact absurd (List.isPrefixOf_iff_prefix.2 h1) h
        · exact h1

theorem Str.find_eq_none_iff (p s : Str) : Str.find p s = none ↔ ¬ p <:+: s := by
  rw [← Str.find_isSome_iff]; cases Str.find p s <;> simp

theorem infix_append_iff_cut {p a b : Str} (h : p <:+: a ++ b) :
    p <:+: a ∨ p <:+: b ∨ ∃ p1 p2, p = p1 ++ p2 ∧ p1 ≠ [] ∧ p2 ≠ [] ∧ p1 <:+ a ∧ p2 <+: b := by
  obtain ⟨s, t, h⟩ := h
  rw [List.append_assoc] at h
  rcases List.append_eq_append_iff.1 h with ⟨a', ha, hb⟩ | ⟨c', hs, hb⟩
  · -- a = s ++ a', p ++ t = a' ++ b
    rcases List.append_eq_append_iff.1 hb with ⟨x, hx, hy⟩ | ⟨x, hx, hy⟩
    · left; exact ⟨s, x, by simp [ha, hx]⟩
    · by_cases h1 : a' = []
      · right; left; exact ⟨[], t, by simp [hx, hy, h1]⟩
      · by_cases h2 : x = []
        · left; exact ⟨s, [], by simp [ha, hx, h2]⟩
        · right; right
          exact ⟨a', x, hx, h1, h2, ⟨s, ha.symm⟩, ⟨t, hy.symm⟩⟩
  · right; left; exact ⟨c', t, by simp [hb]⟩

/-- An infix of `a ++ c :: b` that does not contain `c` lies in `a` or in `b`. -/
theorem infix_append_cons {p a b : Str} {c : Char} (hc : c ∉ p) (h : p <:+: a ++ c :: b) :
    p <:+: a ∨ p <:+: b := by
  rcases infix_append_iff_cut h with h | h | ⟨p1, p2, rfl, _, h2, _, h4⟩
  · exact Or.inl h
  · rcases List.infix_cons_iff.1 h with h | h
    · cases p with
      | nil => exact Or.inl List.nil_infix
      | cons x p =>
        obtain ⟨t, ht⟩ := h
        simp at ht
        simp [ht.1] at hc
    · exact Or.inr h
  · cases p2 with
    | nil => exact absurd rfl h2
    | cons x p =>
      obtain ⟨t, ht⟩ := h4
      simp at ht
      simp [ht.1] at hc

theorem Str.find_take_append {q a b : Str} (hq : '<' ∉ q)
    (ha : Str.find (q ++ ['<']) a = none) :
    Str.find (q ++ ['<']) (a ++ (q ++ ['<']) ++ b) = some a.length := by
  induction a with
  | nil =>
    cases q with
    | nil => simp [Str.find, List.isPrefixOf]
    | cons x q =>
      simp only [List.nil_append, List.cons_append, Str.find]
      rw [if_pos]
      · rfl
      · rw [List.isPrefixOf_iff_prefix]
        exact ⟨b, by simp⟩
  | cons c a ih =>
    have hni := (Str.find_eq_none_iff _ _).1 ha
    simp only [Str.find] at ha
    have hnp : ¬ (q ++ ['<']).isPrefixOf (c :: a) := by
      intro h; rw [if_pos h] at ha; simp at ha
    rw [if_neg hnp] at ha
    have ha' : Str.find (q ++ ['<']) a = none := by simpa using ha
    simp only [List.cons_append, Str.find]
    rw [if_neg, ih ha']
    · simp
    · rw [List.isPrefixOf_iff_prefix]
      intro hp
      -- a prefix of length |q|+1 ending in '<' and starting inside `c :: a`
      have hp' : (q ++ ['<']) <+: (c :: a) ++ ((q ++ ['<']) ++ b) := by simpa using hp
      obtain ⟨t, ht⟩ := hp'
      rcases List.append_eq_append_iff.1 ht with ⟨x, hx, hy⟩ | ⟨x, hx, hy⟩
      · exact hni ⟨[], x, by simp [hx]⟩
      · -- q ++ ['<'] = (c :: a) ++ x, x ++ t = q ++ '<' ++ b … x is a proper suffix and a prefix
        have hxne : x ≠ [] := by
          rintro rfl
          exact hni ⟨[], [], by simpa using hx⟩
        obtain ⟨x', z, rfl⟩ : ∃ x' z, x = x' ++ [z] :=
          ⟨x.dropLast, x.getLast hxne, (List.dropLast_concat_getLast hxne).symm⟩
        have hx2 : q ++ ['<'] = (c :: a ++ x') ++ [z] := by simpa using hx
        have hz := List.append_inj_right' hx2 rfl
        have hq' := List.append_inj_left' hx2 rfl
        simp at hz
        subst hz
        -- x' ++ '<' :: t = q ++ '<' :: b with x' shorter than q, so '<' ∈ q
        have hlen : x'.length < q.length := by
          have := congrArg List.length hq'
          simp at this; omega
        have h4 : q ++ ('<' :: b) = x' ++ ('<' :: t) := by simpa using hy
        have : (q ++ ('<' :: b))[x'.length]? = some '<' := by rw [h4]; simp
        rw [List.getElem?_append_left hlen] at this
        exact hq (List.mem_of_getElem? this)

theorem Str.splitAll_ne_nil (c : Char) (s : Str) : Str.splitAll c s ≠ [] := by
  cases s with
  | nil => simp [Str.splitAll]
  | cons x s =>
    simp only [Str.splitAll]
    split
    · simp
    · split <;> simp

theorem Str.splitAll_of_not_mem {c : Char} {s : Str} (h : c ∉ s) : Str.splitAll c s = [s] := by
  induction s with
  | nil => rfl
  | cons x s ih =>
    simp at h
    simp only [Str.splitAll, if_neg (Ne.symm h.1), ih h.2]

theorem Str.splitAll_append_cons {c : Char} {a b : Str} (h : c ∉ a) :
    Str.splitAll c (a ++ c :: b) = a :: Str.splitAll c b := by
  induction a with
  | nil => simp [Str.splitAll]
  | cons x a ih =>
    simp at h
    simp only [List.cons_append, Str.splitAll, if_neg (Ne.symm h.1), ih h.2]

end Disco
