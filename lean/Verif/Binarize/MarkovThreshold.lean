import Verif.Binarize.Lemmas
/-!
# C91: reducing the Markov order of rare labels

`markovthreshold` (discodop/treetransforms.py:453-480) with `MARKOVRE` (29): `^(.*)\|<(.*;)?(.*)>(\^<.*>)?(.*)?$`.

Simplifications: labels have no newlines; `horzmarkov` and `vertmarkov` are not negative. The message is left out.
-/
namespace Disco.Markov
open Binarize PTree

/-! ## Model -/

/-- The ways in which `(.*)` can match a prefix, in the order in which they are tried, with the rest of the string. -/
def cuts : Str → List (Str × Str)
  | [] => [([], [])]
  | c :: s => (cuts s).map (fun x => (c :: x.1, x.2)) ++ [([], c :: s)]

/-- The rest of the string after this text. -/
def after (p s : Str) : Option Str := if p.isPrefixOf s then some (s.drop p.length) else none

def mark : Str := ['|', '<']

/-- The groups of a match. -/
structure Match where
  g1 : Str
  g2 : Option Str
  g3 : Str
  g4 : Option Str
  g5 : Str

/-- The expression from group 4 on. -/
def tail4 (g1 : Str) (g2 : Option Str) (g3 t : Str) : Option Match :=
  ((after ['^', '<'] t).bind fun u => (cuts u).findSome? fun z => (after ['>'] z.2).map fun g5 => ⟨g1, g2, g3, some ('^' :: '<' :: (z.1 ++ ['>'])), g5⟩).or
    (some ⟨g1, g2, g3, none, t⟩)

/-- The expression from group 3 on. -/
def tail3 (g1 : Str) (g2 : Option Str) (r : Str) : Option Match :=
  (cuts r).findSome? fun y => (after ['>'] y.2).bind fun t => tail4 g1 g2 y.1 t

/-- `MARKOVRE.match(label)` (treetransforms.py:29): the first match in the order of backtracking. -/
def markovre (l : Str) : Option Match :=
  (cuts l).findSome? fun x => (after mark x.2).bind fun r =>
    ((cuts r).findSome? fun w => (after [';'] w.2).bind fun r' => tail3 x.1 (some (w.1 ++ [';'])) r').or (tail3 x.1 none r)

/-- The new label (treetransforms.py:461-471). -/
def reduce (h v : Nat) (l : Str) : Option Str :=
  (markovre l).map fun m =>
    m.g1 ++ mark ++ (m.g2.getD []) ++ Str.join [','] ((Str.splitAll ',' m.g3).take h) ++ [',', '>'] ++
      (match m.g4 with
       | some g => '^' :: '<' :: (Str.join [','] ((Str.splitAll ',' g).take v) ++ ['>'])
       | none => []) ++ m.g5

/-- The labels of all constituents. -/
def labels (trees : List HTree) : List Str := (subtreesL trees).filterMap fun s => s.label?.map Prod.fst

/-- `newlabels` (treetransforms.py:455-471). -/
def newlabels (trees : List HTree) (n h v : Nat) : List (Str × Str) :=
  (((labels trees).filter fun l => (markovre l).isSome).eraseDups.filter fun l => decide ((labels trees).count l < n)).filterMap fun l => (reduce h v l).map fun l' => (l, l')

/-- `newlabels[label]`, or the label (treetransforms.py:472-474). -/
def relabel (new : List (Str × Str)) (l : HLab) : HLab := (((new.find? fun x => decide (x.1 = l.1)).map Prod.snd).getD l.1, l.2)

/-- `markovthreshold(trees, n, horzmarkov, vertmarkov)` (treetransforms.py:453-480): the trees afterwards. -/
def markovthreshold (trees : List HTree) (n h v : Nat) : List HTree := trees.map (mapLabel (relabel (newlabels trees n h v)))

/-! ## Specification -/

/-- The part up to the last separator, and the part after it. -/
def Spec.headPart (u : Str) : Str := if ';' ∈ u then (u.reverse.dropWhile (· ≠ ';')).reverse else []
def Spec.sisters (u : Str) : Str := (u.reverse.takeWhile (· ≠ ';')).reverse

/-- The label is artificial. -/
def Spec.Artificial (l : Str) : Prop := mark <:+: l

/-! ## Lemmas -/

theorem after_some {p s t : Str} : after p s = some t ↔ s = p ++ t := by
  unfold after
  split
  · rename_i h
    rw [List.isPrefixOf_iff_prefix] at h
    obtain ⟨r, rfl⟩ := h
    simp
  · rename_i h
    constructor
    · simp
    · rintro rfl
      exact absurd (by rw [List.isPrefixOf_iff_prefix]; exact ⟨t, rfl⟩) h

theorem cuts_mem {s : Str} {x : Str × Str} (h : x ∈ cuts s) : s = x.1 ++ x.2 := by
  induction s generalizing x with
  | nil => simp [cuts] at h; subst h; rfl
  | cons c s ih =>
    rw [cuts, List.mem_append, List.mem_map] at h
    rcases h with ⟨y, hy, rfl⟩ | h
    · rw [ih hy]; rfl
    · rw [List.mem_singleton] at h; subst h; rfl

/-- The first cut at which something is found is the last place where it can be found. -/
theorem cuts_find {α : Type} (g : Str × Str → Option α) (a b : Str) (hb : ∀ u v, b = u ++ v → u ≠ [] → g (a ++ u, v) = none) (hg : (g (a, b)).isSome) :
    (cuts (a ++ b)).findSome? g = g (a, b) := by
  induction a generalizing g with
  | nil =>
    cases b with
    | nil => simp only [List.nil_append, cuts, List.findSome?_cons, List.findSome?_nil]; cases h : g ([], []) <;> simp_all
    | cons c s =>
      rw [List.nil_append, cuts, List.findSome?_append]
      have : ((cuts s).map (fun x => (c :: x.1, x.2))).findSome? g = none := by
        rw [List.findSome?_eq_none_iff]
        intro x hx
        obtain ⟨y, hy, rfl⟩ := List.mem_map.1 hx
        exact hb (c :: y.1) y.2 (by rw [List.cons_append, ← cuts_mem hy]) (by simp)
      rw [this, Option.none_or]
      simp only [List.findSome?_cons, List.findSome?_nil]
      cases h : g ([], c :: s) <;> simp_all
  | cons c a ih =>
    rw [List.cons_append, cuts, List.findSome?_append, List.findSome?_map]
    have := ih (fun x => g (c :: x.1, x.2)) (fun u v e hu => by simpa using hb u v e hu) hg
    simp only [Function.comp_def]
    rw [this]
    cases h : g (c :: a, b) with
    | none => rw [h] at hg; simp at hg
    | some x => rfl

theorem cuts_none {α : Type} (g : Str × Str → Option α) (s : Str) (h : ∀ u v, s = u ++ v → g (u, v) = none) : (cuts s).findSome? g = none := by
  rw [List.findSome?_eq_none_iff]
  intro x hx
  exact h x.1 x.2 (cuts_mem hx)

theorem last_split {c : Char} {s : Str} (h : c ∈ s) : ∃ a b, s = a ++ c :: b ∧ c ∉ b := by
  induction s with
  | nil => simp at h
  | cons d s ih =>
    by_cases hs : c ∈ s
    · obtain ⟨a, b, e, hb⟩ := ih hs
      exact ⟨d :: a, b, by rw [e]; rfl, hb⟩
    · rw [List.mem_cons] at h
      rcases h with rfl | h
      · exact ⟨[], s, rfl, hs⟩
      · exact absurd h hs

/-- After the last `>` there is no parent annotation. -/
theorem tail4_eq {t : Str} (h : '>' ∉ t) (g1 : Str) (g2 : Option Str) (g3 : Str) : tail4 g1 g2 g3 t = some ⟨g1, g2, g3, none, t⟩ := by
  unfold tail4
  suffices hs : ((after ['^', '<'] t).bind fun u => (cuts u).findSome? fun z => (after ['>'] z.2).map fun g5 =>
      (⟨g1, g2, g3, some ('^' :: '<' :: (z.1 ++ ['>'])), g5⟩ : Match)) = none by rw [hs]; rfl
  cases h1 : after ['^', '<'] t with
  | none => rfl
  | some u =>
    rw [Option.bind_some]
    apply cuts_none
    intro a b e
    cases h2 : after ['>'] b with
    | none => rfl
    | some r =>
      rw [after_some] at h1 h2
      rw [e, h2] at h1
      exact absurd (by rw [h1]; simp) h

theorem tail4_some (g1 : Str) (g2 : Option Str) (g3 t : Str) : (tail4 g1 g2 g3 t).isSome := by
  unfold tail4
  simp

theorem tail3_eq (g1 : Str) (g2 : Option Str) (u s : Str) (h : '>' ∉ s) : tail3 g1 g2 (u ++ '>' :: s) = some ⟨g1, g2, u, none, s⟩ := by
  unfold tail3
  rw [cuts_find]
  · simp only
    rw [show after ['>'] ('>' :: s) = some s from after_some.2 rfl, Option.bind_some, tail4_eq h]
  · intro a b e ha
    cases a with
    | nil => exact absurd rfl ha
    | cons c a =>
      simp only [List.cons_append, List.cons.injEq] at e
      cases h2 : after ['>'] b with
      | none => rfl
      | some r =>
        rw [after_some] at h2
        exact absurd (by rw [e.2, h2]; simp) h
  · simp only
    rw [show after ['>'] ('>' :: s) = some s from after_some.2 rfl, Option.bind_some]
    exact tail4_some _ _ _ _

theorem tail3_none (g1 : Str) (g2 : Option Str) {r : Str} (h : '>' ∉ r) : tail3 g1 g2 r = none := by
  unfold tail3
  apply cuts_none
  intro a b e
  cases h2 : after ['>'] b with
  | none => rfl
  | some t =>
    rw [after_some] at h2
    exact absurd (by rw [e, h2]; simp) h

/-- Groups 2 and 3. -/
def split2 (u : Str) : Option Str × Str := if ';' ∈ u then (some (Spec.headPart u), Spec.sisters u) else (none, u)

theorem parts {a b : Str} (h : ';' ∉ b) : Spec.headPart (a ++ ';' :: b) = a ++ [';'] ∧ Spec.sisters (a ++ ';' :: b) = b := by
  have hr : (a ++ ';' :: b).reverse = b.reverse ++ ';' :: a.reverse := by simp
  have hb : ∀ x ∈ b.reverse, decide (x ≠ ';') = true := by
    intro x hx
    rw [List.mem_reverse] at hx
    simp only [ne_eq, decide_not, Bool.not_eq_eq_eq_not, Bool.not_true, decide_eq_false_iff_not]
    rintro rfl
    exact h hx
  constructor
  · rw [Spec.headPart, if_pos (by simp), hr, List.dropWhile_append_of_pos hb]
    simp
  · rw [Spec.sisters, hr, List.takeWhile_append_of_pos hb]
    simp

theorem parts_none {u : Str} (h : ';' ∉ u) : Spec.headPart u = [] ∧ Spec.sisters u = u := by
  refine ⟨by rw [Spec.headPart, if_neg h], ?_⟩
  suffices hs : List.takeWhile (fun x => decide (x ≠ ';')) u.reverse = u.reverse by rw [Spec.sisters, hs, List.reverse_reverse]
  have := List.takeWhile_append_of_pos (p := fun x => decide (x ≠ ';')) (l₁ := u.reverse) (l₂ := []) ?_
  · simpa using this
  intro x hx
  rw [List.mem_reverse] at hx
  simp only [ne_eq, decide_not, Bool.not_eq_eq_eq_not, Bool.not_true, decide_eq_false_iff_not]
  rintro rfl
  exact h hx

/-- The expression after the mark. -/
def tail2 (g1 r : Str) : Option Match :=
  ((cuts r).findSome? fun w => (after [';'] w.2).bind fun r' => tail3 g1 (some (w.1 ++ [';'])) r').or (tail3 g1 none r)

theorem tail2_none (g1 : Str) {r : Str} (h : '>' ∉ r) : tail2 g1 r = none := by
  unfold tail2
  rw [tail3_none _ _ h, Option.or_none]
  apply cuts_none
  intro a b e
  cases h2 : after [';'] b with
  | none => rfl
  | some t =>
    rw [after_some] at h2
    exact tail3_none _ _ (fun ht => h (by rw [e, h2]; simp [ht]))

theorem tail2_eq (g1 u s : Str) (h : '>' ∉ s) : tail2 g1 (u ++ '>' :: s) = some ⟨g1, (split2 u).1, (split2 u).2, none, s⟩ := by
  unfold tail2
  by_cases hu : ';' ∈ u
  · obtain ⟨a, b, rfl, hb⟩ := last_split hu
    obtain ⟨p1, p2⟩ := parts (a := a) hb
    rw [split2, if_pos hu, p1, p2]
    have key := cuts_find (fun w => (after [';'] w.2).bind fun r' => tail3 g1 (some (w.1 ++ [';'])) r') a (';' :: (b ++ '>' :: s)) ?_ ?_
    · rw [show a ++ ';' :: b ++ '>' :: s = a ++ (';' :: (b ++ '>' :: s)) by simp, key]
      simp only
      rw [show after [';'] (';' :: (b ++ '>' :: s)) = some (b ++ '>' :: s) from after_some.2 rfl, Option.bind_some, tail3_eq _ _ _ _ h]
      rfl
    · intro x y e hx
      simp only
      cases h2 : after [';'] y with
      | none => rfl
      | some t =>
        rw [after_some] at h2
        rw [Option.bind_some]
        apply tail3_none
        cases x with
        | nil => exact absurd rfl hx
        | cons c x =>
          simp only [List.cons_append, List.cons.injEq] at e
          have e := e.2
          rw [h2] at e
          intro ht
          obtain ⟨t1, t2, rfl⟩ := List.append_of_mem ht
          rw [List.append_eq_append_iff] at e
          rcases e with ⟨w, e1, e2⟩ | ⟨w, e1, e2⟩
          · cases w with
            | nil => simp at e2
            | cons d w =>
              simp only [List.cons_append, List.cons.injEq] at e2
              exact h (by rw [e2.2]; simp)
          · cases w with
            | nil => simp at e2
            | cons d w =>
              simp only [List.cons_append, List.nil_append, List.cons.injEq] at e2
              exact hb (by rw [e1, ← e2.1]; simp)
    · simp only
      rw [show after [';'] (';' :: (b ++ '>' :: s)) = some (b ++ '>' :: s) from after_some.2 rfl, Option.bind_some, tail3_eq _ _ _ _ h]
      rfl
  · rw [split2, if_neg hu, tail3_eq _ _ _ _ h]
    rw [cuts_none, Option.none_or]
    intro a b e
    simp only
    cases h2 : after [';'] b with
    | none => rfl
    | some t =>
      rw [after_some] at h2
      rw [Option.bind_some]
      apply tail3_none
      rw [h2] at e
      intro ht
      obtain ⟨t1, t2, rfl⟩ := List.append_of_mem ht
      rw [List.append_eq_append_iff] at e
      rcases e with ⟨w, e1, e2⟩ | ⟨w, e1, e2⟩
      · cases w with
        | nil => simp at e2
        | cons d w =>
          simp only [List.cons_append, List.cons.injEq] at e2
          exact h (by rw [e2.2]; simp)
      · cases w with
        | nil => simp at e2
        | cons d w =>
          simp only [List.cons_append, List.nil_append, List.cons.injEq] at e2
          exact hu (by rw [e1, ← e2.1]; simp)

theorem markovre_eq' (l : Str) : markovre l = (cuts l).findSome? fun x => (after mark x.2).bind fun r => tail2 x.1 r := rfl

theorem markovre_eq (g1 u s : Str) (hs : '>' ∉ s) (hu : ¬ mark <:+: u) :
    markovre (g1 ++ mark ++ u ++ '>' :: s) = some ⟨g1, (split2 u).1, (split2 u).2, none, s⟩ := by
  have hval : ((after mark (mark ++ (u ++ '>' :: s))).bind fun r => tail2 g1 r) = some ⟨g1, (split2 u).1, (split2 u).2, none, s⟩ := by
    rw [show after mark (mark ++ (u ++ '>' :: s)) = some (u ++ '>' :: s) from after_some.2 rfl, Option.bind_some, tail2_eq _ _ _ hs]
  rw [markovre_eq', show g1 ++ mark ++ u ++ '>' :: s = g1 ++ (mark ++ (u ++ '>' :: s)) by simp, cuts_find]
  · exact hval
  · intro x v e hx
    simp only
    cases h2 : after mark v with
    | none => rfl
    | some r =>
      rw [Option.bind_some]
      apply tail2_none
      rw [after_some] at h2
      subst h2
      intro ht
      cases x with
      | nil => exact absurd rfl hx
      | cons c x =>
        simp only [mark, List.cons_append, List.nil_append, List.cons.injEq] at e
        obtain ⟨-, e⟩ := e
        cases x with
        | nil => simp at e
        | cons d x =>
          simp only [List.cons_append, List.cons.injEq] at e
          obtain ⟨-, e⟩ := e
          obtain ⟨t1, t2, rfl⟩ := List.append_of_mem ht
          rw [List.append_eq_append_iff] at e
          rcases e with ⟨w, e1, e2⟩ | ⟨w, e1, e2⟩
          · cases w with
            | nil => simp at e2
            | cons k w =>
              simp only [List.cons_append, List.cons.injEq] at e2
              exact hs (by rw [e2.2]; simp)
          · cases w with
            | nil => simp at e2
            | cons k w =>
              simp only [List.cons_append, List.cons.injEq] at e2
              cases w with
              | nil => simp at e2
              | cons k' w =>
                simp only [List.cons_append, List.cons.injEq] at e2
                exact hu ⟨x, w, by rw [e1, ← e2.1, ← e2.2.1]; simp [mark]⟩
  · simp only
    rw [hval]
    rfl

theorem last_mark {s : Str} (h : mark <:+: s) : ∃ a b, s = a ++ mark ++ b ∧ ¬ mark <:+: b := by
  induction s with
  | nil =>
    have := h.length_le
    simp [mark] at this
  | cons c s ih =>
    by_cases hs : mark <:+: s
    · obtain ⟨a, b, e, hb⟩ := ih hs
      exact ⟨c :: a, b, by rw [e]; rfl, hb⟩
    · rw [List.infix_cons_iff] at h
      rcases h with h | h
      · obtain ⟨t, ht⟩ := h
        refine ⟨[], t, by rw [← ht]; rfl, fun hm => hs ?_⟩
        simp only [mark, List.cons_append, List.nil_append, List.cons.injEq] at ht
        rw [← ht.2]
        exact hm.trans (List.suffix_cons '<' t).isInfix
      · exact absurd h hs

theorem markovre_none {l : Str} (h : ∀ a b c, l ≠ a ++ mark ++ b ++ '>' :: c) : markovre l = none := by
  rw [markovre_eq']
  apply cuts_none
  intro a b e
  simp only
  cases h2 : after mark b with
  | none => rfl
  | some r =>
    rw [Option.bind_some]
    apply tail2_none
    rw [after_some] at h2
    intro ht
    obtain ⟨t1, t2, rfl⟩ := List.append_of_mem ht
    exact h a t1 t2 (by rw [e, h2]; simp)

theorem decompose {l a b c : Str} (h : l = a ++ mark ++ b ++ '>' :: c) : ∃ g u s, l = g ++ mark ++ u ++ '>' :: s ∧ '>' ∉ s ∧ ¬ mark <:+: u := by
  obtain ⟨x, s, e, hs⟩ := last_split (s := b ++ '>' :: c) (c := '>') (by simp)
  have hm : mark <:+: a ++ mark ++ x := ⟨a, x, rfl⟩
  obtain ⟨g, u, e2, hu⟩ := last_mark hm
  refine ⟨g, u, s, ?_, hs, hu⟩
  rw [h, ← e2, List.append_assoc, List.append_assoc, List.append_assoc, e]
  simp

theorem reduce_eq (h v : Nat) (g u s : Str) (hs : '>' ∉ s) (hu : ¬ mark <:+: u) :
    reduce h v (g ++ mark ++ u ++ '>' :: s) = some (g ++ mark ++ Spec.headPart u ++ Str.join [','] ((Str.splitAll ',' (Spec.sisters u)).take h) ++ [',', '>'] ++ s) := by
  rw [reduce, markovre_eq _ _ _ hs hu, Option.map_some]
  by_cases hc : ';' ∈ u
  · simp [split2, hc]
  · obtain ⟨p1, p2⟩ := parts_none hc
    simp [split2, hc, p1, p2]

theorem reduce_vert (h v v' : Nat) (l : Str) : reduce h v l = reduce h v' l := by
  by_cases hl : ∃ a b c, l = a ++ mark ++ b ++ '>' :: c
  · obtain ⟨a, b, c, e⟩ := hl
    obtain ⟨g, u, s, rfl, hs, hu⟩ := decompose e
    rw [reduce_eq _ _ _ _ _ hs hu, reduce_eq _ _ _ _ _ hs hu]
  · have hl : ∀ a b c, l ≠ a ++ mark ++ b ++ '>' :: c := fun a b c e => hl ⟨a, b, c, e⟩
    rw [reduce, reduce, markovre_none hl]
    rfl

theorem reduce_artificial {h v : Nat} {l l' : Str} (e : reduce h v l = some l') : Spec.Artificial l ∧ Spec.Artificial l' := by
  by_cases hl : ∃ a b c, l = a ++ mark ++ b ++ '>' :: c
  · obtain ⟨a, b, c, e2⟩ := hl
    obtain ⟨g, u, s, rfl, hs, hu⟩ := decompose e2
    rw [reduce_eq _ _ _ _ _ hs hu, Option.some.injEq] at e
    subst e
    exact ⟨⟨g, u ++ '>' :: s, by simp⟩, g, _, by simp only [List.append_assoc]; rfl⟩
  · have hl : ∀ a b c, l ≠ a ++ mark ++ b ++ '>' :: c := fun a b c e => hl ⟨a, b, c, e⟩
    rw [reduce, markovre_none hl] at e
    simp at e

theorem mem_newlabels {trees : List HTree} {n h v : Nat} {x : Str × Str} : x ∈ newlabels trees n h v ↔
    x.1 ∈ labels trees ∧ (labels trees).count x.1 < n ∧ reduce h v x.1 = some x.2 := by
  unfold newlabels
  simp only [List.mem_filterMap, List.mem_filter, List.mem_eraseDups, decide_eq_true_eq, Option.map_eq_some_iff]
  constructor
  · rintro ⟨l, ⟨⟨h1, -⟩, h2⟩, l', h3, rfl⟩
    exact ⟨h1, h2, h3⟩
  · rintro ⟨h1, h2, h3⟩
    refine ⟨x.1, ⟨⟨h1, ?_⟩, h2⟩, x.2, h3, rfl⟩
    cases hm : markovre x.1 with
    | none => rw [reduce, hm] at h3; simp at h3
    | some m => rfl

theorem relabel_eq (trees : List HTree) (n h v : Nat) {l : HLab} (hl : l.1 ∈ labels trees) :
    relabel (newlabels trees n h v) l = (if (labels trees).count l.1 < n then (reduce h v l.1).getD l.1 else l.1, l.2) := by
  unfold relabel
  cases hf : (newlabels trees n h v).find? fun x => decide (x.1 = l.1) with
  | none =>
    rw [List.find?_eq_none] at hf
    simp only [Option.map_none, Option.getD_none]
    by_cases hc : (labels trees).count l.1 < n
    · rw [if_pos hc]
      cases hr : reduce h v l.1 with
      | none => rfl
      | some l' =>
        have := hf (l.1, l') (mem_newlabels.2 ⟨hl, hc, hr⟩)
        simp at this
    · rw [if_neg hc]
  | some x =>
    have h1 := List.find?_some hf
    have h2 := mem_newlabels.1 (List.mem_of_find?_eq_some hf)
    simp only [decide_eq_true_eq] at h1
    rw [h1] at h2
    simp only [Option.map_some, Option.getD_some]
    rw [if_pos h2.2.1, h2.2.2]
    rfl

theorem relabel_plain (trees : List HTree) (n h v : Nat) {l : HLab} (hl : ¬ Spec.Artificial l.1) : relabel (newlabels trees n h v) l = l := by
  unfold relabel
  cases hf : (newlabels trees n h v).find? fun x => decide (x.1 = l.1) with
  | none => rfl
  | some x =>
    have h1 := List.find?_some hf
    have h2 := mem_newlabels.1 (List.mem_of_find?_eq_some hf)
    simp only [decide_eq_true_eq] at h1
    rw [h1] at h2
    exact absurd (reduce_artificial h2.2.2).1 hl

theorem relabel_art (trees : List HTree) (n h v : Nat) {l : HLab} (hl : Spec.Artificial l.1) : Spec.Artificial (relabel (newlabels trees n h v) l).1 := by
  unfold relabel
  cases hf : (newlabels trees n h v).find? fun x => decide (x.1 = l.1) with
  | none => exact hl
  | some x => exact (reduce_artificial (mem_newlabels.1 (List.mem_of_find?_eq_some hf)).2.2).2

mutual
theorem unbin_map {f : HLab → HLab} (h1 : ∀ l, ¬ Spec.Artificial l.1 → f l = l) (h2 : ∀ l, Spec.Artificial l.1 → Spec.Artificial (f l).1) (pc : Str) (u : Option Char) :
    ∀ t : HTree, unbinChild mark pc u (mapLabel f t) = unbinChild mark pc u t
  | .leaf i => by simp
  | .node l cs => by
    rw [mapLabel_node, mapLabelL_eq]
    have ih := unbin_mapL h1 h2 pc u cs
    by_cases hl : mark <:+: l.1
    · rw [show f l = ((f l).1, (f l).2) from rfl, unbinChild_art (h2 l hl), ih]
      rw [show l = (l.1, l.2) from rfl, unbinChild_art hl]
    · rw [h1 l hl]
      obtain ⟨a, b⟩ := l
      rw [unbinChild, unbinChild, ih]
theorem unbin_mapL {f : HLab → HLab} (h1 : ∀ l, ¬ Spec.Artificial l.1 → f l = l) (h2 : ∀ l, Spec.Artificial l.1 → Spec.Artificial (f l).1) (pc : Str) (u : Option Char) :
    ∀ ts : List HTree, unbinList mark pc u (ts.map (mapLabel f)) = unbinList mark pc u ts
  | [] => rfl
  | t :: ts => by
    rw [List.map_cons, unbinList_cons, unbinList_cons, unbin_map h1 h2 pc u t, unbin_mapL h1 h2 pc u ts]
end

/-! ## Theorems -/

/-- **C91.** Every constituent is relabelled by its label only: labels with fewer than `n` constituents in all trees, and of the form of a Markov label, are
reduced; other labels, and the structure of the trees, stay. -/
theorem C91_relabel (trees : List HTree) (n h v : Nat) :
    ∃ f : HLab → HLab, markovthreshold trees n h v = trees.map (mapLabel f) ∧
      ∀ l : HLab, l.1 ∈ labels trees → f l = (if (labels trees).count l.1 < n then (reduce h v l.1).getD l.1 else l.1, l.2) :=
  ⟨_, rfl, fun _ hl => relabel_eq trees n h v hl⟩

/-- **C91.** The reduced label: with the last `|<` before the last `>`, the label before it, the head before the last `;`, and what follows the last `>` (such as
the fan-out) are kept; of the sisters in between, separated by commas, the first `horzmarkov` are kept. A label without `|<` before a `>` is not reduced. -/
theorem C91_reduce (h v : Nat) :
    (∀ g u s : Str, '>' ∉ s → ¬ ['|', '<'] <:+: u → reduce h v (g ++ ['|', '<'] ++ u ++ '>' :: s) =
      some (g ++ ['|', '<'] ++ Spec.headPart u ++ Str.join [','] ((Str.splitAll ',' (Spec.sisters u)).take h) ++ [',', '>'] ++ s)) ∧
    (∀ l : Str, (reduce h v l).isSome ↔ ∃ g u s, l = g ++ ['|', '<'] ++ u ++ '>' :: s ∧ '>' ∉ s ∧ ¬ ['|', '<'] <:+: u) := by
  refine ⟨fun g u s hs hu => reduce_eq h v g u s hs hu, fun l => ⟨fun hl => ?_, ?_⟩⟩
  · by_cases hd : ∃ a b c, l = a ++ mark ++ b ++ '>' :: c
    · obtain ⟨a, b, c, e⟩ := hd
      exact decompose e
    · have hd : ∀ a b c, l ≠ a ++ mark ++ b ++ '>' :: c := fun a b c e => hd ⟨a, b, c, e⟩
      rw [reduce, markovre_none hd] at hl
      simp at hl
  · rintro ⟨g, u, s, rfl, hs, hu⟩
    have := reduce_eq h v g u s hs hu
    rw [mark] at this
    rw [this]
    rfl

/-- **C91.** Reducing the Markov order does not change the trees after unbinarization. -/
theorem C91_unbinarize (trees : List HTree) (n h v : Nat) (u : Option Char) (hr : ∀ t ∈ trees, ∀ l, t.label? = some l → ¬ ['|', '<'] <:+: l.1) :
    (markovthreshold trees n h v).map (unbinarize ['|'] ['^'] u) = trees.map (unbinarize ['|'] ['^'] u) := by
  rw [markovthreshold, List.map_map]
  refine List.map_congr_left (fun t ht => ?_)
  simp only [Function.comp_apply]
  cases t with
  | leaf i => simp
  | node l cs =>
    have hl := hr _ ht l rfl
    rw [mapLabel_node, mapLabelL_eq, relabel_plain trees n h v hl]
    obtain ⟨a, b⟩ := l
    have := unbin_mapL (fun l hl => relabel_plain trees n h v hl) (fun l hl => relabel_art trees n h v hl) ['^', '<'] u cs
    rw [mark] at this
    rw [unbinarize, unbinarize]
    simp only [List.cons_append, List.nil_append]
    rw [this]

/-- **C91 (disagreement).** The vertical order has no effect on any input: the parent annotation is always matched as part of the sisters, as the
expression for these is greedy. -/
theorem C91_vertical_disagreement (trees : List HTree) (n h v v' : Nat) : markovthreshold trees n h v = markovthreshold trees n h v' := by
  have : ∀ l, reduce h v l = reduce h v' l := reduce_vert h v v'
  simp only [markovthreshold, newlabels, this]

/-- **C91 (disagreement).** Hence the annotation with the parent is lost, or gets a comma, depending on the number of sisters. -/
theorem C91_parent_disagreement :
    reduce 1 1 "VP|<A,B>^<S>".toList = some "VP|<A,>".toList ∧ reduce 1 1 "VP|<A>^<S>".toList = some "VP|<A>^<S,>".toList := by
  constructor <;> decide +kernel

/-! ## Examples -/

def nd (s : String) (cs : List HTree) : HTree := .node (s.toList, false) cs
def exTree (x y : String) : HTree := nd "S" [nd "A" [.leaf 0], nd x [nd "B" [.leaf 1], nd y [nd "C" [.leaf 2], nd "D" [.leaf 3]]]]

example : markovthreshold [exTree "S|<B;B,C,D>_2" "S|<C,D>", exTree "S|<B,C>" "S|<C,D>"] 2 1 1 = [exTree "S|<B;B,>_2" "S|<C,D>", exTree "S|<B,>" "S|<C,D>"] ∧
    unbinarize ['|'] ['^'] (some '+') (exTree "S|<B,C>" "S|<C,D>") = nd "S" [nd "A" [.leaf 0], nd "B" [.leaf 1], nd "C" [.leaf 2], nd "D" [.leaf 3]] := by
  constructor <;> decide +kernel

end Disco.Markov
