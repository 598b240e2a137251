import Verif.Disamb.MarginalizeProps
/-!
# C57: required and blocked constituents, fragments of a derivation (theorems)
-/
namespace Disco.Disamb
open PTree _root_.Disco.Bracket

/-! ### Specification -/

/-- The label `l` without its state splits is `c`: a label consists of a category, a function tag after `-`, morphology after `/` and
annotations after `^`, of which all but the category are optional; the annotations are removed. Labels with `|` or `:` are left as they are. -/
def Spec.Unsplit (l c : Str) : Prop :=
  ('|' ∈ l ∨ ':' ∈ l) ∧ c = l ∨
  ∃ b f m s : Str, l = b ++ f ++ m ++ s ∧ c = b ++ f ++ m ∧ b ≠ [] ∧ (∀ x ∈ b, x ∉ ['-', '/', '^', '|', ':']) ∧
    (f = [] ∨ ∃ g, f = '-' :: g ∧ g ≠ [] ∧ ∀ x ∈ g, x ∉ ['/', '^', '|', ':']) ∧
    (m = [] ∨ ∃ g, m = '/' :: g ∧ g ≠ [] ∧ ∀ x ∈ g, x ∉ ['^', '|', ':']) ∧
    (s = [] ∨ ∃ g, s = '^' :: g ∧ g ≠ [] ∧ ∀ x ∈ g, x ∉ ['|', ':'])

/-- The tree has a constituent with label `x.1` (without state splits), that spans exactly the positions `x.2`. -/
def Spec.Has (t : PTree Str) (x : Str × List Nat) : Prop :=
  ∃ l cs, .node l cs ∈ subtrees t ∧ Spec.Unsplit l x.1 ∧ x.2.Perm (leaves (.node l cs)) ∧ x.2.Pairwise (· ≤ ·)

/-! ### Labels -/

theorem takeWhile_dropWhile_append {p : Char → Bool} {a b : Str} (ha : ∀ x ∈ a, p x = true) (hb : ∀ x, b.head? = some x → p x = false) :
    (a ++ b).takeWhile p = a ∧ (a ++ b).dropWhile p = b := by
  rw [List.takeWhile_append_of_pos ha, List.dropWhile_append_of_pos ha]
  cases b with
  | nil => simp
  | cons x b =>
    have := hb x rfl
    simp [this]

theorem optPart_some {c : Char} {stop : List Char} {g r : Str} (hg : g ≠ []) (h : ∀ x ∈ g, x ∉ stop) (hr : ∀ x, r.head? = some x → x ∈ stop) :
    optPart c stop (c :: (g ++ r)) = (c :: g, r) := by
  obtain ⟨h1, h2⟩ := takeWhile_dropWhile_append (p := fun y => decide (y ∉ stop)) (a := g) (b := r) (fun x hx => by simpa using h x hx)
    (fun x hx => by simpa using hr x hx)
  rw [optPart]
  rw [if_pos ⟨rfl, by rw [h1]; exact hg⟩, h1, h2]

theorem optPart_none {c : Char} {stop : List Char} {r : Str} (hr : r.head? ≠ some c) : optPart c stop r = ([], r) := by
  cases r with
  | nil => rfl
  | cons x r =>
    rw [optPart, if_neg]
    rintro ⟨rfl, _⟩
    exact hr rfl

theorem splitLabel_unsplit {l c : Str} (h : Spec.Unsplit l c) : (splitLabel l).getD l = c := by
  rcases h with ⟨h, rfl⟩ | ⟨b, f, m, s, rfl, rfl, hb, hb', hf, hm, hs⟩
  · -- no match
    have key : ∀ x ∈ ['|', ':'], x ∈ c → splitLabel c = none := by
      intro x hx hxl
      unfold splitLabel
      simp only
      rw [if_neg]
      rintro ⟨_, h2⟩
      have opt_append : ∀ (k : Char) (stop : List Char) (r : Str), (optPart k stop r).1 ++ (optPart k stop r).2 = r := by
        intro k stop r
        cases r with
        | nil => rfl
        | cons y r =>
          rw [optPart]
          split
          · simp
          · rfl
      have opt_stop : ∀ (k : Char) (stop : List Char) (r : Str) (z : Char), z ≠ k → z ∈ stop → z ∉ (optPart k stop r).1 := by
        intro k stop r z hk hz hm
        cases r with
        | nil => cases hm
        | cons y r =>
          rw [optPart] at hm
          split at hm
          · rename_i hy
            rcases List.mem_cons.1 hm with e | hm
            · exact hk (e.trans hy.1)
            · have := List.all_takeWhile (p := fun y => decide (y ∉ stop)) (l := r)
              rw [List.all_eq_true] at this
              exact (of_decide_eq_true (this _ hm)) hz
          · cases hm
      have hstop : ∀ stop : List Char, x ∈ stop → x ∉ c.takeWhile (fun y => decide (y ∉ stop)) := by
        intro stop hz hm
        have := List.all_takeWhile (p := fun y => decide (y ∉ stop)) (l := c)
        rw [List.all_eq_true] at this
        exact (of_decide_eq_true (this _ hm)) hz
      have hx' : x = '|' ∨ x = ':' := by simpa using hx
      have e0 := List.takeWhile_append_dropWhile (p := fun y => decide (y ∉ ['-', '/', '^', '|', ':'])) (l := c)
      rw [← e0, List.mem_append] at hxl
      rcases hxl with hxl | hxl
      · exact hstop _ (by rcases hx' with rfl | rfl <;> simp) hxl
      · generalize List.dropWhile (fun y => decide (y ∉ ['-', '/', '^', '|', ':'])) c = r at hxl h2
        have h1 := opt_append '-' ['/', '^', '|', ':'] r
        have h1' := opt_append '/' ['^', '|', ':'] (optPart '-' ['/', '^', '|', ':'] r).2
        have h1'' := opt_append '^' ['|', ':'] (optPart '/' ['^', '|', ':'] (optPart '-' ['/', '^', '|', ':'] r).2).2
        rw [← h1, ← h1', ← h1'', h2, List.append_nil, List.mem_append, List.mem_append] at hxl
        rcases hxl with hxl | hxl | hxl
        · exact opt_stop _ _ _ _ (by rcases hx' with rfl | rfl <;> decide) (by rcases hx' with rfl | rfl <;> simp) hxl
        · exact opt_stop _ _ _ _ (by rcases hx' with rfl | rfl <;> decide) (by rcases hx' with rfl | rfl <;> simp) hxl
        · exact opt_stop _ _ _ _ (by rcases hx' with rfl | rfl <;> decide) (by rcases hx' with rfl | rfl <;> simp) hxl
    rcases h with h | h
    · rw [key '|' (by simp) h]; rfl
    · rw [key ':' (by simp) h]; rfl
  · have hs3 : ∀ x, s.head? = some x → x = '^' := by
      intro x hx; rcases hs with rfl | ⟨g, rfl, _⟩
      · cases hx
      · exact (Option.some.inj hx).symm
    have hm3 : ∀ x, (m ++ s).head? = some x → x = '/' ∨ x = '^' := by
      intro x hx; rcases hm with rfl | ⟨g, rfl, _⟩
      · exact .inr (hs3 x hx)
      · exact .inl (Option.some.inj hx).symm
    have hf3 : ∀ x, (f ++ (m ++ s)).head? = some x → x = '-' ∨ x = '/' ∨ x = '^' := by
      intro x hx; rcases hf with rfl | ⟨g, rfl, _⟩
      · exact .inr (hm3 x hx)
      · exact .inl (Option.some.inj hx).symm
    have e0 : b ++ f ++ m ++ s = b ++ (f ++ (m ++ s)) := by simp
    obtain ⟨t1, t2⟩ := takeWhile_dropWhile_append (p := fun y => decide (y ∉ ['-', '/', '^', '|', ':'])) (a := b) (b := f ++ (m ++ s))
      (fun x hx => by simpa using hb' x hx) (fun x hx => by rcases hf3 x hx with rfl | rfl | rfl <;> simp)
    have p1 : optPart '-' ['/', '^', '|', ':'] (f ++ (m ++ s)) = (f, m ++ s) := by
      rcases hf with rfl | ⟨g, rfl, hg, hg'⟩
      · rw [List.nil_append, optPart_none]
        intro e; rcases hm3 _ e with h | h <;> exact absurd h (by decide)
      · exact optPart_some hg hg' (fun x hx => by rcases hm3 x hx with rfl | rfl <;> simp)
    have p2 : optPart '/' ['^', '|', ':'] (m ++ s) = (m, s) := by
      rcases hm with rfl | ⟨g, rfl, hg, hg'⟩
      · rw [List.nil_append, optPart_none]
        intro e; exact absurd (hs3 _ e) (by decide)
      · exact optPart_some hg hg' (fun x hx => by rw [hs3 x hx]; simp)
    have p3 : (optPart '^' ['|', ':'] s).2 = [] := by
      rcases hs with rfl | ⟨g, rfl, hg, hg'⟩
      · rfl
      · have := optPart_some (c := '^') (stop := ['|', ':']) (g := g) (r := []) hg hg' (by simp)
        rw [List.append_nil] at this
        rw [this]
    rw [e0, splitLabel]
    simp only [t1, t2, p1, p2, p3]
    rw [if_pos ⟨hb, trivial⟩]
    rfl

/-! ### The string of a tree -/

theorem removeSplits_skip (ws : Char → Bool) (a s : Str) : removeSplits ws a.length (a ++ s) = removeSplits ws 0 s := by
  induction a with
  | nil => rfl
  | cons x a ih =>
    rw [List.length_cons, List.cons_append, removeSplits]
    exact ih

theorem removeSplits_plain (ws : Char → Bool) (x s : Str) (h : '(' ∉ x) : removeSplits ws 0 (x ++ s) = x ++ removeSplits ws 0 s := by
  induction x with
  | nil => rfl
  | cons c x ih =>
    have hc : c ≠ '(' := fun e => h (by simp [e])
    rw [List.cons_append, removeSplits, if_neg (fun e => hc e.1), ih (fun e => h (by simp [e]))]
    rfl

/-- What `removeSplits` does with a label. -/
def unsplit (l : Str) : Str := (splitLabel l).getD l

theorem removeSplits_label {ws : Char → Bool} (hws : Bracket.Spec.Space ws) (l s : Str) (hl : ∀ c ∈ l, ws c = false ∧ c ≠ '(' ∧ c ≠ ')') :
    removeSplits ws 0 ('(' :: (l ++ ' ' :: s)) = '(' :: (unsplit l ++ ' ' :: removeSplits ws 0 s) := by
  obtain ⟨h1, h2⟩ := takeWhile_dropWhile_append (p := tokChar ws) (a := l) (b := ' ' :: s)
    (fun x hx => by obtain ⟨a, b, c⟩ := hl x hx; simp [tokChar, a, b, c])
    (fun x hx => by rw [← Option.some.inj hx]; simp [tokChar, hws.blank])
  have hsp : removeSplits ws 0 (' ' :: s) = ' ' :: removeSplits ws 0 s := removeSplits_plain ws [' '] s (by decide)
  rw [removeSplits, if_pos ⟨rfl, by rw [h2]; rfl⟩, h1, unsplit]
  cases splitLabel l with
  | none =>
    simp only [Option.getD_none]
    rw [removeSplits_plain ws l _ (fun e => (hl _ e).2.1 rfl), hsp]
  | some c =>
    simp only [Option.getD_some]
    rw [removeSplits_skip, hsp]

theorem paren_notMem_digits (i : Nat) : '(' ∉ Nat.toDigits 10 i := by
  intro h
  have := Nat.isDigit_of_mem_toDigits (by decide) (by decide) h
  exact absurd this (by decide)

theorem labels_child {ws : Char → Bool} {l : Str} {cs : List (PTree Str)} (h : Bracket.Spec.Labels ws (.node l cs)) :
    ∀ c ∈ cs, Bracket.Spec.Labels ws c := fun c hc l' cs' h' => h l' cs' (by
      rw [subtrees, List.mem_cons, mem_subtreesL]; exact .inr ⟨c, hc, h'⟩)

mutual
theorem removeSplits_flat {ws : Char → Bool} (hws : Bracket.Spec.Space ws) : ∀ (t : PTree Str), Bracket.Spec.Labels ws t → ∀ s,
    removeSplits ws 0 (flat t ++ s) = flat (mapLabel unsplit t) ++ removeSplits ws 0 s
  | .leaf i, _, s => by
    rw [flat, mapLabel_leaf, flat, removeSplits_plain _ _ _ (paren_notMem_digits i)]
  | .node l cs, h, s => by
    have hl := (h l cs (by simp [subtrees])).2
    rw [flat, mapLabel_node, flat]
    have e1 : ('(' :: (l ++ ' ' :: (Str.join [' '] (flatL cs) ++ [')']))) ++ s = '(' :: (l ++ ' ' :: (Str.join [' '] (flatL cs) ++ (')' :: s))) := by simp
    rw [e1, removeSplits_label hws _ _ hl, removeSplits_flatL hws cs (labels_child h) (')' :: s)]
    have e2 : removeSplits ws 0 (')' :: s) = ')' :: removeSplits ws 0 s := removeSplits_plain ws [')'] s (by decide)
    rw [e2]
    simp
theorem removeSplits_flatL {ws : Char → Bool} (hws : Bracket.Spec.Space ws) : ∀ (cs : List (PTree Str)), (∀ c ∈ cs, Bracket.Spec.Labels ws c) → ∀ s,
    removeSplits ws 0 (Str.join [' '] (flatL cs) ++ s) = Str.join [' '] (flatL (mapLabelL unsplit cs)) ++ removeSplits ws 0 s
  | [], _, s => by simp [flatL, mapLabelL, Str.join, List.intercalate]
  | [c], h, s => by
    have := removeSplits_flat hws c (h c (by simp)) s
    simpa [flatL, mapLabelL, Str.join, List.intercalate] using this
  | c :: c' :: cs, h, s => by
    have e : ∀ (x y : Str) (zs : List Str), Str.join [' '] (x :: y :: zs) = x ++ ' ' :: Str.join [' '] (y :: zs) := by
      intro x y zs; simp [Str.join, List.intercalate]
    have ih := removeSplits_flatL hws (c' :: cs) (fun x hx => h x (by simp [hx])) s
    rw [flatL, flatL, e, mapLabelL, mapLabelL, flatL, flatL, e, List.append_assoc, removeSplits_flat hws c (h c (by simp)), List.append_assoc]
    congr 1
    have e2 : removeSplits ws 0 (' ' :: (Str.join [' '] (flat c' :: flatL cs) ++ s)) = ' ' :: removeSplits ws 0 (Str.join [' '] (flat c' :: flatL cs) ++ s) :=
      removeSplits_plain ws [' '] _ (by decide)
    rw [List.cons_append, e2]
    rw [flatL, mapLabelL, flatL] at ih
    rw [ih]
    rfl
end

mutual
theorem leaves_mapLabel' {L M : Type} (f : L → M) : ∀ t : PTree L, leaves (mapLabel f t) = leaves t
  | .leaf i => by simp
  | .node l cs => by rw [mapLabel_node, leaves, leaves, leavesL_mapLabel' f cs]
theorem leavesL_mapLabel' {L M : Type} (f : L → M) : ∀ ts : List (PTree L), leavesL (mapLabelL f ts) = leavesL ts
  | [] => by simp [mapLabelL, leavesL]
  | t :: ts => by rw [mapLabelL, leavesL, leavesL, leaves_mapLabel' f t, leavesL_mapLabel' f ts]
end

mutual
theorem subtrees_mapLabel' {L M : Type} (f : L → M) : ∀ t : PTree L, subtrees (mapLabel f t) = (subtrees t).map (mapLabel f)
  | .leaf i => by simp [subtrees]
  | .node l cs => by rw [mapLabel_node, subtrees, subtrees, subtreesL_mapLabel' f cs]; simp
theorem subtreesL_mapLabel' {L M : Type} (f : L → M) : ∀ ts : List (PTree L), subtreesL (mapLabelL f ts) = (subtreesL ts).map (mapLabel f)
  | [] => by simp [mapLabelL, subtreesL]
  | t :: ts => by rw [mapLabelL, subtreesL, subtreesL, subtrees_mapLabel' f t, subtreesL_mapLabel' f ts, List.map_append]
end

theorem sort_eq_iff (ix xs : List Nat) : ix = stableSort (fun a b => decide (a ≤ b)) xs ↔ ix.Perm xs ∧ ix.Pairwise (· ≤ ·) := by
  have h1 : (stableSort (fun a b => decide (a ≤ b)) xs).Pairwise (· ≤ ·) := by
    have := StableSort.pairwise (le := fun a b : Nat => decide (a ≤ b)) (by intro a b c; simp; omega) (by intro a b; simp; omega) xs
    exact this.imp (fun h => of_decide_eq_true h)
  constructor
  · rintro rfl
    exact ⟨StableSort.perm xs, h1⟩
  · rintro ⟨a, b⟩
    exact (a.trans (StableSort.perm xs).symm).eq_of_pairwise (fun x y _ _ h1 h2 => Nat.le_antisymm h1 h2) b h1

theorem mem_spans {t : PTree Str} (h : ∀ l cs, .node l cs ∈ subtrees t → ∃ c, Spec.Unsplit l c) (x : Str × List Nat) :
    x ∈ spans (mapLabel unsplit t) ↔ Spec.Has t x := by
  rw [spans, subtrees_mapLabel', List.map_map, List.mem_map]
  constructor
  · rintro ⟨n, hn, rfl⟩
    obtain ⟨l, cs, rfl⟩ := mem_subtrees_self_isNode hn
    obtain ⟨c, hc⟩ := h l cs hn
    refine ⟨l, cs, hn, ?_, ?_⟩
    · have e : unsplit l = c := splitLabel_unsplit hc
      simpa [label?, e] using hc
    · have := (sort_eq_iff _ _).1 (rfl : stableSort (fun a b => decide (a ≤ b)) (leaves (mapLabel unsplit (.node l cs))) = _)
      rw [leaves_mapLabel'] at this
      simp only [Function.comp, leaves_mapLabel']
      exact this
  · rintro ⟨l, cs, hn, hu, hp, hs⟩
    refine ⟨_, hn, ?_⟩
    have e : unsplit l = x.1 := splitLabel_unsplit hu
    simp only [Function.comp, leaves_mapLabel']
    rw [← (sort_eq_iff _ _).2 ⟨hp, hs⟩]
    simp [label?, e]

theorem unsplit_ok {l c : Str} (h : Spec.Unsplit l c) : (l ≠ [] → c ≠ []) ∧ ∀ x ∈ c, x ∈ l := by
  rcases h with ⟨h, rfl⟩ | ⟨b, f, m, s, rfl, rfl, hb, _⟩
  · exact ⟨id, fun x hx => hx⟩
  · refine ⟨fun _ e => hb ?_, fun x hx => List.mem_append_left _ hx⟩
    simp only [List.append_eq_nil_iff] at e
    exact e.1.1

open Classical in
/-- **C57 (constraints).** With any required or blocked labelled spans, `marginalize` keeps exactly the parse trees that have all required
constituents and none of the blocked ones; state splits in the labels of the tree are ignored. -/
theorem C57_constraints (ws : Char → Bool) (hws : Bracket.Spec.Space ws) (pyInt : Str → Option Nat)
    (hint : ∀ n, pyInt (Nat.toDigits 10 n) = some n) {X : Type} (require block : List (Str × List Nat)) (results : List (PTree Str × X))
    (h : ∀ r ∈ results, r.1.isNode ∧ Bracket.Spec.Labels ws r.1 ∧ ∀ l cs, .node l cs ∈ subtrees r.1 → ∃ c, Spec.Unsplit l c) :
    constrain ws pyInt require block (results.map (fun r => (flat r.1, r.2))) =
      some ((results.filter (fun r => (∀ x ∈ require, Spec.Has r.1 x) ∧ ∀ x ∈ block, ¬ Spec.Has r.1 x)).map (fun r => (flat r.1, r.2))) := by
  have htest : ∀ r ∈ results, testconstraints ws pyInt (flat r.1) require block =
      some (decide ((∀ x ∈ require, Spec.Has r.1 x) ∧ ∀ x ∈ block, ¬ Spec.Has r.1 x)) := by
    rintro ⟨t, v⟩ hr
    obtain ⟨h1, h2, h3⟩ := h _ hr
    have e : removeSplits ws 0 (flat t) = flat (mapLabel unsplit t) := by
      have := removeSplits_flat hws t h2 []
      simpa [removeSplits] using this
    have hlab : Bracket.Spec.Labels ws (mapLabel unsplit t) := by
      intro l cs hm
      obtain ⟨l', cs', h4, rfl⟩ := mem_subtrees_mapLabel _ _ hm
      obtain ⟨h5, h6⟩ := h2 l' cs' h4
      obtain ⟨c, hc⟩ := h3 l' cs' h4
      have e : unsplit l' = c := splitLabel_unsplit hc
      rw [e]
      obtain ⟨h7, h8⟩ := unsplit_ok hc
      exact ⟨h7 h5, fun x hx => h6 x (h8 x hx)⟩
    rw [testconstraints, e]
    cases t with
    | leaf => cases h1
    | node l cs =>
      rw [mapLabel_node] at hlab ⊢
      rw [C12_parse_str ws hws pyInt hint _ _ hlab, Option.map_some]
      congr 1
      rw [Bool.eq_iff_iff, Bool.and_eq_true, List.all_eq_true, List.all_eq_true, decide_eq_true_iff]
      have hsp := mem_spans h3
      rw [mapLabel_node] at hsp
      refine and_congr (forall₂_congr fun x _ => ?_) (forall₂_congr fun x _ => ?_)
      · rw [decide_eq_true_iff]; exact hsp x
      · rw [Bool.not_eq_true', decide_eq_false_iff_not]; exact not_congr (hsp x)
  rw [constrain]
  split
  · rename_i he
    obtain ⟨rfl, rfl⟩ := he
    simp
  · clear h
    have key : (results.map (fun r => (flat r.1, r.2))).mapM (fun r => (testconstraints ws pyInt r.1 require block).map (fun b => (r, b))) =
        some (results.map (fun r => ((flat r.1, r.2), decide ((∀ x ∈ require, Spec.Has r.1 x) ∧ ∀ x ∈ block, ¬ Spec.Has r.1 x)))) := by
      induction results with
      | nil => rfl
      | cons r rs ih =>
        rw [List.map_cons, List.mapM_cons, htest r (by simp), ih (fun x hx => htest x (by simp [hx]))]
        rfl
    rw [key, Option.map_some, List.filter_map, List.map_map]
    rfl

end Disco.Disamb
