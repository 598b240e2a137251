import Verif.Disamb.Constraints
import Mathlib.Data.List.MinMax
/-!
# C57: the fragments of a derivation, and SL-DOP from a list of derivations (theorems)
-/
namespace Disco.Disamb
open PTree _root_.Disco.Bracket

/-! ### Specification -/

mutual
/-- `f` and the fragments of the list, substituted from left to right for its substitution sites (and for those of the substituted fragments),
give the tree. A site is labelled with the first and last position of what is substituted for it. -/
inductive Spec.Expand : Frag → List Frag → PTree Str → Prop
  | leaf (i : Nat) : Spec.Expand (.leaf i) [] (.leaf i)
  | node (l : Str) (cs fs : List Frag) (ts : List (PTree Str)) : Spec.ExpandL cs fs ts → Spec.Expand (.node l cs) fs (.node l ts)
  | site (l : Str) (a b : Nat) (cs fs : List Frag) (t : PTree Str) : Spec.Expand (.node l cs) fs t → a ∈ t.leaves → b ∈ t.leaves →
      (∀ i ∈ t.leaves, a ≤ i ∧ i ≤ b) → Spec.Expand (.site l a b) (.node l cs :: fs) t
/-- The same for a list of sisters. -/
inductive Spec.ExpandL : List Frag → List Frag → List (PTree Str) → Prop
  | nil : Spec.ExpandL [] [] []
  | cons (c : Frag) (cs fs gs : List Frag) (t : PTree Str) (ts : List (PTree Str)) : Spec.Expand c fs t → Spec.ExpandL cs gs ts →
      Spec.ExpandL (c :: cs) (fs ++ gs) (t :: ts)
end

/-- The number of fragments of a derivation: the number of nodes without an address. -/
def Spec.size (d : PTree Str) : Nat := ((subtrees d).filter (fun n => decide ('@' ∉ n.label?.getD []))).length

/-! ### Fragments -/

theorem removeIds_label' (l : Str) (h : Spec.Label l) : removeIds [] false l = Spec.base l := by
  have h1 := removeIds_label [] l [] h
  rw [relabel_nil] at h1
  have : ∀ (b : Bool) (x : Str), removeIds [] b (x ++ [' ']) = removeIds [] b x ++ [' '] := by
    intro b x
    induction x generalizing b with
    | nil => cases b <;> rfl
    | cons c x ih =>
      rw [List.cons_append, removeIds, removeIds]
      have hh : (x ++ [' ']).head?.any idChar = x.head?.any idChar := by
        cases x with
        | nil => decide
        | cons y x => rfl
      rw [hh]
      split
      · exact ih _
      · split
        · rw [ih, List.append_assoc]
        · rw [ih]; rfl
  rw [this] at h1
  exact List.append_cancel_right h1

theorem minLeaf_spec (t : PTree Str) (h : t.leaves ≠ []) : minLeaf t ∈ t.leaves ∧ maxLeaf t ∈ t.leaves ∧ ∀ i ∈ t.leaves, minLeaf t ≤ i ∧ i ≤ maxLeaf t := by
  rw [minLeaf, maxLeaf]
  cases h1 : t.leaves.min? with
  | none => rw [List.min?_eq_none_iff] at h1; exact absurd h1 h
  | some a =>
    cases h2 : t.leaves.max? with
    | none => rw [List.max?_eq_none_iff] at h2; exact absurd h2 h
    | some b =>
      rw [List.min?_eq_some_iff] at h1
      rw [List.max?_eq_some_iff] at h2
      exact ⟨h1.1, h2.1, fun i hi => ⟨h1.2 i hi, h2.2 i hi⟩⟩

/-- The fragments of a list of trees. -/
def fragsL (ts : List (PTree Str)) : List Frag := ((subtreesL ts).filter frontiernt).map splitfrag
/-- The fragments of a tree. -/
def frags (t : PTree Str) : List Frag := ((subtrees t).filter frontiernt).map splitfrag

theorem derivation_child {l : Str} {cs : List (PTree Str)} (h : Spec.Derivation (.node l cs)) : ∀ c ∈ cs, Spec.Derivation c :=
  fun c hc l' cs' h' => h l' cs' (by rw [subtrees, List.mem_cons, mem_subtreesL]; exact .inr ⟨c, hc, h'⟩)

mutual
theorem expand_child : ∀ (c : PTree Str), Spec.Derivation c → (∀ n ∈ subtrees c, n.leaves ≠ []) → Spec.Expand (splitChild c) (frags c) (Spec.parsetree c)
  | .leaf i, _, _ => by
    rw [splitChild, frags, subtrees, Spec.parsetree, mapLabel_leaf]
    exact .leaf i
  | .node l cs, h, hn => by
    have hl := h l cs (by simp [subtrees])
    have hc := expand_children cs (derivation_child h) (fun n hm => hn n (by rw [subtrees]; exact List.mem_cons_of_mem _ hm))
    have hb := removeIds_label' l hl
    rw [splitChild, frags, subtrees, Spec.parsetree, mapLabel_node, List.filter_cons]
    by_cases ha : '@' ∈ l
    · rw [if_pos ha, if_neg (by simp [frontiernt, label?, ha]), hb]
      exact .node _ _ _ _ hc
    · rw [if_neg ha, if_pos (by simp [frontiernt, label?, ha]), List.map_cons, splitfrag, hb]
      obtain ⟨h1, h2, h3⟩ := minLeaf_spec (.node l cs) (hn _ (by simp [subtrees]))
      have e : leaves (.node (Spec.base l) (mapLabelL Spec.base cs)) = leaves (.node l cs) := by
        rw [leaves, leaves, leavesL_mapLabel']
      refine .site _ _ _ _ _ _ (.node _ _ _ _ hc) ?_ ?_ ?_
      · rw [e]; exact h1
      · rw [e]; exact h2
      · rw [e]; exact h3
theorem expand_children : ∀ (cs : List (PTree Str)), (∀ c ∈ cs, Spec.Derivation c) → (∀ n ∈ subtreesL cs, n.leaves ≠ []) →
    Spec.ExpandL (splitChildren cs) (fragsL cs) (mapLabelL Spec.base cs)
  | [], _, _ => by
    rw [splitChildren, fragsL, subtreesL, mapLabelL]
    exact .nil
  | c :: cs, h, hn => by
    have h1 := expand_child c (h c (by simp)) (fun n hm => hn n (by rw [subtreesL]; exact List.mem_append_left _ hm))
    have h2 := expand_children cs (fun x hx => h x (by simp [hx])) (fun n hm => hn n (by rw [subtreesL]; exact List.mem_append_right _ hm))
    rw [splitChildren, fragsL, subtreesL, mapLabelL, List.filter_append, List.map_append]
    exact .cons _ _ _ _ _ _ h1 h2
end

/-- **C57 (fragments).** The list of fragments that is reported for a derivation of a DOP reduction has one fragment for each node without an
address, and substituting them from left to right gives the parse tree of the derivation. -/
theorem C57_fragments (ws : Char → Bool) (hws : Bracket.Spec.Space ws) (pyInt : Str → Option Nat)
    (hint : ∀ n, pyInt (Nat.toDigits 10 n) = some n) (l : Str) (cs : List (PTree Str)) (h : Spec.Good ws (.node l cs)) (hl : '@' ∉ l)
    (hn : ∀ n ∈ subtrees (.node l cs), n.leaves ≠ []) :
    ∃ f fs, fragmentsinderiv ws pyInt (flat (.node l cs)) = some (f :: fs) ∧ (f :: fs).length = Spec.size (.node l cs) ∧
      Spec.Expand f fs (Spec.parsetree (.node l cs)) := by
  refine ⟨splitfrag (.node l cs), fragsL cs, ?_, ?_, ?_⟩
  · rw [fragmentsinderiv, C12_parse_str ws hws pyInt hint l cs h.2.2, Option.map_some, subtrees, List.filter_cons,
      if_pos (by simp [frontiernt, label?, hl])]
    rfl
  · rw [Spec.size, subtrees, List.filter_cons, if_pos (by simp [label?, hl]), List.length_cons, List.length_cons, fragsL, List.length_map]
    congr 2
    exact List.filter_congr (fun n _ => by simp [frontiernt])
  · have hc := expand_children cs (derivation_child h.2.1) (fun n hm => hn n (by rw [subtrees]; exact List.mem_cons_of_mem _ hm))
    rw [splitfrag, Spec.parsetree, mapLabel_node, removeIds_label' l (h.2.1 l cs (by simp [subtrees]))]
    exact .node _ _ _ _ hc

/-! ### The length of a derivation -/

theorem hasSub_iff (x s : Str) : hasSub x s = true ↔ x <:+: s := by
  induction s with
  | nil => rw [hasSub, List.infix_nil, List.isEmpty_iff]
  | cons c s ih => rw [hasSub, Bool.or_eq_true, ih, List.isPrefixOf_iff_prefix, List.infix_cons_iff]

/-- A token that counts as an addressed node. -/
def marked (a : Str) : Bool := decide ('@' ∈ a) || hasSub ['}', '<'] a

theorem splitWs_space {ws : Char → Bool} {c : Char} {s : Str} (h : ws c = true) : splitWs ws (c :: s) = splitWs ws s := by
  rw [splitWs, if_pos h]

theorem splitWs_token {ws : Char → Bool} (w : Str) (hw : w ≠ []) (h : ∀ c ∈ w, ws c = false) (s : Str) (hs : ∀ c, s.head? = some c → ws c = true) :
    splitWs ws (w ++ s) = w :: splitWs ws s := by
  induction w with
  | nil => exact absurd rfl hw
  | cons c w ih =>
    have hc := h c (by simp)
    cases w with
    | nil =>
      rw [List.cons_append, List.nil_append, splitWs, if_neg (by simp [hc])]
      cases s with
      | nil => rfl
      | cons d s =>
        have hd := hs d rfl
        cases splitWs ws (d :: s) with
        | nil => rfl
        | cons w rest => rw [glue, if_pos hd]
    | cons d w =>
      have hd := h d (by simp)
      have ih := ih (by simp) (fun x hx => h x (by simp [hx]))
      rw [List.cons_append, splitWs, if_neg (by simp [hc]), ih, List.cons_append, glue, if_neg (by simp [hd])]

/-- The number of addressed nodes. -/
def addressed (t : PTree Str) : Nat := ((subtrees t).filter (fun n => decide ('@' ∈ n.label?.getD []))).length
/-- The number of addressed nodes in a list of trees. -/
def addressedL (ts : List (PTree Str)) : Nat := ((subtreesL ts).filter (fun n => decide ('@' ∈ n.label?.getD []))).length

/-- The number of tokens that count as addressed nodes. -/
def tally (ws : Char → Bool) (s : Str) : Nat := ((splitWs ws s).filter marked).length

theorem tally_token {ws : Char → Bool} (w : Str) (hw : w ≠ []) (h : ∀ c ∈ w, ws c = false) (s : Str) (hs : ∀ c, s.head? = some c → ws c = true) :
    tally ws (w ++ s) = (if marked w then 1 else 0) + tally ws s := by
  rw [tally, splitWs_token w hw h s hs, List.filter_cons]
  split
  · rw [List.length_cons, tally, Nat.add_comm]
  · simp [tally]

theorem marked_plain {w : Str} (h1 : '@' ∉ w) (h2 : '}' ∉ w) : marked w = false := by
  rw [marked, Bool.or_eq_false_iff, decide_eq_false_iff_not]
  refine ⟨h1, ?_⟩
  rw [Bool.eq_false_iff, Ne, hasSub_iff]
  intro h
  exact h2 (h.subset (by simp))

theorem marked_label {l : Str} (h : ¬ ['}', '<'] <:+: l) : marked ('(' :: l) = decide ('@' ∈ l) := by
  have : hasSub ['}', '<'] ('(' :: l) = false := by
    rw [Bool.eq_false_iff, Ne, hasSub_iff, List.infix_cons_iff]
    rintro (h' | h')
    · obtain ⟨_, e⟩ := h'; injection e with e; exact absurd e (by decide)
    · exact h h'
  rw [marked, this, Bool.or_false]
  simp

theorem digits_ok {ws : Char → Bool} (hws : Bracket.Spec.Space ws) (i : Nat) (c : Char) (hc : c ∈ Nat.toDigits 10 i) : c.isDigit = true ∧ ws c = false := by
  have := Nat.isDigit_of_mem_toDigits (by decide) (by decide) hc
  exact ⟨this, hws.digit c this⟩

mutual
theorem tally_flat {ws : Char → Bool} (hws : Bracket.Spec.Space ws) : ∀ (t : PTree Str), Bracket.Spec.Labels ws t →
    (∀ l cs, .node l cs ∈ subtrees t → ¬ ['}', '<'] <:+: l) → ∀ (k : Nat) (s : Str), (∀ c, s.head? = some c → ws c = true) →
    tally ws (flat t ++ (List.replicate k ')' ++ s)) = addressed t + tally ws s
  | .leaf i, _, _, k, s, hs => by
    rw [flat, ← List.append_assoc, tally_token _ _ _ s hs, marked_plain]
    · simp [addressed, subtrees]
    · intro h
      rcases List.mem_append.1 h with h | h
      · exact absurd (digits_ok hws i _ h).1 (by decide)
      · exact absurd (List.eq_of_mem_replicate h) (by decide)
    · intro h
      rcases List.mem_append.1 h with h | h
      · exact absurd (digits_ok hws i _ h).1 (by decide)
      · exact absurd (List.eq_of_mem_replicate h) (by decide)
    · intro h
      have := (List.append_eq_nil_iff.1 h).1
      exact absurd this (Nat.toDigits_ne_nil)
    · intro c hc
      rcases List.mem_append.1 hc with h | h
      · exact (digits_ok hws i _ h).2
      · rw [List.eq_of_mem_replicate h]; exact hws.close
  | .node l cs, h, hm, k, s, hs => by
    have hl := h l cs (by simp [subtrees])
    have hc := tally_flatL hws cs (labels_child h) (fun l' cs' h' => hm l' cs' (by rw [subtrees]; exact List.mem_cons_of_mem _ h')) (k + 1) s hs
    rw [flat]
    have e : ('(' :: (l ++ ' ' :: (Str.join [' '] (flatL cs) ++ [')']))) ++ (List.replicate k ')' ++ s) =
        ('(' :: l) ++ (' ' :: (Str.join [' '] (flatL cs) ++ (List.replicate (k + 1) ')' ++ s))) := by
      simp [List.replicate_succ]
    rw [e, tally_token ('(' :: l) (by simp) _ _ (by simp [hws.blank]), marked_label (hm l cs (by simp [subtrees])), tally, splitWs_space hws.blank, ← tally, hc]
    · rw [addressed, subtrees, List.filter_cons, addressedL]
      by_cases ha : '@' ∈ l
      · simp [label?, ha]; omega
      · simp [label?, ha]
    · intro c hc
      rcases List.mem_cons.1 hc with rfl | hc
      · exact hws.open_
      · exact (hl.2 c hc).1
theorem tally_flatL {ws : Char → Bool} (hws : Bracket.Spec.Space ws) : ∀ (cs : List (PTree Str)), (∀ c ∈ cs, Bracket.Spec.Labels ws c) →
    (∀ l cs', .node l cs' ∈ subtreesL cs → ¬ ['}', '<'] <:+: l) → ∀ (k : Nat) (s : Str), (∀ c, s.head? = some c → ws c = true) →
    tally ws (Str.join [' '] (flatL cs) ++ (List.replicate k ')' ++ s)) = addressedL cs + tally ws s
  | [], _, _, 0, s, hs => by simp [flatL, Str.join, List.intercalate, addressedL, subtreesL]
  | [], _, _, k + 1, s, hs => by
    have e : Str.join [' '] (flatL []) = [] := by simp [flatL, Str.join, List.intercalate]
    rw [e, List.nil_append, tally_token _ (by simp [List.replicate_succ]) _ s hs, marked_plain]
    · simp [addressedL, subtreesL]
    · intro h; exact absurd (List.eq_of_mem_replicate h) (by decide)
    · intro h; exact absurd (List.eq_of_mem_replicate h) (by decide)
    · intro c h; rw [List.eq_of_mem_replicate h]; exact hws.close
  | [c], h, hm, k, s, hs => by
    have := tally_flat hws c (h c (by simp)) (fun l cs' h' => hm l cs' (by rw [subtreesL]; exact List.mem_append_left _ h')) k s hs
    simpa [flatL, Str.join, List.intercalate, addressedL, subtreesL, addressed] using this
  | c :: c' :: cs, h, hm, k, s, hs => by
    have e : ∀ (x y : Str) (zs : List Str), Str.join [' '] (x :: y :: zs) = x ++ ' ' :: Str.join [' '] (y :: zs) := by
      intro x y zs; simp [Str.join, List.intercalate]
    have h2 := tally_flatL hws (c' :: cs) (fun x hx => h x (by simp [hx]))
      (fun l cs' h' => hm l cs' (by rw [subtreesL]; exact List.mem_append_right _ h')) k s hs
    have h1 := tally_flat hws c (h c (by simp)) (fun l cs' h' => hm l cs' (by rw [subtreesL]; exact List.mem_append_left _ h')) 0
      (' ' :: (Str.join [' '] (flatL (c' :: cs)) ++ (List.replicate k ')' ++ s))) (by simp [hws.blank])
    rw [flatL, flatL, e, List.append_assoc]
    rw [List.replicate_zero, List.nil_append] at h1
    rw [flatL] at h1 h2
    rw [List.cons_append, h1]
    rw [tally, splitWs_space hws.blank, ← tally, h2]
    rw [addressedL, addressedL, addressed, subtreesL.eq_2 c, List.filter_append, List.length_append]
    omega
end

mutual
theorem count_flat : ∀ (t : PTree Str), (∀ l cs, .node l cs ∈ subtrees t → '(' ∉ l) → (flat t).count '(' = (subtrees t).length
  | .leaf i, _ => by
    rw [flat, subtrees, List.count_eq_zero_of_not_mem (paren_notMem_digits i)]; rfl
  | .node l cs, h => by
    have hl := h l cs (by simp [subtrees])
    have hc := count_flatL cs (fun l' cs' h' => h l' cs' (by rw [subtrees]; exact List.mem_cons_of_mem _ h'))
    rw [flat, subtrees, List.length_cons, List.count_cons, List.count_append, List.count_cons, List.count_append, hc,
      List.count_eq_zero_of_not_mem hl]
    simp
theorem count_flatL : ∀ (cs : List (PTree Str)), (∀ l cs', .node l cs' ∈ subtreesL cs → '(' ∉ l) →
    (Str.join [' '] (flatL cs)).count '(' = (subtreesL cs).length
  | [], _ => by simp [flatL, Str.join, List.intercalate, subtreesL]
  | [c], h => by
    have := count_flat c (fun l cs' h' => h l cs' (by rw [subtreesL]; exact List.mem_append_left _ h'))
    simpa [flatL, Str.join, List.intercalate, subtreesL] using this
  | c :: c' :: cs, h => by
    have e : ∀ (x y : Str) (zs : List Str), Str.join [' '] (x :: y :: zs) = x ++ ' ' :: Str.join [' '] (y :: zs) := by
      intro x y zs; simp [Str.join, List.intercalate]
    have h1 := count_flat c (fun l cs' h' => h l cs' (by rw [subtreesL]; exact List.mem_append_left _ h'))
    have h2 := count_flatL (c' :: cs) (fun l cs' h' => h l cs' (by rw [subtreesL]; exact List.mem_append_right _ h'))
    rw [flatL] at h2
    rw [flatL, flatL, e, List.count_append, List.count_cons, h1, h2, subtreesL.eq_2 c, List.length_append]
    simp
end

/-- The number that SL-DOP takes for the length of a derivation is its number of fragments. -/
theorem derivLen_eq {ws : Char → Bool} (hws : Bracket.Spec.Space ws) {d : PTree Str} (h : Bracket.Spec.Labels ws d)
    (hm : ∀ l cs, .node l cs ∈ subtrees d → ¬ ['}', '<'] <:+: l) : derivLen ws (flat d) = Spec.size d := by
  have h1 := tally_flat hws d h hm 0 [] (by simp)
  have h2 := count_flat d (fun l cs hl e => ((h l cs hl).2 _ e).2.1 rfl)
  have h3 : tally ws [] = 0 := rfl
  rw [List.replicate_zero, List.nil_append, List.append_nil, h3, Nat.add_zero] at h1
  have e : derivLen ws (flat d) = (flat d).count '(' - (tally ws (flat d) : ℤ) := rfl
  rw [e, h1, h2, Spec.size, addressed]
  have : (subtrees d).length = ((subtrees d).filter (fun n => decide ('@' ∈ n.label?.getD []))).length +
      ((subtrees d).filter (fun n => decide ('@' ∉ n.label?.getD []))).length := by
    have := List.length_eq_length_filter_add (l := subtrees d) (fun n => decide ('@' ∈ n.label?.getD []))
    rw [this]
    congr 2
    exact List.filter_congr (fun n _ => by simp)
  omega

/-! ### SL-DOP -/

theorem minPair_spec (x : ℤ × Str) (xs : List (ℤ × Str)) : minPair x xs ∈ x :: xs ∧ ∀ y ∈ x :: xs, (minPair x xs).1 ≤ y.1 := by
  induction xs generalizing x with
  | nil => simp [minPair]
  | cons z zs ih =>
    rw [minPair]
    split
    · rename_i hc
      obtain ⟨h1, h2⟩ := ih z
      refine ⟨List.mem_cons_of_mem _ h1, fun y hy => ?_⟩
      rcases List.mem_cons.1 hy with rfl | hy
      · have := h2 z (by simp)
        simp only [Bool.or_eq_true, decide_eq_true_eq, Bool.and_eq_true, beq_iff_eq] at hc
        omega
      · exact h2 y hy
    · rename_i hc
      obtain ⟨h1, h2⟩ := ih x
      refine ⟨?_, fun y hy => ?_⟩
      · rcases List.mem_cons.1 h1 with h1 | h1
        · rw [h1]; simp
        · simp [h1]
      · rcases List.mem_cons.1 hy with rfl | hy
        · exact h2 _ (by simp)
        · rcases List.mem_cons.1 hy with rfl | hy
          · have := h2 x (by simp)
            simp only [Bool.or_eq_true, decide_eq_true_eq, not_or, not_lt] at hc
            omega
          · exact h2 y (by simp [hy])

theorem foldl_set_fresh {C : Type} (xs : List (Str × C)) (d : Dict Str C) (h : (Dict.keys d ++ xs.map Prod.fst).Nodup) :
    xs.foldl (fun d x => Dict.set d x.1 x.2) d = d ++ xs := by
  have hset : ∀ (d : Dict Str C) (k : Str) (v : C), k ∉ Dict.keys d → Dict.set d k v = d ++ [(k, v)] := by
    intro d k v hk
    induction d with
    | nil => rfl
    | cons y d ih =>
      rw [Dict.set.eq_2, if_neg, ih]
      · rfl
      · exact fun e => hk (by simp [Dict.keys] at e ⊢; tauto)
      · exact fun e => hk (by simp [Dict.keys, e])
  induction xs generalizing d with
  | nil => simp
  | cons x xs ih =>
    rw [List.foldl_cons, hset, ih]
    · simp
    · simpa [Dict.keys] using h
    · intro hk
      rw [List.map_cons, List.nodup_append] at h
      exact h.2.2 _ hk _ (by simp) rfl

theorem items_tree (xs : List Str) (k : Str) (ds : List Str) :
    (k, ds) ∈ xs.foldl stepTree [] ↔ ds = xs.filter (fun x => removeIds [] false x = k) ∧ ds ≠ [] := by
  have h := mem_foldl_upd (V := List Str) (fun x : Str => removeIds [] false x) (fun o x => o.getD [] ++ [x]) xs k ds
  have hstep : (fun (d : Dict Str (List Str)) (x : Str) => upd d (removeIds [] false x) (fun o => o.getD [] ++ [x])) = stepTree := rfl
  rw [hstep] at h
  rw [h]
  have key : ∀ (ys : List Str) (zs : List Str), ys.foldl (fun (o : Option (List Str)) x => some (o.getD [] ++ [x])) (some zs) = some (zs ++ ys) := by
    intro ys
    induction ys with
    | nil => intro zs; simp
    | cons y ys ih => intro zs; rw [List.foldl_cons, Option.getD_some, ih]; simp
  cases hf : xs.filter (fun x => decide (removeIds [] false x = k)) with
  | nil => simp
  | cons x rest =>
    rw [List.foldl_cons, Option.getD_none, List.nil_append, key]
    constructor
    · intro e
      rw [← Option.some.inj e]
      simp
    · rintro ⟨rfl, _⟩
      rfl

section
variable {C K : Type} [LinearOrder C] [Field K] [LinearOrder K]

/-- The probability of a parse tree: the sum over its derivations in the list. -/
def Spec.mass (p : C → K) (ds : List (PTree Str × C)) (t : PTree Str) : K :=
  ((ds.filter (fun e => Spec.parsetree e.1 = t)).map (fun e => p e.2)).sum

omit [LinearOrder C] in
/-- **C57 (SL-DOP).** From a list of distinct derivations, `sl-dop-simple` selects the `n` most probable parse trees (all, if there are not as
many), each once and with the sum of the probabilities of its derivations, and reports the least number of fragments of its derivations in the
list together with the fragments of such a derivation. -/
theorem C57_sldop (ws : Char → Bool) (hws : Bracket.Spec.Space ws) (p : C → K) {F : Type} (fr : Str → F) (n : Nat)
    (ds : List (PTree Str × C)) (h : ∀ d ∈ ds, Spec.Good ws d.1) (hd : (ds.map Prod.fst).Nodup)
    (hm : ∀ d ∈ ds, ∀ l cs, .node l cs ∈ subtrees d.1 → ¬ ['}', '<'] <:+: l) :
    ((sldopSimple ws p fr n (ds.map (fun d => (flat d.1, d.2)))).map Prod.fst).Nodup ∧
    (∀ r ∈ sldopSimple ws p fr n (ds.map (fun d => (flat d.1, d.2))), ∃ d ∈ ds, r.1 = flat (Spec.parsetree d.1) ∧
      r.2.1 = .short (-(Spec.size d.1)) (Spec.mass p ds (Spec.parsetree d.1)) ∧ r.2.2 = fr (flat d.1) ∧
      ∀ e ∈ ds, Spec.parsetree e.1 = Spec.parsetree d.1 → Spec.size d.1 ≤ Spec.size e.1) ∧
    ∀ d ∈ ds, (∃ r ∈ sldopSimple ws p fr n (ds.map (fun d => (flat d.1, d.2))), r.1 = flat (Spec.parsetree d.1)) ∨
      ((sldopSimple ws p fr n (ds.map (fun d => (flat d.1, d.2)))).length = n ∧
        ∀ r ∈ sldopSimple ws p fr n (ds.map (fun d => (flat d.1, d.2))), ∃ e ∈ ds, r.1 = flat (Spec.parsetree e.1) ∧
          Spec.mass p ds (Spec.parsetree d.1) ≤ Spec.mass p ds (Spec.parsetree e.1)) := by
  have hnd : ((ds.map (fun d => (flat d.1, d.2))).map Prod.fst).Nodup := by
    rw [List.map_map]
    have e : (Prod.fst ∘ fun d : PTree Str × C => (flat d.1, d.2)) = flat ∘ Prod.fst := rfl
    rw [e, ← List.map_map]
    refine List.Nodup.map_on ?_ hd
    intro x hx y hy hxy
    obtain ⟨a, ha, rfl⟩ := List.mem_map.1 hx
    obtain ⟨b, hb, rfl⟩ := List.mem_map.1 hy
    exact flat_inj hws (h a ha).1 (h b hb).1 (h a ha).2.2 (h b hb).2.2 hxy
  have hders : (ds.map (fun d => (flat d.1, d.2))).foldl (fun d x => Dict.set d x.1 x.2) ([] : Dict Str C) = ds.map (fun d => (flat d.1, d.2)) := by
    rw [foldl_set_fresh _ _ (by simpa [Dict.keys] using hnd)]; rfl
  unfold sldopSimple
  simp only [hders]
  have hkeys : Dict.keys (ds.map (fun d => (flat d.1, d.2))) = ds.map (fun d => flat d.1) := by
    rw [Dict.keys, List.map_map]; rfl
  rw [hkeys]
  set groups := (ds.map (fun d => flat d.1)).foldl stepTree [] with hgr
  set trees := groups.map (fun x : Str × List Str => (x.1, x.2, total p (x.2.filterMap (Dict.get? (ds.map (fun d => (flat d.1, d.2))))))) with htr
  have hwf : Dict.WF groups := wf_foldl_upd (fun x : Str => removeIds [] false x) _ _ [] (by simp [Dict.WF, Dict.keys])
  -- what the entries are
  have hentry : ∀ x ∈ trees, ∃ d ∈ ds, x.1 = flat (Spec.parsetree d.1) ∧ x.2.2 = Spec.mass p ds (Spec.parsetree d.1) ∧
      x.2.1 = (ds.filter (fun e => Spec.parsetree e.1 = Spec.parsetree d.1)).map (fun e => flat e.1) := by
    intro x hx
    obtain ⟨⟨k, g⟩, hg, rfl⟩ := List.mem_map.1 hx
    obtain ⟨h1, h2⟩ := (items_tree _ k g).1 hg
    rw [List.filter_map] at h1
    cases hf : ds.filter ((fun x => decide (removeIds [] false x = k)) ∘ fun d => flat d.1) with
    | nil => rw [hf] at h1; exact absurd h1 h2
    | cons d rest =>
      have hdm : d ∈ ds ∧ removeIds [] false (flat d.1) = k := by
        have : d ∈ ds.filter ((fun x => decide (removeIds [] false x = k)) ∘ fun d => flat d.1) := by rw [hf]; simp
        simpa using List.mem_filter.1 this
      have hfe : ds.filter ((fun x => decide (removeIds [] false x = k)) ∘ fun d => flat d.1) =
          ds.filter (fun e => decide (Spec.parsetree e.1 = Spec.parsetree d.1)) := by
        refine List.filter_congr (fun e he => decide_eq_decide.2 ?_)
        rw [← hdm.2]
        exact tree_eq_iff hws (h e he).2.1 (h d hdm.1).2.1 (h e he).2.2 (h d hdm.1).2.2 (h e he).1 (h d hdm.1).1
      refine ⟨d, hdm.1, ?_, ?_, ?_⟩
      · exact hdm.2.symm.trans (removeIds_tree (h d hdm.1).2.1)
      · rw [h1, hfe, total, Spec.mass, List.filterMap_map]
        have : (ds.filter (fun e => decide (Spec.parsetree e.1 = Spec.parsetree d.1))).filterMap
            (Dict.get? (ds.map (fun d => (flat d.1, d.2))) ∘ fun d => flat d.1) =
            (ds.filter (fun e => decide (Spec.parsetree e.1 = Spec.parsetree d.1))).map (fun e => e.2) := by
          rw [← List.filterMap_eq_map (f := fun e : PTree Str × C => e.2)]
          apply List.filterMap_congr
          intro e he
          have he := (List.mem_filter.1 he).1
          exact Dict.get?_of_mem (hd := by rw [Dict.WF, hkeys]; simpa [List.map_map, Function.comp_def] using hnd)
            (List.mem_map_of_mem (f := fun d : PTree Str × C => (flat d.1, d.2)) he)
        rw [this, List.map_map]; rfl
      · rw [h1, hfe]
  have hexists : ∀ d ∈ ds, ∃ x ∈ trees, x.1 = flat (Spec.parsetree d.1) := by
    intro d hdd
    have := (items_tree (ds.map (fun d => flat d.1)) (removeIds [] false (flat d.1)) _).2 ⟨rfl, by
      refine List.ne_nil_of_mem (a := flat d.1) ?_
      rw [List.mem_filter]
      exact ⟨List.mem_map_of_mem (f := fun d : PTree Str × C => flat d.1) hdd, by simp⟩⟩
    exact ⟨_, List.mem_map_of_mem this, removeIds_tree (h d hdd).2.1⟩
  have hfst : trees.map Prod.fst = Dict.keys groups := by rw [htr, List.map_map]; rfl
  set sorted := stableSort (fun a b : Str × List Str × K => decide (b.2.2 ≤ a.2.2)) trees with hso
  have hperm : sorted.Perm trees := StableSort.perm _
  have hpw : sorted.Pairwise (fun a b => b.2.2 ≤ a.2.2) := by
    have := StableSort.pairwise (le := fun a b : Str × List Str × K => decide (b.2.2 ≤ a.2.2))
      (by intro a b c h1 h2; simp only [decide_eq_true_eq] at *; exact h2.trans h1)
      (by intro a b; simp only [Bool.or_eq_true, decide_eq_true_eq]; exact le_total _ _) trees
    exact this.imp (fun h => of_decide_eq_true h)
  -- the result of one entry
  have hres : ∀ x ∈ trees, ∃ d ∈ ds, x.1 = flat (Spec.parsetree d.1) ∧ x.2.2 = Spec.mass p ds (Spec.parsetree d.1) ∧
      slResult ws fr x =
          some (x.1, Score.short (-(Spec.size d.1)) x.2.2, fr (flat d.1)) ∧
      ∀ e ∈ ds, Spec.parsetree e.1 = Spec.parsetree d.1 → Spec.size d.1 ≤ Spec.size e.1 := by
    intro x hx
    obtain ⟨d0, hd0, h1, h2, h3⟩ := hentry x hx
    have hmem : ∀ y, y ∈ x.2.1.map (fun d => (derivLen ws d, d)) ↔ ∃ e ∈ ds, Spec.parsetree e.1 = Spec.parsetree d0.1 ∧ y = ((Spec.size e.1 : ℤ), flat e.1) := by
      intro y
      rw [h3, List.map_map, List.mem_map]
      constructor
      · rintro ⟨e, he, rfl⟩
        rw [List.mem_filter, decide_eq_true_iff] at he
        refine ⟨e, he.1, he.2, ?_⟩
        simp only [Function.comp]
        rw [derivLen_eq hws (h e he.1).2.2 (hm e he.1)]
      · rintro ⟨e, he, he', rfl⟩
        refine ⟨e, by rw [List.mem_filter, decide_eq_true_iff]; exact ⟨he, he'⟩, ?_⟩
        simp only [Function.comp]
        rw [derivLen_eq hws (h e he).2.2 (hm e he)]
    cases hl : x.2.1.map (fun d => (derivLen ws d, d)) with
    | nil =>
      have := (hmem _).2 ⟨d0, hd0, rfl, rfl⟩
      rw [hl] at this; cases this
    | cons y ys =>
      rw [hl] at hmem
      obtain ⟨m1, m2⟩ := minPair_spec y ys
      obtain ⟨e, he, het, hee⟩ := (hmem _).1 m1
      refine ⟨e, he, ?_, ?_, ?_, ?_⟩
      · rw [h1, het]
      · rw [h2, het]
      · rw [slResult, hl]
        simp only []
        rw [hee]
      · intro e' he' het'
        have := m2 _ ((hmem _).2 ⟨e', he', het'.trans het, rfl⟩)
        rw [hee] at this
        have this : (Spec.size e.1 : ℤ) ≤ (Spec.size e'.1 : ℤ) := this
        exact_mod_cast this
  set f := slResult (K := K) ws fr with hfdef
  have hfm : ∀ xs : List (Str × List Str × K), (∀ x ∈ xs, x ∈ trees) → (xs.filterMap f).map Prod.fst = xs.map Prod.fst := by
    intro xs hxs
    induction xs with
    | nil => rfl
    | cons x xs ih =>
      obtain ⟨d, _, _, _, hx, _⟩ := hres x (hxs x (by simp))
      have hx' : f x = some (x.1, Score.short (-(Spec.size d.1 : ℤ)) x.2.2, fr (flat d.1)) := hx
      rw [List.filterMap_cons, hx', List.map_cons, List.map_cons, ih (fun y hy => hxs y (by simp [hy]))]
  have htake : ∀ x ∈ sorted.take n, x ∈ trees := fun x hx => hperm.mem_iff.1 (List.mem_of_mem_take hx)
  refine ⟨?_, ?_, ?_⟩
  · have := hfm (sorted.take n) htake
    rw [this]
    have h2 : (sorted.map Prod.fst).Nodup := (hperm.map Prod.fst).nodup_iff.2 (by rw [hfst]; exact hwf)
    rw [List.map_take]
    exact h2.sublist (List.take_sublist _ _)
  · intro r hr
    obtain ⟨x, hx, hfx⟩ := List.mem_filterMap.1 hr
    obtain ⟨d, hdd, h1, h2, h3, h4⟩ := hres x (htake x hx)
    have h3' : f x = some (x.1, Score.short (-(Spec.size d.1 : ℤ)) x.2.2, fr (flat d.1)) := h3
    have hfx' : f x = some r := hfx
    rw [h3'] at hfx'
    have := Option.some.inj hfx'
    subst this
    exact ⟨d, hdd, h1, by rw [h2], rfl, h4⟩
  · intro d hdd
    obtain ⟨x, hx, hx1⟩ := hexists d hdd
    have hxs : x ∈ sorted := hperm.mem_iff.2 hx
    rw [← List.take_append_drop n sorted, List.mem_append] at hxs
    have hf' : ∀ y ∈ sorted.take n, ∃ r ∈ (sorted.take n).filterMap f, r.1 = y.1 := by
      intro y hy
      obtain ⟨d', _, _, _, h3, _⟩ := hres y (htake y hy)
      exact ⟨_, List.mem_filterMap.2 ⟨y, hy, h3⟩, rfl⟩
    rcases hxs with hxs | hxs
    · left
      obtain ⟨r, hr, e⟩ := hf' x hxs
      exact ⟨r, hr, e.trans hx1⟩
    · right
      have hlen : (sorted.take n).length = n := by
        rw [List.length_take]
        have := List.length_pos_of_mem hxs
        rw [List.length_drop] at this
        omega
      have hmass : ∀ y ∈ trees, ∀ e ∈ ds, y.1 = flat (Spec.parsetree e.1) → y.2.2 = Spec.mass p ds (Spec.parsetree e.1) := by
        intro y hy e he hye
        obtain ⟨e', he', h1, h2, _⟩ := hentry y hy
        have heq : Spec.parsetree e'.1 = Spec.parsetree e.1 := by
          rw [← tree_eq_iff hws (h e' he').2.1 (h e he).2.1 (h e' he').2.2 (h e he).2.2 (h e' he').1 (h e he).1,
            removeIds_tree (h e' he').2.1, removeIds_tree (h e he).2.1, ← h1, hye]
        rw [h2, heq]
      constructor
      · have := congrArg List.length (hfm (sorted.take n) htake)
        rw [List.length_map, List.length_map] at this
        exact this.trans hlen
      · intro r hr
        obtain ⟨y, hy, hfy⟩ := List.mem_filterMap.1 hr
        obtain ⟨e, he, h1, h2, h3, _⟩ := hres y (htake y hy)
        have h3' : f y = some (y.1, Score.short (-(Spec.size e.1 : ℤ)) y.2.2, fr (flat e.1)) := h3
        have hfy' : f y = some r := hfy
        rw [h3'] at hfy'
        have := Option.some.inj hfy'
        subst this
        refine ⟨e, he, h1, ?_⟩
        rw [← hmass x hx d hdd hx1, ← h2]
        have hpw' := hpw
        rw [← List.take_append_drop n sorted, List.pairwise_append] at hpw'
        exact hpw'.2.2 y hy x hxs

end

end Disco.Disamb
