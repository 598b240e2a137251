import Verif.Disamb.Marginalize
import Mathlib.Analysis.SpecialFunctions.Log.Basic
/-!
# C57: selecting parse trees from a list of derivations (theorems)
-/
namespace Disco.Disamb
open PTree _root_.Disco.Bracket

/-! ### Specification -/

/-- A label of a DOP reduction: a category, possibly followed by an address (`@` and digits or hyphens). -/
def Spec.Label (l : Str) : Prop :=
  ('@' ∉ l) ∨ ∃ b a, b ≠ [] ∧ '@' ∉ b ∧ a ≠ [] ∧ (∀ c ∈ a, c.isDigit = true ∨ c = '-') ∧ l = b ++ '@' :: a

/-- All labels of a derivation are of this form. -/
def Spec.Derivation (t : PTree Str) : Prop := ∀ l cs, .node l cs ∈ subtrees t → Spec.Label l

/-- The category. -/
def Spec.base (l : Str) : Str := l.takeWhile (· ≠ '@')

/-- The parse tree of a derivation: the derivation without its addresses. -/
def Spec.parsetree (d : PTree Str) : PTree Str := mapLabel Spec.base d

/-- The parse tree of a derivation with the information which nodes are internal to a fragment. -/
def Spec.cut (d : PTree Str) : PTree (Str × Bool) := mapLabel (fun l => (Spec.base l, decide ('@' ∈ l))) d

/-! ### Removing addresses -/

theorem removeIds_plain (r x s : Str) (h : '@' ∉ x) : removeIds r false (x ++ s) = x ++ removeIds r false s := by
  induction x with
  | nil => rfl
  | cons c x ih =>
    have hc : c ≠ '@' := fun e => h (by simp [e])
    rw [List.cons_append, removeIds]
    simp only [Bool.false_and, Bool.false_eq_true, if_false, beq_eq_false_iff_ne.2 hc]
    rw [ih (fun e => h (by simp [e]))]
    rfl

theorem removeIds_skip (r a s : Str) (h : ∀ c ∈ a, idChar c = true) : removeIds r true (a ++ s) = removeIds r true s := by
  induction a with
  | nil => rfl
  | cons c a ih =>
    rw [List.cons_append, removeIds]
    simp only [Bool.true_and, h c (by simp), if_true]
    exact ih (fun c hc => h c (by simp [hc]))

/-- What `removeIds` does with a label. -/
def relabel (r l : Str) : Str := Spec.base l ++ (if '@' ∈ l then r else [])

theorem idChar_iff (c : Char) : idChar c = true ↔ c.isDigit = true ∨ c = '-' := by
  simp [idChar]

theorem base_plain {l : Str} (h : '@' ∉ l) : Spec.base l = l := by
  have := List.takeWhile_append_of_pos (p := (· ≠ '@')) (l₁ := l) (l₂ := []) (by
    intro c hc
    simp only [ne_eq, decide_not, Bool.not_eq_true', decide_eq_false_iff_not]
    exact fun e => h (e ▸ hc))
  simpa [Spec.base] using this

theorem base_address {b a : Str} (h : '@' ∉ b) : Spec.base (b ++ '@' :: a) = b := by
  rw [Spec.base, List.takeWhile_append_of_pos]
  · simp
  · intro c hc
    simp only [ne_eq, decide_not, Bool.not_eq_true', decide_eq_false_iff_not]
    exact fun e => h (e ▸ hc)

theorem removeIds_label (r l s : Str) (h : Spec.Label l) :
    removeIds r false (l ++ ' ' :: s) = relabel r l ++ ' ' :: removeIds r false s := by
  have hsp : ∀ b, removeIds r b (' ' :: s) = ' ' :: removeIds r false s := by
    intro b
    rw [removeIds]
    have : idChar ' ' = false := by decide
    simp [this]
  rcases h with h | ⟨b, a, _, hb, ha, hc, rfl⟩
  · rw [removeIds_plain r l _ h, hsp, relabel, base_plain h, if_neg h, List.append_nil]
  · rw [List.append_assoc, removeIds_plain r b _ hb, relabel, base_address hb, if_pos (by simp), List.append_assoc]
    congr 1
    obtain ⟨x, a', rfl⟩ := List.exists_cons_of_ne_nil ha
    rw [List.cons_append, removeIds, if_neg (by decide)]
    rw [if_pos (by simp [idChar_iff, hc x (by simp)])]
    rw [removeIds_skip r (x :: a') _ (fun c h' => (idChar_iff c).2 (hc c h')), hsp]

theorem at_notMem_digits (i : Nat) : '@' ∉ Nat.toDigits 10 i := by
  intro h
  have := Nat.isDigit_of_mem_toDigits (by decide) (by decide) h
  exact absurd this (by decide)

mutual
theorem removeIds_flat (r : Str) : ∀ (t : PTree Str), Spec.Derivation t → ∀ s, removeIds r false (flat t ++ s) = flat (mapLabel (relabel r) t) ++ removeIds r false s
  | .leaf i, _, s => by
    rw [flat, mapLabel_leaf, flat, removeIds_plain _ _ _ (at_notMem_digits i)]
  | .node l cs, h, s => by
    have hl := h l cs (by simp [subtrees])
    have hcs : ∀ c ∈ cs, Spec.Derivation c := fun c hc l' cs' h' => h l' cs' (by
      rw [subtrees, List.mem_cons, mem_subtreesL]; exact .inr ⟨c, hc, h'⟩)
    rw [flat, mapLabel_node, flat]
    have e1 : ('(' :: (l ++ ' ' :: (Str.join [' '] (flatL cs) ++ [')']))) ++ s = ['('] ++ (l ++ ' ' :: (Str.join [' '] (flatL cs) ++ (')' :: s))) := by simp
    rw [e1, removeIds_plain _ _ _ (by decide), removeIds_label _ _ _ hl, removeIds_flatL r cs hcs (')' :: s)]
    have e2 : removeIds r false (')' :: s) = ')' :: removeIds r false s := removeIds_plain r [')'] s (by decide)
    rw [e2]
    simp
theorem removeIds_flatL (r : Str) : ∀ (cs : List (PTree Str)), (∀ c ∈ cs, Spec.Derivation c) → ∀ s,
    removeIds r false (Str.join [' '] (flatL cs) ++ s) = Str.join [' '] (flatL (mapLabelL (relabel r) cs)) ++ removeIds r false s
  | [], _, s => by simp [flatL, mapLabelL, Str.join, List.intercalate]
  | [c], h, s => by
    have := removeIds_flat r c (h c (by simp)) s
    simpa [flatL, mapLabelL, Str.join, List.intercalate] using this
  | c :: c' :: cs, h, s => by
    have e : ∀ (x y : Str) (zs : List Str), Str.join [' '] (x :: y :: zs) = x ++ ' ' :: Str.join [' '] (y :: zs) := by
      intro x y zs; simp [Str.join, List.intercalate]
    have ih := removeIds_flatL r (c' :: cs) (fun x hx => h x (by simp [hx])) s
    rw [flatL, flatL, e, mapLabelL, mapLabelL, flatL, flatL, e, List.append_assoc, removeIds_flat r c (h c (by simp)), List.append_assoc]
    congr 1
    have e2 : removeIds r false (' ' :: (Str.join [' '] (flat c' :: flatL cs) ++ s)) = ' ' :: removeIds r false (Str.join [' '] (flat c' :: flatL cs) ++ s) :=
      removeIds_plain r [' '] _ (by decide)
    rw [List.cons_append, e2]
    rw [flatL, mapLabelL, flatL] at ih
    rw [ih]
    rfl
end

theorem removeIds_flat' (r : Str) (t : PTree Str) (h : Spec.Derivation t) : removeIds r false (flat t) = flat (mapLabel (relabel r) t) := by
  have := removeIds_flat r t h []
  simpa [removeIds] using this

theorem relabel_nil : relabel [] = Spec.base := by
  funext l; simp [relabel]

/-! ### Distinct trees have distinct strings -/

theorem exists_pyInt : ∃ pyInt : Str → Option Nat, ∀ n, pyInt (Nat.toDigits 10 n) = some n :=
  ⟨fun s => some (Nat.ofDigitChars 10 s 0), fun n => by simp⟩

theorem flat_inj {ws : Char → Bool} (hws : Bracket.Spec.Space ws) {t u : PTree Str} (ht : t.isNode) (hu : u.isNode)
    (h1 : Bracket.Spec.Labels ws t) (h2 : Bracket.Spec.Labels ws u) (h : flat t = flat u) : t = u := by
  obtain ⟨pyInt, hint⟩ := exists_pyInt
  cases t with
  | leaf => cases ht
  | node l cs =>
    cases u with
    | leaf => cases hu
    | node l' cs' =>
      have a := C12_parse_str ws hws pyInt hint l cs h1
      rw [h, C12_parse_str ws hws pyInt hint l' cs' h2] at a
      exact (Option.some.inj a).symm

mutual
theorem mem_subtrees_mapLabel {L M : Type} (f : L → M) : ∀ (t : PTree L) {l : M} {cs : List (PTree M)}, .node l cs ∈ subtrees (mapLabel f t) →
    ∃ l' cs', .node l' cs' ∈ subtrees t ∧ f l' = l
  | .leaf i, l, cs, h => by simp [mapLabel] at h
  | .node l' cs', l, cs, h => by
    rw [mapLabel_node, subtrees, List.mem_cons] at h
    rcases h with h | h
    · injection h with h1 h2
      exact ⟨l', cs', by simp [subtrees], h1.symm⟩
    · obtain ⟨l'', cs'', h1, h2⟩ := mem_subtreesL_mapLabel f cs' h
      exact ⟨l'', cs'', by rw [subtrees]; exact List.mem_cons_of_mem _ h1, h2⟩
theorem mem_subtreesL_mapLabel {L M : Type} (f : L → M) : ∀ (ts : List (PTree L)) {l : M} {cs : List (PTree M)}, .node l cs ∈ subtreesL (mapLabelL f ts) →
    ∃ l' cs', .node l' cs' ∈ subtreesL ts ∧ f l' = l
  | [], l, cs, h => by simp [mapLabelL] at h
  | t :: ts, l, cs, h => by
    rw [mapLabelL, subtreesL, List.mem_append] at h
    rcases h with h | h
    · obtain ⟨l'', cs'', h1, h2⟩ := mem_subtrees_mapLabel f t h
      exact ⟨l'', cs'', by rw [subtreesL]; exact List.mem_append_left _ h1, h2⟩
    · obtain ⟨l'', cs'', h1, h2⟩ := mem_subtreesL_mapLabel f ts h
      exact ⟨l'', cs'', by rw [subtreesL]; exact List.mem_append_right _ h1, h2⟩
end

theorem base_ne_nil {l : Str} (h : Spec.Label l) (hl : l ≠ []) : Spec.base l ≠ [] := by
  rcases h with h | ⟨b, a, hb0, hb, _, _, rfl⟩
  · rwa [base_plain h]
  · rwa [base_address hb]

theorem labels_relabel {ws : Char → Bool} (hws : Bracket.Spec.Space ws) {d : PTree Str} (h : Spec.Derivation d) (hl : Bracket.Spec.Labels ws d)
    (r : Str) (hr : r = [] ∨ r = ['@', '1']) : Bracket.Spec.Labels ws (mapLabel (relabel r) d) := by
  intro l cs hm
  obtain ⟨l', cs', h1, rfl⟩ := mem_subtrees_mapLabel _ _ hm
  obtain ⟨h2, h3⟩ := hl l' cs' h1
  refine ⟨fun e => base_ne_nil (h l' cs' h1) h2 (List.append_eq_nil_iff.1 e).1, fun c hc => ?_⟩
  rw [relabel, List.mem_append] at hc
  rcases hc with hc | hc
  · exact h3 c ((List.takeWhile_sublist _).subset hc)
  · split at hc
    · rcases hr with rfl | rfl
      · cases hc
      · rcases List.mem_cons.1 hc with rfl | hc
        · exact h3 _ (by assumption)
        · rw [List.mem_singleton] at hc
          subst hc
          exact ⟨hws.digit _ (by decide), by decide, by decide⟩
    · cases hc

theorem isNode_mapLabel' {L M : Type} (f : L → M) (t : PTree L) : (mapLabel f t).isNode = t.isNode := by
  cases t <;> simp [isNode]

theorem at_notMem_base (l : Str) : '@' ∉ Spec.base l := by
  intro h
  have := List.all_takeWhile (p := (· ≠ '@')) (l := l)
  rw [List.all_eq_true] at this
  simpa using this _ h

theorem relabel_one (l : Str) : Spec.base (relabel ['@', '1'] l) = Spec.base l ∧ ('@' ∈ relabel ['@', '1'] l ↔ '@' ∈ l) := by
  rw [relabel]
  have hb := at_notMem_base l
  by_cases h : '@' ∈ l
  · simp only [h, if_true]
    exact ⟨base_address hb, by simp⟩
  · simp only [h, if_false, List.append_nil]
    exact ⟨base_plain hb, by simp [hb]⟩

mutual
theorem mapLabel_comp {L M N : Type} (f : L → M) (g : M → N) : ∀ t : PTree L, mapLabel g (mapLabel f t) = mapLabel (fun l => g (f l)) t
  | .leaf i => by simp
  | .node l cs => by simp [mapLabel_compL f g cs]
theorem mapLabel_compL {L M N : Type} (f : L → M) (g : M → N) : ∀ ts : List (PTree L), mapLabelL g (mapLabelL f ts) = mapLabelL (fun l => g (f l)) ts
  | [] => by simp [mapLabelL]
  | t :: ts => by simp [mapLabelL, mapLabel_comp f g t, mapLabel_compL f g ts]
end

/-- The key of a derivation for `mpd` and `shortest` determines, and is determined by, the parse tree and the fragment boundaries. -/
theorem cut_eq (d : PTree Str) : Spec.cut (mapLabel (relabel ['@', '1']) d) = Spec.cut d := by
  rw [Spec.cut, Spec.cut, mapLabel_comp]
  congr 1
  funext l
  obtain ⟨h1, h2⟩ := relabel_one l
  simp [h1, h2]

theorem relabel_of_cut (d : PTree Str) : mapLabel (relabel ['@', '1']) d = mapLabel (fun x => x.1 ++ if x.2 then ['@', '1'] else []) (Spec.cut d) := by
  rw [Spec.cut, mapLabel_comp]
  congr 1
  funext l
  simp [relabel]

theorem key_eq_iff {ws : Char → Bool} (hws : Bracket.Spec.Space ws) {d e : PTree Str} (hd : Spec.Derivation d) (he : Spec.Derivation e)
    (hld : Bracket.Spec.Labels ws d) (hle : Bracket.Spec.Labels ws e) (nd : d.isNode) (ne : e.isNode) :
    removeIds ['@', '1'] false (flat d) = removeIds ['@', '1'] false (flat e) ↔ Spec.cut d = Spec.cut e := by
  rw [removeIds_flat' _ _ hd, removeIds_flat' _ _ he]
  constructor
  · intro h
    have := flat_inj hws (by rw [isNode_mapLabel']; exact nd) (by rw [isNode_mapLabel']; exact ne) (labels_relabel hws hd hld _ (.inr rfl))
      (labels_relabel hws he hle _ (.inr rfl)) h
    rw [← cut_eq d, this, cut_eq]
  · intro h
    rw [relabel_of_cut, relabel_of_cut, h]

theorem tree_eq_iff {ws : Char → Bool} (hws : Bracket.Spec.Space ws) {d e : PTree Str} (hd : Spec.Derivation d) (he : Spec.Derivation e)
    (hld : Bracket.Spec.Labels ws d) (hle : Bracket.Spec.Labels ws e) (nd : d.isNode) (ne : e.isNode) :
    removeIds [] false (flat d) = removeIds [] false (flat e) ↔ Spec.parsetree d = Spec.parsetree e := by
  rw [removeIds_flat' _ _ hd, removeIds_flat' _ _ he, relabel_nil]
  constructor
  · intro h
    have h1 := labels_relabel hws hd hld [] (.inl rfl)
    have h2 := labels_relabel hws he hle [] (.inl rfl)
    rw [relabel_nil] at h1 h2
    exact flat_inj hws ((isNode_mapLabel' _ _).trans nd) ((isNode_mapLabel' _ _).trans ne) h1 h2 h
  · intro h
    rw [Spec.parsetree, Spec.parsetree] at h
    rw [h]

/-! ### Grouping -/

theorem get?_foldl_upd {V X : Type} (key : X → Str) (g : Option V → X → V) (xs : List X) (d : Dict Str V) (k : Str) :
    Dict.get? (xs.foldl (fun d x => upd d (key x) (fun o => g o x)) d) k =
      (xs.filter (fun x => key x = k)).foldl (fun o x => some (g o x)) (Dict.get? d k) := by
  induction xs generalizing d with
  | nil => rfl
  | cons x xs ih =>
    rw [List.foldl_cons, ih, upd, Dict.get?_set, List.filter_cons]
    by_cases h : key x = k
    · simp [h]
    · simp [h]

theorem wf_foldl_upd {V X : Type} (key : X → Str) (g : Option V → X → V) (xs : List X) (d : Dict Str V) (hd : Dict.WF d) :
    Dict.WF (xs.foldl (fun d x => upd d (key x) (fun o => g o x)) d) := by
  induction xs generalizing d with
  | nil => exact hd
  | cons x xs ih => exact ih _ (hd.set _ _)

/-- The items of a dictionary built by `upd`: one for each key, with the elements of this key folded in order. -/
theorem mem_foldl_upd {V X : Type} (key : X → Str) (g : Option V → X → V) (xs : List X) (k : Str) (v : V) :
    (k, v) ∈ xs.foldl (fun d x => upd d (key x) (fun o => g o x)) ([] : Dict Str V) ↔
      (xs.filter (fun x => key x = k)).foldl (fun o x => some (g o x)) none = some v := by
  have hwf := wf_foldl_upd key g xs [] (by simp [Dict.WF, Dict.keys])
  have hg := get?_foldl_upd key g xs [] k
  rw [Dict.get?] at hg
  rw [← hg]
  exact ⟨Dict.get?_of_mem hwf, Dict.mem_of_get?⟩

section
variable {C K D : Type} [LinearOrder C] [Field K] [LinearOrder K]

omit [LinearOrder C] in
theorem items_mpp (xs : List (Str × C × D)) (k : Str) (cs : List C) (n : D) :
    (k, cs, n) ∈ xs.foldl stepMpp [] ↔ ∃ x rest, xs.filter (fun x => x.1 = k) = x :: rest ∧ cs = (x :: rest).map (fun y => y.2.1) ∧ n = x.2.2 := by
  have h := mem_foldl_upd (V := List C × D) (fun x : Str × C × D => x.1)
    (fun o x => match o with | none => ([x.2.1], x.2.2) | some (cs, n) => (cs ++ [x.2.1], n)) xs k (cs, n)
  have hstep : (fun (d : Dict Str (List C × D)) (x : Str × C × D) => upd d x.1 (fun o => match o with
      | none => ([x.2.1], x.2.2) | some (cs, n) => (cs ++ [x.2.1], n))) = stepMpp := rfl
  rw [hstep] at h
  rw [h]
  have key : ∀ (ys : List (Str × C × D)) (cs : List C) (n : D), ys.foldl (fun o x => some (match o with
      | none => ([x.2.1], x.2.2) | some (cs, n) => (cs ++ [x.2.1], n))) (some (cs, n)) = some (cs ++ ys.map (fun y => y.2.1), n) := by
    intro ys
    induction ys with
    | nil => intro cs n; simp
    | cons y ys ih => intro cs n; rw [List.foldl_cons, ih]; simp
  cases hf : xs.filter (fun x => decide (x.1 = k)) with
  | nil => simp
  | cons x rest =>
    rw [List.foldl_cons]
    simp only []
    rw [key]
    constructor
    · intro e
      have := Option.some.inj e
      injection this with e1 e2
      exact ⟨x, rest, rfl, by rw [← e1]; rfl, e2.symm⟩
    · rintro ⟨x', rest', e, rfl, rfl⟩
      injection e with e1 e2
      subst e1 e2
      rfl

theorem items_mpd (xs : List (Str × C × D)) :
    (∀ k c n, (k, c, n) ∈ xs.foldl stepMpd [] → (k, c, n) ∈ xs ∧ ∀ y ∈ xs, y.1 = k → c ≤ y.2.1) ∧
    ∀ x ∈ xs, ∃ c n, (x.1, c, n) ∈ xs.foldl stepMpd [] := by
  have h := fun k c n => mem_foldl_upd (V := C × D) (fun x : Str × C × D => x.1)
    (fun o x => match o with | none => (x.2.1, x.2.2) | some (c, n) => if x.2.1 < c then (x.2.1, x.2.2) else (c, n)) xs k (c, n)
  have hstep : (fun (d : Dict Str (C × D)) (x : Str × C × D) => upd d x.1 (fun o => match o with
      | none => (x.2.1, x.2.2) | some (c, n) => if x.2.1 < c then (x.2.1, x.2.2) else (c, n))) = stepMpd := rfl
  rw [hstep] at h
  have key : ∀ (ys : List (Str × C × D)) (c : C) (n : D), ∃ c' n', ys.foldl (fun o x => some (match o with
      | none => (x.2.1, x.2.2) | some (c, n) => if x.2.1 < c then (x.2.1, x.2.2) else (c, n))) (some (c, n)) = some (c', n') ∧
      ((c' = c ∧ n' = n) ∨ ∃ y ∈ ys, y.2 = (c', n')) ∧ c' ≤ c ∧ ∀ y ∈ ys, c' ≤ y.2.1 := by
    intro ys
    induction ys with
    | nil => intro c n; exact ⟨c, n, rfl, .inl ⟨rfl, rfl⟩, le_rfl, by simp⟩
    | cons y ys ih =>
      intro c n
      rw [List.foldl_cons]
      simp only []
      by_cases hy : y.2.1 < c
      · rw [if_pos hy]
        obtain ⟨c', n', h1, h2, h3, h4⟩ := ih y.2.1 y.2.2
        refine ⟨c', n', h1, .inr ?_, h3.trans hy.le, ?_⟩
        · rcases h2 with ⟨rfl, rfl⟩ | ⟨z, hz, e⟩
          · exact ⟨y, by simp, rfl⟩
          · exact ⟨z, by simp [hz], e⟩
        · intro z hz
          rcases List.mem_cons.1 hz with rfl | hz
          · exact h3
          · exact h4 z hz
      · rw [if_neg hy]
        obtain ⟨c', n', h1, h2, h3, h4⟩ := ih c n
        refine ⟨c', n', h1, ?_, h3, ?_⟩
        · rcases h2 with h2 | ⟨z, hz, e⟩
          · exact .inl h2
          · exact .inr ⟨z, by simp [hz], e⟩
        · intro z hz
          rcases List.mem_cons.1 hz with rfl | hz
          · exact h3.trans (not_lt.1 hy)
          · exact h4 z hz
  refine ⟨fun k c n hm => ?_, fun x hx => ?_⟩
  · rw [h] at hm
    cases hf : xs.filter (fun x => decide (x.1 = k)) with
    | nil => rw [hf] at hm; cases hm
    | cons x rest =>
      rw [hf, List.foldl_cons] at hm
      simp only [] at hm
      obtain ⟨c', n', h1, h2, h3, h4⟩ := key rest x.2.1 x.2.2
      rw [h1] at hm
      injection hm with hm
      injection hm with e1 e2
      subst e1 e2
      have hmem : ∀ y, y ∈ xs ∧ y.1 = k ↔ y ∈ x :: rest := fun y => by rw [← hf, List.mem_filter]; simp
      constructor
      · rcases h2 with ⟨rfl, rfl⟩ | ⟨y, hy, e⟩
        · obtain ⟨a, b⟩ := (hmem x).2 (by simp)
          have : (k, x.2.1, x.2.2) = x := by rw [← b]
          rw [this]; exact a
        · obtain ⟨a, b⟩ := (hmem y).2 (by simp [hy])
          have : (k, c', n') = y := by rw [← b, ← e]
          rw [this]; exact a
      · intro y hy hk
        rcases List.mem_cons.1 ((hmem y).1 ⟨hy, hk⟩) with rfl | hy
        · exact h3
        · exact h4 y hy
  · cases hf : xs.filter (fun y => decide (y.1 = x.1)) with
    | nil =>
      have : x ∈ xs.filter (fun y => decide (y.1 = x.1)) := by rw [List.mem_filter]; exact ⟨hx, by simp⟩
      rw [hf] at this; cases this
    | cons y rest =>
      obtain ⟨c', n', h1, _⟩ := key rest y.2.1 y.2.2
      refine ⟨c', n', ?_⟩
      rw [h, hf, List.foldl_cons]
      exact h1

omit [LinearOrder K] in
theorem items_short (xs : List (Str × (ℤ × K) × D)) (k : Str) (a : ℤ) (b : K) (n : D) :
    (k, (a, b), n) ∈ xs.foldl stepShort [] ↔ ∃ x rest, xs.filter (fun x => x.1 = k) = x :: rest ∧ a = x.2.1.1 ∧
      b = ((x :: rest).map (fun y => y.2.1.2)).sum ∧ n = x.2.2 := by
  have h := mem_foldl_upd (V := (ℤ × K) × D) (fun x : Str × (ℤ × K) × D => x.1)
    (fun o x => match o with | none => (x.2.1, x.2.2) | some (s, n) => ((s.1, s.2 + x.2.1.2), n)) xs k ((a, b), n)
  have hstep : (fun (d : Dict Str ((ℤ × K) × D)) (x : Str × (ℤ × K) × D) => upd d x.1 (fun o => match o with
      | none => (x.2.1, x.2.2) | some (s, n) => ((s.1, s.2 + x.2.1.2), n))) = stepShort := rfl
  rw [hstep] at h
  rw [h]
  have key : ∀ (ys : List (Str × (ℤ × K) × D)) (s : ℤ × K) (n : D), ys.foldl (fun o x => some (match o with
      | none => (x.2.1, x.2.2) | some (s, n) => ((s.1, s.2 + x.2.1.2), n))) (some (s, n)) = some ((s.1, s.2 + (ys.map (fun y => y.2.1.2)).sum), n) := by
    intro ys
    induction ys with
    | nil => intro s n; simp
    | cons y ys ih => intro s n; rw [List.foldl_cons, ih]; simp [add_assoc]
  cases hf : xs.filter (fun x => decide (x.1 = k)) with
  | nil => simp
  | cons x rest =>
    rw [List.foldl_cons]
    simp only []
    rw [key]
    constructor
    · intro e
      have := Option.some.inj e
      injection this with e1 e2
      injection e1 with e3 e4
      exact ⟨x, rest, rfl, e3.symm, by rw [← e4]; simp, e2.symm⟩
    · rintro ⟨x', rest', e, rfl, rfl, rfl⟩
      injection e with e1 e2
      subst e1 e2
      simp

omit [Field K] in
theorem stepShortDD_eq : (stepShortDD : Dict Str ((ℤ × K) × D) → Str × (ℤ × K) × D → Dict Str ((ℤ × K) × D)) =
    stepMpd (C := (ℤ ×ₗ K)ᵒᵈ) (D := D) := by
  funext d x
  unfold stepShortDD stepMpd
  congr 1
  funext o
  cases o with
  | none => rfl
  | some y =>
    obtain ⟨s, n⟩ := y
    have : lexLt s x.2.1 = true ↔ (show (ℤ ×ₗ K)ᵒᵈ from OrderDual.toDual (toLex x.2.1)) < (show (ℤ ×ₗ K)ᵒᵈ from OrderDual.toDual (toLex s)) := by
      rw [OrderDual.toDual_lt_toDual, Prod.Lex.lt_iff, lexLt]
      simp
    by_cases hl : lexLt s x.2.1 = true
    · exact (if_pos hl).trans (if_pos (this.1 hl)).symm
    · exact (if_neg hl).trans (if_neg (fun h => hl (this.2 h))).symm

omit [Field K] in
theorem items_shortDD (xs : List (Str × (ℤ × K) × D)) :
    (∀ k c n, (k, c, n) ∈ xs.foldl stepShortDD [] → (k, c, n) ∈ xs ∧ ∀ y ∈ xs, y.1 = k → toLex y.2.1 ≤ toLex c) ∧
    ∀ x ∈ xs, ∃ c n, (x.1, c, n) ∈ xs.foldl stepShortDD [] := by
  rw [stepShortDD_eq]
  exact items_mpd (C := (ℤ ×ₗ K)ᵒᵈ) (D := D) xs

theorem minCost_le (c : C) (cs : List C) : minCost c cs ≤ c ∧ (∀ d ∈ cs, minCost c cs ≤ d) ∧ (minCost c cs = c ∨ minCost c cs ∈ cs) := by
  induction cs generalizing c with
  | nil => exact ⟨le_rfl, by simp, .inl rfl⟩
  | cons d ds ih =>
    rw [minCost]
    obtain ⟨h1, h2, h3⟩ := ih (if d < c then d else c)
    by_cases hd : d < c
    · simp only [hd, if_true] at h1 h2 h3 ⊢
      refine ⟨h1.trans hd.le, ?_, ?_⟩
      · intro x hx
        rcases List.mem_cons.1 hx with rfl | hx
        · exact h1
        · exact h2 x hx
      · rcases h3 with h3 | h3
        · exact .inr (by simp [h3])
        · exact .inr (by simp [h3])
    · simp only [hd, if_false] at h1 h2 h3 ⊢
      refine ⟨h1, ?_, ?_⟩
      · intro x hx
        rcases List.mem_cons.1 hx with rfl | hx
        · exact h1.trans (not_lt.1 hd)
        · exact h2 x hx
      · rcases h3 with h3 | h3
        · exact .inl h3
        · exact .inr (by simp [h3])

/-- `onlyShortest` keeps the elements of least cost. -/
theorem onlyShortest_spec {X : Type} (cost : X → C) (xs : List X) (x : X) (hx : x ∈ xs) :
    ∃ m, (∀ y ∈ xs, m ≤ cost y) ∧ (∃ y ∈ xs, cost y = m) ∧ onlyShortest cost xs = xs.filter (fun y => cost y = m) := by
  cases xs with
  | nil => cases hx
  | cons a rest =>
    obtain ⟨h1, h2, h3⟩ := minCost_le (cost a) (rest.map cost)
    refine ⟨minCost (cost a) (rest.map cost), ?_, ?_, ?_⟩
    · intro y hy
      rcases List.mem_cons.1 hy with rfl | hy
      · exact h1
      · exact h2 _ (List.mem_map_of_mem hy)
    · rcases h3 with h3 | h3
      · exact ⟨a, by simp, h3.symm⟩
      · obtain ⟨y, hy, e⟩ := List.mem_map.1 h3
        exact ⟨y, by simp [hy], e⟩
    · rw [onlyShortest]
      rfl

omit [Field K] [LinearOrder K] in
theorem zip_filter_sorted {X : Type} (cost : X → C) (m : C) (xs : List X) (ys : List K) (hs : xs.Pairwise (fun a b => cost a ≤ cost b))
    (hm : ∀ x ∈ xs, m ≤ cost x) :
    (xs.filter (fun x => cost x = m)).zip ys = (xs.zip ys).filter (fun x => cost x.1 = m) := by
  induction xs generalizing ys with
  | nil => simp
  | cons x xs ih =>
    rw [List.pairwise_cons] at hs
    by_cases hx : cost x = m
    · cases ys with
      | nil => simp
      | cons y ys =>
        rw [List.filter_cons_of_pos (by simpa using hx), List.zip_cons_cons, List.zip_cons_cons, List.filter_cons_of_pos (by simpa using hx),
          ih ys hs.2 (fun z hz => hm z (by simp [hz]))]
    · have hlt : m < cost x := lt_of_le_of_ne (hm x (by simp)) (Ne.symm hx)
      have h1 : (x :: xs).filter (fun x => decide (cost x = m)) = [] := by
        rw [List.filter_eq_nil_iff]
        intro z hz
        rcases List.mem_cons.1 hz with rfl | hz
        · simpa using hx
        · simpa using (hlt.trans_le (hs.1 z hz)).ne'
      rw [h1, List.zip_nil_left, Eq.comm, List.filter_eq_nil_iff]
      rintro ⟨z, w⟩ hz
      have hz := (List.of_mem_zip hz).1
      rcases List.mem_cons.1 hz with rfl | hz
      · simpa using hx
      · simpa using (hlt.trans_le (hs.1 z hz)).ne'

end

/-! ### The property theorems -/

section
variable {C K D : Type} [LinearOrder C] [Field K] [LinearOrder K]

/-- The derivations that a DOP reduction can yield. -/
def Spec.Good (ws : Char → Bool) (d : PTree Str) : Prop := d.isNode ∧ Spec.Derivation d ∧ Bracket.Spec.Labels ws d

theorem removeIds_tree {d : PTree Str} (h : Spec.Derivation d) : removeIds [] false (flat d) = flat (Spec.parsetree d) := by
  rw [removeIds_flat' _ _ h, relabel_nil]; rfl

theorem label_relabel_one {l : Str} (h : Spec.Label l) : Spec.Label (relabel ['@', '1'] l) := by
  rcases h with h | ⟨b, a, hb0, hb, _, _, rfl⟩
  · left; rw [relabel, base_plain h, if_neg h, List.append_nil]; exact h
  · right
    refine ⟨b, ['1'], hb0, hb, by simp, by simp, ?_⟩
    rw [relabel, base_address hb, if_pos (by simp)]

theorem removeIds_key {d : PTree Str} (h : Spec.Derivation d) :
    removeIds [] false (removeIds ['@', '1'] false (flat d)) = flat (Spec.parsetree d) := by
  rw [removeIds_flat' _ _ h, removeIds_flat', relabel_nil, mapLabel_comp]
  · rw [Spec.parsetree]
    congr 2
    funext l
    exact (relabel_one l).1
  · intro l cs hm
    obtain ⟨l', cs', h1, rfl⟩ := mem_subtrees_mapLabel _ _ hm
    exact label_relabel_one (h l' cs' h1)

omit [LinearOrder K] in
/-- **C57 (most probable parse).** For any list of derivations of a DOP reduction, `marginalize('mpp', ...)` returns each parse tree once,
and with the sum of the probabilities of all its derivations in the list; the fragments are those of a derivation of the tree, which is a most
probable one when the list is ordered by probability (as the k-best list is). -/
theorem C57_mpp (ws : Char → Bool) (hws : Bracket.Spec.Space ws) (p : C → K) (trunc : C → ℤ) {F : Type} (frags : Str → F)
    (ds : List (PTree Str × C)) (alts : List K) (h : ∀ d ∈ ds, Spec.Good ws d.1) :
    ((marginalizeDop p trunc frags .mpp (ds.map (fun d => (flat d.1, d.2))) alts).map Prod.fst).Nodup ∧
    (∀ d ∈ ds, ∃ r ∈ marginalizeDop p trunc frags .mpp (ds.map (fun d => (flat d.1, d.2))) alts, r.1 = flat (Spec.parsetree d.1)) ∧
    ∀ r ∈ marginalizeDop p trunc frags .mpp (ds.map (fun d => (flat d.1, d.2))) alts, ∃ d ∈ ds,
      r.1 = flat (Spec.parsetree d.1) ∧
      r.2.1 = .prob ((ds.filter (fun e => Spec.parsetree e.1 = Spec.parsetree d.1)).map (fun e => p e.2)).sum ∧
      r.2.2 = frags (flat d.1) ∧
      (ds.Pairwise (fun a b => a.2 ≤ b.2) → ∀ e ∈ ds, Spec.parsetree e.1 = Spec.parsetree d.1 → d.2 ≤ e.2) := by
  unfold marginalizeDop
  simp only []
  set xs := (ds.map (fun d => (flat d.1, d.2))).map (fun x : Str × C => (removeIds [] false x.1, x.2, x.1)) with hxs
  have hxs' : xs = ds.map (fun d => (removeIds [] false (flat d.1), d.2, flat d.1)) := by rw [hxs, List.map_map]; rfl
  have hfil : ∀ k, xs.filter (fun x => x.1 = k) = (ds.filter (fun d => removeIds [] false (flat d.1) = k)).map
      (fun d => (removeIds [] false (flat d.1), d.2, flat d.1)) := by
    intro k
    rw [hxs', List.filter_map]
    rfl
  have hnd : Dict.WF (xs.foldl stepMpp []) := wf_foldl_upd (fun x : Str × C × Str => x.1) _ xs [] (by simp [Dict.WF, Dict.keys])
  refine ⟨?_, ?_, ?_⟩
  · rw [List.map_map]
    exact hnd
  · intro d hd
    have hm : d ∈ ds.filter (fun e => removeIds [] false (flat e.1) = removeIds [] false (flat d.1)) := by
      rw [List.mem_filter]; exact ⟨hd, by simp⟩
    obtain ⟨e, rest, he⟩ := List.exists_cons_of_ne_nil (List.ne_nil_of_mem hm)
    have := (items_mpp xs (removeIds [] false (flat d.1)) _ _).2 ⟨_, _, by rw [hfil, he, List.map_cons], rfl, rfl⟩
    refine ⟨_, List.mem_map_of_mem this, ?_⟩
    exact removeIds_tree (h d hd).2.1
  · intro r hr
    obtain ⟨⟨k, cs, n⟩, hm, rfl⟩ := List.mem_map.1 hr
    obtain ⟨x, rest, h1, rfl, rfl⟩ := (items_mpp xs k cs n).1 hm
    rw [hfil] at h1
    cases hf : ds.filter (fun d => decide (removeIds [] false (flat d.1) = k)) with
    | nil => rw [hf] at h1; cases h1
    | cons d rest' =>
      have hd : d ∈ ds ∧ removeIds [] false (flat d.1) = k := by
        have : d ∈ ds.filter (fun d => decide (removeIds [] false (flat d.1) = k)) := by rw [hf]; simp
        simpa using List.mem_filter.1 this
      have hiff : ∀ e ∈ ds, removeIds [] false (flat e.1) = k ↔ Spec.parsetree e.1 = Spec.parsetree d.1 := by
        intro e he
        rw [← hd.2]
        exact tree_eq_iff hws (h e he).2.1 (h d hd.1).2.1 (h e he).2.2 (h d hd.1).2.2 (h e he).1 (h d hd.1).1
      have hfe : ds.filter (fun e => decide (Spec.parsetree e.1 = Spec.parsetree d.1)) = d :: rest' := by
        rw [← hf]
        exact List.filter_congr (fun e he => decide_eq_decide.2 (hiff e he).symm)
      rw [hf, List.map_cons] at h1
      injection h1 with e1 e2
      subst e1 e2
      refine ⟨d, hd.1, ?_, ?_, rfl, ?_⟩
      · exact hd.2.symm.trans (removeIds_tree (h d hd.1).2.1)
      · rw [hfe]
        simp [total, List.map_map, Function.comp_def]
      · intro hs e he het
        have hm : e ∈ d :: rest' := by rw [← hfe, List.mem_filter]; exact ⟨he, by simpa using het⟩
        have hp : (d :: rest').Pairwise (fun a b => a.2 ≤ b.2) := by rw [← hfe]; exact hs.filter _
        rcases List.mem_cons.1 hm with rfl | hm
        · exact le_rfl
        · exact (List.pairwise_cons.1 hp).1 e hm

/-- **C57 (most probable derivation).** `marginalize('mpd', ...)` returns, for each way in which a parse tree is divided into fragments by the
derivations of the list, one result: the tree, the greatest probability of such a derivation and the fragments of a derivation with it. -/
theorem C57_mpd (ws : Char → Bool) (hws : Bracket.Spec.Space ws) (p : C → K) (hp : Antitone p) (trunc : C → ℤ) {F : Type} (frags : Str → F)
    (ds : List (PTree Str × C)) (alts : List K) (h : ∀ d ∈ ds, Spec.Good ws d.1) :
    (∀ d ∈ ds, ∃ r ∈ marginalizeDop p trunc frags .mpd (ds.map (fun d => (flat d.1, d.2))) alts,
      ∃ q, r.1 = flat (Spec.parsetree d.1) ∧ r.2.1 = .prob q ∧ p d.2 ≤ q) ∧
    ∀ r ∈ marginalizeDop p trunc frags .mpd (ds.map (fun d => (flat d.1, d.2))) alts, ∃ d ∈ ds,
      r.1 = flat (Spec.parsetree d.1) ∧ r.2.1 = .prob (p d.2) ∧ r.2.2 = frags (flat d.1) ∧
      ∀ e ∈ ds, Spec.cut e.1 = Spec.cut d.1 → p e.2 ≤ p d.2 := by
  unfold marginalizeDop
  simp only []
  set xs := (ds.map (fun d => (flat d.1, d.2))).map (fun x : Str × C => (removeIds ['@', '1'] false x.1, x.2, x.1)) with hxs
  have hxs' : xs = ds.map (fun d => (removeIds ['@', '1'] false (flat d.1), d.2, flat d.1)) := by rw [hxs, List.map_map]; rfl
  obtain ⟨hi, hc⟩ := items_mpd xs
  constructor
  · intro d hd
    obtain ⟨c, n, hm⟩ := hc (removeIds ['@', '1'] false (flat d.1), d.2, flat d.1) (by rw [hxs']; exact List.mem_map_of_mem hd)
    refine ⟨_, List.mem_map_of_mem hm, p c, ?_, rfl, ?_⟩
    · exact removeIds_key (h d hd).2.1
    · exact hp ((hi _ _ _ hm).2 (removeIds ['@', '1'] false (flat d.1), d.2, flat d.1) (by rw [hxs']; exact List.mem_map_of_mem hd) rfl)
  · intro r hr
    obtain ⟨⟨k, c, n⟩, hm, rfl⟩ := List.mem_map.1 hr
    obtain ⟨h1, h2⟩ := hi k c n hm
    rw [hxs'] at h1
    obtain ⟨d, hd, e⟩ := List.mem_map.1 h1
    injection e with e1 e2
    injection e2 with e2 e3
    subst e1 e2 e3
    refine ⟨d, hd, removeIds_key (h d hd).2.1, rfl, rfl, ?_⟩
    intro e he hce
    refine hp (h2 (removeIds ['@', '1'] false (flat e.1), e.2, flat e.1) (by rw [hxs']; exact List.mem_map_of_mem he) ?_)
    exact (key_eq_iff hws (h e he).2.1 (h d hd).2.1 (h e he).2.2 (h d hd).2.2 (h e he).1 (h d hd).1).2 hce

omit [LinearOrder K] in
/-- **C57 (shortest derivation).** When the list is ordered by cost, `marginalize('shortest', ...)` returns one result for each way in which a
parse tree is divided into fragments by the derivations of least cost `m`, with the sum of their probabilities in the other model. -/
theorem C57_shortest (ws : Char → Bool) (hws : Bracket.Spec.Space ws) (p : C → K) (trunc : C → ℤ) {F : Type} (frags : Str → F)
    (ds : List (PTree Str × C)) (alts : List K) (h : ∀ d ∈ ds, Spec.Good ws d.1) (hs : ds.Pairwise (fun a b => a.2 ≤ b.2))
    (hl : alts.length = ds.length) (m : C) (hm : ∀ d ∈ ds, m ≤ d.2) (hm' : ∃ d ∈ ds, d.2 = m) :
    (∀ d ∈ ds, d.2 = m → ∃ r ∈ marginalizeDop p trunc frags .shortest (ds.map (fun d => (flat d.1, d.2))) alts,
      r.1 = flat (Spec.parsetree d.1)) ∧
    ∀ r ∈ marginalizeDop p trunc frags .shortest (ds.map (fun d => (flat d.1, d.2))) alts, ∃ d ∈ ds, d.2 = m ∧
      r.1 = flat (Spec.parsetree d.1) ∧ r.2.2 = frags (flat d.1) ∧
      r.2.1 = .short (-trunc m) (((ds.zip alts).filter (fun e => e.1.2 = m ∧ Spec.cut e.1.1 = Spec.cut d.1)).map Prod.snd).sum := by
  unfold marginalizeDop
  simp only []
  have hos : onlyShortest Prod.snd (ds.map (fun d => (flat d.1, d.2))) = (ds.filter (fun d => d.2 = m)).map (fun d => (flat d.1, d.2)) := by
    obtain ⟨d, hd, e⟩ := hm'
    obtain ⟨m', h1, ⟨y, hy, hy'⟩, h3⟩ := onlyShortest_spec (C := C) Prod.snd (ds.map (fun d => (flat d.1, d.2))) (flat d.1, d.2) (List.mem_map_of_mem hd)
    have : m' = m := by
      apply le_antisymm
      · rw [← e]; exact h1 _ (List.mem_map_of_mem hd)
      · obtain ⟨z, hz, rfl⟩ := List.mem_map.1 hy
        rw [← hy']
        exact hm z hz
    rw [h3, this, List.filter_map]
    rfl
  set xs := (((onlyShortest Prod.snd (ds.map (fun d => (flat d.1, d.2)))).zip alts).map
      (fun (x : (Str × C) × K) => (removeIds ['@', '1'] false x.1.1, (trunc x.1.2, x.2), x.1.1))) with hxs
  have hxs' : xs = ((ds.zip alts).filter (fun e => e.1.2 = m)).map (fun e => (removeIds ['@', '1'] false (flat e.1.1), (trunc e.1.2, e.2), flat e.1.1)) := by
    rw [hxs, hos, ← zip_filter_sorted (fun d : PTree Str × C => d.2) m ds alts hs hm, List.zip_map_left, List.map_map]
    rfl
  have hmemz : ∀ d ∈ ds, ∃ q, (d, q) ∈ ds.zip alts := by
    intro d hd
    obtain ⟨i, hi, rfl⟩ := List.getElem_of_mem hd
    refine ⟨alts[i], ?_⟩
    rw [List.mem_iff_getElem]
    exact ⟨i, by simp [hl, hi], by simp⟩
  have hfil : ∀ k, xs.filter (fun x => x.1 = k) = ((ds.zip alts).filter (fun e => e.1.2 = m ∧ removeIds ['@', '1'] false (flat e.1.1) = k)).map
      (fun e => (removeIds ['@', '1'] false (flat e.1.1), (trunc e.1.2, e.2), flat e.1.1)) := by
    intro k
    rw [hxs', List.filter_map, List.filter_filter]
    congr 1
    apply List.filter_congr
    intro e _
    simp [Bool.and_comm]
  constructor
  · intro d hd hdm
    obtain ⟨q, hq⟩ := hmemz d hd
    have hmm : (d, q) ∈ (ds.zip alts).filter (fun e => e.1.2 = m ∧ removeIds ['@', '1'] false (flat e.1.1) = removeIds ['@', '1'] false (flat d.1)) := by
      rw [List.mem_filter]; exact ⟨hq, by simp [hdm]⟩
    obtain ⟨e, rest, he⟩ := List.exists_cons_of_ne_nil (List.ne_nil_of_mem hmm)
    have := (items_short xs (removeIds ['@', '1'] false (flat d.1)) _ _ _).2 ⟨_, _, by rw [hfil, he, List.map_cons], rfl, rfl, rfl⟩
    exact ⟨_, List.mem_map_of_mem this, removeIds_key (h d hd).2.1⟩
  · intro r hr
    obtain ⟨⟨k, ⟨a, b⟩, n⟩, hm2, rfl⟩ := List.mem_map.1 hr
    obtain ⟨x, rest, h1, rfl, rfl, rfl⟩ := (items_short xs k a b n).1 hm2
    rw [hfil] at h1
    cases hf : (ds.zip alts).filter (fun e => decide (e.1.2 = m ∧ removeIds ['@', '1'] false (flat e.1.1) = k)) with
    | nil => rw [hf] at h1; cases h1
    | cons z rest' =>
      obtain ⟨d, q⟩ := z
      have hz : (d, q) ∈ ds.zip alts ∧ d.2 = m ∧ removeIds ['@', '1'] false (flat d.1) = k := by
        have : (d, q) ∈ (ds.zip alts).filter (fun e => decide (e.1.2 = m ∧ removeIds ['@', '1'] false (flat e.1.1) = k)) := by rw [hf]; simp
        simpa using List.mem_filter.1 this
      have hd := (List.of_mem_zip hz.1).1
      have hfe : (ds.zip alts).filter (fun e => decide (e.1.2 = m ∧ Spec.cut e.1.1 = Spec.cut d.1)) = (d, q) :: rest' := by
        rw [← hf]
        refine List.filter_congr (fun e he => decide_eq_decide.2 (and_congr_right' ?_))
        have he' := (List.of_mem_zip he).1
        rw [← hz.2.2]
        exact (key_eq_iff hws (h _ he').2.1 (h d hd).2.1 (h _ he').2.2 (h d hd).2.2 (h _ he').1 (h d hd).1).symm
      rw [hf, List.map_cons] at h1
      injection h1 with e1 e2
      subst e1 e2
      refine ⟨d, hd, hz.2.1, ?_, rfl, ?_⟩
      · rw [← hz.2.2]; exact removeIds_key (h d hd).2.1
      · rw [hfe]
        simp [List.map_map, Function.comp_def, hz.2.1]

end

end Disco.Disamb
