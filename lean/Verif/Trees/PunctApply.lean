import Verif.Trees.PunctProps
/-!
# C48: the strategies `move`, `moveall`, `prune`, `remove`, `removeall`
-/
namespace Disco.Punct
open PTree

variable {L : Type}

/-! ### A single pair of balanced marks -/

theorem balLoop_skip (tag : L → Str) (sent : List Str) (a rest : List (Nat × PTree L)) (t : PTree L) (pm : Dict Str (Nat × PTree L))
    (ha : ∀ x ∈ a, ∃ l', x.2 = .node l' [.leaf x.1] ∧ ∃ w, sent[x.1]? = some w ∧ (tag l' ∉ PUNCTTAGS ∨ ¬ Spec.Balancing w))
    (hpm : ∀ w v, Dict.get? pm w = some v → Spec.Balancing w) : balLoop tag sent (a ++ rest) t pm = balLoop tag sent rest t pm := by
  induction a with
  | nil => rfl
  | cons x a ih =>
    have ih := ih fun x hx => ha x (by simp [hx])
    obtain ⟨l', h1, w, h2, h3⟩ := ha x (by simp)
    obtain ⟨i, nd⟩ := x
    simp only at h1 h2
    subst h1
    rw [List.cons_append, balLoop.eq_def]
    simp only [h2]
    split
    · rename_i htag
      have htag' : tag l' ∈ PUNCTTAGS := by simpa using htag
      have hb : ¬ Spec.Balancing w := h3.resolve_left (fun h => h htag')
      cases hg : Dict.get? pm w with
      | some v => exact absurd (hpm w v hg) hb
      | none =>
        simp only
        cases hb' : Dict.get? BALANCED w with
        | some r => exact absurd ⟨_, Dict.mem_of_get? hb', Or.inl rfl⟩ hb
        | none => exact ih
    · exact ih

/-- **C48.** When a sentence has one pair of balanced marks (with punctuation tags), `balancedpunctraise` makes them sisters if the right mark follows the
words of the parent of the left mark, or the left mark precedes the words of the parent of the right mark. -/
theorem C48_balanced_pair (tag : L → Str) (sent : List Str) (t u : PTree L) (ht : Spec.TreeFor sent.length t) (hu : balancedpunctraise tag t sent = some u)
    (left right : Nat) (wl wr : Str) (ll lr l1 l2 : L) (ds1 ds2 : List (PTree L)) (hlr : left < right)
    (hl : sent[left]? = some wl) (hr : sent[right]? = some wr) (hb : (wl, wr) ∈ BALANCED)
    (hp1 : .node l1 ds1 ∈ subtrees t) (hpl : .node ll [.leaf left] ∈ ds1) (hp2 : .node l2 ds2 ∈ subtrees t) (hpr : .node lr [.leaf right] ∈ ds2)
    (htl : tag ll ∈ PUNCTTAGS) (htr : tag lr ∈ PUNCTTAGS) (hother : ∀ i, Spec.BalancedMark tag sent t i → i = left ∨ i = right)
    (hadj : (leavesL ds1).max? = some (right - 1) ∨ (leavesL ds2).min? = some (left + 1)) :
    ∃ l' ds, .node l' ds ∈ subtrees u ∧ .node ll [.leaf left] ∈ ds ∧ .node lr [.leaf right] ∈ ds := by
  obtain ⟨l, cs, rfl, hcs⟩ := ht.root
  have hd : (leavesL cs).Nodup := ht.nodup
  have hlt : ∀ i ∈ leavesL cs, i < sent.length := fun i hi => List.mem_range.1 (ht.words.mem_iff.1 hi)
  have hlt' : ∀ x ∈ subtrees (.node l cs), ∀ i ∈ x.leaves, i < sent.length := fun x hx i hi => hlt i (subtree_leaves hx i hi)
  have hts := termparent_eq tag sent hlt'
  have hml : .node ll [.leaf left] ∈ subtrees (.node l cs) :=
    subtrees_trans (y := .node l1 ds1) (by rw [subtrees_node]; exact List.mem_cons_of_mem _ (mem_subtreesL.2 ⟨_, hpl, by simp⟩)) hp1
  have hmr : .node lr [.leaf right] ∈ subtrees (.node l cs) :=
    subtrees_trans (y := .node l2 ds2) (by rw [subtrees_node]; exact List.mem_cons_of_mem _ (mem_subtreesL.2 ⟨_, hpr, by simp⟩)) hp2
  let S := stableSort (fun a b : Nat × PTree L => decide (a.1 ≤ b.1)) ((subtrees (.node l cs)).filterMap (entry tag sent))
  have hent : ∀ x ∈ S, (∃ l', x.2 = .node l' [.leaf x.1]) ∧ x.2 ∈ subtrees (.node l cs) ∧ x.1 < sent.length := by
    intro x hx
    rw [StableSort.mem, List.mem_filterMap] at hx
    obtain ⟨c, hc, hx⟩ := hx
    have hcc : Spec.Constituent c := by
      by_cases e : c = .node l cs
      · subst e
        refine .of ?_ hcs
        rintro rfl
        cases hx
      · exact good_child hcs hc e
    obtain ⟨l', h1, h2⟩ := entry_some hcc hx
    subst h2
    refine ⟨⟨l', h1⟩, hc, hlt' _ hc x.1 ?_⟩
    rw [h1]; simp
  have hnd : (S.map (·.1)).Nodup := by
    rw [((StableSort.perm _).map _).nodup_iff]
    exact (entry_subL hcs).nodup hd
  have hsorted : S.Pairwise fun a b => a.1 ≤ b.1 := by
    have := StableSort.pairwise (le := fun a b : Nat × PTree L => decide (a.1 ≤ b.1)) (fun a b c => by simp; omega) (fun a b => by simp; omega)
      ((subtrees (.node l cs)).filterMap (entry tag sent))
    exact this.imp fun h => by simpa using h
  have hinl : (left, .node ll [.leaf left]) ∈ S := by
    rw [StableSort.mem, List.mem_filterMap]
    exact ⟨_, hml, by rw [entry, if_pos (ispunct_iff.2 (Or.inl htl))]⟩
  have hinr : (right, .node lr [.leaf right]) ∈ S := by
    rw [StableSort.mem, List.mem_filterMap]
    exact ⟨_, hmr, by rw [entry, if_pos (ispunct_iff.2 (Or.inl htr))]⟩
  have e : balancedpunctraise tag (.node l cs) sent = balLoop tag sent S (.node l cs) [] := by rw [balancedpunctraise, hts]
  rw [e] at hu
  obtain ⟨a, rest, hS⟩ := List.append_of_mem hinl
  have hrest : (right, .node lr [.leaf right]) ∈ rest := by
    rw [hS] at hinr hsorted
    rcases List.mem_append.1 hinr with h | h
    · have := (List.pairwise_append.1 hsorted).2.2 _ h _ List.mem_cons_self
      simp only at this; omega
    · rcases List.mem_cons.1 h with h | h
      · injection h with h _; omega
      · exact h
  obtain ⟨b, c, hR⟩ := List.append_of_mem hrest
  have hskip : ∀ x ∈ S, x.1 ≠ left → x.1 ≠ right → ∃ l', x.2 = .node l' [.leaf x.1] ∧ ∃ w, sent[x.1]? = some w ∧ (tag l' ∉ PUNCTTAGS ∨ ¬ Spec.Balancing w) := by
    intro x hx h1 h2
    obtain ⟨⟨l', h3⟩, h4, h5⟩ := hent x hx
    refine ⟨l', h3, _, List.getElem?_eq_getElem h5, ?_⟩
    by_cases h6 : tag l' ∈ PUNCTTAGS
    · right
      intro h7
      rw [h3] at h4
      rcases hother x.1 ⟨l', _, h4, List.getElem?_eq_getElem h5, h6, h7⟩ with h | h
      · exact h1 h
      · exact h2 h
    · exact Or.inl h6
  have hne : ∀ x ∈ a ++ b ++ c, x.1 ≠ left ∧ x.1 ≠ right := by
    rw [hS, hR] at hnd
    simp only [List.map_append, List.map_cons] at hnd
    have hp : (a.map (·.1) ++ left :: (b.map (·.1) ++ right :: c.map (·.1))).Perm (left :: right :: (a ++ b ++ c).map (·.1)) := by
      simp only [List.map_append]
      refine List.perm_middle.trans (List.Perm.cons _ ?_)
      rw [← List.append_assoc]
      refine List.perm_middle.trans (List.Perm.cons _ ?_)
      exact List.Perm.refl _
    have := hp.nodup_iff.1 hnd
    rw [List.nodup_cons, List.nodup_cons] at this
    intro x hx
    constructor
    · rintro rfl
      exact this.1 (List.mem_cons_of_mem _ (List.mem_map.2 ⟨x, hx, rfl⟩))
    · rintro rfl
      exact this.2.1 (List.mem_map.2 ⟨x, hx, rfl⟩)
  have hmem : ∀ x ∈ a ++ b ++ c, x ∈ S := by
    intro x hx
    rw [hS, hR]
    simp only [List.mem_append, List.mem_cons] at hx ⊢
    tauto
  have hgb : Dict.get? BALANCED wl = some wr := Dict.get?_of_mem (by unfold Dict.WF; decide +kernel) hb
  rw [hS, balLoop_skip tag sent a _ _ _ (fun x hx => hskip x (hmem x (by simp [hx])) (hne x (by simp [hx])).1 (hne x (by simp [hx])).2) (fun w v h => by cases h),
    balLoop.eq_def] at hu
  have hnone : Dict.get? ([] : Dict Str (Nat × PTree L)) wl = none := rfl
  simp only [hl, hnone, hgb, List.contains_eq_mem, htl, decide_true, if_true] at hu
  have hpm : ∀ w v, Dict.get? (Dict.set [] wr (left, PTree.node ll [.leaf left])) w = some v → Spec.Balancing w := by
    intro w v hv
    rw [Dict.get?_set] at hv
    split at hv
    · rename_i e; subst e; exact ⟨_, hb, Or.inr rfl⟩
    · cases hv
  rw [hR, balLoop_skip tag sent b _ _ _ (fun x hx => hskip x (hmem x (by simp [hx])) (hne x (by simp [hx])).1 (hne x (by simp [hx])).2) hpm, balLoop.eq_def] at hu
  have hget : Dict.get? (Dict.set ([] : Dict Str (Nat × PTree L)) wr (left, PTree.node ll [.leaf left])) wr = some (left, .node ll [.leaf left]) := by
    rw [Dict.get?_set, if_pos rfl]
  simp only [hr, hget, List.contains_eq_mem, htr, decide_true, if_true] at hu
  obtain ⟨v, h4, -, h5⟩ := movePair_spec (p := fun _ => true) hcs hd hml hmr (by omega) rfl rfl
  rw [h4] at hu
  simp only at hu
  have hc := balLoop_skip tag sent c [] v (Dict.erase (Dict.set [] wr (left, PTree.node ll [.leaf left])) wr)
    (fun x hx => hskip x (hmem x (by simp [hx])) (hne x (by simp [hx])).1 (hne x (by simp [hx])).2) (by
      intro w v hv
      have hwf : Dict.WF (Dict.set ([] : Dict Str (Nat × PTree L)) wr (left, PTree.node ll [.leaf left])) := Dict.WF.set (d := []) List.nodup_nil _ _
      rw [Dict.get?_erase hwf] at hv
      split at hv
      · cases hv
      · exact hpm w v hv)
  rw [List.append_nil] at hc
  rw [hc, balLoop] at hu
  injection hu with hu
  subst hu
  refine h5 l1 ds1 l2 ds2 ⟨hp1, ll, hpl⟩ ⟨hp2, lr, hpr⟩ ?_
  rcases hadj with h | h
  · exact Or.inl ⟨h, by omega⟩
  · exact Or.inr h

/-! ### move, moveall -/

theorem same_nodes {t u : PTree L} (h : Canon.Spec.SameUpToOrder t u) {l : L} {es : List (PTree L)} (hm : .node l es ∈ subtrees u) :
    ∃ cs, .node l cs ∈ subtrees t ∧ (leavesL cs).Perm (leavesL es) ∧ ∀ i, es = [.leaf i] → cs = [.leaf i] := by
  induction t using PTree.ind generalizing u with
  | hleaf i => cases h; simp at hm
  | hnode l0 cs ih =>
    cases h with
    | node _ _ ds es' h1 h2 =>
      have h1' := Canon.forall₂_of_sameL h1
      rw [subtrees_node, List.mem_cons] at hm
      rcases hm with e | hm
      · injection e with e1 e2
        subst e1; subst e2
        refine ⟨cs, by simp, Canon.same_leaves_perm (t := .node l cs) (u := .node l es) (.node l cs ds es h1 h2), ?_⟩
        rintro i rfl
        have := List.perm_singleton.1 h2
        subst this
        cases h1' with
        | cons ha hb =>
          cases hb
          cases ha
          rfl
      · obtain ⟨e, he, hm⟩ := mem_subtreesL.1 hm
        have he' := h2.symm.subset he
        obtain ⟨c, hc, hce⟩ : ∃ c ∈ cs, Canon.Spec.SameUpToOrder c e := by
          clear ih h1 h2
          induction h1' with
          | nil => cases he'
          | cons ha hb ih2 =>
            rcases List.mem_cons.1 he' with rfl | he'
            · exact ⟨_, by simp, ha⟩
            · obtain ⟨c, hc, h⟩ := ih2 he'
              exact ⟨c, by simp [hc], h⟩
        obtain ⟨cs', h3, h4⟩ := ih c hc hce hm
        exact ⟨cs', by rw [subtrees_node]; exact List.mem_cons_of_mem _ (mem_subtreesL.2 ⟨c, hc, h3⟩), h4⟩

theorem same_constituent {t u : PTree L} (h : Canon.Spec.SameUpToOrder t u) (ht : Spec.Constituent t) : Spec.Constituent u := by
  induction t using PTree.ind generalizing u with
  | hleaf i => exact absurd ht not_constituent_leaf
  | hnode l0 cs ih =>
    cases h with
    | node _ _ ds es h1 h2 =>
      have h1' := Canon.forall₂_of_sameL h1
      rcases ht.cases' with ⟨i, rfl⟩ | ⟨hne, hcs⟩
      · cases h1' with
        | cons ha hb =>
          cases hb
          cases ha
          rw [← List.singleton_perm.1 h2]
          exact .preterminal _ _
      · refine .of ?_ ?_
        · rintro rfl
          rw [List.perm_nil.1 h2] at h1'
          cases h1'
          exact hne rfl
        · intro e he
          have he' := h2.symm.subset he
          clear h1 h2 ht hne he
          induction h1' with
          | nil => cases he'
          | cons ha hb ih2 =>
            rcases List.mem_cons.1 he' with rfl | he'
            · exact ih _ (by simp) ha (hcs _ (by simp))
            · exact ih2 (fun c hc => ih c (by simp [hc])) (fun c hc => hcs c (by simp [hc])) he'

theorem same_tree {n : Nat} {t u : PTree L} (h : Canon.Spec.SameUpToOrder t u) (ht : Spec.TreeFor n t) : Spec.TreeFor n u := by
  refine ⟨?_, (Canon.same_leaves_perm h).symm.trans ht.words⟩
  obtain ⟨l, cs, rfl, hcs⟩ := ht.root
  by_cases hne : cs = []
  · subst hne
    cases h with
    | node _ _ ds es h1 h2 =>
      cases h1
      rw [List.nil_perm.1 h2]
      exact ⟨l, [], rfl, by simp⟩
  · have hc := same_constituent h (.of hne hcs)
    cases h with
    | node _ _ ds es h1 h2 =>
      refine ⟨l, es, rfl, ?_⟩
      rcases hc.cases' with ⟨i, rfl⟩ | ⟨_, h⟩
      · exfalso
        obtain ⟨cs', h3, -, h4⟩ := same_nodes (.node l cs ds _ h1 h2) (l := l) (es := [.leaf i]) (by simp)
        rw [h4 i rfl] at h3
        rw [List.perm_singleton.1 h2] at h1
        have h1' := Canon.forall₂_of_sameL h1
        cases h1' with
        | cons ha hb =>
          cases hb
          cases ha
          exact absurd (hcs (.leaf i) (by simp)) not_constituent_leaf
      · exact h

theorem same_gaps {t u : PTree L} (h : Canon.Spec.SameUpToOrder t u) : Spec.NoMoreGaps t u :=
  gaps_of_fan fun l ds hm => by
    obtain ⟨cs, h1, h2, -⟩ := same_nodes h hm
    exact ⟨cs, h1, Nat.le_of_eq (fan_congr fun x => h2.symm.mem_iff)⟩

theorem preterminals_of {n : Nat} {t : PTree L} (ht : Spec.TreeFor n t) : Canon.Spec.Preterminals t := by
  obtain ⟨l, cs, rfl, hcs⟩ := ht.root
  intro l' ds hm
  by_cases e : PTree.node l' ds = .node l cs
  · injection e with _ e
    subst e
    left
    intro c hc
    obtain ⟨l', es, rfl⟩ := (hcs c hc).node
    rfl
  · rcases (good_child hcs hm e).cases' with h | ⟨_, h⟩
    · exact Or.inr h
    · left
      intro c hc
      obtain ⟨l', es, rfl⟩ := (h c hc).node
      rfl

/-- **C48.** The strategies `move` and `moveall`: the result is an ordered tree for the same sentence with the same root label and preterminals;
it is, up to the order of sisters, a tree with the same constituents apart from the marks that are moved, and no constituent gets more gaps. -/
theorem C48_move (tag : L → Str) (all : Bool) (sent : List Str) (t : PTree L) (ht : Spec.TreeFor sent.length t) :
    ∃ u, applymove tag all t sent = some u ∧ Spec.TreeFor sent.length u ∧ Canon.Spec.Ordered u ∧ Spec.NoMoreGaps t u ∧
      (∀ l i, .node l [.leaf i] ∈ subtrees u ↔ .node l [.leaf i] ∈ subtrees t) ∧
      ∃ l cs vs us, t = .node l cs ∧ u = .node l us ∧ Canon.Spec.SameUpToOrder (.node l vs) (.node l us) ∧
        ∀ p : Nat → Bool, (∀ i, Spec.Movable tag sent all t i ∨ Spec.BalancedMark tag sent t i → p i = true) → Spec.withoutL p vs = Spec.withoutL p cs := by
  obtain ⟨a, ha, hat, ⟨l, cs, as, rfl, rfl⟩, haw, hap, hag⟩ := C48_punctraise tag all sent t ht
  obtain ⟨v, hv, hvt, ⟨l', as', vs, e, rfl⟩, hvw, hvp, hvg⟩ := C48_balancedpunctraise tag sent _ hat
  injection e with e1 e2
  subst e1; subst e2
  obtain ⟨u, hu, hs, ho, -⟩ := Canon.C06_canonicalize (.node l vs) (preterminals_of hvt)
  have hut := same_tree hs hvt
  refine ⟨u, ?_, hut, ho, gaps_trans hag (gaps_trans hvg (same_gaps hs)), ?_, ?_⟩
  · rw [applymove]
    simp only [ha, hv, hu]
  · intro l1 i
    rw [← hap, ← hvp]
    constructor
    · intro hm
      obtain ⟨cs', h1, h2, h3⟩ := same_nodes hs hm
      rw [h3 i rfl] at h1
      exact h1
    · intro hm
      have hi : i ∈ u.leaves := (Canon.same_leaves_perm hs).mem_iff.1 (subtree_leaves hm i (by simp))
      obtain ⟨l0, us, rfl, hus⟩ := hut.root
      obtain ⟨l2, h'⟩ := pre_existsL (l := l0) hus hi
      obtain ⟨cs', h1, h2, h3⟩ := same_nodes hs h'
      rw [h3 i rfl] at h1
      rw [pre_unique hvt.nodup hm h1]
      exact h'
  · cases hs with
    | node _ _ ds us h1 h2 =>
      refine ⟨l, cs, vs, us, rfl, rfl, .node l vs ds us h1 h2, ?_⟩
      intro p hp
      have h3 := haw p fun i hi => hp i (Or.inl hi)
      have h4 := hvw p fun i hi => hp i (Or.inr (by
        obtain ⟨l1, w, h5, h6⟩ := hi
        exact ⟨l1, w, (hap l1 i).1 h5, h6⟩))
      exact h4.trans h3

/-! ### remove, removeall, prune -/

theorem proper_of {n : Nat} {t : PTree Str} (ht : Spec.Constituent t) (hn : ∀ i ∈ t.leaves, i < n) : RmTerm.Spec.Proper n t := by
  induction ht with
  | preterminal l i => exact .preterminal l i (hn i (by simp))
  | phrase l c cs _ _ ih1 ih2 =>
    rw [leaves_node, leavesL_cons] at hn
    exact .phrase l c cs (ih1 fun i hi => hn i (by simp [hi])) fun d hd => ih2 d hd fun i hi => hn i (by
      rw [List.mem_append]; exact Or.inr (mem_leavesL.2 ⟨d, hd, hi⟩))

theorem sorted_perm_range {l : List Nat} {m : Nat} (h1 : l.Pairwise (· < ·)) (h2 : l.Perm (List.range m)) : l = List.range m :=
  h2.eq_of_pairwise (le := (· < ·)) (fun a b _ _ h h' => by omega) h1 List.pairwise_lt_range

/-- The sentence after removing terminals: the words that remain, in order. -/
theorem removed_sentence {W : Type} {func : W → PTree Str → Bool} {cs cs' : List (PTree Str)} {sent sent' : List W} (hp : ∀ c ∈ cs, RmTerm.Spec.Proper sent.length c)
    (hw : (leavesL cs).Perm (List.range sent.length)) (h : RmTerm.Spec.Removed func cs sent cs' sent') (q : Nat → Bool)
    (hq : ∀ x ∈ RmTerm.Spec.posL cs, q x.1 = RmTerm.Spec.kept func sent x) :
    sent'.map some = ((List.range sent.length).filter q).map (fun i => sent[i]?) := by
  obtain ⟨ρ, -, hmono, hperm, hsent, -⟩ := h.ex
  have hfst : (RmTerm.Spec.posL cs).map Prod.fst = leavesL cs := RmTerm.posL_leaves hp
  have hF : (((RmTerm.Spec.posL cs).filter (RmTerm.Spec.kept func sent)).map Prod.fst).Perm ((List.range sent.length).filter q) := by
    have e : ((RmTerm.Spec.posL cs).filter (RmTerm.Spec.kept func sent)).map Prod.fst = (leavesL cs).filter q := by
      rw [← hfst, List.filter_map]
      congr 1
      exact List.filter_congr fun x hx => (hq x hx).symm
    rw [e]
    exact hw.filter q
  have hmem : ∀ i ∈ (List.range sent.length).filter q, ∃ x ∈ (RmTerm.Spec.posL cs).filter (RmTerm.Spec.kept func sent), x.1 = i := by
    intro i hi
    obtain ⟨x, hx, e⟩ := List.mem_map.1 (hF.symm.subset hi)
    exact ⟨x, hx, e⟩
  have hρ : ((List.range sent.length).filter q).map ρ = List.range sent'.length := by
    refine sorted_perm_range ?_ ?_
    · rw [List.pairwise_map]
      refine (List.pairwise_lt_range.filter q).imp_of_mem fun {a b} ha hb hab => ?_
      obtain ⟨x, hx, rfl⟩ := hmem a ha
      obtain ⟨y, hy, rfl⟩ := hmem b hb
      exact hmono x hx y hy hab
    · refine List.Perm.trans ?_ hperm
      have := (hF.map ρ).symm
      rwa [List.map_map] at this
  have e1 : sent'.map some = (List.range sent'.length).map (fun j => sent'[j]?) := by
    apply List.ext_getElem
    · simp
    · intro k h1 h2
      have h1' : k < sent'.length := by simpa using h1
      simp [List.getElem?_eq_getElem h1']
  rw [e1, ← hρ, List.map_map]
  refine List.map_congr_left fun i hi => ?_
  obtain ⟨x, hx, rfl⟩ := hmem i hi
  exact hsent x hx

/-- Words are removed by strategy `remove` when they are punctuation, or have a punctuation tag. -/
def Spec.IsPunct (sent : List Str) (t : PTree Str) (i : Nat) : Prop :=
  ∃ l w, .node l [.leaf i] ∈ subtrees t ∧ sent[i]? = some w ∧ (l ∈ PUNCTTAGS ∨ w ∈ PUNCTUATION)

theorem posL_iff {cs : List (PTree Str)} {n : Nat} (h : ∀ c ∈ cs, RmTerm.Spec.Proper n c) (i : Nat) (l : Str) :
    (i, l) ∈ RmTerm.Spec.posL cs ↔ .node l [.leaf i] ∈ subtreesL cs := by
  have key : ∀ c : PTree Str, RmTerm.Spec.Proper n c → ((i, l) ∈ RmTerm.Spec.pos c ↔ .node l [.leaf i] ∈ subtrees c) := by
    intro c hc
    refine RmTerm.Proper.rec' (P := fun c => (i, l) ∈ RmTerm.Spec.pos c ↔ .node l [.leaf i] ∈ subtrees c) ?_ ?_ hc
    · intro l' j _
      rw [RmTerm.Spec.pos]
      simp
      tauto
    · intro l' c cs hc h1 hcs h2
      rw [RmTerm.pos_phrase hc, RmTerm.posL_eq, List.mem_flatMap, subtrees_node, List.mem_cons, mem_subtreesL]
      obtain ⟨l2, d, ds, rfl⟩ := RmTerm.Proper.isNode' hc
      constructor
      · rintro ⟨x, hx, h⟩
        refine Or.inr ⟨x, hx, ?_⟩
        rcases List.mem_cons.1 hx with rfl | hx
        · exact h1.1 h
        · exact (h2 x hx).1 h
      · rintro (h | ⟨x, hx, h⟩)
        · injection h with _ h; simp at h
        · refine ⟨x, hx, ?_⟩
          rcases List.mem_cons.1 hx with rfl | hx
          · exact h1.2 h
          · exact (h2 x hx).2 h
  rw [RmTerm.posL_eq, List.mem_flatMap, mem_subtreesL]
  exact ⟨fun ⟨c, hc, hi⟩ => ⟨c, hc, (key c (h c hc)).1 hi⟩, fun ⟨c, hc, hi⟩ => ⟨c, hc, (key c (h c hc)).2 hi⟩⟩

theorem rmChildren_constituent {W : Type} {func : W → PTree Str → Bool} {sent : List W} {cs ds : List (PTree Str)}
    (ih : ∀ c ∈ cs, ∀ d, RmTerm.rmChild func sent c = some (some d) → Spec.Constituent d) (h : RmTerm.rmChildren func sent cs = some ds) : ∀ d ∈ ds, Spec.Constituent d := by
  induction cs generalizing ds with
  | nil => rw [RmTerm.rmChildren] at h; injection h with h; subst h; simp
  | cons c cs ih2 =>
    rw [RmTerm.rmChildren] at h
    cases h1 : RmTerm.rmChildren func sent cs with
    | none => simp [h1] at h
    | some rest =>
      cases h2 : RmTerm.rmChild func sent c with
      | none => simp [h1, h2] at h
      | some r =>
        simp [h1, h2] at h
        subst h
        intro d hd
        rcases List.mem_append.1 hd with hd | hd
        · simp at hd
          exact ih c (by simp) d (by rw [h2, hd])
        · exact ih2 (fun c hc => ih c (by simp [hc])) h1 d hd

theorem rmChild_constituent {W : Type} {func : W → PTree Str → Bool} {sent : List W} {c d : PTree Str} (hc : Spec.Constituent c)
    (h : RmTerm.rmChild func sent c = some (some d)) : Spec.Constituent d := by
  induction c using PTree.ind generalizing d with
  | hleaf i => exact absurd hc not_constituent_leaf
  | hnode l cs ih =>
    rcases hc.cases' with ⟨i, rfl⟩ | ⟨hne, hcs⟩
    · rw [RmTerm.rmChild] at h
      cases hw : sent[i]? with
      | none => simp [hw] at h
      | some w =>
        simp [hw] at h
        rw [← h.2]; exact hc
    · cases cs with
      | nil => exact absurd rfl hne
      | cons c cs =>
        obtain ⟨l', es, rfl⟩ := (hcs c (by simp)).node
        rw [RmTerm.rmChild] at h
        cases h1 : RmTerm.rmChildren func sent (.node l' es :: cs) with
        | none => simp [h1] at h
        | some ds =>
          simp [h1] at h
          have := rmChildren_constituent (fun c hc d hd => ih c hc (hcs c hc) hd) h1
          rw [← h.2]
          exact .of h.1 this

theorem renumber_constituent (ρ : Nat → Nat) {t : PTree Str} (h : Spec.Constituent t) : Spec.Constituent (RmTerm.renumber ρ t) := by
  induction t using PTree.ind with
  | hleaf i => exact absurd h not_constituent_leaf
  | hnode l cs ih =>
    rcases h.cases' with ⟨i, rfl⟩ | ⟨hne, hcs⟩
    · rw [RmTerm.renumber]; exact .preterminal _ _
    · have e : ∀ xs : List (PTree Str), RmTerm.renumberL ρ xs = xs.map (RmTerm.renumber ρ) := by
        intro xs
        induction xs with
        | nil => rfl
        | cons x xs ih => rw [RmTerm.renumberL, ih]; rfl
      cases cs with
      | nil => exact absurd rfl hne
      | cons c cs =>
        obtain ⟨l', es, rfl⟩ := (hcs c (by simp)).node
        rw [RmTerm.renumber, e]
        refine .of (by simp) ?_
        intro x hx
        obtain ⟨y, hy, rfl⟩ := List.mem_map.1 hx
        exact ih y hy (hcs y hy)

theorem removeterminals_constituent {W : Type} {func : W → PTree Str → Bool} {l l' : Str} {cs cs' : List (PTree Str)} {sent sent' : List W}
    (hcs : ∀ c ∈ cs, Spec.Constituent c) (h : RmTerm.removeterminals func (.node l cs) sent = some (.node l' cs', sent')) : ∀ c ∈ cs', Spec.Constituent c := by
  rw [RmTerm.removeterminals] at h
  cases h1 : RmTerm.rmChildren func sent cs with
  | none => simp [h1] at h
  | some ds =>
    have e : ∀ (ρ : Nat → Nat) (xs : List (PTree Str)), RmTerm.renumberL ρ xs = xs.map (RmTerm.renumber ρ) := by
      intro ρ xs
      induction xs with
      | nil => rfl
      | cons x xs ih => rw [RmTerm.renumberL, ih]; rfl
    simp only [h1, e, Option.bind_eq_bind, Option.bind_some, Option.bind_eq_some_iff, Option.pure_def, Option.some.injEq, Prod.mk.injEq, PTree.node.injEq] at h
    obtain ⟨s', -, ⟨-, h2⟩, -⟩ := h
    intro c hc
    rw [← h2] at hc
    obtain ⟨y, hy, rfl⟩ := List.mem_map.1 hc
    exact renumber_constituent _ (rmChildren_constituent (fun c hc d hd => rmChild_constituent (hcs c hc) hd) h1 y hy)

theorem exists_bound (l : List Nat) : ∃ n, ∀ i ∈ l, i < n := by
  induction l with
  | nil => exact ⟨0, by simp⟩
  | cons a l ih =>
    obtain ⟨n, hn⟩ := ih
    refine ⟨max n (a + 1), fun i hi => ?_⟩
    rcases List.mem_cons.1 hi with rfl | hi
    · omega
    · have := hn i hi; omega

/-- Removing terminals from a tree for a sentence: a tree for the remaining words. -/
theorem removed_tree {W : Type} (func : W → PTree Str → Bool) (l : Str) {cs : List (PTree Str)} (sent : List W) (ht : Spec.TreeFor sent.length (.node l cs)) :
    ∃ cs' sent', RmTerm.removeterminals func (.node l cs) sent = some (.node l cs', sent') ∧ RmTerm.Spec.Removed func cs sent cs' sent' ∧
      Spec.TreeFor sent'.length (.node l cs') := by
  obtain ⟨l0, cs0, e, hcs⟩ := ht.root
  injection e with e1 e2
  subst e2
  have hlt : ∀ i ∈ leavesL cs, i < sent.length := fun i hi => List.mem_range.1 (ht.words.mem_iff.1 hi)
  have hpr : ∀ c ∈ cs, RmTerm.Spec.Proper sent.length c := fun c hc => proper_of (hcs c hc) fun i hi => hlt i (mem_leavesL.2 ⟨c, hc, hi⟩)
  obtain ⟨cs', sent', h1, h2⟩ := RmTerm.C08_removeterminals func l cs sent hpr ht.nodup
  have hcs' := removeterminals_constituent hcs h1
  refine ⟨cs', sent', h1, h2, ⟨l, cs', rfl, hcs'⟩, ?_⟩
  obtain ⟨ρ, h3, -, h4, -⟩ := h2.ex
  rw [leaves_node]
  obtain ⟨N, hN⟩ := exists_bound (leavesL cs')
  have hpr' : ∀ c ∈ cs', RmTerm.Spec.Proper N c := fun c hc => proper_of (hcs' c hc) fun i hi => hN i (mem_leavesL.2 ⟨c, hc, hi⟩)
  rw [← RmTerm.posL_leaves hpr', h3, List.map_map]
  exact h4

/-- **C48.** Strategy `remove`: the words that remain are exactly those that are not punctuation, in the same order, with a tree for these words that has
the other constituents (as in C08); no punctuation is left. -/
theorem C48_remove (sent : List Str) (l : Str) (cs : List (PTree Str)) (ht : Spec.TreeFor sent.length (.node l cs)) :
    ∃ cs' sent', punctremove (.node l cs) sent false = some (.node l cs', sent') ∧ Spec.TreeFor sent'.length (.node l cs') ∧
      RmTerm.Spec.Removed (fun w node => match node with | .node l _ => ispunct w l | .leaf _ => false) cs sent cs' sent' ∧
      (∀ q : Nat → Bool, (∀ i < sent.length, q i = true ↔ ¬ Spec.IsPunct sent (.node l cs) i) → sent'.map some = ((List.range sent.length).filter q).map (fun i => sent[i]?)) ∧
      ∀ i, ¬ Spec.IsPunct sent' (.node l cs') i := by
  obtain ⟨cs', sent', h1, h2, h3⟩ := removed_tree (fun w (node : PTree Str) => match node with | .node l _ => ispunct w l | .leaf _ => false) l sent ht
  obtain ⟨l0, cs0, e, hcs⟩ := ht.root
  injection e with e1 e2
  subst e2
  have hlt : ∀ i ∈ leavesL cs, i < sent.length := fun i hi => List.mem_range.1 (ht.words.mem_iff.1 hi)
  have hpr : ∀ c ∈ cs, RmTerm.Spec.Proper sent.length c := fun c hc => proper_of (hcs c hc) fun i hi => hlt i (mem_leavesL.2 ⟨c, hc, hi⟩)
  have hroot : ∀ {l0 : Str} {xs : List (PTree Str)} {l' : Str} {i : Nat}, (∀ c ∈ xs, Spec.Constituent c) → .node l' [.leaf i] ∈ subtrees (.node l0 xs) → .node l' [.leaf i] ∈ subtreesL xs := by
    intro l0 xs l' i hxs hm
    rw [subtrees_node, List.mem_cons] at hm
    rcases hm with e | h
    · injection e with _ e; rw [← e] at hxs; exact absurd (hxs (.leaf i) (by simp)) not_constituent_leaf
    · exact h
  have hkept : ∀ x ∈ RmTerm.Spec.posL cs, RmTerm.Spec.kept (fun w (node : PTree Str) => match node with | .node l _ => ispunct w l | .leaf _ => false) sent x = true ↔
      ¬ Spec.IsPunct sent (.node l cs) x.1 := by
    intro x hx
    obtain ⟨i, lx⟩ := x
    have hm := (posL_iff hpr i lx).1 hx
    have hi : i < sent.length := by
      obtain ⟨c, hc, hs⟩ := mem_subtreesL.1 hm
      exact hlt i (mem_leavesL.2 ⟨c, hc, subtree_leaves hs i (by simp)⟩)
    have hm' : .node lx [.leaf i] ∈ subtrees (.node l cs) := by rw [subtrees_node]; exact List.mem_cons_of_mem _ hm
    rw [RmTerm.Spec.kept, List.getElem?_eq_getElem hi]
    simp only [Bool.not_eq_true', ← Bool.not_eq_true, ispunct_iff]
    refine not_congr ⟨fun h => ⟨lx, _, hm', List.getElem?_eq_getElem hi, h⟩, ?_⟩
    rintro ⟨l', w, h4, h5, h6⟩
    rw [pre_unique ht.nodup hm' h4]
    rw [List.getElem?_eq_getElem hi] at h5
    rw [Option.some.inj h5]
    exact h6
  refine ⟨cs', sent', by rw [punctremove]; exact h1, h3, h2, ?_, ?_⟩
  · intro q hq
    refine removed_sentence hpr ht.words h2 q fun x hx => ?_
    have hi : x.1 < sent.length := by
      obtain ⟨c, hc, hs⟩ := mem_subtreesL.1 ((posL_iff hpr x.1 x.2).1 hx)
      exact hlt _ (mem_leavesL.2 ⟨c, hc, subtree_leaves hs _ (by simp)⟩)
    rw [Bool.eq_iff_iff, hkept x hx]
    exact hq x.1 hi
  · rintro i ⟨l', w, h4, h5, h6⟩
    obtain ⟨ρ, h7, -, -, h8, -⟩ := h2.ex
    have hcs' := removeterminals_constituent hcs h1
    obtain ⟨N, hN⟩ := exists_bound (leavesL cs')
    have hpr' : ∀ c ∈ cs', RmTerm.Spec.Proper N c := fun c hc => proper_of (hcs' c hc) fun i hi => hN i (mem_leavesL.2 ⟨c, hc, hi⟩)
    have hm := (posL_iff hpr' i l').2 (hroot hcs' h4)
    rw [h7] at hm
    obtain ⟨x, hx, hxe⟩ := List.mem_map.1 hm
    simp only [Prod.mk.injEq] at hxe
    have := h8 x hx
    rw [hxe.1, h5] at this
    have hx' := List.mem_filter.1 hx
    refine (hkept x hx'.1).1 hx'.2 ⟨x.2, w, ?_, this.symm, by rw [hxe.2]; exact h6⟩
    rw [subtrees_node]; exact List.mem_cons_of_mem _ ((posL_iff hpr x.1 x.2).1 hx'.1)

/-- **C48.** Strategy `removeall`: the words that remain are exactly those without a preterminal directly under the root, in the same order, with a tree for
these words (as in C08). -/
theorem C48_removeall (sent : List Str) (l : Str) (cs : List (PTree Str)) (ht : Spec.TreeFor sent.length (.node l cs)) :
    ∃ cs' sent' func, punctremove (.node l cs) sent true = some (.node l cs', sent') ∧ Spec.TreeFor sent'.length (.node l cs') ∧
      RmTerm.Spec.Removed func cs sent cs' sent' ∧
      ∀ q : Nat → Bool, (∀ i < sent.length, q i = true ↔ ∀ l', .node l' [.leaf i] ∉ cs) → sent'.map some = ((List.range sent.length).filter q).map (fun i => sent[i]?) := by
  obtain ⟨cs', sent', h1, h2, h3⟩ := removed_tree (fun (_ : Str) node => ((PTree.node l cs).children.filter fun c => match c with
    | .node _ (.leaf _ :: _) => true | _ => false).contains node) l sent ht
  obtain ⟨l0, cs0, e, hcs⟩ := ht.root
  injection e with e1 e2
  subst e2
  have hlt : ∀ i ∈ leavesL cs, i < sent.length := fun i hi => List.mem_range.1 (ht.words.mem_iff.1 hi)
  have hpr : ∀ c ∈ cs, RmTerm.Spec.Proper sent.length c := fun c hc => proper_of (hcs c hc) fun i hi => hlt i (mem_leavesL.2 ⟨c, hc, hi⟩)
  refine ⟨cs', sent', _, by rw [punctremove]; exact h1, h3, h2, ?_⟩
  intro q hq
  refine removed_sentence hpr ht.words h2 q fun x hx => ?_
  have hm := (posL_iff hpr x.1 x.2).1 hx
  have hi : x.1 < sent.length := by
    obtain ⟨c, hc, hs⟩ := mem_subtreesL.1 hm
    exact hlt _ (mem_leavesL.2 ⟨c, hc, subtree_leaves hs _ (by simp)⟩)
  rw [Bool.eq_iff_iff, hq x.1 hi, RmTerm.Spec.kept, List.getElem?_eq_getElem hi]
  simp only [Bool.not_eq_true', ← Bool.not_eq_true, List.contains_iff_mem, List.mem_filter, PTree.children, and_true]
  constructor
  · exact fun h => h x.2
  · intro h l' hm'
    have : l' = x.2 := pre_unique (t := .node l cs) ht.nodup (i := x.1)
      (by rw [subtrees_node]; exact List.mem_cons_of_mem _ (mem_subtreesL.2 ⟨_, hm', by simp⟩)) (by rw [subtrees_node]; exact List.mem_cons_of_mem _ hm)
    rw [this] at hm'
    exact h hm'

theorem pruneLoop_spec (s : List (Option Str)) : ∃ (a : List Str) (r : List (Option Str)), s = a.map some ++ r ∧ pruneLoop s = a.map (fun _ => none) ++ r ∧ (∀ w ∈ a, w ∈ PRUNEPUNCT) ∧
    ∀ w r', r = some w :: r' → w ∉ PRUNEPUNCT := by
  induction s with
  | nil => exact ⟨[], [], rfl, rfl, by simp, by simp⟩
  | cons x s ih =>
    cases x with
    | none => exact ⟨[], none :: s, rfl, rfl, by simp, by simp⟩
    | some w =>
      rw [pruneLoop]
      by_cases hw : w ∈ PRUNEPUNCT
      · obtain ⟨a, r, h1, h2, h3, h4⟩ := ih
        refine ⟨w :: a, r, by rw [h1]; rfl, ?_, ?_, h4⟩
        · rw [if_pos (by simpa using hw), h2]; rfl
        · intro v hv
          rcases List.mem_cons.1 hv with rfl | hv
          · exact hw
          · exact h3 v hv
      · refine ⟨[], some w :: s, rfl, by rw [if_neg (by simpa using hw)]; rfl, by simp, ?_⟩
        intro v r' h
        injection h with h _
        injection h with h
        rw [← h]; exact hw

theorem pruneLoop_append (x : List Str) (z : List (Option Str)) (h : ∃ w ∈ x, w ∉ PRUNEPUNCT) : pruneLoop (x.map some ++ z) = pruneLoop (x.map some) ++ z := by
  induction x with
  | nil => obtain ⟨w, h, -⟩ := h; cases h
  | cons w x ih =>
    rw [List.map_cons, List.cons_append, pruneLoop, pruneLoop]
    by_cases hw : w ∈ PRUNEPUNCT
    · rw [if_pos (by simpa using hw), if_pos (by simpa using hw), ih, List.cons_append]
      obtain ⟨v, hv, hv'⟩ := h
      rcases List.mem_cons.1 hv with rfl | hv
      · exact absurd hw hv'
      · exact ⟨v, hv, hv'⟩
    · rw [if_neg (by simpa using hw), if_neg (by simpa using hw)]; rfl

/-- `r` is the sentence without the quotes and periods at its beginning (`a`) and end (`b`). -/
structure Spec.Pruned (sent a r b : List Str) : Prop where
  parts : sent = a ++ r ++ b
  front : ∀ w ∈ a, w ∈ PRUNEPUNCT
  back : ∀ w ∈ b, w ∈ PRUNEPUNCT
  first : ∀ w, r.head? = some w → w ∉ PRUNEPUNCT
  last : ∀ w, r.getLast? = some w → w ∉ PRUNEPUNCT

theorem map_none {a : List Str} : a.map (fun _ => (none : Option Str)) = List.replicate a.length none := by
  rw [List.map_const']

theorem prunemarks_spec {sent : List Str} (hne : sent ≠ []) : ∃ a r b, Spec.Pruned sent a r b ∧
    prunemarks sent = some (List.replicate a.length none ++ r.map some ++ List.replicate b.length none) := by
  rw [prunemarks, if_neg hne]
  obtain ⟨a, r, h1, h2, h3, h4⟩ := pruneLoop_spec (sent.map some)
  obtain ⟨r1, rfl⟩ : ∃ r1 : List Str, r = r1.map some := by
    obtain ⟨x, y, hxy, hx, hy⟩ := List.map_eq_append_iff.1 h1
    exact ⟨y, hy.symm⟩
  have hs : sent = a ++ r1 := by
    rw [← List.map_append] at h1
    exact (List.map_injective_iff.2 (Option.some_injective _)) h1
  rw [h2, map_none]
  by_cases hr : r1 = []
  · subst hr
    refine ⟨a, [], [], ⟨by simp [hs], h3, by simp, by simp, by simp⟩, ?_⟩
    congr 1
    simp only [List.map_nil, List.append_nil, List.reverse_replicate, List.length_nil, List.replicate_zero]
    cases h : a.length with
    | zero => rfl
    | succ k => rw [List.replicate_succ]; simp only [pruneLoop]; rw [← List.replicate_succ, List.reverse_replicate]
  · obtain ⟨w1, r1', rfl⟩ := List.exists_cons_of_ne_nil hr
    have hw1 : w1 ∉ PRUNEPUNCT := h4 w1 (r1'.map some) rfl
    obtain ⟨b, r2, h5, h6, h7, h8⟩ := pruneLoop_spec ((w1 :: r1').reverse.map some)
    obtain ⟨r3, rfl⟩ : ∃ r3 : List Str, r2 = r3.map some := by
      obtain ⟨x, y, hxy, hx, hy⟩ := List.map_eq_append_iff.1 h5
      exact ⟨y, hy.symm⟩
    have h9 : (w1 :: r1').reverse = b ++ r3 := by
      rw [← List.map_append] at h5
      exact (List.map_injective_iff.2 (Option.some_injective _)) h5
    have h10 : w1 :: r1' = r3.reverse ++ b.reverse := by
      rw [← List.reverse_append, ← h9, List.reverse_reverse]
    have hr3 : r3 ≠ [] := by
      rintro rfl
      have : w1 ∈ b := by
        have : w1 ∈ (w1 :: r1').reverse := by simp
        rw [h9, List.append_nil] at this; exact this
      exact hw1 (h7 w1 this)
    refine ⟨a, r3.reverse, b.reverse, ⟨by rw [hs, h10, List.append_assoc], h3, fun w hw => h7 w (by simpa using hw), ?_, ?_⟩, ?_⟩
    · intro w hw
      have : (r3.reverse ++ b.reverse).head? = some w := by rw [List.head?_append, hw]; rfl
      rw [← h10] at this
      injection this with this
      rw [← this]; exact hw1
    · intro w hw
      rw [List.getLast?_reverse] at hw
      cases r3 with
      | nil => cases hw
      | cons x r3 =>
        injection hw with hw
        subst hw
        exact h8 x (r3.map some) rfl
    · rw [List.reverse_append, ← List.map_reverse, pruneLoop_append _ _ ⟨w1, by simp, hw1⟩, h6, map_none]
      simp [List.map_reverse]

/-- **C48.** Strategy `prune` on a sentence (without a tree): exactly the quotes and periods at its beginning and end are removed. -/
theorem C48_prune_sentence (sent : List Str) (hne : sent ≠ []) : ∃ a r b, Spec.Pruned sent a r b ∧ punctpruneSent sent = some r := by
  obtain ⟨a, r, b, h1, h2⟩ := prunemarks_spec hne
  refine ⟨a, r, b, h1, ?_⟩
  rw [punctpruneSent, h2, Option.map_some]
  congr 1
  rw [List.filterMap_append, List.filterMap_append]
  simp [List.filterMap_replicate_of_none]

theorem filter_range {W : Type} (g : W → Bool) (sent : List W) :
    ((List.range sent.length).filter (fun i => (sent[i]?).any g)).map (fun i => sent[i]?) = (sent.filter g).map some := by
  induction sent with
  | nil => rfl
  | cons w sent ih =>
    rw [List.length_cons, List.range_succ_eq_map, List.filter_cons, List.filter_cons, List.filter_map]
    have e : ((List.range sent.length).filter ((fun i => ((w :: sent)[i]?).any g) ∘ Nat.succ)) =
        (List.range sent.length).filter (fun i => (sent[i]?).any g) :=
      List.filter_congr fun i _ => by simp
    rw [e]
    simp only [List.getElem?_cons_zero, Option.any_some]
    by_cases h : g w = true
    · rw [if_pos h, if_pos h, List.map_cons, List.map_cons, ← ih, List.map_map]
      congr 1
    · rw [if_neg h, if_neg h, ← ih, List.map_map]
      congr 1

/-- **C48.** Strategy `prune` with a tree: the sentence loses exactly the quotes and periods at its beginning and end, and the tree loses these words
(as in C08). -/
theorem C48_prune (sent : List Str) (hne : sent ≠ []) (l : Str) (cs : List (PTree Str)) (ht : Spec.TreeFor sent.length (.node l cs)) :
    ∃ a r b cs', Spec.Pruned sent a r b ∧ punctprune (.node l cs) sent = some (.node l cs', r.map some) ∧ Spec.TreeFor r.length (.node l cs') ∧
      RmTerm.Spec.Removed (fun w _ => w.isNone) cs (List.replicate a.length none ++ r.map some ++ List.replicate b.length none) cs' (r.map some) := by
  obtain ⟨a, r, b, h1, h2⟩ := prunemarks_spec hne
  have hlen : (List.replicate a.length none ++ r.map some ++ List.replicate b.length (none : Option Str)).length = sent.length := by
    rw [h1.parts]; simp
  rw [← hlen] at ht
  obtain ⟨cs', sent', h3, h4, h5⟩ := removed_tree (fun (w : Option Str) _ => w.isNone) l _ ht
  have hs : sent' = r.map some := by
    obtain ⟨l0, cs0, e, hcs⟩ := ht.root
    injection e with e1 e2
    subst e2
    have hlt : ∀ i ∈ leavesL cs, i < _ := fun i hi => List.mem_range.1 (ht.words.mem_iff.1 hi)
    have hpr : ∀ c ∈ cs, RmTerm.Spec.Proper _ c := fun c hc => proper_of (hcs c hc) fun i hi => hlt i (mem_leavesL.2 ⟨c, hc, hi⟩)
    have := removed_sentence hpr ht.words h4 (fun i => ((List.replicate a.length none ++ r.map some ++ List.replicate b.length (none : Option Str))[i]?).any
      fun w => !w.isNone) (fun x hx => by rw [RmTerm.Spec.kept]; split <;> simp_all)
    rw [filter_range] at this
    have := (List.map_injective_iff.2 (Option.some_injective _)) this
    rw [this]
    simp [List.filter_append]
  subst hs
  rw [List.length_map] at h5
  refine ⟨a, r, b, cs', h1, ?_, h5, h4⟩
  rw [punctprune, h2]
  exact h3

end Disco.Punct
