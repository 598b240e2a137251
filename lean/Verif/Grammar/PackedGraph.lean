import Verif.Grammar.DopReduction
import Verif.Trees.Equality
/-!
# C89: addresses for the packed graph encoding

`TreeDecorator(memoize=True)` (discodop/grammar.py:825-884): equivalent subtrees share their addresses.

Simplifications: looking up a tree in the dictionary `packedgraphs` is looking for an equal key (`DiscTree.__eq__`, C65; equal trees have equal
hashes by `C65_disctree_eq`). Words are looked up with a function, the indices being within the sentence.
-/
namespace Disco.Packed
open PTree Dop
open TreeEq (discEq)

/-! ## Model -/

/-- An item of `self.packedgraphs`: a `DiscTree` (a tree and its sentence) and the decorated tree. -/
structure Entry where
  tree : PTree Str
  sent : Nat → Option Str
  dec : PTree Str

/-- The attributes of a `TreeDecorator` (grammar.py:834-838). -/
structure St where
  n : Nat := 1
  ids : Nat := 0
  packed : List Entry := []

mutual
/-- `self._copyexceptindices(tree1, tree2)` (grammar.py:879-885). The second component is `self.ids` afterwards. That `tree2` is a terminal
when `tree1` is not does not happen, as the two have the same shape; the model then gives `tree1`. -/
def copyExcept : PTree Str → PTree Str → Nat → PTree Str × Nat
  | .leaf i, _, k => (.leaf i, k)
  | .node _ cs, .node l ds, k => (.node l (copyExceptL cs ds (k + 1)).1, (copyExceptL cs ds (k + 1)).2)
  | .node l cs, .leaf _, k => (.node l cs, k)
/-- `[self._copyexceptindices(a, b) for a, b in zip(tree1, tree2)]`. -/
def copyExceptL : List (PTree Str) → List (PTree Str) → Nat → List (PTree Str) × Nat
  | c :: cs, d :: ds, k => ((copyExcept c d k).1 :: (copyExceptL cs ds (copyExcept c d k).2).1, (copyExceptL cs ds (copyExcept c d k).2).2)
  | _, _, k => ([], k)
end

mutual
/-- `self._recdecorate(tree)` (grammar.py:867-877). The label is made before the children are visited, and the result is stored after that. -/
def recDecorate (s : Nat → Option Str) : PTree Str → St → PTree Str × St
  | .leaf i, st => (.leaf i, st)
  | .node l cs, st =>
    match st.packed.find? (fun e => discEq s e.sent (.node l cs) e.tree) with
    | some e => ((copyExcept (.node l cs) e.dec st.ids).1, { st with ids := (copyExcept (.node l cs) e.dec st.ids).2 })
    | none =>
      let r := recDecorateL s cs { st with ids := st.ids + 1 }
      let t := .node (address st.n (l, st.ids + 1)) r.1
      (t, { r.2 with packed := r.2.packed ++ [⟨.node l cs, s, t⟩] })
/-- `[self._recdecorate(child) for child in tree]`. -/
def recDecorateL (s : Nat → Option Str) : List (PTree Str) → St → List (PTree Str) × St
  | [], st => ([], st)
  | c :: cs, st => ((recDecorate s c st).1 :: (recDecorateL s cs (recDecorate s c st).2).1, (recDecorateL s cs (recDecorate s c st).2).2)
end

/-- The words of a sentence. -/
def lookup (sent : List (Option Str)) (i : Nat) : Option Str := (sent[i]?).getD none

/-- `decorate(tree, sent)` (grammar.py:854-858, 864-865): the root keeps its label. -/
def decorate (t : PTree Str) (sent : List (Option Str)) (st : St) : PTree Str × St :=
  match t with
  | .leaf i => (.leaf i, st)
  | .node l cs =>
    let r := recDecorateL (lookup sent) cs { st with ids := 0 }
    (.node l r.1, { r.2 with n := r.2.n + 1 })

/-- A history of calls, in this order, on a new `TreeDecorator(memoize=True)`. -/
def history : List (PTree Str × List (Option Str)) → St → List (PTree Str)
  | [], _ => []
  | x :: xs, st => (decorate x.1 x.2 st).1 :: history xs (decorate x.1 x.2 st).2

/-! ## Specification -/

/-- The label without the address. -/
def Spec.strip (l : Str) : Str := l.takeWhile (· ≠ '@')

/-- Input: no label has an `@`, and a terminal has no siblings to its right (as in trees in which a terminal is the only child of its tag). -/
structure Spec.Input (t : PTree Str) : Prop where
  node : t.isNode = true
  plain : ∀ s ∈ t.subtrees, ∀ l, s.label? = some l → '@' ∉ l
  term : TreeEq.Spec.termLast t

/-! ## Lemmas -/

mutual
/-- Number of nodes. -/
def sz : PTree Str → Nat
  | .leaf _ => 1
  | .node _ cs => 1 + szL cs
/-- children -/
def szL : List (PTree Str) → Nat
  | [] => 0
  | c :: cs => sz c + szL cs
end

open _root_.Disco.TreeEq.Spec (WTree withWords withWordsL termLast termLastL)

mutual
theorem sz_words (s s' : Nat → Option Str) : ∀ t t' : PTree Str, withWords s t = withWords s' t' → sz t = sz t'
  | .leaf _, .leaf _, _ => by simp [sz]
  | .leaf _, .node _ _, h => by simp [withWords] at h
  | .node _ _, .leaf _, h => by simp [withWords] at h
  | .node l cs, .node l' cs', h => by
    simp only [withWords, WTree.node.injEq] at h
    simp [sz, szL_words s s' cs cs' h.2]
theorem szL_words (s s' : Nat → Option Str) : ∀ t t' : List (PTree Str), withWordsL s t = withWordsL s' t' → szL t = szL t'
  | [], [], _ => rfl
  | [], _ :: _, h => by simp [withWordsL] at h
  | _ :: _, [], h => by simp [withWordsL] at h
  | c :: cs, d :: ds, h => by
    simp only [withWordsL, List.cons.injEq] at h
    simp [szL, sz_words s s' c d h.1, szL_words s s' cs ds h.2]
end

/-- Addresses that have been given out: the tree with its words, and its label. -/
abbrev Table := List (WTree × Str)

mutual
/-- `d` is `t` with the labels of the table. -/
def Dec (T : Table) (s : Nat → Option Str) : PTree Str → PTree Str → Prop
  | .leaf i, .leaf j => i = j
  | .node l cs, .node a ds => (withWords s (.node l cs), a) ∈ T ∧ DecL T s cs ds
  | _, _ => False
/-- children -/
def DecL (T : Table) (s : Nat → Option Str) : List (PTree Str) → List (PTree Str) → Prop
  | [], [] => True
  | c :: cs, d :: ds => Dec T s c d ∧ DecL T s cs ds
  | _, _ => False
end

mutual
theorem Dec.mono {T T' : Table} (h : ∀ x ∈ T, x ∈ T') (s : Nat → Option Str) : ∀ t d, Dec T s t d → Dec T' s t d
  | .leaf _, .leaf _, hd => by simpa [Dec] using hd
  | .leaf _, .node _ _, hd => by simp [Dec] at hd
  | .node _ _, .leaf _, hd => by simp [Dec] at hd
  | .node l cs, .node a ds, hd => by
    simp only [Dec] at hd ⊢
    exact ⟨h _ hd.1, DecL.mono h s cs ds hd.2⟩
theorem DecL.mono {T T' : Table} (h : ∀ x ∈ T, x ∈ T') (s : Nat → Option Str) : ∀ t d, DecL T s t d → DecL T' s t d
  | [], [], _ => by simp [DecL]
  | [], _ :: _, hd => by simp [DecL] at hd
  | _ :: _, [], hd => by simp [DecL] at hd
  | c :: cs, d :: ds, hd => by
    simp only [DecL] at hd ⊢
    exact ⟨Dec.mono h s c d hd.1, DecL.mono h s cs ds hd.2⟩
end

mutual
theorem Dec.copy {T : Table} (s s' : Nat → Option Str) : ∀ (t t' d : PTree Str) (k : Nat), withWords s t = withWords s' t' → Dec T s' t' d →
    Dec T s t (copyExcept t d k).1
  | .leaf i, _, _, _, _, _ => by simp [copyExcept, Dec]
  | .node _ _, .leaf _, _, _, h, _ => by simp [withWords] at h
  | .node _ _, .node _ _, .leaf _, _, _, hd => by simp [Dec] at hd
  | .node l cs, .node l' cs', .node a ds, k, h, hd => by
    simp only [Dec] at hd
    simp only [copyExcept, Dec]
    refine ⟨by rw [h]; exact hd.1, ?_⟩
    simp only [withWords, WTree.node.injEq] at h
    exact DecL.copy s s' cs cs' ds (k + 1) h.2 hd.2
theorem DecL.copy {T : Table} (s s' : Nat → Option Str) : ∀ (t t' d : List (PTree Str)) (k : Nat), withWordsL s t = withWordsL s' t' → DecL T s' t' d →
    DecL T s t (copyExceptL t d k).1
  | [], [], [], _, _, _ => by simp [copyExceptL, DecL]
  | [], [], _ :: _, _, _, hd => by simp [DecL] at hd
  | [], _ :: _, _, _, h, _ => by simp [withWordsL] at h
  | _ :: _, [], _, _, h, _ => by simp [withWordsL] at h
  | _ :: _, _ :: _, [], _, _, hd => by simp [DecL] at hd
  | c :: cs, c' :: cs', d :: ds, k, h, hd => by
    simp only [DecL] at hd
    simp only [withWordsL, List.cons.injEq] at h
    simp only [copyExceptL, DecL]
    exact ⟨Dec.copy s s' c c' d k h.1 hd.1, DecL.copy s s' cs cs' ds _ h.2 hd.2⟩
end

mutual
theorem copy_ids : ∀ (t d : PTree Str) (k : Nat), k ≤ (copyExcept t d k).2
  | .leaf _, _, _ => by simp [copyExcept]
  | .node _ _, .leaf _, _ => by simp [copyExcept]
  | .node l cs, .node a ds, k => by
    simp only [copyExcept]
    have := copy_idsL cs ds (k + 1)
    omega
theorem copy_idsL : ∀ (t d : List (PTree Str)) (k : Nat), k ≤ (copyExceptL t d k).2
  | c :: cs, d :: ds, k => by
    simp only [copyExceptL]
    have h1 := copy_ids c d k
    have h2 := copy_idsL cs ds (copyExcept c d k).2
    omega
  | [], _, _ => by simp [copyExceptL]
  | _ :: _, [], _ => by simp [copyExceptL]
end

/-- The table of a state. -/
def tab (st : St) : Table := st.packed.map fun e => (withWords e.sent e.tree, (e.dec.label?).getD [])

/-- The root of the tree has a label without address. -/
def wlabel : WTree → Str
  | .word _ => []
  | .node l _ => l

structure Inv (st : St) : Prop where
  entry : ∀ e ∈ st.packed, Dec (tab st) e.sent e.tree e.dec ∧ termLast e.tree ∧ e.tree.isNode = true
  keys : ((tab st).map Prod.fst).Nodup
  addr : ∀ x ∈ tab st, '@' ∉ wlabel x.1 ∧ ∃ n m, x.2 = address n (wlabel x.1, m) ∧ (n < st.n ∨ (n = st.n ∧ m ≤ st.ids))
  labels : ((tab st).map Prod.snd).Nodup

theorem termLastL_cons {c : PTree Str} {cs : List (PTree Str)} (h : termLastL (c :: cs)) : termLast c ∧ termLastL cs := by
  cases c with
  | leaf i => simp only [termLastL] at h; subst h; exact ⟨by simp [termLast], by simp [termLastL]⟩
  | node l xs => simpa [termLastL, termLast] using h

/-- What a call adds. -/
structure Step (s : Nat → Option Str) (size : Nat) (st st' : St) : Prop where
  inv : Inv st'
  n : st'.n = st.n
  ids : st.ids ≤ st'.ids
  new : ∃ new, tab st' = tab st ++ new ∧ ∀ x ∈ new, (∃ u, x.1 = withWords s u ∧ sz u ≤ size) ∧
    ∃ m, st.ids < m ∧ m ≤ st'.ids ∧ x.2 = address st.n (wlabel x.1, m)

theorem Step.refl {s : Nat → Option Str} {k : Nat} {st : St} (h : Inv st) : Step s k st st :=
  ⟨h, rfl, Nat.le_refl _, [], by simp, by simp⟩

theorem Step.sub {s : Nat → Option Str} {k : Nat} {st st' : St} (h : Step s k st st') : ∀ x ∈ tab st, x ∈ tab st' := by
  obtain ⟨new, h1, -⟩ := h.new
  intro x hx
  rw [h1]; exact List.mem_append_left _ hx

theorem Step.trans {s : Nat → Option Str} {k k' : Nat} {a b c : St} (h : Step s k a b) (h' : Step s k' b c) : Step s (k + k') a c := by
  obtain ⟨n1, e1, h1⟩ := h.new
  obtain ⟨n2, e2, h2⟩ := h'.new
  refine ⟨h'.inv, h'.n.trans h.n, Nat.le_trans h.ids h'.ids, n1 ++ n2, by rw [e2, e1, List.append_assoc], ?_⟩
  have := h.ids
  have := h'.ids
  intro x hx
  rcases List.mem_append.1 hx with hx | hx
  · obtain ⟨⟨u, g1, g2⟩, m, g3, g4, g5⟩ := h1 x hx
    exact ⟨⟨u, g1, by omega⟩, m, g3, by omega, g5⟩
  · obtain ⟨⟨u, g1, g2⟩, m, g3, g4, g5⟩ := h2 x hx
    exact ⟨⟨u, g1, by omega⟩, m, by omega, g4, by rw [g5, h.n]⟩

theorem Inv.more {st : St} (h : Inv st) {k : Nat} (hk : st.ids ≤ k) : Inv { st with ids := k } := by
  refine ⟨h.entry, h.keys, ?_, h.labels⟩
  intro x hx
  obtain ⟨h1, n, m, h2, h3⟩ := h.addr x hx
  refine ⟨h1, n, m, h2, ?_⟩
  rcases h3 with h3 | ⟨h3, h4⟩
  · exact .inl h3
  · exact .inr ⟨h3, Nat.le_trans h4 hk⟩

theorem Step.more {s : Nat → Option Str} {size : Nat} {st : St} (h : Inv st) {k : Nat} (hk : st.ids ≤ k) : Step s size st { st with ids := k } :=
  ⟨h.more hk, rfl, hk, [], by simp [tab], by simp⟩

mutual
theorem rec_spec (s : Nat → Option Str) : ∀ (t : PTree Str) (st : St), Inv st → (∀ u ∈ t.subtrees, ∀ l, u.label? = some l → '@' ∉ l) → termLast t →
    Step s (sz t) st (recDecorate s t st).2 ∧ Dec (tab (recDecorate s t st).2) s t (recDecorate s t st).1
  | .leaf i, st, hi, _, _ => ⟨Step.refl hi, by simp [recDecorate, Dec]⟩
  | .node l cs, st, hi, hp, ht => by
    rw [recDecorate]
    cases hf : st.packed.find? (fun e => discEq s e.sent (.node l cs) e.tree) with
    | some e =>
      have he := hi.entry e (List.mem_of_find?_eq_some hf)
      have hq := List.find?_some hf
      have hw := TreeEq.words_of_discEq s e.sent _ _ ht hq
      have hk := copy_ids (.node l cs) e.dec st.ids
      exact ⟨Step.more hi hk, Dec.copy s e.sent _ _ _ _ hw he.1⟩
    | none =>
      have hl : '@' ∉ l := hp (.node l cs) (by simp) l rfl
      obtain ⟨g1, g2⟩ := recL_spec s cs { st with ids := st.ids + 1 } (hi.more (Nat.le_succ _)) (fun u hu => hp u (by simp [hu])) (by simpa [termLast] using ht)
      simp only
      generalize recDecorateL s cs { st with ids := st.ids + 1 } = r at g1 g2
      obtain ⟨ds, st'⟩ := r
      simp only at g1 g2 ⊢
      obtain ⟨new, e1, e2⟩ := g1.new
      have e1 : tab st' = tab st ++ new := e1
      have hn : st'.n = st.n := g1.n
      have hids : st.ids + 1 ≤ st'.ids := g1.ids
      have hT : tab { st' with packed := st'.packed ++ [⟨.node l cs, s, .node (address st.n (l, st.ids + 1)) ds⟩] } =
          tab st' ++ [(withWords s (.node l cs), address st.n (l, st.ids + 1))] := by simp [tab, label?]
      have hsub : ∀ x ∈ tab st', x ∈ tab { st' with packed := st'.packed ++ [⟨.node l cs, s, .node (address st.n (l, st.ids + 1)) ds⟩] } := by
        intro x hx; rw [hT]; exact List.mem_append_left _ hx
      have hdec : Dec (tab { st' with packed := st'.packed ++ [⟨.node l cs, s, .node (address st.n (l, st.ids + 1)) ds⟩] }) s (.node l cs)
          (.node (address st.n (l, st.ids + 1)) ds) := by
        simp only [Dec]
        refine ⟨by rw [hT]; simp, DecL.mono hsub s cs ds g2⟩
      refine ⟨⟨⟨?_, ?_, ?_, ?_⟩, hn, by simp only; omega, new ++ [(withWords s (.node l cs), address st.n (l, st.ids + 1))], by rw [hT, e1, List.append_assoc], ?_⟩, hdec⟩
      · intro e he
        rcases List.mem_append.1 he with he | he
        · obtain ⟨h1, h2⟩ := g1.inv.entry e he
          exact ⟨Dec.mono hsub _ _ _ h1, h2⟩
        · rw [List.mem_singleton] at he
          subst he
          exact ⟨hdec, ht, rfl⟩
      · rw [hT, List.map_append, List.nodup_append]
        refine ⟨g1.inv.keys, by simp, ?_⟩
        intro a ha b hb hab
        simp only [List.map_cons, List.map_nil, List.mem_singleton] at hb
        subst hb
        obtain ⟨x, hx, rfl⟩ := List.mem_map.1 ha
        rw [e1] at hx
        rcases List.mem_append.1 hx with hx | hx
        · obtain ⟨e, he, rfl⟩ := List.mem_map.1 hx
          have := List.find?_eq_none.1 hf e he
          apply this
          simp only at hab
          cases het : e.tree with
          | leaf i => rw [het] at hab; simp [withWords] at hab
          | node l' cs' =>
            rw [het] at hab
            simp only [withWords, WTree.node.injEq] at hab
            exact TreeEq.discEq_of_words s e.sent l cs l' cs' hab.2.symm hab.1.symm
        · obtain ⟨⟨u, h1, h2⟩, -⟩ := e2 x hx
          rw [h1] at hab
          have := sz_words s s _ _ hab
          simp only [sz] at this
          omega
      · intro x hx
        rw [hT] at hx
        rcases List.mem_append.1 hx with hx | hx
        · exact g1.inv.addr x hx
        · rw [List.mem_singleton] at hx
          subst hx
          refine ⟨by simpa [withWords, wlabel] using hl, st.n, st.ids + 1, by simp [withWords, wlabel], .inr ⟨hn.symm, hids⟩⟩
      · rw [hT, List.map_append, List.nodup_append]
        refine ⟨g1.inv.labels, by simp, ?_⟩
        intro a ha b hb hab
        simp only [List.map_cons, List.map_nil, List.mem_singleton] at hb
        subst hb
        obtain ⟨x, hx, rfl⟩ := List.mem_map.1 ha
        have hxp := (g1.inv.addr x hx).1
        rw [e1] at hx
        rcases List.mem_append.1 hx with hx | hx
        · obtain ⟨-, n', m, h2, h3⟩ := hi.addr x hx
          rw [h2] at hab
          obtain ⟨rfl, h4⟩ := address_inj hxp hl hab
          simp only [Prod.mk.injEq] at h4
          omega
        · obtain ⟨-, m, h2, h3, h4⟩ := e2 x hx
          simp only at h4 h2
          rw [h4] at hab
          obtain ⟨-, h5⟩ := address_inj hxp hl hab
          simp only [Prod.mk.injEq] at h5
          omega
      · intro x hx
        rcases List.mem_append.1 hx with hx | hx
        · obtain ⟨⟨u, h1, h2⟩, m, h3, h4, h5⟩ := e2 x hx
          simp only at h3 h5
          exact ⟨⟨u, h1, by simp only [sz]; omega⟩, m, by omega, h4, h5⟩
        · rw [List.mem_singleton] at hx
          subst hx
          exact ⟨⟨_, rfl, Nat.le_refl _⟩, st.ids + 1, by omega, hids, by simp [withWords, wlabel]⟩
theorem recL_spec (s : Nat → Option Str) : ∀ (ts : List (PTree Str)) (st : St), Inv st → (∀ u ∈ subtreesL ts, ∀ l, u.label? = some l → '@' ∉ l) → termLastL ts →
    Step s (szL ts) st (recDecorateL s ts st).2 ∧ DecL (tab (recDecorateL s ts st).2) s ts (recDecorateL s ts st).1
  | [], st, hi, _, _ => ⟨Step.refl hi, by simp [recDecorateL, DecL]⟩
  | c :: cs, st, hi, hp, ht => by
    obtain ⟨h1, h2⟩ := rec_spec s c st hi (fun u hu => hp u (by simp [hu])) (termLastL_cons ht).1
    obtain ⟨h3, h4⟩ := recL_spec s cs (recDecorate s c st).2 h1.inv (fun u hu => hp u (by simp [hu])) (termLastL_cons ht).2
    simp only [recDecorateL, DecL, szL]
    exact ⟨h1.trans h3, Dec.mono h3.sub _ _ _ h2, h4⟩
end

/-- The tree with both labels at each node. -/
def zipT : PTree Str → PTree Str → Pair
  | .leaf i, _ => .leaf i
  | .node l cs, .node a ds => .node (l, a) (zipL cs ds)
  | .node l _, .leaf _ => .node (l, l) []
where
  /-- children -/
  zipL : List (PTree Str) → List (PTree Str) → List Pair
  | c :: cs, d :: ds => zipT c d :: zipL cs ds
  | _, _ => []

open zipT (zipL)

mutual
theorem zip_spec {T : Table} (s : Nat → Option Str) : ∀ (t d : PTree Str), Dec T s t d →
    mapLabel Prod.fst (zipT t d) = t ∧ mapLabel Prod.snd (zipT t d) = d ∧
    ∀ p ∈ (zipT t d).subtrees, ∀ l a, p.label? = some (l, a) → (withWords s (mapLabel Prod.fst p), a) ∈ T ∧ wlabel (withWords s (mapLabel Prod.fst p)) = l
  | .leaf i, .leaf j, h => by
    simp only [Dec] at h
    subst h
    refine ⟨by simp [zipT], by simp [zipT], ?_⟩
    intro p hp l a hl
    simp [zipT] at hp
  | .leaf _, .node _ _, h => by simp [Dec] at h
  | .node _ _, .leaf _, h => by simp [Dec] at h
  | .node l cs, .node a ds, h => by
    simp only [Dec] at h
    obtain ⟨h1, h2, h3⟩ := zipL_spec s cs ds h.2
    have e1 : mapLabel Prod.fst (zipT (.node l cs) (.node a ds)) = .node l cs := by
      simp only [zipT, mapLabel_node, mapLabelL_eq]; rw [h1]
    refine ⟨e1, by simp only [zipT, mapLabel_node, mapLabelL_eq]; rw [h2], ?_⟩
    intro p hp l' a' hl
    rw [zipT, subtrees_node, List.mem_cons] at hp
    rcases hp with rfl | hp
    · simp only [label?, Option.some.injEq, Prod.mk.injEq] at hl
      rw [zipT] at e1
      rw [e1]
      exact ⟨by rw [← hl.2]; exact h.1, by simp [withWords, wlabel, hl.1]⟩
    · exact h3 p hp l' a' hl
theorem zipL_spec {T : Table} (s : Nat → Option Str) : ∀ (t d : List (PTree Str)), DecL T s t d →
    (zipL t d).map (mapLabel Prod.fst) = t ∧ (zipL t d).map (mapLabel Prod.snd) = d ∧
    ∀ p ∈ subtreesL (zipL t d), ∀ l a, p.label? = some (l, a) → (withWords s (mapLabel Prod.fst p), a) ∈ T ∧ wlabel (withWords s (mapLabel Prod.fst p)) = l
  | [], [], _ => by simp [zipL]
  | [], _ :: _, h => by simp [DecL] at h
  | _ :: _, [], h => by simp [DecL] at h
  | c :: cs, d :: ds, h => by
    simp only [DecL] at h
    obtain ⟨h1, h2, h3⟩ := zip_spec s c d h.1
    obtain ⟨g1, g2, g3⟩ := zipL_spec s cs ds h.2
    simp only [zipL, List.map_cons, h1, h2, g1, g2, subtreesL_cons, List.mem_append, true_and]
    intro p hp
    rcases hp with hp | hp
    · exact h3 p hp
    · exact g3 p hp
end

/-- Between two calls. -/
def Idle (st : St) : Prop := Inv { st with ids := 0 }

/-- The table is complete for a call. -/
def Covers (T : Table) (x : PTree Str × List (Option Str)) (d : PTree Str) : Prop :=
  ∃ l cs ds, x.1 = .node l cs ∧ d = .node l ds ∧ DecL T (lookup x.2) cs ds

theorem decorate_spec (x : PTree Str × List (Option Str)) (hx : Spec.Input x.1) (st : St) (h : Idle st) :
    Idle (decorate x.1 x.2 st).2 ∧ (∀ y ∈ tab st, y ∈ tab (decorate x.1 x.2 st).2) ∧ Covers (tab (decorate x.1 x.2 st).2) x (decorate x.1 x.2 st).1 := by
  obtain ⟨t, sent⟩ := x
  cases t with
  | leaf i => have := hx.node; simp [isNode] at this
  | node l cs =>
    obtain ⟨h1, h2⟩ := recL_spec (lookup sent) cs { st with ids := 0 } h (fun u hu => hx.plain u (by simp [hu])) (by simpa [termLast] using hx.term)
    simp only [decorate]
    generalize recDecorateL (lookup sent) cs { st with ids := 0 } = r at h1 h2
    refine ⟨⟨h1.inv.entry, h1.inv.keys, ?_, h1.inv.labels⟩, h1.sub, l, cs, r.1, rfl, rfl, h2⟩
    intro y hy
    obtain ⟨g1, n, m, g2, g3⟩ := h1.inv.addr y hy
    refine ⟨g1, n, m, g2, .inl ?_⟩
    simp only
    omega

theorem history_spec : ∀ (xs : List (PTree Str × List (Option Str))) (st : St), Idle st → (∀ x ∈ xs, Spec.Input x.1) →
    ∃ T : Table, (∀ y ∈ tab st, y ∈ T) ∧ (T.map Prod.fst).Nodup ∧ (T.map Prod.snd).Nodup ∧
      (∀ y ∈ T, '@' ∉ wlabel y.1 ∧ ∃ n m, y.2 = address n (wlabel y.1, m)) ∧
      List.Forall₂ (Covers T) xs (history xs st)
  | [], st, h, _ => ⟨tab st, fun _ h => h, h.keys, h.labels, fun y hy => by
      obtain ⟨h1, n, m, h2, -⟩ := h.addr y hy
      exact ⟨h1, n, m, h2⟩, by simp [history]⟩
  | x :: xs, st, h, hx => by
    obtain ⟨h1, h2, l, cs, ds, h3, h4, h5⟩ := decorate_spec x (hx x (by simp)) st h
    obtain ⟨T, g1, g2, g3, g4, g5⟩ := history_spec xs (decorate x.1 x.2 st).2 h1 (fun y hy => hx y (by simp [hy]))
    exact ⟨T, fun y hy => g1 y (h2 y hy), g2, g3, g4, .cons ⟨l, cs, ds, h3, h4, DecL.mono g1 _ _ _ h5⟩ g5⟩

theorem idle_new : Idle {} := ⟨by simp, by simp [tab], by simp [tab], by simp [tab]⟩

theorem nodup_unique {α β : Type} {T : List (α × β)} (h : (T.map Prod.fst).Nodup) {a : α} {b b' : β} (h1 : (a, b) ∈ T) (h2 : (a, b') ∈ T) : b = b' := by
  have := List.inj_on_of_nodup_map h h1 h2 rfl
  simpa using this

theorem nodup_unique' {α β : Type} {T : List (α × β)} (h : (T.map Prod.snd).Nodup) {a a' : α} {b : β} (h1 : (a, b) ∈ T) (h2 : (a', b) ∈ T) : a = a' := by
  have := List.inj_on_of_nodup_map h h1 h2 rfl
  simpa using this

theorem strip_address {n : Nat} {x : Str × Nat} (h : '@' ∉ x.1) : Spec.strip (address n x) = x.1 := by
  unfold Spec.strip address
  rw [List.takeWhile_append_of_pos]
  · simp
  · intro c hc
    simp only [ne_eq, decide_not, Bool.not_eq_eq_eq_not, Bool.not_true, decide_eq_false_iff_not]
    rintro rfl
    exact h hc

/-! ## Theorems -/

/-- **C89.** For any history of calls on one decorator: each result is the tree with other labels below the root (`P` has for each node the label
in the tree and the label in the result); these labels have an address, and without it they are those of the tree; and two nodes, of the
same tree or of different trees, get the same label if and only if the subtrees are the same with the words in place of the indices. -/
theorem C89_addresses (xs : List (PTree Str × List (Option Str))) (h : ∀ x ∈ xs, Spec.Input x.1) :
    ∃ Ps : List (List (Option Str) × Pair),
      Ps.map (fun p => (mapLabel Prod.fst p.2, p.1)) = xs ∧ Ps.map (fun p => mapLabel Prod.snd p.2) = history xs {} ∧
      (∀ P ∈ Ps, ∃ l, P.2.label? = some (l, l)) ∧
      (∀ P ∈ Ps, ∀ p ∈ subtreesL P.2.children, ∀ l a, p.label? = some (l, a) → '@' ∈ a ∧ Spec.strip a = l) ∧
      ∀ P ∈ Ps, ∀ P' ∈ Ps, ∀ p ∈ subtreesL P.2.children, ∀ p' ∈ subtreesL P'.2.children, ∀ l a l' a',
        p.label? = some (l, a) → p'.label? = some (l', a') →
        (a = a' ↔ withWords (lookup P.1) (mapLabel Prod.fst p) = withWords (lookup P'.1) (mapLabel Prod.fst p')) := by
  obtain ⟨T, -, g2, g3, g4, g5⟩ := history_spec xs {} idle_new h
  have key : ∃ Ps : List (List (Option Str) × Pair),
      Ps.map (fun p => (mapLabel Prod.fst p.2, p.1)) = xs ∧ Ps.map (fun p => mapLabel Prod.snd p.2) = history xs {} ∧
      (∀ P ∈ Ps, ∃ l, P.2.label? = some (l, l)) ∧
      (∀ P ∈ Ps, ∀ p ∈ subtreesL P.2.children, ∀ l a, p.label? = some (l, a) →
        (withWords (lookup P.1) (mapLabel Prod.fst p), a) ∈ T ∧ wlabel (withWords (lookup P.1) (mapLabel Prod.fst p)) = l) := by
    generalize history xs {} = ds at g5
    clear h
    induction g5 with
    | nil => exact ⟨[], by simp⟩
    | @cons x d xs ds h1 _ ih =>
      obtain ⟨Ps, i1, i2, i3, i4⟩ := ih
      obtain ⟨l, cs, es, rfl', rfl, h2⟩ := h1
      obtain ⟨z1, z2, z3⟩ := zipL_spec (lookup x.2) cs es h2
      refine ⟨(x.2, .node (l, l) (zipL cs es)) :: Ps, ?_, ?_, ?_, ?_⟩
      · rw [List.map_cons, i1]
        simp only [mapLabel_node, mapLabelL_eq, z1, ← rfl']
      · rw [List.map_cons, i2]
        simp only [mapLabel_node, mapLabelL_eq, z2]
      · intro P hP
        rcases List.mem_cons.1 hP with rfl | hP
        · exact ⟨l, rfl⟩
        · exact i3 P hP
      · intro P hP
        rcases List.mem_cons.1 hP with rfl | hP
        · exact z3
        · exact i4 P hP
  obtain ⟨Ps, i1, i2, i3, i4⟩ := key
  refine ⟨Ps, i1, i2, i3, ?_, ?_⟩
  · intro P hP p hp l a hl
    obtain ⟨h1, h2⟩ := i4 P hP p hp l a hl
    obtain ⟨h3, n, m, h4⟩ := g4 _ h1
    simp only at h3 h4
    rw [h2] at h3 h4
    rw [h4]
    exact ⟨at_address _ _, strip_address h3⟩
  · intro P hP P' hP' p hp p' hp' l a l' a' hl hl'
    obtain ⟨h1, -⟩ := i4 P hP p hp l a hl
    obtain ⟨h2, -⟩ := i4 P' hP' p' hp' l' a' hl'
    constructor
    · rintro rfl
      exact nodup_unique' g3 h1 h2
    · intro e
      rw [e] at h1
      exact nodup_unique g2 h1 h2

/-! ## The DOP reduction with packed graphs -/

/-- One tree (grammar.py:140-149), with a decorator that packs. -/
def addTree (st : State × St) (x : PTree Str × List (Option Str)) : Option (State × St) := do
  let d := decorate x.1 x.2 st.2
  let prods ← Prods.lcfrsproductions x.1 x.2 false
  let uprods ← Prods.lcfrsproductions d.1 x.2 false
  let (_, fd, ntfd) ← nodefreq x.1 d.1 (st.1.fd, st.1.ntfd)
  let rules ← addProds st.1.rules (prods.zip uprods)
  some (⟨st.1.n + 1, fd, ntfd, rules⟩, d.2)

/-- `dopreduction(trees, sents, packedgraph=True)` (grammar.py:116-187): the rules with the relative frequency estimate. The order of the rules
and the other weights are left out. -/
def dopreduction (xs : List (PTree Str × List (Option Str))) : Option (List (Prods.Rule × ℚ)) := do
  let st ← xs.foldlM addTree (⟨1, [], [], []⟩, {})
  some (st.1.rules.map fun x => (x.1, rfe st.1 x.1 x.2))

/-! ## Examples -/

def w (s : String) : Option Str := some s.toList
def nd (s : String) (cs : List (PTree Str)) : PTree Str := .node s.toList cs

def exA : PTree Str := nd "S" [nd "NP" [nd "DT" [.leaf 0], nd "N" [.leaf 1]], nd "VP" [.leaf 2]]
def exB : PTree Str := nd "S" [nd "VP" [.leaf 0], nd "NP" [nd "DT" [.leaf 1], nd "N" [.leaf 2]]]
def exBank : List (PTree Str × List (Option Str)) := [(exA, [w "the", w "dog", w "walks"]), (exA, [w "the", w "dog", w "barks"]), (exB, [w "barks", w "the", w "dog"])]

/-- The hypotheses hold of the trees of the docstring and of one with another order of words. -/
example : ∀ x ∈ exBank, Spec.Input x.1 := by
  have h1 : Spec.Input exA := ⟨rfl, by decide +kernel, by simp [exA, nd, termLast, termLastL]⟩
  have h2 : Spec.Input exB := ⟨rfl, by decide +kernel, by simp [exB, nd, termLast, termLastL]⟩
  intro x hx
  simp only [exBank, List.mem_cons, List.not_mem_nil, or_false] at hx
  rcases hx with rfl | rfl | rfl
  · exact h1
  · exact h1
  · exact h2

example : history exBank {} = [
    nd "S" [nd "NP@1-1" [nd "DT@1-2" [.leaf 0], nd "N@1-3" [.leaf 1]], nd "VP@1-4" [.leaf 2]],
    nd "S" [nd "NP@1-1" [nd "DT@1-2" [.leaf 0], nd "N@1-3" [.leaf 1]], nd "VP@2-4" [.leaf 2]],
    nd "S" [nd "VP@2-4" [.leaf 0], nd "NP@1-1" [nd "DT@1-2" [.leaf 1], nd "N@1-3" [.leaf 2]]]] := by decide +kernel

/-! ## Disagreement -/

/-- Two trees with the same words below `P_2`, in another order. -/
def exC : PTree Str := nd "ROOT" [nd "P_2" [nd "X_2" [nd "A" [.leaf 0], nd "B" [.leaf 3]], nd "Y_2" [nd "C" [.leaf 1], nd "D" [.leaf 4]]], nd "Z" [.leaf 2]]
def exD : PTree Str := nd "ROOT" [nd "P_2" [nd "X_2" [nd "A" [.leaf 0], nd "B" [.leaf 3]], nd "Y_2" [nd "C" [.leaf 2], nd "D" [.leaf 4]]], nd "Z" [.leaf 1]]
def exC' : PTree Str × List (Option Str) := (exC, [w "a", w "c", w "z", w "b", w "d"])
def exD' : PTree Str × List (Option Str) := (exD, [w "a", w "z", w "c", w "b", w "d"])

def lf (l word : String) : Frag := .inner l.toList (.word word.toList) []
/-- The first tree as a fragment. -/
def exFrag : Frag := .inner "ROOT".toList (.spans [[0, 1, 0]]) [.inner "P_2".toList (.spans [[0, 1], [0, 1]])
  [.inner "X_2".toList (.spans [[0], [1]]) [lf "A" "a", lf "B" "b"], .inner "Y_2".toList (.spans [[0], [1]]) [lf "C" "c", lf "D" "d"]], lf "Z" "z"]

/-- The packed reduction takes subtrees with the same words for the same, also when the words are in another order, as the yield functions are
not compared. The address of such subtrees then has the rules of both, and the probability of a fragment is not its relative frequency among the
fragments with its root label: here 1/104 instead of 1/78. Without packed graphs it always is (`C22_goodman`). -/
theorem C89_packed_disagreement :
    (∃ g, dopreduction [exC', exC', exD'] = some g ∧ Dop.Spec.inside (Dop.Spec.normalise g) exFrag "ROOT".toList = 1 / 104) ∧
    (Dop.Spec.count [exC, exC, exD] [exC'.2, exC'.2, exD'.2] exFrag : ℚ) / Dop.Spec.total [exC, exC, exD] [exC'.2, exC'.2, exD'.2] "ROOT".toList = 1 / 78 := by
  refine ⟨?_, by decide +kernel⟩
  have h : (dopreduction [exC', exC', exD']).map (fun g => Dop.Spec.inside (Dop.Spec.normalise g) exFrag "ROOT".toList) = some (1 / 104) := by decide +kernel
  rwa [Option.map_eq_some_iff] at h

end Disco.Packed
