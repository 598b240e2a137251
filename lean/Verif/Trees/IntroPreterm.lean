import Verif.Basic.Tree
import Mathlib.Data.List.Nodup
/-!
# C37: `introducepreterminals`

`discodop/treetransforms.py:340-368`.
-/
namespace Disco.IntroPreterm
open PTree

/-- Words; `none` is Python's `None`. -/
abbrev Word := Option Str

/-- `(sent[child] or '') if ids is None else next(ids)` (treetransforms.py:366). `none`: `IndexError`/`StopIteration`. -/
def nextName (sent : List Word) (i : Nat) : Option (List Str) → Option (Str × Option (List Str))
  | none => (sent[i]?).map (fun w => (w.getD [], none))
  | some [] => none
  | some (x :: ids) => some (x, some ids)

/-- The names for the terminals among the children of one node, left to right (treetransforms.py:360-367). -/
def names (sent : List Word) : List (PTree Str) → Option (List Str) → Option (List Str × Option (List Str))
  | [], ids => some ([], ids)
  | .node _ _ :: cs, ids => names sent cs ids
  | .leaf i :: cs, ids => do
    let (x, ids) ← nextName sent i ids
    let (xs, ids) ← names sent cs ids
    return (x :: xs, ids)

/-- `node[n] = treeclass('%s/%s' % (node.label, name), [child])` for each terminal, given the names. -/
def place (label : Str) : List Str → List (PTree Str) → List (PTree Str)
  | _, [] => []
  | xs, .node l ds :: cs => .node l ds :: place label xs cs
  | [], .leaf i :: cs => .leaf i :: place label [] cs
  | x :: xs, .leaf i :: cs => .node (label ++ '/' :: x) [.leaf i] :: place label xs cs

/-- `hassiblings = len(node) > 1` guards the replacement (treetransforms.py:359,363). -/
def ownNames (sent : List Word) (cs : List (PTree Str)) (ids : Option (List Str)) : Option (List Str × Option (List Str)) :=
  if cs.length > 1 then names sent cs ids else some ([], ids)

mutual
/-- `introducepreterminals` (treetransforms.py:354-368) with the state of the iterator `ids`. The agenda is a stack: a node's own
terminals come first, then its subtrees from right to left, each with all of its descendants. -/
def intro (sent : List Word) : PTree Str → Option (List Str) → Option (PTree Str × Option (List Str))
  | .leaf i, ids => some (.leaf i, ids)
  | .node l cs, ids => do
    let (xs, ids) ← ownNames sent cs ids
    let (es, ids) ← introL sent cs ids
    return (.node l (place l xs es), ids)
/-- Subtrees from right to left. -/
def introL (sent : List Word) : List (PTree Str) → Option (List Str) → Option (List (PTree Str) × Option (List Str))
  | [], ids => some ([], ids)
  | c :: cs, ids => do
    let (es, ids) ← introL sent cs ids
    let (e, ids) ← intro sent c ids
    return (e :: es, ids)
end

/-! ### Specification -/

mutual
/-- `u` is `t` with a preterminal `label/name` on top of every terminal that has siblings, and nothing else changed;
`ns` lists the terminals that got a preterminal, with the names. -/
inductive Spec.Introduced : PTree Str → PTree Str → List (Nat × Str) → Prop
  | leaf (i : Nat) : Spec.Introduced (.leaf i) (.leaf i) []
  | node (l : Str) (cs ds : List (PTree Str)) (ns : List (Nat × Str)) :
      Spec.IntroducedL l (1 < cs.length) cs ds ns → Spec.Introduced (.node l cs) (.node l ds) ns
/-- The children of a node with label `l`. -/
inductive Spec.IntroducedL : Str → Prop → List (PTree Str) → List (PTree Str) → List (Nat × Str) → Prop
  | nil (l : Str) (siblings : Prop) : Spec.IntroducedL l siblings [] [] []
  | subtree {l : Str} {siblings : Prop} {l' : Str} {ks : List (PTree Str)} {d : PTree Str} {cs ds : List (PTree Str)}
      {ns ms rs : List (Nat × Str)} :
      Spec.Introduced (.node l' ks) d ns → Spec.IntroducedL l siblings cs ds ms → rs.Perm (ns ++ ms) →
      Spec.IntroducedL l siblings (.node l' ks :: cs) (d :: ds) rs
  | single {l : Str} {siblings : Prop} {i : Nat} {cs ds : List (PTree Str)} {ms : List (Nat × Str)} :
      ¬ siblings → Spec.IntroducedL l siblings cs ds ms →
      Spec.IntroducedL l siblings (.leaf i :: cs) (.leaf i :: ds) ms
  | wrapped {l : Str} {siblings : Prop} {i : Nat} {x : Str} {cs ds : List (PTree Str)} {ms rs : List (Nat × Str)} :
      siblings → Spec.IntroducedL l siblings cs ds ms → rs.Perm ((i, x) :: ms) →
      Spec.IntroducedL l siblings (.leaf i :: cs) (.node (l ++ '/' :: x) [.leaf i] :: ds) rs
end

/-- No terminal has siblings. -/
def Spec.NoSiblings (t : PTree Str) : Prop :=
  ∀ l cs, .node l cs ∈ subtrees t → ∀ i, .leaf i ∈ cs → cs = [.leaf i]

/-- The names are right: the word of the terminal, or the next items of the iterator, each used once. -/
def Spec.NamesOk (sent : List Word) (ids rest : Option (List Str)) (ns : List (Nat × Str)) : Prop :=
  match ids with
  | none => rest = none ∧ ∀ p ∈ ns, ∃ w, sent[p.1]? = some w ∧ p.2 = w.getD []
  | some xs => ∃ used r, rest = some r ∧ xs = used ++ r ∧ (ns.map Prod.snd).Perm used

open Spec

/-! ### Lemmas -/

theorem NamesOk.perm {sent : List Word} {ids rest : Option (List Str)} {ns ms : List (Nat × Str)} (hp : ms.Perm ns)
    (h : NamesOk sent ids rest ns) : NamesOk sent ids rest ms := by
  cases ids with
  | none => exact ⟨h.1, fun p hp' => h.2 p (hp.subset hp')⟩
  | some xs =>
    obtain ⟨u, r, h1, h2, h3⟩ := h
    exact ⟨u, r, h1, h2, (hp.map _).trans h3⟩

theorem NamesOk.append {sent : List Word} {ids mid rest : Option (List Str)} {ns ms : List (Nat × Str)}
    (h1 : NamesOk sent ids mid ns) (h2 : NamesOk sent mid rest ms) : NamesOk sent ids rest (ns ++ ms) := by
  cases ids with
  | none =>
    obtain ⟨rfl, h1⟩ := h1
    obtain ⟨h3, h2⟩ := h2
    refine ⟨h3, fun p hp => ?_⟩
    rcases List.mem_append.1 hp with hp | hp
    · exact h1 p hp
    · exact h2 p hp
  | some xs =>
    obtain ⟨u, r, rfl, rfl, h1⟩ := h1
    obtain ⟨v, s, rfl, rfl, h2⟩ := h2
    exact ⟨u ++ v, s, rfl, by simp, by rw [List.map_append]; exact h1.append h2⟩

theorem NamesOk.nil (sent : List Word) (ids : Option (List Str)) : NamesOk sent ids ids [] := by
  cases ids with
  | none => exact ⟨rfl, by simp⟩
  | some xs => exact ⟨[], xs, rfl, rfl, by simp⟩

/-- The terminals among a list of sisters. -/
def terms : List (PTree Str) → List Nat
  | [] => []
  | .node _ _ :: cs => terms cs
  | .leaf i :: cs => i :: terms cs

theorem names_ok {sent : List Word} : ∀ {cs : List (PTree Str)} {ids rest : Option (List Str)} {xs : List Str},
    names sent cs ids = some (xs, rest) →
    xs.length = (terms cs).length ∧ NamesOk sent ids rest ((terms cs).zip xs) := by
  intro cs
  induction cs with
  | nil =>
    intro ids rest xs h
    simp [names] at h
    obtain ⟨rfl, rfl⟩ := h
    exact ⟨rfl, NamesOk.nil _ _⟩
  | cons c cs ih =>
    intro ids rest xs h
    cases c with
    | node l ds => rw [names] at h; exact ih h
    | leaf i =>
      simp only [names, Option.bind_eq_bind, Option.bind_eq_some_iff, Option.pure_def, Option.some.injEq, Prod.mk.injEq] at h
      obtain ⟨⟨x, ids1⟩, h1, ⟨xs', ids2⟩, h2, h3, h4⟩ := h
      simp only at h2 h3 h4
      subst h3; subst h4
      obtain ⟨i1, i2⟩ := ih h2
      refine ⟨by simp [terms, i1], ?_⟩
      have : NamesOk sent ids ids1 [(i, x)] := by
        cases ids with
        | none =>
          simp [nextName] at h1
          obtain ⟨w, hw, hx, rfl⟩ := h1
          exact ⟨rfl, by simp [hw, hx]⟩
        | some ys =>
          cases ys with
          | nil => simp [nextName] at h1
          | cons y ys =>
            simp [nextName] at h1
            obtain ⟨rfl, rfl⟩ := h1
            exact ⟨[y], ys, rfl, rfl, by simp⟩
      have := NamesOk.append this i2
      simpa [terms] using this

/-- Pointwise specification before the terminals are wrapped. -/
inductive SubsDone : List (PTree Str) → List (PTree Str) → List (Nat × Str) → Prop
  | nil : SubsDone [] [] []
  | sub {l : Str} {ks : List (PTree Str)} {d : PTree Str} {cs ds : List (PTree Str)} {ns ms rs : List (Nat × Str)} :
      Introduced (.node l ks) d ns → SubsDone cs ds ms → rs.Perm (ns ++ ms) → SubsDone (.node l ks :: cs) (d :: ds) rs
  | leaf {i : Nat} {cs ds : List (PTree Str)} {ms : List (Nat × Str)} :
      SubsDone cs ds ms → SubsDone (.leaf i :: cs) (.leaf i :: ds) ms

theorem introduced_isNode {l : Str} {ks : List (PTree Str)} {d : PTree Str} {ns} (h : Introduced (.node l ks) d ns) :
    ∃ ds, d = .node l ds := by
  cases h with
  | node _ _ ds => exact ⟨ds, rfl⟩

theorem place_wrapped {l : Str} {cs es : List (PTree Str)} {ms : List (Nat × Str)} {P : Prop} (hP : P) (h : SubsDone cs es ms) :
    ∀ {xs : List Str}, xs.length = (terms cs).length →
    IntroducedL l P cs (place l xs es) ((terms cs).zip xs ++ ms) := by
  induction h with
  | nil => intro xs _; simp [place, terms]; exact .nil l P
  | sub h1 _ hp ih =>
    intro xs hx
    obtain ⟨ds, rfl⟩ := introduced_isNode h1
    rw [place, terms]
    refine .subtree h1 (ih hx) ?_
    refine (hp.append_left _).trans ?_
    rw [← List.append_assoc, ← List.append_assoc]
    exact List.perm_append_comm.append_right _
  | leaf _ ih =>
    intro xs hx
    cases xs with
    | nil => simp [terms] at hx
    | cons x xs =>
      rw [place, terms, List.zip_cons_cons, List.cons_append]
      exact .wrapped hP (ih (by simpa [terms] using hx)) .rfl

theorem place_single {l : Str} {cs es : List (PTree Str)} {ms : List (Nat × Str)} {P : Prop} (hP : ¬ P) (h : SubsDone cs es ms) :
    IntroducedL l P cs (place l [] es) ms := by
  induction h with
  | nil => simp [place]; exact .nil l P
  | sub h1 _ hp ih =>
    obtain ⟨ds, rfl⟩ := introduced_isNode h1
    rw [place]
    exact .subtree h1 ih hp
  | leaf _ ih => rw [place]; exact .single hP ih

theorem intro_spec (sent : List Word) (t : PTree Str) : ∀ (ids rest : Option (List Str)) (u : PTree Str),
    intro sent t ids = some (u, rest) → ∃ ns, Introduced t u ns ∧ NamesOk sent ids rest ns := by
  induction t using PTree.ind with
  | hleaf i =>
    intro ids rest u h
    simp [intro] at h
    obtain ⟨rfl, rfl⟩ := h
    exact ⟨[], .leaf i, NamesOk.nil _ _⟩
  | hnode l cs ih =>
    intro ids rest u h
    simp only [intro, Option.bind_eq_bind, Option.bind_eq_some_iff, Option.pure_def, Option.some.injEq, Prod.mk.injEq] at h
    obtain ⟨⟨xs, ids1⟩, h1, ⟨es, ids2⟩, h2, rfl, rfl⟩ := h
    simp only at h2
    have hsub : ∀ (cs : List (PTree Str)), (∀ c ∈ cs, ∀ (ids rest : Option (List Str)) (u : PTree Str),
          intro sent c ids = some (u, rest) → ∃ ns, Introduced c u ns ∧ NamesOk sent ids rest ns) →
        ∀ (ids rest : Option (List Str)) (es : List (PTree Str)),
        introL sent cs ids = some (es, rest) → ∃ ms, SubsDone cs es ms ∧ NamesOk sent ids rest ms := by
      intro cs ih
      induction cs with
      | nil =>
        intro ids rest es h
        simp [introL] at h
        obtain ⟨rfl, rfl⟩ := h
        exact ⟨[], .nil, NamesOk.nil _ _⟩
      | cons c cs ih2 =>
        intro ids rest es h
        simp only [introL, Option.bind_eq_bind, Option.bind_eq_some_iff, Option.pure_def, Option.some.injEq, Prod.mk.injEq] at h
        obtain ⟨⟨es', ids1⟩, h1, ⟨e, ids2⟩, h2, rfl, rfl⟩ := h
        simp only at h2
        obtain ⟨ms, hm1, hm2⟩ := ih2 (fun c hc => ih c (by simp [hc])) _ _ _ h1
        obtain ⟨ns, hn1, hn2⟩ := ih c (by simp) _ _ _ h2
        cases c with
        | leaf i =>
          cases hn1
          exact ⟨ms, .leaf hm1, by simpa using NamesOk.append hm2 hn2⟩
        | node l' ks =>
          exact ⟨ns ++ ms, .sub hn1 hm1 .rfl, NamesOk.perm List.perm_append_comm (NamesOk.append hm2 hn2)⟩
    obtain ⟨ms, hm1, hm2⟩ := hsub cs ih _ _ _ h2
    by_cases hlen : cs.length > 1
    · rw [ownNames, if_pos hlen] at h1
      obtain ⟨n1, n2⟩ := names_ok h1
      exact ⟨_, .node l cs _ _ (place_wrapped hlen hm1 n1), NamesOk.append n2 hm2⟩
    · rw [ownNames, if_neg hlen] at h1
      simp at h1
      obtain ⟨rfl, rfl⟩ := h1
      exact ⟨ms, .node l cs _ _ (place_single hlen hm1), hm2⟩

theorem introduced_leaves (t : PTree Str) : ∀ {u ns}, Introduced t u ns → u.leaves = t.leaves := by
  induction t using PTree.ind with
  | hleaf i => intro u ns h; cases h; rfl
  | hnode l cs ih =>
    intro u ns h
    cases h with
    | node _ _ ds _ h =>
      rw [leaves_node, leaves_node]
      generalize (1 < cs.length) = P at h
      induction cs generalizing ds ns with
      | nil => cases h; rfl
      | cons c cs ih2 =>
        cases h with
        | subtree h1 h2 _ =>
          rw [leavesL_cons, leavesL_cons, ih _ (by simp) h1, ih2 (fun c hc => ih c (by simp [hc])) _ h2]
        | single _ h2 => rw [leavesL_cons, leavesL_cons, ih2 (fun c hc => ih c (by simp [hc])) _ h2]
        | wrapped _ h2 _ =>
          rw [leavesL_cons, leavesL_cons, ih2 (fun c hc => ih c (by simp [hc])) _ h2]; simp

theorem introduced_noSiblings (t : PTree Str) : ∀ {u ns}, Introduced t u ns → NoSiblings u := by
  induction t using PTree.ind with
  | hleaf i => intro u ns h; cases h; simp [NoSiblings]
  | hnode l cs ih =>
    intro u ns h
    cases h with
    | node _ _ ds _ h =>
      have key : ∀ (P : Prop) (cs ds : List (PTree Str)) ns, (∀ c ∈ cs, ∀ {u ns}, Introduced c u ns → NoSiblings u) →
          IntroducedL l P cs ds ns → (∀ d ∈ ds, NoSiblings d) ∧ ds.length = cs.length ∧ (∀ i, .leaf i ∈ ds → ¬ P) := by
        intro P cs
        induction cs with
        | nil => intro ds ns _ h; cases h; simp
        | cons c cs ih2 =>
          intro ds ns ih h
          cases h with
          | subtree h1 h2 _ =>
            obtain ⟨i1, i2, i3⟩ := ih2 _ _ (fun c hc => ih c (by simp [hc])) h2
            obtain ⟨ks, rfl⟩ := introduced_isNode h1
            refine ⟨?_, by simp [i2], ?_⟩
            · intro d hd
              rcases List.mem_cons.1 hd with rfl | hd
              · exact ih _ (by simp) h1
              · exact i1 d hd
            · intro i hi
              exact i3 i (by simpa using hi)
          | single hP h2 =>
            obtain ⟨i1, i2, i3⟩ := ih2 _ _ (fun c hc => ih c (by simp [hc])) h2
            refine ⟨?_, by simp [i2], fun i _ => hP⟩
            intro d hd
            rcases List.mem_cons.1 hd with rfl | hd
            · simp [NoSiblings]
            · exact i1 d hd
          | wrapped hP h2 _ =>
            obtain ⟨i1, i2, i3⟩ := ih2 _ _ (fun c hc => ih c (by simp [hc])) h2
            refine ⟨?_, by simp [i2], fun i hi => i3 i (by simpa using hi)⟩
            intro d hd
            rcases List.mem_cons.1 hd with rfl | hd
            · intro l' cs' hm i hi
              simp at hm
              obtain ⟨_, rfl⟩ := hm
              simp at hi; simp [hi]
            · exact i1 d hd
      obtain ⟨h1, h2, h3⟩ := key _ cs ds ns ih h
      intro l' cs' hm i hi
      rw [subtrees_node, List.mem_cons] at hm
      rcases hm with hm | hm
      · injection hm with _ hm
        subst hm
        have := h3 i hi
        match cs', hi with
        | [x], hi => simp at hi; rw [hi]
        | _ :: _ :: _, _ => simp at h2; omega
      · obtain ⟨d, hd, hm⟩ := mem_subtreesL.1 hm
        exact h1 d hd l' cs' hm i hi

/-! ### Properties -/

/-- **C37.** Whenever `introducepreterminals` returns, its result is the tree in which every terminal with siblings got a
preterminal `parentlabel/name`, everything else being unchanged; the names are the words, resp. consecutive items of the
iterator, each used once. -/
theorem C37_introduced (sent : List Word) (t u : PTree Str) (ids rest : Option (List Str))
    (h : intro sent t ids = some (u, rest)) : ∃ ns, Introduced t u ns ∧ NamesOk sent ids rest ns :=
  intro_spec sent t ids rest u h

/-- **C37.** Afterwards no terminal has siblings, and the terminals are the same in the same order. -/
theorem C37_no_siblings (sent : List Word) (t u : PTree Str) (ids rest : Option (List Str))
    (h : intro sent t ids = some (u, rest)) : NoSiblings u ∧ u.leaves = t.leaves := by
  obtain ⟨ns, h1, _⟩ := intro_spec sent t ids rest u h
  exact ⟨introduced_noSiblings t h1, introduced_leaves t h1⟩

/-- **C37.** Without an iterator, `introducepreterminals` always returns when the terminals refer to words of the sentence. -/
theorem C37_total (sent : List Word) (t : PTree Str) (h : ∀ i ∈ t.leaves, i < sent.length) :
    ∃ u, intro sent t none = some (u, none) := by
  induction t using PTree.ind with
  | hleaf i => exact ⟨.leaf i, by simp [intro]⟩
  | hnode l cs ih =>
    rw [leaves_node] at h
    have hn : ∃ xs, names sent cs none = some (xs, none) := by
      clear ih
      induction cs with
      | nil => exact ⟨[], by simp [names]⟩
      | cons c cs ih2 =>
        obtain ⟨xs, hxs⟩ := ih2 (fun i hi => h i (by simp [hi]))
        cases c with
        | node l' ks => exact ⟨xs, by simp [names, hxs]⟩
        | leaf i =>
          have := h i (by simp)
          exact ⟨sent[i].getD [] :: xs, by simp [names, nextName, this, hxs]⟩
    have hs : ∃ es, introL sent cs none = some (es, none) := by
      have : ∀ c ∈ cs, ∃ u, intro sent c none = some (u, none) := fun c hc =>
        ih c hc (fun i hi => h i (mem_leavesL.2 ⟨c, hc, hi⟩))
      clear ih h hn
      induction cs with
      | nil => exact ⟨[], by simp [introL]⟩
      | cons c cs ih2 =>
        obtain ⟨es, hes⟩ := ih2 (fun c hc => this c (by simp [hc]))
        obtain ⟨e, he⟩ := this c (by simp)
        exact ⟨e :: es, by simp [introL, hes, he]⟩
    obtain ⟨xs, hxs⟩ := hn
    obtain ⟨es, hes⟩ := hs
    by_cases hlen : 1 < cs.length
    · exact ⟨.node l (place l xs es), by simp [intro, ownNames, hlen, hxs, hes]⟩
    · exact ⟨.node l (place l [] es), by simp [intro, ownNames, hlen, hes]⟩

/-- The doctests of the docstring, evaluated in the model (hypotheses are met by non-trivial cases). -/
example : intro (["a", "b", "c", "d", "e"].map (fun s => some s.toList))
    (.node ['S'] [.node ['X'] [.leaf 0, .leaf 1, .node ['C','D'] [.leaf 2, .leaf 3], .leaf 4]]) none =
    some (.node ['S'] [.node ['X'] [.node "X/a".toList [.leaf 0], .node "X/b".toList [.leaf 1],
      .node ['C','D'] [.node "CD/c".toList [.leaf 2], .node "CD/d".toList [.leaf 3]], .node "X/e".toList [.leaf 4]]], none) := by
  decide +kernel
example : (intro [none, none, none, none, none]
    (.node ['S'] [.node ['X'] [.leaf 0, .node ['Y'] [.leaf 1, .leaf 2], .node ['Z'] [.leaf 3, .leaf 4]]])
      (some (["a", "b", "c", "d", "e", "f"].map String.toList))).map Prod.snd = some (some ["f".toList]) := by
  decide +kernel

end Disco.IntroPreterm
