import Verif.Basic.Tree
import Verif.Basic.Str
import Verif.Basic.Sort
import Mathlib.Logic.Relation
import Mathlib.Data.List.Perm.Basic
import Mathlib.Data.List.Nodup
/-!
# C36: `dependencies`, `_makedep`, `deplen` (treebank.py:891-930), `applyheadrules`, `headfinder`, `getheadpos` (heads.py:14-121)

Simplifications: a node has a label, a flag `type == HEAD` and the field `source[FUNC]` (absent if there is no `source`). `str.upper` and
the tests for punctuation are parameters. `modifierrules` is not modelled (it does not touch nodes marked as head).
-/
namespace Disco.Deps
open PTree

/-- The attributes of a node that matter here: the label, `type == HEAD`, `source[FUNC]`. -/
structure Ann where
  l : Str
  head : Bool
  func : Option Str
deriving DecidableEq, Repr

/-- `(dependent, label, head)`; words are numbered from 1, and 0 is the head of roots. -/
abbrev Dep := Nat × Str × Nat

/-- `child.type == HEAD`. -/
def isHead : PTree Ann → Bool
  | .leaf _ => false
  | .node a _ => a.head

/-- The label of a dependency (treebank.py:915-918). -/
def func : PTree Ann → Str
  | .leaf _ => ['-']
  | .node a _ => match a.func with
    | some f => if f ≠ [] ∧ f ≠ ['-', '-'] then f else ['-']
    | none => ['-']

/-- The loop over the children that are not the head (treebank.py:911-919); each child comes with its result. -/
def others (lh : Nat) : List (PTree Ann × Option (Nat × List Dep)) → Option (List Dep)
  | [] => some []
  | (c, some (w, ds)) :: xs => (others lh xs).map fun r => ds ++ (w, func c, lh) :: r
  | (_, none) :: _ => none

/-- The part of `_makedep` after the test for a preterminal, given the results for the children (treebank.py:909-920). -/
def combine (cs : List (PTree Ann)) (rs : List (Option (Nat × List Dep))) : Option (Nat × List Dep) :=
  match cs.findIdx? isHead with
  | none => none
  | some k => match rs[k]? with
    | some (some (lh, ds)) => (others lh ((cs.zip rs).eraseIdx k)).map fun r => (lh, ds ++ r)
    | _ => none

/-- `_makedep` given the results for the children. -/
def start (cs : List (PTree Ann)) (rs : List (Option (Nat × List Dep))) : Option (Nat × List Dep) :=
  match cs with
  | [] => none
  | .leaf i :: _ => some (i + 1, [])
  | _ => combine cs rs

mutual
/-- `_makedep(node, deps)` (treebank.py:905-920): the lexical head and the dependencies that are appended. -/
def makedep : PTree Ann → Option (Nat × List Dep)
  | .leaf _ => none
  | .node _ cs => start cs (makedepL cs)
/-- The results for a list of children. -/
def makedepL : List (PTree Ann) → List (Option (Nat × List Dep))
  | [] => []
  | c :: cs => makedep c :: makedepL cs
end

/-- The comparison of strings. -/
def leStr : Str → Str → Bool
  | [], _ => true
  | _ :: _, [] => false
  | a :: s, b :: t => decide (a.toNat < b.toNat) || (decide (a = b) && leStr s t)

/-- The comparison of tuples. -/
def leDep (x y : Dep) : Bool :=
  decide (x.1 < y.1) || (decide (x.1 = y.1) && (if x.2.1 = y.2.1 then decide (x.2.2 ≤ y.2.2) else leStr x.2.1 y.2.1))

/-- The loop over the children of the root (treebank.py:898-899). -/
def roots : List (PTree Ann) → Option (List Dep)
  | [] => some []
  | c :: cs => match makedep c, roots cs with
    | some (w, ds), some r => some (ds ++ (w, ['r', 'o', 'o', 't'], 0) :: r)
    | _, _ => none

/-- `dependencies(root)` (treebank.py:891-902). -/
def dependencies (root : PTree Ann) : Option (List Dep) := (roots root.children).map (stableSort leDep)

/-- `abs(a - b)`. -/
def absdiff (a b : Nat) : Nat := (a - b) + (b - a)

/-- `deplen(deps)` (treebank.py:923-930): the total length and the number of dependencies. -/
def deplen (deps : List Dep) : Nat × Int :=
  (((deps.filter fun d => decide (d.2.1 ≠ ['R', 'O', 'O', 'T'])).map fun d => absdiff d.1 d.2.2).sum, (deps.length : Int) - 1)

/-! ### Specification -/

/-- A preterminal with one word, or a constituent with constituents as children. -/
def Spec.Shape (s : PTree Ann) : Prop := (∃ a i, s = .node a [.leaf i]) ∨ ∃ a cs, s = .node a cs ∧ cs ≠ [] ∧ ∀ c ∈ cs, c.isNode = true

/-- There is a head child, unless this is a preterminal. -/
def Spec.Headed (s : PTree Ann) : Prop := (∃ a i, s = .node a [.leaf i]) ∨ ∃ c ∈ s.children, isHead c = true

/-- The lexical head of a constituent (as an index): follow the first child that is marked as head. -/
inductive Spec.Lex : PTree Ann → Nat → Prop
  | word {a i} : Spec.Lex (.node a [.leaf i]) i
  | step {a xs c ys i} : (∀ x ∈ xs, isHead x = false) → isHead c = true → Spec.Lex c i → Spec.Lex (.node a (xs ++ c :: ys)) i

/-- `c` is a child of `p` other than the head child. -/
def Spec.NonHead (p c : PTree Ann) : Prop :=
  ∃ a xs h ys, p = .node a (xs ++ h :: ys) ∧ (∀ x ∈ xs, isHead x = false) ∧ isHead h = true ∧ c ∈ xs ++ ys

/-- The label of a dependency: the function tag of the constituent; `-` if there is none, or it is empty or `--`. -/
def Spec.Label (c : PTree Ann) (r : Str) : Prop :=
  ∃ a cs, c = .node a cs ∧ ((a.func = some r ∧ r ≠ [] ∧ r ≠ "--".toList) ∨
    ((a.func = none ∨ a.func = some [] ∨ a.func = some "--".toList) ∧ r = "-".toList))

/-- `d` depends directly on `h`. -/
def Spec.Step (ds : List Dep) (h d : Nat) : Prop := ∃ r, (d, r, h) ∈ ds

/-- `d` is `h`, or depends on `h` directly or indirectly. -/
def Spec.Reach (ds : List Dep) : Nat → Nat → Prop := Relation.ReflTransGen (Spec.Step ds)

/-- The leaves of a constituent are an interval. -/
def Spec.Continuous (s : PTree Ann) : Prop := ∀ i ∈ s.leaves, ∀ k ∈ s.leaves, ∀ j, i < j → j < k → j ∈ s.leaves

/-! ### Proofs -/

theorem makedepL_eq (cs : List (PTree Ann)) : makedepL cs = cs.map makedep := by
  induction cs with
  | nil => rfl
  | cons c cs ih => rw [makedepL, ih]; rfl

theorem others_eq {lh : Nat} {O : List (PTree Ann)} {r : List Dep} (h : others lh (O.map fun c => (c, makedep c)) = some r) :
    (∀ c ∈ O, ∃ w ds, makedep c = some (w, ds)) ∧ r = O.flatMap fun c => match makedep c with
      | some (w, ds) => ds ++ [(w, func c, lh)]
      | none => [] := by
  induction O generalizing r with
  | nil => cases h; simp
  | cons c O ih =>
    rw [List.map_cons] at h
    cases hc : makedep c with
    | none => rw [hc, others] at h; cases h
    | some p =>
      obtain ⟨w, ds⟩ := p
      rw [hc, others] at h
      cases ho : others lh (O.map fun c => (c, makedep c)) with
      | none => rw [ho] at h; cases h
      | some r' =>
        rw [ho] at h
        cases h
        obtain ⟨h1, h2⟩ := ih ho
        refine ⟨?_, ?_⟩
        · intro c' hc'
          rcases List.mem_cons.1 hc' with rfl | hc'
          · exact ⟨w, ds, hc⟩
          · exact h1 c' hc'
        · rw [List.flatMap_cons, hc, h2]; simp

theorem findIdx_split {cs : List (PTree Ann)} {k : Nat} (h : cs.findIdx? isHead = some k) :
    ∃ xs c ys, cs = xs ++ c :: ys ∧ xs.length = k ∧ (∀ x ∈ xs, isHead x = false) ∧ isHead c = true := by
  induction cs generalizing k with
  | nil => simp at h
  | cons c cs ih =>
    rw [List.findIdx?_cons] at h
    split at h
    · cases h; exact ⟨[], c, cs, rfl, rfl, by simp, by assumption⟩
    next hc =>
      cases hf : cs.findIdx? isHead with
      | none => rw [hf] at h; cases h
      | some k' =>
        rw [hf] at h
        cases h
        obtain ⟨xs, c', ys, rfl, h1, h2, h3⟩ := ih hf
        refine ⟨c :: xs, c', ys, rfl, by simp [h1], ?_, h3⟩
        intro x hx
        rcases List.mem_cons.1 hx with rfl | hx
        · simpa using hc
        · exact h2 x hx

theorem findIdx_of {xs ys : List (PTree Ann)} {c : PTree Ann} (h1 : ∀ x ∈ xs, isHead x = false) (h2 : isHead c = true) :
    (xs ++ c :: ys).findIdx? isHead = some xs.length := by
  induction xs with
  | nil => simp [List.findIdx?_cons, h2]
  | cons x xs ih =>
    rw [List.cons_append, List.findIdx?_cons, h1 x (by simp), ih (fun y hy => h1 y (by simp [hy]))]
    simp

/-- What `_makedep` does for a constituent. -/
theorem makedep_node {a : Ann} {cs : List (PTree Ann)} (hcs : ∀ c ∈ cs, c.isNode = true) {lh : Nat} {ds : List Dep} (h : makedep (.node a cs) = some (lh, ds)) :
    ∃ xs c ys ds0 r, cs = xs ++ c :: ys ∧ (∀ x ∈ xs, isHead x = false) ∧ isHead c = true ∧ makedep c = some (lh, ds0) ∧
      others lh ((xs ++ ys).map fun c => (c, makedep c)) = some r ∧ ds = ds0 ++ r := by
  rw [makedep] at h
  have hst : start cs (makedepL cs) = combine cs (makedepL cs) := by
    unfold start
    split
    · rfl
    · have := hcs _ List.mem_cons_self; cases this
    · rfl
  rw [hst, combine] at h
  split at h
  · cases h
  next k hk =>
    obtain ⟨xs, c, ys, rfl, rfl, h1, h2⟩ := findIdx_split hk
    rw [makedepL_eq, List.getElem?_map, List.getElem?_append_right (Nat.le_refl _)] at h
    simp only [Nat.sub_self, List.getElem?_cons_zero, Option.map_some] at h
    cases hc : makedep c with
    | none => rw [hc] at h; cases h
    | some p =>
      obtain ⟨w, ds0⟩ := p
      rw [hc] at h
      simp only at h
      have hz : ((xs ++ c :: ys).zip ((xs ++ c :: ys).map makedep)).eraseIdx xs.length = (xs ++ ys).map fun c => (c, makedep c) := by
        have : (xs ++ c :: ys).zip ((xs ++ c :: ys).map makedep) = (xs ++ c :: ys).map fun c => (c, makedep c) := by
          generalize xs ++ c :: ys = zs
          induction zs with
          | nil => rfl
          | cons z zs ih => simp [ih]
        rw [this, List.eraseIdx_map]
        congr 1
        rw [List.eraseIdx_append_of_length_le (Nat.le_refl _)]
        simp
      rw [hz] at h
      cases ho : others w ((xs ++ ys).map fun c => (c, makedep c)) with
      | none => rw [ho] at h; cases h
      | some r =>
        rw [ho] at h
        cases h
        exact ⟨xs, c, ys, ds0, r, rfl, h1, h2, hc, ho, rfl⟩

theorem mem_others {lh : Nat} {O : List (PTree Ann)} {r : List Dep} (h : others lh (O.map fun c => (c, makedep c)) = some r) (x : Dep) :
    x ∈ r ↔ ∃ c ∈ O, ∃ w ds, makedep c = some (w, ds) ∧ (x ∈ ds ∨ x = (w, func c, lh)) := by
  obtain ⟨h1, h2⟩ := others_eq h
  rw [h2, List.mem_flatMap]
  constructor
  · rintro ⟨c, hc, hx⟩
    obtain ⟨w, ds, hm⟩ := h1 c hc
    rw [hm] at hx
    exact ⟨c, hc, w, ds, hm, by simpa using hx⟩
  · rintro ⟨c, hc, w, ds, hm, hx⟩
    exact ⟨c, hc, by rw [hm]; simpa using hx⟩

/-- The words of a list of children with results. -/
theorem others_perm {lh : Nat} {O : List (PTree Ann)} {r : List Dep} (h : others lh (O.map fun c => (c, makedep c)) = some r)
    (ih : ∀ c ∈ O, ∀ w ds, makedep c = some (w, ds) → (w :: ds.map Prod.fst).Perm (c.leaves.map (· + 1))) :
    (r.map Prod.fst).Perm ((leavesL O).map (· + 1)) := by
  obtain ⟨h1, h2⟩ := others_eq h
  subst h2
  clear h
  induction O with
  | nil => simp
  | cons c O ih' =>
    obtain ⟨w, ds, hm⟩ := h1 c (by simp)
    rw [List.flatMap_cons, List.map_append, leavesL_cons, List.map_append, hm]
    refine List.Perm.append ?_ (ih' (fun c hc => ih c (by simp [hc])) (fun c hc => h1 c (by simp [hc])))
    have := ih c (by simp) w ds hm
    refine List.Perm.trans ?_ this
    simp only [List.map_append, List.map_cons, List.map_nil]
    exact List.perm_append_singleton _ _

theorem leavesL_perm_mid (xs ys : List (PTree Ann)) (c : PTree Ann) : (leavesL (xs ++ c :: ys)).Perm (c.leaves ++ leavesL (xs ++ ys)) := by
  simp only [leavesL_append, leavesL_cons]
  rw [← List.append_assoc, ← List.append_assoc]
  exact List.Perm.append_right _ List.perm_append_comm

theorem shape_cases {a : Ann} {cs : List (PTree Ann)} (h : Spec.Shape (.node a cs)) : (∃ i, cs = [.leaf i]) ∨ (cs ≠ [] ∧ ∀ c ∈ cs, c.isNode = true) := by
  rcases h with ⟨a', i, h⟩ | ⟨a', cs', h, h1, h2⟩
  · cases h; exact .inl ⟨i, rfl⟩
  · cases h; exact .inr ⟨h1, h2⟩

theorem mem_children_subtrees {a : Ann} {cs : List (PTree Ann)} {c s : PTree Ann} (hc : c ∈ cs) (hs : s ∈ subtrees c) : s ∈ subtrees (.node a cs) := by
  rw [subtrees_node, List.mem_cons]
  exact .inr (mem_subtreesL.2 ⟨c, hc, hs⟩)

theorem makedep_leaf {a : Ann} {i : Nat} : makedep (.node a [.leaf i]) = some (i + 1, []) := by
  rw [makedep]; rfl

/-- The words, and the lexical head. -/
theorem makedep_words (t : PTree Ann) : (∀ s ∈ subtrees t, Spec.Shape s) → ∀ lh ds, makedep t = some (lh, ds) →
    (lh :: ds.map Prod.fst).Perm (t.leaves.map (· + 1)) ∧ (∃ i, lh = i + 1 ∧ Spec.Lex t i) ∧ ∀ x ∈ ds, ∃ i ∈ t.leaves, x.2.2 = i + 1 := by
  induction t using PTree.ind with
  | hleaf i => intro _ lh ds h; rw [makedep] at h; cases h
  | hnode a cs ih =>
    intro hs lh ds h
    rcases shape_cases (hs (.node a cs) (by simp)) with ⟨i, rfl⟩ | ⟨hne, hcs⟩
    · rw [makedep_leaf] at h
      cases h
      exact ⟨by simp, ⟨i, rfl, .word⟩, by simp⟩
    · obtain ⟨xs, c, ys, ds0, r, rfl, h1, h2, h3, h4, rfl⟩ := makedep_node hcs h
      have ih' := fun c hc => ih c hc fun s hs' => hs s (mem_children_subtrees hc hs')
      have hO : ∀ c' ∈ xs ++ ys, c' ∈ xs ++ c :: ys := by
        intro c' hc'
        rcases List.mem_append.1 hc' with h | h
        · exact List.mem_append_left _ h
        · exact List.mem_append_right _ (List.mem_cons_of_mem _ h)
      obtain ⟨p0, ⟨i, hi, hl⟩, hh0⟩ := ih' c (by simp) lh ds0 h3
      have hp := others_perm h4 (fun c' hc' w ds' hm => (ih' c' (hO c' hc') w ds' hm).1)
      have hlf : i ∈ c.leaves := by
        have := p0.mem_iff (a := lh) |>.1 (by simp)
        obtain ⟨j, hj, he⟩ := List.mem_map.1 this
        have : j = i := by omega
        exact this ▸ hj
      refine ⟨?_, ⟨i, hi, .step h1 h2 hl⟩, ?_⟩
      · rw [leaves_node, List.map_append, ← List.cons_append]
        refine List.Perm.trans (p0.append hp) ?_
        rw [← List.map_append]
        exact ((leavesL_perm_mid xs ys c).map _).symm
      · intro x hx
        rw [leaves_node]
        rcases List.mem_append.1 hx with hx | hx
        · obtain ⟨j, hj, he⟩ := hh0 x hx
          exact ⟨j, mem_leavesL.2 ⟨c, by simp, hj⟩, he⟩
        · obtain ⟨c', hc', w, ds', hm, hx | rfl⟩ := (mem_others h4 x).1 hx
          · obtain ⟨j, hj, he⟩ := (ih' c' (hO c' hc') w ds' hm).2.2 x hx
            exact ⟨j, mem_leavesL.2 ⟨c', hO c' hc', hj⟩, he⟩
          · exact ⟨i, mem_leavesL.2 ⟨c, by simp, hlf⟩, hi⟩

theorem lex_leaf {t : PTree Ann} {i : Nat} (h : Spec.Lex t i) : i ∈ t.leaves := by
  induction h with
  | word => simp
  | step _ _ _ ih => rw [leaves_node]; exact mem_leavesL.2 ⟨_, by simp, ih⟩

theorem split_unique {xs xs' ys ys' : List (PTree Ann)} {c c' : PTree Ann} (h1 : ∀ x ∈ xs, isHead x = false) (h2 : isHead c = true) (h1' : ∀ x ∈ xs', isHead x = false)
    (h2' : isHead c' = true) (h : xs ++ c :: ys = xs' ++ c' :: ys') : xs = xs' ∧ c = c' ∧ ys = ys' := by
  induction xs generalizing xs' with
  | nil =>
    cases xs' with
    | nil => simpa using h
    | cons x xs' =>
      simp only [List.nil_append, List.cons_append, List.cons.injEq] at h
      have := h1' x (by simp)
      rw [← h.1, h2] at this; cases this
  | cons x xs ih =>
    cases xs' with
    | nil =>
      simp only [List.nil_append, List.cons_append, List.cons.injEq] at h
      have := h1 x (by simp)
      rw [h.1, h2'] at this; cases this
    | cons x' xs' =>
      simp only [List.cons_append, List.cons.injEq] at h
      obtain ⟨rfl, h⟩ := h
      obtain ⟨rfl, rfl, rfl⟩ := ih (fun y hy => h1 y (by simp [hy])) (fun y hy => h1' y (by simp [hy])) h
      exact ⟨rfl, rfl, rfl⟩

/-- Lexical heads are unique. -/
theorem lex_unique {t : PTree Ann} {i : Nat} (h : Spec.Lex t i) : ∀ {j}, Spec.Lex t j → i = j := by
  induction h with
  | @word a i =>
    intro j h
    generalize ht : PTree.node a [PTree.leaf i] = t at h
    cases h with
    | word => cases ht; rfl
    | @step a' xs c ys _ h1 h2 _ =>
      simp only [PTree.node.injEq] at ht
      have : c ∈ [(PTree.leaf i : PTree Ann)] := by rw [ht.2]; simp
      simp only [List.mem_singleton] at this
      subst this
      cases h2
  | @step a xs c ys i h1 h2 h3 ih =>
    intro j h
    generalize ht : PTree.node a (xs ++ c :: ys) = t at h
    cases h with
    | @word a' =>
      simp only [PTree.node.injEq] at ht
      have : c ∈ [(PTree.leaf j : PTree Ann)] := by rw [← ht.2]; simp
      simp only [List.mem_singleton] at this
      subst this
      cases h2
    | @step a' xs' c' ys' _ h1' h2' h3' =>
      simp only [PTree.node.injEq] at ht
      obtain ⟨rfl, rfl, rfl⟩ := split_unique h1 h2 h1' h2' ht.2
      exact ih h3'

/-- The dependencies, as pairs of a constituent and a child. -/
theorem makedep_arcs (t : PTree Ann) : (∀ s ∈ subtrees t, Spec.Shape s) → ∀ lh ds, makedep t = some (lh, ds) → ∀ d r h, (d, r, h) ∈ ds ↔
    ∃ p ∈ subtrees t, ∃ c, Spec.NonHead p c ∧ r = func c ∧ ∃ i j, d = i + 1 ∧ h = j + 1 ∧ Spec.Lex c i ∧ Spec.Lex p j := by
  induction t using PTree.ind with
  | hleaf i => intro _ lh ds h; rw [makedep] at h; cases h
  | hnode a cs ih =>
    intro hs lh ds h d r hd
    rcases shape_cases (hs (.node a cs) (by simp)) with ⟨i, rfl⟩ | ⟨hne, hcs⟩
    · rw [makedep_leaf] at h
      cases h
      simp only [List.not_mem_nil, false_iff]
      rintro ⟨p, hp, c, ⟨a', xs, hh, ys, rfl, h1, h2, h3⟩, -⟩
      simp only [subtrees_node, subtreesL_cons, subtrees_leaf, subtreesL_nil, List.append_nil, List.mem_singleton, PTree.node.injEq] at hp
      have : hh ∈ [(PTree.leaf i : PTree Ann)] := by rw [← hp.2]; simp
      simp only [List.mem_singleton] at this
      subst this
      cases h2
    · obtain ⟨xs, c, ys, ds0, rr, rfl, h1, h2, h3, h4, rfl⟩ := makedep_node hcs h
      have hsc : ∀ c' ∈ xs ++ c :: ys, ∀ s ∈ subtrees c', Spec.Shape s := fun c' hc' s hs' => hs s (mem_children_subtrees hc' hs')
      have ih' := fun c' hc' => ih c' hc' (hsc c' hc')
      have hO : ∀ c' ∈ xs ++ ys, c' ∈ xs ++ c :: ys := by
        intro c' hc'
        rcases List.mem_append.1 hc' with h | h
        · exact List.mem_append_left _ h
        · exact List.mem_append_right _ (List.mem_cons_of_mem _ h)
      obtain ⟨-, ⟨i0, rfl, hl0⟩, -⟩ := makedep_words c (hsc c (by simp)) _ ds0 h3
      rw [List.mem_append, mem_others h4]
      constructor
      · rintro (hx | ⟨c', hc', w, ds', hm, hx | hx⟩)
        · obtain ⟨p, hp, rest⟩ := (ih' c (by simp) _ ds0 h3 d r hd).1 hx
          exact ⟨p, mem_children_subtrees (by simp) hp, rest⟩
        · obtain ⟨p, hp, rest⟩ := (ih' c' (hO c' hc') _ ds' hm d r hd).1 hx
          exact ⟨p, mem_children_subtrees (hO c' hc') hp, rest⟩
        · obtain ⟨-, ⟨i, rfl, hl⟩, -⟩ := makedep_words c' (hsc c' (hO c' hc')) _ ds' hm
          simp only [Prod.mk.injEq] at hx
          obtain ⟨rfl, rfl, rfl⟩ := hx
          exact ⟨_, by simp, c', ⟨a, xs, c, ys, rfl, h1, h2, hc'⟩, rfl, i, i0, rfl, rfl, hl, .step h1 h2 hl0⟩
      · rintro ⟨p, hp, c', hn, hr, i, j, rfl, rfl, hi, hj⟩
        rw [subtrees_node, List.mem_cons] at hp
        rcases hp with rfl | hp
        · right
          obtain ⟨a', xs', hh, ys', he, h1', h2', hc'⟩ := hn
          simp only [PTree.node.injEq] at he
          obtain ⟨rfl, rfl, rfl⟩ := split_unique h1 h2 h1' h2' he.2
          obtain ⟨w, ds', hm⟩ := (others_eq h4).1 c' hc'
          obtain ⟨-, ⟨i', rfl, hl⟩, -⟩ := makedep_words c' (hsc c' (hO c' hc')) _ ds' hm
          refine ⟨c', hc', _, ds', hm, .inr ?_⟩
          rw [lex_unique hi hl, lex_unique hj (.step h1 h2 hl0), hr]
        · obtain ⟨c2, hc2, hp2⟩ := mem_subtreesL.1 hp
          rcases List.mem_append.1 hc2 with hx | hx
          · obtain ⟨w, ds', hm⟩ := (others_eq h4).1 c2 (List.mem_append_left _ hx)
            exact .inr ⟨c2, List.mem_append_left _ hx, w, ds', hm, .inl ((ih' c2 hc2 w ds' hm _ _ _).2 ⟨p, hp2, c', hn, hr, i, j, rfl, rfl, hi, hj⟩)⟩
          · rcases List.mem_cons.1 hx with rfl | hx
            · exact .inl ((ih' c2 hc2 _ ds0 h3 _ _ _).2 ⟨p, hp2, c', hn, hr, i, j, rfl, rfl, hi, hj⟩)
            · obtain ⟨w, ds', hm⟩ := (others_eq h4).1 c2 (List.mem_append_right _ hx)
              exact .inr ⟨c2, List.mem_append_right _ hx, w, ds', hm, .inl ((ih' c2 hc2 w ds' hm _ _ _).2 ⟨p, hp2, c', hn, hr, i, j, rfl, rfl, hi, hj⟩)⟩

/-- `_makedep` succeeds if and only if there are head children everywhere. -/
theorem makedep_some (t : PTree Ann) : t.isNode = true → (∀ s ∈ subtrees t, Spec.Shape s) → ((∃ lh ds, makedep t = some (lh, ds)) ↔ ∀ s ∈ subtrees t, Spec.Headed s) := by
  induction t using PTree.ind with
  | hleaf i => intro h; cases h
  | hnode a cs ih =>
    intro _ hs
    rcases shape_cases (hs (.node a cs) (by simp)) with ⟨i, rfl⟩ | ⟨hne, hcs⟩
    · rw [makedep_leaf]
      refine ⟨fun _ => ?_, fun _ => ⟨_, _, rfl⟩⟩
      intro s hs'
      simp only [subtrees_node, subtreesL_cons, subtrees_leaf, subtreesL_nil, List.append_nil, List.mem_singleton] at hs'
      exact .inl ⟨a, i, hs'⟩
    · have ih' := fun c hc => ih c hc (hcs c hc) fun s hs' => hs s (mem_children_subtrees hc hs')
      constructor
      · rintro ⟨lh, ds, h⟩
        obtain ⟨xs, c, ys, ds0, r, rfl, h1, h2, h3, h4, rfl⟩ := makedep_node hcs h
        intro s hs'
        rw [subtrees_node, List.mem_cons] at hs'
        rcases hs' with rfl | hs'
        · exact .inr ⟨c, by simp [children], h2⟩
        · obtain ⟨c', hc', hs'⟩ := mem_subtreesL.1 hs'
          refine (ih' c' hc').1 ?_ s hs'
          rcases List.mem_append.1 hc' with hx | hx
          · exact (others_eq h4).1 c' (List.mem_append_left _ hx)
          · rcases List.mem_cons.1 hx with rfl | hx
            · exact ⟨_, _, h3⟩
            · exact (others_eq h4).1 c' (List.mem_append_right _ hx)
      · intro hh
        have hall : ∀ c ∈ cs, ∃ lh ds, makedep c = some (lh, ds) := fun c hc => (ih' c hc).2 fun s hs' => hh s (mem_children_subtrees hc hs')
        have hex : ∃ c ∈ cs, isHead c = true := by
          rcases hh (.node a cs) (by simp) with ⟨a', i, h⟩ | h
          · cases h
            have := hcs (.leaf i) (by simp)
            cases this
          · exact h
        have hst : start cs (makedepL cs) = combine cs (makedepL cs) := by
          unfold start
          split
          · exact absurd rfl hne
          · have := hcs _ List.mem_cons_self; cases this
          · rfl
        rw [makedep, hst, combine]
        obtain ⟨c, hc, hch⟩ := hex
        have hf : (cs.findIdx? isHead).isSome := by
          rw [List.findIdx?_isSome]; exact List.any_eq_true.2 ⟨c, hc, hch⟩
        obtain ⟨k, hk⟩ := Option.isSome_iff_exists.1 hf
        rw [hk]
        obtain ⟨xs, c, ys, rfl, rfl, h1, h2⟩ := findIdx_split hk
        obtain ⟨w, ds0, hm⟩ := hall c (by simp)
        have hget : (makedepL (xs ++ c :: ys))[xs.length]? = some (some (w, ds0)) := by
          rw [makedepL_eq, List.getElem?_map, List.getElem?_append_right (Nat.le_refl _)]
          simp [hm]
        have hoth : ∀ (L : List (PTree Ann × Option (Nat × List Dep))), (∀ p ∈ L, p.2.isSome) → ∃ r, others w L = some r := by
          intro L hL
          induction L with
          | nil => exact ⟨[], rfl⟩
          | cons p L ihL =>
            obtain ⟨q, o⟩ := p
            obtain ⟨⟨w', ds'⟩, hwd⟩ := Option.isSome_iff_exists.1 (hL (q, o) (by simp))
            simp only at hwd
            subst hwd
            obtain ⟨r, hr⟩ := ihL (fun p hp => hL p (by simp [hp]))
            exact ⟨_, by rw [others, hr]; rfl⟩
        obtain ⟨r, hr⟩ := hoth (((xs ++ c :: ys).zip (makedepL (xs ++ c :: ys))).eraseIdx xs.length) (by
          intro p hp
          have hp' := List.mem_of_mem_eraseIdx hp
          have hp2 : p.2 ∈ makedepL (xs ++ c :: ys) := (List.of_mem_zip (a := p.1) (b := p.2) hp').2
          rw [makedepL_eq] at hp2
          obtain ⟨c', hc', he⟩ := List.mem_map.1 hp2
          obtain ⟨w', ds', hm'⟩ := hall c' hc'
          rw [← he, hm']; rfl)
        refine ⟨w, ds0 ++ r, ?_⟩
        simp only [hget, hr, Option.map_some]

/-- What the roots contribute. -/
theorem roots_eq {cs : List (PTree Ann)} {r : List Dep} (h : roots cs = some r) :
    (∀ c ∈ cs, ∃ w ds, makedep c = some (w, ds)) ∧ r = cs.flatMap fun c => match makedep c with
      | some (w, ds) => ds ++ [(w, ['r', 'o', 'o', 't'], 0)]
      | none => [] := by
  induction cs generalizing r with
  | nil => cases h; simp
  | cons c cs ih =>
    rw [roots] at h
    split at h
    next w ds r' h1 h2 =>
      cases h
      obtain ⟨i1, i2⟩ := ih h2
      refine ⟨?_, ?_⟩
      · intro c' hc'
        rcases List.mem_cons.1 hc' with rfl | hc'
        · exact ⟨w, ds, h1⟩
        · exact i1 c' hc'
      · rw [List.flatMap_cons, h1, i2]; simp
    · cases h

theorem roots_some {cs : List (PTree Ann)} (h : ∀ c ∈ cs, ∃ w ds, makedep c = some (w, ds)) : ∃ r, roots cs = some r := by
  induction cs with
  | nil => exact ⟨[], rfl⟩
  | cons c cs ih =>
    obtain ⟨w, ds, hc⟩ := h c (by simp)
    obtain ⟨r, hr⟩ := ih (fun c hc => h c (by simp [hc]))
    exact ⟨_, by rw [roots, hc, hr]⟩

theorem mem_roots {cs : List (PTree Ann)} {r : List Dep} (h : roots cs = some r) (x : Dep) :
    x ∈ r ↔ ∃ c ∈ cs, ∃ w ds, makedep c = some (w, ds) ∧ (x ∈ ds ∨ x = (w, ['r', 'o', 'o', 't'], 0)) := by
  obtain ⟨h1, h2⟩ := roots_eq h
  rw [h2, List.mem_flatMap]
  constructor
  · rintro ⟨c, hc, hx⟩
    obtain ⟨w, ds, hm⟩ := h1 c hc
    rw [hm] at hx
    exact ⟨c, hc, w, ds, hm, by simpa using hx⟩
  · rintro ⟨c, hc, w, ds, hm, hx⟩
    exact ⟨c, hc, by rw [hm]; simpa using hx⟩

theorem roots_perm {cs : List (PTree Ann)} (hs : ∀ s ∈ subtreesL cs, Spec.Shape s) {r : List Dep} (h : roots cs = some r) :
    (r.map Prod.fst).Perm ((leavesL cs).map (· + 1)) := by
  obtain ⟨h1, h2⟩ := roots_eq h
  subst h2
  clear h
  induction cs with
  | nil => simp
  | cons c cs ih =>
    obtain ⟨w, ds, hm⟩ := h1 c (by simp)
    rw [List.flatMap_cons, List.map_append, leavesL_cons, List.map_append, hm]
    refine List.Perm.append ?_ (ih (fun s hs' => hs s (by simp [hs'])) (fun c hc => h1 c (by simp [hc])))
    refine List.Perm.trans ?_ (makedep_words c (fun s hs' => hs s (by simp [hs'])) w ds hm).1
    simp only [List.map_append, List.map_cons, List.map_nil]
    exact List.perm_append_singleton _ _

theorem leStr_trans : ∀ {a b c : Str}, leStr a b = true → leStr b c = true → leStr a c = true
  | [], _, _, _, _ => rfl
  | _ :: _, [], _, h, _ => by cases h
  | _ :: _, _ :: _, [], _, h => by cases h
  | x :: a, y :: b, z :: c, h1, h2 => by
    simp only [leStr, Bool.or_eq_true, decide_eq_true_eq, Bool.and_eq_true] at h1 h2 ⊢
    rcases h1 with h1 | ⟨rfl, h1⟩
    · rcases h2 with h2 | ⟨rfl, h2⟩
      · exact .inl (by omega)
      · exact .inl h1
    · rcases h2 with h2 | ⟨rfl, h2⟩
      · exact .inl h2
      · exact .inr ⟨rfl, leStr_trans h1 h2⟩

theorem leStr_total : ∀ (a b : Str), leStr a b = true ∨ leStr b a = true
  | [], _ => .inl rfl
  | _ :: _, [] => .inr rfl
  | x :: a, y :: b => by
    simp only [leStr, Bool.or_eq_true, decide_eq_true_eq, Bool.and_eq_true]
    rcases Nat.lt_trichotomy x.toNat y.toNat with h | h | h
    · exact .inl (.inl h)
    · have : x = y := by
        apply Char.ext
        exact UInt32.toNat_inj.1 h
      subst this
      rcases leStr_total a b with h | h
      · exact .inl (.inr ⟨rfl, h⟩)
      · exact .inr (.inr ⟨rfl, h⟩)
    · exact .inr (.inl h)

theorem leStr_antisymm : ∀ {a b : Str}, leStr a b = true → leStr b a = true → a = b
  | [], [], _, _ => rfl
  | [], _ :: _, _, h => by cases h
  | _ :: _, [], h, _ => by cases h
  | x :: a, y :: b, h1, h2 => by
    simp only [leStr, Bool.or_eq_true, decide_eq_true_eq, Bool.and_eq_true] at h1 h2
    rcases h1 with h1 | ⟨rfl, h1⟩
    · rcases h2 with h2 | ⟨rfl, h2⟩
      · omega
      · omega
    · rcases h2 with h2 | ⟨_, h2⟩
      · omega
      · rw [leStr_antisymm h1 h2]

theorem leDep_trans (a b c : Dep) : leDep a b = true → leDep b c = true → leDep a c = true := by
  obtain ⟨a1, a2, a3⟩ := a
  obtain ⟨b1, b2, b3⟩ := b
  obtain ⟨c1, c2, c3⟩ := c
  simp only [leDep, Bool.or_eq_true, decide_eq_true_eq, Bool.and_eq_true]
  intro h1 h2
  rcases h1 with h1 | ⟨rfl, h1⟩
  · rcases h2 with h2 | ⟨rfl, h2⟩
    · exact .inl (by omega)
    · exact .inl h1
  · rcases h2 with h2 | ⟨rfl, h2⟩
    · exact .inl h2
    · refine .inr ⟨rfl, ?_⟩
      by_cases e1 : a2 = b2
      · subst e1
        by_cases e2 : a2 = c2
        · subst e2
          simp only [if_true, decide_eq_true_eq] at h1 h2 ⊢
          omega
        · rw [if_neg e2] at h2 ⊢; exact h2
      · rw [if_neg e1] at h1
        by_cases e2 : b2 = c2
        · subst e2; rw [if_neg e1]; exact h1
        · rw [if_neg e2] at h2
          by_cases e3 : a2 = c2
          · subst e3; exact absurd (leStr_antisymm h1 h2) e1
          · rw [if_neg e3]; exact leStr_trans h1 h2

theorem leDep_total (a b : Dep) : leDep a b = true ∨ leDep b a = true := by
  obtain ⟨a1, a2, a3⟩ := a
  obtain ⟨b1, b2, b3⟩ := b
  simp only [leDep, Bool.or_eq_true, decide_eq_true_eq, Bool.and_eq_true]
  rcases Nat.lt_trichotomy a1 b1 with h | h | h
  · exact .inl (.inl h)
  · subst h
    by_cases e : a2 = b2
    · subst e
      simp only [if_true, decide_eq_true_eq]
      rcases Nat.le_total a3 b3 with h | h
      · exact .inl (.inr ⟨trivial, h⟩)
      · exact .inr (.inr ⟨trivial, h⟩)
    · rw [if_neg e, if_neg (Ne.symm e)]
      rcases leStr_total a2 b2 with h | h
      · exact .inl (.inr ⟨rfl, h⟩)
      · exact .inr (.inr ⟨rfl, h⟩)
  · exact .inr (.inl h)

/-! ### Constituents that share a word -/

theorem nodup_child {cs : List (PTree Ann)} (h : (leavesL cs).Nodup) {c : PTree Ann} (hc : c ∈ cs) : c.leaves.Nodup := by
  obtain ⟨xs, ys, rfl⟩ := List.append_of_mem hc
  simp only [leavesL_append, leavesL_cons] at h
  exact (List.nodup_append.1 (List.nodup_append.1 h).2.1).1

theorem child_unique {cs : List (PTree Ann)} (h : (leavesL cs).Nodup) {c c' : PTree Ann} (hc : c ∈ cs) (hc' : c' ∈ cs) {i : Nat} (hi : i ∈ c.leaves) (hi' : i ∈ c'.leaves) : c = c' := by
  induction cs with
  | nil => cases hc
  | cons d cs ih =>
    rw [leavesL_cons] at h
    have hd := List.nodup_append.1 h
    rcases List.mem_cons.1 hc with rfl | hc2
    · rcases List.mem_cons.1 hc' with rfl | hc2'
      · rfl
      · exact absurd rfl (hd.2.2 i hi i (mem_leavesL.2 ⟨c', hc2', hi'⟩))
    · rcases List.mem_cons.1 hc' with rfl | hc2'
      · exact absurd rfl (hd.2.2 i hi' i (mem_leavesL.2 ⟨c, hc2, hi⟩))
      · exact ih hd.2.1 hc2 hc2'

theorem subtree_leaves {t s : PTree Ann} (h : s ∈ subtrees t) : ∀ i ∈ s.leaves, i ∈ t.leaves := by
  induction t using PTree.ind with
  | hleaf i => simp at h
  | hnode a cs ih =>
    rw [subtrees_node, List.mem_cons] at h
    rcases h with rfl | h
    · exact fun _ h => h
    · obtain ⟨c, hc, h⟩ := mem_subtreesL.1 h
      intro i hi
      rw [leaves_node]
      exact mem_leavesL.2 ⟨c, hc, ih c hc h i hi⟩

theorem nested {t : PTree Ann} (hd : t.leaves.Nodup) {s s' : PTree Ann} (h : s ∈ subtrees t) (h' : s' ∈ subtrees t) {i : Nat} (hi : i ∈ s.leaves) (hi' : i ∈ s'.leaves) :
    s ∈ subtrees s' ∨ s' ∈ subtrees s := by
  induction t using PTree.ind with
  | hleaf i => simp at h
  | hnode a cs ih =>
    have h0 := h
    have h0' := h'
    rw [subtrees_node, List.mem_cons] at h h'
    rcases h with rfl | h
    · exact .inr h0'
    · rcases h' with rfl | h'
      · exact .inl h0
      · obtain ⟨c, hc, h⟩ := mem_subtreesL.1 h
        obtain ⟨c', hc', h'⟩ := mem_subtreesL.1 h'
        rw [leaves_node] at hd
        have := child_unique hd hc hc' (subtree_leaves h i hi) (subtree_leaves h' i hi')
        subst this
        exact ih c hc (nodup_child hd hc) h h'

/-- A part of a constituent that contains its lexical head has the same lexical head. -/
theorem lex_below {p : PTree Ann} {h : Nat} (hl : Spec.Lex p h) : p.leaves.Nodup → ∀ {s}, s ∈ subtrees p → h ∈ s.leaves → Spec.Lex s h := by
  induction hl with
  | @word a i =>
    intro _ s hs _
    simp only [subtrees_node, subtreesL_cons, subtrees_leaf, subtreesL_nil, List.append_nil, List.mem_singleton] at hs
    subst hs
    exact .word
  | @step a xs c ys i h1 h2 h3 ih =>
    intro hd s hs hi
    rw [subtrees_node, List.mem_cons] at hs
    rcases hs with rfl | hs
    · exact .step h1 h2 h3
    · obtain ⟨c', hc', hs2⟩ := mem_subtreesL.1 hs
      rw [leaves_node] at hd
      have := child_unique hd hc' (c' := c) (by simp) (subtree_leaves hs2 i hi) (lex_leaf h3)
      subst this
      exact ih (nodup_child hd hc') hs2 hi

/-! ### The theorems -/

theorem func_label {a : Ann} {cs : List (PTree Ann)} {r : Str} : r = func (.node a cs) ↔ Spec.Label (.node a cs) r := by
  unfold Spec.Label
  constructor
  · intro h
    refine ⟨a, cs, rfl, ?_⟩
    rw [func] at h
    cases hf : a.func with
    | none => rw [hf] at h; exact .inr ⟨.inl rfl, h⟩
    | some f =>
      rw [hf] at h
      simp only at h
      split at h
      next h1 => subst h; exact .inl ⟨rfl, h1.1, h1.2⟩
      next h1 =>
        rw [not_and_or, not_ne_iff, not_ne_iff] at h1
        rcases h1 with rfl | rfl
        · exact .inr ⟨.inr (.inl rfl), h⟩
        · exact .inr ⟨.inr (.inr rfl), h⟩
  · rintro ⟨b, ds, he, h⟩
    simp only [PTree.node.injEq] at he
    obtain ⟨rfl, rfl⟩ := he
    rw [func]
    rcases h with ⟨h, h1, h2⟩ | ⟨h | h | h, rfl⟩
    · rw [h]; simp only; rw [if_pos ⟨h1, h2⟩]
    · rw [h]; rfl
    · rw [h]; simp
    · rw [h]; rfl

/-- The input: below the root there are preterminals with one word and constituents with a head child; each word occurs once. -/
structure Spec.Input (root : PTree Ann) : Prop where
  nodes : ∀ c ∈ root.children, c.isNode = true
  shape : ∀ s ∈ subtreesL root.children, Spec.Shape s
  headed : ∀ s ∈ subtreesL root.children, Spec.Headed s
  distinct : root.leaves.Nodup

theorem children_leaves {root : PTree Ann} {cs : List (PTree Ann)} {a : Ann} (h : root = .node a cs) : root.leaves = leavesL root.children := by
  subst h; rfl

/-- `dependencies` succeeds exactly if every constituent below the root has a head child. -/
theorem C36_total {root : PTree Ann} (h1 : ∀ c ∈ root.children, c.isNode = true) (h2 : ∀ s ∈ subtreesL root.children, Spec.Shape s) :
    (∃ deps, dependencies root = some deps) ↔ ∀ s ∈ subtreesL root.children, Spec.Headed s := by
  unfold dependencies
  have hk := fun c (hc : c ∈ root.children) => makedep_some c (h1 c hc) fun s hs => h2 s (mem_subtreesL.2 ⟨c, hc, hs⟩)
  constructor
  · rintro ⟨deps, h⟩ s hs
    obtain ⟨c, hc, hs⟩ := mem_subtreesL.1 hs
    cases hr : roots root.children with
    | none => rw [hr] at h; cases h
    | some r => exact (hk c hc).1 ((roots_eq hr).1 c hc) s hs
  · intro h
    obtain ⟨r, hr⟩ := roots_some fun c hc => (hk c hc).2 fun s hs => h s (mem_subtreesL.2 ⟨c, hc, hs⟩)
    exact ⟨_, by rw [hr]; rfl⟩

theorem dependencies_roots {root : PTree Ann} {deps : List Dep} (h : dependencies root = some deps) :
    ∃ r, roots root.children = some r ∧ deps.Perm r ∧ deps.Pairwise fun x y => leDep x y = true := by
  unfold dependencies at h
  cases hr : roots root.children with
  | none => rw [hr] at h; cases h
  | some r =>
    rw [hr] at h
    cases h
    exact ⟨r, rfl, StableSort.perm r, StableSort.pairwise leDep_trans (fun a b => by simpa using leDep_total a b) r⟩

/-- The dependencies are: for each child of a constituent other than the head child, its lexical head depends on the lexical head of the
constituent, with the function tag of the child as label; and for each child of the root, its lexical head depends on 0. -/
theorem C36_arcs {root : PTree Ann} (hin : Spec.Input root) {deps : List Dep} (h : dependencies root = some deps) (d : Nat) (r : Str) (hd : Nat) :
    (d, r, hd) ∈ deps ↔
      (∃ p ∈ subtreesL root.children, ∃ c, Spec.NonHead p c ∧ Spec.Label c r ∧ ∃ i j, d = i + 1 ∧ hd = j + 1 ∧ Spec.Lex c i ∧ Spec.Lex p j) ∨
      (∃ c ∈ root.children, r = "root".toList ∧ hd = 0 ∧ ∃ i, d = i + 1 ∧ Spec.Lex c i) := by
  have hlab : ∀ p c, (∃ i j, d = i + 1 ∧ hd = j + 1 ∧ Spec.Lex c i ∧ Spec.Lex p j) → (Spec.Label c r ↔ r = func c) := by
    rintro p c ⟨i, j, -, -, hl, -⟩
    cases hl <;> exact func_label.symm
  have hcongr : (∃ p ∈ subtreesL root.children, ∃ c, Spec.NonHead p c ∧ Spec.Label c r ∧ ∃ i j, d = i + 1 ∧ hd = j + 1 ∧ Spec.Lex c i ∧ Spec.Lex p j) ↔
      ∃ p ∈ subtreesL root.children, ∃ c, Spec.NonHead p c ∧ r = func c ∧ ∃ i j, d = i + 1 ∧ hd = j + 1 ∧ Spec.Lex c i ∧ Spec.Lex p j := by
    constructor
    · rintro ⟨p, hp, c, hn, hl, hx⟩; exact ⟨p, hp, c, hn, (hlab p c hx).1 hl, hx⟩
    · rintro ⟨p, hp, c, hn, hl, hx⟩; exact ⟨p, hp, c, hn, (hlab p c hx).2 hl, hx⟩
  rw [hcongr]
  obtain ⟨rs, h1, h2, -⟩ := dependencies_roots h
  rw [h2.mem_iff, mem_roots h1]
  have hsh := fun c (hc : c ∈ root.children) s (hs : s ∈ subtrees c) => hin.shape s (mem_subtreesL.2 ⟨c, hc, hs⟩)
  constructor
  · rintro ⟨c, hc, w, ds, hm, hx | hx⟩
    · obtain ⟨p, hp, rest⟩ := (makedep_arcs c (hsh c hc) w ds hm d r hd).1 hx
      exact .inl ⟨p, mem_subtreesL.2 ⟨c, hc, hp⟩, rest⟩
    · simp only [Prod.mk.injEq] at hx
      obtain ⟨rfl, rfl, rfl⟩ := hx
      obtain ⟨-, ⟨i, rfl, hl⟩, -⟩ := makedep_words c (hsh c hc) _ ds hm
      exact .inr ⟨c, hc, rfl, rfl, i, rfl, hl⟩
  · rintro (⟨p, hp, rest⟩ | ⟨c, hc, rfl, rfl, i, rfl, hl⟩)
    · obtain ⟨c, hc, hp⟩ := mem_subtreesL.1 hp
      obtain ⟨w, ds, hm⟩ := (roots_eq h1).1 c hc
      exact ⟨c, hc, w, ds, hm, .inl ((makedep_arcs c (hsh c hc) w ds hm d r hd).2 ⟨p, hp, rest⟩)⟩
    · obtain ⟨w, ds, hm⟩ := (roots_eq h1).1 c hc
      obtain ⟨-, ⟨j, rfl, hl'⟩, -⟩ := makedep_words c (hsh c hc) _ ds hm
      exact ⟨c, hc, _, ds, hm, .inr (by rw [lex_unique hl hl']; rfl)⟩

theorem root_node {root : PTree Ann} (h : root.isNode = true) : root.leaves = leavesL root.children := by
  cases root with
  | leaf => cases h
  | node => rfl

/-- Every word has exactly one head, and the result is in the order of the words. -/
theorem C36_one_head {root : PTree Ann} (hr : root.isNode = true) (hin : Spec.Input root) {deps : List Dep} (h : dependencies root = some deps) :
    (deps.map Prod.fst).Perm (root.leaves.map (· + 1)) ∧ (deps.map Prod.fst).Pairwise (· < ·) ∧
    ∀ w ∈ root.leaves, ∃! x : Str × Nat, (w + 1, x) ∈ deps := by
  obtain ⟨rs, h1, h2, h3⟩ := dependencies_roots h
  have hp : (deps.map Prod.fst).Perm (root.leaves.map (· + 1)) := by
    rw [root_node hr]
    exact (h2.map _).trans (roots_perm hin.shape h1)
  have hnd : (deps.map Prod.fst).Nodup := hp.nodup_iff.2 (hin.distinct.map (fun a b h => by simpa using h))
  refine ⟨hp, ?_, ?_⟩
  · have h4 : (deps.map Prod.fst).Pairwise (· ≤ ·) := by
      rw [List.pairwise_map]
      refine h3.imp fun {a b} hab => ?_
      simp only [leDep, Bool.or_eq_true, decide_eq_true_eq, Bool.and_eq_true] at hab
      omega
    have := h4.and hnd
    exact this.imp fun hab => by omega
  · intro w hw
    have hm : w + 1 ∈ deps.map Prod.fst := hp.mem_iff.2 (List.mem_map_of_mem hw)
    obtain ⟨⟨d, x⟩, hd, rfl⟩ := List.mem_map.1 hm
    refine ⟨x, hd, ?_⟩
    intro y hy
    have := List.inj_on_of_nodup_map hnd hy hd rfl
    exact congrArg Prod.snd this

/-- The words that depend on a word, directly or indirectly, are the words of the constituents of which it is the lexical head. -/
theorem C36_yield {root : PTree Ann} (hr : root.isNode = true) (hin : Spec.Input root) {deps : List Dep} (h : dependencies root = some deps) (w d : Nat) (hw : w ∈ root.leaves) :
    Spec.Reach deps (w + 1) (d + 1) ↔ ∃ s ∈ subtreesL root.children, Spec.Lex s w ∧ d ∈ s.leaves := by
  have arcs := C36_arcs hin h
  have hdist := hin.distinct
  have hlex : ∀ s ∈ subtreesL root.children, ∃ i, Spec.Lex s i := by
    obtain ⟨r, h1, -, -⟩ := dependencies_roots h
    intro s hs
    have hsub : ∀ x ∈ subtrees s, x ∈ subtreesL root.children := by
      intro x hx
      obtain ⟨c, hc, hs⟩ := mem_subtreesL.1 hs
      refine mem_subtreesL.2 ⟨c, hc, ?_⟩
      clear hc
      induction c using PTree.ind with
      | hleaf i => simp at hs
      | hnode a cs ih =>
        rw [subtrees_node, List.mem_cons] at hs
        rcases hs with rfl | hs
        · exact hx
        · obtain ⟨c, hc, hs⟩ := mem_subtreesL.1 hs
          exact mem_children_subtrees hc (ih c hc hs)
    have hn : s.isNode = true := by
      rcases hin.shape s hs with ⟨a, i, rfl⟩ | ⟨a, cs, rfl, -⟩ <;> rfl
    obtain ⟨lh, ds, hm⟩ := (makedep_some s hn fun x hx => hin.shape x (hsub x hx)).2 fun x hx => hin.headed x (hsub x hx)
    obtain ⟨-, ⟨i, -, hl⟩, -⟩ := makedep_words s (fun x hx => hin.shape x (hsub x hx)) lh ds hm
    exact ⟨i, hl⟩
  constructor
  · intro hreach
    have key : ∀ x, Spec.Reach deps (w + 1) x → ∃ d, x = d + 1 ∧ ∃ s ∈ subtreesL root.children, Spec.Lex s w ∧ d ∈ s.leaves := by
      intro x hx
      induction hx with
      | refl =>
        refine ⟨w, rfl, ?_⟩
        rw [root_node hr] at hw
        obtain ⟨c, hc, hwc⟩ := mem_leavesL.1 hw
        have hpre : ∀ t : PTree Ann, (∀ s ∈ subtrees t, Spec.Shape s) → t.isNode = true → w ∈ t.leaves → ∃ s ∈ subtrees t, Spec.Lex s w ∧ w ∈ s.leaves := by
          intro t
          induction t using PTree.ind with
          | hleaf i => intro _ h; cases h
          | hnode a cs ih =>
            intro hs _ hwt
            rcases shape_cases (hs (.node a cs) (by simp)) with ⟨i, rfl⟩ | ⟨-, hcs⟩
            · simp at hwt; subst hwt
              exact ⟨.node a [.leaf w], by simp, .word, by simp⟩
            · rw [leaves_node] at hwt
              obtain ⟨c', hc', hwc'⟩ := mem_leavesL.1 hwt
              obtain ⟨s, h1, h2⟩ := ih c' hc' (fun s hs' => hs s (mem_children_subtrees hc' hs')) (hcs c' hc') hwc'
              exact ⟨s, mem_children_subtrees hc' h1, h2⟩
        obtain ⟨s, hs, h2⟩ := hpre c (fun s hs => hin.shape s (mem_subtreesL.2 ⟨c, hc, hs⟩)) (hin.nodes c hc) hwc
        exact ⟨s, mem_subtreesL.2 ⟨c, hc, hs⟩, h2⟩
      | @tail b x hb hstep ih =>
        obtain ⟨b', rfl, s, hs, hls, hbs⟩ := ih
        obtain ⟨rr, harc⟩ := hstep
        rcases (arcs _ _ _).1 harc with ⟨p, hp, c, hn, -, i, j, rfl, hj, hli, hlj⟩ | ⟨c, hc, -, h0, -⟩
        · have : b' = j := by omega
          subst this
          refine ⟨i, rfl, ?_⟩
          have hip : i ∈ p.leaves := by
            obtain ⟨a, xs, hh, ys, rfl, -, -, hc⟩ := hn
            rw [leaves_node]
            refine mem_leavesL.2 ⟨c, ?_, lex_leaf hli⟩
            rcases List.mem_append.1 hc with h | h
            · exact List.mem_append_left _ h
            · exact List.mem_append_right _ (List.mem_cons_of_mem _ h)
          have hdr : ∃ a, root = .node a root.children := by
            cases root with
            | leaf => cases hr
            | node a cs => exact ⟨a, rfl⟩
          obtain ⟨a, hroot⟩ := hdr
          have hsr : s ∈ subtrees root := by rw [hroot, subtrees_node]; exact List.mem_cons_of_mem _ hs
          have hpr : p ∈ subtrees root := by rw [hroot, subtrees_node]; exact List.mem_cons_of_mem _ hp
          rcases nested hdist hsr hpr hbs (lex_leaf hlj) with hsp | hps
          · have hpd : p.leaves.Nodup := by
              obtain ⟨c0, hc0, hp0⟩ := mem_subtreesL.1 hp
              have hd0 : c0.leaves.Nodup := nodup_child (by rw [← root_node hr]; exact hdist) hc0
              clear hsp hsr hpr hlj hip hn harc hc0 hp
              induction c0 using PTree.ind with
              | hleaf i => simp at hp0
              | hnode a cs ih =>
                rw [subtrees_node, List.mem_cons] at hp0
                rcases hp0 with rfl | hp0
                · exact hd0
                · obtain ⟨c1, hc1, hp1⟩ := mem_subtreesL.1 hp0
                  exact ih c1 hc1 hp1 (nodup_child hd0 hc1)
            have := lex_below hlj hpd hsp hbs
            rw [lex_unique hls this]
            exact ⟨p, hp, hlj, hip⟩
          · exact ⟨s, hs, hls, subtree_leaves hps i hip⟩
        · omega
    obtain ⟨d', hd', hs⟩ := key _ hreach
    have : d = d' := by omega
    exact this ▸ hs
  · rintro ⟨s, hs, hl, hd⟩
    have key : ∀ s : PTree Ann, (∀ x ∈ subtrees s, x ∈ subtreesL root.children) → ∀ w, Spec.Lex s w → d ∈ s.leaves → Spec.Reach deps (w + 1) (d + 1) := by
      intro s
      induction s using PTree.ind with
      | hleaf i => intro _ w hl; cases hl
      | hnode a cs ih =>
        intro hsub w hl hd
        have hmem := hsub (.node a cs) (by simp)
        generalize ht : PTree.node a cs = t at hl
        cases hl with
        | @word a' =>
          simp only [PTree.node.injEq] at ht
          rw [ht.2] at hd
          simp at hd
          rw [hd]
          exact .refl
        | @step a' xs c ys _ h1 h2 h3 =>
          simp only [PTree.node.injEq] at ht
          obtain ⟨rfl, rfl⟩ := ht
          rw [leaves_node] at hd
          obtain ⟨c', hc', hdc⟩ := mem_leavesL.1 hd
          have hsub' : ∀ x ∈ subtrees c', x ∈ subtreesL root.children := fun x hx => hsub x (mem_children_subtrees hc' hx)
          have hor : c' = c ∨ c' ∈ xs ++ ys := by
            simp only [List.mem_append, List.mem_cons] at hc' ⊢
            tauto
          rcases hor with rfl | hO
          · exact ih c' hc' hsub' w h3 hdc
          · have hn' : c'.isNode = true := by
              rcases hin.shape _ hmem with ⟨a2, i, he⟩ | ⟨a2, cs2, he, -, hall⟩
              · simp only [PTree.node.injEq] at he
                have hci : c ∈ [(PTree.leaf i : PTree Ann)] := by rw [← he.2]; simp
                simp only [List.mem_singleton] at hci
                subst hci
                cases h2
              · simp only [PTree.node.injEq] at he
                exact hall c' (he.2 ▸ hc')
            have hself : c' ∈ subtrees c' := by
              cases c' with
              | leaf => cases hn'
              | node => simp
            obtain ⟨w', hw'⟩ := hlex c' (hsub' c' hself)
            refine Relation.ReflTransGen.head ⟨func c', ?_⟩ (ih c' hc' hsub' w' hw' hdc)
            have hlb : Spec.Label c' (func c') := by
              cases c' with
              | leaf => cases hn'
              | node => exact func_label.1 rfl
            exact (arcs _ _ _).2 (.inl ⟨_, hmem, c', ⟨a, xs, c, ys, rfl, h1, h2, hO⟩, hlb, w', w, rfl, rfl, hw', .step h1 h2 h3⟩)
    refine key s ?_ w hl hd
    intro x hx
    obtain ⟨c, hc, hs⟩ := mem_subtreesL.1 hs
    refine mem_subtreesL.2 ⟨c, hc, ?_⟩
    clear hc
    induction c using PTree.ind with
    | hleaf i => simp at hs
    | hnode a cs ih =>
      rw [subtrees_node, List.mem_cons] at hs
      rcases hs with rfl | hs
      · exact hx
      · obtain ⟨c, hc, hs⟩ := mem_subtreesL.1 hs
        exact mem_children_subtrees hc (ih c hc hs)

/-- The dependencies form a tree with 0 as its root: every word depends on 0 directly or indirectly, and there are no cycles. -/
theorem C36_tree {root : PTree Ann} (hr : root.isNode = true) (hin : Spec.Input root) {deps : List Dep} (h : dependencies root = some deps) :
    (∀ w ∈ root.leaves, Spec.Reach deps 0 (w + 1)) ∧ ∀ x, ¬ Relation.TransGen (Spec.Step deps) x x := by
  have arcs := C36_arcs hin h
  obtain ⟨hp, -, huniq⟩ := C36_one_head hr hin h
  have hreach : ∀ w ∈ root.leaves, Spec.Reach deps 0 (w + 1) := by
    intro w hw
    have hw' := hw
    rw [root_node hr] at hw
    obtain ⟨c, hc, hwc⟩ := mem_leavesL.1 hw
    obtain ⟨rs, h1, -, -⟩ := dependencies_roots h
    obtain ⟨lh, ds, hm⟩ := (roots_eq h1).1 c hc
    obtain ⟨-, ⟨i, -, hl⟩, -⟩ := makedep_words c (fun s hs => hin.shape s (mem_subtreesL.2 ⟨c, hc, hs⟩)) lh ds hm
    have hself : c ∈ subtrees c := by
      have := hin.nodes c hc
      cases c with
      | leaf => cases this
      | node => simp
    have hi : i ∈ root.leaves := by rw [root_node hr]; exact mem_leavesL.2 ⟨c, hc, lex_leaf hl⟩
    refine Relation.ReflTransGen.head ⟨_, (arcs (i + 1) _ 0).2 (.inr ⟨c, hc, rfl, rfl, i, rfl, hl⟩)⟩ ?_
    exact (C36_yield hr hin h i w hi).2 ⟨c, mem_subtreesL.2 ⟨c, hc, hself⟩, hl, hwc⟩
  refine ⟨hreach, ?_⟩
  have key : ∀ x, Spec.Reach deps 0 x → ¬ Relation.TransGen (Spec.Step deps) x x := by
    intro x hx
    induction hx with
    | refl =>
      intro hc
      obtain ⟨y, -, r, hy⟩ := Relation.TransGen.tail'_iff.1 hc
      rcases (arcs _ _ _).1 hy with ⟨_, _, _, _, _, i, _, h0, _⟩ | ⟨_, _, _, _, i, h0, _⟩ <;> omega
    | @tail b x hb hstep ih =>
      intro hc
      obtain ⟨y, hxy, r, hy⟩ := Relation.TransGen.tail'_iff.1 hc
      obtain ⟨r', hb'⟩ := hstep
      have hxl : x ∈ root.leaves.map (· + 1) := hp.mem_iff.1 (List.mem_map_of_mem hy)
      obtain ⟨w, hw, rfl⟩ := List.mem_map.1 hxl
      have := (huniq w hw).unique hy hb'
      simp only [Prod.mk.injEq] at this
      obtain ⟨-, rfl⟩ := this
      exact ih (Relation.TransGen.head'_iff.2 ⟨_, ⟨r, hy⟩, hxy⟩)
  intro x hc
  obtain ⟨y, hxy, r, hy⟩ := Relation.TransGen.tail'_iff.1 hc
  have hxl : x ∈ root.leaves.map (· + 1) := hp.mem_iff.1 (List.mem_map_of_mem hy)
  obtain ⟨w, hw, rfl⟩ := List.mem_map.1 hxl
  exact key _ (hreach w hw) hc

/-- If all constituents are continuous, the dependencies are projective: the words between a word and its head depend on that head. -/
theorem C36_projective {root : PTree Ann} (hr : root.isNode = true) (hin : Spec.Input root) {deps : List Dep} (h : dependencies root = some deps)
    (hcont : ∀ s ∈ subtreesL root.children, Spec.Continuous s) (d hd : Nat) (r : Str) (harc : (d + 1, r, hd + 1) ∈ deps) (j : Nat)
    (hj : (d < j ∧ j < hd) ∨ (hd < j ∧ j < d)) : Spec.Reach deps (hd + 1) (j + 1) := by
  rcases (C36_arcs hin h _ _ _).1 harc with ⟨p, hp, c, hn, -, i, k, hi, hk, hli, hlk⟩ | ⟨_, _, _, h0, _⟩
  · have e1 : d = i := by omega
    have e2 : hd = k := by omega
    subst e1 e2
    have hip : d ∈ p.leaves := by
      obtain ⟨a, xs, hh, ys, rfl, -, -, hc⟩ := hn
      rw [leaves_node]
      refine mem_leavesL.2 ⟨c, ?_, lex_leaf hli⟩
      rcases List.mem_append.1 hc with h | h
      · exact List.mem_append_left _ h
      · exact List.mem_append_right _ (List.mem_cons_of_mem _ h)
    have hkp := lex_leaf hlk
    have hjp : j ∈ p.leaves := by
      rcases hj with ⟨a, b⟩ | ⟨a, b⟩
      · exact hcont p hp d hip hd hkp j a b
      · exact hcont p hp hd hkp d hip j a b
    have hkr : hd ∈ root.leaves := by
      rw [root_node hr]
      obtain ⟨c0, hc0, hp0⟩ := mem_subtreesL.1 hp
      exact mem_leavesL.2 ⟨c0, hc0, subtree_leaves hp0 _ hkp⟩
    exact (C36_yield hr hin h hd j hkr).2 ⟨p, hp, hlk, hjp⟩
  · omega

/-- An example: `(ROOT (S (VP_2=HD (PRO 0) (V=HD 2)) (NP-SB (N=HD 1))) (P 3))`, a discontinuous tree. -/
def exTree : PTree Ann :=
  .node ⟨"ROOT".toList, false, none⟩ [
    .node ⟨"S".toList, false, none⟩ [
      .node ⟨"VP_2".toList, true, none⟩ [.node ⟨"PRO".toList, false, some "OA".toList⟩ [.leaf 0], .node ⟨"V".toList, true, none⟩ [.leaf 2]],
      .node ⟨"NP".toList, false, some "SB".toList⟩ [.node ⟨"N".toList, true, none⟩ [.leaf 1]]],
    .node ⟨"P".toList, false, some "--".toList⟩ [.leaf 3]]

/-- The hypotheses hold for the example. -/
theorem exTree_input : Spec.Input exTree := by
  refine ⟨by decide, ?_, ?_, by decide⟩
  · intro s hs
    simp only [exTree, children, subtreesL_cons, subtrees_node, subtrees_leaf, subtreesL_nil, List.append_nil, List.nil_append, List.cons_append, List.mem_cons,
      List.not_mem_nil, or_false] at hs
    rcases hs with rfl | rfl | rfl | rfl | rfl | rfl | rfl
    · exact .inr ⟨_, _, rfl, by simp, by decide⟩
    · exact .inr ⟨_, _, rfl, by simp, by decide⟩
    · exact .inl ⟨_, _, rfl⟩
    · exact .inl ⟨_, _, rfl⟩
    · exact .inr ⟨_, _, rfl, by simp, by decide⟩
    · exact .inl ⟨_, _, rfl⟩
    · exact .inl ⟨_, _, rfl⟩
  · intro s hs
    simp only [exTree, children, subtreesL_cons, subtrees_node, subtrees_leaf, subtreesL_nil, List.append_nil, List.nil_append, List.cons_append, List.mem_cons,
      List.not_mem_nil, or_false] at hs
    rcases hs with rfl | rfl | rfl | rfl | rfl | rfl | rfl
    · exact .inr ⟨_, List.mem_cons_self, rfl⟩
    · exact .inr ⟨_, List.mem_cons_of_mem _ List.mem_cons_self, rfl⟩
    · exact .inl ⟨_, _, rfl⟩
    · exact .inl ⟨_, _, rfl⟩
    · exact .inr ⟨_, List.mem_cons_self, rfl⟩
    · exact .inl ⟨_, _, rfl⟩
    · exact .inl ⟨_, _, rfl⟩

example : dependencies exTree = some [(1, "OA".toList, 3), (2, "SB".toList, 3), (3, "root".toList, 0), (4, "root".toList, 0)] := by decide +kernel

/-- `deplen` is meant to leave out the dependency of the root ("discount ROOT", the test for the label `'ROOT'`), but `dependencies` gives
it the label `'root'`: a sentence of one word has total length 1 with zero dependencies. -/
theorem C36_deplen_disagrees : (dependencies (.node ⟨"ROOT".toList, false, none⟩ [.node ⟨"N".toList, false, none⟩ [.leaf 0]])).map deplen = some (1, 0) := by
  decide +kernel

/-- Unless there is a function tag `ROOT`, the dependencies of the roots are part of the total: each adds the position of its word. -/
theorem C36_deplen_roots (deps : List Dep)
    (hf : ∀ x ∈ deps, x.2.1 ≠ "ROOT".toList) :
    (deplen deps).1 = ((deps.filter fun x => decide (x.2.2 ≠ 0)).map fun x => absdiff x.1 x.2.2).sum +
      ((deps.filter fun x => decide (x.2.2 = 0)).map Prod.fst).sum := by
  unfold deplen
  simp only
  induction deps with
  | nil => rfl
  | cons x deps ih =>
    have hx := hf x (by simp)
    rw [List.filter_cons_of_pos (by simpa using hx), List.map_cons, List.sum_cons, ih (fun y hy => hf y (by simp [hy]))]
    by_cases h0 : x.2.2 = 0
    · rw [List.filter_cons_of_neg (by simpa using h0), List.filter_cons_of_pos (by simpa using h0), List.map_cons, List.sum_cons, h0]
      unfold absdiff
      omega
    · rw [List.filter_cons_of_pos (by simpa using h0), List.filter_cons_of_neg (by simpa using h0), List.map_cons, List.sum_cons]
      omega

end Disco.Deps
