import Verif.Basic.Tree
import Verif.Basic.Dict
/-!
# C84: coarse labels for coarse-to-fine parsing

`collapselabels` (treebanktransforms.py:1356-1396), the tables `MAPPINGS` (treebanktransforms.py:60-122) where needed, and the mapping between the labels of two
stages (runexp.py:351-358).
-/
namespace Disco.Collapse
open PTree

/-- The characters that `LABELRE` (treebanktransforms.py:20) does not match. -/
def isSep (c : Char) : Bool := decide (c ∈ ['^', '|', '<', '>', ',', ';', ':', '_', '-'])

/-- The replacement of a run; there is no match if it is empty. -/
def subWord (f : Str → Str) (w : Str) : Str := if w = [] then [] else f w

/-- `LABELRE.sub(f, s)`: `f` is applied to the maximal runs of other characters; `w` is the run so far, in reverse. -/
def subRuns (f : Str → Str) : Str → Str → Str
  | w, [] => subWord f w.reverse
  | w, c :: s => if isSep c then subWord f w.reverse ++ c :: subRuns f [] s else subRuns f (c :: w) s

/-- The new label (treebanktransforms.py:1375-1378); `rev` is `revmapping`. -/
def coarse (rev : Dict Str Str) (l : Str) : Str :=
  ((((subRuns (fun w => (rev.get? w).getD []) [] l).filter (· ≠ '-')).reverse).dropWhile (· = '^')).reverse

/-- The assertion (treebanktransforms.py:1379-1380); `isalpha` is a parameter. -/
def okLabel (isalpha : Char → Bool) : Str → Bool
  | [] => false
  | c :: _ => isalpha c

/-- `node and isinstance(node[0], Tree)`. -/
def phrasal {L : Type} : List (PTree L) → Bool
  | c :: _ => c.isNode
  | [] => false

mutual
/-- The body of the loop of `collapse` (treebanktransforms.py:1371-1381) for a node and everything below it: the new tree and the assignments to `mapping`,
in order; none if the assertion fails. -/
def collapseIn (isalpha : Char → Bool) (rev : Dict Str Str) : PTree Str → Option (PTree Str × List (Str × Str))
  | .leaf i => some (.leaf i, [])
  | .node l cs => (collapseInL isalpha rev cs).bind fun r =>
    if phrasal cs then
      if okLabel isalpha (coarse rev l) then some (.node (coarse rev l) r.1, (l, coarse rev l) :: r.2) else none
    else some (.node l r.1, r.2)
/-- The same for a list of children. -/
def collapseInL (isalpha : Char → Bool) (rev : Dict Str Str) : List (PTree Str) → Option (List (PTree Str) × List (Str × Str))
  | [] => some ([], [])
  | c :: cs => (collapseIn isalpha rev c).bind fun r => (collapseInL isalpha rev cs).map fun q => (r.1 :: q.1, r.2 ++ q.2)
end

/-- `collapse(tree)` (treebanktransforms.py:1369-1381): the root is skipped. -/
def collapse (isalpha : Char → Bool) (rev : Dict Str Str) : PTree Str → Option (PTree Str × List (Str × Str))
  | .leaf i => some (.leaf i, [])
  | .node l cs => (collapseInL isalpha rev cs).map fun r => (.node l r.1, r.2)

mutual
/-- The labels of `tree.subtrees(lambda n: not isinstance(n[0], Tree))` (treebanktransforms.py:1391); none is the IndexError for a node without children. -/
def posLabels : PTree Str → Option (List Str)
  | .leaf _ => some []
  | .node _ [] => none
  | .node l (c :: cs) => (posLabelsL (c :: cs)).map fun r => if c.isNode then r else l :: r
/-- The same for a list of children. -/
def posLabelsL : List (PTree Str) → Option (List Str)
  | [] => some []
  | c :: cs => (posLabels c).bind fun a => (posLabelsL cs).map fun b => a ++ b
end

/-- A sequence of assignments to a dictionary. -/
def assign (d : Dict Str Str) (as : List (Str × Str)) : Dict Str Str := as.foldl (fun d p => d.set p.1 p.2) d

/-- `revmapping` before the loops (treebanktransforms.py:1384-1385). -/
def revmapping (tb : List (Str × List Str)) : Dict Str Str := assign [] (tb.flatMap fun p => p.2.map fun f => (f, p.1))

/-- The loop over the trees (treebanktransforms.py:1394-1395). -/
def collapseAll (isalpha : Char → Bool) (rev : Dict Str Str) : List (PTree Str) → Option (List (PTree Str) × List (Str × Str))
  | [] => some ([], [])
  | t :: ts => (collapse isalpha rev t).bind fun r => (collapseAll isalpha rev ts).map fun q => (r.1 :: q.1, r.2 ++ q.2)

/-- `trees[0].label`. -/
def rootLabel : List (PTree Str) → Option Str
  | .node l _ :: _ => some l
  | _ => none

/-- `collapselabels(trees, tbmapping)` (treebanktransforms.py:1356-1396). -/
def collapselabels (isalpha : Char → Bool) (tb : List (Str × List Str)) (trees : List (PTree Str)) : Option (List (PTree Str) × Dict Str Str) :=
  (rootLabel trees).bind fun r => (posLabelsL trees).bind fun pos =>
    (collapseAll isalpha (assign (revmapping tb) (pos.map fun l => (l, l))) trees).map fun q =>
      (q.1, assign (assign (assign [] [("Epsilon".toList, "Epsilon".toList), (r, r)]) (pos.map fun l => (l, l))) q.2)

/-- `{mapping2[a]: mapping1[a] for a in mapping2}` (runexp.py:358); none is a KeyError. -/
def compose (m1 m2 : Dict Str Str) : Option (Dict Str Str) :=
  (m2.mapM fun p => (m1.get? p.1).map fun c => (p.2, c)).map (assign [])

/-! ### Specification -/

/-- `l'` is `l` with each maximal sequence of characters other than separators replaced by `f`. -/
inductive Spec.Sub (f : Str → Str) : Str → Str → Prop
  | nil : Sub f [] []
  | sep (c : Char) (s s' : Str) : isSep c = true → Spec.Sub f s s' → Sub f (c :: s) (c :: s')
  | last (w : Str) : w ≠ [] → (∀ c ∈ w, isSep c = false) → Sub f w (f w)
  | word (w : Str) (c : Char) (s s' : Str) : w ≠ [] → (∀ c ∈ w, isSep c = false) → isSep c = true → Spec.Sub f s s' → Sub f (w ++ c :: s) (f w ++ c :: s')

mutual
/-- The labels of the phrasal nodes. -/
def Spec.phrases : PTree Str → List Str
  | .leaf _ => []
  | .node l cs => (if phrasal cs then [l] else []) ++ Spec.phrasesL cs
/-- The same for a list. -/
def Spec.phrasesL : List (PTree Str) → List Str
  | [] => []
  | c :: cs => Spec.phrases c ++ Spec.phrasesL cs
end

/-- The first child is a word. -/
def Spec.aboveWord : List (PTree Str) → Bool
  | .leaf _ :: _ => true
  | _ => false

mutual
/-- The labels of nodes above words. -/
def Spec.tags : PTree Str → List Str
  | .leaf _ => []
  | .node l cs => (if Spec.aboveWord cs then [l] else []) ++ Spec.tagsL cs
/-- The same for a list. -/
def Spec.tagsL : List (PTree Str) → List Str
  | [] => []
  | c :: cs => Spec.tags c ++ Spec.tagsL cs
end

mutual
/-- Apply `g` to the labels of phrasal nodes. -/
def Spec.relabel (g : Str → Str) : PTree Str → PTree Str
  | .leaf i => .leaf i
  | .node l cs => .node (if phrasal cs then g l else l) (Spec.relabelL g cs)
/-- The same for a list. -/
def Spec.relabelL (g : Str → Str) : List (PTree Str) → List (PTree Str)
  | [] => []
  | c :: cs => Spec.relabel g c :: Spec.relabelL g cs
end

/-- Apply `g` to the labels of phrasal nodes except the root. -/
def Spec.relabelTree (g : Str → Str) : PTree Str → PTree Str
  | .leaf i => .leaf i
  | .node l cs => .node l (Spec.relabelL g cs)

/-- The phrasal labels below the root. -/
def Spec.inner (t : PTree Str) : List Str := Spec.phrasesL t.children

mutual
/-- No node is without children. -/
def Spec.full : PTree Str → Bool
  | .leaf _ => true
  | .node _ cs => !cs.isEmpty && Spec.fullL cs
/-- The same for a list. -/
def Spec.fullL : List (PTree Str) → Bool
  | [] => true
  | c :: cs => Spec.full c && Spec.fullL cs
end

/-! ### Lemmas -/

theorem subRuns_word (f : Str → Str) (w : Str) (hw : ∀ c ∈ w, isSep c = false) : ∀ (v s : Str), subRuns f v (w ++ s) = subRuns f (w.reverse ++ v) s := by
  induction w with
  | nil => intro v s; rfl
  | cons a w ih =>
    intro v s
    rw [List.cons_append, subRuns, if_neg (by simp [hw a (by simp)]), ih (fun c hc => hw c (by simp [hc]))]
    simp

/-- `LABELRE.sub` replaces maximal runs. -/
theorem sub_subRuns {f : Str → Str} {l l' : Str} (h : Spec.Sub f l l') : subRuns f [] l = l' := by
  induction h with
  | nil => rfl
  | sep c s s' hc _ ih => rw [subRuns, if_pos hc, ih]; rfl
  | last w hne hw =>
    have := subRuns_word f w hw [] []
    rw [List.append_nil, List.append_nil] at this
    rw [this, subRuns, List.reverse_reverse, subWord, if_neg hne]
  | word w c s s' hne hw hc _ ih =>
    rw [subRuns_word f w hw, List.append_nil, subRuns, if_pos hc, ih, List.reverse_reverse, subWord, if_neg hne]

theorem sub_total (f : Str → Str) : ∀ (n : Nat) (l : Str), l.length ≤ n → ∃ l', Spec.Sub f l l'
  | _, [], _ => ⟨[], .nil⟩
  | 0, c :: s, h => by simp at h
  | n + 1, c :: s, h => by
    by_cases hc : isSep c = true
    · obtain ⟨s', hs⟩ := sub_total f n s (by simpa using h)
      exact ⟨_, .sep c s s' hc hs⟩
    · have e : c :: s = (c :: s).takeWhile (fun x => !isSep x) ++ (c :: s).dropWhile (fun x => !isSep x) := (List.takeWhile_append_dropWhile ..).symm
      have hall : ∀ x ∈ (c :: s).takeWhile (fun x => !isSep x), isSep x = false := by
        have key : ∀ (t : Str), ∀ x ∈ t.takeWhile (fun x => !isSep x), isSep x = false := by
          intro t
          induction t with
          | nil => simp
          | cons a t ih =>
            intro x hx
            rw [List.takeWhile_cons] at hx
            split at hx
            · rcases List.mem_cons.1 hx with rfl | hx
              · rename_i h; simpa using h
              · exact ih x hx
            · simp at hx
        exact key _
      have hne : (c :: s).takeWhile (fun x => !isSep x) ≠ [] := by simp [hc]
      cases hd : (c :: s).dropWhile (fun x => !isSep x) with
      | nil =>
        rw [hd, List.append_nil] at e
        rw [e]
        exact ⟨_, .last _ hne hall⟩
      | cons d t =>
        have hdsep : isSep d = true := by
          have := List.head_dropWhile_not (fun x => !isSep x) (l := c :: s) (by rw [hd]; simp)
          simpa [hd] using this
        have hlen : t.length ≤ n := by
          have h1 := congrArg List.length e
          rw [hd] at h1
          simp only [List.length_cons, List.length_append] at h1 h
          have h2 : 0 < ((c :: s).takeWhile (fun x => !isSep x)).length := List.length_pos_iff.2 hne
          omega
        obtain ⟨t', ht⟩ := sub_total f n t hlen
        rw [hd] at e
        rw [e]
        exact ⟨_, .word _ d t t' hne hall hdsep ht⟩

theorem get?_assign (f : Str → Str) : ∀ (ls : List Str) (d : Dict Str Str) (k : Str),
    (assign d (ls.map fun l => (l, f l))).get? k = if k ∈ ls then some (f k) else d.get? k
  | [], d, k => by simp [assign]
  | l :: ls, d, k => by
    have ih := get?_assign f ls (d.set l (f l)) k
    rw [assign] at ih
    rw [List.map_cons, assign, List.foldl_cons, ih, Dict.get?_set]
    by_cases h1 : k ∈ ls
    · simp [h1]
    · by_cases h2 : l = k
      · subst h2; simp
      · simp [h1, h2, Ne.symm h2]

mutual
theorem collapseIn_iff (isalpha : Char → Bool) (rev : Dict Str Str) : ∀ (t : PTree Str) (r : PTree Str × List (Str × Str)), collapseIn isalpha rev t = some r ↔
    (∀ l ∈ Spec.phrases t, okLabel isalpha (coarse rev l) = true) ∧ r = (Spec.relabel (coarse rev) t, (Spec.phrases t).map fun l => (l, coarse rev l))
  | .leaf i, r => by
    rw [collapseIn, Spec.phrases, Spec.relabel, Option.some.injEq]
    exact ⟨fun h => ⟨by simp, h.symm⟩, fun h => h.2.symm⟩
  | .node l cs, r => by
    have ih := collapseInL_iff isalpha rev cs
    rw [collapseIn, Option.bind_eq_some_iff, Spec.phrases, Spec.relabel]
    by_cases hp : phrasal cs = true
    · simp only [hp, if_true, List.singleton_append, List.mem_cons, forall_eq_or_imp, List.map_cons]
      constructor
      · rintro ⟨q, hq, h⟩
        obtain ⟨h1, rfl⟩ := (ih q).1 hq
        split at h
        · rename_i hok
          exact ⟨⟨hok, h1⟩, by simpa using h.symm⟩
        · simp at h
      · rintro ⟨⟨hok, h1⟩, rfl⟩
        exact ⟨_, (ih _).2 ⟨h1, rfl⟩, by simp [hok]⟩
    · simp only [hp]
      constructor
      · rintro ⟨q, hq, h⟩
        obtain ⟨h1, rfl⟩ := (ih q).1 hq
        exact ⟨by simpa using h1, by simpa using h.symm⟩
      · rintro ⟨h1, rfl⟩
        exact ⟨_, (ih _).2 ⟨by simpa using h1, rfl⟩, by simp⟩
theorem collapseInL_iff (isalpha : Char → Bool) (rev : Dict Str Str) : ∀ (cs : List (PTree Str)) (r : List (PTree Str) × List (Str × Str)),
    collapseInL isalpha rev cs = some r ↔
    (∀ l ∈ Spec.phrasesL cs, okLabel isalpha (coarse rev l) = true) ∧ r = (Spec.relabelL (coarse rev) cs, (Spec.phrasesL cs).map fun l => (l, coarse rev l))
  | [], r => by
    rw [collapseInL, Spec.phrasesL, Spec.relabelL, Option.some.injEq]
    exact ⟨fun h => ⟨by simp, h.symm⟩, fun h => h.2.symm⟩
  | c :: cs, r => by
    have i1 := collapseIn_iff isalpha rev c
    have i2 := collapseInL_iff isalpha rev cs
    rw [collapseInL, Option.bind_eq_some_iff, Spec.phrasesL, Spec.relabelL]
    constructor
    · rintro ⟨q, hq, h⟩
      obtain ⟨h1, rfl⟩ := (i1 q).1 hq
      obtain ⟨p, hp, rfl⟩ := Option.map_eq_some_iff.1 h
      obtain ⟨h2, rfl⟩ := (i2 p).1 hp
      refine ⟨fun l hl => ?_, by simp⟩
      rcases List.mem_append.1 hl with hl | hl
      · exact h1 l hl
      · exact h2 l hl
    · rintro ⟨h, rfl⟩
      refine ⟨_, (i1 _).2 ⟨fun l hl => h l (by simp [hl]), rfl⟩, Option.map_eq_some_iff.2 ⟨_, (i2 _).2 ⟨fun l hl => h l (by simp [hl]), rfl⟩, by simp⟩⟩
end

theorem collapse_iff (isalpha : Char → Bool) (rev : Dict Str Str) (t : PTree Str) (r : PTree Str × List (Str × Str)) : collapse isalpha rev t = some r ↔
    (∀ l ∈ Spec.inner t, okLabel isalpha (coarse rev l) = true) ∧ r = (Spec.relabelTree (coarse rev) t, (Spec.inner t).map fun l => (l, coarse rev l)) := by
  cases t with
  | leaf i => 
    rw [collapse, Spec.relabelTree, Option.some.injEq]
    exact ⟨fun h => ⟨by simp [Spec.inner, PTree.children, Spec.phrasesL], h.symm⟩, fun h => h.2.symm⟩
  | node l cs =>
    rw [collapse, Option.map_eq_some_iff]
    constructor
    · rintro ⟨q, hq, rfl⟩
      obtain ⟨h1, rfl⟩ := (collapseInL_iff isalpha rev cs q).1 hq
      exact ⟨h1, rfl⟩
    · rintro ⟨h1, rfl⟩
      exact ⟨_, (collapseInL_iff isalpha rev cs _).2 ⟨h1, rfl⟩, rfl⟩

theorem collapseAll_iff (isalpha : Char → Bool) (rev : Dict Str Str) : ∀ (ts : List (PTree Str)) (r : List (PTree Str) × List (Str × Str)),
    collapseAll isalpha rev ts = some r ↔ (∀ t ∈ ts, ∀ l ∈ Spec.inner t, okLabel isalpha (coarse rev l) = true) ∧
      r = (ts.map (Spec.relabelTree (coarse rev)), (ts.flatMap Spec.inner).map fun l => (l, coarse rev l))
  | [], r => by
    rw [collapseAll, Option.some.injEq]
    exact ⟨fun h => ⟨by simp, h.symm⟩, fun h => h.2.symm⟩
  | t :: ts, r => by
    have i2 := collapseAll_iff isalpha rev ts
    rw [collapseAll, Option.bind_eq_some_iff]
    constructor
    · rintro ⟨q, hq, h⟩
      obtain ⟨h1, rfl⟩ := (collapse_iff isalpha rev t q).1 hq
      obtain ⟨p, hp, rfl⟩ := Option.map_eq_some_iff.1 h
      obtain ⟨h2, rfl⟩ := (i2 p).1 hp
      refine ⟨fun x hx => ?_, by simp⟩
      rcases List.mem_cons.1 hx with rfl | hx
      · exact h1
      · exact h2 x hx
    · rintro ⟨h, rfl⟩
      refine ⟨_, (collapse_iff isalpha rev t _).2 ⟨h t (by simp), rfl⟩,
        Option.map_eq_some_iff.2 ⟨_, (i2 _).2 ⟨fun x hx => h x (by simp [hx]), rfl⟩, by simp⟩⟩

mutual
theorem posLabels_iff : ∀ (t : PTree Str) (r : List Str), posLabels t = some r ↔ Spec.full t = true ∧ r = Spec.tags t
  | .leaf i, r => by
    rw [posLabels, Spec.full, Spec.tags, Option.some.injEq]
    exact ⟨fun h => ⟨rfl, h.symm⟩, fun h => h.2.symm⟩
  | .node l [], r => by simp [posLabels, Spec.full]
  | .node l (c :: cs), r => by
    have ih := posLabelsL_iff (c :: cs)
    rw [posLabels, Option.map_eq_some_iff, Spec.full, Spec.tags]
    simp only [List.isEmpty_cons, Bool.not_false, Bool.true_and]
    constructor
    · rintro ⟨q, hq, rfl⟩
      obtain ⟨h1, rfl⟩ := (ih q).1 hq
      refine ⟨h1, ?_⟩
      cases c <;> simp [isNode, Spec.aboveWord]
    · rintro ⟨h1, rfl⟩
      refine ⟨_, (ih _).2 ⟨h1, rfl⟩, ?_⟩
      cases c <;> simp [isNode, Spec.aboveWord]
theorem posLabelsL_iff : ∀ (cs : List (PTree Str)) (r : List Str), posLabelsL cs = some r ↔ Spec.fullL cs = true ∧ r = Spec.tagsL cs
  | [], r => by
    rw [posLabelsL, Spec.fullL, Spec.tagsL, Option.some.injEq]
    exact ⟨fun h => ⟨rfl, h.symm⟩, fun h => h.2.symm⟩
  | c :: cs, r => by
    have i1 := posLabels_iff c
    have i2 := posLabelsL_iff cs
    rw [posLabelsL, Option.bind_eq_some_iff, Spec.fullL, Spec.tagsL, Bool.and_eq_true]
    constructor
    · rintro ⟨q, hq, h⟩
      obtain ⟨h1, rfl⟩ := (i1 q).1 hq
      obtain ⟨p, hp, rfl⟩ := Option.map_eq_some_iff.1 h
      obtain ⟨h2, rfl⟩ := (i2 p).1 hp
      exact ⟨⟨h1, h2⟩, rfl⟩
    · rintro ⟨⟨h1, h2⟩, rfl⟩
      exact ⟨_, (i1 _).2 ⟨h1, rfl⟩, Option.map_eq_some_iff.2 ⟨_, (i2 _).2 ⟨h2, rfl⟩, rfl⟩⟩
end

/-- The coarse category of a word in a label: tags stay, other words are looked up in the table (the last entry counts), unknown words are dropped. -/
def Spec.image (tb : List (Str × List Str)) (tags : List Str) (w : Str) : Str :=
  if w ∈ tags then w else ((tb.reverse.find? fun p => decide (w ∈ p.2)).map Prod.fst).getD []

/-- `l'` is the coarse label for `l`: each word is replaced, `-` is removed, and so is `^` at the end. -/
def Spec.Coarse (tb : List (Str × List Str)) (tags : List Str) (l l' : Str) : Prop :=
  ∃ s, Spec.Sub (Spec.image tb tags) l s ∧ ∃ n, s.filter (· ≠ '-') = l' ++ List.replicate n '^' ∧ l'.getLast? ≠ some '^'

theorem get?_assign_last : ∀ (as : List (Str × Str)) (d : Dict Str Str) (k : Str),
    (assign d as).get? k = ((as.reverse.find? fun p => decide (p.1 = k)).map Prod.snd).or (d.get? k)
  | [], d, k => by simp [assign]
  | (a, v) :: as, d, k => by
    have ih := get?_assign_last as (d.set a v) k
    rw [assign] at ih
    rw [assign, List.foldl_cons, ih, Dict.get?_set, List.reverse_cons, List.find?_append]
    cases as.reverse.find? fun p => decide (p.1 = k) with
    | some q => simp
    | none => by_cases h : a = k <;> simp [h]

theorem get?_assign_const (ks : List Str) (v : Str) : ∀ (d : Dict Str Str) (k : Str),
    (assign d (ks.map fun f => (f, v))).get? k = if k ∈ ks then some v else d.get? k := get?_assign (fun _ => v) ks

theorem assign_append (d : Dict Str Str) (a b : List (Str × Str)) : assign d (a ++ b) = assign (assign d a) b := by rw [assign, List.foldl_append]; rfl

theorem get?_table : ∀ (tb : List (Str × List Str)) (d : Dict Str Str) (w : Str),
    (assign d (tb.flatMap fun p => p.2.map fun f => (f, p.1))).get? w = ((tb.reverse.find? fun p => decide (w ∈ p.2)).map Prod.fst).or (d.get? w)
  | [], d, w => by simp [assign]
  | p :: tb, d, w => by
    rw [List.flatMap_cons, assign_append, get?_table tb, get?_assign_const, List.reverse_cons, List.find?_append]
    cases tb.reverse.find? fun p => decide (w ∈ p.2) with
    | some q => simp
    | none =>
      by_cases h : w ∈ p.2 <;> simp [h]

theorem image_get (tb : List (Str × List Str)) (tags : List Str) (w : Str) :
    ((assign (revmapping tb) (tags.map fun l => (l, l))).get? w).getD [] = Spec.image tb tags w := by
  rw [get?_assign (fun l => l), Spec.image]
  by_cases h : w ∈ tags
  · simp [h]
  · simp only [h, if_false]
    rw [revmapping, get?_table]
    simp [Dict.get?]

theorem trim_spec (s : Str) : ∃ n, s = (s.reverse.dropWhile (· = '^')).reverse ++ List.replicate n '^' ∧
    ((s.reverse.dropWhile (· = '^')).reverse).getLast? ≠ some '^' := by
  have key : ∀ t : Str, ∃ n, t = List.replicate n '^' ++ t.dropWhile (· = '^') ∧ (t.dropWhile (· = '^')).head? ≠ some '^' := by
    intro t
    induction t with
    | nil => exact ⟨0, rfl, by simp⟩
    | cons c t ih =>
      by_cases hc : c = '^'
      · subst hc
        obtain ⟨n, h1, h2⟩ := ih
        refine ⟨n + 1, ?_, by simpa using h2⟩
        rw [List.dropWhile_cons_of_pos (by simp), List.replicate_succ, List.cons_append, ← h1]
      · exact ⟨0, by simp [hc], by simp [hc]⟩
  obtain ⟨n, h1, h2⟩ := key s.reverse
  refine ⟨n, ?_, by simpa using h2⟩
  have := congrArg List.reverse h1
  simpa using this

theorem coarse_spec (tb : List (Str × List Str)) (tags : List Str) (l : Str) :
    Spec.Coarse tb tags l (coarse (assign (revmapping tb) (tags.map fun l => (l, l))) l) := by
  obtain ⟨s, hs⟩ := sub_total (Spec.image tb tags) _ l (Nat.le_refl _)
  refine ⟨s, hs, ?_⟩
  have e : (fun w => ((assign (revmapping tb) (tags.map fun l => (l, l))).get? w).getD []) = Spec.image tb tags := funext fun w => image_get tb tags w
  rw [coarse, e, sub_subRuns hs]
  exact trim_spec _

theorem append_caret {a b : Str} : ∀ {n m : Nat}, a ++ List.replicate n '^' = b ++ List.replicate m '^' → a.getLast? ≠ some '^' → b.getLast? ≠ some '^' → a = b
  | 0, 0, h, _, _ => by simpa using h
  | n + 1, m + 1, h, ha, hb => by
    rw [List.replicate_succ', List.replicate_succ', ← List.append_assoc, ← List.append_assoc] at h
    exact append_caret (List.append_cancel_right h) ha hb
  | n + 1, 0, h, ha, hb => by
    exfalso; apply hb
    simp only [List.replicate_zero, List.append_nil] at h
    rw [← h, List.replicate_succ', ← List.append_assoc]; simp
  | 0, m + 1, h, ha, hb => by
    exfalso; apply ha
    simp only [List.replicate_zero, List.append_nil] at h
    rw [h, List.replicate_succ', ← List.append_assoc]; simp

/-- The coarse label is determined by the label. -/
theorem coarse_unique {tb : List (Str × List Str)} {tags : List Str} {l a b : Str} (ha : Spec.Coarse tb tags l a) (hb : Spec.Coarse tb tags l b) : a = b := by
  obtain ⟨s, hs, n, e1, e2⟩ := ha
  obtain ⟨s', hs', m, e3, e4⟩ := hb
  obtain rfl : s = s' := (sub_subRuns hs).symm.trans (sub_subRuns hs')
  exact append_caret (e1.symm.trans e3) e2 e4

theorem collapselabels_iff (isalpha : Char → Bool) (tb : List (Str × List Str)) (trees : List (PTree Str)) (r : List (PTree Str) × Dict Str Str) :
    collapselabels isalpha tb trees = some r ↔ ∃ root, rootLabel trees = some root ∧ Spec.fullL trees = true ∧
      (∀ t ∈ trees, ∀ l ∈ Spec.inner t, okLabel isalpha (coarse (assign (revmapping tb) ((Spec.tagsL trees).map fun l => (l, l))) l) = true) ∧
      r.1 = trees.map (Spec.relabelTree (coarse (assign (revmapping tb) ((Spec.tagsL trees).map fun l => (l, l))))) ∧
      r.2 = assign (assign (assign [] [("Epsilon".toList, "Epsilon".toList), (root, root)]) ((Spec.tagsL trees).map fun l => (l, l)))
        ((trees.flatMap Spec.inner).map fun l => (l, coarse (assign (revmapping tb) ((Spec.tagsL trees).map fun l => (l, l))) l)) := by
  rw [collapselabels, Option.bind_eq_some_iff]
  constructor
  · rintro ⟨root, h0, h⟩
    obtain ⟨pos, hp, h⟩ := Option.bind_eq_some_iff.1 h
    obtain ⟨hf, rfl⟩ := (posLabelsL_iff trees pos).1 hp
    obtain ⟨q, hq, rfl⟩ := Option.map_eq_some_iff.1 h
    obtain ⟨h1, rfl⟩ := (collapseAll_iff isalpha _ trees q).1 hq
    exact ⟨root, h0, hf, h1, rfl, rfl⟩
  · rintro ⟨root, h0, hf, h1, h2, h3⟩
    refine ⟨root, h0, Option.bind_eq_some_iff.2 ⟨_, (posLabelsL_iff trees _).2 ⟨hf, rfl⟩, Option.map_eq_some_iff.2 ⟨_, (collapseAll_iff isalpha _ trees _).2 ⟨h1, rfl⟩, ?_⟩⟩⟩
    rw [← h2, ← h3]

/-! ### C84 -/

/-- **C84** The result: the trees with the labels of phrases below the root replaced by their coarse labels (words, tags, shape and the root label stay), and
a mapping which gives the coarse label for each such label, and the label itself for each tag that is not also the label of a phrase. -/
theorem C84_result (isalpha : Char → Bool) (tb : List (Str × List Str)) (trees ts : List (PTree Str)) (m : Dict Str Str)
    (h : collapselabels isalpha tb trees = some (ts, m)) : ∃ g : Str → Str, (∀ l, Spec.Coarse tb (Spec.tagsL trees) l (g l)) ∧
      ts = trees.map (Spec.relabelTree g) ∧ (∀ t ∈ trees, ∀ l ∈ Spec.inner t, m.get? l = some (g l)) ∧
      (∀ l ∈ Spec.tagsL trees, (∀ t ∈ trees, l ∉ Spec.inner t) → m.get? l = some l) ∧
      (∀ l, rootLabel trees = some l → (∀ t ∈ trees, l ∉ Spec.inner t) → m.get? l = some l) := by
  obtain ⟨root, h0, hf, h1, h2, h3⟩ := (collapselabels_iff isalpha tb trees _).1 h
  simp only at h2 h3
  refine ⟨coarse (assign (revmapping tb) ((Spec.tagsL trees).map fun l => (l, l))), fun l => coarse_spec tb _ l, h2, ?_, ?_, ?_⟩
  · intro t ht l hl
    rw [h3, get?_assign]
    rw [if_pos (List.mem_flatMap.2 ⟨t, ht, hl⟩)]
  · intro l hl hn
    rw [h3, get?_assign, if_neg, get?_assign (fun l => l), if_pos hl]
    intro hm
    obtain ⟨t, ht, hl⟩ := List.mem_flatMap.1 hm
    exact hn t ht hl
  · intro l hl hn
    rw [h3, get?_assign, if_neg, get?_assign (fun l => l)]
    · split
      · rfl
      · obtain rfl : root = l := by rw [h0] at hl; simpa using hl
        rw [get?_assign_last]
        simp
    · intro hm
      obtain ⟨t, ht, hl⟩ := List.mem_flatMap.1 hm
      exact hn t ht hl

/-- **C84** When it succeeds: there is a tree, no node is without children, and all coarse labels of phrases start with a letter. -/
theorem C84_accepted (isalpha : Char → Bool) (tb : List (Str × List Str)) (trees : List (PTree Str)) :
    (∃ r, collapselabels isalpha tb trees = some r) ↔ (∃ l cs ts, trees = .node l cs :: ts) ∧ Spec.fullL trees = true ∧
      ∀ t ∈ trees, ∀ l ∈ Spec.inner t, ∃ c s, Spec.Coarse tb (Spec.tagsL trees) l (c :: s) ∧ isalpha c = true := by
  have hok : ∀ l, okLabel isalpha (coarse (assign (revmapping tb) ((Spec.tagsL trees).map fun l => (l, l))) l) = true ↔
      ∃ c s, Spec.Coarse tb (Spec.tagsL trees) l (c :: s) ∧ isalpha c = true := by
    intro l
    have hc := coarse_spec tb (Spec.tagsL trees) l
    constructor
    · intro h
      cases e : coarse (assign (revmapping tb) ((Spec.tagsL trees).map fun l => (l, l))) l with
      | nil => rw [e] at h; simp [okLabel] at h
      | cons c s =>
        rw [e] at h hc
        exact ⟨c, s, hc, h⟩
    · rintro ⟨c, s, h1, h2⟩
      rw [coarse_unique hc h1]
      exact h2
  have hr : (∃ root, rootLabel trees = some root) ↔ ∃ l cs ts, trees = .node l cs :: ts := by
    constructor
    · rintro ⟨root, h⟩
      match trees, h with
      | .node l cs :: ts, _ => exact ⟨l, cs, ts, rfl⟩
    · rintro ⟨l, cs, ts, rfl⟩
      exact ⟨l, rfl⟩
  rw [← hr]
  constructor
  · rintro ⟨r, h⟩
    obtain ⟨root, h0, hf, h1, -, -⟩ := (collapselabels_iff isalpha tb trees r).1 h
    exact ⟨⟨root, h0⟩, hf, fun t ht l hl => (hok l).1 (h1 t ht l hl)⟩
  · rintro ⟨⟨root, h0⟩, hf, h1⟩
    exact ⟨(_, _), (collapselabels_iff isalpha tb trees _).2 ⟨root, h0, hf, fun t ht l hl => (hok l).2 (h1 t ht l hl), rfl, rfl⟩⟩

mutual
theorem relabel_map (g m : Str → Str) : ∀ (t : PTree Str), Spec.full t = true → (∀ l ∈ Spec.phrases t, m l = g l) → (∀ l ∈ Spec.tags t, m l = l) →
    Spec.relabel g t = t.mapLabel m
  | .leaf i, _, _, _ => by rw [Spec.relabel, mapLabel]
  | .node l cs, hf, h1, h2 => by
    rw [Spec.full, Bool.and_eq_true] at hf
    rw [Spec.phrases] at h1
    rw [Spec.tags] at h2
    rw [Spec.relabel, mapLabel, relabelL_map g m cs hf.2 (fun l hl => h1 l (by simp [hl])) (fun l hl => h2 l (by simp [hl]))]
    congr 1
    by_cases hp : phrasal cs = true
    · rw [if_pos hp, h1 l (by simp [hp])]
    · rw [if_neg hp]
      refine (h2 l ?_).symm
      cases cs with
      | nil => simp at hf
      | cons c cs =>
        cases c with
        | leaf i => simp [Spec.aboveWord]
        | node _ _ => simp [phrasal, isNode] at hp
theorem relabelL_map (g m : Str → Str) : ∀ (cs : List (PTree Str)), Spec.fullL cs = true → (∀ l ∈ Spec.phrasesL cs, m l = g l) →
    (∀ l ∈ Spec.tagsL cs, m l = l) → Spec.relabelL g cs = mapLabelL m cs
  | [], _, _, _ => by rw [Spec.relabelL, mapLabelL]
  | c :: cs, hf, h1, h2 => by
    rw [Spec.fullL, Bool.and_eq_true] at hf
    rw [Spec.phrasesL] at h1
    rw [Spec.tagsL] at h2
    rw [Spec.relabelL, mapLabelL, relabel_map g m c hf.1 (fun l hl => h1 l (by simp [hl])) (fun l hl => h2 l (by simp [hl])),
      relabelL_map g m cs hf.2 (fun l hl => h1 l (by simp [hl])) (fun l hl => h2 l (by simp [hl]))]
end

theorem tagsL_mem {ts : List (PTree Str)} {t : PTree Str} (h : t ∈ ts) : ∀ l ∈ Spec.tags t, l ∈ Spec.tagsL ts := by
  induction ts with
  | nil => simp at h
  | cons a ts ih =>
    intro l hl
    rw [Spec.tagsL, List.mem_append]
    rcases List.mem_cons.1 h with rfl | h
    · exact Or.inl hl
    · exact Or.inr (ih h l hl)

theorem fullL_mem {ts : List (PTree Str)} (hf : Spec.fullL ts = true) {t : PTree Str} (h : t ∈ ts) : Spec.full t = true := by
  induction ts with
  | nil => simp at h
  | cons a ts ih =>
    rw [Spec.fullL, Bool.and_eq_true] at hf
    rcases List.mem_cons.1 h with rfl | h
    · exact hf.1
    · exact ih hf.2 h

/-- **C84** The mapping is what pruning needs: if all trees have the same root label, and no phrase below a root has this label or that of a tag,
then the coarse trees are the fine trees with the returned mapping applied to every label. Hence every rule of the coarse grammar is the image of a rule of the fine
grammar, and every derivation of a fine tree maps to one of the coarse tree. -/
theorem C84_homomorphism (isalpha : Char → Bool) (tb : List (Str × List Str)) (trees ts : List (PTree Str)) (m : Dict Str Str) (root : Str)
    (h : collapselabels isalpha tb trees = some (ts, m)) (hroot : ∀ t ∈ trees, ∃ cs, t = .node root cs)
    (hdis : ∀ t ∈ trees, ∀ l ∈ Spec.inner t, l ≠ root ∧ l ∉ Spec.tagsL trees) : ts = trees.map fun t => t.mapLabel fun l => (m.get? l).getD [] := by
  obtain ⟨g, -, rfl, h2, h3, h4⟩ := C84_result isalpha tb trees ts m h
  have hf := ((C84_accepted isalpha tb trees).1 ⟨_, h⟩).2.1
  apply List.map_congr_left
  intro t ht
  obtain ⟨cs, rfl⟩ := hroot t ht
  have hr : rootLabel trees = some root := by
    cases trees with
    | nil => simp at ht
    | cons a ts =>
      obtain ⟨cs', rfl⟩ := hroot a (by simp)
      rfl
  have hft := fullL_mem hf ht
  rw [Spec.full, Bool.and_eq_true] at hft
  rw [Spec.relabelTree, mapLabel]
  congr 1
  · rw [h4 root hr (fun t' ht' hl => (hdis t' ht' root hl).1 rfl)]
    rfl
  · apply relabelL_map
    · exact hft.2
    · intro l hl
      rw [h2 _ ht l (by simpa [Spec.inner, children] using hl)]
      rfl
    · intro l hl
      have hm : l ∈ Spec.tagsL trees := tagsL_mem ht l (by rw [Spec.tags]; simp [hl])
      rw [h3 l hm (fun t' ht' hl' => (hdis t' ht' l hl').2 hm)]
      rfl

theorem mapM_some {α β : Type} (f : α → Option β) : ∀ (l : List α) (r : List β), l.mapM f = some r ↔ l.map f = r.map some
  | [], r => by cases r <;> simp
  | a :: l, r => by
    rw [List.mapM_cons]
    cases r with
    | nil => cases f a <;> cases l.mapM f <;> simp
    | cons b r =>
      simp only [List.map_cons, List.cons.injEq, ← mapM_some f l r]
      cases f a with
      | none => simp
      | some x =>
        cases l.mapM f with
        | none => simp
        | some y => simp [Option.pure_def]

/-- **C84** For two stages with mappings of the same labels: the mapping from the labels of the second stage to those of the first one (runexp.py:358)
exists, and it is right for every label if and only if the second mapping is finer than the first. -/
theorem C84_compose (m1 m2 : Dict Str Str) (hk : ∀ a ∈ m2.keys, a ∈ m1.keys) (hw : m2.WF) :
    ∃ m, compose m1 m2 = some m ∧
      ((∀ a b c, m2.get? a = some b → m1.get? a = some c → m.get? b = some c) ↔
        ∀ a a' b c c', m2.get? a = some b → m2.get? a' = some b → m1.get? a = some c → m1.get? a' = some c' → c = c') := by
  have hex : ∀ p ∈ m2, ∃ c, m1.get? p.1 = some c := fun p hp =>
    Option.isSome_iff_exists.1 (Dict.mem_keys.1 (hk p.1 (List.mem_map.2 ⟨p, hp, rfl⟩)))
  have hm : (m2.mapM fun p => (m1.get? p.1).map fun c => (p.2, c)) = some (m2.map fun p => (p.2, (m1.get? p.1).getD [])) := by
    rw [mapM_some, List.map_map]
    apply List.map_congr_left
    intro p hp
    obtain ⟨c, hc⟩ := hex p hp
    simp [hc]
  refine ⟨_, by rw [compose, hm]; rfl, ?_⟩
  have hget : ∀ b c, (assign [] (m2.map fun p => (p.2, (m1.get? p.1).getD []))).get? b = some c → ∃ a, m2.get? a = some b ∧ m1.get? a = some c := by
    intro b c h
    rw [get?_assign_last] at h
    simp only [Dict.get?, Option.or_none, Option.map_eq_some_iff] at h
    obtain ⟨q, hq, rfl⟩ := h
    have hmem := List.mem_of_find?_eq_some hq
    have hb := List.find?_some hq
    rw [List.mem_reverse, List.mem_map] at hmem
    obtain ⟨p, hp, rfl⟩ := hmem
    obtain ⟨c, hc⟩ := hex p hp
    refine ⟨p.1, ?_, by simp [hc]⟩
    rw [Dict.get?_of_mem hw (show (p.1, p.2) ∈ m2 from hp)]
    simpa using hb
  constructor
  · intro h a a' b c c' h1 h2 h3 h4
    have e1 := h a b c h1 h3
    rw [h a' b c' h2 h4] at e1
    simpa using e1.symm
  · intro h a b c h1 h2
    cases e : (assign [] (m2.map fun p => (p.2, (m1.get? p.1).getD []))).get? b with
    | some x =>
      obtain ⟨a', g1, g2⟩ := hget b x e
      rw [h a a' b c x h1 g1 h2 g2]
    | none =>
      exfalso
      rw [get?_assign_last] at e
      simp only [Dict.get?, Option.or_none, Option.map_eq_none_iff, List.find?_eq_none, List.mem_reverse, List.mem_map] at e
      have := e _ ⟨(a, b), Dict.mem_of_get? h1, rfl⟩
      simp at this

theorem WF_assign (as : List (Str × Str)) : ∀ (d : Dict Str Str), d.WF → (assign d as).WF := by
  induction as with
  | nil => exact fun d h => h
  | cons p as ih => exact fun d h => ih _ (h.set _ _)

/-- **C84** Two levels for the same treebank: the mapping between them exists (no KeyError), and it is right for every label iff labels with the same
fine level also agree in the coarse level. -/
theorem C84_levels (isalpha : Char → Bool) (tb1 tb2 : List (Str × List Str)) (trees ts1 ts2 : List (PTree Str)) (m1 m2 : Dict Str Str)
    (h1 : collapselabels isalpha tb1 trees = some (ts1, m1)) (h2 : collapselabels isalpha tb2 trees = some (ts2, m2)) :
    ∃ m, compose m1 m2 = some m ∧
      ((∀ a b c, m2.get? a = some b → m1.get? a = some c → m.get? b = some c) ↔
        ∀ a a' b c c', m2.get? a = some b → m2.get? a' = some b → m1.get? a = some c → m1.get? a' = some c' → c = c') := by
  obtain ⟨r1, e1, -, -, -, k1⟩ := (collapselabels_iff isalpha tb1 trees _).1 h1
  obtain ⟨r2, e2, -, -, -, k2⟩ := (collapselabels_iff isalpha tb2 trees _).1 h2
  obtain rfl : r1 = r2 := by rw [e1] at e2; simpa using e2
  simp only at k1 k2
  apply C84_compose
  · intro a ha
    rw [Dict.mem_keys] at ha ⊢
    rw [k2, get?_assign, get?_assign (fun l => l)] at ha
    rw [k1, get?_assign, get?_assign (fun l => l)]
    by_cases g1 : a ∈ trees.flatMap Spec.inner
    · simp [g1]
    · simp only [g1, if_false] at ha ⊢
      by_cases g2 : a ∈ Spec.tagsL trees
      · simp [g2]
      · simpa only [g2, if_false] using ha
  · rw [k2]
    exact WF_assign _ _ (WF_assign _ _ (WF_assign _ _ (by simp [Dict.WF, Dict.keys])))

/-- `isalpha` for the examples: ASCII. -/
def alphaEx (c : Char) : Bool := ('a' ≤ c && c ≤ 'z') || ('A' ≤ c && c ≤ 'Z')

/-- `MAPPINGS['negra'][1]` (treebanktransforms.py:90-93). -/
def negra1 : List (Str × List Str) := [("HP".toList, ["NP", "S", "VP", "VZ", "CO", "AA", "CNP", "CS", "CVP", "CVZ", "PN", "MPN", "NM", "CH", "CCP", "DL", "ISU",
  "QL"].map String.toList), ("MP".toList, ["--", "AP", "PP", "AVP", "CAP", "CPP", "CAVP", "CAC", "MTA"].map String.toList)]

/-- `MAPPINGS['negra'][2]` (treebanktransforms.py:96-99): the entry `P_` has been put outside of it (line 100). -/
def negra2 : List (Str × List Str) := [("S_".toList, ["S", "VP", "VZ", "CO", "AA", "CS", "CVP", "CVZ", "CCP", "DL", "ISU", "QL"].map String.toList),
  ("N_".toList, ["NP", "CNP", "PN", "MPN", "NM", "CH"].map String.toList), ("A_".toList, ["--", "AP", "AVP", "CAP", "CAVP", "MTA"].map String.toList)]

/-- A tree with a binarized node and a function tag. -/
def treeEx : PTree Str := .node "ROOT".toList [.node "S-HD".toList [.node "NP".toList [.node "NN".toList [.leaf 0], .node "AP^NP".toList [.node "ADJA".toList [.leaf 1]]],
  .node "S|<VVFIN,NP>".toList [.node "VVFIN".toList [.leaf 2], .node "NP".toList [.node "NN".toList [.leaf 3], .node "NN".toList [.leaf 4]]]]]

/-- The hypotheses of `C84_homomorphism` are met by this tree; its coarse version. -/
example : (collapselabels alphaEx negra1 [treeEx]).map Prod.fst = some [.node "ROOT".toList [.node "HP".toList [.node "HP".toList [.node "NN".toList [.leaf 0],
      .node "MP^HP".toList [.node "ADJA".toList [.leaf 1]]],
    .node "HP|<VVFIN,HP>".toList [.node "VVFIN".toList [.leaf 2], .node "HP".toList [.node "NN".toList [.leaf 3], .node "NN".toList [.leaf 4]]]]]] ∧
    (∀ l ∈ Spec.inner treeEx, l ≠ "ROOT".toList ∧ l ∉ Spec.tagsL [treeEx]) := by decide +kernel

/-- The two levels for this tree are related as `C84_compose` requires. -/
example : (match collapselabels alphaEx negra1 [treeEx], collapselabels alphaEx negra2 [treeEx] with
    | some (_, m1), some (_, m2) => (match compose m1 m2 with
      | some m => decide (m.get? "N_".toList = some "HP".toList ∧ m.get? "A_^N_".toList = some "MP^HP".toList ∧ m.get? "NN".toList = some "NN".toList)
      | none => false)
    | _, _ => false) = true := by decide +kernel

theorem coarse_word {tb : List (Str × List Str)} {tags : List Str} {w : Str} (hw : w ≠ []) (hs : ∀ c ∈ w, isSep c = false) (ht : w ∉ tags)
    (hn : ∀ p ∈ tb, w ∉ p.2) : Spec.Coarse tb tags w [] := by
  refine ⟨_, .last w hw hs, 0, ?_, by simp⟩
  have : tb.reverse.find? (fun p => decide (w ∈ p.2)) = none := by
    rw [List.find?_eq_none]
    intro p hp
    simpa using hn p (by simpa using hp)
  simp [Spec.image, ht, this]

/-- **C84, disagreement** With the preset for level 2 of Negra/Tiger, every treebank with a prepositional phrase is rejected (AssertionError), since `PP` is
missing from the table: the entry for `PP`, `CPP`, `CAC` is outside of the braces. -/
theorem C84_negra_disagreement (isalpha : Char → Bool) (trees : List (PTree Str)) (t : PTree Str) (ht : t ∈ trees)
    (hpp : "PP".toList ∈ Spec.inner t ∨ "CPP".toList ∈ Spec.inner t ∨ "CAC".toList ∈ Spec.inner t)
    (htag : ∀ w ∈ ["PP".toList, "CPP".toList, "CAC".toList], w ∉ Spec.tagsL trees) : collapselabels isalpha negra2 trees = none := by
  cases h : collapselabels isalpha negra2 trees with
  | none => rfl
  | some r =>
    exfalso
    have h1 := ((C84_accepted isalpha negra2 trees).1 ⟨r, h⟩).2.2 t ht
    have key : ∀ w ∈ ["PP".toList, "CPP".toList, "CAC".toList], w ∉ Spec.inner t := by
      intro w hw hi
      obtain ⟨c, s, hc, -⟩ := h1 w hi
      have h2 : ∀ w ∈ ["PP".toList, "CPP".toList, "CAC".toList], w ≠ [] ∧ (∀ c ∈ w, isSep c = false) ∧ ∀ p ∈ negra2, w ∉ p.2 := by decide +kernel
      replace h2 := h2 w hw
      have := coarse_unique hc (coarse_word h2.1 h2.2.1 (htag w hw) h2.2.2)
      simp at this
    rcases hpp with h | h | h
    · exact key _ (by simp) h
    · exact key _ (by simp) h
    · exact key _ (by simp) h

/-- A treebank for which this happens. -/
example : collapselabels alphaEx negra2 [.node "ROOT".toList [.node "PP".toList [.node "APPR".toList [.leaf 0], .node "NN".toList [.leaf 1]]]] = none ∧
    (collapselabels alphaEx negra1 [.node "ROOT".toList [.node "PP".toList [.node "APPR".toList [.leaf 0], .node "NN".toList [.leaf 1]]]]).isSome := by
  decide +kernel

/-- **C84, disagreement** The label `--` is listed in the presets for Negra/Tiger, but it consists of separators: it has no coarse label, and a treebank with
such a phrase is rejected for every table. -/
theorem C84_dash_disagreement (isalpha : Char → Bool) (tb : List (Str × List Str)) (trees : List (PTree Str)) (t : PTree Str) (ht : t ∈ trees)
    (hd : "--".toList ∈ Spec.inner t) : collapselabels isalpha tb trees = none := by
  cases h : collapselabels isalpha tb trees with
  | none => rfl
  | some r =>
    exfalso
    obtain ⟨c, s, hc, -⟩ := ((C84_accepted isalpha tb trees).1 ⟨r, h⟩).2.2 t ht _ hd
    have : Spec.Coarse tb (Spec.tagsL trees) "--".toList [] :=
      ⟨"--".toList, .sep '-' _ _ (by decide) (.sep '-' _ _ (by decide) .nil), 0, by decide, by simp⟩
    have := coarse_unique hc this
    simp at this

/-- **C84, disagreement** Markers for the fan-out are dropped, as they are not in the table: for every table, `VP_2` and `VP_3` get the same coarse label,
so that one label stands for constituents with two and with three blocks. -/
theorem C84_fanout_disagreement (tb : List (Str × List Str)) (tags : List Str) (w d d' l l' : Str) (hw : w ≠ []) (hs : ∀ c ∈ w, isSep c = false)
    (hd : ∀ x ∈ [d, d'], x ≠ [] ∧ (∀ c ∈ x, isSep c = false) ∧ x ∉ tags ∧ ∀ p ∈ tb, x ∉ p.2)
    (h1 : Spec.Coarse tb tags (w ++ '_' :: d) l) (h2 : Spec.Coarse tb tags (w ++ '_' :: d') l') : l = l' := by
  have key : ∀ x ∈ [d, d'], Spec.Sub (Spec.image tb tags) (w ++ '_' :: x) (Spec.image tb tags w ++ '_' :: []) := by
    intro x hx
    obtain ⟨a1, a2, a3, a4⟩ := hd x hx
    have := Spec.Sub.word (f := Spec.image tb tags) w '_' x _ hw hs (by decide) (.last x a1 a2)
    have e : Spec.image tb tags x = [] := by
      have : tb.reverse.find? (fun p => decide (x ∈ p.2)) = none := by
        rw [List.find?_eq_none]
        intro p hp
        simpa using a4 p (by simpa using hp)
      simp [Spec.image, a3, this]
    rwa [e] at this
  obtain ⟨s, hs1, n, e1, e2⟩ := h1
  obtain ⟨s', hs2, n', e3, e4⟩ := h2
  rw [← sub_subRuns hs1, sub_subRuns (key d (by simp))] at e1
  rw [← sub_subRuns hs2, sub_subRuns (key d' (by simp))] at e3
  exact append_caret (e1.symm.trans e3) e2 e4

/-- In a treebank: two constituents with the same coarse label and a different number of blocks. -/
example : (collapselabels alphaEx negra1 [.node "ROOT".toList [.node "VP_2".toList [.node "V".toList [.leaf 0], .node "N".toList [.leaf 2]],
      .node "P".toList [.leaf 1]],
    .node "ROOT".toList [.node "VP_3".toList [.node "V".toList [.leaf 0], .node "N".toList [.leaf 2], .node "N".toList [.leaf 4]],
      .node "P".toList [.leaf 1], .node "P".toList [.leaf 3]]]).map (fun r => (r.2.get? "VP_2".toList, r.2.get? "VP_3".toList)) =
    some (some "HP_".toList, some "HP_".toList) := by decide +kernel

/-- **C84, disagreement** If a phrase label is also used as a tag anywhere in the treebank, phrases with this label are not collapsed. -/
theorem C84_tag_disagreement (isalpha : Char → Bool) (tb : List (Str × List Str)) (trees ts : List (PTree Str)) (m : Dict Str Str)
    (h : collapselabels isalpha tb trees = some (ts, m)) (w : Str) (hs : ∀ c ∈ w, isSep c = false) (htag : w ∈ Spec.tagsL trees) (t : PTree Str)
    (ht : t ∈ trees) (hw : w ∈ Spec.inner t) : m.get? w = some w := by
  obtain ⟨g, h1, -, h2, -, -⟩ := C84_result isalpha tb trees ts m h
  rw [h2 t ht w hw]
  have hne : w ≠ [] := by
    rintro rfl
    obtain ⟨c, s, hc, -⟩ := ((C84_accepted isalpha tb trees).1 ⟨_, h⟩).2.2 t ht _ hw
    have := coarse_unique (b := []) hc ⟨[], .nil, 0, rfl, by simp⟩
    simp at this
  have : Spec.Coarse tb (Spec.tagsL trees) w w := by
    refine ⟨_, .last w hne hs, 0, ?_, ?_⟩
    · simp only [Spec.image, htag, if_true, List.replicate_zero, List.append_nil]
      rw [List.filter_eq_self]
      intro c hc
      have := hs c hc
      simp only [isSep, decide_eq_false_iff_not] at this
      simp only [ne_eq, decide_not, Bool.not_eq_eq_eq_not, Bool.not_true, decide_eq_false_iff_not]
      rintro rfl
      exact this (by simp)
    · intro hl
      have := hs '^' (List.mem_of_getLast? hl)
      simp [isSep] at this
  rw [coarse_unique (h1 w) this]

/-- A case of it: the outer `NP` stays fine because a word has the tag `NP`. -/
example : (collapselabels alphaEx negra1 [.node "ROOT".toList [.node "NP".toList [.node "NP".toList [.leaf 0], .node "NN".toList [.leaf 1]]]]).map Prod.fst =
    some [.node "ROOT".toList [.node "NP".toList [.node "NP".toList [.leaf 0], .node "NN".toList [.leaf 1]]]] := by decide +kernel
end Disco.Collapse
