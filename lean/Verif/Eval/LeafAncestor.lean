import Verif.Eval.Transform
import Verif.Eval.EditDist
import Mathlib.Algebra.Order.BigOperators.Group.List
import Mathlib.Algebra.Order.Field.Rat
import Mathlib.Tactic.Linarith
import Mathlib.Tactic.FieldSimp

/-!
# The leaf-ancestor metric (C77)

Models `leafancestorpaths` (eval.py:875-908), `leafancestor` (eval.py:917-924), `mean` (eval.py:996-1006) and the assertion in `TreePairResult.__init__`
(eval.py:399-400). `pathscore` and `editdistance` are from C28. `Decimal` numbers are rational numbers.
-/
namespace Disco.LeafAncestor

open PTree EvalTransform

/-- The marks. -/
def mOpen : Str := ['(']
def mClose : Str := [')']
def mOpen2 : Str := ['[']
def mClose2 : Str := [']']

/-- `node.label`. -/
def labelOf : PTree Str → Str
  | .leaf _ => []
  | .node l _ => l

/-- `list(getbits(n.bitset))`: terminals in ascending order. -/
def bits (t : PTree Str) : List Nat := (List.range ((leaves t).foldr max 0 + 1)).filter fun i => i ∈ leaves t

/-- Marks of the end of a constituent or component (eval.py:894-898). -/
def closeMark (ls : List Nat) (last b : Nat) (path : List Str) : List Str :=
  if b + 1 ∉ ls then
    if b = last ∧ mClose ∉ path then path ++ [mClose] else if b ≠ last ∧ mClose2 ∉ path then path ++ [mClose2] else path
  else path

/-- Marks of the beginning (eval.py:902-906); `b - 1` may be negative. -/
def openMark (ls : List Nat) (first b : Nat) (path : List Str) : List Str :=
  if b = 0 ∨ b - 1 ∉ ls then
    if b = first ∧ mOpen ∉ path then path ++ [mOpen] else if b ≠ first ∧ mOpen2 ∉ path then path ++ [mOpen2] else path
  else path

/-- One node for one terminal (eval.py:893-906). -/
def addLabel (l : Str) (ls : List Nat) (first last b : Nat) (path : List Str) : List Str :=
  openMark ls first b (closeMark ls last b path ++ [l])

/-- The body of the loop over a level for the paths (eval.py:885-906). A terminal beside constituents would be an exception in Python; the theorems exclude this. -/
def visit (del : Str → Bool) (paths : Nat → List Str) (n : PTree Str) : Nat → List Str :=
  if (bits n).isEmpty || !phrasal n then paths else
  if del (labelOf n) then paths else
  (bits n).foldl (fun q b => fun x => if x = b then addLabel (labelOf n) (bits n) ((bits n).min?.getD 0) ((bits n).max?.getD 0) b (q b) else q x) paths

/-- The next level (eval.py:907): the children of nodes that are not skipped. -/
def nextlevel (level : List (PTree Str)) : List (PTree Str) :=
  level.flatMap fun n => if (bits n).isEmpty || !phrasal n then [] else n.children

/-- The `while` loop (eval.py:883-908); the number of levels bounds the iterations. -/
def loop (del : Str → Bool) : Nat → List (PTree Str) → (Nat → List Str) → Nat → List Str
  | 0, _, paths => paths
  | k + 1, level, paths => if level.isEmpty then paths else loop del k (nextlevel level) (level.foldl (visit del) paths)

mutual
/-- The number of levels. -/
def depthT : PTree Str → Nat
  | .leaf _ => 1
  | .node _ cs => depthL cs + 1
/-- The same for a list. -/
def depthL : List (PTree Str) → Nat
  | [] => 0
  | c :: cs => max (depthT c) (depthL cs)
end

/-- `leafancestorpaths` (eval.py:875-908); the keys are `bits tree`. -/
def leafancestorpaths (del : Str → Bool) (tree : PTree Str) : Nat → List Str := loop del (depthT tree) [tree] fun _ => []

/-- `mean` (eval.py:996-1006); none is NaN. -/
def mean (xs : List Rat) : Option Rat := if xs.length = 0 then none else some (xs.sum / xs.length)

/-- `leafancestor` (eval.py:917-924); the outer none is a KeyError, the inner NaN. -/
def leafancestor (del : Str → Bool) (gold cand : PTree Str) : Option (Option Rat) :=
  if (bits gold).all fun b => b ∈ bits cand then
    some (mean ((bits gold).map fun b => EditDist.pathscore (leafancestorpaths del gold b) (leafancestorpaths del cand b)))
  else none

/-! ### Specification -/

/-- The constituents of trees `ts` over word `b` that count, in pre-order: from top to bottom, if the word occurs once. -/
def Spec.ancestors (del : Str → Bool) (b : Nat) (ts : List (PTree Str)) : List (PTree Str) :=
  (subtreesL ts).filter fun s => decide (b ∈ leaves s) && phrasal s && !del (labelOf s)

/-- `b` is the first/last word of a constituent, or the first/last of another component of it. -/
def Spec.first (b : Nat) (s : PTree Str) : Bool := (leaves s).all fun c => decide (b ≤ c)
def Spec.last (b : Nat) (s : PTree Str) : Bool := (leaves s).all fun c => decide (c ≤ b)
def Spec.first2 (b : Nat) (s : PTree Str) : Bool := !Spec.first b s && (leaves s).all fun c => decide (c + 1 ≠ b)
def Spec.last2 (b : Nat) (s : PTree Str) : Bool := !Spec.last b s && (leaves s).all fun c => decide (c ≠ b + 1)

/-- The lineage of a word: the labels of its ancestors from the top down; before the topmost constituent that ends with the word there is a `)`, after the topmost one that begins
with it a `(`, and with `]`, `[` in the same way for other components. The arguments tell which marks have been given. -/
def Spec.lineage (b : Nat) : (e f s g : Bool) → List (PTree Str) → List Str
  | _, _, _, _, [] => []
  | e, f, s, g, A :: r =>
    (if Spec.last b A && !e then [mClose] else []) ++ (if Spec.last2 b A && !f then [mClose2] else []) ++ [labelOf A] ++
    (if Spec.first b A && !s then [mOpen] else []) ++ (if Spec.first2 b A && !g then [mOpen2] else []) ++
    Spec.lineage b (e || Spec.last b A) (f || Spec.last2 b A) (s || Spec.first b A) (g || Spec.first2 b A) r

/-- No label is one of the marks. -/
def Spec.NoMarks (t : PTree Str) : Prop := ∀ s ∈ subtrees t, labelOf s ≠ mOpen ∧ labelOf s ≠ mClose ∧ labelOf s ≠ mOpen2 ∧ labelOf s ≠ mClose2

mutual
/-- Trees without empty nodes in which each node has either one terminal or nodes as children. -/
def Spec.FullT : PTree Str → Prop
  | .leaf _ => False
  | .node _ cs => (∃ i, cs = [.leaf i]) ∨ (cs ≠ [] ∧ Spec.FullL cs)
/-- The same for all of a list. -/
def Spec.FullL : List (PTree Str) → Prop
  | [] => True
  | c :: cs => Spec.FullT c ∧ Spec.FullL cs
end

/-! ### One word -/

theorem mem_bits {t : PTree Str} {b : Nat} : b ∈ bits t ↔ b ∈ leaves t := by
  rw [bits, List.mem_filter, List.mem_range]
  constructor
  · intro h; simpa using h.2
  · intro h
    refine ⟨?_, by simpa using h⟩
    have : ∀ l : List Nat, b ∈ l → b ≤ l.foldr max 0 := by
      intro l
      induction l with
      | nil => simp
      | cons x l ih =>
        intro hb
        rw [List.foldr_cons]
        rcases List.mem_cons.1 hb with rfl | hb
        · exact Nat.le_max_left _ _
        · exact le_trans (ih hb) (Nat.le_max_right _ _)
    have := this _ h
    omega

theorem bits_nodup (t : PTree Str) : (bits t).Nodup := List.nodup_range.filter _

theorem first_iff {t : PTree Str} {b : Nat} (hb : b ∈ leaves t) : b = (bits t).min?.getD 0 ↔ Spec.first b t = true := by
  have hb' : b ∈ bits t := mem_bits.2 hb
  cases hm : (bits t).min? with
  | none => rw [List.min?_eq_none_iff] at hm; rw [hm] at hb'; simp at hb'
  | some a =>
    obtain ⟨h1, h2⟩ := List.min?_eq_some_iff.1 hm
    simp only [Option.getD_some, Spec.first, List.all_eq_true, decide_eq_true_eq]
    constructor
    · rintro rfl c hc; exact h2 c (mem_bits.2 hc)
    · intro h; exact le_antisymm (h a (mem_bits.1 h1)) (h2 b hb')

theorem last_iff {t : PTree Str} {b : Nat} (hb : b ∈ leaves t) : b = (bits t).max?.getD 0 ↔ Spec.last b t = true := by
  have hb' : b ∈ bits t := mem_bits.2 hb
  cases hm : (bits t).max? with
  | none => rw [List.max?_eq_none_iff] at hm; rw [hm] at hb'; simp at hb'
  | some a =>
    obtain ⟨h1, h2⟩ := List.max?_eq_some_iff.1 hm
    simp only [Option.getD_some, Spec.last, List.all_eq_true, decide_eq_true_eq]
    constructor
    · rintro rfl c hc; exact h2 c (mem_bits.2 hc)
    · intro h; exact le_antisymm (h2 b hb') (h a (mem_bits.1 h1))

/-- What a node adds to the path of one of its words. -/
def stepA (b : Nat) (path : List Str) (A : PTree Str) : List Str :=
  addLabel (labelOf A) (bits A) ((bits A).min?.getD 0) ((bits A).max?.getD 0) b path

theorem foldl_upd (f : Nat → List Str → List Str) (bs : List Nat) (hn : bs.Nodup) (P : Nat → List Str) (x : Nat) :
    bs.foldl (fun q b => fun y => if y = b then f b (q b) else q y) P x = if x ∈ bs then f x (P x) else P x := by
  induction bs generalizing P with
  | nil => simp
  | cons b bs ih =>
    rw [List.nodup_cons] at hn
    rw [List.foldl_cons, ih hn.2]
    by_cases hx : x = b
    · subst hx; simp [hn.1]
    · simp [hx]

theorem visit_eq (del : Str → Bool) (P : Nat → List Str) (n : PTree Str) (b : Nat) :
    visit del P n b = if (decide (b ∈ leaves n) && phrasal n && !del (labelOf n)) = true then stepA b (P b) n else P b := by
  rw [visit]
  by_cases hp : phrasal n = true
  · by_cases he : (bits n).isEmpty = true
    · have : b ∉ leaves n := by rw [← mem_bits, List.isEmpty_iff.1 he]; simp
      simp [he, this]
    · by_cases hd : del (labelOf n) = true
      · simp [he, hp, hd]
      · simp only [he, hp, hd, Bool.not_true, Bool.or_false, Bool.false_eq_true, if_false, Bool.not_false, Bool.and_true]
        rw [foldl_upd (fun b q => addLabel (labelOf n) (bits n) ((bits n).min?.getD 0) ((bits n).max?.getD 0) b q) _ (bits_nodup n)]
        simp only [mem_bits, decide_eq_true_eq, stepA]
  · simp [hp]

theorem anc_nil {del : Str → Bool} {b : Nat} {ts : List (PTree Str)} (h : b ∉ leavesL ts) : Spec.ancestors del b ts = [] := by
  rw [Spec.ancestors, List.filter_eq_nil_iff]
  intro s hs
  have : b ∉ leaves s := by
    intro hb
    apply h
    have key : ∀ t : PTree Str, s ∈ subtrees t → b ∈ leaves t := by
      intro t
      induction t using PTree.ind with
      | hleaf i => simp
      | hnode l cs ih =>
        intro hs
        rw [subtrees_node, List.mem_cons] at hs
        rcases hs with rfl | hs
        · exact hb
        · obtain ⟨c, hc, hx⟩ := mem_subtreesL.1 hs
          rw [leaves_node]
          exact mem_leavesL.2 ⟨c, hc, ih c hc hx⟩
    obtain ⟨c, hc, hx⟩ := mem_subtreesL.1 hs
    exact mem_leavesL.2 ⟨c, hc, key c hx⟩
  simp [this]

theorem anc_append (del : Str → Bool) (b : Nat) (xs ys : List (PTree Str)) : Spec.ancestors del b (xs ++ ys) = Spec.ancestors del b xs ++ Spec.ancestors del b ys := by
  rw [Spec.ancestors, subtreesL_append, List.filter_append]; rfl

theorem StdL_append {xs ys : List (PTree Str)} : EvalTransform.Spec.StdL (xs ++ ys) ↔ EvalTransform.Spec.StdL xs ∧ EvalTransform.Spec.StdL ys := by
  induction xs with
  | nil => simp [EvalTransform.Spec.StdL]
  | cons x xs ih => simp [EvalTransform.Spec.StdL, ih, and_assoc]

theorem std_children {n : PTree Str} (h : EvalTransform.Spec.StdT n) (hp : phrasal n = true) : EvalTransform.Spec.StdL n.children := by
  cases n with
  | leaf i => simp [phrasal] at hp
  | node l cs =>
    simp only [EvalTransform.Spec.StdT] at h
    rcases h with rfl | ⟨i, rfl⟩ | h
    · simp [phrasal] at hp
    · simp [phrasal] at hp
    · exact h

theorem nextlevel_cons (n : PTree Str) (ns : List (PTree Str)) : nextlevel (n :: ns) = (if (bits n).isEmpty || !phrasal n then [] else n.children) ++ nextlevel ns := by
  rw [nextlevel, List.flatMap_cons]; rfl

theorem children_leaves {n : PTree Str} (hp : phrasal n = true) : leavesL n.children = leaves n := by
  cases n with
  | leaf i => simp [phrasal] at hp
  | node l cs => simp [PTree.children]

theorem next_sub (ns : List (PTree Str)) : (leavesL (nextlevel ns)).Sublist (leavesL ns) := by
  induction ns with
  | nil => simp [nextlevel]
  | cons n ns ih =>
    rw [nextlevel_cons, leavesL_append, leavesL_cons]
    by_cases h : ((bits n).isEmpty || !phrasal n) = true
    · rw [if_pos h]
      simpa using ih.trans (List.sublist_append_right _ _)
    · rw [if_neg h]
      have : phrasal n = true := by simpa using (by simpa using h : _ ∧ _).2
      rw [children_leaves this]
      exact (List.Sublist.refl _).append ih

theorem next_std (ns : List (PTree Str)) (h : EvalTransform.Spec.StdL ns) : EvalTransform.Spec.StdL (nextlevel ns) := by
  induction ns with
  | nil => simpa [nextlevel] using h
  | cons n ns ih =>
    rw [EvalTransform.Spec.StdL] at h
    rw [nextlevel_cons, StdL_append]
    refine ⟨?_, ih h.2⟩
    split
    · simp [EvalTransform.Spec.StdL]
    · rename_i hh
      have : phrasal n = true := by simpa using (by simpa using hh : _ ∧ _).2
      exact std_children h.1 this

theorem depthL_append (xs ys : List (PTree Str)) : depthL (xs ++ ys) = max (depthL xs) (depthL ys) := by
  induction xs with
  | nil => simp [depthL]
  | cons x xs ih => simp [depthL, ih, max_assoc]

theorem depthT_pos (t : PTree Str) : 0 < depthT t := by cases t <;> simp [depthT]

theorem next_depth (ns : List (PTree Str)) : depthL (nextlevel ns) ≤ depthL ns - 1 := by
  induction ns with
  | nil => simp [nextlevel, depthL]
  | cons n ns ih =>
    rw [nextlevel_cons, depthL_append, depthL]
    have : depthL (if (bits n).isEmpty || !phrasal n then [] else n.children) ≤ depthT n - 1 := by
      split
      · simp [depthL]
      · cases n with
        | leaf i => simp [PTree.children, depthL]
        | node l cs => simp [PTree.children, depthT]
    omega

/-- A level: the nodes over `b`, then the ancestors below. -/
theorem level_split (del : Str → Bool) (b : Nat) (ns : List (PTree Str)) (hs : EvalTransform.Spec.StdL ns) (hn : (leavesL ns).Nodup) :
    Spec.ancestors del b ns = (ns.filter fun s => decide (b ∈ leaves s) && phrasal s && !del (labelOf s)) ++ Spec.ancestors del b (nextlevel ns) := by
  induction ns with
  | nil => simp [nextlevel, Spec.ancestors]
  | cons n ns ih =>
    rw [EvalTransform.Spec.StdL] at hs
    rw [leavesL_cons, List.nodup_append] at hn
    have hone : Spec.ancestors del b [n] = (if (decide (b ∈ leaves n) && phrasal n && !del (labelOf n)) = true then [n] else []) ++
        Spec.ancestors del b (if (bits n).isEmpty || !phrasal n then [] else n.children) := by
      cases n with
      | leaf i => simp [EvalTransform.Spec.StdT] at hs
      | node l cs =>
        rw [Spec.ancestors, subtreesL_cons, subtrees_node, subtreesL_nil, List.append_nil, List.filter_cons]
        by_cases hp : phrasal (.node l cs) = true
        · by_cases he : (bits (.node l cs)).isEmpty = true
          · have : b ∉ leavesL cs := by
              rw [← leaves_node l, ← mem_bits, List.isEmpty_iff.1 he]; simp
            have hnil := anc_nil (del := del) this
            rw [Spec.ancestors] at hnil
            rw [hnil]
            simp [this, he, Spec.ancestors]
          · simp only [he, hp, Bool.not_true, Bool.or_self, Bool.false_eq_true, if_false, PTree.children]
            split <;> simp [Spec.ancestors]
        · have hss : (subtreesL cs).filter (fun s => decide (b ∈ leaves s) && phrasal s && !del (labelOf s)) = [] := by
            have h := hs.1
            simp only [EvalTransform.Spec.StdT] at h
            rcases h with rfl | ⟨i, rfl⟩ | h
            · simp
            · simp
            · cases cs with
              | nil => simp
              | cons c cs =>
                cases c with
                | leaf i => simp [EvalTransform.Spec.StdL, EvalTransform.Spec.StdT] at h
                | node m ds => simp [phrasal] at hp
          rw [hss]
          simp [hp, Spec.ancestors]
    have happ : Spec.ancestors del b (n :: ns) = Spec.ancestors del b [n] ++ Spec.ancestors del b ns := anc_append del b [n] ns
    rw [happ, hone, nextlevel_cons, anc_append, ih hs.2 hn.2.1, List.filter_cons]
    by_cases hb : b ∈ leaves n
    · have hb' : b ∉ leavesL ns := fun h => hn.2.2 b hb b h rfl
      have h1 : (ns.filter fun s => decide (b ∈ leaves s) && phrasal s && !del (labelOf s)) = [] := by
        rw [List.filter_eq_nil_iff]
        intro s hs
        have : b ∉ leaves s := fun h => hb' (mem_leavesL.2 ⟨s, hs, h⟩)
        simp [this]
      rw [h1]
      split <;> simp
    · have h2 : Spec.ancestors del b (if (bits n).isEmpty || !phrasal n then [] else n.children) = [] := by
        apply anc_nil
        split
        · simp
        · rename_i hh
          have : phrasal n = true := by simpa using (by simpa using hh : _ ∧ _).2
          rwa [children_leaves this]
      rw [h2]
      simp [hb]

theorem foldl_visit (del : Str → Bool) (b : Nat) (ns : List (PTree Str)) (P : Nat → List Str) :
    ns.foldl (visit del) P b = (ns.filter fun s => decide (b ∈ leaves s) && phrasal s && !del (labelOf s)).foldl (stepA b) (P b) := by
  induction ns generalizing P with
  | nil => rfl
  | cons n ns ih =>
    rw [List.foldl_cons, ih, visit_eq, List.filter_cons]
    split <;> simp

theorem loop_eq (del : Str → Bool) (b : Nat) : ∀ (k : Nat) (ns : List (PTree Str)) (P : Nat → List Str), EvalTransform.Spec.StdL ns → (leavesL ns).Nodup → depthL ns ≤ k →
    loop del k ns P b = (Spec.ancestors del b ns).foldl (stepA b) (P b) := by
  intro k
  induction k with
  | zero =>
    intro ns P _ _ hd
    cases ns with
    | nil => simp [loop, Spec.ancestors]
    | cons n ns => have := depthT_pos n; simp [depthL] at hd; omega
  | succ k ih =>
    intro ns P hs hn hd
    rw [loop]
    cases ns with
    | nil => simp [Spec.ancestors]
    | cons n ns =>
      simp only [List.isEmpty_cons, Bool.false_eq_true, if_false]
      rw [ih _ _ (next_std _ hs) (hn.sublist (next_sub _)) (by have := next_depth (n :: ns); omega), foldl_visit, ← List.foldl_append,
        ← level_split del b (n :: ns) hs hn]

theorem closeMark_eq {A : PTree Str} {b : Nat} (hb : b ∈ leaves A) (path : List Str) :
    closeMark (bits A) ((bits A).max?.getD 0) b path = path ++ ((if Spec.last b A && !decide (mClose ∈ path) then [mClose] else []) ++
      (if Spec.last2 b A && !decide (mClose2 ∈ path) then [mClose2] else [])) := by
  rw [closeMark]
  have h2 : Spec.last2 b A = true ↔ ¬ Spec.last b A = true ∧ b + 1 ∉ bits A := by
    simp only [Spec.last2, mem_bits, Bool.and_eq_true, Bool.not_eq_true', List.all_eq_true, decide_eq_true_eq, Bool.not_eq_true]
    refine and_congr_right fun _ => ⟨fun h h' => h _ h' rfl, fun h c hc hcb => h (hcb ▸ hc)⟩
  have h1 : Spec.last b A = true → b + 1 ∉ bits A := by
    intro h h'
    have := (List.all_eq_true.1 h) _ (mem_bits.1 h')
    simp at this
  have hl := last_iff hb
  by_cases he : b + 1 ∈ bits A
  · have hl1 : Spec.last b A = false := by
      cases h : Spec.last b A with
      | false => rfl
      | true => exact absurd he (h1 h)
    have hl2 : Spec.last2 b A = false := by
      cases h : Spec.last2 b A with
      | false => rfl
      | true => exact absurd he (h2.1 h).2
    simp [he, hl1, hl2]
  · rw [if_pos he]
    by_cases hlast : Spec.last b A = true
    · have : Spec.last2 b A = false := by
        cases h : Spec.last2 b A with
        | false => rfl
        | true => exact absurd hlast (h2.1 h).1
      have hx := eq_true (hl.2 hlast)
      by_cases hm : mClose ∈ path <;> simp [hm, hx, hlast, this]
    · have hne : ¬ b = (bits A).max?.getD 0 := fun h => hlast (hl.1 h)
      have : Spec.last2 b A = true := h2.2 ⟨hlast, he⟩
      simp only [hne, false_and, if_false, hlast, this, Bool.false_and, ne_eq, not_false_eq_true, true_and, Bool.true_and]
      by_cases hm : mClose2 ∈ path <;> simp [hm]

theorem openMark_eq {A : PTree Str} {b : Nat} (hb : b ∈ leaves A) (path : List Str) :
    openMark (bits A) ((bits A).min?.getD 0) b path = path ++ ((if Spec.first b A && !decide (mOpen ∈ path) then [mOpen] else []) ++
      (if Spec.first2 b A && !decide (mOpen2 ∈ path) then [mOpen2] else [])) := by
  rw [openMark]
  have hin : (b = 0 ∨ b - 1 ∉ bits A) ↔ ∀ c ∈ leaves A, c + 1 ≠ b := by
    constructor
    · rintro (rfl | h) c hc hcb
      · omega
      · exact h (mem_bits.2 (by rw [← hcb]; simpa using hc))
    · intro h
      by_cases h0 : b = 0
      · exact Or.inl h0
      · refine Or.inr fun h' => h _ (mem_bits.1 h') (by omega)
  have h2 : Spec.first2 b A = true ↔ ¬ Spec.first b A = true ∧ (b = 0 ∨ b - 1 ∉ bits A) := by
    rw [hin]
    simp only [Spec.first2, Bool.and_eq_true, Bool.not_eq_true', List.all_eq_true, decide_eq_true_eq, Bool.not_eq_true]
  have h1 : Spec.first b A = true → (b = 0 ∨ b - 1 ∉ bits A) := by
    intro h
    rw [hin]
    intro c hc hcb
    have := (List.all_eq_true.1 h) c hc
    simp at this
    omega
  have hl := first_iff hb
  by_cases he : (b = 0 ∨ b - 1 ∉ bits A)
  · rw [if_pos he]
    by_cases hf : Spec.first b A = true
    · have : Spec.first2 b A = false := by
        cases h : Spec.first2 b A with
        | false => rfl
        | true => exact absurd hf (h2.1 h).1
      have hx := eq_true (hl.2 hf)
      by_cases hm : mOpen ∈ path <;> simp [hm, hx, hf, this]
    · have hne : ¬ b = (bits A).min?.getD 0 := fun h => hf (hl.1 h)
      have : Spec.first2 b A = true := h2.2 ⟨hf, he⟩
      simp only [hne, false_and, if_false, hf, this, Bool.false_and, ne_eq, not_false_eq_true, true_and, Bool.true_and]
      by_cases hm : mOpen2 ∈ path <;> simp [hm]
  · rw [if_neg he]
    have hl1 : Spec.first b A = false := by
      cases h : Spec.first b A with
      | false => rfl
      | true => exact absurd (h1 h) he
    have hl2 : Spec.first2 b A = false := by
      cases h : Spec.first2 b A with
      | false => rfl
      | true => exact absurd (h2.1 h).2 he
    simp [hl1, hl2]

theorem marks_ne : mOpen ≠ mClose ∧ mOpen ≠ mOpen2 ∧ mOpen ≠ mClose2 ∧ mClose ≠ mOpen2 ∧ mClose ≠ mClose2 ∧ mOpen2 ≠ mClose2 := by decide

theorem chain_eq (b : Nat) (As : List (PTree Str)) : ∀ path : List Str, (∀ A ∈ As, b ∈ leaves A) →
    (∀ A ∈ As, labelOf A ≠ mOpen ∧ labelOf A ≠ mClose ∧ labelOf A ≠ mOpen2 ∧ labelOf A ≠ mClose2) →
    As.foldl (stepA b) path = path ++ Spec.lineage b (decide (mClose ∈ path)) (decide (mClose2 ∈ path)) (decide (mOpen ∈ path)) (decide (mOpen2 ∈ path)) As := by
  induction As with
  | nil => intro path _ _; simp [Spec.lineage]
  | cons A As ih =>
    intro path hb hm
    obtain ⟨n1, n2, n3, n4, n5, n6⟩ := marks_ne
    obtain ⟨m1, m2, m3, m4⟩ := hm A (by simp)
    have hbA := hb A (by simp)
    have hstep : stepA b path A = path ++ ((if Spec.last b A && !decide (mClose ∈ path) then [mClose] else []) ++
        (if Spec.last2 b A && !decide (mClose2 ∈ path) then [mClose2] else []) ++ [labelOf A] ++
        (if Spec.first b A && !decide (mOpen ∈ path) then [mOpen] else []) ++ (if Spec.first2 b A && !decide (mOpen2 ∈ path) then [mOpen2] else [])) := by
      rw [stepA, addLabel, closeMark_eq hbA, openMark_eq hbA]
      have e1 : decide (mOpen ∈ path ++ ((if Spec.last b A && !decide (mClose ∈ path) then [mClose] else []) ++
          (if Spec.last2 b A && !decide (mClose2 ∈ path) then [mClose2] else [])) ++ [labelOf A]) = decide (mOpen ∈ path) := by
        apply decide_eq_decide.2
        cases Spec.last b A <;> cases Spec.last2 b A <;> by_cases h1 : mClose ∈ path <;> by_cases h2 : mClose2 ∈ path <;> simp [h1, h2, n1, n3, m1.symm]
      have e2 : decide (mOpen2 ∈ path ++ ((if Spec.last b A && !decide (mClose ∈ path) then [mClose] else []) ++
          (if Spec.last2 b A && !decide (mClose2 ∈ path) then [mClose2] else [])) ++ [labelOf A]) = decide (mOpen2 ∈ path) := by
        apply decide_eq_decide.2
        cases Spec.last b A <;> cases Spec.last2 b A <;> by_cases h1 : mClose ∈ path <;> by_cases h2 : mClose2 ∈ path <;> simp [h1, h2, n4.symm, n6, m3.symm]
      rw [e1, e2]
      simp only [List.append_assoc]
    rw [List.foldl_cons, ih _ (fun B hB => hb B (by simp [hB])) (fun B hB => hm B (by simp [hB])), Spec.lineage, hstep, List.append_assoc]
    congr 1
    have d1 : decide (mClose ∈ path ++ ((if Spec.last b A && !decide (mClose ∈ path) then [mClose] else []) ++
        (if Spec.last2 b A && !decide (mClose2 ∈ path) then [mClose2] else []) ++ [labelOf A] ++
        (if Spec.first b A && !decide (mOpen ∈ path) then [mOpen] else []) ++ (if Spec.first2 b A && !decide (mOpen2 ∈ path) then [mOpen2] else []))) =
        (decide (mClose ∈ path) || Spec.last b A) := by
      cases Spec.last b A <;> cases Spec.last2 b A <;> cases Spec.first b A <;> cases Spec.first2 b A <;> by_cases h1 : mClose ∈ path <;> by_cases h2 : mClose2 ∈ path <;>
        by_cases h3 : mOpen ∈ path <;> by_cases h4 : mOpen2 ∈ path <;> simp [h1, h2, h3, h4, n1.symm, n4, n5, m2.symm]
    have d2 : decide (mClose2 ∈ path ++ ((if Spec.last b A && !decide (mClose ∈ path) then [mClose] else []) ++
        (if Spec.last2 b A && !decide (mClose2 ∈ path) then [mClose2] else []) ++ [labelOf A] ++
        (if Spec.first b A && !decide (mOpen ∈ path) then [mOpen] else []) ++ (if Spec.first2 b A && !decide (mOpen2 ∈ path) then [mOpen2] else []))) =
        (decide (mClose2 ∈ path) || Spec.last2 b A) := by
      cases Spec.last b A <;> cases Spec.last2 b A <;> cases Spec.first b A <;> cases Spec.first2 b A <;> by_cases h1 : mClose ∈ path <;> by_cases h2 : mClose2 ∈ path <;>
        by_cases h3 : mOpen ∈ path <;> by_cases h4 : mOpen2 ∈ path <;> simp [h1, h2, h3, h4, n3.symm, n5.symm, n6.symm, m4.symm]
    have d3 : decide (mOpen ∈ path ++ ((if Spec.last b A && !decide (mClose ∈ path) then [mClose] else []) ++
        (if Spec.last2 b A && !decide (mClose2 ∈ path) then [mClose2] else []) ++ [labelOf A] ++
        (if Spec.first b A && !decide (mOpen ∈ path) then [mOpen] else []) ++ (if Spec.first2 b A && !decide (mOpen2 ∈ path) then [mOpen2] else []))) =
        (decide (mOpen ∈ path) || Spec.first b A) := by
      cases Spec.last b A <;> cases Spec.last2 b A <;> cases Spec.first b A <;> cases Spec.first2 b A <;> by_cases h1 : mClose ∈ path <;> by_cases h2 : mClose2 ∈ path <;>
        by_cases h3 : mOpen ∈ path <;> by_cases h4 : mOpen2 ∈ path <;> simp [h1, h2, h3, h4, n1, n2, n3, m1.symm]
    have d4 : decide (mOpen2 ∈ path ++ ((if Spec.last b A && !decide (mClose ∈ path) then [mClose] else []) ++
        (if Spec.last2 b A && !decide (mClose2 ∈ path) then [mClose2] else []) ++ [labelOf A] ++
        (if Spec.first b A && !decide (mOpen ∈ path) then [mOpen] else []) ++ (if Spec.first2 b A && !decide (mOpen2 ∈ path) then [mOpen2] else []))) =
        (decide (mOpen2 ∈ path) || Spec.first2 b A) := by
      cases Spec.last b A <;> cases Spec.last2 b A <;> cases Spec.first b A <;> cases Spec.first2 b A <;> by_cases h1 : mClose ∈ path <;> by_cases h2 : mClose2 ∈ path <;>
        by_cases h3 : mOpen ∈ path <;> by_cases h4 : mOpen2 ∈ path <;> simp [h1, h2, h3, h4, n2.symm, n4.symm, n6, m3.symm]
    rw [d1, d2, d3, d4]

/-- **C77.** The path of a word is its lineage. -/
theorem C77_paths (del : Str → Bool) (t : PTree Str) (hs : EvalTransform.Spec.StdT t) (hn : (leaves t).Nodup) (hm : Spec.NoMarks t) (b : Nat) :
    leafancestorpaths del t b = Spec.lineage b false false false false (Spec.ancestors del b [t]) := by
  rw [leafancestorpaths, loop_eq del b _ [t] _ ⟨hs, trivial⟩ (by simpa using hn) (by simp [depthL]), chain_eq]
  · simp
  · intro A hA
    rw [Spec.ancestors, List.mem_filter] at hA
    simp only [Bool.and_eq_true, decide_eq_true_eq] at hA
    exact hA.2.1.1
  · intro A hA
    rw [Spec.ancestors, List.mem_filter] at hA
    have : A ∈ subtrees t := by simpa using hA.1
    exact hm A this

/-! ### The score -/

theorem mean_bounds (xs : List Rat) (h : ∀ x ∈ xs, 0 ≤ x ∧ x ≤ 1) (hne : xs ≠ []) :
    ∃ q, mean xs = some q ∧ 0 ≤ q ∧ q ≤ 1 ∧ (q = 1 ↔ ∀ x ∈ xs, x = 1) := by
  have hl : xs.length ≠ 0 := by simpa using hne
  have hpos : (0 : Rat) < xs.length := by exact_mod_cast Nat.pos_of_ne_zero hl
  have hsum : ∀ ys : List Rat, (∀ x ∈ ys, 0 ≤ x ∧ x ≤ 1) → 0 ≤ ys.sum ∧ ys.sum ≤ ys.length ∧ (ys.sum = ys.length ↔ ∀ x ∈ ys, x = 1) := by
    intro ys
    induction ys with
    | nil => simp
    | cons y ys ih =>
      intro h
      obtain ⟨i1, i2, i3⟩ := ih (fun x hx => h x (by simp [hx]))
      obtain ⟨h1, h2⟩ := h y (by simp)
      simp only [List.sum_cons, List.length_cons, Nat.cast_add, Nat.cast_one]
      refine ⟨by linarith, by linarith, ?_⟩
      constructor
      · intro he x hx
        have hy : y = 1 := by linarith
        have hs : ys.sum = ys.length := by linarith
        rcases List.mem_cons.1 hx with rfl | hx
        · exact hy
        · exact i3.1 hs x hx
      · intro he
        rw [he y (by simp), i3.2 (fun x hx => he x (by simp [hx]))]; ring
  obtain ⟨s1, s2, s3⟩ := hsum xs h
  refine ⟨xs.sum / xs.length, by rw [mean, if_neg hl], div_nonneg s1 hpos.le, (div_le_one hpos).2 s2, ?_⟩
  rw [div_eq_one_iff_eq hpos.ne', s3]

/-- **C77.** For trees over the same words, at least one, the score is a number between 0 and 1; it is 1 exactly if all words have the same path. -/
theorem C77_score (del : Str → Bool) (gold cand : PTree Str) (hw : ∀ b, b ∈ leaves gold ↔ b ∈ leaves cand) (hne : leaves gold ≠ []) :
    ∃ q, leafancestor del gold cand = some (some q) ∧ 0 ≤ q ∧ q ≤ 1 ∧
      (q = 1 ↔ ∀ b ∈ leaves gold, leafancestorpaths del gold b = leafancestorpaths del cand b) := by
  have hall : ((bits gold).all fun b => decide (b ∈ bits cand)) = true := by
    rw [List.all_eq_true]
    intro b hb
    simpa using mem_bits.2 ((hw b).1 (mem_bits.1 hb))
  obtain ⟨q, h1, h2, h3, h4⟩ := mean_bounds ((bits gold).map fun b => EditDist.pathscore (leafancestorpaths del gold b) (leafancestorpaths del cand b))
    (by
      intro x hx
      obtain ⟨b, _, rfl⟩ := List.mem_map.1 hx
      exact ⟨(EditDist.C28_pathscore _ _).1, (EditDist.C28_pathscore _ _).2.1⟩)
    (by
      intro h
      rw [List.map_eq_nil_iff] at h
      obtain ⟨b, hb⟩ := List.exists_mem_of_ne_nil _ hne
      have := mem_bits.2 hb
      rw [h] at this; simp at this)
  refine ⟨q, by rw [leafancestor, if_pos hall, h1], h2, h3, h4.trans ?_⟩
  constructor
  · intro h b hb
    exact (EditDist.C28_pathscore _ _).2.2.1.1 (h _ (List.mem_map.2 ⟨b, mem_bits.2 hb, rfl⟩))
  · intro h x hx
    obtain ⟨b, hb, rfl⟩ := List.mem_map.1 hx
    exact (EditDist.C28_pathscore _ _).2.2.1.2 (h b (mem_bits.1 hb))

/-- **C77.** A tree with itself gets 1. -/
theorem C77_refl (del : Str → Bool) (t : PTree Str) (hne : leaves t ≠ []) : leafancestor del t t = some (some 1) := by
  obtain ⟨q, h1, _, _, h4⟩ := C77_score del t t (fun _ => Iff.rfl) hne
  rw [h1, h4.2 fun _ _ => rfl]

/-- **C77.** The score is symmetric. -/
theorem C77_symm (del : Str → Bool) (gold cand : PTree Str) (hw : ∀ b, b ∈ leaves gold ↔ b ∈ leaves cand) : leafancestor del gold cand = leafancestor del cand gold := by
  have hb : bits gold = bits cand := by
    apply List.Perm.eq_of_pairwise (le := (· < ·)) (fun a b _ _ h1 h2 => by omega)
    · exact List.Pairwise.filter _ List.pairwise_lt_range
    · exact List.Pairwise.filter _ List.pairwise_lt_range
    · exact (List.perm_ext_iff_of_nodup (bits_nodup _) (bits_nodup _)).2 fun b => by rw [mem_bits, mem_bits, hw b]
  rw [leafancestor, leafancestor, hb]
  congr 3
  apply List.map_congr_left
  intro b _
  exact (EditDist.C28_pathscore _ _).2.2.2

/-! ### Trees without discontinuities: the paths determine the bracketings -/

/-- Label, first word, last word of an ancestor. -/
def info (b : Nat) (s : PTree Str) : Str × Bool × Bool := (labelOf s, Spec.first b s, Spec.last b s)

/-- The path in terms of this. -/
def enc : (e s : Bool) → List (Str × Bool × Bool) → List Str
  | _, _, [] => []
  | e, s, (l, st, en) :: r => (if en && !e then [mClose] else []) ++ [l] ++ (if st && !s then [mOpen] else []) ++ enc (e || en) (s || st) r

theorem lineage_enc (b : Nat) (As : List (PTree Str)) : ∀ e f s g, (∀ A ∈ As, Spec.first2 b A = false ∧ Spec.last2 b A = false) →
    Spec.lineage b e f s g As = enc e s (As.map (info b)) := by
  induction As with
  | nil => intro e f s g _; simp [Spec.lineage, enc]
  | cons A As ih =>
    intro e f s g h
    obtain ⟨h1, h2⟩ := h A (by simp)
    rw [Spec.lineage, h1, h2, List.map_cons, info, enc, ih _ _ _ _ (fun B hB => h B (by simp [hB]))]
    simp

/-- Flags once set stay set. -/
def Mono : (e s : Bool) → List (Str × Bool × Bool) → Prop
  | _, _, [] => True
  | e, s, (l, st, en) :: r => (s = true → st = true) ∧ (e = true → en = true) ∧ l ≠ mOpen ∧ l ≠ mClose ∧ Mono en st r

theorem enc_head (e s : Bool) (i : List (Str × Bool × Bool)) (h : Mono e s i) (r : List Str) : enc e s i ≠ mOpen :: r := by
  cases i with
  | nil => simp [enc]
  | cons x i =>
    obtain ⟨l, st, en⟩ := x
    simp only [Mono] at h
    rw [enc]
    by_cases hc : (en && !e) = true
    · rw [if_pos hc]; simp [marks_ne.1.symm]
    · rw [if_neg hc]; simp [h.2.2.1]

theorem enc_inj : ∀ (i j : List (Str × Bool × Bool)) (e s : Bool), Mono e s i → Mono e s j → enc e s i = enc e s j → i = j := by
  intro i
  induction i with
  | nil =>
    intro j e s _ _ h
    cases j with
    | nil => rfl
    | cons y j => obtain ⟨l, st, en⟩ := y; rw [enc, enc] at h; simp at h
  | cons x i ih =>
    intro j e s h1 h2 h
    obtain ⟨l, st, en⟩ := x
    cases j with
    | nil => rw [enc, enc] at h; simp at h
    | cons y j =>
      obtain ⟨l', st', en'⟩ := y
      simp only [Mono] at h1 h2
      obtain ⟨a1, a2, a3, a4, a5⟩ := h1
      obtain ⟨b1, b2, b3, b4, b5⟩ := h2
      rw [enc, enc] at h
      have hen : (en && !e) = (en' && !e) := by
        by_cases c1 : (en && !e) = true <;> by_cases c2 : (en' && !e) = true
        · rw [c1, c2]
        · simp [c1, c2, b4.symm] at h
        · simp [c1, c2, a4] at h
        · simp only [Bool.not_eq_true] at c1 c2; rw [c1, c2]
      have hen' : en = en' := by
        cases e with
        | true => rw [a2 rfl, b2 rfl]
        | false => simpa using hen
      subst hen'
      rw [List.append_assoc, List.append_assoc, List.append_assoc, List.append_assoc, List.append_cancel_left_eq, List.singleton_append, List.singleton_append,
        List.cons.injEq] at h
      obtain ⟨rfl, h⟩ := h
      have hse : (s || st) = st := by cases s <;> simp_all
      have hse' : (s || st') = st' := by cases s <;> simp_all
      have hee : (e || en) = en := by cases e <;> simp_all
      rw [hse, hse', hee] at h
      have hst : (st && !s) = (st' && !s) := by
        by_cases c1 : (st && !s) = true <;> by_cases c2 : (st' && !s) = true
        · rw [c1, c2]
        · rw [if_pos c1, if_neg c2, List.nil_append] at h
          exact absurd h.symm (enc_head _ _ _ b5 _)
        · rw [if_neg c1, if_pos c2, List.nil_append] at h
          exact absurd h (enc_head _ _ _ a5 _)
        · simp only [Bool.not_eq_true] at c1 c2; rw [c1, c2]
      have hst' : st = st' := by
        cases s with
        | true => rw [a1 rfl, b1 rfl]
        | false => simpa using hst
      subst hst'
      rw [List.append_cancel_left_eq] at h
      rw [ih j _ _ a5 b5 h]

/-- A tree as a sequence: begin of a constituent, word, end of a constituent. -/
inductive Ev where
  | op (l : Str)
  | tick
  | cl
  deriving DecidableEq

mutual
/-- The sequence of a tree. -/
def events (del : Str → Bool) : PTree Str → List Ev
  | .leaf _ => []
  | .node _ [] => []
  | .node _ (.leaf _ :: _) => [.tick]
  | .node l (.node m ds :: ks) => (if del l then [] else [.op l]) ++ (events del (.node m ds) ++ eventsL del ks) ++ (if del l then [] else [.cl])
/-- The same for a list. -/
def eventsL (del : Str → Bool) : List (PTree Str) → List Ev
  | [] => []
  | c :: cs => events del c ++ eventsL del cs
end

theorem events_phr (del : Str → Bool) (l : Str) (cs : List (PTree Str)) (h : phrasal (.node l cs) = true) :
    events del (.node l cs) = (if del l then [] else [.op l]) ++ eventsL del cs ++ (if del l then [] else [.cl]) := by
  match cs, h with
  | .node m ds :: ks, _ => simp only [events, eventsL]

/-- Reading the sequence with a stack gives the constituents. -/
def run : List Ev → Nat → List (Str × Nat) → Multiset (Str × List Nat)
  | [], _, _ => 0
  | .op l :: r, pos, stk => run r pos ((l, pos) :: stk)
  | .tick :: r, pos, stk => run r (pos + 1) stk
  | .cl :: _, _, [] => 0
  | .cl :: r, pos, (l, a) :: stk => (l, List.range' a (pos - a)) ::ₘ run r pos stk

/-- The constituents that count with their words. -/
def bks (del : Str → Bool) (ts : List (PTree Str)) : List (Str × List Nat) :=
  ((subtreesL ts).filter fun s => phrasal s && !del (labelOf s)).map fun s => (labelOf s, leaves s)

theorem bks_append (del : Str → Bool) (xs ys : List (PTree Str)) : bks del (xs ++ ys) = bks del xs ++ bks del ys := by simp [bks]

theorem full_std (t : PTree Str) : Spec.FullT t → EvalTransform.Spec.StdT t := by
  induction t using PTree.rec (motive_2 := fun cs => Spec.FullL cs → EvalTransform.Spec.StdL cs) with
  | leaf i => intro h; simp [Spec.FullT] at h
  | node l cs ih =>
    intro h
    simp only [Spec.FullT] at h
    simp only [EvalTransform.Spec.StdT]
    rcases h with h | h
    · exact Or.inr (Or.inl h)
    · exact Or.inr (Or.inr (ih h.2))
  | nil => simp [EvalTransform.Spec.StdL]
  | cons c cs h1 h2 =>
    rename_i h
    rw [Spec.FullL] at h
    rw [EvalTransform.Spec.StdL]
    exact ⟨h1 h.1, h2 h.2⟩

theorem full_phr {l : Str} {cs : List (PTree Str)} (h : cs ≠ [] ∧ Spec.FullL cs) : phrasal (.node l cs) = true := by
  cases cs with
  | nil => exact absurd rfl h.1
  | cons c cs =>
    cases c with
    | leaf i => simp [Spec.FullL, Spec.FullT] at h
    | node m ds => rfl

theorem full_pos (t : PTree Str) : Spec.FullT t → leaves t ≠ [] := by
  induction t using PTree.ind with
  | hleaf i => simp
  | hnode l cs ih =>
    intro h
    simp only [Spec.FullT] at h
    rcases h with ⟨i, rfl⟩ | h
    · simp
    · cases cs with
      | nil => exact absurd rfl h.1
      | cons c cs =>
        rw [Spec.FullL] at h
        rw [leaves_node, leavesL_cons]
        have := ih c (by simp) h.2.1
        simp [this]

theorem split_range {m k : Nat} {xs ys : List Nat} (h : xs ++ ys = List.range' m k) :
    xs = List.range' m xs.length ∧ ys = List.range' (m + xs.length) ys.length ∧ k = xs.length + ys.length := by
  have hl := congrArg List.length h
  simp only [List.length_append, List.length_range'] at hl
  rw [← hl, ← List.range'_append_1] at h
  obtain ⟨h1, h2⟩ := List.append_inj h (by simp)
  exact ⟨h1, h2, hl.symm⟩

theorem run_events (del : Str → Bool) (t : PTree Str) : Spec.FullT t → ∀ (m k : Nat) (rest : List Ev) (stk : List (Str × Nat)), leaves t = List.range' m k →
    run (events del t ++ rest) m stk = ↑(bks del [t]) + run rest (m + k) stk := by
  induction t using PTree.rec (motive_2 := fun cs => Spec.FullL cs → ∀ (m k : Nat) (rest : List Ev) (stk : List (Str × Nat)), leavesL cs = List.range' m k →
    run (eventsL del cs ++ rest) m stk = ↑(bks del cs) + run rest (m + k) stk) with
  | leaf i => intro h; simp [Spec.FullT] at h
  | node l cs ih =>
    intro h m k rest stk hl
    simp only [Spec.FullT] at h
    rcases h with ⟨i, rfl⟩ | h
    · have hk : k = 1 := by have := congrArg List.length hl; simpa using this.symm
      subst hk
      simp [events, run, bks, phrasal]
    · have hp := full_phr (l := l) h
      rw [leaves_node] at hl
      have hb : bks del [.node l cs] = (if del l then [] else [(l, leavesL cs)]) ++ bks del cs := by
        simp only [bks, subtreesL_cons, subtrees_node, subtreesL_nil, List.append_nil, List.filter_cons, hp, labelOf, Bool.true_and]
        by_cases hd : del l = true <;> simp [hd]
      rw [events_phr del l cs hp, hb]
      by_cases hd : del l = true
      · simp only [hd, if_true, List.nil_append, List.append_nil]
        exact ih h.2 m k rest stk hl
      · simp only [hd, Bool.false_eq_true, if_false, List.cons_append, List.append_assoc, List.nil_append]
        rw [run, ih h.2 m k (.cl :: rest) _ hl, run, hl, ← Multiset.cons_coe, Multiset.cons_add, Nat.add_sub_cancel_left, ← Multiset.add_cons]
  | nil => rename_i m k rest stk hl; have : k = 0 := by have := congrArg List.length hl; simpa using this.symm
           subst this; simp [eventsL, bks]
  | cons c cs h1 h2 =>
    rename_i h m k rest stk hl
    rw [Spec.FullL] at h
    rw [leavesL_cons] at hl
    obtain ⟨s1, s2, s3⟩ := split_range hl
    rw [eventsL, List.append_assoc, h1 h.1 m _ _ _ s1, h2 h.2 _ _ _ _ s2, s3, ← add_assoc, ← Nat.add_assoc]
    have : bks del (c :: cs) = bks del [c] ++ bks del cs := bks_append del [c] cs
    rw [this, ← Multiset.coe_add]

/-- The part of the sequence for one word. -/
def evs : List (Str × Bool × Bool) → List Ev
  | [] => [.tick]
  | (l, st, en) :: r => (if st then [.op l] else []) ++ evs r ++ (if en then [.cl] else [])

theorem flat_mark (m k : Nat) (hk : 0 < k) (g : Nat → List Ev) (x y : List Ev) :
    (List.range' m k).flatMap (fun b => (if b = m then x else []) ++ g b ++ (if b + 1 = m + k then y else [])) = x ++ (List.range' m k).flatMap g ++ y := by
  have hend : ∀ (k m : Nat), 0 < k → (List.range' m k).flatMap (fun b => g b ++ (if b + 1 = m + k then y else [])) = (List.range' m k).flatMap g ++ y := by
    intro k
    induction k with
    | zero => intro m h; omega
    | succ k ih =>
      intro m _
      rw [List.range'_succ, List.flatMap_cons, List.flatMap_cons]
      cases k with
      | zero => simp
      | succ k =>
        have := ih (m + 1) (by omega)
        rw [show m + 1 + (k + 1) = m + (k + 1 + 1) by omega] at this
        rw [this, if_neg (by omega)]; simp
  obtain ⟨k, rfl⟩ : ∃ j, k = j + 1 := ⟨k - 1, by omega⟩
  have h1 : (List.range' m (k + 1)).flatMap (fun b => (if b = m then x else []) ++ g b ++ (if b + 1 = m + (k + 1) then y else [])) =
      x ++ (List.range' m (k + 1)).flatMap (fun b => g b ++ (if b + 1 = m + (k + 1) then y else [])) := by
    rw [List.range'_succ, List.flatMap_cons, List.flatMap_cons, if_pos rfl]
    have : (List.range' (m + 1) k).flatMap (fun b => (if b = m then x else []) ++ g b ++ (if b + 1 = m + (k + 1) then y else [])) =
        (List.range' (m + 1) k).flatMap (fun b => g b ++ (if b + 1 = m + (k + 1) then y else [])) := by
      apply List.flatMap_congr
      intro b hb
      rw [List.mem_range'] at hb
      obtain ⟨i, _, rfl⟩ := hb
      rw [if_neg (by omega)]; simp
    rw [this]; simp
  rw [h1, hend (k + 1) m hk]; simp

theorem range_flags {m k b : Nat} {s : PTree Str} (h : leaves s = List.range' m k) (hb : b ∈ leaves s) :
    Spec.first b s = decide (b = m) ∧ Spec.last b s = decide (b + 1 = m + k) ∧ Spec.first2 b s = false ∧ Spec.last2 b s = false := by
  rw [h, List.mem_range'_1] at hb
  have hmem : ∀ c, c ∈ leaves s ↔ m ≤ c ∧ c < m + k := fun c => by rw [h, List.mem_range'_1]
  have f1 : Spec.first b s = decide (b = m) := by
    rw [Bool.eq_iff_iff, Spec.first, List.all_eq_true]
    simp only [decide_eq_true_eq]
    refine ⟨fun h => ?_, fun h c hc => ?_⟩
    · have := h m ((hmem m).2 (by omega)); omega
    · have := (hmem c).1 hc; omega
  have f2 : Spec.last b s = decide (b + 1 = m + k) := by
    rw [Bool.eq_iff_iff, Spec.last, List.all_eq_true]
    simp only [decide_eq_true_eq]
    refine ⟨fun h => ?_, fun h c hc => ?_⟩
    · have := h (m + k - 1) ((hmem _).2 (by omega)); omega
    · have := (hmem c).1 hc; omega
  refine ⟨f1, f2, ?_, ?_⟩
  · rw [Spec.first2, f1, Bool.and_eq_false_iff]
    by_cases hbm : b = m
    · left; simp [hbm]
    · right
      rw [List.all_eq_false]
      exact ⟨b - 1, (hmem _).2 (by omega), by simp; omega⟩
  · rw [Spec.last2, f2, Bool.and_eq_false_iff]
    by_cases hbm : b + 1 = m + k
    · left; simp [hbm]
    · right
      rw [List.all_eq_false]
      exact ⟨b + 1, (hmem _).2 (by omega), by simp⟩

theorem anc_node (del : Str → Bool) (b : Nat) (l : Str) (cs : List (PTree Str)) (hp : phrasal (.node l cs) = true) (hb : b ∈ leavesL cs) :
    Spec.ancestors del b [.node l cs] = (if del l then [] else [.node l cs]) ++ Spec.ancestors del b cs := by
  simp only [Spec.ancestors, subtreesL_cons, subtrees_node, subtreesL_nil, List.append_nil, List.filter_cons, hp, labelOf, leaves_node, hb, decide_true, Bool.true_and]
  by_cases hd : del l = true <;> simp [hd]

theorem events_words (del : Str → Bool) (t : PTree Str) : Spec.FullT t → ∀ (m k : Nat), leaves t = List.range' m k →
    events del t = (List.range' m k).flatMap fun b => evs ((Spec.ancestors del b [t]).map (info b)) := by
  induction t using PTree.rec (motive_2 := fun cs => Spec.FullL cs → ∀ (m k : Nat), leavesL cs = List.range' m k →
    eventsL del cs = (List.range' m k).flatMap fun b => evs ((Spec.ancestors del b cs).map (info b))) with
  | leaf i => intro h; simp [Spec.FullT] at h
  | node l cs ih =>
    intro h m k hl
    have hfull := h
    simp only [Spec.FullT] at h
    rcases h with ⟨i, rfl⟩ | h
    · have hk : k = 1 := by have := congrArg List.length hl; simpa using this.symm
      subst hk
      simp [events, Spec.ancestors, phrasal, evs]
    · have hp := full_phr (l := l) h
      have hk : 0 < k := by
        have := full_pos _ hfull
        rw [hl] at this
        cases k with
        | zero => simp at this
        | succ k => omega
      rw [events_phr del l cs hp, ih h.2 m k (by simpa using hl)]
      by_cases hd : del l = true
      · simp only [hd, if_true, List.nil_append, List.append_nil]
        apply List.flatMap_congr
        intro b hb
        rw [anc_node del b l cs hp (by rw [← leaves_node l, hl]; exact hb)]
        simp [hd]
      · simp only [hd, Bool.false_eq_true, if_false]
        rw [← flat_mark m k hk]
        apply List.flatMap_congr
        intro b hb
        rw [anc_node del b l cs hp (by rw [← leaves_node l, hl]; exact hb)]
        obtain ⟨f1, f2, _, _⟩ := range_flags hl (hl ▸ hb)
        simp only [hd, Bool.false_eq_true, if_false, List.singleton_append, List.map_cons, info, evs, f1, f2, labelOf, decide_eq_true_eq]
  | nil => rename_i m k hl; have : k = 0 := by have := congrArg List.length hl; simpa using this.symm
           subst this; simp [eventsL]
  | cons c cs h1 h2 =>
    rename_i h m k hl
    rw [Spec.FullL] at h
    rw [leavesL_cons] at hl
    have hnd : (leaves c ++ leavesL cs).Nodup := by rw [hl]; exact List.nodup_range'
    rw [List.nodup_append] at hnd
    obtain ⟨s1, s2, s3⟩ := split_range hl
    rw [eventsL, h1 h.1 _ _ s1, h2 h.2 _ _ s2, s3, ← List.range'_append_1, List.flatMap_append]
    have happ : ∀ b, Spec.ancestors del b (c :: cs) = Spec.ancestors del b [c] ++ Spec.ancestors del b cs := fun b => anc_append del b [c] cs
    congr 1
    · apply List.flatMap_congr
      intro b hb
      rw [← s1] at hb
      rw [happ, anc_nil (ts := cs) (fun h' => hnd.2.2 b hb b h' rfl), List.append_nil]
    · apply List.flatMap_congr
      intro b hb
      rw [← s2] at hb
      rw [happ, anc_nil (ts := [c]) (fun h' => hnd.2.2 b (by simpa using h') b hb rfl), List.nil_append]

/-- Ancestors further down are smaller, and all have adjacent words. -/
theorem anc_chain (del : Str → Bool) (b : Nat) (t : PTree Str) : ∀ (m k : Nat), leaves t = List.range' m k →
    (Spec.ancestors del b [t]).Pairwise (fun A B => leaves B ⊆ leaves A) ∧ ∀ A ∈ Spec.ancestors del b [t], leaves A ⊆ leaves t ∧ ∃ m' k', leaves A = List.range' m' k' := by
  induction t using PTree.rec (motive_2 := fun cs => ∀ (m k : Nat), leavesL cs = List.range' m k →
    (Spec.ancestors del b cs).Pairwise (fun A B => leaves B ⊆ leaves A) ∧ ∀ A ∈ Spec.ancestors del b cs, leaves A ⊆ leavesL cs ∧ ∃ m' k', leaves A = List.range' m' k') with
  | leaf i => intro m k _; simp [Spec.ancestors]
  | node l cs ih =>
    intro m k hl
    obtain ⟨i1, i2⟩ := ih m k (by simpa using hl)
    have : Spec.ancestors del b [.node l cs] = Spec.ancestors del b cs ∨ Spec.ancestors del b [.node l cs] = .node l cs :: Spec.ancestors del b cs := by
      simp only [Spec.ancestors, subtreesL_cons, subtrees_node, subtreesL_nil, List.append_nil, List.filter_cons]
      split
      · exact Or.inr rfl
      · exact Or.inl rfl
    rcases this with h | h
    · rw [h]; exact ⟨i1, fun A hA => ⟨by simpa using (i2 A hA).1, (i2 A hA).2⟩⟩
    · rw [h]
      refine ⟨List.pairwise_cons.2 ⟨fun A hA => by simpa using (i2 A hA).1, i1⟩, ?_⟩
      intro A hA
      rcases List.mem_cons.1 hA with rfl | hA
      · exact ⟨List.Subset.refl _, m, k, hl⟩
      · exact ⟨by simpa using (i2 A hA).1, (i2 A hA).2⟩
  | nil => simp [Spec.ancestors]
  | cons c cs h1 h2 =>
    rename_i m k hl
    rw [leavesL_cons] at hl
    have hnd : (leaves c ++ leavesL cs).Nodup := by rw [hl]; exact List.nodup_range'
    rw [List.nodup_append] at hnd
    obtain ⟨s1, s2, s3⟩ := split_range hl
    have happ : Spec.ancestors del b (c :: cs) = Spec.ancestors del b [c] ++ Spec.ancestors del b cs := anc_append del b [c] cs
    by_cases hb : b ∈ leaves c
    · rw [happ, anc_nil (ts := cs) (fun h' => hnd.2.2 b hb b h' rfl), List.append_nil]
      obtain ⟨i1, i2⟩ := h1 _ _ s1
      exact ⟨i1, fun A hA => ⟨List.Subset.trans (i2 A hA).1 (by simp), (i2 A hA).2⟩⟩
    · rw [happ, anc_nil (ts := [c]) (by simpa using hb), List.nil_append]
      obtain ⟨i1, i2⟩ := h2 _ _ s2
      exact ⟨i1, fun A hA => ⟨List.Subset.trans (i2 A hA).1 (by simp), (i2 A hA).2⟩⟩

theorem mono_chain (b : Nat) (As : List (PTree Str)) : ∀ e s, As.Pairwise (fun A B => leaves B ⊆ leaves A) →
    (∀ A ∈ As, labelOf A ≠ mOpen ∧ labelOf A ≠ mClose) → (∀ A ∈ As, (s = true → Spec.first b A = true) ∧ (e = true → Spec.last b A = true)) → Mono e s (As.map (info b)) := by
  induction As with
  | nil => intro e s _ _ _; trivial
  | cons A As ih =>
    intro e s hp hm hf
    rw [List.pairwise_cons] at hp
    obtain ⟨f1, f2⟩ := hf A (by simp)
    obtain ⟨m1, m2⟩ := hm A (by simp)
    refine ⟨f1, f2, m1, m2, ih _ _ hp.2 (fun B hB => hm B (by simp [hB])) ?_⟩
    intro B hB
    have hsub := hp.1 B hB
    refine ⟨fun h => ?_, fun h => ?_⟩
    · rw [Spec.first, List.all_eq_true] at h ⊢
      exact fun c hc => h c (hsub hc)
    · rw [Spec.last, List.all_eq_true] at h ⊢
      exact fun c hc => h c (hsub hc)

theorem path_info (del : Str → Bool) (t : PTree Str) (hf : Spec.FullT t) (hm : Spec.NoMarks t) (n b : Nat) (hl : leaves t = List.range n) :
    leafancestorpaths del t b = enc false false ((Spec.ancestors del b [t]).map (info b)) ∧ Mono false false ((Spec.ancestors del b [t]).map (info b)) := by
  have hl' : leaves t = List.range' 0 n := by rw [hl, List.range_eq_range']
  obtain ⟨c1, c2⟩ := anc_chain del b t 0 n hl'
  have hmem : ∀ A ∈ Spec.ancestors del b [t], b ∈ leaves A ∧ A ∈ subtrees t := by
    intro A hA
    rw [Spec.ancestors, List.mem_filter] at hA
    simp only [Bool.and_eq_true, decide_eq_true_eq] at hA
    exact ⟨hA.2.1.1, by simpa using hA.1⟩
  refine ⟨?_, ?_⟩
  · rw [C77_paths del t (full_std t hf) (by rw [hl]; exact List.nodup_range) hm, lineage_enc]
    intro A hA
    obtain ⟨m', k', h⟩ := (c2 A hA).2
    exact (range_flags h (hmem A hA).1).2.2
  · exact mono_chain b _ _ _ c1 (fun A hA => ⟨(hm A (hmem A hA).2).1, (hm A (hmem A hA).2).2.1⟩) (fun A _ => by simp)

theorem bracketings_bks (p : Param) (t : PTree Str) :
    bracketings p t = (↑((bks p.delLabel [t]).filterMap fun x => if !p.discOnly || disc x.2.toFinset then some (if p.labeled then x.1 else [], x.2.toFinset) else none) : Multiset _) := by
  rw [bracketings, bks, subtreesL_cons, subtreesL_nil, List.append_nil]
  congr 1
  rw [List.filterMap_map]
  have : ∀ ss : List (PTree Str), (∀ s ∈ ss, ∃ l cs, s = .node l cs) → ss.filterMap (bracket p) =
      (ss.filter fun s => phrasal s && !p.delLabel (labelOf s)).filterMap ((fun x => if !p.discOnly || disc x.2.toFinset then some (if p.labeled then x.1 else [], x.2.toFinset) else none) ∘ fun s => (labelOf s, leaves s)) := by
    intro ss
    induction ss with
    | nil => intro _; rfl
    | cons s ss ih =>
      intro h
      obtain ⟨l, cs, rfl⟩ := h s (by simp)
      rw [List.filterMap_cons, ih (fun s hs => h s (by simp [hs])), List.filter_cons, bracket, span]
      by_cases hp : phrasal (.node l cs) = true
      · by_cases hd : p.delLabel l = true
        · simp [hd, labelOf]
        · simp only [hp, hd, labelOf, Bool.not_false, Bool.and_self, if_true, Bool.true_and, List.filterMap_cons, Function.comp]
      · simp [hp]
  exact this _ fun s hs => mem_subtrees_self_isNode hs

/-- **C77.** For trees without discontinuities the paths determine the constituents: if the score is 1, the bracketings are equal. -/
theorem C77_continuous (p : Param) (gold cand : PTree Str) (n : Nat) (hg : Spec.FullT gold) (hc : Spec.FullT cand) (hgl : leaves gold = List.range n)
    (hcl : leaves cand = List.range n) (hgm : Spec.NoMarks gold) (hcm : Spec.NoMarks cand) (h : leafancestor p.delLabel gold cand = some (some 1)) :
    bracketings p gold = bracketings p cand := by
  obtain ⟨q, h1, _, _, h4⟩ := C77_score p.delLabel gold cand (fun b => by rw [hgl, hcl]) (full_pos gold hg)
  rw [h1, Option.some.injEq, Option.some.injEq] at h
  have hpath := h4.1 h
  have hev : events p.delLabel gold = events p.delLabel cand := by
    rw [events_words p.delLabel gold hg 0 n (by rw [hgl, List.range_eq_range']), events_words p.delLabel cand hc 0 n (by rw [hcl, List.range_eq_range'])]
    apply List.flatMap_congr
    intro b hb
    obtain ⟨g1, g2⟩ := path_info p.delLabel gold hg hgm n b hgl
    obtain ⟨c1, c2⟩ := path_info p.delLabel cand hc hcm n b hcl
    rw [enc_inj _ _ _ _ g2 c2 (by rw [← g1, ← c1]; exact hpath b (by rw [hgl, List.range_eq_range']; exact hb))]
  have hr1 := run_events p.delLabel gold hg 0 n [] [] (by rw [hgl, List.range_eq_range'])
  have hr2 := run_events p.delLabel cand hc 0 n [] [] (by rw [hcl, List.range_eq_range'])
  rw [hev, hr2] at hr1
  simp only [run, add_zero] at hr1
  rw [bracketings_bks, bracketings_bks]
  exact Quotient.sound ((Quotient.exact hr1).symm.filterMap _)

/-! ### After the transformation of the evaluation (C76) -/

/-- `TreePairResult.__init__` (eval.py:353-400) with `LA`, for a pair: the score and whether the assertion holds. None is an exception, among others the KeyError of a word without path;
a pair without words has no score. -/
def pairLA (p : Param) (gtree : PTree Str) (gsent : List Str) (ctree : PTree Str) (csent : List Str) : Option (Option Rat × Bool) :=
  (AlignSent.alignsent csent gsent (lookup (sortedPos gtree))).bind fun al =>
    (transform p ctree csent (sortedPos ctree) (lookup al) (grootpos gtree)).bind fun (ct, cs, _) =>
      (transform p gtree gsent (sortedPos gtree) (lookup (sortedPos gtree)) (grootpos gtree)).bind fun (gt, gs, gp) =>
        if cs.length ≠ gs.length then none else if cs ≠ gs then none else
        if gp.isEmpty then some (none, true) else
        (leafancestor p.delLabel gt ct).map fun la => (la, decide (la ≠ some 1) || decide (bracketings p gt = bracketings p ct))

theorem fullL_append {xs ys : List (PTree Str)} : Spec.FullL (xs ++ ys) ↔ Spec.FullL xs ∧ Spec.FullL ys := by
  induction xs with
  | nil => simp [Spec.FullL]
  | cons x xs ih => simp [Spec.FullL, ih, and_assoc]

theorem wrap_full {p : Param} {l : Str} {r : List (PTree Str)} (h : Spec.FullL r) : Spec.FullL (wrap p l r) := by
  cases r with
  | nil => simp [wrap, Spec.FullL]
  | cons x xs =>
    rw [wrap]
    by_cases hd : p.delLabel (p.eq l) = true
    · rw [if_pos hd]; exact h
    · rw [if_neg hd]
      refine ⟨?_, trivial⟩
      simp only [Spec.FullT]
      exact Or.inr ⟨by simp, h⟩

theorem out_full (p : Param) (K : Nat → Bool) (t : PTree Str) : EvalTransform.Spec.StdT t → Spec.FullL (outT p K t) := by
  induction t using PTree.rec (motive_2 := fun cs => EvalTransform.Spec.StdL cs → Spec.FullL (outL p K cs)) with
  | leaf i => intro _; simp [outT, Spec.FullL]
  | node l cs ih =>
    intro h
    by_cases hp : phrasal (.node l cs) = true
    · rw [outT_phr p K l cs hp]
      exact wrap_full (ih (std_children h hp))
    · simp only [EvalTransform.Spec.StdT] at h
      rcases h with rfl | ⟨i, rfl⟩ | h
      · simp [outT, Spec.FullL]
      · rw [outT]
        by_cases hk : K i = true
        · rw [if_pos hk]; simp [Spec.FullL, Spec.FullT]
        · rw [if_neg hk]; simp [Spec.FullL]
      · cases cs with
        | nil => simp [outT, Spec.FullL]
        | cons x xs =>
          cases x with
          | leaf i => simp [EvalTransform.Spec.StdL, EvalTransform.Spec.StdT] at h
          | node m ds => simp [phrasal] at hp
  | nil => simp [outL, Spec.FullL]
  | cons c cs h1 h2 =>
    rename_i h
    rw [EvalTransform.Spec.StdL] at h
    rw [outL]
    exact fullL_append.2 ⟨h1 h.1, h2 h.2⟩

theorem outL_full (p : Param) (K : Nat → Bool) (cs : List (PTree Str)) (h : EvalTransform.Spec.StdL cs) : Spec.FullL (outL p K cs) := by
  induction cs with
  | nil => simp [outL, Spec.FullL]
  | cons c cs ih =>
    rw [EvalTransform.Spec.StdL] at h
    rw [outL]
    exact fullL_append.2 ⟨out_full p K c h.1, ih h.2⟩

theorem renum_full (f : Nat → Nat) (t : PTree Str) : Spec.FullT t → Spec.FullT (renumT f t) := by
  induction t using PTree.rec (motive_2 := fun cs => Spec.FullL cs → Spec.FullL (renumL f cs)) with
  | leaf i => intro h; simp [Spec.FullT] at h
  | node l cs ih =>
    intro h
    simp only [Spec.FullT] at h
    rcases h with ⟨i, rfl⟩ | h
    · simp [renumT, Spec.FullT]
    · cases cs with
      | nil => exact absurd rfl h.1
      | cons c cs =>
        cases c with
        | leaf i => simp [Spec.FullL, Spec.FullT] at h
        | node m ds =>
          rw [renumT_phr f l _ cs rfl]
          simp only [Spec.FullT]
          exact Or.inr ⟨by simp, by simpa [renumL] using ih h.2⟩
  | nil => simp [renumL, Spec.FullL]
  | cons c cs h1 h2 =>
    rename_i h
    rw [Spec.FullL] at h
    rw [renumL, Spec.FullL]
    exact ⟨h1 h.1, h2 h.2⟩

/-- Labels of the result are labels of the tree after `EQ_LABEL`. -/
theorem renum_labels (f : Nat → Nat) (t : PTree Str) : (subtrees (renumT f t)).map labelOf = (subtrees t).map labelOf := by
  induction t using PTree.rec (motive_2 := fun cs => (subtreesL (renumL f cs)).map labelOf = (subtreesL cs).map labelOf) with
  | leaf i => simp [renumT]
  | node l cs ih =>
    cases cs with
    | nil => simp [renumT]
    | cons c cs =>
      cases c with
      | leaf i => simp [renumT, labelOf]
      | node m ds =>
        rw [renumT_phr f l _ cs rfl, subtrees_node, subtrees_node, List.map_cons, List.map_cons, ← ih]
        simp [renumL, labelOf]
  | nil => simp [renumL]
  | cons c cs h1 h2 => rw [renumL, subtreesL_cons, subtreesL_cons, List.map_append, List.map_append, h1, h2]

theorem out_labels (p : Param) (K : Nat → Bool) (t : PTree Str) (hs : EvalTransform.Spec.StdT t) : ∀ s ∈ subtreesL (outT p K t), ∃ u ∈ subtrees t, labelOf s = p.eq (labelOf u) := by
  revert hs
  induction t using PTree.rec (motive_2 := fun cs => EvalTransform.Spec.StdL cs → ∀ s ∈ subtreesL (outL p K cs), ∃ u ∈ subtreesL cs, labelOf s = p.eq (labelOf u)) with
  | leaf i => intro _ s hs; simp [outT] at hs
  | node l cs ih =>
    intro h s hs
    by_cases hp : phrasal (.node l cs) = true
    · rw [outT_phr p K l cs hp] at hs
      have ih' := ih (std_children h hp)
      have : s ∈ subtreesL (outL p K cs) ∨ labelOf s = p.eq l := by
        cases ho : outL p K cs with
        | nil => rw [ho] at hs; simp [wrap] at hs
        | cons x xs =>
          rw [ho, wrap] at hs
          by_cases hd : p.delLabel (p.eq l) = true
          · rw [if_pos hd] at hs; exact Or.inl hs
          · rw [if_neg hd, subtreesL_cons, subtrees_node, subtreesL_nil, List.append_nil, List.mem_cons] at hs
            rcases hs with rfl | hs
            · exact Or.inr rfl
            · exact Or.inl hs
      rcases this with hs | hs
      · obtain ⟨u, hu, he⟩ := ih' s hs
        exact ⟨u, by simp [hu], he⟩
      · exact ⟨.node l cs, by simp, hs⟩
    · simp only [EvalTransform.Spec.StdT] at h
      rcases h with rfl | ⟨i, rfl⟩ | h
      · simp [outT] at hs
      · rw [outT] at hs
        by_cases hk : K i = true
        · rw [if_pos hk] at hs
          simp at hs
          exact ⟨.node l [.leaf i], by simp, by rw [hs]; rfl⟩
        · rw [if_neg hk] at hs; simp at hs
      · cases cs with
        | nil => simp [outT] at hs
        | cons x xs =>
          cases x with
          | leaf i => simp [EvalTransform.Spec.StdL, EvalTransform.Spec.StdT] at h
          | node m ds => simp [phrasal] at hp
  | nil => rename_i s hs; simp [outL] at hs
  | cons c cs h1 h2 =>
    rename_i h s hs
    rw [EvalTransform.Spec.StdL] at h
    rw [outL, subtreesL_append, List.mem_append] at hs
    rcases hs with hs | hs
    · obtain ⟨u, hu, he⟩ := h1 h.1 s hs
      exact ⟨u, by simp [hu], he⟩
    · obtain ⟨u, hu, he⟩ := h2 h.2 s hs
      exact ⟨u, by simp [hu], he⟩

/-- No label of the tree, before or after `EQ_LABEL`, is one of the marks. -/
def Spec.NoMarksEq (p : Param) (t : PTree Str) : Prop :=
  ∀ s ∈ subtrees t, ∀ l ∈ [labelOf s, p.eq (labelOf s)], l ≠ mOpen ∧ l ≠ mClose ∧ l ≠ mOpen2 ∧ l ≠ mClose2

/-- What is transformed from a tree without discontinuities is one, unless no words are left. -/
theorem transformed (p : Param) (t : PTree Str) (sent : List Str) (pos : List (Nat × Str)) (gpos : Nat → Option Str) (g : Nat → Str) (groot : Nat → Bool)
    (ht : EvalTransform.Spec.Over sent.length t) (hl : leaves t = List.range sent.length) (hm : Spec.NoMarksEq p t) (hpos : pos.length = sent.length)
    (hg : ∀ i, i < sent.length → gpos i = some (g i)) :
    let K := EvalTransform.Spec.kept p sent g groot
    ∃ t', transform p t sent pos gpos groot = some (t', (EvalTransform.Spec.restrict K sent).map (EvalTransform.Spec.word p), (EvalTransform.Spec.restrict K pos).map Prod.snd) ∧
      leaves t' = List.range (EvalTransform.Spec.restrict K sent).length ∧ (leaves t' ≠ [] → Spec.FullT t') ∧ Spec.NoMarks t' := by
  intro K
  obtain ⟨f, h1, h2⟩ := transform_renum p t sent pos gpos g groot ht hpos hg
  have hr := root_spec (p := p) (K := K) ht f h2
  refine ⟨_, h1, ?_, ?_, ?_⟩
  · rw [hr.1, restrict_length, hl]
    exact map_rank K sent.length
  · intro hne
    obtain ⟨hs, hp, _⟩ := ht
    match t, hs, hp with
    | .node l cs, hs, hp =>
      rw [vis, if_pos hp] at hne ⊢
      apply renum_full
      simp only [Spec.FullT]
      refine Or.inr ⟨fun h => ?_, outL_full p K cs (std_children hs hp)⟩
      rw [h] at hne
      simp [renumT] at hne
  · intro s hsub
    obtain ⟨hs, hp, _⟩ := ht
    match t, hs, hp with
    | .node l cs, hs, hp =>
      rw [vis, if_pos hp] at hsub
      have : labelOf s ∈ (subtrees (.node l (outL p K cs))).map labelOf := by
        rw [← renum_labels f]; exact List.mem_map_of_mem hsub
      obtain ⟨u, hu, he⟩ := List.mem_map.1 this
      rw [← he]
      rw [subtrees_node, List.mem_cons] at hu
      rcases hu with rfl | hu
      · exact hm (.node l cs) (by simp) _ (by simp [labelOf])
      · have hL : ∀ ds : List (PTree Str), EvalTransform.Spec.StdL ds → ∀ u ∈ subtreesL (outL p K ds), ∃ v ∈ subtreesL ds, labelOf u = p.eq (labelOf v) := by
          intro ds
          induction ds with
          | nil => intro _ u hu; simp [outL] at hu
          | cons d ds ih =>
            intro h u hu
            rw [EvalTransform.Spec.StdL] at h
            rw [outL, subtreesL_append, List.mem_append] at hu
            rcases hu with hu | hu
            · obtain ⟨v, hv, e⟩ := out_labels p K d h.1 u hu
              exact ⟨v, by simp [hv], e⟩
            · obtain ⟨v, hv, e⟩ := ih h.2 u hu
              exact ⟨v, by simp [hv], e⟩
        obtain ⟨v, hv, e⟩ := hL cs (std_children hs hp) u hu
        exact hm v (by simp [hv]) _ (by simp [e])

/-- **C77.** For gold and candidate trees without discontinuities over the same sentence the evaluation with the leaf-ancestor metric does not fail, and its assertion holds. -/
theorem C77_assertion (p : Param) (gtree ctree : PTree Str) (sent : List Str) (hg : EvalTransform.Spec.Over sent.length gtree) (hc : EvalTransform.Spec.Over sent.length ctree)
    (hgl : leaves gtree = List.range sent.length) (hcl : leaves ctree = List.range sent.length) (hgm : Spec.NoMarksEq p gtree) (hcm : Spec.NoMarksEq p ctree) :
    ∃ q, pairLA p gtree sent ctree sent = some (q, true) := by
  have hal : AlignSent.alignsent sent sent (lookup (sortedPos gtree)) = some ((List.range sent.length).map fun i => (i, EvalTransform.Spec.tag gtree i)) := by
    rw [AlignSent.alignsent, alignsent_self sent (EvalTransform.Spec.tag gtree) _ 0 (fun i _ h => by rw [sortedPos_eq hg]; exact lookup_range _ _ i (by omega)), List.range_eq_range']
  have hlk : ∀ i, i < sent.length → lookup (sortedPos gtree) i = some (EvalTransform.Spec.tag gtree i) := fun i h => by rw [sortedPos_eq hg]; exact lookup_range _ _ i h
  have hlen : ∀ {t}, EvalTransform.Spec.Over sent.length t → (sortedPos t).length = sent.length := fun h => by rw [sortedPos_eq h]; simp
  obtain ⟨ct, c1, c2, c3, c4⟩ := transformed p ctree sent (sortedPos ctree) (lookup ((List.range sent.length).map fun i => (i, EvalTransform.Spec.tag gtree i))) (EvalTransform.Spec.tag gtree) (grootpos gtree)
    hc hcl hcm (hlen hc) (fun i h => lookup_range _ _ i h)
  obtain ⟨gt, g1, g2, g3, g4⟩ := transformed p gtree sent (sortedPos gtree) (lookup (sortedPos gtree)) (EvalTransform.Spec.tag gtree) (grootpos gtree) hg hgl hgm (hlen hg) hlk
  rw [pairLA, hal, Option.bind_some, c1, g1]
  simp only [Option.bind_some, ne_eq, not_true, if_false]
  split
  · exact ⟨none, rfl⟩
  · rename_i hne
    have hz : leaves gt ≠ [] := by
      intro h
      apply hne
      rw [g2] at h
      rw [List.isEmpty_iff, List.map_eq_nil_iff, ← List.length_eq_zero_iff, restrict_length, hlen hg, ← restrict_length _ sent]
      simpa using h
    obtain ⟨q, q1, _, _, _⟩ := C77_score p.delLabel gt ct (fun b => by rw [g2, c2]) hz
    refine ⟨some q, ?_⟩
    rw [q1]
    simp only [Option.map_some, Option.some.injEq, Prod.mk.injEq, true_and, Bool.or_eq_true, decide_eq_true_eq]
    by_cases hq : q = 1
    · right
      refine C77_continuous p gt ct _ (g3 hz) (c3 (by rw [c2, ← g2]; exact hz)) g2 c2 g4 c4 (by rw [q1, hq])
    · exact Or.inl hq

/-! ### Examples and disagreement -/

/-- A tree with a discontinuous constituent. -/
def exT : PTree Str := .node ['S'] [.node ['V'] [.node ['a'] [.leaf 0], .node ['b'] [.leaf 2]], .node ['N'] [.node ['c'] [.leaf 1]]]

example : (leafancestorpaths (fun _ => false) exT 0, leafancestorpaths (fun _ => false) exT 1, leafancestorpaths (fun _ => false) exT 2) =
    ([['S'], ['('], [']'], ['V']], [['S'], [')'], ['N'], ['(']], [[')'], ['S'], ['V'], ['[']]) := by decide +kernel

/-- A tree without discontinuities, and another. -/
def exC : PTree Str := .node ['S'] [.node ['V'] [.node ['a'] [.leaf 0], .node ['b'] [.leaf 1]], .node ['N'] [.node ['c'] [.leaf 2]]]
def exD : PTree Str := .node ['S'] [.node ['a'] [.leaf 0], .node ['N'] [.node ['b'] [.leaf 1], .node ['c'] [.leaf 2]]]

example : ∃ q, pairLA parTop exC [['x'], ['y'], ['z']] exD [['x'], ['y'], ['z']] = some (q, true) := by
  refine C77_assertion parTop exC exD _ ⟨by simp [exC, EvalTransform.Spec.StdT, EvalTransform.Spec.StdL], by decide +kernel, by decide +kernel⟩
    ⟨by simp [exD, EvalTransform.Spec.StdT, EvalTransform.Spec.StdL], by decide +kernel, by decide +kernel⟩ (by decide +kernel) (by decide +kernel) ?_ ?_
  · intro s hs l hl
    simp only [exC, subtrees_node, subtreesL_cons, subtreesL_nil, subtrees_leaf, List.append_nil, List.nil_append, List.cons_append, List.mem_cons, List.not_mem_nil, or_false] at hs hl
    rcases hs with rfl | rfl | rfl | rfl | rfl | rfl <;> rcases hl with rfl | rfl <;> simp [labelOf, mOpen, mClose, mOpen2, mClose2, Param.eq, parTop]
  · intro s hs l hl
    simp only [exD, subtrees_node, subtreesL_cons, subtreesL_nil, subtrees_leaf, List.append_nil, List.nil_append, List.cons_append, List.mem_cons, List.not_mem_nil, or_false] at hs hl
    rcases hs with rfl | rfl | rfl | rfl | rfl <;> rcases hl with rfl | rfl <;> simp [labelOf, mOpen, mClose, mOpen2, mClose2, Param.eq, parTop]

/-- Two constituents Q over the words 0, 2, 4, 6, in two ways. -/
def asT (i j k l : Nat) : PTree Str :=
  .node ['S'] [.node ['Q'] [.node ['a'] [.leaf i], .node ['a'] [.leaf j]], .node ['Q'] [.node ['a'] [.leaf k], .node ['a'] [.leaf l]],
    .node ['a'] [.leaf 1], .node ['a'] [.leaf 3], .node ['a'] [.leaf 5]]
/-- The sentence. -/
def asS : List Str := List.replicate 7 ['a']

/-- **C77, disagreement.** The assertion "leaf ancestor score 1.0 but no exact match" fails for trees with discontinuities: constituents Q = {0, 4} and Q = {2, 6} give the same
paths as Q = {0, 6} and Q = {2, 4}; the evaluation is aborted. -/
theorem C77_assert_disagreement : pairLA parTop (asT 0 4 2 6) asS (asT 0 6 2 4) asS = some (some 1, false) ∧
    EvalTransform.Spec.Over 7 (asT 0 4 2 6) ∧ EvalTransform.Spec.Over 7 (asT 0 6 2 4) := by
  refine ⟨?_, ⟨by simp [asT, EvalTransform.Spec.StdT, EvalTransform.Spec.StdL], by decide +kernel, by decide +kernel⟩,
    ⟨by simp [asT, EvalTransform.Spec.StdT, EvalTransform.Spec.StdL], by decide +kernel, by decide +kernel⟩⟩
  decide +kernel

/-- A tree with labels that are marks. -/
def mkT (xs ys : List Nat) : PTree Str :=
  .node ['('] [.node [')'] [.node ['X'] (xs.map fun i => .node ['a'] [.leaf i]), .node ['X'] (ys.map fun i => .node ['a'] [.leaf i])]]

/-- **C77, disagreement.** Labels equal to the marks hide the marks: these trees without discontinuities have different constituents, and the score is 1. -/
theorem C77_marks_disagreement : leafancestor (fun _ => false) (mkT [0, 1] [2]) (mkT [0] [1, 2]) = some (some 1) ∧ bracketings parTop (mkT [0, 1] [2]) ≠ bracketings parTop (mkT [0] [1, 2]) := by
  constructor <;> decide +kernel
end Disco.LeafAncestor
