import Mathlib.Data.List.Basic
import Mathlib.Tactic.Linarith
/-!
# C29, first part: `newtreedist` (treedist.py:207-303) computes the tree edit distance

The trees here are the prepared ones (treedist.py:72-90): a node has a label and children, there are no terminals.
-/
namespace Disco.Ted

/-- A prepared tree (the result of `prepare`, treedist.py:72-90): nodes with labels, terminals merged with their preterminals. -/
inductive RT (α : Type) where
  | node (label : α) (children : List (RT α))

variable {α : Type}

/-- `node.label`. -/
def RT.label : RT α → α
  | .node l _ => l

/-- `node[:]`, the children of a node. -/
def RT.children : RT α → List (RT α)
  | .node _ cs => cs

mutual
/-- Number of nodes of a tree. -/
def size : RT α → Nat
  | .node _ cs => sizeF cs + 1
/-- Number of nodes of a forest. -/
def sizeF : List (RT α) → Nat
  | [] => 0
  | t :: ts => size t + sizeF ts
end

/-- An entry of the edit script (treedist.py:275,280,285,290,299): `('D', node, None)`, `('I', None, node)`, `('S', node, node)`. -/
inductive Op (α : Type) where
  | del (n : RT α)
  | ins (n : RT α)
  | swap (m n : RT α)

/-- `EditStats` (treedist.py:226-256). -/
structure Stats (α : Type) where
  dist : Nat
  matched : Nat
  script : List (Op α)

/-- `EditStats.__add__` (treedist.py:237-240). -/
def Stats.add (a b : Stats α) : Stats α := ⟨a.dist + b.dist, a.matched + b.matched, a.script ++ b.script⟩

/-- One step of the built-in `min` with `EditStats.__lt__` (treedist.py:242-243): a later argument wins only if it is smaller. -/
def Stats.min (a b : Stats α) : Stats α := if b.dist < a.dist then b else a

/-- `forest if forest == () else forest[:-1] + tuple(forest[-1][:])` (treedist.py:265-268). -/
def flat (F : List (RT α)) : List (RT α) :=
  match F.getLast? with
  | none => F
  | some t => F.dropLast ++ t.children

/-- `EditStats(tmp.distance + 1, tmp.matched, (op,) + tmp.editscript)` (treedist.py:274-275 and others). -/
def Stats.op (o : Op α) (tmp : Stats α) : Stats α := ⟨tmp.dist + 1, tmp.matched, o :: tmp.script⟩

/-- treedist.py:293-299: match or swap. -/
def matchOrSwap [DecidableEq α] (v w : RT α) (s : Stats α) : Stats α :=
  if v.label = w.label then ⟨s.dist, s.matched + 1, s.script⟩ else s.op (.swap v w)

/-- `geteditstats` (treedist.py:259-303). The first argument bounds the depth of the recursion (Python recurses until both
forests are empty; `geteditstats` below supplies enough). Simplification: no memo table; its keys are pairs of frozen trees compared by
structure (tree.py:116-120), on which the result depends only. -/
def editstats [DecidableEq α] : Nat → List (RT α) → List (RT α) → Stats α
  | 0, _, _ => ⟨0, 0, []⟩
  | n + 1, F, G =>
    match F.getLast?, G.getLast? with
    | none, none => ⟨0, 0, []⟩
    | some v, none => (editstats n (flat F) []).op (.del v)
    | none, some w => (editstats n [] (flat G)).op (.ins w)
    | some v, some w =>
      let deletestats := (editstats n (flat F) G).op (.del v)
      let insertstats := (editstats n F (flat G)).op (.ins w)
      let s := (editstats n v.children w.children).add (editstats n F.dropLast G.dropLast)
      (deletestats.min insertstats).min (matchOrSwap v w s)

/-- `geteditstats(forest1, forest2)`. -/
def geteditstats [DecidableEq α] (F G : List (RT α)) : Stats α := editstats (sizeF F + sizeF G) F G

/-! ### Specification -/

/-- One edit operation on an ordered forest: delete a node (its children take its place), insert a node (over some consecutive sisters), change
the label of a node; at any depth. -/
inductive Spec.Edit1 : List (RT α) → List (RT α) → Prop
  | del (A B : List (RT α)) (l : α) (cs : List (RT α)) : Spec.Edit1 (A ++ .node l cs :: B) (A ++ cs ++ B)
  | ins (A B : List (RT α)) (l : α) (cs : List (RT α)) : Spec.Edit1 (A ++ cs ++ B) (A ++ .node l cs :: B)
  | sub (A B : List (RT α)) (l l' : α) (cs : List (RT α)) : Spec.Edit1 (A ++ .node l cs :: B) (A ++ .node l' cs :: B)
  | inside (A B : List (RT α)) (l : α) {cs cs' : List (RT α)} : Spec.Edit1 cs cs' →
      Spec.Edit1 (A ++ .node l cs :: B) (A ++ .node l cs' :: B)

/-- `n` edit operations one after another. -/
inductive Spec.Edits : Nat → List (RT α) → List (RT α) → Prop
  | zero (F : List (RT α)) : Spec.Edits 0 F F
  | succ {n : Nat} {F G H : List (RT α)} : Spec.Edit1 F G → Spec.Edits n G H → Spec.Edits (n + 1) F H

/-- `d` is the tree edit distance: the smallest number of edit operations that turns the one into the other. -/
def Spec.IsDistance (F G : List (RT α)) (d : Nat) : Prop := Spec.Edits d F G ∧ ∀ n, Spec.Edits n F G → d ≤ n

/-! ### Equations -/

@[simp] theorem sizeF_nil : sizeF ([] : List (RT α)) = 0 := by simp [sizeF]
@[simp] theorem sizeF_cons (t : RT α) (ts) : sizeF (t :: ts) = size t + sizeF ts := by simp [sizeF]
@[simp] theorem size_node (l : α) (cs) : size (.node l cs) = sizeF cs + 1 := by simp [size]
@[simp] theorem sizeF_append (F G : List (RT α)) : sizeF (F ++ G) = sizeF F + sizeF G := by
  induction F with
  | nil => simp
  | cons t ts ih => simp [ih, Nat.add_assoc]
theorem size_eq (t : RT α) : size t = sizeF t.children + 1 := by cases t; simp [RT.children]
theorem sizeF_eq_zero {F : List (RT α)} : sizeF F = 0 ↔ F = [] := by
  cases F with
  | nil => simp
  | cons t ts => simp [size_eq]

@[simp] theorem children_node (l : α) (cs) : (RT.node l cs).children = cs := rfl
@[simp] theorem label_node (l : α) (cs) : (RT.node l cs).label = l := rfl

theorem flat_snoc (F : List (RT α)) (t : RT α) : flat (F ++ [t]) = F ++ t.children := by simp [flat]

theorem snoc_cases (F : List (RT α)) : F = [] ∨ ∃ F0 v, F = F0 ++ [v] := by
  rcases List.eq_nil_or_concat F with h | ⟨F0, v, h⟩
  · exact .inl h
  · exact .inr ⟨F0, v, by simpa using h⟩

section
variable [DecidableEq α]

theorem es_nil (n : Nat) : editstats n ([] : List (RT α)) [] = ⟨0, 0, []⟩ := by cases n <;> simp [editstats]
theorem es_del (n : Nat) (F : List (RT α)) (v : RT α) :
    editstats (n + 1) (F ++ [v]) [] = (editstats n (F ++ v.children) []).op (.del v) := by
  simp [editstats, flat_snoc]
theorem es_ins (n : Nat) (G : List (RT α)) (w : RT α) :
    editstats (n + 1) [] (G ++ [w]) = (editstats n [] (G ++ w.children)).op (.ins w) := by
  simp [editstats, flat_snoc]
theorem es_both (n : Nat) (F G : List (RT α)) (v w : RT α) :
    editstats (n + 1) (F ++ [v]) (G ++ [w]) =
      (((editstats n (F ++ v.children) (G ++ [w])).op (.del v)).min ((editstats n (F ++ [v]) (G ++ w.children)).op (.ins w))).min
        (matchOrSwap v w ((editstats n v.children w.children).add (editstats n F G))) := by
  simp [editstats, flat_snoc]

/-- More depth changes nothing. -/
theorem es_fuel : ∀ (n m : Nat) (F G : List (RT α)), sizeF F + sizeF G ≤ n → sizeF F + sizeF G ≤ m →
    editstats n F G = editstats m F G := by
  intro n
  induction n with
  | zero =>
    intro m F G h _
    have hF : F = [] := sizeF_eq_zero.1 (by omega)
    have hG : G = [] := sizeF_eq_zero.1 (by omega)
    subst hF hG; rw [es_nil, es_nil]
  | succ n ih =>
    intro m F G h h'
    rcases snoc_cases F with rfl | ⟨F0, v, rfl⟩ <;> rcases snoc_cases G with rfl | ⟨G0, w, rfl⟩
    · rw [es_nil, es_nil]
    · simp [size_eq] at h h'
      obtain ⟨m, rfl⟩ : ∃ k, m = k + 1 := ⟨m - 1, by omega⟩
      rw [es_ins, es_ins, ih m] <;> (simp; omega)
    · simp [size_eq] at h h'
      obtain ⟨m, rfl⟩ : ∃ k, m = k + 1 := ⟨m - 1, by omega⟩
      rw [es_del, es_del, ih m] <;> (simp; omega)
    · simp [size_eq] at h h'
      obtain ⟨m, rfl⟩ : ∃ k, m = k + 1 := ⟨m - 1, by omega⟩
      rw [es_both, es_both, ih m (F0 ++ v.children) (G0 ++ [w]), ih m (F0 ++ [v]) (G0 ++ w.children), ih m v.children w.children,
        ih m F0 G0] <;> (try simp [size_eq]) <;> omega

theorem g_nil : geteditstats ([] : List (RT α)) [] = ⟨0, 0, []⟩ := es_nil _
theorem g_del (F : List (RT α)) (v : RT α) : geteditstats (F ++ [v]) [] = (geteditstats (F ++ v.children) []).op (.del v) := by
  unfold geteditstats
  rw [es_fuel _ (sizeF F + sizeF v.children + 1) (F ++ [v]), es_del, es_fuel] <;> (simp [size_eq]; try omega)
theorem g_ins (G : List (RT α)) (w : RT α) : geteditstats [] (G ++ [w]) = (geteditstats [] (G ++ w.children)).op (.ins w) := by
  unfold geteditstats
  rw [es_fuel _ (sizeF G + sizeF w.children + 1) _ (G ++ [w]), es_ins, es_fuel] <;> (simp [size_eq]; try omega)
theorem g_both (F G : List (RT α)) (v w : RT α) : geteditstats (F ++ [v]) (G ++ [w]) =
      (((geteditstats (F ++ v.children) (G ++ [w])).op (.del v)).min ((geteditstats (F ++ [v]) (G ++ w.children)).op (.ins w))).min
        (matchOrSwap v w ((geteditstats v.children w.children).add (geteditstats F G))) := by
  have h : sizeF (F ++ [v]) + sizeF (G ++ [w]) = (sizeF F + sizeF G + sizeF v.children + sizeF w.children + 1) + 1 := by
    simp [size_eq]; omega
  conv_lhs => rw [geteditstats, h, es_both]
  unfold geteditstats
  congr 1
  · congr 2
    · apply es_fuel <;> simp [size_eq]; omega
    · apply es_fuel <;> simp [size_eq]; omega
  · congr 2
    · apply es_fuel <;> omega
    · apply es_fuel <;> omega

/-- The distance that `geteditstats` reports. -/
def dist (F G : List (RT α)) : Nat := (geteditstats F G).dist

omit [DecidableEq α] in
theorem min_dist (a b : Stats α) : (a.min b).dist = min a.dist b.dist := by
  unfold Stats.min; split <;> omega
/-- `strdist` (treedist.py:134-136). -/
def strdist (a b : α) : Nat := if a = b then 0 else 1

theorem mos_dist (v w : RT α) (s : Stats α) : (matchOrSwap v w s).dist = s.dist + strdist v.label w.label := by
  unfold matchOrSwap strdist; split <;> simp [Stats.op]

theorem d_nil : dist ([] : List (RT α)) [] = 0 := by simp [dist, g_nil]
theorem d_del (F : List (RT α)) (v : RT α) : dist (F ++ [v]) [] = dist (F ++ v.children) [] + 1 := by simp [dist, g_del, Stats.op]
theorem d_ins (G : List (RT α)) (w : RT α) : dist [] (G ++ [w]) = dist [] (G ++ w.children) + 1 := by simp [dist, g_ins, Stats.op]
theorem d_both (F G : List (RT α)) (v w : RT α) : dist (F ++ [v]) (G ++ [w]) =
    min (min (dist (F ++ v.children) (G ++ [w]) + 1) (dist (F ++ [v]) (G ++ w.children) + 1))
      (dist v.children w.children + dist F G + strdist v.label w.label) := by
  simp only [dist]; rw [g_both, min_dist, min_dist, mos_dist]; simp [Stats.op, Stats.add]

theorem d_left (F : List (RT α)) : dist F [] = sizeF F := by
  generalize hn : sizeF F = n
  induction n generalizing F with
  | zero => rw [sizeF_eq_zero.1 hn, d_nil]
  | succ n ih =>
    rcases snoc_cases F with rfl | ⟨F0, v, rfl⟩
    · simp at hn
    · rw [d_del, ih]; simp [size_eq] at hn ⊢; omega
theorem d_right (G : List (RT α)) : dist [] G = sizeF G := by
  generalize hn : sizeF G = n
  induction n generalizing G with
  | zero => rw [sizeF_eq_zero.1 hn, d_nil]
  | succ n ih =>
    rcases snoc_cases G with rfl | ⟨F0, v, rfl⟩
    · simp at hn
    · rw [d_ins, ih]; simp [size_eq] at hn ⊢; omega

theorem del_le (F G : List (RT α)) (v : RT α) : dist (F ++ [v]) G ≤ dist (F ++ v.children) G + 1 := by
  rcases snoc_cases G with rfl | ⟨G0, w, rfl⟩
  · rw [d_del]
  · rw [d_both]; omega
theorem ins_le (F G : List (RT α)) (w : RT α) : dist F (G ++ [w]) ≤ dist F (G ++ w.children) + 1 := by
  rcases snoc_cases F with rfl | ⟨F0, v, rfl⟩
  · rw [d_ins]
  · rw [d_both]; omega

/-- Two neighbouring forests can be treated separately. -/
theorem subadd (A B C D : List (RT α)) : dist (A ++ B) (C ++ D) ≤ dist A C + dist B D := by
  generalize hn : sizeF B + sizeF D = n
  induction n using Nat.strongRecOn generalizing A B C D with
  | _ n ih =>
    rcases snoc_cases B with rfl | ⟨B0, v, rfl⟩ <;> rcases snoc_cases D with rfl | ⟨D0, w, rfl⟩
    · simp [d_nil]
    · have h1 := ins_le A (C ++ D0) w
      have h2 := ih _ (by simp [size_eq] at hn ⊢; omega) A [] C (D0 ++ w.children) rfl
      rw [d_ins]; simp only [List.append_nil, List.append_assoc] at *; omega
    · have h1 := del_le (A ++ B0) C v
      have h2 := ih _ (by simp [size_eq] at hn ⊢; omega) A (B0 ++ v.children) C [] rfl
      rw [d_del]; simp only [List.append_nil, List.append_assoc] at *; omega
    · simp [size_eq] at hn
      have h1 := del_le (A ++ B0) (C ++ (D0 ++ [w])) v
      have h2 := ih _ (by simp [size_eq]; omega) A (B0 ++ v.children) C (D0 ++ [w]) rfl
      have h3 := ins_le (A ++ (B0 ++ [v])) (C ++ D0) w
      have h4 := ih _ (by simp [size_eq]; omega) A (B0 ++ [v]) C (D0 ++ w.children) rfl
      have h5 := ih _ (by omega) A B0 C D0 rfl
      have h6 := d_both (A ++ B0) (C ++ D0) v w
      rw [d_both B0 D0 v w]
      simp only [List.append_assoc] at *
      omega

/-! ### The distance can be reached -/

omit [DecidableEq α] in
theorem Edit1.ctx {F G : List (RT α)} (h : Spec.Edit1 F G) (A B : List (RT α)) : Spec.Edit1 (A ++ F ++ B) (A ++ G ++ B) := by
  cases h with
  | del C D l cs => simpa using Spec.Edit1.del (A ++ C) (D ++ B) l cs
  | ins C D l cs => simpa using Spec.Edit1.ins (A ++ C) (D ++ B) l cs
  | sub C D l l' cs => simpa using Spec.Edit1.sub (A ++ C) (D ++ B) l l' cs
  | inside C D l h => simpa using Spec.Edit1.inside (A ++ C) (D ++ B) l h

omit [DecidableEq α] in
theorem Edit1.symm {F G : List (RT α)} (h : Spec.Edit1 F G) : Spec.Edit1 G F := by
  induction h with
  | del A B l cs => exact .ins A B l cs
  | ins A B l cs => exact .del A B l cs
  | sub A B l l' cs => exact .sub A B l' l cs
  | inside A B l _ ih => exact .inside A B l ih

omit [DecidableEq α] in
theorem Edits.ctx {n : Nat} {F G : List (RT α)} (h : Spec.Edits n F G) (A B : List (RT α)) : Spec.Edits n (A ++ F ++ B) (A ++ G ++ B) := by
  induction h with
  | zero F => exact .zero _
  | succ h1 _ ih => exact .succ (Edit1.ctx h1 A B) ih

omit [DecidableEq α] in
theorem Edits.inside {n : Nat} {F G : List (RT α)} (h : Spec.Edits n F G) (A : List (RT α)) (l : α) :
    Spec.Edits n (A ++ [.node l F]) (A ++ [.node l G]) := by
  induction h with
  | zero F => exact .zero _
  | succ h1 _ ih => exact .succ (.inside A [] l h1) ih

omit [DecidableEq α] in
theorem Edits.trans {m n : Nat} {F G H : List (RT α)} (h : Spec.Edits m F G) (h' : Spec.Edits n G H) : Spec.Edits (m + n) F H := by
  induction h with
  | zero F => simpa using h'
  | succ h1 _ ih => rw [Nat.add_right_comm]; exact .succ h1 (ih h')

omit [DecidableEq α] in
theorem Edits.one {F G : List (RT α)} (h : Spec.Edit1 F G) : Spec.Edits 1 F G := .succ h (.zero _)

omit [DecidableEq α] in
theorem Edits.symm {n : Nat} {F G : List (RT α)} (h : Spec.Edits n F G) : Spec.Edits n G F := by
  induction h with
  | zero F => exact .zero _
  | succ h1 _ ih => exact Edits.trans ih (Edits.one (Edit1.symm h1))

omit [DecidableEq α] in
theorem edit_del (F : List (RT α)) (v : RT α) : Spec.Edit1 (F ++ [v]) (F ++ v.children) := by
  cases v with | node l cs => simpa using Spec.Edit1.del F [] l cs

theorem reach (F G : List (RT α)) : Spec.Edits (dist F G) F G := by
  generalize hn : sizeF F + sizeF G = n
  induction n using Nat.strongRecOn generalizing F G with
  | _ n ih =>
    rcases snoc_cases F with rfl | ⟨F0, v, rfl⟩ <;> rcases snoc_cases G with rfl | ⟨G0, w, rfl⟩
    · rw [d_nil]; exact .zero _
    · rw [d_ins]
      exact Edits.trans (ih _ (by simp [size_eq] at hn ⊢; omega) [] (G0 ++ w.children) rfl) (Edits.one (Edit1.symm (edit_del G0 w)))
    · rw [d_del]
      exact .succ (edit_del F0 v) (ih _ (by simp [size_eq] at hn ⊢; omega) (F0 ++ v.children) [] rfl)
    · simp [size_eq] at hn
      have h1 : Spec.Edits (dist (F0 ++ v.children) (G0 ++ [w]) + 1) (F0 ++ [v]) (G0 ++ [w]) :=
        .succ (edit_del F0 v) (ih _ (by simp [size_eq]; omega) _ _ rfl)
      have h2 : Spec.Edits (dist (F0 ++ [v]) (G0 ++ w.children) + 1) (F0 ++ [v]) (G0 ++ [w]) :=
        Edits.trans (ih _ (by simp [size_eq]; omega) _ _ rfl) (Edits.one (Edit1.symm (edit_del G0 w)))
      have h3 : Spec.Edits (dist v.children w.children + dist F0 G0 + strdist v.label w.label) (F0 ++ [v]) (G0 ++ [w]) := by
        have a := ih _ (by omega) F0 G0 rfl
        have b := ih _ (by omega) v.children w.children rfl
        obtain ⟨l, cs⟩ := v
        obtain ⟨l', ds⟩ := w
        have a' := Edits.ctx a [] [.node l cs]
        have b' := Edits.inside b G0 l
        have c := Edits.trans a' b'
        simp only [List.nil_append] at c
        rw [Nat.add_comm (dist F0 G0)] at c
        unfold strdist
        split
        · next h => simp only [RT.label] at h; subst h; exact c
        · exact Edits.trans c (Edits.one (.sub G0 [] l l' ds))
      rw [d_both]
      rcases Nat.le_total (dist (F0 ++ v.children) (G0 ++ [w]) + 1) (dist (F0 ++ [v]) (G0 ++ w.children) + 1) with h | h
      · rw [Nat.min_eq_left h]
        rcases Nat.le_total (dist (F0 ++ v.children) (G0 ++ [w]) + 1) (dist v.children w.children + dist F0 G0 + strdist v.label w.label) with h' | h'
        · rw [Nat.min_eq_left h']; exact h1
        · rw [Nat.min_eq_right h']; exact h3
      · rw [Nat.min_eq_right h]
        rcases Nat.le_total (dist (F0 ++ [v]) (G0 ++ w.children) + 1) (dist v.children w.children + dist F0 G0 + strdist v.label w.label) with h' | h'
        · rw [Nat.min_eq_left h']; exact h2
        · rw [Nat.min_eq_right h']; exact h3

/-! ### No shorter sequence of edits -/

omit [DecidableEq α] in
/-- The ways an edit can relate to the last tree. -/
theorem Edit1.last {F F' : List (RT α)} (h : Spec.Edit1 F F') :
    (∃ F0 v, F = F0 ++ [v] ∧ F' = F0 ++ v.children) ∨ (∃ F0 v, F = F0 ++ v.children ∧ F' = F0 ++ [v]) ∨
    (∃ F0 l l' cs, F = F0 ++ [.node l cs] ∧ F' = F0 ++ [.node l' cs]) ∨
    (∃ F0 l cs cs', F = F0 ++ [.node l cs] ∧ F' = F0 ++ [.node l cs'] ∧ Spec.Edit1 cs cs') ∨
    (∃ F0 F0' v, F = F0 ++ [v] ∧ F' = F0' ++ [v] ∧ Spec.Edit1 F0 F0') := by
  cases h with
  | del A B l cs =>
    rcases snoc_cases B with rfl | ⟨B0, v, rfl⟩
    · exact .inl ⟨A, .node l cs, by simp, by simp [RT.children]⟩
    · exact .inr (.inr (.inr (.inr ⟨A ++ .node l cs :: B0, A ++ cs ++ B0, v, by simp, by simp, .del A B0 l cs⟩)))
  | ins A B l cs =>
    rcases snoc_cases B with rfl | ⟨B0, v, rfl⟩
    · exact .inr (.inl ⟨A, .node l cs, by simp [RT.children], by simp⟩)
    · exact .inr (.inr (.inr (.inr ⟨A ++ cs ++ B0, A ++ .node l cs :: B0, v, by simp, by simp, .ins A B0 l cs⟩)))
  | sub A B l l' cs =>
    rcases snoc_cases B with rfl | ⟨B0, v, rfl⟩
    · exact .inr (.inr (.inl ⟨A, l, l', cs, by simp, by simp⟩))
    · exact .inr (.inr (.inr (.inr ⟨A ++ .node l cs :: B0, A ++ .node l' cs :: B0, v, by simp, by simp, .sub A B0 l l' cs⟩)))
  | @inside A B l cs cs' h =>
    rcases snoc_cases B with rfl | ⟨B0, v, rfl⟩
    · exact .inr (.inr (.inr (.inl ⟨A, l, cs, cs', by simp, by simp, h⟩)))
    · exact .inr (.inr (.inr (.inr ⟨A ++ .node l cs :: B0, A ++ .node l cs' :: B0, v, by simp, by simp, .inside A B0 l h⟩)))

omit [DecidableEq α] in
theorem Edit1.sizeF_le {F F' : List (RT α)} (h : Spec.Edit1 F F') : sizeF F ≤ sizeF F' + 1 := by
  induction h with
  | del A B l cs => simp; omega
  | ins A B l cs => simp; omega
  | sub A B l l' cs => simp
  | inside A B l _ ih => simp; omega

theorem edit_lip (F F' G : List (RT α)) (h : Spec.Edit1 F F') : dist F G ≤ dist F' G + 1 := by
  generalize hn : sizeF F + sizeF F' + sizeF G = n
  induction n using Nat.strongRecOn generalizing F F' G with
  | _ n ih =>
    rcases snoc_cases G with rfl | ⟨G0, w, rfl⟩
    · rw [d_left, d_left]; exact Edit1.sizeF_le h
    · have hins := ih _ (by simp [size_eq] at hn ⊢; omega) F F' (G0 ++ w.children) h rfl
      rcases Edit1.last h with ⟨F0, v, rfl, rfl⟩ | ⟨F0, v, rfl, rfl⟩ | ⟨F0, l, l', cs, rfl, rfl⟩ | ⟨F0, l, cs, cs', rfl, rfl, hc⟩ | ⟨F0, F0', v, rfl, rfl, hc⟩
      · exact del_le _ _ _
      · have h1 := ins_le (F0 ++ v.children) G0 w
        have h2 := subadd F0 v.children G0 w.children
        rw [d_both]; omega
      · rw [d_both, d_both]
        simp only [children_node, label_node] at *
        have e : strdist l w.label ≤ strdist l' w.label + 1 := by unfold strdist; split <;> omega
        omega
      · simp [size_eq] at hn
        have h1 := ih _ (by simp [size_eq]; omega) (F0 ++ cs) (F0 ++ cs') (G0 ++ [w]) (by simpa using Edit1.ctx hc F0 []) rfl
        have h2 := ih _ (by omega) cs cs' w.children hc rfl
        rw [d_both, d_both]
        simp only [children_node, label_node] at *
        omega
      · simp [size_eq] at hn
        have h1 := ih _ (by simp [size_eq]; omega) (F0 ++ v.children) (F0' ++ v.children) (G0 ++ [w]) (by simpa using Edit1.ctx hc [] v.children) rfl
        have h2 := ih _ (by omega) F0 F0' G0 hc rfl
        rw [d_both, d_both]
        omega

theorem dist_self (F : List (RT α)) : dist F F = 0 := by
  generalize hn : sizeF F = n
  induction n using Nat.strongRecOn generalizing F with
  | _ n ih =>
    rcases snoc_cases F with rfl | ⟨F0, v, rfl⟩
    · exact d_nil
    · simp [size_eq] at hn
      have h1 := ih _ (by omega) F0 rfl
      have h2 := ih _ (by omega) v.children rfl
      rw [d_both, h1, h2]; simp [strdist]

theorem lower {n : Nat} {F G : List (RT α)} (h : Spec.Edits n F G) : dist F G ≤ n := by
  induction h with
  | zero F => rw [dist_self]
  | @succ n F G H h1 _ ih => have := edit_lip F G H h1; omega

/-- **C29** `geteditstats` reports the tree edit distance of two forests: the number of edits it reports suffices, and no
sequence of edits is shorter. -/
theorem C29_geteditstats (F G : List (RT α)) : Spec.IsDistance F G (geteditstats F G).dist := ⟨reach F G, fun _ h => lower h⟩

omit [DecidableEq α] in
/-- The specification determines the distance. -/
theorem Spec.IsDistance.unique {F G : List (RT α)} {d e : Nat} (h : Spec.IsDistance F G d) (h' : Spec.IsDistance F G e) : d = e :=
  Nat.le_antisymm (h.2 _ h'.1) (h'.2 _ h.1)

/-! ### The edit script -/

/-- The nodes of the first forest that a script names. -/
def Spec.firsts (s : List (Op α)) : Nat := s.countP fun | .del _ => true | .ins _ => false | .swap _ _ => true

/-- The nodes of the second forest that a script names. -/
def Spec.seconds (s : List (Op α)) : Nat := s.countP fun | .del _ => false | .ins _ => true | .swap _ _ => true

section
omit [DecidableEq α]
@[simp] theorem firsts_nil : Spec.firsts ([] : List (Op α)) = 0 := rfl
@[simp] theorem seconds_nil : Spec.seconds ([] : List (Op α)) = 0 := rfl
@[simp] theorem firsts_del (n : RT α) (s) : Spec.firsts (.del n :: s) = Spec.firsts s + 1 := by simp [Spec.firsts]
@[simp] theorem firsts_ins (n : RT α) (s) : Spec.firsts (.ins n :: s) = Spec.firsts s := by simp [Spec.firsts]
@[simp] theorem firsts_swap (m n : RT α) (s) : Spec.firsts (.swap m n :: s) = Spec.firsts s + 1 := by simp [Spec.firsts]
@[simp] theorem seconds_del (n : RT α) (s) : Spec.seconds (.del n :: s) = Spec.seconds s := by simp [Spec.seconds]
@[simp] theorem seconds_ins (n : RT α) (s) : Spec.seconds (.ins n :: s) = Spec.seconds s + 1 := by simp [Spec.seconds]
@[simp] theorem seconds_swap (m n : RT α) (s) : Spec.seconds (.swap m n :: s) = Spec.seconds s + 1 := by simp [Spec.seconds]
@[simp] theorem firsts_append (s t : List (Op α)) : Spec.firsts (s ++ t) = Spec.firsts s + Spec.firsts t := by simp [Spec.firsts]
@[simp] theorem seconds_append (s t : List (Op α)) : Spec.seconds (s ++ t) = Spec.seconds s + Spec.seconds t := by simp [Spec.seconds]
end

/-- The script agrees with the numbers, every node of the first forest is deleted, swapped or matched, and every node of the second is
inserted, swapped or matched. -/
def Spec.ScriptOk (F G : List (RT α)) (s : Stats α) : Prop :=
  s.dist = s.script.length ∧
  Spec.firsts s.script + s.matched = sizeF F ∧
  Spec.seconds s.script + s.matched = sizeF G

/-- **C29** The edit script has one entry for each unit of distance, and together with the matched nodes it accounts for every node of both
forests exactly once. -/
theorem C29_script (F G : List (RT α)) : Spec.ScriptOk F G (geteditstats F G) := by
  generalize hn : sizeF F + sizeF G = n
  induction n using Nat.strongRecOn generalizing F G with
  | _ n ih =>
    rcases snoc_cases F with rfl | ⟨F0, v, rfl⟩ <;> rcases snoc_cases G with rfl | ⟨G0, w, rfl⟩
    · simp [g_nil, Spec.ScriptOk]
    · simp [size_eq] at hn
      have h := ih _ (by simp; omega) [] (G0 ++ w.children) rfl
      rw [g_ins]
      simp [Spec.ScriptOk, Stats.op, size_eq] at h ⊢; omega
    · simp [size_eq] at hn
      have h := ih _ (by simp; omega) (F0 ++ v.children) [] rfl
      rw [g_del]
      simp [Spec.ScriptOk, Stats.op, size_eq] at h ⊢; omega
    · simp [size_eq] at hn
      have h1 := ih _ (by simp [size_eq]; omega) (F0 ++ v.children) (G0 ++ [w]) rfl
      have h2 := ih _ (by simp [size_eq]; omega) (F0 ++ [v]) (G0 ++ w.children) rfl
      have h3 := ih _ (by omega) F0 G0 rfl
      have h4 := ih _ (by omega) v.children w.children rfl
      have a : Spec.ScriptOk (F0 ++ [v]) (G0 ++ [w]) ((geteditstats (F0 ++ v.children) (G0 ++ [w])).op (.del v)) := by
        simp [Spec.ScriptOk, Stats.op, size_eq] at h1 ⊢; omega
      have b : Spec.ScriptOk (F0 ++ [v]) (G0 ++ [w]) ((geteditstats (F0 ++ [v]) (G0 ++ w.children)).op (.ins w)) := by
        simp [Spec.ScriptOk, Stats.op, size_eq] at h2 ⊢; omega
      have c : Spec.ScriptOk (F0 ++ [v]) (G0 ++ [w]) (matchOrSwap v w ((geteditstats v.children w.children).add (geteditstats F0 G0))) := by
        unfold matchOrSwap
        split <;> simp [Spec.ScriptOk, Stats.op, Stats.add, size_eq] at h3 h4 ⊢ <;> omega
      rw [g_both]
      have mn : ∀ x y : Stats α, Spec.ScriptOk (F0 ++ [v]) (G0 ++ [w]) x → Spec.ScriptOk (F0 ++ [v]) (G0 ++ [w]) y →
          Spec.ScriptOk (F0 ++ [v]) (G0 ++ [w]) (x.min y) := by
        intro x y hx hy; unfold Stats.min; split <;> assumption
      exact mn _ _ (mn _ _ a b) c

/-! ### Consequences: a metric -/

/-- **C29** The distance is zero only for equal forests, symmetric, and satisfies the triangle inequality. -/
theorem C29_metric (F G H : List (RT α)) :
    ((geteditstats F G).dist = 0 ↔ F = G) ∧ (geteditstats F G).dist = (geteditstats G F).dist ∧
    (geteditstats F H).dist ≤ (geteditstats F G).dist + (geteditstats G H).dist := by
  refine ⟨⟨fun h => ?_, fun h => ?_⟩, ?_, ?_⟩
  · have := reach F G
    rw [show dist F G = 0 from h] at this
    cases this; rfl
  · subst h; exact dist_self F
  · exact Nat.le_antisymm (lower (Edits.symm (reach G F))) (lower (Edits.symm (reach F G)))
  · exact lower (Edits.trans (reach F G) (reach G H))

end

end Disco.Ted
