import Verif.Basic.StrLemmas
import Verif.Basic.Tree

/-!
# Function tags in labels (treebank.py: handlefunctions 932-965; readers of bracketed trees 231-243, 284-295)
-/

namespace Disco.FuncTags
open Disco

/-! ## Model -/

/-- A node: its label and its function tag (`source[FUNC]`; the empty string also when there is no `source`). -/
abbrev Attr := Str × Str

/-- The node has children that are terminals: `not isinstance(node[0], Tree)`. Nodes without children are outside of the model. -/
def preterm (cs : List (PTree Attr)) : Bool :=
  match cs with
  | .leaf _ :: _ => true
  | _ => false

/-- `func` (treebank.py:953-956): `'--'` counts as empty. -/
def funcOf (f : Str) : Option Str := if f = [] ∨ f = ['-', '-'] then none else some f

/-- `x = label.find(char); if x > 0: label = label[:x]` (treebank.py:944-947). -/
def cut (c : Char) (label : Str) : Str :=
  match Str.find [c] label with
  | some (x + 1) => label.take (x + 1)
  | _ => label

/-- Both characters (treebank.py:944). -/
def cutBoth (label : Str) : Str := cut '=' (cut '-' label)

/-- `action`. -/
inductive Action where
  | leave | add | replace | remove | between
  deriving DecidableEq

/-- A node whose children have been handled (treebank.py:942-965). -/
def handleNode (action : Action) (pos root between isRoot : Bool) (a : Attr) (pre : Bool) (cs : List (PTree Attr)) : PTree Attr :=
  if action = .remove then .node (cutBoth a.1, a.2) cs
  else if between && pre then .node a cs
  else if (!root || decide (action = .between)) && isRoot then .node a cs
  else if pos || !pre then
    match action with
    | .add => match funcOf a.2 with
      | some f => .node (a.1 ++ '-' :: f, a.2) cs
      | none => .node a cs
    | .replace => .node ((funcOf a.2).getD ['-', '-'], a.2) cs
    | .between => .node ('-' :: (funcOf a.2).getD ['-', '-'], []) [.node a cs]
    | _ => .node a cs
  else .node a cs

mutual
/-- The traversal: every original node once (nodes that are introduced are not visited: they are not on the agenda). -/
def handleT (action : Action) (pos root between isRoot : Bool) : PTree Attr → PTree Attr
  | .leaf i => .leaf i
  | .node a cs => handleNode action pos root between isRoot a (preterm cs) (handleL action pos root between cs)
def handleL (action : Action) (pos root between : Bool) : List (PTree Attr) → List (PTree Attr)
  | [] => []
  | c :: cs => handleT action pos root between false c :: handleL action pos root between cs
end

/-- `handlefunctions` (treebank.py:932-965). `between` is `morphology == 'between'`. -/
def handlefunctions (action : Action) (t : PTree Attr) (pos : Bool := true) (root : Bool := false) (between : Bool := false) : PTree Attr :=
  match action with
  | .leave => t
  | a => handleT a pos root between true t

/-- `s.isdigit()`. -/
def isdigit (s : Str) : Bool := !s.isEmpty && s.all (fun c => c.isDigit)

/-- `s.rstrip('=0123456789')`. -/
def rstripIdx (s : Str) : Str := (s.reverse.dropWhile (fun c => c = '=' || c.isDigit)).reverse

/-- The function tag that is read from a label (treebank.py:236-242). -/
def readFunc (label : Str) : Str :=
  match Str.find ['-'] label with
  | some (x + 1) => if isdigit (label.drop (x + 2)) then ['-', '-'] else rstripIdx (label.drop (x + 2))
  | _ => ['-', '-']

mutual
/-- The labels of a tree in bracket notation are read (treebank.py:232-243, 284-295); `remove` is `self.functions == 'remove'`. -/
def readT (remove : Bool) : PTree Str → PTree Attr
  | .leaf i => .leaf i
  | .node l cs => .node (if remove then cutBoth l else l, readFunc l) (readL remove cs)
def readL (remove : Bool) : List (PTree Str) → List (PTree Attr)
  | [] => []
  | c :: cs => readT remove c :: readL remove cs
end

/-! ## Specification -/

/-- The label of a category: not empty, no `-`, no `=`. -/
def Spec.Cat (l : Str) : Prop := l ≠ [] ∧ '-' ∉ l ∧ '=' ∉ l

/-- A function tag, possibly of several parts: does not end with an index. -/
def Spec.Fun (f : Str) : Prop := f = [] ∨ f = ['-', '-'] ∨ ∃ g c, f = g ++ [c] ∧ c ≠ '=' ∧ c.isDigit = false

mutual
/-- A condition for all nodes. -/
def Spec.AllT (P : Str → Str → Prop) : PTree Attr → Prop
  | .leaf _ => True
  | .node a cs => P a.1 a.2 ∧ Spec.AllL P cs
def Spec.AllL (P : Str → Str → Prop) : List (PTree Attr) → Prop
  | [] => True
  | c :: cs => Spec.AllT P c ∧ Spec.AllL P cs
end

mutual
/-- The labels. -/
def Spec.labelsT : PTree Attr → PTree Str
  | .leaf i => .leaf i
  | .node a cs => .node a.1 (Spec.labelsL cs)
def Spec.labelsL : List (PTree Attr) → List (PTree Str)
  | [] => []
  | c :: cs => Spec.labelsT c :: Spec.labelsL cs
end

mutual
/-- Empty function tags are written `--`. -/
def Spec.normT : PTree Attr → PTree Attr
  | .leaf i => .leaf i
  | .node a cs => .node (a.1, (funcOf a.2).getD ['-', '-']) (Spec.normL cs)
def Spec.normL : List (PTree Attr) → List (PTree Attr)
  | [] => []
  | c :: cs => Spec.normT c :: Spec.normL cs
end

mutual
/-- A function applied to all labels. -/
def Spec.mapT (f : Str → Str) : PTree Attr → PTree Attr
  | .leaf i => .leaf i
  | .node a cs => .node (f a.1, a.2) (Spec.mapL f cs)
def Spec.mapL (f : Str → Str) : List (PTree Attr) → List (PTree Attr)
  | [] => []
  | c :: cs => Spec.mapT f c :: Spec.mapL f cs
end

/-- The root has no function tag. -/
def Spec.dropRoot : PTree Attr → PTree Attr
  | .leaf i => .leaf i
  | .node a cs => .node (a.1, ['-', '-']) cs

/-! ## Lemmas -/

theorem find_char (c : Char) (b : Str) : ∀ a : Str, c ∉ a → Str.find [c] (a ++ c :: b) = some a.length
  | [], _ => by simp [Str.find, List.isPrefixOf]
  | x :: a, h => by
    have hx : c ≠ x := fun e => h (by rw [e]; exact List.mem_cons_self)
    have ih := find_char c b a (fun h' => h (List.mem_cons_of_mem _ h'))
    rw [List.cons_append, Str.find]
    rw [if_neg (by simp [List.isPrefixOf, hx]), ih]
    rfl

theorem find_char_none (c : Char) : ∀ a : Str, c ∉ a → Str.find [c] a = none
  | [], _ => rfl
  | x :: a, h => by
    have hx : c ≠ x := fun e => h (by rw [e]; exact List.mem_cons_self)
    rw [Str.find, if_neg (by simp [List.isPrefixOf, hx]), find_char_none c a (fun h' => h (List.mem_cons_of_mem _ h'))]
    rfl

theorem cut_sep {c : Char} {a : Str} (b : Str) (hne : a ≠ []) (h : c ∉ a) : cut c (a ++ c :: b) = a := by
  unfold cut
  rw [find_char c b a h]
  cases a with
  | nil => exact absurd rfl hne
  | cons x a => simp

theorem cut_none {c : Char} {a : Str} (h : c ∉ a) : cut c a = a := by
  unfold cut
  rw [find_char_none c a h]

/-- Every text is without the character, or is cut at the first one. -/
theorem char_cases (c : Char) (s : Str) : c ∉ s ∨ ∃ a b, s = a ++ c :: b ∧ c ∉ a := by
  by_cases h : c ∈ s
  · right
    induction s with
    | nil => cases h
    | cons x s ih =>
      by_cases hx : c = x
      · exact ⟨[], s, by rw [hx]; rfl, List.not_mem_nil⟩
      · rcases List.mem_cons.mp h with h | h
        · exact absurd h hx
        · obtain ⟨a, b, h1, h2⟩ := ih h
          refine ⟨x :: a, b, by rw [h1]; rfl, ?_⟩
          intro h'
          rcases List.mem_cons.mp h' with h' | h'
          · exact hx h'
          · exact h2 h'
  · exact .inl h

theorem cut_prefix (c : Char) (s : Str) : cut c s <+: s := by
  unfold cut
  split
  · exact List.take_prefix _ _
  · exact List.prefix_refl _

/-- What is left after a cut. -/
theorem cut_spec (c : Char) (s : Str) : c ∉ (cut c s).drop 1 ∨ ∃ t, cut c s = s ∧ s = c :: t := by
  rcases char_cases c s with h | ⟨a, b, rfl, h⟩
  · rw [cut_none h]
    exact .inl (fun h' => h (List.mem_of_mem_drop h'))
  · cases a with
    | nil =>
      right
      refine ⟨b, ?_, rfl⟩
      unfold cut
      rw [find_char c b [] h]
      rfl
    | cons x a =>
      rw [cut_sep b (List.cons_ne_nil _ _) h]
      exact .inl (fun h' => h (List.mem_of_mem_drop h'))

theorem cut_idem (c : Char) (s : Str) : cut c (cut c s) = cut c s := by
  rcases char_cases c s with h | ⟨a, b, rfl, h⟩
  · rw [cut_none h, cut_none h]
  · cases a with
    | nil =>
      have : cut c ([] ++ c :: b) = [] ++ c :: b := by
        unfold cut
        rw [find_char c b [] h]
        rfl
      rw [this, this]
    | cons x a =>
      rw [cut_sep b (List.cons_ne_nil _ _) h, cut_none h]

theorem rstrip_fun {g : Str} {c : Char} (h1 : c ≠ '=') (h2 : c.isDigit = false) : rstripIdx (g ++ [c]) = g ++ [c] := by
  unfold rstripIdx
  rw [List.reverse_append, List.reverse_singleton, List.singleton_append, List.dropWhile_cons_of_neg (by simp [h1, h2])]
  simp

theorem isdigit_fun {g : Str} {c : Char} (h2 : c.isDigit = false) : isdigit (g ++ [c]) = false := by
  unfold isdigit
  simp [h2]

theorem funcOf_none {f : Str} (h : funcOf f = none) : f = [] ∨ f = ['-', '-'] := by
  unfold funcOf at h
  split at h
  · assumption
  · cases h

theorem funcOf_some {f g : Str} (h : funcOf f = some g) : g = f ∧ f ≠ [] ∧ f ≠ ['-', '-'] := by
  unfold funcOf at h
  split at h
  · cases h
  · rename_i h'
    injection h with h
    exact ⟨h.symm, fun e => h' (.inl e), fun e => h' (.inr e)⟩

/-- The label with its function tag. -/
def tagged (a : Attr) : Str :=
  match funcOf a.2 with
  | some f => a.1 ++ '-' :: f
  | none => a.1

theorem read_tagged (a : Attr) (h1 : Spec.Cat a.1) (h2 : Spec.Fun a.2) :
    cutBoth (tagged a) = a.1 ∧ readFunc (tagged a) = (funcOf a.2).getD ['-', '-'] := by
  obtain ⟨hne, hd, he⟩ := h1
  unfold tagged
  cases hf : funcOf a.2 with
  | none =>
    refine ⟨?_, ?_⟩
    · unfold cutBoth
      rw [cut_none hd, cut_none he]
    · unfold readFunc
      rw [find_char_none _ _ hd]
      rfl
  | some f =>
    obtain ⟨rfl, n1, n2⟩ := funcOf_some hf
    refine ⟨?_, ?_⟩
    · unfold cutBoth
      dsimp only
      rw [cut_sep _ hne hd, cut_none he]
    · unfold readFunc
      dsimp only
      rw [find_char _ _ _ hd]
      cases hx : a.1 with
      | nil => exact absurd hx hne
      | cons x l =>
        simp only [List.length_cons]
        have hdrop : ((x :: l) ++ '-' :: a.2).drop (l.length + 2) = a.2 := by
          have : l.length + 2 = ((x :: l) ++ ['-']).length := by simp
          rw [this]
          have : (x :: l) ++ '-' :: a.2 = ((x :: l) ++ ['-']) ++ a.2 := by simp
          rw [this, List.drop_left]
        rw [hdrop]
        rcases h2 with h | h | ⟨g, c, h, h3, h4⟩
        · exact absurd h n1
        · exact absurd h n2
        · rw [h, isdigit_fun h4, rstrip_fun h3 h4]
          simp

theorem handleNode_add (a : Attr) (pre : Bool) (cs : List (PTree Attr)) : handleNode .add true false false false a pre cs = .node (tagged a, a.2) cs := by
  unfold handleNode tagged
  rw [if_neg (by decide)]
  cases funcOf a.2 <;> simp

theorem handleNode_add_root (a : Attr) (pre : Bool) (cs : List (PTree Attr)) : handleNode .add true false false true a pre cs = .node a cs := by
  unfold handleNode
  rw [if_neg (by decide)]
  simp

theorem handleNode_remove (pos root between isRoot : Bool) (a : Attr) (pre : Bool) (cs : List (PTree Attr)) :
    handleNode .remove pos root between isRoot a pre cs = .node (cutBoth a.1, a.2) cs := by
  unfold handleNode
  simp

mutual
theorem add_read : ∀ t : PTree Attr, Spec.AllT (fun l f => Spec.Cat l ∧ Spec.Fun f) t →
    readT true (Spec.labelsT (handleT .add true false false false t)) = Spec.normT t
  | .leaf _, _ => rfl
  | .node a cs, h => by
    rw [Spec.AllT] at h
    obtain ⟨e1, e2⟩ := read_tagged a h.1.1 h.1.2
    rw [handleT, handleNode_add, Spec.labelsT, readT, add_readL cs h.2, Spec.normT]
    simp only [if_true, e1, e2]
theorem add_readL : ∀ cs : List (PTree Attr), Spec.AllL (fun l f => Spec.Cat l ∧ Spec.Fun f) cs →
    readL true (Spec.labelsL (handleL .add true false false cs)) = Spec.normL cs
  | [], _ => rfl
  | c :: cs, h => by
    rw [Spec.AllL] at h
    rw [handleL, Spec.labelsL, readL, Spec.normL, add_read c h.1, add_readL cs h.2]
end

mutual
theorem add_remove : ∀ (t : PTree Attr) (b : Bool), Spec.AllT (fun l _ => Spec.Cat l) t →
    handleT .remove true false false b (handleT .add true false false b t) = t
  | .leaf _, _, _ => rfl
  | .node a cs, b, h => by
    rw [Spec.AllT] at h
    obtain ⟨⟨hne, hd, he⟩, h2⟩ := h
    have hcut : cutBoth a.1 = a.1 := by
      unfold cutBoth
      rw [cut_none hd, cut_none he]
    have hcut' : cutBoth (tagged a) = a.1 := by
      unfold tagged
      cases funcOf a.2 with
      | none => exact hcut
      | some f =>
        unfold cutBoth
        dsimp only
        rw [cut_sep _ hne hd, cut_none he]
    cases b with
    | true => rw [handleT, handleNode_add_root, handleT, handleNode_remove, hcut, add_removeL cs h2]
    | false => rw [handleT, handleNode_add, handleT, handleNode_remove, hcut', add_removeL cs h2]
theorem add_removeL : ∀ cs : List (PTree Attr), Spec.AllL (fun l _ => Spec.Cat l) cs →
    handleL .remove true false false (handleL .add true false false cs) = cs
  | [], _ => rfl
  | c :: cs, h => by
    rw [Spec.AllL] at h
    rw [handleL, handleL, add_remove c false h.1, add_removeL cs h.2]
end

theorem cut_id {c : Char} {s : Str} (h : c ∉ s.drop 1 ∨ ∃ t, s = c :: t) : cut c s = s := by
  cases s with
  | nil => rfl
  | cons x s =>
    by_cases hx : x = c
    · subst hx
      unfold cut
      have := find_char x s [] List.not_mem_nil
      rw [List.nil_append] at this
      rw [this]
      rfl
    · rcases h with h | ⟨t, h⟩
      · apply cut_none
        intro h'
        rcases List.mem_cons.mp h' with h' | h'
        · exact hx h'.symm
        · exact h (by simpa using h')
      · injection h with h _
        exact absurd h hx

theorem takeWhile_eq (q : Char → Bool) (a : Str) (c : Char) (b : Str) (h : ∀ x ∈ a, q x = true) (hc : q c = false) : (a ++ c :: b).takeWhile q = a := by
  induction a with
  | nil => rw [List.nil_append, List.takeWhile_cons_of_neg (by simp [hc])]
  | cons x a ih =>
    rw [List.cons_append, List.takeWhile_cons_of_pos (h x List.mem_cons_self), ih (fun y hy => h y (List.mem_cons_of_mem _ hy))]

theorem takeWhile_all_eq (q : Char → Bool) (a : Str) (h : ∀ x ∈ a, q x = true) : a.takeWhile q = a := by
  induction a with
  | nil => rfl
  | cons x a ih =>
    rw [List.takeWhile_cons_of_pos (h x List.mem_cons_self), ih (fun y hy => h y (List.mem_cons_of_mem _ hy))]

theorem cut_head {c : Char} {s : Str} (h : s.head? ≠ some c) : cut c s = s.takeWhile (fun x => x ≠ c) := by
  rcases char_cases c s with h' | ⟨a, b, rfl, h'⟩
  · rw [cut_none h', takeWhile_all_eq]
    intro x hx
    simp only [decide_eq_true_eq, ne_eq]
    exact fun e => h' (e ▸ hx)
  · have hne : a ≠ [] := by
      rintro rfl
      exact h rfl
    rw [cut_sep _ hne h', takeWhile_eq]
    · intro x hx
      simp only [decide_eq_true_eq, ne_eq]
      exact fun e => h' (e ▸ hx)
    · simp

theorem takeWhile_takeWhile (p q : Char → Bool) : ∀ s : Str, (s.takeWhile p).takeWhile q = s.takeWhile (fun c => p c && q c)
  | [] => rfl
  | x :: s => by
    by_cases h1 : p x = true
    · rw [List.takeWhile_cons_of_pos h1]
      by_cases h2 : q x = true
      · rw [List.takeWhile_cons_of_pos h2, List.takeWhile_cons_of_pos (by simp [h1, h2]), takeWhile_takeWhile p q s]
      · rw [List.takeWhile_cons_of_neg h2, List.takeWhile_cons_of_neg (by simp [h2])]
    · rw [List.takeWhile_cons_of_neg h1, List.takeWhile_cons_of_neg (by simp [h1])]
      rfl

theorem cutBoth_idem (l : Str) : cutBoth (cutBoth l) = cutBoth l := by
  have hmid : cut '-' (cutBoth l) = cutBoth l := by
    apply cut_id
    have hp : cutBoth l <+: cut '-' l := cut_prefix _ _
    rcases cut_spec '-' l with h | ⟨t, h1, h2⟩
    · left
      intro h'
      apply h
      obtain ⟨r, hr⟩ := hp
      rw [← hr]
      cases hc : cutBoth l with
      | nil => rw [hc] at h'; cases h'
      | cons x s =>
        rw [hc] at h'
        simp only [List.drop_succ_cons, List.drop_zero] at h'
        simp [h']
    · rw [h1, h2] at hp
      cases hc : cutBoth l with
      | nil => exact .inl (by simp)
      | cons x s =>
        rw [← h2, hc, h2] at hp
        obtain ⟨r, hr⟩ := hp
        injection hr with hr _
        exact .inr ⟨s, by rw [hr]⟩
  show cut '=' (cut '-' (cutBoth l)) = cutBoth l
  rw [hmid]
  exact cut_idem _ _

mutual
theorem remove_remove : ∀ (t : PTree Attr) (p r b p' r' b' i i' : Bool), handleT .remove p r b i (handleT .remove p' r' b' i' t) = handleT .remove p' r' b' i' t
  | .leaf _, _, _, _, _, _, _, _, _ => rfl
  | .node a cs, p, r, b, p', r', b', i, i' => by
    rw [handleT, handleNode_remove, handleT, handleNode_remove, remove_removeL cs, cutBoth_idem]
theorem remove_removeL : ∀ (cs : List (PTree Attr)) (p r b p' r' b' : Bool), handleL .remove p r b (handleL .remove p' r' b' cs) = handleL .remove p' r' b' cs
  | [], _, _, _, _, _, _ => rfl
  | c :: cs, p, r, b, p', r', b' => by
    rw [handleL, handleL, remove_remove c, remove_removeL cs]
end

mutual
theorem leaves_handle (act : Action) : ∀ (t : PTree Attr) (p r b i : Bool), (handleT act p r b i t).leaves = t.leaves
  | .leaf _, _, _, _, _ => rfl
  | .node a cs, p, r, b, i => by
    have ih := leaves_handleL act cs p r b
    have key : ∀ a' pre cs', PTree.leaves (handleNode act p r b i a' pre cs') = PTree.leavesL cs' := by
      intro a' pre cs'
      unfold handleNode
      split
      · rfl
      · split
        · rfl
        · split
          · rfl
          · split
            · cases act with
              | add => dsimp only; cases funcOf a'.2 <;> rfl
              | between => simp [PTree.leaves, PTree.leavesL]
              | replace => rfl
              | leave => rfl
              | remove => rfl
            · rfl
    rw [handleT, key, ih]
    rfl
theorem leaves_handleL (act : Action) : ∀ (cs : List (PTree Attr)) (p r b : Bool), PTree.leavesL (handleL act p r b cs) = PTree.leavesL cs
  | [], _, _, _ => rfl
  | c :: cs, p, r, b => by
    rw [handleL, PTree.leavesL, PTree.leavesL, leaves_handle act c, leaves_handleL act cs]
end

mutual
/-- What is put above each node is taken away again. -/
def Spec.unwrapT : PTree Attr → PTree Attr
  | .leaf i => .leaf i
  | .node a cs => .node a (Spec.unwrapL cs)
/-- Every child that is a tree has been put below a node of its own. -/
def Spec.unwrapL : List (PTree Attr) → List (PTree Attr)
  | [] => []
  | .node _ [c] :: cs => Spec.unwrapT c :: Spec.unwrapL cs
  | c :: cs => c :: Spec.unwrapL cs
end

theorem handleNode_between (a : Attr) (pre : Bool) (cs : List (PTree Attr)) :
    handleNode .between true false false false a pre cs = .node ('-' :: (funcOf a.2).getD ['-', '-'], []) [.node a cs] := by
  unfold handleNode
  simp

theorem handleNode_between_root (a : Attr) (pre : Bool) (cs : List (PTree Attr)) : handleNode .between true false false true a pre cs = .node a cs := by
  unfold handleNode
  simp

theorem unwrap_handle : ∀ t : PTree Attr, ∀ a cs, t = .node a cs → Spec.unwrapL (handleL .between true false false cs) = cs := by
  intro t
  induction t using PTree.ind with
  | hleaf i => intro a cs h; cases h
  | hnode l cs ih =>
    intro a cs' h
    injection h with _ h
    subst h
    have key : ∀ cs : List (PTree Attr), (∀ c ∈ cs, ∀ a cs', c = .node a cs' → Spec.unwrapL (handleL .between true false false cs') = cs') →
        Spec.unwrapL (handleL .between true false false cs) = cs := by
      intro cs
      induction cs with
      | nil => intro _; rw [handleL, Spec.unwrapL]
      | cons c cs ihl =>
        intro h
        have e := ihl (fun c' hc' => h c' (List.mem_cons_of_mem _ hc'))
        rw [handleL]
        cases hc : c with
        | leaf i =>
          rw [handleT, Spec.unwrapL, e]
          intro a c' h'; cases h'
        | node a' cs' =>
          rw [handleT, handleNode_between, Spec.unwrapL, e, Spec.unwrapT, h c List.mem_cons_self a' cs' hc]
    exact key cs ih

theorem cutBoth_head {l : Str} (h1 : l.head? ≠ some '-') (h2 : l.head? ≠ some '=') : cutBoth l = l.takeWhile (fun c => c ≠ '-' && c ≠ '=') := by
  unfold cutBoth
  rw [cut_head h1, cut_head, takeWhile_takeWhile]
  intro h
  apply h2
  cases l with
  | nil => cases h
  | cons x l =>
    by_cases hx : x = '-'
    · exact absurd (by rw [hx]; rfl) h1
    · simpa [List.takeWhile_cons, hx] using h

mutual
theorem remove_map : ∀ (t : PTree Attr) (i : Bool), Spec.AllT (fun l _ => l.head? ≠ some '-' ∧ l.head? ≠ some '=') t →
    handleT .remove true false false i t = Spec.mapT (fun l => l.takeWhile (fun c => c ≠ '-' && c ≠ '=')) t
  | .leaf _, _, _ => rfl
  | .node a cs, i, h => by
    rw [Spec.AllT] at h
    rw [handleT, handleNode_remove, cutBoth_head h.1.1 h.1.2, remove_mapL cs h.2, Spec.mapT]
theorem remove_mapL : ∀ cs : List (PTree Attr), Spec.AllL (fun l _ => l.head? ≠ some '-' ∧ l.head? ≠ some '=') cs →
    handleL .remove true false false cs = Spec.mapL (fun l => l.takeWhile (fun c => c ≠ '-' && c ≠ '=')) cs
  | [], _ => rfl
  | c :: cs, h => by
    rw [Spec.AllL] at h
    rw [handleL, Spec.mapL, remove_map c false h.1, remove_mapL cs h.2]
end

/-! ## Theorems -/

/-- **Round trip through bracket notation.** Function tags are added to the labels, the labels are written, and read with the option to
remove function tags: the labels and the function tags are the same (the root has no tag). -/
theorem C73_roundtrip (t : PTree Attr) (h : Spec.AllT (fun l f => Spec.Cat l ∧ Spec.Fun f) t) :
    readT true (Spec.labelsT (handlefunctions .add t)) = Spec.dropRoot (Spec.normT t) := by
  unfold handlefunctions
  cases t with
  | leaf i => rfl
  | node a cs =>
    rw [Spec.AllT] at h
    obtain ⟨⟨⟨hne, hd, he⟩, hf⟩, h2⟩ := h
    dsimp only
    rw [handleT, handleNode_add_root, Spec.labelsT, readT, add_readL cs h2, Spec.normT, Spec.dropRoot]
    simp only [if_true]
    have e1 : cutBoth a.1 = a.1 := by
      unfold cutBoth
      rw [cut_none hd, cut_none he]
    have e2 : readFunc a.1 = ['-', '-'] := by
      unfold readFunc
      rw [find_char_none _ _ hd]
    rw [e1, e2]

/-- **Removing undoes adding**, whatever the function tags. -/
theorem C73_add_remove (t : PTree Attr) (h : Spec.AllT (fun l _ => Spec.Cat l) t) : handlefunctions .remove (handlefunctions .add t) = t :=
  add_remove t true h

/-- **Removing.** Every label is cut at the first `-` or `=`, when no label starts with one of these. -/
theorem C73_remove (t : PTree Attr) (h : Spec.AllT (fun l _ => l.head? ≠ some '-' ∧ l.head? ≠ some '=') t) :
    handlefunctions .remove t = Spec.mapT (fun l => l.takeWhile (fun c => c ≠ '-' && c ≠ '=')) t := remove_map t true h

/-- Removing twice is the same as removing once. -/
theorem C73_remove_idempotent (t : PTree Attr) : handlefunctions .remove (handlefunctions .remove t) = handlefunctions .remove t :=
  remove_remove t _ _ _ _ _ _ _ _

/-- No option changes the terminals. -/
theorem C73_leaves (act : Action) (t : PTree Attr) (pos root between : Bool) : (handlefunctions act t pos root between).leaves = t.leaves := by
  unfold handlefunctions
  cases act with
  | leave => rfl
  | _ => exact leaves_handle _ t _ _ _ _

/-- **Nodes with function tags.** Every node but the root is put below a node with its function tag as label; taking these away gives the tree back. -/
theorem C73_between (t : PTree Attr) : Spec.unwrapT (handlefunctions .between t) = t ∧
    ∀ a cs, t = .node a cs → ∃ ds, handlefunctions .between t = .node a ds ∧ ds.length = cs.length ∧
      ∀ d ∈ ds, ∀ b es, d = .node b es → ∃ a' es', b.1 = '-' :: (funcOf a'.2).getD ['-', '-'] ∧ es = [.node a' es'] := by
  constructor
  · cases t with
    | leaf i => rfl
    | node a cs =>
      show Spec.unwrapT (handleT _ _ _ _ _ _) = _
      rw [handleT, handleNode_between_root, Spec.unwrapT, unwrap_handle _ a cs rfl]
  · rintro a cs rfl
    refine ⟨handleL .between true false false cs, ?_, ?_, ?_⟩
    · show handleT _ _ _ _ _ _ = _
      rw [handleT, handleNode_between_root]
    · induction cs with
      | nil => rfl
      | cons c cs ih => rw [handleL, List.length_cons, List.length_cons, ih]
    · induction cs with
      | nil => intro d hd; rw [handleL] at hd; cases hd
      | cons c cs ih =>
        intro d hd
        rw [handleL] at hd
        rcases List.mem_cons.mp hd with rfl | hd
        · intro b es h
          cases c with
          | leaf i => rw [handleT] at h; cases h
          | node a' cs' =>
            rw [handleT, handleNode_between] at h
            injection h with h1 h2
            exact ⟨a', _, by rw [← h1], h2.symm⟩
        · exact ih d hd

/-! ## Concrete cases -/

/-- `(S (NP-SBJ 0) (VP-- 1) (PP-LOC-CLR 2))`. -/
def treeEx : PTree Attr := .node ("S".toList, []) [.node ("NP".toList, "SBJ".toList) [.leaf 0], .node ("VP".toList, "--".toList) [.leaf 1], .node ("PP".toList, "LOC-CLR".toList) [.leaf 2]]

theorem ex_clean : Spec.AllT (fun l f => Spec.Cat l ∧ Spec.Fun f) treeEx := by
  have hc : ∀ l : Str, l ≠ [] → '-' ∉ l → '=' ∉ l → Spec.Cat l := fun l a b c => ⟨a, b, c⟩
  simp only [treeEx, Spec.AllT, Spec.AllL, and_true]
  refine ⟨⟨hc _ (by decide) (by decide) (by decide), .inl rfl⟩, ⟨hc _ (by decide) (by decide) (by decide), .inr (.inr ⟨"SB".toList, 'J', rfl, by decide, by decide⟩)⟩,
    ⟨hc _ (by decide) (by decide) (by decide), .inr (.inl rfl)⟩, ⟨hc _ (by decide) (by decide) (by decide), .inr (.inr ⟨"LOC-CL".toList, 'R', rfl, by decide, by decide⟩)⟩⟩

example : readT true (Spec.labelsT (handlefunctions .add treeEx)) =
    .node ("S".toList, "--".toList) [.node ("NP".toList, "SBJ".toList) [.leaf 0], .node ("VP".toList, "--".toList) [.leaf 1], .node ("PP".toList, "LOC-CLR".toList) [.leaf 2]] := by
  rw [C73_roundtrip treeEx ex_clean]; decide

example : handlefunctions .remove (.node ("NP-SBJ=2".toList, []) [.leaf 0]) = .node ("NP".toList, []) [.leaf 0] := by decide

/-- **Disagreement.** The index of a trace after a function tag: the function tag that is read is not `SBJ`. -/
theorem C73_index_disagreement : readT true (.node "NP-SBJ-1".toList [.leaf 0]) = .node ("NP".toList, "SBJ-".toList) [.leaf 0] := by decide

/-- **Disagreement.** A label that starts with a dash: a function tag that was added is not removed. -/
theorem C73_dash_disagreement : ∃ t : PTree Attr, handlefunctions .remove (handlefunctions .add t) ≠ t :=
  ⟨.node ("S".toList, []) [.node ("-LRB-".toList, "PUNCT".toList) [.leaf 0]], by decide⟩

/-- **Disagreement.** Labels are read with the option to leave the function tags, and written with function tags: these are there twice. -/
theorem C73_twice_disagreement : Spec.labelsT (handlefunctions .add (readT false (.node "S".toList [.node "NP-SBJ".toList [.leaf 0]]))) =
    .node "S".toList [.node "NP-SBJ-SBJ".toList [.leaf 0]] := by decide

end Disco.FuncTags
