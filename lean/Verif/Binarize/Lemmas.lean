import Verif.Basic.StrLemmas
import Verif.Binarize.Model
/-! Helper lemmas for binarization. -/
namespace Disco.Binarize
open Disco PTree

variable {cc pc : Str} {u : Option Char}

@[simp] theorem unbinList_nil : unbinList cc pc u [] = [] := by simp [unbinList]
@[simp] theorem unbinList_cons (c : HTree) (cs) :
    unbinList cc pc u (c :: cs) = unbinChild cc pc u c ++ unbinList cc pc u cs := by
  simp [unbinList]
@[simp] theorem unbinList_append (xs ys : List HTree) :
    unbinList cc pc u (xs ++ ys) = unbinList cc pc u xs ++ unbinList cc pc u ys := by
  induction xs with
  | nil => simp
  | cons x xs ih => simp [ih]
@[simp] theorem unbinChild_leaf (i : Nat) : unbinChild cc pc u (.leaf i) = [.leaf i] := by
  simp [unbinChild]
theorem unbinChild_art {lab : Str} {hd : Bool} {cs : List HTree} (h : cc <:+: lab) :
    unbinChild cc pc u (.node (lab, hd) cs) = unbinList cc pc u cs := by
  simp [unbinChild, (Str.find_isSome_iff _ _).2 h]

theorem mkMark_prefix (o : Opts) (s p : Str) : ∃ r, mkMark o s p = '<' :: r := by
  unfold mkMark
  cases o.ids <;> simp

theorem artLabel_art (o : Opts) (orig par : Str) (cl) (h) (num i : Nat) (left : Bool)
    (ht : o.tailmarker = [] ∨ i + 1 ≠ num) :
    (o.childchar ++ ['<']) <:+: artLabel o orig par cl h num i left := by
  unfold artLabel
  obtain ⟨r, hr⟩ := mkMark_prefix o (artSiblings o cl h num i left) par
  have : (if i + 1 = num then o.tailmarker else []) = [] := by
    rcases ht with ht | ht <;> simp [ht]
  simp only [this, hr]
  exact ⟨orig, r, by simp⟩

theorem switchLabel_art (o : Opts) (orig par : Str) (cl) (h) (sib : Str) :
    (o.childchar ++ ['<']) <:+: switchLabel o orig par cl h sib := by
  unfold switchLabel
  exact ⟨orig, (if o.dot then ['m'] ++ sib.drop 1
    else ['m', ':'] ++ headPrefix o h cl) ++ '>' :: par, by simp⟩

theorem leftmostLabel_art (o : Opts) (orig par : Str) (cl) (h) (num : Nat) (left : Bool) :
    (o.childchar ++ ['<']) <:+: leftmostLabel o orig par cl h num left := by
  unfold leftmostLabel
  extract_lets _ _ _ _ siblings
  obtain ⟨r, hr⟩ := mkMark_prefix o siblings par
  rw [hr]
  exact ⟨orig, r, by simp⟩

theorem smallLabel_art (o : Opts) (orig par : Str) (cs) (h) :
    (o.childchar ++ ['<']) <:+: smallLabel o orig par cs h := by
  unfold smallLabel
  extract_lets siblings
  obtain ⟨r, hr⟩ := mkMark_prefix o siblings par
  rw [hr]
  exact ⟨orig, r, by simp⟩

theorem factorLoop_unbin (o : Opts) (orig par : Str) (cl) (h) (num : Nat) :
    ∀ (steps i : Nat) (left : Bool) (rest : List HTree),
      (o.tailmarker = [] ∨ i + steps < num) →
      unbinList (o.childchar ++ ['<']) pc u (factorLoop o orig par cl h num steps i left rest)
        = unbinList (o.childchar ++ ['<']) pc u rest := by
  intro steps
  induction steps with
  | zero => intros; rfl
  | succ steps ih =>
    intro i left rest ht
    have ht1 : o.tailmarker = [] ∨ i + 1 ≠ num := by
      rcases ht with h | h
      · exact Or.inl h
      · right; omega
    have ht2 : o.tailmarker = [] ∨ (i + 1) + steps < num := by
      rcases ht with h | h
      · exact Or.inl h
      · right; omega
    have inner : ∀ (b left' : Bool) (rest' : List HTree) (sib),
        unbinList (o.childchar ++ ['<']) pc u
          (if b then [.node (switchLabel o orig par cl h sib, false)
              (factorLoop o orig par cl h num steps (i + 1) left' rest')]
            else factorLoop o orig par cl h num steps (i + 1) left' rest')
        = unbinList (o.childchar ++ ['<']) pc u rest' := by
      intro b left' rest' sib
      cases b
      · simp [ih _ _ _ ht2]
      · simp [unbinChild_art (switchLabel_art o orig par cl h sib), ih _ _ _ ht2]
    simp only [factorLoop]
    cases left
    · simp only [Bool.false_eq_true, if_false]
      rw [unbinList_append, unbinList_cons, unbinChild_art (artLabel_art o orig par cl h num i _ ht1),
        inner, unbinList_nil, List.append_nil, ← unbinList_append, List.take_append_drop]
    · simp only [if_true]
      rw [unbinList_cons, unbinChild_art (artLabel_art o orig par cl h num i _ ht1),
        inner, ← unbinList_append, List.dropLast_eq_take, List.take_append_drop]

theorem factorNode_unbin (o : Opts) (orig par : Str) (cs cs' : List HTree)
    (hlen : cs'.length = cs.length) (ht : o.tailmarker = [] ∨ o.rightmostunary = false) :
    unbinList (o.childchar ++ ['<']) pc u (factorNode o orig par cs cs')
      = unbinList (o.childchar ++ ['<']) pc u cs' := by
  unfold factorNode
  extract_lets headidx num offset childnodes remaining newnode pos childlabels left steps body
  by_cases h1 : num ≤ o.threshold
  · rw [if_pos h1]
  · rw [if_neg h1]
    by_cases h2 : 1 ≤ num ∧ num ≤ 2
    · rw [if_pos h2]
      have hnew : unbinChild (o.childchar ++ ['<']) pc u newnode
          = unbinList (o.childchar ++ ['<']) pc u childnodes :=
        unbinChild_art (smallLabel_art o orig par cs headidx)
      rw [unbinList_append, unbinList_append, unbinList_cons, hnew, unbinList_nil, List.append_nil,
        ← unbinList_append, ← unbinList_append]
      congr 1
      have hn : cs'.length = num := hlen
      rcases cs' with _ | ⟨a, _ | ⟨b, _ | ⟨c, cs'⟩⟩⟩
      · simp at hn; omega
      · cases hl : o.left <;> simp [pos, remaining, childnodes, offset, slice, hl]
      · cases hl : o.left <;> simp [pos, remaining, childnodes, offset, slice, hl]
      · simp at hn; omega
    · rw [if_neg h2]
      have hb : unbinList (o.childchar ++ ['<']) pc u body
          = unbinList (o.childchar ++ ['<']) pc u cs' := by
        apply factorLoop_unbin
        rcases ht with h | h
        · exact Or.inl h
        · right
          have : steps = num - 1 - 1 := by simp [steps, h]
          omega
      split
      · rw [unbinList_cons, unbinList_nil, List.append_nil,
          unbinChild_art (leftmostLabel_art o orig par childlabels headidx num left), hb]
      · exact hb

@[simp] theorem binList_length (o : Opts) (p) (cs : List HTree) : (binList o p cs).length = cs.length := by
  induction cs with
  | nil => simp [binList]
  | cons c cs ih => simp [binList, ih]

mutual
/-- What `unbinarize` does to a tree without artificial nodes and annotations:
expand the collapsed unaries. -/
def expandTree (u : Option Char) : HTree → HTree
  | .leaf i => .leaf i
  | .node (lab, hd) cs =>
    expandUnary u lab hd (expandList u cs)
/-- children -/
def expandList (u : Option Char) : List HTree → List HTree
  | [] => []
  | c :: cs => expandTree u c :: expandList u cs
end

/-- Every label of the tree satisfies `P`. -/
def AllLabels (P : Str → Prop) (t : HTree) : Prop := ∀ l hd cs, .node (l, hd) cs ∈ t.subtrees → P l

theorem AllLabels.root {P : Str → Prop} {l hd cs} (h : AllLabels P (.node (l, hd) cs)) : P l :=
  h l hd cs (by simp)
theorem AllLabels.child {P : Str → Prop} {l cs c} (h : AllLabels P (.node l cs)) (hc : c ∈ cs) :
    AllLabels P c := by
  intro l' hd' cs' hx
  refine h l' hd' cs' ?_
  rw [subtrees_node]
  exact List.mem_cons_of_mem _ (mem_subtreesL.2 ⟨c, hc, hx⟩)

theorem restoreNode_annot {q lab par : Str} (hq : '<' ∉ q) (h : ¬ (q ++ ['<']) <:+: lab)
    (u : Option Char) (hd) (cs) (annot : Bool) :
    restoreNode (q ++ ['<']) u (if annot then lab ++ (q ++ ['<'] ++ par) else lab) hd cs
      = restoreNode (q ++ ['<']) u lab hd cs := by
  cases annot
  · simp
  · have h0 := (Str.find_eq_none_iff _ _).2 h
    have := Str.find_take_append (b := par) hq h0
    have e : lab ++ (q ++ ['<'] ++ par) = lab ++ (q ++ ['<']) ++ par := by simp
    simp only [if_true]
    rw [e]
    unfold restoreNode
    rw [this, h0]
    simp

theorem two_infix_cons {c x : Char} {s : Str} (h : [c, '<'] <:+: x :: s) (hx : c ≠ x) :
    [c, '<'] <:+: s := by
  rcases List.infix_cons_iff.1 h with ⟨t, ht⟩ | h
  · simp at ht; exact absurd ht.1 hx
  · exact h

theorem two_infix_join {c : Char} (hc : c ≠ ',') {xs : List Str}
    (h : [c, '<'] <:+: Str.join [','] xs) : ∃ x ∈ xs, [c, '<'] <:+: x := by
  unfold Str.join at h
  induction xs with
  | nil => simp [List.intercalate] at h
  | cons x xs ih =>
    cases xs with
    | nil => exact ⟨x, by simp, by simpa [List.intercalate] using h⟩
    | cons y ys =>
      have e : List.intercalate [','] (x :: y :: ys) = x ++ ',' :: List.intercalate [','] (y :: ys) := by
        simp [List.intercalate]
      rw [e] at h
      rcases infix_append_cons (by simp [hc.symm]) h with h | h
      · exact ⟨x, by simp, h⟩
      · obtain ⟨z, hz, h⟩ := ih h
        exact ⟨z, List.mem_cons_of_mem _ hz, h⟩

theorem annot_not_art {c p : Char} {lab : Str} {parent : List Str}
    (hcp : c ≠ p) (hp : p ≠ '<') (h1 : c ≠ '<') (h2 : c ≠ ',') (h3 : c ≠ '>')
    (hl : ¬ [c, '<'] <:+: lab) (hpar : ∀ x ∈ parent, ¬ [c, '<'] <:+: x) :
    ¬ [c, '<'] <:+: lab ++ ([p] ++ ['<'] ++ Str.join [','] parent ++ ['>']) := by
  intro h
  have e : lab ++ ([p] ++ ['<'] ++ Str.join [','] parent ++ ['>'])
      = lab ++ p :: ('<' :: (Str.join [','] parent ++ '>' :: [])) := by simp
  rw [e] at h
  rcases infix_append_cons (by simp [hcp.symm, hp]) h with h | h
  · exact hl h
  · have h := two_infix_cons h h1
    rcases infix_append_cons (by simp [h3.symm]) h with h | h
    · obtain ⟨x, hx, h⟩ := two_infix_join h2 h
      exact hpar x hx h
    · simp at h

/-- Hypotheses on the marker characters. -/
structure MarkersOK (o : Opts) (c p : Char) : Prop where
  cc : o.childchar = [c]
  pc : o.parentchar = [p]
  ne : c ≠ p
  c1 : c ≠ '<'
  c2 : c ≠ ','
  c3 : c ≠ '>'
  p1 : p ≠ '<'

theorem restoreNode_plain {pc lab : Str} (h : ¬ pc <:+: lab) (u : Option Char) (hd) (cs) :
    restoreNode pc u lab hd cs = expandUnary u lab hd cs := by
  unfold restoreNode
  rw [(Str.find_eq_none_iff _ _).2 h]

theorem unbinList_binTree (o : Opts) (c p : Char) (hm : MarkersOK o c p)
    (ht : o.tailmarker = [] ∨ o.rightmostunary = false) (u : Option Char) (t : HTree) :
    ∀ (parent : List Str), (∀ x ∈ parent, ¬ [c, '<'] <:+: x) →
      AllLabels (fun l => ¬ [c, '<'] <:+: l ∧ ¬ [p, '<'] <:+: l) t →
      unbinChild [c, '<'] [p, '<'] u (binTree o false parent t) = [expandTree u t] ∧
      (∀ lab hd cs, t = .node (lab, hd) cs →
        restoreNode [p, '<'] u lab hd (unbinList [c, '<'] [p, '<'] u (binTree o true parent t).children)
          = expandTree u t) := by
  induction t using PTree.ind with
  | hleaf i => intro parent _ _; simp [binTree, expandTree]
  | hnode l cs ih =>
    obtain ⟨lab, hd⟩ := l
    intro parent hpar hall
    have hlab := hall.root
    -- children
    have hkids : ∀ parent', (∀ x ∈ parent', ¬ [c, '<'] <:+: x) →
        unbinList [c, '<'] [p, '<'] u (binList o parent' cs) = expandList u cs := by
      intro parent' hpar'
      have : ∀ ds, (∀ d ∈ ds, d ∈ cs) →
          unbinList [c, '<'] [p, '<'] u (binList o parent' ds) = expandList u ds := by
        intro ds
        induction ds with
        | nil => intro _; simp [binList, expandList]
        | cons d ds ihd =>
          intro hds
          simp only [binList, unbinList_cons, expandList]
          rw [(ih d (hds d (by simp)) parent' hpar' (hall.child (hds d (by simp)))).1,
            ihd (fun x hx => hds x (List.mem_cons_of_mem _ hx))]
          rfl
      exact this cs (fun _ h => h)
    have hfac : ∀ orig par parent', (∀ x ∈ parent', ¬ [c, '<'] <:+: x) →
        unbinList [c, '<'] [p, '<'] u (factorNode o orig par cs (binList o parent' cs))
          = expandList u cs := by
      intro orig par parent' hpar'
      have := factorNode_unbin (pc := [p, '<']) (u := u) o orig par cs (binList o parent' cs)
        (by simp) ht
      rw [hm.cc] at this
      exact this.trans (hkids parent' hpar')
    have hexp : ∀ hd', expandTree u (.node (lab, hd') cs) =
        expandUnary u lab hd' (expandList u cs) := by
      intro hd'; simp only [expandTree]
    have hpar2 : ∀ (b : Bool) (k : Nat), (b = true → o.vertmarkov ≠ 0) →
        ∀ x ∈ (if b then (if o.vertmarkov ≠ 0 then lab else ['_']) :: parent.take k else parent),
          ¬ [c, '<'] <:+: x := by
      intro b k hb x hx
      cases b
      · simp at hx; exact hpar x hx
      · simp only [if_true] at hx
        rw [if_pos (hb rfl)] at hx
        rcases List.mem_cons.1 hx with h | h
        · rw [h]; exact hlab.1
        · exact hpar x (List.mem_of_mem_take h)
    constructor
    · simp only [binTree]
      have hb : ∀ {fi : Bool}, (decide (o.vertmarkov > 1) && !false && fi) = true →
          o.vertmarkov ≠ 0 := by
        intro fi h; simp at h; omega
      generalize hann : (decide (o.vertmarkov > 1) && !false && firstIsNode cs) = annot
      have hb' : annot = true → o.vertmarkov ≠ 0 := by
        intro h; exact hb (hann.trans h)
      have hnart : ¬ [c, '<'] <:+: (if annot then lab ++ (o.parentchar ++ ['<'] ++
          Str.join [','] parent ++ ['>']) else lab) := by
        cases annot
        · simpa using hlab.1
        · rw [if_pos rfl, hm.pc]
          exact annot_not_art hm.ne hm.p1 hm.c1 hm.c2 hm.c3 hlab.1 hpar
      rw [unbinChild, if_neg (by rw [Str.find_isSome_iff]; exact hnart)]
      rw [hfac _ _ _ (hpar2 annot _ hb'), hm.pc]
      have := restoreNode_annot (q := [p]) (par := Str.join [','] parent ++ ['>']) (lab := lab)
        (by simp [hm.p1.symm]) hlab.2 u hd (expandList u cs) annot
      have e : [p] ++ ['<'] ++ Str.join [','] parent ++ ['>'] =
        [p] ++ ['<'] ++ (Str.join [','] parent ++ ['>']) := by simp
      rw [e]
      simp only [List.cons_append, List.nil_append] at this ⊢
      rw [this, restoreNode_plain hlab.2, hexp]
    · intro lab' hd' cs' heq
      injection heq with h1 h2
      injection h1 with h1 h3
      subst h1 h2 h3
      simp only [binTree, PTree.children]
      rw [hfac _ _ _ (hpar2 _ _ (by simp)), restoreNode_plain hlab.2, hexp]

theorem unbinarize_binarize_expand (o : Opts) (c p : Char) (hm : MarkersOK o c p)
    (ht : o.tailmarker = [] ∨ o.rightmostunary = false) (u : Option Char) (t : HTree)
    (hall : AllLabels (fun l => ¬ [c, '<'] <:+: l ∧ ¬ [p, '<'] <:+: l) t) :
    unbinarize o.childchar o.parentchar u (binarize o t) = expandTree u t := by
  cases t with
  | leaf i => simp [binarize, binTree, unbinarize, expandTree]
  | node l cs =>
    obtain ⟨lab, hd⟩ := l
    have hlab := hall.root
    have := (unbinList_binTree o c p hm ht u (.node (lab, hd) cs) [lab]
      (by simpa using hlab.1) hall).2 lab hd cs rfl
    rw [← this]
    simp [binarize, binTree, unbinarize, PTree.label?, PTree.children, hm.cc, hm.pc]

theorem expandTree_id (u : Option Char) (t : HTree)
    (h : ∀ ch, u = some ch → AllLabels (fun l => ch ∉ l) t) : expandTree u t = t := by
  induction t using PTree.ind with
  | hleaf i => simp [expandTree]
  | hnode l cs ih =>
    obtain ⟨lab, hd⟩ := l
    have hk : expandList u cs = cs := by
      have : ∀ ds, (∀ d ∈ ds, d ∈ cs) → expandList u ds = ds := by
        intro ds
        induction ds with
        | nil => intro _; simp [expandList]
        | cons d ds ihd =>
          intro hds
          rw [expandList, ih d (hds d (by simp)) (fun ch hch => (h ch hch).child (hds d (by simp))),
            ihd (fun x hx => hds x (List.mem_cons_of_mem _ hx))]
      exact this cs (fun _ h => h)
    cases u with
    | none => simp [expandTree, hk, expandUnary]
    | some ch =>
      simp only [expandTree, expandUnary]
      rw [hk, Str.splitAll_of_not_mem (h ch rfl).root]
      rfl

/-! ### leaves and arity -/

theorem factorLoop_leaves (o : Opts) (orig par : Str) (cl) (h) (num : Nat) :
    ∀ (steps i : Nat) (left : Bool) (rest : List HTree),
      leavesL (factorLoop o orig par cl h num steps i left rest) = leavesL rest := by
  intro steps
  induction steps with
  | zero => intros; rfl
  | succ steps ih =>
    intro i left rest
    have inner : ∀ (b left' : Bool) (rest' : List HTree) (lab),
        leavesL
          (if b then [.node (lab, false)
              (factorLoop o orig par cl h num steps (i + 1) left' rest')]
            else factorLoop o orig par cl h num steps (i + 1) left' rest')
        = leavesL rest' := by
      intro b left' rest' sib
      cases b <;> simp [ih]
    simp only [factorLoop]
    cases left
    · simp only [Bool.false_eq_true, if_false]
      rw [leavesL_append, leavesL_cons, leaves_node,
        inner, leavesL_nil, List.append_nil, ← leavesL_append, List.take_append_drop]
    · simp only [if_true]
      rw [leavesL_cons, leaves_node,
        inner, ← leavesL_append, List.dropLast_eq_take, List.take_append_drop]

theorem factorNode_leaves (o : Opts) (orig par : Str) (cs cs' : List HTree)
    (hlen : cs'.length = cs.length) :
    leavesL (factorNode o orig par cs cs') = leavesL cs' := by
  unfold factorNode
  extract_lets headidx num offset childnodes remaining newnode pos childlabels left steps body
  by_cases h1 : num ≤ o.threshold
  · rw [if_pos h1]
  · rw [if_neg h1]
    by_cases h2 : 1 ≤ num ∧ num ≤ 2
    · rw [if_pos h2]
      have hn : cs'.length = num := hlen
      rcases cs' with _ | ⟨a, _ | ⟨b, _ | ⟨c, cs'⟩⟩⟩
      · simp at hn; omega
      · cases hl : o.left <;> simp [pos, remaining, childnodes, offset, slice, newnode, hl]
      · cases hl : o.left <;> simp [pos, remaining, childnodes, offset, slice, newnode, hl]
      · simp at hn; omega
    · rw [if_neg h2]
      have hb : leavesL body = leavesL cs' := factorLoop_leaves ..
      split
      · rw [leavesL_cons, leaves_node, leavesL_nil, List.append_nil, hb]
      · exact hb

theorem binTree_leaves (o : Opts) (t : HTree) : ∀ root parent,
    (binTree o root parent t).leaves = t.leaves := by
  induction t using PTree.ind with
  | hleaf i => intros; simp [binTree]
  | hnode l cs ih =>
    obtain ⟨lab, hd⟩ := l
    intro root parent
    simp only [binTree, leaves_node]
    rw [factorNode_leaves _ _ _ _ _ (by simp)]
    suffices h : ∀ par', leavesL (binList o par' cs) = leavesL cs from h _
    intro par'
    have : ∀ ds, (∀ d ∈ ds, d ∈ cs) → leavesL (binList o par' ds) = leavesL ds := by
      intro ds
      induction ds with
      | nil => intro _; simp [binList]
      | cons d ds ihd =>
        intro hds
        simp only [binList, leavesL_cons]
        rw [ih d (hds d (by simp)), ihd (fun x hx => hds x (List.mem_cons_of_mem _ hx))]
    exact this cs (fun _ h => h)

/-- All constituents below have at most two children. -/
def AllBin (cs : List HTree) : Prop := ∀ x ∈ subtreesL cs, x.children.length ≤ 2

theorem AllBin.append {a b : List HTree} : AllBin (a ++ b) ↔ AllBin a ∧ AllBin b := by
  simp [AllBin, or_imp, forall_and]
theorem AllBin.single_node {l : HLab} {cs : List HTree} :
    AllBin [.node l cs] ↔ cs.length ≤ 2 ∧ AllBin cs := by
  simp [AllBin, PTree.children]

theorem AllBin.cons {c : HTree} {cs : List HTree} : AllBin (c :: cs) ↔ AllBin [c] ∧ AllBin cs := by
  rw [← List.singleton_append, AllBin.append]
theorem AllBin.nil : AllBin [] := by simp [AllBin]

theorem factorLoop_bin (o : Opts) (orig par : Str) (cl) (h) (num : Nat) :
    ∀ (steps i : Nat) (left : Bool) (rest : List HTree),
      rest.length ≤ steps + 2 → AllBin rest →
      AllBin (factorLoop o orig par cl h num steps i left rest) ∧
      (factorLoop o orig par cl h num steps i left rest).length ≤ 2 := by
  intro steps
  induction steps with
  | zero => intro i left rest hl hr; exact ⟨hr, by simpa [factorLoop] using hl⟩
  | succ steps ih =>
    intro i left rest hl hr
    have inner : ∀ (b left' : Bool) (rest' : List HTree) (lab), rest'.length ≤ steps + 2 →
        AllBin rest' →
        AllBin
          (if b then [.node (lab, false)
              (factorLoop o orig par cl h num steps (i + 1) left' rest')]
            else factorLoop o orig par cl h num steps (i + 1) left' rest') ∧
        (if b then [.node (lab, false)
              (factorLoop o orig par cl h num steps (i + 1) left' rest')]
            else factorLoop o orig par cl h num steps (i + 1) left' rest').length ≤ 2 := by
      intro b left' rest' sib h1 h2
      have := ih (i + 1) left' rest' h1 h2
      cases b
      · simpa using this
      · simp only [if_true]
        exact ⟨AllBin.single_node.2 this.symm, by simp⟩
    simp only [factorLoop]
    cases left
    · simp only [Bool.false_eq_true, if_false]
      have hsplit : AllBin (rest.take 1) ∧ AllBin (rest.drop 1) := by
        rw [← AllBin.append, List.take_append_drop]; exact hr
      refine ⟨?_, by simp; omega⟩
      rw [AllBin.append]
      refine ⟨hsplit.1, ?_⟩
      rw [AllBin.single_node]
      exact (inner _ _ _ _ (by simp; omega) hsplit.2).symm
    · simp only [if_true]
      have hsplit : AllBin (rest.dropLast) ∧ AllBin (rest.drop (rest.length - 1)) := by
        rw [← AllBin.append, List.dropLast_eq_take, List.take_append_drop]; exact hr
      refine ⟨?_, by simp; omega⟩
      rw [← List.singleton_append, AllBin.append]
      refine ⟨?_, hsplit.2⟩
      rw [AllBin.single_node]
      exact (inner _ _ _ _ (by simp; omega) hsplit.1).symm

theorem factorNode_bin (o : Opts) (orig par : Str) (cs cs' : List HTree)
    (hlen : cs'.length = cs.length) (hth : o.threshold ≤ 2) (hb : AllBin cs') :
    AllBin (factorNode o orig par cs cs') ∧ (factorNode o orig par cs cs').length ≤ 2 := by
  unfold factorNode
  extract_lets headidx num offset childnodes remaining newnode pos childlabels left steps body
  have hn : cs'.length = num := hlen
  by_cases h1 : num ≤ o.threshold
  · rw [if_pos h1]; exact ⟨hb, by omega⟩
  · rw [if_neg h1]
    by_cases h2 : 1 ≤ num ∧ num ≤ 2
    · rw [if_pos h2]
      rcases cs' with _ | ⟨a, _ | ⟨b, _ | ⟨c, cs'⟩⟩⟩
      · simp at hn; omega
      · cases hl : o.left
        · have e : remaining.take pos ++ [newnode] ++ remaining.drop pos = [a, newnode] := by
            simp [pos, remaining, offset, hl]
          have e2 : childnodes = [] := by simp [childnodes, slice, offset, hl]
          rw [e, AllBin.cons, AllBin.single_node, e2]
          exact ⟨⟨hb, by simp, AllBin.nil⟩, by simp⟩
        · have e : remaining.take pos ++ [newnode] ++ remaining.drop pos = [newnode] := by
            simp [pos, remaining, offset, hl]
          have e2 : childnodes = [a] := by simp [childnodes, slice, offset, hl]
          rw [e, AllBin.single_node, e2]
          exact ⟨⟨by simp, hb⟩, by simp⟩
      · rw [AllBin.cons] at hb
        cases hl : o.left
        · have e : remaining.take pos ++ [newnode] ++ remaining.drop pos = [a, newnode] := by
            simp [pos, remaining, offset, hl]
          have e2 : childnodes = [b] := by simp [childnodes, slice, offset, hl]
          rw [e, AllBin.cons, AllBin.single_node, e2]
          exact ⟨⟨hb.1, by simp, hb.2⟩, by simp⟩
        · have e : remaining.take pos ++ [newnode] ++ remaining.drop pos = [newnode, b] := by
            simp [pos, remaining, offset, hl]
          have e2 : childnodes = [a] := by simp [childnodes, slice, offset, hl]
          rw [e, AllBin.cons, AllBin.single_node, e2]
          exact ⟨⟨⟨by simp, hb.1⟩, hb.2⟩, by simp⟩
      · simp at hn; omega
    · rw [if_neg h2]
      have hbody : AllBin body ∧ body.length ≤ 2 := by
        apply factorLoop_bin
        · simp only [steps]; split <;> omega
        · exact hb
      split
      · exact ⟨AllBin.single_node.2 hbody.symm, by simp⟩
      · exact hbody

theorem binTree_bin (o : Opts) (hth : o.threshold ≤ 2) (t : HTree) : ∀ root parent,
    AllBin [binTree o root parent t] := by
  induction t using PTree.ind with
  | hleaf i => intros; simp [binTree, AllBin]
  | hnode l cs ih =>
    obtain ⟨lab, hd⟩ := l
    intro root parent
    simp only [binTree]
    rw [AllBin.single_node]
    have : ∀ par' ds, (∀ d ∈ ds, d ∈ cs) → AllBin (binList o par' ds) := by
      intro par' ds
      induction ds with
      | nil => intro _; simp [binList, AllBin]
      | cons d ds ihd =>
        intro hds
        simp only [binList]
        rw [← List.singleton_append, AllBin.append]
        exact ⟨ih d (hds d (by simp)) _ _, ihd (fun x hx => hds x (List.mem_cons_of_mem _ hx))⟩
    exact (factorNode_bin o _ _ cs _ (by simp) hth (this _ cs (fun _ h => h))).symm

/-! ### collapseunary -/

/-- Forget the head flags. -/
def strip (t : HTree) : PTree Str := t.mapLabel Prod.fst

/-- `expandChain` without head flags. -/
def chain : List Str → List (PTree Str) → PTree Str
  | [], cs => .node [] cs
  | [p], cs => .node p cs
  | p :: ps, cs => .node p [chain ps cs]

theorem strip_expandChain (hd : Bool) (ps : List Str) (cs : List HTree) :
    strip (expandChain hd ps cs) = chain ps (cs.map strip) := by
  induction ps generalizing hd with
  | nil => simp [expandChain, chain, strip, mapLabelL_eq]
  | cons p ps ih =>
    cases ps with
    | nil => simp [expandChain, chain, strip, mapLabelL_eq]
    | cons q ps =>
      have := ih false
      simp only [expandChain, chain, strip, mapLabel_node, mapLabelL_eq, List.map_cons, List.map_nil] at *
      rw [this]

theorem chain_concat (ps : List Str) (hps : ps ≠ []) (l : Str) (cs : List (PTree Str)) :
    chain (ps ++ [l]) cs = chain ps [.node l cs] := by
  induction ps with
  | nil => exact absurd rfl hps
  | cons p ps ih =>
    cases ps with
    | nil => simp [chain]
    | cons q ps =>
      have := ih (by simp)
      simp only [List.cons_append, chain] at *
      rw [this]

theorem splitAll_append (c : Char) (a b : Str) :
    Str.splitAll c (a ++ c :: b) = Str.splitAll c a ++ Str.splitAll c b := by
  induction a with
  | nil => simp [Str.splitAll]
  | cons x a ih =>
    simp only [List.cons_append, Str.splitAll]
    split
    · simp [ih]
    · rw [ih]
      cases h : Str.splitAll c a with
      | nil => exact absurd h (Str.splitAll_ne_nil c a)
      | cons w ws => simp

theorem expandList_eq_map (u : Option Char) (cs : List HTree) :
    expandList u cs = cs.map (expandTree u) := by
  induction cs with
  | nil => simp [expandList]
  | cons c cs ih => simp [expandList, ih]

theorem collapseList_eq_map (pos : Bool) (j : Str) (cs : List HTree) :
    collapseList pos j cs = cs.map (collapseChild pos j) := by
  induction cs with
  | nil => simp [collapseList]
  | cons c cs ih => simp [collapseList, ih]

theorem collapseNode_other {pos : Bool} {j : Str} {lab : HLab} {cs : List HTree}
    (h : ∀ l ds, cs = [.node l ds] → (pos || firstIsNode ds) = false) :
    collapseNode pos j lab cs = .node lab (cs.map (collapseChild pos j)) := by
  match cs with
  | [] => simp [collapseNode]
  | [.leaf i] => simp [collapseNode, collapseChild]
  | [.node l ds] =>
    simp only [collapseNode]
    rw [if_neg (by simp [h l ds rfl])]
    simp [collapseChild]
  | c :: d :: cs => simp [collapseNode, collapseList_eq_map]

theorem collapseNode_merge {pos : Bool} {j : Str} {lab l : HLab} {ds : List HTree}
    (h : (pos || firstIsNode ds) = true) :
    collapseNode pos j lab [.node l ds] = collapseNode pos j (lab.1 ++ j ++ l.1, lab.2) ds := by
  simp only [collapseNode]
  rw [if_pos h]

theorem strip_expand_collapseNode (c : Char) (pos : Bool) (t : HTree) :
    (AllLabels (fun l => c ∉ l) t → strip (expandTree (some c) (collapseChild pos [c] t)) = strip t) ∧
    (∀ l cs, t = .node l cs → (∀ d ∈ cs, AllLabels (fun l => c ∉ l) d) → ∀ lab : HLab,
      strip (expandTree (some c) (collapseNode pos [c] lab cs))
        = chain (Str.splitAll c lab.1) (cs.map strip)) := by
  induction t using PTree.ind with
  | hleaf i =>
    exact ⟨fun _ => by simp [collapseChild, expandTree], fun l cs h => by simp at h⟩
  | hnode l cs ih =>
    have key : ∀ cs', cs = cs' → (∀ d ∈ cs, AllLabels (fun l => c ∉ l) d) → ∀ lab : HLab,
      strip (expandTree (some c) (collapseNode pos [c] lab cs))
        = chain (Str.splitAll c lab.1) (cs.map strip) := by
      intro _ _ hall lab
      by_cases hm : ∃ l ds, cs = [.node l ds] ∧ (pos || firstIsNode ds) = true
      · obtain ⟨l', ds, rfl, hpos⟩ := hm
        rw [collapseNode_merge hpos]
        have hd := hall (.node l' ds) (by simp)
        rw [(ih (.node l' ds) (by simp)).2 l' ds rfl (fun d hd' => hd.child hd')]
        have hl' : c ∉ l'.1 := by
          obtain ⟨x, y⟩ := l'
          exact hd.root
        have e : lab.1 ++ [c] ++ l'.1 = lab.1 ++ c :: l'.1 := by simp
        rw [e, splitAll_append, Str.splitAll_of_not_mem hl',
          chain_concat _ (Str.splitAll_ne_nil _ _)]
        simp [strip, mapLabelL_eq]
        rfl
      · rw [collapseNode_other]
        · simp only [expandTree, expandUnary, expandList_eq_map]
          rw [strip_expandChain]
          congr 1
          simp only [List.map_map]
          apply List.map_congr_left
          intro d hd
          exact (ih d hd).1 (hall d hd)
        · intro l ds h
          cases hb : (pos || firstIsNode ds)
          · rfl
          · exact absurd ⟨l, ds, h, hb⟩ hm
    refine ⟨fun hall => ?_, ?_⟩
    · simp only [collapseChild]
      rw [key cs rfl (fun d hd => hall.child hd)]
      have hl : c ∉ l.1 := by
        obtain ⟨x, y⟩ := l
        exact hall.root
      rw [Str.splitAll_of_not_mem hl]
      simp [chain, strip, mapLabelL_eq]
    · intro l' cs' h
      injection h with h1 h2
      subst h1 h2
      exact key cs rfl

/-- Collapsing does not introduce an infix that does not contain the join character. -/
theorem collapse_labels (c : Char) (p : Str) (hp : c ∉ p) (pos : Bool) (t : HTree) :
    (AllLabels (fun l => ¬ p <:+: l) t → AllLabels (fun l => ¬ p <:+: l) (collapseChild pos [c] t)) ∧
    (∀ l cs, t = .node l cs → (∀ d ∈ cs, AllLabels (fun l => ¬ p <:+: l) d) → ∀ lab : HLab,
      ¬ p <:+: lab.1 → AllLabels (fun l => ¬ p <:+: l) (collapseNode pos [c] lab cs)) := by
  induction t using PTree.ind with
  | hleaf i =>
    exact ⟨fun h => by simpa [collapseChild] using h, fun l cs h => by simp at h⟩
  | hnode l cs ih =>
    have key : ∀ cs', cs = cs' → (∀ d ∈ cs, AllLabels (fun l => ¬ p <:+: l) d) → ∀ lab : HLab,
      ¬ p <:+: lab.1 → AllLabels (fun l => ¬ p <:+: l) (collapseNode pos [c] lab cs) := by
      intro _ _ hall lab hlab
      by_cases hm : ∃ l ds, cs = [.node l ds] ∧ (pos || firstIsNode ds) = true
      · obtain ⟨l', ds, rfl, hpos⟩ := hm
        rw [collapseNode_merge hpos]
        have hd := hall (.node l' ds) (by simp)
        refine (ih (.node l' ds) (by simp)).2 l' ds rfl (fun d hd' => hd.child hd') _ ?_
        intro hin
        have e : lab.1 ++ [c] ++ l'.1 = lab.1 ++ c :: l'.1 := by simp
        simp only [e] at hin
        obtain ⟨x, y⟩ := l'
        rcases infix_append_cons hp hin with h | h
        · exact hlab h
        · exact hd.root h
      · rw [collapseNode_other]
        · intro l' hd' cs' hx
          rw [subtrees_node, List.mem_cons] at hx
          rcases hx with hx | hx
          · injection hx with h1 h2
            rw [← h1] at hlab
            exact hlab
          · obtain ⟨d, hd, hx⟩ := mem_subtreesL.1 hx
            obtain ⟨d', hd', rfl⟩ := List.mem_map.1 hd
            exact (ih d' hd').1 (hall d' hd') _ _ _ hx
        · intro l ds h
          cases hb : (pos || firstIsNode ds)
          · rfl
          · exact absurd ⟨l, ds, h, hb⟩ hm
    refine ⟨fun hall => ?_, ?_⟩
    · simp only [collapseChild]
      obtain ⟨x, y⟩ := l
      exact key cs rfl (fun d hd => hall.child hd) _ hall.root
    · intro l' cs' h
      injection h with h1 h2
      subst h1 h2
      exact key cs rfl

/-- `collapse` keeps "has a constituent as first child". -/
theorem collapseNode_shape (pos : Bool) (j : Str) (lab : HLab) (cs : List HTree) :
    ∃ l' cs', collapseNode pos j lab cs = .node l' cs' := by
  suffices h : ∀ t : HTree, ∀ l cs, t = .node l cs → ∀ lab, ∃ l' cs', collapseNode pos j lab cs = .node l' cs' from
    h (.node lab cs) lab cs rfl lab
  intro t
  induction t using PTree.ind with
  | hleaf i => intro l cs h; simp at h
  | hnode l cs ih =>
    intro l' cs' h lab
    injection h with h1 h2
    subst h1 h2
    by_cases hm : ∃ l ds, cs = [.node l ds] ∧ (pos || firstIsNode ds) = true
    · obtain ⟨l', ds, rfl, hpos⟩ := hm
      rw [collapseNode_merge hpos]
      exact ih (.node l' ds) (by simp) l' ds rfl _
    · rw [collapseNode_other]
      · exact ⟨_, _, rfl⟩
      · intro l ds h
        cases hb : (pos || firstIsNode ds)
        · rfl
        · exact absurd ⟨l, ds, h, hb⟩ hm

theorem collapse_normal (pos : Bool) (j : Str) (t : HTree) :
    (∀ x ∈ (collapseChild pos j t).subtrees, ∀ l l' ds, x = .node l [.node l' ds] →
      (pos || firstIsNode ds) = false) ∧
    (∀ l cs, t = .node l cs → ∀ lab : HLab,
      ∀ x ∈ (collapseNode pos j lab cs).subtrees, ∀ l l' ds, x = .node l [.node l' ds] →
      (pos || firstIsNode ds) = false) := by
  induction t using PTree.ind with
  | hleaf i =>
    exact ⟨fun h => by simp [collapseChild], fun l cs h => by simp at h⟩
  | hnode l cs ih =>
    have key : ∀ lab : HLab, ∀ x ∈ (collapseNode pos j lab cs).subtrees, ∀ l l' ds,
        x = .node l [.node l' ds] → (pos || firstIsNode ds) = false := by
      intro lab x hx l1 l2 ds hxe
      by_cases hm : ∃ l ds, cs = [.node l ds] ∧ (pos || firstIsNode ds) = true
      · obtain ⟨l', ds', rfl, hpos⟩ := hm
        rw [collapseNode_merge hpos] at hx
        exact (ih (.node l' ds') (by simp)).2 l' ds' rfl _ x hx l1 l2 ds hxe
      · have hother : ∀ l ds, cs = [.node l ds] → (pos || firstIsNode ds) = false := by
          intro l ds h
          cases hb : (pos || firstIsNode ds)
          · rfl
          · exact absurd ⟨l, ds, h, hb⟩ hm
        rw [collapseNode_other hother, subtrees_node, List.mem_cons] at hx
        rcases hx with hx | hx
        · rw [hxe] at hx
          injection hx with h1 h2
          match cs, hother, h2 with
          | [], _, h2 => simp at h2
          | _ :: _ :: _, _, h2 => simp at h2
          | [.leaf i], _, h2 => simp [collapseChild] at h2
          | [.node l3 ds3], ho, h2 =>
            have hp := ho l3 ds3 rfl
            simp only [Bool.or_eq_false_iff] at hp
            simp only [collapseChild, List.map_cons, List.map_nil, List.cons.injEq, and_true] at h2
            rw [collapseNode_other] at h2
            · injection h2 with h3 h4
              rw [hp.1, h4]
              match ds3, hp.2 with
              | [], _ => rfl
              | .leaf i :: _, _ => rfl
              | .node _ _ :: _, h => simp [firstIsNode, isNode] at h
            · intro l4 ds4 h4
              rw [h4] at hp
              simp [firstIsNode, isNode] at hp
        · obtain ⟨d, hd, hx⟩ := mem_subtreesL.1 hx
          obtain ⟨d', hd', rfl⟩ := List.mem_map.1 hd
          exact (ih d' hd').1 x hx l1 l2 ds hxe
    refine ⟨?_, ?_⟩
    · simp only [collapseChild]
      exact key _
    · intro l' cs' h
      injection h with h1 h2
      subst h1 h2
      exact key

end Disco.Binarize
