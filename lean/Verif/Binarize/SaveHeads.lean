import Verif.Binarize.Props
/-!
# C86: the head child is recovered from a head-outward binarization (`saveheads`)

`heads.saveheads` (discodop/heads.py:171-183), called by `parser.Parser.postprocess`
(discodop/parser.py:541-545) on the derivation before `unbinarize`.
A parse tree comes out of the parser as a string, so it has no head marks: `clearHeads`.
-/
namespace Disco.Binarize
open Disco PTree

/-! ## Model -/

/-- `node.label` (a terminal has none; see `headSite`). -/
def labOf : HTree → Str
  | .node (l, _) _ => l
  | .leaf _ => []

/-- `node.type = HEAD` on a constituent. -/
def markHead : HTree → HTree
  | .node (l, _) cs => .node (l, true) cs
  | .leaf i => .leaf i

/-- The filter of `saveheads` without tail marker (heads.py:179-182): the label contains `|<` and no child's
label starts with the part of the label up to and including `|<`.
Simplification: a terminal directly below a node with such a label makes Python raise AttributeError
(`child.label` of an integer); here it does not match.  `C86_saveheads_no_exception`
shows that this does not arise. -/
def headSite (lab : Str) (cs : List HTree) : Bool :=
  match Str.find ['|', '<'] lab with
  | none => false
  | some i => !(cs.any fun c => (lab.take (i + 2)).isPrefixOf (labOf c))

mutual
/-- `saveheads(tree, '')` (heads.py:178-183): `node[-1].type = HEAD` for every constituent in the
filter.  The loop only changes types, so that the filter sees the original labels. -/
def saveTree : HTree → HTree
  | .leaf i => .leaf i
  | .node (lab, hd) cs =>
    .node (lab, hd) (if headSite lab cs then (saveList cs).modify (cs.length - 1) markHead
      else saveList cs)
/-- the children -/
def saveList : List HTree → List HTree
  | [] => []
  | c :: cs => saveTree c :: saveList cs
end

mutual
/-- `saveheads(tree, tailmarker)` with a non-empty tail marker (heads.py:173-175): the nodes
whose label contains the tail marker are themselves marked. -/
def saveTailTree (tm : Str) : HTree → HTree
  | .leaf i => .leaf i
  | .node (lab, hd) cs => .node (lab, hd || (Str.find tm lab).isSome) (saveTailList tm cs)
/-- the children -/
def saveTailList (tm : Str) : List HTree → List HTree
  | [] => []
  | c :: cs => saveTailTree tm c :: saveTailList tm cs
end

/-- `saveheads(tree, tailmarker)` (heads.py:171-183). -/
def saveheads (tm : Str) (t : HTree) : HTree := if tm.isEmpty then saveTree t else saveTailTree tm t

mutual
/-- A freshly constructed tree (`ParentedTree(treestr)`, parser.py:536) has no head marks. -/
def clearHeads : HTree → HTree
  | .leaf i => .leaf i
  | .node (lab, _) cs => .node (lab, false) (clearList cs)
/-- the children -/
def clearList : List HTree → List HTree
  | [] => []
  | c :: cs => clearHeads c :: clearList cs
end

/-! ## Specification -/

/-- Which child of a constituent with children `cs` is recovered: the (first) head child; the last child when
none is marked.  With `factor='left'` it is the mirror image of that position. -/
def recoveredChild (left : Bool) (cs : List HTree) : Nat :=
  let h := (headIdx cs).getD (cs.length - 1)
  if left then cs.length - 1 - h else h

mutual
/-- The tree `t` with, as its only head marks, one child in each constituent that has more than
`threshold` children. -/
def recovered (left : Bool) (threshold : Nat) : HTree → HTree
  | .leaf i => .leaf i
  | .node (lab, _) cs =>
    .node (lab, false) (if threshold < cs.length
      then (recoveredList left threshold cs).modify (recoveredChild left cs) markHead
      else recoveredList left threshold cs)
/-- the children -/
def recoveredList (left : Bool) (threshold : Nat) : List HTree → List HTree
  | [] => []
  | c :: cs => recovered left threshold c :: recoveredList left threshold cs
end

/-! ## Lemmas -/

/-- Both steps at once. -/
def sv (t : HTree) : HTree := saveTree (clearHeads t)

theorem clearList_eq (cs : List HTree) : clearList cs = cs.map clearHeads := by
  induction cs with
  | nil => simp [clearList]
  | cons c cs ih => simp [clearList, ih]
theorem saveList_eq (cs : List HTree) : saveList cs = cs.map saveTree := by
  induction cs with
  | nil => simp [saveList]
  | cons c cs ih => simp [saveList, ih]
theorem recoveredList_eq (b k) (cs : List HTree) : recoveredList b k cs = cs.map (recovered b k) := by
  induction cs with
  | nil => simp [recoveredList]
  | cons c cs ih => simp [recoveredList, ih]

theorem labOf_clear (t : HTree) : labOf (clearHeads t) = labOf t := by
  cases t with
  | leaf i => simp [clearHeads]
  | node l cs => obtain ⟨l, b⟩ := l; simp [clearHeads, labOf]

theorem headSite_clear (lab : Str) (cs : List HTree) :
    headSite lab (cs.map clearHeads) = headSite lab cs := by
  unfold headSite
  cases Str.find ['|', '<'] lab with
  | none => rfl
  | some i => simp [List.any_map, Function.comp_def, labOf_clear]

theorem sv_node (lab : Str) (hd : Bool) (cs : List HTree) :
    sv (.node (lab, hd) cs) = .node (lab, false)
      (if headSite lab cs then (cs.map sv).modify (cs.length - 1) markHead else cs.map sv) := by
  unfold sv
  simp only [clearHeads, saveTree, clearList_eq, saveList_eq, headSite_clear, List.map_map,
    List.length_map]
  rfl

theorem headSite_plain {lab : Str} (h : ¬ ['|', '<'] <:+: lab) (cs : List HTree) :
    headSite lab cs = false := by
  unfold headSite
  rw [(Str.find_eq_none_iff _ _).2 h]

/-- A label of the form `orig|<…`. -/
def ArtOf (orig lab : Str) : Prop := ∃ r, lab = orig ++ ['|', '<'] ++ r

theorem headSite_art {orig lab : Str} (ho : ¬ ['|', '<'] <:+: orig) (hl : ArtOf orig lab) (cs : List HTree) :
    headSite lab cs = !(cs.any fun c => (orig ++ ['|', '<']).isPrefixOf (labOf c)) := by
  obtain ⟨r, rfl⟩ := hl
  unfold headSite
  have h0 := (Str.find_eq_none_iff _ _).2 ho
  have := Str.find_take_append (q := ['|']) (a := orig) (b := r) (by decide) h0
  simp only [List.cons_append, List.nil_append] at this
  rw [this]
  have e : (orig ++ ['|', '<'] ++ r).take (orig.length + 2) = orig ++ ['|', '<'] := by
    rw [List.take_append_of_le_length (by simp), List.take_of_length_le (by simp)]
  simp only [e]

theorem headSite_false {orig lab lab' : Str} (ho : ¬ ['|', '<'] <:+: orig) (hl : ArtOf orig lab)
    (hl' : ArtOf orig lab') {cs : List HTree} {b : Bool} {ds : List HTree} (hm : .node (lab', b) ds ∈ cs) :
    headSite lab cs = false := by
  rw [headSite_art ho hl]
  simp only [Bool.not_eq_false', List.any_eq_true]
  refine ⟨_, hm, ?_⟩
  obtain ⟨r, rfl⟩ := hl'
  simp [labOf, List.isPrefixOf_iff_prefix]

theorem headSite_true {orig lab : Str} (ho : ¬ ['|', '<'] <:+: orig) (hl : ArtOf orig lab) {cs : List HTree}
    (hm : ∀ c ∈ cs, ¬ ['|', '<'] <:+: labOf c) : headSite lab cs = true := by
  rw [headSite_art ho hl]
  simp only [Bool.not_eq_true', List.any_eq_false]
  intro c hc
  simp only [List.isPrefixOf_iff_prefix]
  rintro ⟨r, hr⟩
  exact hm c hc ⟨orig, r, by simpa using hr⟩

theorem ArtOf.infix {orig lab : Str} (h : ArtOf orig lab) : ['|', '<'] <:+: lab := by
  obtain ⟨r, rfl⟩ := h
  exact ⟨orig, r, by simp⟩

theorem artLabel_artOf (o : Opts) (hcc : o.childchar = ['|']) (ht : o.tailmarker = [])
    (orig par : Str) (cl) (h) (num i : Nat) (left : Bool) :
    ArtOf orig (artLabel o orig par cl h num i left) := by
  unfold artLabel
  obtain ⟨r, hr⟩ := mkMark_prefix o (artSiblings o cl h num i left) par
  refine ⟨r, ?_⟩
  simp [hr, ht, hcc]

theorem switchLabel_artOf (o : Opts) (hcc : o.childchar = ['|']) (orig par : Str) (cl) (h) (sib : Str) :
    ArtOf orig (switchLabel o orig par cl h sib) := by
  unfold switchLabel
  extract_lets s
  exact ⟨s ++ ['>'] ++ par, by simp [hcc]⟩

theorem leftmostLabel_artOf (o : Opts) (hcc : o.childchar = ['|']) (orig par : Str) (cl) (h)
    (num : Nat) (left : Bool) : ArtOf orig (leftmostLabel o orig par cl h num left) := by
  unfold leftmostLabel
  extract_lets _ _ _ _ siblings
  obtain ⟨r, hr⟩ := mkMark_prefix o siblings par
  exact ⟨r, by simp [hr, hcc]⟩

theorem restoreNode_none (pc lab : Str) (hd : Bool) (cs : List HTree) :
    restoreNode pc none lab hd cs = .node ((match Str.find pc lab with
      | some i => lab.take i
      | none => lab), hd) cs := rfl

theorem unbin_markHead {pc : Str} {r u : HTree} (hr : ¬ ['|', '<'] <:+: labOf r)
    (h : unbinChild ['|', '<'] pc none (sv r) = [u]) :
    unbinChild ['|', '<'] pc none (markHead (sv r)) = [markHead u] := by
  cases r with
  | leaf i =>
    simp only [sv, clearHeads, saveTree, markHead, unbinChild_leaf] at h ⊢
    injection h with h _
    rw [← h]
    try rfl
  | node l cs =>
    obtain ⟨lab, b⟩ := l
    simp only [labOf] at hr
    have hf : ¬ (Str.find ['|', '<'] lab).isSome = true := by rw [Str.find_isSome_iff]; exact hr
    rw [sv_node] at h ⊢
    simp only [markHead]
    rw [unbinChild, if_neg hf, restoreNode_none] at h ⊢
    injection h with h _
    rw [← h]
    try rfl

theorem modify_append_left {α : Type} (f : α → α) (xs ys : List α) (k : Nat) (h : k < xs.length) :
    (xs ++ ys).modify k f = xs.modify k f ++ ys := by
  induction xs generalizing k with
  | nil => simp at h
  | cons x xs ih =>
    cases k with
    | zero => simp
    | succ k => simp at h; simp [ih k h]

/-- Position, within the `steps + 1` children that are left at iteration `i`, of the child that will
remain at the end. -/
def goalPos (left0 : Bool) (H steps i : Nat) : Nat :=
  let q := if i ≤ H then H + 1 - i else 0
  if left0 then steps - q else q

section
variable {pc : Str} (o : Opts) (hcc : o.childchar = ['|']) (ht : o.tailmarker = [])
  (hho : o.headoutward = true) (orig par : Str) (ho : ¬ ['|', '<'] <:+: orig)
  (cl : List Str) (h : Option Nat) (num : Nat) (U : HTree → HTree)

theorem unbinList_map_sv {rest : List HTree}
    (hrest : ∀ r ∈ rest, unbinChild ['|', '<'] pc none (sv r) = [U r]) :
    unbinList ['|', '<'] pc none (rest.map sv) = rest.map U := by
  induction rest with
  | nil => simp
  | cons r rest ih =>
    rw [List.map_cons, unbinList_cons, hrest r (by simp), ih (fun x hx => hrest x (by simp [hx]))]
    rfl

include hcc ht hho ho in
theorem factorLoop_saved (hh : ∀ j, h = some j → j < num) :
    ∀ (steps i : Nat) (left : Bool) (rest : List HTree), 1 ≤ i → i + steps = num → rest.length = steps + 1 →
      (left = (o.left != (h.isSome && decide (h.getD (num - 1) < i)))) →
      (∀ r ∈ rest, ¬ ['|', '<'] <:+: labOf r ∧ unbinChild ['|', '<'] pc none (sv r) = [U r]) →
      (∀ lab b, ArtOf orig lab → unbinChild ['|', '<'] pc none
          (sv (.node (lab, b) (factorLoop o orig par cl h num steps i left rest)))
        = (rest.map U).modify (goalPos o.left (h.getD (num - 1)) steps i) markHead) ∧
      (0 < steps → unbinList ['|', '<'] pc none
          ((factorLoop o orig par cl h num steps i left rest).map sv)
        = (rest.map U).modify (goalPos o.left (h.getD (num - 1)) steps i) markHead) := by
  intro steps
  induction steps with
  | zero =>
    intro i left rest hi1 hi hlen hleft hrest
    refine ⟨?_, fun h0 => absurd h0 (by omega)⟩
    intro lab b hlab
    match rest, hlen with
    | [r], _ =>
      have hr := hrest r (by simp)
      simp only [factorLoop]
      rw [sv_node, unbinChild_art hlab.infix,
        headSite_true ho hlab (by intro c hc; simp at hc; rw [hc]; exact hr.1)]
      have hg : goalPos o.left (h.getD (num - 1)) 0 i = 0 := by
        have : ¬ i ≤ h.getD (num - 1) := by
          cases h with
          | none => simp; omega
          | some j => have := hh j rfl; simp; omega
        simp [goalPos, this]
      rw [hg]
      simp [unbin_markHead hr.1 hr.2]
  | succ steps ih =>
    intro i left rest hi1 hi hlen hleft hrest
    -- second part first
    have hB : unbinList ['|', '<'] pc none
          ((factorLoop o orig par cl h num (steps + 1) i left rest).map sv)
        = (rest.map U).modify (goalPos o.left (h.getD (num - 1)) (steps + 1) i) markHead := by
      simp only [factorLoop]
      generalize hisH : (o.headoutward && (h == some i)) = isHead
      generalize hleft' : (if isHead then !left else left) = left'
      generalize hrest'e : (if left then rest.dropLast else rest.drop 1) = rest'
      have hl' : left' = (o.left != (h.isSome && decide (h.getD (num - 1) < i + 1))) := by
        rw [hho, Bool.true_and] at hisH
        subst hisH; subst hleft'; subst hleft
        cases h with
        | none => simp
        | some j =>
          simp only [Option.isSome_some, Option.getD_some, Bool.true_and]
          by_cases hji : j = i
          · subst hji
            simp
          · have : ¬ (some j == some i) = true := by simpa using hji
            simp only [this, Bool.false_eq_true, if_false]
            congr 1
            by_cases hlt : j < i
            · simp [hlt, Nat.lt_succ_of_lt hlt]
            · have : ¬ j < i + 1 := by omega
              simp [hlt, this]
      have hlen' : rest'.length = steps + 1 := by
        subst hrest'e
        cases left <;> simp [hlen]
      have hr' : ∀ r ∈ rest', r ∈ rest := by
        subst hrest'e
        intro r hr
        cases left
        · exact List.mem_of_mem_drop hr
        · exact List.mem_of_mem_take (by rwa [List.dropLast_eq_take] at hr)
      have IH := (ih (i + 1) left' rest' (by omega) (by omega) hlen' hl' (fun r hr => hrest r (hr' r hr))).1
      have hnew : ∀ (bb : Bool) (sib : Str),
          unbinChild ['|', '<'] pc none (sv (.node (artLabel o orig par cl h num i left, false)
            (if bb then [.node (switchLabel o orig par cl h sib, false)
              (factorLoop o orig par cl h num steps (i + 1) left' rest')]
             else factorLoop o orig par cl h num steps (i + 1) left' rest')))
          = (rest'.map U).modify (goalPos o.left (h.getD (num - 1)) steps (i + 1)) markHead := by
        intro bb sib
        have hart := artLabel_artOf o hcc ht orig par cl h num i left
        cases bb
        · exact IH _ _ hart
        · have hsw := switchLabel_artOf o hcc orig par cl h sib
          simp only [if_true]
          rw [sv_node, unbinChild_art hart.infix, headSite_false ho hart hsw (List.mem_singleton_self _)]
          simp only [Bool.false_eq_true, if_false, List.map_cons, List.map_nil, unbinList_cons,
            unbinList_nil, List.append_nil]
          exact IH _ _ hsw
      have hHi : left = (o.left != false) ∨ left = (o.left != true) := by
        subst hleft
        cases (h.isSome && decide (h.getD (num - 1) < i)) <;> simp
      cases left
      · simp only [Bool.false_eq_true, if_false, List.map_append, List.map_cons, List.map_nil]
        simp only [Bool.false_eq_true, if_false] at hrest'e
        rw [unbinList_append, unbinList_cons, unbinList_nil, List.append_nil, hnew]
        match rest, hlen with
        | r :: rest, hlen =>
          simp only [List.drop_succ_cons, List.drop_zero] at hrest'e
          subst hrest'e
          rw [List.take_succ_cons, List.take_zero, List.map_cons, List.map_nil, unbinList_cons,
            (hrest r (by simp)).2, unbinList_nil]
          have hg : goalPos o.left (h.getD (num - 1)) (steps + 1) i
              = goalPos o.left (h.getD (num - 1)) steps (i + 1) + 1 := by
            unfold goalPos
            have hb : (h.isSome && decide (h.getD (num - 1) < i)) = o.left := by
              revert hleft
              cases (h.isSome && decide (h.getD (num - 1) < i)) <;> cases o.left <;> simp
            cases hol : o.left
            · rw [hol] at hb
              have : i ≤ h.getD (num - 1) := by
                cases h with
                | none => simp; omega
                | some j => simpa using hb
              simp only [Bool.false_eq_true, if_false]
              rw [if_pos this]
              split <;> omega
            · rw [hol] at hb
              have : h.getD (num - 1) < i := by
                cases h with
                | none => simp at hb
                | some j => simpa using hb
              simp only [if_true]
              rw [if_neg (by omega), if_neg (by omega)]
              omega
          rw [hg]
          simp
      · simp only [if_true, List.map_cons]
        simp only [if_true] at hrest'e
        rw [unbinList_cons, hnew]
        have hsplit : rest = rest' ++ rest.drop (rest.length - 1) := by
          subst hrest'e
          rw [List.dropLast_eq_take, List.take_append_drop]
        have hg : goalPos o.left (h.getD (num - 1)) (steps + 1) i
              = goalPos o.left (h.getD (num - 1)) steps (i + 1) ∧
              goalPos o.left (h.getD (num - 1)) (steps + 1) i < steps + 1 := by
            unfold goalPos
            have hb : (h.isSome && decide (h.getD (num - 1) < i)) = !o.left := by
              revert hleft
              cases (h.isSome && decide (h.getD (num - 1) < i)) <;> cases o.left <;> simp
            cases hol : o.left
            · rw [hol] at hb
              have : h.getD (num - 1) < i := by
                cases h with
                | none => simp at hb
                | some j => simpa using hb
              simp only [Bool.false_eq_true, if_false]
              rw [if_neg (by omega), if_neg (by omega)]
              omega
            · rw [hol] at hb
              have : i ≤ h.getD (num - 1) ∧ h.getD (num - 1) < num := by
                cases h with
                | none => simp; omega
                | some j => have := hh j rfl; simp at hb; simp [hb, this]
              simp only [if_true]
              rw [if_pos this.1]
              split <;> omega
        rw [← hg.1]
        have hsm : rest.map U = rest'.map U ++ (rest.drop (rest.length - 1)).map U := by
          rw [← List.map_append, ← hsplit]
        rw [hsm, modify_append_left _ _ _ _ (by rw [List.length_map, hlen']; exact hg.2)]
        congr 1
        exact unbinList_map_sv U (fun r hr => (hrest r (List.mem_of_mem_drop hr)).2)
    refine ⟨?_, fun _ => hB⟩
    intro lab b hlab
    rw [sv_node, unbinChild_art hlab.infix]
    have hart := artLabel_artOf o hcc ht orig par cl h num i left
    have hmem : ∃ ds, (.node (artLabel o orig par cl h num i left, false) ds) ∈
        factorLoop o orig par cl h num (steps + 1) i left rest := by
      simp only [factorLoop]
      cases left
      · exact ⟨_, by simp only [Bool.false_eq_true, if_false]; exact List.mem_append_right _ (List.mem_singleton_self _)⟩
      · exact ⟨_, by simp only [if_true]; exact List.mem_cons_self⟩
    obtain ⟨ds, hmem⟩ := hmem
    rw [headSite_false ho hlab hart hmem]
    exact hB
end

theorem headIdx_lt {cs : List HTree} {j : Nat} (h : headIdx cs = some j) : j < cs.length := by
  induction cs generalizing j with
  | nil => simp [headIdx] at h
  | cons c cs ih =>
    have key : headIdx (c :: cs) = some 0 ∨ headIdx (c :: cs) = (headIdx cs).map (· + 1) := by
      cases c with
      | leaf i => right; simp [headIdx]
      | node l ds =>
        obtain ⟨l, b⟩ := l
        cases b
        · right; simp [headIdx]
        · left; simp [headIdx]
    rcases key with k | k
    · rw [k] at h; simp at h; subst h; simp
    · rw [k, Option.map_eq_some_iff] at h
      obtain ⟨m, hm, rfl⟩ := h
      have := ih hm
      simp; omega

theorem factorNode_saved {pc : Str} (o : Opts) (hcc : o.childchar = ['|']) (ht : o.tailmarker = [])
    (hho : o.headoutward = true) (hru : o.rightmostunary = true) (hth : 2 ≤ o.threshold)
    (orig par : Str) (ho : ¬ ['|', '<'] <:+: orig) (U : HTree → HTree)
    (cs cs' : List HTree) (hlen : cs'.length = cs.length)
    (hreal : ∀ r ∈ cs', ¬ ['|', '<'] <:+: labOf r ∧ unbinChild ['|', '<'] pc none (sv r) = [U r]) :
    unbinList ['|', '<'] pc none ((factorNode o orig par cs cs').map sv)
      = if o.threshold < cs.length then (cs'.map U).modify (recoveredChild o.left cs) markHead
        else cs'.map U := by
  unfold factorNode
  extract_lets headidx num offset childnodes remaining newnode pos childlabels left steps body
  by_cases h1 : num ≤ o.threshold
  · rw [if_pos h1, if_neg (by omega)]
    exact unbinList_map_sv U (fun r hr => (hreal r hr).2)
  · have h2 : ¬ (1 ≤ num ∧ num ≤ 2) := by omega
    have h3 : o.threshold < cs.length := Nat.lt_of_not_le h1
    rw [if_neg h1, if_neg h2, if_pos h3]
    have hheadidx : headidx = headIdx cs := by simp [headidx, hho]
    have hsteps : steps = num - 1 := by simp [steps, hru]
    have hleft : left = (o.left != (headidx.isSome && decide (headidx.getD (num - 1) < 1))) := by
      simp only [left, hho, Bool.true_and]
      cases hx : headidx with
      | none => simp
      | some j =>
        by_cases hj : j = 0
        · subst hj; simp
        · have : ¬ (some j == some 0) = true := by simpa using hj
          have h2 : ¬ j < 1 := by omega
          simp [this, h2]
    have hh : ∀ j, headidx = some j → j < num := by
      intro j hj; rw [hheadidx] at hj; exact headIdx_lt hj
    have hlen' : cs'.length = steps + 1 := by rw [hlen, hsteps]; omega
    have hL := factorLoop_saved (pc := pc) o hcc ht hho orig par ho childlabels headidx num U hh
      steps 1 left cs' (by omega) (by omega) hlen' hleft hreal
    have hg : goalPos o.left (headidx.getD (num - 1)) steps 1 = recoveredChild o.left cs := by
      unfold goalPos recoveredChild
      rw [hheadidx, hsteps]
      by_cases hz : 1 ≤ (headIdx cs).getD (num - 1)
      · simp only [if_pos hz]
        simp [num]
      · simp only [if_neg hz]
        have : (headIdx cs).getD (num - 1) = 0 := by omega
        simp only [num] at this
        simp [this, num]
    rw [hg] at hL
    by_cases hlm : o.leftmostunary = true
    · rw [if_pos hlm]
      rw [List.map_cons, List.map_nil, unbinList_cons, unbinList_nil, List.append_nil]
      exact hL.1 _ _ (leftmostLabel_artOf o hcc orig par childlabels headidx num left)
    · rw [if_neg hlm]
      exact hL.2 (by omega)

theorem binTree_saved (o : Opts) (p : Char) (hm : MarkersOK o '|' p) (ht : o.tailmarker = [])
    (hho : o.headoutward = true) (hru : o.rightmostunary = true) (hth : 2 ≤ o.threshold) (t : HTree) :
    ∀ (root : Bool) (parent : List Str), (∀ x ∈ parent, ¬ ['|', '<'] <:+: x) →
      AllLabels (fun l => ¬ ['|', '<'] <:+: l ∧ ¬ [p, '<'] <:+: l) t →
      ¬ ['|', '<'] <:+: labOf (binTree o root parent t) ∧
      unbinChild ['|', '<'] [p, '<'] none (sv (binTree o root parent t))
        = [recovered o.left o.threshold t] := by
  induction t using PTree.ind with
  | hleaf i =>
    intro root parent _ _
    simp [binTree, recovered, labOf, sv, clearHeads, saveTree]
  | hnode l cs ih =>
    obtain ⟨lab, hd⟩ := l
    intro root parent hpar hall
    have hlab := hall.root
    simp only [binTree]
    generalize hann : (decide (o.vertmarkov > 1) && !root && firstIsNode cs) = annot
    have hvm : annot = true → o.vertmarkov ≠ 0 := by
      intro h; rw [h] at hann; simp at hann; omega
    have hnart : ¬ ['|', '<'] <:+: (if annot then lab ++ (o.parentchar ++ ['<'] ++
        Str.join [','] parent ++ ['>']) else lab) := by
      cases annot
      · simpa using hlab.1
      · rw [if_pos rfl, hm.pc]
        exact annot_not_art hm.ne hm.p1 hm.c1 hm.c2 hm.c3 hlab.1 hpar
    refine ⟨hnart, ?_⟩
    have horig : ¬ ['|', '<'] <:+: (if o.vertmarkov ≠ 0 then lab else ['_']) := by
      split
      · exact hlab.1
      · rintro ⟨a, b, h⟩
        have := congrArg List.length h
        simp at this
        omega
    generalize hpar'e : (if annot then (if o.vertmarkov ≠ 0 then lab else ['_']) :: parent.take (o.vertmarkov - 2)
      else parent) = parent'
    have hpar' : ∀ x ∈ parent', ¬ ['|', '<'] <:+: x := by
      subst hpar'e
      intro x hx
      cases annot
      · simp at hx; exact hpar x hx
      · simp only [if_true] at hx
        rcases List.mem_cons.1 hx with h | h
        · rw [h]; exact horig
        · exact hpar x (List.mem_of_mem_take h)
    have hbl : ∀ ds, binList o parent' ds = ds.map (binTree o false parent') := by
      intro ds
      induction ds with
      | nil => simp [binList]
      | cons d ds ihd => simp [binList, ihd]
    rw [sv_node, headSite_plain hnart, unbinChild, if_neg (by rw [Str.find_isSome_iff]; exact hnart)]
    -- `U` on processed children: read off the result of `unbinChild`
    have hU : ∃ U : HTree → HTree, (∀ c ∈ cs, U (binTree o false parent' c) = recovered o.left o.threshold c) ∧
        ∀ c ∈ cs, unbinChild ['|', '<'] [p, '<'] none (sv (binTree o false parent' c))
          = [U (binTree o false parent' c)] := by
      refine ⟨fun r => (unbinChild ['|', '<'] [p, '<'] none (sv r)).headD r, ?_, ?_⟩
      · intro c hc
        simp only []
        rw [(ih c hc false parent' hpar' (hall.child hc)).2]; rfl
      · intro c hc
        simp only []
        rw [(ih c hc false parent' hpar' (hall.child hc)).2]; rfl
    obtain ⟨U, hU1, hU2⟩ := hU
    have hfac := factorNode_saved (pc := [p, '<']) o hm.cc ht hho hru hth
      (if o.vertmarkov ≠ 0 then lab else ['_'])
      (if annot && o.artpa then o.parentchar ++ ['<'] ++ Str.join [','] parent ++ ['>'] else [])
      horig U cs (binList o parent' cs) (by simp)
      (by
        intro r hr
        rw [hbl, List.mem_map] at hr
        obtain ⟨c, hc, rfl⟩ := hr
        exact ⟨(ih c hc false parent' hpar' (hall.child hc)).1, hU2 c hc⟩)
    simp only [Bool.false_eq_true, if_false]
    rw [hfac, hm.pc]
    have hmap : (binList o parent' cs).map U = recoveredList o.left o.threshold cs := by
      rw [hbl, List.map_map, recoveredList_eq]
      exact List.map_congr_left hU1
    rw [hmap]
    have := restoreNode_annot (q := [p]) (par := Str.join [','] parent ++ ['>']) (lab := lab)
      (by simp [hm.p1.symm]) hlab.2 none false
      (if o.threshold < cs.length then
        (recoveredList o.left o.threshold cs).modify (recoveredChild o.left cs) markHead
       else recoveredList o.left o.threshold cs) annot
    have e : [p] ++ ['<'] ++ Str.join [','] parent ++ ['>'] =
      [p] ++ ['<'] ++ (Str.join [','] parent ++ ['>']) := by simp
    rw [e]
    simp only [List.cons_append, List.nil_append] at this ⊢
    rw [this, restoreNode_plain hlab.2]
    simp [expandUnary, recovered]

/-! ## No exception -/

/-- Constituents whose label contains `|<` have children, none of them a terminal. -/
def SiteOK (t : HTree) : Prop :=
  ∀ lab hd cs, .node (lab, hd) cs ∈ t.subtrees → ['|', '<'] <:+: lab →
    cs ≠ [] ∧ ∀ i, .leaf i ∉ cs

theorem siteOK_node {lab : Str} {hd : Bool} {cs : List HTree} :
    SiteOK (.node (lab, hd) cs) ↔
      (['|', '<'] <:+: lab → cs ≠ [] ∧ ∀ i, PTree.leaf i ∉ cs) ∧ ∀ c ∈ cs, SiteOK c := by
  constructor
  · intro h
    refine ⟨fun hl => h lab hd cs (by simp) hl, ?_⟩
    intro c hc lab' hd' cs' hx hl
    exact h lab' hd' cs' (by rw [subtrees_node]; exact List.mem_cons_of_mem _ (mem_subtreesL.2 ⟨c, hc, hx⟩)) hl
  · rintro ⟨h1, h2⟩ lab' hd' cs' hx hl
    rw [subtrees_node, List.mem_cons] at hx
    rcases hx with hx | hx
    · injection hx with e1 e2
      injection e1 with e1 e3
      subst e1 e2
      exact h1 hl
    · obtain ⟨c, hc, hx⟩ := mem_subtreesL.1 hx
      exact h2 c hc lab' hd' cs' hx hl

/-- A list of children fit to stand below an artificial node. -/
def KidsOK (cs : List HTree) : Prop := cs ≠ [] ∧ (∀ i, PTree.leaf i ∉ cs) ∧ ∀ c ∈ cs, SiteOK c

theorem KidsOK.wrap {cs : List HTree} (h : KidsOK cs) (lab : Str) (hd : Bool) :
    SiteOK (.node (lab, hd) cs) := siteOK_node.2 ⟨fun _ => ⟨h.1, h.2.1⟩, h.2.2⟩
theorem KidsOK.single {lab : Str} {hd : Bool} {cs : List HTree} (h : KidsOK cs) :
    KidsOK [.node (lab, hd) cs] :=
  ⟨by simp, by simp, by simp only [List.mem_singleton]; rintro c rfl; exact h.wrap lab hd⟩

theorem factorLoop_kidsOK (o : Opts) (orig par : Str) (cl) (h) (num : Nat) :
    ∀ (steps i : Nat) (left : Bool) (rest : List HTree), steps + 1 ≤ rest.length → KidsOK rest →
      KidsOK (factorLoop o orig par cl h num steps i left rest) := by
  intro steps
  induction steps with
  | zero => intro i left rest _ hr; simpa [factorLoop] using hr
  | succ steps ih =>
    intro i left rest hlen hr
    simp only [factorLoop]
    generalize (if (o.headoutward && (h == some i)) then !left else left) = left'
    have hsub : KidsOK (if left then rest.dropLast else rest.drop 1) := by
      have hl : steps + 1 ≤ (if left then rest.dropLast else rest.drop 1).length := by
        cases left <;> simp <;> omega
      have hm : ∀ x ∈ (if left then rest.dropLast else rest.drop 1), x ∈ rest := by
        intro x hx
        cases left
        · exact List.mem_of_mem_drop hx
        · simp only [if_true, List.dropLast_eq_take] at hx
          exact List.mem_of_mem_take hx
      refine ⟨?_, fun j hj => hr.2.1 j (hm _ hj), fun c hc => hr.2.2 c (hm c hc)⟩
      intro h0; rw [h0] at hl; simp at hl
    have hin := ih (i + 1) left' _ (by cases left <;> simp <;> omega) hsub
    generalize factorLoop o orig par cl h num steps (i + 1) left'
      (if left then rest.dropLast else rest.drop 1) = inner at hin
    have hin' : KidsOK (if (o.headoutward && (h == some i)) && o.direction && (i + 1 != num)
      then [.node (switchLabel o orig par cl h (artSiblings o cl h num i left), false) inner] else inner) := by
      split
      · exact hin.single
      · exact hin
    have hnew := hin'.wrap (artLabel o orig par cl h num i left) false
    cases left
    · simp only [Bool.false_eq_true, if_false] at hnew ⊢
      refine ⟨by simp, ?_, ?_⟩
      · intro j hj
        rcases List.mem_append.1 hj with hj | hj
        · exact hr.2.1 j (List.mem_of_mem_take hj)
        · simp at hj
      · intro c hc
        rcases List.mem_append.1 hc with hc | hc
        · exact hr.2.2 c (List.mem_of_mem_take hc)
        · rw [List.mem_singleton] at hc; rw [hc]; exact hnew
    · simp only [if_true] at hnew ⊢
      refine ⟨by simp, ?_, ?_⟩
      · intro j hj
        rcases List.mem_cons.1 hj with hj | hj
        · simp at hj
        · exact hr.2.1 j (List.mem_of_mem_drop hj)
      · intro c hc
        rcases List.mem_cons.1 hc with hc | hc
        · rw [hc]; exact hnew
        · exact hr.2.2 c (List.mem_of_mem_drop hc)
theorem factorNode_siteOK (o : Opts) (hth : 2 ≤ o.threshold)
    (orig par : Str) (cs cs' : List HTree) (hlen : cs'.length = cs.length)
    (hk : o.threshold < cs.length → ∀ i, PTree.leaf i ∉ cs') (hs : ∀ c ∈ cs', SiteOK c) :
    ∀ c ∈ factorNode o orig par cs cs', SiteOK c := by
  unfold factorNode
  extract_lets headidx num offset childnodes remaining newnode pos childlabels left steps body
  by_cases h1 : num ≤ o.threshold
  · rw [if_pos h1]; exact hs
  · have h2 : ¬ (1 ≤ num ∧ num ≤ 2) := by omega
    have h3 : o.threshold < cs.length := Nat.lt_of_not_le h1
    rw [if_neg h1, if_neg h2]
    have hkids : KidsOK cs' := ⟨by intro h0; rw [h0] at hlen; simp at hlen; omega, hk h3, hs⟩
    have hbody : KidsOK body :=
      factorLoop_kidsOK o orig par childlabels headidx num steps 1 left cs'
          (by simp only [steps]; omega) hkids
    by_cases hlm : o.leftmostunary = true
    · rw [if_pos hlm]; exact hbody.single.2.2
    · rw [if_neg hlm]; exact hbody.2.2

theorem binTree_isLeaf {o : Opts} {root : Bool} {parent : List Str} {t : HTree} {i : Nat}
    (h : binTree o root parent t = .leaf i) : t = .leaf i := by
  cases t with
  | leaf j => simpa [binTree] using h
  | node l cs => obtain ⟨l, b⟩ := l; simp [binTree] at h

theorem binTree_siteOK (o : Opts) (p : Char) (hm : MarkersOK o '|' p) (hth : 2 ≤ o.threshold) (t : HTree) :
    ∀ (root : Bool) (parent : List Str), (∀ x ∈ parent, ¬ ['|', '<'] <:+: x) →
      AllLabels (fun l => ¬ ['|', '<'] <:+: l) t →
      (∀ l cs, .node l cs ∈ t.subtrees → o.threshold < cs.length → ∀ i, PTree.leaf i ∉ cs) →
      SiteOK (binTree o root parent t) := by
  induction t using PTree.ind with
  | hleaf i =>
    intro root parent _ _ _ lab hd cs hx
    simp [binTree] at hx
  | hnode l cs ih =>
    obtain ⟨lab, hd⟩ := l
    intro root parent hpar hall hterm
    have hlab := hall.root
    simp only [binTree]
    generalize hann : (decide (o.vertmarkov > 1) && !root && firstIsNode cs) = annot
    have hnart : ¬ ['|', '<'] <:+: (if annot then lab ++ (o.parentchar ++ ['<'] ++
        Str.join [','] parent ++ ['>']) else lab) := by
      cases annot
      · simpa using hlab
      · rw [if_pos rfl, hm.pc]
        exact annot_not_art hm.ne hm.p1 hm.c1 hm.c2 hm.c3 hlab hpar
    have horig : ¬ ['|', '<'] <:+: (if o.vertmarkov ≠ 0 then lab else ['_']) := by
      split
      · exact hlab
      · rintro ⟨a, b, h⟩
        have := congrArg List.length h
        simp at this
        omega
    generalize hpar'e : (if annot then (if o.vertmarkov ≠ 0 then lab else ['_']) :: parent.take (o.vertmarkov - 2)
      else parent) = parent'
    have hpar' : ∀ x ∈ parent', ¬ ['|', '<'] <:+: x := by
      subst hpar'e
      intro x hx
      cases annot
      · simp at hx; exact hpar x hx
      · simp only [if_true] at hx
        rcases List.mem_cons.1 hx with h | h
        · rw [h]; exact horig
        · exact hpar x (List.mem_of_mem_take h)
    have hbl : ∀ ds, binList o parent' ds = ds.map (binTree o false parent') := by
      intro ds
      induction ds with
      | nil => simp [binList]
      | cons d ds ihd => simp [binList, ihd]
    rw [siteOK_node]
    refine ⟨fun h => absurd h hnart, ?_⟩
    apply factorNode_siteOK o hth _ _ cs (binList o parent' cs) (by simp)
    · intro hlt i hi
      rw [hbl, List.mem_map] at hi
      obtain ⟨c, hc, he⟩ := hi
      rw [binTree_isLeaf he] at hc
      exact hterm (lab, hd) cs (by simp) hlt i hc
    · intro c hc
      rw [hbl, List.mem_map] at hc
      obtain ⟨d, hd, rfl⟩ := hc
      refine ih d hd false parent' hpar' (hall.child hd) ?_
      intro l cs' hx
      exact hterm l cs' (by rw [subtrees_node]; exact List.mem_cons_of_mem _ (mem_subtreesL.2 ⟨d, hd, hx⟩))

/-! ## C86 -/

/-- **C86.** The head child of a constituent is recovered from its head-outward binarization: binarize any tree
with `headoutward` and `rightmostunary` (any markovization, parent annotation, unaries, direction marks,
ids, ...), forget all head marks (the grammar and the parser only see labels),
then `saveheads` and `unbinarize`: the result is the original tree, in which every constituent that was factored
has exactly its (first) head child marked, or its last child if it had no head.
(`factor='left'`: the child at the mirrored position, see `C86_left_disagreement`.) -/
theorem C86_heads_recovered (o : Opts) (p : Char) (hcc : o.childchar = ['|']) (hpc : o.parentchar = [p])
    (hne : p ≠ '|') (hp : p ≠ '<') (ht : o.tailmarker = []) (hho : o.headoutward = true)
    (hru : o.rightmostunary = true) (hth : 2 ≤ o.threshold) (t : HTree)
    (h1 : NoMarker ['|', '<'] t) (h2 : NoMarker [p, '<'] t) :
    unbinarize o.childchar o.parentchar none (saveheads o.tailmarker (clearHeads (binarize o t)))
      = recovered o.left o.threshold t := by
  have hm : MarkersOK o '|' p := ⟨hcc, hpc, hne.symm, by decide, by decide, by decide, hp⟩
  have hall : AllLabels (fun l => ¬ ['|', '<'] <:+: l ∧ ¬ [p, '<'] <:+: l) t :=
    fun l hd cs hx => ⟨h1 l hd cs hx, h2 l hd cs hx⟩
  rw [ht]
  have e : saveheads [] (clearHeads (binarize o t)) = sv (binarize o t) := by simp [saveheads, sv]
  rw [e, hcc, hpc]
  have hpar : ∀ x ∈ [(t.label?.map Prod.fst).getD []], ¬ ['|', '<'] <:+: x := by
    intro x hx
    rw [List.mem_singleton] at hx
    subst hx
    cases t with
    | leaf i => simp [PTree.label?]
    | node l cs => obtain ⟨l, b⟩ := l; simpa [PTree.label?] using hall.root.1
  have key := binTree_saved o p hm ht hho hru hth t true _ hpar hall
  have : ∀ s : HTree, ¬ ['|', '<'] <:+: labOf s → ∀ r,
      unbinChild ['|', '<'] [p, '<'] none s = [r] → unbinarize ['|'] [p] none s = r := by
    intro s hs r hr
    cases s with
    | leaf i => simpa [unbinarize] using hr
    | node l cs =>
      obtain ⟨l, b⟩ := l
      rw [unbinChild, if_neg (by rw [Str.find_isSome_iff]; exact hs)] at hr
      injection hr with hr _
  refine this _ ?_ _ key.2
  have : ∀ s : HTree, labOf (sv s) = labOf s := by
    intro s
    cases s with
    | leaf i => simp [sv, clearHeads, saveTree, labOf]
    | node l cs => obtain ⟨l, b⟩ := l; rw [sv_node]; rfl
  rw [this]
  exact key.1

/-- Is the child marked as head? -/
def isHead : HTree → Bool
  | .node (_, b) _ => b
  | .leaf _ => false

/-- Head annotation as produced by head rules, restricted to the constituents for which the binarization
carries it: exactly one head in a constituent with more than `k` children, none elsewhere. -/
def HeadsOn (k : Nat) (t : HTree) : Prop :=
  isHead t = false ∧ ∀ l cs, .node l cs ∈ t.subtrees →
    cs.countP isHead = if k < cs.length then 1 else 0

/-- The tree up to its own mark. -/
def unmark : HTree → HTree
  | .node (l, _) cs => .node (l, false) cs
  | .leaf i => .leaf i

theorem countP_one_split (cs : List HTree) (h : cs.countP isHead = 1) :
    ∃ a c b, cs = a ++ c :: b ∧ isHead c = true ∧ (∀ x ∈ a, isHead x = false) ∧
      (∀ x ∈ b, isHead x = false) := by
  induction cs with
  | nil => simp at h
  | cons x cs ih =>
    by_cases hx : isHead x = true
    · rw [List.countP_cons_of_pos hx] at h
      have h0 : cs.countP isHead = 0 := by omega
      refine ⟨[], x, cs, rfl, hx, by simp, ?_⟩
      intro y hy
      have := List.countP_eq_zero.1 h0 y hy
      simpa using this
    · rw [List.countP_cons_of_neg hx] at h
      obtain ⟨a, c, b, rfl, hc, ha, hb⟩ := ih h
      refine ⟨x :: a, c, b, rfl, hc, ?_, hb⟩
      intro y hy
      rcases List.mem_cons.1 hy with rfl | hy
      · simpa using hx
      · exact ha y hy

theorem headIdx_split {a b : List HTree} {c : HTree} (ha : ∀ x ∈ a, isHead x = false) (hc : isHead c = true) :
    headIdx (a ++ c :: b) = some a.length := by
  induction a with
  | nil =>
    cases c with
    | leaf i => simp [isHead] at hc
    | node l cs => obtain ⟨l, d⟩ := l; simp [isHead] at hc; subst hc; simp [headIdx]
  | cons x a ih =>
    have hx := ha x (by simp)
    have := ih (fun y hy => ha y (by simp [hy]))
    cases x with
    | leaf i => simp [headIdx, this]
    | node l cs => obtain ⟨l, d⟩ := l; simp [isHead] at hx; subst hx; simp [headIdx, this]

theorem unmark_of_not_head {c : HTree} (h : isHead c = false) : unmark c = c := by
  cases c with
  | leaf i => rfl
  | node l cs => obtain ⟨l, d⟩ := l; simp [isHead] at h; subst h; rfl

theorem markHead_unmark {c : HTree} (h : isHead c = true) : markHead (unmark c) = c := by
  cases c with
  | leaf i => rfl
  | node l cs => obtain ⟨l, d⟩ := l; simp [isHead] at h; subst h; rfl

theorem recovered_unmark (k : Nat) (t : HTree)
    (h : ∀ l cs, .node l cs ∈ t.subtrees → cs.countP isHead = if k < cs.length then 1 else 0) :
    recovered false k t = unmark t := by
  induction t using PTree.ind with
  | hleaf i => simp [recovered, unmark]
  | hnode l cs ih =>
    obtain ⟨lab, hd⟩ := l
    have hkids : cs.map (recovered false k) = cs.map unmark := by
      apply List.map_congr_left
      intro c hc
      apply ih c hc
      intro l cs' hx
      exact h l cs' (by rw [subtrees_node]; exact List.mem_cons_of_mem _ (mem_subtreesL.2 ⟨c, hc, hx⟩))
    have hr := h _ cs (by simp : PTree.node (lab, hd) cs ∈ _)
    simp only [recovered, recoveredList_eq, hkids, unmark]
    congr 1
    by_cases hk : k < cs.length
    · rw [if_pos hk]
      rw [if_pos hk] at hr
      obtain ⟨a, c, b, rfl, hc, ha, hb⟩ := countP_one_split cs hr
      simp only [recoveredChild, headIdx_split ha hc]
      have e1 : a.map unmark = a := by
        exact (List.map_congr_left (fun x hx => unmark_of_not_head (ha x hx))).trans (List.map_id' _)
      have e2 : b.map unmark = b := by
        exact (List.map_congr_left (fun x hx => unmark_of_not_head (hb x hx))).trans (List.map_id' _)
      simp only [List.map_append, List.map_cons, e1, e2, Bool.false_eq_true, if_false, Option.getD_some]
      have : ∀ (xs : List HTree) (y : HTree) (zs : List HTree),
          (xs ++ y :: zs).modify xs.length markHead = xs ++ markHead y :: zs := by
        intro xs y zs
        induction xs with
        | nil => simp
        | cons x xs ih => simp [ih]
      rw [this, markHead_unmark hc]
    · rw [if_neg hk] at hr ⊢
      have hr2 : ∀ x ∈ cs, isHead x = false := fun x hx => by simpa using List.countP_eq_zero.1 hr x hx
      exact (List.map_congr_left (fun x hx => unmark_of_not_head (hr2 x hx))).trans (List.map_id' _)

/-- **C86.** Full round trip: a tree with one head in every constituent that gets factored (and no other head
marks) survives binarization, loss of the marks, `saveheads` and `unbinarize` unchanged,
heads included. -/
theorem C86_heads_roundtrip (o : Opts) (p : Char) (hcc : o.childchar = ['|']) (hpc : o.parentchar = [p])
    (hne : p ≠ '|') (hp : p ≠ '<') (ht : o.tailmarker = []) (hho : o.headoutward = true)
    (hru : o.rightmostunary = true) (hth : 2 ≤ o.threshold) (hleft : o.left = false) (t : HTree)
    (h1 : NoMarker ['|', '<'] t) (h2 : NoMarker [p, '<'] t) (hh : HeadsOn o.threshold t) :
    unbinarize o.childchar o.parentchar none (saveheads o.tailmarker (clearHeads (binarize o t))) = t := by
  rw [C86_heads_recovered o p hcc hpc hne hp ht hho hru hth t h1 h2, hleft,
    recovered_unmark _ _ hh.2, unmark_of_not_head hh.1]

/-- **C86.** `saveheads` meets only constituents on artificial nodes (no AttributeError from `child.label` or
`node[-1].type`, no IndexError from `node[-1]`), when terminals have no siblings in the original
tree, as `binarize` assumes (treetransforms.py:95). -/
theorem C86_saveheads_no_exception (o : Opts) (p : Char) (hcc : o.childchar = ['|'])
    (hpc : o.parentchar = [p]) (hne : p ≠ '|') (hp : p ≠ '<') (hth : 2 ≤ o.threshold) (t : HTree)
    (h1 : NoMarker ['|', '<'] t)
    (hterm : ∀ l cs, .node l cs ∈ t.subtrees → 1 < cs.length → ∀ i, PTree.leaf i ∉ cs)
    (lab : Str) (hd : Bool) (cs : List HTree) (hx : .node (lab, hd) cs ∈ (binarize o t).subtrees)
    (hl : ['|', '<'] <:+: lab) : cs ≠ [] ∧ ∀ i, PTree.leaf i ∉ cs := by
  have hm : MarkersOK o '|' p := ⟨hcc, hpc, hne.symm, by decide, by decide, by decide, hp⟩
  refine binTree_siteOK o p hm hth t true [(t.label?.map Prod.fst).getD []] ?_ h1
    (fun l cs hx hlt => hterm l cs hx (by omega)) lab hd cs hx hl
  intro x hx
  rw [List.mem_singleton] at hx
  subst hx
  cases t with
  | leaf i => simp [PTree.label?]
  | node l cs => obtain ⟨l, b⟩ := l; simpa [PTree.label?] using h1 l b cs (by simp)

/-- A tree with a medial head, an initial head in an embedded constituent and a binary constituent. -/
def exHeads : HTree :=
  .node ("S".toList, false) [
    .node ("NP".toList, false) [.node ("DT".toList, true) [.leaf 0], .node ("JJ".toList, false) [.leaf 1],
      .node ("NN".toList, false) [.leaf 2]],
    .node ("V".toList, true) [.leaf 3],
    .node ("PP".toList, false) [.node ("P".toList, false) [.leaf 4], .node ("N".toList, false) [.leaf 5]],
    .node ("ADV".toList, false) [.leaf 6]]

/-- Options as used by an experiment with head rules. -/
def exOpts : Opts :=
  { headoutward := true, rightmostunary := true, leftmostunary := true, horzmarkov := 1, vertmarkov := 2,
    markhead := true, direction := true }

/-- Non-vacuity: the example meets the hypotheses, and marks are really lost and found again. -/
example : NoMarker ['|', '<'] exHeads ∧ NoMarker ['^', '<'] exHeads ∧
    clearHeads exHeads ≠ exHeads ∧ clearHeads (binarize exOpts exHeads) ≠ binarize exOpts exHeads ∧
    unbinarize ['|'] ['^'] none (saveheads [] (clearHeads (binarize exOpts exHeads))) = exHeads ∧
    recovered false 2 exHeads = exHeads :=
  ⟨noMarker_of_check (by decide), noMarker_of_check (by decide), by decide, by decide +kernel,
    by decide +kernel, by decide⟩

/-- Non-vacuity of `HeadsOn`: checked on the finitely many constituents. -/
example : HeadsOn 2 exHeads := by
  refine ⟨by decide, ?_⟩
  intro l cs hx
  have h : (exHeads.subtrees.all fun x => match x with
    | .node _ cs => decide (cs.countP isHead = if 2 < cs.length then 1 else 0)
    | .leaf _ => true) = true := by decide
  simpa using List.all_eq_true.1 h _ hx

/-- **C86, disagreement.** With `factor='left'` the child that is recovered is the mirror image of the head:
here the first child `A` is the head and the last child `C` comes back as head
(the source notes that the combination is broken, treetransforms.py:92). -/
theorem C86_left_disagreement :
    let o : Opts := { left := true, headoutward := true, rightmostunary := true }
    let t : HTree := .node ("S".toList, false) [.node ("A".toList, true) [.leaf 0],
      .node ("B".toList, false) [.leaf 1], .node ("C".toList, false) [.leaf 2]]
    unbinarize ['|'] ['^'] none (saveheads [] (clearHeads (binarize o t)))
      = .node ("S".toList, false) [.node ("A".toList, false) [.leaf 0],
        .node ("B".toList, false) [.leaf 1], .node ("C".toList, true) [.leaf 2]] := by decide +kernel

/-- **C86, disagreement.** With a tail marker `saveheads` does not mark the head child `B` but the artificial
node above it, which moreover survives `unbinarize` (its label `S|$<B,$,>` does not contain `|<`); and
an ordinary punctuation tag `$,` that contains the tail marker is marked as a head. -/
theorem C86_tailmarker_disagreement :
    let o : Opts := { headoutward := true, rightmostunary := true, tailmarker := ['$'] }
    let t : HTree := .node ("S".toList, false) [.node ("A".toList, false) [.leaf 0],
      .node ("B".toList, true) [.leaf 1], .node ("$,".toList, false) [.leaf 2]]
    unbinarize ['|'] ['^'] none (saveheads ['$'] (clearHeads (binarize o t)))
      = .node ("S".toList, false) [.node ("A".toList, false) [.leaf 0],
        .node ("S|$<B,$,>".toList, true) [.node ("B".toList, false) [.leaf 1]],
        .node ("$,".toList, true) [.leaf 2]] := by decide +kernel

/-- **C86, disagreement.** A constituent with two children does not get its head back. -/
theorem C86_binary_head_lost :
    let o : Opts := { headoutward := true, rightmostunary := true }
    let t : HTree := .node ("S".toList, false) [.node ("A".toList, true) [.leaf 0],
      .node ("B".toList, false) [.leaf 1]]
    unbinarize ['|'] ['^'] none (saveheads [] (clearHeads (binarize o t))) = clearHeads t ∧
      clearHeads t ≠ t := by decide +kernel
end Disco.Binarize
