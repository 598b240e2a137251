import Verif.Trees.SplitDisc
import Verif.Basic.Dict
/-!
# C05: `mergediscnodes` (treetransforms.py:522-554)

The attributes `source` and `type` are left out. Labels are strings without a newline (in the regular expression, `.` does not match one and
`$` matches before one at the end).
-/
namespace Disco.MergeDisc
open PTree MinSort SplitDisc

/-- `[^!]+![^!]+` for a whole string. -/
def origin (s : Str) : Bool :=
  !(s.takeWhile (· != '!')).isEmpty && (match s.dropWhile (· != '!') with
    | '!' :: y => !y.isEmpty && !y.contains '!'
    | _ => false)

/-- `([0-9]+)([^!]+![^!]+)?$` with at most `k` digits, most digits first. -/
def digitsRe (s : Str) : Nat → Option Str
  | 0 => none
  | k + 1 => if (s.drop (k + 1)).isEmpty || origin (s.drop (k + 1)) then some (s.take (k + 1)) else digitsRe s k

/-- `(?:([0-9]+)([^!]+![^!]+)?)?$`: the group `part`. -/
def tailRe (s : Str) : Option (Option Str) :=
  match digitsRe s (s.takeWhile Char.isDigit).length with
  | some d => some (some d)
  | none => if s.isEmpty then some none else none

/-- `SPLITLABELRE.search(label)`, groups 1 and 2 (treetransforms.py:28): `.*` first takes as much as possible, hence the last `*` comes
first. -/
def splitLabel : Str → Option (Str × Option Str)
  | [] => none
  | c :: cs => match splitLabel cs with
    | some (l, p) => some (c :: l, p)
    | none => if c = '*' then (tailRe cs).map (fun p => ([], p)) else none

/-- `int(part)` for ASCII digits. -/
def int (s : Str) : Nat := Nat.ofDigitChars 10 s 0

/-- The state of the inner loop: the new children, and the dictionary `merge`; a node in a queue is referred to by its position among the
new children. -/
structure St where
  out : List (PTree Str)
  merge : Dict Str (List Nat)

/-- `merge[key]`, a `defaultdict(list)`. -/
def St.queue (st : St) (key : Str) : List Nat := (Dict.get? st.merge key).getD []

/-- `node.extend(kids)`. -/
def extend (kids : List (PTree Str)) : PTree Str → PTree Str
  | .leaf i => .leaf i
  | .node l cs => .node l (cs ++ kids)

/-- One round of the inner loop (treetransforms.py:532-553). -/
def stepChild (st : St) (child : PTree Str) : St :=
  match child with
  | .leaf i => { st with out := st.out ++ [.leaf i] }
  | .node clabel grandchildren =>
    match splitLabel clabel with
    | none => { st with out := st.out ++ [.node clabel grandchildren] }
    | some (label, part) =>
      let st1 : St := if st.queue clabel = [] then
          { out := st.out ++ [.node label []], merge := st.merge.set clabel (st.queue clabel ++ [st.out.length]) } else st
      match st1.queue clabel with
      | [] => st1   -- does not occur
      | i :: q =>
        let st2 : St := { st1 with out := st1.out.modify i (extend grandchildren) }
        match part with
        | none => st2
        | some p =>
          if p = [] then st2 else
          let nextlabel := label ++ '*' :: Nat.toDigits 10 (int p + 1)
          let st3 : St := { st2 with merge := st2.merge.set clabel q }
          { st3 with merge := st3.merge.set nextlabel (st3.queue nextlabel ++ [i]) }

/-- The new children of a node (treetransforms.py:526-553). -/
def mergeStep (cs : List (PTree Str)) : List (PTree Str) := (cs.foldl stepChild ⟨[], []⟩).out

/-- The loop over `tree.subtrees()` (treetransforms.py:525): a node is changed first and then its new children are visited. The first argument
bounds the depth. -/
def mergeT : Nat → PTree Str → PTree Str
  | _, .leaf i => .leaf i
  | 0, t => t
  | n + 1, .node l cs => .node l ((mergeStep cs).map (mergeT n))

mutual
/-- Depth of a tree. -/
def depth : PTree Str → Nat
  | .leaf _ => 0
  | .node _ cs => depthL cs + 1
/-- On lists. -/
def depthL : List (PTree Str) → Nat
  | [] => 0
  | c :: cs => max (depth c) (depthL cs)
end

/-- `mergediscnodes(tree)` (treetransforms.py:522-554). -/
def mergediscnodes (t : PTree Str) : PTree Str := mergeT (depth t) t

/-! ### Specification -/

/-- No label has a `*`. -/
def Spec.NoStar (t : PTree Str) : Prop := ∀ l cs, .node l cs ∈ subtrees t → '*' ∉ l

/-- No two sisters are both discontinuous and have the same label. -/
def Spec.NoTwins (t : PTree Str) : Prop :=
  ∀ l cs, .node l cs ∈ subtrees t → cs.Pairwise (fun a b => SplitDisc.Spec.Cont a ∨ SplitDisc.Spec.Cont b ∨ a.label? ≠ b.label?)

/-! ### Labels -/

theorem splitLabel_none {l : Str} (h : '*' ∉ l) : splitLabel l = none := by
  induction l with
  | nil => rfl
  | cons c cs ih =>
    simp only [List.mem_cons, not_or] at h
    rw [splitLabel, ih h.2]
    simp [Ne.symm h.1]

theorem tailRe_digits (n : Nat) : tailRe (Nat.toDigits 10 n) = some (some (Nat.toDigits 10 n)) := by
  have hd : (Nat.toDigits 10 n).takeWhile Char.isDigit = Nat.toDigits 10 n := by
    have : ∀ c ∈ Nat.toDigits 10 n, Char.isDigit c = true := fun c hc => Nat.isDigit_of_mem_toDigits (by decide) (by decide) hc
    generalize Nat.toDigits 10 n = d at this
    induction d with
    | nil => rfl
    | cons c d ih => rw [List.takeWhile_cons_of_pos (this c (by simp)), ih (fun x hx => this x (by simp [hx]))]
  have hne : Nat.toDigits 10 n ≠ [] := Nat.toDigits_ne_nil
  rw [tailRe, hd]
  obtain ⟨k, hk⟩ := Nat.exists_eq_succ_of_ne_zero (by simp : (Nat.toDigits 10 n).length ≠ 0)
  rw [hk, Nat.succ_eq_add_one, digitsRe]
  simp [← Nat.succ_eq_add_one, ← hk]

theorem star_not_digit (n : Nat) : '*' ∉ Nat.toDigits 10 n := fun h => by
  have := Nat.isDigit_of_mem_toDigits (by decide) (by decide) h
  simp at this

theorem splitLabel_part {l : Str} (h : '*' ∉ l) (n : Nat) : splitLabel (newlabel true l n) = some (l, some (Nat.toDigits 10 n)) := by
  rw [newlabel, if_pos rfl]
  induction l with
  | nil => rw [List.nil_append, splitLabel, splitLabel_none (star_not_digit n)]; simp [tailRe_digits]
  | cons c cs ih =>
    simp only [List.mem_cons, not_or] at h
    rw [List.cons_append, splitLabel, ih h.2]

theorem int_digits (n : Nat) : int (Nat.toDigits 10 n) = n := by
  simp [int]

theorem newlabel_inj {l m : Str} {i j : Nat} (hl : '*' ∉ l) (hm : '*' ∉ m) (h : newlabel true l i = newlabel true m j) : l = m ∧ i = j := by
  have h1 := splitLabel_part hl i
  rw [h, splitLabel_part hm j] at h1
  simp only [Option.some.injEq, Prod.mk.injEq] at h1
  refine ⟨h1.1.symm, ?_⟩
  have := congrArg int h1.2
  rw [int_digits, int_digits] at this
  exact this.symm

/-! ### Children as items -/

/-- A child: one that stays as it is, or part `k` of a constituent. -/
inductive Item where
  | plain (t : PTree Str)
  | part (lab : Str) (k : Nat) (kids : List (PTree Str))

namespace Item

/-- The child itself. -/
def tree : Item → PTree Str
  | plain t => t
  | part lab k kids => .node (newlabel true lab k) kids

/-- Items that `mergediscnodes` recognises for what they are. -/
def Ok : Item → Prop
  | plain (.leaf _) => True
  | plain (.node l _) => '*' ∉ l
  | part lab _ _ => '*' ∉ lab

/-- Something new begins here. -/
def isFirst : Item → Bool
  | plain _ => true
  | part _ k _ => k == 0

/-- A part of a constituent with this label. -/
def isPart (lab : Str) : Item → Bool
  | plain _ => false
  | part l _ _ => l == lab

/-- The number of a part. -/
def num (lab : Str) : Item → Option Nat
  | plain _ => none
  | part l k _ => if l = lab then some k else none

/-- The kids of a part. -/
def kidsIf (lab : Str) : Item → List (PTree Str)
  | plain _ => []
  | part l _ ks => if l = lab then ks else []

/-- The child that an item starts. -/
def collect (I : List Item) : Item → PTree Str
  | plain t => t
  | part lab _ _ => .node lab (I.flatMap (kidsIf lab))

end Item
open Item

/-- The new children for a list of items. -/
def outSpec (I : List Item) : List (PTree Str) := (I.filter isFirst).map (collect I)

/-- Number of parts. -/
def cnt (lab : Str) (I : List Item) : Nat := (I.filterMap (num lab)).length

/-- Position of the constituent among the new children. -/
def idx (lab : Str) (I : List Item) : Nat := (I.filter isFirst).findIdx (isPart lab)

/-- The parts are numbered from zero. -/
def Num (I : List Item) : Prop := ∀ lab, I.filterMap (num lab) = List.range (cnt lab I)

/-- The invariant of the inner loop. -/
structure Inv (st : St) (I : List Item) : Prop where
  out : st.out = outSpec I
  queue : ∀ lab k, '*' ∉ lab → st.queue (newlabel true lab k) = if k = cnt lab I ∧ 0 < k then [idx lab I] else []

theorem range_split {A B : List Nat} {k m : Nat} (h : A ++ k :: B = List.range m) : A = List.range A.length ∧ k = A.length := by
  constructor
  · apply List.ext_getElem (by simp)
    intro i h1 h2
    have hi : (A ++ k :: B)[i]'(by simp; omega) = (List.range m)[i]'(by rw [← h]; simp; omega) := by simp only [h]
    rw [List.getElem_append_left h1] at hi
    simp at hi ⊢
    exact hi
  · have hi : (A ++ k :: B)[A.length]'(by simp) = (List.range m)[A.length]'(by rw [← h]; simp) := by simp only [h]
    simpa using hi

theorem range_prefix {A B : List Nat} {m : Nat} (h : A ++ B = List.range m) : A = List.range A.length := by
  cases B with
  | nil =>
    rw [List.append_nil] at h
    rw [h]; simp
  | cons k B => exact (range_split h).1

theorem Num.left {I R : List Item} (h : Num (I ++ R)) : Num I := fun lab => by
  have := h lab
  rw [List.filterMap_append] at this
  exact range_prefix this

theorem Num.next {I R : List Item} {lab : Str} {k : Nat} {kids : List (PTree Str)} (h : Num (I ++ .part lab k kids :: R)) : k = cnt lab I := by
  have := h lab
  rw [List.filterMap_append, List.filterMap_cons] at this
  simp only [num, if_pos] at this
  exact (range_split this).2

/-- When there are parts there is a first part. -/
theorem Num.exists_first {I : List Item} (h : Num I) {lab : Str} (hc : 0 < cnt lab I) : ∃ x ∈ I.filter isFirst, isPart lab x = true := by
  have h0 : 0 ∈ I.filterMap (num lab) := by rw [h lab]; simpa using hc
  obtain ⟨x, hx, hn⟩ := List.mem_filterMap.1 h0
  refine ⟨x, List.mem_filter.2 ⟨hx, ?_⟩, ?_⟩ <;> cases x with
  | plain t => simp [num] at hn
  | part l k ks =>
    rw [num] at hn
    split at hn
    · simp_all [isFirst, isPart]
    · simp at hn

theorem Num.unique {I : List Item} (h : Num I) (lab : Str) : (I.filter isFirst).Pairwise (fun a b => ¬ (isPart lab a = true ∧ isPart lab b = true)) := by
  have hnd : (I.filterMap (num lab)).Pairwise (· ≠ ·) := by rw [h lab]; exact List.nodup_range
  rw [List.pairwise_filterMap] at hnd
  have hs := hnd.sublist (List.filter_sublist (p := isFirst))
  refine List.Pairwise.imp_of_mem ?_ hs
  intro a b ha hb hab ⟨pa, pb⟩
  replace ha := (List.mem_filter.1 ha).2
  replace hb := (List.mem_filter.1 hb).2
  cases a with
  | plain t => simp [isPart] at pa
  | part l k ks => cases b with
    | plain t => simp [isPart] at pb
    | part l' k' ks' =>
      simp only [isPart, isFirst, beq_iff_eq] at pa pb ha hb
      subst pa pb ha hb
      exact hab 0 (by simp [num]) 0 (by simp [num]) rfl

theorem cnt_append (lab : Str) (I J : List Item) : cnt lab (I ++ J) = cnt lab I + cnt lab J := by simp [cnt, List.filterMap_append]

theorem cnt_zero {I : List Item} {lab : Str} (h : cnt lab I = 0) : ∀ x ∈ I, isPart lab x = false := by
  intro x hx
  rw [cnt, List.length_eq_zero_iff, List.filterMap_eq_nil_iff] at h
  have := h x hx
  cases x with
  | plain t => rfl
  | part l k ks =>
    rw [num] at this
    split at this
    · simp at this
    · simpa [isPart]

theorem flatMap_kids_nil {I : List Item} {lab : Str} (h : cnt lab I = 0) : I.flatMap (kidsIf lab) = [] := by
  rw [List.flatMap_eq_nil_iff]
  intro x hx
  have := cnt_zero h x hx
  cases x with
  | plain t => rfl
  | part l k ks =>
    simp only [isPart, beq_eq_false_iff_ne, ne_eq] at this
    simp [kidsIf, this]

theorem collect_other {I : List Item} {lab : Str} {k : Nat} {kids : List (PTree Str)} {y : Item} (h : isPart lab y = false) :
    collect (I ++ [.part lab k kids]) y = collect I y := by
  cases y with
  | plain t => rfl
  | part l j ks =>
    simp only [isPart, beq_eq_false_iff_ne, ne_eq] at h
    simp [collect, List.flatMap_append, kidsIf, Ne.symm h]

theorem idx_append {I J : List Item} {lab : Str} (h : ∃ x ∈ I.filter isFirst, isPart lab x = true) : idx lab (I ++ J) = idx lab I := by
  rw [idx, List.filter_append, List.findIdx_append, if_pos (List.findIdx_lt_length.2 h)]
  rfl

theorem modify_concat {α : Type} (xs : List α) (y : α) (f : α → α) : (xs ++ [y]).modify xs.length f = xs ++ [f y] := by
  induction xs with
  | nil => rfl
  | cons x xs ih => rw [List.length_cons, List.cons_append, List.modify_succ_cons, ih, List.cons_append]

theorem stepChild_inv {st : St} {I : List Item} {x : Item} (h : Inv st I) (hN : Num (I ++ [x])) (hx : x.Ok) : Inv (stepChild st x.tree) (I ++ [x]) := by
  cases x with
  | plain t =>
    have hst : stepChild st (Item.tree (.plain t)) = { st with out := st.out ++ [t] } := by
      cases t with
      | leaf i => rfl
      | node l cs =>
        simp only [Item.tree, stepChild]
        rw [splitLabel_none hx]
    rw [hst]
    constructor
    · have : ∀ y, collect (I ++ [Item.plain t]) y = collect I y := by
        intro y
        cases y <;> simp [collect, List.flatMap_append, kidsIf]
      show st.out ++ [t] = _
      rw [h.out, outSpec, outSpec, List.filter_append, List.map_append]
      congr 1
      exact List.map_congr_left (fun y _ => (this y).symm)
    · intro lab k hl
      show st.queue _ = _
      rw [h.queue lab k hl]
      have hc : cnt lab (I ++ [Item.plain t]) = cnt lab I := by simp [cnt, num]
      rw [hc]
      by_cases hk : k = cnt lab I ∧ 0 < k
      · rw [if_pos hk, if_pos hk, idx_append (hN.left.exists_first (by omega))]
      · rw [if_neg hk, if_neg hk]
  | part lab k kids =>
    have hl : '*' ∉ lab := hx
    have hk : k = cnt lab I := hN.next
    have hdig : Nat.toDigits 10 k ≠ [] := Nat.toDigits_ne_nil
    have hnext : lab ++ '*' :: Nat.toDigits 10 (int (Nat.toDigits 10 k) + 1) = newlabel true lab (k + 1) := by
      rw [int_digits, newlabel, if_pos rfl]
    have hne : newlabel true lab k ≠ newlabel true lab (k + 1) := fun e => by
      have := (newlabel_inj hl hl e).2
      omega
    have hcnt : ∀ m, cnt m (I ++ [Item.part lab k kids]) = cnt m I + if lab = m then 1 else 0 := by
      intro m
      rw [cnt_append]
      congr 1
      by_cases e : lab = m <;> simp [cnt, num, e]
    -- one step, given the position of the constituent
    have key : ∀ (out : List (PTree Str)) (mg : Dict Str (List Nat)) (i : Nat),
        (∀ lab' k', '*' ∉ lab' → (newlabel true lab' k' = newlabel true lab k → (Dict.get? mg (newlabel true lab' k')).getD [] = [i]) ∧
          (newlabel true lab' k' ≠ newlabel true lab k → (Dict.get? mg (newlabel true lab' k')).getD [] =
            if k' = cnt lab' I ∧ 0 < k' then [idx lab' I] else [])) →
        i = idx lab (I ++ [.part lab k kids]) →
        out.modify i (extend kids) = outSpec (I ++ [.part lab k kids]) →
        Inv ⟨out.modify i (extend kids), (mg.set (newlabel true lab k) []).set (newlabel true lab (k + 1))
          ((Dict.get? (mg.set (newlabel true lab k) []) (newlabel true lab (k + 1))).getD [] ++ [i])⟩ (I ++ [.part lab k kids]) := by
      intro out mg i hmg hi hout
      refine ⟨hout, ?_⟩
      intro lab' k' hl'
      have hempty : (Dict.get? (mg.set (newlabel true lab k) []) (newlabel true lab (k + 1))).getD [] = [] := by
        rw [Dict.get?_set, if_neg hne, ((hmg lab (k + 1) hl).2 (Ne.symm hne)), if_neg (by omega)]
      show (Dict.get? _ _).getD [] = _
      rw [hempty, Dict.get?_set, Dict.get?_set, hcnt]
      by_cases e1 : newlabel true lab (k + 1) = newlabel true lab' k'
      · obtain ⟨rfl, rfl⟩ := newlabel_inj hl hl' e1
        simp [hk, hi]
      · rw [if_neg e1]
        by_cases e2 : newlabel true lab k = newlabel true lab' k'
        · obtain ⟨rfl, rfl⟩ := newlabel_inj hl hl' e2
          rw [if_pos rfl, if_neg]
          · rfl
          · simp; omega
        · rw [if_neg e2, (hmg lab' k' hl').2 (Ne.symm e2)]
          by_cases e3 : lab = lab'
          · subst e3
            have n1 : k' ≠ k := fun e => e2 (by rw [e])
            have n2 : k' ≠ k + 1 := fun e => e1 (by rw [e])
            rw [if_neg (by omega), if_neg (by simp; omega)]
          · rw [if_neg e3, Nat.add_zero]
            by_cases hk' : k' = cnt lab' I ∧ 0 < k'
            · rw [if_pos hk', if_pos hk', idx_append (hN.left.exists_first (by omega))]
            · rw [if_neg hk', if_neg hk']
    have hq := h.queue lab k hl
    rw [Item.tree, stepChild]
    simp only [splitLabel_part hl]
    rcases Nat.eq_zero_or_pos k with h0 | h0
    · -- the first part
      rw [if_neg (by omega)] at hq
      have hz : cnt lab I = 0 := by omega
      have hF : (I ++ [Item.part lab k kids]).filter isFirst = I.filter isFirst ++ [Item.part lab k kids] := by
        rw [List.filter_append]; simp [isFirst, h0]
      have hlen : st.out.length = (I.filter isFirst).length := by rw [h.out, outSpec, List.length_map]
      have hidx : st.out.length = idx lab (I ++ [Item.part lab k kids]) := by
        rw [idx, hF, List.findIdx_append, if_neg, hlen]
        · simp [List.findIdx_cons, isPart]
        · rw [List.findIdx_lt_length]
          rintro ⟨x, hx, hp⟩
          rw [cnt_zero hz x (List.mem_filter.1 hx).1] at hp
          simp at hp
      have hq1 : St.queue ⟨st.out ++ [.node lab []], st.merge.set (newlabel true lab k) ([] ++ [st.out.length])⟩ (newlabel true lab k) = [st.out.length] := by
        rw [St.queue, Dict.get?_set, if_pos rfl]; rfl
      rw [if_pos hq, hq, hq1]
      simp only [if_neg hdig, hnext]
      refine key (st.out ++ [.node lab []]) _ st.out.length ?_ hidx ?_
      · intro lab' k' hl'
        constructor
        · intro e
          rw [e, Dict.get?_set, if_pos rfl]; rfl
        · intro e
          rw [Dict.get?_set, if_neg (Ne.symm e)]
          exact h.queue lab' k' hl'
      · rw [outSpec, hF, List.map_append]
        have e1 : (I.filter isFirst).map (collect (I ++ [Item.part lab k kids])) = st.out := by
          rw [h.out, outSpec]
          exact List.map_congr_left (fun y hy => collect_other (cnt_zero hz y (List.mem_filter.1 hy).1))
        rw [e1, modify_concat]
        simp [collect, flatMap_kids_nil hz, kidsIf, extend, List.flatMap_append]
    · -- a later part
      rw [if_pos ⟨hk, h0⟩] at hq
      rw [if_neg (by rw [hq]; simp), hq]
      simp only [if_neg hdig, hnext]
      have hex := hN.left.exists_first (lab := lab) (by omega)
      refine key st.out st.merge (idx lab I) ?_ (idx_append hex).symm ?_
      · intro lab' k' hl'
        constructor
        · intro e; rw [e]; exact hq
        · intro _; exact h.queue lab' k' hl'
      · have hF : (I ++ [Item.part lab k kids]).filter isFirst = I.filter isFirst := by
          rw [List.filter_append]; simp [isFirst]; omega
        rw [outSpec, hF, h.out, outSpec]
        have hlt : idx lab I < (I.filter isFirst).length := List.findIdx_lt_length.2 hex
        have hat : isPart lab ((I.filter isFirst)[idx lab I]) = true := List.findIdx_getElem
        apply List.ext_getElem (by simp)
        intro j h1 h2
        simp only [List.length_map] at h2
        rw [List.getElem_modify, List.getElem_map, List.getElem_map]
        by_cases ej : idx lab I = j
        · subst ej
          rw [if_pos rfl]
          cases hc : (I.filter isFirst)[idx lab I] with
          | plain t => rw [hc] at hat; simp [isPart] at hat
          | part l k' ks =>
            rw [hc] at hat
            simp only [isPart, beq_iff_eq] at hat
            subst hat
            simp [collect, extend, kidsIf, List.flatMap_append]
        · rw [if_neg ej]
          refine (collect_other ?_).symm
          have hu := List.pairwise_iff_getElem.1 (hN.left.unique lab)
          cases hp : isPart lab ((I.filter isFirst)[j]) with
          | false => rfl
          | true =>
            rcases Nat.lt_or_gt_of_ne ej with h' | h'
            · exact absurd ⟨hat, hp⟩ (hu _ _ hlt h2 h')
            · exact absurd ⟨hp, hat⟩ (hu _ _ h2 hlt h')

theorem fold_inv (R : List Item) : ∀ (st : St) (I : List Item), Inv st I → Num (I ++ R) → (∀ x ∈ R, x.Ok) →
    Inv ((R.map Item.tree).foldl stepChild st) (I ++ R) := by
  induction R with
  | nil => intro st I h _ _; simpa using h
  | cons x R ih =>
    intro st I h hN hok
    have hN' : Num (I ++ [x] ++ R) := by simpa using hN
    have := ih _ (I ++ [x]) (stepChild_inv h hN'.left (hok x (by simp))) hN' (fun y hy => hok y (by simp [hy]))
    simpa using this

theorem mergeStep_eq (I : List Item) (hN : Num I) (hok : ∀ x ∈ I, x.Ok) : mergeStep (I.map Item.tree) = outSpec I := by
  have h0 : Inv ⟨[], []⟩ [] := ⟨rfl, fun lab k _ => by
    rw [if_neg]
    · rfl
    · rintro ⟨h1, h2⟩; rw [h1] at h2; exact absurd h2 (by simp [cnt])⟩
  have := (fold_inv I _ [] h0 (by simpa using hN) hok).out
  simpa [mergeStep] using this

/-! ### Enough fuel -/

theorem depthL_append (xs ys : List (PTree Str)) : depthL (xs ++ ys) = max (depthL xs) (depthL ys) := by
  induction xs with
  | nil => simp [depthL]
  | cons x xs ih => rw [List.cons_append, depthL, depthL, ih, Nat.max_assoc]

theorem depthL_le {cs : List (PTree Str)} {n : Nat} : depthL cs ≤ n ↔ ∀ c ∈ cs, depth c ≤ n := by
  induction cs with
  | nil => simp [depthL]
  | cons c cs ih => rw [depthL, Nat.max_le, ih]; simp

theorem depth_extend {kids : List (PTree Str)} {D : Nat} (hk : depthL kids + 1 ≤ D) (t : PTree Str) (h : depth t ≤ D) : depth (extend kids t) ≤ D := by
  cases t with
  | leaf i => simpa [extend] using h
  | node l cs =>
    rw [depth] at h
    rw [extend, depth, depthL_append]
    omega

theorem modify_depth {kids : List (PTree Str)} {D : Nat} (hk : depthL kids + 1 ≤ D) (out : List (PTree Str)) (i : Nat) (h : depthL out ≤ D) :
    depthL (out.modify i (extend kids)) ≤ D := by
  induction out generalizing i with
  | nil => cases i <;> simpa [List.modify, List.modifyTailIdx, List.modifyTailIdx.go] using h
  | cons x xs ih =>
    rw [depthL] at h
    cases i with
    | zero =>
      rw [List.modify_zero_cons, depthL]
      have := depth_extend hk x (by omega)
      omega
    | succ i =>
      rw [List.modify_succ_cons, depthL]
      have := ih i (by omega)
      omega

theorem stepChild_depth (st : St) (c : PTree Str) {D : Nat} (hc : depth c ≤ D) (h : depthL st.out ≤ D) : depthL (stepChild st c).out ≤ D := by
  cases c with
  | leaf i => simp only [stepChild, depthL_append, depthL, depth]; omega
  | node l kids =>
    rw [depth] at hc
    rw [stepChild]
    split
    · simp only [depthL_append, depthL, depth]; omega
    · rename_i label part _
      have h1 : depthL (if st.queue l = [] then
          ({ out := st.out ++ [.node label []], merge := st.merge.set l (st.queue l ++ [st.out.length]) } : St) else st).out ≤ D := by
        split
        · simp only [depthL_append, depthL, depth]; omega
        · exact h
      revert h1
      generalize (if st.queue l = [] then
          ({ out := st.out ++ [.node label []], merge := st.merge.set l (st.queue l ++ [st.out.length]) } : St) else st) = st1
      intro h1
      dsimp only
      split
      · exact h1
      · rename_i i q _
        have h2 := modify_depth (by omega : depthL kids + 1 ≤ D) st1.out i h1
        split
        · exact h2
        · split
          · exact h2
          · exact h2

theorem mergeStep_depth (cs : List (PTree Str)) : depthL (mergeStep cs) ≤ depthL cs := by
  have key : ∀ (ds : List (PTree Str)) (st : St), depthL ds ≤ depthL cs → depthL st.out ≤ depthL cs → depthL (ds.foldl stepChild st).out ≤ depthL cs := by
    intro ds
    induction ds with
    | nil => intro st _ h; exact h
    | cons d ds ih =>
      intro st h1 h2
      rw [depthL] at h1
      exact ih _ (by omega) (stepChild_depth st d (by omega) h2)
  exact key cs ⟨[], []⟩ (Nat.le_refl _) (by simp [depthL])

/-- More fuel makes no difference. -/
theorem mergeT_fuel : ∀ (n m : Nat) (t : PTree Str), depth t ≤ n → depth t ≤ m → mergeT n t = mergeT m t := by
  intro n
  induction n with
  | zero =>
    intro m t h _
    cases t with
    | leaf i => simp [mergeT]
    | node l cs => simp [depth] at h
  | succ n ih =>
    intro m t h h'
    cases t with
    | leaf i => simp [mergeT]
    | node l cs =>
      rw [depth] at h h'
      obtain ⟨m, rfl⟩ : ∃ k, m = k + 1 := ⟨m - 1, by omega⟩
      rw [mergeT, mergeT]
      congr 1
      apply List.map_congr_left
      intro c hc
      have := depthL_le.1 (mergeStep_depth cs) c hc
      exact ih m c (by omega) (by omega)

/-- `mergediscnodes` as an equation without fuel: restructure the children, then each of them. -/
theorem mergediscnodes_node (l : Str) (cs : List (PTree Str)) : mergediscnodes (.node l cs) = .node l ((mergeStep cs).map mergediscnodes) := by
  rw [mergediscnodes, depth, mergeT]
  congr 1
  apply List.map_congr_left
  intro c hc
  exact mergeT_fuel _ _ c (depthL_le.1 (mergeStep_depth cs) c hc) (Nat.le_refl _)

/-! ### The parts of a split constituent -/

/-- The items for a child of the original node. -/
def itemsOf : PTree Str → List Item
  | .leaf i => [.plain (.leaf i)]
  | .node l ks => if isdisc (.node l ks) then (grp ks).mapIdx (fun n g => .part l n g) else [.plain (.node l ks)]

theorem itemsOf_tree (s : PTree Str) : (itemsOf s).map Item.tree = explode true s := by
  cases s with
  | leaf i => rfl
  | node l ks =>
    rw [itemsOf, explode]
    split
    · rw [map_mapIdx']; rfl
    · rfl

/-- The children are in order. -/
def Ordered : PTree Str → Prop
  | .leaf _ => True
  | .node l ks => '*' ∉ l ∧ ks ≠ [] ∧ Sis ks ∧ ks.Pairwise (fun a b => mn a < mn b)

theorem mn_cons (m : Str) (a : PTree Str) (r : List (PTree Str)) (ha : ∀ c ∈ a :: r, c.leaves ≠ []) (hs : (a :: r).Pairwise (fun a b => mn a < mn b)) :
    mn (.node m (a :: r)) = mn a := by
  apply mn_unique
  · simp [(mn_spec (ha a (by simp))).1]
  · intro x hx
    rw [leaves_node, leavesL_cons, List.mem_append] at hx
    rcases hx with hx | hx
    · exact (mn_spec (ha a (by simp))).2 x hx
    · obtain ⟨c, hc, hx⟩ := mem_leavesL.1 hx
      have h1 := (List.pairwise_cons.1 hs).1 c hc
      have h2 := (mn_spec (ha c (by simp [hc]))).2 x hx
      omega

theorem itemsOf_leaves (s : PTree Str) : leavesL ((itemsOf s).map Item.tree) = s.leaves := by
  rw [itemsOf_tree]
  cases s with
  | leaf i => simp [explode]
  | node l ks =>
    rw [explode]
    split
    · rw [leavesL_nodes, grp_flatten, leaves_node]
    · simp

theorem itemsOf_ne {s : PTree Str} (h : Ordered s) : ∀ x ∈ itemsOf s, x.tree.leaves ≠ [] := by
  cases s with
  | leaf i => simp [itemsOf, Item.tree]
  | node l ks =>
    obtain ⟨_, hne, hsis, _⟩ := h
    intro x hx
    rw [itemsOf] at hx
    split at hx
    · obtain ⟨i, hi, rfl⟩ := List.mem_mapIdx.1 hx
      have hg := List.getElem_mem hi
      obtain ⟨a, ha⟩ := List.exists_mem_of_ne_nil _ (grp_ne ks _ hg)
      rw [Item.tree, leaves_node]
      intro h0
      obtain ⟨y, hy⟩ := List.exists_mem_of_ne_nil _ (hsis.ne a (mem_grp hg a ha))
      have : y ∈ leavesL (grp ks)[i] := mem_leavesL.2 ⟨a, ha, hy⟩
      rw [h0] at this
      simp at this
    · simp only [List.mem_singleton] at hx
      subst hx
      obtain ⟨a, ha⟩ := List.exists_mem_of_ne_nil _ hne
      rw [Item.tree, leaves_node]
      intro h0
      obtain ⟨y, hy⟩ := List.exists_mem_of_ne_nil _ (hsis.ne a ha)
      have : y ∈ leavesL ks := mem_leavesL.2 ⟨a, ha, hy⟩
      rw [h0] at this
      simp at this

theorem itemsOf_ok {s : PTree Str} (h : Ordered s) : ∀ x ∈ itemsOf s, x.Ok := by
  cases s with
  | leaf i => simp [itemsOf, Item.Ok]
  | node l ks =>
    intro x hx
    rw [itemsOf] at hx
    split at hx
    · obtain ⟨i, hi, rfl⟩ := List.mem_mapIdx.1 hx
      exact h.1
    · simp only [List.mem_singleton] at hx
      subst hx
      exact h.1

theorem itemsOf_sorted {s : PTree Str} (h : Ordered s) : (itemsOf s).Pairwise (fun a b => mn a.tree < mn b.tree) := by
  cases s with
  | leaf i => simp [itemsOf]
  | node l ks =>
    obtain ⟨_, hne, hsis, hso⟩ := h
    rw [itemsOf]
    split
    · rw [List.pairwise_iff_getElem]
      intro i j hi hj hij
      rw [List.length_mapIdx] at hi hj
      rw [List.getElem_mapIdx, List.getElem_mapIdx]
      have hso' := hso
      rw [← grp_flatten ks, List.pairwise_flatten] at hso'
      have hp := List.pairwise_iff_getElem.1 hso'.2 i j hi hj hij
      have g1 := grp_ne ks _ (List.getElem_mem hi)
      have g2 := grp_ne ks _ (List.getElem_mem hj)
      have m1 := mem_grp (List.getElem_mem hi)
      have m2 := mem_grp (List.getElem_mem hj)
      have s1 := hso'.1 _ (List.getElem_mem hi)
      have s2 := hso'.1 _ (List.getElem_mem hj)
      revert hp g1 g2 m1 m2 s1 s2
      generalize (grp ks)[i] = g
      generalize (grp ks)[j] = g'
      intro hp g1 g2 m1 m2 s1 s2
      cases g with
      | nil => exact absurd rfl g1
      | cons a r => cases g' with
        | nil => exact absurd rfl g2
        | cons b r' =>
          rw [Item.tree, Item.tree, mn_cons _ a r (fun c hc => hsis.ne c (m1 c hc)) s1, mn_cons _ b r' (fun c hc => hsis.ne c (m2 c hc)) s2]
          exact hp a (by simp) b (by simp)
    · simp

/-- Of the items of a constituent exactly the first starts something. -/
theorem itemsOf_first {s : PTree Str} (h : Ordered s) : ∃ x, (itemsOf s).filter isFirst = [x] ∧ mn x.tree = mn s ∧
    (∀ I : List Item, (∀ l, isPart l x = true → I.filter (isPart l) = itemsOf s) → collect I x = s) := by
  cases s with
  | leaf i => exact ⟨.plain (.leaf i), rfl, rfl, fun _ _ => rfl⟩
  | node l ks =>
    obtain ⟨_, hne, hsis, hso⟩ := h
    by_cases hd : isdisc (.node l ks) = true
    · have hfl := grp_flatten ks
      have hgn := grp_ne ks
      simp only [itemsOf, hd, if_true]
      cases hg : grp ks with
      | nil => rw [hg] at hfl; exact absurd hfl.symm hne
      | cons g gs =>
        refine ⟨.part l 0 g, ?_, ?_, ?_⟩
        · rw [List.mapIdx_cons, List.filter_cons]
          simp only [isFirst, beq_self_eq_true, if_true]
          congr 1
          rw [List.filter_eq_nil_iff]
          intro x hx
          obtain ⟨i, hi, rfl⟩ := List.mem_mapIdx.1 hx
          simp [isFirst]
        · rw [hg] at hfl hgn
          have : g ≠ [] := hgn g (by simp)
          cases g with
          | nil => exact absurd rfl this
          | cons a r =>
            have hks : ks = a :: (r ++ gs.flatten) := by rw [← hfl]; simp
            rw [hks] at hso hsis ⊢
            rw [Item.tree, mn_cons _ a r, mn_cons _ a _ hsis.ne hso]
            · intro c hc
              refine hsis.ne c ?_
              rcases List.mem_cons.1 hc with rfl | hc
              · simp
              · simp [hc]
            · refine hso.sublist ?_
              exact (List.sublist_append_left r gs.flatten).cons_cons a
        · intro I hI
          replace hI := hI l (by simp [isPart])
          have e : I.flatMap (kidsIf l) = (I.filter (isPart l)).flatMap (kidsIf l) := by
            clear hI
            induction I with
            | nil => rfl
            | cons x I ih =>
              rw [List.flatMap_cons, ih, List.filter_cons]
              cases x with
              | plain t => simp [isPart, kidsIf]
              | part m k kk =>
                by_cases e : m = l <;> simp [isPart, kidsIf, e]
          rw [collect, e, hI]
          congr 1
          have : ∀ (f : Nat → Nat) (hs : List (List (PTree Str))), (hs.mapIdx (fun n g => Item.part l (f n) g)).flatMap (kidsIf l) = hs.flatten := by
            intro f hs
            induction hs generalizing f with
            | nil => rfl
            | cons h hs ih =>
              rw [List.mapIdx_cons, List.flatMap_cons, List.flatten_cons]
              rw [ih (fun n => f (n + 1))]
              simp [kidsIf]
          have := this id (g :: gs)
          simp only [id] at this
          rw [this, ← hg, hfl]
    · simp only [itemsOf, hd]
      exact ⟨.plain (.node l ks), rfl, rfl, fun _ _ => rfl⟩

theorem itemsOf_num (s : PTree Str) (lab : Str) : (itemsOf s).filterMap (num lab) = List.range ((itemsOf s).filterMap (num lab)).length := by
  have key : ∀ (l : Str) (f : Nat → Nat) (hs : List (List (PTree Str))), (hs.mapIdx (fun n g => Item.part l (f n) g)).filterMap (num lab) =
      if l = lab then (List.range hs.length).map f else [] := by
    intro l f hs
    induction hs generalizing f with
    | nil => simp
    | cons h hs ih =>
      rw [List.mapIdx_cons, List.filterMap_cons]
      have := ih (fun n => f (n + 1))
      rw [this]
      by_cases e : l = lab
      · simp [num, e, List.range_succ_eq_map, Function.comp_def]
      · simp [num, e]
  cases s with
  | leaf i => rfl
  | node l ks =>
    rw [itemsOf]
    split
    · have := key l id (grp ks)
      simp only [id] at this
      rw [this]
      split <;> simp
    · rfl

/-- The parts with a given label belong to the items of one discontinuous constituent. -/
theorem itemsOf_part {s : PTree Str} {lab : Str} {x : Item} (hx : x ∈ itemsOf s) (hp : isPart lab x = true) :
    isdisc s = true ∧ s.label? = some lab ∧ (itemsOf s).filter (isPart lab) = itemsOf s := by
  cases s with
  | leaf i => simp [itemsOf] at hx; subst hx; simp [isPart] at hp
  | node l ks =>
    rw [itemsOf] at hx ⊢
    split at hx
    · rename_i hd
      rw [if_pos hd]
      obtain ⟨i, hi, rfl⟩ := List.mem_mapIdx.1 hx
      simp only [isPart, beq_iff_eq] at hp
      subst hp
      refine ⟨hd, rfl, ?_⟩
      rw [List.filter_eq_self]
      intro y hy
      obtain ⟨j, hj, rfl⟩ := List.mem_mapIdx.1 hy
      simp [isPart]
    · simp only [List.mem_singleton] at hx
      subst hx
      simp [isPart] at hp

/-! ### One level -/

theorem stepLevel (ss : List (PTree Str)) (hss : ∀ s ∈ ss, Ordered s) (hsis : Sis ss)
    (htw : ss.Pairwise (fun a b => isdisc a = false ∨ isdisc b = false ∨ a.label? ≠ b.label?)) :
    mergeStep (sortMin (ss.flatMap (explode true))) = sortMin ss := by
  -- the items, sorted
  let J := ss.flatMap itemsOf
  let I := stableSort (fun a b : Item => leMin a.tree b.tree) J
  have hJt : ss.flatMap (explode true) = J.map Item.tree := by
    show _ = (ss.flatMap itemsOf).map _
    rw [List.map_flatMap]
    congr 1
    funext s
    exact (itemsOf_tree s).symm
  have hsort : sortMin (ss.flatMap (explode true)) = I.map Item.tree := by
    rw [hJt]
    exact StableSort.map Item.tree J (fun a _ b _ => rfl)
  have hperm : I.Perm J := StableSort.perm J
  have hJmem : ∀ x ∈ J, ∃ s ∈ ss, x ∈ itemsOf s := fun x hx => List.mem_flatMap.1 hx
  -- the items are distinct sets of terminals
  have hJsis : Sis (J.map Item.tree) := by
    refine And.elim (fun h1 h2 => ⟨h2, h1⟩) (And.intro ?_ ?_)
    · intro c hc
      obtain ⟨x, hx, rfl⟩ := List.mem_map.1 hc
      obtain ⟨s, hs, hx⟩ := hJmem x hx
      exact itemsOf_ne (hss s hs) x hx
    · have : leavesL (J.map Item.tree) = leavesL ss := by
        show leavesL ((ss.flatMap itemsOf).map _) = _
        clear hss hsis htw hJt hsort hperm hJmem I J
        induction ss with
        | nil => rfl
        | cons s ss ih => rw [List.flatMap_cons, List.map_append, leavesL_append, ih, itemsOf_leaves, leavesL_cons]
      rw [this]
      exact hsis.nodup
  have hIsort : I.Pairwise (fun a b => mn a.tree < mn b.tree) := by
    have := sortMin_sorted hJsis
    rw [← hJt, hsort, List.pairwise_map] at this
    exact this
  -- the parts with a given label
  have hJlab : ∀ lab, J.filter (isPart lab) = [] ∨ ∃ s ∈ ss, isdisc s = true ∧ s.label? = some lab ∧ J.filter (isPart lab) = itemsOf s := by
    intro lab
    show (ss.flatMap itemsOf).filter _ = [] ∨ ∃ s ∈ ss, isdisc s = true ∧ s.label? = some lab ∧ (ss.flatMap itemsOf).filter _ = _
    clear hss hsis hJt hsort hperm hJmem hJsis hIsort I J
    induction ss with
    | nil => exact .inl rfl
    | cons s ss ih =>
      rw [List.pairwise_cons] at htw
      rw [List.flatMap_cons, List.filter_append]
      by_cases hex : ∃ x ∈ itemsOf s, isPart lab x = true
      · obtain ⟨x, hx, hp⟩ := hex
        obtain ⟨h1, h2, h3⟩ := itemsOf_part hx hp
        refine .inr ⟨s, by simp, h1, h2, ?_⟩
        rw [h3]
        have : (ss.flatMap itemsOf).filter (isPart lab) = [] := by
          rw [List.filter_eq_nil_iff]
          intro y hy hpy
          obtain ⟨s', hs', hy⟩ := List.mem_flatMap.1 hy
          obtain ⟨k1, k2, _⟩ := itemsOf_part hy hpy
          rcases htw.1 s' hs' with h | h | h
          · rw [h1] at h; cases h
          · rw [k1] at h; cases h
          · exact h (h2.trans k2.symm)
        rw [this, List.append_nil]
      · have : (itemsOf s).filter (isPart lab) = [] := by
          rw [List.filter_eq_nil_iff]
          exact fun y hy hp => hex ⟨y, hy, hp⟩
        rw [this, List.nil_append]
        rcases ih htw.2 with h | ⟨s', hs', h⟩
        · exact .inl h
        · exact .inr ⟨s', by simp [hs'], h⟩
  have hIlab : ∀ lab, I.filter (isPart lab) = J.filter (isPart lab) := by
    intro lab
    refine List.Perm.eq_of_pairwise (le := fun a b => mn a.tree < mn b.tree) ?_ (hIsort.sublist List.filter_sublist) ?_ (hperm.filter _)
    · intro a b _ _ h1 h2; omega
    · rcases hJlab lab with h | ⟨s, hs, _, _, h⟩
      · rw [h]; exact List.Pairwise.nil
      · rw [h]; exact itemsOf_sorted (hss s hs)
  -- numbering
  have hfm : ∀ lab (X : List Item), X.filterMap (num lab) = (X.filter (isPart lab)).filterMap (num lab) := by
    intro lab X
    induction X with
    | nil => rfl
    | cons x X ih =>
      rw [List.filterMap_cons, List.filter_cons]
      cases x with
      | plain t => simpa [num, isPart] using ih
      | part l k ks => by_cases e : l = lab <;> simp [num, isPart, e, ih]
  have hnum : Num I := by
    intro lab
    rw [cnt, hfm lab I, hIlab lab]
    rcases hJlab lab with h | ⟨s, hs, _, _, h⟩
    · rw [h]; rfl
    · rw [h]; exact itemsOf_num s lab
  have hok : ∀ x ∈ I, x.Ok := by
    intro x hx
    obtain ⟨s, hs, hx⟩ := hJmem x (hperm.subset hx)
    exact itemsOf_ok (hss s hs) x hx
  rw [hsort, mergeStep_eq I hnum hok]
  -- what comes out
  have hcol : ∀ s ∈ ss, ∃ x, (itemsOf s).filter isFirst = [x] ∧ mn x.tree = mn s ∧ collect I x = s := by
    intro s hs
    obtain ⟨x, h1, h2, h3⟩ := itemsOf_first (hss s hs)
    refine ⟨x, h1, h2, h3 I ?_⟩
    intro l hp
    rw [hIlab l]
    have hx : x ∈ itemsOf s := by
      have : x ∈ (itemsOf s).filter isFirst := by rw [h1]; simp
      exact (List.mem_filter.1 this).1
    obtain ⟨a1, a2, a3⟩ := itemsOf_part hx hp
    have hxJ : x ∈ J.filter (isPart l) := List.mem_filter.2 ⟨List.mem_flatMap.2 ⟨s, hs, hx⟩, hp⟩
    rcases hJlab l with h | ⟨s', hs', b1, b2, h⟩
    · rw [h] at hxJ; simp at hxJ
    · rw [h]
      by_cases e : s = s'
      · rw [e]
      · exfalso
        have hne : ∀ (X : List (PTree Str)), X.Pairwise (fun a b => isdisc a = false ∨ isdisc b = false ∨ a.label? ≠ b.label?) →
            s ∈ X → s' ∈ X → False := by
          intro X
          induction X with
          | nil => intro _ h; simp at h
          | cons y X ih =>
            intro hX m1 m2
            rw [List.pairwise_cons] at hX
            rcases List.mem_cons.1 m1 with k1 | k1 <;> rcases List.mem_cons.1 m2 with k2 | k2
            · exact e (k1.trans k2.symm)
            · have := hX.1 s' k2
              rw [← k1, a1, a2, b1, b2] at this
              simp at this
            · have := hX.1 s k1
              rw [← k2] at this
              rw [a1, a2, b1, b2] at this
              simp at this
            · exact ih hX.2 k1 k2
        exact hne ss htw hs hs'
  refine eq_of_perm_sorted ?_ ?_ (sortMin_sorted hsis)
  · refine List.Perm.trans ?_ (sortMin_perm ss).symm
    rw [outSpec]
    refine ((hperm.filter isFirst).map _).trans ?_
    show (((ss.flatMap itemsOf).filter isFirst).map (collect I)).Perm ss
    have : ((ss.flatMap itemsOf).filter isFirst).map (collect I) = ss := by
      clear hss hsis htw hJt hsort hperm hJmem hJsis hIsort hJlab hIlab hfm hnum hok
      clear_value I
      clear J
      induction ss with
      | nil => rfl
      | cons s ss ih =>
        obtain ⟨x, h1, _, h3⟩ := hcol s (by simp)
        rw [List.flatMap_cons, List.filter_append, h1, List.map_append, ih (fun s hs => hcol s (by simp [hs]))]
        simp [h3]
    rw [this]
  · rw [outSpec, List.pairwise_map]
    refine List.Pairwise.imp_of_mem ?_ (hIsort.sublist List.filter_sublist)
    have : ∀ x ∈ I.filter isFirst, mn (collect I x) = mn x.tree := by
      intro x hx
      obtain ⟨hx, hf⟩ := List.mem_filter.1 hx
      obtain ⟨s, hs, hx⟩ := hJmem x (hperm.subset hx)
      obtain ⟨y, h1, h2, h3⟩ := hcol s hs
      have : x ∈ (itemsOf s).filter isFirst := List.mem_filter.2 ⟨hx, hf⟩
      rw [h1, List.mem_singleton] at this
      subst this
      rw [h3, h2]
    intro a b ha hb hab
    rw [this a ha, this b hb]
    exact hab

/-! ### All levels -/

theorem splitS_label (t : PTree Str) : (splitS true t).label? = t.label? ∧ (splitS true t).isNode = t.isNode := by
  cases t <;> simp [splitS, label?, isNode]

theorem splitS_spec (t : PTree Str) (h : SplitDisc.Spec.WF t) (hs : Spec.NoStar t) :
    (splitS true t).leaves.Perm t.leaves ∧ Ordered (splitS true t) := by
  induction t using PTree.ind with
  | hleaf i => simp [splitS, Ordered]
  | hnode l cs ih =>
    have ih' : ∀ c ∈ cs, (splitS true c).leaves.Perm c.leaves ∧ Ordered (splitS true c) := fun c hc =>
      ih c hc (h.child hc) (fun l' cs' hm => hs l' cs' (by rw [subtrees_node]; exact List.mem_cons_of_mem _ (mem_subtreesL.2 ⟨c, hc, hm⟩)))
    have hp : (leavesL (partsL true cs)).Perm (leavesL cs) := by
      clear ih h hs
      induction cs with
      | nil => simp [partsL]
      | cons c cs ih2 =>
        rw [partsL, leavesL_append, leavesL_cons, ← itemsOf_tree, itemsOf_leaves]
        exact (ih' c (by simp)).1.append (ih2 (fun x hx => ih' x (by simp [hx])))
    have hne : cs ≠ [] := fun e => h.noEmpty l (by rw [e]; simp)
    have hsis : Sis (partsL true cs) := by
      refine And.elim (fun h1 h2 => ⟨h2, h1⟩) (And.intro ?_ ?_)
      · intro x hx
        rw [partsL_eq] at hx
        obtain ⟨c, hc, hx⟩ := List.mem_flatMap.1 hx
        rw [← itemsOf_tree] at hx
        obtain ⟨y, hy, rfl⟩ := List.mem_map.1 hx
        exact itemsOf_ne (ih' c hc).2 y hy
      · rw [hp.nodup_iff]
        simpa using h.nodup
    rw [splitS]
    refine ⟨?_, ?_, ?_, ?_, ?_⟩
    · rw [leaves_node, leaves_node]
      exact (leavesL_perm (sortMin_perm _)).trans hp
    · exact hs l cs (by simp)
    · intro e
      have h0 := (sortMin_perm (partsL true cs)).length_eq
      rw [e] at h0
      have h1 : partsL true cs = [] := List.length_eq_zero_iff.1 h0.symm
      rw [h1] at hp
      exact h.ne (by simpa using hp.symm.eq_nil)
    · exact hsis.perm (sortMin_perm _).symm
    · exact sortMin_sorted hsis

theorem mergediscnodes_splitS (t : PTree Str) (h : SplitDisc.Spec.WF t) (hs : Spec.NoStar t) (ht : Spec.NoTwins t) :
    mergediscnodes (splitS true t) = canon t := by
  induction t using PTree.ind with
  | hleaf i => simp [splitS, mergediscnodes, mergeT, canon]
  | hnode l cs ih =>
    have sub : ∀ c ∈ cs, ∀ x ∈ subtrees c, x ∈ subtrees (.node l cs) := fun c hc x hm => by
      rw [subtrees_node]; exact List.mem_cons_of_mem _ (mem_subtreesL.2 ⟨c, hc, hm⟩)
    have hs' : ∀ c ∈ cs, Spec.NoStar c := fun c hc l' cs' hm => hs l' cs' (sub c hc _ hm)
    have ht' : ∀ c ∈ cs, Spec.NoTwins c := fun c hc l' cs' hm => ht l' cs' (sub c hc _ hm)
    have spec := fun c hc => splitS_spec c (h.child hc) (hs' c hc)
    rw [splitS, partsL_eq, mergediscnodes_node, canon_node l cs h.noEmpty h.nodup]
    have e : cs.flatMap (fun c => explode true (splitS true c)) = (cs.map (splitS true)).flatMap (explode true) := by
      rw [List.flatMap_map]
    rw [e, stepLevel, sortMin_map (splitS true) cs (fun c hc => mn_perm (spec c hc).1)]
    · congr 1
      rw [List.map_map]
      apply List.map_congr_left
      intro c hc
      have hc := (sortMin_perm cs).subset hc
      exact ih c hc (h.child hc) (hs' c hc) (ht' c hc)
    · intro s hm
      obtain ⟨c, hc, rfl⟩ := List.mem_map.1 hm
      exact (spec c hc).2
    · refine And.elim (fun h1 h2 => ⟨h2, h1⟩) (And.intro ?_ ?_)
      · intro s hm
        obtain ⟨c, hc, rfl⟩ := List.mem_map.1 hm
        intro e0
        have := (spec c hc).1
        rw [e0] at this
        exact (h.child hc).ne this.symm.eq_nil
      · have : (leavesL (cs.map (splitS true))).Perm (leavesL cs) := by
          clear ih h hs ht sub hs' ht' e
          induction cs with
          | nil => simp
          | cons c cs ih2 =>
            rw [List.map_cons, leavesL_cons, leavesL_cons]
            exact (spec c (by simp)).1.append (ih2 (fun x hx => spec x (by simp [hx])))
        rw [this.nodup_iff]
        simpa using h.nodup
    · rw [List.pairwise_map]
      refine List.Pairwise.imp_of_mem ?_ (ht l cs (by simp))
      intro a b ha hb hab
      have d : ∀ c ∈ cs, SplitDisc.Spec.Cont c → isdisc (splitS true c) = false := by
        intro c hc hcont
        have hp := (spec c hc).1
        rw [isdisc_perm hp (splitS_label c).2 (hp.nodup_iff.2 (h.child hc).nodup), isdisc_iff (h.child hc).nodup (h.child hc).ne]
        exact hcont
      rcases hab with hab | hab | hab
      · exact .inl (d a ha hab)
      · exact .inr (.inl (d b hb hab))
      · exact .inr (.inr (by rw [(splitS_label a).1, (splitS_label b).1]; exact hab))

/-- **C05.** For every well-formed tree whose labels have no `*` and which has no two discontinuous sisters with the same label, merging
the result of `splitdiscnodes(tree, markorigin=True)` gives the canonical form of the tree. -/
theorem C05_merge_split (t : PTree Str) (h : SplitDisc.Spec.WF t) (hs : Spec.NoStar t) (ht : Spec.NoTwins t) :
    ∃ u, splitdiscnodes true t = some u ∧ Canon.canonicalize t = some (mergediscnodes u) :=
  ⟨splitS true t, splitdiscnodes_eq true t h, by rw [mergediscnodes_splitS t h hs ht, canonicalize_eq t h.pre]⟩

/-- **C05.** In particular a tree in canonical form comes back unchanged. -/
theorem C05_identity (t : PTree Str) (h : SplitDisc.Spec.WF t) (hs : Spec.NoStar t) (ht : Spec.NoTwins t) (hc : Canon.canonicalize t = some t) :
    (splitdiscnodes true t).map mergediscnodes = some t := by
  obtain ⟨u, h1, h2⟩ := C05_merge_split t h hs ht
  rw [h1, Option.map_some, ← h2, hc]

theorem exTree_noStar : Spec.NoStar exTree := by
  intro l cs h
  simp [exTree] at h
  rcases h with ⟨rfl, _⟩ | ⟨rfl, _⟩ | ⟨rfl, _⟩ | ⟨rfl, _⟩ | ⟨rfl, _⟩ | ⟨rfl, _⟩ | ⟨rfl, _⟩ | ⟨rfl, _⟩ <;> decide

theorem exTree_noTwins : Spec.NoTwins exTree := by
  intro l cs h
  simp [exTree] at h
  rcases h with ⟨_, rfl⟩ | ⟨_, rfl⟩ | ⟨_, rfl⟩ | ⟨_, rfl⟩ | ⟨_, rfl⟩ | ⟨_, rfl⟩ | ⟨_, rfl⟩ | ⟨_, rfl⟩ <;> simp [label?]

example : SplitDisc.Spec.WF exTree ∧ Spec.NoStar exTree ∧ Spec.NoTwins exTree ∧
    (splitdiscnodes true exTree).map mergediscnodes = some exTree := ⟨exTree_wf, exTree_noStar, exTree_noTwins, by decide +kernel⟩

/-- Two discontinuous sisters with the same label, one inside the gap of the other. -/
def twins : PTree Str :=
  .node ['S'] [.node ['V','P'] [.node ['A'] [.leaf 0], .node ['B'] [.leaf 5]], .node ['C'] [.leaf 1],
    .node ['V','P'] [.node ['D'] [.leaf 2], .node ['E'] [.leaf 4]], .node ['F'] [.leaf 3]]

theorem twins_wf : SplitDisc.Spec.WF twins := by
  refine ⟨?_, ?_, by decide +kernel⟩
  · intro l cs h
    simp [twins] at h
    rcases h with ⟨_, rfl⟩ | ⟨_, rfl⟩ | ⟨_, rfl⟩ | ⟨_, rfl⟩ | ⟨_, rfl⟩ | ⟨_, rfl⟩ | ⟨_, rfl⟩ | ⟨_, rfl⟩ | ⟨_, rfl⟩ <;> simp [isNode]
  · intro l h
    simp [twins] at h

/-- Disagreement: with two discontinuous sisters with the same label the parts may be given to the wrong constituents, so the
transformation is not reversible for all trees. -/
theorem C05_twins_fail : SplitDisc.Spec.WF twins ∧ Canon.canonicalize twins = some twins ∧
    (splitdiscnodes true twins).map mergediscnodes = some (.node ['S'] [
      .node ['V','P'] [.node ['A'] [.leaf 0], .node ['E'] [.leaf 4]], .node ['C'] [.leaf 1],
      .node ['V','P'] [.node ['D'] [.leaf 2], .node ['B'] [.leaf 5]], .node ['F'] [.leaf 3]]) :=
  ⟨twins_wf, by decide +kernel, by decide +kernel⟩

end Disco.MergeDisc
