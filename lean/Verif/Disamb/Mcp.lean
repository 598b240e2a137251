import Verif.Basic.Dict
import Mathlib.Algebra.Order.BigOperators.Group.Finset
import Mathlib.Algebra.Order.Field.Rat
import Mathlib.Data.Finset.Max
import Mathlib.Data.List.Nodup
import Mathlib.Tactic.Linarith
import Mathlib.Tactic.Ring
import Mathlib.Order.Interval.Finset.Nat
/-!
# C61: the Max Constituents Parse: `maxconstituentsparse` (disambiguation.pyx:290-393), `gettree` (396-412)

Simplifications: a span is a finite set of positions instead of a bitset (C09). The derivations are given as the binarized trees, with collapsed unary productions, that the loop at 326-341 makes of
them, with `exp(-prob)` as a rational number. `table[start][spanlen]` is the restriction of one dictionary to the spans with that first position and that size; since these are functions of the span,
this has the same items in the same order. `gettree` returns the list of trees that the string stands for: a string `a b` without brackets is a list of two trees. `unbinarize` of the result is
not modelled (C03).
-/
namespace Disco.Disamb.Mcp

/-! ### Model -/

/-- A tree of the list of derivations. -/
inductive DT where
  | leaf (label : String) (n : Nat)
  | node (label : String) (l r : DT)

namespace DT

/-- `t.bitset`. -/
def span : DT → Finset ℕ
  | leaf _ n => {n}
  | node _ l r => l.span ∪ r.span

/-- `(t.label, t.bitset)` for `tree.subtrees()`: pre-order. -/
def parts : DT → List (String × Finset ℕ)
  | leaf lab n => [(lab, {n})]
  | node lab l r => (lab, l.span ∪ r.span) :: (l.parts ++ r.parts)

end DT

/-- `pyintnextset(span, 0)`: the first position. -/
def startOf (s : Finset ℕ) : ℕ := if h : s.Nonempty then s.min' h else 0

abbrev Table := Dict (Finset ℕ) (Dict String ℚ)

/-- `'|<' not in t.label and (labels is None or t.label in labels)` (disambiguation.pyx:348). -/
def counted (labels : Option (List String)) (lab : String) : Bool :=
  !(lab.toList.tails.any (fun t => ['|', '<'].isPrefixOf t)) && (match labels with
    | none => true
    | some ls => ls.contains lab)

/-- `tablecell.setdefault(label, 0.0); tablecell[label] += exp(-prob)` (disambiguation.pyx:346-349). -/
def record (labels : Option (List String)) (w : ℚ) (table : Table) (part : String × Finset ℕ) : Table :=
  let cell := (Dict.get? table part.2).getD []
  Dict.set table part.2 (Dict.set cell part.1 ((Dict.get? cell part.1).getD 0 + (if counted labels part.1 then w else 0)))

/-- The loop over the derivations (disambiguation.pyx:326-349). -/
def makeTable (labels : Option (List String)) (derivs : List (DT × ℚ)) : Table :=
  derivs.foldl (fun table d => d.1.parts.foldl (record labels d.2) table) []

/-- `sentprob`. -/
def sentprob (derivs : List (DT × ℚ)) : ℚ := (derivs.map Prod.snd).sum

/-- `max(items, key=itemgetter(1))`: the first item with the largest value; `NONCONSTLABEL, 0.0` if there are no items (disambiguation.pyx:357-360). -/
def maxItem : Dict String ℚ → String × ℚ
  | [] => ("", 0)
  | x :: xs => xs.foldl (fun best y => if best.2 < y.2 then y else best) x

abbrev Cells := Finset ℕ → Option (String × ℚ × Option (Finset ℕ))

def Cells.label (cells : Cells) (s : Finset ℕ) : String := ((cells s).map (·.1)).getD ""

def Cells.score (cells : Cells) (s : Finset ℕ) : ℚ := ((cells s).map (·.2.1)).getD 0

/-- The body of the loop over the left spans (disambiguation.pyx:363-375). -/
def splitStep (cells : Cells) (s : Finset ℕ) (best : ℚ × Option (Finset ℕ)) (left : Finset ℕ) : ℚ × Option (Finset ℕ) :=
  if ¬ left ⊆ s ∨ cells.label left = "" then best
  else if (cells (s \ left)).isSome ∧ cells.label (s \ left) ≠ "" then
    let score := cells.score left + cells.score (s \ left)
    if best.1 < score then (score, some left) else best
  else best

/-- The spans in `table[start][1:spanlen]`, shortest first. -/
def lefts (table : Table) (s : Finset ℕ) : List (Finset ℕ) :=
  (List.range s.card).flatMap (fun len => (Dict.keys table).filter (fun t => decide (t.card = len ∧ 1 ≤ len ∧ startOf t = startOf s)))

/-- `maxcombscore, maxleft` (disambiguation.pyx:361-375). -/
def combine (table : Table) (cells : Cells) (s : Finset ℕ) : ℚ × Option (Finset ℕ) := (lefts table s).foldl (splitStep cells s) (0, none)

/-- `score - labda * (1 - score)` (disambiguation.pyx:376-377). -/
def contribution (labda score : ℚ) : ℚ := score - labda * (1 - score)

/-- The cell of a span (disambiguation.pyx:356-386). `N` is `len(chart.sent)`. -/
def entry (labda : ℚ) (N : Nat) (total : ℚ) (table : Table) (cells : Cells) (s : Finset ℕ) : String × ℚ × Option (Finset ℕ) :=
  let best := maxItem ((Dict.get? table s).getD [])
  let comb := combine table cells s
  let c := contribution labda (best.2 / total)
  if c < 0 then (if 1 < s.card ∧ s.card < N then "-#-" else best.1, comb.1, comb.2)
  else (best.1, comb.1 + c, comb.2)

/-- The order in which the spans are visited (disambiguation.pyx:353-355). -/
def order (N : Nat) (table : Table) : List (Finset ℕ) :=
  (List.range N).flatMap (fun len => (List.range (N - (len + 1) + 1)).flatMap (fun start => (Dict.keys table).filter (fun t => decide (t.card = len + 1 ∧ startOf t = start))))

def setCell (cells : Cells) (s : Finset ℕ) (v : String × ℚ × Option (Finset ℕ)) : Cells := fun t => if t = s then some v else cells t

/-- `cells` after the loop. -/
def fillCells (labda : ℚ) (N : Nat) (total : ℚ) (table : Table) : Cells :=
  (order N table).foldl (fun cells s => setCell cells s (entry labda N total table cells s)) (fun _ => none)

/-- The result: a tree with any number of children. -/
inductive Out where
  | leaf (label : String) (n : Nat)
  | node (label : String) (children : List Out)

/-- `gettree(cells, span)` (disambiguation.pyx:396-412). `none`: ValueError. The first argument bounds the depth of the recursion. -/
def gettree (cells : Cells) : Nat → Finset ℕ → Option (List Out)
  | 0, _ => none
  | fuel + 1, s =>
    match cells s with
    | none => none
    | some (label, _, leftspan) =>
      match leftspan with
      | none => some [.leaf label (startOf s)]
      | some left =>
        if (cells left).isNone then some [.leaf label (startOf s)]
        else
          match gettree cells fuel left, gettree cells fuel (s \ left) with
          | some a, some b => some (if label = "" ∨ label = "-#-" then a ++ b else [.node label (a ++ b)])
          | _, _ => none

/-- `maxconstituentsparse(chart, labda, labels)` for the binarized derivations: the tree and the reported score, `maxscore` of the last cell that has been visited. -/
def mcp (labda : ℚ) (labels : Option (List String)) (N : Nat) (derivs : List (DT × ℚ)) : Option (List Out) × ℚ :=
  let table := makeTable labels derivs
  let cells := fillCells labda N (sentprob derivs) table
  (match derivs.getLast? with
    | none => none
    | some d => gettree cells (N + 1) d.1.span,
   (((order N table).getLast?).map (fun s => (maxItem ((Dict.get? table s).getD [])).2)).getD 0)

/-! ### Specification -/

/-- The leaves of a tree are distinct. -/
def Proper : DT → Prop
  | .leaf _ _ => True
  | .node _ l r => Proper l ∧ Proper r ∧ Disjoint l.span r.span

/-- The probability that a constituent is correct: the weight of the derivations that have it, divided by the total weight; labels that are not optimized for have 0. -/
def post (labels : Option (List String)) (derivs : List (DT × ℚ)) (lab : String) (s : Finset ℕ) : ℚ :=
  if counted labels lab then ((derivs.filter (fun d => decide ((lab, s) ∈ d.1.parts))).map Prod.snd).sum / (derivs.map Prod.snd).sum else 0

/-- The expected gain of a constituent: 1 if it is correct, `-labda` if it is not. -/
def gain (labda : ℚ) (labels : Option (List String)) (derivs : List (DT × ℚ)) (lab : String) (s : Finset ℕ) : ℚ :=
  post labels derivs lab s * 1 + (1 - post labels derivs lab s) * (-labda)

/-- A candidate: a binary tree in which words have a label and other nodes may have a label. -/
inductive Cand where
  | word (label : String) (n : Nat)
  | node (label : Option String) (l r : Cand)

namespace Cand

def span : Cand → Finset ℕ
  | word _ n => {n}
  | node _ l r => l.span ∪ r.span

/-- The tree: nodes without a label are removed. -/
def flatten : Cand → List Out
  | word lab n => [.leaf lab n]
  | node (some lab) l r => [.node lab (l.flatten ++ r.flatten)]
  | node none l r => l.flatten ++ r.flatten

end Cand

/-- A span that occurs in the derivations. -/
def Seen (derivs : List (DT × ℚ)) (s : Finset ℕ) : Prop := ∃ d ∈ derivs, ∃ lab, (lab, s) ∈ d.1.parts

/-- The candidates: every span occurs in the derivations, children are disjoint, the first child has the first word, and the whole sentence has a label. -/
def Valid (N : Nat) (derivs : List (DT × ℚ)) : Cand → Prop
  | .word _ n => Seen derivs {n}
  | .node lab l r => Valid N derivs l ∧ Valid N derivs r ∧ Disjoint l.span r.span ∧ startOf l.span = startOf (l.span ∪ r.span) ∧ Seen derivs (l.span ∪ r.span) ∧
      (l.span ∪ r.span = Finset.range N → lab.isSome)

/-- The objective: the sum of the expected gains of the constituents. -/
def objective (labda : ℚ) (labels : Option (List String)) (derivs : List (DT × ℚ)) : Cand → ℚ
  | .word lab n => gain labda labels derivs lab {n}
  | .node lab l r => (lab.elim 0 (fun lab => gain labda labels derivs lab (l.span ∪ r.span))) + objective labda labels derivs l + objective labda labels derivs r

/-- What is assumed: derivations of the whole sentence with positive weights, and labels other than the two special ones. -/
structure Input (labda : ℚ) (N : Nat) (derivs : List (DT × ℚ)) : Prop where
  nonempty : derivs ≠ []
  proper : ∀ d ∈ derivs, Proper d.1
  whole : ∀ d ∈ derivs, d.1.span = Finset.range N
  pos : ∀ d ∈ derivs, 0 < d.2
  labels : ∀ d ∈ derivs, ∀ p ∈ d.1.parts, p.1 ≠ "" ∧ p.1 ≠ "-#-"
  labda : 0 ≤ labda

/-! ### Lemmas: the table -/

/-- The events that are recorded. -/
def events (derivs : List (DT × ℚ)) : List ((String × Finset ℕ) × ℚ) := derivs.flatMap (fun d => d.1.parts.map (fun p => (p, d.2)))

theorem makeTable_eq (labels : Option (List String)) (derivs : List (DT × ℚ)) : makeTable labels derivs = (events derivs).foldl (fun t e => record labels e.2 t e.1) [] := by
  unfold makeTable events
  generalize ([] : Table) = t
  induction derivs generalizing t with
  | nil => rfl
  | cons d ds ih => rw [List.foldl_cons, ih, List.flatMap_cons, List.foldl_append, List.foldl_map]

def get2 (t : Table) (s : Finset ℕ) (lab : String) : Option ℚ := (Dict.get? t s).bind (fun c => Dict.get? c lab)

theorem get2_record (labels : Option (List String)) (w : ℚ) (t : Table) (p : String × Finset ℕ) (s : Finset ℕ) (lab : String) :
    get2 (record labels w t p) s lab = if p = (lab, s) then some ((get2 t s lab).getD 0 + (if counted labels lab then w else 0)) else get2 t s lab := by
  unfold get2 record
  simp only [Dict.get?_set]
  by_cases h : p.2 = s
  · subst h
    rw [if_pos rfl, Option.bind_some, Dict.get?_set]
    by_cases h' : p.1 = lab
    · subst h'
      rw [if_pos rfl, if_pos rfl]
      cases Dict.get? t p.2 <;> simp [Dict.get?]
    · rw [if_neg h', if_neg (fun h => h' (congrArg Prod.fst h))]
      cases Dict.get? t p.2 <;> simp [Dict.get?]
  · rw [if_neg h, if_neg (fun h' => h (congrArg Prod.snd h'))]

theorem get2_events (labels : Option (List String)) (s : Finset ℕ) (lab : String) : ∀ (es : List ((String × Finset ℕ) × ℚ)) (t : Table),
    get2 (es.foldl (fun t e => record labels e.2 t e.1) t) s lab =
      if es.filter (fun e => decide (e.1 = (lab, s))) = [] then get2 t s lab
      else some ((get2 t s lab).getD 0 + (if counted labels lab then ((es.filter (fun e => decide (e.1 = (lab, s)))).map Prod.snd).sum else 0)) := by
  intro es
  induction es with
  | nil => intro t; rfl
  | cons e es ih =>
    intro t
    rw [List.foldl_cons, ih, get2_record, List.filter_cons]
    by_cases h : e.1 = (lab, s)
    · simp only [h, if_true, decide_true]
      by_cases h' : es.filter (fun e => decide (e.1 = (lab, s))) = []
      · rw [if_pos h', h']
        cases counted labels lab <;> simp
      · rw [if_neg h']
        cases counted labels lab <;> simp [add_assoc]
    · have hd : decide (e.1 = (lab, s)) = false := by simpa using h
      rw [if_neg h]
      simp only [hd]
      rfl

theorem keys_record (labels : Option (List String)) (w : ℚ) (t : Table) (p : String × Finset ℕ) (s : Finset ℕ) : s ∈ Dict.keys (record labels w t p) ↔ s = p.2 ∨ s ∈ Dict.keys t := by
  unfold record; exact Dict.mem_keys_set

theorem keys_events (labels : Option (List String)) (s : Finset ℕ) : ∀ (es : List ((String × Finset ℕ) × ℚ)) (t : Table),
    s ∈ Dict.keys (es.foldl (fun t e => record labels e.2 t e.1) t) ↔ s ∈ Dict.keys t ∨ ∃ e ∈ es, e.1.2 = s := by
  intro es
  induction es with
  | nil => intro t; simp
  | cons e es ih =>
    intro t
    rw [List.foldl_cons, ih, keys_record]
    simp only [List.mem_cons, exists_eq_or_imp, eq_comm (a := s)]
    tauto

theorem wf_events (labels : Option (List String)) : ∀ (es : List ((String × Finset ℕ) × ℚ)) (t : Table), Dict.WF t → (∀ s c, Dict.get? t s = some c → Dict.WF c) →
    Dict.WF (es.foldl (fun t e => record labels e.2 t e.1) t) ∧ ∀ s c, Dict.get? (es.foldl (fun t e => record labels e.2 t e.1) t) s = some c → Dict.WF c := by
  intro es
  induction es with
  | nil => intro t h1 h2; exact ⟨h1, h2⟩
  | cons e es ih =>
    intro t h1 h2
    rw [List.foldl_cons]
    apply ih
    · exact h1.set _ _
    · intro s c h
      unfold record at h
      rw [Dict.get?_set] at h
      split at h
      · cases h
        apply Dict.WF.set
        cases hg : Dict.get? t e.1.2 with
        | none => simp [Dict.WF, Dict.keys]
        | some c => exact h2 _ _ hg
      · exact h2 s c h

theorem span_nonempty (t : DT) : t.span.Nonempty := by
  induction t with
  | leaf => simp [DT.span]
  | node _ l r ihl _ => exact ihl.mono Finset.subset_union_left

theorem parts_span {t : DT} {p : String × Finset ℕ} (h : p ∈ t.parts) : p.2 ⊆ t.span ∧ p.2.Nonempty := by
  induction t with
  | leaf lab n => simp only [DT.parts, List.mem_singleton] at h; subst h; simp [DT.span]
  | node lab l r ihl ihr =>
    rcases List.mem_cons.1 h with rfl | h
    · exact ⟨subset_rfl, (span_nonempty l).mono Finset.subset_union_left⟩
    · rcases List.mem_append.1 h with h | h
      · exact ⟨(ihl h).1.trans Finset.subset_union_left, (ihl h).2⟩
      · exact ⟨(ihr h).1.trans Finset.subset_union_right, (ihr h).2⟩

theorem self_part (t : DT) : ∃ lab, (lab, t.span) ∈ t.parts := by
  cases t with
  | leaf lab n => exact ⟨lab, by simp [DT.parts, DT.span]⟩
  | node lab l r => exact ⟨lab, by simp [DT.parts, DT.span]⟩

/-- A tree has each constituent once. -/
theorem parts_nodup {t : DT} (h : Proper t) : (t.parts.map Prod.snd).Nodup := by
  induction t with
  | leaf lab n => simp [DT.parts]
  | node lab l r ihl ihr =>
    obtain ⟨h1, h2, h3⟩ := h
    simp only [DT.parts, List.map_cons, List.map_append, List.nodup_cons, List.nodup_append, List.mem_append, List.mem_map]
    refine ⟨?_, ihl h1, ihr h2, ?_⟩
    · rintro (⟨p, hp, he⟩ | ⟨p, hp, he⟩)
      · obtain ⟨x, hx⟩ := span_nonempty r
        exact Finset.disjoint_left.1 h3 ((parts_span hp).1 (he ▸ Finset.mem_union_right _ hx)) hx
      · obtain ⟨x, hx⟩ := span_nonempty l
        exact Finset.disjoint_left.1 h3 hx ((parts_span hp).1 (he ▸ Finset.mem_union_left _ hx))
    · rintro s ⟨p, hp, rfl⟩ s' ⟨q, hq, rfl⟩ he
      obtain ⟨x, hx⟩ := (parts_span hp).2
      exact Finset.disjoint_left.1 h3 ((parts_span hp).1 hx) ((parts_span hq).1 (he ▸ hx))

theorem filter_parts {t : DT} (h : Proper t) (q : String × Finset ℕ) : t.parts.filter (fun p => decide (p = q)) = if q ∈ t.parts then [q] else [] := by
  have hn : t.parts.Nodup := (parts_nodup h).of_map _
  generalize t.parts = l at hn
  induction l with
  | nil => simp
  | cons a l ih =>
    rw [List.nodup_cons] at hn
    rw [List.filter_cons]
    by_cases ha : a = q
    · subst ha
      have : l.filter (fun p => decide (p = a)) = [] := by
        rw [ih hn.2, if_neg hn.1]
      simp [this]
    · simp [ha, ih hn.2, Ne.symm ha]

theorem events_filter {derivs : List (DT × ℚ)} (h : ∀ d ∈ derivs, Proper d.1) (q : String × Finset ℕ) :
    ((events derivs).filter (fun e => decide (e.1 = q))).map Prod.snd = (derivs.filter (fun d => decide (q ∈ d.1.parts))).map Prod.snd := by
  unfold events
  induction derivs with
  | nil => rfl
  | cons d ds ih =>
    rw [List.flatMap_cons, List.filter_append, List.map_append, ih (fun d hd => h d (List.mem_cons_of_mem _ hd)), List.filter_cons, List.filter_map]
    have : ((fun e : (String × Finset ℕ) × ℚ => decide (e.1 = q)) ∘ fun p => (p, d.2)) = fun p => decide (p = q) := rfl
    rw [this, filter_parts (h d List.mem_cons_self)]
    by_cases hq : q ∈ d.1.parts <;> simp [hq]

/-- The weight of a constituent. -/
def weight (labels : Option (List String)) (derivs : List (DT × ℚ)) (lab : String) (s : Finset ℕ) : ℚ :=
  if counted labels lab then ((derivs.filter (fun d => decide ((lab, s) ∈ d.1.parts))).map Prod.snd).sum else 0

theorem table_get2 (labels : Option (List String)) {derivs : List (DT × ℚ)} (h : ∀ d ∈ derivs, Proper d.1) (s : Finset ℕ) (lab : String) :
    get2 (makeTable labels derivs) s lab = if ∃ d ∈ derivs, (lab, s) ∈ d.1.parts then some (weight labels derivs lab s) else none := by
  rw [makeTable_eq, get2_events, events_filter h]
  have he : (events derivs).filter (fun e => decide (e.1 = (lab, s))) = [] ↔ ¬ ∃ d ∈ derivs, (lab, s) ∈ d.1.parts := by
    rw [← List.map_eq_nil_iff (f := Prod.snd), events_filter h, List.map_eq_nil_iff, List.filter_eq_nil_iff]
    simp
  by_cases hc : ∃ d ∈ derivs, (lab, s) ∈ d.1.parts
  · rw [if_neg (fun h => he.1 h hc), if_pos hc]
    simp [get2, Dict.get?, weight]
  · rw [if_pos (he.2 hc), if_neg hc]
    rfl

theorem table_keys (labels : Option (List String)) (derivs : List (DT × ℚ)) (s : Finset ℕ) : s ∈ Dict.keys (makeTable labels derivs) ↔ Seen derivs s := by
  rw [makeTable_eq, keys_events]
  simp only [Dict.keys, List.map_nil, List.not_mem_nil, false_or, events, List.mem_flatMap, List.mem_map, Seen]
  constructor
  · rintro ⟨e, ⟨d, hd, p, hp, rfl⟩, rfl⟩; exact ⟨d, hd, p.1, hp⟩
  · rintro ⟨d, hd, lab, hp⟩; exact ⟨_, ⟨d, hd, _, hp, rfl⟩, rfl⟩

theorem foldl_best (xs : List (String × ℚ)) : ∀ x : String × ℚ, let m := xs.foldl (fun best y => if best.2 < y.2 then y else best) x
    (m = x ∨ m ∈ xs) ∧ x.2 ≤ m.2 ∧ ∀ y ∈ xs, y.2 ≤ m.2 := by
  induction xs with
  | nil => intro x; simp
  | cons a xs ih =>
    intro x
    simp only [List.foldl_cons]
    by_cases h : x.2 < a.2
    · rw [if_pos h]
      obtain ⟨h1, h2, h3⟩ := ih a
      refine ⟨Or.inr ?_, le_trans h.le h2, ?_⟩
      · rcases h1 with h1 | h1
        · rw [h1]; exact List.mem_cons_self
        · exact List.mem_cons_of_mem _ h1
      · intro y hy
        rcases List.mem_cons.1 hy with rfl | hy
        · exact h2
        · exact h3 y hy
    · rw [if_neg h]
      obtain ⟨h1, h2, h3⟩ := ih x
      refine ⟨?_, h2, ?_⟩
      · rcases h1 with h1 | h1
        · exact Or.inl h1
        · exact Or.inr (List.mem_cons_of_mem _ h1)
      · intro y hy
        rcases List.mem_cons.1 hy with rfl | hy
        · exact le_trans (not_lt.1 h) h2
        · exact h3 y hy

theorem maxItem_spec {c : Dict String ℚ} (h : c ≠ []) : maxItem c ∈ c ∧ ∀ y ∈ c, y.2 ≤ (maxItem c).2 := by
  cases c with
  | nil => exact absurd rfl h
  | cons x xs =>
    obtain ⟨h1, h2, h3⟩ := foldl_best xs x
    refine ⟨?_, ?_⟩
    · rcases h1 with h1 | h1
      · exact List.mem_cons.2 (Or.inl h1)
      · exact List.mem_cons_of_mem _ h1
    · intro y hy
      rcases List.mem_cons.1 hy with rfl | hy
      · exact h2
      · exact h3 y hy

section
variable {labda : ℚ} {labels : Option (List String)} {N : Nat} {derivs : List (DT × ℚ)}

/-- The best label of a span. -/
def bestOf (labels : Option (List String)) (derivs : List (DT × ℚ)) (s : Finset ℕ) : String × ℚ := maxItem ((Dict.get? (makeTable labels derivs) s).getD [])

def bestGain (labda : ℚ) (labels : Option (List String)) (derivs : List (DT × ℚ)) (s : Finset ℕ) : ℚ := contribution labda ((bestOf labels derivs s).2 / sentprob derivs)

theorem total_pos (H : Input labda N derivs) : 0 < sentprob derivs := by
  have hpos := H.pos
  have hne := H.nonempty
  unfold sentprob
  clear H
  cases derivs with
  | nil => exact absurd rfl hne
  | cons d ds =>
    rw [List.map_cons, List.sum_cons]
    have : 0 ≤ (ds.map Prod.snd).sum := List.sum_nonneg (by
      intro x hx; obtain ⟨e, he, rfl⟩ := List.mem_map.1 hx; exact (hpos e (List.mem_cons_of_mem _ he)).le)
    have := hpos d List.mem_cons_self
    linarith

theorem weight_nonneg (H : Input labda N derivs) (lab : String) (s : Finset ℕ) : 0 ≤ weight labels derivs lab s := by
  unfold weight
  split
  · apply List.sum_nonneg
    intro x hx; obtain ⟨e, he, rfl⟩ := List.mem_map.1 hx
    exact (H.pos e (List.mem_filter.1 he).1).le
  · exact le_refl _

theorem gain_eq (lab : String) (s : Finset ℕ) : gain labda labels derivs lab s = contribution labda (weight labels derivs lab s / sentprob derivs) := by
  unfold gain contribution post weight sentprob
  split <;> ring

theorem contribution_mono (hl : 0 ≤ labda) {a b : ℚ} (h : a ≤ b) : contribution labda a ≤ contribution labda b := by
  unfold contribution
  nlinarith

theorem best_spec (H : Input labda N derivs) {s : Finset ℕ} (hs : Seen derivs s) :
    (∃ d ∈ derivs, ((bestOf labels derivs s).1, s) ∈ d.1.parts) ∧ gain labda labels derivs (bestOf labels derivs s).1 s = bestGain labda labels derivs s ∧
      ∀ lab, gain labda labels derivs lab s ≤ bestGain labda labels derivs s := by
  obtain ⟨c, hc⟩ := Option.isSome_iff_exists.1 (Dict.mem_keys.1 ((table_keys labels derivs s).2 hs))
  have hwf : Dict.WF c := by
    have := (wf_events labels (events derivs) [] (by simp [Dict.WF, Dict.keys]) (by simp [Dict.get?])).2 s c
    rw [← makeTable_eq] at this
    exact this hc
  have hget : ∀ lab, Dict.get? c lab = if ∃ d ∈ derivs, (lab, s) ∈ d.1.parts then some (weight labels derivs lab s) else none := by
    intro lab
    have := table_get2 labels H.proper s lab
    rw [get2, hc] at this
    exact this
  have hne : c ≠ [] := by
    rintro rfl
    obtain ⟨d, hd, lab, hp⟩ := hs
    have := hget lab
    rw [if_pos ⟨d, hd, hp⟩] at this
    simp [Dict.get?] at this
  obtain ⟨m1, m2⟩ := maxItem_spec hne
  have hb : bestOf labels derivs s = maxItem c := by unfold bestOf; rw [hc]; rfl
  have hgm := Dict.get?_of_mem hwf (show ((maxItem c).1, (maxItem c).2) ∈ c from m1)
  rw [hget] at hgm
  have hT := total_pos H
  have hmem : ∃ d ∈ derivs, ((maxItem c).1, s) ∈ d.1.parts := by
    by_contra hcon
    rw [if_neg hcon] at hgm; cases hgm
  rw [if_pos hmem] at hgm
  have hgm := Option.some.inj hgm
  refine ⟨hb ▸ hmem, ?_, ?_⟩
  · rw [gain_eq, bestGain, hb, hgm]
  · intro lab
    rw [gain_eq, bestGain, hb]
    apply contribution_mono H.labda
    apply div_le_div_of_nonneg_right _ hT.le
    by_cases hl : ∃ d ∈ derivs, (lab, s) ∈ d.1.parts
    · have := hget lab
      rw [if_pos hl] at this
      exact m2 _ (Dict.mem_of_get? this)
    · have : weight labels derivs lab s = 0 := by
        unfold weight
        split
        · have : derivs.filter (fun d => decide ((lab, s) ∈ d.1.parts)) = [] := by
            rw [List.filter_eq_nil_iff]; intro d hd hp; exact hl ⟨d, hd, by simpa using hp⟩
          rw [this]; rfl
        · rfl
      rw [this, ← hgm]
      exact weight_nonneg H _ _

/-! ### Lemmas: spans -/

theorem seen_sub (H : Input labda N derivs) {s : Finset ℕ} (hs : Seen derivs s) : s ⊆ Finset.range N ∧ s.Nonempty := by
  obtain ⟨d, hd, lab, hp⟩ := hs
  have := parts_span hp
  rw [H.whole d hd] at this
  exact this

theorem startOf_mem {s : Finset ℕ} (h : s.Nonempty) : startOf s ∈ s := by
  unfold startOf; rw [dif_pos h]; exact Finset.min'_mem _ _

theorem startOf_le {s : Finset ℕ} {x : ℕ} (h : x ∈ s) : startOf s ≤ x := by
  unfold startOf; rw [dif_pos ⟨x, h⟩]; exact Finset.min'_le _ _ h

theorem startOf_unique {s : Finset ℕ} {x : ℕ} (h : x ∈ s) (h' : ∀ y ∈ s, x ≤ y) : startOf s = x :=
  le_antisymm (startOf_le h) (h' _ (startOf_mem ⟨x, h⟩))

theorem node_of_part {t : DT} (hp : Proper t) {lab : String} {s : Finset ℕ} (h : (lab, s) ∈ t.parts) (hc : 1 < s.card) :
    ∃ l r : DT, Disjoint l.span r.span ∧ l.span ∪ r.span = s ∧ (∃ la, (la, l.span) ∈ t.parts) ∧ ∃ lb, (lb, r.span) ∈ t.parts := by
  induction t with
  | leaf lb n => simp only [DT.parts, List.mem_singleton] at h; cases h; simp at hc
  | node lb l r ihl ihr =>
    obtain ⟨p1, p2, p3⟩ := hp
    rcases List.mem_cons.1 h with h | h
    · cases h
      obtain ⟨la, hla⟩ := self_part l
      obtain ⟨lb, hlb⟩ := self_part r
      exact ⟨l, r, p3, rfl, ⟨la, List.mem_cons_of_mem _ (List.mem_append.2 (Or.inl hla))⟩, lb, List.mem_cons_of_mem _ (List.mem_append.2 (Or.inr hlb))⟩
    · rcases List.mem_append.1 h with h | h
      · obtain ⟨a, b, q1, q2, ⟨la, q3⟩, lb, q4⟩ := ihl p1 h
        exact ⟨a, b, q1, q2, ⟨la, List.mem_cons_of_mem _ (List.mem_append.2 (Or.inl q3))⟩, lb, List.mem_cons_of_mem _ (List.mem_append.2 (Or.inl q4))⟩
      · obtain ⟨a, b, q1, q2, ⟨la, q3⟩, lb, q4⟩ := ihr p2 h
        exact ⟨a, b, q1, q2, ⟨la, List.mem_cons_of_mem _ (List.mem_append.2 (Or.inr q3))⟩, lb, List.mem_cons_of_mem _ (List.mem_append.2 (Or.inr q4))⟩

/-- A split of a span into two spans that occur, the first with the first word. -/
structure Split (derivs : List (DT × ℚ)) (s a b : Finset ℕ) : Prop where
  left : Seen derivs a
  right : Seen derivs b
  disj : Disjoint a b
  union : a ∪ b = s
  start : startOf a = startOf s

theorem exists_split (H : Input labda N derivs) {s : Finset ℕ} (hs : Seen derivs s) (hc : 1 < s.card) : ∃ a b, Split derivs s a b := by
  obtain ⟨d, hd, lab, hp⟩ := hs
  obtain ⟨l, r, h1, h2, ⟨la, h3⟩, lb, h4⟩ := node_of_part (H.proper d hd) hp hc
  have hne : s.Nonempty := Finset.card_pos.1 (by omega)
  have hm := startOf_mem hne
  have hm' := hm
  rw [← h2, Finset.mem_union] at hm
  rcases hm with hm | hm
  · refine ⟨l.span, r.span, ⟨d, hd, la, h3⟩, ⟨d, hd, lb, h4⟩, h1, h2, ?_⟩
    rw [h2] at hm
    exact startOf_unique hm (fun y hy => startOf_le (h2 ▸ Finset.mem_union_left _ hy))
  · refine ⟨r.span, l.span, ⟨d, hd, lb, h4⟩, ⟨d, hd, la, h3⟩, h1.symm, by rw [Finset.union_comm, h2], ?_⟩
    rw [h2] at hm
    exact startOf_unique hm (fun y hy => startOf_le (h2 ▸ Finset.mem_union_right _ hy))

theorem Split.sdiff {s a b : Finset ℕ} (h : Split derivs s a b) : s \ a = b := by
  rw [← h.union, Finset.union_sdiff_left]
  exact Finset.sdiff_eq_self_of_disjoint h.disj.symm

theorem Split.card {s a b : Finset ℕ} (H : Input labda N derivs) (h : Split derivs s a b) : a.card < s.card ∧ b.card < s.card ∧ 1 ≤ a.card := by
  have h1 := Finset.card_pos.2 (seen_sub H h.left).2
  have h2 := Finset.card_pos.2 (seen_sub H h.right).2
  have h3 := Finset.card_union_of_disjoint h.disj
  rw [h.union] at h3
  omega

/-! ### Lemmas: the cells -/

/-- What the loop over the splits computes. -/
theorem fold_split (cells : Cells) (s : Finset ℕ) (ok : Finset ℕ → Prop) (f : Finset ℕ → ℚ) : ∀ (ls : List (Finset ℕ)),
    (∀ a ∈ ls, ∀ best, splitStep cells s best a = best ∧ ¬ ok a ∨ ok a ∧ splitStep cells s best a = if best.1 < f a then (f a, some a) else best) →
    ∀ best : ℚ × Option (Finset ℕ), let r := ls.foldl (splitStep cells s) best
      best.1 ≤ r.1 ∧ (∀ a ∈ ls, ok a → f a ≤ r.1) ∧ (r = best ∨ ∃ a ∈ ls, ok a ∧ r = (f a, some a) ∧ best.1 < f a) := by
  intro ls
  induction ls with
  | nil => intro _ best; simp
  | cons a ls ih =>
    intro h best
    simp only [List.foldl_cons]
    have ih' := ih (fun b hb => h b (List.mem_cons_of_mem _ hb))
    rcases h a List.mem_cons_self best with ⟨h1, h2⟩ | ⟨h1, h2⟩
    · rw [h1]
      obtain ⟨g1, g2, g3⟩ := ih' best
      refine ⟨g1, ?_, ?_⟩
      · intro b hb hok
        rcases List.mem_cons.1 hb with rfl | hb
        · exact absurd hok h2
        · exact g2 b hb hok
      · rcases g3 with g3 | ⟨b, hb, g3⟩
        · exact Or.inl g3
        · exact Or.inr ⟨b, List.mem_cons_of_mem _ hb, g3⟩
    · rw [h2]
      by_cases hlt : best.1 < f a
      · rw [if_pos hlt]
        obtain ⟨g1, g2, g3⟩ := ih' (f a, some a)
        refine ⟨hlt.le.trans g1, ?_, ?_⟩
        · intro b hb hok
          rcases List.mem_cons.1 hb with rfl | hb
          · exact g1
          · exact g2 b hb hok
        · rcases g3 with g3 | ⟨b, hb, g3, g4, g5⟩
          · exact Or.inr ⟨a, List.mem_cons_self, h1, g3, hlt⟩
          · exact Or.inr ⟨b, List.mem_cons_of_mem _ hb, g3, g4, hlt.trans g5⟩
      · rw [if_neg hlt]
        obtain ⟨g1, g2, g3⟩ := ih' best
        refine ⟨g1, ?_, ?_⟩
        · intro b hb hok
          rcases List.mem_cons.1 hb with rfl | hb
          · exact (not_lt.1 hlt).trans g1
          · exact g2 b hb hok
        · rcases g3 with g3 | ⟨b, hb, g3⟩
          · exact Or.inl g3
          · exact Or.inr ⟨b, List.mem_cons_of_mem _ hb, g3⟩

theorem mem_lefts (H : Input labda N derivs) {s t : Finset ℕ} : t ∈ lefts (makeTable labels derivs) s ↔ Seen derivs t ∧ t.card < s.card ∧ startOf t = startOf s := by
  unfold lefts
  simp only [List.mem_flatMap, List.mem_range, List.mem_filter, decide_eq_true_eq, table_keys]
  constructor
  · rintro ⟨len, h1, h2, rfl, h3, h4⟩; exact ⟨h2, h1, h4⟩
  · rintro ⟨h1, h2, h3⟩; exact ⟨_, h2, h1, rfl, Finset.card_pos.2 (seen_sub H h1).2, h3⟩

theorem mem_order (H : Input labda N derivs) {s : Finset ℕ} : s ∈ order N (makeTable labels derivs) ↔ Seen derivs s := by
  unfold order
  simp only [List.mem_flatMap, List.mem_range, List.mem_filter, decide_eq_true_eq, table_keys]
  constructor
  · rintro ⟨_, _, _, _, h, _⟩; exact h
  · intro h
    obtain ⟨h1, h2⟩ := seen_sub H h
    have hc := Finset.card_pos.2 h2
    have hsub : s ⊆ Finset.Ico (startOf s) N := by
      intro x hx
      exact Finset.mem_Ico.2 ⟨startOf_le hx, Finset.mem_range.1 (h1 hx)⟩
    have hle := Finset.card_le_card hsub
    rw [Nat.card_Ico] at hle
    exact ⟨s.card - 1, by omega, startOf s, by omega, h, by omega, rfl⟩

theorem keys_nodup : (Dict.keys (makeTable labels derivs)).Nodup := by
  have := (wf_events labels (events derivs) [] (by simp [Dict.WF, Dict.keys]) (by simp [Dict.get?])).1
  rw [← makeTable_eq] at this
  exact this

theorem order_sorted (N : Nat) : (order N (makeTable labels derivs)).Pairwise (fun a b => a.card ≤ b.card ∧ a ≠ b) := by
  unfold order
  rw [List.pairwise_flatMap]
  constructor
  · intro len _
    rw [List.pairwise_flatMap]
    constructor
    · intro start _
      have := (keys_nodup (labels := labels) (derivs := derivs)).filter (fun t => decide (t.card = len + 1 ∧ startOf t = start))
      rw [List.Nodup] at this
      refine List.Pairwise.imp_of_mem ?_ this
      intro a b ha hb hab
      have h1 := (of_decide_eq_true (List.mem_filter.1 ha).2).1
      have h2 := (of_decide_eq_true (List.mem_filter.1 hb).2).1
      exact ⟨by omega, hab⟩
    · refine List.Pairwise.imp ?_ (List.pairwise_lt_range)
      intro s1 s2 hlt a ha b hb
      have h1 := of_decide_eq_true (List.mem_filter.1 ha).2
      have h2 := of_decide_eq_true (List.mem_filter.1 hb).2
      refine ⟨by omega, ?_⟩
      rintro rfl
      omega
  · refine List.Pairwise.imp ?_ (List.pairwise_lt_range)
    intro l1 l2 hlt a ha b hb
    simp only [List.mem_flatMap, List.mem_filter, decide_eq_true_eq] at ha hb
    obtain ⟨_, _, _, ha, _⟩ := ha
    obtain ⟨_, _, _, hb, _⟩ := hb
    refine ⟨by omega, ?_⟩
    rintro rfl
    omega

/-- The cell of a span is made from the final cells of the shorter spans. -/
theorem fill_spec (e : Cells → Finset ℕ → String × ℚ × Option (Finset ℕ)) : ∀ (ord : List (Finset ℕ)), ord.Pairwise (fun a b => a.card ≤ b.card ∧ a ≠ b) → ∀ cells : Cells,
    (∀ t, t ∉ ord → ord.foldl (fun cells s => setCell cells s (e cells s)) cells t = cells t) ∧
    ∀ s ∈ ord, ∃ c : Cells, ord.foldl (fun cells s => setCell cells s (e cells s)) cells s = some (e c s) ∧
      ∀ t, t.card < s.card → c t = ord.foldl (fun cells s => setCell cells s (e cells s)) cells t := by
  intro ord
  induction ord with
  | nil => intro _ cells; simp
  | cons a ord ih =>
    intro hp cells
    rw [List.pairwise_cons] at hp
    obtain ⟨h1, h2⟩ := ih hp.2 (setCell cells a (e cells a))
    simp only [List.foldl_cons]
    have hna : a ∉ ord := fun h => (hp.1 a h).2 rfl
    refine ⟨?_, ?_⟩
    · intro t ht
      rw [List.mem_cons, not_or] at ht
      rw [h1 t ht.2, setCell, if_neg ht.1]
    · intro s hs
      rcases List.mem_cons.1 hs with rfl | hs
      · refine ⟨cells, by rw [h1 _ hna, setCell, if_pos rfl], ?_⟩
        intro t ht
        have htn : t ∉ ord := fun h => by have := (hp.1 t h).1; omega
        rw [h1 t htn, setCell, if_neg (by rintro rfl; omega)]
      · exact h2 s hs

/-- What is known about the final cell of a span. -/
structure Good (labda : ℚ) (labels : Option (List String)) (N : Nat) (derivs : List (DT × ℚ)) (cells : Cells) (s : Finset ℕ) (label : String) (comb : ℚ) (left : Option (Finset ℕ)) : Prop where
  cell : cells s = some (label, comb + max 0 (bestGain labda labels derivs s), left)
  label : label = if bestGain labda labels derivs s < 0 ∧ 1 < s.card ∧ s.card < N then "-#-" else (bestOf labels derivs s).1
  nonneg : 0 ≤ comb
  upper : ∀ a b, Split derivs s a b → cells.score a + cells.score b ≤ comb
  attained : (left = none ∧ comb = 0) ∨ ∃ a b, left = some a ∧ Split derivs s a b ∧ comb = cells.score a + cells.score b

/-- The final cells. -/
def finalCells (labda : ℚ) (labels : Option (List String)) (N : Nat) (derivs : List (DT × ℚ)) : Cells := fillCells labda N (sentprob derivs) (makeTable labels derivs)

theorem good (H : Input labda N derivs) : ∀ s, Seen derivs s → ∃ label comb left, Good labda labels N derivs (finalCells labda labels N derivs) s label comb left := by
  obtain ⟨hout, hin⟩ := fill_spec (fun cells s => entry labda N (sentprob derivs) (makeTable labels derivs) cells s) _ (order_sorted (labels := labels) (derivs := derivs) N) (fun _ => none)
  change (∀ t, t ∉ order N (makeTable labels derivs) → finalCells labda labels N derivs t = none) at hout
  change ∀ s ∈ order N (makeTable labels derivs), ∃ c : Cells, finalCells labda labels N derivs s = some (entry labda N (sentprob derivs) (makeTable labels derivs) c s) ∧
    ∀ t, t.card < s.card → c t = finalCells labda labels N derivs t at hin
  generalize finalCells labda labels N derivs = F at hout hin
  have hsome : ∀ s, Seen derivs s → ∃ lab sc l, F s = some (lab, sc, l) ∧ lab ≠ "" := by
    intro s hs
    obtain ⟨c, h1, _⟩ := hin s ((mem_order H).2 hs)
    have hlab : (bestOf labels derivs s).1 ≠ "" := by
      obtain ⟨⟨d, hd, hp⟩, _⟩ := best_spec (labels := labels) H hs
      exact (H.labels d hd _ hp).1
    unfold entry at h1
    simp only at h1
    split at h1
    · refine ⟨_, _, _, h1, ?_⟩
      split
      · decide
      · exact hlab
    · exact ⟨_, _, _, h1, hlab⟩
  intro s hs
  obtain ⟨c, h1, h2⟩ := hin s ((mem_order H).2 hs)
  have hne := (seen_sub H hs).2
  -- the splits
  have hsplit : ∀ a ∈ lefts (makeTable labels derivs) s, ∀ best, splitStep c s best a = best ∧ ¬ (Split derivs s a (s \ a)) ∨
      Split derivs s a (s \ a) ∧ splitStep c s best a = if best.1 < F.score a + F.score (s \ a) then (F.score a + F.score (s \ a), some a) else best := by
    intro a ha best
    obtain ⟨g1, g2, g3⟩ := (mem_lefts H).1 ha
    unfold splitStep
    by_cases hsub : a ⊆ s
    · obtain ⟨lab, sc, l, hF, hl⟩ := hsome a g1
      have hca : c a = F a := h2 a g2
      have hla : c.label a ≠ "" := by unfold Cells.label; rw [hca, hF]; exact hl
      rw [if_neg (by simp [hsub, hla])]
      have hcb : c (s \ a) = F (s \ a) := h2 _ (by
        have := Finset.card_sdiff_add_card_eq_card hsub
        have := Finset.card_pos.2 (seen_sub H g1).2
        omega)
      have hsc : c.score a + c.score (s \ a) = F.score a + F.score (s \ a) := by unfold Cells.score; rw [hca, hcb]
      by_cases hsb : Seen derivs (s \ a)
      · obtain ⟨lab', sc', l', hF', hl'⟩ := hsome _ hsb
        right
        refine ⟨⟨g1, hsb, Finset.disjoint_sdiff, Finset.union_sdiff_of_subset hsub, g3⟩, ?_⟩
        have hlb : c.label (s \ a) ≠ "" := by unfold Cells.label; rw [hcb, hF']; exact hl'
        rw [if_pos ⟨by rw [hcb, hF']; rfl, hlb⟩]
        simp only
        rw [hsc]
      · left
        refine ⟨?_, fun h => hsb h.right⟩
        rw [if_neg]
        rintro ⟨h, _⟩
        rw [hcb, hout _ (fun h' => hsb ((mem_order H).1 h'))] at h
        cases h
    · left
      rw [if_pos (Or.inl hsub)]
      refine ⟨rfl, fun h => hsub ?_⟩
      rw [← h.union]; exact Finset.subset_union_left
  obtain ⟨f1, f2, f3⟩ := fold_split c s (fun a => Split derivs s a (s \ a)) (fun a => F.score a + F.score (s \ a)) _ hsplit (0, none)
  change (0 : ℚ) ≤ (combine (makeTable labels derivs) c s).1 at f1
  change ∀ a ∈ lefts (makeTable labels derivs) s, Split derivs s a (s \ a) → F.score a + F.score (s \ a) ≤ (combine (makeTable labels derivs) c s).1 at f2
  change combine (makeTable labels derivs) c s = (0, none) ∨ ∃ a ∈ lefts (makeTable labels derivs) s, Split derivs s a (s \ a) ∧ combine (makeTable labels derivs) c s = (F.score a + F.score (s \ a), some a) ∧ _ at f3
  refine ⟨if bestGain labda labels derivs s < 0 ∧ 1 < s.card ∧ s.card < N then "-#-" else (bestOf labels derivs s).1, (combine (makeTable labels derivs) c s).1,
    (combine (makeTable labels derivs) c s).2, ?_, rfl, f1, ?_, ?_⟩
  · rw [h1]
    unfold entry
    simp only
    change some (if bestGain labda labels derivs s < 0 then _ else _) = _
    by_cases hb : bestGain labda labels derivs s < 0
    · rw [if_pos hb, max_eq_left hb.le, add_zero]
      simp only [hb, true_and]
      rfl
    · rw [if_neg hb, max_eq_right (not_lt.1 hb)]
      simp only [hb, false_and, if_false]
      rfl
  · intro a b hab
    have hb := hab.sdiff
    have := f2 a ((mem_lefts H).2 ⟨hab.left, (hab.card H).1, hab.start⟩) (hb ▸ hab)
    rw [hb] at this
    exact this
  · rcases f3 with f3 | ⟨a, _, f3, f4, _⟩
    · left; rw [f3]; exact ⟨rfl, rfl⟩
    · right; exact ⟨a, s \ a, by rw [f4], f3, by rw [f4]⟩

/-! ### Lemmas: optimality -/

theorem leaf_part {t : DT} {n : ℕ} (h : n ∈ t.span) : ∃ lab, (lab, {n}) ∈ t.parts := by
  induction t with
  | leaf lab m => simp only [DT.span, Finset.mem_singleton] at h; subst h; exact ⟨lab, by simp [DT.parts]⟩
  | node lab l r ihl ihr =>
    rcases Finset.mem_union.1 h with h | h
    · obtain ⟨lb, hl⟩ := ihl h; exact ⟨lb, List.mem_cons_of_mem _ (List.mem_append.2 (Or.inl hl))⟩
    · obtain ⟨lb, hl⟩ := ihr h; exact ⟨lb, List.mem_cons_of_mem _ (List.mem_append.2 (Or.inr hl))⟩

theorem seen_word {s : Finset ℕ} (hs : Seen derivs s) {n : ℕ} (hn : n ∈ s) : Seen derivs {n} := by
  obtain ⟨d, hd, lab, hp⟩ := hs
  obtain ⟨lb, hl⟩ := leaf_part ((parts_span hp).1 hn)
  exact ⟨d, hd, lb, hl⟩

theorem Good.score {F : Cells} {s : Finset ℕ} {label : String} {comb : ℚ} {left : Option (Finset ℕ)} (h : Good labda labels N derivs F s label comb left) :
    F.score s = comb + max 0 (bestGain labda labels derivs s) := by
  unfold Cells.score; rw [h.cell]; rfl

/-- The objective with the negative gains left out. -/
def relax (labda : ℚ) (labels : Option (List String)) (derivs : List (DT × ℚ)) : Cand → ℚ
  | .word lab n => max 0 (gain labda labels derivs lab {n})
  | .node lab l r => (lab.elim 0 (fun lab => max 0 (gain labda labels derivs lab (l.span ∪ r.span)))) + relax labda labels derivs l + relax labda labels derivs r

theorem valid_seen {c : Cand} (h : Valid N derivs c) : Seen derivs c.span := by
  cases c with
  | word => exact h
  | node => exact h.2.2.2.2.1

theorem relax_le (H : Input labda N derivs) : ∀ {c : Cand}, Valid N derivs c → relax labda labels derivs c ≤ (finalCells labda labels N derivs).score c.span := by
  intro c
  induction c with
  | word lab n =>
    intro h
    obtain ⟨_, comb, _, hg⟩ := good (labels := labels) H _ h
    rw [Cand.span, hg.score, relax]
    have := (best_spec (labels := labels) H h).2.2 lab
    have := hg.nonneg
    have := max_le_max_left 0 ((best_spec (labels := labels) H h).2.2 lab)
    linarith
  | node lab l r ihl ihr =>
    intro h
    obtain ⟨h1, h2, h3, h4, h5, _⟩ := h
    obtain ⟨_, comb, _, hg⟩ := good (labels := labels) H _ h5
    rw [Cand.span, hg.score, relax]
    have hs := hg.upper l.span r.span ⟨valid_seen h1, valid_seen h2, h3, rfl, h4⟩
    have e1 := ihl h1
    have e2 := ihr h2
    have e3 : (lab.elim 0 (fun lab => max 0 (gain labda labels derivs lab (l.span ∪ r.span)))) ≤ max 0 (bestGain labda labels derivs (l.span ∪ r.span)) := by
      cases lab with
      | none => exact le_max_left _ _
      | some lab => exact max_le_max_left 0 ((best_spec (labels := labels) H h5).2.2 lab)
    linarith

/-- The gains that are negative for every label but cannot be avoided: those of words and of the whole sentence. -/
def corr (labda : ℚ) (labels : Option (List String)) (N : Nat) (derivs : List (DT × ℚ)) (s : Finset ℕ) : ℚ :=
  ∑ n ∈ s, min 0 (bestGain labda labels derivs {n}) + if s = Finset.range N ∧ 1 < s.card then min 0 (bestGain labda labels derivs s) else 0

theorem corr_union {a b : Finset ℕ} (hd : Disjoint a b) (ha : a.Nonempty) (hb : b.Nonempty) (hsub : a ∪ b ⊆ Finset.range N) :
    corr labda labels N derivs (a ∪ b) = corr labda labels N derivs a + corr labda labels N derivs b + if a ∪ b = Finset.range N then min 0 (bestGain labda labels derivs (a ∪ b)) else 0 := by
  have hc := Finset.card_union_of_disjoint hd
  have hca := Finset.card_pos.2 ha
  have hcb := Finset.card_pos.2 hb
  have hle := Finset.card_le_card hsub
  rw [Finset.card_range] at hle
  have hna : ¬ (a = Finset.range N ∧ 1 < a.card) := by
    rintro ⟨rfl, _⟩; rw [Finset.card_range] at *; omega
  have hnb : ¬ (b = Finset.range N ∧ 1 < b.card) := by
    rintro ⟨rfl, _⟩; rw [Finset.card_range] at *; omega
  unfold corr
  rw [Finset.sum_union hd, if_neg hna, if_neg hnb]
  have : (a ∪ b = Finset.range N ∧ 1 < (a ∪ b).card) ↔ a ∪ b = Finset.range N := ⟨fun h => h.1, fun h => ⟨h, by omega⟩⟩
  simp only [this, add_zero]

theorem cand_nonempty (c : Cand) : c.span.Nonempty := by
  induction c with
  | word => simp [Cand.span]
  | node _ l r ihl _ => exact ihl.mono Finset.subset_union_left

theorem max_add_min (x : ℚ) : max 0 x + min 0 x = x := by
  rcases le_total 0 x with h | h
  · rw [max_eq_right h, min_eq_left h, add_zero]
  · rw [max_eq_left h, min_eq_right h, zero_add]

theorem split_gain {x y : ℚ} (h : x ≤ y) : x ≤ max 0 x + min 0 y := by
  calc x = max 0 x + min 0 x := (max_add_min x).symm
    _ ≤ _ := by have := min_le_min_left 0 h; linarith

theorem objective_le (H : Input labda N derivs) : ∀ {c : Cand}, Valid N derivs c → objective labda labels derivs c ≤ relax labda labels derivs c + corr labda labels N derivs c.span := by
  intro c
  induction c with
  | word lab n =>
    intro h
    have := split_gain ((best_spec (labels := labels) H h).2.2 lab)
    simp only [objective, relax, corr, Cand.span, Finset.sum_singleton, Finset.card_singleton, lt_irrefl, and_false, if_false, add_zero]
    exact this
  | node lab l r ihl ihr =>
    intro h
    obtain ⟨h1, h2, h3, h4, h5, h6⟩ := h
    rw [objective, relax, Cand.span, corr_union h3 (cand_nonempty l) (cand_nonempty r) (seen_sub H h5).1]
    have e1 := ihl h1
    have e2 := ihr h2
    have e3 : (lab.elim 0 (fun lab => gain labda labels derivs lab (l.span ∪ r.span))) ≤ (lab.elim 0 (fun lab => max 0 (gain labda labels derivs lab (l.span ∪ r.span)))) + if l.span ∪ r.span = Finset.range N then min 0 (bestGain labda labels derivs (l.span ∪ r.span)) else 0 := by
      cases lab with
      | none =>
        rw [if_neg (fun h => by have := h6 h; cases this)]
        simp
      | some lab =>
        simp only [Option.elim_some]
        split
        · exact split_gain ((best_spec (labels := labels) H h5).2.2 lab)
        · rw [add_zero]; exact le_max_right _ _
    linarith

/-- Every constituent of two or more words has a word with a tag that is worth having. -/
def TagsClear (labda : ℚ) (labels : Option (List String)) (derivs : List (DT × ℚ)) : Prop :=
  ∀ s, Seen derivs s → 1 < s.card → ∃ n ∈ s, ∃ lab, 0 < gain labda labels derivs lab {n}

theorem score_nonneg (H : Input labda N derivs) {s : Finset ℕ} (hs : Seen derivs s) : 0 ≤ (finalCells labda labels N derivs).score s := by
  obtain ⟨_, comb, _, hg⟩ := good (labels := labels) H s hs
  rw [hg.score]
  have := hg.nonneg
  have := le_max_left 0 (bestGain labda labels derivs s)
  linarith

theorem score_pos (H : Input labda N derivs) : ∀ (k : Nat) {s : Finset ℕ}, s.card = k → Seen derivs s → ∀ n ∈ s, 0 < bestGain labda labels derivs {n} → 0 < (finalCells labda labels N derivs).score s := by
  intro k
  induction k using Nat.strong_induction_on with
  | _ k ih =>
    intro s hk hs n hn hpos
    obtain ⟨_, comb, _, hg⟩ := good (labels := labels) H s hs
    rw [hg.score]
    have h0 := hg.nonneg
    by_cases hc : 1 < s.card
    · obtain ⟨a, b, hab⟩ := exists_split H hs hc
      have hup := hg.upper a b hab
      have ha := score_nonneg (labels := labels) H hab.left
      have hb := score_nonneg (labels := labels) H hab.right
      have hcard := hab.card H
      have hm := le_max_left 0 (bestGain labda labels derivs s)
      have : 0 < (finalCells labda labels N derivs).score a + (finalCells labda labels N derivs).score b := by
        have hn' := hn
        rw [← hab.union, Finset.mem_union] at hn'
        rcases hn' with hn' | hn'
        · have := ih a.card (by omega) rfl hab.left n hn' hpos
          linarith
        · have := ih b.card (by omega) rfl hab.right n hn' hpos
          linarith
      linarith
    · have hsn : s = {n} := by
        have h1 := Finset.card_pos.2 ⟨n, hn⟩
        obtain ⟨x, hx⟩ := Finset.card_eq_one.1 (show s.card = 1 by omega)
        rw [hx] at hn
        rw [hx, Finset.mem_singleton.1 hn]
      have : 0 < max 0 (bestGain labda labels derivs {n}) := lt_max_of_lt_right hpos
      rw [hsn]
      linarith

theorem build (H : Input labda N derivs) (hT : TagsClear labda labels derivs) : ∀ (fuel : Nat) {s : Finset ℕ}, s.card ≤ fuel → Seen derivs s →
    ∃ c, Valid N derivs c ∧ c.span = s ∧ gettree (finalCells labda labels N derivs) fuel s = some c.flatten ∧
      objective labda labels derivs c = (finalCells labda labels N derivs).score s + corr labda labels N derivs s := by
  intro fuel
  induction fuel with
  | zero =>
    intro s h hs
    have := Finset.card_pos.2 (seen_sub H hs).2
    omega
  | succ fuel ih =>
    intro s hf hs
    obtain ⟨label, comb, left, hg⟩ := good (labels := labels) H s hs
    obtain ⟨⟨d, hd, hpart⟩, hbest, _⟩ := best_spec (labels := labels) H hs
    have hlabs := H.labels d hd _ hpart
    have hne := (seen_sub H hs).2
    have hcpos := Finset.card_pos.2 hne
    by_cases hc : 1 < s.card
    · -- there is a split with a positive score
      have hcomb : 0 < comb := by
        obtain ⟨n, hn, lab, hlab⟩ := hT s hs hc
        have hw := seen_word hs hn
        have hpos : 0 < bestGain labda labels derivs {n} := lt_of_lt_of_le hlab ((best_spec (labels := labels) H hw).2.2 lab)
        obtain ⟨a, b, hab⟩ := exists_split H hs hc
        have hup := hg.upper a b hab
        have ha := score_nonneg (labels := labels) H hab.left
        have hb := score_nonneg (labels := labels) H hab.right
        rw [← hab.union, Finset.mem_union] at hn
        rcases hn with hn | hn
        · have := score_pos (labels := labels) H _ rfl hab.left n hn hpos
          linarith
        · have := score_pos (labels := labels) H _ rfl hab.right n hn hpos
          linarith
      rcases hg.attained with ⟨_, h0⟩ | ⟨a, b, hl, hab, hcb⟩
      · rw [h0] at hcomb; exact absurd hcomb (lt_irrefl _)
      subst hl
      have hcard := hab.card H
      obtain ⟨ca, va, sa, ga, oa⟩ := ih (by omega) hab.left
      obtain ⟨cb, vb, sb, gb, ob⟩ := ih (by omega) hab.right
      have hsN := Finset.card_le_card (seen_sub H hs).1
      rw [Finset.card_range] at hsN
      have hrange : s = Finset.range N ↔ ¬ s.card < N := by
        constructor
        · rintro h; rw [h, Finset.card_range]; omega
        · intro h
          exact Finset.eq_of_subset_of_card_le (seen_sub H hs).1 (by rw [Finset.card_range]; omega)
      obtain ⟨_, combA, _, hgA⟩ := good (labels := labels) H a hab.left
      have hiso : ((finalCells labda labels N derivs) a).isNone = false := by rw [hgA.cell]; rfl
      have hget : gettree (finalCells labda labels N derivs) (fuel + 1) s = some (if label = "" ∨ label = "-#-" then ca.flatten ++ cb.flatten else [.node label (ca.flatten ++ cb.flatten)]) := by
        simp only [gettree, hg.cell, hiso, Bool.false_eq_true, if_false, ga, hab.sdiff, gb]
      have hcorr := corr_union (labda := labda) (labels := labels) (derivs := derivs) (N := N) hab.disj (seen_sub H hab.left).2 (seen_sub H hab.right).2 (hab.union ▸ (seen_sub H hs).1)
      rw [hab.union] at hcorr
      by_cases hneg : bestGain labda labels derivs s < 0 ∧ 1 < s.card ∧ s.card < N
      · have hlab := hg.label
        rw [if_pos hneg] at hlab
        refine ⟨.node none ca cb, ⟨va, vb, by rw [sa, sb]; exact hab.disj, by rw [sa, sb, hab.union]; exact hab.start, by rw [sa, sb, hab.union]; exact hs, ?_⟩, by rw [Cand.span, sa, sb, hab.union], ?_, ?_⟩
        · rw [sa, sb, hab.union, hrange]; intro h; exact absurd hneg.2.2 h
        · rw [hget, hlab]; simp [Cand.flatten]
        · rw [objective, oa, ob, hg.score, hcorr, if_neg (fun h => (hrange.1 h) hneg.2.2), max_eq_left hneg.1.le, hcb, Option.elim_none]
          ring
      · have hlab := hg.label
        rw [if_neg hneg] at hlab
        refine ⟨.node (some label) ca cb, ⟨va, vb, by rw [sa, sb]; exact hab.disj, by rw [sa, sb, hab.union]; exact hab.start, by rw [sa, sb, hab.union]; exact hs, fun _ => rfl⟩,
          by rw [Cand.span, sa, sb, hab.union], ?_, ?_⟩
        · rw [hget, if_neg (by rw [hlab]; rintro (h | h); exacts [hlabs.1 h, hlabs.2 h])]; rfl
        · rw [objective, oa, ob, hg.score, hcorr, hcb]
          rw [Option.elim_some, sa, sb, hab.union, hlab, hbest]
          by_cases hr : s = Finset.range N
          · rw [if_pos hr]
            have := max_add_min (bestGain labda labels derivs s)
            linarith
          · rw [if_neg hr]
            have : 0 ≤ bestGain labda labels derivs s := by
              by_contra hlt
              exact hneg ⟨not_le.1 hlt, hc, not_not.1 (fun h => hr (hrange.2 h))⟩
            rw [max_eq_right this]
            ring
    · have hs1 : ∃ n, s = {n} := Finset.card_eq_one.1 (by omega)
      obtain ⟨n, rfl⟩ := hs1
      rcases hg.attained with ⟨hl, h0⟩ | ⟨a, b, _, hab, _⟩
      · subst hl
        have hlab := hg.label
        rw [if_neg (fun h => hc h.2.1)] at hlab
        have hst : startOf {n} = n := startOf_unique (by simp) (by simp)
        refine ⟨.word label n, hs, rfl, by simp only [gettree, hg.cell, Cand.flatten, hst], ?_⟩
        rw [objective, hlab, hbest, hg.score, h0, corr]
        simp only [Finset.sum_singleton, hc, and_false, if_false, add_zero, zero_add]
        exact (max_add_min _).symm
      · have := hab.card H
        omega

end

/-! ### Theorems -/

/-- **C61**: if every constituent of two or more words in the derivations has at least one word with a tag whose expected gain is positive, then the result is a tree over all the words of the sentence
which is optimal: no other tree with spans from the derivations has a larger sum of expected gains. -/
theorem C61_optimal {labda : ℚ} {N : Nat} {derivs : List (DT × ℚ)} (labels : Option (List String)) (H : Input labda N derivs) (hT : TagsClear labda labels derivs) :
    ∃ c : Cand, (mcp labda labels N derivs).1 = some c.flatten ∧ Valid N derivs c ∧ c.span = Finset.range N ∧
      ∀ c', Valid N derivs c' → c'.span = Finset.range N → objective labda labels derivs c' ≤ objective labda labels derivs c := by
  obtain ⟨d, hd⟩ : ∃ d, derivs.getLast? = some d := by
    cases h : derivs.getLast? with
    | none => exact absurd (List.getLast?_eq_none_iff.1 h) H.nonempty
    | some d => exact ⟨d, rfl⟩
  have hdm := List.mem_of_getLast? hd
  have hw := H.whole d hdm
  obtain ⟨lab, hp⟩ := self_part d.1
  have hseen : Seen derivs (Finset.range N) := ⟨d, hdm, lab, hw ▸ hp⟩
  obtain ⟨c, h1, h2, h3, h4⟩ := build H hT (N + 1) (s := Finset.range N) (by rw [Finset.card_range]; omega) hseen
  refine ⟨c, ?_, h1, h2, ?_⟩
  · simp only [mcp, hd, hw]
    exact h3
  · intro c' v' s'
    have e1 := objective_le (labels := labels) H v'
    have e2 := relax_le (labels := labels) H v'
    rw [s'] at e1 e2
    linarith

/-- **C61**: the score that is reported with the tree is the weight of the derivations that have the label of the root (not divided by the total weight); it does not depend on the rest of the tree. -/
theorem C61_reported {labda : ℚ} {N : Nat} {derivs : List (DT × ℚ)} (labels : Option (List String)) (H : Input labda N derivs) :
    ∃ lab, (∃ d ∈ derivs, (lab, Finset.range N) ∈ d.1.parts) ∧ (mcp labda labels N derivs).2 = post labels derivs lab (Finset.range N) * (derivs.map Prod.snd).sum ∧
      ∀ lab', post labels derivs lab' (Finset.range N) ≤ post labels derivs lab (Finset.range N) := by
  obtain ⟨d, hd⟩ := List.exists_mem_of_ne_nil _ H.nonempty
  obtain ⟨lab0, hp⟩ := self_part d.1
  have hseen : Seen derivs (Finset.range N) := ⟨d, hd, lab0, H.whole d hd ▸ hp⟩
  have hmem := (mem_order (labels := labels) H).2 hseen
  obtain ⟨x, hx⟩ : ∃ x, (order N (makeTable labels derivs)).getLast? = some x := by
    cases h : (order N (makeTable labels derivs)).getLast? with
    | none => rw [List.getLast?_eq_none_iff.1 h] at hmem; cases hmem
    | some x => exact ⟨x, rfl⟩
  have hxr : x = Finset.range N := by
    have hxm := List.mem_of_getLast? hx
    have hxs := (seen_sub H ((mem_order H).1 hxm)).1
    obtain ⟨pre, hpre⟩ : ∃ pre, order N (makeTable labels derivs) = pre ++ [x] := List.getLast?_eq_some_iff.1 hx
    have hsort := order_sorted (labels := labels) (derivs := derivs) N
    rw [hpre, List.pairwise_append] at hsort
    rw [hpre, List.mem_append] at hmem
    rcases hmem with hmem | hmem
    · have := (hsort.2.2 _ hmem x (by simp)).1
      exact Finset.eq_of_subset_of_card_le hxs this
    · exact (List.mem_singleton.1 hmem).symm
  subst hxr
  obtain ⟨h1, h2, h3⟩ := best_spec (labels := labels) H hseen
  have hT := total_pos H
  have hl := H.labda
  have hpw : ∀ lab, post labels derivs lab (Finset.range N) = weight labels derivs lab (Finset.range N) / sentprob derivs := by
    intro lab; unfold post weight sentprob; split <;> simp
  have hcon : ∀ a b : ℚ, contribution labda a ≤ contribution labda b → a ≤ b := by
    intro a b h
    unfold contribution at h
    by_contra hlt
    have hlt := not_le.1 hlt
    nlinarith
  refine ⟨(bestOf labels derivs (Finset.range N)).1, h1, ?_, ?_⟩
  · have hw : weight labels derivs (bestOf labels derivs (Finset.range N)).1 (Finset.range N) / sentprob derivs = (bestOf labels derivs (Finset.range N)).2 / sentprob derivs := by
      rw [gain_eq, bestGain] at h2
      exact le_antisymm (hcon _ _ h2.le) (hcon _ _ h2.ge)
    simp only [mcp, hx, Option.map_some, Option.getD_some]
    rw [hpw, hw]
    change (bestOf labels derivs (Finset.range N)).2 = (bestOf labels derivs (Finset.range N)).2 / sentprob derivs * sentprob derivs
    rw [div_mul_cancel₀ _ hT.ne']
  · intro lab'
    have := h3 lab'
    rw [← h2, gain_eq, gain_eq] at this
    rw [hpw, hpw]
    exact hcon _ _ this

/-! ### Examples -/

instance : DecidableEq Out := by
  intro a b
  exact decEqOut a b
where
  decEqOut : (a b : Out) → Decidable (a = b)
    | .leaf l n, .leaf l' n' => decidable_of_iff (l = l' ∧ n = n') (by simp)
    | .node l cs, .node l' cs' =>
      match decEqOuts cs cs' with
      | isTrue h => decidable_of_iff (l = l') (by simp [h])
      | isFalse h => isFalse (by simp [h])
    | .leaf .., .node .. => isFalse (by simp)
    | .node .., .leaf .. => isFalse (by simp)
  decEqOuts : (a b : List Out) → Decidable (a = b)
    | [], [] => isTrue rfl
    | x :: xs, y :: ys =>
      match decEqOut x y, decEqOuts xs ys with
      | isTrue h1, isTrue h2 => isTrue (by rw [h1, h2])
      | isFalse h1, _ => isFalse (by simp [h1])
      | _, isFalse h2 => isFalse (by simp [h2])
    | [], _ :: _ => isFalse (by simp)
    | _ :: _, [] => isFalse (by simp)

/-- Derivations of a sentence of three words: a discontinuous constituent VP over the words 0 and 2 has probability 3/5, an NP over the words 0 and 1 has probability 2/5. -/
def exD : List (DT × ℚ) :=
  [(.node "S" (.node "VP" (.leaf "V" 0) (.leaf "P" 2)) (.leaf "N" 1), 3), (.node "S" (.node "NP" (.leaf "D" 0) (.leaf "N" 1)) (.leaf "P" 2), 2)]

theorem exD_input : Input 1 3 exD where
  nonempty := by decide
  proper := by
    intro d hd
    simp only [exD, List.mem_cons, List.not_mem_nil, or_false] at hd
    rcases hd with rfl | rfl <;> simp only [Proper, DT.span, true_and] <;> decide
  whole := by
    intro d hd
    simp only [exD, List.mem_cons, List.not_mem_nil, or_false] at hd
    rcases hd with rfl | rfl <;> simp only [DT.span] <;> decide
  pos := by decide +kernel
  labels := by decide +kernel
  labda := by decide +kernel

theorem exD_tags : TagsClear 1 none exD := by
  have h1 : 0 < gain 1 none exD "N" {1} := by decide +kernel
  have h2 : 0 < gain 1 none exD "P" {2} := by decide +kernel
  have hall : ∀ d ∈ exD, ∀ p ∈ d.1.parts, 1 < p.2.card → 1 ∈ p.2 ∨ 2 ∈ p.2 := by decide +kernel
  intro s ⟨d, hd, lab, hp⟩ hc
  rcases hall d hd _ hp hc with h | h
  · exact ⟨1, h, _, h1⟩
  · exact ⟨2, h, _, h2⟩

/-- The result for the example; with a larger weight for mistakes the discontinuous constituent is left out. -/
example : mcp 1 none 3 exD = (some [.node "S" [.node "VP" [.leaf "V" 0, .leaf "P" 2], .leaf "N" 1]], 5) ∧
    mcp 2 none 3 exD = (some [.node "S" [.leaf "V" 0, .leaf "P" 2, .leaf "N" 1]], 5) := by
  decide +kernel

/-! ### Disagreement -/

/-- Three derivations of two words that differ in the tags. -/
def exTags : List (DT × ℚ) :=
  [(.node "S" (.leaf "A" 0) (.leaf "B" 1), 1), (.node "S" (.leaf "C" 0) (.leaf "D" 1), 1), (.node "S" (.leaf "E" 0) (.leaf "F" 1), 1)]

/-- **C61 fails** without the assumption on the tags: when no tag of the words of a constituent has a positive expected gain, all splits have score 0, which is not larger than the initial value, and the
constituent is given the first word only: the other words are lost, although there is a tree with all the words. -/
theorem C61_words_disagreement :
    (mcp 1 none 2 exTags).1 = some [.leaf "S" 0] ∧ ∃ c, Valid 2 exTags c ∧ c.span = Finset.range 2 ∧ c.flatten = [.node "S" [.leaf "A" 0, .leaf "B" 1]] := by
  refine ⟨by decide +kernel, .node (some "S") (.word "A" 0) (.word "B" 1), ⟨?_, ?_, by simp [Cand.span], by decide +kernel, ?_, fun _ => rfl⟩, by decide +kernel, rfl⟩
  · exact ⟨_, List.mem_cons_self, "A", by decide +kernel⟩
  · exact ⟨_, List.mem_cons_self, "B", by decide +kernel⟩
  · exact ⟨_, List.mem_cons_self, "S", by decide +kernel⟩

end Disco.Disamb.Mcp
