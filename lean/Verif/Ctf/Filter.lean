import Mathlib.Data.List.Basic
import Mathlib.Logic.Relation
/-!
# C58: `Chart.filter` (containers.pyx:169-178) and `_filtersubtree` (containers.pyx:246-260)
-/
set_option linter.unusedSectionVars false
namespace Disco.Ctf

variable {ι : Type} [DecidableEq ι]

/-! ### Model -/

/-- `parseforest`: the edges of each item; an edge is the list of the items to which it points: none if `edge.rule is NULL`, `_left` if `edge.rule.rhs2 == 0`, otherwise `_left` and `_right`. -/
abbrev Forest (ι : Type) := ι → List (List ι)

/-- The children of one edge (containers.pyx:251-260). -/
def filterEdge (rec : ι → List ι → Option (List ι)) : List ι → List ι → Option (List ι)
  | [], items => some items
  | c :: cs, items => if c ∈ items then filterEdge rec cs items else (rec c items).bind (filterEdge rec cs)

/-- The loop over the edges of an item (containers.pyx:250-260). -/
def filterEdges (rec : ι → List ι → Option (List ι)) : List (List ι) → List ι → Option (List ι)
  | [], items => some items
  | e :: es, items => (filterEdge rec e items).bind (filterEdges rec es)

/-- `_filtersubtree(chart, item, items)` (containers.pyx:246-260); the set `items` is a list; the first argument bounds the depth of the recursion. -/
def filtersubtree (F : Forest ι) : Nat → ι → List ι → Option (List ι)
  | 0, _, _ => none
  | d + 1, v, items => filterEdges (filtersubtree F d) (F v) (v :: items)

/-- `Chart.filter()` (containers.pyx:169-178): clears the edges of the items that were not collected; `ids` are the items of the chart. -/
def filter (F : Forest ι) (ids : List ι) (root : ι) (depth : Nat) : Option (Forest ι) :=
  (filtersubtree F depth root []).map (fun keep x => if x ∈ ids ∧ x ∉ keep then [] else F x)

/-! ### Specification -/

/-- An item has a derivation. -/
inductive Spec.Derivable (F : Forest ι) : ι → Prop
  | mk {x e} : e ∈ F x → (∀ c ∈ e, Derivable F c) → Derivable F x

/-- `y` occurs in some derivation of `x`. -/
inductive Spec.Occurs (F : Forest ι) : ι → ι → Prop
  | here {x} : Spec.Derivable F x → Occurs F x x
  | there {x e c y} : e ∈ F x → (∀ c ∈ e, Spec.Derivable F c) → c ∈ e → Occurs F c y → Occurs F x y

/-! ### Lemmas -/

/-- `y` is reached from `x` by following edges. -/
abbrev Reach (F : Forest ι) : ι → ι → Prop := Relation.ReflTransGen (fun x y => ∃ e ∈ F x, y ∈ e)

theorem filterEdges_flatten (rec : ι → List ι → Option (List ι)) (es : List (List ι)) : ∀ items, filterEdges rec es items = filterEdge rec es.flatten items := by
  have happ : ∀ (a b items : List ι), filterEdge rec (a ++ b) items = (filterEdge rec a items).bind (filterEdge rec b) := by
    intro a b
    induction a with
    | nil => intro items; simp [filterEdge]
    | cons c cs ih =>
      intro items
      rw [List.cons_append, filterEdge, filterEdge]
      split
      · exact ih items
      · cases rec c items with
        | none => rfl
        | some r => simp only [Option.bind_some]; exact ih r
  induction es with
  | nil => intro items; simp [filterEdges, filterEdge]
  | cons e es ih =>
    intro items
    rw [filterEdges, List.flatten_cons, happ]
    congr 1
    funext r
    exact ih r

/-- The number of items that have not been visited. -/
def todo (univ items : List ι) : Nat := (univ.filter (fun x => decide (x ∉ items))).length

theorem todo_mono {univ a b : List ι} (h : a ⊆ b) : todo univ b ≤ todo univ a := by
  unfold todo
  rw [← List.countP_eq_length_filter, ← List.countP_eq_length_filter]
  refine List.countP_mono_left (fun x _ hx => ?_)
  simp only [decide_eq_true_eq] at hx ⊢
  exact fun hh => hx (h hh)

theorem todo_cons {univ items : List ι} {v : ι} (hv : v ∈ univ) (hn : v ∉ items) : todo univ (v :: items) < todo univ items := by
  unfold todo
  induction univ with
  | nil => cases hv
  | cons u univ ih =>
    have hle := todo_mono (univ := univ) (a := items) (b := v :: items) (by simp)
    unfold todo at hle
    simp only [List.filter_cons]
    by_cases huv : u = v
    · subst huv
      have h1 : ¬ (decide (u ∉ u :: items) = true) := by simp
      have h2 : decide (u ∉ items) = true := by simp [hn]
      rw [if_neg h1, if_pos h2, List.length_cons]
      omega
    · have := ih (by simpa [Ne.symm huv] using hv)
      by_cases hu : u ∈ items
      · simp [huv, hu] at this ⊢
        omega
      · simp [huv, hu] at this ⊢
        omega

/-- What a call does with a list of items to visit. -/
structure Post (F : Forest ι) (cs items res : List ι) : Prop where
  sub : items ⊆ res
  mem : ∀ c ∈ cs, c ∈ res
  new : ∀ u ∈ res, u ∈ items ∨ (∃ c ∈ cs, Reach F c u) ∧ ∀ e ∈ F u, ∀ c ∈ e, c ∈ res

theorem filterEdge_post (F : Forest ι) (univ : List ι) (d : Nat)
    (ih : ∀ v items, v ∈ univ → v ∉ items → todo univ items ≤ d → ∃ res, filtersubtree F d v items = some res ∧ Post F [v] items res) (cs : List ι) :
    ∀ items, (∀ c ∈ cs, c ∈ univ) → todo univ items ≤ d → ∃ res, filterEdge (filtersubtree F d) cs items = some res ∧ Post F cs items res := by
  induction cs with
  | nil => intro items _ _; exact ⟨items, rfl, by simp, by simp, fun u hu => .inl hu⟩
  | cons c cs ihc =>
    intro items hu ht
    rw [filterEdge]
    split
    · rename_i hc
      obtain ⟨res, h1, P⟩ := ihc items (fun c' h => hu c' (by simp [h])) ht
      refine ⟨res, h1, P.sub, ?_, ?_⟩
      · intro c' h
        rcases List.mem_cons.1 h with rfl | h
        · exact P.sub hc
        · exact P.mem c' h
      · intro u hu
        rcases P.new u hu with h | ⟨⟨c', h1, h2⟩, h3⟩
        · exact .inl h
        · exact .inr ⟨⟨c', by simp [h1], h2⟩, h3⟩
    · rename_i hc
      obtain ⟨r1, h1, P1⟩ := ih c items (hu c (by simp)) hc ht
      obtain ⟨res, h2, P2⟩ := ihc r1 (fun c' h => hu c' (by simp [h])) (Nat.le_trans (todo_mono P1.sub) ht)
      rw [h1, Option.bind_some]
      refine ⟨res, h2, P1.sub.trans P2.sub, ?_, ?_⟩
      · intro c' h
        rcases List.mem_cons.1 h with rfl | h
        · exact P2.sub (P1.mem _ (by simp))
        · exact P2.mem c' h
      · intro u hu
        rcases P2.new u hu with h | ⟨⟨c', h1, h2⟩, h3⟩
        · rcases P1.new u h with h | ⟨⟨c', h1, h2⟩, h3⟩
          · exact .inl h
          · rw [List.mem_singleton] at h1
            subst h1
            exact .inr ⟨⟨c', by simp, h2⟩, fun e he x hx => P2.sub (h3 e he x hx)⟩
        · exact .inr ⟨⟨c', by simp [h1], h2⟩, h3⟩

theorem filtersubtree_post (F : Forest ι) (univ : List ι) (hcl : ∀ x ∈ univ, ∀ e ∈ F x, ∀ c ∈ e, c ∈ univ) :
    ∀ (d : Nat) (v : ι) (items : List ι), v ∈ univ → v ∉ items → todo univ items ≤ d → ∃ res, filtersubtree F d v items = some res ∧ Post F [v] items res := by
  intro d
  induction d with
  | zero =>
    intro v items hv hn ht
    have := todo_cons hv hn
    omega
  | succ d ih =>
    intro v items hv hn ht
    have := todo_cons hv hn
    rw [filtersubtree, filterEdges_flatten]
    obtain ⟨res, h1, P⟩ := filterEdge_post F univ d ih (F v).flatten (v :: items) (fun c hc => by
      obtain ⟨e, he, hc⟩ := List.mem_flatten.1 hc
      exact hcl v hv e he c hc) (by omega)
    refine ⟨res, h1, fun x hx => P.sub (by simp [hx]), fun c hc => ?_, fun u hu => ?_⟩
    · rw [List.mem_singleton] at hc; subst hc; exact P.sub (by simp)
    · rcases P.new u hu with h | ⟨⟨c, h1, h2⟩, h3⟩
      · rcases List.mem_cons.1 h with rfl | h
        · refine .inr ⟨⟨u, by simp, .refl⟩, fun e he c hc => P.mem c (List.mem_flatten.2 ⟨e, he, hc⟩)⟩
        · exact .inl h
      · obtain ⟨e, he, hc⟩ := List.mem_flatten.1 h1
        exact .inr ⟨⟨v, by simp, .head ⟨e, he, hc⟩ h2⟩, h3⟩

/-- The items that are kept are those that are reached from the root. -/
theorem filtersubtree_reach (F : Forest ι) (univ : List ι) (hcl : ∀ x ∈ univ, ∀ e ∈ F x, ∀ c ∈ e, c ∈ univ) {root : ι} (hr : root ∈ univ) {d : Nat} (hd : univ.length ≤ d) :
    ∃ res, filtersubtree F d root [] = some res ∧ ∀ x, x ∈ res ↔ Reach F root x := by
  obtain ⟨res, h1, P⟩ := filtersubtree_post F univ hcl d root [] hr (by simp) (Nat.le_trans (List.length_filter_le _ _) hd)
  refine ⟨res, h1, fun x => ⟨fun hx => ?_, fun hx => ?_⟩⟩
  · rcases P.new x hx with h | ⟨⟨c, h2, h3⟩, _⟩
    · cases h
    · rw [List.mem_singleton] at h2; subst h2; exact h3
  · induction hx with
    | refl => exact P.mem root (by simp)
    | tail _ hb ih =>
      obtain ⟨e, he, hc⟩ := hb
      rcases P.new _ ih with h | ⟨_, h3⟩
      · cases h
      · exact h3 e he _ hc

theorem reach_occurs {F : Forest ι} (hd : ∀ x e, e ∈ F x → ∀ c ∈ e, Spec.Derivable F c) {x y : ι} (h : Reach F x y) (hy : F y ≠ []) : Spec.Occurs F x y := by
  induction h using Relation.ReflTransGen.head_induction_on with
  | refl =>
    obtain ⟨e, he⟩ := List.exists_mem_of_ne_nil _ hy
    exact .here (.mk he (hd _ e he))
  | head h _ ih =>
    obtain ⟨e, he, hc⟩ := h
    exact .there he (hd _ e he) hc ih

theorem occurs_reach {F : Forest ι} {x y : ι} (h : Spec.Occurs F x y) : Reach F x y ∧ F y ≠ [] := by
  induction h with
  | here h =>
    cases h with
    | mk he _ => exact ⟨.refl, List.ne_nil_of_mem he⟩
  | there he _ hc _ ih => exact ⟨.head ⟨_, he, hc⟩ ih.1, ih.2⟩

/-! ### Property -/

/-- **C58**: `filter` terminates and keeps the edges of exactly the items that occur in a derivation of the root; no edge of these is lost. -/
theorem C58_filter (F : Forest ι) (ids : List ι) (hcl : ∀ x ∈ ids, ∀ e ∈ F x, ∀ c ∈ e, c ∈ ids) (hd : ∀ x e, e ∈ F x → ∀ c ∈ e, Spec.Derivable F c) {root : ι} (hr : root ∈ ids) {depth : Nat}
    (hdepth : ids.length ≤ depth) : ∃ F', filter F ids root depth = some F' ∧ (∀ x ∈ ids, F' x ≠ [] ↔ Spec.Occurs F root x) ∧ ∀ x, Spec.Occurs F root x → F' x = F x := by
  obtain ⟨res, h1, h2⟩ := filtersubtree_reach F ids hcl hr hdepth
  refine ⟨_, by rw [filter, h1]; rfl, fun x hx => ?_, fun x hx => ?_⟩
  · simp only
    by_cases hk : x ∈ res
    · rw [if_neg (fun hh => hh.2 hk)]
      exact ⟨fun h => reach_occurs hd ((h2 x).1 hk) h, fun h => (occurs_reach h).2⟩
    · rw [if_pos ⟨hx, hk⟩]
      simp only [ne_eq, not_true_eq_false, false_iff]
      exact fun h => hk ((h2 x).2 (occurs_reach h).1)
  · simp only
    rw [if_neg (fun hh => hh.2 ((h2 x).2 (occurs_reach hx).1))]

/-- A chart with a useless item 4 (not part of a derivation of the root 1). -/
def exForest : Forest Nat
  | 1 => [[2, 3], [3]]
  | 2 => [[]]
  | 3 => [[2], []]
  | 4 => [[3]]
  | _ => []

example : (filter exForest [1, 2, 3, 4] 1 4).map (fun F => [1, 2, 3, 4].map F) = some [[[2, 3], [3]], [[]], [[2], []], []] := by decide

example : ∀ x ∈ [1, 2, 3, 4], ∀ e ∈ exForest x, ∀ c ∈ e, c ∈ [1, 2, 3, 4] := by decide

end Disco.Ctf
