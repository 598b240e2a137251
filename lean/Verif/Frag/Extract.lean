import Mathlib.Data.List.Nodup
import Mathlib.Tactic.ByContra
import Verif.Frag.Kernel
/-!
# C49: extraction of maximal common fragments
-/
namespace Disco.Frag

/-! ### Specification -/

/-- A binarized tree; each node has its number in the array, and its production. -/
inductive BTree where
  | term (idx : Nat) (prod : Int)
  | un (idx : Nat) (prod : Int) (l : BTree)
  | bin (idx : Nat) (prod : Int) (l r : BTree)
deriving DecidableEq, Repr

namespace BTree
/-- The number of a node. -/
def idx : BTree → Nat
  | term i _ => i | un i _ _ => i | bin i _ _ _ => i
/-- The production of a node. -/
def prod : BTree → Int
  | term _ p => p | un _ p _ => p | bin _ p _ _ => p
/-- The number of children. -/
def arity : BTree → Nat
  | term _ _ => 0 | un _ _ _ => 1 | bin _ _ _ _ => 2
/-- The left (`false`) or right (`true`) child. -/
def child : BTree → Bool → Option BTree
  | un _ _ l, false => some l
  | bin _ _ l _, false => some l
  | bin _ _ _ r, true => some r
  | _, _ => none
/-- The subtree at a position. -/
def sub : BTree → List Bool → Option BTree
  | t, [] => some t
  | t, d :: p => (t.child d).bind fun c => sub c p
/-- All subtrees. -/
def subs : BTree → List BTree
  | term i p => [term i p]
  | un i p l => un i p l :: subs l
  | bin i p l r => bin i p l r :: (subs l ++ subs r)
end BTree

/-- The array of nodes represents this tree, with node `i` as root. -/
inductive Spec.Repr (a : List Node) : BTree → Prop
  | term {i : Nat} (h : i < a.length) (hl : (nd a i).left < 0) : Repr a (.term i (nd a i).prod)
  | un {i : Nat} {l : BTree} (h : i < a.length) (hl : (nd a i).left = l.idx) (hr : (nd a i).right < 0) (h1 : Repr a l) : Repr a (.un i (nd a i).prod l)
  | bin {i : Nat} {l r : BTree} (h : i < a.length) (hl : (nd a i).left = l.idx) (hr : (nd a i).right = r.idx) (h1 : Repr a l) (h2 : Repr a r) :
      Repr a (.bin i (nd a i).prod l r)

/-- The array is a sorted representation of the tree. -/
structure Spec.Tree (a : List Node) (t : BTree) : Prop where
  repr : Spec.Repr a t
  all : (t.subs.map BTree.idx).Perm (List.range a.length)
  sorted : Spec.Sorted a

/-- Nodes with the same production have the same number of children. -/
def Spec.SameArity (s t : BTree) : Prop := ∀ u ∈ s.subs, ∀ v ∈ t.subs, u.prod = v.prod → u.arity = v.arity

/-- All nodes on the way to the position, including the node at the position, have the same production in both trees. -/
def Spec.Agree (x y : BTree) (p : List Bool) : Prop := ∀ q, q <+: p → ∃ u v, x.sub q = some u ∧ y.sub q = some v ∧ u.prod = v.prod

/-- `bits` are the numbers of the nodes of the largest common fragment of `x` and `y` (at their roots). -/
def Spec.Largest (x y : BTree) (bits : Nat) : Prop := ∀ k, bits.testBit k = true ↔ ∃ p w, Spec.Agree x y p ∧ x.sub p = some w ∧ w.idx = k

/-- The nodes at the two positions have the same production, and there is no larger common fragment that includes both at corresponding positions:
they have no parents, or they are not both left children or both right children, or the productions of their parents differ. -/
structure Spec.Top (s t : BTree) (pa pb : List Bool) (u v : BTree) : Prop where
  left : s.sub pa = some u
  right : t.sub pb = some v
  same : u.prod = v.prod
  top : ∀ pa' pb' d u' v', pa = pa' ++ [d] → pb = pb' ++ [d] → s.sub pa' = some u' → t.sub pb' = some v' → u'.prod ≠ v'.prod

/-! ### Trees -/

@[simp] theorem idx_term (i : Nat) (p : Int) : (BTree.term i p).idx = i := rfl
@[simp] theorem idx_un (i : Nat) (p : Int) (l : BTree) : (BTree.un i p l).idx = i := rfl
@[simp] theorem idx_bin (i : Nat) (p : Int) (l r : BTree) : (BTree.bin i p l r).idx = i := rfl

theorem self_mem_subs (t : BTree) : t ∈ t.subs := by cases t <;> simp [BTree.subs]

theorem mem_subs_iff_sub (t u : BTree) : u ∈ t.subs ↔ ∃ p, t.sub p = some u := by
  induction t with
  | term i p =>
    constructor
    · intro h
      simp only [BTree.subs, List.mem_singleton] at h
      exact ⟨[], by simp [BTree.sub, h]⟩
    · rintro ⟨q, h⟩
      cases q with
      | nil => simp only [BTree.sub, Option.some.injEq] at h; simp [BTree.subs, h]
      | cons d q => cases d <;> simp [BTree.sub, BTree.child] at h
  | un i p l ih =>
    simp only [BTree.subs, List.mem_cons, ih]
    constructor
    · rintro (rfl | ⟨q, h⟩)
      · exact ⟨[], rfl⟩
      · exact ⟨false :: q, by simp [BTree.sub, BTree.child, h]⟩
    · rintro ⟨q, h⟩
      cases q with
      | nil => simp only [BTree.sub, Option.some.injEq] at h; exact Or.inl h.symm
      | cons d q => cases d <;> simp [BTree.sub, BTree.child] at h; exact Or.inr ⟨q, h⟩
  | bin i p l r ihl ihr =>
    simp only [BTree.subs, List.mem_cons, List.mem_append, ihl, ihr]
    constructor
    · rintro (rfl | ⟨q, h⟩ | ⟨q, h⟩)
      · exact ⟨[], rfl⟩
      · exact ⟨false :: q, by simp [BTree.sub, BTree.child, h]⟩
      · exact ⟨true :: q, by simp [BTree.sub, BTree.child, h]⟩
    · rintro ⟨q, h⟩
      cases q with
      | nil => simp only [BTree.sub, Option.some.injEq] at h; exact Or.inl h.symm
      | cons d q =>
        cases d
        · simp [BTree.sub, BTree.child] at h; exact Or.inr (Or.inl ⟨q, h⟩)
        · simp [BTree.sub, BTree.child] at h; exact Or.inr (Or.inr ⟨q, h⟩)

theorem sub_append (t : BTree) (p q : List Bool) : t.sub (p ++ q) = (t.sub p).bind fun u => u.sub q := by
  induction p generalizing t with
  | nil => simp [BTree.sub]
  | cons d p ih =>
    simp only [List.cons_append, BTree.sub]
    cases h : t.child d with
    | none => simp
    | some c => simp [ih]

theorem subs_trans {t u w : BTree} (h1 : w ∈ u.subs) (h2 : u ∈ t.subs) : w ∈ t.subs := by
  rw [mem_subs_iff_sub] at *
  obtain ⟨p, hp⟩ := h2
  obtain ⟨q, hq⟩ := h1
  exact ⟨p ++ q, by rw [sub_append, hp]; exact hq⟩

theorem child_mem {t c : BTree} {d : Bool} (h : t.child d = some c) : c ∈ t.subs := by
  rw [mem_subs_iff_sub]
  exact ⟨[d], by simp [BTree.sub, h]⟩

theorem idx_mem_of_sub {t u : BTree} (h : u ∈ t.subs) : u.idx ∈ t.subs.map BTree.idx := List.mem_map_of_mem h

theorem eq_of_idx {t u w : BTree} (hn : (t.subs.map BTree.idx).Nodup) (h1 : u ∈ t.subs) (h2 : w ∈ t.subs) (h : u.idx = w.idx) : u = w :=
  List.inj_on_of_nodup_map hn h1 h2 h

theorem nodup_sub {t u : BTree} (hn : (t.subs.map BTree.idx).Nodup) (h : u ∈ t.subs) : (u.subs.map BTree.idx).Nodup := by
  induction t with
  | term i p => simp only [BTree.subs, List.mem_singleton] at h; rw [h]; exact hn
  | un i p l ih =>
    simp only [BTree.subs, List.mem_cons] at h
    rcases h with rfl | h
    · exact hn
    · simp only [BTree.subs, List.map_cons, List.nodup_cons] at hn
      exact ih hn.2 h
  | bin i p l r ihl ihr =>
    simp only [BTree.subs, List.mem_cons, List.mem_append] at h
    rcases h with rfl | h | h
    · exact hn
    · simp only [BTree.subs, List.map_cons, List.nodup_cons, List.map_append, List.nodup_append] at hn
      exact ihl hn.2.1 h
    · simp only [BTree.subs, List.map_cons, List.nodup_cons, List.map_append, List.nodup_append] at hn
      exact ihr hn.2.2.1 h

theorem subs_length_pos (t : BTree) : 0 < t.subs.length := List.length_pos_of_mem (self_mem_subs t)

theorem repr_prod {a : List Node} {t : BTree} (h : Spec.Repr a t) : t.prod = (nd a t.idx).prod := by cases h <;> rfl

theorem repr_lt {a : List Node} {t : BTree} (h : Spec.Repr a t) : t.idx < a.length := by cases h <;> assumption

theorem repr_child {a : List Node} {t c : BTree} {d : Bool} (h : Spec.Repr a t) (hc : t.child d = some c) : Spec.Repr a c := by
  cases h with
  | term h hl => cases d <;> simp [BTree.child] at hc
  | un h hl hr h1 => cases d <;> simp [BTree.child] at hc; rw [← hc]; exact h1
  | bin h hl hr h1 h2 =>
    cases d
    · simp [BTree.child] at hc; rw [← hc]; exact h1
    · simp [BTree.child] at hc; rw [← hc]; exact h2

theorem repr_sub {a : List Node} {t u : BTree} (h : Spec.Repr a t) (hu : u ∈ t.subs) : Spec.Repr a u := by
  rw [mem_subs_iff_sub] at hu
  obtain ⟨p, hp⟩ := hu
  induction p generalizing t with
  | nil => simp only [BTree.sub, Option.some.injEq] at hp; rw [← hp]; exact h
  | cons d p ih =>
    simp only [BTree.sub] at hp
    cases hc : t.child d with
    | none => simp [hc] at hp
    | some c => rw [hc] at hp; exact ih (repr_child h hc) hp

/-! ### The pairs of nodes visited by `extractat` -/

/-- The pairs of nodes of the largest common fragment of two trees. -/
def visit (x y : BTree) : List (Nat × Nat) :=
  if x.prod ≠ y.prod then [] else (x.idx, y.idx) :: match x, y with
    | .un _ _ l, .un _ _ l' => visit l l'
    | .bin _ _ l r, .bin _ _ l' r' => visit l l' ++ visit r r'
    | _, _ => []

/-- The number of terminals as counted by `extractat`. -/
def terms (x y : BTree) : Nat :=
  if x.prod ≠ y.prod then 0 else match x, y with
    | .term _ _, _ => 1
    | .bin _ _ l r, .bin _ _ l' r' => terms l l' + terms r r'
    | _, _ => 0

theorem visit_ne {x y : BTree} (h : x.prod ≠ y.prod) : visit x y = [] := by rw [visit.eq_def, if_pos h]

theorem visit_snd (x : BTree) : ∀ (y : BTree), ∀ q ∈ visit x y, q.1 ∈ x.subs.map BTree.idx ∧ q.2 ∈ y.subs.map BTree.idx := by
  induction x with
  | term i p =>
    intro y q hq
    rw [visit.eq_def] at hq
    split at hq
    · simp at hq
    · simp only [List.mem_singleton] at hq
      subst hq
      exact ⟨idx_mem_of_sub (self_mem_subs _), idx_mem_of_sub (self_mem_subs _)⟩
  | un i p l ih =>
    intro y q hq
    rw [visit.eq_def] at hq
    split at hq
    · simp at hq
    · rcases List.mem_cons.1 hq with rfl | hq
      · exact ⟨idx_mem_of_sub (self_mem_subs _), idx_mem_of_sub (self_mem_subs _)⟩
      · cases y with
        | term => simp at hq
        | bin => simp at hq
        | un i' p' l' =>
          simp only at hq
          have := ih l' q hq
          simp only [BTree.subs, List.map_cons, List.mem_cons]
          exact ⟨Or.inr this.1, Or.inr this.2⟩
  | bin i p l r ihl ihr =>
    intro y q hq
    rw [visit.eq_def] at hq
    split at hq
    · simp at hq
    · rcases List.mem_cons.1 hq with rfl | hq
      · exact ⟨idx_mem_of_sub (self_mem_subs _), idx_mem_of_sub (self_mem_subs _)⟩
      · cases y with
        | term => simp at hq
        | un => simp at hq
        | bin i' p' l' r' =>
          simp only [List.mem_append] at hq
          simp only [BTree.subs, List.map_cons, List.mem_cons, List.map_append, List.mem_append]
          rcases hq with hq | hq
          · have := ihl l' q hq
            exact ⟨Or.inr (Or.inl this.1), Or.inr (Or.inl this.2)⟩
          · have := ihr r' q hq
            exact ⟨Or.inr (Or.inr this.1), Or.inr (Or.inr this.2)⟩

/-- A bitset with these bits added. -/
def mask (res : Nat) (l : List Nat) : Nat := l.foldl (fun m i => m ||| 1 <<< i) res

theorem testBit_one_shift (i k : Nat) : (1 <<< i).testBit k = decide (k = i) := by
  rw [Nat.one_shiftLeft, Nat.testBit_two_pow]
  simp [eq_comm]

theorem mask_testBit (l : List Nat) : ∀ (res k : Nat), (mask res l).testBit k = (res.testBit k || decide (k ∈ l)) := by
  induction l with
  | nil => simp [mask]
  | cons i l ih =>
    intro res k
    have := ih (res ||| 1 <<< i) k
    rw [mask] at *
    rw [List.foldl_cons, this, Nat.testBit_or, testBit_one_shift]
    simp [Bool.or_assoc, Bool.decide_or]

theorem mask_append (res : Nat) (l l' : List Nat) : mask res (l ++ l') = mask (mask res l) l' := by simp [mask, List.foldl_append]

/-- The matrix without these pairs. -/
def clear (M : Matrix) (v : List (Nat × Nat)) : Matrix := fun j i => M j i && !decide ((i, j) ∈ v)

theorem clear_nil (M : Matrix) : clear M [] = M := by
  funext j i; simp [clear]

theorem clear_append (M : Matrix) (v w : List (Nat × Nat)) : clear (clear M v) w = clear M (v ++ w) := by
  funext j i
  simp only [clear, List.mem_append, Bool.and_assoc, ← Bool.not_or, Bool.decide_or]

theorem setM_false (M : Matrix) (j i : Nat) : setM M j i false = clear M [(i, j)] := by
  funext j' i'
  simp only [setM, clear, List.mem_singleton, Prod.mk.injEq]
  by_cases h : j' = j ∧ i' = i
  · rw [if_pos h]; simp [h.1, h.2]
  · rw [if_neg h]
    have : ¬ (i' = i ∧ j' = j) := fun h' => h ⟨h'.2, h'.1⟩
    simp [this]

theorem extractat_eq {a b : List Node} (x : BTree) : ∀ (y : BTree) (f : Nat) (M : Matrix) (res : Nat), Spec.Repr a x → Spec.Repr b y →
    (y.subs.map BTree.idx).Nodup → Spec.SameArity x y → x.prod = y.prod → x.subs.length ≤ f → (∀ q ∈ visit x y, M q.2 q.1 = true) →
    (∀ u ∈ x.subs, ∀ v ∈ y.subs, M v.idx u.idx = true → u.prod = v.prod) →
    extractat a b f x.idx y.idx M res = (terms x y, clear M (visit x y), mask res ((visit x y).map Prod.fst)) := by
  induction x with
  | term i p =>
    intro y f M res hx hy hn hs hp hf hv hm
    obtain ⟨f, rfl⟩ : ∃ f', f = f' + 1 := ⟨f - 1, by simp [BTree.subs] at hf; omega⟩
    cases hx with
    | term h hl =>
      rw [extractat, visit.eq_def, terms.eq_def]
      simp only [idx_term, hl, if_true, setM_false]
      rw [if_neg (by simpa using hp), if_neg (by simpa using hp)]
      simp [mask]
  | un i p l ih =>
    intro y f M res hx hy hn hs hp hf hv hm
    obtain ⟨f, rfl⟩ : ∃ f', f = f' + 1 := ⟨f - 1, by simp [BTree.subs] at hf; omega⟩
    have har := hs _ (self_mem_subs _) _ (self_mem_subs _) hp
    cases y with
    | term => simp [BTree.arity] at har
    | bin => simp [BTree.arity] at har
    | un i' p' l' =>
      cases hx with
      | un h hl hr h1 =>
        cases hy with
        | un h' hl' hr' h1' =>
          have hne : ¬ ((l.idx : Int) < 0) := by omega
          have evisit : visit (.un i (nd a i).prod l) (.un i' (nd b i').prod l') = (i, i') :: visit l l' := by
            rw [visit.eq_def, if_neg (by simpa using hp)]; rfl
          have eterms : terms (.un i (nd a i).prod l) (.un i' (nd b i').prod l') = 0 := by
            rw [terms.eq_def, if_neg (by simpa using hp)]
          rw [evisit] at hv
          have hi' : i' ∉ l'.subs.map BTree.idx := by
            simp only [BTree.subs, List.map_cons, List.nodup_cons, idx_un] at hn; exact hn.1
          rw [extractat, eterms, evisit]
          simp only [idx_un, if_pos hr, setM_false, hl, hl', Int.toNat_natCast, if_neg hne]
          have key : ∀ u ∈ l.subs, ∀ v ∈ l'.subs, clear M [(i, i')] v.idx u.idx = M v.idx u.idx := by
            intro u _ v hvv
            have : v.idx ≠ i' := fun e => hi' (e ▸ idx_mem_of_sub hvv)
            simp [clear, this]
          by_cases hb : l.prod = l'.prod
          · have hbit : clear M [(i, i')] l'.idx l.idx = true := by
              rw [key _ (self_mem_subs _) _ (self_mem_subs _)]
              refine hv (l.idx, l'.idx) (List.mem_cons_of_mem _ ?_)
              rw [visit.eq_def, if_neg (by simpa using hb)]
              exact List.mem_cons_self
            rw [if_pos hbit, ih l' f _ _ h1 h1' (by simp only [BTree.subs, List.map_cons, List.nodup_cons] at hn; exact hn.2)
              (fun u hu v hv => hs u (by simp [BTree.subs, hu]) v (by simp [BTree.subs, hv])) hb (by simp [BTree.subs] at hf; omega) ?_ ?_]
            · simp only [clear_append, List.cons_append, List.nil_append]
              rfl
            · intro q hq
              have h2 := visit_snd l l' q hq
              have : q.2 ≠ i' := fun e => hi' (e ▸ h2.2)
              simp only [clear, List.mem_singleton]
              rw [hv q (List.mem_cons_of_mem _ hq)]
              simp [Prod.ext_iff, this]
            · intro u hu v hv' hM
              rw [key u hu v hv'] at hM
              exact hm u (by simp [BTree.subs, hu]) v (by simp [BTree.subs, hv']) hM
          · have hbit : ¬ clear M [(i, i')] l'.idx l.idx = true := by
              rw [key _ (self_mem_subs _) _ (self_mem_subs _)]
              exact fun h => hb (hm l (by simp [BTree.subs, self_mem_subs]) l' (by simp [BTree.subs, self_mem_subs]) h)
            rw [if_neg hbit, visit_ne hb]
            simp [mask]
  | bin i p l r ihl ihr =>
    intro y f M res hx hy hn hs hp hf hv hm
    obtain ⟨f, rfl⟩ : ∃ f', f = f' + 1 := ⟨f - 1, by simp [BTree.subs] at hf; omega⟩
    have har := hs _ (self_mem_subs _) _ (self_mem_subs _) hp
    cases y with
    | term => simp [BTree.arity] at har
    | un => simp [BTree.arity] at har
    | bin i' p' l' r' =>
      cases hx with
      | bin h hl hr h1 h2 =>
        cases hy with
        | bin h' hl' hr' h1' h2' =>
          have hne : ¬ ((l.idx : Int) < 0) := by omega
          have hne' : ¬ ((r.idx : Int) < 0) := by omega
          have evisit : visit (.bin i (nd a i).prod l r) (.bin i' (nd b i').prod l' r') = (i, i') :: (visit l l' ++ visit r r') := by
            rw [visit.eq_def, if_neg (by simpa using hp)]; rfl
          have eterms : terms (.bin i (nd a i).prod l r) (.bin i' (nd b i').prod l' r') = terms l l' + terms r r' := by
            rw [terms.eq_def, if_neg (by simpa using hp)]
          rw [evisit] at hv
          simp only [BTree.subs, List.map_cons, List.nodup_cons, idx_bin, List.map_append, List.nodup_append, List.mem_append, not_or] at hn
          obtain ⟨⟨hi1, hi2⟩, hnl, hnr, hd⟩ := hn
          have hs1 : Spec.SameArity l l' := fun u hu v hv => hs u (by simp [BTree.subs, hu]) v (by simp [BTree.subs, hv])
          have hs2 : Spec.SameArity r r' := fun u hu v hv => hs u (by simp [BTree.subs, hu]) v (by simp [BTree.subs, hv])
          rw [extractat, eterms, evisit]
          simp only [idx_bin, setM_false, hl, hl', hr, hr', Int.toNat_natCast, if_neg hne, if_neg hne']
          have key : ∀ u ∈ l.subs, ∀ v ∈ l'.subs, clear M [(i, i')] v.idx u.idx = M v.idx u.idx := by
            intro u _ v hvv
            have : v.idx ≠ i' := fun e => hi1 (e ▸ idx_mem_of_sub hvv)
            simp [clear, this]
          have key2 : ∀ (V : List (Nat × Nat)), (∀ q ∈ V, q.2 ∈ l'.subs.map BTree.idx) → ∀ u ∈ r.subs, ∀ v ∈ r'.subs,
              clear (clear M [(i, i')]) V v.idx u.idx = M v.idx u.idx := by
            intro V hV u _ v hvv
            have h3 : v.idx ≠ i' := fun e => hi2 (e ▸ idx_mem_of_sub hvv)
            have h4 : (u.idx, v.idx) ∉ V := fun e => hd _ (hV _ e) _ (idx_mem_of_sub hvv) rfl
            simp [clear, h3, h4]
          have step1 : (if clear M [(i, i')] l'.idx l.idx = true then extractat a b f l.idx l'.idx (clear M [(i, i')]) (res ||| 1 <<< i)
              else (0, clear M [(i, i')], res ||| 1 <<< i)) =
              (terms l l', clear (clear M [(i, i')]) (visit l l'), mask (res ||| 1 <<< i) ((visit l l').map Prod.fst)) := by
            by_cases hb : l.prod = l'.prod
            · have hbit : clear M [(i, i')] l'.idx l.idx = true := by
                rw [key _ (self_mem_subs _) _ (self_mem_subs _)]
                refine hv (l.idx, l'.idx) (List.mem_cons_of_mem _ (List.mem_append_left _ ?_))
                rw [visit.eq_def, if_neg (by simpa using hb)]
                exact List.mem_cons_self
              rw [if_pos hbit, ihl l' f _ _ h1 h1' hnl hs1 hb (by simp [BTree.subs] at hf; omega) ?_ ?_]
              · intro q hq
                have h2 := visit_snd l l' q hq
                have : q.2 ≠ i' := fun e => hi1 (e ▸ h2.2)
                simp only [clear, List.mem_singleton]
                rw [hv q (List.mem_cons_of_mem _ (List.mem_append_left _ hq))]
                simp [Prod.ext_iff, this]
              · intro u hu v hv' hM
                rw [key u hu v hv'] at hM
                exact hm u (by simp [BTree.subs, hu]) v (by simp [BTree.subs, hv']) hM
            · have hbit : ¬ clear M [(i, i')] l'.idx l.idx = true := by
                rw [key _ (self_mem_subs _) _ (self_mem_subs _)]
                exact fun h => hb (hm l (by simp [BTree.subs, self_mem_subs]) l' (by simp [BTree.subs, self_mem_subs]) h)
              have e0 : terms l l' = 0 := by rw [terms.eq_def, if_pos hb]
              rw [if_neg hbit, visit_ne hb, e0]
              simp [mask, clear_nil]
          rw [step1]
          simp only
          have hV : ∀ q ∈ visit l l', q.2 ∈ l'.subs.map BTree.idx := fun q hq => (visit_snd l l' q hq).2
          have step2 : (if clear (clear M [(i, i')]) (visit l l') r'.idx r.idx = true then
                extractat a b f r.idx r'.idx (clear (clear M [(i, i')]) (visit l l')) (mask (res ||| 1 <<< i) ((visit l l').map Prod.fst))
              else (0, clear (clear M [(i, i')]) (visit l l'), mask (res ||| 1 <<< i) ((visit l l').map Prod.fst))) =
              (terms r r', clear (clear (clear M [(i, i')]) (visit l l')) (visit r r'),
                mask (mask (res ||| 1 <<< i) ((visit l l').map Prod.fst)) ((visit r r').map Prod.fst)) := by
            by_cases hb : r.prod = r'.prod
            · have hbit : clear (clear M [(i, i')]) (visit l l') r'.idx r.idx = true := by
                rw [key2 _ hV _ (self_mem_subs _) _ (self_mem_subs _)]
                refine hv (r.idx, r'.idx) (List.mem_cons_of_mem _ (List.mem_append_right _ ?_))
                rw [visit.eq_def, if_neg (by simpa using hb)]
                exact List.mem_cons_self
              rw [if_pos hbit, ihr r' f _ _ h2 h2' hnr hs2 hb (by simp [BTree.subs] at hf; omega) ?_ ?_]
              · intro q hq
                have h2 := visit_snd r r' q hq
                have h3 : q.2 ≠ i' := fun e => hi2 (e ▸ h2.2)
                have h4 : (q.1, q.2) ∉ visit l l' := fun e => hd _ (hV _ e) _ h2.2 rfl
                simp only [clear, List.mem_singleton]
                rw [hv q (List.mem_cons_of_mem _ (List.mem_append_right _ hq))]
                simp [Prod.ext_iff, h3, h4]
              · intro u hu v hv' hM
                rw [key2 _ hV u hu v hv'] at hM
                exact hm u (by simp [BTree.subs, hu]) v (by simp [BTree.subs, hv']) hM
            · have hbit : ¬ clear (clear M [(i, i')]) (visit l l') r'.idx r.idx = true := by
                rw [key2 _ hV _ (self_mem_subs _) _ (self_mem_subs _)]
                exact fun h => hb (hm r (by simp [BTree.subs, self_mem_subs]) r' (by simp [BTree.subs, self_mem_subs]) h)
              have e0 : terms r r' = 0 := by rw [terms.eq_def, if_pos hb]
              rw [if_neg hbit, visit_ne hb, e0]
              simp [mask, clear_nil]
          rw [step2]
          simp only [clear_append, List.map_cons, List.map_append]
          refine congrArg _ (congrArg₂ _ ?_ ?_)
          · congr 1
          · rw [show i :: (List.map Prod.fst (visit l l') ++ List.map Prod.fst (visit r r')) = [i] ++ (List.map Prod.fst (visit l l') ++ List.map Prod.fst (visit r r')) from rfl,
              mask_append, mask_append]
            rfl

end Disco.Frag
