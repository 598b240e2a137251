import Verif.Eval.ZhangShasha
/-!
# C29, third part: `treedist` (treedist.py:139-204) equals the tree edit distance
-/
namespace Disco.Ted

variable {α : Type}

/-! ### Forests of consecutive nodes -/

/-- What is used about the leftmost descendents of the first `n` nodes in post-order: the nodes from `l k` to `k` form the subtree of `k`. -/
structure Nested (l : Nat → Nat) (n : Nat) : Prop where
  le : ∀ k, k < n → l k ≤ k
  nest : ∀ k, k < n → ∀ k', l k ≤ k' → k' ≤ k → l k ≤ l k'

/-- The forest made of the nodes `lo, ..., hi - 1`. -/
def build (lab : Nat → α) (l : Nat → Nat) (lo hi : Nat) : List (RT α) :=
  if _h : lo < hi ∧ l (hi - 1) < hi then
    build lab l lo (l (hi - 1)) ++ [.node (lab (hi - 1)) (build lab l (l (hi - 1)) (hi - 1))]
  else []
termination_by hi
decreasing_by all_goals omega

theorem build_self (lab : Nat → α) (l : Nat → Nat) (lo : Nat) : build lab l lo lo = [] := by
  rw [build]; simp

theorem build_succ (lab : Nat → α) (l : Nat → Nat) {lo k : Nat} (h : lo ≤ k) (hl : l k ≤ k) :
    build lab l lo (k + 1) = build lab l lo (l k) ++ [.node (lab k) (build lab l (l k) k)] := by
  rw [build]
  simp only [Nat.add_sub_cancel]
  rw [dif_pos ⟨by omega, by omega⟩]

theorem build_append (lab : Nat → α) (l : Nat → Nat) {lo m hi : Nat} (h1 : lo ≤ m) (h2 : m ≤ hi)
    (h : ∀ k, m ≤ k → k < hi → m ≤ l k ∧ l k ≤ k) : build lab l lo m ++ build lab l m hi = build lab l lo hi := by
  induction hi using Nat.strongRecOn with
  | _ hi ih =>
    rcases Nat.lt_or_ge m hi with h3 | h3
    · obtain ⟨k, rfl⟩ : ∃ k, hi = k + 1 := ⟨hi - 1, by omega⟩
      have := h k (by omega) (by omega)
      rw [build_succ lab l (by omega) this.2, build_succ lab l (by omega) this.2, ← List.append_assoc,
        ih (l k) (by omega) this.1 (fun k' h4 h5 => h k' h4 (by omega))]
    · have : m = hi := by omega
      subst this
      rw [build_self, List.append_nil]

section
variable [DecidableEq α] {lab1 lab2 : Nat → α} {l1 l2 : Nat → Nat} {n1 n2 : Nat}

/-- The distance of the forests `lo ..< x` and `lo' ..< y`. -/
def D (lab1 lab2 : Nat → α) (l1 l2 : Nat → Nat) (lo x lo' y : Nat) : Nat := dist (build lab1 l1 lo x) (build lab2 l2 lo' y)

/-- The distance of the subtrees of `p` and `q`. -/
def TD (lab1 lab2 : Nat → α) (l1 l2 : Nat → Nat) (p q : Nat) : Nat := D lab1 lab2 l1 l2 (l1 p) (p + 1) (l2 q) (q + 1)

omit [DecidableEq α] in
/-- Without the root of the last tree. -/
theorem build_flat (h : Nested l1 n1) {lo p : Nat} (hp : p < n1) (hlo : lo ≤ l1 p) :
    build lab1 l1 lo (l1 p) ++ build lab1 l1 (l1 p) p = build lab1 l1 lo p := by
  refine build_append lab1 l1 hlo (h.le p hp) fun k h1 h2 => ⟨h.nest p hp k h1 (by omega), h.le k (by omega)⟩

theorem D_col (h : Nested l1 n1) {lo p lo' : Nat} (hp : p < n1) (hlo : lo ≤ l1 p) :
    D lab1 lab2 l1 l2 lo (p + 1) lo' lo' = D lab1 lab2 l1 l2 lo p lo' lo' + 1 := by
  have := h.le p hp
  unfold D
  rw [build_succ lab1 l1 (by omega) this, build_self, d_del, children_node, build_flat h hp hlo]

theorem D_row (h : Nested l2 n2) {lo lo' q : Nat} (hq : q < n2) (hlo : lo' ≤ l2 q) :
    D lab1 lab2 l1 l2 lo lo lo' (q + 1) = D lab1 lab2 l1 l2 lo lo lo' q + 1 := by
  have := h.le q hq
  unfold D
  rw [build_succ lab2 l2 (by omega) this, build_self, d_ins, children_node, build_flat h hq hlo]

theorem D_both (h1 : Nested l1 n1) (h2 : Nested l2 n2) {lo p lo' q : Nat} (hp : p < n1) (hlo : lo ≤ l1 p) (hq : q < n2) (hlo' : lo' ≤ l2 q) :
    D lab1 lab2 l1 l2 lo (p + 1) lo' (q + 1) =
      min (min (D lab1 lab2 l1 l2 lo p lo' (q + 1) + 1) (D lab1 lab2 l1 l2 lo (p + 1) lo' q + 1))
        (D lab1 lab2 l1 l2 (l1 p) p (l2 q) q + D lab1 lab2 l1 l2 lo (l1 p) lo' (l2 q) + strdist (lab1 p) (lab2 q)) := by
  have a := h1.le p hp
  have b := h2.le q hq
  unfold D
  rw [build_succ lab1 l1 (by omega) a, build_succ lab2 l2 (by omega) b, d_both, children_node, children_node, build_flat h1 hp hlo,
    build_flat h2 hq hlo', label_node, label_node]

/-- Case of two whole subtrees (treedist.py:169-179). -/
theorem D_tree (h1 : Nested l1 n1) (h2 : Nested l2 n2) {lo p lo' q : Nat} (hp : p < n1) (hlo : lo = l1 p) (hq : q < n2) (hlo' : lo' = l2 q) :
    D lab1 lab2 l1 l2 lo (p + 1) lo' (q + 1) =
      min (min (D lab1 lab2 l1 l2 lo p lo' (q + 1) + 1) (D lab1 lab2 l1 l2 lo (p + 1) lo' q + 1))
        (D lab1 lab2 l1 l2 lo p lo' q + strdist (lab1 p) (lab2 q)) := by
  rw [D_both h1 h2 hp (by omega) hq (by omega)]
  subst hlo hlo'
  have : D lab1 lab2 l1 l2 (l1 p) (l1 p) (l2 q) (l2 q) = 0 := by unfold D; rw [build_self, build_self, d_nil]
  rw [this]; simp only [Nat.add_zero]

/-- Other case (treedist.py:180-192). -/
theorem D_forest (h1 : Nested l1 n1) (h2 : Nested l2 n2) {lo p lo' q : Nat} (hp : p < n1) (hlo : lo ≤ l1 p) (hq : q < n2) (hlo' : lo' ≤ l2 q) :
    D lab1 lab2 l1 l2 lo (p + 1) lo' (q + 1) =
      min (min (D lab1 lab2 l1 l2 lo p lo' (q + 1) + 1) (D lab1 lab2 l1 l2 lo (p + 1) lo' q + 1))
        (D lab1 lab2 l1 l2 lo (l1 p) lo' (l2 q) + TD lab1 lab2 l1 l2 p q) := by
  have a := h1.le p hp
  have b := h2.le q hq
  have e1 := D_both (lab1 := lab1) (lab2 := lab2) h1 h2 hp hlo hq hlo'
  have e2 : TD lab1 lab2 l1 l2 p q ≤ D lab1 lab2 l1 l2 (l1 p) p (l2 q) q + strdist (lab1 p) (lab2 q) := by
    unfold TD; rw [D_tree h1 h2 hp rfl hq rfl]; omega
  have e3 : D lab1 lab2 l1 l2 lo (p + 1) lo' (q + 1) ≤ D lab1 lab2 l1 l2 lo (l1 p) lo' (l2 q) + TD lab1 lab2 l1 l2 p q := by
    have := subadd (build lab1 l1 lo (l1 p)) (build lab1 l1 (l1 p) (p + 1)) (build lab2 l2 lo' (l2 q)) (build lab2 l2 (l2 q) (q + 1))
    unfold TD D
    rw [build_append lab1 l1 hlo (by omega), build_append lab2 l2 hlo' (by omega)] at this
    · exact this
    · intro k h3 h4; exact ⟨h2.nest q hq k h3 (by omega), h2.le k (by omega)⟩
    · intro k h3 h4; exact ⟨h1.nest p hp k h3 (by omega), h1.le k (by omega)⟩
  omega

end

/-! ### Loops -/

theorem fold_inv {σ : Type} (f : σ → Nat → σ) (P : Nat → σ → Prop) (s len : Nat) (init : σ) (h0 : P s init)
    (hs : ∀ x st, s ≤ x → x < s + len → P x st → P (x + 1) (f st x)) : P (s + len) ((List.range' s len).foldl f init) := by
  induction len generalizing s init with
  | zero => simpa using h0
  | succ len ih =>
    rw [List.range'_succ, List.foldl_cons]
    have := ih (s + 1) (f init s) (hs s init (Nat.le_refl _) (by omega) h0) (fun x st h1 h2 h3 => hs x st (by omega) (by omega) h3)
    rwa [show s + (len + 1) = s + 1 + len by omega]

theorem upd_same (f : Nat → Nat → Nat) (x y v : Nat) : upd f x y v x y = v := by simp [upd]
theorem upd_ne (f : Nat → Nat → Nat) {x y a b : Nat} (v : Nat) (h : ¬(a = x ∧ b = y)) : upd f x y v a b = f a b := by simp [upd, h]

theorem initTable_eq (m n : Nat) : (∀ x, x < m → initTable m n x 0 = x) ∧ (∀ y, y < n → initTable m n 0 y = y) := by
  have h1 : ∀ x, x < 1 + (m - 1) →
      (List.range' 1 (m - 1)).foldl (fun t x => upd t x 0 (t (x - 1) 0 + 1)) (fun _ _ => 0) x 0 = x := by
    refine fold_inv _ (fun k (t : Nat → Nat → Nat) => ∀ x, x < k → t x 0 = x) 1 (m - 1) _ (by intro x hx; show 0 = x; omega) ?_
    intro x t hx hx2 ih a ha
    by_cases e : a = x
    · subst e; rw [upd_same, ih (a - 1) (by omega)]; omega
    · rw [upd_ne _ _ (by omega)]; exact ih a (by omega)
  have h2 := fold_inv (fun (t : Nat → Nat → Nat) y => upd t 0 y (t 0 (y - 1) + 1))
    (fun k t => (∀ x, x < 1 + (m - 1) → t x 0 = x) ∧ ∀ y, y < k → t 0 y = y) 1 (n - 1)
    ((List.range' 1 (m - 1)).foldl (fun t x => upd t x 0 (t (x - 1) 0 + 1)) (fun _ _ => 0))
    ⟨h1, fun y hy => by have : y = 0 := by omega
                        subst this; exact h1 0 (by omega)⟩
    (by
      intro y t hy hy2 ⟨ih1, ih2⟩
      refine ⟨fun x hx => ?_, fun b hb => ?_⟩
      · rw [upd_ne _ _ (by omega)]; exact ih1 x hx
      · by_cases e : b = y
        · subst e; rw [upd_same, ih2 (b - 1) (by omega)]; omega
        · rw [upd_ne _ _ (by omega)]; exact ih2 b (by omega))
  exact ⟨fun x hx => h2.1 x (by omega), fun y hy => h2.2 y (by omega)⟩

section
variable [DecidableEq α] {lab1 lab2 : Nat → α} {l1 l2 : Nat → Nat} {ld : Nat → Nat → Nat} {n1 n2 : Nat}

/-- The cells before row `x`, and in row `x` before column `y`. -/
def Before (x y a b : Nat) : Prop := a < x ∨ (a = x ∧ b < y)

/-- Invariant of the loops over `x` and `y`. -/
structure CInv (lab1 lab2 : Nat → α) (l1 l2 : Nat → Nat) (i j : Nat) (td0 : Nat → Nat → Nat) (x y : Nat) (s : Tabs) : Prop where
  tab : ∀ a b, a ≤ i + 1 - l1 i → b ≤ j + 1 - l2 j → (a = 0 ∨ b = 0 ∨ Before x y a b) →
    s.table a b = D lab1 lab2 l1 l2 (l1 i) (l1 i + a) (l2 j) (l2 j + b)
  same : ∀ p q, ¬(l1 p = l1 i ∧ l2 q = l2 j) → s.td p q = td0 p q
  done : ∀ a b, 0 < a → 0 < b → a ≤ i + 1 - l1 i → b ≤ j + 1 - l2 j → Before x y a b → l1 (a - 1 + l1 i) = l1 i → l2 (b - 1 + l2 j) = l2 j →
    s.td (a - 1 + l1 i) (b - 1 + l2 j) = TD lab1 lab2 l1 l2 (a - 1 + l1 i) (b - 1 + l2 j)

theorem cell_inv (h1 : Nested l1 n1) (h2 : Nested l2 n2) (hld : ∀ p q, p < n1 → q < n2 → ld p q = strdist (lab1 p) (lab2 q))
    {i j : Nat} (hi : i < n1) (hj : j < n2) {td0 : Nat → Nat → Nat}
    (htd : ∀ p q, l1 i ≤ p → p ≤ i → l2 j ≤ q → q ≤ j → ¬(l1 p = l1 i ∧ l2 q = l2 j) → td0 p q = TD lab1 lab2 l1 l2 p q)
    {x y : Nat} {s : Tabs} (hx : 1 ≤ x) (hx2 : x ≤ i + 1 - l1 i) (hy : 1 ≤ y) (hy2 : y ≤ j + 1 - l2 j)
    (h : CInv lab1 lab2 l1 l2 i j td0 x y s) : CInv lab1 lab2 l1 l2 i j td0 x (y + 1) (cell l1 l2 ld i j s x y) := by
  have hli := h1.le i hi
  have hlj := h2.le j hj
  obtain ⟨p, hp⟩ : ∃ p, p = x - 1 + l1 i := ⟨_, rfl⟩
  obtain ⟨q, hq⟩ : ∃ q, q = y - 1 + l2 j := ⟨_, rfl⟩
  have hpi : p ≤ i := by omega
  have hqj : q ≤ j := by omega
  have hlp : l1 i ≤ l1 p := h1.nest i hi p (by omega) hpi
  have hlq : l2 j ≤ l2 q := h2.nest j hj q (by omega) hqj
  have hpp := h1.le p (by omega)
  have hqq := h2.le q (by omega)
  have ex : l1 i + x = p + 1 := by omega
  have ey : l2 j + y = q + 1 := by omega
  have t1 : s.table (x - 1) y = D lab1 lab2 l1 l2 (l1 i) p (l2 j) (q + 1) := by
    rw [h.tab _ _ (by omega) (by omega) (by unfold Before; omega), ey, show l1 i + (x - 1) = p by omega]
  have t2 : s.table x (y - 1) = D lab1 lab2 l1 l2 (l1 i) (p + 1) (l2 j) q := by
    rw [h.tab _ _ (by omega) (by omega) (by unfold Before; omega), ex, show l2 j + (y - 1) = q by omega]
  have t3 : s.table (x - 1) (y - 1) = D lab1 lab2 l1 l2 (l1 i) p (l2 j) q := by
    rw [h.tab _ _ (by omega) (by omega) (by unfold Before; omega), show l1 i + (x - 1) = p by omega, show l2 j + (y - 1) = q by omega]
  have t4 : s.table (l1 p - l1 i) (l2 q - l2 j) = D lab1 lab2 l1 l2 (l1 i) (l1 p) (l2 j) (l2 q) := by
    rw [h.tab _ _ (by omega) (by omega) (by unfold Before; omega), show l1 i + (l1 p - l1 i) = l1 p by omega,
      show l2 j + (l2 q - l2 j) = l2 q by omega]
  have key : ∀ (v : Nat) (td : Nat → Nat → Nat), v = D lab1 lab2 l1 l2 (l1 i) (p + 1) (l2 j) (q + 1) →
      (∀ p' q', ¬(l1 p' = l1 i ∧ l2 q' = l2 j) → td p' q' = s.td p' q') → (∀ p' q', ¬(p' = p ∧ q' = q) → td p' q' = s.td p' q') →
      (l1 p = l1 i → l2 q = l2 j → td p q = v) → CInv lab1 lab2 l1 l2 i j td0 x (y + 1) ⟨upd s.table x y v, td⟩ := by
    intro v td hv k1 k2 k3
    refine ⟨?_, ?_, ?_⟩
    · intro a b ha hb hc
      by_cases e : a = x ∧ b = y
      · obtain ⟨rfl, rfl⟩ := e
        simp only [upd_same]
        rw [hv, ex, ey]
      · simp only [upd_ne _ _ e]
        exact h.tab a b ha hb (by unfold Before at hc ⊢; omega)
    · intro p' q' hne
      show td p' q' = td0 p' q'
      rw [k1 p' q' hne]; exact h.same p' q' hne
    · intro a b ha hb ha2 hb2 hc e1 e2
      by_cases e : a = x ∧ b = y
      · obtain ⟨rfl, rfl⟩ := e
        rw [← hp] at e1 ⊢
        rw [← hq] at e2 ⊢
        simp only
        rw [k3 e1 e2, hv, TD, e1, e2]
      · have : ¬(a - 1 + l1 i = p ∧ b - 1 + l2 j = q) := by omega
        simp only
        rw [k2 _ _ this]
        exact h.done a b ha hb ha2 hb2 (by unfold Before at hc ⊢; omega) e1 e2
  unfold cell
  simp only [← hp, ← hq]
  split
  · next e =>
    refine key _ _ ?_ ?_ ?_ ?_
    · rw [t1, t2, t3, hld p q (by omega) (by omega)]
      exact (D_tree h1 h2 (by omega) e.1 (by omega) e.2).symm
    · intro p' q' hne
      refine upd_ne _ _ fun ⟨e1, e2⟩ => hne ⟨?_, ?_⟩
      · rw [e1]; exact e.1.symm
      · rw [e2]; exact e.2.symm
    · intro p' q' hne; exact upd_ne _ _ hne
    · intro _ _; exact upd_same _ _ _ _
  · next e =>
    refine key _ _ ?_ (fun _ _ _ => rfl) (fun _ _ _ => rfl) ?_
    · have e' : ¬(l1 p = l1 i ∧ l2 q = l2 j) := by omega
      rw [t1, t2, t4, h.same p q e', htd p q (by omega) hpi (by omega) hqj e']
      exact (D_forest h1 h2 (by omega) hlp (by omega) hlq).symm
    · intro e1 e2; exact absurd ⟨e1.symm, e2.symm⟩ e

theorem D_init (h1 : Nested l1 n1) (h2 : Nested l2 n2) {i j : Nat} (hi : i < n1) (hj : j < n2) :
    (∀ x, x ≤ i + 1 - l1 i → D lab1 lab2 l1 l2 (l1 i) (l1 i + x) (l2 j) (l2 j) = x) ∧
    (∀ y, y ≤ j + 1 - l2 j → D lab1 lab2 l1 l2 (l1 i) (l1 i) (l2 j) (l2 j + y) = y) := by
  have h0 : D lab1 lab2 l1 l2 (l1 i) (l1 i) (l2 j) (l2 j) = 0 := by unfold D; rw [build_self, build_self, d_nil]
  have hli := h1.le i hi
  have hlj := h2.le j hj
  constructor
  · intro x hx
    induction x with
    | zero => exact h0
    | succ x ih =>
      rw [← Nat.add_assoc, D_col h1 (by omega) (h1.nest i hi _ (by omega) (by omega)), ih (by omega)]
  · intro y hy
    induction y with
    | zero => exact h0
    | succ y ih =>
      rw [← Nat.add_assoc, D_row h2 (by omega) (h2.nest j hj _ (by omega) (by omega)), ih (by omega)]

theorem keypair_inv (h1 : Nested l1 n1) (h2 : Nested l2 n2) (hld : ∀ p q, p < n1 → q < n2 → ld p q = strdist (lab1 p) (lab2 q))
    {i j : Nat} (hi : i < n1) (hj : j < n2) {td0 : Nat → Nat → Nat}
    (htd : ∀ p q, l1 i ≤ p → p ≤ i → l2 j ≤ q → q ≤ j → ¬(l1 p = l1 i ∧ l2 q = l2 j) → td0 p q = TD lab1 lab2 l1 l2 p q) :
    (∀ p q, ¬(l1 p = l1 i ∧ l2 q = l2 j) → keypair l1 l2 ld i j td0 p q = td0 p q) ∧
    (∀ p q, l1 i ≤ p → p ≤ i → l2 j ≤ q → q ≤ j → l1 p = l1 i → l2 q = l2 j → keypair l1 l2 ld i j td0 p q = TD lab1 lab2 l1 l2 p q) := by
  have hli := h1.le i hi
  have hlj := h2.le j hj
  have em : i - l1 i + 2 - 1 = i + 1 - l1 i := by omega
  have en : j - l2 j + 2 - 1 = j + 1 - l2 j := by omega
  have hinit : CInv lab1 lab2 l1 l2 i j td0 1 1 ⟨initTable (i - l1 i + 2) (j - l2 j + 2), td0⟩ := by
    have hd := D_init (lab1 := lab1) (lab2 := lab2) h1 h2 hi hj
    have ht := initTable_eq (i - l1 i + 2) (j - l2 j + 2)
    refine ⟨?_, fun _ _ _ => rfl, ?_⟩
    · intro a b ha hb hc
      rcases (by unfold Before at hc; omega : a = 0 ∨ b = 0) with rfl | rfl
      · simp only [Nat.add_zero]; rw [ht.2 b (by omega), hd.2 b hb]
      · simp only [Nat.add_zero]; rw [ht.1 a (by omega), hd.1 a ha]
    · intro a b ha hb _ _ hc
      unfold Before at hc; omega
  have hfin := fold_inv
    (fun s x => (List.range' 1 (j - l2 j + 2 - 1)).foldl (fun s y => cell l1 l2 ld i j s x y) s)
    (fun x s => CInv lab1 lab2 l1 l2 i j td0 x 1 s) 1 (i - l1 i + 2 - 1) _ hinit (by
      intro x s hx hx2 hs
      have hrow := fold_inv (fun s y => cell l1 l2 ld i j s x y) (fun y s => CInv lab1 lab2 l1 l2 i j td0 x y s) 1 (j - l2 j + 2 - 1) s hs
        (by
          intro y s' hy hy2 hs'
          exact cell_inv h1 h2 hld hi hj htd hx (by omega) hy (by omega) hs')
      refine ⟨?_, hrow.same, ?_⟩
      · intro a b ha hb hc
        exact hrow.tab a b ha hb (by unfold Before at hc ⊢; omega)
      · intro a b ha hb ha2 hb2 hc
        exact hrow.done a b ha hb ha2 hb2 (by unfold Before at hc ⊢; omega))
  refine ⟨hfin.same, ?_⟩
  intro p q hp hpi hq hqj e1 e2
  have := hfin.done (p + 1 - l1 i) (q + 1 - l2 j) (by omega) (by omega) (by omega) (by omega) (by unfold Before; omega)
  rw [show p + 1 - l1 i - 1 + l1 i = p by omega, show q + 1 - l2 j - 1 + l2 j = q by omega] at this
  exact this e1 e2

/-- The key roots of the first `n` nodes. -/
structure KeyRoots (l : Nat → Nat) (n : Nat) (kr : List Nat) : Prop where
  sorted : kr.Pairwise (· < ·)
  lt : ∀ k ∈ kr, k < n
  last : ∀ k ∈ kr, ∀ k', k' < n → l k' = l k → k' ≤ k
  all : ∀ p, p < n → ∃ k ∈ kr, l k = l p

theorem KeyRoots.before {l : Nat → Nat} {n : Nat} {kr : List Nat} (h : KeyRoots l n kr) (hn : Nested l n) {i p : Nat} (hi : i ∈ kr)
    (hp : l i ≤ p) (hpi : p ≤ i) (hne : l p ≠ l i) {A B : List Nat} (e : kr = A ++ i :: B) : ∃ k ∈ A, l k = l p := by
  have hin := h.lt i hi
  obtain ⟨k, hk, hkl⟩ := h.all p (by omega)
  have hpk : p ≤ k := h.last k hk p (by omega) hkl.symm
  have hkn := h.lt k hk
  have hki : k < i := by
    have h1 := hn.nest i hin p hp hpi
    have h2 := hn.le p (by omega)
    rcases Nat.lt_trichotomy k i with h3 | h3 | h3
    · exact h3
    · subst h3; exact absurd hkl.symm hne
    · have := hn.nest k hkn i (by omega) (by omega); omega
  have hs := h.sorted
  rw [e] at hk hs
  rcases List.mem_append.1 hk with h4 | h4
  · exact ⟨k, h4, hkl⟩
  · rcases List.mem_cons.1 h4 with h5 | h5
    · omega
    · have := (List.pairwise_cons.1 (List.pairwise_append.1 hs).2.1).1 k h5
      omega

/-- A loop over a list, with what was seen before. -/
theorem foldl_split {σ β : Type} (f : σ → β → σ) (P : List β → σ → Prop) (xs : List β) (init : σ) (h0 : P [] init)
    (hs : ∀ A x B st, xs = A ++ x :: B → P A st → P (A ++ [x]) (f st x)) : P xs (xs.foldl f init) := by
  have : ∀ (B A : List β) (st : σ), xs = A ++ B → P A st → P xs (B.foldl f st) := by
    intro B
    induction B with
    | nil => intro A st e h; simp at e; rw [e]; exact h
    | cons x B ih =>
      intro A st e h
      exact ih (A ++ [x]) (f st x) (by simp [e]) (hs A x B st e h)
  exact this xs [] init (by simp) h0

theorem treedists_inv (h1 : Nested l1 n1) (h2 : Nested l2 n2) (hld : ∀ p q, p < n1 → q < n2 → ld p q = strdist (lab1 p) (lab2 q))
    {kr1 kr2 : List Nat} (k1 : KeyRoots l1 n1 kr1) (k2 : KeyRoots l2 n2 kr2) {p q : Nat} (hp : p < n1) (hq : q < n2) :
    treedists l1 l2 ld kr1 kr2 p q = TD lab1 lab2 l1 l2 p q := by
  have main := foldl_split (fun td i => kr2.foldl (fun td j => keypair l1 l2 ld i j td) td)
    (fun A td => ∀ p q, p < n1 → q < n2 → (∃ i ∈ A, l1 i = l1 p) → td p q = TD lab1 lab2 l1 l2 p q) kr1 (fun _ _ => 0)
    (by simp) (by
      intro A i B td e ih
      have hik : i ∈ kr1 := by rw [e]; simp
      have hi := k1.lt i hik
      have inner := foldl_split (fun td j => keypair l1 l2 ld i j td)
        (fun C td => ∀ p q, p < n1 → q < n2 → ((∃ i ∈ A, l1 i = l1 p) ∨ (l1 i = l1 p ∧ ∃ j ∈ C, l2 j = l2 q)) → td p q = TD lab1 lab2 l1 l2 p q) kr2 td
        (by intro p q hp hq h; rcases h with h | h
            · exact ih p q hp hq h
            · simp at h)
        (by
          intro C j E td' e' ih'
          have hjk : j ∈ kr2 := by rw [e']; simp
          have hj := k2.lt j hjk
          have htd : ∀ p q, l1 i ≤ p → p ≤ i → l2 j ≤ q → q ≤ j → ¬(l1 p = l1 i ∧ l2 q = l2 j) → td' p q = TD lab1 lab2 l1 l2 p q := by
            intro p q a1 a2 a3 a4 hne
            refine ih' p q (by omega) (by omega) ?_
            by_cases ep : l1 p = l1 i
            · exact .inr ⟨ep.symm, k2.before h2 hjk a3 a4 (fun eq => hne ⟨ep, eq⟩) e'⟩
            · exact .inl (k1.before h1 hik a1 a2 ep e)
          obtain ⟨r1, r2⟩ := keypair_inv h1 h2 hld hi hj htd
          intro p q hp hq h
          by_cases eb : l1 p = l1 i ∧ l2 q = l2 j
          · have b1 := h1.le p hp
            have b2 := h2.le q hq
            exact r2 p q (by omega) (k1.last i hik p hp eb.1) (by omega) (k2.last j hjk q hq eb.2) eb.1 eb.2
          · rw [r1 p q eb]
            refine ih' p q hp hq ?_
            rcases h with h | ⟨ea, j', hj', hj2⟩
            · exact .inl h
            · refine .inr ⟨ea, ?_⟩
              rcases List.mem_append.1 hj' with h3 | h3
              · exact ⟨j', h3, hj2⟩
              · simp at h3; subst h3; exact absurd ⟨ea.symm, hj2.symm⟩ eb)
      intro p q hp hq h
      refine inner p q hp hq ?_
      obtain ⟨i', hi', hi2⟩ := h
      rcases List.mem_append.1 hi' with h3 | h3
      · exact .inl ⟨i', h3, hi2⟩
      · simp at h3; subst h3; exact .inr ⟨hi2, k2.all q hq⟩)
  exact main p q hp hq (k1.all p hp)

end

/-! ### The arrays of a tree -/

@[simp] theorem postF_append (F G : List (RT α)) : Spec.postF (F ++ G) = Spec.postF F ++ Spec.postF G := by
  induction F with
  | nil => simp [Spec.postF]
  | cons t ts ih => simp [Spec.postF, ih]
@[simp] theorem lmdF_append (F G : List (RT α)) (i : Nat) : Spec.lmdF (F ++ G) i = Spec.lmdF F i ++ Spec.lmdF G (i + sizeF F) := by
  induction F generalizing i with
  | nil => simp [Spec.lmdF]
  | cons t ts ih => simp [Spec.lmdF, ih, Nat.add_assoc]
theorem postF_one (t : RT α) : Spec.postF [t] = Spec.postF t.children ++ [t] := by cases t; simp [Spec.postF, Spec.post]
theorem lmdF_one (t : RT α) (i : Nat) : Spec.lmdF [t] i = Spec.lmdF t.children i ++ [i] := by cases t; simp [Spec.lmdF, Spec.lmd]

theorem postF_length (F : List (RT α)) : (Spec.postF F).length = sizeF F := by
  generalize hn : sizeF F = n
  induction n using Nat.strongRecOn generalizing F with
  | _ n ih =>
    rcases snoc_cases F with rfl | ⟨F0, v, rfl⟩
    · simpa [Spec.postF] using hn
    · simp [size_eq] at hn
      rw [postF_append, postF_one]
      have h1 := ih _ (by omega) F0 rfl
      have h2 := ih _ (by omega) v.children rfl
      simp [h1, h2]; omega
theorem lmdF_length (F : List (RT α)) (i : Nat) : (Spec.lmdF F i).length = sizeF F := by
  generalize hn : sizeF F = n
  induction n using Nat.strongRecOn generalizing F i with
  | _ n ih =>
    rcases snoc_cases F with rfl | ⟨F0, v, rfl⟩
    · simpa [Spec.lmdF] using hn
    · simp [size_eq] at hn
      rw [lmdF_append, lmdF_one]
      have h1 := ih _ (by omega) F0 i rfl
      have h2 := ih _ (by omega) v.children (i + sizeF F0) rfl
      simp [h1, h2]; omega

/-- The arrays contain the forest at offset `i`. -/
def Agree (lab : Nat → α) (l : Nat → Nat) (F : List (RT α)) (i : Nat) : Prop :=
  ∀ k, k < sizeF F → (Spec.postF F)[k]?.map RT.label = some (lab (i + k)) ∧ (Spec.lmdF F i)[k]? = some (l (i + k))

theorem get_shift {β : Type} {A B : List β} {a : Nat} (h : A.length = a) (k : Nat) : (A ++ B)[a + k]? = B[k]? := by
  rw [List.getElem?_append_right (by omega)]; congr 1; omega

theorem Agree.split {lab : Nat → α} {l : Nat → Nat} {F0 : List (RT α)} {v : RT α} {i : Nat} (h : Agree lab l (F0 ++ [v]) i) :
    Agree lab l F0 i ∧ Agree lab l v.children (i + sizeF F0) ∧ lab (i + sizeF F0 + sizeF v.children) = v.label ∧
      l (i + sizeF F0 + sizeF v.children) = i + sizeF F0 := by
  unfold Agree at h
  rw [postF_append, lmdF_append, postF_one, lmdF_one] at h
  simp only [sizeF_append, sizeF_cons, sizeF_nil, size_eq, Nat.add_zero] at h
  have p0 := postF_length F0
  have p1 := postF_length v.children
  have m0 := lmdF_length F0 i
  have m1 := lmdF_length v.children (i + sizeF F0)
  refine ⟨?_, ?_, ?_⟩
  · intro k hk
    have := h k (by omega)
    rw [List.getElem?_append_left (by omega), List.getElem?_append_left (by omega)] at this
    exact this
  · intro k hk
    have := h (sizeF F0 + k) (by omega)
    rw [get_shift p0, get_shift m0, List.getElem?_append_left (by omega), List.getElem?_append_left (by omega)] at this
    rw [Nat.add_assoc]; exact this
  · have := h (sizeF F0 + sizeF v.children) (by omega)
    rw [get_shift p0, get_shift m0] at this
    have q1 := get_shift (B := [v]) p1 0
    have q2 := get_shift (B := [i + sizeF F0]) m1 0
    rw [Nat.add_zero] at q1 q2
    rw [q1, q2] at this
    simp at this
    rw [Nat.add_assoc]
    exact ⟨this.1.symm, this.2.symm⟩

theorem build_agree {lab : Nat → α} {l : Nat → Nat} {F : List (RT α)} {i : Nat} (h : Agree lab l F i) :
    build lab l i (i + sizeF F) = F ∧ ∀ k, i ≤ k → k < i + sizeF F → i ≤ l k ∧ l k ≤ k ∧ ∀ k', l k ≤ k' → k' ≤ k → l k ≤ l k' := by
  generalize hn : sizeF F = n
  induction n using Nat.strongRecOn generalizing F i with
  | _ n ih =>
    rcases snoc_cases F with rfl | ⟨F0, v, rfl⟩
    · simp at hn; subst hn
      exact ⟨build_self _ _ _, fun k h1 h2 => by omega⟩
    · obtain ⟨a, b, c, d⟩ := h.split
      simp [size_eq] at hn
      obtain ⟨a1, a2⟩ := ih _ (by omega) a rfl
      obtain ⟨b1, b2⟩ := ih _ (by omega) b rfl
      constructor
      · rw [show i + n = i + sizeF F0 + sizeF v.children + 1 by omega, build_succ lab l (by omega) (by omega), d, c, a1, b1]
        cases v; rfl
      · intro k h1 h2
        rcases Nat.lt_or_ge k (i + sizeF F0) with h3 | h3
        · exact a2 k h1 h3
        · rcases Nat.lt_or_ge k (i + sizeF F0 + sizeF v.children) with h4 | h4
          · obtain ⟨e1, e2, e3⟩ := b2 k h3 h4
            exact ⟨by omega, e2, e3⟩
          · have : k = i + sizeF F0 + sizeF v.children := by omega
            subst this
            rw [d]
            refine ⟨by omega, by omega, fun k' h5 h6 => ?_⟩
            rcases Nat.lt_or_ge k' (i + sizeF F0 + sizeF v.children) with h7 | h7
            · exact (b2 k' h5 h7).1
            · have : k' = i + sizeF F0 + sizeF v.children := by omega
              rw [this, d]

theorem post_eq (t : RT α) : Spec.post t = Spec.postF [t] := by simp [Spec.postF]
theorem lmd_eq (t : RT α) (i : Nat) : Spec.lmd t i = Spec.lmdF [t] i := by simp [Spec.lmdF]

/-- The arrays of one tree have the properties used by the loops. -/
theorem arrays (t : RT α) (a : Annotated α) (hn : a.nodes = Spec.post t) (hl : a.lmds = Spec.lmd t 0) (hs : a.keyroots.Pairwise (· < ·))
    (hk : ∀ k, k ∈ a.keyroots ↔ Spec.IsKeyroot a.lmds k) :
    ∃ lab : Nat → α, (∀ k, k < size t → a.nodes[k]?.map RT.label = some (lab k)) ∧ a.nodes.length = size t ∧
      Nested (fun k => a.lmds[k]?.getD 0) (size t) ∧ KeyRoots (fun k => a.lmds[k]?.getD 0) (size t) a.keyroots ∧
      build lab (fun k => a.lmds[k]?.getD 0) 0 (size t) = [t] ∧ (a.lmds[size t - 1]?).getD 0 = 0 := by
  have len1 : a.nodes.length = size t := by rw [hn, post_eq, postF_length]; simp
  have len2 : a.lmds.length = size t := by rw [hl, lmd_eq, lmdF_length]; simp
  have hag : Agree (fun k => (a.nodes[k]?.map RT.label).getD t.label) (fun k => a.lmds[k]?.getD 0) [t] 0 := by
    intro k hk
    simp at hk
    rw [← post_eq, ← lmd_eq, ← hn, ← hl]
    have e1 : a.nodes[k]? = some (a.nodes[k]'(by omega)) := List.getElem?_eq_getElem (by omega)
    have e2 : a.lmds[k]? = some (a.lmds[k]'(by omega)) := List.getElem?_eq_getElem (by omega)
    simp [e1, e2]
  obtain ⟨b1, b2⟩ := build_agree hag
  simp only [sizeF_cons, sizeF_nil, Nat.add_zero, Nat.zero_add] at b1 b2
  refine ⟨_, ?_, len1, ⟨fun k h => (b2 k (by omega) h).2.1, fun k h => (b2 k (by omega) h).2.2⟩, ?_, b1, ?_⟩
  · intro k hk
    have e1 : a.nodes[k]? = some (a.nodes[k]'(by omega)) := List.getElem?_eq_getElem (by omega)
    simp [e1]
  · have get : ∀ k, k < size t → a.lmds[k]? = some (a.lmds[k]?.getD 0) := by
      intro k hk
      have e2 : a.lmds[k]? = some (a.lmds[k]'(by omega)) := List.getElem?_eq_getElem (by omega)
      simp [e2]
    refine ⟨hs, ?_, ?_, ?_⟩
    · intro k h
      obtain ⟨m, h1, _⟩ := (hk k).1 h
      have := (List.getElem?_eq_some_iff.1 h1).1
      omega
    · intro k h k' hk' e
      obtain ⟨m, h1, h2⟩ := (hk k).1 h
      rcases Nat.lt_or_ge k k' with h3 | h3
      · refine absurd ?_ (h2 k' h3)
        rw [get k' hk', e, h1]; rfl
      · exact h3
    · intro p hp
      -- the last node with the same leftmost leaf
      have : ∀ d, ∀ p, p < size t → size t - p ≤ d → ∃ k ∈ a.keyroots, a.lmds[k]?.getD 0 = a.lmds[p]?.getD 0 := by
        intro d
        induction d with
        | zero => intro p hp h; omega
        | succ d ih =>
          intro p hp h
          by_cases hlast : ∃ k', p < k' ∧ a.lmds[k']? = some (a.lmds[p]?.getD 0)
          · obtain ⟨k', h1, h2⟩ := hlast
            have hk' : k' < size t := by have := (List.getElem?_eq_some_iff.1 h2).1; omega
            obtain ⟨k, h3, h4⟩ := ih k' hk' (by omega)
            exact ⟨k, h3, by rw [h4, h2]; rfl⟩
          · refine ⟨p, (hk p).2 ⟨_, get p hp, fun k' h1 h2 => hlast ⟨k', h1, h2⟩⟩, rfl⟩
      exact this _ p hp (Nat.le_refl _)
  · obtain ⟨_, _, _, d⟩ := Agree.split (F0 := []) (v := t) (by simpa using hag)
    simp only [Nat.zero_add, sizeF_nil] at d
    rw [size_eq]; exact d

/-- **C29** `treedist` does not fail and returns the tree edit distance of the two (prepared) trees: that many edit operations turn the one into
the other, and fewer do not. -/
theorem C29_treedist [DecidableEq α] (t1 t2 : RT α) : ∃ d, treedist t1 t2 = some d ∧ Spec.IsDistance [t1] [t2] d := by
  obtain ⟨a, ha, a1, a2, a3, a4⟩ := C29_annotated t1
  obtain ⟨b, hb, b1, b2, b3, b4⟩ := C29_annotated t2
  obtain ⟨lab1, x1, x2, x3, x4, x5, x6⟩ := arrays t1 a a1 a2 a3 a4
  obtain ⟨lab2, y1, y2, y3, y4, y5, y6⟩ := arrays t2 b b1 b2 b3 b4
  have s1 : 0 < size t1 := by rw [size_eq]; omega
  have s2 : 0 < size t2 := by rw [size_eq]; omega
  have hld : ∀ p q, p < size t1 → q < size t2 → labeldist a.nodes b.nodes p q = strdist (lab1 p) (lab2 q) := by
    intro p q hp hq
    unfold labeldist
    rw [x1 p hp, y1 q hq]; simp [strdist]
  have := treedists_inv (lab1 := lab1) (lab2 := lab2) x3 y3 hld x4 y4 (p := size t1 - 1) (q := size t2 - 1) (by omega) (by omega)
  refine ⟨_, by simp [treedist, ha, hb]; rfl, ?_⟩
  rw [x2, y2, this]
  have e : TD lab1 lab2 (fun k => a.lmds[k]?.getD 0) (fun k => b.lmds[k]?.getD 0) (size t1 - 1) (size t2 - 1) = dist [t1] [t2] := by
    unfold TD D
    simp only [x6, y6]
    rw [show size t1 - 1 + 1 = size t1 by omega, show size t2 - 1 + 1 = size t2 by omega, x5, y5]
  rw [e]
  exact ⟨reach _ _, fun _ h => lower h⟩

/-- `newtreedist` (treedist.py:207-223) on prepared trees: identifiers are only used in the debug output. -/
def newtreedist [DecidableEq α] (t1 t2 : RT α) : Nat := (geteditstats [t1] [t2]).dist

/-- **C29** The two implementations always agree. -/
theorem C29_agree [DecidableEq α] (t1 t2 : RT α) : treedist t1 t2 = some (newtreedist t1 t2) := by
  obtain ⟨d, h, hd⟩ := C29_treedist t1 t2
  rw [h]; exact congrArg some (hd.unique (C29_geteditstats [t1] [t2]))

end Disco.Ted
