import Verif.Parse.Inside
/-!
# C55: outside probabilities
-/
set_option linter.unusedSectionVars false
namespace Disco.Inside

variable {ι : Type} [DecidableEq ι] {K : Type} [CommRing K]

/-! ### Contexts -/

/-- A derivation with a hole; the parent of the hole comes first. -/
inductive Ctx (ι : Type) where
  | hole
  | un (i : ι) (k : Nat) (c : Ctx ι)
  | left (i : ι) (k : Nat) (c : Ctx ι) (e : Deriv ι)
  | right (i : ι) (k : Nat) (d : Deriv ι) (c : Ctx ι)

/-- The parent of the hole and its edge. -/
def Ctx.parent : Ctx ι → Option (ι × Nat)
  | .hole => none
  | .un i k _ => some (i, k)
  | .left i k _ _ => some (i, k)
  | .right i k _ _ => some (i, k)

/-- Fill the hole. -/
def Ctx.plug : Ctx ι → Deriv ι → Deriv ι
  | .hole, d => d
  | .un i k c, d => c.plug (.un i k d)
  | .left i k c e, d => c.plug (.bin i k d e)
  | .right i k d' c, d => c.plug (.bin i k d' d)

/-- Contexts in the forest, and their probability. -/
inductive CDer (F : Forest ι K) (root : ι) : ι → Ctx ι → K → Prop
  | hole : CDer F root root .hole 1
  | un {i l : ι} {k : Nat} {p q : K} {c : Ctx ι} : CDer F root i c q → (F i)[k]? = some (.un p l) → CDer F root l (.un i k c) (p * q)
  | left {i l r : ι} {k : Nat} {p q s : K} {c : Ctx ι} {e : Deriv ι} : CDer F root i c q → (F i)[k]? = some (.bin p l r) → Spec.Derives F r e s →
      CDer F root l (.left i k c e) (p * s * q)
  | right {i l r : ι} {k : Nat} {p q s : K} {c : Ctx ι} {d : Deriv ι} : CDer F root i c q → (F i)[k]? = some (.bin p l r) → Spec.Derives F l d s →
      CDer F root r (.right i k d c) (p * s * q)

theorem cder_prob {F : Forest ι K} {root i j : ι} {c : Ctx ι} {q s : K} (h : CDer F root i c q) (h' : CDer F root j c s) : i = j ∧ q = s := by
  induction h generalizing j s with
  | hole => cases h'; exact ⟨rfl, rfl⟩
  | un h1 h2 ih =>
    cases h' with
    | un g1 g2 => rw [h2, Option.some.injEq] at g2; cases g2; exact ⟨rfl, by rw [(ih g1).2]⟩
  | left h1 h2 h3 ih =>
    cases h' with
    | left g1 g2 g3 => rw [h2, Option.some.injEq] at g2; cases g2; exact ⟨rfl, by rw [(ih g1).2, (derives_prob h3 g3).2]⟩
  | right h1 h2 h3 ih =>
    cases h' with
    | right g1 g2 g3 => rw [h2, Option.some.injEq] at g2; cases g2; exact ⟨rfl, by rw [(ih g1).2, (derives_prob h3 g3).2]⟩

/-- A list of all contexts for which the last step has a property. -/
def EnC (F : Forest ι K) (root : ι) (P : ι → Nat → Prop) (j : ι) (L : List (Ctx ι × K)) : Prop :=
  L.Nodup ∧ ∀ c q, (c, q) ∈ L ↔ CDer F root j c q ∧ ∀ i k, c.parent = some (i, k) → P i k

theorem nodup_pairs {α β : Type} {g : α → β → Ctx ι} (hg : ∀ a b a' b', g a b = g a' b' → a = a' ∧ b = b') {A : List (α × K)} {B : List (β × K)} {w : K → K → K}
    (hA : A.Nodup) (hA' : ∀ a x y, (a, x) ∈ A → (a, y) ∈ A → x = y) (hB : B.Nodup) (hB' : ∀ b x y, (b, x) ∈ B → (b, y) ∈ B → x = y) :
    (A.flatMap fun x => B.map fun y => (g x.1 y.1, w x.2 y.2)).Nodup := by
  rw [List.nodup_flatMap]
  constructor
  · intro x hx
    refine List.Nodup.map_on ?_ hB
    rintro ⟨d, q⟩ hx ⟨d', q'⟩ hy e
    simp only [Prod.mk.injEq] at e
    obtain ⟨-, rfl⟩ := hg _ _ _ _ e.1
    rw [hB' _ _ _ hx hy]
  · refine (List.pairwise_iff_forall_sublist.2 ?_ : List.Pairwise _ A)
    rintro ⟨d, q⟩ ⟨d', q'⟩ hs
    have hm1 := hs.subset (by simp : (d, q) ∈ [(d, q), (d', q')])
    have hm2 := hs.subset (by simp : (d', q') ∈ [(d, q), (d', q')])
    have hne : (d, q) ≠ (d', q') := by have := hA.sublist hs; simpa using this
    rintro ⟨D, Q⟩ ha hb'
    simp only [List.mem_map, Prod.mk.injEq, Prod.exists] at ha hb'
    obtain ⟨a, b, -, rfl, -⟩ := ha
    obtain ⟨a', b', -, e, -⟩ := hb'
    obtain ⟨rfl, -⟩ := hg _ _ _ _ e
    exact hne (by rw [hA' _ _ _ hm1 hm2])

theorem sum_pairs {α β γ : Type} {g : α → β → γ} {A : List (α × K)} {B : List (β × K)} (p : K) :
    ((A.flatMap fun x => B.map fun y => (g x.1 y.1, p * y.2 * x.2)).map Prod.snd).sum = p * (B.map Prod.snd).sum * (A.map Prod.snd).sum := by
  induction A with
  | nil => simp
  | cons x A ih =>
    simp only [List.flatMap_cons, List.map_append, List.sum_append, ih, List.map_map, List.map_cons, List.sum_cons]
    have : (B.map (Prod.snd ∘ fun y => (g x.1 y.1, p * y.2 * x.2))).sum = p * (B.map Prod.snd).sum * x.2 := by
      rw [← List.sum_map_mul_left, ← List.sum_map_mul_right]; rfl
    rw [this]; ring

/-- The state of the loop. -/
def Outs (F : Forest ι K) (root : ι) (P : ι → Nat → Prop) (out : ι → K) : Prop := ∀ j, ∃ L, EnC F root P j L ∧ out j = (L.map Prod.snd).sum

/-- One edge. -/
theorem outsideEdge_spec {F : Forest ι K} {root i : ι} {P : ι → Nat → Prop} {out ins : ι → K} (hins : ∀ j, ∃ L, En F j L ∧ ins j = (L.map Prod.snd).sum)
    (h : Outs F root P out) (hfull : ∀ c q, CDer F root i c q → ∀ i' k', c.parent = some (i', k') → P i' k') {k : Nat} {e : Edge ι K} (he : (F i)[k]? = some e) (hk : ¬ P i k)
    (hu : ∀ p l, e = .un p l → l ≠ i) (hb : ∀ p l r, e = .bin p l r → l ≠ i ∧ r ≠ i) :
    Outs F root (fun i' k' => P i' k' ∨ i' = i ∧ k' = k) (outsideEdge ins i out e) ∧ outsideEdge ins i out e i = out i := by
  obtain ⟨Li, hLi, hsum⟩ := h i
  have hLi' : ∀ c q, (c, q) ∈ Li ↔ CDer F root i c q := fun c q => (hLi.2 c q).trans ⟨fun h => h.1, fun h => ⟨h, hfull c q h⟩⟩
  have hfun : ∀ c x y, (c, x) ∈ Li → (c, y) ∈ Li → x = y := fun c x y hx hy => (cder_prob ((hLi' _ _).1 hx) ((hLi' _ _).1 hy)).2
  have hE : ∀ {j : ι} {L : List (Deriv ι × K)}, En F j L → ∀ d x y, (d, x) ∈ L → (d, y) ∈ L → x = y :=
    fun hL d x y hx hy => (derives_prob ((hL.2 _ _).1 hx) ((hL.2 _ _).1 hy)).2
  -- extending a list
  have ext : ∀ {j : ι} {L N : List (Ctx ι × K)}, EnC F root P j L → N.Nodup → (∀ c q, (c, q) ∈ N ↔ CDer F root j c q ∧ c.parent = some (i, k)) →
      EnC F root (fun i' k' => P i' k' ∨ i' = i ∧ k' = k) j (L ++ N) := by
    intro j L N hL hN hN'
    refine ⟨List.Nodup.append hL.1 hN ?_, fun c q => ?_⟩
    · rintro ⟨c, q⟩ ha hb'
      exact hk (((hL.2 c q).1 ha).2 i k ((hN' c q).1 hb').2)
    · rw [List.mem_append, hL.2, hN']
      constructor
      · rintro (⟨h1, h2⟩ | ⟨h1, h2⟩)
        · exact ⟨h1, fun i' k' e => Or.inl (h2 i' k' e)⟩
        · refine ⟨h1, fun i' k' e => Or.inr ?_⟩
          rw [h2, Option.some.injEq, Prod.mk.injEq] at e
          exact ⟨e.1.symm, e.2.symm⟩
      · rintro ⟨h1, h2⟩
        cases hp : c.parent with
        | none => exact Or.inl ⟨h1, fun i' k' e => by cases e⟩
        | some x =>
          obtain ⟨i', k'⟩ := x
          rcases h2 i' k' hp with h3 | ⟨rfl, rfl⟩
          · refine Or.inl ⟨h1, fun a b e => ?_⟩
            rw [Option.some.injEq, Prod.mk.injEq] at e
            obtain ⟨rfl, rfl⟩ := e
            exact h3
          · exact Or.inr ⟨h1, hp ▸ rfl⟩
  cases e with
  | lex p =>
    refine ⟨fun j => ?_, rfl⟩
    obtain ⟨L, h1, h2⟩ := h j
    refine ⟨L ++ [], ext h1 List.nodup_nil (fun c q => ?_), by simpa [outsideEdge] using h2⟩
    simp only [List.not_mem_nil, false_iff, not_and]
    intro hc hp
    cases hc with
    | hole => cases hp
    | un g1 g2 => simp only [Ctx.parent, Option.some.injEq, Prod.mk.injEq] at hp; obtain ⟨rfl, rfl⟩ := hp; rw [he] at g2; cases g2
    | left g1 g2 => simp only [Ctx.parent, Option.some.injEq, Prod.mk.injEq] at hp; obtain ⟨rfl, rfl⟩ := hp; rw [he] at g2; cases g2
    | right g1 g2 => simp only [Ctx.parent, Option.some.injEq, Prod.mk.injEq] at hp; obtain ⟨rfl, rfl⟩ := hp; rw [he] at g2; cases g2
  | un p l =>
    refine ⟨fun j => ?_, by rw [outsideEdge, Function.update_of_ne (hu p l rfl).symm]⟩
    obtain ⟨L, h1, h2⟩ := h j
    by_cases hj : j = l
    · subst hj
      refine ⟨L ++ Li.map fun x => (.un i k x.1, p * x.2), ext h1 ?_ (fun c q => ?_), ?_⟩
      · refine List.Nodup.map_on ?_ hLi.1
        rintro ⟨d, q⟩ hx ⟨d', q'⟩ hy e
        simp only [Prod.mk.injEq, Ctx.un.injEq, true_and] at e
        obtain ⟨rfl, -⟩ := e
        rw [hfun _ _ _ hx hy]
      · simp only [List.mem_map, Prod.mk.injEq, Prod.exists]
        constructor
        · rintro ⟨c', q', g1, rfl, rfl⟩
          exact ⟨.un ((hLi' _ _).1 g1) he, rfl⟩
        · rintro ⟨hc, hp⟩
          cases hc with
          | hole => cases hp
          | un g1 g2 =>
            simp only [Ctx.parent, Option.some.injEq, Prod.mk.injEq] at hp; obtain ⟨rfl, rfl⟩ := hp; rw [he] at g2; cases g2
            exact ⟨_, _, (hLi' _ _).2 g1, rfl, rfl⟩
          | left g1 g2 => simp only [Ctx.parent, Option.some.injEq, Prod.mk.injEq] at hp; obtain ⟨rfl, rfl⟩ := hp; rw [he] at g2; cases g2
          | right g1 g2 => simp only [Ctx.parent, Option.some.injEq, Prod.mk.injEq] at hp; obtain ⟨rfl, rfl⟩ := hp; rw [he] at g2; cases g2
      · rw [outsideEdge, Function.update_self, List.map_append, List.sum_append, h2, hsum, List.map_map, ← List.sum_map_mul_left]; rfl
    · refine ⟨L ++ [], ext h1 List.nodup_nil (fun c q => ?_), by rw [outsideEdge, Function.update_of_ne hj, List.append_nil]; exact h2⟩
      simp only [List.not_mem_nil, false_iff, not_and]
      intro hc hp
      cases hc with
      | hole => cases hp
      | un g1 g2 => simp only [Ctx.parent, Option.some.injEq, Prod.mk.injEq] at hp; obtain ⟨rfl, rfl⟩ := hp; rw [he] at g2; cases g2; exact hj rfl
      | left g1 g2 => simp only [Ctx.parent, Option.some.injEq, Prod.mk.injEq] at hp; obtain ⟨rfl, rfl⟩ := hp; rw [he] at g2; cases g2
      | right g1 g2 => simp only [Ctx.parent, Option.some.injEq, Prod.mk.injEq] at hp; obtain ⟨rfl, rfl⟩ := hp; rw [he] at g2; cases g2
  | bin p l r =>
    obtain ⟨hl, hr⟩ := hb p l r rfl
    refine ⟨fun j => ?_, by simp only [outsideEdge]; rw [Function.update_of_ne hr.symm, Function.update_of_ne hl.symm]⟩
    obtain ⟨L, h1, h2⟩ := h j
    obtain ⟨Dl, l1, l2⟩ := hins l
    obtain ⟨Dr, r1, r2⟩ := hins r
    let A : List (Ctx ι × K) := Li.flatMap fun x => Dr.map fun y => (.left i k x.1 y.1, p * y.2 * x.2)
    let B : List (Ctx ι × K) := Li.flatMap fun x => Dl.map fun y => (.right i k y.1 x.1, p * y.2 * x.2)
    have hA : A.Nodup := nodup_pairs (g := fun c e => Ctx.left i k c e) (w := fun x y => p * y * x) (by rintro a b a' b' e; cases e; exact ⟨rfl, rfl⟩)
      hLi.1 hfun r1.1 (hE r1)
    have hB : B.Nodup := nodup_pairs (g := fun c e => Ctx.right i k e c) (w := fun x y => p * y * x) (by rintro a b a' b' e; cases e; exact ⟨rfl, rfl⟩)
      hLi.1 hfun l1.1 (hE l1)
    have mA : ∀ c q, (c, q) ∈ A ↔ ∃ c' e, c = .left i k c' e ∧ CDer F root l c q := by
      intro c q
      simp only [A, List.mem_flatMap, List.mem_map, Prod.mk.injEq, Prod.exists]
      constructor
      · rintro ⟨c', q', g1, e, s, g2, rfl, rfl⟩
        exact ⟨c', e, rfl, .left ((hLi' _ _).1 g1) he ((r1.2 _ _).1 g2)⟩
      · rintro ⟨c', e, rfl, hc⟩
        cases hc with
        | left g1 g2 g3 => rw [he] at g2; cases g2; exact ⟨_, _, (hLi' _ _).2 g1, _, _, (r1.2 _ _).2 g3, rfl, rfl⟩
    have mB : ∀ c q, (c, q) ∈ B ↔ ∃ c' d, c = .right i k d c' ∧ CDer F root r c q := by
      intro c q
      simp only [B, List.mem_flatMap, List.mem_map, Prod.mk.injEq, Prod.exists]
      constructor
      · rintro ⟨c', q', g1, e, s, g2, rfl, rfl⟩
        exact ⟨c', e, rfl, .right ((hLi' _ _).1 g1) he ((l1.2 _ _).1 g2)⟩
      · rintro ⟨c', e, rfl, hc⟩
        cases hc with
        | right g1 g2 g3 => rw [he] at g2; cases g2; exact ⟨_, _, (hLi' _ _).2 g1, _, _, (l1.2 _ _).2 g3, rfl, rfl⟩
    have sA : (A.map Prod.snd).sum = p * ins r * out i := by rw [r2, hsum]; exact sum_pairs (g := fun c e => Ctx.left i k c e) p
    have sB : (B.map Prod.snd).sum = p * ins l * out i := by rw [l2, hsum]; exact sum_pairs (g := fun c e => Ctx.right i k e c) p
    refine ⟨L ++ ((if j = l then A else []) ++ (if j = r then B else [])), ext h1 ?_ (fun c q => ?_), ?_⟩
    · refine List.Nodup.append (by split <;> simp [hA]) (by split <;> simp [hB]) ?_
      rintro ⟨c, q⟩ ha hb'
      split at ha
      · split at hb'
        · obtain ⟨c', e, rfl, -⟩ := (mA c q).1 ha
          obtain ⟨c'', d, e2, -⟩ := (mB _ q).1 hb'
          cases e2
        · simp at hb'
      · simp at ha
    · rw [List.mem_append]
      constructor
      · rintro (g | g)
        · split at g
          · rename_i e; subst e
            obtain ⟨c', e, rfl, g2⟩ := (mA c q).1 g
            exact ⟨g2, rfl⟩
          · simp at g
        · split at g
          · rename_i e; subst e
            obtain ⟨c', e, rfl, g2⟩ := (mB c q).1 g
            exact ⟨g2, rfl⟩
          · simp at g
      · rintro ⟨hc, hp⟩
        cases hc with
        | hole => cases hp
        | un g1 g2 => simp only [Ctx.parent, Option.some.injEq, Prod.mk.injEq] at hp; obtain ⟨rfl, rfl⟩ := hp; rw [he] at g2; cases g2
        | left g1 g2 g3 =>
          simp only [Ctx.parent, Option.some.injEq, Prod.mk.injEq] at hp; obtain ⟨rfl, rfl⟩ := hp; rw [he] at g2; cases g2
          left; rw [if_pos rfl, mA]; exact ⟨_, _, rfl, .left g1 he g3⟩
        | right g1 g2 g3 =>
          simp only [Ctx.parent, Option.some.injEq, Prod.mk.injEq] at hp; obtain ⟨rfl, rfl⟩ := hp; rw [he] at g2; cases g2
          right; rw [if_pos rfl, mB]; exact ⟨_, _, rfl, .right g1 he g3⟩
    · simp only [outsideEdge]
      rw [List.map_append, List.sum_append, List.map_append, List.sum_append, ← h2]
      by_cases hjl : j = l <;> by_cases hjr : j = r
      · subst hjl; subst hjr
        rw [if_pos rfl, if_pos rfl, sA, sB]; simp; ring
      · subst hjl
        rw [if_pos rfl, if_neg hjr, Function.update_of_ne hjr, sA]; simp
      · subst hjr
        rw [if_neg hjl, if_pos rfl, Function.update_self, Function.update_of_ne hjl, sB]; simp
      · rw [if_neg hjl, if_neg hjr, Function.update_of_ne hjr, Function.update_of_ne hjl]; simp

/-- All edges of an item. -/
theorem outsideItem_spec {F : Forest ι K} {root i : ι} {P : ι → Nat → Prop} {ins : ι → K} (hins : ∀ j, ∃ L, En F j L ∧ ins j = (L.map Prod.snd).sum)
    {out : ι → K} (h : Outs F root P out) (hfull : ∀ c q, CDer F root i c q → ∀ i' k', c.parent = some (i', k') → P i' k') (hk : ∀ k, ¬ P i k)
    (hu : ∀ p l, .un p l ∈ F i → l ≠ i) (hb : ∀ p l r, .bin p l r ∈ F i → l ≠ i ∧ r ≠ i) :
    ∀ m ≤ (F i).length, Outs F root (fun i' k' => P i' k' ∨ i' = i ∧ k' < m) (((F i).take m).foldl (outsideEdge ins i) out) := by
  intro m
  induction m with
  | zero =>
    intro _
    have e : (fun i' k' => P i' k' ∨ i' = i ∧ k' < 0) = P := by funext a b; simp
    rw [e]; simpa using h
  | succ m ih =>
    intro hm
    have he := List.getElem?_eq_getElem (l := F i) (i := m) (by omega)
    have hmem := List.getElem_mem (l := F i) (n := m) (by omega)
    rw [List.take_add_one, he, Option.toList_some, List.foldl_append, List.foldl_cons, List.foldl_nil]
    have k1 := (outsideEdge_spec hins (ih (by omega)) (fun c q hc i' k' e => Or.inl (hfull c q hc i' k' e)) he (by rintro (h1 | h1); exact hk m h1; omega)
      (fun p l e => hu p l (e ▸ hmem)) (fun p l r e => hb p l r (e ▸ hmem))).1
    have e : (fun i' k' => (P i' k' ∨ i' = i ∧ k' < m) ∨ i' = i ∧ k' = m) = fun i' k' => P i' k' ∨ i' = i ∧ k' < m + 1 := by
      funext a b
      rw [eq_iff_iff]
      constructor
      · rintro ((h1 | ⟨h1, h2⟩) | ⟨h1, h2⟩)
        · exact Or.inl h1
        · exact Or.inr ⟨h1, by omega⟩
        · exact Or.inr ⟨h1, by omega⟩
      · rintro (h1 | ⟨h1, h2⟩)
        · exact Or.inl (Or.inl h1)
        · rcases Nat.lt_or_ge b m with h3 | h3
          · exact Or.inl (Or.inr ⟨h1, h3⟩)
          · exact Or.inr ⟨h1, by omega⟩
    rw [e] at k1
    exact k1

theorem cder_parent {F : Forest ι K} {root j i : ι} {c : Ctx ι} {q : K} {k : Nat} (h : CDer F root j c q) (hp : c.parent = some (i, k)) :
    ∃ e, (F i)[k]? = some e ∧ ((∃ p, e = .un p j) ∨ ∃ p l r, e = .bin p l r ∧ (j = l ∨ j = r)) := by
  cases h with
  | hole => cases hp
  | un g1 g2 => simp only [Ctx.parent, Option.some.injEq, Prod.mk.injEq] at hp; obtain ⟨rfl, rfl⟩ := hp; exact ⟨_, g2, Or.inl ⟨_, rfl⟩⟩
  | left g1 g2 => simp only [Ctx.parent, Option.some.injEq, Prod.mk.injEq] at hp; obtain ⟨rfl, rfl⟩ := hp; exact ⟨_, g2, Or.inr ⟨_, _, _, rfl, Or.inl rfl⟩⟩
  | right g1 g2 => simp only [Ctx.parent, Option.some.injEq, Prod.mk.injEq] at hp; obtain ⟨rfl, rfl⟩ := hp; exact ⟨_, g2, Or.inr ⟨_, _, _, rfl, Or.inr rfl⟩⟩

/-- The position of an item. -/
theorem bottomUp_rank {F : Forest ι K} {order : List ι} (B : Spec.BottomUp F order) {i : ι} : (∀ p l, .un p l ∈ F i → order.idxOf l < order.idxOf i) ∧
    ∀ p l r, .bin p l r ∈ F i → order.idxOf l < order.idxOf i ∧ order.idxOf r < order.idxOf i := by
  have key : ∀ pre post l, order = pre ++ i :: post → l ∈ pre → order.idxOf l < order.idxOf i := by
    intro pre post l e hl
    have hnd := B.nodup
    rw [e] at hnd ⊢
    have h1 : i ∉ pre := fun h => (List.nodup_append.1 hnd).2.2 i h i (by simp) rfl
    rw [List.idxOf_append_of_mem hl, List.idxOf_append_of_notMem h1]
    have := List.idxOf_lt_length_of_mem hl
    omega
  constructor
  · intro p l h
    obtain ⟨pre, post, e⟩ := List.append_of_mem (B.all i (List.ne_nil_of_mem h))
    exact key pre post l e (B.un pre i post e p l h)
  · intro p l r h
    obtain ⟨pre, post, e⟩ := List.append_of_mem (B.all i (List.ne_nil_of_mem h))
    have := B.bin pre i post e p l r h
    exact ⟨key pre post l e this.1, key pre post r e this.2⟩

theorem outside_loop {F : Forest ι K} {order : List ι} (B : Spec.BottomUp F order) (root : ι) {ins : ι → K} (hins : ∀ j, ∃ L, En F j L ∧ ins j = (L.map Prod.snd).sum) :
    ∀ post pre, order = pre ++ post →
      Outs F root (fun i _ => i ∈ post) (post.reverse.foldl (fun out i => (F i).foldl (outsideEdge ins i) out) (Function.update (fun _ => 0) root 1)) := by
  intro post
  induction post with
  | nil =>
    intro pre _ j
    by_cases hj : j = root
    · subst hj
      refine ⟨[(.hole, 1)], ⟨by simp, fun c q => ?_⟩, by simp⟩
      simp only [List.mem_singleton, Prod.mk.injEq, List.not_mem_nil]
      constructor
      · rintro ⟨rfl, rfl⟩; exact ⟨.hole, by simp [Ctx.parent]⟩
      · rintro ⟨h1, h2⟩
        cases h1 with
        | hole => exact ⟨rfl, rfl⟩
        | un => exact absurd rfl (h2 _ _)
        | left => exact absurd rfl (h2 _ _)
        | right => exact absurd rfl (h2 _ _)
    · refine ⟨[], ⟨by simp, fun c q => ?_⟩, by simp [hj]⟩
      simp only [List.not_mem_nil, false_iff]
      rintro ⟨h1, h2⟩
      cases h1 with
      | hole => exact hj rfl
      | un => exact absurd rfl (h2 _ _)
      | left => exact absurd rfl (h2 _ _)
      | right => exact absurd rfl (h2 _ _)
  | cons i post ih =>
    intro pre e
    have h := ih (pre ++ [i]) (by rw [e]; simp)
    rw [List.reverse_cons, List.foldl_append, List.foldl_cons, List.foldl_nil]
    have hrank := bottomUp_rank B (i := i)
    have hnd := B.nodup
    rw [e] at hnd
    have hi : i ∉ post := (List.nodup_cons.1 (List.nodup_append.1 hnd).2.1).1
    have hlt : ∀ x ∈ order, order.idxOf i < order.idxOf x → x ∈ post := by
      intro x hx hlt
      rw [e] at hx
      have h1 : i ∉ pre := fun h => (List.nodup_append.1 hnd).2.2 i h i (by simp) rfl
      simp only [List.mem_append, List.mem_cons] at hx
      rcases hx with hx | rfl | hx
      · exfalso
        rw [e, List.idxOf_append_of_mem hx, List.idxOf_append_of_notMem h1] at hlt
        have := List.idxOf_lt_length_of_mem hx
        omega
      · omega
      · exact hx
    have k1 := outsideItem_spec (i := i) hins h (by
      intro c q hc i' k' hp
      obtain ⟨e', g1, g2⟩ := cder_parent hc hp
      have hm := List.mem_of_getElem? g1
      refine hlt i' (B.all i' (List.ne_nil_of_mem hm)) ?_
      rcases g2 with ⟨p, rfl⟩ | ⟨p, l, r, rfl, rfl | rfl⟩
      · exact (bottomUp_rank B).1 _ _ hm
      · exact ((bottomUp_rank B).2 _ _ _ hm).1
      · exact ((bottomUp_rank B).2 _ _ _ hm).2) (fun _ => hi)
      (fun p l h => by rintro rfl; exact absurd (hrank.1 _ _ h) (lt_irrefl _))
      (fun p l r h => ⟨by rintro rfl; exact absurd (hrank.2 _ _ _ h).1 (lt_irrefl _), by rintro rfl; exact absurd (hrank.2 _ _ _ h).2 (lt_irrefl _)⟩) (F i).length le_rfl
    rw [List.take_length] at k1
    intro j
    obtain ⟨L, g1, g2⟩ := k1 j
    refine ⟨L, ⟨g1.1, fun c q => (g1.2 c q).trans (and_congr_right fun hc => ?_)⟩, g2⟩
    constructor
    · intro h' i' k' hp
      rcases h' i' k' hp with h1 | ⟨h1, -⟩
      · exact List.mem_cons_of_mem _ h1
      · rw [h1]; simp
    · intro h' i' k' hp
      rcases List.mem_cons.1 (h' i' k' hp) with rfl | h1
      · obtain ⟨e', g1, -⟩ := cder_parent hc hp
        exact Or.inr ⟨rfl, (List.getElem?_eq_some_iff.1 g1).1⟩
      · exact Or.inl h1

theorem outside_en {F : Forest ι K} {order : List ι} (B : Spec.BottomUp F order) (root j : ι) : ∃ L : List (Ctx ι × K), L.Nodup ∧ (∀ c q, (c, q) ∈ L ↔ CDer F root j c q) ∧
    getoutside F order root (getinside F order) j = (L.map Prod.snd).sum := by
  obtain ⟨L, h1, h2⟩ := outside_loop B root (inside_en B) order [] (by simp) j
  refine ⟨L, h1.1, fun c q => (h1.2 c q).trans ⟨fun h => h.1, fun h => ⟨h, fun i k hp => ?_⟩⟩, h2⟩
  obtain ⟨e, g1, -⟩ := cder_parent h hp
  exact B.all i (List.ne_nil_of_mem (List.mem_of_getElem? g1))

/-! ### Occurrences of an item in a derivation -/

theorem plug_derives {F : Forest ι K} {root j : ι} {c : Ctx ι} {q : K} (h : CDer F root j c q) : ∀ {d : Deriv ι} {s : K}, Spec.Derives F j d s →
    Spec.Derives F root (c.plug d) (s * q) := by
  induction h with
  | hole => intro d s hd; simpa [Ctx.plug] using hd
  | un h1 h2 ih =>
    intro d s hd
    have := ih (.un h2 hd)
    rw [Ctx.plug]
    convert this using 1
    ring
  | left h1 h2 h3 ih =>
    intro d s hd
    have := ih (.bin h2 hd h3)
    rw [Ctx.plug]
    convert this using 1
    ring
  | right h1 h2 h3 ih =>
    intro d s hd
    have := ih (.bin h2 h3 hd)
    rw [Ctx.plug]
    convert this using 1
    ring

/-- The item of a derivation. -/
def Deriv.root : Deriv ι → ι
  | .lex i _ => i
  | .un i _ _ => i
  | .bin i _ _ _ => i

/-- All occurrences of items. -/
def zips (c : Ctx ι) : Deriv ι → List (Ctx ι × Deriv ι)
  | .lex i k => [(c, .lex i k)]
  | .un i k d => (c, .un i k d) :: zips (.un i k c) d
  | .bin i k d e => (c, .bin i k d e) :: (zips (.left i k c e) d ++ zips (.right i k d c) e)

theorem zips_items (d : Deriv ι) : ∀ c : Ctx ι, (zips c d).map (fun x => x.2.root) = d.items := by
  induction d with
  | lex i k => intro c; rfl
  | un i k d ih => intro c; rw [zips, Deriv.items, List.map_cons, ih]; rfl
  | bin i k d e ih ih2 => intro c; rw [zips, Deriv.items, List.map_cons, List.map_append, ih, ih2]; rfl

theorem self_mem_zips (c : Ctx ι) (d : Deriv ι) : (c, d) ∈ zips c d := by cases d <;> simp [zips]

theorem zips_plug (c : Ctx ι) : ∀ d : Deriv ι, ∀ x ∈ zips c d, x ∈ zips .hole (c.plug d) := by
  induction c with
  | hole => intro d x hx; exact hx
  | un i k c ih => intro d x hx; exact ih _ x (by simp [zips, hx])
  | left i k c e ih => intro d x hx; exact ih _ x (by simp [zips, hx])
  | right i k d' c ih => intro d x hx; exact ih _ x (by simp [zips, hx])

theorem zips_spec {F : Forest ι K} {root i : ι} {D : Deriv ι} {q : K} (h : Spec.Derives F i D q) : ∀ {c : Ctx ι} {s : K}, CDer F root i c s → ∀ x ∈ zips c D,
    x.1.plug x.2 = c.plug D ∧ ∃ u v, CDer F root x.2.root x.1 u ∧ Spec.Derives F x.2.root x.2 v := by
  induction h with
  | @lex i k p h =>
    intro c s hc x hx
    simp only [zips, List.mem_singleton] at hx
    subst hx
    exact ⟨rfl, _, _, hc, .lex h⟩
  | @un i l k p q d h1 h2 ih =>
    intro c s hc x hx
    simp only [zips, List.mem_cons] at hx
    rcases hx with rfl | hx
    · exact ⟨rfl, _, _, hc, .un h1 h2⟩
    · exact ih (.un hc h1) x hx
  | @bin i l r k p q t d e h1 h2 h3 ih ih2 =>
    intro c s hc x hx
    simp only [zips, List.mem_cons, List.mem_append] at hx
    rcases hx with rfl | hx | hx
    · exact ⟨rfl, _, _, hc, .bin h1 h2 h3⟩
    · exact ih (.left hc h1 h3) x hx
    · exact ih2 (.right hc h1 h2) x hx

theorem derives_root {F : Forest ι K} {i : ι} {D : Deriv ι} {q : K} (h : Spec.Derives F i D q) : D.root = i := by cases h <;> rfl

/-- With spans and bottom-up order, no item occurs twice in a derivation. -/
theorem derives_nodup {F : Forest ι K} {order : List ι} (B : Spec.BottomUp F order) {span : ι → Nat → Prop} (S : Spec.Spans F span) {i : ι} {D : Deriv ι} {q : K}
    (h : Spec.Derives F i D q) : D.items.Nodup ∧ ∀ x ∈ D.items, order.idxOf x ≤ order.idxOf i ∧ ∀ n, span x n → span i n := by
  induction h with
  | lex h => simp [Deriv.items]
  | un h1 h2 ih =>
    have hm := List.mem_of_getElem? h1
    have hr := (bottomUp_rank B).1 _ _ hm
    constructor
    · rw [Deriv.items, List.nodup_cons]
      refine ⟨fun h => ?_, ih.1⟩
      have := (ih.2 _ h).1
      omega
    · intro x hx
      rw [Deriv.items, List.mem_cons] at hx
      rcases hx with rfl | hx
      · exact ⟨le_rfl, fun _ h => h⟩
      · exact ⟨by have := (ih.2 x hx).1; omega, fun n h => S.un _ _ _ hm n ((ih.2 x hx).2 n h)⟩
  | bin h1 h2 h3 ih ih2 =>
    have hm := List.mem_of_getElem? h1
    have hr := (bottomUp_rank B).2 _ _ _ hm
    constructor
    · rw [Deriv.items, List.nodup_cons]
      constructor
      · intro h
        rcases List.mem_append.1 h with h | h
        · have := (ih.2 _ h).1; omega
        · have := (ih2.2 _ h).1; omega
      · refine List.Nodup.append ih.1 ih2.1 fun x hx hy => ?_
        obtain ⟨n, hn⟩ := S.nonempty x
        exact (S.bin _ _ _ _ hm n).2.2 ⟨(ih.2 x hx).2 n hn, (ih2.2 x hy).2 n hn⟩
    · intro x hx
      rw [Deriv.items, List.mem_cons, List.mem_append] at hx
      rcases hx with rfl | hx | hx
      · exact ⟨le_rfl, fun _ h => h⟩
      · exact ⟨by have := (ih.2 x hx).1; omega, fun n h => (S.bin _ _ _ _ hm n).1 ((ih.2 x hx).2 n h)⟩
      · exact ⟨by have := (ih2.2 x hx).1; omega, fun n h => (S.bin _ _ _ _ hm n).2.1 ((ih2.2 x hx).2 n h)⟩

/-- **C55**: The product of inside and outside probability of an item is the sum of the probabilities of all derivations of the root in which the item occurs. -/
theorem C55_outside {F : Forest ι K} {order : List ι} (B : Spec.BottomUp F order) {span : ι → Nat → Prop} (S : Spec.Spans F span) (root i : ι) :
    Spec.Total F root (fun d => i ∈ d.items) (getinside F order i * getoutside F order root (getinside F order) i) := by
  obtain ⟨D, d1, d2⟩ := inside_en B i
  obtain ⟨C, c1, c2, c3⟩ := outside_en B root i
  have hfD : ∀ d x y, (d, x) ∈ D → (d, y) ∈ D → x = y := fun d x y hx hy => (derives_prob ((d1.2 _ _).1 hx) ((d1.2 _ _).1 hy)).2
  have hfC : ∀ c x y, (c, x) ∈ C → (c, y) ∈ C → x = y := fun c x y hx hy => (cder_prob ((c2 _ _).1 hx) ((c2 _ _).1 hy)).2
  have inj : ∀ c d c' d', ∀ x y x' y' : K, (c, x) ∈ C → (d, y) ∈ D → (c', x') ∈ C → (d', y') ∈ D → c.plug d = c'.plug d' → c = c' ∧ d = d' := by
    intro c d c' d' x y x' y' hc hd hc' hd' e
    have hD := plug_derives ((c2 _ _).1 hc) ((d1.2 _ _).1 hd)
    have hnd := (derives_nodup B S hD).1
    rw [← zips_items _ .hole] at hnd
    have m1 : (c, d) ∈ zips .hole (c.plug d) := zips_plug c d _ (self_mem_zips c d)
    have m2 : (c', d') ∈ zips .hole (c.plug d) := by rw [e]; exact zips_plug c' d' _ (self_mem_zips c' d')
    have := List.inj_on_of_nodup_map hnd m1 m2 (by rw [derives_root ((d1.2 _ _).1 hd), derives_root ((d1.2 _ _).1 hd')])
    rw [Prod.mk.injEq] at this
    exact this
  refine ⟨C.flatMap fun x => D.map fun y => (x.1.plug y.1, 1 * y.2 * x.2), ?_, fun d q => ?_, ?_⟩
  · rw [List.nodup_flatMap]
    constructor
    · rintro ⟨c, x⟩ hc
      refine List.Nodup.map_on ?_ d1.1
      rintro ⟨d, q⟩ hx ⟨d', q'⟩ hy e
      simp only [Prod.mk.injEq] at e
      obtain ⟨-, rfl⟩ := inj _ _ _ _ _ _ _ _ hc hx hc hy e.1
      rw [hfD _ _ _ hx hy]
    · refine (List.pairwise_iff_forall_sublist.2 ?_ : List.Pairwise _ C)
      rintro ⟨d, q⟩ ⟨d', q'⟩ hs
      have hm1 := hs.subset (by simp : (d, q) ∈ [(d, q), (d', q')])
      have hm2 := hs.subset (by simp : (d', q') ∈ [(d, q), (d', q')])
      have hne : (d, q) ≠ (d', q') := by have := c1.sublist hs; simpa using this
      rintro ⟨D', Q⟩ ha hb'
      simp only [List.mem_map, Prod.mk.injEq, Prod.exists] at ha hb'
      obtain ⟨a, b, ha, rfl, -⟩ := ha
      obtain ⟨a', b', hb, e, -⟩ := hb'
      obtain ⟨rfl, -⟩ := inj _ _ _ _ _ _ _ _ hm2 hb hm1 ha e
      exact hne (by rw [hfC _ _ _ hm1 hm2])
  · simp only [List.mem_flatMap, List.mem_map, Prod.mk.injEq, Prod.exists]
    constructor
    · rintro ⟨c, x, hc, d', y, hd, rfl, rfl⟩
      rw [c2] at hc
      rw [d1.2] at hd
      have h1 := plug_derives hc hd
      refine ⟨by rw [one_mul]; exact h1, ?_⟩
      rw [← zips_items _ .hole, List.mem_map]
      exact ⟨_, zips_plug c d' _ (self_mem_zips c d'), derives_root hd⟩
    · rintro ⟨h1, h2⟩
      rw [← zips_items _ .hole, List.mem_map] at h2
      obtain ⟨x, hx, rfl⟩ := h2
      obtain ⟨e, u, v, g1, g2⟩ := zips_spec h1 (root := root) .hole x hx
      have e' : x.1.plug x.2 = d := by rw [e]; rfl
      refine ⟨x.1, u, (c2 _ _).2 g1, x.2, v, (d1.2 _ _).2 g2, e', ?_⟩
      have := plug_derives g1 g2
      rw [e'] at this
      rw [one_mul]
      exact (derives_prob this h1).2
  · rw [sum_pairs (g := fun (c : Ctx ι) d => c.plug d), one_mul, d2, c3]

end Disco.Inside
