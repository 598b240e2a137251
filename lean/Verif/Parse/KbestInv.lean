import Verif.Parse.Kbest
/-!
# C26: invariants of the k-best algorithm
-/
set_option linter.unusedSectionVars false
namespace Disco.Kbest

variable {V R : Type} [DecidableEq V] [AddCommMonoid R] [LinearOrder R] [IsOrderedAddMonoid R]

/-! ### Agendas -/

theorem popMin_none {xs : List (RE × R)} : popMin xs = none ↔ xs = [] := by
  cases xs with
  | nil => simp [popMin]
  | cons x xs =>
    simp only [popMin, reduceCtorEq, iff_false]
    cases popMin xs with
    | none => simp
    | some y => obtain ⟨y, ys⟩ := y; simp only; split <;> simp

/-- `popMin` splits the list at the first least entry. -/
theorem popMin_some {xs : List (RE × R)} {y : RE × R} {ys : List (RE × R)} (h : popMin xs = some (y, ys)) :
    ∃ A B, xs = A ++ y :: B ∧ ys = A ++ B ∧ (∀ a ∈ A, y.2 < a.2) ∧ ∀ b ∈ B, y.2 ≤ b.2 := by
  induction xs generalizing y ys with
  | nil => simp [popMin] at h
  | cons x xs ih =>
    rw [popMin] at h
    cases hp : popMin xs with
    | none =>
      rw [hp] at h
      simp only [Option.some.injEq, Prod.mk.injEq] at h
      obtain ⟨rfl, rfl⟩ := h
      rw [popMin_none] at hp
      subst hp
      exact ⟨[], [], rfl, rfl, by simp, by simp⟩
    | some z =>
      obtain ⟨z, zs⟩ := z
      rw [hp] at h
      obtain ⟨A, B, h1, h2, h3, h4⟩ := ih hp
      simp only at h
      split at h
      next hlt =>
        simp only [Option.some.injEq, Prod.mk.injEq] at h
        obtain ⟨rfl, rfl⟩ := h
        refine ⟨x :: A, B, by simp [h1], by simp [h2], ?_, h4⟩
        intro a ha
        rcases List.mem_cons.1 ha with rfl | ha
        · exact hlt
        · exact h3 a ha
      next hlt =>
        simp only [Option.some.injEq, Prod.mk.injEq] at h
        obtain ⟨rfl, rfl⟩ := h
        refine ⟨[], xs, rfl, rfl, by simp, ?_⟩
        have hle := le_of_not_gt hlt
        intro b hb
        rw [h1] at hb
        rcases List.mem_append.1 hb with hb | hb
        · exact hle.trans (h3 b hb).le
        · rcases List.mem_cons.1 hb with rfl | hb
          · exact hle
          · exact hle.trans (h4 b hb)

/-! ### Initial candidates -/

theorem addEntry_keys {acc : List (RE × R)} {x : RE × R} (h : (acc.map Prod.fst).Nodup) : ((addEntry acc x).map Prod.fst).Nodup := by
  unfold addEntry
  split
  · rw [List.map_map]
    have : (Prod.fst ∘ fun y : RE × R => if y.1 = x.1 ∧ x.2 < y.2 then x else y) = Prod.fst := by
      funext y
      simp only [Function.comp]
      split
      · rename_i h; exact h.1.symm
      · rfl
    rw [this]; exact h
  · rename_i hx
    rw [List.map_append, List.nodup_append]
    refine ⟨h, by simp, ?_⟩
    intro a ha b hb
    simp only [List.map_cons, List.map_nil, List.mem_singleton] at hb
    subst hb
    intro he; subst he; exact hx ha

variable (ch : Chart V R)

theorem entry_edge (v : V) (e : Edge) : (ch.entry v e).1.edge = e := by
  unfold Chart.entry
  split
  · rfl
  · split <;> rfl

theorem entry_inj {v : V} {e e' : Edge} (h : (ch.entry v e).1 = (ch.entry v e').1) : e = e' := by
  rw [← entry_edge ch v e, h, entry_edge]

/-- The list before sorting. -/
def Chart.init (ch : Chart V R) (v : V) : List (RE × R) := ((ch.forest v).map (ch.entry v)).foldl addEntry []

theorem init_spec (v : V) : ((ch.init v).map Prod.fst).Nodup ∧ ∀ x, x ∈ ch.init v ↔ ∃ e ∈ ch.forest v, x = ch.entry v e := by
  have key : ∀ (es : List Edge) (acc : List (RE × R)), (acc.map Prod.fst).Nodup → (∀ x ∈ acc, ∃ e, x = ch.entry v e) →
      (((es.map (ch.entry v)).foldl addEntry acc).map Prod.fst).Nodup ∧
      ∀ x, x ∈ (es.map (ch.entry v)).foldl addEntry acc ↔ x ∈ acc ∨ ∃ e ∈ es, x = ch.entry v e := by
    intro es
    induction es with
    | nil => intro acc h _; simp [h]
    | cons e es ih =>
      intro acc h1 h2
      rw [List.map_cons, List.foldl_cons]
      by_cases hm : (ch.entry v e).1 ∈ acc.map Prod.fst
      · have hadd : addEntry acc (ch.entry v e) = acc := by
          unfold addEntry
          rw [if_pos hm]
          conv_rhs => rw [← List.map_id acc]
          refine List.map_congr_left fun y hy => ?_
          split
          · rename_i hc
            obtain ⟨e', he'⟩ := h2 y hy
            rw [he'] at hc
            have := entry_inj ch hc.1
            subst this
            exact absurd hc.2 (lt_irrefl _)
          · rfl
        rw [hadd]
        obtain ⟨i1, i2⟩ := ih acc h1 h2
        refine ⟨i1, fun x => ?_⟩
        rw [i2]
        have hmem : ch.entry v e ∈ acc := by
          obtain ⟨y, hy, he⟩ := List.mem_map.1 hm
          obtain ⟨e', he'⟩ := h2 y hy
          rw [he'] at he
          have := entry_inj ch he
          subst this
          rw [← he']; exact hy
        constructor
        · rintro (h | ⟨e', he', rfl⟩)
          · exact .inl h
          · exact .inr ⟨e', List.mem_cons_of_mem _ he', rfl⟩
        · rintro (h | ⟨e', he', rfl⟩)
          · exact .inl h
          · rcases List.mem_cons.1 he' with rfl | he'
            · exact .inl hmem
            · exact .inr ⟨e', he', rfl⟩
      · have hadd : addEntry acc (ch.entry v e) = acc ++ [ch.entry v e] := by
          unfold addEntry; rw [if_neg hm]
        obtain ⟨i1, i2⟩ := ih (addEntry acc (ch.entry v e)) (addEntry_keys h1) (by
          rw [hadd]
          intro x hx
          rcases List.mem_append.1 hx with hx | hx
          · exact h2 x hx
          · exact ⟨e, by simpa using hx⟩)
        refine ⟨i1, fun x => ?_⟩
        rw [i2, hadd]
        constructor
        · rintro (h | ⟨e', he', rfl⟩)
          · rcases List.mem_append.1 h with h | h
            · exact .inl h
            · exact .inr ⟨e, by simp, by simpa using h⟩
          · exact .inr ⟨e', List.mem_cons_of_mem _ he', rfl⟩
        · rintro (h | ⟨e', he', rfl⟩)
          · exact .inl (List.mem_append_left _ h)
          · rcases List.mem_cons.1 he' with rfl | he'
            · exact .inl (by simp)
            · exact .inr ⟨e', he', rfl⟩
  have := key (ch.forest v) [] (by simp) (by simp)
  refine ⟨this.1, fun x => ?_⟩
  rw [show ch.init v = ((ch.forest v).map (ch.entry v)).foldl addEntry [] from rfl, this.2]
  simp

/-- The sorted list of all initial candidates. -/
def Chart.sorted (ch : Chart V R) (v : V) : List (RE × R) := stableSort (fun x y => decide (x.2 ≤ y.2)) (ch.init v)

theorem gc_eq (v : V) (k : Nat) : ch.gc v k = (ch.sorted v).take k := rfl

theorem mem_sorted {v : V} {x : RE × R} : x ∈ ch.sorted v ↔ ∃ e ∈ ch.forest v, x = ch.entry v e := by
  rw [Chart.sorted, StableSort.mem, (init_spec ch v).2]

theorem sorted_pairwise (v : V) : (ch.sorted v).Pairwise (fun x y => x.2 ≤ y.2) := by
  have := StableSort.pairwise (le := fun x y : RE × R => decide (x.2 ≤ y.2)) (by
    intro a b c h1 h2; simp only [decide_eq_true_eq] at *; exact h1.trans h2) (by
    intro a b; simp only [Bool.or_eq_true, decide_eq_true_eq]; exact le_total _ _) (ch.init v)
  simpa [Chart.sorted] using this

theorem sorted_nodup (v : V) : ((ch.sorted v).map Prod.fst).Nodup :=
  ((StableSort.perm (ch.init v)).map Prod.fst).nodup_iff.2 (init_spec ch v).1

theorem gc_mem {v : V} {k : Nat} {x : RE × R} (h : x ∈ ch.gc v k) : ∃ e ∈ ch.forest v, x = ch.entry v e :=
  (mem_sorted ch).1 (List.mem_of_mem_take h)

theorem gc_pairwise (v : V) (k : Nat) : (ch.gc v k).Pairwise (fun x y => x.2 ≤ y.2) :=
  (sorted_pairwise ch v).sublist (List.take_sublist _ _)

theorem gc_nodup (v : V) (k : Nat) : ((ch.gc v k).map Prod.fst).Nodup :=
  (sorted_nodup ch v).sublist ((List.take_sublist _ _).map _)

theorem gc_complete {v : V} {e : Edge} (k : Nat) (h : e ∈ ch.forest v) :
    ch.entry v e ∈ ch.gc v k ∨ ((ch.gc v k).length = k ∧ ∀ x ∈ ch.gc v k, x.2 ≤ (ch.entry v e).2) := by
  have hm : ch.entry v e ∈ ch.sorted v := (mem_sorted ch).2 ⟨e, h, rfl⟩
  have hp := sorted_pairwise ch v
  rw [gc_eq]
  rw [← List.take_append_drop k (ch.sorted v)] at hm hp
  rcases List.mem_append.1 hm with hm | hm
  · exact .inl hm
  · refine .inr ⟨?_, fun x hx => (List.pairwise_append.1 hp).2.2 x hx _ hm⟩
    rw [List.length_take]
    have : (ch.sorted v).drop k ≠ [] := List.ne_nil_of_mem hm
    rw [ne_eq, List.drop_eq_nil_iff] at this
    omega

theorem gc_ne {v : V} {k : Nat} (h : ch.forest v ≠ []) (hk : 0 < k) : ch.gc v k ≠ [] := by
  obtain ⟨e, he⟩ := List.exists_mem_of_ne_nil _ h
  have : ch.entry v e ∈ ch.sorted v := (mem_sorted ch).2 ⟨e, he, rfl⟩
  rw [gc_eq]
  intro h0
  rw [List.take_eq_nil_iff] at h0
  rcases h0 with h0 | h0
  · omega
  · rw [h0] at this; cases this

/-- The best initial candidate. -/
theorem gc_one {v : V} (h : ch.forest v ≠ []) : ∃ x, ch.gc v 1 = [x] ∧ ∀ k, 0 < k → ∃ rest, ch.gc v k = x :: rest := by
  have hne := gc_ne ch h (k := 1) (by omega)
  rw [gc_eq] at hne
  cases hs : ch.sorted v with
  | nil => rw [hs] at hne; simp at hne
  | cons x xs =>
    refine ⟨x, by rw [gc_eq, hs]; simp, ?_⟩
    intro k hk
    obtain ⟨k, rfl⟩ : ∃ k', k = k' + 1 := ⟨k - 1, by omega⟩
    exact ⟨xs.take k, by rw [gc_eq, hs]; simp⟩

variable {ch} {lc : V → R} {ht : V → Nat}

theorem entry_vit_le (hok : Spec.Ok ch lc ht) {v : V} {e : Edge} (he : e ∈ ch.forest v) : ch.vit v ≤ (ch.entry v e).2 := by
  unfold Chart.entry
  cases hr : e.rule with
  | none => exact le_refl _
  | some r =>
    simp only
    obtain ⟨d, hd⟩ := hok.vit_ex _ (hok.nel v e r he hr)
    split
    next hb =>
      obtain ⟨d', hd'⟩ := hok.vit_ex _ (hok.ner v e r he hr hb)
      exact hok.vit_le _ _ _ (.bin he hr hb hd hd')
    next hb => exact hok.vit_le _ _ _ (.un he hr (by simpa using hb) hd)

theorem entry_le (hok : Spec.Ok ch lc ht) {v : V} {d : Deriv} {c : R} (h : Spec.IsDeriv ch lc v d c) :
    ∃ e ∈ ch.forest v, (ch.entry v e).2 ≤ c := by
  cases h with
  | lex he hr => exact ⟨_, he, by unfold Chart.entry; rw [hr]; exact (hok.lex _ _ he hr).le⟩
  | un he hr hb h1 =>
    refine ⟨_, he, ?_⟩
    unfold Chart.entry
    rw [hr]
    simp only [hb, Bool.false_eq_true, if_false]
    gcongr
    exact hok.vit_le _ _ _ h1
  | bin he hr hb h1 h2 =>
    refine ⟨_, he, ?_⟩
    unfold Chart.entry
    rw [hr]
    simp only [hb, if_true]
    exact add_le_add (add_le_add (le_refl _) (hok.vit_le _ _ _ h1)) (hok.vit_le _ _ _ h2)

/-- The best initial candidate has the Viterbi cost. -/
theorem gc_one_vit (hok : Spec.Ok ch lc ht) {v : V} {x : RE × R} (h : ch.gc v 1 = [x]) : x.2 = ch.vit v := by
  have hx : x ∈ ch.gc v 1 := by rw [h]; simp
  obtain ⟨e, he, rfl⟩ := gc_mem ch hx
  refine le_antisymm ?_ (entry_vit_le hok he)
  obtain ⟨d, hd⟩ := hok.vit_ex v (List.ne_nil_of_mem he)
  obtain ⟨e', he', hle⟩ := entry_le hok hd
  refine le_trans ?_ hle
  rcases gc_complete ch 1 he' with h' | ⟨-, h'⟩
  · rw [h] at h'; simp only [List.mem_singleton] at h'; rw [h']
  · exact h' _ hx

/-! ### Denotations -/

/-- The ranked edges of an item, where the best one is taken from the initial candidates if the item was not visited yet. -/
def VL (ch : Chart V R) (st : State V R) (v : V) : List (RE × R) := if st.L v = [] then ch.gc v 1 else st.L v

/-- A valid ranked edge and its cost. -/
inductive Val (ch : Chart V R) (lc : V → R) (st : State V R) (v : V) : RE → R → Prop
  | lex {e} : e ∈ ch.forest v → e.rule = none → Val ch lc st v ⟨e, none, none⟩ (lc v)
  | un {e r i x} : e ∈ ch.forest v → e.rule = some r → ch.binary r = false → (VL ch st (ch.left v e))[i]? = some x →
      Val ch lc st v ⟨e, some i, none⟩ (ch.prob r + x.2)
  | bin {e r i x j y} : e ∈ ch.forest v → e.rule = some r → ch.binary r = true → (VL ch st (ch.left v e))[i]? = some x →
      (VL ch st (ch.right v e))[j]? = some y → Val ch lc st v ⟨e, some i, some j⟩ (ch.prob r + x.2 + y.2)

/-- The derivation that a ranked edge stands for. -/
inductive Den (ch : Chart V R) (st : State V R) : V → RE → Deriv → Prop
  | lex {v e} : e.rule = none → Den ch st v ⟨e, none, none⟩ (.lex e)
  | un {v e r i x d} : e.rule = some r → ch.binary r = false → (VL ch st (ch.left v e))[i]? = some x → Den ch st (ch.left v e) x.1 d →
      Den ch st v ⟨e, some i, none⟩ (.un e d)
  | bin {v e r i x d j y d'} : e.rule = some r → ch.binary r = true → (VL ch st (ch.left v e))[i]? = some x →
      Den ch st (ch.left v e) x.1 d → (VL ch st (ch.right v e))[j]? = some y → Den ch st (ch.right v e) y.1 d' →
      Den ch st v ⟨e, some i, some j⟩ (.bin e d d')

theorem Val.edge {st : State V R} {v : V} {re : RE} {c : R} (h : Val ch lc st v re c) : re.edge ∈ ch.forest v := by
  cases h <;> assumption

/-- The ranked edges are extended. -/
def Ext (ch : Chart V R) (st st' : State V R) : Prop := ∀ v, VL ch st v <+: VL ch st' v

theorem Ext.get {st st' : State V R} (h : Ext ch st st') {v : V} {i : Nat} {x : RE × R} (hx : (VL ch st v)[i]? = some x) :
    (VL ch st' v)[i]? = some x := by
  obtain ⟨t, ht⟩ := h v
  rw [← ht, List.getElem?_append_left (by
    rw [List.getElem?_eq_some_iff] at hx; exact hx.1)]
  exact hx

theorem Val.mono {st st' : State V R} (h : Ext ch st st') {v : V} {re : RE} {c : R} (hv : Val ch lc st v re c) :
    Val ch lc st' v re c := by
  cases hv with
  | lex h1 h2 => exact .lex h1 h2
  | un h1 h2 h3 h4 => exact .un h1 h2 h3 (h.get h4)
  | bin h1 h2 h3 h4 h5 => exact .bin h1 h2 h3 (h.get h4) (h.get h5)

theorem Den.mono {st st' : State V R} (h : Ext ch st st') {v : V} {re : RE} {d : Deriv} (hv : Den ch st v re d) :
    Den ch st' v re d := by
  induction hv with
  | lex h1 => exact .lex h1
  | un h1 h2 h3 _ ih => exact .un h1 h2 (h.get h3) ih
  | bin h1 h2 h3 _ h5 _ ih ih' => exact .bin h1 h2 (h.get h3) ih (h.get h5) ih'

/-- A valid entry for an initial candidate. -/
theorem val_entry (hok : Spec.Ok ch lc ht) (st : State V R)
    (hhead : ∀ u, ch.forest u ≠ [] → ∃ x, (VL ch st u)[0]? = some x ∧ x.2 = ch.vit u) {v : V} {e : Edge} (he : e ∈ ch.forest v) :
    Val ch lc st v (ch.entry v e).1 (ch.entry v e).2 := by
  unfold Chart.entry
  cases hr : e.rule with
  | none => simp only; rw [hok.lex v e he hr]; exact .lex he hr
  | some r =>
    simp only
    obtain ⟨x, hx, hxv⟩ := hhead _ (hok.nel v e r he hr)
    split
    next hb =>
      obtain ⟨y, hy, hyv⟩ := hhead _ (hok.ner v e r he hr hb)
      rw [← hxv, ← hyv]
      exact .bin he hr hb hx hy
    next hb =>
      rw [← hxv]
      exact .un he hr (by simpa using hb) hx

/-! ### Termination of an item and processed entries -/

/-- No further derivations of the item can be found. -/
inductive Done (ch : Chart V R) (st : State V R) : V → Prop
  | mk {v} : st.cand v = some [] →
      (∀ x ∈ st.L v, ∀ i r, x.1.rank i = some r → x.1.bump i ∉ st.explored → Done ch st (ch.child v x.1.edge i)) →
      (∀ x ∈ st.L v, ∀ i r, x.1.rank i = some r → x.1.bump i ∉ st.explored → (st.L (ch.child v x.1.edge i)).length ≤ r + 1) →
      Done ch st v

/-- The neighbours of an entry have been considered. -/
def Proc (ch : Chart V R) (st : State V R) (v : V) (re : RE) (i : Bool) : Prop :=
  ∀ r, re.rank i = some r → re.bump i ∉ st.explored →
    Done ch st (ch.child v re.edge i) ∧ (st.L (ch.child v re.edge i)).length ≤ r + 1

theorem Done.cand {st : State V R} {v : V} (h : Done ch st v) : st.cand v = some [] := by cases h; assumption

theorem Done.proc {st : State V R} {v : V} (h : Done ch st v) {x : RE × R} (hx : x ∈ st.L v) (i : Bool) : Proc ch st v x.1 i := by
  cases h with
  | mk h1 h2 h3 => exact fun r hr hb => ⟨h2 x hx i r hr hb, h3 x hx i r hr hb⟩

/-- The elementary steps at an item. -/
inductive Step (ch : Chart V R) (k1 : Nat) : V → State V R → State V R → Prop
  | visit {st v} : ch.forest v ≠ [] → st.cand v = none →
      Step ch k1 v st { st with cand := upd st.cand v (some (ch.gc v k1)) }
  | push {st v x i r p} : (st.L v).getLast? = some x → x.1.rank i = some r → x.1.bump i ∉ st.explored →
      r + 1 < (st.L (ch.child v x.1.edge i)).length → ch.getprob st v (x.1.bump i) = some p →
      Step ch k1 v st (st.push v (x.1.bump i) p)
  | pop {st v c y rest} : st.cand v = some c → popMin c = some (y, rest) →
      (∀ x, (st.L v).getLast? = some x → ∀ i, Proc ch st v x.1 i) →
      Step ch k1 v st { st with L := upd st.L v (st.L v ++ [y]), cand := upd st.cand v (some rest) }

/-- Any number of steps at items below a given height. -/
def Steps (ch : Chart V R) (k1 : Nat) (ht : V → Nat) (h : Nat) : State V R → State V R → Prop :=
  Relation.ReflTransGen fun st st' => ∃ v, ht v < h ∧ Step ch k1 v st st'

/-- A key that is not an initial one. -/
def RE.noninit (re : RE) : Prop := ∃ i r, re.rank i = some (r + 1)

/-- The invariant. -/
structure Inv (ch : Chart V R) (lc : V → R) (k1 : Nat) (st : State V R) : Prop where
  val : ∀ v, ∀ x ∈ st.L v ++ st.candL v, Val ch lc st v x.1 x.2
  nodup : ∀ v, ((st.L v ++ st.candL v).map Prod.fst).Nodup
  expl : ∀ v, ∀ x ∈ st.L v ++ st.candL v, x.1.noninit → x.1 ∈ st.explored
  sorted : ∀ v, (st.L v).Pairwise (fun x y => x.2 ≤ y.2)
  le : ∀ v, ∀ x ∈ st.L v, ∀ y ∈ st.candL v, x.2 ≤ y.2
  fresh : ∀ v c, st.L v = [] → st.cand v = some c → c = ch.gc v k1 ∧ ch.forest v ≠ []
  head : ∀ v, st.L v ≠ [] → (st.L v).take 1 = ch.gc v 1
  unv : ∀ v, st.cand v = none → st.L v = []
  init : ∀ v, st.cand v ≠ none → ∀ x ∈ ch.gc v k1, x ∈ st.L v ++ st.candL v
  proc : ∀ v, ∀ x ∈ (st.L v).dropLast, ∀ i, Proc ch st v x.1 i

theorem Inv.start (k1 : Nat) : Inv ch lc k1 (⟨fun _ => [], fun _ => none, []⟩ : State V R) where
  val := by simp [State.candL]
  nodup := by simp [State.candL]
  expl := by simp [State.candL]
  sorted := by simp
  le := by simp
  fresh := by simp
  head := by simp
  unv := by simp
  init := by simp
  proc := by simp

theorem VL_head_gen (hok : Spec.Ok ch lc ht) {st : State V R} (hhead : ∀ v, st.L v ≠ [] → (st.L v).take 1 = ch.gc v 1) (u : V)
    (hu : ch.forest u ≠ []) : ∃ x, (VL ch st u)[0]? = some x ∧ x.2 = ch.vit u ∧ ch.gc u 1 = [x] := by
  obtain ⟨x, hx, -⟩ := gc_one ch hu
  refine ⟨x, ?_, gc_one_vit hok hx, hx⟩
  unfold VL
  split
  · rw [hx]; rfl
  · rename_i hne
    have := hhead u hne
    rw [hx] at this
    cases hL : st.L u with
    | nil => exact absurd hL hne
    | cons y ys => rw [hL] at this; simpa using this

theorem Inv.VL_head {k1 : Nat} {st : State V R} (hok : Spec.Ok ch lc ht) (hi : Inv ch lc k1 st) (u : V) (hu : ch.forest u ≠ []) :
    ∃ x, (VL ch st u)[0]? = some x ∧ x.2 = ch.vit u := by
  obtain ⟨x, h1, h2, -⟩ := VL_head_gen hok hi.head u hu
  exact ⟨x, h1, h2⟩

theorem VL_of_L {st : State V R} {v : V} (h : st.L v ≠ []) : VL ch st v = st.L v := by unfold VL; rw [if_neg h]

theorem Inv.VL_sorted {k1 : Nat} {st : State V R} (hi : Inv ch lc k1 st) (u : V) : (VL ch st u).Pairwise (fun x y => x.2 ≤ y.2) := by
  unfold VL
  split
  · exact gc_pairwise ch u 1
  · exact hi.sorted u

theorem Inv.VL_nodup {k1 : Nat} {st : State V R} (hi : Inv ch lc k1 st) (u : V) : ((VL ch st u).map Prod.fst).Nodup := by
  unfold VL
  split
  · exact gc_nodup ch u 1
  · have := hi.nodup u
    rw [List.map_append] at this
    exact (List.nodup_append.1 this).1

theorem Inv.VL_val {k1 : Nat} {st : State V R} (hok : Spec.Ok ch lc ht) (hi : Inv ch lc k1 st) (u : V) {x : RE × R}
    (hx : x ∈ VL ch st u) : Val ch lc st u x.1 x.2 := by
  unfold VL at hx
  split at hx
  · obtain ⟨e, he, rfl⟩ := gc_mem ch hx
    exact val_entry hok st (hi.VL_head hok) he
  · exact hi.val u x (List.mem_append_left _ hx)

theorem child_lt (hok : Spec.Ok ch lc ht) {st : State V R} {v : V} {re : RE} {c : R} (h : Val ch lc st v re c) {i : Bool} {r : Nat}
    (hr : re.rank i = some r) : ht (ch.child v re.edge i) < ht v ∧ ch.forest (ch.child v re.edge i) ≠ [] := by
  cases h with
  | lex h1 h2 => cases i <;> cases hr
  | un h1 h2 h3 h4 =>
    cases i with
    | false => exact ⟨hok.acycl _ _ _ h1 h2, hok.nel _ _ _ h1 h2⟩
    | true => cases hr
  | bin h1 h2 h3 h4 h5 =>
    cases i with
    | false => exact ⟨hok.acycl _ _ _ h1 h2, hok.nel _ _ _ h1 h2⟩
    | true => exact ⟨hok.acycr _ _ _ h1 h2 h3, hok.ner _ _ _ h1 h2 h3⟩

theorem Val.rank_get {st : State V R} {v : V} {re : RE} {c : R} (h : Val ch lc st v re c) {i : Bool} {r : Nat}
    (hr : re.rank i = some r) : ∃ x, (VL ch st (ch.child v re.edge i))[r]? = some x := by
  cases h with
  | lex h1 h2 => cases i <;> cases hr
  | un h1 h2 h3 h4 =>
    cases i with
    | false => cases hr; exact ⟨_, h4⟩
    | true => cases hr
  | bin h1 h2 h3 h4 h5 =>
    cases i with
    | false => cases hr; exact ⟨_, h4⟩
    | true => cases hr; exact ⟨_, h5⟩

/-! ### Preservation of the invariant -/

theorem upd_same {α : Type} (f : V → α) (v : V) (a : α) : upd f v a v = a := by simp [upd]

theorem upd_ne {α : Type} (f : V → α) {v w : V} (a : α) (h : w ≠ v) : upd f v a w = f w := by simp [upd, h]

theorem rankCost_get {k1 : Nat} {st : State V R} (hok : Spec.Ok ch lc ht) (hi : Inv ch lc k1 st) {u : V} (hu : ch.forest u ≠ [])
    {r : Nat} {x : RE × R} (hx : (VL ch st u)[r]? = some x) : ch.rankCost st u r = some x.2 := by
  cases r with
  | zero =>
    obtain ⟨y, hy, hv⟩ := hi.VL_head hok u hu
    rw [hx] at hy
    cases hy
    rw [Chart.rankCost, hv]
  | succ r =>
    unfold VL at hx
    split at hx
    · obtain ⟨y, hy, -⟩ := gc_one ch hu
      rw [hy] at hx
      simp at hx
    · rw [Chart.rankCost, hx]; rfl

theorem pairwise_get {xs : List (RE × R)} (h : xs.Pairwise (fun x y => x.2 ≤ y.2)) {i j : Nat} {x y : RE × R} (hx : xs[i]? = some x)
    (hy : xs[j]? = some y) (hij : i ≤ j) : x.2 ≤ y.2 := by
  rw [List.getElem?_eq_some_iff] at hx hy
  obtain ⟨hi, rfl⟩ := hx
  obtain ⟨hj, rfl⟩ := hy
  rcases Nat.lt_or_eq_of_le hij with hlt | rfl
  · exact (List.pairwise_iff_getElem.1 h) i j hi hj hlt
  · exact le_refl _

theorem getprob_spec {k1 : Nat} {st : State V R} (hok : Spec.Ok ch lc ht) (hi : Inv ch lc k1 st) {v : V} {re : RE} {c : R}
    (h : Val ch lc st v re c) {i : Bool} {r : Nat} (hr : re.rank i = some r) (hlen : r + 1 < (st.L (ch.child v re.edge i)).length) :
    ∃ p, ch.getprob st v (re.bump i) = some p ∧ Val ch lc st v (re.bump i) p ∧ c ≤ p := by
  have hne : st.L (ch.child v re.edge i) ≠ [] := by intro h0; rw [h0] at hlen; simp at hlen
  have hVL := VL_of_L (ch := ch) hne
  have hget : (VL ch st (ch.child v re.edge i))[r + 1]? = some ((st.L (ch.child v re.edge i))[r + 1]) := by
    rw [hVL, List.getElem?_eq_getElem hlen]
  generalize (st.L (ch.child v re.edge i))[r + 1] = z at hget
  cases h with
  | lex h1 h2 => cases i <;> cases hr
  | un h1 h2 h3 h4 =>
    cases i with
    | true => cases hr
    | false =>
      cases hr
      have hu := hok.nel _ _ _ h1 h2
      refine ⟨_, ?_, Val.un h1 h2 h3 hget, ?_⟩
      · simp only [Chart.getprob, RE.bump, h2, Option.map_some]
        rw [rankCost_get hok hi hu hget]
      · have := pairwise_get (hi.VL_sorted _) h4 hget (by omega)
        gcongr
  | bin h1 h2 h3 h4 h5 =>
    have hu := hok.nel _ _ _ h1 h2
    have hu' := hok.ner _ _ _ h1 h2 h3
    cases i with
    | false =>
      cases hr
      refine ⟨_, ?_, Val.bin h1 h2 h3 hget h5, ?_⟩
      · simp only [Chart.getprob, RE.bump, h2, Option.map_some]
        rw [rankCost_get hok hi hu hget]
        simp only
        rw [rankCost_get hok hi hu' h5]
        rfl
      · have := pairwise_get (hi.VL_sorted _) h4 hget (by omega)
        gcongr
    | true =>
      cases hr
      refine ⟨_, ?_, Val.bin h1 h2 h3 h4 hget, ?_⟩
      · simp only [Chart.getprob, RE.bump, h2, Option.map_some]
        rw [rankCost_get hok hi hu h4]
        simp only
        rw [rankCost_get hok hi hu' hget]
        rfl
      · have := pairwise_get (hi.VL_sorted _) h5 hget (by omega)
        gcongr

theorem getLast_mem {xs : List (RE × R)} {x : RE × R} (h : xs.getLast? = some x) : x ∈ xs := List.mem_of_getLast? h

theorem getLast_max {xs : List (RE × R)} (hs : xs.Pairwise (fun x y => x.2 ≤ y.2)) {x : RE × R} (h : xs.getLast? = some x) :
    ∀ y ∈ xs, y.2 ≤ x.2 := by
  intro y hy
  obtain ⟨ys, rfl⟩ := List.getLast?_eq_some_iff.1 h
  rcases List.mem_append.1 hy with hy | hy
  · exact (List.pairwise_append.1 hs).2.2 y hy x (by simp)
  · simp only [List.mem_singleton] at hy; rw [hy]

theorem dropLast_or_last {xs : List (RE × R)} {x : RE × R} (h : x ∈ xs) : x ∈ xs.dropLast ∨ xs.getLast? = some x := by
  rcases List.eq_nil_or_concat xs with rfl | ⟨ys, y, rfl⟩
  · cases h
  · rcases List.mem_append.1 (by simpa using h : x ∈ ys ++ [y]) with h | h
    · left; simpa using h
    · right; simp only [List.mem_singleton] at h; subst h; simp

theorem bump_noninit {re : RE} {i : Bool} {r : Nat} (h : re.rank i = some r) : (re.bump i).noninit := by
  cases i with
  | false => exact ⟨false, r, by simp only [RE.rank] at h; simp [RE.rank, RE.bump, h]⟩
  | true => exact ⟨true, r, by simp only [RE.rank] at h; simp [RE.rank, RE.bump, h]⟩

theorem entry_init (v : V) (e : Edge) : ¬ (ch.entry v e).1.noninit := by
  rintro ⟨i, r, h⟩
  unfold Chart.entry at h
  split at h
  · cases i <;> simp [RE.rank] at h
  · split at h <;> cases i <;> simp [RE.rank] at h

/-- A step at an item changes nothing at other items, and extends the explored set. -/
theorem Step.frame {k1 : Nat} {v : V} {st st' : State V R} (h : Step ch k1 v st st') :
    (∀ w, w ≠ v → st'.L w = st.L w ∧ st'.cand w = st.cand w) ∧ ∀ re ∈ st.explored, re ∈ st'.explored := by
  cases h with
  | visit h1 h2 => exact ⟨fun w hw => ⟨rfl, upd_ne _ _ hw⟩, fun _ h => h⟩
  | push h1 h2 h3 h4 h5 => exact ⟨fun w hw => ⟨rfl, upd_ne _ _ hw⟩, fun _ h => List.mem_cons_of_mem _ h⟩
  | pop h1 h2 h3 => exact ⟨fun w hw => ⟨upd_ne _ _ hw, upd_ne _ _ hw⟩, fun _ h => h⟩

theorem Step.not_done {k1 : Nat} {v : V} {st st' : State V R} (h : Step ch k1 v st st') : ¬ Done ch st v := by
  intro hd
  cases h with
  | visit h1 h2 => rw [hd.cand] at h2; cases h2
  | push h1 h2 h3 h4 h5 =>
    have := (hd.proc (getLast_mem h1) _ _ h2 h3).2
    omega
  | pop h1 h2 h3 =>
    rw [hd.cand] at h1
    cases h1
    simp [popMin] at h2

theorem Done.step {k1 : Nat} {v w : V} {st st' : State V R} (h : Step ch k1 v st st') (hd : Done ch st w) :
    Done ch st' w ∧ st'.L w = st.L w := by
  have hne : ∀ u, Done ch st u → u ≠ v := fun u hu he => h.not_done (he ▸ hu)
  obtain ⟨hf, he⟩ := h.frame
  refine ⟨?_, (hf w (hne w hd)).1⟩
  induction hd with
  | @mk u h1 h2 h3 ih =>
    have hu : Done ch st u := .mk h1 h2 h3
    have hfu := hf u (hne u hu)
    refine .mk (by rw [hfu.2]; exact h1) ?_ ?_
    · intro x hx i r hr hb
      rw [hfu.1] at hx
      exact ih x hx i r hr (fun hm => hb (he _ hm))
    · intro x hx i r hr hb
      rw [hfu.1] at hx
      have hb' := fun hm => hb (he _ hm)
      rw [(hf _ (hne _ (h2 x hx i r hr hb'))).1]
      exact h3 x hx i r hr hb'

theorem Proc.step {k1 : Nat} {v w : V} {st st' : State V R} (h : Step ch k1 v st st') {re : RE} {i : Bool} (hp : Proc ch st w re i) :
    Proc ch st' w re i := by
  intro r hr hb
  obtain ⟨h1, h2⟩ := hp r hr (fun hm => hb (h.frame.2 _ hm))
  obtain ⟨h3, h4⟩ := h1.step h
  exact ⟨h3, by rw [h4]; exact h2⟩

/-- The first entry taken from the initial candidates. -/
theorem popMin_gc {k1 : Nat} {v : V} {y : RE × R} {rest : List (RE × R)} (hf : ch.forest v ≠ []) (h : popMin (ch.gc v k1) = some (y, rest)) :
    ch.gc v 1 = [y] := by
  obtain ⟨A, B, h1, -, h3, -⟩ := popMin_some h
  have hk : 0 < k1 := by
    rcases Nat.eq_zero_or_pos k1 with rfl | hk
    · rw [gc_eq] at h1; simp at h1
    · exact hk
  obtain ⟨x, hx, hx'⟩ := gc_one ch hf
  obtain ⟨r, hr⟩ := hx' k1 hk
  cases A with
  | nil => rw [h1] at hr; simp at hr; rw [hx, hr.1]
  | cons a A =>
    have := gc_pairwise ch v k1
    rw [h1] at this
    have h4 := List.rel_of_pairwise_cons this (a' := y) (by simp)
    exact absurd (h3 a (by simp)) (not_lt.2 h4)

theorem Step.ext {k1 : Nat} {v : V} {st st' : State V R} (h : Step ch k1 v st st') (hi : Inv ch lc k1 st) : Ext ch st st' := by
  cases h with
  | visit h1 h2 => exact fun w => List.prefix_refl _
  | push h1 h2 h3 h4 h5 => exact fun w => List.prefix_refl _
  | @pop _ _ c y rest h1 h2 h3 =>
    intro w
    by_cases hw : w = v
    · subst hw
      have h4 : VL ch { st with L := upd st.L w (st.L w ++ [y]), cand := upd st.cand w (some rest) } w = st.L w ++ [y] := by
        unfold VL
        simp only [upd_same]
        rw [if_neg (by simp)]
      rw [h4]
      unfold VL
      split
      · rename_i h0
        obtain ⟨rfl, hf⟩ := hi.fresh w c h0 h1
        rw [popMin_gc hf h2, h0]
        exact List.prefix_refl _
      · exact List.prefix_append _ _
    · unfold VL
      simp only [upd_ne _ _ hw]
      exact List.prefix_refl _

theorem candL_of {st : State V R} {v : V} {c : List (RE × R)} (h : st.cand v = some c) : st.candL v = c := by simp [State.candL, h]

theorem Inv.step {k1 : Nat} {v : V} {st st' : State V R} (hok : Spec.Ok ch lc ht) (h : Step ch k1 v st st') (hi : Inv ch lc k1 st) :
    Inv ch lc k1 st' := by
  have hext := h.ext hi
  have hproc : ∀ w re i, Proc ch st w re i → Proc ch st' w re i := fun w re i hp => hp.step h
  cases h with
  | visit h1 h2 =>
    have hL0 := hi.unv v h2
    have hcL : ∀ w, (State.candL { st with cand := upd st.cand v (some (ch.gc v k1)) } w) = if w = v then ch.gc v k1 else st.candL w := by
      intro w; unfold State.candL upd; simp only; split <;> simp
    have hVLh := hi.VL_head hok
    refine ⟨?_, ?_, ?_, hi.sorted, ?_, ?_, hi.head, ?_, ?_, fun w x hx i => hproc _ _ _ (hi.proc w x hx i)⟩
    · intro w x hx
      rw [hcL] at hx
      refine Val.mono hext ?_
      split at hx
      next hw =>
        subst hw
        rw [hL0, List.nil_append] at hx
        obtain ⟨e, he, rfl⟩ := gc_mem ch hx
        exact val_entry hok st hVLh he
      next hw => exact hi.val w x hx
    · intro w
      rw [hcL]
      split
      next hw => subst hw; rw [hL0]; exact gc_nodup ch w k1
      next hw => exact hi.nodup w
    · intro w x hx hn
      rw [hcL] at hx
      split at hx
      next hw =>
        subst hw
        rw [hL0, List.nil_append] at hx
        obtain ⟨e, he, rfl⟩ := gc_mem ch hx
        exact absurd hn (entry_init _ _)
      next hw => exact hi.expl w x hx hn
    · intro w x hx y hy
      rw [hcL] at hy
      split at hy
      next hw => subst hw; rw [hL0] at hx; cases hx
      next hw => exact hi.le w x hx y hy
    · intro w c hL hc
      by_cases hw : w = v
      · subst hw
        simp only [upd_same, Option.some.injEq] at hc
        exact ⟨hc.symm, h1⟩
      · simp only [upd_ne _ _ hw] at hc
        exact hi.fresh w c hL hc
    · intro w hc
      by_cases hw : w = v
      · subst hw; simp only [upd_same, reduceCtorEq] at hc
      · simp only [upd_ne _ _ hw] at hc
        exact hi.unv w hc
    · intro w hc x hx
      rw [hcL]
      split
      next hw => subst hw; exact List.mem_append_right _ hx
      next hw =>
        simp only [upd_ne _ _ hw] at hc
        exact hi.init w hc x hx
  | @push _ _ x i r p h1 h2 h3 h4 h5 =>
    have hxm := getLast_mem h1
    have hxv := hi.val v x (List.mem_append_left _ hxm)
    obtain ⟨p', hp1, hp2, hp3⟩ := getprob_spec hok hi hxv h2 h4
    rw [h5] at hp1
    cases hp1
    have hcne : st.cand v ≠ none := by
      intro hc
      rw [hi.unv v hc] at hxm
      cases hxm
    have hcL : ∀ w, (st.push v (x.1.bump i) p).candL w = if w = v then st.candL v ++ [(x.1.bump i, p)] else st.candL w := by
      intro w; unfold State.push State.candL upd; simp only; split <;> simp
    have hL : ∀ w, (st.push v (x.1.bump i) p).L w = st.L w := fun w => rfl
    refine ⟨?_, ?_, ?_, hi.sorted, ?_, ?_, hi.head, ?_, ?_, fun w x hx i => hproc _ _ _ (hi.proc w x hx i)⟩
    · intro w y hy
      rw [hcL, hL] at hy
      refine Val.mono hext ?_
      split at hy
      next hw =>
        subst hw
        rw [← List.append_assoc] at hy
        rcases List.mem_append.1 hy with hy | hy
        · exact hi.val w y hy
        · simp only [List.mem_singleton] at hy; subst hy; exact hp2
      next hw => exact hi.val w y hy
    · intro w
      rw [hcL, hL]
      split
      next hw =>
        subst hw
        rw [← List.append_assoc, List.map_append, List.nodup_append]
        refine ⟨hi.nodup w, by simp, ?_⟩
        intro a ha b hb
        simp only [List.map_cons, List.map_nil, List.mem_singleton] at hb
        subst hb
        rintro rfl
        obtain ⟨y, hy, he⟩ := List.mem_map.1 ha
        have := hi.expl w y hy (by rw [he]; exact bump_noninit h2)
        rw [he] at this
        exact h3 this
      next hw => exact hi.nodup w
    · intro w y hy hn
      rw [hcL, hL] at hy
      split at hy
      next hw =>
        subst hw
        rw [← List.append_assoc] at hy
        rcases List.mem_append.1 hy with hy | hy
        · exact List.mem_cons_of_mem _ (hi.expl w y hy hn)
        · simp only [List.mem_singleton] at hy; subst hy; exact List.mem_cons_self ..
      next hw => exact List.mem_cons_of_mem _ (hi.expl w y hy hn)
    · intro w a ha b hb
      rw [hcL] at hb
      rw [hL] at ha
      split at hb
      next hw =>
        subst hw
        rcases List.mem_append.1 hb with hb | hb
        · exact hi.le w a ha b hb
        · simp only [List.mem_singleton] at hb; subst hb
          exact (getLast_max (hi.sorted w) h1 a ha).trans hp3
      next hw => exact hi.le w a ha b hb
    · intro w c hLw hc
      rw [hL] at hLw
      by_cases hw : w = v
      · subst hw; rw [hLw] at hxm; cases hxm
      · simp only [State.push, upd_ne _ _ hw] at hc
        exact hi.fresh w c hLw hc
    · intro w hc
      by_cases hw : w = v
      · subst hw; simp only [State.push, upd_same, reduceCtorEq] at hc
      · simp only [State.push, upd_ne _ _ hw] at hc
        exact hi.unv w hc
    · intro w hc y hy
      rw [hcL, hL]
      split
      next hw =>
        subst hw
        rw [← List.append_assoc]
        exact List.mem_append_left _ (hi.init w hcne y hy)
      next hw =>
        simp only [State.push, upd_ne _ _ hw] at hc
        exact hi.init w hc y hy
  | @pop _ _ c y rest h1 h2 h3 =>
    obtain ⟨A, B, hc, hrest, hA, hB⟩ := popMin_some h2
    have hcand : st.candL v = A ++ y :: B := by rw [candL_of h1, hc]
    have hL : ∀ w, upd st.L v (st.L v ++ [y]) w = if w = v then st.L v ++ [y] else st.L w := fun w => rfl
    have hcL : ∀ w, State.candL { st with L := upd st.L v (st.L v ++ [y]), cand := upd st.cand v (some rest) } w =
        if w = v then A ++ B else st.candL w := by
      intro w; unfold State.candL upd; simp only; split <;> simp [hrest]
    have hperm : (st.L v ++ [y] ++ (A ++ B)).Perm (st.L v ++ st.candL v) := by
      rw [hcand, List.append_assoc]
      refine List.Perm.append_left _ ?_
      exact (List.perm_middle (l₁ := A) (l₂ := B) (a := y)).symm
    refine ⟨?_, ?_, ?_, ?_, ?_, ?_, ?_, ?_, ?_, ?_⟩
    · intro w x hx
      simp only [hL, hcL] at hx
      refine Val.mono hext ?_
      by_cases hw : w = v
      · subst hw
        simp only [if_true] at hx
        exact hi.val w x (hperm.mem_iff.1 hx)
      · simp only [hw, if_false] at hx
        exact hi.val w x hx
    · intro w
      simp only [hL, hcL]
      by_cases hw : w = v
      · subst hw
        simp only [if_true]
        exact (hperm.map _).nodup_iff.2 (hi.nodup w)
      · simp only [hw, if_false]
        exact hi.nodup w
    · intro w x hx hn
      simp only [hL, hcL] at hx
      by_cases hw : w = v
      · subst hw
        simp only [if_true] at hx
        exact hi.expl w x (hperm.mem_iff.1 hx) hn
      · simp only [hw, if_false] at hx
        exact hi.expl w x hx hn
    · intro w
      simp only [hL]
      by_cases hw : w = v
      · subst hw
        simp only [if_true]
        rw [List.pairwise_append]
        refine ⟨hi.sorted w, by simp, ?_⟩
        intro a ha b hb
        simp only [List.mem_singleton] at hb
        subst hb
        exact hi.le w a ha b (by rw [hcand]; simp)
      · simp only [hw, if_false]
        exact hi.sorted w
    · intro w a ha b hb
      simp only [hL] at ha
      rw [hcL] at hb
      by_cases hw : w = v
      · subst hw
        simp only [if_true] at ha hb
        rcases List.mem_append.1 ha with ha | ha
        · refine hi.le w a ha b ?_
          rw [hcand]
          rcases List.mem_append.1 hb with hb | hb
          · exact List.mem_append_left _ hb
          · exact List.mem_append_right _ (List.mem_cons_of_mem _ hb)
        · simp only [List.mem_singleton] at ha
          subst ha
          rcases List.mem_append.1 hb with hb | hb
          · exact (hA b hb).le
          · exact hB b hb
      · simp only [hw, if_false] at ha hb
        exact hi.le w a ha b hb
    · intro w c' hLw hc'
      simp only [hL] at hLw
      by_cases hw : w = v
      · subst hw; simp at hLw
      · simp only [hw, if_false] at hLw
        simp only [upd_ne _ _ hw] at hc'
        exact hi.fresh w c' hLw hc'
    · intro w hLw
      simp only [hL] at hLw ⊢
      by_cases hw : w = v
      · subst hw
        simp only [if_true]
        by_cases h0 : st.L w = []
        · obtain ⟨rfl, hf⟩ := hi.fresh w c h0 h1
          rw [h0, popMin_gc hf h2]
          rfl
        · rw [List.take_append_of_le_length (by
            have := List.length_pos_iff.2 h0; omega)]
          exact hi.head w h0
      · simp only [hw, if_false] at hLw ⊢
        exact hi.head w hLw
    · intro w hc'
      by_cases hw : w = v
      · subst hw; simp only [upd_same, reduceCtorEq] at hc'
      · simp only [upd_ne _ _ hw] at hc' ⊢
        exact hi.unv w hc'
    · intro w hc' x hx
      simp only [hL, hcL]
      by_cases hw : w = v
      · subst hw
        simp only [if_true]
        exact hperm.mem_iff.2 (hi.init w (by rw [h1]; simp) x hx)
      · simp only [hw, if_false]
        simp only [upd_ne _ _ hw] at hc'
        exact hi.init w hc' x hx
    · intro w x hx i
      simp only [hL] at hx
      refine hproc _ _ _ ?_
      by_cases hw : w = v
      · subst hw
        simp only [if_true, List.dropLast_concat] at hx
        rcases dropLast_or_last hx with hx | hx
        · exact hi.proc w x hx i
        · exact h3 x hx i
      · simp only [hw, if_false] at hx
        exact hi.proc w x hx i

end Disco.Kbest
