import Verif.Parse.KbestInv
/-!
# C26: executions of the k-best algorithm are sequences of elementary steps
-/
set_option linter.unusedSectionVars false
namespace Disco.Kbest

variable {V R : Type} [DecidableEq V] [AddCommMonoid R] [LinearOrder R] [IsOrderedAddMonoid R]
variable {ch : Chart V R} {lc : V → R} {ht : V → Nat} {k1 : Nat}

theorem Ext.refl (st : State V R) : Ext ch st st := fun _ => List.prefix_refl _

theorem Ext.trans {a b c : State V R} (h1 : Ext ch a b) (h2 : Ext ch b c) : Ext ch a c := fun v => (h1 v).trans (h2 v)

theorem Steps.inv (hok : Spec.Ok ch lc ht) {h : Nat} {st st' : State V R} (hs : Steps ch k1 ht h st st') (hi : Inv ch lc k1 st) :
    Inv ch lc k1 st' ∧ Ext ch st st' := by
  induction hs with
  | refl => exact ⟨hi, .refl _⟩
  | tail _ hstep ih =>
    obtain ⟨v, -, hv⟩ := hstep
    exact ⟨ih.1.step hok hv, ih.2.trans (hv.ext ih.1)⟩

theorem Steps.frame {h : Nat} {st st' : State V R} (hs : Steps ch k1 ht h st st') :
    (∀ w, h ≤ ht w → st'.L w = st.L w ∧ st'.cand w = st.cand w) ∧ (∀ re ∈ st.explored, re ∈ st'.explored) ∧
    (∀ w, Done ch st w → Done ch st' w ∧ st'.L w = st.L w) ∧ ∀ w re i, Proc ch st w re i → Proc ch st' w re i := by
  induction hs with
  | refl => exact ⟨fun _ _ => ⟨rfl, rfl⟩, fun _ h => h, fun _ h => ⟨h, rfl⟩, fun _ _ _ h => h⟩
  | tail _ hstep ih =>
    obtain ⟨v, hv, hstep⟩ := hstep
    obtain ⟨i1, i2, i3, i4⟩ := ih
    obtain ⟨f1, f2⟩ := hstep.frame
    refine ⟨?_, fun re hre => f2 _ (i2 re hre), ?_, fun w re i hp => (i4 w re i hp).step hstep⟩
    · intro w hw
      obtain ⟨a, b⟩ := f1 w (by rintro rfl; omega)
      obtain ⟨c, d⟩ := i1 w hw
      exact ⟨a.trans c, b.trans d⟩
    · intro w hd
      obtain ⟨a, b⟩ := i3 w hd
      obtain ⟨c, d⟩ := a.step hstep
      exact ⟨c, d.trans b⟩

theorem Steps.mono {h h' : Nat} (hh : h ≤ h') {st st' : State V R} (hs : Steps ch k1 ht h st st') : Steps ch k1 ht h' st st' :=
  by
  induction hs with
  | refl => exact .refl
  | tail _ hstep ih =>
    obtain ⟨v, hv, hstep⟩ := hstep
    exact ih.tail ⟨v, Nat.lt_of_lt_of_le hv hh, hstep⟩

theorem Steps.single {h : Nat} {v : V} (hv : ht v < h) {st st' : State V R} (hs : Step ch k1 v st st') : Steps ch k1 ht h st st' :=
  Relation.ReflTransGen.single ⟨v, hv, hs⟩

theorem Steps.trans {h : Nat} {a b c : State V R} (h1 : Steps ch k1 ht h a b) (h2 : Steps ch k1 ht h b c) : Steps ch k1 ht h a c :=
  Relation.ReflTransGen.trans h1 h2

theorem Steps.refl {h : Nat} (a : State V R) : Steps ch k1 ht h a a := Relation.ReflTransGen.refl

/-- What is expected of a recursive call for items below a given height. -/
def RecOk (ch : Chart V R) (lc : V → R) (ht : V → Nat) (k1 : Nat) (f : V → Nat → State V R → Option (State V R)) (h : Nat) : Prop :=
  ∀ u k st, Inv ch lc k1 st → ht u < h → ch.forest u ≠ [] →
    ∃ st', f u k st = some st' ∧ Steps ch k1 ht h st st' ∧ (k ≤ (st'.L u).length ∨ Done ch st' u)

/-- The recursive call, or none for items without children. -/
def RecOk' (ch : Chart V R) (lc : V → R) (ht : V → Nat) (k1 : Nat) (rec : Option (V → Nat → State V R → Option (State V R))) (h : Nat) : Prop :=
  (rec = none ∧ h = 0) ∨ ∃ f, rec = some f ∧ RecOk ch lc ht k1 f h

theorem extend_spec (hok : Spec.Ok ch lc ht) {rec : Option (V → Nat → State V R → Option (State V R))} {v : V}
    (hrec : RecOk' ch lc ht k1 rec (ht v)) {st : State V R} (hi : Inv ch lc k1 st) {x : RE × R} (hx : (st.L v).getLast? = some x) (i : Bool) :
    ∃ st', ch.extend rec v x.1 i st = some st' ∧ Steps ch k1 ht (ht v + 1) st st' ∧ st'.L v = st.L v ∧ Proc ch st' v x.1 i := by
  have hxm := getLast_mem hx
  have hval := hi.val v x (List.mem_append_left _ hxm)
  cases hr : x.1.rank i with
  | none =>
    refine ⟨st, by unfold Chart.extend; rw [hr], .refl _, rfl, ?_⟩
    intro r h; rw [hr] at h; cases h
  | some r =>
    obtain ⟨hlt, hne⟩ := child_lt hok hval hr
    rcases hrec with ⟨-, h0⟩ | ⟨f, rfl, hf⟩
    · omega
    · obtain ⟨st1, hf1, hs1, hend⟩ := hf (ch.child v x.1.edge i) (r + 1 + 1) st hi hlt hne
      obtain ⟨hi1, hext1⟩ := hs1.inv hok hi
      obtain ⟨fr1, fr2, fr3, fr4⟩ := hs1.frame
      have hLv := (fr1 v (Nat.le_refl _)).1
      unfold Chart.extend
      rw [hr]
      simp only [hf1]
      by_cases hc : r + 1 < (st1.L (ch.child v x.1.edge i)).length ∧ x.1.bump i ∉ st1.explored
      · rw [if_pos hc]
        obtain ⟨p, hp, -, -⟩ := getprob_spec hok hi1 (hval.mono hext1) hr hc.1
        rw [hp]
        have hstep : Step ch k1 v st1 (st1.push v (x.1.bump i) p) := .push (by rw [hLv]; exact hx) hr hc.2 hc.1 hp
        refine ⟨_, rfl, (hs1.mono (by omega)).trans (.single (by omega) hstep), hLv, ?_⟩
        intro r' _ hb
        exact absurd (List.mem_cons_self ..) hb
      · rw [if_neg hc]
        refine ⟨st1, rfl, hs1.mono (by omega), hLv, ?_⟩
        intro r' hr' hb
        rw [hr] at hr'
        cases hr'
        have hlen : ¬ r + 1 < (st1.L (ch.child v x.1.edge i)).length := fun h => hc ⟨h, hb⟩
        rcases hend with hend | hend
        · omega
        · exact ⟨hend, by omega⟩

theorem neighbours_spec (hok : Spec.Ok ch lc ht) {rec : Option (V → Nat → State V R → Option (State V R))} {v : V}
    (hrec : RecOk' ch lc ht k1 rec (ht v)) {st : State V R} (hi : Inv ch lc k1 st) {x : RE × R} (hx : (st.L v).getLast? = some x) :
    ∃ st', ch.neighbours rec v x.1 st = some st' ∧ Steps ch k1 ht (ht v + 1) st st' ∧ st'.L v = st.L v ∧ ∀ i, Proc ch st' v x.1 i := by
  have hval := hi.val v x (List.mem_append_left _ (getLast_mem hx))
  unfold Chart.neighbours
  cases hl : x.1.left with
  | none =>
    refine ⟨st, rfl, .refl _, rfl, ?_⟩
    intro i r hr
    have hx1 : x.1.right = none := by
      generalize x.1 = re at hval hl
      generalize x.2 = c at hval
      cases hval <;> simp_all
    cases i
    · simp only [RE.rank, hl] at hr; cases hr
    · simp only [RE.rank, hx1] at hr; cases hr
  | some l =>
    obtain ⟨st1, h1, h2, h3, h4⟩ := extend_spec hok hrec hi hx false
    obtain ⟨hi1, -⟩ := h2.inv hok hi
    obtain ⟨st2, h5, h6, h7, h8⟩ := extend_spec hok hrec hi1 (by rw [h3]; exact hx) true
    simp only [h1]
    refine ⟨st2, h5, h2.trans h6, h7.trans h3, ?_⟩
    intro i
    cases i
    · exact h6.frame.2.2.2 _ _ _ h4
    · exact h8

theorem iter_spec (hok : Spec.Ok ch lc ht) (hk1 : 0 < k1) {rec : Option (V → Nat → State V R → Option (State V R))} {v : V}
    (hrec : RecOk' ch lc ht k1 rec (ht v)) {st : State V R} (hi : Inv ch lc k1 st) (hc : st.cand v ≠ none) :
    ∃ st' b, ch.iter rec v st = some (st', b) ∧ Steps ch k1 ht (ht v + 1) st st' ∧
      ((b = true ∧ Done ch st' v ∧ st'.L v ≠ []) ∨ (b = false ∧ (st'.L v).length = (st.L v).length + 1 ∧ st'.cand v ≠ none)) := by
  have hmain : ∃ st1, ch.lazynext rec v st = some st1 ∧ Steps ch k1 ht (ht v + 1) st st1 ∧ st1.L v = st.L v ∧
        (∀ x, (st1.L v).getLast? = some x → ∀ i, Proc ch st1 v x.1 i) := by
    unfold Chart.lazynext
    cases hx : (st.L v).getLast? with
    | none => exact ⟨st, rfl, .refl _, rfl, fun x h => by rw [hx] at h; cases h⟩
    | some x =>
      obtain ⟨st1, h1, h2, h3, h4⟩ := neighbours_spec hok hrec hi hx
      refine ⟨st1, h1, h2, h3, ?_⟩
      intro y hy i
      rw [h3, hx] at hy
      cases hy
      exact h4 i
  obtain ⟨st1, h1, h2, h3, h4⟩ := hmain
  obtain ⟨hi1, -⟩ := h2.inv hok hi
  have hc1 : st1.cand v ≠ none := by
    -- a visited item stays visited
    clear h1 h4 h3 hi1
    induction h2 with
    | refl => exact hc
    | tail _ hstep ih =>
      obtain ⟨w, -, hstep⟩ := hstep
      by_cases hw : v = w
      · subst hw
        cases hstep with
        | visit a b => exact absurd b ih
        | push a b c d e => simp [State.push, upd_same]
        | pop a b c => simp [upd_same]
      · rw [(hstep.frame.1 v hw).2]; exact ih
  unfold Chart.iter
  rw [h1]
  simp only
  cases hcand : st1.cand v with
  | none => exact absurd hcand hc1
  | some c =>
    rw [candL_of hcand]
    cases hp : popMin c with
    | none =>
      rw [popMin_none] at hp
      subst hp
      have hL : st1.L v ≠ [] := by
        intro h0
        obtain ⟨h5, h6⟩ := hi1.fresh v [] h0 hcand
        exact gc_ne ch h6 hk1 h5.symm
      refine ⟨st1, true, rfl, h2, .inl ⟨rfl, ?_, hL⟩⟩
      have hpr : ∀ x ∈ st1.L v, ∀ i, Proc ch st1 v x.1 i := by
        intro x hx i
        rcases dropLast_or_last hx with hx | hx
        · exact hi1.proc v x hx i
        · exact h4 x hx i
      exact .mk hcand (fun x hx i r hr hb => (hpr x hx i r hr hb).1) (fun x hx i r hr hb => (hpr x hx i r hr hb).2)
    | some yr =>
      obtain ⟨y, rest⟩ := yr
      refine ⟨_, false, rfl, h2.trans (.single (by omega) (.pop hcand hp h4)), .inr ⟨rfl, ?_, ?_⟩⟩
      · simp [upd_same, h3]
      · simp [upd_same]

/-- A bound on the number of iterations that are left. -/
def left (k : Nat) (inr : Bool) (len : Nat) : Nat := (k - len) + (if inr then 1 else if len = 0 then 4 else 2)

theorem loop_spec (hok : Spec.Ok ch lc ht) (hk1 : 0 < k1) {rec : Option (V → Nat → State V R → Option (State V R))} {v : V}
    (hrec : RecOk' ch lc ht k1 rec (ht v)) (k : Nat) (n : Nat) : ∀ (inr : Bool) (st : State V R), Inv ch lc k1 st → st.cand v ≠ none →
    (inr = true → st.L v ≠ []) → left k inr (st.L v).length ≤ n →
    ∃ st', ch.loop rec v k n inr st = some st' ∧ Steps ch k1 ht (ht v + 1) st st' ∧ (k ≤ (st'.L v).length ∨ Done ch st' v) ∧
      st'.L v ≠ [] := by
  induction n with
  | zero => intro inr st _ _ _ h; unfold left at h; split at h <;> (try split at h) <;> omega
  | succ n ih =>
    intro inr st hi hc hinr hn
    rw [Chart.loop]
    by_cases hcond : inr = false ∨ (st.L v).length < k
    · rw [if_pos hcond]
      obtain ⟨st1, b, h1, h2, h3⟩ := iter_spec hok hk1 hrec hi hc
      rw [h1]
      rcases h3 with ⟨rfl, h3, h4⟩ | ⟨rfl, h3, h4⟩
      · exact ⟨st1, rfl, h2, .inr h3, h4⟩
      · obtain ⟨hi1, -⟩ := h2.inv hok hi
        obtain ⟨st2, h5, h6, h7, h8⟩ := ih (inr || !(st.L v).isEmpty) st1 hi1 h4 (by
          intro _ h0; rw [h0] at h3; simp at h3) (by
          rw [h3]
          unfold left at hn ⊢
          cases inr with
          | true =>
            simp only [Bool.true_or, if_true] at hn ⊢
            rcases hcond with h | h
            · cases h
            · omega
          | false =>
            simp only [Bool.false_or, Bool.false_eq_true, if_false] at hn ⊢
            by_cases h0 : st.L v = []
            · simp only [h0, List.length_nil, if_true, List.isEmpty_nil, Bool.not_true, Bool.false_eq_true, if_false] at hn ⊢
              rw [if_neg (by omega)]
              omega
            · have hl : (st.L v).length ≠ 0 := by simpa using h0
              simp only [hl, if_false] at hn
              have : (st.L v).isEmpty = false := by simpa using h0
              simp only [this, Bool.not_false, if_true]
              omega)
        exact ⟨st2, h5, h2.trans h6, h7, h8⟩
    · rw [if_neg hcond]
      have h1 : inr = true := by cases inr <;> simp_all
      exact ⟨st, rfl, .refl _, .inl (by omega), hinr h1⟩

theorem kth_spec (hok : Spec.Ok ch lc ht) (hk1 : 0 < k1) (d : Nat) : ∀ v k st, Inv ch lc k1 st → ht v ≤ d → ch.forest v ≠ [] →
    ∃ st', ch.kth k1 d v k st = some st' ∧ Steps ch k1 ht (ht v + 1) st st' ∧ (k ≤ (st'.L v).length ∨ Done ch st' v) ∧ st'.L v ≠ [] := by
  have main : ∀ (rec : Option (V → Nat → State V R → Option (State V R))) v k st, RecOk' ch lc ht k1 rec (ht v) → Inv ch lc k1 st →
      ch.forest v ≠ [] →
      ∃ st', ch.loop rec v k (k + 4) (!(st.L v).isEmpty) (ch.visit k1 v st) = some st' ∧ Steps ch k1 ht (ht v + 1) st st' ∧ (k ≤ (st'.L v).length ∨ Done ch st' v) ∧ st'.L v ≠ [] := by
    intro rec v k st hrec hi hf
    have hleft : ∀ len inr, left k inr len ≤ k + 4 := by
      intro len inr; unfold left; split <;> (try split) <;> omega
    unfold Chart.visit
    cases hcand : st.cand v with
    | none =>
      have hstep : Step ch k1 v st { st with cand := upd st.cand v (some (ch.gc v k1)) } := .visit hf hcand
      obtain ⟨st', h1, h2, h3, h4⟩ := loop_spec hok hk1 hrec k (k + 4) (!(st.L v).isEmpty) _ (hi.step hok hstep) (by simp [upd_same])
        (by intro h; simpa using h) (hleft _ _)
      exact ⟨st', h1, (Steps.single (by omega) hstep).trans h2, h3, h4⟩
    | some c =>
      exact loop_spec hok hk1 hrec k (k + 4) (!(st.L v).isEmpty) st hi (by rw [hcand]; simp) (by intro h; simpa using h) (hleft _ _)
  induction d with
  | zero =>
    intro v k st hi hd hf
    exact main none v k st (.inl ⟨rfl, by omega⟩) hi hf
  | succ d ih =>
    intro v k st hi hd hf
    refine main (some (ch.kth k1 d)) v k st (.inr ⟨_, rfl, ?_⟩) hi hf
    intro u k' st' hi' hu hf'
    obtain ⟨st'', h1, h2, h3, -⟩ := ih u k' st' hi' (by omega) hf'
    exact ⟨st'', h1, h2.mono (by omega), h3⟩

end Disco.Kbest
