import Verif.Grammar.DoubleDop
/-!
# C23: the productions of a flattened fragment (grammar.py:699-786)
-/
namespace Disco.DDop
open PTree Prods Factor TBGrammar

/-! ### Artificial labels -/

/-- An artificial label with the number `n`. -/
def IsArt (pre A : Str) (n : Nat) : Prop :=
  ∃ l suf, l ≠ [] ∧ '}' ∉ l ∧ A = l ++ '}' :: '<' :: ((pre ++ Nat.toDigits 10 n) ++ '>' :: suf)

theorem append_cons_inj {a b x y : Str} {c : Char} (ha : c ∉ a) (hb : c ∉ b) (h : a ++ c :: x = b ++ c :: y) : a = b ∧ x = y := by
  induction a generalizing b with
  | nil =>
    cases b with
    | nil => simpa using h
    | cons d b => simp only [List.nil_append, List.cons_append, List.cons.injEq] at h; exact absurd h.1 (by rintro rfl; simp at hb)
  | cons d a ih =>
    cases b with
    | nil => simp only [List.nil_append, List.cons_append, List.cons.injEq] at h; exact absurd h.1 (by rintro rfl; simp at ha)
    | cons e b =>
      simp only [List.cons_append, List.cons.injEq] at h
      obtain ⟨h1, h2⟩ := ih (by simp at ha; exact ha.2) (by simp at hb; exact hb.2) h.2
      exact ⟨by rw [h.1, h1], h2⟩

theorem digit_ne_gt (n : Nat) : '>' ∉ Nat.toDigits 10 n := by
  intro h
  have := Nat.isDigit_of_mem_toDigits (by omega) (by omega) h
  revert this; decide

theorem IsArt.inj {pre A : Str} {n m : Nat} (hp : '>' ∉ pre) (h : IsArt pre A n) (h' : IsArt pre A m) : n = m := by
  obtain ⟨l, s, h1, h2, h3⟩ := h
  obtain ⟨l', s', h4, h5, h6⟩ := h'
  rw [h3] at h6
  obtain ⟨-, h7⟩ := append_cons_inj h2 h5 h6
  have h8 := (List.cons.inj h7).2
  have hd : ∀ k, '>' ∉ pre ++ Nat.toDigits 10 k := by
    intro k; simp only [List.mem_append, not_or]; exact ⟨hp, digit_ne_gt k⟩
  exact id_inj (append_cons_inj (hd n) (hd m) h8).1

theorem IsArt.art {pre A : Str} {n : Nat} (h : IsArt pre A n) : DDop.art A = true := by
  obtain ⟨l, s, h1, h2, h3⟩ := h
  unfold DDop.art isBinMark
  rw [Str.find_isSome_iff, h3]
  cases l with
  | nil => exact absurd rfl h1
  | cons c l => exact ⟨l, _, by simp [List.drop, List.append_assoc]; rfl⟩

theorem IsArt.mark {pre A : Str} {n : Nat} (h : IsArt pre A n) : ['}', '<'] <:+: A := by
  obtain ⟨l, s, h1, h2, h3⟩ := h
  exact ⟨l, _, by rw [h3]; simp; rfl⟩

theorem mark_of_art {A : Str} (h : art A = true) : ['}', '<'] <:+: A := by
  unfold art isBinMark at h
  rw [Str.find_isSome_iff] at h
  exact h.trans (List.drop_suffix _ _).isInfix

theorem plain_nomark {l : Str} (h : Spec.Plain l) : ¬ ['}', '<'] <:+: l := by
  intro hi
  exact h.2.2.2.2 (hi.subset (by simp))

theorem nomark_art {l : Str} (h : ¬ ['}', '<'] <:+: l) : art l = false := by
  cases hb : art l with
  | false => rfl
  | true => exact absurd (mark_of_art hb) h

/-- Labels of frontier nodes are not artificial. -/
theorem front_nomark {f : Front} (h : Spec.Plain f.l) (hw : ¬ ['}', '<'] <:+: f.w) : ¬ ['}', '<'] <:+: f.label := by
  unfold Front.label
  split
  · exact plain_nomark h
  · intro hi
    rcases infix_append_cons (by decide) hi with h1 | h1
    · exact plain_nomark h h1
    · exact hw h1

theorem front_ne_epsilon {f : Front} (h : Spec.Plain f.l) : f.label ≠ epsilon := by
  unfold Front.label
  split
  · exact h.2.1
  · intro he
    have : '@' ∈ epsilon := by rw [← he]; simp
    revert this; decide

theorem IsArt.ne_epsilon {pre A : Str} {n : Nat} (h : IsArt pre A n) : A ≠ epsilon := by
  intro he
  have := h.mark.subset (show '}' ∈ _ by simp)
  rw [he] at this
  revert this; decide

/-! ### IDs with their meaning -/

/-- What is known about IDs: `M n` is the sequence of labels that is meant by number `n`. -/
structure IdInv (X : Str → Prop) (s : IDs) (M : Nat → Option (List Str)) : Prop where
  wf : s.WF
  dom : ∀ n Ls, M n = some Ls → n < s.cnt
  keyed : ∀ k n, Dict.get? s.ids k = some (s.pre ++ Nat.toDigits 10 n) →
    ∃ Ls y, M n = some Ls ∧ Ls ≠ [] ∧ k = Str.join [','] Ls ++ ';' :: y ∧ Spec.IsYF y ∧ ∀ x ∈ Ls, X x

/-- More is known. -/
def MExt (M M' : Nat → Option (List Str)) : Prop := ∀ n Ls, M n = some Ls → M' n = some Ls

theorem MExt.refl (M : Nat → Option (List Str)) : MExt M M := fun _ _ h => h
theorem MExt.trans {M M' M'' : Nat → Option (List Str)} (h : MExt M M') (h' : MExt M' M'') : MExt M M'' := fun n L hn => h' n L (h n L hn)

/-- `M` with one more entry. -/
def upd (M : Nat → Option (List Str)) (n : Nat) (Ls : List Str) : Nat → Option (List Str) := fun k => if k = n then some Ls else M k

theorem upd_ext {X : Str → Prop} {s : IDs} {M : Nat → Option (List Str)} (h : IdInv X s M) (Ls : List Str) : MExt M (upd M s.cnt Ls) := by
  intro n L hn
  have := h.dom n L hn
  unfold upd
  rw [if_neg (by omega)]
  exact hn

theorem IdInv.next {X : Str → Prop} {s : IDs} {M : Nat → Option (List Str)} (h : IdInv X s M) (Ls : List Str) :
    IdInv X s.next.2 (upd M s.cnt Ls) := by
  refine ⟨IDs.next_wf h.wf, ?_, ?_⟩
  · intro n L hn
    unfold upd at hn
    show n < s.cnt + 1
    split at hn
    · omega
    · have := h.dom n L hn; omega
  · intro k n hk
    obtain ⟨L, y, h1, h2⟩ := h.keyed k n hk
    exact ⟨L, y, upd_ext h Ls n L h1, h2⟩

theorem IdInv.get {X : Str → Prop} (hX : Spec.Unambiguous X) {s : IDs} {M : Nat → Option (List Str)} (h : IdInv X s M) {Ls : List Str} {y : Str}
    (hne : Ls ≠ []) (hL : ∀ x ∈ Ls, X x) (hy : Spec.IsYF y) :
    ∃ n M', (s.get (Str.join [','] Ls ++ ';' :: y)).1 = s.pre ++ Nat.toDigits 10 n ∧ MExt M M' ∧ M' n = some Ls ∧
      IdInv X (s.get (Str.join [','] Ls ++ ';' :: y)).2 M' := by
  unfold IDs.get
  cases hg : Dict.get? s.ids (Str.join [','] Ls ++ ';' :: y) with
  | some v =>
    obtain ⟨n, hn, hv⟩ := h.wf.lt _ _ hg
    rw [hv] at hg
    obtain ⟨L, z, h1, h2, h3, h4, h5⟩ := h.keyed _ n hg
    have := hX Ls L y z hne h2 hL h5 hy h4 h3
    exact ⟨n, M, hv, .refl _, by rw [this]; exact h1, h⟩
  | none =>
    have hget := IDs.get_wf h.wf (Str.join [','] Ls ++ ';' :: y)
    unfold IDs.get at hget
    rw [hg] at hget
    refine ⟨s.cnt, upd M s.cnt Ls, rfl, upd_ext h Ls, by simp [upd], hget.1, ?_, ?_⟩
    · intro n L hn
      unfold upd at hn
      show n < s.cnt + 1
      split at hn
      · omega
      · have := h.dom n L hn; omega
    · intro k n hk
      simp only at hk
      rw [Dict.get?_set] at hk
      split at hk
      next he =>
        have := id_inj (Option.some.inj hk)
        subst this
        exact ⟨Ls, y, by simp [upd], hne, he.symm, hy, hL⟩
      next he =>
        obtain ⟨L, z, h1, h2⟩ := h.keyed k n hk
        exact ⟨L, z, upd_ext h Ls n L h1, h2⟩

theorem getyfLoop_chars (a : Nat) (b : Nat) (fuel : Nat) : ∀ n cur y, Bits.getyfLoop a (some b) fuel n cur = some y → Spec.IsYF y := by
  induction fuel with
  | zero => intro n cur y h; simp [Bits.getyfLoop] at h; subst h; intro c hc; simp at hc
  | succ fuel ih =>
    have key : ∀ (n : Nat) (c cur' : Char) (y : Str), (c = '0' ∨ c = '1' ∨ c = ',') →
        (Bits.getyfLoop a (some b) fuel n cur').map (c :: ·) = some y → Spec.IsYF y := by
      intro n c cur' y hc h
      cases hz : Bits.getyfLoop a (some b) fuel n cur' with
      | none => rw [hz] at h; simp at h
      | some z =>
        rw [hz] at h
        simp only [Option.map_some, Option.some.injEq] at h
        subst h
        intro d hd
        rcases List.mem_cons.1 hd with rfl | hd
        · exact hc
        · exact ih _ _ _ hz d hd
    intro n cur y h
    rw [Bits.getyfLoop] at h
    split at h
    · split at h
      · exact key _ _ _ _ (by simp) h
      · exact ih _ _ _ h
    · split at h
      · split at h
        · exact key _ _ _ _ (by simp) h
        · exact ih _ _ _ h
      · split at h
        · exact key _ _ _ _ (by simp) h
        · exact ih _ _ _ h

theorem getyf_shape (a b : Nat) : ∃ y, Bits.getyf a (some b) = some (';' :: y) ∧ Spec.IsYF y := by
  obtain ⟨y, hy⟩ := getyf_some a b
  unfold Bits.getyf at hy ⊢
  simp only at hy ⊢
  cases hz : Bits.getyfLoop a (some b) (max (Bits.bitLength a) (Bits.bitLength b)) 0 ',' with
  | none => rw [hz] at hy; simp at hy
  | some z => exact ⟨z, rfl, getyfLoop_chars _ _ _ _ _ _ hz⟩

/-! ### The loop of factorconstituent -/

theorem labels_map (fs : List Front) : (fs.map Front.child).mapM BT.label? = some (fs.map Front.label) := by
  induction fs with
  | nil => rfl
  | cons f fs ih => rw [List.map_cons, List.mapM_cons, ih]; rfl

theorem cfg_labels (fs : List Front) : cfg.labels (fs.map Front.child) = some (Str.join [','] (fs.map Front.label)) := by
  show ((fs.map Front.child).mapM BT.label?).map _ = _
  rw [labels_map]
  simp [cfg]

theorem cfg_yf {p q : BT} {a b : Nat} (hp : p.bits? = some a) (hq : q.bits? = some b) : ∃ y, cfg.yf p q = some (';' :: y) ∧ Spec.IsYF y := by
  obtain ⟨y, h1, h2⟩ := getyf_shape a b
  exact ⟨y, by simp [Cfg.yf, cfg, hp, hq, h1], h2⟩

theorem cfg_label (l key : Str) (b : Nat) : ∃ suf, cfg.label l key b = l ++ '}' :: '<' :: (key ++ '>' :: suf) := ⟨_, rfl⟩

/-- One step: a new artificial node for the first `i + 1` frontier nodes. -/
theorem dd_step {X : Str → Prop} (hX : Spec.Unambiguous X) {s : IDs} {M : Nat → Option (List Str)} (h : IdInv X s M) {l : Str} (hl : l ≠ [])
    (hl' : '}' ∉ l) {F : List Front} (hF : ∀ f ∈ F, X f.label) {i : Nat} (hi : i < F.length) (hi' : i < 999) {p : BT} {pb : Nat}
    (hp : p.bits? = some pb) :
    ∃ A n b s' M', cfg.step l (F.map Front.child) i p (some s) = some (.node A (some b) [p, F[i].child], some s') ∧ IsArt s.pre A n ∧
      M' n = some ((F.take (i + 1)).map Front.label) ∧ IdInv X s' M' ∧ MExt M M' ∧ s'.pre = s.pre ∧ s.cnt ≤ s'.cnt ∧
      (F.length - 2 ≤ i → n = s.cnt) := by
  have hc : (F.map Front.child)[i]? = some F[i].child := by rw [List.getElem?_map, List.getElem?_eq_getElem hi]; rfl
  have hcb : F[i].child.bits? = some (Bits.bitsetOf F[i].indices) := rfl
  obtain ⟨y, hy1, hy2⟩ := cfg_yf hp hcb
  have hxs : ((F.map Front.child).take (i + 1)).drop (i + 1 - cfg.h) = (F.take (i + 1)).map Front.child := by
    have : i + 1 - cfg.h = 0 := by show i + 1 - 999 = 0; omega
    rw [this, List.drop_zero, List.map_take]
  have hstep : ∀ k ids', cfg.key (some s) ((F.take (i + 1)).map Front.child) p F[i].child (decide (F.length - 2 ≤ i)) = some (k, ids') →
      cfg.step l (F.map Front.child) i p (some s) = some (.node (cfg.label l k (Bits.bitsetOf F[i].indices ||| pb))
        (some (Bits.bitsetOf F[i].indices ||| pb)) [p, F[i].child], ids') := by
    intro k ids' hk
    unfold Cfg.step
    rw [hc]
    simp only [hcb, hp, hxs, List.length_map]
    have : cfg.right = false := rfl
    rw [this, if_neg (by simp), hk]
  by_cases hfr : F.length - 2 ≤ i
  · have hk : cfg.key (some s) ((F.take (i + 1)).map Front.child) p F[i].child (decide (F.length - 2 ≤ i)) = some (s.next.1, some s.next.2) := by
      rw [decide_eq_true hfr]; rfl
    obtain ⟨suf, hsuf⟩ := cfg_label l s.next.1 (Bits.bitsetOf F[i].indices ||| pb)
    exact ⟨_, s.cnt, _, _, upd M s.cnt ((F.take (i + 1)).map Front.label), hstep _ _ hk, ⟨l, suf, hl, hl', hsuf⟩, by simp [upd], h.next _,
      upd_ext h _, rfl, Nat.le_succ _, fun _ => rfl⟩
  · obtain ⟨n, M', h1, h2, h3, h4⟩ := h.get hX (Ls := (F.take (i + 1)).map Front.label) (y := y) (by
        intro he
        have := congrArg List.length he
        simp only [List.length_map, List.length_take, List.length_nil] at this; omega)
      (by
        intro x hx
        obtain ⟨f, hf, rfl⟩ := List.mem_map.1 hx
        exact hF f (List.mem_of_mem_take hf)) hy2
    have hk : cfg.key (some s) ((F.take (i + 1)).map Front.child) p F[i].child (decide (F.length - 2 ≤ i)) =
        some ((s.get (Str.join [','] ((F.take (i + 1)).map Front.label) ++ ';' :: y)).1,
          some (s.get (Str.join [','] ((F.take (i + 1)).map Front.label) ++ ';' :: y)).2) := by
      rw [decide_eq_false hfr]
      simp only [Cfg.key, Bool.false_eq_true, if_false, cfg_labels, hy1]
    have hw := IDs.get_wf h.wf (Str.join [','] ((F.take (i + 1)).map Front.label) ++ ';' :: y)
    obtain ⟨suf, hsuf⟩ := cfg_label l (s.get (Str.join [','] ((F.take (i + 1)).map Front.label) ++ ';' :: y)).1 (Bits.bitsetOf F[i].indices ||| pb)
    refine ⟨_, n, _, _, M', hstep _ _ hk, ⟨l, suf, hl, hl', by rw [hsuf, h1]⟩, h3, h4, h2, hw.2.1, hw.2.2.1, fun hh => absurd hh hfr⟩

/-- The tree `p` with label `A` covers the frontier nodes from left to right by artificial nodes. -/
inductive Chain (pre : Str) (M : Nat → Option (List Str)) : List Front → Str → BT → Prop
  | two {f g A n b} : IsArt pre A n → M n = some [f.label, g.label] → Chain pre M [f, g] A (.node A (some b) [f.child, g.child])
  | more {fs A' p f A n b} : Chain pre M fs A' p → IsArt pre A n → M n = some ((fs ++ [f]).map Front.label) →
      Chain pre M (fs ++ [f]) A (.node A (some b) [p, f.child])

theorem Chain.mono {pre : Str} {M M' : Nat → Option (List Str)} (hM : MExt M M') {fs : List Front} {A : Str} {p : BT} (h : Chain pre M fs A p) :
    Chain pre M' fs A p := by
  induction h with
  | two h1 h2 => exact .two h1 (hM _ _ h2)
  | more _ h1 h2 ih => exact .more ih h1 (hM _ _ h2)

theorem Chain.info {pre : Str} {M : Nat → Option (List Str)} {fs : List Front} {A : Str} {p : BT} (h : Chain pre M fs A p) :
    ∃ n b cs, IsArt pre A n ∧ M n = some (fs.map Front.label) ∧ p = .node A (some b) cs := by
  cases h with
  | two h1 h2 => exact ⟨_, _, _, h1, h2, rfl⟩
  | more _ h1 h2 => exact ⟨_, _, _, h1, h2, rfl⟩

theorem dd_loop {X : Str → Prop} (hX : Spec.Unambiguous X) {l : Str} (hl : l ≠ []) (hl' : '}' ∉ l) {F : List Front} (hF : ∀ f ∈ F, X f.label)
    (hsz : F.length ≤ 1000) (n : Nat) : ∀ {i : Nat} {s : IDs} {M : Nat → Option (List Str)} {A : Str} {p : BT}, IdInv X s M → i + n + 1 ≤ F.length →
    Chain s.pre M (F.take i) A p →
    ∃ A' p' s' M', cfg.loop l (F.map Front.child) (List.range' i n) p (some s) = some (p', some s') ∧ IdInv X s' M' ∧ MExt M M' ∧ s'.pre = s.pre ∧
      s.cnt ≤ s'.cnt ∧ Chain s.pre M' (F.take (i + n)) A' p' ∧
      (n ≠ 0 → i + n + 1 = F.length → ∃ m, IsArt s.pre A' m ∧ s.cnt ≤ m) := by
  induction n with
  | zero =>
    intro i s M A p h hi hc
    exact ⟨A, p, s, M, rfl, h, .refl _, rfl, Nat.le_refl _, hc, fun h => absurd rfl h⟩
  | succ n ih =>
    intro i s M A p h hi hc
    obtain ⟨k, b, cs, -, -, hp⟩ := hc.info
    obtain ⟨B, m, b', s1, M1, h1, h2, h3, h4, h5, h6, h7, h8⟩ := dd_step hX h hl hl' hF (i := i) (by omega) (by omega) (p := p) (pb := b) (by rw [hp]; rfl)
    have ht : F.take (i + 1) = F.take i ++ [F[i]'(by omega)] := by
      rw [List.take_add_one, List.getElem?_eq_getElem (by omega), Option.toList_some]
    have hc1 : Chain s1.pre M1 (F.take (i + 1)) B (.node B (some b') [p, (F[i]'(by omega)).child]) := by
      rw [h6, ht]
      rw [ht] at h3
      exact .more (hc.mono h5) h2 h3
    obtain ⟨A', p', s', M', g1, g2, g3, g4, g5, g6, g7⟩ := ih (i := i + 1) h4 (by omega) hc1
    refine ⟨A', p', s', M', ?_, g2, h5.trans g3, g4.trans h6, by omega, ?_, ?_⟩
    · rw [List.range'_succ, Cfg.loop, h1]; exact g1
    · rw [← h6, show i + (n + 1) = i + 1 + n by omega]; exact g6
    · intro _ hlen
      by_cases hn : n = 0
      · subst hn
        simp only [List.range'_zero, Cfg.loop, Option.some.injEq, Prod.mk.injEq] at g1
        obtain ⟨k', b'', cs'', -, -, hp'⟩ := g6.info
        rw [← g1.1] at hp'
        cases hp'
        exact ⟨m, h2, by rw [h8 (by omega)]⟩
      · obtain ⟨m', q1, q2⟩ := g7 hn (by omega)
        exact ⟨m', by rw [← h6]; exact q1, by omega⟩

/-- Factoring a flattened fragment with more than two frontier nodes. -/
theorem dd_factor {X : Str → Prop} (hX : Spec.Unambiguous X) {l : Str} (hl : l ≠ []) (hl' : '}' ∉ l) {F : List Front} (hF : ∀ f ∈ F, X f.label)
    (hsz : F.length ≤ 1000) (h3 : 2 < F.length) {s : IDs} {M : Nat → Option (List Str)} (h : IdInv X s M) (bits : Option Nat) :
    ∃ A p b s' M' m fs f, cfg.factor 2 (some s) l bits (F.map Front.child) = some (.node l (some b) [p, f.child], some s') ∧ F = fs ++ [f] ∧
      Chain s.pre M' fs A p ∧ IsArt s.pre A m ∧ s.cnt ≤ m ∧ IdInv X s' M' ∧ MExt M M' ∧ s'.pre = s.pre := by
  obtain ⟨f0, f1, f2, rest, rfl⟩ : ∃ f0 f1 f2 rest, F = f0 :: f1 :: f2 :: rest := by
    match F, h3 with
    | f0 :: f1 :: f2 :: rest, _ => exact ⟨f0, f1, f2, rest, rfl⟩
  obtain ⟨A1, n1, b1, s1, M1, e1, e2, e3, e4, e5, e6, e7, e8⟩ := dd_step hX h hl hl' hF (i := 1) (by simp) (by omega) (p := f0.child)
    (pb := Bits.bitsetOf f0.indices) rfl
  have hc1 : Chain s1.pre M1 ((f0 :: f1 :: f2 :: rest).take 2) A1 (.node A1 (some b1) [f0.child, f1.child]) := by
    rw [e6]
    exact .two e2 e3
  obtain ⟨A', p', s', M', g1, g2, g3, g4, g5, g6, g7⟩ := dd_loop hX hl hl' hF hsz rest.length (i := 2) e4 (by simp; omega) hc1
  obtain ⟨fs, f, hfs⟩ : ∃ fs f, f0 :: f1 :: f2 :: rest = fs ++ [f] :=
    ⟨_, _, (List.dropLast_append_getLast (l := f0 :: f1 :: f2 :: rest) (by simp)).symm⟩
  have hlast : ((f0 :: f1 :: f2 :: rest).map Front.child).getLast? = some f.child := by rw [hfs]; simp
  have htake : (f0 :: f1 :: f2 :: rest).take (2 + rest.length) = fs := by
    have : fs.length = 2 + rest.length := by
      have := congrArg List.length hfs; simp at this; omega
    rw [hfs, ← this]; simp
  obtain ⟨k', b', cs', hk1, hk2, hp'⟩ := g6.info
  have hloop : cfg.loop l ((f0 :: f1 :: f2 :: rest).map Front.child) (List.range' 1 (rest.length + 1)) f0.child (some s) = some (p', some s') := by
    rw [List.range'_succ, Cfg.loop, e1]
    exact g1
  have hm : ∃ m, IsArt s.pre A' m ∧ s.cnt ≤ m := by
    by_cases hr : rest.length = 0
    · rw [hr] at g1
      simp only [List.range'_zero, Cfg.loop, Option.some.injEq, Prod.mk.injEq] at g1
      rw [← g1.1] at hp'
      cases hp'
      exact ⟨n1, e2, by rw [e8 (by simp [hr])]⟩
    · obtain ⟨m, q1, q2⟩ := g7 hr (by simp; omega)
      exact ⟨m, by rw [← e6]; exact q1, by omega⟩
  obtain ⟨m, hm1, hm2⟩ := hm
  refine ⟨A', p', (Bits.bitsetOf f.indices ||| b'), s', M', m, fs, f, ?_, hfs, ?_, hm1, hm2, g2, e5.trans g3, g4.trans e6⟩
  · unfold Cfg.factor
    rw [if_neg (by simp), if_neg (by simp)]
    have : cfg.right = false := rfl
    rw [this, if_neg (by simp), hlast]
    simp only [List.map_cons, List.head?_cons, List.length_cons, List.length_map]
    simp only [List.map_cons] at hloop
    rw [show rest.length + 1 + 1 + 1 - 2 = rest.length + 1 by omega, hloop]
    have : f.child.bits? = some (Bits.bitsetOf f.indices) := rfl
    simp only [this]
    rw [hp']
    rfl
  · rw [← htake, ← e6]; exact g6

end Disco.DDop
