import Verif.Grammar.DoubleDopInv
/-!
# C23: the theorems about Double-DOP grammars
-/
namespace Disco.DDop
open PTree Prods Factor TBGrammar

variable {W : Type}

/-- What the proofs use about the result of `dopgrammar`. -/
structure Ctx (fr : List Frag) (weight : Frag → W) (pre : Str) (M : Nat → Option (List Str)) (s : St W) (R : List Rule) (bt : List Tmpl) : Prop where
  input : Spec.Input fr pre
  inv : Inv fr weight pre M fr s
  mem : ∀ r, r ∈ R ↔ r ∈ Dict.keys s.grammar
  bt : ∀ i : Nat, bt[i]? = (R[i]?).bind fun r => (Dict.get? s.bt r).map Prod.snd

theorem dopgrammar_ctx {fr : List Frag} {weight : Frag → W} {one : W} {pre : Str} (hin : Spec.Input fr pre) {G : List (Rule × W)} {bt : List Tmpl} {fs : List Frag}
    (h : dopgrammar weight one ⟨pre, 0, []⟩ fr = some (G, bt, fs)) : ∃ s M, Ctx fr weight pre M s (G.map Prod.fst) bt ∧ G.Perm s.grammar ∧
      fs = G.filterMap (fun r => (Dict.get? s.bt r.1).map Prod.fst) ∧
      (∀ i : Nat, fs[i]? = (G[i]?).bind fun r : Rule × W => (Dict.get? s.bt r.1).map Prod.fst) := by
  obtain ⟨s, M, G', h1, h2, h3, h4, h5⟩ := dopgrammar_inv weight one hin
  rw [h] at h2
  simp only [Option.some.injEq, Prod.mk.injEq] at h2
  obtain ⟨rfl, rfl, rfl⟩ := h2
  refine ⟨s, M, ⟨hin, h1, ?_, ?_⟩, h3, rfl, h5⟩
  · intro r
    exact (h3.map Prod.fst).mem_iff
  · intro i
    rw [h4, List.getElem?_map]
    cases G[i]? <;> rfl

theorem exists_tau {F : List Front} (hd : (F.map Front.i).Nodup) {ts : List (PTree Str)} (hl : F.length = ts.length) :
    ∃ τ : Nat → PTree Str, ts = F.map fun x => τ x.i := by
  induction F generalizing ts with
  | nil => cases ts with
    | nil => exact ⟨fun _ => .leaf 0, rfl⟩
    | cons _ _ => simp at hl
  | cons f F ih =>
    cases ts with
    | nil => simp at hl
    | cons t ts =>
      rw [List.map_cons, List.nodup_cons] at hd
      obtain ⟨τ, hτ⟩ := ih hd.2 (by simpa using hl)
      refine ⟨fun j => if j = f.i then t else τ j, ?_⟩
      rw [List.map_cons, hτ]
      simp only [if_true, List.cons.injEq, true_and]
      apply List.map_congr_left
      intro x hx
      rw [if_neg]
      intro he
      exact hd.1 (by rw [← he]; exact List.mem_map_of_mem hx)

theorem label_inj {x y : Front} (hx : '@' ∉ x.l) (hy : '@' ∉ y.l) (h : x.label = y.label) : x.l = y.l ∧ x.w = y.w := by
  unfold Front.label at h
  split at h
  next h1 =>
    split at h
    next h2 => exact ⟨h, by rw [h1, h2]⟩
    next h2 => exact absurd (by rw [h]; simp) hx
  next h1 =>
    split at h
    next h2 => exact absurd (by rw [← h]; simp) hy
    next h2 => exact append_cons_inj hx hy h

theorem strip_plain {l : Str} (h : '@' ∉ l) : strip l = l := by
  unfold strip
  have : l.dropWhile (· ≠ '@') = [] := by
    induction l with
    | nil => rfl
    | cons c l ih =>
      simp only [List.mem_cons, not_or] at h
      rw [List.dropWhile_cons, if_pos (by simpa using Ne.symm h.1)]
      exact ih h.2
  rw [this]

theorem strip_word {l w : Str} (h : '@' ∉ l) (hw : w ≠ []) : strip (l ++ '@' :: w) = l := by
  have h1 : (l ++ '@' :: w).dropWhile (· ≠ '@') = '@' :: w ∧ (l ++ '@' :: w).takeWhile (· ≠ '@') = l := by
    induction l with
    | nil => simp
    | cons c l ih =>
      simp only [List.mem_cons, not_or] at h
      have hc : (decide (c ≠ '@')) = true := by simpa using Ne.symm h.1
      rw [List.cons_append, List.dropWhile_cons, if_pos hc, List.takeWhile_cons, if_pos hc]
      exact ⟨(ih h.2).1, by rw [(ih h.2).2]⟩
  unfold strip
  rw [h1.1, h1.2]
  cases w with
  | nil => exact absurd rfl hw
  | cons c w => rfl

theorem strip_label {x : Front} (h : '@' ∉ x.l) : strip x.label = x.l := by
  unfold Front.label
  split
  · exact strip_plain h
  · exact strip_word h (by assumption)

/-- The tree is right for a frontier node with this label. -/
def Good (fr : List Frag) (sent : List Str) (x : Str) (t : PTree Str) : Prop :=
  ∀ y : Front, '@' ∉ y.l → y.label = x → Spec.Inst fr sent (.front y) (t.mapLabel strip)

theorem good_of_composed {fr : List Frag} {sent : List Str} {l : Str} (hl : '@' ∉ l) {t : PTree Str} (h : Spec.Composed fr sent l (t.mapLabel strip)) :
    Good fr sent l t := by
  intro y hy he
  have := label_inj (x := y) (y := ⟨l, 0, [], []⟩) hy hl (by rw [he]; rfl)
  obtain ⟨yl, yi, yis, yw⟩ := y
  simp only at this
  obtain ⟨rfl, rfl⟩ := this
  exact .site h

theorem composed_of_good {fr : List Frag} {sent : List Str} {l : Str} (hl : '@' ∉ l) {t : PTree Str} (h : Good fr sent l t) :
    Spec.Composed fr sent l (t.mapLabel strip) := by
  have := h ⟨l, 0, [], []⟩ hl rfl
  generalize t.mapLabel strip = u at this
  cases this with
  | word h1 _ => exact absurd rfl h1
  | site h1 => exact h1

theorem rule_get {R : List Rule} {no : Nat} {r : Rule} (h : R[no]? = some r) {l B : Str} {rest : List Str} {yf : YF} (hr : r = ⟨l :: B :: rest, yf⟩) :
    artRhs1 R no = art B := by unfold artRhs1; rw [h, hr]; rfl

/-- Filling the template of a fragment. -/
theorem fill_good {fr : List Frag} {sent : List Str} {f : Frag} (hf : f ∈ fr) (hfr : Spec.Fragment f) {T : Tmpl} (hT : tmpl (order f.sorted) f = some T) {ts : List (PTree Str)}
    (h : List.Forall₂ (Good fr sent) (f.sorted.map Front.label) ts) : ∃ t, T.fill ts = some t ∧ Good fr sent f.root t := by
  have hd : ((f.sorted).flatMap Front.indices).Nodup := ((sorted_perm f).flatMap_right _).nodup_iff.2 hfr.distinct
  obtain ⟨τ, hτ⟩ := exists_tau (F := f.sorted) (indices_nodup_i hd) (ts := ts) (by have := h.length_eq; simpa using this)
  obtain ⟨T', h1, h2⟩ := tmpl_fill (indices_nodup_i hd) f (fun x hx => (sorted_perm f).mem_iff.2 hx)
  rw [hT] at h1
  cases h1
  refine ⟨fillBy τ f, by rw [hτ]; exact h2 τ, ?_⟩
  refine good_of_composed (root_plain hfr.labels).2.2.1 ?_
  rw [fillBy_strip f hfr.labels]
  refine .frag hf (inst_fill f fun x hx => ?_)
  have hx' := (sorted_perm f).mem_iff.2 hx
  rw [hτ, List.forall₂_map_right_iff, List.forall₂_map_left_iff] at h
  have : Good fr sent x.label (τ x.i) := by
    have hall := List.forall₂_same.1 h
    exact hall x hx'
  exact this x (((labels_fronts f hfr.labels).2 x hx).1.2.2.1) rfl

/-- The main induction. -/
theorem recover_sound {fr : List Frag} {weight : Frag → W} {pre : Str} {M : Nat → Option (List Str)} {s : St W} {R : List Rule} {bt : List Tmpl} (hc : Ctx fr weight pre M s R bt)
    (sent : List Str) (d : Der) : ∀ X, Spec.Derives R sent d X →
      (∀ n Ls, IsArt pre X n → M n = some Ls → (∃ ts, walk R bt d = some ts ∧ List.Forall₂ (Good fr sent) Ls ts) ∧
        ∀ x, Ls = [x] → ∃ t, left R bt d = some t ∧ Good fr sent x t) ∧
      (¬ ['}', '<'] <:+: X → ∃ t, recover R bt d = some t ∧ Good fr sent X t) := by
  have hX := fun x (hx : Spec.FrontLabel fr x) => frontLabel_ok hc.input.frag hx
  have hent : ∀ {no : Nat} {r : Rule} {e : Frag × Tmpl}, R[no]? = some r → Dict.get? s.bt r = some e → bt[no]? = some e.2 := by
    intro no r e h1 h2
    rw [hc.bt, h1]
    simp [h2]
  induction d with
  | lex tag j =>
    intro X hd
    cases hd with
    | @lex _ w _ h1 h2 =>
      have hr := (hc.mem _).1 h1
      have hcase : (∃ x : Front, '@' ∉ x.l ∧ ¬ ['}', '<'] <:+: x.label ∧ x.w ≠ [] ∧ tag = x.label ∧ w = Escape.escape (some x.w)) ∨
          ∃ x : Front, Spec.Plain x.l ∧ .front x ∈ fr ∧ x.w ≠ [] ∧ tag = x.l ∧ w = Escape.escape (some x.w) := by
        rcases hc.inv.rules _ hr with h | ⟨f, hf, x, hx, h⟩ | ⟨x, hx, h⟩ | ⟨e, h⟩
        · cases h
        · obtain ⟨h3, h4⟩ := lexRules_shape h
          simp only [Rule.mk.injEq, List.cons.injEq, YF.word.injEq, and_true] at h4
          exact .inl ⟨x, ((labels_fronts f (hc.input.frag f hf).labels).2 x hx).1.2.2.1, (hX _ ⟨f, hf, x, hx, rfl⟩).1, h3, h4.1, h4.2⟩
        · simp only [lexRule, Rule.mk.injEq, List.cons.injEq, YF.word.injEq, and_true] at h
          exact .inr ⟨x, root_plain (hc.input.frag _ hx).labels, hx, ((hc.input.frag _ hx).top x rfl).2, h.1, h.2⟩
        · obtain ⟨l, cs, B, m, Ls, rest, hE⟩ := hc.inv.bt _ e.1 e.2 h
          obtain ⟨yf, hyf⟩ := hE.rule
          simp at hyf
      have hnm : ¬ ['}', '<'] <:+: tag := by
        rcases hcase with ⟨x, h3, h4, h5, h6, -⟩ | ⟨x, h3, h4, h5, h6, -⟩
        · rw [h6]; exact h4
        · rw [h6]; exact plain_nomark h3
      refine ⟨fun n Ls hA _ => absurd hA.mark hnm, fun _ => ⟨.node tag [.leaf j], rfl, ?_⟩⟩
      rcases hcase with ⟨x, h3, h4, h5, h6, h7⟩ | ⟨x, h3, h4, h5, h6, h7⟩
      · intro y hy he
        rw [h6] at he ⊢
        obtain ⟨e1, e2⟩ := label_inj hy h3 he
        obtain ⟨yl, yi, yis, yw⟩ := y
        simp only at e1 e2
        rw [mapLabel, strip_label h3, e1, e2]
        exact .word h5 (by rw [← h7]; exact h2)
      · have hp : '@' ∉ x.l := h3.2.2.1
        rw [h6]
        refine good_of_composed hp ?_
        rw [mapLabel, strip_plain hp]
        exact .frag h4 (.word h5 (by rw [← h7]; exact h2))
  | un no d ih =>
    intro X hd
    cases hd with
    | @un _ _ b yf _ h1 h2 =>
      have hr := (hc.mem _).1 (List.mem_of_getElem? h1)
      obtain ⟨ih1, ih2⟩ := ih b h2
      have hrg := rule_get h1 rfl
      rcases hc.inv.rules _ hr with h | ⟨f, hf, x, hx, h⟩ | ⟨x, hx, h⟩ | ⟨e, h⟩
      · cases h with
        | @one A n x yf hA hM hx =>
          refine ⟨fun n' Ls hA' hM' => ?_, fun hn => absurd hA.mark hn⟩
          have := hA.inj hc.input.pre hA'
          subst this
          rw [hM] at hM'
          cases hM'
          obtain ⟨t, ht, hg⟩ := ih2 (hX b hx).1
          refine ⟨⟨[t], ?_, .cons hg .nil⟩, ?_⟩
          · rw [walk, hrg, nomark_art (hX b hx).1, if_neg (by simp), ht]; rfl
          · intro x' hx'
            cases hx'
            exact ⟨t, by rw [left]; exact ht, hg⟩
      · have := (lexRules_shape h).2; simp at this
      · simp [lexRule] at h
      · obtain ⟨l, cs, B, m, Ls, rest, hE⟩ := hc.inv.bt _ e.1 e.2 h
        obtain ⟨yf', hyf⟩ := hE.rule
        simp only [Rule.mk.injEq, List.cons.injEq] at hyf
        obtain ⟨⟨rfl, rfl, rfl⟩, -⟩ := hyf
        have hpl : Spec.Plain e.1.root := root_plain (hc.input.frag _ hE.mem).labels
        have hroot : e.1.root = X := by rw [hE.eq]; rfl
        refine ⟨fun n' Ls' hA' _ => absurd hA'.mark (by rw [← hroot]; exact plain_nomark hpl), fun _ => ?_⟩
        rcases hE.arity with ha | ⟨-, x, hLs⟩
        · simp at ha
        · obtain ⟨-, hl⟩ := ih1 _ _ hE.isArt hE.lab
          obtain ⟨t, ht, hg⟩ := hl x hLs
          obtain ⟨u, hu, hgu⟩ := fill_good hE.mem (hc.input.frag _ hE.mem) hE.tmpl (ts := [t]) (by
            rw [← hE.cover, hLs]; exact .cons hg .nil)
          refine ⟨u, ?_, by rw [← hroot]; exact hgu⟩
          rw [recover, hrg, hE.isArt.art, if_pos rfl, ht]
          simp only [expand, hent h1 h, Option.map_some]
          exact hu
  | bin no d e ihd ihe =>
    intro X hd
    cases hd with
    | @bin _ _ b c yf _ _ h1 h2 h3 =>
      have hr := (hc.mem _).1 (List.mem_of_getElem? h1)
      obtain ⟨ihd1, ihd2⟩ := ihd b h2
      obtain ⟨ihe1, ihe2⟩ := ihe c h3
      have hrg := rule_get h1 rfl
      rcases hc.inv.rules _ hr with h | ⟨f, hf, x, hx, h⟩ | ⟨x, hx, h⟩ | ⟨e', h⟩
      · cases h with
        | @two A n x y yf hA hM hx hy =>
          refine ⟨fun n' Ls hA' hM' => ?_, fun hn => absurd hA.mark hn⟩
          have := hA.inj hc.input.pre hA'
          subst this
          rw [hM] at hM'
          cases hM'
          obtain ⟨t, ht, hg⟩ := ihd2 (hX b hx).1
          obtain ⟨u, hu, hgu⟩ := ihe2 (hX c hy).1
          refine ⟨⟨[t, u], ?_, .cons hg (.cons hgu .nil)⟩, ?_⟩
          · rw [walk, hrg, nomark_art (hX b hx).1, if_neg (by simp), ht, hu]; rfl
          · intro x' hx'; cases hx'
        | @more A n B m Ls y yf hA hB hMB hne hM hy =>
          refine ⟨fun n' Ls' hA' hM' => ?_, fun hn => absurd hA.mark hn⟩
          have := hA.inj hc.input.pre hA'
          subst this
          rw [hM] at hM'
          cases hM'
          obtain ⟨⟨ts, hts, hg⟩, -⟩ := ihd1 _ _ hB hMB
          obtain ⟨u, hu, hgu⟩ := ihe2 (hX c hy).1
          refine ⟨⟨ts ++ [u], ?_, List.rel_append hg (.cons hgu .nil)⟩, ?_⟩
          · rw [walk, hrg, hB.art, if_pos rfl, hts, hu]; rfl
          · intro x' hx'
            exfalso
            have hlen := congrArg List.length hx'
            simp only [List.length_append, List.length_cons, List.length_nil] at hlen
            exact hne (List.eq_nil_of_length_eq_zero (by omega))
      · have := (lexRules_shape h).2; simp at this
      · simp [lexRule] at h
      · obtain ⟨l, cs, B, m, Ls, rest, hE⟩ := hc.inv.bt _ e'.1 e'.2 h
        obtain ⟨yf', hyf⟩ := hE.rule
        simp only [Rule.mk.injEq, List.cons.injEq] at hyf
        obtain ⟨⟨rfl, rfl, rfl⟩, -⟩ := hyf
        have hpl : Spec.Plain e'.1.root := root_plain (hc.input.frag _ hE.mem).labels
        have hroot : e'.1.root = X := by rw [hE.eq]; rfl
        refine ⟨fun n' Ls' hA' _ => absurd hA'.mark (by rw [← hroot]; exact plain_nomark hpl), fun _ => ?_⟩
        obtain ⟨⟨ts, hts, hg⟩, -⟩ := ihd1 _ _ hE.isArt hE.lab
        have hcl : Spec.FrontLabel fr c := by
          have : c ∈ e'.1.sorted.map Front.label := by rw [← hE.cover]; simp
          obtain ⟨x, hx, rfl⟩ := List.mem_map.1 this
          exact ⟨_, hE.mem, x, (sorted_perm _).mem_iff.1 hx, rfl⟩
        obtain ⟨u, hu, hgu⟩ := ihe2 (hX c hcl).1
        obtain ⟨v, hv, hgv⟩ := fill_good hE.mem (hc.input.frag _ hE.mem) hE.tmpl (ts := ts ++ [u]) (by
          rw [← hE.cover]; exact List.rel_append hg (.cons hgu .nil))
        refine ⟨v, ?_, by rw [← hroot]; exact hgv⟩
        rw [recover, hrg, hE.isArt.art, if_pos rfl, hts, hu]
        simp only [expand, hent h1 h, snoc]
        exact hv

/-! ### Completeness -/

theorem derives_index {R : List Rule} {r : Rule} (h : r ∈ R) : ∃ no : Nat, R[no]? = some r := by
  obtain ⟨no, hno, he⟩ := List.mem_iff_getElem.1 h
  exact ⟨no, by rw [List.getElem?_eq_getElem hno, he]⟩

theorem forall₂_append_left {α β : Type} {P : α → β → Prop} {as bs : List α} {ts : List β} (h : List.Forall₂ P (as ++ bs) ts) :
    ∃ us vs, List.Forall₂ P as us ∧ List.Forall₂ P bs vs ∧ ts = us ++ vs := by
  induction as generalizing ts with
  | nil => exact ⟨[], ts, .nil, h, rfl⟩
  | cons a as ih =>
    cases h with
    | cons h1 h2 =>
      obtain ⟨us, vs, h3, h4, rfl⟩ := ih h2
      exact ⟨_ :: us, vs, .cons h1 h3, h4, rfl⟩

/-- There is a derivation of this label with this (raw) tree. -/
def Has (R : List Rule) (bt : List Tmpl) (sent : List Str) (x : Str) (t : PTree Str) : Prop := ∃ d, Spec.Derives R sent d x ∧ recover R bt d = some t

theorem chain_complete {fr : List Frag} {weight : Frag → W} {pre : Str} {M : Nat → Option (List Str)} {s : St W} {R : List Rule} {bt : List Tmpl} (hc : Ctx fr weight pre M s R bt)
    {sent : List Str} {Ls : List Str} {A : Str} (h : ChainIn (· ∈ Dict.keys s.grammar) Ls A) : (∀ x ∈ Ls, Spec.FrontLabel fr x) → ∀ {ts : List (PTree Str)},
    List.Forall₂ (Has R bt sent) Ls ts → ∃ d, Spec.Derives R sent d A ∧ walk R bt d = some ts ∧ ∀ t, ts = [t] → left R bt d = some t := by
  have hX := fun x (hx : Spec.FrontLabel fr x) => frontLabel_ok hc.input.frag hx
  induction h with
  | @one A x yf h1 h2 =>
    intro hL ts hts
    obtain ⟨no, hno⟩ := derives_index ((hc.mem _).2 h2)
    cases hts with
    | cons hx hnil =>
      cases hnil
      obtain ⟨d, hd, hr⟩ := hx
      refine ⟨.un no d, .un hno hd, ?_, ?_⟩
      · rw [walk, rule_get hno rfl, nomark_art (hX x (hL x (by simp))).1, if_neg (by simp), hr]; rfl
      · intro t ht; cases ht; rw [left]; exact hr
  | @two A x y yf h1 h2 =>
    intro hL ts hts
    obtain ⟨no, hno⟩ := derives_index ((hc.mem _).2 h2)
    cases hts with
    | cons hx hr1 =>
      cases hr1 with
      | cons hy hnil =>
        cases hnil
        obtain ⟨d, hd, hr⟩ := hx
        obtain ⟨e, he, hr'⟩ := hy
        refine ⟨.bin no d e, .bin hno hd he, ?_, ?_⟩
        · rw [walk, rule_get hno rfl, nomark_art (hX x (hL x (by simp))).1, if_neg (by simp), hr, hr']; rfl
        · intro t ht; cases ht
  | @more A B Ls y yf h1 hch h2 ih =>
    intro hL ts hts
    obtain ⟨no, hno⟩ := derives_index ((hc.mem _).2 h2)
    obtain ⟨us, vs, hu, hv, rfl⟩ : ∃ us vs, List.Forall₂ (Has R bt sent) Ls us ∧ List.Forall₂ (Has R bt sent) [y] vs ∧ ts = us ++ vs :=
      forall₂_append_left hts
    obtain ⟨d, hd, hw, -⟩ := ih (fun x hx => hL x (List.mem_append_left _ hx)) hu
    cases hv with
    | cons hy hnil =>
      cases hnil
      obtain ⟨e, he, hr⟩ := hy
      refine ⟨.bin no d e, .bin hno hd he, ?_, ?_⟩
      · rw [walk, rule_get hno rfl, hch.art, if_pos rfl, hw, hr]; rfl
      · intro t ht
        exfalso
        have hlen := congrArg List.length ht
        have h3 := hu.length_eq
        have : Ls ≠ [] := by cases hch <;> simp
        have h4 := List.length_pos_of_ne_nil this
        simp only [List.length_append, List.length_cons, List.length_nil] at hlen
        omega

theorem frag_complete {fr : List Frag} {weight : Frag → W} {pre : Str} {M : Nat → Option (List Str)} {s : St W} {R : List Rule} {bt : List Tmpl} (hc : Ctx fr weight pre M s R bt)
    {sent : List Str} {l : Str} {cs : List Frag} (hf : .node l cs ∈ fr) {τ : Nat → PTree Str} (hτ : ∀ x ∈ (Frag.node l cs).fronts, Has R bt sent x.label (τ x.i)) :
    Has R bt sent l (fillBy τ (.node l cs)) := by
  have hfr := hc.input.frag _ hf
  have hmem : Frag.node l cs ∈ s.bt.map (fun e => e.2.1) := by rw [hc.inv.order]; simp [hf]
  obtain ⟨⟨p, f, T⟩, he, hfe⟩ := List.mem_map.1 hmem
  simp only at hfe
  subst hfe
  have hget := Dict.get?_of_mem hc.inv.btwf he
  obtain ⟨l', cs', B, m, Ls, rest, hE⟩ := hc.inv.bt p _ T hget
  have heq := hE.eq
  cases heq
  obtain ⟨yf, hp⟩ := hE.rule
  have hpk : p ∈ Dict.keys s.grammar := by rw [Dict.mem_keys, hE.weight]; rfl
  obtain ⟨no, hno⟩ := derives_index ((hc.mem _).2 hpk)
  have hbt : bt[no]? = some T := by rw [hc.bt, hno]; simp [hget]
  have hd : ((Frag.node l cs).sorted.flatMap Front.indices).Nodup := ((sorted_perm _).flatMap_right _).nodup_iff.2 hfr.distinct
  obtain ⟨T', h1, h2⟩ := tmpl_fill (indices_nodup_i hd) (.node l cs) (fun x hx => (sorted_perm _).mem_iff.2 hx)
  rw [hE.tmpl] at h1
  cases h1
  have hall : List.Forall₂ (Has R bt sent) (Ls ++ rest) ((Frag.node l cs).sorted.map fun x => τ x.i) := by
    rw [hE.cover, List.forall₂_map_right_iff, List.forall₂_map_left_iff, List.forall₂_same]
    exact fun x hx => hτ x ((sorted_perm _).mem_iff.1 hx)
  obtain ⟨us, vs, hu, hv, hts⟩ := forall₂_append_left hall
  have hLs : ∀ x ∈ Ls, Spec.FrontLabel fr x := by
    intro x hx
    have : x ∈ (Frag.node l cs).sorted.map Front.label := by rw [← hE.cover]; exact List.mem_append_left _ hx
    obtain ⟨y, hy, rfl⟩ := List.mem_map.1 this
    exact ⟨_, hf, y, (sorted_perm _).mem_iff.1 hy, rfl⟩
  obtain ⟨d, hd1, hd2, hd3⟩ := chain_complete hc hE.chain hLs hu
  have hfill := h2 τ
  rw [hts] at hfill
  rcases hE.arity with ha | ⟨ha, x, hx⟩
  · obtain ⟨y, rfl⟩ := List.length_eq_one_iff.1 ha
    cases hv with
    | cons hy hnil =>
      cases hnil
      obtain ⟨e, he1, he2⟩ := hy
      rw [hp] at hno
      refine ⟨.bin no d e, .bin hno hd1 he1, ?_⟩
      rw [recover, rule_get hno rfl, hE.isArt.art, if_pos rfl, hd2, he2]
      simp only [expand, hbt, snoc]
      exact hfill
  · subst ha hx
    cases hv
    cases hu with
    | cons hu1 hnil =>
      cases hnil
      rw [hp] at hno
      refine ⟨.un no d, .un hno hd1, ?_⟩
      rw [recover, rule_get hno rfl, hE.isArt.art, if_pos rfl, hd3 _ rfl]
      simp only [expand, hbt, Option.map_some]
      exact hfill

theorem composed_complete {fr : List Frag} {weight : Frag → W} {pre : Str} {M : Nat → Option (List Str)} {s : St W} {R : List Rule} {bt : List Tmpl} (hc : Ctx fr weight pre M s R bt)
    {sent : List Str} {l : Str} {t : PTree Str} (h : Spec.Composed fr sent l t) : ∃ t0, Has R bt sent l t0 ∧ t0.mapLabel strip = t := by
  refine Spec.Composed.rec (motive_1 := fun l t _ => ∃ t0, Has R bt sent l t0 ∧ t0.mapLabel strip = t)
    (motive_2 := fun f t _ => (f.fronts.flatMap Front.indices).Nodup → Spec.Labels f → (∀ x ∈ f.fronts, ∀ r ∈ lexRules x, r ∈ Dict.keys s.grammar) →
      ∃ τ : Nat → PTree Str, (fillBy τ f).mapLabel strip = t ∧ ∀ x ∈ f.fronts, Has R bt sent x.label (τ x.i))
    (motive_3 := fun cs ts _ => ((Frag.frontsL cs).flatMap Front.indices).Nodup → Spec.LabelsL cs →
      (∀ x ∈ Frag.frontsL cs, ∀ r ∈ lexRules x, r ∈ Dict.keys s.grammar) →
      ∃ τ : Nat → PTree Str, mapLabelL strip (fillByL τ cs) = ts ∧ ∀ x ∈ Frag.frontsL cs, Has R bt sent x.label (τ x.i))
    ?_ ?_ ?_ ?_ ?_ ?_ h
  · intro f t hf hinst ih
    have hfr := hc.input.frag f hf
    cases f with
    | front x =>
      obtain ⟨-, h2⟩ := hfr.top x rfl
      cases hinst with
      | @word l i is w j h3 h4 =>
        refine ⟨.node l [.leaf j], ⟨.lex l j, .lex ((hc.mem _).2 (hc.inv.lex _ hf)) h4, rfl⟩, ?_⟩
        have hp : '@' ∉ l := (root_plain hfr.labels).2.2.1
        rw [mapLabel, strip_plain hp]
        rfl
      | site h3 => exact absurd rfl h2
    | node l cs =>
      have hmem : Frag.node l cs ∈ s.bt.map (fun e => e.2.1) := by rw [hc.inv.order]; simp [hf]
      obtain ⟨⟨p, f, T⟩, he, hfe⟩ := List.mem_map.1 hmem
      simp only at hfe
      subst hfe
      obtain ⟨l', cs', B, m, Ls, rest, hE⟩ := hc.inv.bt p _ T (Dict.get?_of_mem hc.inv.btwf he)
      obtain ⟨τ, h1, h2⟩ := ih hfr.distinct hfr.labels hE.lex
      exact ⟨_, frag_complete hc hf h2, h1⟩
  · intro l i is w j hw hj _ hlab hlex
    rw [Spec.Labels] at hlab
    have hlb : (Front.mk l i is w).label = l ++ '@' :: w := by unfold Front.label; rw [if_neg hw]
    refine ⟨fun _ => .node (Front.mk l i is w).label [.leaf j], ?_, ?_⟩
    · rw [fillBy, mapLabel, hlb, strip_word hlab.1.2.2.1 hw]
      rfl
    · intro x hx
      simp only [Frag.fronts, List.mem_singleton] at hx
      subst hx
      refine ⟨.lex _ j, .lex ((hc.mem _).2 (hlex ⟨l, i, is, w⟩ (by simp [Frag.fronts]) _ ?_)) hj, rfl⟩
      unfold lexRules
      rw [if_neg hw]
      simp
  · intro l i is t _ ih _ _ _
    obtain ⟨t0, h1, h2⟩ := ih
    refine ⟨fun _ => t0, h2, ?_⟩
    intro x hx
    simp only [Frag.fronts, List.mem_singleton] at hx
    subst hx
    exact h1
  · intro l cs ts _ ih hd hlab hlex
    rw [Spec.Labels] at hlab
    obtain ⟨τ, h1, h2⟩ := ih (by simpa [Frag.fronts] using hd) hlab.2.2 (by simpa [Frag.fronts] using hlex)
    refine ⟨τ, ?_, by simpa [Frag.fronts] using h2⟩
    rw [fillBy, mapLabel, h1, strip_plain hlab.1.2.2.1]
  · intro _ _ _
    exact ⟨fun _ => .leaf 0, rfl, by simp [Frag.frontsL]⟩
  · intro c t cs ts _ _ ih1 ih2 hd hlab hlex
    rw [Frag.frontsL, List.flatMap_append] at hd
    rw [Spec.LabelsL] at hlab
    have hd' := List.nodup_append.1 hd
    obtain ⟨τ1, a1, a2⟩ := ih1 hd'.1 hlab.1 (fun x hx => hlex x (by simp [Frag.frontsL, hx]))
    obtain ⟨τ2, b1, b2⟩ := ih2 hd'.2.1 hlab.2 (fun x hx => hlex x (by simp [Frag.frontsL, hx]))
    have e1 : ∀ x ∈ c.fronts, (if x.i ∈ c.fronts.map Front.i then τ1 x.i else τ2 x.i) = τ1 x.i := by
      intro x hx; rw [if_pos (List.mem_map_of_mem hx)]
    have e2 : ∀ x ∈ Frag.frontsL cs, (if x.i ∈ c.fronts.map Front.i then τ1 x.i else τ2 x.i) = τ2 x.i := by
      intro x hx
      rw [if_neg]
      intro hm
      obtain ⟨y, hy, he⟩ := List.mem_map.1 hm
      exact hd'.2.2 x.i (by rw [List.mem_flatMap]; exact ⟨y, hy, by rw [← he]; simp [Front.indices]⟩) x.i
        (by rw [List.mem_flatMap]; exact ⟨x, hx, by simp [Front.indices]⟩) rfl
    refine ⟨fun i => if i ∈ c.fronts.map Front.i then τ1 i else τ2 i, ?_, ?_⟩
    · rw [fillByL, mapLabelL, fillBy_congr c e1, fillByL_congr cs e2, a1, b1]
    · intro x hx
      rw [Frag.frontsL, List.mem_append] at hx
      rcases hx with hx | hx
      · simp only [e1 x hx]; exact a2 x hx
      · simp only [e2 x hx]; exact b2 x hx

/-! ### The theorems -/

/-- The fragments that are constituents. -/
def Spec.isNode : Frag → Bool
  | .front _ => false
  | .node _ _ => true

/-- `dopgrammar` returns a grammar for every list of fragments. -/
theorem C23_total {fr : List Frag} {pre : Str} (hin : Spec.Input fr pre) (weight : Frag → W) (one : W) :
    ∃ G bt fs, dopgrammar weight one ⟨pre, 0, []⟩ fr = some (G, bt, fs) := by
  obtain ⟨s, M, G', h1, h2, -⟩ := dopgrammar_inv weight one hin
  exact ⟨_, _, _, h2⟩

/-- The rules of the grammar are distinct, the fragments that are constituents correspond one to one to the first rules of the grammar, in
the order of the grammar: such a rule has the weight of the fragment and its label on the left-hand side; the template at its position
gives back the fragment with its frontier nodes replaced, when it is filled with the replacements in the order of the frontier nodes. -/
theorem C23_aligned {fr : List Frag} {pre : Str} (hin : Spec.Input fr pre) {weight : Frag → W} {one : W} {G : List (Rule × W)} {bt : List Tmpl} {fs : List Frag}
    (h : dopgrammar weight one ⟨pre, 0, []⟩ fr = some (G, bt, fs)) :
    (G.map Prod.fst).Nodup ∧ fs.Perm (fr.filter Spec.isNode) ∧ bt.length = fs.length ∧
    ∀ (i : Nat) f, fs[i]? = some f → ∃ B rest yf T, G[i]? = some (⟨f.root :: B :: rest, .spans yf⟩, weight f) ∧ bt[i]? = some T ∧
      ∀ τ : Nat → PTree Str, T.fill (f.sorted.map fun x => τ x.i) = some (fillBy τ f) := by
  obtain ⟨s, M, hc, hperm, hfs, hidx⟩ := dopgrammar_ctx hin h
  have hnd : (G.map Prod.fst).Nodup := ((hperm.map Prod.fst).nodup_iff).2 hc.inv.wf
  have key : ∀ (i : Nat) f, fs[i]? = some f → ∃ B rest yf T, G[i]? = some (⟨f.root :: B :: rest, .spans yf⟩, weight f) ∧ bt[i]? = some T ∧
      ∀ τ : Nat → PTree Str, T.fill (f.sorted.map fun x => τ x.i) = some (fillBy τ f) := by
    intro i f hf
    rw [hidx i] at hf
    cases hg : G[i]? with
    | none => rw [hg] at hf; simp at hf
    | some r =>
      rw [hg] at hf
      obtain ⟨p, wt⟩ := r
      simp only [Option.bind_some] at hf
      cases hb : Dict.get? s.bt p with
      | none => rw [hb] at hf; simp at hf
      | some e =>
        rw [hb] at hf
        obtain ⟨f', T⟩ := e
        simp only [Option.map_some, Option.some.injEq] at hf
        subst hf
        obtain ⟨l, cs, B, m, Ls, rest, hE⟩ := hc.inv.bt p _ T hb
        obtain ⟨yf, hp⟩ := hE.rule
        have hw : Dict.get? s.grammar p = some wt := Dict.get?_of_mem hc.inv.wf (hperm.mem_iff.1 (List.mem_of_getElem? hg))
        rw [hE.weight] at hw
        cases hw
        have hfr := hc.input.frag _ hE.mem
        have hd : (f'.sorted.flatMap Front.indices).Nodup := ((sorted_perm _).flatMap_right _).nodup_iff.2 hfr.distinct
        obtain ⟨T', h1, h2⟩ := tmpl_fill (indices_nodup_i hd) f' (fun x hx => (sorted_perm _).mem_iff.2 hx)
        rw [hE.tmpl] at h1
        cases h1
        refine ⟨B, rest, yf, T, ?_, ?_, h2⟩
        · rw [hp, hE.eq]; rfl
        · rw [hc.bt, List.getElem?_map, hg]; simp [hb]
  refine ⟨hnd, ?_, ?_, key⟩
  · have h1 : fs.Perm (s.grammar.filterMap (fun r => (Dict.get? s.bt r.1).map Prod.fst)) := by rw [hfs]; exact hperm.filterMap _
    refine h1.trans ?_
    have h2 : (s.bt.map fun e => e.2.1) = fr.filter Spec.isNode := by
      rw [hc.inv.order]
      congr 1
    rw [← h2]
    have h3 : s.grammar.filterMap (fun r => (Dict.get? s.bt r.1).map Prod.fst) = (Dict.keys s.grammar).filterMap (fun r => (Dict.get? s.bt r).map Prod.fst) := by
      unfold Dict.keys
      rw [List.filterMap_map]
      rfl
    have h4 : (s.bt.map fun e => e.2.1) = (Dict.keys s.bt).filterMap (fun r => (Dict.get? s.bt r).map Prod.fst) := by
      unfold Dict.keys
      rw [List.filterMap_map, ← List.filterMap_eq_map]
      apply List.filterMap_congr
      intro e he
      have := Dict.get?_of_mem hc.inv.btwf (k := e.1) (v := e.2) he
      simp [this]
    rw [h3, h4]
    have h5 : (Dict.keys s.grammar).filterMap (fun r => (Dict.get? s.bt r).map Prod.fst) =
        ((Dict.keys s.grammar).filter fun r => (Dict.get? s.bt r).isSome).filterMap (fun r => (Dict.get? s.bt r).map Prod.fst) := by
      rw [List.filterMap_filter]
      apply List.filterMap_congr
      intro r _
      cases Dict.get? s.bt r <;> simp
    rw [h5]
    refine List.Perm.filterMap _ ?_
    refine (List.perm_ext_iff_of_nodup (hc.inv.wf.filter _) hc.inv.btwf).2 fun r => ?_
    rw [List.mem_filter, ← Dict.mem_keys]
    constructor
    · exact fun h => h.2
    · intro hr
      refine ⟨?_, hr⟩
      rw [Dict.mem_keys] at hr
      obtain ⟨⟨f, T⟩, he⟩ := Option.isSome_iff_exists.1 hr
      obtain ⟨_, _, _, _, _, _, hE⟩ := hc.inv.bt r f T he
      rw [Dict.mem_keys, hE.weight]; rfl
  · have hlt : ∀ i : Nat, bt[i]?.isSome = fs[i]?.isSome := by
      intro i
      rw [hc.bt, hidx, List.getElem?_map]
      cases G[i]? with
      | none => rfl
      | some r => simp
    rcases Nat.lt_trichotomy bt.length fs.length with hl | hl | hl
    · have := hlt bt.length
      rw [List.getElem?_eq_none (Nat.le_refl _), List.getElem?_eq_getElem hl] at this
      simp at this
    · exact hl
    · have := hlt fs.length
      rw [List.getElem?_eq_none (Nat.le_refl _), List.getElem?_eq_getElem hl] at this
      simp at this

/-- The trees that `recoverfragments` gives for the derivations of a nonterminal are the trees with that label that are composed of
fragments. -/
theorem C23_exact {fr : List Frag} {pre : Str} (hin : Spec.Input fr pre) {weight : Frag → W} {one : W} {G : List (Rule × W)} {bt : List Tmpl} {fs : List Frag}
    (h : dopgrammar weight one ⟨pre, 0, []⟩ fr = some (G, bt, fs)) (sent : List Str) (l : Str) (hl : Spec.Plain l) (t : PTree Str) :
    (∃ d, Spec.Derives (G.map Prod.fst) sent d l ∧ recoverfragments (G.map Prod.fst) bt d = some t) ↔ Spec.Composed fr sent l t := by
  obtain ⟨s, M, hc, -⟩ := dopgrammar_ctx hin h
  constructor
  · rintro ⟨d, hd, hr⟩
    obtain ⟨-, h2⟩ := recover_sound hc sent d l hd
    obtain ⟨t0, h3, h4⟩ := h2 (plain_nomark hl)
    unfold recoverfragments at hr
    rw [h3] at hr
    cases hr
    exact composed_of_good hl.2.2.1 h4
  · intro hcomp
    obtain ⟨t0, ⟨d, hd, hr⟩, rfl⟩ := composed_complete hc hcomp
    exact ⟨d, hd, by unfold recoverfragments; rw [hr]; rfl⟩

/-- `recoverfragments` does not fail on a derivation of a nonterminal. -/
theorem C23_recover_total {fr : List Frag} {pre : Str} (hin : Spec.Input fr pre) {weight : Frag → W} {one : W} {G : List (Rule × W)} {bt : List Tmpl} {fs : List Frag}
    (h : dopgrammar weight one ⟨pre, 0, []⟩ fr = some (G, bt, fs)) (sent : List Str) (l : Str) (hl : Spec.Plain l) (d : Der)
    (hd : Spec.Derives (G.map Prod.fst) sent d l) : ∃ t, recoverfragments (G.map Prod.fst) bt d = some t ∧ Spec.Composed fr sent l t := by
  obtain ⟨s, M, hc, -⟩ := dopgrammar_ctx hin h
  obtain ⟨-, h2⟩ := recover_sound hc sent d l hd
  obtain ⟨t0, h3, h4⟩ := h2 (plain_nomark hl)
  exact ⟨_, by unfold recoverfragments; rw [h3]; rfl, composed_of_good hl.2.2.1 h4⟩

/-! ### A sufficient condition for unambiguous keys -/

theorem sep_cancel {x x' : Str} {c c' : Char} {r r' : Str} (h : x ++ c :: r = x' ++ c' :: r') (h1 : ¬ x ++ [c] <+: x') (h2 : ¬ x' ++ [c'] <+: x) :
    x = x' ∧ c = c' ∧ r = r' := by
  induction x generalizing x' with
  | nil =>
    cases x' with
    | nil => simpa using h
    | cons d x' =>
      simp only [List.nil_append, List.cons_append, List.cons.injEq] at h
      exact absurd ⟨x', by rw [h.1]; rfl⟩ h1
  | cons d x ih =>
    cases x' with
    | nil =>
      simp only [List.nil_append, List.cons_append, List.cons.injEq] at h
      exact absurd ⟨x, by rw [← h.1]; rfl⟩ h2
    | cons d' x' =>
      simp only [List.cons_append, List.cons.injEq] at h
      obtain ⟨rfl, h⟩ := h
      obtain ⟨rfl, h3⟩ := ih h (fun hp => h1 (by simpa using hp)) (fun hp => h2 (by simpa using hp))
      exact ⟨rfl, h3⟩

/-- Keys are unambiguous if no label with a comma or semicolon after it begins another label. -/
theorem C23_unambiguous {X : Str → Prop} (h : ∀ x y, X x → X y → ¬ x ++ [','] <+: y ∧ ¬ x ++ [';'] <+: y) : Spec.Unambiguous X := by
  intro xs ys y z hxs hys hX hY _ _ he
  have hsep : ∀ (x : Str) (xs : List Str) (y : Str), ∃ c r, (c = ',' ∨ c = ';') ∧ Str.join [','] (x :: xs) ++ ';' :: y = x ++ c :: r ∧
      (c = ';' → xs = []) ∧ (c = ',' → xs ≠ [] ∧ r = Str.join [','] xs ++ ';' :: y) := by
    intro x xs y
    cases xs with
    | nil => exact ⟨';', y, .inr rfl, by simp [Str.join], fun _ => rfl, fun h => absurd h (by decide)⟩
    | cons x' xs => exact ⟨',', Str.join [','] (x' :: xs) ++ ';' :: y, .inl rfl, by simp [Str.join, List.append_assoc], fun h => absurd h (by decide), fun _ => ⟨by simp, rfl⟩⟩
  induction xs generalizing ys with
  | nil => exact absurd rfl hxs
  | cons x xs ih =>
    cases ys with
    | nil => exact absurd rfl hys
    | cons x' ys =>
      obtain ⟨c, r, hc, h1, h2, h3⟩ := hsep x xs y
      obtain ⟨c', r', hc', h1', h2', h3'⟩ := hsep x' ys z
      rw [h1, h1'] at he
      have hp : ∀ a b d, X a → X b → (d = ',' ∨ d = ';') → ¬ a ++ [d] <+: b := by
        rintro a b d ha hb (rfl | rfl)
        · exact (h a b ha hb).1
        · exact (h a b ha hb).2
      have hx := hX x (by simp)
      have hx' := hY x' (by simp)
      obtain ⟨rfl, rfl, rfl⟩ := sep_cancel he (hp _ _ _ hx hx' hc) (hp _ _ _ hx' hx hc')
      rcases hc with rfl | rfl
      · obtain ⟨hn, hr⟩ := h3 rfl
        obtain ⟨hn', hr'⟩ := h3' rfl
        rw [ih ys hn hn' (fun a ha => hX a (by simp [ha])) (fun a ha => hY a (by simp [ha])) (hr ▸ hr')]
      · rw [h2 rfl, h2' rfl]

end Disco.DDop
