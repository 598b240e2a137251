import Verif.Grammar.DoubleDopFrag
/-!
# C23: the loop of `dopgrammar` (grammar.py:268-280) and the alignment of the templates with the rules (302-308)
-/
namespace Disco.DDop
open PTree Prods Factor TBGrammar

variable {W : Type}

/-- The labels of frontier nodes are neither artificial nor `Epsilon`. -/
theorem frontLabel_ok {fr : List Frag} (hfr : ∀ f ∈ fr, Spec.Fragment f) {x : Str} (hx : Spec.FrontLabel fr x) : ¬ ['}', '<'] <:+: x ∧ x ≠ epsilon := by
  obtain ⟨f, hf, y, hy, rfl⟩ := hx
  obtain ⟨h1, h2, -⟩ := (labels_fronts f (hfr f hf).labels).2 y hy
  exact ⟨front_nomark h1 h2, front_ne_epsilon h1⟩

/-- What is known about the rule of a fragment. -/
structure Entry (weight : Frag → W) (pre : Str) (M : Nat → Option (List Str)) (g : Dict Rule W) (done : List Frag) (p : Rule) (f : Frag) (T : Tmpl)
    (l : Str) (cs : List Frag) (B : Str) (m : Nat) (Ls rest : List Str) : Prop where
  eq : f = .node l cs
  mem : f ∈ done
  rule : ∃ yf, p = ⟨l :: B :: rest, .spans yf⟩
  isArt : IsArt pre B m
  lab : M m = some Ls
  cover : Ls ++ rest = f.sorted.map Front.label
  arity : rest.length = 1 ∨ rest = [] ∧ ∃ x, Ls = [x]
  tmpl : tmpl (order f.sorted) f = some T
  weight : Dict.get? g p = some (weight f)
  chain : ChainIn (· ∈ Dict.keys g) Ls B
  lex : ∀ x ∈ f.fronts, ∀ r ∈ lexRules x, r ∈ Dict.keys g

/-- The rule of a fragment that is a preterminal. -/
def lexRule (x : Front) : Rule := ⟨[x.l, epsilon], .word (Escape.escape (some x.w))⟩

/-- The invariant of the loop. -/
structure Inv (fr : List Frag) (weight : Frag → W) (pre : Str) (M : Nat → Option (List Str)) (done : List Frag) (s : St W) : Prop where
  ids : IdInv (Spec.FrontLabel fr) s.ids M
  prefix_eq : s.ids.pre = pre
  wf : Dict.WF s.grammar
  btwf : Dict.WF s.bt
  rules : ∀ r ∈ Dict.keys s.grammar, ArtRule pre M (Spec.FrontLabel fr) r ∨ (∃ f ∈ done, ∃ x ∈ f.fronts, r ∈ lexRules x) ∨
    (∃ x, .front x ∈ done ∧ r = lexRule x) ∨ ∃ e, Dict.get? s.bt r = some e
  bt : ∀ p f T, Dict.get? s.bt p = some (f, T) → ∃ l cs B m Ls rest, Entry weight pre M s.grammar done p f T l cs B m Ls rest
  order : s.bt.map (fun e => e.2.1) = done.filter fun f => match f with
    | .front _ => false
    | .node _ _ => true
  lex : ∀ x, .front x ∈ done → lexRule x ∈ Dict.keys s.grammar

theorem updateAll_get (one : W) (ps : List Rule) : ∀ (g : Dict Rule W) (r : Rule), Dict.get? (updateAll one g ps) r = if r ∈ ps then some one else Dict.get? g r := by
  induction ps with
  | nil => intro g r; simp [updateAll]
  | cons p ps ih =>
    intro g r
    rw [updateAll, ih, Dict.get?_set]
    by_cases h : r ∈ ps
    · simp [h]
    · by_cases h' : p = r
      · simp [h']
      · simp [h, h', Ne.symm h']

theorem updateAll_wf (one : W) (ps : List Rule) : ∀ {g : Dict Rule W}, Dict.WF g → Dict.WF (updateAll one g ps) := by
  induction ps with
  | nil => intro g h; exact h
  | cons p ps ih => intro g h; exact ih (h.set p one)

theorem updateAll_keys (one : W) (ps : List Rule) (g : Dict Rule W) (r : Rule) : r ∈ Dict.keys (updateAll one g ps) ↔ r ∈ ps ∨ r ∈ Dict.keys g := by
  rw [Dict.mem_keys, updateAll_get, Dict.mem_keys]
  by_cases h : r ∈ ps <;> simp [h]

theorem set_new {K V : Type} [DecidableEq K] {d : Dict K V} {k : K} (v : V) (h : Dict.get? d k = none) : Dict.set d k v = d ++ [(k, v)] := by
  induction d with
  | nil => rfl
  | cons p d ih =>
    obtain ⟨k', v'⟩ := p
    rw [Dict.get?] at h
    split at h
    · cases h
    · rename_i hne
      rw [Dict.set, if_neg hne, ih h]; rfl

theorem artRule_ne {pre : Str} {M : Nat → Option (List Str)} {X : Str → Prop} {r : Rule} (h : ArtRule pre M X r) {l : Str} (hl : '}' ∉ l) (rest : List Str) (yf : YF) :
    r ≠ ⟨l :: rest, yf⟩ := by
  have key : ∀ A n, IsArt pre A n → A ≠ l := by
    rintro A n hA rfl
    exact hl (hA.mark.subset (by simp))
  cases h with
  | one h1 _ _ => intro he; simp only [Rule.mk.injEq, List.cons.injEq] at he; exact key _ _ h1 he.1.1
  | two h1 _ _ _ => intro he; simp only [Rule.mk.injEq, List.cons.injEq] at he; exact key _ _ h1 he.1.1
  | more h1 _ _ _ _ _ => intro he; simp only [Rule.mk.injEq, List.cons.injEq] at he; exact key _ _ h1 he.1.1

theorem lexRules_shape {x : Front} {r : Rule} (h : r ∈ lexRules x) : x.w ≠ [] ∧ r = ⟨[x.label, epsilon], .word (Escape.escape (some x.w))⟩ := by
  unfold lexRules at h
  split at h
  · simp at h
  · rename_i hw; exact ⟨hw, by simpa using h⟩

theorem root_plain {f : Frag} (h : Spec.Labels f) : Spec.Plain f.root := by
  cases f with
  | front f => rw [Spec.Labels] at h; exact h.1
  | node l cs => rw [Spec.Labels] at h; exact h.1

/-- One more fragment. -/
theorem step_inv {fr : List Frag} {weight : Frag → W} (one : W) {pre : Str} (hin : Spec.Input fr pre) {M : Nat → Option (List Str)} {done : List Frag} {s : St W}
    (h : Inv fr weight pre M done s) (hdone : ∀ f ∈ done, f ∈ fr) {f : Frag} (hf : f ∈ fr) :
    ∃ s' M', step weight one s f = some s' ∧ Inv fr weight pre M' (done ++ [f]) s' := by
  have hfrag := hin.frag f hf
  have hfl : ∀ x ∈ f.fronts, Spec.FrontLabel fr x.label := fun x hx => ⟨f, hf, x, hx, rfl⟩
  cases f with
  | front x =>
    obtain ⟨l, i, is, w⟩ := x
    obtain ⟨h1, h2⟩ := hfrag.top _ rfl
    simp only at h1 h2
    subst h1
    have hprods : lcfrsproductions (.node l [.leaf i]) (sentOf [⟨l, i, [], w⟩]) false = some [lexRule ⟨l, i, [], w⟩] := by
      refine lcfrsproductions_some (F := [⟨l, i, [], w⟩]) (by simp [Front.indices]) (by simp [leaves, leavesL, Front.indices]) ?_
      have hs := sentOf_get (F := [⟨l, i, [], w⟩]) (by simp [Front.indices]) (f := ⟨l, i, [], w⟩) (by simp)
      simp only [if_neg h2] at hs
      unfold rulesOf
      simp only [subtrees, subtreesL, prodLoop, prodOf, hs, lexRule]
      rfl
    have hflat : flatten (.front ⟨l, i, [], w⟩) s.ids = some ([lexRule ⟨l, i, [], w⟩], .node l [.leaf 0], s.ids) := by
      rw [flatten, hprods]; rfl
    have hk : ∀ r, r ∈ Dict.keys (Dict.set s.grammar (lexRule ⟨l, i, [], w⟩) (weight (.front ⟨l, i, [], w⟩))) ↔
        r = lexRule ⟨l, i, [], w⟩ ∨ r ∈ Dict.keys s.grammar := fun r => Dict.mem_keys_set
    refine ⟨{ s with grammar := Dict.set s.grammar (lexRule ⟨l, i, [], w⟩) (weight (.front ⟨l, i, [], w⟩)), ids := s.ids }, M, ?_, ?_⟩
    · unfold step
      rw [hflat]
      simp only
      rw [if_pos (by simp [lexRule])]
    · refine ⟨h.ids, h.prefix_eq, h.wf.set _ _, h.btwf, ?_, ?_, ?_, ?_⟩
      · intro r hr
        rcases (hk r).1 hr with rfl | hr
        · exact .inr (.inr (.inl ⟨_, by simp, rfl⟩))
        · rcases h.rules r hr with h1 | ⟨f, hf, x, hx, h1⟩ | ⟨x, hx, h1⟩ | h1
          · exact .inl h1
          · exact .inr (.inl ⟨f, by simp [hf], x, hx, h1⟩)
          · exact .inr (.inr (.inl ⟨x, by simp [hx], h1⟩))
          · exact .inr (.inr (.inr h1))
      · intro p f T hp
        obtain ⟨l', cs, B, m, Ls, rest, he⟩ := h.bt p f T hp
        refine ⟨l', cs, B, m, Ls, rest, he.eq, List.mem_append_left _ he.mem, he.rule, he.isArt, he.lab, he.cover, he.arity, he.tmpl, ?_, ?_, ?_⟩
        · rw [Dict.get?_set, if_neg, he.weight]
          obtain ⟨yf, hyf⟩ := he.rule
          rw [hyf]
          simp [lexRule]
        · exact he.chain.mono fun r hr => (hk r).2 (.inr hr)
        · exact fun x hx r hr => (hk r).2 (.inr (he.lex x hx r hr))
      · rw [h.order]; simp
      · intro x hx
        rw [hk]
        rcases List.mem_append.1 hx with hx | hx
        · exact .inr (h.lex x hx)
        · simp only [List.mem_singleton, Frag.front.injEq] at hx; rw [hx]; exact .inl rfl
  | node l cs =>
    obtain ⟨s', M', p, ps, T, B, m, Ls, rest, F⟩ := flatten_node hin.keys hfrag hfl (by rw [h.prefix_eq]; exact hin.pre) h.ids
    obtain ⟨yf, hp⟩ := F.rule
    have hpre := h.prefix_eq
    have hartB : IsArt pre B m := by rw [← hpre]; exact F.isArt
    have hnone : Dict.get? s.bt p = none := by
      cases hg : Dict.get? s.bt p with
      | none => rfl
      | some e =>
        exfalso
        obtain ⟨l', cs', B', m', Ls', rest', he⟩ := h.bt p e.1 e.2 hg
        obtain ⟨yf', hp'⟩ := he.rule
        rw [hp] at hp'
        simp only [Rule.mk.injEq, List.cons.injEq] at hp'
        have hm := he.isArt
        rw [← hp'.1.2.1] at hm
        have := hm.inj hin.pre hartB
        have h1 := h.ids.dom _ _ he.lab
        have h2 := F.fresh
        omega
    have hps : ∀ {q : Rule} {l' B' : Str} {rest' : List Str} {yf' : List (List Nat)}, Spec.Plain l' → B' ≠ epsilon → q = ⟨l' :: B' :: rest', .spans yf'⟩ → q ∉ ps := by
      intro q l' B' rest' yf' hl' hB' hq hmem
      rcases F.art q hmem with h1 | ⟨x, hx, h1⟩
      · exact artRule_ne h1 hl'.2.2.2.2 _ _ hq
      · rw [(lexRules_shape h1).2] at hq
        simp at hq
    have hg' : ∀ r, Dict.get? (updateAll one (Dict.set s.grammar p (weight (.node l cs))) ps) r = if r ∈ ps then some one else
        if p = r then some (weight (.node l cs)) else Dict.get? s.grammar r := by
      intro r; rw [updateAll_get, Dict.get?_set]
    have hk : ∀ r, r ∈ Dict.keys (updateAll one (Dict.set s.grammar p (weight (.node l cs))) ps) ↔ r ∈ ps ∨ r = p ∨ r ∈ Dict.keys s.grammar := by
      intro r; rw [updateAll_keys, Dict.mem_keys_set]
    have hpp : p ∉ ps := hps (root_plain hfrag.labels) hartB.ne_epsilon hp
    refine ⟨⟨updateAll one (Dict.set s.grammar p (weight (.node l cs))) ps, Dict.set s.bt p (.node l cs, T), s'⟩, M', ?_, ?_⟩
    · unfold step
      rw [F.flat]
      simp only
      rw [if_neg]
      rw [hp]
      simp only [List.getElem?_cons_succ, List.getElem?_cons_zero, Option.some.injEq]
      exact hartB.ne_epsilon
    · refine ⟨F.inv, F.pre.trans hpre, updateAll_wf one ps (h.wf.set _ _), h.btwf.set _ _, ?_, ?_, ?_, ?_⟩
      · intro r hr
        rcases (hk r).1 hr with hr | rfl | hr
        · rcases F.art r hr with h1 | ⟨x, hx, h1⟩
          · exact .inl (by rw [← hpre]; exact h1)
          · exact .inr (.inl ⟨_, by simp, x, hx, h1⟩)
        · exact .inr (.inr (.inr ⟨_, by rw [Dict.get?_set, if_pos rfl]⟩))
        · rcases h.rules r hr with h1 | ⟨f, hf, x, hx, h1⟩ | ⟨x, hx, h1⟩ | ⟨e, h1⟩
          · exact .inl (h1.mono F.ext)
          · exact .inr (.inl ⟨f, by simp [hf], x, hx, h1⟩)
          · exact .inr (.inr (.inl ⟨x, by simp [hx], h1⟩))
          · refine .inr (.inr (.inr ⟨e, ?_⟩))
            simp only
            rw [Dict.get?_set, if_neg]
            · exact h1
            · rintro rfl; rw [hnone] at h1; cases h1
      · intro q f T' hq
        simp only at hq
        rw [Dict.get?_set] at hq
        split at hq
        next heq =>
          subst heq
          simp only [Option.some.injEq, Prod.mk.injEq] at hq
          obtain ⟨rfl, rfl⟩ := hq
          refine ⟨l, cs, B, m, Ls, rest, rfl, by simp, ⟨yf, hp⟩, hartB, F.lab, F.cover, F.arity, F.tmpl, ?_, ?_, ?_⟩
          · rw [hg', if_neg hpp, if_pos rfl]
          · exact F.chain.mono fun r hr => (hk r).2 (.inl hr)
          · exact fun x hx r hr => (hk r).2 (.inl (F.lex x hx r hr))
        next hne =>
          obtain ⟨l', cs', B', m', Ls', rest', he⟩ := h.bt q f T' hq
          obtain ⟨yf', hq'⟩ := he.rule
          have hl' : Spec.Plain l' := by
            have := root_plain (hin.frag f (hdone f he.mem)).labels
            rw [he.eq] at this; exact this
          refine ⟨l', cs', B', m', Ls', rest', he.eq, List.mem_append_left _ he.mem, he.rule, he.isArt, F.ext _ _ he.lab, he.cover, he.arity, he.tmpl, ?_, ?_, ?_⟩
          · rw [hg', if_neg (hps hl' he.isArt.ne_epsilon hq'), if_neg hne, he.weight]
          · exact he.chain.mono fun r hr => (hk r).2 (.inr (.inr hr))
          · exact fun x hx r hr => (hk r).2 (.inr (.inr (he.lex x hx r hr)))
      · rw [set_new _ hnone, List.map_append, h.order]; simp
      · intro x hx
        rw [hk]
        rcases List.mem_append.1 hx with hx | hx
        · exact .inr (.inr (h.lex x hx))
        · simp at hx

theorem loop_inv {fr : List Frag} {weight : Frag → W} (one : W) {pre : Str} (hin : Spec.Input fr pre) (fs : List Frag) : ∀ {M : Nat → Option (List Str)} {done : List Frag}
    {s : St W}, Inv fr weight pre M done s → (∀ f ∈ done, f ∈ fr) → (∀ f ∈ fs, f ∈ fr) →
    ∃ s' M', loop weight one fs s = some s' ∧ Inv fr weight pre M' (done ++ fs) s' := by
  induction fs with
  | nil => intro M done s h _ _; exact ⟨s, M, rfl, by simpa using h⟩
  | cons f fs ih =>
    intro M done s h hd hf
    obtain ⟨s1, M1, h1, h2⟩ := step_inv one hin h hd (hf f (by simp))
    obtain ⟨s', M', h3, h4⟩ := ih h2 (by
      intro g hg
      rcases List.mem_append.1 hg with hg | hg
      · exact hd g hg
      · simp only [List.mem_singleton] at hg; subst hg; exact hf g (by simp)) (fun g hg => hf g (by simp [hg]))
    exact ⟨s', M', by rw [loop, h1]; exact h3, by simpa using h4⟩

theorem inv_init (fr : List Frag) (weight : Frag → W) (pre : Str) : Inv fr weight pre (fun _ => none) [] ⟨[], [], ⟨pre, 0, []⟩⟩ :=
  ⟨⟨⟨by simp [Dict.get?], by simp [Dict.get?]⟩, by simp, by simp [Dict.get?]⟩, rfl, by simp [Dict.WF, Dict.keys], by simp [Dict.WF, Dict.keys],
    by simp [Dict.keys], by simp [Dict.get?], by simp, by simp⟩

/-! ### Alignment -/

theorem filterMap_prefix {α β : Type} (h : α → Option β) (G : List α) (hp : G.Pairwise fun x y => (h y).isSome → (h x).isSome) (i : Nat) :
    (G.filterMap h)[i]? = (G[i]?).bind h := by
  induction G generalizing i with
  | nil => simp
  | cons x G ih =>
    rw [List.pairwise_cons] at hp
    cases hx : h x with
    | none =>
      have hall : ∀ y ∈ x :: G, h y = none := by
        intro y hy
        rcases List.mem_cons.1 hy with rfl | hy
        · exact hx
        · have := hp.1 y hy
          rw [hx] at this
          cases hy' : h y with
          | none => rfl
          | some v => rw [hy'] at this; simp at this
      have : (x :: G).filterMap h = [] := by rw [List.filterMap_eq_nil_iff]; exact hall
      rw [this]
      cases hg : (x :: G)[i]? with
      | none => simp
      | some y => simp [hall y (List.mem_of_getElem? hg)]
    | some v =>
      rw [List.filterMap_cons, hx]
      cases i with
      | zero => simp [hx]
      | succ i => simpa using ih hp.2 i

theorem replace_ne_nil {pat rep : Str} (hr : rep ≠ []) {s : Str} (h : s ≠ []) : Escape.replace pat rep s ≠ [] := by
  cases s with
  | nil => exact absurd rfl h
  | cons c s =>
    rw [Escape.replace]
    split
    · simp [hr]
    · simp

theorem escape_ne_nil {w : Str} (h : w ≠ []) : Escape.escape (some w) ≠ [] := by
  unfold Escape.escape
  exact replace_ne_nil (by decide) (replace_ne_nil (by decide) h)

/-- The clusters of the rules. -/
theorem Inv.cluster {fr : List Frag} {weight : Frag → W} {pre : Str} (hin : Spec.Input fr pre) {M : Nat → Option (List Str)} {s : St W}
    (h : Inv fr weight pre M fr s) {r : Rule} (hr : r ∈ Dict.keys s.grammar) :
    (∃ k, sortkey r = some k) ∧ TBGrammar.Spec.word r ≠ some [] ∧ (TBGrammar.Spec.cluster r = 0 ↔ (Dict.get? s.bt r).isSome) := by
  have hart : ∀ (A : Str) (n : Nat) (x : Str) (rest : List Str) (yf : List (List Nat)), IsArt pre A n → x ≠ epsilon → r = ⟨A :: x :: rest, .spans yf⟩ →
      (∃ k, sortkey r = some k) ∧ TBGrammar.Spec.word r ≠ some [] ∧ (TBGrammar.Spec.cluster r = 0 ↔ (Dict.get? s.bt r).isSome) := by
    intro A n x rest yf hA hx he
    refine ⟨⟨([], isBinMark A, A), by rw [he]; simp [sortkey, hx]⟩, by rw [he]; simp [TBGrammar.Spec.word], ?_⟩
    have hc : TBGrammar.Spec.cluster r = 1 := by
      unfold TBGrammar.Spec.cluster
      rw [if_neg (by rw [he]; simp [TBGrammar.Spec.word]), if_pos ⟨A, by rw [he]; rfl, hA.mark⟩]
    rw [hc]
    constructor
    · intro hh; cases hh
    · intro hh
      obtain ⟨e, hg⟩ := Option.isSome_iff_exists.1 hh
      obtain ⟨l, cs, B, m, Ls, rest', hE⟩ := h.bt r e.1 e.2 hg
      obtain ⟨yf', hyf⟩ := hE.rule
      rw [he] at hyf
      simp only [Rule.mk.injEq, List.cons.injEq] at hyf
      have hl : Spec.Plain l := by
        have := root_plain (hin.frag _ hE.mem).labels
        rw [hE.eq] at this; exact this
      have := hA.mark
      rw [hyf.1.1] at this
      exact absurd this (plain_nomark hl)
  have hlex : ∀ (t w : Str), w ≠ [] → r = ⟨[t, epsilon], .word (Escape.escape (some w))⟩ →
      (∃ k, sortkey r = some k) ∧ TBGrammar.Spec.word r ≠ some [] ∧ (TBGrammar.Spec.cluster r = 0 ↔ (Dict.get? s.bt r).isSome) := by
    intro t w hw he
    have hword : TBGrammar.Spec.word r = some (Escape.escape (some w)) := by rw [he]; simp [TBGrammar.Spec.word]
    refine ⟨⟨(Escape.escape (some w), isBinMark t, t), by rw [he]; simp [sortkey]⟩, ?_, ?_⟩
    · rw [hword]
      simpa using escape_ne_nil hw
    · unfold TBGrammar.Spec.cluster
      rw [hword]
      simp only [Option.isSome_some, if_true]
      constructor
      · intro hh; cases hh
      · intro hh
        obtain ⟨e, hg⟩ := Option.isSome_iff_exists.1 hh
        obtain ⟨l, cs, B, m, Ls, rest', hE⟩ := h.bt r e.1 e.2 hg
        obtain ⟨yf', hyf⟩ := hE.rule
        rw [he] at hyf
        simp at hyf
  rcases h.rules r hr with h1 | ⟨f, hf, x, hx, h1⟩ | ⟨x, hx, h1⟩ | ⟨e, h1⟩
  · cases h1 with
    | one a b c => exact hart _ _ _ _ _ a (frontLabel_ok hin.frag c).2 rfl
    | two a b c d => exact hart _ _ _ _ _ a (frontLabel_ok hin.frag c).2 rfl
    | more a b _ _ _ _ => exact hart _ _ _ _ _ a b.ne_epsilon rfl
  · exact hlex _ _ (lexRules_shape h1).1 (lexRules_shape h1).2
  · exact hlex _ _ ((hin.frag _ hx).top x rfl).2 h1
  · obtain ⟨l, cs, B, m, Ls, rest', hE⟩ := h.bt r e.1 e.2 h1
    obtain ⟨yf', hyf⟩ := hE.rule
    have hl : Spec.Plain l := by
      have := root_plain (hin.frag _ hE.mem).labels
      rw [hE.eq] at this; exact this
    refine ⟨⟨([], isBinMark l, l), by rw [hyf]; simp [sortkey, hE.isArt.ne_epsilon]⟩, by rw [hyf]; simp [TBGrammar.Spec.word], ?_⟩
    rw [h1]
    simp only [Option.isSome_some, iff_true]
    unfold TBGrammar.Spec.cluster
    rw [if_neg (by rw [hyf]; simp [TBGrammar.Spec.word]), if_neg]
    rintro ⟨l', hl', hm⟩
    rw [hyf] at hl'
    simp only [TBGrammar.Spec.lhs, List.head?_cons, Option.some.injEq] at hl'
    rw [← hl'] at hm
    exact plain_nomark hl hm

/-- The result of `dopgrammar`. -/
theorem dopgrammar_inv {fr : List Frag} (weight : Frag → W) (one : W) {pre : Str} (hin : Spec.Input fr pre) :
    ∃ s M G, Inv fr weight pre M fr s ∧ dopgrammar weight one ⟨pre, 0, []⟩ fr =
      some (G, G.filterMap (fun r => (Dict.get? s.bt r.1).map Prod.snd), G.filterMap (fun r => (Dict.get? s.bt r.1).map Prod.fst)) ∧ G.Perm s.grammar ∧
      (∀ i : Nat, (G.filterMap (fun r => (Dict.get? s.bt r.1).map Prod.snd))[i]? = (G[i]?).bind fun r : Rule × W => (Dict.get? s.bt r.1).map Prod.snd) ∧
      (∀ i : Nat, (G.filterMap (fun r => (Dict.get? s.bt r.1).map Prod.fst))[i]? = (G[i]?).bind fun r : Rule × W => (Dict.get? s.bt r.1).map Prod.fst) := by
  obtain ⟨s, M, h1, h2⟩ := loop_inv one hin fr (inv_init fr weight pre) (by simp) (fun _ h => h)
  rw [List.nil_append] at h2
  have hmem : ∀ x ∈ s.grammar, x.1 ∈ Dict.keys s.grammar := fun x hx => List.mem_map_of_mem hx
  obtain ⟨G, hG⟩ := sortgrammar_total (g := s.grammar) (fun x hx => (h2.cluster hin (hmem x hx)).1)
  obtain ⟨hperm, hpw⟩ := C21_sortgrammar s.grammar G hG (fun x hx => (h2.cluster hin (hmem x hx)).2.1)
  have hpre : G.Pairwise fun x y => (Dict.get? s.bt y.1).isSome → (Dict.get? s.bt x.1).isSome := by
    refine hpw.imp_of_mem fun {x y} hx hy hxy hs => ?_
    rw [← (h2.cluster hin (hmem y (hperm.mem_iff.1 hy))).2.2] at hs
    rw [← (h2.cluster hin (hmem x (hperm.mem_iff.1 hx))).2.2]
    rcases hxy with h | ⟨h, -⟩ <;> omega
  refine ⟨s, M, G, h2, ?_, hperm, ?_, ?_⟩
  · unfold dopgrammar
    rw [h1]
    simp only [hG, Option.map_some]
  · exact filterMap_prefix _ G (hpre.imp fun h => by simpa using h)
  · exact filterMap_prefix _ G (hpre.imp fun h => by simpa using h)

end Disco.DDop
