import Verif.Grammar.PackedGraph
/-!
# C89: the DOP reduction with packed graphs (grammar.py:116-187 with `packedgraph=True`)

The model is that of `Verif/Grammar/PackedGraph.lean`. When subtrees with the same words have the same yield functions, the reduction is exact.
-/
namespace Disco.Packed
open PTree Prods Dict TBGrammar Dop
open zipT (zipL)
open _root_.Disco.TreeEq.Spec (WTree withWords withWordsL termLast termLastL)

/-! ## Specification -/

/-- Constituents that are the same with the words in place of the indices have the same yield function. -/
def Spec.Consistent (trees : List (PTree Str)) (sents : List (List (Option Str))) : Prop :=
  ∀ x ∈ Dop.Spec.nodes trees sents, ∀ y ∈ Dop.Spec.nodes trees sents, withWords (lookup x.1) x.2 = withWords (lookup y.1) y.2 →
    Dop.Spec.yfOf x.1 x.2 = Dop.Spec.yfOf y.1 y.2

/-! ## Twins: subtrees with the same words -/

mutual
theorem freq_words (s s' : Nat → Option Str) : ∀ t t' : PTree Str, withWords s t = withWords s' t' → freq t = freq t'
  | .leaf _, .leaf _, _ => by simp [freq]
  | .leaf _, .node _ _, h => by simp [withWords] at h
  | .node _ _, .leaf _, h => by simp [withWords] at h
  | .node l cs, .node l' cs', h => by
    simp only [withWords, WTree.node.injEq] at h
    simp only [freq]
    exact freqL_words s s' cs cs' h.2
theorem freqL_words (s s' : Nat → Option Str) : ∀ t t' : List (PTree Str), withWordsL s t = withWordsL s' t' → freqL t = freqL t'
  | [], [], _ => rfl
  | [], _ :: _, h => by simp [withWordsL] at h
  | _ :: _, [], h => by simp [withWordsL] at h
  | c :: cs, d :: ds, h => by
    simp only [withWordsL, List.cons.injEq] at h
    have h1 := freq_words s s' c d h.1
    have h2 := freqL_words s s' cs ds h.2
    cases c with
    | leaf i => cases d with
      | leaf j => simp [freqL, h2]
      | node l xs => simp [withWords] at h
    | node l xs => cases d with
      | leaf j => simp [withWords] at h
      | node m ys => simp [freqL, h1, h2]
end

theorem words_forall (s s' : Nat → Option Str) : ∀ cs ds : List (PTree Str), withWordsL s cs = withWordsL s' ds →
    List.Forall₂ (fun c d => withWords s c = withWords s' d) cs ds
  | [], [], _ => .nil
  | [], _ :: _, h => by simp [withWordsL] at h
  | _ :: _, [], h => by simp [withWordsL] at h
  | c :: cs, d :: ds, h => by
    simp only [withWordsL, List.cons.injEq] at h
    exact .cons h.1 (words_forall s s' cs ds h.2)

theorem words_label {s s' : Nat → Option Str} {t t' : PTree Str} (h : withWords s t = withWords s' t') : t.label? = t'.label? ∧ t.isNode = t'.isNode ∧
    List.Forall₂ (fun c d => withWords s c = withWords s' d) t.children t'.children := by
  cases t <;> cases t' <;> simp [withWords] at h
  · exact ⟨rfl, rfl, .nil⟩
  · exact ⟨by simp [label?, h.1], rfl, words_forall s s' _ _ h.2⟩

/-- Constituents, closed under children, in which the words determine the yield function. -/
structure Words (P : List (Option Str) × PTree Str → Prop) : Prop where
  child : ∀ x, P x → ∀ c ∈ x.2.children, c.isNode → P (x.1, c)
  yf : ∀ x y, P x → P y → withWords (lookup x.1) x.2 = withWords (lookup y.1) y.2 → Dop.Spec.yfOf x.1 x.2 = Dop.Spec.yfOf y.1 y.2

theorem occurs_words {P : List (Option Str) × PTree Str → Prop} (hP : Words P) (f : Frag) : ∀ x y : List (Option Str) × PTree Str, (x.2.isNode → P x) → (y.2.isNode → P y) →
    withWords (lookup x.1) x.2 = withWords (lookup y.1) y.2 → Dop.Spec.occurs x.1 f x.2 = Dop.Spec.occurs y.1 f y.2 := by
  induction f using Frag.ind with
  | h1 l => intro x y _ _ h; rw [Dop.Spec.occurs, Dop.Spec.occurs, (words_label h).1]
  | h2 l yf fs ih =>
    intro x y hx hy h
    obtain ⟨e1, e2, e3⟩ := words_label h
    rw [Dop.Spec.occurs, Dop.Spec.occurs, e1]
    cases hn : x.2.isNode with
    | false =>
      rw [hn] at e2
      have : y.2.label? = none := by cases hy2 : y.2 <;> simp [hy2, isNode] at e2 ⊢; simp [label?]
      simp [this]
    | true =>
      have hx := hx hn
      have hy := hy (by rw [← e2, hn])
      rw [hP.yf x y hx hy h]
      congr 1
      have key : ∀ (fs : List Frag), (∀ f ∈ fs, ∀ x y : List (Option Str) × PTree Str, (x.2.isNode → P x) → (y.2.isNode → P y) →
          withWords (lookup x.1) x.2 = withWords (lookup y.1) y.2 → Dop.Spec.occurs x.1 f x.2 = Dop.Spec.occurs y.1 f y.2) → ∀ cs ds : List (PTree Str),
          List.Forall₂ (fun c d => withWords (lookup x.1) c = withWords (lookup y.1) d) cs ds → (∀ c ∈ cs, c.isNode → P (x.1, c)) → (∀ c ∈ ds, c.isNode → P (y.1, c)) →
          Dop.Spec.occursL x.1 fs cs = Dop.Spec.occursL y.1 fs ds := by
        intro fs
        induction fs with
        | nil =>
          intro _ cs ds hcd _ _
          rw [Dop.Spec.occursL, Dop.Spec.occursL]
          clear e3
          rename_i u1 u2
          clear u1 u2
          induction hcd with
          | nil => rfl
          | cons h1 _ ih => rw [List.all_cons, List.all_cons, ih, (words_label h1).2.1]
        | cons f fs ih2 =>
          intro hf cs ds hcd h1 h2
          cases hcd with
          | nil => rfl
          | @cons c d cs ds g1 g2 =>
            have := hf f (by simp) (x.1, c) (y.1, d) (h1 c (by simp)) (h2 d (by simp)) g1
            simp only at this
            rw [Dop.Spec.occursL, Dop.Spec.occursL, this, ih2 (fun f' h' => hf f' (by simp [h'])) _ _ g2 (fun c hc => h1 c (by simp [hc])) (fun c hc => h2 c (by simp [hc]))]
      exact key fs ih _ _ e3 (hP.child x hx) (hP.child y hy)

theorem termLastL_nodes {cs : List (PTree Str)} (hn : ∀ c ∈ cs, c.isNode) (h : ∀ c ∈ cs, termLast c) : termLastL cs := by
  induction cs with
  | nil => simp [termLastL]
  | cons c cs ih =>
    cases c with
    | leaf i => have := hn (.leaf i) (by simp); simp [isNode] at this
    | node l xs =>
      have := h (.node l xs) (by simp)
      simp only [termLast, termLastL] at this ⊢
      exact ⟨this, ih (fun c hc => hn c (by simp [hc])) (fun c hc => h c (by simp [hc]))⟩

theorem termLast_of_shape (t : PTree Str) : Shape t → termLast t := by
  induction t using PTree.ind with
  | hleaf i => intro _; simp [termLast]
  | hnode l cs ih =>
    intro h
    rw [termLast]
    rcases (h l cs (by simp)).2 with hn | ⟨i, rfl⟩
    · exact termLastL_nodes hn (fun c hc => ih c hc (h.child hc))
    · simp [termLastL]

/-! ## The decorated treebank -/

/-- The trees with both labels. -/
def pbank : List (PTree Str × List (Option Str)) → St → List (List (Option Str) × Pair)
  | [], _ => []
  | x :: xs, st => (x.2, zipT x.1 (decorate x.1 x.2 st).1) :: pbank xs (decorate x.1 x.2 st).2

/-- A decorated tree. -/
structure Dressed (T : Table) (b : List (Option Str) × Pair) : Prop where
  root : ∃ l cs, b.2 = .node (l, l) cs
  node : ∀ p ∈ subtreesL b.2.children, ∀ l a, p.label? = some (l, a) → (withWords (lookup b.1) (mapLabel Prod.fst p), a) ∈ T ∧ wlabel (withWords (lookup b.1) (mapLabel Prod.fst p)) = l

theorem Dressed.of_covers {T : Table} {x : PTree Str × List (Option Str)} {d : PTree Str} (h : Covers T x d) :
    Dressed T (x.2, zipT x.1 d) ∧ mapLabel Prod.fst (zipT x.1 d) = x.1 ∧ mapLabel Prod.snd (zipT x.1 d) = d := by
  obtain ⟨l, cs, ds, h1, h2, h3⟩ := h
  obtain ⟨z1, z2, z3⟩ := zipL_spec (lookup x.2) cs ds h3
  rw [h1, h2, zipT]
  refine ⟨⟨⟨l, _, rfl⟩, z3⟩, ?_, ?_⟩
  · rw [mapLabel_node, mapLabelL_eq, z1]
  · rw [mapLabel_node, mapLabelL_eq, z2]

theorem pbank_spec : ∀ (xs : List (PTree Str × List (Option Str))) (st : St), Idle st → (∀ x ∈ xs, Spec.Input x.1) →
    ∃ T : Table, (∀ y ∈ tab st, y ∈ T) ∧ (T.map Prod.fst).Nodup ∧ (T.map Prod.snd).Nodup ∧
      (∀ y ∈ T, '@' ∉ wlabel y.1 ∧ ∃ n m, y.2 = address n (wlabel y.1, m)) ∧
      (∀ b ∈ pbank xs st, Dressed T b) ∧ (pbank xs st).map (fun b => (mapLabel Prod.fst b.2, b.1)) = xs
  | [], st, h, _ => ⟨tab st, fun _ h => h, h.keys, h.labels, fun y hy => by
      obtain ⟨h1, n, m, h2, -⟩ := h.addr y hy
      exact ⟨h1, n, m, h2⟩, by simp [pbank], by simp [pbank]⟩
  | x :: xs, st, h, hx => by
    obtain ⟨h1, h2, l, cs, ds, h3, h4, h5⟩ := decorate_spec x (hx x (by simp)) st h
    obtain ⟨T, g1, g2, g3, g4, g5, g6⟩ := pbank_spec xs (decorate x.1 x.2 st).2 h1 (fun y hy => hx y (by simp [hy]))
    obtain ⟨d1, d2, -⟩ := Dressed.of_covers (T := T) (x := x) (d := (decorate x.1 x.2 st).1) ⟨l, cs, ds, h3, h4, DecL.mono g1 _ _ _ h5⟩
    refine ⟨T, fun y hy => g1 y (h2 y hy), g2, g3, g4, ?_, ?_⟩
    · intro b hb
      rw [pbank, List.mem_cons] at hb
      rcases hb with rfl | hb
      · exact d1
      · exact g5 b hb
    · rw [pbank, List.map_cons, g6, d2]

theorem packed_foldlM (xs : List (PTree Str × List (Option Str))) : (∀ x ∈ xs, Prods.Spec.Input x.1 x.2 ∧ x.1.isNode ∧ Spec.Input x.1) → ∀ (st : State) (ps : St), Idle ps →
    ∃ ps', xs.foldlM Packed.addTree (st, ps) = some (⟨st.n + xs.length, ((pbank xs ps).flatMap (fun x => ops x.2)).foldl Dop.step st.fd,
      addAll st.ntfd ((pbank xs ps).flatMap (fun x => ntOps [x.2])),
      addAll st.rules (((nodesOf (pbank xs ps)).flatMap (fun x => tokens x.1 x.2)).map (fun r => (r, 1)))⟩, ps') := by
  induction xs with
  | nil => intro _ st ps _; exact ⟨ps, by simp [pbank, nodesOf, addAll]⟩
  | cons x xs ih =>
    intro h st ps hps
    obtain ⟨h1, h2, h3⟩ := h x (by simp)
    obtain ⟨i1, -, hc⟩ := decorate_spec x h3 ps hps
    obtain ⟨-, hD, hD2⟩ := Dressed.of_covers hc
    obtain ⟨p1, p2⟩ := productions_pair (D := zipT x.1 (decorate x.1 x.2 ps).1) (by rw [hD]; exact h1)
    rw [hD2] at p2
    rw [hD] at p1
    have hnf := nodefreq_pair (zipT x.1 (decorate x.1 x.2 ps).1) (by rw [← isNode_mapLabel Prod.fst, hD]; exact h2)
      (shape_mapLabel Prod.fst (by rw [hD]; exact shape_of_wf h1.wf)) st.fd st.ntfd
    rw [hD, hD2] at hnf
    have hstep : Packed.addTree (st, ps) x = some (⟨st.n + 1, (ops (zipT x.1 (decorate x.1 x.2 ps).1)).foldl Dop.step st.fd, addAll st.ntfd (ntOps [zipT x.1 (decorate x.1 x.2 ps).1]),
        addAll st.rules ((((subtrees (zipT x.1 (decorate x.1 x.2 ps).1)).flatMap (tokens x.2))).map (fun r => (r, 1)))⟩, (decorate x.1 x.2 ps).2) := by
      rw [Packed.addTree, p1]
      simp only [Option.bind_eq_bind, Option.bind_some, p2, hnf]
      rw [addProds_pair]
      rfl
    obtain ⟨ps', g⟩ := ih (fun y hy => h y (by simp [hy])) ⟨st.n + 1, (ops (zipT x.1 (decorate x.1 x.2 ps).1)).foldl Dop.step st.fd, addAll st.ntfd (ntOps [zipT x.1 (decorate x.1 x.2 ps).1]),
        addAll st.rules ((((subtrees (zipT x.1 (decorate x.1 x.2 ps).1)).flatMap (tokens x.2))).map (fun r => (r, 1)))⟩ (decorate x.1 x.2 ps).2 i1
    refine ⟨ps', ?_⟩
    rw [List.foldlM_cons, hstep]
    simp only [Option.bind_eq_bind, Option.bind_some]
    rw [g]
    simp only [pbank, nodesOf, List.flatMap_cons, List.foldl_append, addAll_append, List.map_append, List.flatMap_append, List.length_cons, List.flatMap_map]
    congr 3
    omega

/-- The facts about the decorated treebank that are used below. -/
structure Bank (trees : List (PTree Str)) (sents : List (List (Option Str))) (B : List (List (Option Str) × Pair)) (T : Table) : Prop where
  tb : Dop.Spec.Treebank trees sents
  con : Spec.Consistent trees sents
  fst : (T.map Prod.fst).Nodup
  snd : (T.map Prod.snd).Nodup
  addr : ∀ y ∈ T, '@' ∉ wlabel y.1 ∧ ∃ n m, y.2 = address n (wlabel y.1, m)
  dressed : ∀ b ∈ B, Dressed T b
  plain : B.map (fun b => (mapLabel Prod.fst b.2, b.1)) = trees.zip sents

variable {trees : List (PTree Str)} {sents : List (List (Option Str))} {B : List (List (Option Str) × Pair)} {T : Table}

theorem Bank.nodes (H : Bank trees sents B T) : (nodesOf B).map (fun x => (x.1, mapLabel Prod.fst x.2)) = Dop.Spec.nodes trees sents := by
  rw [Dop.Spec.nodes, ← H.plain, nodesOf, List.map_flatMap, List.flatMap_map]
  congr 1
  funext b
  rw [subtrees_mapLabel]
  simp

theorem Bank.mem (H : Bank trees sents B T) {x : List (Option Str) × Pair} (hx : x ∈ nodesOf B) :
    ∃ y ∈ trees.zip sents, x.1 = y.2 ∧ mapLabel Prod.fst x.2 ∈ subtrees y.1 := by
  obtain ⟨D, hD, hs⟩ := nodes_mem.1 hx
  refine ⟨(mapLabel Prod.fst D, x.1), ?_, rfl, ?_⟩
  · rw [← H.plain]; exact List.mem_map.2 ⟨_, hD, rfl⟩
  · rw [subtrees_mapLabel]; exact List.mem_map_of_mem hs

/-- A node is a root, with a plain label, or has its address in the table. -/
theorem Bank.label (H : Bank trees sents B T) {x : List (Option Str) × Pair} (hx : x ∈ nodesOf B) :
    ∃ l cs, x.2 = .node l cs ∧ '@' ∉ l.1 ∧ (l.2 = l.1 ∨ ((withWords (lookup x.1) (mapLabel Prod.fst x.2), l.2) ∈ T ∧ ∃ n m, l.2 = address n (l.1, m))) := by
  obtain ⟨y, hy, e1, hs⟩ := H.mem hx
  obtain ⟨D, hD, hsD⟩ := nodes_mem.1 hx
  obtain ⟨l, cs, e⟩ := mem_subtrees_self_isNode hsD
  have hp := (input_of_treebank H.tb).noAt y hy _ hs l.1 (by rw [label_mapLabel, e]; rfl)
  refine ⟨l, cs, e, hp, ?_⟩
  have hd := H.dressed _ hD
  rcases mem_subtrees_iff hsD with e2 | e2
  · obtain ⟨k, ds, hr⟩ := hd.root
    left
    simp only at hr
    rw [← e2, e] at hr
    rw [(PTree.node.inj hr).1]
  · right
    obtain ⟨h1, h2⟩ := hd.node x.2 e2 l.1 l.2 (by rw [e]; rfl)
    obtain ⟨-, n, m, h3⟩ := H.addr _ h1
    simp only at h1 h2 h3
    rw [h2] at h3
    exact ⟨h1, n, m, h3⟩

theorem Bank.words (H : Bank trees sents B T) : Words (fun x => x ∈ Dop.Spec.nodes trees sents) where
  child := by
    intro x hx c hc hn
    rw [Dop.Spec.nodes, List.mem_flatMap] at hx ⊢
    obtain ⟨y, hy, h⟩ := hx
    obtain ⟨s, hs, rfl⟩ := List.mem_map.1 h
    refine ⟨y, hy, List.mem_map.2 ⟨c, ?_, rfl⟩⟩
    rcases subtrees_child hs hc with h1 | h1
    · exact subtreesL_children h1
    · rw [hn] at h1; exact absurd h1 (by simp)
  yf := fun x y hx hy h => H.con x hx y hy h

theorem Bank.child (H : Bank trees sents B T) {x : List (Option Str) × Pair} (hx : x ∈ nodesOf B) {c : Pair} (hc : c ∈ x.2.children) {l : Str × Str} (hl : c.label? = some l) :
    (x.1, c) ∈ nodesOf B ∧ (withWords (lookup x.1) (mapLabel Prod.fst c), l.2) ∈ T ∧ ∃ n m, l.2 = address n (l.1, m) := by
  obtain ⟨D, hD, hs⟩ := nodes_mem.1 hx
  have hn : c.isNode ≠ false := by cases c <;> simp [label?, isNode] at hl ⊢
  rcases subtrees_child hs hc with h1 | h1
  · obtain ⟨g1, g2⟩ := (H.dressed _ hD).node c h1 l.1 l.2 hl
    obtain ⟨-, n, m, h3⟩ := H.addr _ g1
    simp only at g1 g2 h3
    rw [g2] at h3
    exact ⟨nodes_mem.2 ⟨D, hD, subtreesL_children h1⟩, g1, n, m, h3⟩
  · exact absurd h1 hn

theorem Bank.input (H : Bank trees sents B T) : Dop.Input (trees.zip sents) := input_of_treebank H.tb

theorem Bank.yf (H : Bank trees sents B T) : ∀ x ∈ nodesOf B, ∃ yf, Dop.Spec.yfOf x.1 (mapLabel Prod.fst x.2) = some yf := by
  intro x hx
  obtain ⟨y, hy, e, hs⟩ := H.mem hx
  rw [e]
  exact hasYF_of_input (H.input.input y hy).1 _ hs

theorem Bank.plainNode (H : Bank trees sents B T) {x : List (Option Str) × Pair} (hx : x ∈ nodesOf B) : (x.1, mapLabel Prod.fst x.2) ∈ Dop.Spec.nodes trees sents := by
  rw [← H.nodes]; exact List.mem_map_of_mem (f := fun x : List (Option Str) × Pair => (x.1, mapLabel Prod.fst x.2)) hx

theorem Bank.twin (H : Bank trees sents B T) {x y : List (Option Str) × Pair} (hx : x ∈ nodesOf B) (hy : y ∈ nodesOf B) {l k : Str × Str} (hl : x.2.label? = some l)
    (hk : y.2.label? = some k) (ha : '@' ∈ l.2) (e : k.2 = l.2) : withWords (lookup x.1) (mapLabel Prod.fst x.2) = withWords (lookup y.1) (mapLabel Prod.fst y.2) := by
  obtain ⟨l', cs, e1, hp, h1⟩ := H.label hx
  obtain ⟨k', ds, e2, hq, h2⟩ := H.label hy
  rw [e1, label?, Option.some.injEq] at hl
  rw [e2, label?, Option.some.injEq] at hk
  subst hl hk
  rcases h1 with h1 | ⟨h1, -⟩
  · rw [h1] at ha; exact absurd ha hp
  · rcases h2 with h2 | ⟨h2, -⟩
    · rw [← e, h2] at ha; exact absurd ha hq
    · rw [e] at h2
      exact nodup_unique' H.snd h1 h2

theorem Bank.twin_freq (_H : Bank trees sents B T) {x y : List (Option Str) × Pair} (h : withWords (lookup x.1) (mapLabel Prod.fst x.2) = withWords (lookup y.1) (mapLabel Prod.fst y.2)) :
    freq x.2 = freq y.2 := by
  rw [← freq_mapLabel Prod.fst x.2, ← freq_mapLabel Prod.fst y.2]
  exact freq_words _ _ _ _ h

theorem Bank.twin_yf (H : Bank trees sents B T) {x y : List (Option Str) × Pair} (hx : x ∈ nodesOf B) (hy : y ∈ nodesOf B)
    (h : withWords (lookup x.1) (mapLabel Prod.fst x.2) = withWords (lookup y.1) (mapLabel Prod.fst y.2)) : yfD x.1 x.2 = yfD y.1 y.2 := by
  rw [yfD, yfD, H.con _ (H.plainNode hx) _ (H.plainNode hy) h]

theorem Bank.twin_below (H : Bank trees sents B T) {x y : List (Option Str) × Pair} (hx : x ∈ nodesOf B) (hy : y ∈ nodesOf B)
    (h : withWords (lookup x.1) (mapLabel Prod.fst x.2) = withWords (lookup y.1) (mapLabel Prod.fst y.2)) (f : Frag) : below x.1 x.2 f = below y.1 y.2 f := by
  cases f with
  | frontier k => rfl
  | inner k yf fs =>
    obtain ⟨l, cs, e, -⟩ := H.label hx
    obtain ⟨l', ds, e', -⟩ := H.label hy
    have hl := (words_label h).1
    rw [label_mapLabel, label_mapLabel, e, e'] at hl
    simp only [label?, Option.map_some, Option.some.injEq] at hl
    have := occurs_words H.words (.inner l.1 yf fs) (x.1, mapLabel Prod.fst x.2) (y.1, mapLabel Prod.fst y.2) (fun _ => H.plainNode hx) (fun _ => H.plainNode hy) h
    simp only at this
    rw [occurs_eq (f := .inner l.1 yf fs) (l := l) rfl (by rw [e]; rfl) rfl (H.yf x hx), occurs_eq (f := .inner l.1 yf fs) (l := l') rfl (by rw [e']; rfl) hl (H.yf y hy)] at this
    exact this

theorem filterMap_forall {α β γ : Type} {f : α → Option γ} {g : β → Option γ} {as : List α} {bs : List β} (h : List.Forall₂ (fun a b => f a = g b) as bs) :
    as.filterMap f = bs.filterMap g := by
  induction h with
  | nil => rfl
  | cons h1 _ ih => rw [List.filterMap_cons, List.filterMap_cons, h1, ih]

theorem Bank.twin_tokens (H : Bank trees sents B T) {x y : List (Option Str) × Pair} (hx : x ∈ nodesOf B) (hy : y ∈ nodesOf B) (hl : x.2.label? = y.2.label?)
    (h : withWords (lookup x.1) (mapLabel Prod.fst x.2) = withWords (lookup y.1) (mapLabel Prod.fst y.2)) : tokens x.1 x.2 = tokens y.1 y.2 := by
  have hyf := H.twin_yf hx hy h
  have hc := (words_label h).2.2
  rw [tokens, tokens, hyf]
  suffices hs : pairList x.2 = pairList y.2 by rw [hs]
  obtain ⟨l, cs, e, -⟩ := H.label hx
  obtain ⟨l', ds, e', -⟩ := H.label hy
  have key : List.Forall₂ (fun c d : Pair => c.label? = d.label? ∧ c.isNode = d.isNode) cs ds := by
    rw [children_mapLabel, children_mapLabel, List.forall₂_map_left_iff, List.forall₂_map_right_iff, e, e'] at hc
    simp only [PTree.children] at hc
    rw [List.forall₂_iff_get] at hc ⊢
    refine ⟨hc.1, fun i h1 h2 => ?_⟩
    have hw := hc.2 i h1 h2
    obtain ⟨w1, w2, -⟩ := words_label hw
    rw [isNode_mapLabel, isNode_mapLabel] at w2
    refine ⟨?_, w2⟩
    cases e1 : (cs.get ⟨i, h1⟩).label? with
    | none =>
      cases e2 : (ds.get ⟨i, h2⟩).label? with
      | none => rfl
      | some b => rw [label_mapLabel, label_mapLabel, e1, e2] at w1; simp at w1
    | some a =>
      cases e2 : (ds.get ⟨i, h2⟩).label? with
      | none => rw [label_mapLabel, label_mapLabel, e1, e2] at w1; simp at w1
      | some b =>
        rw [label_mapLabel, label_mapLabel, e1, e2] at w1
        simp only [Option.map_some, Option.some.injEq] at w1
        obtain ⟨-, t1, -⟩ := H.child hx (c := cs.get ⟨i, h1⟩) (by rw [e]; exact List.get_mem _ _) e1
        obtain ⟨-, t2, -⟩ := H.child hy (c := ds.get ⟨i, h2⟩) (by rw [e']; exact List.get_mem _ _) e2
        rw [hw] at t1
        rw [Option.some.injEq]
        exact Prod.ext w1 (nodup_unique H.fst t1 t2)
  rw [e, e'] at hl ⊢
  simp only [label?, Option.some.injEq] at hl
  subst hl
  cases key with
  | nil => rfl
  | @cons c d cs ds h1 h2 =>
    cases c with
    | leaf i => cases d with
      | leaf j => rfl
      | node m es => simp [isNode] at h1
    | node m es => cases d with
      | leaf j => simp [isNode] at h1
      | node m' es' =>
        rw [pairList_eq, pairList_eq, rest_node, rest_node]
        rw [filterMap_forall (as := PTree.node m es :: cs) (bs := PTree.node m' es' :: ds) (.cons h1.1 (h2.imp fun _ _ h => h.1))]

/-- The facts about the nodes. -/
theorem Bank.ctx (H : Bank trees sents B T) : Ctx0 (nodesOf B) ((B.flatMap (fun x => ops x.2)).foldl Dop.step []) where
  label := by
    intro x hx
    obtain ⟨l, cs, e, hp, h⟩ := H.label hx
    exact ⟨l, cs, e, hp, h.imp_right And.right⟩
  shape := by
    intro x hx l cs e
    obtain ⟨y, hy, e1, hs⟩ := H.mem hx
    have hw := wf_subtree (H.input.input y hy).1.wf hs
    have : Shape x.2 := shape_mapLabel Prod.fst (shape_of_wf hw)
    exact this l cs (by rw [e]; simp)
  child := by
    intro x hx c hc l hl
    obtain ⟨h1, -, h2⟩ := H.child hx hc hl
    exact ⟨h1, h2⟩
  noEps := by
    intro x hx l hl
    obtain ⟨y, hy, e1, hs⟩ := H.mem hx
    have := H.input.noEps y hy _ hs
    rw [label_mapLabel, hl] at this
    simpa using this
  fd := by
    intro x hx l hl ha
    refine foldl_step_address ?_ ?_ ?_ []
    · intro o ho
      obtain ⟨y, hy, k, hk, rfl⟩ := mem_ops.1 ho
      obtain ⟨k', cs, e, hp, _⟩ := H.label hy
      rw [e] at hk
      simp only [label?, Option.some.injEq] at hk
      subst hk
      intro e2
      exact hp (by rw [e2]; exact ha)
    · intro o ho e
      obtain ⟨y, hy, k, hk, rfl⟩ := mem_ops.1 ho
      exact (H.twin_freq (H.twin hx hy hl hk ha e)).symm
    · exact ⟨_, mem_ops.2 ⟨x, hx, l, hl, rfl⟩, rfl⟩

/-- The number of constituents with rules for `z`. -/
def uses (nodes : List (List (Option Str) × Pair)) (z : Str) : Nat := (nodes.filter (fun x => decide (z ∈ heads x.2))).length

theorem Bank.heads (H : Bank trees sents B T) {x y : List (Option Str) × Pair} (hx : x ∈ nodesOf B) (hy : y ∈ nodesOf B) {z : Str} (ha : '@' ∈ z)
    (h1 : z ∈ heads x.2) (h2 : z ∈ heads y.2) : x.2.label? = y.2.label? ∧ withWords (lookup x.1) (mapLabel Prod.fst x.2) = withWords (lookup y.1) (mapLabel Prod.fst y.2) := by
  obtain ⟨l, cs, e1, hp, hq⟩ := H.ctx.label x hx
  obtain ⟨k, ds, e2, hp', hq'⟩ := H.ctx.label y hy
  rw [e1] at h1
  rw [e2] at h2
  have g1 := ((mem_options hp hq).2 ha).1 h1
  have g2 := ((mem_options hp' hq').2 ha).1 h2
  have hw := H.twin hx hy (l := l) (k := k) (by rw [e1]; rfl) (by rw [e2]; rfl) (by rw [g1]; exact ha) (g2.trans g1.symm)
  refine ⟨?_, hw⟩
  have := (words_label hw).1
  rw [label_mapLabel, label_mapLabel, e1, e2] at this
  simp only [label?, Option.map_some, Option.some.injEq] at this
  rw [e1, e2, label?, label?, Option.some.injEq]
  exact Prod.ext this (g1.trans g2.symm)

theorem Bank.count (H : Bank trees sents B T) {r : Rule} (hr : r ∈ (nodesOf B).flatMap (fun x => tokens x.1 x.2)) (ha : '@' ∈ r.nts.headD []) :
    ((nodesOf B).flatMap (fun x => tokens x.1 x.2)).count r = uses (nodesOf B) (r.nts.headD []) := by
  obtain ⟨x, hx, hrx⟩ := List.mem_flatMap.1 hr
  have key : ∀ y ∈ nodesOf B, r ∈ tokens y.1 y.2 → r.nts.headD [] ∈ Dop.heads y.2 := by
    intro y hy hry
    obtain ⟨l, cs, e, -⟩ := H.label hy
    rw [e] at hry ⊢
    obtain ⟨a, zs, rfl, h1, -⟩ := mem_tokens hry
    exact h1
  rw [count_flatMap _ _ (fun y => decide (r.nts.headD [] ∈ Dop.heads y.2)) r (fun y hy hry => by simpa using key y hy hry), uses]
  have hx1 := key x hx hrx
  have all : ∀ y ∈ (nodesOf B).filter (fun y => decide (r.nts.headD [] ∈ Dop.heads y.2)), (tokens y.1 y.2).count r = 1 := by
    intro y hy
    rw [List.mem_filter] at hy
    obtain ⟨h1, h2⟩ := H.heads hx hy.1 ha hx1 (by simpa using hy.2)
    rw [← H.twin_tokens hx hy.1 h1 h2]
    exact List.count_eq_one_of_mem (tokens_nodup _ _) hrx
  generalize (nodesOf B).filter (fun y => decide (r.nts.headD [] ∈ Dop.heads y.2)) = ys at all
  induction ys with
  | nil => rfl
  | cons y ys ih =>
    rw [List.flatMap_cons, List.count_append, all y (by simp), ih (fun z hz => all z (by simp [hz])), List.length_cons, Nat.add_comm]

/-- The factor of a left-hand side: a rule of an address is counted once. -/
def factor (nodes : List (List (Option Str) × Pair)) (z : Str) : ℚ := if at? z then 1 / uses nodes z else 1

theorem Bank.represents (H : Bank trees sents B T) {st : State}
    (hr : st.rules = addAll [] (((nodesOf B).flatMap (fun x => tokens x.1 x.2)).map (fun r => (r, 1)))) :
    Represents (st.rules.map (fun x => (x.1, rfe st x.1 x.2))) (factor (nodesOf B)) (nodesOf B) st.fd := by
  intro k
  have hwf : WF st.rules := by rw [hr]; exact TBGrammar.WF_nil.addAll _
  have h1 : (st.rules.map fun x => (x.1, rfe st x.1 x.2)).map (fun x => x.2 * k x.1) =
      st.rules.map (fun x => x.2 * (factor (nodesOf B) (x.1.nts.headD []) * addressed st.fd x.1.nts.tail * k x.1)) := by
    rw [List.map_map]
    refine List.map_congr_left (fun x hx => ?_)
    have m1 : x.1 ∈ keys st.rules := List.mem_map_of_mem hx
    have m2 := cnt_of_mem hwf (k := x.1) (v := x.2) hx
    rw [hr] at m1 m2
    rw [mem_keys_addAll] at m1
    have m1 : x.1 ∈ (nodesOf B).flatMap (fun x => tokens x.1 x.2) := by simpa [keys, Function.comp_def] using m1
    rw [cnt_addAll, TBGrammar.incrementsOf_ones] at m2
    have m2 : x.2 = (((nodesOf B).flatMap (fun x => tokens x.1 x.2)).count x.1 : ℚ) := by rw [← m2]; simp [cnt, get?]
    simp only [Function.comp_apply, Dop.rfe, factor]
    by_cases ha : '@' ∈ x.1.nts.headD []
    · have hat : at? (x.1.nts.headD []) = true := by simpa [at?] using ha
      rw [if_pos hat, if_pos hat]
      have hc := H.count m1 ha
      rw [m2, hc]
      have hpos : ((uses (nodesOf B) (x.1.nts.headD []) : Nat) : ℚ) ≠ 0 := by
        rw [← hc]
        have := List.count_pos_iff.2 m1
        exact_mod_cast this.ne'
      field_simp
    · have hat : ¬ at? (x.1.nts.headD []) = true := by simpa [at?] using ha
      rw [if_neg hat, if_neg hat]
      ring
  rw [h1, hr, sum_addAll (fun r => factor (nodesOf B) (r.nts.headD []) * addressed st.fd r.nts.tail * k r)]
  simp

theorem Bank.uses_pos {x : List (Option Str) × Pair} (hx : x ∈ nodesOf B) {z : Str} (hz : z ∈ Dop.heads x.2) : ((uses (nodesOf B) z : Nat) : ℚ) ≠ 0 := by
  have : 0 < uses (nodesOf B) z := List.length_pos_of_mem (List.mem_filter.2 ⟨hx, by simpa using hz⟩)
  exact_mod_cast this.ne'

theorem Bank.mass (H : Bank trees sents B T) {g : List (Rule × ℚ)} (hg : Represents g (factor (nodesOf B)) (nodesOf B) ((B.flatMap (fun x => ops x.2)).foldl Dop.step []))
    {x : List (Option Str) × Pair} (hx : x ∈ nodesOf B) {z : Str} (ha : '@' ∈ z) (hz : z ∈ Dop.heads x.2) : TBGrammar.Spec.mass g z = freq x.2 := by
  rw [mass_nodes H.ctx hg]
  have hat : at? z = true := by simpa [at?] using ha
  rw [factor, if_pos hat]
  have h1 : ((nodesOf B).filter (fun x => decide (z ∈ Dop.heads x.2))).map (fun y => (freq y.2 : ℚ)) = ((nodesOf B).filter (fun x => decide (z ∈ Dop.heads x.2))).map (fun _ => (freq x.2 : ℚ)) := by
    refine List.map_congr_left (fun y hy => ?_)
    rw [List.mem_filter] at hy
    rw [H.twin_freq (H.heads hx hy.1 ha hz (by simpa using hy.2)).2]
  rw [h1, List.map_const', List.sum_replicate, nsmul_eq_mul]
  have := Bank.uses_pos hx hz
  rw [uses] at this ⊢
  field_simp

/-- The derivations of a fragment from a label or an address. -/
theorem Bank.inside (H : Bank trees sents B T) {g : List (Rule × ℚ)} {q : Str → ℚ} (hg : Represents g q (nodesOf B) ((B.flatMap (fun x => ops x.2)).foldl Dop.step []))
    (hq : ∀ x ∈ nodesOf B, ∀ z, '@' ∈ z → z ∈ Dop.heads x.2 → q z * uses (nodesOf B) z = 1 / freq x.2) (f : Frag) :
    f.isInner = true → ∀ z, Dop.Spec.inside g f z = q z * (((nodesOf B).filter (fun x => decide (z ∈ Dop.heads x.2) && below x.1 x.2 f)).length : ℚ) := by
  have C := H.ctx
  induction f using Frag.ind with
  | h1 l => intro h; simp [Frag.isInner] at h
  | h2 k yf fs ih =>
    intro _ z
    have h1 : Dop.Spec.inside g (.inner k yf fs) z = (g.map (fun x => x.2 * (if x.1.nts.head? = some z ∧ x.1.yf = yf then
        (if x.1.nts.tail = [epsilon] then (if fs.isEmpty then 1 else 0) else Dop.Spec.insideL g fs x.1.nts.tail) else 0))).sum := by
      rw [Dop.Spec.inside]
      congr 1
      refine List.map_congr_left (fun x _ => ?_)
      by_cases hc : x.1.nts.head? = some z ∧ x.1.yf = yf
      · rw [if_pos hc, if_pos hc]
      · rw [if_neg hc, if_neg hc, mul_zero]
    rw [h1, hg (fun r => if r.nts.head? = some z ∧ r.yf = yf then (if r.nts.tail = [epsilon] then (if fs.isEmpty then 1 else 0) else Dop.Spec.insideL g fs r.nts.tail) else 0), sum_flatMap_map]
    have h2 : (((nodesOf B).filter (fun x => decide (z ∈ Dop.heads x.2) && below x.1 x.2 (.inner k yf fs))).length : ℚ) =
        (((nodesOf B).filter (fun x => decide (z ∈ Dop.heads x.2) && below x.1 x.2 (.inner k yf fs))).map (fun _ => (1 : ℚ))).sum := by simp
    rw [h2, ← List.sum_map_mul_left, ← sum_ite_filter]
    congr 1
    refine List.map_congr_left (fun x hx => ?_)
    obtain ⟨l, cs, e, hp, ha⟩ := C.label x hx
    have key := sum_rest C (g := g) hx fs (fun f hf hi c hc l' hl' hfl => by
      rw [ih f hf hi]
      obtain ⟨hcn, n, m, hm⟩ := C.child x hx c hc l' hl'.label
      have hz : l'.2 ∈ Dop.heads c := by
        rw [Dop.heads, hl'.label, Option.map_some, Option.getD_some, hl'.options]
        simp
      have hfil : (nodesOf B).filter (fun y => decide (l'.2 ∈ Dop.heads y.2) && below y.1 y.2 f) =
          if below x.1 c f then (nodesOf B).filter (fun y => decide (l'.2 ∈ Dop.heads y.2)) else [] := by
        by_cases hb : below x.1 c f = true
        · rw [if_pos hb]
          refine List.filter_congr (fun y hy => ?_)
          by_cases hy2 : l'.2 ∈ Dop.heads y.2
          · rw [← H.twin_below hcn hy (H.heads hcn hy hl'.at2 hz hy2).2 f, hb, Bool.and_true]
          · simp [hy2]
        · rw [if_neg hb, List.filter_eq_nil_iff]
          intro y hy
          by_cases hy2 : l'.2 ∈ Dop.heads y.2
          · rw [← H.twin_below hcn hy (H.heads hcn hy hl'.at2 hz hy2).2 f]
            simp [hb]
          · simp [hy2]
      rw [hfil, occurs_eq hi hl'.label hfl (H.yf _ hcn)]
      have hq' := hq _ hcn l'.2 hl'.at2 hz
      rw [uses] at hq'
      by_cases hb : below x.1 c f = true
      · simp only [hb, if_true]
        exact hq'
      · simp [hb])
    rw [e] at key ⊢
    rw [sum_tokens x.1 l cs q _ z (fun y => y = yf) (fun zs => if zs = [epsilon] then (if fs.isEmpty then 1 else 0) else Dop.Spec.insideL g fs zs), key]
    simp only [Dop.heads, label?, Option.map_some, Option.getD_some, below, Bool.and_eq_true, decide_eq_true_eq, mul_one, PTree.children]
    by_cases c1 : z ∈ options l <;> by_cases c2 : yfD x.1 (.node l cs) = yf <;> by_cases c3 : Dop.Spec.occursL x.1 fs (cs.map (mapLabel Prod.fst)) = true <;> simp [c1, c2, c3]

theorem Bank.plain_sum (H : Bank trees sents B T) {z : Str} (hz : '@' ∉ z) :
    (nodesOf B).filter (fun x => decide (z ∈ Dop.heads x.2)) = (nodesOf B).filter (fun x => decide ((mapLabel Prod.fst x.2).label? = some z)) := by
  refine List.filter_congr (fun x hx => ?_)
  obtain ⟨l, cs, e, hp, ha⟩ := H.ctx.label x hx
  rw [e, decide_eq_decide, label_mapLabel]
  simp only [Dop.heads, label?, Option.map_some, Option.getD_some, Option.some.injEq]
  rw [(mem_options hp ha).1 hz]
  exact eq_comm

theorem Bank.filter_plain (H : Bank trees sents B T) (p : List (Option Str) × PTree Str → Bool) :
    ((nodesOf B).filter (fun x => p (x.1, mapLabel Prod.fst x.2))).map (fun x => (x.1, mapLabel Prod.fst x.2)) = (Dop.Spec.nodes trees sents).filter p := by
  rw [← H.nodes, List.filter_map]; rfl

theorem Bank.total (H : Bank trees sents B T) {z : Str} (hz : '@' ∉ z) :
    (((nodesOf B).filter (fun x => decide (z ∈ Dop.heads x.2))).map (fun x => (freq x.2 : ℚ))).sum = Dop.Spec.total trees sents z := by
  rw [H.plain_sum hz, Dop.Spec.total, ← H.filter_plain (fun x => decide (x.2.label? = some z)), List.map_map, cast_sum_list, List.map_map]
  congr 1
  refine List.map_congr_left (fun x hx => ?_)
  obtain ⟨y, hy, e, hs⟩ := H.mem (List.mem_filter.1 hx).1
  have hin := (H.input.input y hy).1
  have hw := wf_subtree hin.wf hs
  obtain ⟨f1, _⟩ := fragments_spec x.1 (mapLabel Prod.fst x.2) (shape_of_wf hw) (by
    rw [e]
    intro s hs'
    exact hasYF_of_input hin s (subtrees_trans hs' hs))
  simp only [Function.comp_apply]
  rw [f1, freq_mapLabel]

theorem Bank.countF (H : Bank trees sents B T) {f : Frag} (hf : f.isInner = true) (hz : '@' ∉ f.label) :
    ((nodesOf B).filter (fun x => decide (f.label ∈ Dop.heads x.2) && below x.1 x.2 f)).length = Dop.Spec.count trees sents f := by
  rw [Dop.Spec.count, ← H.filter_plain (fun x => Dop.Spec.occurs x.1 f x.2), List.length_map]
  congr 1
  refine List.filter_congr (fun x hx => ?_)
  obtain ⟨l, cs, e, hp, ha⟩ := H.ctx.label x hx
  have hl : x.2.label? = some l := by rw [e]; rfl
  by_cases hk : f.label = l.1
  · rw [occurs_eq hf hl hk (H.yf x hx)]
    have : f.label ∈ Dop.heads x.2 := by
      rw [e]
      exact ((mem_options hp ha).1 hz).2 hk
    simp [this]
  · have h1 : f.label ∉ Dop.heads x.2 := by
      rw [e]
      exact fun hm => hk (((mem_options hp ha).1 hz).1 hm)
    have h2 : Dop.Spec.occurs x.1 f (mapLabel Prod.fst x.2) = false := by
      rw [Bool.eq_false_iff]
      intro ho
      have := occurs_label ho
      rw [label_mapLabel, hl] at this
      exact hk (Option.some.inj this).symm
    simp [h1, h2]

theorem input_of_wf {x : PTree Str × List (Option Str)} (h : Prods.Spec.Input x.1 x.2) (hn : x.1.isNode) (ha : ∀ s ∈ subtrees x.1, ∀ l, s.label? = some l → '@' ∉ l) : Spec.Input x.1 :=
  ⟨hn, ha, termLast_of_shape _ (shape_of_wf h.wf)⟩

theorem packed_spec (h : Dop.Spec.Treebank trees sents) (hc : Spec.Consistent trees sents) :
    ∃ (B : List (List (Option Str) × Pair)) (T : Table) (st : State), Bank trees sents B T ∧ st.fd = (B.flatMap (fun x => ops x.2)).foldl Dop.step [] ∧
      st.rules = addAll [] (((nodesOf B).flatMap (fun x => tokens x.1 x.2)).map (fun r => (r, 1))) ∧
      Packed.dopreduction (trees.zip sents) = some (st.rules.map fun x => (x.1, rfe st x.1 x.2)) := by
  have hi := input_of_treebank h
  have hin : ∀ x ∈ trees.zip sents, Prods.Spec.Input x.1 x.2 ∧ x.1.isNode ∧ Spec.Input x.1 :=
    fun x hx => ⟨(hi.input x hx).1, (hi.input x hx).2, input_of_wf (hi.input x hx).1 (hi.input x hx).2 (hi.noAt x hx)⟩
  obtain ⟨T, -, g2, g3, g4, g5, g6⟩ := pbank_spec (trees.zip sents) {} idle_new (fun x hx => (hin x hx).2.2)
  obtain ⟨ps', hp⟩ := packed_foldlM (trees.zip sents) hin ⟨1, [], [], []⟩ {} idle_new
  exact ⟨_, T, ⟨1 + (trees.zip sents).length, ((pbank (trees.zip sents) {}).flatMap (fun x => ops x.2)).foldl Dop.step [],
    addAll [] ((pbank (trees.zip sents) {}).flatMap (fun x => ntOps [x.2])),
    addAll [] (((nodesOf (pbank (trees.zip sents) {})).flatMap (fun x => tokens x.1 x.2)).map (fun r => (r, 1)))⟩, ⟨h, hc, g2, g3, g4, g5, g6⟩, rfl, rfl, by
    rw [Packed.dopreduction, hp]
    rfl⟩

/-! ## Theorems -/

/-- **C89.** For every well-formed treebank in which constituents with the same words in the same places have the same yield functions, the packed
reduction is exact, as the one without packed graphs (C22): it succeeds; every rule occurs once; the weights of the rules for a label add up to
the number of fragments with that root label in the treebank; and after normalisation the total probability of all derivations of a fragment from
its root label is its relative frequency among the fragments with that root label. -/
theorem C89_goodman (trees : List (PTree Str)) (sents : List (List (Option Str))) (h : Dop.Spec.Treebank trees sents) (hc : Spec.Consistent trees sents) :
    ∃ g, Packed.dopreduction (trees.zip sents) = some g ∧ (g.map Prod.fst).Nodup ∧
      (∀ l, '@' ∉ l → TBGrammar.Spec.mass g l = Dop.Spec.total trees sents l) ∧
      ∀ f : Frag, f.isInner = true → '@' ∉ f.label →
        Dop.Spec.inside (Dop.Spec.normalise g) f f.label = Dop.Spec.count trees sents f / Dop.Spec.total trees sents f.label := by
  obtain ⟨B, T, st, H, hfd, hr, hd⟩ := packed_spec h hc
  have hg := H.represents hr
  rw [hfd] at hg
  have hplain : ∀ l, '@' ∉ l → TBGrammar.Spec.mass (st.rules.map fun x => (x.1, rfe st x.1 x.2)) l = Dop.Spec.total trees sents l := by
    intro l hl
    rw [mass_nodes H.ctx hg, H.total hl, factor, if_neg (by simpa [at?] using hl), one_mul]
  refine ⟨_, hd, ?_, hplain, ?_⟩
  · rw [List.map_map, hr]
    exact TBGrammar.WF_nil.addAll _
  · intro f hf hl
    have hs := hg.scale (fun z => 1 / TBGrammar.Spec.mass (st.rules.map fun x => (x.1, rfe st x.1 x.2)) z)
    have e : Dop.Spec.normalise (st.rules.map fun x => (x.1, rfe st x.1 x.2)) =
        (st.rules.map fun x => (x.1, rfe st x.1 x.2)).map (fun x => (x.1, x.2 * (1 / TBGrammar.Spec.mass (st.rules.map fun x => (x.1, rfe st x.1 x.2)) (x.1.nts.headD [])))) := by
      rw [Dop.Spec.normalise]
      refine List.map_congr_left (fun x _ => ?_)
      rw [mul_one_div]
    rw [e, H.inside hs (fun x hx z ha hz => ?_) f hf, H.countF hf hl, hplain _ hl, factor, if_neg (by simpa [at?] using hl)]
    · ring
    · rw [H.mass hg hx ha hz, factor, if_pos (by simpa [at?] using ha)]
      have := Bank.uses_pos hx hz
      field_simp


/-! ## Example -/

/-- The trees have two constituents with the same words, `(NP Mary)` and `(V is)`. -/
theorem exConsistent : Spec.Consistent [exTree, exTree2] [exSent, exSent2] := by
  have h : ∀ x ∈ Dop.Spec.nodes [exTree, exTree2] [exSent, exSent2], ∀ y ∈ Dop.Spec.nodes [exTree, exTree2] [exSent, exSent2],
      TreeEq.discEq (lookup x.1) (lookup y.1) x.2 y.2 = true → Dop.Spec.yfOf x.1 x.2 = Dop.Spec.yfOf y.1 y.2 := by decide +kernel
  intro x hx y hy e
  refine h x hx y hy ?_
  cases hx2 : x.2 with
  | leaf i =>
    rw [Dop.Spec.nodes, List.mem_flatMap] at hx
    obtain ⟨z, -, hz⟩ := hx
    obtain ⟨s, hs, rfl⟩ := List.mem_map.1 hz
    simp only at hx2
    subst hx2
    obtain ⟨l, cs, e⟩ := mem_subtrees_self_isNode hs
    simp at e
  | node l cs =>
    cases hy2 : y.2 with
    | leaf j => rw [hx2, hy2] at e; simp [withWords] at e
    | node l' cs' =>
      rw [hx2, hy2] at e
      simp only [withWords, WTree.node.injEq] at e
      exact TreeEq.discEq_of_words _ _ l cs l' cs' e.2 e.1

example : Dop.Spec.Treebank [exTree, exTree2] [exSent, exSent2] ∧ Spec.Consistent [exTree, exTree2] [exSent, exSent2] ∧
    (∃ x ∈ Dop.Spec.nodes [exTree] [exSent], ∃ y ∈ Dop.Spec.nodes [exTree2] [exSent2], withWords (lookup x.1) x.2 = withWords (lookup y.1) y.2) :=
  ⟨exDop, exConsistent, (exSent, .node ['V'] [.leaf 0]), by decide +kernel, (exSent2, .node ['V'] [.leaf 1]), by decide +kernel, by
    simp [withWords, withWordsL, lookup, exSent, exSent2]⟩

end Disco.Packed
