import Verif.Ctf.Whitelist
import Verif.Ctf.Filter
/-!
# C58: pruning with `k = 0` does not change the parse

`prunechart(coarsechart, fine, 0, False, False, False)` (coarsetofine.pyx:35-170) for a chart of the agenda parser, followed by the fine parser with the whitelist.
-/
set_option linter.unusedSectionVars false
namespace Disco.Ctf
open Bits
open Plcfrs (Item PRule Ops Grammar Edge State parse)

variable {V : Type} [DecidableEq V] {R : Type} [AddCommGroup R] [LinearOrder R] [IsOrderedAddMonoid R]

/-! ### Model -/

/-- The items to which an edge points, `_left` and `_right` (plcfrs.pyx:82-97, 201-216); `xor` is `^` on vectors. -/
def edgeItems (xor : V → V → V) (x : Item V) : Edge V R → List (Item V)
  | .lex _ => []
  | .rule r left => if r.rhs2 = 0 then [left] else [left, ⟨r.rhs2, xor x.vec left.vec⟩]

/-- The parse forest of a chart of the agenda parser. -/
def chartForest (xor : V → V → V) (st : State V R) : Forest (Item V) := fun x => (st.forest x).map (edgeItems xor x)

/-- `whitelist.small[label].insert(item)` or `whitelist.fat[label].insert(item)` for all selected items (coarsetofine.pyx:154-168), with the mappings of the fine grammar (169-170). -/
def indexByLabel (items : List (Item V)) (mapping : Nat → Nat) (splitmapping : Nat → List Nat) : Whitelist V :=
  ⟨fun label => items.filter (fun x => decide (x.label = label)), mapping, splitmapping⟩

/-- `prunechart` with `k == 0` (coarsetofine.pyx:117-122, 154-170); `depth` bounds the recursion of `filter`. -/
def pruneFilter (xor : V → V → V) (st : State V R) (root : Item V) (depth : Nat) (mapping : Nat → Nat) (splitmapping : Nat → List Nat) : Option (Whitelist V) :=
  (filter (chartForest xor st) st.items root depth).map (fun F => indexByLabel (st.items.filter (fun x => !(F x).isEmpty)) mapping splitmapping)

/-- The whitelist as used by the fine parser, without `splitprune`. -/
def allowedBy (s : SpanOps V) (N : Nat) (wl : Whitelist V) (fanout : Nat → Nat) (x : Item V) : Bool := (check s N (some wl) false false fanout x).getD false

/-! ### Specification -/

/-- The labels of the fine grammar are mapped to the labels of the coarse grammar such that each fine rule becomes a coarse rule. -/
structure Spec.Projects (m : Nat → Nat) (fine coarse : Grammar R) (n : Nat) : Prop where
  lex : ∀ i < n, ∀ t p, (t, p) ∈ fine.lexicon i → ∃ q, (m t, q) ∈ coarse.lexicon i
  unary : ∀ r ∈ fine.unary, ∃ q ∈ coarse.unary, q.lhs = m r.lhs ∧ q.rhs1 = m r.rhs1
  binary : ∀ r ∈ fine.lbinary, ∃ q ∈ coarse.lbinary, q.lhs = m r.lhs ∧ q.rhs1 = m r.rhs1 ∧ q.rhs2 = m r.rhs2 ∧ q.args = r.args ∧ q.lengths = r.lengths

/-- The rules are distinguished by whether they have a second nonterminal. -/
structure Spec.Arity (g : Grammar R) : Prop where
  unary : ∀ r ∈ g.unary, r.rhs2 = 0
  binary : ∀ r ∈ g.lbinary, r.rhs2 ≠ 0

/-! ### Lemmas -/

section
variable {o : Ops V} {n : Nat} {univ : List V} {mem : V → Nat → Bool} {M : R} {g : Grammar R} {allowed : Item V → Bool}

omit [AddCommGroup R] [LinearOrder R] [IsOrderedAddMonoid R] in
theorem allowedBy_iff (s : SpanOps V) (N : Nat) (items : List (Item V)) (m : Nat → Nat) (sm : Nat → List Nat) (fanout : Nat → Nat) (x : Item V) :
    allowedBy s N (indexByLabel items m sm) fanout x = true ↔ m x.label = 0 ∨ ⟨m x.label, x.vec⟩ ∈ items := by
  by_cases h0 : m x.label = 0
  · simp [allowedBy, check, checkwhitelist, indexByLabel, h0]
  · simp [allowedBy, check, checkwhitelist, indexByLabel, h0]

theorem derives_mono {allowed' : Item V → Bool} (h : ∀ x, allowed x = true → allowed' x = true) {x : Item V} {c : R} (hd : Plcfrs.Spec.Derives o g allowed n x c) :
    Plcfrs.Spec.Derives o g allowed' n x c := by
  induction hd with
  | lex hi ht ha => exact .lex hi ht (h _ ha)
  | unary hr _ ha ih => exact .unary hr ih (h _ ha)
  | binary hr _ _ hc ha ih1 ih2 => exact .binary hr ih1 ih2 hc (h _ ha)

theorem parse_facts (L : Plcfrs.Spec.Laws o n univ mem) (hn : 0 < n) {goal : Item V} (U : Plcfrs.Spec.Usable g n M goal.label) {pick : Nat → Dict (Item V) (R × R) → Item V}
    (hp : Plcfrs.Spec.PicksLeast pick) {fuel : Nat} {st : State V R} (h : parse o g M allowed pick goal true n fuel = some (.ok st)) :
    (∀ x, st.forest x ≠ [] → x ∈ st.items) ∧ ∀ x, st.forest x ≠ [] ↔ ∃ c, Plcfrs.Spec.Derives o g allowed n x c := by
  obtain ⟨h1, h2, _⟩ := Plcfrs.C25_viterbi L hn U hp h
  rcases Plcfrs.parse_cases L hn U (allowed := allowed) (pick := pick) true fuel with ⟨i, _, h3, _⟩ | ⟨st0, I0, _, h3⟩
  · rw [h3] at h; cases h
  · rw [h3] at h
    obtain ⟨st1, h4, h5⟩ := Option.map_eq_some_iff.1 h
    injection h5 with h5; subst h5
    obtain ⟨T, I, hA⟩ := Plcfrs.loop_inv L U hp I0 h4
    have hA : st1.agenda = [] := by rcases hA with h | ⟨h, _⟩; exact h; cases h
    refine ⟨I.items, fun x => ?_⟩
    rw [ne_eq, I.forest x, hA]
    constructor
    · intro hx
      have : st1.probs x ≠ none := fun hh => hx ⟨rfl, hh⟩
      obtain ⟨c, hc⟩ := Option.ne_none_iff_exists'.1 this
      exact ⟨c, (I.probs x c hc).1⟩
    · rintro ⟨c, hc⟩ ⟨_, hx⟩
      rcases Plcfrs.frontier L U I hc with ⟨d, hd, _⟩ | ⟨y, s, d, hy, _⟩
      · rw [hx] at hd; cases hd
      · rw [hA] at hy; cases hy

/-- Each edge of the chart points to items with derivations. -/
theorem edgeItems_derives (L : Plcfrs.Spec.Laws o n univ mem) {xor : V → V → V}
    (hx : ∀ v ∈ univ, ∀ w ∈ univ, ∀ a l, o.concat a l v w = true → xor (o.combine v w) v = w) (A : Spec.Arity g) {x : Item V} {e : Edge V R}
    (he : Plcfrs.Spec.IsEdge o g allowed n x e) : ∀ y ∈ edgeItems xor x e, ∃ c, Plcfrs.Spec.Derives o g allowed n y c := by
  cases e with
  | lex i => intro y hy; cases hy
  | rule r left =>
    obtain ⟨_, ⟨c, hl⟩, _, hlab, h⟩ := he
    intro y hy
    rw [edgeItems] at hy
    rcases h with ⟨hr, _⟩ | ⟨hr, w, ⟨d, hw⟩, hc, hv⟩
    · rw [if_pos (A.unary r hr), List.mem_singleton] at hy
      subst hy; exact ⟨c, hl⟩
    · rw [if_neg (A.binary r hr)] at hy
      have e1 : xor x.vec left.vec = w := by
        rw [hv]
        exact hx _ (Plcfrs.derives_univ L hl).1 _ (Plcfrs.derives_univ L hw).1 _ _ hc
      rw [e1] at hy
      rcases List.mem_cons.1 hy with rfl | hy
      · exact ⟨c, hl⟩
      · rw [List.mem_singleton] at hy; subst hy; exact ⟨d, hw⟩

/-- In a complete chart, the items with a derivation are derivable from the forest. -/
theorem derivable_of_derives (L : Plcfrs.Spec.Laws o n univ mem) {xor : V → V → V}
    (hx : ∀ v ∈ univ, ∀ w ∈ univ, ∀ a l, o.concat a l v w = true → xor (o.combine v w) v = w) (A : Spec.Arity g) {st : State V R}
    (hf : ∀ x e, e ∈ st.forest x ↔ Plcfrs.Spec.IsEdge o g allowed n x e) {x : Item V} {c : R} (h : Plcfrs.Spec.Derives o g allowed n x c) : Spec.Derivable (chartForest xor st) x := by
  induction h with
  | @lex i t p hi ht ha =>
    exact .mk (e := []) (List.mem_map.2 ⟨.lex i, (hf _ _).2 ⟨ha, hi, rfl, p, ht⟩, rfl⟩) (by simp)
  | @unary r v c hr hd ha ih =>
    refine .mk (e := [⟨r.rhs1, v⟩]) (List.mem_map.2 ⟨.rule r ⟨r.rhs1, v⟩, (hf _ _).2 ⟨ha, ⟨c, hd⟩, rfl, rfl, .inl ⟨hr, rfl⟩⟩, ?_⟩) (by simpa using ih)
    rw [edgeItems, if_pos (A.unary r hr)]
  | @binary r v w c d hr hd1 hd2 hc ha ih1 ih2 =>
    refine .mk (e := [⟨r.rhs1, v⟩, ⟨r.rhs2, w⟩]) (List.mem_map.2 ⟨.rule r ⟨r.rhs1, v⟩, (hf _ _).2 ⟨ha, ⟨c, hd1⟩, rfl, rfl, .inr ⟨hr, w, ⟨d, hd2⟩, hc, rfl⟩⟩, ?_⟩) ?_
    · rw [edgeItems, if_neg (A.binary r hr), hx _ (Plcfrs.derives_univ L hd1).1 _ (Plcfrs.derives_univ L hd2).1 _ _ hc]
    · intro y hy
      rcases List.mem_cons.1 hy with rfl | hy
      · exact ih1
      · rw [List.mem_singleton] at hy; subst hy; exact ih2

/-- A fine derivation is projected to a coarse derivation. -/
theorem derives_project {m : Nat → Nat} {fine coarse : Grammar R} (P : Spec.Projects m fine coarse n) {x : Item V} {c : R} (h : Plcfrs.Spec.Derives o fine allowed n x c) :
    ∃ d, Plcfrs.Spec.Derives o coarse (fun _ => true) n ⟨m x.label, x.vec⟩ d := by
  induction h with
  | lex hi ht _ =>
    obtain ⟨q, hq⟩ := P.lex _ hi _ _ ht
    exact ⟨q, .lex hi hq rfl⟩
  | unary hr _ _ ih =>
    obtain ⟨q, hq, e1, e2⟩ := P.unary _ hr
    obtain ⟨d, hd⟩ := ih
    have := Plcfrs.Spec.Derives.unary (o := o) (allowed := fun _ => true) (n := n) hq (by rw [e2]; exact hd) rfl
    exact ⟨_, by rw [e1] at this; exact this⟩
  | binary hr _ _ hc _ ih1 ih2 =>
    obtain ⟨q, hq, e1, e2, e3, e4, e5⟩ := P.binary _ hr
    obtain ⟨d1, hd1⟩ := ih1
    obtain ⟨d2, hd2⟩ := ih2
    have := Plcfrs.Spec.Derives.binary (o := o) (allowed := fun _ => true) (n := n) hq (by rw [e2]; exact hd1) (by rw [e3]; exact hd2) (by rw [e4, e5]; exact hc) rfl
    exact ⟨_, by rw [e1] at this; exact this⟩

/-- If an item is projected to an item that occurs in a derivation of the root, its derivations survive. -/
theorem derives_survive (L : Plcfrs.Spec.Laws o n univ mem) {xor : V → V → V}
    (hx : ∀ v ∈ univ, ∀ w ∈ univ, ∀ a l, o.concat a l v w = true → xor (o.combine v w) v = w) {m : Nat → Nat} {fine coarse : Grammar R} (A : Spec.Arity coarse)
    (P : Spec.Projects m fine coarse n) {st : State V R} (hf : ∀ x e, e ∈ st.forest x ↔ Plcfrs.Spec.IsEdge o coarse (fun _ => true) n x e) {root : Item V}
    (hall : ∀ x : Item V, Reach (chartForest xor st) root ⟨m x.label, x.vec⟩ → (∃ d, Plcfrs.Spec.Derives o coarse (fun _ => true) n ⟨m x.label, x.vec⟩ d) → allowed x = true)
    {x : Item V} {c : R} (h : Plcfrs.Spec.Derives o fine (fun _ => true) n x c) (hr : Reach (chartForest xor st) root ⟨m x.label, x.vec⟩) : Plcfrs.Spec.Derives o fine allowed n x c := by
  induction h with
  | @lex i t p hi ht _ => exact .lex hi ht (hall _ hr (derives_project (allowed := fun _ => true) P (.lex hi ht rfl)))
  | @unary r v c hrule hd ha ih =>
    obtain ⟨q, hq, e1, e2⟩ := P.unary _ hrule
    obtain ⟨d, hd'⟩ := derives_project P hd
    refine .unary hrule (ih (.tail hr ?_)) (hall _ hr (derives_project P (.unary hrule hd ha)))
    refine ⟨[⟨m r.rhs1, v⟩], List.mem_map.2 ⟨.rule q ⟨m r.rhs1, v⟩, (hf _ _).2 ⟨rfl, ⟨d, hd'⟩, e1, e2.symm, .inl ⟨hq, rfl⟩⟩, ?_⟩, by simp⟩
    rw [edgeItems, if_pos (A.unary q hq)]
  | @binary r v w c d hrule hd1 hd2 hc ha ih1 ih2 =>
    obtain ⟨q, hq, e1, e2, e3, e4, e5⟩ := P.binary _ hrule
    obtain ⟨d1, hd1'⟩ := derives_project P hd1
    obtain ⟨d2, hd2'⟩ := derives_project P hd2
    have he : [⟨m r.rhs1, v⟩, ⟨m r.rhs2, w⟩] ∈ chartForest xor st ⟨m r.lhs, o.combine v w⟩ := by
      refine List.mem_map.2 ⟨.rule q ⟨m r.rhs1, v⟩, (hf _ _).2 ⟨rfl, ⟨d1, hd1'⟩, e1, e2.symm, .inr ⟨hq, w, ⟨d2, by rw [e3]; exact hd2'⟩, by rw [e4, e5]; exact hc, rfl⟩⟩, ?_⟩
      rw [edgeItems, if_neg (A.binary q hq), hx _ (Plcfrs.derives_univ L hd1').1 _ (Plcfrs.derives_univ L hd2').1 _ _ hc, e3]
    exact .binary hrule (ih1 (.tail hr ⟨_, he, by simp⟩)) (ih2 (.tail hr ⟨_, he, by simp⟩)) hc (hall _ hr (derives_project P (.binary hrule hd1 hd2 hc ha)))

/-! ### Property -/

/-- **C58**: if the fine grammar is projected to the coarse grammar and the coarse chart is complete, then pruning with `k = 0` gives a whitelist with which the fine grammar has
derivations of the sentence of exactly the same costs as without whitelist; in particular the fine parser finds the same best cost. -/
theorem C58_lossless (L : Plcfrs.Spec.Laws o n univ mem) (hn : 0 < n) {xor : V → V → V} (hx : ∀ v ∈ univ, ∀ w ∈ univ, ∀ a l, o.concat a l v w = true → xor (o.combine v w) v = w)
    {fine coarse : Grammar R} {m : Nat → Nat} (sm : Nat → List Nat) (A : Spec.Arity coarse) (P : Spec.Projects m fine coarse n)
    {s : SpanOps V} {N : Nat} {fanout : Nat → Nat} {goal : Item V} (Uc : Plcfrs.Spec.Usable coarse n M (m goal.label)) {pick : Nat → Dict (Item V) (R × R) → Item V}
    (hp : Plcfrs.Spec.PicksLeast pick) {fuel : Nat} {st : State V R} (hparse : parse o coarse M (fun _ => true) pick ⟨m goal.label, goal.vec⟩ true n fuel = some (.ok st))
    (hgoal : (st.forest ⟨m goal.label, goal.vec⟩) ≠ []) {depth : Nat} (hdepth : st.items.length ≤ depth) :
    ∃ wl, pruneFilter xor st ⟨m goal.label, goal.vec⟩ depth m sm = some wl ∧
      (∀ c, Plcfrs.Spec.Derives o fine (allowedBy s N wl fanout) n goal c ↔ Plcfrs.Spec.Derives o fine (fun _ => true) n goal c) ∧
      ∀ (_ : Plcfrs.Spec.Usable fine n M goal.label) (ex ex' : Bool) (fuel' fuel'' : Nat) (st1 st2 : State V R),
        parse o fine M (allowedBy s N wl fanout) pick goal ex n fuel' = some (.ok st1) → parse o fine M (fun _ => true) pick goal ex' n fuel'' = some (.ok st2) →
        st1.probs goal = st2.probs goal := by
  obtain ⟨_, hf, _⟩ := Plcfrs.C25_viterbi L hn Uc hp hparse
  obtain ⟨hit, hne⟩ := parse_facts L hn Uc hp hparse
  have hcl : ∀ x ∈ st.items, ∀ e ∈ chartForest xor st x, ∀ c ∈ e, c ∈ st.items := by
    intro x _ e he c hc
    obtain ⟨e', he', rfl⟩ := List.mem_map.1 he
    exact hit c ((hne c).2 (edgeItems_derives L hx A ((hf _ _).1 he') c hc))
  obtain ⟨res, h1, h2⟩ := filtersubtree_reach (chartForest xor st) st.items hcl (hit _ hgoal) hdepth
  refine ⟨_, by rw [pruneFilter, filter, h1]; rfl, ?_⟩
  have hall : ∀ x : Item V, Reach (chartForest xor st) ⟨m goal.label, goal.vec⟩ ⟨m x.label, x.vec⟩ →
      (∃ d, Plcfrs.Spec.Derives o coarse (fun _ => true) n ⟨m x.label, x.vec⟩ d) →
      allowedBy s N (indexByLabel (st.items.filter (fun x => !(if x ∈ st.items ∧ x ∉ res then [] else chartForest xor st x).isEmpty)) m sm) fanout x = true := by
    intro x hr hd
    have hk := (h2 _).2 hr
    have hfx := (hne _).2 hd
    rw [allowedBy_iff]
    refine .inr (List.mem_filter.2 ⟨hit _ hfx, ?_⟩)
    rw [if_neg (fun hh => hh.2 hk)]
    simpa [chartForest] using hfx
  have hcost : ∀ c, Plcfrs.Spec.Derives o fine (allowedBy s N (indexByLabel (st.items.filter (fun x => !(if x ∈ st.items ∧ x ∉ res then [] else chartForest xor st x).isEmpty)) m sm) fanout) n goal c ↔
      Plcfrs.Spec.Derives o fine (fun _ => true) n goal c := fun c =>
    ⟨derives_mono (fun _ _ => rfl), fun h => derives_survive L hx A P hf hall h .refl⟩
  refine ⟨hcost, ?_⟩
  intro Uf ex ex' fuel' fuel'' st1 st2 hp1 hp2
  obtain ⟨a1, _⟩ := Plcfrs.C25_goal L hn Uf hp hp1
  obtain ⟨b1, _⟩ := Plcfrs.C25_goal L hn Uf hp hp2
  refine Option.ext (fun c => ?_)
  rw [a1, b1]
  simp only [hcost]

end

/-- The law for `^` on one word. -/
theorem xor_small {n : Nat} : ∀ v ∈ Plcfrs.allSets n Plcfrs.makeSmall, ∀ w ∈ Plcfrs.allSets n Plcfrs.makeSmall, ∀ a l, Plcfrs.smallOps.concat a l v w = true →
    (Plcfrs.smallOps.combine v w) ^^^ v = w := by
  intro v _ w _ a l _
  show (v ^^^ w) ^^^ v = w
  rw [BitVec.xor_comm v w, BitVec.xor_assoc, BitVec.xor_self, BitVec.xor_zero]

theorem abit_zipXor : ∀ {v w : List Word}, v.length = w.length → ∀ j, abit (List.zipWith (· ^^^ ·) v w) j = (abit v j ^^ abit w j) := by
  intro v
  induction v with
  | nil => intro w h j; cases w <;> simp_all [abit]
  | cons a v ih =>
    intro w h j
    cases w with
    | nil => simp at h
    | cons b w =>
      rw [List.zipWith_cons_cons]
      by_cases hj : j < 64
      · rw [abit_cons_lt hj, abit_cons_lt hj, abit_cons_lt hj, BitVec.getLsbD_xor]
      · rw [abit_cons_ge (by omega), abit_cons_ge (by omega), abit_cons_ge (by omega)]
        exact ih (by simpa using h) _

/-- The law for `^` on each word. -/
theorem xor_fat {n slots : Nat} (hn : n ≤ 64 * slots) : ∀ v ∈ Plcfrs.allSets n (Plcfrs.makeFat slots), ∀ w ∈ Plcfrs.allSets n (Plcfrs.makeFat slots), ∀ a l, (Plcfrs.fatOps slots).concat a l v w = true →
    List.zipWith (· ^^^ ·) ((Plcfrs.fatOps slots).combine v w) v = w := by
  intro v hv w hw a l hc
  have hlen : ∀ u ∈ Plcfrs.allSets n (Plcfrs.makeFat slots), u.length = slots := by
    intro u hu
    obtain ⟨l, _, rfl⟩ := List.mem_map.1 hu
    exact Plcfrs.length_makeFat slots l
  have hcomb : ((Plcfrs.fatOps slots).combine v w).length = slots := by
    show (List.zipWith _ v w).length = slots
    rw [List.length_zipWith, hlen v hv, hlen w hw, Nat.min_self]
  refine Plcfrs.abit_ext ?_ (fun j => ?_)
  · rw [List.length_zipWith, hcomb, hlen v hv, hlen w hw, Nat.min_self]
  · rw [abit_zipXor (by rw [hcomb, hlen v hv]), (Plcfrs.laws_fat hn).combine_mem v hv w hw a l hc]
    have := Plcfrs.concatFat_disjoint hc j
    cases h1 : abit v j <;> cases h2 : abit w j <;> simp_all

/-- The coarse grammar for `Plcfrs.exGrammar`: the labels 6 and 7 are both mapped to 6. There is a rule for a label 8 that is not part of a derivation of the sentence. -/
def exCoarse : Grammar Int where
  unary := [⟨1, 3, 0, 0, 0, 1, 0⟩]
  lbinary := [⟨2, 4, 5, 0b10, 0b11, 2, 1⟩, ⟨3, 2, 6, 0b010, 0b100, 3, 2⟩, ⟨8, 4, 6, 0b10, 0b10, 1, 3⟩]
  rbinary := [⟨2, 4, 5, 0b10, 0b11, 2, 1⟩, ⟨3, 2, 6, 0b010, 0b100, 3, 2⟩, ⟨8, 4, 6, 0b10, 0b10, 1, 3⟩]
  lexicon i := if i = 0 then [(4, 1)] else if i = 1 then [(6, 1)] else if i = 2 then [(5, 1)] else []

def exMap (t : Nat) : Nat := if t = 7 then 6 else t

example : Spec.Projects exMap Plcfrs.exGrammar exCoarse 3 where
  lex := by
    intro i hi t p h
    rcases (by omega : i = 0 ∨ i = 1 ∨ i = 2) with rfl | rfl | rfl <;> revert h <;> simp [Plcfrs.exGrammar, exCoarse]
    · rintro rfl rfl; decide
    · rintro (⟨rfl, rfl⟩ | ⟨rfl, rfl⟩) <;> decide
    · rintro rfl rfl; decide
  unary := by decide
  binary := by decide

example : Spec.Arity exCoarse := ⟨by decide, by decide⟩

example : Plcfrs.Spec.Usable exCoarse 3 10000 (exMap 1) where
  max := by decide
  unary := by decide
  binary := by decide
  lex := by
    intro i hi t p h
    rcases (by omega : i = 0 ∨ i = 1 ∨ i = 2) with rfl | rfl | rfl <;> revert h <;> simp [exCoarse]
    · rintro rfl rfl; decide
    · rintro rfl rfl; decide
    · rintro rfl rfl; decide
  tags := by decide
  perm := List.Perm.refl _
  nodup := by decide

-- the whitelist: the item 8 is gone; the fine parser with the whitelist finds the best cost
example : (match parse Plcfrs.smallOps exCoarse 10000 (fun _ => true) (Plcfrs.pickFirst ⟨0, 0⟩) ⟨1, 7⟩ true 3 56 with
    | some (.ok st) =>
      ((st.items.map (fun x => (x.label, x.vec)), (pruneFilter (· ^^^ ·) st ⟨1, 7⟩ 20 exMap (fun _ => [])).map (fun wl =>
        ((List.range 9).map (fun l => (wl.items l).map (fun x => x.vec)),
          match parse Plcfrs.smallOps Plcfrs.exGrammar 10000 (allowedBy smallSpan 64 wl (fun t => if t = 2 then 2 else 1)) (Plcfrs.pickFirst ⟨0, 0⟩) ⟨1, 7⟩ true 3 56 with
          | some (.ok st) => st.probs ⟨1, 7⟩
          | _ => none))))
    | _ => ([], none)) = ([(4, 1), (6, 2), (5, 4), (8, 3), (2, 5), (3, 7), (1, 7)], some ([[], [7], [5], [7], [1], [4], [2], [], []], some 10)) := by decide +kernel

end Disco.Ctf
