import Verif.Grammar.DoubleDopRules
/-!
# C23: flattening one fragment (grammar.py:699-786), and filling its template
-/
namespace Disco.DDop
open PTree Prods Factor TBGrammar

/-! ### Templates -/

mutual
/-- A fragment with its frontier nodes replaced. -/
def fillBy (τ : Nat → PTree Str) : Frag → PTree Str
  | .front f => τ f.i
  | .node l cs => .node l (fillByL τ cs)
/-- The same for a list. -/
def fillByL (τ : Nat → PTree Str) : List Frag → List (PTree Str)
  | [] => []
  | c :: cs => fillBy τ c :: fillByL τ cs
end

theorem order_get {F : List Front} (hd : (F.map Front.i).Nodup) {f : Front} (hf : f ∈ F) :
    ∃ n, Dict.get? (order F) (f.i, f.is, f.w) = some n ∧ F[n]? = some f := by
  obtain ⟨n, hn, he⟩ := List.mem_iff_getElem.1 hf
  refine ⟨n, ?_, by rw [List.getElem?_eq_getElem hn, he]⟩
  apply Dict.get?_of_mem
  · unfold Dict.WF Dict.keys order
    rw [List.map_map]
    have : (F.zipIdx.map (Prod.fst ∘ fun x : Front × Nat => ((x.1.i, x.1.is, x.1.w), x.2))) = F.map (fun x => (x.i, x.is, x.w)) := by
      rw [show (Prod.fst ∘ fun x : Front × Nat => ((x.1.i, x.1.is, x.1.w), x.2)) = (fun x : Front => (x.i, x.is, x.w)) ∘ Prod.fst from rfl, ← List.map_map,
        List.zipIdx_map_fst]
    rw [this]
    refine List.Nodup.of_map (f := Prod.fst) ?_
    rw [List.map_map]
    exact hd
  · unfold order
    rw [List.mem_map]
    exact ⟨(f, n), by rw [List.mem_zipIdx_iff_getElem?]; rw [List.getElem?_eq_getElem hn, he], rfl⟩

mutual
theorem tmpl_fill {F : List Front} (hd : (F.map Front.i).Nodup) : (f : Frag) → (∀ x ∈ f.fronts, x ∈ F) →
    ∃ T, tmpl (order F) f = some T ∧ ∀ τ : Nat → PTree Str, T.fill (F.map fun x => τ x.i) = some (fillBy τ f)
  | .front f, h => by
    obtain ⟨n, h1, h2⟩ := order_get hd (h f (by simp [Frag.fronts]))
    refine ⟨.hole n, by simp [tmpl, h1], fun τ => ?_⟩
    rw [Tmpl.fill, List.getElem?_map, h2]; rfl
  | .node l cs, h => by
    obtain ⟨Ts, h1, h2⟩ := tmplL_fill hd cs (by simpa [Frag.fronts] using h)
    exact ⟨.node l Ts, by rw [tmpl, h1]; rfl, fun τ => by rw [Tmpl.fill, h2 τ]; rfl⟩
theorem tmplL_fill {F : List Front} (hd : (F.map Front.i).Nodup) : (cs : List Frag) → (∀ x ∈ Frag.frontsL cs, x ∈ F) →
    ∃ Ts, tmplL (order F) cs = some Ts ∧ ∀ τ : Nat → PTree Str, Tmpl.fillL (F.map fun x => τ x.i) Ts = some (fillByL τ cs)
  | [], _ => ⟨[], rfl, fun _ => rfl⟩
  | c :: cs, h => by
    obtain ⟨T, h1, h2⟩ := tmpl_fill hd c (fun x hx => h x (by simp [Frag.frontsL, hx]))
    obtain ⟨Ts, h3, h4⟩ := tmplL_fill hd cs (fun x hx => h x (by simp [Frag.frontsL, hx]))
    exact ⟨T :: Ts, by rw [tmplL, h1, h3], fun τ => by rw [Tmpl.fillL, h2 τ, h4 τ]; rfl⟩
end

mutual
theorem fillBy_congr {τ τ' : Nat → PTree Str} : (f : Frag) → (∀ x ∈ f.fronts, τ x.i = τ' x.i) → fillBy τ f = fillBy τ' f
  | .front f, h => h f (by simp [Frag.fronts])
  | .node l cs, h => by rw [fillBy, fillBy, fillByL_congr cs (by simpa [Frag.fronts] using h)]
theorem fillByL_congr {τ τ' : Nat → PTree Str} : (cs : List Frag) → (∀ x ∈ Frag.frontsL cs, τ x.i = τ' x.i) → fillByL τ cs = fillByL τ' cs
  | [], _ => rfl
  | c :: cs, h => by
    rw [fillByL, fillByL, fillBy_congr c (fun x hx => h x (by simp [Frag.frontsL, hx])),
      fillByL_congr cs (fun x hx => h x (by simp [Frag.frontsL, hx]))]
end

mutual
/-- Replacing the frontier nodes by instances gives an instance of the fragment. -/
theorem inst_fill {fr : List Frag} {sent : List Str} {τ : Nat → PTree Str} : (f : Frag) → (∀ x ∈ f.fronts, Spec.Inst fr sent (.front x) (τ x.i)) →
    Spec.Inst fr sent f (fillBy τ f)
  | .front f, h => h f (by simp [Frag.fronts])
  | .node l cs, h => by rw [fillBy]; exact .node (instL_fill cs (by simpa [Frag.fronts] using h))
theorem instL_fill {fr : List Frag} {sent : List Str} {τ : Nat → PTree Str} : (cs : List Frag) →
    (∀ x ∈ Frag.frontsL cs, Spec.Inst fr sent (.front x) (τ x.i)) → Spec.InstL fr sent cs (fillByL τ cs)
  | [], _ => .nil
  | c :: cs, h => by
    rw [fillByL]
    exact .cons (inst_fill c (fun x hx => h x (by simp [Frag.frontsL, hx]))) (instL_fill cs (fun x hx => h x (by simp [Frag.frontsL, hx])))
end

mutual
/-- The labels of an instance, if those of the parts that are filled in are stripped. -/
theorem fillBy_strip {τ : Nat → PTree Str} : (f : Frag) → Spec.Labels f → (fillBy τ f).mapLabel strip = fillBy (fun i => (τ i).mapLabel strip) f
  | .front f, _ => rfl
  | .node l cs, h => by
    rw [Spec.Labels] at h
    have hs : strip l = l := by
      unfold strip
      have : l.dropWhile (· ≠ '@') = [] := by
        have h' := h.1.2.2.1
        clear h
        induction l with
        | nil => rfl
        | cons c l ih =>
          simp only [List.mem_cons, not_or] at h'
          rw [List.dropWhile_cons, if_pos (by simpa using Ne.symm h'.1)]
          exact ih h'.2
      rw [this]
    rw [fillBy, mapLabel, fillByL_strip cs h.2.2, hs, fillBy]
theorem fillByL_strip {τ : Nat → PTree Str} : (cs : List Frag) → Spec.LabelsL cs →
    mapLabelL strip (fillByL τ cs) = fillByL (fun i => (τ i).mapLabel strip) cs
  | [], _ => rfl
  | c :: cs, h => by
    rw [Spec.LabelsL] at h
    rw [fillByL, mapLabelL, fillBy_strip c h.1, fillByL_strip cs h.2, fillByL]
end

mutual
theorem labels_fronts : (f : Frag) → Spec.Labels f → f.fronts ≠ [] ∧ ∀ x ∈ f.fronts, Spec.Plain x.l ∧ ¬ ['}', '<'] <:+: x.w ∧ (x.w ≠ [] → x.is = [])
  | .front f, h => by rw [Spec.Labels] at h; simpa [Frag.fronts] using h
  | .node l cs, h => by
    rw [Spec.Labels] at h
    rw [Frag.fronts]
    refine ⟨?_, labels_frontsL cs h.2.2⟩
    obtain ⟨c, cs', rfl⟩ := List.exists_cons_of_ne_nil h.2.1
    rw [Spec.LabelsL] at h
    have := (labels_fronts c h.2.2.1).1
    rw [Frag.frontsL]
    simp [this]
theorem labels_frontsL : (cs : List Frag) → Spec.LabelsL cs → ∀ x ∈ Frag.frontsL cs, Spec.Plain x.l ∧ ¬ ['}', '<'] <:+: x.w ∧ (x.w ≠ [] → x.is = [])
  | [], _ => by simp [Frag.frontsL]
  | c :: cs, h => by
    rw [Spec.LabelsL] at h
    intro x hx
    rw [Frag.frontsL, List.mem_append] at hx
    rcases hx with hx | hx
    · exact (labels_fronts c h.1).2 x hx
    · exact labels_frontsL cs h.2 x hx
end

/-! ### One fragment -/

theorem sorted_perm (f : Frag) : f.sorted.Perm f.fronts := StableSort.perm _

theorem indices_nodup_i {F : List Front} (h : (F.flatMap Front.indices).Nodup) : (F.map Front.i).Nodup := by
  induction F with
  | nil => simp
  | cons f F ih =>
    rw [List.flatMap_cons] at h
    rw [List.map_cons, List.nodup_cons]
    have h1 := (List.nodup_append.1 h)
    refine ⟨?_, ih h1.2.1⟩
    intro hm
    obtain ⟨g, hg, he⟩ := List.mem_map.1 hm
    exact h1.2.2 f.i (by simp [Front.indices]) f.i (by rw [List.mem_flatMap]; exact ⟨g, hg, by simp [Front.indices, he]⟩) rfl

theorem lcfrsproductions_some {F : List Front} (hd : (F.flatMap Front.indices).Nodup) {t : PTree Str} (ht : t.leaves = F.flatMap Front.indices)
    {rs : List Rule} (h : rulesOf (sentOf F) t = some rs) : lcfrsproductions t (sentOf F) false = some rs := by
  unfold lcfrsproductions
  rw [ht, if_neg (by simpa using hd), if_neg (by
    intro he
    have := congrArg List.length he
    rw [sentOf_length] at this; simp at this), if_neg (by
    rw [Bool.not_eq_true, Bool.not_eq_false, List.all_eq_true]
    intro i hi
    rw [sentOf_length]
    simp only [decide_eq_true_eq]
    exact Nat.lt_succ_of_le (le_foldr_max hi))]
  exact h

/-- What flattening a fragment yields. -/
structure Flat (X : Str → Prop) (l : Str) (cs : List Frag) (s s' : IDs) (M M' : Nat → Option (List Str)) (p : Rule) (ps : List Rule) (T : Tmpl) (B : Str) (m : Nat)
    (Ls rest : List Str) : Prop where
  flat : flatten (.node l cs) s = some (p :: ps, T, s')
  rule : ∃ yf, p = ⟨l :: B :: rest, .spans yf⟩
  isArt : IsArt s.pre B m
  fresh : s.cnt ≤ m
  lab : M' m = some Ls
  cover : Ls ++ rest = (Frag.node l cs).sorted.map Front.label
  arity : rest.length = 1 ∨ rest = [] ∧ ∃ x, Ls = [x]
  inv : IdInv X s' M'
  ext : MExt M M'
  pre : s'.pre = s.pre
  art : ∀ r ∈ ps, ArtRule s.pre M' X r ∨ ∃ x ∈ (Frag.node l cs).fronts, r ∈ lexRules x
  chain : ChainIn (· ∈ ps) Ls B
  lex : ∀ x ∈ (Frag.node l cs).fronts, ∀ r ∈ lexRules x, r ∈ ps
  tmpl : tmpl (order (Frag.node l cs).sorted) (.node l cs) = some T

theorem flatten_node {X : Str → Prop} (hX : Spec.Unambiguous X) {l : Str} {cs : List Frag} (hf : Spec.Fragment (.node l cs))
    (hXf : ∀ x ∈ (Frag.node l cs).fronts, X x.label) {s : IDs} (hpre : '>' ∉ s.pre) {M : Nat → Option (List Str)} (h : IdInv X s M) :
    ∃ s' M' p ps T B m Ls rest, Flat X l cs s s' M M' p ps T B m Ls rest := by
  have hperm := sorted_perm (.node l cs)
  have hlab := labels_fronts _ hf.labels
  have hplain : Spec.Plain l := by have := hf.labels; rw [Spec.Labels] at this; exact this.1
  generalize hF : (Frag.node l cs).sorted = F at *
  have hd : (F.flatMap Front.indices).Nodup := (hperm.flatMap_right _).nodup_iff.2 hf.distinct
  have hFX : ∀ f ∈ F, f ∈ F ∧ (f.w ≠ [] → f.is = []) ∧ X f.label := fun f hm =>
    ⟨hm, (hlab.2 f (hperm.mem_iff.1 hm)).2.2, hXf f (hperm.mem_iff.1 hm)⟩
  obtain ⟨T, hT, -⟩ := tmpl_fill (F := F) (indices_nodup_i hd) (.node l cs) (fun x hx => hperm.mem_iff.2 hx)
  have hlen := hperm.length_eq
  have hflat : ∀ t s1 p ps, cfg.factor 2 (some s) l (some (Bits.bitsetOf (F.flatMap Front.indices))) (F.map Front.child) = some (t, some s1) →
      lcfrsproductions (erase t) (sentOf F) false = some (p :: ps) →
      flatten (.node l cs) s = if F.length ≤ 2 then (short s1 p ps).map (fun x => (x.1, T, x.2)) else some (p :: ps, T, s1) := by
    intro t s1 p ps h1 h2
    rw [flatten.eq_2]
    · rw [hF, show (Frag.node l cs).root = l from rfl, h1]
      simp only [h2, hT]
    · intro _ _ _ he; cases he
  by_cases h3 : 2 < F.length
  · obtain ⟨A, p, b, s', M', m, fs, f, g1, g2, g3, g4, g5, g6, g7, g8⟩ := dd_factor hX hplain.1 hplain.2.2.2.2 (F := F) (fun f hf => (hFX f hf).2.2)
      (by rw [hlen]; exact hf.size) h3 h (some (Bits.bitsetOf (F.flatMap Front.indices)))
    obtain ⟨rs, r1, r2, r3, r4⟩ := chain_rules (X := X) hd g3 (fun x hx => hFX x (by rw [g2]; exact List.mem_append_left _ hx))
    have hfF := hFX f (by rw [g2]; simp)
    obtain ⟨n, b', cs', k1, k2, k3⟩ := g3.info
    have hmn : n = m := k1.inj hpre g4
    subst hmn
    have hch : prodLoop (sentOf F) false (subtreesL [erase p, erase f.child]) = some (rs ++ lexRules f) := by
      rw [subtreesL, subtreesL, subtreesL, List.append_nil]
      exact prodLoop_append _ _ _ _ r1 (rulesOf_child hd hfF.1 hfF.2.1)
    obtain ⟨yf, hyf⟩ := rulesOf_node (sentOf F) l (c := erase p) (cs := [erase f.child])
      (by
        intro x hx
        simp only [List.mem_cons, List.not_mem_nil, or_false] at hx
        rcases hx with rfl | rfl
        · rw [k3]; rfl
        · rfl)
      (by rw [leavesL, leavesL, child_leaves]; simp [Front.indices]) hch
    have hl2 : [erase p, erase f.child].filterMap label? = [A, f.label] := by rw [k3]; rfl
    rw [hl2] at hyf
    have hprods : lcfrsproductions (erase (.node l (some b) [p, f.child])) (sentOf F) false = some (⟨[l, A, f.label], .spans yf⟩ :: (rs ++ lexRules f)) := by
      refine lcfrsproductions_some hd ?_ hyf
      rw [erase, eraseL, eraseL, eraseL, leaves, leavesL, leavesL, leavesL, child_leaves, chain_leaves g3, g2]
      simp
    have hfl := hflat _ _ _ _ g1 hprods
    rw [if_neg (by omega)] at hfl
    refine ⟨s', M', _, _, T, A, n, fs.map Front.label, [f.label], hfl, ⟨yf, rfl⟩, g4, g5, k2, by rw [hF, g2]; simp, .inl rfl, g6, g7, g8, ?_, ?_, ?_, by rw [hF]; exact hT⟩
    · intro r hr
      rcases List.mem_append.1 hr with hr | hr
      · rcases r2 r hr with h | ⟨x, hx, hr⟩
        · exact .inl h
        · exact .inr ⟨x, hperm.mem_iff.1 (by rw [g2]; exact List.mem_append_left _ hx), hr⟩
      · exact .inr ⟨f, hperm.mem_iff.1 hfF.1, hr⟩
    · exact r3.mono (fun r hr => List.mem_append_left _ hr)
    · intro x hx r hr
      have := hperm.mem_iff.2 hx
      rw [g2, List.mem_append, List.mem_singleton] at this
      rcases this with hx | rfl
      · exact List.mem_append_left _ (r4 x hx r hr)
      · exact List.mem_append_right _ hr
  · have hfac := C40_threshold cfg 2 (some s) l (some (Bits.bitsetOf (F.flatMap Front.indices))) (F.map Front.child) (by rw [List.length_map]; omega)
    obtain ⟨f, rest, hFr⟩ : ∃ f rest, F = f :: rest := by
      cases F with
      | nil => exact absurd (hperm.symm.eq_nil) hlab.1
      | cons f rest => exact ⟨f, rest, rfl⟩
    have hch := prodLoop_children hd (fs := F) (fun x hx => ⟨hx, (hFX x hx).2.1⟩)
    have he : eraseL (F.map Front.child) = erase f.child :: eraseL (rest.map Front.child) := by rw [hFr]; rfl
    have hlv := leavesL_children F
    rw [he] at hch hlv
    obtain ⟨yf, hyf⟩ := rulesOf_node (sentOf F) l (c := erase f.child) (cs := eraseL (rest.map Front.child))
      (by
        intro x hx
        rw [← he, eraseL_map] at hx
        simp only [List.map_map, List.mem_map] at hx
        obtain ⟨g, -, rfl⟩ := hx
        rfl)
      (by rw [hlv, hFr]; simp [Front.indices]) hch
    have hlabs : ∀ gs : List Front, (eraseL (gs.map Front.child)).filterMap label? = gs.map Front.label := by
      intro gs
      rw [eraseL_map, List.map_map, List.filterMap_map]
      induction gs with
      | nil => rfl
      | cons g gs ih => rw [List.filterMap_cons, ih]; rfl
    rw [← he, hlabs] at hyf
    have hprods : lcfrsproductions (erase (.node l (some (Bits.bitsetOf (F.flatMap Front.indices))) (F.map Front.child))) (sentOf F) false =
        some (⟨l :: F.map Front.label, .spans yf⟩ :: F.flatMap lexRules) :=
      lcfrsproductions_some hd (by rw [erase, leaves, leavesL_children]) hyf
    have hfl := hflat _ _ _ _ hfac hprods
    rw [if_pos (by omega), hFr] at hfl
    simp only [List.map_cons, short, Option.map_some] at hfl
    generalize hB : l ++ '}' :: '<' :: (s.next.1 ++ '>' :: (if yf.length = 1 then [] else '_' :: Nat.toDigits 10 yf.length)) = B at hfl
    have hart : IsArt s.pre B s.cnt := ⟨l, _, hplain.1, hplain.2.2.2.2, hB.symm⟩
    have hu : upd M s.cnt [f.label] s.cnt = some [f.label] := by simp [upd]
    refine ⟨s.next.2, upd M s.cnt [f.label], _, _, T, B, s.cnt, [f.label], rest.map Front.label, hfl, ⟨yf, rfl⟩, hart, Nat.le_refl _, hu, by rw [hF, hFr]; rfl, ?_,
      h.next _, upd_ext h _, rfl, ?_, ?_, ?_, by rw [hF]; exact hT⟩
    · match rest, hFr with
      | [], _ => exact .inr ⟨rfl, _, rfl⟩
      | [g], _ => exact .inl rfl
      | _ :: _ :: _, hFr => rw [hFr] at h3; simp at h3
    · intro r hr
      rcases List.mem_cons.1 hr with rfl | hr
      · exact .inl (.one hart hu (hFX f (by rw [hFr]; simp)).2.2)
      · obtain ⟨x, hx, hr⟩ := List.mem_flatMap.1 hr
        exact .inr ⟨x, hperm.mem_iff.1 (by rw [hFr]; exact hx), hr⟩
    · exact .one hart.art (List.mem_cons_self)
    · intro x hx r hr
      have hx' := hperm.mem_iff.2 hx
      rw [hFr] at hx'
      exact List.mem_cons_of_mem _ (List.mem_flatMap.2 ⟨x, hx', hr⟩)

end Disco.DDop
