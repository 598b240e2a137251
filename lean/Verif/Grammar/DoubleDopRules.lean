import Verif.Grammar.DoubleDopFlat
/-!
# C23: the productions of a flattened fragment (grammar.py:699-786), continued
-/
namespace Disco.DDop
open PTree Prods Factor TBGrammar

/-- The productions of a tree. -/
def rulesOf (sent : List (Option Str)) (t : PTree Str) : Option (List Rule) := prodLoop sent false (subtrees t)

theorem prodLoop_append (sent : List (Option Str)) (b : Bool) (xs ys : List (PTree Str)) {rs qs : List Rule} (h : prodLoop sent b xs = some rs)
    (h' : prodLoop sent b ys = some qs) : prodLoop sent b (xs ++ ys) = some (rs ++ qs) := by
  induction xs generalizing rs with
  | nil => simp only [prodLoop, Option.some.injEq] at h; subst h; simpa using h'
  | cons x xs ih =>
    simp only [prodLoop, List.cons_append, Option.bind_eq_bind] at h ⊢
    cases hx : prodOf sent b x with
    | none => rw [hx] at h; simp at h
    | some r =>
      cases hxs : prodLoop sent b xs with
      | none => rw [hx, hxs] at h; simp at h
      | some q =>
        rw [hx, hxs] at h
        simp only [Option.bind_some, Option.pure_def, Option.some.injEq] at h
        subst h
        rw [ih hxs]
        simp

theorem yieldFunction_some {cs : List (PTree Str)} (h : leavesL cs ≠ []) : ∃ yf, yieldFunction cs = some yf := by
  unfold yieldFunction
  cases hp : popped (tagged 0 cs) with
  | nil =>
    have := (popped_perm (tagged 0 cs)).symm
    rw [hp] at this
    have := this.eq_nil
    have h2 := tagged_fst 0 cs
    rw [this] at h2
    exact absurd h2.symm h
  | cons x xs => exact ⟨_, rfl⟩

theorem rulesOf_node (sent : List (Option Str)) (l : Str) {c : PTree Str} {cs : List (PTree Str)} (hn : ∀ x ∈ c :: cs, x.isNode) (hl : leavesL (c :: cs) ≠ [])
    {rss : List Rule} (h : prodLoop sent false (subtreesL (c :: cs)) = some rss) :
    ∃ yf, rulesOf sent (.node l (c :: cs)) = some (⟨l :: (c :: cs).filterMap label?, .spans yf⟩ :: rss) := by
  obtain ⟨yf, hyf⟩ := yieldFunction_some hl
  refine ⟨yf, ?_⟩
  unfold rulesOf
  rw [subtrees, prodLoop]
  cases c with
  | leaf i => have := hn (.leaf i) (by simp); simp [isNode] at this
  | node m ds =>
    have hall : cs.all isNode = true := by
      rw [List.all_eq_true]; exact fun x hx => hn x (List.mem_cons_of_mem _ hx)
    simp only [prodOf, hall, if_true, hyf, h]
    rfl

/-! ### The sentence -/

theorem sentDict_keys (F : List Front) : Dict.keys (sentDict F) = F.flatMap Front.indices := by
  unfold sentDict Dict.keys
  induction F with
  | nil => rfl
  | cons f F ih => simp only [List.flatMap_cons, List.map_append, ih, List.map_cons, List.map_map]; simp [Front.indices, Function.comp_def]

theorem le_foldr_max {xs : List Nat} {x : Nat} (h : x ∈ xs) : x ≤ xs.foldr max 0 := by
  induction xs with
  | nil => simp at h
  | cons y ys ih =>
    rcases List.mem_cons.1 h with rfl | h
    · exact Nat.le_max_left _ _
    · exact (ih h).trans (Nat.le_max_right _ _)

theorem sentOf_length (F : List Front) : (sentOf F).length = (F.flatMap Front.indices).foldr max 0 + 1 := by simp [sentOf]

theorem sentOf_get {F : List Front} (hd : (F.flatMap Front.indices).Nodup) {f : Front} (hf : f ∈ F) :
    (sentOf F)[f.i]? = some (if f.w = [] then none else some f.w) := by
  have hmem : (f.i, if f.w = [] then none else some f.w) ∈ sentDict F := by
    unfold sentDict
    rw [List.mem_flatMap]
    exact ⟨f, hf, by simp⟩
  have hget : Dict.get? (sentDict F) f.i = some (if f.w = [] then none else some f.w) :=
    Dict.get?_of_mem (by unfold Dict.WF; rw [sentDict_keys]; exact hd) hmem
  have hlt : f.i < (F.flatMap Front.indices).foldr max 0 + 1 := by
    have : f.i ∈ F.flatMap Front.indices := by
      rw [List.mem_flatMap]; exact ⟨f, hf, by simp [Front.indices]⟩
    exact Nat.lt_succ_of_le (le_foldr_max this)
  unfold sentOf
  rw [List.getElem?_map, List.getElem?_range hlt, Option.map_some, hget]
  rfl

/-! ### Frontier nodes -/

/-- The lexical production of a frontier node, if it is a word. -/
def lexRules (f : Front) : List Rule := if f.w = [] then [] else [⟨[f.label, epsilon], .word (Escape.escape (some f.w))⟩]

theorem eraseL_leaves (is : List Nat) : eraseL (is.map BT.leaf) = is.map PTree.leaf := by
  induction is with
  | nil => rfl
  | cons i is ih => simp [eraseL, erase, ih]

theorem erase_child (f : Front) : erase f.child = .node f.label (f.indices.map PTree.leaf) := by
  unfold Front.child
  rw [erase, eraseL_leaves]

theorem leavesL_leaves (is : List Nat) : leavesL (is.map PTree.leaf : List (PTree Str)) = is := by
  induction is with
  | nil => rfl
  | cons i is ih => simp [leaves, ih]

theorem subtreesL_leaves (is : List Nat) : subtreesL (is.map PTree.leaf : List (PTree Str)) = [] := by
  induction is with
  | nil => rfl
  | cons i is ih => simp [subtrees, ih]

theorem child_leaves (f : Front) : (erase f.child).leaves = f.indices := by rw [erase_child, leaves, leavesL_leaves]

theorem rulesOf_child {F : List Front} (hd : (F.flatMap Front.indices).Nodup) {f : Front} (hf : f ∈ F) (hw : f.w ≠ [] → f.is = []) :
    rulesOf (sentOf F) (erase f.child) = some (lexRules f) := by
  have hs := sentOf_get hd hf
  unfold rulesOf
  rw [erase_child, subtrees, subtreesL_leaves, prodLoop]
  simp only [Front.indices, List.map_cons, prodOf, prodLoop, hs]
  unfold lexRules
  by_cases h : f.w = []
  · cases his : f.is <;> simp [h]
  · simp [h, hw h]

theorem eraseL_map (cs : List BT) : eraseL cs = cs.map erase := by
  induction cs with
  | nil => rfl
  | cons c cs ih => simp [eraseL, ih]

theorem prodLoop_children {F : List Front} (hd : (F.flatMap Front.indices).Nodup) {fs : List Front} (hf : ∀ f ∈ fs, f ∈ F ∧ (f.w ≠ [] → f.is = [])) :
    prodLoop (sentOf F) false (subtreesL (eraseL (fs.map Front.child))) = some (fs.flatMap lexRules) := by
  induction fs with
  | nil => rfl
  | cons f fs ih =>
    rw [List.map_cons, eraseL, subtreesL, List.flatMap_cons]
    exact prodLoop_append _ _ _ _ (rulesOf_child hd (hf f (by simp)).1 (hf f (by simp)).2) (ih fun g hg => hf g (List.mem_cons_of_mem _ hg))

theorem leavesL_children (fs : List Front) : leavesL (eraseL (fs.map Front.child)) = fs.flatMap Front.indices := by
  induction fs with
  | nil => rfl
  | cons f fs ih => rw [List.map_cons, eraseL, leavesL, child_leaves, ih, List.flatMap_cons]

/-! ### Chains -/

/-- A production for artificial nodes. -/
inductive ArtRule (pre : Str) (M : Nat → Option (List Str)) (X : Str → Prop) : Rule → Prop
  | one {A n x yf} : IsArt pre A n → M n = some [x] → X x → ArtRule pre M X ⟨[A, x], .spans yf⟩
  | two {A n x y yf} : IsArt pre A n → M n = some [x, y] → X x → X y → ArtRule pre M X ⟨[A, x, y], .spans yf⟩
  | more {A n B m Ls y yf} : IsArt pre A n → IsArt pre B m → M m = some Ls → Ls ≠ [] → M n = some (Ls ++ [y]) → X y → ArtRule pre M X ⟨[A, B, y], .spans yf⟩

theorem ArtRule.mono {pre : Str} {M M' : Nat → Option (List Str)} {X : Str → Prop} (hM : MExt M M') {r : Rule} (h : ArtRule pre M X r) : ArtRule pre M' X r := by
  cases h with
  | one h1 h2 h3 => exact .one h1 (hM _ _ h2) h3
  | two h1 h2 h3 h4 => exact .two h1 (hM _ _ h2) h3 h4
  | more h1 h2 h3 h4 h5 h6 => exact .more h1 h2 (hM _ _ h3) h4 (hM _ _ h5) h6

/-- The label `A` derives the labels `Ls` with these rules for artificial nodes. -/
inductive ChainIn (R : Rule → Prop) : List Str → Str → Prop
  | one {A x yf} : art A = true → R ⟨[A, x], .spans yf⟩ → ChainIn R [x] A
  | two {A x y yf} : art A = true → R ⟨[A, x, y], .spans yf⟩ → ChainIn R [x, y] A
  | more {A B Ls y yf} : art A = true → ChainIn R Ls B → R ⟨[A, B, y], .spans yf⟩ → ChainIn R (Ls ++ [y]) A

theorem ChainIn.mono {R R' : Rule → Prop} (h : ∀ r, R r → R' r) {Ls : List Str} {A : Str} (hc : ChainIn R Ls A) : ChainIn R' Ls A := by
  induction hc with
  | one h1 h2 => exact .one h1 (h _ h2)
  | two h1 h2 => exact .two h1 (h _ h2)
  | more h1 _ h2 ih => exact .more h1 ih (h _ h2)

theorem ChainIn.art {R : Rule → Prop} {Ls : List Str} {A : Str} (hc : ChainIn R Ls A) : DDop.art A = true := by
  cases hc <;> assumption

theorem chain_leaves {pre : Str} {M : Nat → Option (List Str)} {fs : List Front} {A : Str} {p : BT} (h : Chain pre M fs A p) :
    (erase p).leaves = fs.flatMap Front.indices := by
  induction h with
  | two _ _ => simp [erase, eraseL, leavesL, child_leaves]
  | more _ _ _ ih => simp [erase, eraseL, leavesL, child_leaves, ih]

theorem chain_rules {X : Str → Prop} {pre : Str} {M : Nat → Option (List Str)} {F : List Front} (hd : (F.flatMap Front.indices).Nodup) {fs : List Front} {A : Str} {p : BT}
    (h : Chain pre M fs A p) (hf : ∀ f ∈ fs, f ∈ F ∧ (f.w ≠ [] → f.is = []) ∧ X f.label) :
    ∃ rs, rulesOf (sentOf F) (erase p) = some rs ∧ (∀ r ∈ rs, ArtRule pre M X r ∨ ∃ f ∈ fs, r ∈ lexRules f) ∧ ChainIn (· ∈ rs) (fs.map Front.label) A ∧
      ∀ f ∈ fs, ∀ r ∈ lexRules f, r ∈ rs := by
  induction h with
  | @two f g A n b h1 h2 =>
    have hch := prodLoop_children hd (fs := [f, g]) (fun x hx => ⟨(hf x hx).1, (hf x hx).2.1⟩)
    have he : eraseL [f.child, g.child] = [erase f.child, erase g.child] := rfl
    obtain ⟨yf, hyf⟩ := rulesOf_node (sentOf F) A (c := erase f.child) (cs := [erase g.child])
      (by intro x hx; simp only [List.mem_cons, List.not_mem_nil, or_false] at hx; rcases hx with rfl | rfl <;> rfl)
      (by rw [leavesL, child_leaves]; simp [Front.indices]) hch
    refine ⟨_, hyf, ?_, ?_, ?_⟩
    · intro r hr
      rcases List.mem_cons.1 hr with rfl | hr
      · exact .inl (.two h1 h2 (hf f (by simp)).2.2 (hf g (by simp)).2.2)
      · obtain ⟨x, hx, hr⟩ := List.mem_flatMap.1 hr
        exact .inr ⟨x, hx, hr⟩
    · exact .two h1.art (yf := yf) (by
        show _ ∈ _ :: _
        exact List.mem_cons_self)
    · intro x hx r hr
      exact List.mem_cons_of_mem _ (List.mem_flatMap.2 ⟨x, hx, hr⟩)
  | @more fs A' p f A n b hc h1 h2 ih =>
    obtain ⟨rs, i1, i2, i3, i4⟩ := ih (fun g hg => hf g (List.mem_append_left _ hg))
    obtain ⟨m, b', cs, k1, k2, k3⟩ := hc.info
    have hfm := hf f (by simp)
    have hch : prodLoop (sentOf F) false (subtreesL [erase p, erase f.child]) = some (rs ++ lexRules f) := by
      rw [subtreesL, subtreesL, subtreesL, List.append_nil]
      exact prodLoop_append _ _ _ _ i1 (rulesOf_child hd hfm.1 hfm.2.1)
    obtain ⟨yf, hyf⟩ := rulesOf_node (sentOf F) A (c := erase p) (cs := [erase f.child])
      (by
        intro x hx
        simp only [List.mem_cons, List.not_mem_nil, or_false] at hx
        rcases hx with rfl | rfl
        · rw [k3]; rfl
        · rfl)
      (by rw [leavesL, leavesL, child_leaves]; simp [Front.indices]) hch
    have hlab : [erase p, erase f.child].filterMap label? = [A', f.label] := by rw [k3]; rfl
    rw [hlab] at hyf
    refine ⟨_, hyf, ?_, ?_, ?_⟩
    · intro r hr
      rcases List.mem_cons.1 hr with rfl | hr
      · exact .inl (.more h1 k1 k2 (by cases hc <;> simp) (by rw [h2]; simp) hfm.2.2)
      · rcases List.mem_append.1 hr with hr | hr
        · rcases i2 r hr with h | ⟨x, hx, hr⟩
          · exact .inl h
          · exact .inr ⟨x, List.mem_append_left _ hx, hr⟩
        · exact .inr ⟨f, by simp, hr⟩
    · rw [List.map_append]
      refine .more h1.art (yf := yf) (i3.mono (R' := fun x => x ∈ _) ?_) (List.mem_cons_self)
      exact fun r hr => List.mem_cons_of_mem _ (List.mem_append_left _ hr)
    · intro x hx r hr
      rcases List.mem_append.1 hx with hx | hx
      · exact List.mem_cons_of_mem _ (List.mem_append_left _ (i4 x hx r hr))
      · simp only [List.mem_singleton] at hx
        subst hx
        exact List.mem_cons_of_mem _ (List.mem_append_right _ hr)

end Disco.DDop
