import Verif.Trees.Dependencies
/-!
# C36: head rules: `applyheadrules`, `headfinder`, `getheadpos` (heads.py:14-121)

Simplifications: `str.upper` and the tests for punctuation are parameters; `modifierrules` is not modelled (it changes no node marked as
head); a child that is an index is treated as a node without label (in the code: AttributeError; it does not happen when the first child is
a constituent).
-/
namespace Disco.Deps
open PTree

/-- A head rule: direction, whether it is one of `LEFTDIS`, `RIGHTDIS`, and the labels (heads.py:59-62). -/
structure HRule where
  right : Bool
  dis : Bool
  heads : List Str
deriving Repr

/-- The parameters of `headfinder`: the rules, `str.upper`, `label in PUNCTTAGS`, `word in PUNCTUATION`. -/
structure HCfg where
  rules : Str → List HRule
  upper : Str → Str
  ptag : Str → Bool
  pword : Str → Bool

/-- The label of a child. -/
def lab : PTree Ann → Str
  | .leaf _ => []
  | .node a _ => a.l

/-- `child.label.split('[')[0].upper() == head`. -/
def HCfg.matches (g : HCfg) (c : PTree Ann) (head : Str) : Bool := decide (g.upper ((lab c).takeWhile (· ≠ '[')) = head)

/-- `child.source and not headlabels.isdisjoint(child.source[FUNC].upper().split('-'))` (heads.py:89-91). -/
def HCfg.hasHD (g : HCfg) : PTree Ann → Bool
  | .leaf _ => false
  | .node a _ => match a.func with
    | some f => decide ("HD".toList ∈ Str.splitAll '-' (g.upper f))
    | none => false

/-- The positions of the children in the order of a rule. -/
def positions (right : Bool) (n : Nat) : List Nat := if right then (List.range n).reverse else List.range n

/-- `find` and `invfind` (heads.py:68-83), the child as a position. -/
def HCfg.find (g : HCfg) (cs : List (PTree Ann)) (r : HRule) : Option Nat :=
  if r.dis then (positions r.right cs.length).find? fun i => r.heads.any fun h => g.matches (cs.getD i (.leaf 0)) h
  else r.heads.findSome? fun h => (positions r.right cs.length).find? fun i => g.matches (cs.getD i (.leaf 0)) h

/-- The loop over the rules (heads.py:95-107): the child found and the last direction. -/
def HCfg.tryRules (g : HCfg) (cs : List (PTree Ann)) : List HRule → Bool → Option Nat × Bool
  | [], right => (none, right)
  | r :: rs, _ => match g.find cs r with
    | some i => (some i, r.right)
    | none => g.tryRules cs rs r.right

/-- `Tree.__eq__`: labels and children. -/
def sameTree (c d : PTree Ann) : Bool := decide (c.mapLabel Ann.l = d.mapLabel Ann.l)

/-- The last part (heads.py:108-121). -/
def HCfg.choose (g : HCfg) (cs : List (PTree Ann)) : Option Nat × Bool → Nat
  | (none, right) => match (positions right cs.length).find? fun i => (cs.getD i (.leaf 0)).isNode && !g.ptag (lab (cs.getD i (.leaf 0))) with
    | some i => i
    | none => (positions right cs.length).headD 0
  | (some k, _) =>
    let i := cs.findIdx fun c => sameTree c (cs.getD k (.leaf 0))
    if 2 ≤ i ∧ (lab (cs.getD (i - 1) (.leaf 0)) = "CC".toList ∨ lab (cs.getD (i - 1) (.leaf 0)) = "CONJP".toList) then
      match (List.range (i - 1)).reverse.find? fun j => !(g.ptag (lab (cs.getD j (.leaf 0))) || g.pword (lab (cs.getD j (.leaf 0)))) with
      | some j => j
      | none => k
    else k

/-- `headfinder(tree, headrules)` (heads.py:66-121): the position of the head. -/
def HCfg.headfinder (g : HCfg) (l : Str) (cs : List (PTree Ann)) : Nat :=
  match cs.findIdx? isHead with
  | some i => i
  | none => match cs.findIdx? g.hasHD with
    | some i => i
    | none => g.choose cs (g.tryRules cs (g.rules l) false)

/-- `child.type = HEAD`. -/
def setHead : PTree Ann → PTree Ann
  | .leaf i => .leaf i
  | .node a cs => .node { a with head := true } cs

/-- `n and isinstance(n[0], Tree)`. -/
def phrasal : List (PTree Ann) → Bool
  | c :: _ => c.isNode
  | [] => false

mutual
/-- `applyheadrules(tree, headrules)` (heads.py:14-22). The traversal goes top down, but the marks that are set in a constituent do not
matter for the others. -/
def HCfg.apply (g : HCfg) : PTree Ann → PTree Ann
  | .leaf i => .leaf i
  | .node a cs => .node a (if phrasal cs then (g.applyL cs).modify (g.headfinder a.l cs) setHead else g.applyL cs)
/-- The same for a list of children. -/
def HCfg.applyL (g : HCfg) : List (PTree Ann) → List (PTree Ann)
  | [] => []
  | c :: cs => g.apply c :: g.applyL cs
end

/-- `getheadpos(node)` (heads.py:25-37), given the results for the children. -/
def headposStep (t : PTree Ann) (cs : List (PTree Ann)) (rs : List (Option (PTree Ann))) : Option (PTree Ann) :=
  match cs with
  | [] => none
  | .leaf _ :: _ => some t
  | _ => match cs.findIdx? isHead with
    | none => none
    | some k => (rs[k]?).getD none

mutual
/-- `getheadpos(node)` (heads.py:25-37). -/
def getheadpos : PTree Ann → Option (PTree Ann)
  | .leaf _ => none
  | .node a cs => headposStep (.node a cs) cs (getheadposL cs)
/-- The results for a list of children. -/
def getheadposL : List (PTree Ann) → List (Option (PTree Ann))
  | [] => []
  | c :: cs => getheadpos c :: getheadposL cs
end

/-! ### Specification -/

mutual
/-- `t'` is `t` where in each constituent without a head child one child has been marked as head. -/
def Spec.Marked : PTree Ann → PTree Ann → Prop
  | .leaf i, t' => t' = .leaf i
  | .node a cs, t' => ∃ ds, Spec.MarkedL cs ds ∧
      ((phrasal cs = false ∨ (∃ c ∈ cs, isHead c = true)) ∧ t' = .node a ds ∨
       phrasal cs = true ∧ (∀ c ∈ cs, isHead c = false) ∧ ∃ k, k < cs.length ∧ t' = .node a (ds.modify k setHead))
/-- The same for lists. -/
def Spec.MarkedL : List (PTree Ann) → List (PTree Ann) → Prop
  | [], ds => ds = []
  | c :: cs, ds => ∃ d ds', Spec.Marked c d ∧ Spec.MarkedL cs ds' ∧ ds = d :: ds'
end

/-! ### Proofs -/

theorem positions_lt {r : Bool} {n i : Nat} (h : i ∈ positions r n) : i < n := by
  unfold positions at h
  split at h
  · simpa using h
  · simpa using h

theorem find_lt {g : HCfg} {cs : List (PTree Ann)} {r : HRule} {i : Nat} (h : g.find cs r = some i) : i < cs.length := by
  unfold HCfg.find at h
  split at h
  · exact positions_lt (List.mem_of_find?_eq_some h)
  · obtain ⟨hd, -, h⟩ := List.exists_of_findSome?_eq_some h
    exact positions_lt (List.mem_of_find?_eq_some h)

theorem tryRules_lt {g : HCfg} {cs : List (PTree Ann)} {rs : List HRule} {b b' : Bool} {i : Nat} (h : g.tryRules cs rs b = (some i, b')) : i < cs.length := by
  induction rs generalizing b with
  | nil => cases h
  | cons r rs ih =>
    rw [HCfg.tryRules] at h
    split at h
    next j hj => cases h; exact find_lt hj
    · exact ih h

/-- The head is a child. -/
theorem headfinder_lt (g : HCfg) (l : Str) {cs : List (PTree Ann)} (hne : cs ≠ []) : g.headfinder l cs < cs.length := by
  unfold HCfg.headfinder
  split
  next i hi =>
    obtain ⟨xs, c, ys, rfl, rfl, -⟩ := findIdx_split hi
    simp
  · split
    next i hi => exact (List.findIdx?_eq_some_iff_getElem.1 hi).1
    · have hpos := List.length_pos_of_ne_nil hne
      generalize hx : g.tryRules cs (g.rules l) false = x
      obtain ⟨o, b⟩ := x
      cases o with
      | none =>
        rw [HCfg.choose]
        split
        next i hi => exact positions_lt (List.mem_of_find?_eq_some hi)
        · cases hp : positions b cs.length with
          | nil => simpa using hpos
          | cons p ps => simpa using positions_lt (r := b) (n := cs.length) (i := p) (by rw [hp]; simp)
      | some k =>
        have hk := tryRules_lt hx
        rw [HCfg.choose]
        split
        · split
          next h1 j hj =>
            have hj' := List.mem_of_find?_eq_some hj
            simp only [List.mem_reverse, List.mem_range] at hj'
            have hi : (cs.findIdx fun c => sameTree c (cs.getD k (.leaf 0))) < cs.length := by
              rw [List.findIdx_lt_length]
              refine ⟨cs[k], List.getElem_mem hk, ?_⟩
              simp [sameTree, List.getD, hk]
            omega
          · exact hk
        · exact hk

theorem isHead_apply (g : HCfg) (c : PTree Ann) : isHead (g.apply c) = isHead c := by
  cases c with
  | leaf => rfl
  | node a cs => rw [HCfg.apply]; rfl

theorem applyL_eq (g : HCfg) (cs : List (PTree Ann)) : g.applyL cs = cs.map g.apply := by
  induction cs with
  | nil => rfl
  | cons c cs ih => rw [HCfg.applyL, ih]; rfl

theorem modify_head {cs : List (PTree Ann)} {k : Nat} (hk : k < cs.length) (h : ∀ (a : Ann) ds, cs[k]? = some (.node a ds) → a.head = true) : cs.modify k setHead = cs := by
  apply List.ext_getElem?
  intro i
  rw [List.getElem?_modify]
  by_cases hi : k = i
  · subst hi
    rw [List.getElem?_eq_getElem hk]
    simp only [if_true, Option.map_eq_map, Option.map_some, Option.some.injEq]
    cases hc : cs[k] with
    | leaf => rfl
    | node a ds =>
      have := h a ds (by rw [List.getElem?_eq_getElem hk, hc])
      simp only [setHead]
      congr 1
      cases a
      simp only at this
      rw [this]
  · simp [hi]

mutual
theorem marked_apply (g : HCfg) : (t : PTree Ann) → Spec.Marked t (g.apply t)
  | .leaf i => by rw [Spec.Marked]; rfl
  | .node a cs => by
    rw [Spec.Marked, HCfg.apply]
    refine ⟨g.applyL cs, marked_applyL g cs, ?_⟩
    by_cases hp : phrasal cs = true
    · rw [if_pos hp]
      have hne : cs ≠ [] := by rintro rfl; cases hp
      by_cases hh : ∃ c ∈ cs, isHead c = true
      · refine .inl ⟨.inr hh, ?_⟩
        congr 1
        obtain ⟨c, hc, hch⟩ := hh
        have hf : (cs.findIdx? isHead).isSome := by
          rw [List.findIdx?_isSome]; exact List.any_eq_true.2 ⟨c, hc, hch⟩
        obtain ⟨k, hk⟩ := Option.isSome_iff_exists.1 hf
        have hkf : g.headfinder a.l cs = k := by unfold HCfg.headfinder; rw [hk]
        rw [hkf]
        obtain ⟨hlt, hkh, -⟩ := List.findIdx?_eq_some_iff_getElem.1 hk
        apply modify_head
        · rw [applyL_eq]; simpa using hlt
        · intro b ds hb
          rw [applyL_eq, List.getElem?_map, List.getElem?_eq_getElem hlt] at hb
          simp only [Option.map_some, Option.some.injEq] at hb
          have := isHead_apply g cs[k]
          rw [hb, hkh] at this
          exact this
      · refine .inr ⟨hp, ?_, g.headfinder a.l cs, headfinder_lt g a.l hne, rfl⟩
        intro c hc
        cases h : isHead c with
        | false => rfl
        | true => exact absurd ⟨c, hc, h⟩ hh
    · rw [if_neg hp]
      exact .inl ⟨.inl (by simpa using hp), rfl⟩
theorem marked_applyL (g : HCfg) : (cs : List (PTree Ann)) → Spec.MarkedL cs (g.applyL cs)
  | [] => by rw [Spec.MarkedL]; rfl
  | c :: cs => by
    rw [Spec.MarkedL]
    exact ⟨g.apply c, g.applyL cs, marked_apply g c, marked_applyL g cs, rfl⟩
end

/-- `applyheadrules` marks one child as head in each constituent without a head child, and changes nothing else, whatever the rules. -/
theorem C36_headrules (g : HCfg) (t : PTree Ann) : Spec.Marked t (g.apply t) := marked_apply g t

theorem isNode_apply (g : HCfg) (c : PTree Ann) : (g.apply c).isNode = c.isNode := by
  cases c with
  | leaf => rfl
  | node a cs => rw [HCfg.apply]; rfl

theorem setHead_subtrees {d s : PTree Ann} (h : s ∈ subtrees (setHead d)) : s ∈ subtrees d ∨ (s = setHead d ∧ d.isNode = true) := by
  cases d with
  | leaf => exact .inl h
  | node a cs =>
    simp only [setHead, subtrees_node, List.mem_cons] at h
    rcases h with rfl | h
    · exact .inr ⟨rfl, rfl⟩
    · exact .inl (by rw [subtrees_node]; exact List.mem_cons_of_mem _ h)

theorem setHead_shape {d : PTree Ann} (h : Spec.Shape d) : Spec.Shape (setHead d) := by
  rcases h with ⟨a, i, rfl⟩ | ⟨a, cs, rfl, h1, h2⟩
  · exact .inl ⟨_, _, rfl⟩
  · exact .inr ⟨_, _, rfl, h1, h2⟩

theorem setHead_headed {d : PTree Ann} (h : Spec.Headed d) : Spec.Headed (setHead d) := by
  rcases h with ⟨a, i, rfl⟩ | ⟨c, hc, hh⟩
  · exact .inl ⟨_, _, rfl⟩
  · cases d with
    | leaf => cases hc
    | node a cs => exact .inr ⟨c, hc, hh⟩

/-- After `applyheadrules` there is a head child everywhere. -/
theorem headed_apply (g : HCfg) (t : PTree Ann) : (∀ s ∈ subtrees t, Spec.Shape s) → ∀ s ∈ subtrees (g.apply t), Spec.Shape s ∧ Spec.Headed s := by
  induction t using PTree.ind with
  | hleaf i => intro _ s hs; rw [HCfg.apply] at hs; simp at hs
  | hnode a cs ih =>
    intro hs s hs'
    rcases shape_cases (hs (.node a cs) (by simp)) with ⟨i, rfl⟩ | ⟨hne, hcs⟩
    · rw [HCfg.apply] at hs'
      simp only [phrasal, isNode, HCfg.applyL, HCfg.apply, Bool.false_eq_true, if_false, subtrees_node, subtreesL_cons, subtrees_leaf, subtreesL_nil,
        List.append_nil, List.mem_singleton] at hs'
      subst hs'
      exact ⟨.inl ⟨_, _, rfl⟩, .inl ⟨_, _, rfl⟩⟩
    · have hp : phrasal cs = true := by
        cases cs with
        | nil => exact absurd rfl hne
        | cons c cs => exact hcs c (by simp)
      have hlt := headfinder_lt g a.l hne
      have happ : g.apply (.node a cs) = .node a ((cs.map g.apply).modify (g.headfinder a.l cs) setHead) := by
        rw [HCfg.apply, if_pos hp, applyL_eq]
      have hmem : ∀ d ∈ (cs.map g.apply).modify (g.headfinder a.l cs) setHead, ∃ c ∈ cs, d = g.apply c ∨ d = setHead (g.apply c) := by
        intro d hd
        obtain ⟨k, hk⟩ := List.mem_iff_getElem?.1 hd
        rw [List.getElem?_modify, List.getElem?_map] at hk
        cases hck : cs[k]? with
        | none => rw [hck] at hk; simp at hk
        | some c =>
          rw [hck] at hk
          refine ⟨c, List.mem_of_getElem? hck, ?_⟩
          simp only [Option.map_some, Option.map_eq_map, Option.some.injEq] at hk
          split at hk
          · exact .inr hk.symm
          · exact .inl hk.symm
      rw [happ, subtrees_node, List.mem_cons] at hs'
      rcases hs' with rfl | hs'
      · refine ⟨.inr ⟨_, _, rfl, ?_, ?_⟩, .inr ?_⟩
        · intro he
          have := congrArg List.length he
          simp at this
          exact hne this
        · intro d hd
          obtain ⟨c, hc, rfl | rfl⟩ := hmem d hd
          · rw [isNode_apply]; exact hcs c hc
          · have := hcs c hc
            rw [← isNode_apply g c] at this
            cases h : g.apply c with
            | leaf => rw [h] at this; cases this
            | node => rfl
        · refine ⟨setHead (g.apply cs[g.headfinder a.l cs]), ?_, ?_⟩
          · simp only [children]
            refine List.mem_of_getElem? (i := g.headfinder a.l cs) ?_
            rw [List.getElem?_modify, List.getElem?_map, List.getElem?_eq_getElem hlt]
            simp
          · have := hcs _ (List.getElem_mem hlt)
            rw [← isNode_apply g] at this
            cases h : g.apply cs[g.headfinder a.l cs] with
            | leaf => rw [h] at this; cases this
            | node => rfl
      · obtain ⟨d, hd, hs'⟩ := mem_subtreesL.1 hs'
        obtain ⟨c, hc, rfl | rfl⟩ := hmem d hd
        · exact ih c hc (fun s h => hs s (mem_children_subtrees hc h)) s hs'
        · have ihc := ih c hc (fun s h => hs s (mem_children_subtrees hc h))
          rcases setHead_subtrees hs' with h | ⟨rfl, hn⟩
          · exact ihc s h
          · have hself : g.apply c ∈ subtrees (g.apply c) := by
              cases h : g.apply c with
              | leaf => rw [h] at hn; cases hn
              | node => simp
            exact ⟨setHead_shape (ihc _ hself).1, setHead_headed (ihc _ hself).2⟩

/-- After `applyheadrules`, `dependencies` succeeds, for any head rules. -/
theorem C36_headrules_total (g : HCfg) (root : PTree Ann) (hs : ∀ s ∈ subtrees root, Spec.Shape s) (hph : phrasal root.children = true) :
    ∃ deps, dependencies (g.apply root) = some deps := by
  have hall := headed_apply g root hs
  cases root with
  | leaf i => cases hph
  | node a cs =>
    replace hph : phrasal cs = true := hph
    have hself : g.apply (.node a cs) ∈ subtrees (g.apply (.node a cs)) := by rw [HCfg.apply]; simp
    have hsub : ∀ s ∈ subtreesL (g.apply (.node a cs)).children, s ∈ subtrees (g.apply (.node a cs)) := by
      intro s h
      rw [HCfg.apply] at h ⊢
      rw [subtrees_node]
      exact List.mem_cons_of_mem _ h
    refine (C36_total ?_ fun s h => (hall s (hsub s h)).1).2 fun s h => (hall s (hsub s h)).2
    intro c hc
    rcases (hall _ hself).1 with ⟨b, i, he⟩ | ⟨b, ds, he, -, hds⟩
    · exfalso
      rw [HCfg.apply, if_pos hph] at he
      simp only [PTree.node.injEq] at he
      cases cs with
      | nil => cases hph
      | cons c0 cs =>
        have hl := congrArg List.length he.2
        simp only [List.length_modify, applyL_eq, List.length_map, List.length_cons, List.length_nil] at hl
        have hcs : cs = [] := List.eq_nil_of_length_eq_zero (by omega)
        subst hcs
        have hlt := headfinder_lt g a.l (cs := [c0]) (by simp)
        simp only [List.length_cons, List.length_nil] at hlt
        have h0 : g.headfinder a.l [c0] = 0 := by omega
        rw [h0] at he
        simp only [applyL_eq, List.map_cons, List.map_nil] at he
        have he2 := he.2
        simp only [List.modify_zero_cons, List.cons.injEq, and_true] at he2
        have hn : c0.isNode = true := hph
        rw [← isNode_apply g] at hn
        cases h : g.apply c0 with
        | leaf => rw [h] at hn; cases hn
        | node => rw [h] at he2; cases he2
    · rw [he] at hc
      exact hds c hc

theorem getheadposL_eq (cs : List (PTree Ann)) : getheadposL cs = cs.map getheadpos := by
  induction cs with
  | nil => rfl
  | cons c cs ih => rw [getheadposL, ih]; rfl

/-- `getheadpos` returns the preterminal of the lexical head. -/
theorem C36_getheadpos (t : PTree Ann) : t.isNode = true → (∀ s ∈ subtrees t, Spec.Shape s ∧ Spec.Headed s) →
    ∃ a i, getheadpos t = some (.node a [.leaf i]) ∧ .node a [.leaf i] ∈ subtrees t ∧ Spec.Lex t i := by
  induction t using PTree.ind with
  | hleaf i => intro h; cases h
  | hnode a cs ih =>
    intro _ hs
    rcases shape_cases (hs (.node a cs) (by simp)).1 with ⟨i, rfl⟩ | ⟨hne, hcs⟩
    · exact ⟨a, i, by rw [getheadpos]; rfl, by simp, .word⟩
    · have hex : ∃ c ∈ cs, isHead c = true := by
        rcases (hs (.node a cs) (by simp)).2 with ⟨a', i, h⟩ | h
        · cases h
          have := hcs (.leaf i) (by simp)
          cases this
        · exact h
      obtain ⟨c, hc, hch⟩ := hex
      have hf : (cs.findIdx? isHead).isSome := by
        rw [List.findIdx?_isSome]; exact List.any_eq_true.2 ⟨c, hc, hch⟩
      obtain ⟨k, hk⟩ := Option.isSome_iff_exists.1 hf
      have hst : getheadpos (.node a cs) = ((getheadposL cs)[k]?).getD none := by
        rw [getheadpos]
        unfold headposStep
        split
        · exact absurd rfl hne
        · have := hcs _ List.mem_cons_self; cases this
        · rw [hk]
      obtain ⟨xs, c, ys, rfl, rfl, h1, h2⟩ := findIdx_split hk
      obtain ⟨b, i, e1, e2, e3⟩ := ih c (by simp) (hcs c (by simp)) fun s h => hs s (mem_children_subtrees (by simp) h)
      refine ⟨b, i, ?_, mem_children_subtrees (by simp) e2, .step h1 h2 e3⟩
      rw [hst, getheadposL_eq, List.getElem?_map, List.getElem?_append_right (Nat.le_refl _)]
      simp [e1]

/-! ### Which child is the head -/

/-- Child `j` comes before child `i` in the direction of a rule. -/
def Spec.Before (right : Bool) (j i : Nat) : Prop := if right then i < j else j < i

/-- `i` is the first position with a property. -/
theorem positions_find {r : Bool} {n : Nat} {P : Nat → Bool} {i : Nat} :
    (positions r n).find? P = some i ↔ i < n ∧ P i = true ∧ ∀ j, j < n → Spec.Before r j i → P j = false := by
  have hl : ∀ m, (List.range m).find? P = some i ↔ i < m ∧ P i = true ∧ ∀ j, j < m → j < i → P j = false := by
    intro m
    induction m with
    | zero => simp
    | succ m ih =>
      rw [List.range_succ, List.find?_append, Option.or_eq_some_iff]
      constructor
      · rintro (h | ⟨h, h'⟩)
        · obtain ⟨h1, h2, h3⟩ := ih.1 h
          exact ⟨by omega, h2, fun j hj hji => h3 j (by omega) hji⟩
        · have hPm := List.find?_some h'
          have hm := List.mem_of_find?_eq_some h'
          simp only [List.mem_singleton] at hm
          subst hm
          refine ⟨by omega, hPm, fun j _ hji => ?_⟩
          have := List.find?_eq_none.1 h j (by simpa using hji)
          simpa using this
      · rintro ⟨h1, h2, h3⟩
        by_cases hi : i < m
        · exact .inl (ih.2 ⟨hi, h2, fun j hj hji => h3 j (by omega) hji⟩)
        · have : i = m := by omega
          subst this
          refine .inr ⟨List.find?_eq_none.2 fun j hj => ?_, by simp [h2]⟩
          have hj' : j < i := by simpa using hj
          simp [h3 j (by omega) hj']
  have hrv : ∀ m, (List.range m).reverse.find? P = some i ↔ i < m ∧ P i = true ∧ ∀ j, j < m → i < j → P j = false := by
    intro m
    induction m with
    | zero => simp
    | succ m ih =>
      rw [List.range_succ, List.reverse_append, List.reverse_cons, List.reverse_nil, List.nil_append, List.singleton_append, List.find?_cons]
      cases hP : P m with
      | true =>
        simp only [Option.some.injEq]
        constructor
        · rintro rfl; exact ⟨by omega, hP, fun j hj hij => by omega⟩
        · rintro ⟨h1, h2, h3⟩
          by_contra hne
          have := h3 m (by omega) (by omega)
          rw [hP] at this; cases this
      | false =>
        simp only
        rw [ih]
        constructor
        · rintro ⟨h1, h2, h3⟩
          refine ⟨by omega, h2, fun j hj hij => ?_⟩
          by_cases hjm : j = m
          · rw [hjm]; exact hP
          · exact h3 j (by omega) hij
        · rintro ⟨h1, h2, h3⟩
          have : i ≠ m := by rintro rfl; rw [hP] at h2; cases h2
          exact ⟨by omega, h2, fun j hj hij => h3 j (by omega) hij⟩
  unfold positions Spec.Before
  cases r with
  | true => simpa using hrv n
  | false => simpa using hl n

/-- The label of a child up to `[`, in upper case. -/
def Spec.key (g : HCfg) (c : PTree Ann) : Str := g.upper ((lab c).takeWhile (· ≠ '['))

/-- A rule finds child `i`. For `LEFT(-TO-RIGHT)` and `RIGHT(-TO-LEFT)`: the first label in the list that occurs decides, then the first
child with that label in the direction of the rule. For `LEFTDIS` and `RIGHTDIS`: the first child with one of the labels. -/
def Spec.Finds (g : HCfg) (cs : List (PTree Ann)) (r : HRule) (i : Nat) : Prop :=
  i < cs.length ∧
  if r.dis then
    Spec.key g (cs.getD i (.leaf 0)) ∈ r.heads ∧ ∀ j, j < cs.length → Spec.Before r.right j i → Spec.key g (cs.getD j (.leaf 0)) ∉ r.heads
  else
    ∃ hs h hs', r.heads = hs ++ h :: hs' ∧ Spec.key g (cs.getD i (.leaf 0)) = h ∧ (∀ c ∈ cs, Spec.key g c ∉ hs) ∧
      ∀ j, j < cs.length → Spec.Before r.right j i → Spec.key g (cs.getD j (.leaf 0)) ≠ h

theorem getD_elem {cs : List (PTree Ann)} {j : Nat} (h : j < cs.length) : cs.getD j (.leaf 0) = cs[j] := by
  simp [List.getD, h]

theorem getD_mem {cs : List (PTree Ann)} {j : Nat} (h : j < cs.length) : cs.getD j (.leaf 0) ∈ cs := by
  rw [getD_elem h]; exact List.getElem_mem h

theorem positions_mem {r : Bool} {n i : Nat} : i ∈ positions r n ↔ i < n := by
  unfold positions; split <;> simp

/-- A rule finds the child it should find. -/
theorem C36_rule (g : HCfg) (cs : List (PTree Ann)) (r : HRule) (i : Nat) : g.find cs r = some i ↔ Spec.Finds g cs r i := by
  unfold HCfg.find Spec.Finds
  split
  · rw [positions_find]
    have hk : ∀ j, (r.heads.any fun h => g.matches (cs.getD j (.leaf 0)) h) = true ↔ Spec.key g (cs.getD j (.leaf 0)) ∈ r.heads := by
      intro j
      rw [List.any_eq_true]
      constructor
      · rintro ⟨h, hh, hm⟩
        have : Spec.key g (cs.getD j (.leaf 0)) = h := by simpa [HCfg.matches, Spec.key] using hm
        rw [this]; exact hh
      · intro hm
        exact ⟨_, hm, by simp [HCfg.matches, Spec.key]⟩
    rw [hk]
    refine and_congr_right fun _ => and_congr_right fun _ => forall_congr' fun j => imp_congr_right fun _ => imp_congr_right fun _ => ?_
    rw [← hk, Bool.not_eq_true]
  · generalize hH : r.heads = H
    clear hH
    induction H with
    | nil => simp
    | cons h H ih =>
      rw [List.findSome?_cons]
      have hm : ∀ j, g.matches (cs.getD j (.leaf 0)) h = true ↔ Spec.key g (cs.getD j (.leaf 0)) = h := by
        intro j; simp [HCfg.matches, Spec.key]
      cases hf : (positions r.right cs.length).find? (fun i => g.matches (cs.getD i (.leaf 0)) h) with
      | some k =>
        obtain ⟨k1, k2, k3⟩ := positions_find.1 hf
        simp only [Option.some.injEq]
        constructor
        · rintro rfl
          exact ⟨k1, [], h, H, rfl, (hm _).1 k2, by simp, fun j hj hb he => by have := k3 j hj hb; rw [(hm j).2 he] at this; cases this⟩
        · rintro ⟨h1, hs, h', hs', he, hk, hno, hfirst⟩
          cases hs with
          | nil =>
            simp only [List.nil_append, List.cons.injEq] at he
            obtain ⟨rfl, rfl⟩ := he
            have := (positions_find (P := fun i => g.matches (cs.getD i (.leaf 0)) h)).2 ⟨h1, (hm i).2 hk, fun j hj hb => by
              cases hx : g.matches (cs.getD j (.leaf 0)) h with
              | false => rfl
              | true => exact absurd ((hm j).1 hx) (hfirst j hj hb)⟩
            rw [hf] at this
            simpa using this
          | cons x hs =>
            simp only [List.cons_append, List.cons.injEq] at he
            exact absurd (by rw [(hm k).1 k2, he.1]; simp) (hno _ (getD_mem k1))
      | none =>
        simp only
        have hnone : ∀ j, j < cs.length → Spec.key g (cs.getD j (.leaf 0)) ≠ h := by
          intro j hj he
          have := List.find?_eq_none.1 hf j (positions_mem.2 hj)
          exact this ((hm j).2 he)
        rw [ih]
        refine and_congr_right fun hi => ?_
        constructor
        · rintro ⟨hs, h', hs', rfl, hk, hno, hfirst⟩
          refine ⟨h :: hs, h', hs', rfl, hk, ?_, hfirst⟩
          intro c hc hmem
          obtain ⟨j, hj, rfl⟩ := List.mem_iff_getElem.1 hc
          rcases List.mem_cons.1 hmem with he | hmem
          · exact hnone j hj (by rw [getD_elem hj]; exact he)
          · exact hno _ hc hmem
        · rintro ⟨hs, h', hs', he, hk, hno, hfirst⟩
          cases hs with
          | nil =>
            simp only [List.nil_append, List.cons.injEq] at he
            exact absurd (by rw [hk, he.1]) (hnone i hi)
          | cons x hs =>
            simp only [List.cons_append, List.cons.injEq] at he
            exact ⟨hs, h', hs', he.2, hk, fun c hc hmem => hno c hc (List.mem_cons_of_mem _ hmem), hfirst⟩

theorem tryRules_found {g : HCfg} {cs : List (PTree Ann)} {rs1 rs2 : List HRule} {r : HRule} {b : Bool} {k : Nat} (h1 : ∀ r' ∈ rs1, ∀ i, ¬ Spec.Finds g cs r' i)
    (h2 : Spec.Finds g cs r k) : g.tryRules cs (rs1 ++ r :: rs2) b = (some k, r.right) := by
  induction rs1 generalizing b with
  | nil => rw [List.nil_append, HCfg.tryRules, (C36_rule g cs r k).2 h2]
  | cons r' rs1 ih =>
    rw [List.cons_append, HCfg.tryRules]
    cases hf : g.find cs r' with
    | some i => exact absurd ((C36_rule g cs r' i).1 hf) (h1 r' (by simp) i)
    | none => exact ih fun r'' h => h1 r'' (by simp [h])

theorem tryRules_none {g : HCfg} {cs : List (PTree Ann)} {rs : List HRule} {b : Bool} (h1 : ∀ r' ∈ rs, ∀ i, ¬ Spec.Finds g cs r' i) :
    g.tryRules cs rs b = (none, ((rs.map HRule.right).getLast?).getD b) := by
  induction rs generalizing b with
  | nil => rfl
  | cons r' rs ih =>
    rw [HCfg.tryRules]
    cases hf : g.find cs r' with
    | some i => exact absurd ((C36_rule g cs r' i).1 hf) (h1 r' (by simp) i)
    | none =>
      simp only
      rw [ih fun r'' h => h1 r'' (by simp [h]), List.map_cons]
      cases hr : rs.map HRule.right with
      | nil => rfl
      | cons x xs => rw [List.getLast?_cons_cons]; simp [List.getLast?_eq_some_getLast]

/-- A rule applies: the head is the child found by the first rule that finds one; but in a coordination (the child is preceded by a
conjunction that is not the first child) it is the last child before the conjunction that is not punctuation, if there is one. -/
theorem C36_headfinder_rule (g : HCfg) (l : Str) (cs : List (PTree Ann)) (h0 : ∀ c ∈ cs, isHead c = false ∧ g.hasHD c = false)
    (rs1 rs2 : List HRule) (r : HRule) (hr : g.rules l = rs1 ++ r :: rs2) (h1 : ∀ r' ∈ rs1, ∀ i, ¬ Spec.Finds g cs r' i) (k : Nat) (h2 : Spec.Finds g cs r k)
    (hdiff : ∀ j, j < k → (cs.getD j (.leaf 0)).mapLabel Ann.l ≠ (cs.getD k (.leaf 0)).mapLabel Ann.l) :
    (¬ (2 ≤ k ∧ (lab (cs.getD (k - 1) (.leaf 0)) = "CC".toList ∨ lab (cs.getD (k - 1) (.leaf 0)) = "CONJP".toList)) → g.headfinder l cs = k) ∧
    (2 ≤ k ∧ (lab (cs.getD (k - 1) (.leaf 0)) = "CC".toList ∨ lab (cs.getD (k - 1) (.leaf 0)) = "CONJP".toList) →
      (∃ j, j + 2 ≤ k ∧ g.headfinder l cs = j ∧ g.ptag (lab (cs.getD j (.leaf 0))) = false ∧ g.pword (lab (cs.getD j (.leaf 0))) = false ∧
        ∀ m, j < m → m + 2 ≤ k → g.ptag (lab (cs.getD m (.leaf 0))) = true ∨ g.pword (lab (cs.getD m (.leaf 0))) = true) ∨
      (g.headfinder l cs = k ∧ ∀ m, m + 2 ≤ k → g.ptag (lab (cs.getD m (.leaf 0))) = true ∨ g.pword (lab (cs.getD m (.leaf 0))) = true)) := by
  have hhf : g.headfinder l cs = g.choose cs (some k, r.right) := by
    unfold HCfg.headfinder
    rw [List.findIdx?_eq_none_iff.2 (fun c hc => (h0 c hc).1), List.findIdx?_eq_none_iff.2 (fun c hc => (h0 c hc).2), hr, tryRules_found h1 h2]
  have hk : k < cs.length := h2.1
  have hidx : (cs.findIdx fun c => sameTree c (cs.getD k (.leaf 0))) = k := by
    rw [List.findIdx_eq hk]
    refine ⟨by simp [sameTree, List.getD, hk], fun j hj => ?_⟩
    have := hdiff j hj
    rw [getD_elem (by omega)] at this
    unfold sameTree
    exact decide_eq_false this
  rw [hhf, HCfg.choose, hidx]
  constructor
  · intro hn; rw [if_neg hn]
  · intro hy
    rw [if_pos hy]
    have hpf := fun j => positions_find (r := true) (n := k - 1) (P := fun j => !(g.ptag (lab (cs.getD j (.leaf 0))) || g.pword (lab (cs.getD j (.leaf 0))))) (i := j)
    simp only [positions, if_true] at hpf
    split
    next j hj =>
      obtain ⟨j1, j2, j3⟩ := (hpf j).1 hj
      refine .inl ⟨j, by omega, rfl, ?_, ?_, ?_⟩
      · simp only [Bool.not_eq_true', Bool.or_eq_false_iff] at j2; exact j2.1
      · simp only [Bool.not_eq_true', Bool.or_eq_false_iff] at j2; exact j2.2
      · intro m hjm hm
        have := j3 m (by omega) (by unfold Spec.Before; simpa using hjm)
        simpa only [Bool.not_eq_false', Bool.or_eq_true] using this
    next hj =>
      refine .inr ⟨rfl, fun m hm => ?_⟩
      have := List.find?_eq_none.1 hj m (by simp; omega)
      simpa only [Bool.not_eq_true', Bool.not_eq_false, Bool.or_eq_true] using this

/-- No rule applies: the head is the first child that is not punctuation in the direction of the last rule, or else the first child in
that direction. -/
theorem C36_headfinder_default (g : HCfg) (l : Str) (cs : List (PTree Ann)) (hcs : ∀ c ∈ cs, c.isNode = true) (hne : cs ≠ [])
    (h0 : ∀ c ∈ cs, isHead c = false ∧ g.hasHD c = false) (h1 : ∀ r ∈ g.rules l, ∀ i, ¬ Spec.Finds g cs r i) (right : Bool)
    (hdir : right = (((g.rules l).map HRule.right).getLast?).getD false) :
    g.headfinder l cs < cs.length ∧
    ((g.ptag (lab (cs.getD (g.headfinder l cs) (.leaf 0))) = false ∧
        ∀ j, j < cs.length → Spec.Before right j (g.headfinder l cs) → g.ptag (lab (cs.getD j (.leaf 0))) = true) ∨
      ((∀ c ∈ cs, g.ptag (lab c) = true) ∧ ∀ j, j < cs.length → ¬ Spec.Before right j (g.headfinder l cs))) := by
  have hlt := headfinder_lt g l hne
  refine ⟨hlt, ?_⟩
  have hhf : g.headfinder l cs = g.choose cs (none, right) := by
    unfold HCfg.headfinder
    rw [List.findIdx?_eq_none_iff.2 (fun c hc => (h0 c hc).1), List.findIdx?_eq_none_iff.2 (fun c hc => (h0 c hc).2), tryRules_none h1, hdir]
  rw [hhf, HCfg.choose] at hlt ⊢
  have hn : ∀ j, j < cs.length → (cs.getD j (.leaf 0)).isNode = true := fun j hj => hcs _ (getD_mem hj)
  split
  next i hi =>
    obtain ⟨i1, i2, i3⟩ := positions_find.1 hi
    left
    simp only [hn i i1, Bool.true_and, Bool.not_eq_true'] at i2
    refine ⟨i2, fun j hj hb => ?_⟩
    have := i3 j hj hb
    simp only [hn j hj, Bool.true_and, Bool.not_eq_false'] at this
    exact this
  next hi =>
    right
    refine ⟨?_, ?_⟩
    · intro c hc
      obtain ⟨j, hj, rfl⟩ := List.mem_iff_getElem.1 hc
      have := List.find?_eq_none.1 hi j (positions_mem.2 hj)
      rw [hn j hj, getD_elem hj] at this
      simpa using this
    · intro j hj hb
      have hpos := List.length_pos_of_ne_nil hne
      unfold Spec.Before at hb
      cases right with
      | true =>
        simp only [if_true, positions] at hb
        have : (List.range cs.length).reverse.headD 0 = cs.length - 1 := by
          obtain ⟨m, hm⟩ : ∃ m, cs.length = m + 1 := ⟨cs.length - 1, by omega⟩
          rw [hm, List.range_succ]; simp
        rw [this] at hb
        omega
      | false =>
        simp only [Bool.false_eq_true, if_false, positions] at hb
        have : (List.range cs.length).headD 0 = 0 := by
          obtain ⟨m, hm⟩ : ∃ m, cs.length = m + 1 := ⟨cs.length - 1, by omega⟩
          rw [hm, List.range_succ_eq_map]; rfl
        rw [this] at hb
        omega

/-- A child that is already marked, or else one with the function tag `HD`, comes before all rules. -/
theorem C36_headfinder_marked (g : HCfg) (l : Str) (xs ys : List (PTree Ann)) (c : PTree Ann) :
    ((∀ x ∈ xs, isHead x = false) → isHead c = true → g.headfinder l (xs ++ c :: ys) = xs.length) ∧
    ((∀ x ∈ xs ++ c :: ys, isHead x = false) → (∀ x ∈ xs, g.hasHD x = false) → g.hasHD c = true → g.headfinder l (xs ++ c :: ys) = xs.length) := by
  unfold HCfg.headfinder
  refine ⟨fun h1 h2 => by rw [findIdx_of h1 h2], fun h0 h1 h2 => ?_⟩
  rw [List.findIdx?_eq_none_iff.2 h0]
  simp only
  have : (xs ++ c :: ys).findIdx? g.hasHD = some xs.length := by
    clear h0
    induction xs with
    | nil => simp [List.findIdx?_cons, h2]
    | cons x xs ih =>
      rw [List.cons_append, List.findIdx?_cons, h1 x (by simp), ih (fun y hy => h1 y (by simp [hy]))]
      simp
  rw [this]

/-- An example: PTB-like rules, with coordination. -/
def exCfg : HCfg := ⟨fun l => if l = "NP".toList then [⟨true, false, ["NN".toList]⟩] else [], id, fun l => decide (l = ",".toList), fun l => decide (l = ",".toList)⟩

/-- A constituent without heads: `(NP (NN 0) (, 1) (CC 2) (NN 3))`. -/
def exNP : PTree Ann := .node ⟨"NP".toList, false, none⟩ [.node ⟨"NN".toList, false, none⟩ [.leaf 0], .node ⟨",".toList, false, none⟩ [.leaf 1],
  .node ⟨"CC".toList, false, none⟩ [.leaf 2], .node ⟨"NN".toList, false, none⟩ [.leaf 3]]

example : exCfg.headfinder "NP".toList exNP.children = 0 := by decide +kernel
example : phrasal exNP.children = true ∧ dependencies (exCfg.apply (.node ⟨"ROOT".toList, false, none⟩ [exNP])) =
    some [(1, "root".toList, 0), (2, "-".toList, 1), (3, "-".toList, 1), (4, "-".toList, 1)] := by decide +kernel

end Disco.Deps
