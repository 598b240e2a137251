import Verif.Trees.PunctApply
/-!
# C48: the strategy `root`
-/
namespace Disco.Punct
open PTree

variable {L : Type}

/-! ### Specification -/

/-- The preterminals of the words that satisfy `p`, left to right. -/
def Spec.marks (p : Nat → Bool) (cs : List (PTree L)) : List (PTree L) :=
  (subtreesL cs).filter fun s => match s with
    | .node _ [.leaf i] => p i
    | _ => false

/-! ### Replacing a node -/

/-- A list of sisters in which the one at `i` is replaced or deleted. -/
def put (cs : List (PTree L)) (i : Nat) : Option (PTree L) → List (PTree L)
  | some d => cs.set i d
  | none => cs.eraseIdx i

/-- Replace or delete the node at the given position; empty ancestors are deleted, including the root. -/
def repl : PTree L → Path → Option (PTree L) → Option (PTree L)
  | _, [], r => r
  | .leaf i, _ :: _, _ => some (.leaf i)
  | .node l cs, i :: π, r => match cs[i]? with
    | none => some (.node l cs)
    | some c => if (put cs i (repl c π r)).isEmpty then none else some (.node l (put cs i (repl c π r)))

theorem get_cons {l : L} {cs : List (PTree L)} {i : Nat} {π : Path} {x : PTree L} (h : get (.node l cs) (i :: π) = some x) :
    ∃ c, cs[i]? = some c ∧ get c π = some x := by
  rw [get] at h
  cases hc : cs[i]? with
  | none => simp [hc] at h
  | some c => simp only [hc] at h; exact ⟨c, rfl, h⟩

theorem get_node {T x : PTree L} {i : Nat} {π : Path} (h : get T (i :: π) = some x) : ∃ l cs c, T = .node l cs ∧ cs[i]? = some c ∧ get c π = some x := by
  cases T with
  | leaf j => rw [get] at h; cases h
  | node l cs => obtain ⟨c, h1, h2⟩ := get_cons h; exact ⟨l, cs, c, rfl, h1, h2⟩

theorem repl_comp {T x : PTree L} {π : Path} (ρ : Path) (r : Option (PTree L)) (h : get T π = some x) : repl T (π ++ ρ) r = repl T π (repl x ρ r) := by
  induction π generalizing T with
  | nil => rw [get] at h; injection h with h; subst h; rw [repl, List.nil_append]
  | cons i π ih =>
    obtain ⟨l, cs, c, rfl, h1, h2⟩ := get_node h
    rw [List.cons_append, repl, repl]
    simp only [h1]
    rw [ih h2]

theorem get_append {T x : PTree L} {π : Path} (ρ : Path) (h : get T π = some x) : get T (π ++ ρ) = get x ρ := by
  induction π generalizing T with
  | nil => rw [get] at h; injection h with h; subst h; rw [List.nil_append]
  | cons i π ih =>
    obtain ⟨l, cs, c, rfl, h1, h2⟩ := get_node h
    rw [List.cons_append, get]
    simp only [h1]
    exact ih h2

theorem repl_some {T x : PTree L} {π : Path} (y : PTree L) (h : get T π = some x) :
    ∃ T', repl T π (some y) = some T' ∧ get T' π = some y ∧ (∀ r, repl T' π r = repl T π r) := by
  induction π generalizing T with
  | nil => exact ⟨y, by rw [repl], by rw [get], fun r => by rw [repl, repl]⟩
  | cons i π ih =>
    obtain ⟨l, cs, c, rfl, h1, h2⟩ := get_node h
    obtain ⟨T', h3, h4, h5⟩ := ih h2
    have hi : i < cs.length := (List.getElem?_eq_some_iff.1 h1).1
    refine ⟨.node l (cs.set i T'), ?_, ?_, ?_⟩
    · rw [repl]
      simp only [h1, h3, put]
      rw [if_neg]
      simp
      rintro rfl
      simp at hi
    · rw [get]
      simp [hi, h4]
    · intro r
      rw [repl, repl]
      simp only [List.getElem?_set_self hi, h1, h5]
      have e : ∀ o : Option (PTree L), put (cs.set i T') i o = put cs i o := by
        intro o
        cases o with
        | some d => simp [put]
        | none => simp only [put]; rw [List.eraseIdx_set_eq]
      rw [e]

theorem repl_self {T x : PTree L} {π : Path} (h : get T π = some x) : repl T π (some x) = some T := by
  induction π generalizing T with
  | nil => rw [get] at h; rw [repl, h]
  | cons i π ih =>
    obtain ⟨l, cs, c, rfl, h1, h2⟩ := get_node h
    have hi : i < cs.length := (List.getElem?_eq_some_iff.1 h1).1
    have hc := (List.getElem?_eq_some_iff.1 h1).2
    rw [repl]
    simp only [h1, ih h2, put]
    have : cs.set i c = cs := by rw [← hc]; exact List.set_getElem_self hi
    rw [this, if_neg]
    simp
    rintro rfl
    simp at hi

theorem repl_label {l : L} {cs : List (PTree L)} {i : Nat} {π : Path} {r : Option (PTree L)} {T' : PTree L} (h : repl (.node l cs) (i :: π) r = some T') :
    ∃ ds, T' = .node l ds := by
  rw [repl] at h
  split at h
  · injection h with h; exact ⟨_, h.symm⟩
  · split at h
    · cases h
    · injection h with h; exact ⟨_, h.symm⟩

theorem del_snoc {T : PTree L} {ρ : Path} {l : L} {ds : List (PTree L)} {i : Nat} (h : get T ρ = some (.node l ds)) (hi : i < ds.length) :
    del T (ρ ++ [i]) = repl T ρ (some (.node l (ds.eraseIdx i))) := by
  induction ρ generalizing T with
  | nil =>
    rw [get] at h
    injection h with h
    subst h
    rw [repl, List.nil_append, del]
    simp [hi]
  | cons j ρ ih =>
    obtain ⟨l', cs, c, rfl, h1, h2⟩ := get_node h
    have hj : j < cs.length := (List.getElem?_eq_some_iff.1 h1).1
    rw [List.cons_append, del, repl]
    simp only [h1]
    obtain ⟨k, q, e⟩ : ∃ k q, ρ ++ [i] = k :: q := by
      cases ρ with
      | nil => exact ⟨i, [], rfl⟩
      | cons a b => exact ⟨a, b ++ [i], rfl⟩
    rw [e]
    simp only
    rw [← e, ih h2]
    obtain ⟨T', h3, -, -⟩ := repl_some (.node l (ds.eraseIdx i)) h2
    rw [h3]
    simp only [Option.map_some]
    rw [if_neg]
    · rfl
    · simp [put]
      rintro rfl
      simp at hj

theorem prune_eq {l : L} {cs : List (PTree L)} {π : Path} {x : PTree L} (hne : π ≠ []) (h : get (.node l cs) π = some x) :
    prune (.node l cs) π.reverse = some ((repl (.node l cs) π none).getD (.node l [])) := by
  induction hn : π.length generalizing π cs x with
  | zero => exact absurd (List.length_eq_zero_iff.1 hn) hne
  | succ n ih =>
    obtain ⟨ρ, i, rfl⟩ : ∃ ρ i, π = ρ ++ [i] := ⟨π.dropLast, π.getLast hne, (List.dropLast_append_getLast hne).symm⟩
    have hg : ∃ l0 ds, get (.node l cs) ρ = some (.node l0 ds) ∧ i < ds.length := by
      cases hg : get (.node l cs) ρ with
      | none =>
        exfalso
        have key : ∀ (T : PTree L) (ρ : Path), get T ρ = none → get T (ρ ++ [i]) = none := by
          intro T ρ
          induction ρ generalizing T with
          | nil => intro h; rw [get] at h; cases h
          | cons j ρ ih =>
            intro h
            cases T with
            | leaf k => rfl
            | node l cs =>
              rw [List.cons_append, get]
              rw [get] at h
              cases hc : cs[j]? with
              | none => rfl
              | some c => simp only [hc] at h ⊢; exact ih c h
        rw [key _ _ hg] at h; cases h
      | some y =>
        rw [get_append _ hg] at h
        obtain ⟨l0, ds, c, rfl, h1, h2⟩ := get_node h
        exact ⟨l0, ds, rfl, (List.getElem?_eq_some_iff.1 h1).1⟩
    obtain ⟨l0, ds, hg, hi⟩ := hg
    rw [List.reverse_append, List.reverse_singleton, List.singleton_append, prune, List.reverse_reverse, del_snoc hg hi]
    obtain ⟨T', h1, h2, h3⟩ := repl_some (.node l0 (ds.eraseIdx i)) hg
    rw [h1]
    simp only
    have hcomp : repl (.node l cs) (ρ ++ [i]) none = repl (.node l cs) ρ (if (ds.eraseIdx i).isEmpty then none else some (.node l0 (ds.eraseIdx i))) := by
      rw [repl_comp _ _ hg]
      congr 1
      rw [repl]
      simp only [List.getElem?_eq_getElem hi, repl, put]
      rfl
    by_cases hρ : ρ = []
    · subst hρ
      rw [if_pos (by simp)]
      rw [hcomp, repl]
      rw [get] at hg
      injection hg with hg
      injection hg with e1 e2
      subst e1; subst e2
      rw [repl] at h1
      injection h1 with h1
      subst h1
      by_cases he : cs.eraseIdx i = []
      · rw [he]; rfl
      · rw [if_neg (by simpa using he)]; rfl
    · rw [if_neg (by simpa using hρ), h2]
      by_cases he : ds.eraseIdx i = []
      · rw [he] at h1 h2 hcomp ⊢
        simp only [List.isEmpty_nil, if_true] at hcomp
        simp only
        obtain ⟨ds', rfl⟩ : ∃ ds', T' = .node l ds' := by
          cases ρ with
          | nil => exact absurd rfl hρ
          | cons j ρ => exact repl_label h1
        rw [ih hρ h2 (by simp at hn; omega), h3, hcomp]
      · rw [if_neg (by simpa using he)] at hcomp
        rw [hcomp, h1]
        cases h4 : ds.eraseIdx i with
        | nil => exact absurd h4 he
        | cons a b => rfl

/-! ### The loop -/

theorem leafPosL_eq (k : Nat) (cs : List (PTree L)) (c : PTree L) : leafPosL k (cs ++ [c]) = leafPosL k cs ++ (leafPos c).map ((k + cs.length) :: ·) := by
  induction cs generalizing k with
  | nil => simp [leafPosL]
  | cons d cs ih => rw [List.cons_append, leafPosL, leafPosL, ih, List.append_assoc, List.length_cons, show k + 1 + cs.length = k + (cs.length + 1) by omega]

theorem marks_append (p : Nat → Bool) (a b : List (PTree L)) : Spec.marks p (a ++ b) = Spec.marks p a ++ Spec.marks p b := by
  rw [Spec.marks, subtreesL_append, List.filter_append]; rfl

theorem rootLoop_append (tag : L → Str) (sent : List Str) (a b : List Path) (t : PTree L) (m : List (PTree L)) {t' : PTree L} {m' : List (PTree L)}
    (h : rootLoop tag sent a t m = some (t', m')) : rootLoop tag sent (a ++ b) t m = rootLoop tag sent b t' m' := by
  induction a generalizing t m with
  | nil => rw [rootLoop] at h; injection h with h; injection h with h1 h2; rw [h1, h2]; rfl
  | cons x a ih =>
    rw [List.cons_append, rootLoop.eq_def]
    rw [rootLoop.eq_def] at h
    simp only at h ⊢
    split at h
    · split at h
      · cases h
      · split at h
        · split at h
          · cases h
          · split at h
            · cases h
            · rename_i h1 h2 _ _ _ h3 h4 h5 _ _ h6
              simp only [h3, h4, h5, h6, if_true, if_false]
              exact ih _ _ h
        · rename_i h1 h2 _ _ _ h3 h4
          simp only [h3, h4, if_false, Bool.false_eq_true]
          exact ih _ _ h
    · cases h

/-- The words of a constituent with their preterminals are as described by `p`. -/
def Agrees (tag : L → Str) (sent : List Str) (p : Nat → Bool) (c : PTree L) : Prop :=
  ∀ l i, .node l [.leaf i] ∈ subtrees c → ∃ w, sent[i]? = some w ∧ p i = ispunct w (tag l)

theorem without_head (p : Nat → Bool) (c : PTree L) : (Spec.without p c).head?.toList = Spec.without p c := by
  cases c with
  | leaf i => rw [Spec.without]; split <;> rfl
  | node l cs => rw [Spec.without]; split <;> rfl

theorem put_append (a b : List (PTree L)) (c : PTree L) (r : Option (PTree L)) : put (a ++ c :: b) a.length r = a ++ (r.toList ++ b) := by
  cases r with
  | some d => simp [put]
  | none => simp [put, List.eraseIdx_append_of_length_le]

theorem repl_single (l0 : L) (a b : List (PTree L)) (c : PTree L) (r : Option (PTree L)) : repl (.node l0 (a ++ [c] ++ b)) [a.length] r =
    if a ++ (r.toList ++ b) = [] then none else some (.node l0 (a ++ (r.toList ++ b))) := by
  have hput := put_append a b c r
  rw [show a ++ c :: b = a ++ [c] ++ b by simp] at hput
  have h : (a ++ [c] ++ b)[a.length]? = some c := by simp
  rw [repl, h]
  show (if (put (a ++ [c] ++ b) a.length (repl c [] r)).isEmpty = true then none else some (PTree.node l0 (put (a ++ [c] ++ b) a.length (repl c [] r)))) = _
  rw [show repl c [] r = r by rw [repl], hput]
  by_cases he : a ++ (r.toList ++ b) = []
  · rw [if_pos he, if_pos (by rw [he]; rfl)]
  · rw [if_neg he, if_neg (by simpa only [List.isEmpty_iff] using he)]

theorem loop_sisters (tag : L → Str) (sent : List Str) (p : Nat → Bool) {l l0 : L} {as : List (PTree L)}
    (ih : ∀ c ∈ as, ∀ (cs : List (PTree L)) (π : Path) (m : List (PTree L)), π ≠ [] → get (.node l cs) π = some c →
      rootLoop tag sent ((leafPos c).map (π ++ ·)).reverse (.node l cs) m =
        some ((repl (.node l cs) π (Spec.without p c).head?).getD (.node l []), m ++ (Spec.marks p [c]).reverse)) :
    ∀ (cs bs : List (PTree L)) (π : Path) (m : List (PTree L)), π ≠ [] → as ++ bs ≠ [] → get (.node l cs) π = some (.node l0 (as ++ bs)) →
      rootLoop tag sent ((leafPosL 0 as).map (π ++ ·)).reverse (.node l cs) m =
        some ((repl (.node l cs) π (if Spec.withoutL p as ++ bs = [] then none else some (.node l0 (Spec.withoutL p as ++ bs)))).getD (.node l []),
          m ++ (Spec.marks p as).reverse) := by
  induction hn : as.length generalizing as with
  | zero =>
    rw [List.length_eq_zero_iff] at hn
    subst hn
    intro cs bs π m _ hne hg
    rw [List.nil_append] at hne hg
    rw [leafPosL, Spec.withoutL, List.nil_append, if_neg hne, repl_self hg]
    simp [rootLoop, Spec.marks]
  | succ n ihn =>
    have hne0 : as ≠ [] := by rintro rfl; simp at hn
    obtain ⟨as', c, rfl⟩ : ∃ as' c, as = as' ++ [c] := ⟨as.dropLast, as.getLast hne0, (List.dropLast_append_getLast hne0).symm⟩
    intro cs bs π m hπ hne hg
    have hg0 : get (.node l0 (as' ++ [c] ++ bs)) [as'.length] = some c := by simp [get]
    have hgc : get (.node l cs) (π ++ [as'.length]) = some c := by rw [get_append _ hg]; exact hg0
    have h1 := ih c (by simp) cs (π ++ [as'.length]) m (by simp) hgc
    rw [leafPosL_eq, List.map_append, List.reverse_append, List.map_map]
    have e : ((fun x => π ++ x) ∘ fun x => (0 + as'.length) :: x) = fun x => (π ++ [as'.length]) ++ x := by
      funext x; simp
    rw [e, rootLoop_append _ _ _ _ _ _ h1]
    have hcomp : repl (.node l cs) (π ++ [as'.length]) (Spec.without p c).head? = repl (.node l cs) π
        (if as' ++ (Spec.without p c ++ bs) = [] then none else some (.node l0 (as' ++ (Spec.without p c ++ bs)))) := by
      rw [repl_comp _ _ hg]
      congr 1
      rw [repl_single, without_head]
    rw [hcomp]
    have hw : Spec.withoutL p (as' ++ [c]) = Spec.withoutL p as' ++ Spec.without p c := by
      rw [withoutL_append]; simp [Spec.withoutL]
    rw [hw, marks_append, List.reverse_append, ← List.append_assoc m, List.append_assoc (Spec.withoutL p as')]
    by_cases hemp : as' ++ (Spec.without p c ++ bs) = []
    · have ha : as' = [] := (List.append_eq_nil_iff.1 hemp).1
      subst ha
      rw [List.nil_append] at hemp
      rw [if_pos (by simpa using hemp)]
      simp only [leafPosL, List.map_nil, List.reverse_nil, rootLoop, Spec.withoutL, List.nil_append, hemp]
      simp [Spec.marks]
    · rw [if_neg hemp]
      obtain ⟨T', h2, h3, h4⟩ := repl_some (.node l0 (as' ++ (Spec.without p c ++ bs))) hg
      rw [h2, Option.getD_some]
      obtain ⟨ds, rfl⟩ : ∃ ds, T' = .node l ds := by
        cases π with
        | nil => exact absurd rfl hπ
        | cons j π => exact repl_label h2
      rw [ihn (as := as') (fun c hc => ih c (by simp [hc])) (by simp at hn; omega) ds (Spec.without p c ++ bs) π _ hπ hemp h3, h4]

theorem loop_node (tag : L → Str) (sent : List Str) (p : Nat → Bool) (l : L) {c : PTree L} (hc : Spec.Constituent c) (ha : Agrees tag sent p c) :
    ∀ (cs : List (PTree L)) (π : Path) (m : List (PTree L)), π ≠ [] → get (.node l cs) π = some c →
      rootLoop tag sent ((leafPos c).map (π ++ ·)).reverse (.node l cs) m =
        some ((repl (.node l cs) π (Spec.without p c).head?).getD (.node l []), m ++ (Spec.marks p [c]).reverse) := by
  induction c using PTree.ind with
  | hleaf i => exact absurd hc not_constituent_leaf
  | hnode l0 ds ih =>
    intro cs π m hπ hg
    rcases hc.cases' with ⟨i, rfl⟩ | ⟨hne, hds⟩
    · obtain ⟨w, hw, hp⟩ := ha l0 i (by simp)
      have e : ((leafPos (.node l0 [.leaf i] : PTree L)).map (π ++ ·)).reverse = [π ++ [0]] := by simp [leafPos, leafPosL]
      have hg1 : get (.node l cs) (π ++ [0]) = some (.leaf i) := by rw [get_append _ hg]; simp [get]
      rw [e, rootLoop.eq_def]
      simp only [hg1, List.dropLast_concat, hg, hw]
      by_cases hq : ispunct w (tag l0) = true
      · rw [hq] at hp
        rw [if_pos hq, if_neg hπ, prune_eq hπ hg, without_pre hp]
        simp [rootLoop, Spec.marks, hp]
      · rw [if_neg hq]
        have hpf : p i = false := by rw [hp]; simpa using hq
        have hwo : Spec.without p (.node l0 [.leaf i]) = [.node l0 [.leaf i]] := by
          simp [Spec.without, Spec.withoutL, hpf]
        rw [hwo, List.head?_cons, repl_self hg]
        simp [rootLoop, Spec.marks, hpf]
    · rw [leafPos]
      rw [loop_sisters tag sent p (as := ds) (fun c hcm => ih c hcm (hds c hcm) fun l' i hm => ha l' i (by
        rw [subtrees_node]; exact List.mem_cons_of_mem _ (mem_subtreesL.2 ⟨c, hcm, hm⟩))) cs [] π m hπ (by simpa using hne) (by simpa using hg)]
      have h1 : (Spec.without p (.node l0 ds)).head? = if Spec.withoutL p ds ++ [] = [] then none else some (.node l0 (Spec.withoutL p ds ++ [])) := by
        rw [Spec.without, List.append_nil]
        split <;> rename_i h <;> simp [h]
      have h2 : Spec.marks p [.node l0 ds] = Spec.marks p ds := by
        rw [Spec.marks, subtreesL_cons, subtreesL_nil, List.append_nil, subtrees_node, List.filter_cons, if_neg]
        · rfl
        · cases ds with
          | nil => simp
          | cons d ds => obtain ⟨l', es, rfl⟩ := (hds d (by simp)).node; simp
      rw [h1, h2]

theorem loop_root (tag : L → Str) (sent : List Str) (p : Nat → Bool) (l : L) {as : List (PTree L)} (hc : ∀ c ∈ as, Spec.Constituent c) (ha : ∀ c ∈ as, Agrees tag sent p c)
    (bs : List (PTree L)) (m : List (PTree L)) : rootLoop tag sent (leafPosL 0 as).reverse (.node l (as ++ bs)) m =
      some (.node l (Spec.withoutL p as ++ bs), m ++ (Spec.marks p as).reverse) := by
  induction hn : as.length generalizing as bs m with
  | zero =>
    rw [List.length_eq_zero_iff] at hn
    subst hn
    simp [leafPosL, rootLoop, Spec.withoutL, Spec.marks]
  | succ n ihn =>
    have hne0 : as ≠ [] := by rintro rfl; simp at hn
    obtain ⟨as', c, rfl⟩ : ∃ as' c, as = as' ++ [c] := ⟨as.dropLast, as.getLast hne0, (List.dropLast_append_getLast hne0).symm⟩
    have hg : get (.node l (as' ++ [c] ++ bs)) [as'.length] = some c := by simp [get]
    have h1 := loop_node tag sent p l (hc c (by simp)) (ha c (by simp)) (as' ++ [c] ++ bs) [as'.length] m (by simp) hg
    rw [leafPosL_eq, List.reverse_append]
    have e : (fun x : Path => (0 + as'.length) :: x) = fun x => [as'.length] ++ x := by
      funext x; simp
    rw [e, rootLoop_append _ _ _ _ _ _ h1]
    have h2 : (repl (.node l (as' ++ [c] ++ bs)) [as'.length] (Spec.without p c).head?).getD (.node l []) = .node l (as' ++ (Spec.without p c ++ bs)) := by
      rw [repl_single, without_head]
      by_cases h : as' ++ (Spec.without p c ++ bs) = []
      · rw [if_pos h, h]; rfl
      · rw [if_neg h]; rfl
    rw [h2, ihn (fun c h => hc c (by simp [h])) (fun c h => ha c (by simp [h])) (Spec.without p c ++ bs) _ (by simp at hn; omega)]
    have hw : Spec.withoutL p (as' ++ [c]) = Spec.withoutL p as' ++ Spec.without p c := by
      rw [withoutL_append]; simp [Spec.withoutL]
    rw [hw, marks_append, List.reverse_append]
    simp

/-- **C48.** Strategy `root`: the children of the root are what is left of its children without punctuation, where constituents that only have punctuation
are removed, followed by the preterminals of the punctuation from right to left. -/
theorem C48_root (tag : L → Str) (sent : List Str) (l : L) (cs : List (PTree L)) (ht : Spec.TreeFor sent.length (.node l cs)) (p : Nat → Bool)
    (hp : ∀ l' i w, .node l' [.leaf i] ∈ subtrees (.node l cs) → sent[i]? = some w → (p i = true ↔ tag l' ∈ PUNCTTAGS ∨ w ∈ PUNCTUATION)) :
    punctroot tag (.node l cs) sent = some (.node l (Spec.withoutL p cs ++ (Spec.marks p cs).reverse)) := by
  obtain ⟨l0, cs0, e, hcs⟩ := ht.root
  injection e with e1 e2
  subst e2
  have hlt : ∀ i ∈ leavesL cs, i < sent.length := fun i hi => List.mem_range.1 (ht.words.mem_iff.1 hi)
  have h := loop_root tag sent p l hcs (fun c hc l' i hm => by
    have hi : i < sent.length := hlt i (mem_leavesL.2 ⟨c, hc, subtree_leaves hm i (by simp)⟩)
    refine ⟨_, List.getElem?_eq_getElem hi, ?_⟩
    rw [Bool.eq_iff_iff, ispunct_iff]
    exact hp l' i _ (by rw [subtrees_node]; exact List.mem_cons_of_mem _ (mem_subtreesL.2 ⟨c, hc, hm⟩)) (List.getElem?_eq_getElem hi)) [] []
  rw [List.append_nil] at h
  rw [punctroot, leafPos, h]
  simp

theorem marks_leaves (p : Nat → Bool) {cs : List (PTree L)} (hcs : ∀ c ∈ cs, Spec.Constituent c) :
    (leavesL (Spec.withoutL p cs ++ (Spec.marks p cs).reverse)).Perm (leavesL cs) := by
  have key : ∀ c : PTree L, Spec.Constituent c → (leavesL (Spec.without p c) ++ leavesL (Spec.marks p [c])).Perm c.leaves := by
    intro c hc
    induction c using PTree.ind with
    | hleaf i => exact absurd hc not_constituent_leaf
    | hnode l ds ih =>
      rcases hc.cases' with ⟨i, rfl⟩ | ⟨hne, hds⟩
      · cases h : p i <;> simp [Spec.without, Spec.withoutL, Spec.marks, h]
      · have h2 : Spec.marks p [.node l ds] = Spec.marks p ds := by
          rw [Spec.marks, subtreesL_cons, subtreesL_nil, List.append_nil, subtrees_node, List.filter_cons, if_neg]
          · rfl
          · cases ds with
            | nil => simp
            | cons d ds => obtain ⟨l', es, rfl⟩ := (hds d (by simp)).node; simp
        have h3 : leavesL (Spec.without p (.node l ds)) = leavesL (Spec.withoutL p ds) := by
          rw [Spec.without]
          split <;> rename_i h
          · rw [h]
          · rw [h]; simp
        rw [h2, h3, leaves_node]
        clear hc hne h2 h3
        induction ds with
        | nil => simp [Spec.withoutL, Spec.marks]
        | cons d ds ih2 =>
          have ih2 := ih2 (fun c hc => ih c (by simp [hc])) fun c hc => hds c (by simp [hc])
          have ihd := ih d (by simp) (hds d (by simp))
          rw [Spec.withoutL, leavesL_append, leavesL_cons, show d :: ds = [d] ++ ds from rfl, marks_append, leavesL_append]
          refine List.Perm.trans ?_ (ihd.append ih2)
          simp only [List.append_assoc]
          refine List.Perm.append_left _ ?_
          rw [← List.append_assoc, ← List.append_assoc]
          exact List.Perm.append_right _ List.perm_append_comm
  have hall : (leavesL (Spec.withoutL p cs) ++ leavesL (Spec.marks p cs)).Perm (leavesL cs) := by
    induction cs with
    | nil => simp [Spec.withoutL, Spec.marks]
    | cons d ds ih2 =>
      have ih2 := ih2 fun c hc => hcs c (by simp [hc])
      have ihd := key d (hcs d (by simp))
      rw [Spec.withoutL, leavesL_append, leavesL_cons, show d :: ds = [d] ++ ds from rfl, marks_append, leavesL_append]
      refine List.Perm.trans ?_ (ihd.append ih2)
      simp only [List.append_assoc]
      refine List.Perm.append_left _ ?_
      rw [← List.append_assoc, ← List.append_assoc]
      exact List.Perm.append_right _ List.perm_append_comm
  rw [leavesL_append]
  refine List.Perm.trans (List.Perm.append_left _ ?_) hall
  rw [leavesL_eq_flatMap, leavesL_eq_flatMap]
  exact (List.reverse_perm _).flatMap_right _

/-- **C48.** After strategy `root`, the tree has the same words, and all punctuation is directly under the root. -/
theorem C48_root_words (tag : L → Str) (sent : List Str) (t u : PTree L) (ht : Spec.TreeFor sent.length t) (hu : punctroot tag t sent = some u) :
    u.leaves.Perm (List.range sent.length) ∧ (∃ l cs ds, t = .node l cs ∧ u = .node l ds) ∧
      ∀ l i w, .node l [.leaf i] ∈ subtrees t → sent[i]? = some w → (tag l ∈ PUNCTTAGS ∨ w ∈ PUNCTUATION) → .node l [.leaf i] ∈ u.children := by
  obtain ⟨l, cs, rfl, hcs⟩ := ht.root
  have hlt : ∀ i ∈ leavesL cs, i < sent.length := fun i hi => List.mem_range.1 (ht.words.mem_iff.1 hi)
  let p : Nat → Bool := fun i => (subtrees (.node l cs)).any fun s => match s with
    | .node l' [.leaf j] => decide (i = j) && ispunct ((sent[j]?).getD []) (tag l')
    | _ => false
  have hp : ∀ l' i w, .node l' [.leaf i] ∈ subtrees (.node l cs) → sent[i]? = some w → (p i = true ↔ tag l' ∈ PUNCTTAGS ∨ w ∈ PUNCTUATION) := by
    intro l' i w hm hw
    rw [← ispunct_iff, List.any_eq_true]
    constructor
    · rintro ⟨s, hs, h⟩
      split at h
      · rename_i l2 j
        simp only [Bool.and_eq_true, decide_eq_true_eq] at h
        obtain ⟨rfl, h⟩ := h
        rw [hw] at h
        rw [pre_unique ht.nodup hm hs]
        exact h
      · cases h
    · intro h
      exact ⟨_, hm, by simp [hw, h]⟩
  have := C48_root tag sent l cs ht p hp
  rw [hu] at this
  injection this with this
  subst this
  refine ⟨(marks_leaves p hcs).trans ht.words, ⟨l, cs, _, rfl, rfl⟩, ?_⟩
  intro l' i w hm hw hq
  show PTree.node l' [.leaf i] ∈ Spec.withoutL p cs ++ (Spec.marks p cs).reverse
  rw [List.mem_append, List.mem_reverse, Spec.marks, List.mem_filter]
  right
  refine ⟨?_, (hp l' i w hm hw).2 hq⟩
  rw [subtrees_node, List.mem_cons] at hm
  rcases hm with e | h
  · injection e with _ e; rw [← e] at hcs; exact absurd (hcs (.leaf i) (by simp)) not_constituent_leaf
  · exact h

end Disco.Punct
