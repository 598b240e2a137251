import Mathlib.Data.List.Basic
import Mathlib.Data.List.Perm.Basic
import Mathlib.Tactic.SplitIfs
import Verif.Trees.MergeDisc
import Verif.Format.ExportCorpus
/-!
# C14: morphological tags in labels, limits of the format, examples
-/
namespace Disco.Export
open PTree

/-! ### Specification -/

/-- The label of a preterminal can be restored with the given setting of `morphology`: with `add`, the label has the form `tag/morph` and there is no
other morphological tag; with `replace`, the morphological tag is the label, or there is none. -/
def Spec.TagOk (act : Morph) (l : Lab) : Prop :=
  match act with
  | .no => True
  | .add => Spec.attr l 3 = dash ∧ ∃ a b, l.label = a ++ '/' :: b ∧ '/' ∉ a ∧ a ≠ [] ∧ b ≠ []
  | .replace => Spec.attr l 3 = dash ∨ Spec.attr l 3 = l.label

/-- The tree with labels only. -/
def Spec.labels (t : PTree Lab) : PTree Str := mapLabel Lab.label t

/-! ### Lemmas -/

theorem mem_replace {c : Char} (hc : c ≠ '(' ∧ c ≠ ')' ∧ c ≠ '[' ∧ c ≠ ']') {s : Str} : c ∈ Escape.replace ['$', '['] ['$', '('] s ↔ c ∈ s := by
  have key : ∀ s : Str, c ∈ paren s ↔ c ∈ s := by
    intro s
    induction s with
    | nil => rfl
    | cons x s ih =>
      simp only [paren, List.map_cons, List.mem_cons] at ih ⊢
      rw [ih]
      by_cases h1 : x = '('
      · subst h1; rw [if_pos rfl]; simp [hc.1, hc.2.2.1]
      · by_cases h2 : x = ')'
        · subst h2; rw [if_neg (by decide), if_pos rfl]; simp [hc.2.1, hc.2.2.2]
        · rw [if_neg h1, if_neg h2]
  rw [← key (Escape.replace _ _ s), paren_replace, key]

theorem paren_append (a b : Str) : paren (a ++ b) = paren a ++ paren b := List.map_append

theorem readLabel_kept {ws : Char → Bool} (pyInt : Str → Option Int) (act : Morph) (ids : List Int) (w : Str) (x : Item) (hok : Spec.LabOk ws x.lab)
    (ht : Spec.TagOk act x.lab) : readLabel act (tokF pyInt act ids w x) = x.lab.label := by
  have hA := attrsD_eq hok
  have hp : paren (orDash (Escape.replace ['$', '['] ['$', '('] x.lab.label)) = x.lab.label := by
    rw [orDash_ne (replace_ne hok.label.ne), paren_replace, paren_id hok.noOpen hok.noClose]
  cases act with
  | no =>
    rw [readLabel]
    simp only [fld, tokF, tagMorph]
    simpa using hp
  | add =>
    obtain ⟨h1, a, b, hab, -⟩ := ht
    have hs : '/' ∈ orDash (Escape.replace ['$', '['] ['$', '('] x.lab.label) := by
      rw [orDash_ne (replace_ne hok.label.ne), mem_replace (by decide), hab]; simp
    have ht : tagMorph .add x.lab.label dash = ((orDash (Escape.replace ['$', '['] ['$', '('] x.lab.label)).takeWhile (· ≠ '/'),
        ((orDash (Escape.replace ['$', '['] ['$', '('] x.lab.label)).dropWhile (· ≠ '/')).drop 1) := by
      rw [tagMorph]; simp [hs]
    rw [readLabel, tokF, hA, h1, ht]
    simp only [fld, List.cons_append, List.getElem?_cons_succ, List.getElem?_cons_zero, Option.getD_some]
    refine Eq.trans ?_ hp
    clear ht
    generalize orDash (Escape.replace ['$', '['] ['$', '('] x.lab.label) = p at hs
    have hd : p.dropWhile (· ≠ '/') = '/' :: (p.dropWhile (· ≠ '/')).drop 1 := by
      clear hp h1 hab hA
      induction p with
      | nil => simp at hs
      | cons c p ih =>
        by_cases hc : c = '/'
        · subst hc; rw [List.dropWhile_cons_of_neg (by simp)]; rfl
        · rw [List.dropWhile_cons_of_pos (by simpa using hc)]
          exact ih (by rcases List.mem_cons.1 hs with h | h; exact absurd h.symm hc; exact h)
    conv_rhs => rw [← List.takeWhile_append_dropWhile (p := (· ≠ '/')) (l := p), paren_append, hd]
    rfl
  | replace =>
    rw [readLabel, tokF, hA]
    simp only [fld, List.cons_append, List.getElem?_cons_succ, List.getElem?_cons_zero, Option.getD_some]
    by_cases hm : Spec.attr x.lab 3 = dash
    · rw [hm, tagMorph, if_pos ⟨rfl, rfl⟩]; exact hp
    · rw [tagMorph, if_neg (fun h => hm h.1), if_neg (fun h => hm h.1)]
      rcases ht with h | h
      · exact absurd h hm
      · rw [h]; exact paren_id hok.noOpen hok.noClose

section
variable (pyInt : Str → Option Int) (act : Morph) (ids : List Int) (sent : List Str) {ws : Char → Bool}

theorem labels_resN (t : PTree Lab) : Good t → (∀ l ds, .node l ds ∈ subtrees t → Spec.LabOk ws l) →
    (∀ l i, .node l [.leaf i] ∈ subtrees t → Spec.TagOk act l) → ∀ k s, Spec.labels (resN pyInt act ids sent k s t) = Spec.labels t := by
  induction t using PTree.ind with
  | hleaf i => intro _ _ _ k s; rw [resN]
  | hnode l cs ih =>
    intro hg hl ht k s
    have hok := hl l cs (by rw [subtrees_node]; simp)
    cases h : firstLeaf cs with
    | some i =>
      have hcs := good_pre hg h
      subst hcs
      have := ht l i (by rw [subtrees_node]; simp)
      rw [resN_pre _ _ _ _ h, readTok, Spec.labels, Spec.labels, mapLabel_node, mapLabel_node]
      simp only
      rw [readLabel_kept (ws := ws) pyInt act ids _ _ hok this]
    | none =>
      rw [resN_phr _ _ _ _ h, Spec.labels, Spec.labels, mapLabel_node, mapLabel_node]
      simp only
      rw [orDash_ne hok.label.ne, paren_id hok.noOpen hok.noClose, mapLabelL_eq, mapLabelL_eq]
      congr 1
      have hup : ∀ c ∈ cs, ∀ y ∈ subtrees c, y ∈ subtrees (.node l cs) := fun c hc y hy => by
        rw [subtrees_node, List.mem_cons]; exact Or.inr (mem_subtreesL.2 ⟨c, hc, hy⟩)
      have := resNL_forall₂ pyInt act ids sent (R := fun a b => mapLabel Lab.label b = mapLabel Lab.label a) cs (some (s + nphL cs))
        (fun c hc s => ih c hc (good_kids hg h c hc) (fun l ds hm => hl l ds (hup c hc _ hm)) (fun l i hm => ht l i (hup c hc _ hm)) _ s) s
      generalize resNL pyInt act ids sent (some (s + nphL cs)) s cs = ds at this
      clear ih hg h hl ht hup
      induction this with
      | nil => rfl
      | cons h1 _ ih2 => rw [List.map_cons, List.map_cons, h1, ih2]

theorem labels_resNL (cs : List (PTree Lab)) (hg : ∀ c ∈ cs, Good c) (hl : ∀ l ds, .node l ds ∈ subtreesL cs → Spec.LabOk ws l)
    (ht : ∀ l i, .node l [.leaf i] ∈ subtreesL cs → Spec.TagOk act l) (k : Option Nat) (s : Nat) :
    (resNL pyInt act ids sent k s cs).map Spec.labels = cs.map Spec.labels := by
  induction cs generalizing s with
  | nil => rw [resNL]
  | cons c cs ih =>
    rw [resNL, List.map_cons, List.map_cons, labels_resN (ws := ws) pyInt act ids sent c (hg c (by simp))
      (fun l ds hm => hl l ds (by rw [subtreesL_cons]; simp [hm])) (fun l ds hm => ht l ds (by rw [subtreesL_cons]; simp [hm])),
      ih (fun c hc => hg c (by simp [hc])) (fun l ds hm => hl l ds (by rw [subtreesL_cons]; simp [hm]))
        fun l ds hm => ht l ds (by rw [subtreesL_cons]; simp [hm])]

end

theorem labels_same (t : PTree Lab) : ∀ {u : PTree Lab}, Canon.Spec.SameUpToOrder t u → Canon.Spec.SameUpToOrder (Spec.labels t) (Spec.labels u) := by
  induction t using PTree.ind with
  | hleaf i => intro u h; cases h; rw [Spec.labels, mapLabel_leaf]; exact .leaf i
  | hnode l cs ih =>
    intro u h
    cases h with
    | node _ _ ds es h1 h2 =>
      rw [Spec.labels, Spec.labels, mapLabel_node, mapLabel_node, mapLabelL_eq, mapLabelL_eq]
      have hrel : ∀ {as bs : List (PTree Lab)}, List.Forall₂ Canon.Spec.SameUpToOrder as bs → (∀ a ∈ as, a ∈ cs) →
          List.Forall₂ Canon.Spec.SameUpToOrder (as.map Spec.labels) (bs.map Spec.labels) := by
        intro as bs hab
        induction hab with
        | nil => intro _; exact .nil
        | cons hc _ ih2 =>
          intro ha
          rw [List.map_cons, List.map_cons]
          exact .cons (ih _ (ha _ (by simp)) hc) (ih2 fun a h => ha a (by simp [h]))
      exact .node _ _ (ds.map Spec.labels) _ (Canon.sameL_of_forall₂ (hrel (Canon.forall₂_of_sameL h1) fun _ h => h)) (h2.map _)

/-! ### Properties -/

/-- **C14.** With `morphology='add'` or `'replace'` both for writing and for reading, labels and sentence are restored, up to the order of sisters, when
the labels of words have the form that the setting requires. -/
theorem C14_morphology {ws : Char → Bool} {pyInt : Str → Option Int} (act : Morph) (l : Lab) {cs : List (PTree Lab)} {sent : List Str}
    (h : Spec.Writable ws pyInt cs sent) (h500 : Spec.phrasal cs ≤ 500) (ht : ∀ m i, .node m [.leaf i] ∈ subtreesL cs → Spec.TagOk act m) :
    ∃ rows u, writeRows pyInt act (.node l cs) sent = some rows ∧ readRows act rows = some (u, sent) ∧
      Canon.Spec.SameUpToOrder (Spec.labels (Spec.withRoot cs)) (Spec.labels u) := by
  obtain ⟨ids, -, h2, h3⟩ := roundtrip act l h h500
  refine ⟨_, _, h2, h3, ?_⟩
  have hs := labels_same _ (.node rootLab _ _ _ (same_resL pyInt act ids sent cs none 0) (order_perm _).symm)
  have e : Spec.labels (.node rootLab (resNL pyInt act ids sent none 0 cs)) = Spec.labels (Spec.withRoot cs) := by
    have := labels_resNL (ws := ws) pyInt act ids sent cs (Writable.good h) h.labels ht none 0
    rw [Spec.withRoot, Spec.labels, Spec.labels, mapLabel_node, mapLabel_node, mapLabelL_eq, mapLabelL_eq]
    congr 1
  rw [e] at hs
  exact hs

/-- **C14**, disagreement with the claim for all trees: a tree with more than 500 phrasal nodes below the root is never read back. Reading fails, or the
sentence has additional words: `#1000` is not recognized as the number of a node. -/
theorem C14_too_many {ws : Char → Bool} {pyInt : Str → Option Int} (act : Morph) (l : Lab) {cs : List (PTree Lab)} {sent : List Str}
    (h : Spec.Writable ws pyInt cs sent) (hmany : 500 < Spec.phrasal cs) :
    ∃ rows, writeRows pyInt act (.node l cs) sent = some rows ∧ ∀ u, readRows act rows ≠ some (u, sent) := by
  have hg := Writable.good h
  obtain ⟨ids, h1, h2⟩ := writeRows_eq pyInt act l cs sent hg h.terminals
    (fun x hx => by obtain ⟨ds, hm⟩ := itemsL_labs cs none 0 x hx; exact attrs_isSome (h.labels _ _ hm))
    (fun x hx _ => by
      obtain ⟨ds, hm⟩ := itemsL_labs cs none 0 x hx
      rw [nodeId]
      split
      · rfl
      · rfl
      · rename_i w r hs; exact h.numbers _ _ _ _ hm hs
      · rfl)
  refine ⟨_, h2, fun u hu => ?_⟩
  have hsent : ((rowsF pyInt act ids sent (itemsL none 0 cs)).filter fun src => (isNT (fld src 0)).isNone).map (fld · 0) = sent := by
    rw [readRows] at hu
    split at hu
    · simp at hu
    · split at hu
      · simp at hu
      · exact (Prod.mk.inj (Option.some.inj hu)).2
  have htk : (toks (itemsL none 0 cs)).map (·.key) = List.range sent.length := toks_keys (by rw [items_pre_keys cs hg]; exact h.terminals)
  have hlen := congrArg List.length hsent
  rw [rowsF, List.filter_append, List.map_append, List.length_append, List.length_map, List.length_map] at hlen
  have e1 : ((toks (itemsL none 0 cs)).map fun x => tokF pyInt act ids (wordAt sent x) x).filter (fun src => (isNT (fld src 0)).isNone) =
      (toks (itemsL none 0 cs)).map fun x => tokF pyInt act ids (wordAt sent x) x := by
    rw [List.filter_eq_self]
    intro a ha
    obtain ⟨x, hx, rfl⟩ := List.mem_map.1 ha
    have : x.key ∈ (toks (itemsL none 0 cs)).map (·.key) := List.mem_map.2 ⟨x, hx, rfl⟩
    rw [htk, List.mem_range] at this
    have hw : wordAt sent x ∈ sent := by rw [wordAt, List.getElem?_eq_getElem this]; exact List.getElem_mem _
    rw [fld_tok0 _ _ _ (h.words _ hw).ne, h.noNumbers _ hw]; rfl
  have l1 : (toks (itemsL none 0 cs)).length = sent.length := by
    have := congrArg List.length htk; rwa [List.length_map, List.length_range] at this
  rw [e1, List.length_map, l1] at hlen
  have hk := itemsL_keys cs none 0
  have hm : 500 ∈ ((itemsL none 0 cs).filter (·.phr)).map (·.key) := by
    rw [hk, List.mem_range', phrasal_eq cs hg]; exact ⟨500, hmany, by omega⟩
  obtain ⟨x, hx, hx5⟩ := List.mem_map.1 hm
  have hin : phF pyInt ids x ∈ (((itemsL none 0 cs).filter (·.phr)).map (phF pyInt ids)).filter fun src => (isNT (fld src 0)).isNone := by
    refine List.mem_filter.2 ⟨List.mem_map.2 ⟨x, hx, rfl⟩, ?_⟩
    rw [fld_ph0, hx5]; decide
  have := List.length_pos_of_mem hin
  omega

/-! ### Comments and keys -/

theorem find_comment (a b : Str) (c : Char) (hcc : c ≠ '%') (ha : ¬ ['%', '%'] <:+: a) :
    Str.find ['%', '%'] (a ++ c :: '%' :: '%' :: b) = some (a.length + 1) := by
  induction a with
  | nil => rw [List.nil_append, Str.find, if_neg (by simp [List.isPrefixOf, hcc.symm]), Str.find, if_pos (by simp [List.isPrefixOf])]; rfl
  | cons x a ih =>
    rw [List.cons_append, Str.find, if_neg, ih (fun h => ha (h.trans (List.suffix_cons _ _).isInfix)), Option.map_some]
    · simp
    · intro h
      cases a with
      | nil => simp [List.isPrefixOf, hcc.symm] at h
      | cons y a =>
        apply ha
        rw [List.isPrefixOf_iff_prefix] at h
        obtain ⟨r, hr⟩ := h
        simp only [List.cons_append, List.nil_append, List.cons.injEq] at hr
        exact ⟨[], a, by simpa using ⟨hr.1, hr.2.1⟩⟩

theorem splitWs_joinTab_blank {ws : Char → Bool} (hw : Spec.White ws) (fs : List Str) (h : ∀ f ∈ fs, f ≠ [] ∧ ∀ c ∈ f, ws c = false) {c : Char} (hc : ws c = true) :
    splitWs ws (joinTab fs ++ [c]) = fs := by
  induction fs with
  | nil => rw [show joinTab [] = [] from rfl, List.nil_append, splitWs_ws hc]; rfl
  | cons a fs ih =>
    have ha := h a (by simp)
    cases fs with
    | nil =>
      rw [show joinTab [a] = a by simp [joinTab, Str.join, List.intercalate], splitWs_append ha.1 ha.2 hc]; rfl
    | cons b fs =>
      rw [joinTab_cons, List.append_assoc, List.cons_append, splitWs_append ha.1 ha.2 hw.tab, ih (fun f hf => h f (by simp [hf]))]

/-- **C14** A comment at the end of a line, set off by a blank or tab, does not affect what is read. -/
theorem C14_line_comment {ws : Char → Bool} (hw : Spec.White ws) (fs : List Str) (h : ∀ f ∈ fs, Spec.Field ws f) (h6 : 6 ≤ fs.length)
    (he : fs.length % 2 = 0) (c : Char) (hc : c = ' ' ∨ c = '\t') (comment : Str) :
    exportsplit ws (joinTab fs ++ c :: '%' :: '%' :: comment) = some fs := by
  have hcw : ws c = true := by rcases hc with rfl | rfl; exact hw.blank; exact hw.tab
  have hcc : c ≠ '%' := by rcases hc with rfl | rfl <;> decide
  have hcut : cutComment (joinTab fs ++ c :: '%' :: '%' :: comment) = joinTab fs ++ [c] := by
    rw [cutComment, find_comment _ _ _ hcc (infix_joinTab fun f hf => (h f hf).noComment)]
    simp only
    rw [show (joinTab fs ++ c :: '%' :: '%' :: comment : Str) = (joinTab fs ++ [c]) ++ '%' :: '%' :: comment by simp]
    exact List.take_left' (by simp)
  rw [exportsplit, hcut, splitWs_joinTab_blank hw fs (fun f hf => ⟨(h f hf).ne, (h f hf).noWs⟩) hcw]
  rw [if_neg (by omega), if_neg (by omega)]

theorem readBlocks_keys {ws : Char → Bool} (lines : List Str) : ∀ results cur blocks, readBlocks ws lines results cur = some blocks →
    (blocks.map (·.1)).Nodup ∧ ∀ k ∈ blocks.map (·.1), k ∉ results := by
  induction lines with
  | nil =>
    intro results cur blocks h
    rw [readBlocks] at h
    obtain rfl := Option.some.inj h
    simp
  | cons raw rest ih =>
    intro results cur blocks h
    rw [readBlocks.eq_def] at h
    simp only at h
    split at h
    · split at h
      · exact ih _ _ _ h
      · cases h
    · split at h
      · split at h
        · split at h
          · cases h
          · split at h
            · cases h
            · rename_i hn
              split at h
              · cases h
              · rename_i bs hbs
                obtain rfl := Option.some.inj h
                obtain ⟨h1, h2⟩ := ih _ _ _ hbs
                rw [List.map_cons, List.nodup_cons]
                refine ⟨⟨fun hm => h2 _ hm (by simp), h1⟩, ?_⟩
                intro k hk
                rcases List.mem_cons.1 hk with rfl | hk
                · exact hn
                · exact fun hr => h2 k hk (by simp [hr])
        · cases h
      · split at h
        · exact ih _ _ _ h
        · exact ih _ _ _ h

theorem mapO_fst {α β : Type} {g : Str × α → Option β} {l : List (Str × α)} {r : List (Str × β)}
    (h : mapO (fun b => (g b).map fun x => (b.1, x)) l = some r) : r.map (·.1) = l.map (·.1) := by
  induction l generalizing r with
  | nil => rw [mapO] at h; obtain rfl := Option.some.inj h; rfl
  | cons a l ih =>
    rw [mapO] at h
    cases hg : g a with
    | none => rw [hg] at h; cases h
    | some b =>
      rw [hg] at h
      simp only [Option.map_some] at h
      split at h
      · cases h
      · rename_i bs hbs
        obtain rfl := Option.some.inj h
        rw [List.map_cons, List.map_cons, ih hbs]

/-- **C14** Whatever file is read, the keys of the sentences are distinct: reading a file with a duplicate key raises an exception. -/
theorem C14_keys {ws : Char → Bool} {act : Morph} {text : Str} {items : List (Str × TItem)} (h : readCorpus ws act text = some items) :
    (items.map (·.1)).Nodup := by
  rw [readCorpus] at h
  split at h
  · cases h
  · rename_i blocks hb
    rw [mapO_fst (g := fun b => parseBlock ws act b.2) h]
    exact (readBlocks_keys _ _ _ _ hb).1

/-! ### Examples -/

/-- White space, for examples. -/
def exWs (c : Char) : Bool := c = ' ' || c = '\t' || c = '\n' || c = '\r'

/-- `int()` on sequences of digits, for examples. -/
def exInt (s : Str) : Option Int := if s ≠ [] ∧ s.all Char.isDigit then some (MergeDisc.int s) else none

theorem exWs_white : Spec.White exWs := by
  refine ⟨rfl, rfl, rfl, rfl, fun c h1 h2 => ?_⟩
  rw [exWs]
  simp only [Bool.or_eq_false_iff, decide_eq_false_iff_not]
  refine ⟨⟨⟨?_, ?_⟩, ?_⟩, ?_⟩ <;> (rintro rfl; revert h1; decide)

theorem exInt_decimals : Spec.ReadsDecimals exInt := fun n => by
  rw [exInt, if_pos ⟨Nat.toDigits_ne_nil, List.all_eq_true.2 fun c hc => digits_visible n c hc⟩, MergeDisc.int_digits]

/-- A record. -/
def rec (l : List String) : Option (List Str) := some (l.map String.toList)

/-- A discontinuous tree with records from a treebank: numbers, functions, morphological tags, a lemma, and a secondary edge from the adverb to
the inner VP. -/
def exKids : List (PTree Lab) :=
  [.node ⟨"S".toList, rec ["#502", "--", "S", "--", "--", "0"]⟩
    [.node ⟨"VP".toList, rec ["#501", "--", "VP", "--", "OC", "502"]⟩
      [.node ⟨"NP".toList, rec ["#500", "--", "NP", "--", "OA", "501"]⟩
        [.node ⟨"NN".toList, rec ["Buecher", "Buch", "NN", "Acc.Pl", "NK", "500"]⟩ [.leaf 0]],
       .node ⟨"VVPP".toList, rec ["gelesen", "lesen", "VVPP", "--", "HD", "501"]⟩ [.leaf 3]],
     .node ⟨"VAFIN".toList, rec ["hat", "haben", "VAFIN", "3.Sg", "HD", "502"]⟩ [.leaf 1],
     .node ⟨"PPER".toList, rec ["er", "", "PPER", "", "SB", "502", "RE", "501"]⟩ [.leaf 2]],
   .node ⟨"$[".toList, none⟩ [.leaf 4]]

/-- The sentence of `exKids`. -/
def exSent : List Str := ["Buecher".toList, "hat".toList, "er".toList, "gelesen".toList, ".".toList]

theorem field_of_bool {s : Str} (h : (decide (s ≠ []) && s.all (fun c => !exWs c) && (Str.find ['%', '%'] s).isNone) = true) : Spec.Field exWs s := by
  simp only [Bool.and_eq_true, decide_eq_true_eq, List.all_eq_true, Bool.not_eq_true'] at h
  exact ⟨h.1.1, h.1.2, (Str.find_eq_none_iff _ _).1 (by simpa using h.2)⟩

/-- A decidable version of `Spec.LabOk`. -/
def labOkB (l : Lab) : Bool :=
  let fieldB (s : Str) : Bool := decide (s ≠ []) && s.all (fun c => !exWs c) && (Str.find ['%', '%'] s).isNone
  fieldB l.label && !l.label.contains '(' && !l.label.contains ')' && match l.source with
    | none => true
    | some s => (decide (s = []) || decide (5 ≤ s.length)) && (s.drop 1).all (fun v => decide (v = []) || fieldB v) && (s.drop 6).all fieldB

theorem labOk_of_bool {l : Lab} (h : labOkB l = true) : Spec.LabOk exWs l := by
  rw [labOkB] at h
  simp only [Bool.and_eq_true, Bool.not_eq_true', List.contains_eq_mem, decide_eq_false_iff_not] at h
  obtain ⟨⟨⟨h1, h2⟩, h3⟩, h4⟩ := h
  refine ⟨field_of_bool (by simpa using h1), h2, h3, ?_, ?_, ?_⟩
  · intro s hs
    rw [hs] at h4
    simp only [Bool.and_eq_true, Bool.or_eq_true, decide_eq_true_eq] at h4
    exact h4.1.1
  · intro s hs v hv
    rw [hs] at h4
    simp only [Bool.and_eq_true, List.all_eq_true, Bool.or_eq_true, decide_eq_true_eq] at h4
    rcases h4.1.2 v hv with h | h
    · exact Or.inl h
    · exact Or.inr (field_of_bool (by simpa using h))
  · intro s hs v hv
    rw [hs] at h4
    simp only [Bool.and_eq_true, List.all_eq_true, Bool.or_eq_true, decide_eq_true_eq] at h4
    exact field_of_bool (by simpa using h4.2 v hv)

/-- A decidable version of the conditions on nodes. -/
def kidsOkB (cs : List (PTree Lab)) : Bool :=
  (subtreesL cs).all fun t => match t with
    | .leaf _ => true
    | .node l ds => labOkB l && (match l.source with | some (('#' :: w) :: _) => (exInt w).isSome | _ => true) &&
        (ds.all PTree.isNode || match ds with | [.leaf _] => true | _ => false)

theorem writable_of_bool {cs : List (PTree Lab)} {sent : List Str} (h1 : kidsOkB cs = true) (h2 : cs.all PTree.isNode = true)
    (h3 : (leavesL cs).Perm (List.range sent.length)) (h4 : ∀ w ∈ sent, Spec.Field exWs w) (h5 : ∀ w ∈ sent, isNT w = none) :
    Spec.Writable exWs exInt cs sent := by
  rw [kidsOkB, List.all_eq_true] at h1
  have key : ∀ l ds, .node l ds ∈ subtreesL cs → labOkB l = true ∧ (match l.source with | some (('#' :: w) :: _) => (exInt w).isSome | _ => true) = true ∧
      ((∀ c ∈ ds, c.isNode = true) ∨ ∃ i, ds = [.leaf i]) := by
    intro l ds hm
    have := h1 _ hm
    simp only [Bool.and_eq_true, Bool.or_eq_true, List.all_eq_true] at this
    refine ⟨this.1.1, this.1.2, ?_⟩
    rcases this.2 with h | h
    · exact Or.inl h
    · right
      split at h
      · exact ⟨_, rfl⟩
      · simp at h
  refine ⟨by simpa using h2, ?_, h3, fun l ds hm => labOk_of_bool (key l ds hm).1, ?_, h4, h5⟩
  · intro c hc l ds hm
    exact (key l ds (mem_subtreesL.2 ⟨c, hc, hm⟩)).2.2
  · intro l ds w r hm hs
    have := (key l ds hm).2.1
    rw [hs] at this
    exact this

theorem exWritable : Spec.Writable exWs exInt exKids exSent := by
  refine writable_of_bool (by decide +kernel) (by decide +kernel) (by decide +kernel) ?_ (by decide +kernel)
  intro w hw
  refine field_of_bool ?_
  revert w
  decide +kernel

theorem exNoEmpty : Canon.Spec.NoEmpty (Spec.withRoot exKids) := by
  have : ∀ t ∈ subtrees (Spec.withRoot exKids), t.children ≠ [] := by decide +kernel
  exact fun l hm => this _ hm rfl

/-- The tree of the example meets the conditions of `C14_tree` and `C14_reader`. -/
example : Spec.Writable exWs exInt exKids exSent ∧ Spec.phrasal exKids ≤ 500 ∧ Canon.Spec.NoEmpty (Spec.withRoot exKids) :=
  ⟨exWritable, by decide +kernel, exNoEmpty⟩

/-- It also meets those of `C14_exact`, except for the numbers. -/
example : Canon.Spec.Ordered (Spec.withRoot exKids) := by
  have : ∀ t ∈ subtrees (Spec.withRoot exKids), t.children.Pairwise (fun a b => a.leaves ≤ b.leaves) := by decide +kernel
  exact fun l cs hm => this _ hm

mutual
/-- All positions in a tree, for examples. -/
def paths : PTree Lab → List Path
  | .leaf _ => [[]]
  | .node _ cs => [] :: pathsL 0 cs
/-- `paths` for a list of sisters. -/
def pathsL (i : Nat) : List (PTree Lab) → List Path
  | [] => []
  | c :: cs => (paths c).map (i :: ·) ++ pathsL (i + 1) cs
end

theorem mem_paths (t : PTree Lab) : ∀ q s, Spec.sub t q = some s → q ∈ paths t := by
  induction t using PTree.ind with
  | hleaf i => intro q s h; cases q with
    | nil => simp [paths]
    | cons a q => simp [Spec.sub] at h
  | hnode l cs ih =>
    intro q s h
    cases q with
    | nil => simp [paths]
    | cons a q =>
      rw [Spec.sub] at h
      rw [paths, List.mem_cons]
      right
      have key : ∀ (ds : List (PTree Lab)) (k j : Nat) (d : PTree Lab), (∀ c ∈ ds, ∀ q s, Spec.sub c q = some s → q ∈ paths c) → ds[j]? = some d →
          Spec.sub d q = some s → (k + j) :: q ∈ pathsL k ds := by
        intro ds
        induction ds with
        | nil => intro k j d _ h1; simp at h1
        | cons c ds ih2 =>
          intro k j d hi h1 h2
          rw [pathsL, List.mem_append]
          cases j with
          | zero => left; simp at h1; subst h1; exact List.mem_map.2 ⟨q, hi c (by simp) q s h2, rfl⟩
          | succ j =>
            right
            have := ih2 (k + 1) j d (fun c hc => hi c (by simp [hc])) (by simpa using h1) h2
            rwa [Nat.add_assoc, Nat.add_comm 1 j] at this
      cases hd : cs[a]? with
      | none => rw [hd] at h; cases h
      | some d => rw [hd] at h; have := key cs 0 a d ih hd h; rwa [Nat.zero_add] at this

/-- The number of the phrasal node at a position, for examples. -/
def number (t : PTree Lab) (q : Path) : Option Int :=
  match Spec.sub t q with
  | some (.node l ds) => if isPhrasal (.node l ds) then match l.source with
    | some (('#' :: w) :: _) => exInt w
    | _ => none
    else none
  | _ => none

theorem number_iff {t : PTree Lab} {q : Path} {i : Int} : Spec.Numbered exInt t q i ↔ number t q = some i := by
  constructor
  · rintro ⟨l, ds, w, r, h1, h2, h3, h4⟩
    rw [number, h1]; simp only [h2, h3, if_true, h4]
  · intro h
    rw [number] at h
    split at h
    · rename_i l ds hs
      split at h
      · rename_i hp
        split at h
        · rename_i w r hl
          exact ⟨l, ds, w, r, hs, hp, hl, h⟩
        · cases h
      · cases h
    · cases h

/-- The phrasal nodes of the example have distinct numbers. -/
theorem exDistinct : Spec.DistinctNumbers exInt (.node rootLab exKids) := by
  constructor
  · intro q l ds hq hs hp
    have h1 : ∀ q ∈ paths (.node rootLab exKids), q ≠ [] → (match Spec.sub (.node rootLab exKids) q with
        | some u => isPhrasal u | none => false) = true → (number (.node rootLab exKids) q).isSome := by decide +kernel
    have := h1 q (mem_paths _ _ _ hs) hq (by rw [hs]; exact hp)
    obtain ⟨i, hi⟩ := Option.isSome_iff_exists.1 this
    exact ⟨i, number_iff.2 hi⟩
  · intro q q' i hq hq' h h'
    have h1 : ∀ q ∈ paths (.node rootLab exKids), ∀ q' ∈ paths (.node rootLab exKids), (number (.node rootLab exKids) q).isSome →
        number (.node rootLab exKids) q = number (.node rootLab exKids) q' → q = q' := by decide +kernel
    have hp : ∀ q i, Spec.Numbered exInt (.node rootLab exKids) q i → q ∈ paths (.node rootLab exKids) := by
      rintro q i ⟨l, ds, -, -, h, -⟩; exact mem_paths _ _ _ h
    refine h1 q (hp _ _ h) q' (hp _ _ h') ?_ ?_
    · rw [number_iff.1 h]; rfl
    · rw [number_iff.1 h, number_iff.1 h']

/-- There is a secondary edge in the example: from the pronoun to the VP. -/
example : Spec.Edge exInt (.node rootLab exKids) [0, 2] "RE".toList [0, 0] :=
  ⟨_, _, _, "501".toList, 501, rfl, by decide, rfl, by decide +kernel, by decide +kernel, by decide, number_iff.2 (by decide +kernel)⟩

/-- A unary chain, for an example. -/
def chain : Nat → PTree Lab
  | 0 => .node ⟨"NN".toList, none⟩ [.leaf 0]
  | n + 1 => .node ⟨"NP".toList, none⟩ [chain n]

/-- A tree that meets the conditions of `C14_too_many`. -/
example : Spec.Writable exWs exInt [chain 501] ["w".toList] ∧ 500 < Spec.phrasal [chain 501] := by
  refine ⟨writable_of_bool (by decide +kernel) (by decide +kernel) (by decide +kernel) ?_ (by decide +kernel), by decide +kernel⟩
  intro w hw
  refine field_of_bool ?_
  revert w
  decide +kernel

/-- What is written for the example. -/
example : (writeexporttree exInt .no (.node ⟨"ROOT".toList, none⟩ exKids) exSent "1".toList (some "a comment".toList)).map String.ofList =
    some ("#BOS 1 %% a comment\nBuecher\tBuch\tNN\tAcc.Pl\tNK\t500\nhat\thaben\tVAFIN\t3.Sg\tHD\t502\ner\t--\tPPER\t--\tSB\t502\tRE\t501\n" ++
      "gelesen\tlesen\tVVPP\t--\tHD\t501\n.\t--\t$(\t--\t--\t0\n#500\t--\tNP\t--\tOA\t501\n#501\t--\tVP\t--\tOC\t502\n#502\t--\tS\t--\t--\t0\n#EOS 1\n") := by
  decide +kernel

/-- The example as an entry of a treebank meets the conditions of `C14_corpus`. -/
example : Spec.EntryOk exWs exInt ⟨"1".toList, .node ⟨"ROOT".toList, none⟩ exKids, exSent, some "a comment".toList⟩ := by
  refine ⟨rfl, exWritable, by decide +kernel, exNoEmpty, field_of_bool (by decide +kernel), ?_⟩
  intro c hc
  obtain rfl := Option.some.inj hc
  exact ⟨by decide, by decide +kernel, (Str.find_eq_none_iff _ _).1 (by decide +kernel), by decide +kernel, by decide +kernel⟩

/-- Labels for `morphology='add'`: the conditions of `C14_morphology`. -/
example : Spec.TagOk .add ⟨"NN/Acc".toList, none⟩ := ⟨rfl, "NN".toList, "Acc".toList, by decide, by decide, by decide, by decide⟩

/-- **C14**, disagreement: reading with `morphology='add'`, writing with `'add'` and reading again does not restore the labels: the morphological tag, which
is still in the record of the word, is added twice. -/
theorem C14_add_twice : ∃ rows u rows' u' sent, readRows .add rows = some (u, sent) ∧ writeRows exInt .add u sent = some rows' ∧
    readRows .add rows' = some (u', sent) ∧ Spec.labels u = .node "ROOT".toList [.node "NN/Acc".toList [.leaf 0]] ∧
    Spec.labels u' = .node "ROOT".toList [.node "NN/Acc/Acc".toList [.leaf 0]] := by
  refine ⟨[["w".toList, dash, "NN".toList, "Acc".toList, dash, "0".toList]], _, _, _, _, rfl, rfl, rfl, ?_, ?_⟩ <;> decide +kernel

/-- **C14**, disagreement: a word that looks like the number of a node is lost. -/
theorem C14_word_number : ∃ rows u, writeRows exInt .no (.node rootLab [.node ⟨"CARD".toList, none⟩ [.leaf 0]]) ["#500".toList] = some rows ∧
    readRows .no rows = some (u, []) ∧ u.leaves = [] := by
  refine ⟨_, _, rfl, rfl, ?_⟩
  decide +kernel

/-- **C14**, disagreement: a word with `%%` cannot be read; `exportsplit` raises `ValueError`. -/
theorem C14_word_percent : ∃ text, writeexporttree exInt .no (.node rootLab [.node ⟨"NN".toList, none⟩ [.leaf 0]]) ["100%%".toList] "1".toList none = some text ∧
    readCorpus exWs .no text = none := by
  refine ⟨_, rfl, ?_⟩
  decide +kernel

/-- **C14**, disagreement: parentheses in labels are replaced by brackets. -/
theorem C14_paren_label : ∃ rows u, writeRows exInt .no (.node rootLab [.node ⟨"$(".toList, none⟩ [.leaf 0]]) ["-".toList] = some rows ∧
    readRows .no rows = some (u, ["-".toList]) ∧ Spec.labels u = .node "ROOT".toList [.node "$[".toList [.leaf 0]] := by
  refine ⟨_, _, rfl, rfl, ?_⟩
  decide +kernel

/-- **C14**, disagreement: a secondary edge with number `0` is connected to the first phrasal node without a record. -/
theorem C14_edge_zero : ∃ rows, writeRows exInt .no (.node rootLab [.node ⟨"NP".toList, none⟩ [.node ⟨"NN".toList, rec ["w", "--", "NN", "--", "--", "500", "RE", "0"]⟩ [.leaf 0]]])
    ["w".toList] = some rows ∧ rows.head? = some (["w", "--", "NN", "--", "--", "500", "RE", "500"].map String.toList) := by
  refine ⟨_, rfl, ?_⟩
  decide +kernel

end Disco.Export
