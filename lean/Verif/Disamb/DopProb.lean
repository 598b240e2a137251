import Verif.Bits.Runs
import Verif.Ctf.Mapping
import Mathlib.Algebra.BigOperators.Group.List.Basic
import Mathlib.Algebra.BigOperators.Ring.List
import Mathlib.Algebra.Ring.Basic
import Mathlib.Algebra.Ring.Nat
import Mathlib.Data.List.Nodup
import Mathlib.Data.List.TakeWhile
/-!
# C60: the exact DOP parse probability of a tree: `dopparseprob` (disambiguation.pyx:888-969)

Simplifications: probabilities are values of a commutative semiring instead of log probabilities, so that `logprobadd` is addition and the sum of log probabilities is multiplication (the error of
`logprobadd` is bounded in C57); an absent entry, log probability `-inf`, is `none`. A dictionary is a partial function. A tree is a binary tree without empty nodes (the `ValueError` for other trees
is not modelled); each internal node has the `args` and `lengths` of its yield function, computed by `lcfrsproductions` and `getyf` (C20, C32). `coarse.rulenos` is not changed by a failed lookup.
-/
namespace Disco.Disamb.DopProb

open Disco.Ctf.Mapping Disco.Bits

/-! ### Model -/

/-- A binarized tree. `args` and `lengths` are those of the production of the node. -/
inductive BTree where
  | pos (label : String) (n : Nat)
  | un (label : String) (args lengths : Nat) (c : BTree)
  | bin (label : String) (args lengths : Nat) (l r : BTree)
  deriving DecidableEq

namespace BTree

def label : BTree → String
  | pos l _ => l
  | un l _ _ _ => l
  | bin l _ _ _ _ => l

/-- `tree.leaves()`. -/
def leaves : BTree → List Nat
  | pos _ n => [n]
  | un _ _ _ c => c.leaves
  | bin _ _ _ l r => l.leaves ++ r.leaves

/-- `node.bitset`, added by `addbitsets` (treetransforms.py:955-956). -/
def bitset (t : BTree) : Nat := bitsetOf t.leaves

/-- `tree.pos()`. -/
def posList : BTree → List (Nat × String)
  | pos l n => [(n, l)]
  | un _ _ _ c => c.posList
  | bin _ _ _ l r => l.posList ++ r.posList

/-- `tree.subtrees()`: pre-order. -/
def subtrees : BTree → List BTree
  | pos l n => [pos l n]
  | un l a b c => un l a b c :: c.subtrees
  | bin lb a b l r => bin lb a b l r :: (l.subtrees ++ r.subtrees)

end BTree

/-- The substitution of the regular expression `@[-0-9]+$` by the empty string (docstring, disambiguation.pyx:905). -/
def stripIdL : List Char → List Char
  | [] => []
  | c :: cs => if c = '@' ∧ cs ≠ [] ∧ cs.all (fun d => d.isDigit || d == '-') = true then [] else c :: stripIdL cs

def stripId (s : String) : String := String.ofList (stripIdL s.toList)

/-- The parts of the fine and the coarse grammar that are used. `bylhs`: the rules with their numbers; `lexical w`: `lexicalbyword[w]`, the label and probability of each lexical rule, `none` for an unknown
word; `rulenos`: of the coarse grammar. -/
structure Setup (K : Type) where
  fine : Gram
  coarse : Gram
  bylhs : List (Rule × Nat)
  prob : Nat → K
  lexical : String → Option (List (Nat × K))
  rulenos : List (Rule × Nat)
  rulemapping : Nat → List Nat

abbrev Cell (K : Type) := Nat → Option K

abbrev Chart (K : Type) := Nat → Option (Cell K)

set_option linter.unusedSectionVars false

variable {K : Type} [CommSemiring K]

/-- `lab == pos or lab.startswith(pos + '@')` (disambiguation.pyx:935-936). -/
def posMatch (pos lab : String) : Bool := lab == pos || (pos.toList ++ ['@']).isPrefixOf lab.toList

/-- The cell of a terminal (disambiguation.pyx:927-937); `none`: KeyError for `fine.toid[pos]`. -/
def posCell (S : Setup K) (word pos : String) : Option (Cell K) :=
  match S.lexical word with
  | none => (S.fine.toid pos).map (fun x => upd (fun _ => none) x (some 1))
  | some rs => some (rs.foldl (fun cell r => if posMatch pos (S.fine.tolabel.getD r.1 "") then upd cell r.1 (some r.2) else cell) (fun _ => none))

/-- The loop over `tree.pos()` (disambiguation.pyx:925-937). -/
def posLoop (S : Setup K) (sent : Nat → String) : List (Nat × String) → Chart K → Option (Chart K)
  | [], chart => some chart
  | (n, pos) :: rest, chart =>
    match posCell S (sent n) pos with
    | none => none
    | some cell => posLoop S sent rest (upd chart (1 <<< n) (some cell))

/-- `cell[lhs]` becomes the sum of its value, if any, and `p` (disambiguation.pyx:951-955, 963-966). -/
def addTo (cell : Cell K) (x : Nat) (p : K) : Cell K :=
  upd cell x (some (match cell x with
    | some q => q + p
    | none => p))

/-- `fine.bylhs[0][fine.revrulemap[ruleno]]`. -/
def ruleOf (S : Setup K) (no : Nat) : Rule := ((S.bylhs.find? (fun r => r.2 == no)).map Prod.fst).getD ⟨0, 0, 0, 0, 0⟩

/-- `coarse.toid[r[2]] if len(r) > 2 else 0`. -/
def rhs2No (S : Setup K) : Option String → Nat
  | some l => (S.coarse.toid l).getD 0
  | none => 0

/-- The key made by `getruleno` (_grammar.pxi:965-973); a label that is absent has number 0. `l2` is `none` for a unary production. -/
def prodKey (S : Setup K) (lab l1 : String) (l2 : Option String) (args lengths : Nat) : Rule :=
  ⟨(S.coarse.toid lab).getD 0, (S.coarse.toid l1).getD 0, rhs2No S l2, args, lengths⟩

/-- One rule at a unary node (disambiguation.pyx:948-955). -/
def unStep (S : Setup K) (cell : Cell K) (no : Nat) : Cell K :=
  match cell (ruleOf S no).rhs1 with
  | some q => addTo cell (ruleOf S no).lhs (S.prob no * q)
  | none => cell

/-- One rule at a binary node (disambiguation.pyx:959-966). -/
def binStep (S : Setup K) (left right : Cell K) (cell : Cell K) (no : Nat) : Cell K :=
  match left (ruleOf S no).rhs1, right (ruleOf S no).rhs2 with
  | some q1, some q2 => addTo cell (ruleOf S no).lhs (S.prob no * q1 * q2)
  | _, _ => cell

/-- One node in the bottom-up traversal (disambiguation.pyx:942-968). -/
def nodeStep (S : Setup K) (chart : Chart K) : BTree → Chart K
  | .pos _ _ => chart
  | .un lab a b c =>
    let t := BTree.un lab a b c
    let cell := (chart t.bitset).getD (fun _ => none)
    let prod := (lookup S.rulenos (prodKey S lab c.label none a b)).1
    upd chart t.bitset (some ((S.rulemapping prod).foldl (unStep S) cell))
  | .bin lab a b l r =>
    let t := BTree.bin lab a b l r
    let cell := (chart t.bitset).getD (fun _ => none)
    let prod := (lookup S.rulenos (prodKey S lab l.label (some r.label) a b)).1
    upd chart t.bitset (some ((S.rulemapping prod).foldl (binStep S ((chart l.bitset).getD (fun _ => none)) ((chart r.bitset).getD (fun _ => none))) cell))

/-- `dopparseprob(tree, sent, coarse, fine)` (disambiguation.pyx:888-969). Outer `none`: KeyError; inner `none`: log probability `-inf`. -/
def dopparseprob (S : Setup K) (sent : Nat → String) (t : BTree) : Option (Option K) :=
  match posLoop S sent t.posList (fun _ => none) with
  | none => none
  | some chart =>
    let chart := t.subtrees.reverse.foldl (nodeStep S) chart
    match S.fine.toid t.label with
    | none => none
    | some x => some (((chart t.bitset).getD (fun _ => none)) x)

/-! ### Specification -/

/-- A derivation of the fine grammar: the label of each terminal and the number of the rule at each other node. -/
inductive FD where
  | lex (x : Nat) (n : Nat)
  | un (no : Nat) (c : FD)
  | bin (no : Nat) (l r : FD)
  deriving DecidableEq

/-- The fine grammar has a rule with number `no` that becomes the production `lab → l1 l2` when the identifiers are removed from its labels. -/
def HasRule (S : Setup K) (no : Nat) (rule : Rule) (lab l1 l2 : String) (args lengths : Nat) : Prop :=
  (rule, no) ∈ S.bylhs ∧ stripId (S.fine.tolabel.getD rule.lhs "") = lab ∧ stripId (S.fine.tolabel.getD rule.rhs1 "") = l1 ∧
    stripId (S.fine.tolabel.getD rule.rhs2 "") = l2 ∧ rule.args = args ∧ rule.lengths = lengths

/-- `d` is a derivation of the tree `t` from the label `x`, with probability `p`: `t` is what is left of `d` when the identifiers are removed, and `p` is the product of the probabilities of the rules.
An unknown word has the tag of the tree with probability 1. -/
inductive Derives (S : Setup K) (sent : Nat → String) : BTree → FD → Nat → K → Prop
  | lex {lab : String} {n x : Nat} {p : K} {rs : List (Nat × K)} : S.lexical (sent n) = some rs → (x, p) ∈ rs → stripId (S.fine.tolabel.getD x "") = lab →
      Derives S sent (.pos lab n) (.lex x n) x p
  | unknown {lab : String} {n x : Nat} : S.lexical (sent n) = none → S.fine.toid lab = some x → Derives S sent (.pos lab n) (.lex x n) x 1
  | un {lab : String} {a b : Nat} {c : BTree} {d : FD} {no : Nat} {rule : Rule} {p : K} : HasRule S no rule lab c.label "Epsilon" a b → Derives S sent c d rule.rhs1 p →
      Derives S sent (.un lab a b c) (.un no d) rule.lhs (S.prob no * p)
  | bin {lab : String} {a b : Nat} {l r : BTree} {d1 d2 : FD} {no : Nat} {rule : Rule} {p q : K} : HasRule S no rule lab l.label r.label a b → Derives S sent l d1 rule.rhs1 p →
      Derives S sent r d2 rule.rhs2 q → Derives S sent (.bin lab a b l r) (.bin no d1 d2) rule.lhs (S.prob no * p * q)

/-- The labels of the nodes of the unary chain from the root of the tree down. -/
def chain : BTree → List String
  | .un l _ _ c => l :: chain c
  | t => [t.label]

/-- What is assumed of a tree: the labels do not contain `@`, and no unary chain has the same label twice. -/
def Plain : BTree → Prop
  | .pos l _ => '@' ∉ l.toList
  | .un l _ _ c => '@' ∉ l.toList ∧ l ∉ chain c ∧ Plain c
  | .bin lab _ _ l r => '@' ∉ lab.toList ∧ Plain l ∧ Plain r

def decPlain : (t : BTree) → Decidable (Plain t)
  | .pos l _ => inferInstanceAs (Decidable ('@' ∉ l.toList))
  | .un l _ _ c => @instDecidableAnd ('@' ∉ l.toList) _ _ (@instDecidableAnd (l ∉ chain c) _ _ (decPlain c))
  | .bin lab _ _ l r => @instDecidableAnd ('@' ∉ lab.toList) _ _ (@instDecidableAnd _ _ (decPlain l) (decPlain r))

instance : DecidablePred Plain := decPlain

/-- The productions of the tree are in the coarse grammar. -/
def InCoarse (S : Setup K) : BTree → Prop
  | .pos l _ => ∃ x, S.coarse.toid l = some x
  | .un lab a b c => InCoarse S c ∧ (∃ x, S.coarse.toid lab = some x) ∧ ∃ m, (prodKey S lab c.label none a b, m) ∈ S.rulenos
  | .bin lab a b l r => InCoarse S l ∧ InCoarse S r ∧ (∃ x, S.coarse.toid lab = some x) ∧ ∃ m, (prodKey S lab l.label (some r.label) a b, m) ∈ S.rulenos

/-- The tag of an unknown word is a label of the fine grammar. -/
def TagsKnown (S : Setup K) (sent : Nat → String) (t : BTree) : Prop := ∀ x ∈ t.posList, S.lexical (sent x.1) = none → (S.fine.toid x.2).isSome

/-- What is assumed of the grammars: the numbers of the rules are distinct, the rule mapping has been made with `getrulemapping`, every rule with stripped labels is in the coarse grammar, label 0 is
`Epsilon`, and a word has one lexical rule for each label. -/
structure Ready (S : Setup K) : Prop where
  nos : (S.bylhs.map Prod.snd).Nodup
  keys : ∀ x ∈ S.rulenos, ∀ y ∈ S.rulenos, x.1 = y.1 → x = y
  numbers : ∀ x ∈ S.rulenos, ∀ y ∈ S.rulenos, x.2 = y.2 → x = y
  covered : ∀ r ∈ S.bylhs, ∃ key, coarseKey S.fine S.coarse stripId r.1 = some key ∧ ∃ m, (key, m) ∈ S.rulenos
  mapping : getrulemapping S.fine S.coarse stripId S.bylhs S.rulenos (fun _ => []) = some (S.rulemapping, S.rulenos)
  epsilon : S.coarse.tolabel[0]? = some "Epsilon"
  lexlabels : ∀ w rs, S.lexical w = some rs → (rs.map Prod.fst).Nodup

/-! ### Lemmas: labels -/

def base (s : String) : List Char := s.toList.takeWhile (fun c => decide (c ≠ '@'))

theorem stripIdL_base : ∀ (l m : List Char), stripIdL l = m → '@' ∉ m → l.takeWhile (fun c => decide (c ≠ '@')) = m := by
  intro l
  induction l with
  | nil => intro m h _; simpa [stripIdL] using h
  | cons c cs ih =>
    intro m h hm
    unfold stripIdL at h
    split at h
    · rename_i hc; subst h; simp [hc.1]
    · subst h
      rw [List.mem_cons, not_or] at hm
      rw [List.takeWhile_cons, if_pos (by simpa using fun h => hm.1 h.symm), ih _ rfl hm.2]

theorem strip_base {s lab : String} (h : stripId s = lab) (hl : '@' ∉ lab.toList) : base s = lab.toList := by
  subst h
  rw [stripId, String.toList_ofList] at hl ⊢
  exact stripIdL_base _ _ rfl hl

theorem stripIdL_match : ∀ (l m : List Char), stripIdL l = m → l = m ∨ m ++ ['@'] <+: l := by
  intro l
  induction l with
  | nil => intro m h; left; simpa [stripIdL] using h
  | cons c cs ih =>
    intro m h
    unfold stripIdL at h
    split at h
    · rename_i hc; subst h; right; simp [hc.1]
    · subst h
      rcases ih _ rfl with h | h
      · left; exact congrArg _ h
      · right; simpa using h

theorem posMatch_of_strip {s lab : String} (h : stripId s = lab) : posMatch lab s = true := by
  have h' : stripIdL s.toList = lab.toList := by subst h; simp [stripId]
  unfold posMatch
  rcases stripIdL_match _ _ h' with h | h
  · simp [String.toList_inj.1 h]
  · rw [Bool.or_eq_true]; right
    simpa using h

theorem posMatch_base {s lab : String} (h : posMatch lab s = true) (hl : '@' ∉ lab.toList) : base s = lab.toList := by
  have hall : ∀ c ∈ lab.toList, decide (c ≠ '@') = true := by
    intro c hc; simp; rintro rfl; exact hl hc
  unfold posMatch at h
  rw [Bool.or_eq_true] at h
  rcases h with h | h
  · have : s = lab := by simpa using h
    subst this
    exact List.takeWhile_eq_self_iff.2 hall
  · have h : lab.toList ++ ['@'] <+: s.toList := by simpa using h
    obtain ⟨r, hr⟩ := h
    rw [base, ← hr, List.append_assoc, List.takeWhile_append_of_pos hall]
    simp

theorem strip_self {lab : String} (hl : '@' ∉ lab.toList) : stripId lab = lab := by
  have : ∀ l : List Char, '@' ∉ l → stripIdL l = l := by
    intro l
    induction l with
    | nil => intro _; rfl
    | cons c cs ih =>
      intro h
      rw [List.mem_cons, not_or] at h
      rw [stripIdL, if_neg (fun hc => h.1 hc.1.symm), ih h.2]
  rw [stripId, this _ hl, String.ofList_toList]

/-! ### Lemmas: sums -/

/-- The sum of a list, `none` if there are no terms. -/
def optSum (l : List K) : Option K := if l = [] then none else some l.sum

def addO (o : Option K) (p : K) : Option K := some (match o with
  | some q => q + p
  | none => p)

theorem foldl_addO : ∀ (l : List K) (q : K), l.foldl addO (some q) = some (q + l.sum) := by
  intro l
  induction l with
  | nil => intro q; simp
  | cons a l ih => intro q; rw [List.foldl_cons, show addO (some q) a = some (q + a) from rfl, ih, List.sum_cons, add_assoc]

theorem foldl_addO_none (l : List K) : l.foldl addO none = optSum l := by
  cases l with
  | nil => rfl
  | cons a l => rw [List.foldl_cons, show addO (none : Option K) a = some a from rfl, foldl_addO]; simp [optSum]

theorem optSum_append_some {l : List K} {v : K} (h : optSum l = some v) (m : List K) : optSum (l ++ m) = some (v + m.sum) := by
  unfold optSum at h ⊢
  split at h
  · cases h
  · rename_i hl
    cases h
    rw [if_neg (by simp [hl]), List.sum_append]

theorem optSum_none {l : List K} : optSum l = none ↔ l = [] := by
  unfold optSum; split <;> simp_all

theorem optSum_filterMap {α : Type} (g : α → List K) : ∀ l : List α, optSum (l.filterMap (fun a => optSum (g a))) = optSum (l.flatMap g) := by
  intro l
  have key : (l.filterMap (fun a => optSum (g a))).sum = (l.flatMap g).sum ∧ ((l.filterMap (fun a => optSum (g a))) = [] ↔ (l.flatMap g) = []) := by
    induction l with
    | nil => simp
    | cons a l ih =>
      rw [List.filterMap_cons, List.flatMap_cons]
      cases hg : optSum (g a) with
      | none => rw [optSum_none.1 hg]; simpa using ih
      | some v =>
        have hne : g a ≠ [] := fun h => by rw [optSum_none.2 h] at hg; cases hg
        have hv : (g a).sum = v := by
          unfold optSum at hg; rw [if_neg hne] at hg; exact Option.some.inj hg
        constructor
        · simp [List.sum_append, hv, ih.1]
        · simp [hne]
  generalize l.filterMap (fun a => optSum (g a)) = m at key ⊢
  unfold optSum
  by_cases h : l.flatMap g = []
  · rw [if_pos h, if_pos (key.2.2 h)]
  · rw [if_neg h, if_neg (fun h' => h (key.2.1 h')), key.1]

theorem optSum_map_mul (c : K) (l : List K) : (optSum l).map (fun q => c * q) = optSum (l.map (fun q => c * q)) := by
  unfold optSum
  by_cases h : l = []
  · simp [h]
  · rw [if_neg h, if_neg (by simpa using h), Option.map_some, List.sum_map_mul_left]; simp

theorem optSum_mul (c : K) (l m : List K) :
    (match optSum l, optSum m with
    | some q1, some q2 => some (c * q1 * q2)
    | _, _ => none) = optSum (l.flatMap (fun p => m.map (fun q => c * p * q))) := by
  by_cases hl : l = []
  · subst hl; rfl
  by_cases hm : m = []
  · subst hm
    have : (l.flatMap fun p => ([] : List K).map (fun q => c * p * q)) = [] := by simp
    rw [this]
    simp [optSum]
  have hne : (l.flatMap (fun p => m.map (fun q => c * p * q))) ≠ [] := by
    simp only [ne_eq, List.flatMap_eq_nil_iff, List.map_eq_nil_iff, not_forall]
    obtain ⟨a, ha⟩ := List.exists_mem_of_ne_nil l hl
    exact ⟨a, ha, hm⟩
  have hsum : (l.flatMap (fun p => m.map (fun q => c * p * q))).sum = c * l.sum * m.sum := by
    clear hl hne
    induction l with
    | nil => simp
    | cons a l ih =>
      rw [List.flatMap_cons, List.sum_append, ih, List.sum_map_mul_left, List.sum_cons, mul_add, add_mul]; simp
  simp only [optSum, if_neg hl, if_neg hm, if_neg hne, hsum]

theorem addTo_eq (cell : Cell K) (x : Nat) (p : K) (y : Nat) : addTo cell x p y = if y = x then addO (cell x) p else cell y := rfl

/-- A loop that adds the contribution of each element to an entry. -/
theorem fold_contrib {α : Type} (step : Cell K → α → Cell K) (lhs : α → Nat) (f : α → Option K) (I : Cell K → Prop) (as : List α)
    (hstep : ∀ cell a, I cell → a ∈ as → step cell a = match f a with
      | some p => addTo cell (lhs a) p
      | none => cell)
    (hI : ∀ cell a p, I cell → a ∈ as → I (addTo cell (lhs a) p)) :
    ∀ cell, I cell → ∀ x, as.foldl step cell x = (as.filterMap (fun a => if lhs a = x then f a else none)).foldl addO (cell x) := by
  induction as with
  | nil => intro cell _ x; rfl
  | cons a as ih =>
    intro cell hc x
    have ih' := ih (fun cell a h1 h2 => hstep cell a h1 (List.mem_cons_of_mem _ h2)) (fun cell a p h1 h2 => hI cell a p h1 (List.mem_cons_of_mem _ h2))
    rw [List.foldl_cons, hstep cell a hc List.mem_cons_self, List.filterMap_cons]
    cases hf : f a with
    | none => simp only [ite_self]; exact ih' cell hc x
    | some p =>
      simp only
      rw [ih' _ (hI cell a p hc List.mem_cons_self) x, addTo_eq]
      by_cases hx : lhs a = x
      · subst hx; simp
      · rw [if_neg (fun h => hx h.symm), if_neg hx]

/-! ### Lemmas: rules -/

def hasRuleB (S : Setup K) (lab l1 l2 : String) (a b : Nat) (r : Rule × Nat) : Bool :=
  decide (stripId (S.fine.tolabel.getD r.1.lhs "") = lab ∧ stripId (S.fine.tolabel.getD r.1.rhs1 "") = l1 ∧ stripId (S.fine.tolabel.getD r.1.rhs2 "") = l2 ∧ r.1.args = a ∧ r.1.lengths = b)

theorem hasRule_iff (S : Setup K) (lab l1 l2 : String) (a b : Nat) (r : Rule × Nat) : r ∈ S.bylhs.filter (hasRuleB S lab l1 l2 a b) ↔ HasRule S r.2 r.1 lab l1 l2 a b := by
  rw [List.mem_filter]; simp [hasRuleB, HasRule]

theorem ruleOf_eq {S : Setup K} (hS : Ready S) {r : Rule × Nat} (h : r ∈ S.bylhs) : ruleOf S r.2 = r.1 := by
  have hn := hS.nos
  unfold ruleOf
  have hf : (S.bylhs.find? (fun x => x.2 == r.2)) = some r := by
    generalize S.bylhs = l at h hn
    induction l with
    | nil => cases h
    | cons a l ih =>
      rw [List.map_cons, List.nodup_cons] at hn
      rw [List.find?_cons]
      rcases List.mem_cons.1 h with rfl | h
      · simp
      · have : (a.2 == r.2) = false := by
          rw [beq_eq_false_iff_ne]; intro he; exact hn.1 (he ▸ List.mem_map.2 ⟨r, h, rfl⟩)
        rw [this]; exact ih h hn.2
  rw [hf]; rfl

theorem lookup_eq {S : Setup K} (hS : Ready S) {key : Rule} {m : Nat} (h : (key, m) ∈ S.rulenos) : (lookup S.rulenos key).1 = m := by
  unfold lookup
  cases hf : S.rulenos.find? (fun x => decide (x.1 = key)) with
  | none => have := List.find?_eq_none.1 hf _ h; simp at this
  | some x =>
    have h1 := List.find?_some hf
    have h2 := List.mem_of_find?_eq_some hf
    have := hS.keys x h2 _ h (by simpa using h1)
    simp [this]

theorem toid_of_label {g : Gram} {s : String} {c : Nat} (h : g.toid s = some c) {s' : String} (h' : g.toid s' = some c) : s = s' := by
  have h1 := toid_spec h
  have h2 := toid_spec h'
  rw [h1] at h2; exact Option.some.inj h2

theorem toid_zero {S : Setup K} (hS : Ready S) : S.coarse.toid "Epsilon" = some 0 := by
  have h := hS.epsilon
  unfold Gram.toid
  cases hl : S.coarse.tolabel with
  | nil => rw [hl] at h; cases h
  | cons a l =>
    rw [hl] at h
    have : a = "Epsilon" := by simpa using h
    subst this
    simp

theorem mapping_eq {S : Setup K} (hS : Ready S) {lab l1 : String} {l2 : Option String} {a b m : Nat} (hlab : ∃ x, S.coarse.toid lab = some x) (h1 : ∃ x, S.coarse.toid l1 = some x)
    (h2 : ∀ l, l2 = some l → ∃ x, S.coarse.toid l = some x) (hm : (prodKey S lab l1 l2 a b, m) ∈ S.rulenos) :
    S.rulemapping (lookup S.rulenos (prodKey S lab l1 l2 a b)).1 = (S.bylhs.filter (hasRuleB S lab l1 (l2.getD "Epsilon") a b)).map Prod.snd := by
  obtain ⟨rm, e1, e2⟩ := C58_rulemapping S.fine S.coarse stripId hS.keys hS.covered
  rw [hS.mapping] at e1
  have e1 : S.rulemapping = rm := by simpa using e1
  rw [lookup_eq hS hm, e1, e2 m]
  congr 1
  apply List.filter_congr
  intro r hr
  obtain ⟨key, hk, m', hm'⟩ := hS.covered r hr
  rw [Bool.eq_iff_iff, hk]
  have hkey : (Option.any (fun key => decide ((key, m) ∈ S.rulenos)) (some key)) = true ↔ key = prodKey S lab l1 l2 a b := by
    simp only [Option.any_some, decide_eq_true_eq]
    constructor
    · intro h
      have := hS.numbers _ h _ hm rfl
      exact congrArg Prod.fst this
    · rintro rfl; exact hm
  rw [hkey]
  obtain ⟨x, hx⟩ := hlab
  obtain ⟨x1, hx1⟩ := h1
  have hx2 : ∃ x2, S.coarse.toid (l2.getD "Epsilon") = some x2 ∧ rhs2No S l2 = x2 := by
    cases l2 with
    | none => exact ⟨0, toid_zero hS, rfl⟩
    | some l => obtain ⟨x2, hx2⟩ := h2 l rfl; exact ⟨x2, hx2, by simp [hx2, rhs2No]⟩
  obtain ⟨x2, hx2, hx2'⟩ := hx2
  unfold coarseKey at hk
  unfold prodKey
  rw [hx, hx1, hx2']
  split at hk
  · rename_i y y1 y2 hy hy1 hy2
    cases hk
    simp only [Option.getD_some, Rule.mk.injEq, hasRuleB, decide_eq_true_eq]
    constructor
    · rintro ⟨rfl, rfl, rfl, h4, h5⟩
      exact ⟨toid_of_label hy hx, toid_of_label hy1 hx1, toid_of_label hy2 hx2, h4, h5⟩
    · rintro ⟨g, g1, g2, h4, h5⟩
      rw [g, hx] at hy; rw [g1, hx1] at hy1; rw [g2, hx2] at hy2
      exact ⟨(Option.some.inj hy).symm, (Option.some.inj hy1).symm, (Option.some.inj hy2).symm, h4, h5⟩
  · cases hk

/-! ### Lemmas: derivations -/

/-- The derivations of the tree from the label `x` with their probabilities. -/
def enum (S : Setup K) (sent : Nat → String) : BTree → Nat → List (FD × K)
  | .pos lab n, x =>
    match S.lexical (sent n) with
    | none => if S.fine.toid lab = some x then [(.lex x n, 1)] else []
    | some rs => if stripId (S.fine.tolabel.getD x "") = lab then (rs.filter (fun r => r.1 == x)).map (fun r => (.lex x n, r.2)) else []
  | .un lab a b c, x =>
    ((S.bylhs.filter (hasRuleB S lab c.label "Epsilon" a b)).filter (fun r => r.1.lhs == x)).flatMap (fun r => (enum S sent c r.1.rhs1).map (fun d => (.un r.2 d.1, S.prob r.2 * d.2)))
  | .bin lab a b l r, x =>
    ((S.bylhs.filter (hasRuleB S lab l.label r.label a b)).filter (fun r => r.1.lhs == x)).flatMap (fun u => (enum S sent l u.1.rhs1).flatMap (fun d =>
      (enum S sent r u.1.rhs2).map (fun e => (.bin u.2 d.1 e.1, S.prob u.2 * d.2 * e.2))))

theorem mem_enum (S : Setup K) (sent : Nat → String) : ∀ (t : BTree) (x : Nat) (d : FD) (p : K), (d, p) ∈ enum S sent t x ↔ Derives S sent t d x p := by
  intro t
  induction t with
  | pos lab n =>
    intro x d p
    unfold enum
    cases hl : S.lexical (sent n) with
    | none =>
      simp only
      constructor
      · intro h
        split at h
        · rename_i hx
          rw [List.mem_singleton] at h; cases h
          exact .unknown hl hx
        · cases h
      · intro h
        cases h with
        | lex h1 => rw [hl] at h1; cases h1
        | unknown _ hx => simp [hx]
    | some rs =>
      simp only
      constructor
      · intro h
        split at h
        · rename_i hx
          simp only [List.mem_map, List.mem_filter] at h
          obtain ⟨r, ⟨hr, hrx⟩, he⟩ := h
          cases he
          have : r.1 = x := by simpa using hrx
          subst this
          exact .lex hl hr hx
        · cases h
      · intro h
        cases h with
        | lex h1 h2 h3 =>
          rw [hl] at h1; cases h1
          rw [if_pos h3]
          exact List.mem_map.2 ⟨(x, p), List.mem_filter.2 ⟨h2, by simp⟩, rfl⟩
        | unknown h1 => rw [hl] at h1; cases h1
  | un lab a b c ih =>
    intro x d p
    simp only [enum, List.mem_flatMap, List.mem_map]
    constructor
    · rintro ⟨r, hr, ⟨d', p'⟩, hd', he⟩
      rw [List.mem_filter] at hr
      cases he
      have : r.1.lhs = x := by simpa using hr.2
      subst this
      exact .un ((hasRule_iff ..).1 hr.1) ((ih _ _ _).1 hd')
    · intro h
      cases h with
      | @un _ _ _ _ d' no rule p' hr hd => exact ⟨(rule, no), List.mem_filter.2 ⟨(hasRule_iff ..).2 hr, by simp⟩, (d', p'), (ih _ _ _).2 hd, rfl⟩
  | bin lab a b l r ihl ihr =>
    intro x d p
    simp only [enum, List.mem_flatMap, List.mem_map]
    constructor
    · rintro ⟨u, hu, ⟨d', p'⟩, hd', ⟨e', q'⟩, he', he⟩
      rw [List.mem_filter] at hu
      cases he
      have : u.1.lhs = x := by simpa using hu.2
      subst this
      exact .bin ((hasRule_iff ..).1 hu.1) ((ihl _ _ _).1 hd') ((ihr _ _ _).1 he')
    · intro h
      cases h with
      | @bin _ _ _ _ _ d1 d2 no rule p' q' hr h1 h2 =>
        exact ⟨(rule, no), List.mem_filter.2 ⟨(hasRule_iff ..).2 hr, by simp⟩, (d1, p'), (ihl _ _ _).2 h1, (d2, q'), (ihr _ _ _).2 h2, rfl⟩

theorem nodup_flatMap_map {α β γ : Type} (f : α → List β) (g : α → β → γ) : ∀ (l : List α), l.Nodup → (∀ a ∈ l, ((f a).map (g a)).Nodup) →
    (∀ a ∈ l, ∀ a' ∈ l, ∀ b b', g a b = g a' b' → a = a') → (l.flatMap (fun a => (f a).map (g a))).Nodup := by
  intro l hl h1 h2
  induction l with
  | nil => simp
  | cons a l ih =>
    rw [List.nodup_cons] at hl
    rw [List.flatMap_cons, List.nodup_append]
    refine ⟨h1 a List.mem_cons_self, ih hl.2 (fun b hb => h1 b (List.mem_cons_of_mem _ hb)) (fun b hb c hc => h2 b (List.mem_cons_of_mem _ hb) c (List.mem_cons_of_mem _ hc)), ?_⟩
    intro x hx y hy hxy
    obtain ⟨b, _, rfl⟩ := List.mem_map.1 hx
    obtain ⟨a', ha', hy⟩ := List.mem_flatMap.1 hy
    obtain ⟨b', _, rfl⟩ := List.mem_map.1 hy
    have := h2 a List.mem_cons_self a' (List.mem_cons_of_mem _ ha') b b' hxy
    subst this
    exact hl.1 ha'

theorem nodup_enum {S : Setup K} (hS : Ready S) (sent : Nat → String) : ∀ (t : BTree) (x : Nat), ((enum S sent t x).map Prod.fst).Nodup := by
  have hfil : ∀ p q : Rule × Nat → Bool, (((S.bylhs.filter p).filter q).map Prod.snd).Nodup := by
    intro p q
    exact hS.nos.sublist ((List.filter_sublist.trans List.filter_sublist).map _)
  have hinj : ∀ p q : Rule × Nat → Bool, ∀ a ∈ (S.bylhs.filter p).filter q, ∀ a' ∈ (S.bylhs.filter p).filter q, a.2 = a'.2 → a = a' :=
    fun p q a ha a' ha' h => List.inj_on_of_nodup_map (hfil p q) ha ha' h
  intro t
  induction t with
  | pos lab n =>
    intro x
    unfold enum
    cases hl : S.lexical (sent n) with
    | none => simp only; split <;> simp
    | some rs =>
      simp only
      split
      · rw [List.map_map]
        have hn := hS.lexlabels _ _ hl
        have : (rs.filter (fun r => r.1 == x)).length ≤ 1 := by
          clear hl
          induction rs with
          | nil => simp
          | cons a rs ih =>
            rw [List.map_cons, List.nodup_cons] at hn
            rw [List.filter_cons]
            split
            · rename_i ha
              have ha : a.1 = x := by simpa using ha
              have : rs.filter (fun r => r.1 == x) = [] := by
                rw [List.filter_eq_nil_iff]
                intro b hb hbx
                have hbx : b.1 = x := by simpa using hbx
                exact hn.1 (ha ▸ hbx ▸ List.mem_map.2 ⟨b, hb, rfl⟩)
              simp [this]
            · exact ih hn.2
        generalize rs.filter (fun r => r.1 == x) = l at this
        match l, this with
        | [], _ => simp
        | [_], _ => simp
      · simp
  | un lab a b c ih =>
    intro x
    simp only [enum, List.map_flatMap, List.map_map]
    apply nodup_flatMap_map (fun r : Rule × Nat => enum S sent c r.1.rhs1) (fun r : Rule × Nat => Prod.fst ∘ fun d => (FD.un r.2 d.1, S.prob r.2 * d.2))
    · exact (hfil _ _).of_map _
    · intro r _
      have : (Prod.fst ∘ fun d : FD × K => (FD.un r.2 d.1, S.prob r.2 * d.2)) = FD.un r.2 ∘ Prod.fst := rfl
      rw [this, ← List.map_map]
      exact (ih _).map (fun a b h => by cases h; rfl)
    · intro r hr r' hr' d d' h
      have h : FD.un r.2 d.1 = FD.un r'.2 d'.1 := h
      injection h with h1
      exact hinj _ _ r hr r' hr' h1
  | bin lab a b l r ihl ihr =>
    intro x
    simp only [enum, List.map_flatMap]
    have hcur : ∀ u : Rule × Nat, ((enum S sent l u.1.rhs1).flatMap fun d => ((enum S sent r u.1.rhs2).map fun e => ((FD.bin u.2 d.1 e.1, S.prob u.2 * d.2 * e.2) : FD × K)).map Prod.fst) =
        (((enum S sent l u.1.rhs1).map Prod.fst).flatMap fun d => ((enum S sent r u.1.rhs2).map Prod.fst).map (fun e => (d, e))).map (fun z => FD.bin u.2 z.1 z.2) := by
      intro u
      rw [List.map_flatMap, List.flatMap_map]
      apply List.flatMap_congr
      intro d _
      simp [Function.comp_def]
    simp only [hcur]
    apply nodup_flatMap_map (fun u : Rule × Nat => ((enum S sent l u.1.rhs1).map Prod.fst).flatMap fun d => ((enum S sent r u.1.rhs2).map Prod.fst).map (fun e => (d, e))) (fun (u : Rule × Nat) z => FD.bin u.2 z.1 z.2)
    · exact (hfil _ _).of_map _
    · intro u _
      apply List.Nodup.map (fun a b h => by
        obtain ⟨a1, a2⟩ := a; obtain ⟨b1, b2⟩ := b
        injection h with _ h1 h2
        simp only at h1 h2
        rw [h1, h2])
      apply nodup_flatMap_map (fun _ => (enum S sent r u.1.rhs2).map Prod.fst) (fun d e => (d, e))
      · exact ihl _
      · intro d _
        exact (ihr _).map (fun a b h => by cases h; rfl)
      · intro d _ d' _ e e' h
        cases h; rfl
    · intro u hu u' hu' z z' h
      injection h with h1
      exact hinj _ _ u hu u' hu' h1

/-- The value of a cell that the specification asks for. -/
def val (S : Setup K) (sent : Nat → String) (t : BTree) (x : Nat) : Option K := optSum ((enum S sent t x).map Prod.snd)

/-! ### Lemmas: trees -/

theorem leaves_ne (t : BTree) : t.leaves ≠ [] := by
  induction t with
  | pos => simp [BTree.leaves]
  | un _ _ _ _ ih => exact ih
  | bin _ _ _ l r ihl ihr => simp [BTree.leaves, ihl]

theorem subtree_leaves {t s : BTree} (h : s ∈ t.subtrees) : List.Sublist s.leaves t.leaves := by
  induction t with
  | pos => simp only [BTree.subtrees, List.mem_singleton] at h; subst h; exact List.Sublist.refl _
  | un _ _ _ c ih =>
    rcases List.mem_cons.1 h with rfl | h
    · exact List.Sublist.refl _
    · exact ih h
  | bin _ _ _ l r ihl ihr =>
    rcases List.mem_cons.1 h with rfl | h
    · exact List.Sublist.refl _
    · rcases List.mem_append.1 h with h | h
      · exact (ihl h).trans (List.sublist_append_left _ _)
      · exact (ihr h).trans (List.sublist_append_right _ _)

theorem self_mem (t : BTree) : t ∈ t.subtrees := by cases t <;> simp [BTree.subtrees]

theorem bitset_leaves {l m : List Nat} (hl : l.Nodup) (hm : m.Nodup) (h : bitsetOf l = bitsetOf m) (i : Nat) : i ∈ l ↔ i ∈ m := by
  rw [← C09_bitsetOf l hl i, ← C09_bitsetOf m hm i, h]

theorem posList_fst (t : BTree) : t.posList.map Prod.fst = t.leaves := by
  induction t with
  | pos => rfl
  | un _ _ _ _ ih => exact ih
  | bin _ _ _ l r ihl ihr => simp [BTree.posList, BTree.leaves, ihl, ihr]

theorem bitset_pos (lab : String) (n : Nat) : (BTree.pos lab n).bitset = 1 <<< n := by
  simp [BTree.bitset, BTree.leaves, bitsetOf]

def IsBin : BTree → Prop
  | .bin .. => True
  | _ => False

theorem bin_ne_pos {lab : String} {a b : Nat} {l r : BTree} (h : (BTree.bin lab a b l r).leaves.Nodup) (n : Nat) : (BTree.bin lab a b l r).bitset ≠ 1 <<< n := by
  intro he
  have he : bitsetOf (l.leaves ++ r.leaves) = bitsetOf [n] := by simpa [BTree.bitset, BTree.leaves, bitsetOf] using he
  have hk := bitset_leaves h (by simp) he
  simp only [BTree.leaves] at h
  rw [List.nodup_append] at h
  obtain ⟨x, hx⟩ := List.exists_mem_of_ne_nil _ (leaves_ne l)
  obtain ⟨y, hy⟩ := List.exists_mem_of_ne_nil _ (leaves_ne r)
  have hxn := List.mem_singleton.1 ((hk x).1 (List.mem_append.2 (Or.inl hx)))
  have hyn := List.mem_singleton.1 ((hk y).1 (List.mem_append.2 (Or.inr hy)))
  exact h.2.2 x hx y hy (hxn.trans hyn.symm)

/-! ### The cells of the terminals -/

theorem posFold (p : Nat → Bool) : ∀ (rs : List (Nat × K)), (rs.map Prod.fst).Nodup → ∀ (cell : Cell K) (x : Nat),
    rs.foldl (fun cell r => if p r.1 then upd cell r.1 (some r.2) else cell) cell x =
      if p x = true ∧ x ∈ rs.map Prod.fst then optSum ((rs.filter (fun r => r.1 == x)).map Prod.snd) else cell x := by
  intro rs
  induction rs with
  | nil => intro _ cell x; simp
  | cons a rs ih =>
    intro hn cell x
    rw [List.map_cons, List.nodup_cons] at hn
    rw [List.foldl_cons, ih hn.2]
    by_cases hax : a.1 = x
    · subst hax
      have hfil : rs.filter (fun r => r.1 == a.1) = [] := by
        rw [List.filter_eq_nil_iff]
        intro b hb hbx
        have hbx : b.1 = a.1 := by simpa using hbx
        exact hn.1 (hbx ▸ List.mem_map.2 ⟨b, hb, rfl⟩)
      have hno : ¬ (p a.1 = true ∧ a.1 ∈ rs.map Prod.fst) := fun h => hn.1 h.2
      rw [if_neg hno]
      by_cases hp : p a.1 = true
      · rw [if_pos hp, if_pos (⟨hp, by simp⟩ : p a.1 = true ∧ a.1 ∈ (a :: rs).map Prod.fst)]
        simp [hfil, upd, optSum]
      · have hno' : ¬ (p a.1 = true ∧ a.1 ∈ (a :: rs).map Prod.fst) := fun h => hp h.1
        rw [if_neg hp, if_neg hno']
    · have : ((a :: rs).filter (fun r => r.1 == x)) = rs.filter (fun r => r.1 == x) := by
        rw [List.filter_cons, if_neg (by simpa using hax)]
      rw [this]
      by_cases hp : p x = true ∧ x ∈ rs.map Prod.fst
      · rw [if_pos hp, if_pos ⟨hp.1, List.mem_cons_of_mem _ hp.2⟩]
      · have hno' : ¬ (p x = true ∧ x ∈ (a :: rs).map Prod.fst) := fun h => hp ⟨h.1, (List.mem_cons.1 h.2).resolve_left (fun h => hax h.symm)⟩
        rw [if_neg hp, if_neg hno']
        split
        · simp [upd, Ne.symm hax]
        · rfl

theorem posCell_spec {S : Setup K} (hS : Ready S) (sent : Nat → String) {lab : String} {n : Nat} (hlab : '@' ∉ lab.toList) {cell : Cell K} (h : posCell S (sent n) lab = some cell) :
    (∀ x, stripId (S.fine.tolabel.getD x "") = lab → cell x = val S sent (.pos lab n) x) ∧ ∀ x, cell x ≠ none → base (S.fine.tolabel.getD x "") = lab.toList := by
  unfold posCell at h
  unfold val enum
  cases hl : S.lexical (sent n) with
  | none =>
    rw [hl] at h
    simp only at h ⊢
    cases ht : S.fine.toid lab with
    | none => rw [ht] at h; cases h
    | some y =>
      rw [ht] at h
      cases h
      have hy : S.fine.tolabel.getD y "" = lab := by rw [List.getD_eq_getElem?_getD, toid_spec ht]; rfl
      constructor
      · intro x _
        by_cases hxy : x = y
        · subst hxy; simp [upd, optSum]
        · simp [upd, hxy, Ne.symm hxy, optSum]
      · intro x hx
        have hxy : x = y := by
          by_contra hne; exact hx (by simp [upd, hne])
        rw [hxy, hy, base]
        exact List.takeWhile_eq_self_iff.2 (fun c hc => by simp; rintro rfl; exact hlab hc)
  | some rs =>
    rw [hl] at h
    simp only at h ⊢
    cases h
    have hn := hS.lexlabels _ _ hl
    have key := posFold (fun x => posMatch lab (S.fine.tolabel.getD x "")) rs hn (fun _ => none)
    constructor
    · intro x hx
      rw [key x, if_pos hx, List.map_map]
      by_cases hm : x ∈ rs.map Prod.fst
      · rw [if_pos ⟨posMatch_of_strip hx, hm⟩]; rfl
      · rw [if_neg (fun h => hm h.2)]
        have hfil : rs.filter (fun r => r.1 == x) = [] := by
          rw [List.filter_eq_nil_iff]
          intro b hb hbx
          have hbx : b.1 = x := by simpa using hbx
          exact hm (hbx ▸ List.mem_map.2 ⟨b, hb, rfl⟩)
        rw [hfil]; rfl
    · intro x hx
      rw [key x] at hx
      split at hx
      · rename_i hp; exact posMatch_base hp.1 hlab
      · exact absurd rfl hx

theorem posLoop_spec (S : Setup K) (sent : Nat → String) : ∀ (l : List (Nat × String)), (l.map Prod.fst).Nodup → (∀ x ∈ l, ∃ cell, posCell S (sent x.1) x.2 = some cell) → ∀ chart : Chart K,
    ∃ chart', posLoop S sent l chart = some chart' ∧ (∀ x ∈ l, ∃ cell, posCell S (sent x.1) x.2 = some cell ∧ chart' (1 <<< x.1) = some cell) ∧
      ∀ k, (∀ x ∈ l, 1 <<< x.1 ≠ k) → chart' k = chart k := by
  intro l
  induction l with
  | nil => intro _ _ chart; exact ⟨chart, rfl, by simp, fun _ _ => rfl⟩
  | cons a l ih =>
    intro hn hc chart
    obtain ⟨n, pos⟩ := a
    rw [List.map_cons, List.nodup_cons] at hn
    obtain ⟨cell, hcell⟩ := hc _ List.mem_cons_self
    obtain ⟨chart', h1, h2, h3⟩ := ih hn.2 (fun x hx => hc x (List.mem_cons_of_mem _ hx)) (upd chart (1 <<< n) (some cell))
    simp only at hcell
    refine ⟨chart', by simp only [posLoop, hcell, h1], ?_, ?_⟩
    · intro x hx
      rcases List.mem_cons.1 hx with rfl | hx
      · refine ⟨cell, hcell, ?_⟩
        rw [h3 _ (fun y hy he => hn.1 ?_)]
        · simp [upd]
        · have : n = y.1 := by
            have := congrArg (fun z => Nat.testBit z y.1) he
            simpa [Nat.testBit_shiftLeft, Nat.one_shiftLeft, Nat.testBit_two_pow] using this
          rw [this]; exact List.mem_map.2 ⟨y, hy, rfl⟩
      · exact h2 x hx
    · intro k hk
      rw [h3 k (fun x hx => hk x (List.mem_cons_of_mem _ hx))]
      have := hk _ List.mem_cons_self
      simp only at this
      simp [upd, Ne.symm this]

/-! ### The nodes -/

theorem filterMap_filter_map {α β : Type} (l : List α) (lhs : α → Nat) (x : Nat) (f : α → Option β) :
    l.filterMap (fun a => if lhs a = x then f a else none) = (l.filter (fun a => lhs a == x)).filterMap f := by
  induction l with
  | nil => rfl
  | cons a l ih =>
    by_cases h : lhs a = x
    · rw [List.filter_cons, if_pos (by simpa using h), List.filterMap_cons, List.filterMap_cons, if_pos h, ih]
    · rw [List.filter_cons, if_neg (by simpa using h), List.filterMap_cons, if_neg h, ih]

/-- What has been computed for a tree: the cell of its root has the specified values for the labels of the root; its other labels are those of the unary chain. -/
def Done (S : Setup K) (sent : Nat → String) (t : BTree) (chart : Chart K) : Prop :=
  ∃ cell, chart t.bitset = some cell ∧ (∀ x, stripId (S.fine.tolabel.getD x "") = t.label → cell x = val S sent t x) ∧
    ∀ x, cell x ≠ none → ∃ l ∈ chain t, base (S.fine.tolabel.getD x "") = l.toList

theorem plain_label {t : BTree} (h : Plain t) : '@' ∉ t.label.toList := by
  cases t with
  | pos => exact h
  | un => exact h.1
  | bin => exact h.1

theorem incoarse_label {S : Setup K} {t : BTree} (h : InCoarse S t) : ∃ x, S.coarse.toid t.label = some x := by
  cases t with
  | pos => exact h
  | un => exact h.2.1
  | bin => exact h.2.2.1

theorem chain_at {t : BTree} (h : Plain t) : ∀ l ∈ chain t, '@' ∉ l.toList := by
  induction t with
  | pos l n => intro l' hl; simp only [chain, List.mem_singleton] at hl; subst hl; exact h
  | un l a b c ih =>
    intro l' hl
    rcases List.mem_cons.1 hl with rfl | hl
    · exact h.1
    · exact ih h.2.2 l' hl
  | bin lab a b l r => intro l' hl; simp only [chain, List.mem_singleton] at hl; subst hl; exact h.1

theorem label_chain (t : BTree) : t.label ∈ chain t := by cases t <;> simp [chain, BTree.label]

/-- The loop over the rules of a unary node. -/
theorem un_fold {S : Setup K} (hS : Ready S) {lab cl : String} {a b : Nat} (hlab : '@' ∉ lab.toList) (hcl : '@' ∉ cl.toList) (hne : lab ≠ cl) (cell : Cell K) (x : Nat) :
    ((S.bylhs.filter (hasRuleB S lab cl "Epsilon" a b)).map Prod.snd).foldl (unStep S) cell x =
      (((S.bylhs.filter (hasRuleB S lab cl "Epsilon" a b)).filter (fun r => r.1.lhs == x)).filterMap (fun r => (cell r.1.rhs1).map (fun q => S.prob r.2 * q))).foldl addO (cell x) := by
  rw [List.foldl_map]
  rw [fold_contrib (fun c (r : Rule × Nat) => unStep S c r.2) (fun r => r.1.lhs) (fun r => (cell r.1.rhs1).map (fun q => S.prob r.2 * q))
    (fun c => ∀ y, base (S.fine.tolabel.getD y "") = cl.toList → c y = cell y) _ ?_ ?_ cell (fun _ _ => rfl) x, filterMap_filter_map]
  · intro c r hI hr
    obtain ⟨hmem, _, h1, _⟩ := (hasRule_iff ..).1 hr
    simp only [unStep]
    rw [ruleOf_eq hS hmem, hI _ (strip_base h1 hcl)]
    cases cell r.1.rhs1 <;> rfl
  · intro c r p hI hr y hy
    obtain ⟨hmem, h0, _⟩ := (hasRule_iff ..).1 hr
    rw [addTo_eq, if_neg, hI y hy]
    rintro rfl
    rw [strip_base h0 hlab] at hy
    exact hne (String.toList_inj.1 hy)

theorem bin_fold {S : Setup K} (hS : Ready S) {lab l1 l2 : String} {a b : Nat} (left right cell : Cell K) (x : Nat) :
    ((S.bylhs.filter (hasRuleB S lab l1 l2 a b)).map Prod.snd).foldl (binStep S left right) cell x =
      (((S.bylhs.filter (hasRuleB S lab l1 l2 a b)).filter (fun r => r.1.lhs == x)).filterMap (fun r => match left r.1.rhs1, right r.1.rhs2 with
        | some q1, some q2 => some (S.prob r.2 * q1 * q2)
        | _, _ => none)).foldl addO (cell x) := by
  rw [List.foldl_map]
  rw [fold_contrib (fun c (r : Rule × Nat) => binStep S left right c r.2) (fun r => r.1.lhs) (fun r => match left r.1.rhs1, right r.1.rhs2 with
        | some q1, some q2 => some (S.prob r.2 * q1 * q2)
        | _, _ => none)
    (fun _ => True) _ ?_ (fun _ _ _ _ _ => trivial) cell trivial x, filterMap_filter_map]
  · intro c r _ hr
    obtain ⟨hmem, _⟩ := (hasRule_iff ..).1 hr
    simp only [binStep]
    rw [ruleOf_eq hS hmem]
    cases left r.1.rhs1 <;> cases right r.1.rhs2 <;> rfl

theorem fold_base {S : Setup K} {ps : List (Rule × Nat)} {f : Rule × Nat → Option K} {o : Option K} {x : Nat} {lab : String}
    (hps : ∀ r ∈ ps, stripId (S.fine.tolabel.getD r.1.lhs "") = lab) (h : ((ps.filter (fun r => r.1.lhs == x)).filterMap f).foldl addO o ≠ none) :
    o ≠ none ∨ stripId (S.fine.tolabel.getD x "") = lab := by
  by_cases he : ps.filter (fun r => r.1.lhs == x) = []
  · rw [he] at h; exact Or.inl h
  · obtain ⟨r, hr⟩ := List.exists_mem_of_ne_nil _ he
    rw [List.mem_filter] at hr
    right
    rw [← hps r hr.1]
    have : r.1.lhs = x := by simpa using hr.2
    rw [this]

theorem main {S : Setup K} (hS : Ready S) (sent : Nat → String) : ∀ (t : BTree), t.leaves.Nodup → Plain t → InCoarse S t → ∀ chart : Chart K,
    (∀ x ∈ t.posList, ∃ cell, posCell S (sent x.1) x.2 = some cell ∧ chart (1 <<< x.1) = some cell) → (∀ s ∈ t.subtrees, IsBin s → chart s.bitset = none) →
    Done S sent t (t.subtrees.reverse.foldl (nodeStep S) chart) ∧
      ∀ k, (∀ s ∈ t.subtrees, s.bitset ≠ k) → t.subtrees.reverse.foldl (nodeStep S) chart k = chart k := by
  intro t
  induction t with
  | pos lab n =>
    intro _ hp _ chart h1 _
    simp only [BTree.subtrees, List.reverse_singleton, List.foldl_cons, List.foldl_nil, nodeStep]
    refine ⟨?_, fun _ _ => trivial⟩
    obtain ⟨cell, hc, hk⟩ := h1 (n, lab) (by simp [BTree.posList])
    obtain ⟨g1, g2⟩ := posCell_spec hS sent hp hc
    exact ⟨cell, by rw [bitset_pos]; exact hk, g1, fun x hx => ⟨lab, by simp [chain, BTree.label], g2 x hx⟩⟩
  | un lab a b c ih =>
    intro hn hp hi chart h1 h2
    obtain ⟨hlab, hch, hpc⟩ := hp
    obtain ⟨hic, hil, m, hm⟩ := hi
    obtain ⟨⟨cell, e1, e2, e3⟩, ho⟩ := ih hn hpc hic chart h1 (fun s hs => h2 s (List.mem_cons_of_mem _ hs))
    simp only [BTree.subtrees, List.reverse_cons, List.foldl_append, List.foldl_cons, List.foldl_nil]
    generalize c.subtrees.reverse.foldl (nodeStep S) chart = chart1 at e1 ho ⊢
    have hb : (BTree.un lab a b c).bitset = c.bitset := rfl
    simp only [nodeStep, hb]
    rw [mapping_eq hS hil (incoarse_label hic) (fun l h => by cases h) hm, e1]
    simp only [Option.getD_some, Option.getD_none]
    have hne : lab ≠ c.label := fun h => hch (h ▸ label_chain c)
    have hfold := un_fold hS (a := a) (b := b) hlab (plain_label hpc) hne cell
    refine ⟨⟨_, by rw [hb, upd, if_pos rfl], ?_, ?_⟩, ?_⟩
    · intro x hx
      rw [hfold x]
      have hx0 : cell x = none := by
        by_contra hx0
        obtain ⟨l, hl, hbl⟩ := e3 x hx0
        rw [strip_base hx hlab] at hbl
        have hll : lab = l := String.toList_inj.1 hbl
        exact hch (hll ▸ hl)
      rw [hx0, foldl_addO_none, val, enum, List.map_flatMap, ← optSum_filterMap]
      congr 1
      apply List.filterMap_congr
      intro r hr
      obtain ⟨_, _, h1, _⟩ := (hasRule_iff ..).1 (List.mem_filter.1 hr).1
      rw [e2 _ h1, val, optSum_map_mul, List.map_map, List.map_map]
      rfl
    · intro x hx
      rw [hfold x] at hx
      rcases fold_base (lab := lab) (fun r hr => ((hasRule_iff ..).1 hr).2.1) hx with hx | hx
      · obtain ⟨l, hl, hbl⟩ := e3 x hx
        exact ⟨l, List.mem_cons_of_mem _ hl, hbl⟩
      · exact ⟨lab, List.mem_cons_self, strip_base hx hlab⟩
    · intro k hk
      have hk0 := hk _ List.mem_cons_self
      rw [hb] at hk0
      rw [upd, if_neg (Ne.symm hk0), ho k (fun s hs => hk s (List.mem_cons_of_mem _ hs))]
  | bin lab a b l r ihl ihr =>
    intro hn hp hi chart h1 h2
    obtain ⟨hlab, hpl, hpr⟩ := hp
    obtain ⟨hil, hir, hilab, m, hm⟩ := hi
    have hn' := hn
    simp only [BTree.leaves] at hn'
    rw [List.nodup_append] at hn'
    obtain ⟨hnl, hnr, hdis⟩ := hn'
    have hlr : ∀ s ∈ l.subtrees, ∀ s' ∈ r.subtrees, s.bitset ≠ s'.bitset := by
      intro s hs s' hs' he
      have hk := bitset_leaves (hnl.sublist (subtree_leaves hs)) (hnr.sublist (subtree_leaves hs')) he
      obtain ⟨x, hx⟩ := List.exists_mem_of_ne_nil _ (leaves_ne s)
      exact hdis x ((subtree_leaves hs).subset hx) x ((subtree_leaves hs').subset ((hk x).1 hx)) rfl
    have htl : ∀ s ∈ l.subtrees, s.bitset ≠ (BTree.bin lab a b l r).bitset := by
      intro s hs he
      have hk := bitset_leaves (hnl.sublist (subtree_leaves hs)) hn he
      obtain ⟨x, hx⟩ := List.exists_mem_of_ne_nil _ (leaves_ne r)
      exact hdis x ((subtree_leaves hs).subset ((hk x).2 (List.mem_append.2 (Or.inr hx)))) x hx rfl
    have htr : ∀ s ∈ r.subtrees, s.bitset ≠ (BTree.bin lab a b l r).bitset := by
      intro s hs he
      have hk := bitset_leaves (hnr.sublist (subtree_leaves hs)) hn he
      obtain ⟨x, hx⟩ := List.exists_mem_of_ne_nil _ (leaves_ne l)
      exact hdis x hx x ((subtree_leaves hs).subset ((hk x).2 (List.mem_append.2 (Or.inl hx)))) rfl
    have hposl : ∀ (t : BTree), t.leaves.Nodup → ∀ x ∈ t.posList, ∃ s ∈ t.subtrees, s.bitset = 1 <<< x.1 := by
      intro t _
      induction t with
      | pos lb n => intro x hx; simp only [BTree.posList, List.mem_singleton] at hx; subst hx; exact ⟨.pos lb n, self_mem _, bitset_pos _ _⟩
      | un _ _ _ c ih => intro x hx; obtain ⟨s, hs, he⟩ := ih (by assumption) x hx; exact ⟨s, List.mem_cons_of_mem _ hs, he⟩
      | bin _ _ _ l r ihl ihr =>
        rename_i hh
        simp only [BTree.leaves] at hh
        rw [List.nodup_append] at hh
        intro x hx
        rcases List.mem_append.1 hx with hx | hx
        · obtain ⟨s, hs, he⟩ := ihl hh.1 x hx; exact ⟨s, List.mem_cons_of_mem _ (List.mem_append.2 (Or.inl hs)), he⟩
        · obtain ⟨s, hs, he⟩ := ihr hh.2.1 x hx; exact ⟨s, List.mem_cons_of_mem _ (List.mem_append.2 (Or.inr hs)), he⟩
    simp only [BTree.subtrees, List.reverse_cons, List.reverse_append, List.foldl_append, List.foldl_cons, List.foldl_nil]
    obtain ⟨⟨rc, r1, r2, r3⟩, ro⟩ := ihr hnr hpr hir chart (fun x hx => h1 x (List.mem_append.2 (Or.inr hx)))
      (fun s hs => h2 s (List.mem_cons_of_mem _ (List.mem_append.2 (Or.inr hs))))
    generalize r.subtrees.reverse.foldl (nodeStep S) chart = chart1 at r1 ro ⊢
    obtain ⟨⟨lc, l1, l2, l3⟩, lo⟩ := ihl hnl hpl hil chart1
      (fun x hx => by
        obtain ⟨cell, hc1, hc2⟩ := h1 x (List.mem_append.2 (Or.inl hx))
        obtain ⟨s, hs, he⟩ := hposl l hnl x hx
        exact ⟨cell, hc1, by rw [ro _ (fun s' hs' he' => hlr s hs s' hs' (he.trans he'.symm)), hc2]⟩)
      (fun s hs hb => by
        rw [ro _ (fun s' hs' he' => hlr s hs s' hs' he'.symm)]
        exact h2 s (List.mem_cons_of_mem _ (List.mem_append.2 (Or.inl hs))) hb)
    generalize l.subtrees.reverse.foldl (nodeStep S) chart1 = chart2 at l1 lo ⊢
    have hr2 : chart2 r.bitset = some rc := by rw [lo _ (fun s hs he => hlr s hs r (self_mem _) he), r1]
    have ht2 : chart2 (BTree.bin lab a b l r).bitset = none := by
      rw [lo _ htl, ro _ htr]; exact h2 _ List.mem_cons_self trivial
    simp only [nodeStep]
    rw [mapping_eq hS hilab (incoarse_label hil) (fun l h => by cases h; exact incoarse_label hir) hm, hr2, l1, ht2]
    simp only [Option.getD_some, Option.getD_none]
    have hfold := bin_fold hS (lab := lab) (l1 := l.label) (l2 := r.label) (a := a) (b := b) lc rc (fun _ => none)
    refine ⟨⟨_, by rw [upd, if_pos rfl], ?_, ?_⟩, ?_⟩
    · intro x hx
      rw [hfold x, foldl_addO_none, val, enum, List.map_flatMap, ← optSum_filterMap]
      congr 1
      apply List.filterMap_congr
      intro u hu
      obtain ⟨_, _, g1, g2, _⟩ := (hasRule_iff ..).1 (List.mem_filter.1 hu).1
      rw [l2 _ g1, r2 _ g2, val, val, optSum_mul, List.flatMap_map, List.map_flatMap]
      congr 1
      apply List.flatMap_congr
      intro d _
      simp [Function.comp_def]
    · intro x hx
      rw [hfold x] at hx
      rcases fold_base (lab := lab) (fun r hr => ((hasRule_iff ..).1 hr).2.1) hx with hx | hx
      · exact absurd rfl hx
      · exact ⟨lab, by simp [chain, BTree.label], strip_base hx hlab⟩
    · intro k hk
      rw [upd, if_neg (Ne.symm (hk _ List.mem_cons_self)), lo k (fun s hs => hk s (List.mem_cons_of_mem _ (List.mem_append.2 (Or.inl hs)))),
        ro k (fun s hs => hk s (List.mem_cons_of_mem _ (List.mem_append.2 (Or.inr hs))))]

/-! ### Theorems -/

/-- **C60**: for a binarized tree without repeated labels in a unary chain, `dopparseprob` is the sum of the probabilities of exactly the derivations of the fine grammar that give this tree when the
identifiers are removed from the labels: the probability of the tree in the DOP reduction. It is `-inf` exactly when there is no derivation. -/
theorem C60_dopparseprob {S : Setup K} (hS : Ready S) (sent : Nat → String) {t : BTree} (hn : t.leaves.Nodup) (hp : Plain t) (hi : InCoarse S t) (ht : TagsKnown S sent t)
    {root : Nat} (hroot : S.fine.toid t.label = some root) :
    ∃ (v : Option K) (derivs : List (FD × K)), dopparseprob S sent t = some v ∧ (derivs.map Prod.fst).Nodup ∧ (∀ d p, (d, p) ∈ derivs ↔ Derives S sent t d root p) ∧
      v.getD 0 = (derivs.map Prod.snd).sum ∧ (v = none ↔ ∀ d p, ¬ Derives S sent t d root p) := by
  have hcells : ∀ x ∈ t.posList, ∃ cell, posCell S (sent x.1) x.2 = some cell := by
    intro x hx
    unfold posCell
    cases hl : S.lexical (sent x.1) with
    | some rs => exact ⟨_, rfl⟩
    | none =>
      obtain ⟨y, hy⟩ := Option.isSome_iff_exists.1 (ht x hx hl)
      rw [hy]; exact ⟨_, rfl⟩
  obtain ⟨chart, c1, c2, c3⟩ := posLoop_spec S sent t.posList (by rw [posList_fst]; exact hn) hcells (fun _ => none)
  obtain ⟨⟨cell, e1, e2, _⟩, _⟩ := main hS sent t hn hp hi chart c2 (by
    intro s hs hb
    rw [c3]
    intro x _ he
    cases s with
    | pos => cases hb
    | un => cases hb
    | bin => exact bin_ne_pos (hn.sublist (subtree_leaves hs)) _ he.symm)
  have hstrip : stripId (S.fine.tolabel.getD root "") = t.label := by
    rw [List.getD_eq_getElem?_getD, toid_spec hroot]
    exact strip_self (plain_label hp)
  refine ⟨cell root, enum S sent t root, ?_, nodup_enum hS sent t root, mem_enum S sent t root, ?_, ?_⟩
  · simp only [dopparseprob, c1, hroot, e1, Option.getD_some]
  · rw [e2 _ hstrip, val]
    unfold optSum
    split
    · rename_i h; simp [h]
    · rfl
  · rw [e2 _ hstrip, val, optSum_none, List.map_eq_nil_iff]
    constructor
    · intro h d p hd
      rw [← mem_enum, h] at hd; cases hd
    · intro h
      rw [List.eq_nil_iff_forall_not_mem]
      rintro ⟨d, p⟩ hd
      exact h d p ((mem_enum ..).1 hd)

/-! ### Examples -/

/-- The grammar of a DOP reduction for the trees (S (A a) (B b)) and (S (A (C a)) (B b)); the probabilities are scaled. Rules: S → A B, S → A@1 B, S → A B@2, S → A@3 B; A → C, A@3 → C, A → C@4. -/
def exSetup (S : Gram) (rules : List (Rule × Nat)) (cg : Gram) (nos : List (Rule × Nat)) (lex : String → Option (List (Nat × Nat))) (prob : List Nat) : Setup Nat where
  fine := S
  coarse := cg
  bylhs := rules
  prob := fun n => prob.getD n 0
  lexical := lex
  rulenos := nos
  rulemapping := ((getrulemapping S cg stripId rules nos (fun _ => [])).map Prod.fst).getD (fun _ => [])

def exFine : Gram := ⟨["Epsilon", "S", "A", "A@1", "B", "B@2", "A@3", "C", "C@4"], []⟩

def exCoarse : Gram := ⟨["Epsilon", "S", "A", "B", "C"], []⟩

def exRules : List (Rule × Nat) := [(⟨1, 2, 4, 2, 2⟩, 0), (⟨1, 3, 4, 2, 2⟩, 1), (⟨1, 2, 5, 2, 2⟩, 2), (⟨1, 6, 4, 2, 2⟩, 3), (⟨2, 7, 0, 0, 1⟩, 4), (⟨6, 7, 0, 0, 1⟩, 5), (⟨2, 8, 0, 0, 1⟩, 6)]

def exNos : List (Rule × Nat) := [(⟨1, 2, 3, 2, 2⟩, 0), (⟨2, 4, 0, 0, 1⟩, 1)]

def exLex (w : String) : Option (List (Nat × Nat)) :=
  if w = "a" then some [(2, 2), (3, 3), (7, 5), (8, 7)] else if w = "b" then some [(4, 11), (5, 13)] else none

def exS : Setup Nat := exSetup exFine exRules exCoarse exNos exLex [2, 3, 5, 7, 11, 13, 17]

def exSent (n : Nat) : String := if n = 0 then "a" else "b"

def exT1 : BTree := .bin "S" 2 2 (.pos "A" 0) (.pos "B" 1)

def exT2 : BTree := .bin "S" 2 2 (.un "A" 0 1 (.pos "C" 0)) (.pos "B" 1)

theorem exReady : Ready exS where
  nos := by decide +kernel
  keys := by decide +kernel
  numbers := by decide +kernel
  covered := by
    have h : ∀ r ∈ exS.bylhs, ((coarseKey exS.fine exS.coarse stripId r.1).any (fun key => exS.rulenos.any (fun x => x.1 == key))) = true := by decide +kernel
    intro r hr
    obtain ⟨key, hk, h⟩ := Option.any_eq_true (x := coarseKey exS.fine exS.coarse stripId r.1) .. |>.1 (h r hr)
    obtain ⟨x, hx, he⟩ := List.any_eq_true.1 h
    exact ⟨key, hk, x.2, by rw [← beq_iff_eq.1 he]; exact hx⟩
  mapping := by
    have h : (getrulemapping exS.fine exS.coarse stripId exS.bylhs exS.rulenos (fun _ => [])).map Prod.snd = some exS.rulenos := by decide +kernel
    cases hg : getrulemapping exS.fine exS.coarse stripId exS.bylhs exS.rulenos (fun _ => []) with
    | none => rw [hg] at h; cases h
    | some x =>
      rw [hg] at h
      have hx : exS.rulemapping = x.1 := by
        change ((getrulemapping exS.fine exS.coarse stripId exS.bylhs exS.rulenos (fun _ => [])).map Prod.fst).getD (fun _ => []) = x.1
        rw [hg]; rfl
      have h2 : x.2 = exS.rulenos := Option.some.inj h
      rw [hx, ← h2]
  epsilon := by decide +kernel
  lexlabels := by
    intro w rs h
    change exLex w = some rs at h
    unfold exLex at h
    split at h
    · cases h; decide
    · split at h
      · cases h; decide
      · cases h

/-- The two trees meet the hypotheses; the probability of the first is 2·2·11 + 3·3·11 + 5·2·13. -/
example : exT1.leaves.Nodup ∧ Plain exT1 ∧ InCoarse exS exT1 ∧ TagsKnown exS exSent exT1 ∧ exS.fine.toid exT1.label = some 1 ∧ dopparseprob exS exSent exT1 = some (some 273) := by
  refine ⟨by decide +kernel, by decide +kernel, ⟨⟨2, by decide +kernel⟩, ⟨3, by decide +kernel⟩, ⟨1, by decide +kernel⟩, 0, by decide +kernel⟩, ?_, by decide +kernel, by decide +kernel⟩
  intro x hx h
  have : x = (0, "A") ∨ x = (1, "B") := by simpa [exT1, BTree.posList] using hx
  rcases this with rfl | rfl
  · have : (exS.lexical (exSent 0)).isSome = true := by decide +kernel
    rw [h] at this; cases this
  · have : (exS.lexical (exSent 1)).isSome = true := by decide +kernel
    rw [h] at this; cases this

/-- For the second: 2·(11·5 + 17·7)·11 + 7·(13·5)·11 + 5·(11·5 + 17·7)·13. -/
example : Plain exT2 ∧ InCoarse exS exT2 ∧ dopparseprob exS exSent exT2 = some (some 20143) := by
  refine ⟨by decide +kernel,
    ⟨⟨⟨4, by decide +kernel⟩, ⟨2, by decide +kernel⟩, 1, by decide +kernel⟩, ⟨3, by decide +kernel⟩, ⟨1, by decide +kernel⟩, 0, by decide +kernel⟩, by decide +kernel⟩

/-! ### Disagreement -/

def exU : Setup Nat := exSetup ⟨["Epsilon", "X", "A"], []⟩ [(⟨1, 2, 0, 0, 1⟩, 0), (⟨1, 1, 0, 0, 1⟩, 1)] ⟨["Epsilon", "X", "A"], []⟩ [(⟨1, 2, 0, 0, 1⟩, 0), (⟨1, 1, 0, 0, 1⟩, 1)]
  (fun _ => some [(2, 3)]) [5, 7]

def exUT : BTree := .un "X" 0 1 (.un "X" 0 1 (.pos "A" 0))

/-- **C60 fails** for a tree with the same label twice in a unary chain: the two nodes share a cell, so that the probability of the lower node is added to that of the upper one. With the rules
X → A and X → X of weights 5 and 7 and the tag A of weight 3, the only derivation of (X (X (A w))) has weight 7·5·3 = 105, but the result is 105 + 15. -/
theorem C60_unary_disagreement :
    dopparseprob exU (fun _ => "w") exUT = some (some 120) ∧ ∀ d p, Derives exU (fun _ => "w") exUT d 1 p ↔ d = .un 1 (.un 0 (.lex 2 0)) ∧ p = 105 := by
  refine ⟨by decide +kernel, ?_⟩
  intro d p
  rw [← mem_enum]
  have : enum exU (fun _ => "w") exUT 1 = [(.un 1 (.un 0 (.lex 2 0)), 105)] := by decide +kernel
  rw [this]
  simp

end Disco.Disamb.DopProb
