import Verif.Grammar.YieldBits
import Verif.Basic.Counter
import Mathlib.Algebra.Field.Rat
import Mathlib.Algebra.Order.Ring.Rat
import Mathlib.Algebra.Order.BigOperators.Group.List
import Mathlib.Tactic.FieldSimp
import Mathlib.Tactic.Linarith
import Mathlib.Tactic.Ring
/-!
# C44, C45: the `Grammar` object (`_grammar.pxi`)

Reading the rules and the lexicon (`_convertrules`, `_convertlexicon`), labels and their numbers, counts and normalisation.

Simplifications: weights are exact rationals, and what is stored as `fabs(log(p))` is modelled as `p`; the conversion of a weight from text (`strtod`)
is the parameter `conv`, with 0 for errors; the input is given as the list of the fields of each line; the arrays `_unary`, `_lbinary` and `_rbinary`
hold copies of the rules in `_bylhs` and are left out here; the rules of a word are not sorted. Exceptions and undefined behaviour are `none`.
-/
namespace Disco.Convert
open YieldBits Dict Prods

/-- The key of a rule: C++ class `Rule` (containers.pxd:181-186). -/
structure Key where
  lhs : Nat
  rhs1 : Nat
  rhs2 : Nat
  args : Nat
  lengths : Nat
  deriving DecidableEq, Repr

/-- C++ class `ProbRule` (containers.pxd:172-179). -/
structure PRule where
  key : Key
  no : Nat
  prob : ℚ
  deriving DecidableEq

/-- C++ class `LexicalRule` (containers.pxd:187-189). -/
structure Lex where
  lhs : Nat
  prob : ℚ
  deriving DecidableEq

/-- The fields of `Grammar` that are filled while reading (containers.pxd:530-560). -/
structure Gram where
  tolabel : List Str
  toid : Dict Str Nat
  freqmass : List ℚ
  fanout : List Nat
  rulenos : Dict Key Nat
  rulecounts : List ℚ
  rules : List PRule
  lexical : List Lex
  lexcounts : List ℚ
  byword : Dict Str (List Nat)
  deriving DecidableEq

/-- The state before reading (`Grammar.__init__`, _grammar.pxi:100-112). -/
def Gram.init (start : Str) : Gram where
  tolabel := [epsilon, start]
  toid := set (set [] epsilon 0) start 1
  freqmass := [0, 0]
  fanout := [0, 1]
  rulenos := []
  rulecounts := []
  rules := []
  lexical := []
  lexcounts := []
  byword := []

/-- Look up a label, adding it if it is new (_grammar.pxi:467-473, 482-490, 499-507, 607-616). -/
def withLabel (g : Gram) (l : Str) (fan : Nat) : Gram × Nat :=
  match get? g.toid l with
  | some i => (g, i)
  | none => ({ g with toid := set g.toid l g.tolabel.length, tolabel := g.tolabel ++ [l], freqmass := g.freqmass ++ [0], fanout := g.fanout ++ [fan] },
      g.tolabel.length)

/-- Add a rule or update its weight (_grammar.pxi:526-555). -/
def insertRule (g : Gram) (key : Key) (w : ℚ) : Gram :=
  match get? g.rulenos key with
  | none => { g with
      rulenos := set g.rulenos key g.rules.length
      rules := g.rules ++ [⟨key, g.rules.length, w⟩]
      rulecounts := g.rulecounts ++ [w]
      freqmass := g.freqmass.modify key.lhs (· + w) }
  | some m => { g with rulecounts := g.rulecounts.modify m (· + w), freqmass := g.freqmass.modify key.lhs (· + w) }

/-- One rule (_grammar.pxi:467-555); `c` is the second nonterminal of the right-hand side if there is one. -/
def addRule (g : Gram) (a b : Str) (c : Option Str) (s : YieldBits.YF) (w : ℚ) : Option Gram :=
  if (get? g.toid a).any (fun i => decide (g.fanout.getD i 0 ≠ s.fanout)) then none
  else
    let p1 := withLabel g a s.fanout
    let p2 := withLabel p1.1 b s.rhs1
    if p1.2 = 0 ∨ p2.2 = 0 then none
    else
      let p3 := c.elim (p2.1, 0) (fun c => withLabel p2.1 c s.rhs2)
      if c.isSome ∧ p3.2 = 0 then none
      else if p2.2 = 1 ∨ p3.2 = 1 then none
      else if w ≤ 0 then none
      else some (insertRule p3.1 ⟨p1.2, p2.2, p3.2, s.args, s.lengths⟩ w)

/-- The weight, nonterminals and yield function on a line (_grammar.pxi:414-466). In the bitpar format (weight first, no yield function) the bits
are set according to the number of fields. -/
def parseLine (bitpar : Bool) (fields : List Str) : Option (Str × List Str × YieldBits.YF) :=
  if bitpar then
    match fields with
    | w :: rule => some (w, rule, if rule.length > 1 then ⟨2, 2, 0, 1, 1, 1⟩ else ⟨0, 1, 0, 1, 1, 1⟩)
    | [] => none
  else
    match fields.reverse with
    | w :: yf :: r => (readYF yf).bind (fun s =>
        if r.length = 2 ∧ (s.rhs1 = 0 ∨ s.rhs2 ≠ 0) then none
        else if r.length = 3 ∧ (s.rhs1 = 0 ∨ s.rhs2 = 0) then none
        else some (w, r.reverse, s))
    | _ => none

/-- One line of the rules file. -/
def convertLine (bitpar : Bool) (conv : Str → ℚ) (g : Gram) (fields : List Str) : Option Gram :=
  (parseLine bitpar fields).bind (fun (w, rule, s) =>
    match rule with
    | [a, b] => addRule g a b none s (conv w)
    | [a, b, c] => addRule g a b (some c) s (conv w)
    | _ => none)

/-- `_convertrules` (_grammar.pxi:391-566). -/
def convertrules (bitpar : Bool) (conv : Str → ℚ) (g : Gram) (lines : List (List Str)) : Option Gram :=
  (lines.foldlM (convertLine bitpar conv) g).bind (fun g => if g.rules = [] then none else some g)

/-- Add a lexical rule or update its weight (_grammar.pxi:627-643). -/
def insertLex (g : Gram) (word : Str) (lhs : Nat) (w : ℚ) : Gram :=
  match ((get? g.byword word).getD []).find? (fun i => decide ((g.lexical[i]?.map Lex.lhs) = some lhs)) with
  | some i => { g with lexcounts := g.lexcounts.modify i (· + w), freqmass := g.freqmass.modify lhs (· + w) }
  | none => { g with
      lexcounts := g.lexcounts ++ [w]
      lexical := g.lexical ++ [⟨lhs, w⟩]
      byword := set g.byword word ((get? g.byword word).getD [] ++ [g.lexical.length])
      freqmass := g.freqmass.modify lhs (· + w) }

/-- `tag weight` (_grammar.pxi:600-606): cut at the first space. -/
def cutSpace : Str → Option (Str × Str)
  | [] => none
  | c :: s => if c = ' ' then some ([], s) else (cutSpace s).map (fun p => (c :: p.1, p.2))

/-- One tag of a word (_grammar.pxi:599-643). -/
def convertTag (conv : Str → ℚ) (word : Str) (g : Gram) (field : Str) : Option Gram :=
  (cutSpace field).bind (fun (tag, weight) =>
    if (get? g.toid tag).any (fun i => decide (g.fanout.getD i 0 ≠ 1)) then none
    else
      let p := withLabel g tag 1
      if conv weight ≤ 0 then none else some (insertLex p.1 word p.2 (conv weight)))

/-- One line of the lexicon (_grammar.pxi:582-652). -/
def convertWord (conv : Str → ℚ) (checkdup : Bool) (g : Gram) (fields : List Str) : Option Gram :=
  match fields with
  | word :: f :: fs => if checkdup && (get? g.byword word).isSome then none else (f :: fs).foldlM (convertTag conv word) g
  | _ => none

/-- `_convertlexicon` (_grammar.pxi:568-653). -/
def convertlexicon (conv : Str → ℚ) (checkdup : Bool) (g : Gram) (lines : List (List Str)) : Option Gram :=
  (lines.foldlM (convertWord conv checkdup) g).bind (fun g => if g.lexical = [] then none else some g)

/-- Every label occurs as a left-hand side (_grammar.pxi:361-366). -/
def allSeen (g : Gram) : Bool :=
  (List.range' 1 (g.tolabel.length - 1)).all (fun l => g.rules.any (fun r => decide (r.key.lhs = l)) || g.lexical.any (fun r => decide (r.lhs = l)))

/-- `addrules` up to the weights (_grammar.pxi:312-366). -/
def addrules (bitpar : Bool) (conv : Str → ℚ) (checkdup : Bool) (g : Gram) (rules lexicon : List (List Str)) : Option Gram := do
  let g ← convertrules bitpar conv g rules
  let g ← convertlexicon conv checkdup g lexicon
  if allSeen g then some g else none

/-- `Grammar(rules, lexicon, start)` (_grammar.pxi:56-113). -/
def construct (bitpar : Bool) (conv : Str → ℚ) (start : Str) (rules lexicon : List (List Str)) : Option Gram :=
  addrules bitpar conv true (Gram.init start) rules lexicon

/-- The weights set by the constructor: `prob / freqmass[lhs]` (_grammar.pxi:329-345). -/
def initWeight (g : Gram) (r : PRule) : ℚ := r.prob / g.freqmass.getD r.key.lhs 0
/-- The same for lexical rules. -/
def initLexWeight (g : Gram) (r : Lex) : ℚ := r.prob / g.freqmass.getD r.lhs 0

/-- The weights set by `switch('default')`: `rulecounts[no] / freqmass[lhs]` (`Grammar.switch`, _grammar.pxi:707-745). -/
def defaultWeight (g : Gram) (r : PRule) : ℚ := g.rulecounts.getD r.no 0 / g.freqmass.getD r.key.lhs 0
/-- The same for lexical rules; `i` is the index of the rule. -/
def defaultLexWeight (g : Gram) (i : Nat) (r : Lex) : ℚ := g.lexcounts.getD i 0 / g.freqmass.getD r.lhs 0

/-! ### Specification -/

/-- A rule by name: left-hand side, right-hand side, encoded yield function. -/
structure Spec.NRule where
  lhs : Str
  rhs1 : Str
  rhs2 : Option Str
  args : Nat
  lengths : Nat
  deriving DecidableEq, Repr

/-- The rule and the weight on a line of the rules file. -/
def Spec.rule (bitpar : Bool) (conv : Str → ℚ) (fields : List Str) : Option (Spec.NRule × ℚ) :=
  (parseLine bitpar fields).bind (fun (w, rule, s) =>
    match rule with
    | [a, b] => some (⟨a, b, none, s.args, s.lengths⟩, conv w)
    | [a, b, c] => some (⟨a, b, some c, s.args, s.lengths⟩, conv w)
    | _ => none)

/-- The lexical rules (tag, word, weight) on a line of the lexicon. -/
def Spec.lexRules (conv : Str → ℚ) (fields : List Str) : List ((Str × Str) × ℚ) :=
  match fields with
  | word :: fs => fs.filterMap (fun f => (cutSpace f).map (fun (tag, weight) => ((tag, word), conv weight)))
  | _ => []

/-- All rules of the file. -/
def Spec.rules (bitpar : Bool) (conv : Str → ℚ) (lines : List (List Str)) : List (Spec.NRule × ℚ) := lines.filterMap (Spec.rule bitpar conv)

/-- All entries of the lexicon. -/
def Spec.lexicon (conv : Str → ℚ) (lines : List (List Str)) : List ((Str × Str) × ℚ) := lines.flatMap (Spec.lexRules conv)

/-- The label with a number. -/
def Spec.name (g : Gram) (i : Nat) : Str := g.tolabel.getD i []

/-- A stored rule by name. -/
def Spec.named (g : Gram) (k : Key) : Spec.NRule := ⟨Spec.name g k.lhs, Spec.name g k.rhs1, if k.rhs2 = 0 then none else some (Spec.name g k.rhs2), k.args, k.lengths⟩

/-- The stored rules with their counts. -/
def Spec.stored (g : Gram) : List (Spec.NRule × ℚ) := g.rules.map (fun r => (Spec.named g r.key, g.rulecounts.getD r.no 0))

/-- The count of a word with a tag. -/
def Spec.lexCount (g : Gram) (tag word : Str) : ℚ :=
  (((get? g.byword word).getD []).find? (fun i => decide ((g.lexical[i]?.map (fun r => Spec.name g r.lhs)) = some tag))).elim 0 (fun i => g.lexcounts.getD i 0)

/-! ### Sums over parallel arrays -/

/-- The sum of the weights of the entries with a property. -/
def sumAt {α : Type} (p : α → Bool) (xs : List α) (ws : List ℚ) : ℚ := (((xs.zip ws).filter (fun x => p x.1)).map Prod.snd).sum

theorem sumAt_snoc {α : Type} (p : α → Bool) {xs : List α} {ws : List ℚ} (h : xs.length = ws.length) (x : α) (w : ℚ) :
    sumAt p (xs ++ [x]) (ws ++ [w]) = sumAt p xs ws + (if p x then w else 0) := by
  rw [sumAt, List.zip_append h, List.filter_append, List.map_append, List.sum_append]
  cases hp : p x <;> simp [sumAt, hp]

theorem sumAt_modify {α : Type} (p : α → Bool) (w : ℚ) : ∀ (xs : List α) (ws : List ℚ) (m : Nat) (x : α), xs.length = ws.length → xs[m]? = some x →
    sumAt p xs (ws.modify m (· + w)) = sumAt p xs ws + (if p x then w else 0) := by
  intro xs
  induction xs with
  | nil => intro ws m x _ h; simp at h
  | cons y xs ih =>
    intro ws m x hl hx
    cases ws with
    | nil => simp at hl
    | cons v ws =>
      cases m with
      | zero =>
        simp only [List.getElem?_cons_zero, Option.some.injEq] at hx
        subst hx
        rw [List.modify_zero_cons]
        cases hp : p y <;> simp [sumAt, hp]
        ring
      | succ m =>
        have := ih ws m x (by simpa using hl) (by simpa using hx)
        rw [List.modify_succ_cons]
        simp only [sumAt] at this ⊢
        cases hp : p y
        · simpa [hp] using this
        · simp only [List.zip_cons_cons, List.filter_cons, hp, if_true, List.map_cons, List.sum_cons, this]
          ring

theorem sumAt_congr {α : Type} {p q : α → Bool} {xs : List α} {ws : List ℚ} (h : ∀ x ∈ xs, p x = q x) : sumAt p xs ws = sumAt q xs ws := by
  rw [sumAt, sumAt]
  congr 2
  apply List.filter_congr
  intro x hx
  exact h x.1 (List.of_mem_zip hx).1

/-! ### Invariants -/

/-- The state of a grammar being read. -/
structure Inv (start : Str) (g : Gram) : Prop where
  two : 2 ≤ g.tolabel.length
  eps : g.tolabel[0]? = some epsilon
  root : g.tolabel[1]? = some start
  ids : ∀ l i, get? g.toid l = some i ↔ g.tolabel[i]? = some l
  mass_len : g.freqmass.length = g.tolabel.length
  fan_len : g.fanout.length = g.tolabel.length
  count_len : g.rulecounts.length = g.rules.length
  no : ∀ (i : Nat) (r : PRule), g.rules[i]? = some r → r.no = i
  nos : ∀ k i, get? g.rulenos k = some i ↔ ∃ r, g.rules[i]? = some r ∧ r.key = k
  range : ∀ r ∈ g.rules, 0 < r.key.lhs ∧ r.key.lhs < g.tolabel.length ∧ 1 < r.key.rhs1 ∧ r.key.rhs1 < g.tolabel.length ∧
    r.key.rhs2 ≠ 1 ∧ r.key.rhs2 < g.tolabel.length
  lex_len : g.lexcounts.length = g.lexical.length
  lex_range : ∀ r ∈ g.lexical, r.lhs < g.tolabel.length
  byword : ∀ w is, get? g.byword w = some is → ∀ i ∈ is, i < g.lexical.length
  disj : ∀ w w' is is', get? g.byword w = some is → get? g.byword w' = some is' → ∀ i, i ∈ is → i ∈ is' → w = w'
  pos : ∀ c ∈ g.rulecounts, 0 < c
  lex_pos : ∀ c ∈ g.lexcounts, 0 < c
  mass : ∀ l, g.freqmass.getD l 0 = sumAt (fun r : PRule => decide (r.key.lhs = l)) g.rules g.rulecounts +
    sumAt (fun r : Lex => decide (r.lhs = l)) g.lexical g.lexcounts

theorem inv_init {start : Str} (h : start ≠ epsilon) : Inv start (Gram.init start) where
  two := by simp [Gram.init]
  eps := rfl
  root := rfl
  ids := by
    intro l i
    simp only [Gram.init, get?_set]
    rcases i with _ | _ | i
    · by_cases h1 : start = l
      · simp [h1]
        rintro rfl
        exact h h1
      · by_cases h2 : epsilon = l
        · simp [h1, h2]
        · simp [h1, h2, get?]
    · by_cases h1 : start = l
      · simp [h1]
      · by_cases h2 : epsilon = l
        · simp [h1, h2]
        · simp [h1, h2, get?]
    · by_cases h1 : start = l
      · simp [h1]
      · by_cases h2 : epsilon = l
        · simp [h1, h2]
        · simp [h1, h2, get?]
  mass_len := rfl
  fan_len := rfl
  count_len := rfl
  no := by simp [Gram.init]
  nos := by simp [Gram.init, get?]
  range := by simp [Gram.init]
  lex_len := rfl
  lex_range := by simp [Gram.init]
  byword := by simp [Gram.init, get?]
  disj := by simp [Gram.init, get?]
  pos := by simp [Gram.init]
  lex_pos := by simp [Gram.init]
  mass := by
    intro l
    simp only [Gram.init, sumAt, List.zip_nil_left, List.filter_nil, List.map_nil, List.sum_nil, add_zero]
    rcases l with _ | _ | l <;> simp

/-- What adding labels leaves alone. -/
structure Ext (g g' : Gram) : Prop where
  labels : ∃ new, g'.tolabel = g.tolabel ++ new
  rulenos : g'.rulenos = g.rulenos
  rulecounts : g'.rulecounts = g.rulecounts
  rules : g'.rules = g.rules
  lexical : g'.lexical = g.lexical
  lexcounts : g'.lexcounts = g.lexcounts
  byword : g'.byword = g.byword
  mass : ∀ l, g'.freqmass.getD l 0 = g.freqmass.getD l 0

theorem Ext.refl (g : Gram) : Ext g g := ⟨⟨[], by simp⟩, rfl, rfl, rfl, rfl, rfl, rfl, fun _ => rfl⟩

theorem Ext.trans {a b c : Gram} (h : Ext a b) (h' : Ext b c) : Ext a c := by
  obtain ⟨n1, e1⟩ := h.labels
  obtain ⟨n2, e2⟩ := h'.labels
  exact ⟨⟨n1 ++ n2, by rw [e2, e1, List.append_assoc]⟩, h'.rulenos.trans h.rulenos, h'.rulecounts.trans h.rulecounts, h'.rules.trans h.rules,
    h'.lexical.trans h.lexical, h'.lexcounts.trans h.lexcounts, h'.byword.trans h.byword, fun l => (h'.mass l).trans (h.mass l)⟩

theorem Ext.get {g g' : Gram} (h : Ext g g') {i : Nat} {l : Str} (hi : g.tolabel[i]? = some l) : g'.tolabel[i]? = some l := by
  obtain ⟨n, e⟩ := h.labels
  rw [e, List.getElem?_append_left (List.getElem?_eq_some_iff.1 hi).1, hi]

theorem withLabel_spec {start : Str} {g : Gram} (h : Inv start g) (l : Str) (fan : Nat) :
    Inv start (withLabel g l fan).1 ∧ Ext g (withLabel g l fan).1 ∧ (withLabel g l fan).1.tolabel[(withLabel g l fan).2]? = some l := by
  rw [withLabel]
  cases hg : get? g.toid l with
  | some i => exact ⟨h, Ext.refl g, (h.ids l i).1 hg⟩
  | none =>
    have hnew : ∀ i : Nat, g.tolabel[i]? ≠ some l := by
      intro i hi
      rw [(h.ids l i).2 hi] at hg
      cases hg
    have hmass : ∀ j, (g.freqmass ++ [0]).getD j 0 = g.freqmass.getD j 0 := by
      intro j
      rw [List.getD_eq_getElem?_getD, List.getD_eq_getElem?_getD]
      rcases Nat.lt_trichotomy j g.freqmass.length with hj | rfl | hj
      · rw [List.getElem?_append_left hj]
      · simp
      · rw [List.getElem?_eq_none (by simp; omega), List.getElem?_eq_none (by omega)]
    refine ⟨?_, ⟨⟨[l], rfl⟩, rfl, rfl, rfl, rfl, rfl, rfl, hmass⟩, by simp⟩
    have hlt : ∀ {n}, n < g.tolabel.length → n < (g.tolabel ++ [l]).length := fun hn => by rw [List.length_append]; simp; omega
    exact
      { two := by have := h.two; simp; omega
        eps := by
          show (g.tolabel ++ [l])[0]? = _
          rw [List.getElem?_append_left (by have := h.two; omega)]; exact h.eps
        root := by
          show (g.tolabel ++ [l])[1]? = _
          rw [List.getElem?_append_left (by have := h.two; omega)]; exact h.root
        ids := by
          intro l' i
          show get? (set g.toid l g.tolabel.length) l' = some i ↔ (g.tolabel ++ [l])[i]? = some l'
          rw [get?_set]
          by_cases hl : l = l'
          · subst hl
            rw [if_pos rfl]
            constructor
            · intro he; cases he; simp
            · intro he
              rcases Nat.lt_trichotomy i g.tolabel.length with hi | rfl | hi
              · rw [List.getElem?_append_left hi] at he
                exact absurd he (hnew i)
              · rfl
              · rw [List.getElem?_eq_none (by simp; omega)] at he; cases he
          · rw [if_neg hl, h.ids]
            rcases Nat.lt_trichotomy i g.tolabel.length with hi | rfl | hi
            · rw [List.getElem?_append_left hi]
            · simp [hl]
            · rw [List.getElem?_eq_none (by omega), List.getElem?_eq_none (by simp; omega)]
        mass_len := by simp [h.mass_len]
        fan_len := by simp [h.fan_len]
        count_len := h.count_len
        no := h.no
        nos := h.nos
        range := fun r hr => by
          obtain ⟨a, b, c, d, e, f⟩ := h.range r hr
          exact ⟨a, hlt b, c, hlt d, e, hlt f⟩
        lex_len := h.lex_len
        lex_range := fun r hr => hlt (h.lex_range r hr)
        byword := h.byword
        disj := h.disj
        pos := h.pos
        lex_pos := h.lex_pos
        mass := fun j => (hmass j).trans (h.mass j) }

theorem getD_modify (xs : List ℚ) (m : Nat) (w : ℚ) (l : Nat) (hm : m < xs.length) :
    (xs.modify m (· + w)).getD l 0 = xs.getD l 0 + (if m = l then w else 0) := by
  rw [List.getD_eq_getElem?_getD, List.getD_eq_getElem?_getD, List.getElem?_modify]
  by_cases h : m = l
  · subst h
    rw [List.getElem?_eq_getElem hm]
    simp
  · cases xs[l]? <;> simp [h]

theorem pos_modify {xs : List ℚ} {w : ℚ} (h : ∀ c ∈ xs, 0 < c) (hw : 0 < w) (m : Nat) : ∀ c ∈ xs.modify m (· + w), 0 < c := by
  intro c hc
  obtain ⟨i, hi⟩ := List.getElem?_of_mem hc
  rw [List.getElem?_modify] at hi
  simp only [Option.map_eq_map, Option.map_eq_some_iff] at hi
  obtain ⟨a, ha, rfl⟩ := hi
  have := h a (List.mem_of_getElem? ha)
  split
  · exact add_pos this hw
  · exact this

theorem pos_snoc {xs : List ℚ} {w : ℚ} (h : ∀ c ∈ xs, 0 < c) (hw : 0 < w) : ∀ c ∈ xs ++ [w], 0 < c := by
  intro c hc
  rcases List.mem_append.1 hc with hc | hc
  · exact h c hc
  · simp at hc; subst hc; exact hw

theorem insertRule_inv {start : Str} {g : Gram} (h : Inv start g) (k : Key) (w : ℚ) (hw : 0 < w)
    (hk : 0 < k.lhs ∧ k.lhs < g.tolabel.length ∧ 1 < k.rhs1 ∧ k.rhs1 < g.tolabel.length ∧ k.rhs2 ≠ 1 ∧ k.rhs2 < g.tolabel.length) :
    Inv start (insertRule g k w) := by
  have hlm : k.lhs < g.freqmass.length := by rw [h.mass_len]; exact hk.2.1
  rw [insertRule]
  cases hg : get? g.rulenos k with
  | none =>
    have hnew : ∀ (i : Nat) (r : PRule), g.rules[i]? = some r → r.key ≠ k := by
      intro i r hi he
      rw [(h.nos k i).2 ⟨r, hi, he⟩] at hg
      cases hg
    refine { h with mass_len := by simp [h.mass_len], count_len := by simp [h.count_len], no := ?_, nos := ?_, range := ?_, pos := pos_snoc h.pos hw, mass := ?_ }
    · intro i r hi
      rcases Nat.lt_trichotomy i g.rules.length with hl | rfl | hl
      · rw [List.getElem?_append_left hl] at hi; exact h.no i r hi
      · simp at hi; subst hi; rfl
      · rw [List.getElem?_eq_none (by simp; omega)] at hi; cases hi
    · intro k' i
      show get? (set g.rulenos k g.rules.length) k' = some i ↔ _
      rw [get?_set]
      by_cases hkk : k = k'
      · subst hkk
        rw [if_pos rfl]
        constructor
        · intro he; cases he; exact ⟨⟨k, g.rules.length, w⟩, by simp, rfl⟩
        · rintro ⟨r, hi, he⟩
          rcases Nat.lt_trichotomy i g.rules.length with hl | rfl | hl
          · rw [List.getElem?_append_left hl] at hi; exact absurd he (hnew i r hi)
          · rfl
          · rw [List.getElem?_eq_none (by simp; omega)] at hi; cases hi
      · rw [if_neg hkk, h.nos]
        constructor
        · rintro ⟨r, hi, he⟩
          exact ⟨r, by rw [List.getElem?_append_left (List.getElem?_eq_some_iff.1 hi).1, hi], he⟩
        · rintro ⟨r, hi, he⟩
          rcases Nat.lt_trichotomy i g.rules.length with hl | rfl | hl
          · rw [List.getElem?_append_left hl] at hi; exact ⟨r, hi, he⟩
          · simp at hi; subst hi; exact absurd he hkk
          · rw [List.getElem?_eq_none (by simp; omega)] at hi; cases hi
    · intro r hr
      rcases List.mem_append.1 hr with hr | hr
      · exact h.range r hr
      · simp at hr; subst hr; exact hk
    · intro l
      show (g.freqmass.modify k.lhs (· + w)).getD l 0 = sumAt _ (g.rules ++ _) (g.rulecounts ++ [w]) + _
      rw [getD_modify _ _ _ _ hlm, sumAt_snoc _ h.count_len.symm, h.mass l]
      simp only [decide_eq_true_eq]
      ring
  | some m =>
    obtain ⟨r, hr, hrk⟩ := (h.nos k m).1 hg
    refine { h with mass_len := by simp [h.mass_len], count_len := by simp [h.count_len], pos := pos_modify h.pos hw m, mass := ?_ }
    intro l
    show (g.freqmass.modify k.lhs (· + w)).getD l 0 = sumAt _ g.rules (g.rulecounts.modify m (· + w)) + _
    rw [getD_modify _ _ _ _ hlm, sumAt_modify _ w _ _ m r h.count_len.symm hr, h.mass l, hrk]
    simp only [decide_eq_true_eq]
    ring

theorem insertLex_inv {start : Str} {g : Gram} (h : Inv start g) (word : Str) (l : Nat) (w : ℚ) (hw : 0 < w) (hl : l < g.tolabel.length) :
    Inv start (insertLex g word l w) := by
  have hlm : l < g.freqmass.length := by rw [h.mass_len]; exact hl
  rw [insertLex]
  cases hf : ((get? g.byword word).getD []).find? (fun i => decide ((g.lexical[i]?.map Lex.lhs) = some l)) with
  | some i =>
    have hi := List.find?_some hf
    simp only [decide_eq_true_eq, Option.map_eq_some_iff] at hi
    obtain ⟨r, hr, hrl⟩ := hi
    refine { h with mass_len := by simp [h.mass_len], lex_len := by simp [h.lex_len], lex_pos := pos_modify h.lex_pos hw i, mass := ?_ }
    intro j
    show (g.freqmass.modify l (· + w)).getD j 0 = _ + sumAt _ g.lexical (g.lexcounts.modify i (· + w))
    rw [getD_modify _ _ _ _ hlm, sumAt_modify _ w _ _ i r h.lex_len.symm hr, h.mass j, hrl]
    simp only [decide_eq_true_eq]
    ring
  | none =>
    refine { h with mass_len := by simp [h.mass_len], lex_len := by simp [h.lex_len], lex_range := ?_, byword := ?_, disj := ?_, lex_pos := pos_snoc h.lex_pos hw, mass := ?_ }
    · intro r hr
      rcases List.mem_append.1 hr with hr | hr
      · exact h.lex_range r hr
      · simp at hr; subst hr; exact hl
    · intro w' is his i hi
      rw [get?_set] at his
      show i < (g.lexical ++ _).length
      rw [List.length_append, List.length_singleton]
      split at his
      · cases his
        rcases List.mem_append.1 hi with hi | hi
        · cases hb : get? g.byword word with
          | none => rw [hb] at hi; simp at hi
          | some is => rw [hb] at hi; have := h.byword word is hb i hi; omega
        · simp at hi; omega
      · have := h.byword w' is his i hi; omega
    · have hold : ∀ {w' is i}, get? (set g.byword word ((get? g.byword word).getD [] ++ [g.lexical.length])) w' = some is → i ∈ is →
          (∃ is', get? g.byword w' = some is' ∧ i ∈ is') ∨ (i = g.lexical.length ∧ w' = word) := by
        intro w' is i his hi
        rw [get?_set] at his
        split at his
        · rename_i hw'
          cases his
          rcases List.mem_append.1 hi with hi | hi
          · cases hb : get? g.byword word with
            | none => rw [hb] at hi; simp at hi
            | some is => rw [hb] at hi; exact .inl ⟨is, hw' ▸ hb, hi⟩
          · exact .inr ⟨by simpa using hi, hw'.symm⟩
        · exact .inl ⟨is, his, hi⟩
      intro w1 w2 is1 is2 h1 h2 i hi1 hi2
      rcases hold h1 hi1 with ⟨js1, g1, m1⟩ | ⟨m1, rfl⟩
      · rcases hold h2 hi2 with ⟨js2, g2, m2⟩ | ⟨m2, rfl⟩
        · exact h.disj _ _ _ _ g1 g2 i m1 m2
        · have := h.byword _ _ g1 i m1; omega
      · rcases hold h2 hi2 with ⟨js2, g2, m2⟩ | ⟨m2, rfl⟩
        · have := h.byword _ _ g2 i m2; omega
        · rfl
    · intro j
      show (g.freqmass.modify l (· + w)).getD j 0 = _ + sumAt _ (g.lexical ++ _) (g.lexcounts ++ [w])
      rw [getD_modify _ _ _ _ hlm, sumAt_snoc _ h.lex_len.symm, h.mass j]
      simp only [decide_eq_true_eq]
      ring


/-! ### Names -/

theorem name_of {g : Gram} {i : Nat} {l : Str} (h : g.tolabel[i]? = some l) : Spec.name g i = l := by
  rw [Spec.name, List.getD_eq_getElem?_getD, h]; rfl

theorem name_get {g : Gram} {i : Nat} (h : i < g.tolabel.length) : g.tolabel[i]? = some (Spec.name g i) := by
  rw [Spec.name, List.getD_eq_getElem?_getD, List.getElem?_eq_getElem h]; rfl

theorem name_inj {start : Str} {g : Gram} (h : Inv start g) {i j : Nat} (hi : i < g.tolabel.length) (hj : j < g.tolabel.length)
    (he : Spec.name g i = Spec.name g j) : i = j := by
  have h1 := (h.ids _ _).2 (name_get hi)
  have h2 := (h.ids _ _).2 (name_get hj)
  rw [he, h2] at h1
  exact (Option.some.inj h1).symm

theorem Ext.name {g g' : Gram} (h : Ext g g') {i : Nat} (hi : i < g.tolabel.length) : Spec.name g' i = Spec.name g i :=
  name_of (h.get (name_get hi))

theorem Ext.named {g g' : Gram} (h : Ext g g') {k : Key} (h1 : k.lhs < g.tolabel.length) (h2 : k.rhs1 < g.tolabel.length) (h3 : k.rhs2 < g.tolabel.length) :
    Spec.named g' k = Spec.named g k := by
  rw [Spec.named, Spec.named, h.name h1, h.name h2, h.name h3]

theorem Ext.stored {start : Str} {g g' : Gram} (hg : Inv start g) (h : Ext g g') : Spec.stored g' = Spec.stored g := by
  rw [Spec.stored, Spec.stored, h.rules, h.rulecounts]
  apply List.map_congr_left
  intro r hr
  obtain ⟨_, a, _, b, _, c⟩ := hg.range r hr
  rw [h.named a b c]

theorem named_inj {start : Str} {g : Gram} (h : Inv start g) {k k' : Key} (h1 : k.lhs < g.tolabel.length) (h2 : k.rhs1 < g.tolabel.length)
    (h3 : k.rhs2 < g.tolabel.length) (h1' : k'.lhs < g.tolabel.length) (h2' : k'.rhs1 < g.tolabel.length) (h3' : k'.rhs2 < g.tolabel.length)
    (he : Spec.named g k = Spec.named g k') : k = k' := by
  simp only [Spec.named, Spec.NRule.mk.injEq] at he
  obtain ⟨e1, e2, e3, e4, e5⟩ := he
  have r2 : k.rhs2 = k'.rhs2 := by
    by_cases a : k.rhs2 = 0 <;> by_cases b : k'.rhs2 = 0
    · omega
    · simp [a, b] at e3
    · simp [a, b] at e3
    · simp only [a, b, if_false, Option.some.injEq] at e3
      exact name_inj h h3 h3' e3
  cases k; cases k'
  simp only [Key.mk.injEq]
  exact ⟨name_inj h h1 h1' e1, name_inj h h2 h2' e2, r2, e4, e5⟩

theorem set_eq_append {K V : Type} [DecidableEq K] {d : Dict K V} {k : K} {v : V} (h : k ∉ keys d) : Dict.set d k v = d ++ [(k, v)] := by
  induction d with
  | nil => rfl
  | cons x d ih =>
    obtain ⟨a, b⟩ := x
    simp only [keys, List.map_cons, List.mem_cons, not_or] at h
    rw [Dict.set, if_neg (Ne.symm h.1), ih h.2]
    rfl

theorem set_eq_map {K V : Type} [DecidableEq K] {d : Dict K V} {k : K} {v : V} (hd : WF d) (h : k ∈ keys d) :
    Dict.set d k v = d.map (fun x => if x.1 = k then (x.1, v) else x) := by
  induction d with
  | nil => simp [keys] at h
  | cons x d ih =>
    obtain ⟨a, b⟩ := x
    simp only [WF, keys, List.map_cons, List.nodup_cons] at hd
    rw [Dict.set]
    by_cases hk : a = k
    · subst hk
      rw [if_pos rfl, List.map_cons, if_pos rfl]
      congr 1
      symm
      conv_rhs => rw [← List.map_id d]
      apply List.map_congr_left
      rintro ⟨c, e⟩ hc
      simp only [id]
      rw [if_neg]
      rintro rfl
      exact hd.1 (List.mem_map.2 ⟨_, hc, rfl⟩)
    · rw [if_neg hk, List.map_cons, if_neg hk]
      congr 1
      refine ih hd.2 ?_
      simp only [keys, List.map_cons, List.mem_cons] at h
      exact h.resolve_left (Ne.symm hk)

theorem stored_wf {start : Str} {g : Gram} (h : Inv start g) : WF (Spec.stored g) := by
  have hn : (g.rules.map (fun r => r.key)).Nodup := by
    rw [List.nodup_iff_pairwise_ne, List.pairwise_map, List.pairwise_iff_getElem]
    intro i j hi hj hij he
    have a := (h.nos _ i).2 ⟨_, List.getElem?_eq_getElem hi, rfl⟩
    have b := (h.nos _ j).2 ⟨_, List.getElem?_eq_getElem hj, rfl⟩
    rw [he, b] at a
    simp at a
    omega
  rw [WF, keys, Spec.stored, List.map_map]
  rw [show (Prod.fst ∘ fun r : PRule => (Spec.named g r.key, g.rulecounts.getD r.no 0)) = Spec.named g ∘ (fun r => r.key) from rfl, ← List.map_map]
  refine List.Nodup.map_on ?_ hn
  intro a ha b hb he
  obtain ⟨r, hr, rfl⟩ := List.mem_map.1 ha
  obtain ⟨s, hs, rfl⟩ := List.mem_map.1 hb
  obtain ⟨_, a1, _, a2, _, a3⟩ := h.range r hr
  obtain ⟨_, b1, _, b2, _, b3⟩ := h.range s hs
  exact named_inj h a1 a2 a3 b1 b2 b3 he

theorem stored_insertRule {start : Str} {g : Gram} (h : Inv start g) (k : Key) (w : ℚ)
    (h1 : k.lhs < g.tolabel.length) (h2 : k.rhs1 < g.tolabel.length) (h3 : k.rhs2 < g.tolabel.length) :
    Spec.stored (insertRule g k w) = incr (Spec.stored g) (Spec.named g k) w := by
  have hmem : Spec.named g k ∈ keys (Spec.stored g) ↔ ∃ r ∈ g.rules, r.key = k := by
    simp only [keys, Spec.stored, List.map_map, List.mem_map, Function.comp]
    constructor
    · rintro ⟨r, hr, he⟩
      obtain ⟨_, a1, _, a2, _, a3⟩ := h.range r hr
      exact ⟨r, hr, named_inj h a1 a2 a3 h1 h2 h3 he⟩
    · rintro ⟨r, hr, rfl⟩; exact ⟨r, hr, rfl⟩
  rw [insertRule]
  cases hg : get? g.rulenos k with
  | none =>
    have hnot : Spec.named g k ∉ keys (Spec.stored g) := by
      rw [hmem]
      rintro ⟨r, hr, hk⟩
      obtain ⟨i, hi⟩ := List.getElem?_of_mem hr
      rw [(h.nos k i).2 ⟨r, hi, hk⟩] at hg
      cases hg
    have hc : cnt (Spec.stored g) (Spec.named g k) = 0 := by
      rw [cnt]
      cases he : get? (Spec.stored g) (Spec.named g k) with
      | none => rfl
      | some v => exact absurd (mem_keys.2 (by rw [he]; rfl)) hnot
    rw [incr, set_eq_append hnot, hc, zero_add]
    show List.map (fun r => (Spec.named g r.key, (g.rulecounts ++ [w]).getD r.no 0)) (g.rules ++ [⟨k, g.rules.length, w⟩]) = _
    rw [List.map_append]
    congr 1
    · apply List.map_congr_left
      intro r hr
      obtain ⟨i, hi⟩ := List.getElem?_of_mem hr
      have hno := h.no i r hi
      have hlt := (List.getElem?_eq_some_iff.1 hi).1
      rw [List.getD_eq_getElem?_getD, List.getElem?_append_left (by rw [h.count_len, hno]; exact hlt), ← List.getD_eq_getElem?_getD]
    · simp [List.getD_eq_getElem?_getD, ← h.count_len]
  | some m =>
    obtain ⟨r, hr, hrk⟩ := (h.nos k m).1 hg
    have hin := hmem.2 ⟨r, List.mem_of_getElem? hr, hrk⟩
    have hwf := stored_wf h
    have hc : cnt (Spec.stored g) (Spec.named g k) = g.rulecounts.getD m 0 := by
      refine cnt_of_mem hwf (List.mem_map.2 ⟨r, List.mem_of_getElem? hr, ?_⟩)
      rw [hrk, h.no m r hr]
    rw [incr, set_eq_map hwf hin, hc]
    show List.map (fun r => (Spec.named g r.key, (g.rulecounts.modify m (· + w)).getD r.no 0)) g.rules = _
    rw [Spec.stored, List.map_map]
    apply List.map_congr_left
    intro s hs
    simp only [Function.comp]
    obtain ⟨i, hi⟩ := List.getElem?_of_mem hs
    have hno := h.no i s hi
    have hlt := (List.getElem?_eq_some_iff.1 hr).1
    rw [getD_modify _ _ _ _ (by rw [h.count_len]; exact hlt)]
    by_cases him : m = s.no
    · have : s = r := by
        rw [him, hno, hi] at hr
        exact Option.some.inj hr
      subst this
      rw [if_pos him, hrk, if_pos rfl, him]
    · rw [if_neg him, add_zero, if_neg]
      intro he
      obtain ⟨_, a1, _, a2, _, a3⟩ := h.range s hs
      have := named_inj h a1 a2 a3 h1 h2 h3 he
      have := (h.nos k i).2 ⟨s, hi, this⟩
      rw [hg] at this
      simp at this
      omega

/-- The total weight for a label. -/
def Spec.massOf (g : Gram) (l : Str) : ℚ := (get? g.toid l).elim 0 (fun i => g.freqmass.getD i 0)

theorem Ext.massOf {start : Str} {g g' : Gram} (hg : Inv start g) (hg' : Inv start g') (h : Ext g g') (l : Str) : Spec.massOf g' l = Spec.massOf g l := by
  rw [Spec.massOf, Spec.massOf]
  cases hl : get? g.toid l with
  | some i =>
    rw [(hg'.ids l i).2 (h.get ((hg.ids l i).1 hl))]
    exact h.mass i
  | none =>
    cases hl' : get? g'.toid l with
    | none => rfl
    | some i =>
      show g'.freqmass.getD i 0 = 0
      rw [h.mass i]
      have hi : g.tolabel.length ≤ i := by
        by_contra hc
        obtain ⟨n, e⟩ := h.labels
        have := (hg'.ids l i).1 hl'
        rw [e, List.getElem?_append_left (by omega)] at this
        rw [(hg.ids l i).2 this] at hl
        cases hl
      rw [List.getD_eq_getElem?_getD, List.getElem?_eq_none (by rw [hg.mass_len]; exact hi)]
      rfl

theorem massOf_modify {start : Str} {g g' : Gram} (hg : Inv start g) (ht : g'.toid = g.toid) {i : Nat} {a : Str} {w : ℚ} (hi : g.tolabel[i]? = some a)
    (hm : g'.freqmass = g.freqmass.modify i (· + w)) (l : Str) : Spec.massOf g' l = Spec.massOf g l + (if l = a then w else 0) := by
  rw [Spec.massOf, Spec.massOf, ht, hm]
  have hlt : i < g.freqmass.length := by rw [hg.mass_len]; exact (List.getElem?_eq_some_iff.1 hi).1
  cases hl : get? g.toid l with
  | some j =>
    simp only [Option.elim_some]
    rw [getD_modify _ _ _ _ hlt]
    congr 1
    have hj := (hg.ids l j).1 hl
    by_cases hij : i = j
    · subst hij
      rw [hi] at hj
      cases hj
      simp
    · rw [if_neg hij, if_neg]
      rintro rfl
      rw [(hg.ids l i).2 hi] at hl
      exact hij (Option.some.inj hl)
  | none =>
    rw [if_neg]
    · simp
    · rintro rfl
      rw [(hg.ids l i).2 hi] at hl
      cases hl

/-! ### One line -/

theorem addRule_spec {start : Str} {g g' : Gram} (h : Inv start g) {a b : Str} {c : Option Str} {s : YieldBits.YF} {w : ℚ}
    (he : addRule g a b c s w = some g') : Inv start g' ∧ 0 < w ∧ Spec.stored g' = incr (Spec.stored g) ⟨a, b, c, s.args, s.lengths⟩ w ∧
      (∀ l, Spec.massOf g' l = Spec.massOf g l + (if l = a then w else 0)) ∧
      ∃ g3, Inv start g3 ∧ Ext g g3 ∧ ∃ k, g' = insertRule g3 k w ∧ Spec.named g3 k = ⟨a, b, c, s.args, s.lengths⟩ ∧
        (k.lhs < g3.tolabel.length ∧ k.rhs1 < g3.tolabel.length ∧ k.rhs2 < g3.tolabel.length) := by
  rw [addRule] at he
  split at he
  · cases he
  · obtain ⟨i1, e1, n1⟩ := withLabel_spec h a s.fanout
    obtain ⟨i2, e2, n2⟩ := withLabel_spec i1 b s.rhs1
    simp only at he
    split at he
    · cases he
    · rename_i hne
      simp only [not_or] at hne
      have key : ∃ g3 r2, c.elim ((withLabel (withLabel g a s.fanout).1 b s.rhs1).1, 0) (fun c => withLabel (withLabel (withLabel g a s.fanout).1 b s.rhs1).1 c s.rhs2) = (g3, r2) ∧
          Inv start g3 ∧ Ext (withLabel (withLabel g a s.fanout).1 b s.rhs1).1 g3 ∧ (c = none → r2 = 0) ∧ (∀ x, c = some x → g3.tolabel[r2]? = some x) := by
        cases c with
        | none => exact ⟨_, _, rfl, i2, Ext.refl _, fun _ => rfl, by simp⟩
        | some c =>
          obtain ⟨i3, e3, n3⟩ := withLabel_spec i2 c s.rhs2
          exact ⟨_, _, rfl, i3, e3, by simp, fun x hx => by cases hx; exact n3⟩
      obtain ⟨g3, r2, hk, i3, e3, k1, k2⟩ := key
      rw [hk] at he
      simp only at he
      split at he
      · cases he
      · rename_i hz
        split at he
        · cases he
        · rename_i hone
          simp only [not_or] at hone
          split at he
          · cases he
          · rename_i hw
            have hw : 0 < w := not_le.1 hw
            cases he
            have m1 := e3.get (e2.get n1)
            have m2 := e3.get n2
            have l1 := (List.getElem?_eq_some_iff.1 m1).1
            have l2 := (List.getElem?_eq_some_iff.1 m2).1
            have l3 : r2 < g3.tolabel.length := by
              cases c with
              | none => rw [k1 rfl]; have := i3.two; omega
              | some c => exact (List.getElem?_eq_some_iff.1 (k2 c rfl)).1
            have hnamed : Spec.named g3 ⟨(withLabel g a s.fanout).2, (withLabel (withLabel g a s.fanout).1 b s.rhs1).2, r2, s.args, s.lengths⟩ = ⟨a, b, c, s.args, s.lengths⟩ := by
              simp only [Spec.named, name_of m1, name_of m2, Spec.NRule.mk.injEq, true_and, and_true]
              cases c with
              | none => rw [k1 rfl]; rfl
              | some c =>
                have : r2 ≠ 0 := fun h0 => hz ⟨rfl, h0⟩
                rw [if_neg this, name_of (k2 c rfl)]
            have hext := e1.trans (e2.trans e3)
            have hr : 0 < (withLabel g a s.fanout).2 ∧ (withLabel g a s.fanout).2 < g3.tolabel.length ∧ 1 < (withLabel (withLabel g a s.fanout).1 b s.rhs1).2 ∧
                (withLabel (withLabel g a s.fanout).1 b s.rhs1).2 < g3.tolabel.length ∧ r2 ≠ 1 ∧ r2 < g3.tolabel.length :=
              ⟨by omega, l1, by omega, l2, hone.2, l3⟩
            refine ⟨insertRule_inv i3 _ w hw hr, hw, ?_, ?_, g3, i3, hext, _, rfl, hnamed, l1, l2, l3⟩
            · rw [stored_insertRule i3 _ w l1 l2 l3, hnamed, hext.stored h]
            · intro l
              rw [massOf_modify i3 (g' := insertRule g3 _ w) (i := (withLabel g a s.fanout).2) (a := a) (w := w) ?_ m1 ?_ l, hext.massOf h i3]
              · rw [insertRule]; split <;> rfl
              · rw [insertRule]; split <;> rfl

theorem insertRule_lex (g : Gram) (k : Key) (w : ℚ) : (insertRule g k w).lexical = g.lexical ∧ (insertRule g k w).lexcounts = g.lexcounts ∧
    (insertRule g k w).byword = g.byword ∧ (insertRule g k w).tolabel = g.tolabel ∧ (insertRule g k w).toid = g.toid := by
  rw [insertRule]; split <;> exact ⟨rfl, rfl, rfl, rfl, rfl⟩

theorem convertLine_spec {start : Str} {bitpar : Bool} {conv : Str → ℚ} {g g' : Gram} (h : Inv start g) {fields : List Str}
    (he : convertLine bitpar conv g fields = some g') : ∃ r w, Spec.rule bitpar conv fields = some (r, w) ∧ 0 < w ∧ Inv start g' ∧
      Spec.stored g' = incr (Spec.stored g) r w ∧ (∀ l, Spec.massOf g' l = Spec.massOf g l + (if l = r.lhs then w else 0)) ∧
      ∃ g3, Inv start g3 ∧ Ext g g3 ∧ ∃ k, g' = insertRule g3 k w ∧ Spec.named g3 k = r ∧
        (k.lhs < g3.tolabel.length ∧ k.rhs1 < g3.tolabel.length ∧ k.rhs2 < g3.tolabel.length) := by
  rw [convertLine, Option.bind_eq_some_iff] at he
  obtain ⟨⟨w, rule, s⟩, h1, he⟩ := he
  rw [Spec.rule, h1]
  simp only [Option.bind_some]
  match rule, he with
  | [], he => cases he
  | [_], he => cases he
  | [a, b], he =>
    obtain ⟨a1, a2, a3, a4, a5⟩ := addRule_spec h he
    exact ⟨_, _, rfl, a2, a1, a3, a4, a5⟩
  | [a, b, c], he =>
    obtain ⟨a1, a2, a3, a4, a5⟩ := addRule_spec h he
    exact ⟨_, _, rfl, a2, a1, a3, a4, a5⟩
  | _ :: _ :: _ :: _ :: _, he => cases he

/-! ### The lexicon -/

theorem lexCount_congr {g g' : Gram} {tag word : Str} (hb : g'.byword = g.byword) (hl : g'.lexical = g.lexical) (hc : g'.lexcounts = g.lexcounts)
    (hn : ∀ r ∈ g.lexical, Spec.name g' r.lhs = Spec.name g r.lhs) : Spec.lexCount g' tag word = Spec.lexCount g tag word := by
  rw [Spec.lexCount, Spec.lexCount, hb, hl, hc]
  have : (fun i : Nat => decide ((g.lexical[i]?.map (fun r => Spec.name g' r.lhs)) = some tag)) = fun i => decide ((g.lexical[i]?.map (fun r => Spec.name g r.lhs)) = some tag) := by
    funext i
    cases hi : g.lexical[i]? with
    | none => rfl
    | some r => simp [hn r (List.mem_of_getElem? hi)]
  rw [this]

theorem Ext.lexCount {start : Str} {g g' : Gram} (hg : Inv start g) (h : Ext g g') (tag word : Str) : Spec.lexCount g' tag word = Spec.lexCount g tag word :=
  lexCount_congr h.byword h.lexical h.lexcounts (fun r hr => h.name (hg.lex_range r hr))

theorem getD_mem {d : Dict Str (List Nat)} {w : Str} {i : Nat} (h : i ∈ (get? d w).getD []) : ∃ is, get? d w = some is ∧ i ∈ is := by
  cases hb : get? d w with
  | none => rw [hb] at h; simp at h
  | some is => rw [hb] at h; exact ⟨is, rfl, h⟩

theorem lexCount_insertLex {start : Str} {g : Gram} (h : Inv start g) (word : Str) (l : Nat) (w : ℚ) (hl : l < g.tolabel.length) (tag' word' : Str) :
    Spec.lexCount (insertLex g word l w) tag' word' = Spec.lexCount g tag' word' + (if (tag', word') = (Spec.name g l, word) then w else 0) := by
  have hp : (fun i : Nat => decide ((g.lexical[i]?.map Lex.lhs) = some l)) =
      fun i : Nat => decide ((g.lexical[i]?.map (fun r : Lex => Spec.name g r.lhs)) = some (Spec.name g l)) := by
    funext i
    apply decide_eq_decide.2
    cases hi : g.lexical[i]? with
    | none => simp
    | some r =>
      simp only [Option.map_some, Option.some.injEq]
      exact ⟨fun h => by rw [h], fun he => name_inj h (h.lex_range r (List.mem_of_getElem? hi)) hl he⟩
  have hbw : ∀ i ∈ (get? g.byword word).getD [], i < g.lexical.length := by
    intro i hi
    obtain ⟨is, hb, hi⟩ := getD_mem hi
    exact h.byword word is hb i hi
  rw [insertLex]
  cases hf : ((get? g.byword word).getD []).find? (fun i => decide ((g.lexical[i]?.map Lex.lhs) = some l)) with
  | some i =>
    have hilt : i < g.lexcounts.length := by rw [h.lex_len]; exact hbw i (List.mem_of_find?_eq_some hf)
    show (((get? g.byword word').getD []).find? (fun i : Nat => decide ((g.lexical[i]?.map (fun r : Lex => Spec.name g r.lhs)) = some tag'))).elim 0
      (fun j => (g.lexcounts.modify i (· + w)).getD j 0) = _
    rw [Spec.lexCount]
    rw [hp] at hf
    by_cases he : (tag', word') = (Spec.name g l, word)
    · obtain ⟨rfl, rfl⟩ := Prod.mk.inj he
      rw [hf, if_pos rfl]
      simp only [Option.elim_some]
      rw [getD_modify _ _ _ _ hilt, if_pos rfl]
    · rw [if_neg he, add_zero]
      cases hf' : ((get? g.byword word').getD []).find? (fun i => decide ((g.lexical[i]?.map (fun r => Spec.name g r.lhs)) = some tag')) with
      | none => rfl
      | some j =>
        simp only [Option.elim_some]
        rw [getD_modify _ _ _ _ hilt, if_neg, add_zero]
        rintro rfl
        refine he ?_
        have h1 := List.find?_some hf
        have h2 := List.find?_some hf'
        simp only [decide_eq_true_eq] at h1 h2
        obtain ⟨is, b1, m1⟩ := getD_mem (List.mem_of_find?_eq_some hf)
        obtain ⟨is', b2, m2⟩ := getD_mem (List.mem_of_find?_eq_some hf')
        rw [h1] at h2
        rw [← Option.some.inj h2, h.disj _ _ _ _ b1 b2 i m1 m2]
  | none =>
    have hf0 := hf
    rw [hp] at hf
    have hnew : ∀ ix : List Nat, (∀ i ∈ ix, i < g.lexical.length) →
        ix.find? (fun i : Nat => decide ((((g.lexical ++ [⟨l, w⟩])[i]?).map (fun r : Lex => Spec.name g r.lhs)) = some tag')) =
        ix.find? (fun i : Nat => decide (((g.lexical[i]?).map (fun r : Lex => Spec.name g r.lhs)) = some tag')) := by
      intro ix hix
      induction ix with
      | nil => rfl
      | cons i ix ih =>
        rw [List.find?_cons, List.find?_cons, List.getElem?_append_left (hix i (by simp)), ih (fun j hj => hix j (by simp [hj]))]
    have hcnt : ∀ ix : List Nat, (∀ i ∈ ix, i < g.lexical.length) →
        (ix.find? (fun i : Nat => decide (((g.lexical[i]?).map (fun r : Lex => Spec.name g r.lhs)) = some tag'))).elim 0 (fun i => (g.lexcounts ++ [w]).getD i 0) =
        (ix.find? (fun i : Nat => decide (((g.lexical[i]?).map (fun r : Lex => Spec.name g r.lhs)) = some tag'))).elim 0 (fun i => g.lexcounts.getD i 0) := by
      intro ix hix
      cases hfi : ix.find? (fun i : Nat => decide (((g.lexical[i]?).map (fun r : Lex => Spec.name g r.lhs)) = some tag')) with
      | none => rfl
      | some i =>
        have := hix i (List.mem_of_find?_eq_some hfi)
        simp only [Option.elim_some]
        rw [List.getD_eq_getElem?_getD, List.getElem?_append_left (by rw [h.lex_len]; exact this), ← List.getD_eq_getElem?_getD]
    show (((get? (Dict.set g.byword word ((get? g.byword word).getD [] ++ [g.lexical.length])) word').getD []).find?
      (fun i : Nat => decide ((((g.lexical ++ [⟨l, w⟩])[i]?).map (fun r : Lex => Spec.name g r.lhs)) = some tag'))).elim 0
      (fun j => (g.lexcounts ++ [w]).getD j 0) = _
    rw [Spec.lexCount, get?_set]
    by_cases hw' : word = word'
    · subst hw'
      rw [if_pos rfl, Option.getD_some, List.find?_append, hnew _ hbw]
      have hlast : (g.lexical ++ [(⟨l, w⟩ : Lex)])[g.lexical.length]? = some ⟨l, w⟩ := by simp
      cases hfi : ((get? g.byword word).getD []).find? (fun i : Nat => decide (((g.lexical[i]?).map (fun r : Lex => Spec.name g r.lhs)) = some tag')) with
      | some j =>
        have hne : ¬ ((tag', word) = (Spec.name g l, word)) := by
          intro he
          rw [(Prod.mk.inj he).1, hf] at hfi
          cases hfi
        have hc := hcnt _ hbw
        rw [hfi] at hc
        rw [if_neg hne, add_zero, Option.some_or, hc]
      | none =>
        rw [Option.none_or, List.find?_cons, hlast]
        by_cases ht : Spec.name g l = tag'
        · subst ht
          simp [List.getD_eq_getElem?_getD, ← h.lex_len]
        · simp [ht, Ne.symm ht]
    · have hb' : ∀ i ∈ (get? g.byword word').getD [], i < g.lexical.length := by
        intro i hi
        obtain ⟨is, hb, hi⟩ := getD_mem hi
        exact h.byword word' is hb i hi
      rw [if_neg hw', hnew _ hb', hcnt _ hb', if_neg, add_zero]
      intro he
      exact hw' (Prod.mk.inj he).2.symm

/-! ### The effect of reading lines -/

/-- Every weight stored with a rule is its count. -/
def Exact (g : Gram) : Prop := g.rulecounts = g.rules.map PRule.prob ∧ g.lexcounts = g.lexical.map Lex.prob

/-- The weights stored with rules are positive and at most the counts. -/
def Bounded (g : Gram) : Prop :=
  (∀ (i : Nat) (r : PRule), g.rules[i]? = some r → 0 < r.prob ∧ r.prob ≤ g.rulecounts.getD i 0) ∧
  ∀ (i : Nat) (r : Lex), g.lexical[i]? = some r → 0 < r.prob ∧ r.prob ≤ g.lexcounts.getD i 0

/-- `g'` is `g` after reading rules `rs` and lexical entries `ls`. -/
structure Eff (start : Str) (g g' : Gram) (rs : List (Spec.NRule × ℚ)) (ls : List ((Str × Str) × ℚ)) : Prop where
  inv : Inv start g'
  stored : Spec.stored g' = addAll (Spec.stored g) rs
  lex : ∀ t w, Spec.lexCount g' t w = Spec.lexCount g t w + incrementsOf (t, w) ls
  mass : ∀ l, Spec.massOf g' l = Spec.massOf g l + incrementsOf l (rs.map (fun x => (x.1.lhs, x.2))) + incrementsOf l (ls.map (fun x => (x.1.1, x.2)))
  rpos : ∀ x ∈ rs, 0 < x.2
  lpos : ∀ x ∈ ls, 0 < x.2
  bounded : Bounded g → Bounded g'
  exact : Exact g → (∀ x ∈ rs, cnt (Spec.stored g) x.1 = 0) → (∀ x ∈ ls, Spec.lexCount g x.1.1 x.1.2 = 0) → (rs.map Prod.fst).Nodup → (ls.map Prod.fst).Nodup → Exact g'

theorem incrementsOf_append {K : Type} [DecidableEq K] (k : K) (xs ys : List (K × ℚ)) : incrementsOf k (xs ++ ys) = incrementsOf k xs + incrementsOf k ys := by
  simp [incrementsOf]

theorem incrementsOf_zero {K : Type} [DecidableEq K] {k : K} {xs : List (K × ℚ)} (h : k ∉ xs.map Prod.fst) : incrementsOf k xs = 0 := by
  rw [incrementsOf, List.filter_eq_nil_iff.2]
  · rfl
  · rintro ⟨a, b⟩ hx
    simp only [decide_eq_true_eq]
    rintro rfl
    exact h (List.mem_map.2 ⟨_, hx, rfl⟩)

theorem incrementsOf_one {K : Type} [DecidableEq K] (k j : K) (w : ℚ) : incrementsOf k [(j, w)] = if k = j then w else 0 := by
  by_cases h : k = j
  · simp [incrementsOf, h]
  · simp [incrementsOf, h, Ne.symm h]

theorem Eff.refl {start : Str} {g : Gram} (h : Inv start g) : Eff start g g [] [] :=
  ⟨h, rfl, by simp [incrementsOf], by simp [incrementsOf], by simp, by simp, id, fun h _ _ _ _ => h⟩

theorem Eff.trans {start : Str} {g g' g'' : Gram} {rs rs' : List (Spec.NRule × ℚ)} {ls ls' : List ((Str × Str) × ℚ)}
    (h : Eff start g g' rs ls) (h' : Eff start g' g'' rs' ls') : Eff start g g'' (rs ++ rs') (ls ++ ls') where
  inv := h'.inv
  stored := by rw [h'.stored, h.stored, addAll_append]
  lex := fun t w => by rw [h'.lex, h.lex, incrementsOf_append, add_assoc]
  mass := fun l => by
    rw [h'.mass, h.mass, List.map_append, List.map_append, incrementsOf_append, incrementsOf_append]
    ring
  rpos := fun x hx => (List.mem_append.1 hx).elim (h.rpos x) (h'.rpos x)
  lpos := fun x hx => (List.mem_append.1 hx).elim (h.lpos x) (h'.lpos x)
  bounded := fun hb => h'.bounded (h.bounded hb)
  exact := by
    intro he hr hl nr nl
    rw [List.map_append, List.nodup_append] at nr nl
    refine h'.exact (h.exact he (fun x hx => hr x (List.mem_append_left _ hx)) (fun x hx => hl x (List.mem_append_left _ hx)) nr.1 nl.1) ?_ ?_ nr.2.1 nl.2.1
    · intro x hx
      rw [h.stored, cnt_addAll, hr x (List.mem_append_right _ hx), incrementsOf_zero, add_zero]
      intro hm
      exact nr.2.2 _ hm _ (List.mem_map_of_mem hx) rfl
    · intro x hx
      rw [h.lex, hl x (List.mem_append_right _ hx), incrementsOf_zero, add_zero]
      intro hm
      exact nl.2.2 _ hm _ (List.mem_map_of_mem hx) rfl

theorem Ext.bounded {g g' : Gram} (h : Ext g g') (hb : Bounded g) : Bounded g' := by
  rw [Bounded, h.rules, h.rulecounts, h.lexical, h.lexcounts]; exact hb

theorem Ext.exact {g g' : Gram} (h : Ext g g') (hb : Exact g) : Exact g' := by
  rw [Exact, h.rules, h.rulecounts, h.lexical, h.lexcounts]; exact hb

theorem bounded_snoc {α : Type} (f : α → ℚ) {xs : List α} {ws : List ℚ} (hl : ws.length = xs.length) {x : α} {w : ℚ} (hx : 0 < f x ∧ f x ≤ w)
    (h : ∀ (i : Nat) (r : α), xs[i]? = some r → 0 < f r ∧ f r ≤ ws.getD i 0) :
    ∀ (i : Nat) (r : α), (xs ++ [x])[i]? = some r → 0 < f r ∧ f r ≤ (ws ++ [w]).getD i 0 := by
  intro i r hi
  rcases Nat.lt_trichotomy i xs.length with hlt | rfl | hlt
  · rw [List.getElem?_append_left hlt] at hi
    rw [List.getD_eq_getElem?_getD, List.getElem?_append_left (by omega), ← List.getD_eq_getElem?_getD]
    exact h i r hi
  · simp at hi
    subst hi
    rw [List.getD_eq_getElem?_getD, ← hl]
    simpa using hx
  · rw [List.getElem?_eq_none (by simp; omega)] at hi; cases hi

theorem bounded_modify {α : Type} (f : α → ℚ) {xs : List α} {ws : List ℚ} (hl : ws.length = xs.length) {w : ℚ} (hw : 0 < w) (m : Nat)
    (h : ∀ (i : Nat) (r : α), xs[i]? = some r → 0 < f r ∧ f r ≤ ws.getD i 0) :
    ∀ (i : Nat) (r : α), xs[i]? = some r → 0 < f r ∧ f r ≤ (ws.modify m (· + w)).getD i 0 := by
  intro i r hi
  obtain ⟨h1, h2⟩ := h i r hi
  refine ⟨h1, ?_⟩
  by_cases hm : m < ws.length
  · rw [getD_modify _ _ _ _ hm]
    split <;> linarith
  · rw [List.modify_eq_self (by omega)]
    exact h2

theorem convertLine_eff {start : Str} {bitpar : Bool} {conv : Str → ℚ} {g g' : Gram} (h : Inv start g) {fields : List Str}
    (he : convertLine bitpar conv g fields = some g') : ∃ x, Spec.rule bitpar conv fields = some x ∧ Eff start g g' [x] [] := by
  obtain ⟨r, w, hr, hw, hi, hs, hm, g3, i3, hext, k, rfl, hk, k1, k2, k3⟩ := convertLine_spec h he
  obtain ⟨l1, l2, l3, l4, l5⟩ := insertRule_lex g3 k w
  refine ⟨(r, w), hr, hi, hs, ?_, ?_, by simpa using hw, by simp, ?_, ?_⟩
  · intro t w'
    rw [lexCount_congr (g' := insertRule g3 k w) (g := g3) l3 l1 l2 (fun r hr => by rw [Spec.name, Spec.name, l4]), hext.lexCount h]
    simp [incrementsOf]
  · intro l
    rw [hm, List.map_cons, List.map_nil, incrementsOf_one]
    simp [incrementsOf]
  · intro hb
    have hb := hext.bounded hb
    rw [insertRule]
    split
    · exact ⟨bounded_snoc PRule.prob i3.count_len ⟨hw, le_refl _⟩ hb.1, hb.2⟩
    · exact ⟨bounded_modify PRule.prob i3.count_len hw _ hb.1, hb.2⟩
  · intro hx h0 _ _ _
    have hx := hext.exact hx
    have h0 : cnt (Spec.stored g3) (Spec.named g3 k) = 0 := by
      rw [hext.stored h, hk]
      exact h0 (r, w) (by simp)
    rw [insertRule]
    cases hg : get? g3.rulenos k with
    | none => exact ⟨by show g3.rulecounts ++ [w] = _; rw [hx.1]; simp, hx.2⟩
    | some m =>
      exfalso
      obtain ⟨r', hr', hrk⟩ := (i3.nos k m).1 hg
      have hlt : m < g3.rulecounts.length := by rw [i3.count_len]; exact (List.getElem?_eq_some_iff.1 hr').1
      have : cnt (Spec.stored g3) (Spec.named g3 k) = g3.rulecounts.getD m 0 := by
        refine cnt_of_mem (stored_wf i3) (List.mem_map.2 ⟨r', List.mem_of_getElem? hr', ?_⟩)
        rw [hrk, i3.no m r' hr']
      rw [this, List.getD_eq_getElem?_getD, List.getElem?_eq_getElem hlt, Option.getD_some] at h0
      have := i3.pos _ (List.getElem_mem hlt)
      rw [h0] at this
      exact lt_irrefl _ this

theorem convertTag_eff {start : Str} {conv : Str → ℚ} {word : Str} {g g' : Gram} (h : Inv start g) {f : Str} (he : convertTag conv word g f = some g') :
    ∃ tag weight, cutSpace f = some (tag, weight) ∧ Eff start g g' [] [((tag, word), conv weight)] := by
  rw [convertTag, Option.bind_eq_some_iff] at he
  obtain ⟨⟨tag, weight⟩, hc, he⟩ := he
  simp only at he
  split at he
  · cases he
  · split at he
    · cases he
    · rename_i hw
      have hw : 0 < conv weight := not_le.1 hw
      cases he
      obtain ⟨i1, e1, n1⟩ := withLabel_spec h tag 1
      have hlt := (List.getElem?_eq_some_iff.1 n1).1
      generalize hp : withLabel g tag 1 = p at *
      obtain ⟨g1, l⟩ := p
      simp only at *
      refine ⟨tag, weight, hc, insertLex_inv i1 _ _ _ hw hlt, ?_, ?_, ?_, by simp, by simpa using hw, ?_, ?_⟩
      · rw [addAll, ← e1.stored h]
        rw [insertLex]
        split <;> rfl
      · intro t w'
        rw [lexCount_insertLex i1 _ _ _ hlt, e1.lexCount h, name_of n1, incrementsOf_one]
      · intro t
        rw [massOf_modify i1 (g' := insertLex g1 word l (conv weight)) (i := l) (a := tag) (w := conv weight) ?_ n1 ?_ t, e1.massOf h i1]
        · show _ = Spec.massOf g t + incrementsOf t ([] : List (Str × ℚ)) + incrementsOf t [(tag, conv weight)]
          rw [incrementsOf_one]
          simp [incrementsOf]
        · rw [insertLex]; split <;> rfl
        · rw [insertLex]; split <;> rfl
      · intro hb
        have hb := e1.bounded hb
        rw [insertLex]
        split
        · exact ⟨hb.1, bounded_modify Lex.prob i1.lex_len hw _ hb.2⟩
        · exact ⟨hb.1, bounded_snoc Lex.prob i1.lex_len ⟨hw, le_refl _⟩ hb.2⟩
      · intro hx _ h0 _ _
        have hx := e1.exact hx
        have h0 : Spec.lexCount g1 (Spec.name g1 l) word = 0 := by
          rw [e1.lexCount h, name_of n1]
          exact h0 _ (List.mem_singleton.2 rfl)
        rw [insertLex]
        cases hf : ((get? g1.byword word).getD []).find? (fun i => decide ((g1.lexical[i]?.map Lex.lhs) = some l)) with
        | none => exact ⟨hx.1, by show g1.lexcounts ++ [conv weight] = _; rw [hx.2]; simp⟩
        | some i =>
          exfalso
          have hpred : (fun i : Nat => decide ((g1.lexical[i]?.map Lex.lhs) = some l)) =
              fun i : Nat => decide ((g1.lexical[i]?.map (fun r : Lex => Spec.name g1 r.lhs)) = some (Spec.name g1 l)) := by
            funext i
            apply decide_eq_decide.2
            cases hi : g1.lexical[i]? with
            | none => simp
            | some r =>
              simp only [Option.map_some, Option.some.injEq]
              exact ⟨fun h => by rw [h], fun he => name_inj i1 (i1.lex_range r (List.mem_of_getElem? hi)) hlt he⟩
          obtain ⟨is, hb, hi⟩ := getD_mem (List.mem_of_find?_eq_some hf)
          have hil : i < g1.lexcounts.length := by rw [i1.lex_len]; exact i1.byword _ _ hb _ hi
          rw [hpred] at hf
          rw [Spec.lexCount, hf, Option.elim_some, List.getD_eq_getElem?_getD, List.getElem?_eq_getElem hil, Option.getD_some] at h0
          have := i1.lex_pos _ (List.getElem_mem hil)
          rw [h0] at this
          exact lt_irrefl _ this

theorem convertrules_eff {start : Str} {bitpar : Bool} {conv : Str → ℚ} {g g' : Gram} (h : Inv start g) {lines : List (List Str)}
    (he : convertrules bitpar conv g lines = some g') : (∀ f ∈ lines, (Spec.rule bitpar conv f).isSome) ∧ Eff start g g' (Spec.rules bitpar conv lines) [] := by
  rw [convertrules, Option.bind_eq_some_iff] at he
  obtain ⟨g1, h1, he⟩ := he
  split at he
  · cases he
  · cases he
    induction lines generalizing g with
    | nil => simp at h1; subst h1; exact ⟨by simp, Eff.refl h⟩
    | cons f fs ih =>
      rw [List.foldlM_cons] at h1
      obtain ⟨g2, h2, h3⟩ := Option.bind_eq_some_iff.1 h1
      obtain ⟨x, hx, e1⟩ := convertLine_eff h h2
      obtain ⟨a, e2⟩ := ih e1.inv h3
      refine ⟨?_, ?_⟩
      · intro f' hf'
        rcases List.mem_cons.1 hf' with rfl | hf'
        · rw [hx]; rfl
        · exact a f' hf'
      · rw [Spec.rules, List.filterMap_cons, hx]
        exact e1.trans e2

theorem convertTags_eff {start : Str} {conv : Str → ℚ} {word : Str} (fs : List Str) {g g' : Gram} (h : Inv start g)
    (he : fs.foldlM (convertTag conv word) g = some g') :
    Eff start g g' [] (fs.filterMap (fun f => (cutSpace f).map (fun (tag, weight) => ((tag, word), conv weight)))) := by
  induction fs generalizing g with
  | nil => simp at he; subst he; exact Eff.refl h
  | cons f fs ih =>
    rw [List.foldlM_cons] at he
    obtain ⟨g2, h2, h3⟩ := Option.bind_eq_some_iff.1 he
    obtain ⟨tag, weight, hc, e1⟩ := convertTag_eff h h2
    have e2 := ih e1.inv h3
    rw [List.filterMap_cons, hc]
    exact e1.trans e2

theorem convertWord_eff {start : Str} {conv : Str → ℚ} {checkdup : Bool} {g g' : Gram} (h : Inv start g) {fields : List Str}
    (he : convertWord conv checkdup g fields = some g') : Eff start g g' [] (Spec.lexRules conv fields) := by
  match fields, he with
  | [], he => cases he
  | [_], he => cases he
  | word :: f :: fs, he =>
    rw [convertWord] at he
    split at he
    · cases he
    · exact convertTags_eff (f :: fs) h he

theorem convertlexicon_eff {start : Str} {conv : Str → ℚ} {checkdup : Bool} {g g' : Gram} (h : Inv start g) {lines : List (List Str)}
    (he : convertlexicon conv checkdup g lines = some g') : Eff start g g' [] (Spec.lexicon conv lines) := by
  rw [convertlexicon, Option.bind_eq_some_iff] at he
  obtain ⟨g1, h1, he⟩ := he
  split at he
  · cases he
  · cases he
    induction lines generalizing g with
    | nil => simp at h1; subst h1; exact Eff.refl h
    | cons f fs ih =>
      rw [List.foldlM_cons] at h1
      obtain ⟨g2, h2, h3⟩ := Option.bind_eq_some_iff.1 h1
      have e1 := convertWord_eff h h2
      have e2 := ih e1.inv h3
      rw [Spec.lexicon, List.flatMap_cons]
      exact e1.trans e2

theorem addrules_eff {start : Str} {bitpar : Bool} {conv : Str → ℚ} {checkdup : Bool} {g g' : Gram} (h : Inv start g) {rules lexicon : List (List Str)}
    (he : addrules bitpar conv checkdup g rules lexicon = some g') :
    Eff start g g' (Spec.rules bitpar conv rules) (Spec.lexicon conv lexicon) ∧ allSeen g' = true := by
  rw [addrules] at he
  obtain ⟨g1, h1, he⟩ := Option.bind_eq_some_iff.1 he
  obtain ⟨g2, h2, he⟩ := Option.bind_eq_some_iff.1 he
  split at he
  · rename_i hs
    cases he
    have e1 := (convertrules_eff h h1).2
    have := e1.trans (convertlexicon_eff e1.inv h2)
    rw [List.append_nil, List.nil_append] at this
    exact ⟨this, hs⟩
  · cases he

/-! ### Sums of weights -/

theorem zipIdx_sum {α : Type} (p : α → Bool) (f : ℚ → α → ℚ) : ∀ (xs : List α) (ws : List ℚ) (n : Nat) (pre : List ℚ), pre.length = n → xs.length = ws.length →
    ((xs.zip ws).filter (fun x => p x.1)).map (fun x => f x.2 x.1) =
    ((xs.zipIdx n).filter (fun x => p x.1)).map (fun x => f ((pre ++ ws).getD x.2 0) x.1) := by
  intro xs
  induction xs with
  | nil => intro ws n pre _ _; rfl
  | cons x xs ih =>
    intro ws n pre hp hl
    cases ws with
    | nil => simp at hl
    | cons w ws =>
      have hih := ih ws (n + 1) (pre ++ [w]) (by simp [hp]) (by simpa using hl)
      rw [List.append_assoc, List.singleton_append] at hih
      have hw : (pre ++ w :: ws).getD n 0 = w := by
        rw [List.getD_eq_getElem?_getD, ← hp]
        simp
      rw [List.zip_cons_cons, List.zipIdx_cons, List.filter_cons, List.filter_cons]
      by_cases hpx : p x
      · simp only [hpx, if_true, List.map_cons, hw, hih]
      · simp only [hpx]
        exact hih

theorem sumAt_zipIdx {α : Type} (p : α → Bool) {xs : List α} {ws : List ℚ} (h : xs.length = ws.length) :
    sumAt p xs ws = ((xs.zipIdx.filter (fun x => p x.1)).map (fun x => ws.getD x.2 0)).sum := by
  rw [sumAt]
  have := zipIdx_sum p (fun w _ => w) xs ws 0 [] rfl h
  rw [List.nil_append] at this
  rw [← this]

theorem zipIdx_fst {α β : Type} (p : α → Bool) (f : α → β) (xs : List α) (n : Nat) :
    ((xs.zipIdx n).filter (fun x => p x.1)).map (fun x => f x.1) = (xs.filter p).map f := by
  induction xs generalizing n with
  | nil => rfl
  | cons x xs ih =>
    rw [List.zipIdx_cons, List.filter_cons, List.filter_cons]
    by_cases hp : p x
    · simp [hp, ih]
    · simpa [hp] using ih (n + 1)

theorem sum_div (xs : List ℚ) (c : ℚ) : (xs.map (· / c)).sum = xs.sum / c := by
  induction xs with
  | nil => simp
  | cons x xs ih => simp only [List.map_cons, List.sum_cons, ih]; ring

/-- The sum of the counts of the rules with a left-hand side, as a sum over the rules. -/
theorem sumAt_rules {start : Str} {g : Gram} (h : Inv start g) (l : Nat) :
    sumAt (fun r : PRule => decide (r.key.lhs = l)) g.rules g.rulecounts = ((g.rules.filter (fun r => decide (r.key.lhs = l))).map (fun r => g.rulecounts.getD r.no 0)).sum := by
  rw [sumAt_zipIdx _ h.count_len.symm, ← zipIdx_fst _ (fun r : PRule => g.rulecounts.getD r.no 0) g.rules 0]
  congr 1
  apply List.map_congr_left
  rintro ⟨r, i⟩ hx
  have hx := List.mem_zipIdx' (List.mem_of_mem_filter hx)
  rw [h.no i r (by rw [List.getElem?_eq_getElem hx.1, ← hx.2])]

end Disco.Convert
namespace Disco
open Disco.Convert Dict Prods

/-- A grammar after the constructor and any number of calls of `addrules` (_grammar.pxi:56-113, 312-390). -/
def Convert.build (bitpar : Bool) (conv : Str → ℚ) (start : Str) (rules lexicon : List (List Str)) (more : List (List (List Str) × List (List Str))) : Option Gram :=
  (construct bitpar conv start rules lexicon).bind (fun g => more.foldlM (fun g p => addrules bitpar conv false g p.1 p.2) g)

/-- All rules that were read, in order. -/
def Convert.Spec.allRules (bitpar : Bool) (conv : Str → ℚ) (rules : List (List Str)) (more : List (List (List Str) × List (List Str))) : List (Convert.Spec.NRule × ℚ) :=
  Convert.Spec.rules bitpar conv (rules ++ more.flatMap Prod.fst)

/-- All lexical entries that were read, in order. -/
def Convert.Spec.allLexicon (conv : Str → ℚ) (lexicon : List (List Str)) (more : List (List (List Str) × List (List Str))) : List ((Str × Str) × ℚ) :=
  Convert.Spec.lexicon conv (lexicon ++ more.flatMap Prod.snd)

theorem Convert.build_eff {bitpar : Bool} {conv : Str → ℚ} {start : Str} (hs : start ≠ epsilon) {rules lexicon : List (List Str)}
    {more : List (List (List Str) × List (List Str))} {g : Gram} (h : build bitpar conv start rules lexicon more = some g) :
    Eff start (Gram.init start) g (Convert.Spec.allRules bitpar conv rules more) (Convert.Spec.allLexicon conv lexicon more) ∧ allSeen g = true := by
  rw [build, Option.bind_eq_some_iff] at h
  obtain ⟨g1, h1, h⟩ := h
  have e1 := addrules_eff (inv_init hs) h1
  have key : ∀ (more : List (List (List Str) × List (List Str))) (g1 : Gram) rs ls, (Eff start (Gram.init start) g1 rs ls ∧ allSeen g1 = true) →
      more.foldlM (fun g p => addrules bitpar conv false g p.1 p.2) g1 = some g →
      Eff start (Gram.init start) g (rs ++ Convert.Spec.rules bitpar conv (more.flatMap Prod.fst)) (ls ++ Convert.Spec.lexicon conv (more.flatMap Prod.snd)) ∧ allSeen g = true := by
    intro more
    induction more with
    | nil =>
      intro g1 rs ls he hm
      simp at hm
      subst hm
      simpa [Convert.Spec.rules, Convert.Spec.lexicon] using he
    | cons p more ih =>
      intro g1 rs ls he hm
      rw [List.foldlM_cons] at hm
      obtain ⟨g2, h2, h3⟩ := Option.bind_eq_some_iff.1 hm
      have e2 := addrules_eff he.1.inv h2
      have := ih g2 _ _ ⟨he.1.trans e2.1, e2.2⟩ h3
      simpa [Convert.Spec.rules, Convert.Spec.lexicon, List.filterMap_append] using this
  have := key more g1 _ _ e1 h
  simpa [Convert.Spec.allRules, Convert.Spec.allLexicon, Convert.Spec.rules, Convert.Spec.lexicon, List.filterMap_append] using this

/-- **C44** Labels and numbers: in any grammar that was built, looking up the number of a label and the label of a number are inverse to each other;
0 is the terminal marker and 1 the start symbol; rules refer to existing labels only; and every label other than the marker is the left-hand side of
some phrasal or lexical rule. -/
theorem C44_labels {bitpar : Bool} {conv : Str → ℚ} {start : Str} (hs : start ≠ epsilon) {rules lexicon : List (List Str)}
    {more : List (List (List Str) × List (List Str))} {g : Gram} (h : build bitpar conv start rules lexicon more = some g) :
    (∀ l i, get? g.toid l = some i ↔ g.tolabel[i]? = some l) ∧ g.tolabel.Nodup ∧ g.tolabel[0]? = some epsilon ∧ g.tolabel[1]? = some start ∧
    (∀ r ∈ g.rules, 0 < r.key.lhs ∧ r.key.lhs < g.tolabel.length ∧ 1 < r.key.rhs1 ∧ r.key.rhs1 < g.tolabel.length ∧ r.key.rhs2 ≠ 1 ∧ r.key.rhs2 < g.tolabel.length) ∧
    (∀ r ∈ g.lexical, r.lhs < g.tolabel.length) ∧
    ∀ l, 0 < l → l < g.tolabel.length → (∃ r ∈ g.rules, r.key.lhs = l) ∨ ∃ r ∈ g.lexical, r.lhs = l := by
  obtain ⟨e, hseen⟩ := build_eff hs h
  have hi := e.inv
  refine ⟨hi.ids, ?_, hi.eps, hi.root, hi.range, hi.lex_range, ?_⟩
  · rw [List.nodup_iff_pairwise_ne, List.pairwise_iff_getElem]
    intro i j h1 h2 hij he
    have a := (hi.ids _ i).2 (List.getElem?_eq_getElem h1)
    have b := (hi.ids _ j).2 (List.getElem?_eq_getElem h2)
    rw [he, b] at a
    simp at a
    omega
  · intro l h0 hl
    rw [allSeen, List.all_eq_true] at hseen
    have := hseen l (by rw [List.mem_range'_1]; omega)
    simp only [Bool.or_eq_true, List.any_eq_true, decide_eq_true_eq] at this
    exact this

/-- **C45** Counts: the stored phrasal rules, each with the count that `switch('default')` uses, are the distinct rules of all the text read, in order of
first occurrence, each with the sum of the weights of its lines; likewise for the count of every tag and word; and the mass of a label is the total weight
of the lines with that left-hand side. -/
theorem C45_counts {bitpar : Bool} {conv : Str → ℚ} {start : Str} (hs : start ≠ epsilon) {rules lexicon : List (List Str)}
    {more : List (List (List Str) × List (List Str))} {g : Gram} (h : build bitpar conv start rules lexicon more = some g) :
    Convert.Spec.stored g = addAll [] (Convert.Spec.allRules bitpar conv rules more) ∧
    (∀ t w, Convert.Spec.lexCount g t w = incrementsOf (t, w) (Convert.Spec.allLexicon conv lexicon more)) ∧
    (∀ l, Convert.Spec.massOf g l = incrementsOf l ((Convert.Spec.allRules bitpar conv rules more).map (fun x => (x.1.lhs, x.2))) +
      incrementsOf l ((Convert.Spec.allLexicon conv lexicon more).map (fun x => (x.1.1, x.2)))) ∧
    (∀ x ∈ Convert.Spec.allRules bitpar conv rules more, 0 < x.2) ∧ ∀ x ∈ Convert.Spec.allLexicon conv lexicon more, 0 < x.2 := by
  obtain ⟨e, hseen⟩ := build_eff hs h
  refine ⟨e.stored, ?_, ?_, e.rpos, e.lpos⟩
  · intro t w
    rw [e.lex]
    simp [Convert.Spec.lexCount, Gram.init, get?]
  · intro l
    rw [e.mass, show Convert.Spec.massOf (Gram.init start) l = 0 from ?_, zero_add]
    rw [Convert.Spec.massOf]
    cases hl : get? (Gram.init start).toid l with
    | none => rfl
    | some i => rcases i with _ | _ | i <;> rfl

theorem Convert.mass_pos {start : Str} {g : Gram} (h : Inv start g) {l : Nat} (hl : (∃ r ∈ g.rules, r.key.lhs = l) ∨ ∃ r ∈ g.lexical, r.lhs = l) : 0 < g.freqmass.getD l 0 := by
  have nn : ∀ {α : Type} (p : α → Bool) {xs : List α} {ws : List ℚ}, (∀ w ∈ ws, 0 < w) → 0 ≤ sumAt p xs ws := by
    intro α p xs ws hw
    rw [sumAt]
    apply List.sum_nonneg
    intro w hm
    obtain ⟨x, hx, rfl⟩ := List.mem_map.1 hm
    exact le_of_lt (hw _ (List.of_mem_zip (List.mem_of_mem_filter hx)).2)
  have pp : ∀ {α : Type} (p : α → Bool) {xs : List α} {ws : List ℚ}, xs.length = ws.length → (∀ w ∈ ws, 0 < w) → (∃ x ∈ xs, p x = true) → 0 < sumAt p xs ws := by
    intro α p xs
    induction xs with
    | nil => intro ws _ _ hx; simp at hx
    | cons x xs ih =>
      intro ws hl hw hx
      cases ws with
      | nil => simp at hl
      | cons w ws =>
        rw [sumAt, List.zip_cons_cons, List.filter_cons]
        by_cases hp : p x
        · have := nn p (xs := xs) (ws := ws) (fun v hv => hw v (by simp [hv]))
          rw [sumAt] at this
          simp only [hp, if_true, List.map_cons, List.sum_cons]
          have := hw w (by simp)
          linarith
        · obtain ⟨y, hy, hpy⟩ := hx
          rcases List.mem_cons.1 hy with rfl | hy
          · exact absurd hpy hp
          · have := ih (by simpa using hl) (fun v hv => hw v (by simp [hv])) ⟨y, hy, hpy⟩
            rw [sumAt] at this
            simpa [hp] using this
  rw [h.mass]
  rcases hl with ⟨r, hr, hl⟩ | ⟨r, hr, hl⟩
  · have := pp (fun r : PRule => decide (r.key.lhs = l)) h.count_len.symm h.pos ⟨r, hr, by simp [hl]⟩
    have := nn (fun r : Lex => decide (r.lhs = l)) (xs := g.lexical) h.lex_pos
    linarith
  · have := pp (fun r : Lex => decide (r.lhs = l)) h.lex_len.symm h.lex_pos ⟨r, hr, by simp [hl]⟩
    have := nn (fun r : PRule => decide (r.key.lhs = l)) (xs := g.rules) h.pos
    linarith

/-- **C45** Normalisation: after `switch('default')` (which `addrules` also does) the probabilities of the phrasal and lexical rules of every label sum to 1. -/
theorem C45_normalised {bitpar : Bool} {conv : Str → ℚ} {start : Str} (hs : start ≠ epsilon) {rules lexicon : List (List Str)}
    {more : List (List (List Str) × List (List Str))} {g : Gram} (h : build bitpar conv start rules lexicon more = some g)
    (l : Nat) (h0 : 0 < l) (hl : l < g.tolabel.length) :
    ((g.rules.filter (fun r => decide (r.key.lhs = l))).map (defaultWeight g)).sum +
    ((g.lexical.zipIdx.filter (fun x => decide (x.1.lhs = l))).map (fun x => defaultLexWeight g x.2 x.1)).sum = 1 := by
  obtain ⟨e, _⟩ := build_eff hs h
  have hi := e.inv
  have hpos := mass_pos hi ((C44_labels hs h).2.2.2.2.2.2 l h0 hl)
  have e1 : (g.rules.filter (fun r => decide (r.key.lhs = l))).map (defaultWeight g) =
      ((g.rules.filter (fun r => decide (r.key.lhs = l))).map (fun r => g.rulecounts.getD r.no 0)).map (· / g.freqmass.getD l 0) := by
    rw [List.map_map]
    apply List.map_congr_left
    intro r hr
    have := (List.mem_filter.1 hr).2
    simp only [decide_eq_true_eq] at this
    simp only [defaultWeight, Function.comp, this]
  have e2 : (g.lexical.zipIdx.filter (fun x => decide (x.1.lhs = l))).map (fun x => defaultLexWeight g x.2 x.1) =
      ((g.lexical.zipIdx.filter (fun x => decide (x.1.lhs = l))).map (fun x => g.lexcounts.getD x.2 0)).map (· / g.freqmass.getD l 0) := by
    rw [List.map_map]
    apply List.map_congr_left
    intro r hr
    have := (List.mem_filter.1 hr).2
    simp only [decide_eq_true_eq] at this
    simp only [defaultLexWeight, Function.comp, this]
  rw [e1, e2, sum_div, sum_div, ← add_div, ← sumAt_rules hi, ← sumAt_zipIdx (fun r : Lex => decide (r.lhs = l)) hi.lex_len.symm, ← hi.mass]
  exact div_self (ne_of_gt hpos)

/-- **C45** The constructor normalises with a different formula: for every label the probabilities it sets sum to at most 1, and to exactly 1 if no
phrasal rule and no entry for a tag and word is listed twice. -/
theorem C45_init {bitpar : Bool} {conv : Str → ℚ} {start : Str} (hs : start ≠ epsilon) {rules lexicon : List (List Str)} {g : Gram}
    (h : construct bitpar conv start rules lexicon = some g) (l : Nat) (h0 : 0 < l) (hl : l < g.tolabel.length) :
    ((g.rules.filter (fun r => decide (r.key.lhs = l))).map (initWeight g)).sum + ((g.lexical.filter (fun r => decide (r.lhs = l))).map (initLexWeight g)).sum ≤ 1 ∧
    (((Convert.Spec.rules bitpar conv rules).map Prod.fst).Nodup → ((Convert.Spec.lexicon conv lexicon).map Prod.fst).Nodup →
      ((g.rules.filter (fun r => decide (r.key.lhs = l))).map (initWeight g)).sum + ((g.lexical.filter (fun r => decide (r.lhs = l))).map (initLexWeight g)).sum = 1) := by
  have hb : build bitpar conv start rules lexicon [] = some g := by rw [build, h]; rfl
  obtain ⟨e, _⟩ := addrules_eff (inv_init hs) h
  have hi := e.inv
  have hpos := mass_pos hi ((C44_labels hs hb).2.2.2.2.2.2 l h0 hl)
  have hnorm := C45_normalised hs hb l h0 hl
  have bnd : Bounded (Gram.init start) := ⟨by simp [Gram.init], by simp [Gram.init]⟩
  have ext : Exact (Gram.init start) := ⟨rfl, rfl⟩
  have r1 : ∀ r ∈ g.rules.filter (fun r => decide (r.key.lhs = l)), initWeight g r ≤ defaultWeight g r := by
    intro r hr
    obtain ⟨hr, hl⟩ := List.mem_filter.1 hr
    simp only [decide_eq_true_eq] at hl
    obtain ⟨i, hi'⟩ := List.getElem?_of_mem hr
    rw [initWeight, defaultWeight, hl, hi.no i r hi']
    exact div_le_div_of_nonneg_right ((e.bounded bnd).1 i r hi').2 (le_of_lt hpos)
  have r2 : ∀ x ∈ g.lexical.zipIdx.filter (fun x => decide (x.1.lhs = l)), initLexWeight g x.1 ≤ defaultLexWeight g x.2 x.1 := by
    rintro ⟨r, i⟩ hr
    obtain ⟨hr, hl⟩ := List.mem_filter.1 hr
    simp only [decide_eq_true_eq] at hl
    have hx := List.mem_zipIdx' hr
    have hi' : g.lexical[i]? = some r := by rw [List.getElem?_eq_getElem hx.1, ← hx.2]
    rw [initLexWeight, defaultLexWeight, hl]
    exact div_le_div_of_nonneg_right ((e.bounded bnd).2 i r hi').2 (le_of_lt hpos)
  have hlex := zipIdx_fst (fun r : Lex => decide (r.lhs = l)) (initLexWeight g) g.lexical 0
  rw [← hlex]
  constructor
  · calc _ ≤ _ := add_le_add (List.sum_le_sum r1) (List.sum_le_sum r2)
      _ = 1 := hnorm
  · intro n1 n2
    obtain ⟨x1, x2⟩ := e.exact ext (by intro x _; rfl) (by intro x _; rfl) n1 n2
    rw [← hnorm]
    congr 1
    · congr 1
      apply List.map_congr_left
      intro r hr
      obtain ⟨i, hi'⟩ := List.getElem?_of_mem (List.mem_of_mem_filter hr)
      have hc : g.rulecounts.getD i 0 = r.prob := by simp [x1, List.getD_eq_getElem?_getD, hi']
      rw [initWeight, defaultWeight, hi.no i r hi', hc]
    · congr 1
      apply List.map_congr_left
      rintro ⟨r, i⟩ hr
      have hx := List.mem_zipIdx' (List.mem_of_mem_filter hr)
      have hi' : g.lexical[i]? = some r := by rw [List.getElem?_eq_getElem hx.1, ← hx.2]
      have hc : g.lexcounts.getD i 0 = r.prob := by simp [x2, List.getD_eq_getElem?_getD, hi']
      show initLexWeight g r = defaultLexWeight g i r
      rw [initLexWeight, defaultLexWeight, hc]

/-! ### Looking up rules -/

/-- `noderuleno` (_grammar.pxi:952-963): the number of the rule at a node of a continuous tree, by the labels of the node and its children. Where the
key is missing, C++ `operator[]` inserts it with the value 0, so that the number of another rule is returned; the model gives `none`. -/
def Convert.noderuleno (g : Gram) (a b : Str) (c : Option Str) : Option Nat :=
  (get? g.toid a).bind (fun i => (get? g.toid b).bind (fun j =>
    match c with
    | some c => (get? g.toid c).bind (fun k => get? g.rulenos ⟨i, j, k, 2, 2⟩)
    | none => get? g.rulenos ⟨i, j, 0, 0, 1⟩))

theorem Convert.stored_mem {bitpar : Bool} {conv : Str → ℚ} {start : Str} (hs : start ≠ epsilon) {rules lexicon : List (List Str)}
    {more : List (List (List Str) × List (List Str))} {g : Gram} (h : build bitpar conv start rules lexicon more = some g) (r : Convert.Spec.NRule) :
    (∃ (n : Nat) (p : PRule), g.rules[n]? = some p ∧ Convert.Spec.named g p.key = r) ↔ r ∈ (Convert.Spec.allRules bitpar conv rules more).map Prod.fst := by
  have hst := (C45_counts hs h).1
  have : r ∈ keys (Convert.Spec.stored g) ↔ r ∈ (Convert.Spec.allRules bitpar conv rules more).map Prod.fst := by
    rw [hst, mem_keys_addAll]
    simp [keys]
  rw [← this, keys, Convert.Spec.stored, List.map_map]
  simp only [List.mem_map, Function.comp]
  constructor
  · rintro ⟨n, p, hp, he⟩
    exact ⟨p, List.mem_of_getElem? hp, he⟩
  · rintro ⟨p, hp, he⟩
    obtain ⟨n, hn⟩ := List.getElem?_of_mem hp
    exact ⟨n, p, hn, he⟩

/-- **C44** In the standard format, the rule of every node of a continuous tree whose rule was read is found, and it is the rule with those labels. -/
theorem C44_noderuleno {conv : Str → ℚ} {start : Str} (hs : start ≠ epsilon) {rules lexicon : List (List Str)}
    {more : List (List (List Str) × List (List Str))} {g : Gram} (h : build false conv start rules lexicon more = some g)
    {a b : Str} {c : Option Str} (hr : (⟨a, b, c, if c.isSome then 2 else 0, if c.isSome then 2 else 1⟩ : Convert.Spec.NRule) ∈ (Convert.Spec.allRules false conv rules more).map Prod.fst) :
    ∃ (n : Nat) (p : PRule), noderuleno g a b c = some n ∧ g.rules[n]? = some p ∧ Convert.Spec.named g p.key = ⟨a, b, c, if c.isSome then 2 else 0, if c.isSome then 2 else 1⟩ := by
  obtain ⟨e, _⟩ := build_eff hs h
  have hi := e.inv
  obtain ⟨n, p, hp, hn⟩ := (stored_mem hs h _).2 hr
  refine ⟨n, p, ?_, hp, hn⟩
  obtain ⟨_, a1, _, a2, _, a3⟩ := hi.range p (List.mem_of_getElem? hp)
  have hk := (hi.nos p.key n).2 ⟨p, hp, rfl⟩
  simp only [Convert.Spec.named, Convert.Spec.NRule.mk.injEq] at hn
  obtain ⟨n1, n2, n3, n4, n5⟩ := hn
  have i1 := (hi.ids _ _).2 (name_get a1)
  have i2 := (hi.ids _ _).2 (name_get a2)
  have i3 := (hi.ids _ _).2 (name_get a3)
  rw [n1] at i1
  rw [n2] at i2
  rw [noderuleno, i1, i2]
  simp only [Option.bind_some]
  obtain ⟨⟨lhs, r1, r2, ar, le⟩, no, pr⟩ := p
  simp only at *
  cases c with
  | none =>
    by_cases hz : r2 = 0
    · subst hz
      simp only [Option.isSome_none, Bool.false_eq_true, if_false] at n4 n5
      rw [n4, n5] at hk
      exact hk
    · rw [if_neg hz] at n3; cases n3
  | some c =>
    by_cases hz : r2 = 0
    · rw [if_pos hz] at n3; cases n3
    · rw [if_neg hz, Option.some.injEq] at n3
      rw [n3] at i3
      simp only [Option.isSome_some, if_true] at n4 n5
      rw [n4, n5] at hk
      simp only [i3, Option.bind_some]
      exact hk

/-- **C44**, disagreement: in the bitpar format no unary rule is ever found, since unary rules are stored with the yield function of binary rules. -/
theorem C44_bitpar_unary {conv : Str → ℚ} {start : Str} (hs : start ≠ epsilon) {rules lexicon : List (List Str)}
    {more : List (List (List Str) × List (List Str))} {g : Gram} (h : build true conv start rules lexicon more = some g) (a b : Str) : noderuleno g a b none = none := by
  obtain ⟨e, _⟩ := build_eff hs h
  cases hn : noderuleno g a b none with
  | none => rfl
  | some n =>
    exfalso
    rw [noderuleno, Option.bind_eq_some_iff] at hn
    obtain ⟨i, _, hn⟩ := hn
    obtain ⟨j, _, hn⟩ := Option.bind_eq_some_iff.1 hn
    obtain ⟨p, hp, hk⟩ := (e.inv.nos _ n).1 hn
    obtain ⟨x, hx, hxe⟩ := List.mem_map.1 ((stored_mem hs h _).1 ⟨n, p, hp, rfl⟩)
    rw [Convert.Spec.allRules, Convert.Spec.rules, List.mem_filterMap] at hx
    obtain ⟨f, _, hf⟩ := hx
    simp only [Convert.Spec.rule, parseLine.eq_def, if_true] at hf
    cases f with
    | nil => cases hf
    | cons w rule =>
      simp only [Option.bind_some] at hf
      have hargs : x.1.args = 0 := by rw [hxe, hk]; rfl
      match rule, hf with
      | [], hf => cases hf
      | [_], hf => cases hf
      | [_, _], hf => cases hf; cases hargs
      | [_, _, _], hf => cases hf; cases hargs
      | _ :: _ :: _ :: _ :: _, hf => cases hf

/-! ### Examples and disagreements -/

namespace Convert.Ex

/-- Decimal digits. -/
def conv (s : Str) : ℚ := ((s.foldl (fun n c => 10 * n + (c.toNat - 48)) 0 : Nat) : ℚ)

/-- `S NP VP 01 3`, `VP NP V 0,1 2` … a small grammar with a discontinuous constituent. -/
def rules : List (List Str) :=
  [[['S'], ['N'], ['V'], ['0', '1'], ['3']], [['S'], ['V'], ['0'], ['1']], [['N'], ['V'], ['0'], ['2']], [['S'], ['N'], ['V'], ['0', '1'], ['2']]]

/-- The lexicon. -/
def lexicon : List (List Str) := [[['a'], ['N', ' ', '4'], ['V', ' ', '1']], [['b'], ['V', ' ', '2']]]

/-- More rules. -/
def more : List (List (List Str) × List (List Str)) := [([[['V'], ['N'], ['0'], ['5']]], [[['a'], ['N', ' ', '1']]])]

/-- The grammar, or an empty one. -/
def g : Gram := (build false conv ['S'] rules lexicon more).getD (Gram.init [])

example : build false conv ['S'] rules lexicon more = some g ∧ g.rules.length = 4 ∧ g.rulecounts = [5, 1, 2, 5] ∧ g.freqmass = [0, 6, 7, 8] := by decide +kernel
example : noderuleno g ['S'] ['N'] (some ['V']) = some 0 ∧ noderuleno g ['N'] ['V'] none = some 2 := by decide +kernel
example : ((construct false conv ['S'] (rules.take 3) lexicon).isSome) = true ∧ ((Convert.Spec.rules false conv (rules.take 3)).map Prod.fst).Nodup ∧
    ((Convert.Spec.lexicon conv lexicon).map Prod.fst).Nodup := by decide +kernel
example : (build true conv ['S'] [[['1'], ['S'], ['N']]] [[['a'], ['N', ' ', '1']]] []).isSome = true := by decide +kernel

end Convert.Ex

/-- **C45**, disagreement: with a rule listed twice, the probabilities that the constructor sets do not sum to 1. -/
theorem C45_init_duplicates : ∃ g, construct false Convert.Ex.conv ['S'] Convert.Ex.rules Convert.Ex.lexicon = some g ∧
    ((g.rules.filter (fun r => decide (r.key.lhs = 1))).map (initWeight g)).sum + ((g.lexical.filter (fun r => decide (r.lhs = 1))).map (initLexWeight g)).sum = 2 / 3 := by
  refine ⟨(construct false Convert.Ex.conv ['S'] Convert.Ex.rules Convert.Ex.lexicon).getD (Gram.init []), ?_⟩
  decide +kernel

/-- **C44**, disagreement: the fan-out of labels on the right-hand side is not checked: `A` has fan-out 2 by its own rule, but is used with fan-out 1. -/
theorem C44_fanout_unchecked : ∃ g, construct false Convert.Ex.conv ['S']
      [[['A'], ['B'], ['B'], ['0', ',', '1'], ['1']], [['S'], ['A'], ['0'], ['1']]] [[['b'], ['B', ' ', '1']]] = some g ∧
    g.tolabel[2]? = some ['A'] ∧ g.fanout[2]? = some 2 ∧ (∃ r ∈ g.rules, r.key = ⟨1, 2, 0, 0, 1⟩) ∧
    (YieldBits.readYF ['0']).map (fun s => (s.args, s.lengths, s.rhs1)) = some (0, 1, 1) := by
  refine ⟨(construct false Convert.Ex.conv ['S'] [[['A'], ['B'], ['B'], ['0', ',', '1'], ['1']], [['S'], ['A'], ['0'], ['1']]] [[['b'], ['B', ' ', '1']]]).getD (Gram.init []), ?_⟩
  decide +kernel

end Disco
