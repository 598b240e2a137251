import Verif.Estimate.SxParser
/-!
# C59: the estimates for LCFRS (`SXlrgaps`): `outsidelr` (estimates.pyx:236-337), `getestimates` (340-356), as used by the parser (plcfrs.pyx:444-448, 506-518, 735-740)

`simpleinside` (estimates.pyx:88-148) is the same algorithm as `pcfginsidesx` (Sx.lean). Simplifications as there.
-/
set_option linter.unusedSectionVars false
namespace Disco.Estimate
open Dict Bits

variable {R : Type} [AddCommMonoid R] [LinearOrder R] [IsOrderedAddMonoid R]

/-! ### Model -/

/-- A rule with the bits of `args` up to `bitlength(lengths)`. -/
structure LRule (R : Type) extends Rule R where
  args : List Bool

/-- An item: label, length, number of words to the left and right, number of words in gaps (`Item`, estimates.pyx:23-62). -/
abbrev LItem := Nat × Nat × Nat × Nat

/-- `if score < outside[...]: agenda[...] = outside[...] = score`. -/
def lrelax (st : (LItem → Option R) × Dict LItem R) (y : LItem) (score : R) : (LItem → Option R) × Dict LItem R :=
  if (st.1 y).all (fun d => decide (score < d)) then (Function.update st.1 y (some score), Dict.set st.2 y score) else st

/-- `addgaps`, `addright` for the left child (estimates.pyx:271-281): the number of elements of the right child that are not at the end, and at the end. -/
def addLeft (args : List Bool) : Nat × Nat :=
  let right := (args.reverse.takeWhile id).length
  ((args.filter id).length - right, right)

/-- `addgaps` for the right child (estimates.pyx:304-319): the number of elements of the left child that are not at the beginning or the end. -/
def addRight (args : List Bool) : Nat := ((args.dropWhile not).filter not).length - (args.reverse.takeWhile not).length

/-- One rule (estimates.pyx:261-335). -/
def lrRule (fanout : Nat → Nat) (ins : In → Option R) (x : LItem) (c : R) (st : (LItem → Option R) × Dict LItem R) (r : LRule R) : (LItem → Option R) × Dict LItem R :=
  let (_, length, lr0, gaps) := x
  if r.rhs2 = 0 then lrelax st (r.rhs1, length, lr0, gaps) (r.prob + c)
  else
    let totlen := length + lr0 + gaps
    let lf := fanout r.rhs1
    let rf := fanout r.rhs2
    let (addgaps, addright) := addLeft r.args
    let st := (List.range' lf (length - rf + 1 - lf)).foldl (fun st lenA => match ins (r.rhs2, length - lenA) with
      | none => st
      | some d => (List.range' lr0 (length - lenA + 2)).foldl (fun st lr =>
        if addright = 0 ∧ lr ≠ lr0 then st
        else (List.range' (lf - 1) (totlen + 1 - (lf - 1))).foldl (fun st ga =>
          if lenA + lr + ga = totlen ∧ addgaps ≤ ga then lrelax st (r.rhs1, lenA, lr, ga) (r.prob + c + d) else st) st) st) st
    let addgaps := addRight r.args
    (List.range' rf (length - lf + 1 - rf)).foldl (fun st lenA => match ins (r.rhs1, length - lenA) with
      | none => st
      | some d => (List.range' lr0 (length - lenA + 2)).foldl (fun st lr =>
        (List.range' (rf - 1) (totlen + 1 - (rf - 1))).foldl (fun st ga =>
          if lenA + lr + ga = totlen ∧ addgaps ≤ ga then lrelax st (r.rhs2, lenA, lr, ga) (r.prob + d + c) else st) st) st) st

/-- The main loop of `outsidelr` (estimates.pyx:253-337) for a number of rounds. -/
def lrLoop (bylhs : List (LRule R)) (fanout : Nat → Nat) (ins : In → Option R) (pick : Dict LItem R → LItem) : Nat → (LItem → Option R) × Dict LItem R → Option (LItem → Option R)
  | fuel, st =>
    if st.2.isEmpty then some st.1
    else match fuel with
      | 0 => none
      | fuel + 1 => (get? st.2 (pick st.2)).bind (fun c =>
        let x := pick st.2
        lrLoop bylhs fanout ins pick fuel ((bylhs.filter (fun r => decide (r.lhs = x.1))).foldl (lrRule fanout ins x c) (st.1, erase st.2 x)))

/-- `getestimates(grammar, maxlen, rootlabel)` (estimates.pyx:340-356) and `outsidelr` (236-337). -/
def getestimates (g : Gram R) (bylhs : List (LRule R)) (fanout : Nat → Nat) (maxlen goal : Nat) (pickI : Dict In R → In) (pickO : Dict LItem R → LItem) (fuelI fuelO : Nat) :
    Option (LItem → Option R) :=
  (pcfginsidesx g maxlen pickI fuelI).bind (fun ins =>
    lrLoop bylhs fanout ins pickO fuelO ((List.range' 1 maxlen).foldl (fun st n => (Function.update st.1 (goal, n, 0, 0) (some 0), Dict.set st.2 (goal, n, 0, 0) 0)) (fun _ => none, [])))

/-- `outside[label, length, left + right, gaps]` (plcfrs.pyx:416-432, 444-446). -/
def lrEst (out : LItem → Option R) (n : Nat) (x : Plcfrs.Item Word) : Option R :=
  (nextset x.vec 0).bind (fun left =>
    let length := popcount x.vec
    let gaps := bitlength x.vec - length - left
    out (x.label, length, left + (n - length - left - gaps), gaps))

/-! ### Examples -/

/-- ROOT (1) → X (2) C (5) with the yield function 010; X → A (3) B (4) with 0,1; C → D (6) D with 01. The sentence is a d d b. -/
def lrRules : List (LRule Int) := [⟨⟨1, 2, 5, 1⟩, [false, true, false]⟩, ⟨⟨2, 3, 4, 1⟩, [false, true]⟩, ⟨⟨5, 6, 6, 1⟩, [false, true]⟩]

def lrFan (l : Nat) : Nat := if l = 2 then 2 else 1

def lrGram : Gram Int where
  nonterminals := 7
  lexical := [(3, 1), (4, 1), (6, 1)]
  unary := []
  lbinary := lrRules.map LRule.toRule
  rbinary := lrRules.map LRule.toRule
  bylhs := lrRules.map LRule.toRule

/-- The same grammar for the parser. -/
def lrParse : Plcfrs.Grammar Int where
  unary := []
  lbinary := [⟨1, 2, 5, 0b010, 0b100, 1, 0⟩, ⟨2, 3, 4, 0b10, 0b11, 1, 1⟩, ⟨5, 6, 6, 0b10, 0b10, 1, 2⟩]
  rbinary := [⟨1, 2, 5, 0b010, 0b100, 1, 0⟩, ⟨2, 3, 4, 0b10, 0b11, 1, 1⟩, ⟨5, 6, 6, 0b10, 0b10, 1, 2⟩]
  lexicon i := if i = 0 then [(3, 1)] else if i = 3 then [(4, 1)] else [(6, 1)]

/-- The result of the parser with these estimates: the word that is reported to have no tags, and the cost of the goal. -/
def lrResult : Option (Option Nat × Option Int) :=
  (getestimates lrGram lrRules lrFan 4 1 pickMin pickMin 99 9999).bind (fun out =>
    match Astar.parse (lrEst out 4) 300 Plcfrs.smallOps lrParse (fun _ => true) (Plcfrs.pickFirst ⟨0, 0⟩) ⟨1, 15⟩ false 4 99 with
    | some (.ok st) => some (none, st.probs ⟨1, 15⟩)
    | some (.notags i) => some (some i, none)
    | _ => none)

/-- **C59, disagreement**: the estimates for LCFRS are not admissible. The loops try at most `lenB + 1` more words to the left and right of a child with sibling of length `lenB`, but if the parent has a gap, words
of the gap are also outside of the child. In this example the estimate for A is infinite, and the parser with estimates reports that the first word has no tags, although the sentence has a derivation that costs 7,
which the parser finds without estimates. -/
theorem C59_lr_disagreement : lrResult = some (some 0, none) ∧
    (match Plcfrs.parse Plcfrs.smallOps lrParse 300 (fun _ => true) (Plcfrs.pickFirst ⟨0, 0⟩) ⟨1, 15⟩ false 4 99 with
      | some (.ok st) => st.probs ⟨1, 15⟩
      | _ => none) = some 7 ∧
    Plcfrs.Spec.Derives Plcfrs.smallOps lrParse (fun _ => true) 4 ⟨1, 15⟩ 7 := by
  refine ⟨by decide +kernel, by decide +kernel, ?_⟩
  have h0 : Plcfrs.Spec.Derives Plcfrs.smallOps lrParse (fun _ => true) 4 ⟨3, 1⟩ 1 := .lex (o := Plcfrs.smallOps) (i := 0) (by decide) (by decide) rfl
  have h1 : Plcfrs.Spec.Derives Plcfrs.smallOps lrParse (fun _ => true) 4 ⟨6, 2⟩ 1 := .lex (o := Plcfrs.smallOps) (i := 1) (by decide) (by decide) rfl
  have h2 : Plcfrs.Spec.Derives Plcfrs.smallOps lrParse (fun _ => true) 4 ⟨6, 4⟩ 1 := .lex (o := Plcfrs.smallOps) (i := 2) (by decide) (by decide) rfl
  have h3 : Plcfrs.Spec.Derives Plcfrs.smallOps lrParse (fun _ => true) 4 ⟨4, 8⟩ 1 := .lex (o := Plcfrs.smallOps) (i := 3) (by decide) (by decide) rfl
  have h4 : Plcfrs.Spec.Derives Plcfrs.smallOps lrParse (fun _ => true) 4 ⟨5, (2#64 ^^^ 4#64)⟩ (1 + 1 + 1) := .binary (r := ⟨5, 6, 6, 0b10, 0b10, 1, 2⟩) (by decide) h1 h2 (by decide +kernel) rfl
  have h5 : Plcfrs.Spec.Derives Plcfrs.smallOps lrParse (fun _ => true) 4 ⟨2, (1#64 ^^^ 8#64)⟩ (1 + 1 + 1) := .binary (r := ⟨2, 3, 4, 0b10, 0b11, 1, 1⟩) (by decide) h0 h3 (by decide +kernel) rfl
  exact .binary (r := ⟨1, 2, 5, 0b010, 0b100, 1, 0⟩) (by decide) h5 h4 (by decide +kernel) rfl

end Disco.Estimate
