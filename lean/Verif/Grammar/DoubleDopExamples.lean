import Verif.Grammar.DoubleDopProps
import Mathlib.Data.List.Infix
/-!
# C23: examples and a disagreement
-/
namespace Disco.DDop
open PTree Prods Factor TBGrammar

/-- A frontier node. -/
def site (l : String) (i : Nat) (is : List Nat := []) : Frag := .front ⟨l.toList, i, is, []⟩
/-- A word with its tag. -/
def word (l : String) (i : Nat) (w : String) : Frag := .front ⟨l.toList, i, [], w.toList⟩
/-- An internal node. -/
def nd (l : String) (cs : List Frag) : Frag := .node l.toList cs

/-- The fragment of the docstring of `flatten`, and fragments for its substitution site. -/
def exFrags : List Frag :=
  [nd "ROOT" [site "S_2" 0 [2], nd "ROOT|<$,>_2" [word "$," 1 ",", word "$." 3 "."]],
   nd "S_2" [site "NP" 0, word "VB" 2 "is"],
   nd "S_2" [nd "NP" [word "NN" 0 "A"], word "VB" 2 "is"],
   nd "NP" [site "NN" 0], word "NN" 0 "A"]


theorem exFrags_input : Spec.Input exFrags [] where
  frag := by
    intro f hf
    simp only [exFrags, List.mem_cons, List.not_mem_nil, or_false] at hf
    rcases hf with rfl | rfl | rfl | rfl | rfl
    all_goals
      refine ⟨?_, by decide +kernel, by decide +kernel, ?_⟩
      · simp only [nd, site, word, Spec.Labels, Spec.LabelsL, Spec.Plain, reduceCtorEq, ne_eq, not_false_eq_true, true_and]
        repeat' apply And.intro
        all_goals decide +kernel
      · intro x hx
        simp only [nd, word, Frag.front.injEq, reduceCtorEq] at hx
        try (subst hx; decide +kernel)
  keys := by
    apply C23_unambiguous
    have key : ∀ x ∈ exFrags.flatMap fun f => f.fronts.map Front.label, ∀ y ∈ exFrags.flatMap fun f => f.fronts.map Front.label,
      ¬ x ++ [','] <+: y ∧ ¬ x ++ [';'] <+: y := by decide +kernel
    rintro x y ⟨f, hf, a, ha, rfl⟩ ⟨g, hg, b, hb, rfl⟩
    exact key _ (List.mem_flatMap.2 ⟨f, hf, List.mem_map_of_mem ha⟩) _ (List.mem_flatMap.2 ⟨g, hg, List.mem_map_of_mem hb⟩)
  pre := by simp

/-- The grammar, for the examples. -/
def exG : List Rule := ((dopgrammar (fun _ => 2) 1 ⟨[], 0, []⟩ exFrags).map fun x => x.1.map Prod.fst).getD []
/-- The templates, for the examples. -/
def exBt : List Tmpl := ((dopgrammar (fun _ => 2) 1 ⟨[], 0, []⟩ exFrags).map fun x => x.2.1).getD []

/-- The sentence of the examples. -/
def exSent : List Str := ["A".toList, ",".toList, "is".toList, ".".toList]

/-- A derivation of the sentence that uses four fragments. -/
def exDer : Der := .bin 1 (.bin 5 (.bin 2 (.un 6 (.un 0 (.un 4 (.lex "NN".toList 0)))) (.lex "VB@is".toList 2)) (.lex "$,@,".toList 1)) (.lex "$.@.".toList 3)

/-- `exDer` is a derivation. -/
theorem exDer_derives : Spec.Derives exG exSent exDer "ROOT".toList := by
  refine .bin (yf := [[0, 1]]) (b := "ROOT}<0>".toList) (c := "$.@.".toList) (by decide +kernel) (.bin (yf := [[0, 1, 0]]) (b := "S_2".toList) (c := "$,@,".toList) (by decide +kernel)
    (.bin (yf := [[0], [1]]) (b := "S_2}<1>_2".toList) (c := "VB@is".toList) (by decide +kernel)
      (.un (b := "NP".toList) (yf := [[0]]) (by decide +kernel) (.un (b := "NP}<3>".toList) (yf := [[0]]) (by decide +kernel) (.un (b := "NN".toList) (yf := [[0]]) (by decide +kernel) (.lex (w := "A".toList) ?_ ?_))))
      (.lex (w := "is".toList) ?_ ?_)) (.lex (w := ",".toList) ?_ ?_)) (.lex (w := ".".toList) ?_ ?_)
  all_goals decide +kernel

/-- Its tree: the nodes inside the fragments and the original tags are back. -/
example : recoverfragments exG exBt exDer = some (.node "ROOT".toList [.node "S_2".toList [.node "NP".toList [.node "NN".toList [.leaf 0]], .node "VB".toList [.leaf 2]],
    .node "ROOT|<$,>_2".toList [.node "$,".toList [.leaf 1], .node "$.".toList [.leaf 3]]]) := by decide +kernel

/-! ### Yield functions

`C23_exact` is about labels. The artificial labels are shared between fragments when the labels of their children and the yield function
of one step agree, whatever the yield functions of the other steps are; so the yield functions of one fragment can be combined with those
of another. -/

/-- The constituents with their spans that follow from given ones. -/
inductive Spec.Reach (R : List Rule) (given : List (Str × List (List Nat))) : Str → List (List Nat) → Prop
  | given {l s} : (l, s) ∈ given → Spec.Reach R given l s
  | bin {a b c yf s t u} : ⟨[a, b, c], .spans yf⟩ ∈ R → Spec.Reach R given b s → Spec.Reach R given c t →
      (Prods.Spec.apply yf fun i => if i = 0 then s else if i = 1 then t else []).map (fun p => (p.1, p.2 0, p.2 1)) = some (u, [], []) →
      Spec.Reach R given a u

/-- A fragment in which `A` covers positions 0 and 3, `X` 1 and 5. -/
def over1 : Frag := nd "S" [site "A_2" 0 [3], site "X_2" 1 [5], site "Y_2" 2 [4], site "D" 6, site "E" 7]
/-- A fragment in which `A` covers positions 0 and 5, `X` 1 and 3, with other labels at positions 6 and 7. -/
def over2 : Frag := nd "S" [site "A_2" 0 [5], site "X_2" 1 [3], site "Y_2" 2 [4], site "F" 6, site "G" 7]

/-- The rules of `dopgrammar`. -/
def rulesFor (fr : List Frag) : List Rule := ((dopgrammar (fun _ => 2) 1 ⟨[], 0, []⟩ fr).map fun x => x.1.map Prod.fst).getD []

/-- Constituents that fit neither fragment: `A` and `X` as in the second, `D` and `E` as in the first. -/
def overGiven : List (Str × List (List Nat)) :=
  [("A_2".toList, [[0], [5]]), ("X_2".toList, [[1], [3]]), ("Y_2".toList, [[2], [4]]), ("D".toList, [[6]]), ("E".toList, [[7]])]

/-- The spans of a constituent made by a rule. -/
def combine (yf : List (List Nat)) (s t : List (List Nat)) : Option (List (List Nat) × List (List Nat) × List (List Nat)) :=
  (Prods.Spec.apply yf fun i => if i = 0 then s else if i = 1 then t else []).map fun p => (p.1, p.2 0, p.2 1)

/-- A rule applied to two items of a set stays in the set. -/
def closes (K : List (Str × List (List Nat))) (r : Rule) (x y : Str × List (List Nat)) : Bool :=
  match r with
  | ⟨[a, b, c], .spans yf⟩ => if b = x.1 ∧ c = y.1 then
      match combine yf x.2 y.2 with
      | some (u, [], []) => decide ((a, u) ∈ K)
      | _ => true
    else true
  | _ => true

theorem reach_closed {R : List Rule} {given K : List (Str × List (List Nat))} (h1 : ∀ x ∈ given, x ∈ K) (h2 : ∀ r ∈ R, ∀ x ∈ K, ∀ y ∈ K, closes K r x y = true)
    {l : Str} {s : List (List Nat)} (h : Spec.Reach R given l s) : (l, s) ∈ K := by
  induction h with
  | given h => exact h1 _ h
  | @bin a b c yf s t u hr _ _ ha ih1 ih2 =>
    have := h2 _ hr _ ih1 _ ih2
    simp only [closes, and_self, if_true, combine, ha] at this
    simpa using this

/-- Neither fragment by itself makes a constituent of them, but the grammar of the two fragments does. -/
theorem C23_yield_disagreement :
    ¬ Spec.Reach (rulesFor [over1]) overGiven "S".toList [[0, 1, 2, 3, 4, 5, 6, 7]] ∧
    ¬ Spec.Reach (rulesFor [over2]) overGiven "S".toList [[0, 1, 2, 3, 4, 5, 6, 7]] ∧
    Spec.Reach (rulesFor [over1, over2]) overGiven "S".toList [[0, 1, 2, 3, 4, 5, 6, 7]] := by
  refine ⟨?_, ?_, ?_⟩
  · intro h
    have := reach_closed (K := overGiven ++ [("S}<0>_3".toList, [[0, 1], [5], [3]]), ("S}<1>".toList, [[0, 1, 2, 5, 4, 3]]), ("S}<2>".toList, [[0, 1, 2, 5, 4, 3, 6]]),
      ("S".toList, [[0, 1, 2, 5, 4, 3, 6, 7]])]) (by decide +kernel) (by decide +kernel) h
    exact absurd this (by decide +kernel)
  · intro h
    have := reach_closed (K := overGiven ++ [("S}<0>_3".toList, [[0, 1], [3], [5]]), ("S}<1>".toList, [[0, 1, 2, 3, 4, 5]])]) (by decide +kernel) (by decide +kernel) h
    exact absurd this (by decide +kernel)
  · refine .bin (b := "S}<2>".toList) (c := "E".toList) (yf := [[0, 1]]) (s := [[0, 1, 2, 3, 4, 5, 6]]) (t := [[7]]) (by decide +kernel)
      (.bin (b := "S}<1>".toList) (c := "D".toList) (yf := [[0, 1]]) (s := [[0, 1, 2, 3, 4, 5]]) (t := [[6]]) (by decide +kernel)
        (.bin (b := "S}<3>_3".toList) (c := "Y_2".toList) (yf := [[0, 1, 0, 1, 0]]) (s := [[0, 1], [3], [5]]) (t := [[2], [4]]) (by decide +kernel)
          (.bin (b := "A_2".toList) (c := "X_2".toList) (yf := [[0, 1], [1], [0]]) (s := [[0], [5]]) (t := [[1], [3]]) (by decide +kernel) (.given ?_) (.given ?_) ?_)
          (.given ?_) ?_) (.given ?_) ?_) (.given ?_) ?_
    all_goals decide +kernel

end Disco.DDop
