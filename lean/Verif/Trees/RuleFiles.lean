import Verif.Trees.HeadRules
import Verif.Eval.Params
import Verif.Basic.Dict
/-!
# C83: files with head rules and modifier rules

`readheadrules` (heads.py:40-62), `readmodifierrules` (heads.py:124-143), `markmodifiers` (heads.py:146-168). White space and `upper` are parameters; a file is
given by its lines.
-/
namespace Disco.RuleFiles
open Export (splitWs strip)
open Params (split1)
open Deps (HRule HCfg)

/-- The exceptions: no match of `HEADRULERE`, a label after `LIKE` without rules, a line without a list of labels, a label with two lines. -/
inductive Err where
  | noMatch
  | key (l : Str)
  | noValue
  | twice (l : Str)
  deriving DecidableEq, Repr

/-- The directions of `HEADRULERE` (heads.py:10-11) except `LIKE`, as head rules without labels. -/
def direction (d : Str) : Option (Bool × Bool) :=
  if d = "LEFT-TO-RIGHT".toList ∨ d = "LEFT".toList then some (false, false)
  else if d = "RIGHT-TO-LEFT".toList ∨ d = "RIGHT".toList then some (true, false)
  else if d = "LEFTDIS".toList then some (false, true)
  else if d = "RIGHTDIS".toList then some (true, true)
  else none

/-- `headrules.setdefault(label, [])` and the addition of rules (heads.py:57-61). -/
def addRules (d : Dict Str (List HRule)) (label : Str) (rs : List HRule) : Dict Str (List HRule) := d.set label ((d.get? label).getD [] ++ rs)

/-- What happens for a line that matches (heads.py:57-61). -/
def addMatch (ws : Char → Bool) (d : Dict Str (List HRule)) (label dir heads : Str) : Except Err (Dict Str (List HRule)) :=
  if dir = "LIKE".toList then
    match (addRules d label []).get? heads with
    | none => .error (.key heads)
    | some rs => .ok (addRules d label rs)
  else match direction dir with
    | some (r, x) => .ok (addRules d label [⟨r, x, splitWs ws heads⟩])
    | none => .error .noMatch

/-- A line of a file with head rules (heads.py:48-61). As there are at least three words, `HEADRULERE` matches iff the second one is a direction. -/
def addHeadLine (ws : Char → Bool) (upper : Str → Str) (d : Dict Str (List HRule)) (line : Str) : Except Err (Dict Str (List HRule)) :=
  let l := upper (strip ws line)
  if l ≠ [] ∧ l.head? ≠ some '%' ∧ 2 < (splitWs ws l).length then
    match split1 ws l with
    | [label, rest] => match split1 ws rest with
      | [dir, heads] => addMatch ws d label dir heads
      | _ => .error .noMatch
    | _ => .error .noMatch
  else .ok d

/-- A loop over lines. -/
def loop {σ : Type} (f : σ → Str → Except Err σ) : σ → List Str → Except Err σ
  | d, [] => .ok d
  | d, l :: ls => match f d l with
    | .error e => .error e
    | .ok d' => loop f d' ls

/-- `readheadrules` (heads.py:40-62). -/
def readheadrules (ws : Char → Bool) (upper : Str → Str) (lines : List Str) : Except Err (Dict Str (List HRule)) := loop (addHeadLine ws upper) [] lines

/-- `headrules.get(label, [])` (heads.py:96). -/
def rulesFor (d : Dict Str (List HRule)) (label : Str) : List HRule := (d.get? label).getD []

/-- A line of a file with modifier rules (heads.py:136-142). -/
def addModLine (ws : Char → Bool) (upper : Str → Str) (d : Dict Str (List Str)) (line : Str) : Except Err (Dict Str (List Str)) :=
  let l := upper (strip ws line)
  if l ≠ [] ∧ l.head? ≠ some '%' then
    match split1 ws l with
    | [label, mods] => if (d.get? label).isSome then .error (.twice label) else .ok (d.set label (splitWs ws mods))
    | _ => .error .noValue
  else .ok d

/-- `readmodifierrules` (heads.py:124-143). -/
def readmodifierrules (ws : Char → Bool) (upper : Str → Str) (lines : List Str) : Except Err (Dict Str (List Str)) := loop (addModLine ws upper) [] lines

/-- The values of `type`. -/
inductive Ty where
  | none
  | head
  | complement
  | modifier
  deriving DecidableEq, Repr

/-- A child: label, function tags (if it has a `source`), and type. -/
structure Child where
  label : Str
  func : Option Str
  ty : Ty
  deriving DecidableEq, Repr

/-- `s.split('-', 1)[0]`. -/
def cat (s : Str) : Str := s.takeWhile (· ≠ '-')

/-- `s.split('-', 1)[1]` if there is a `-`. -/
def after (s : Str) : Option Str := match s.dropWhile (· ≠ '-') with
  | [] => none
  | _ :: r => some r

/-- `function(child)` (treebanktransforms.py). -/
def function (c : Child) : Str := match c.func with
  | none => []
  | some f => cat f

/-- The condition of the loop over rules (heads.py:159-163). -/
def matchesMod (upper : Str → Str) (c : Child) (mod : Str) : Bool :=
  (decide (upper (cat c.label) = cat mod) || decide (cat mod = ['*'])) &&
  (match after mod with
    | none => true
    | some f => decide (f = ['*']) || decide (upper (function c) = f))

/-- `modifierrules.get(tree.label.split('-', 1)[0], []) + modifierrules.get('*', [])` (heads.py:156-157). -/
def applicable (rules : Dict Str (List Str)) (label : Str) : List Str := (rules.get? (cat label)).getD [] ++ (rules.get? ['*']).getD []

/-- The loop over the children (heads.py:152-168). -/
def markLoop (upper : Str → Str) (mods : List Str) : Option Str → List Child → List Child
  | _, [] => []
  | prev, c :: cs =>
    if c.ty = .head then c :: markLoop upper mods prev cs
    else { c with ty := if (mods.any (matchesMod upper c)) || decide (some c.label = prev) then .modifier else .complement } ::
      markLoop upper mods (some c.label) cs

/-- `markmodifiers(tree, modifierrules)` (heads.py:146-168) for a tree with this label and these children. -/
def markmodifiers (upper : Str → Str) (rules : Dict Str (List Str)) (label : Str) (cs : List Child) : List Child :=
  markLoop upper (applicable rules label) none cs

/-! ### Specification -/

/-- What a line of a file with head rules says. -/
inductive Spec.Line where
  | nothing
  | rule (label : Str) (r : HRule)
  | like (label other : Str)

/-- The words for a direction. -/
def Spec.dirWords (right dis : Bool) : List Str := match right, dis with
  | false, false => ["LEFT".toList, "LEFT-TO-RIGHT".toList]
  | true, false => ["RIGHT".toList, "RIGHT-TO-LEFT".toList]
  | false, true => ["LEFTDIS".toList]
  | true, true => ["RIGHTDIS".toList]

/-- The meaning of a line with head rules; a rule has at least one possible head (see `C83_short_disagreement`). `l` is the line without white space
around it, in upper case. -/
inductive Spec.Says (ws : Char → Bool) : Str → Spec.Line → Prop
  | short (l : Str) : (splitWs ws l).length ≤ 2 → Says ws l .nothing
  | comment (l : Str) : l.head? = some '%' → Says ws l .nothing
  | rule (l label rest d heads : Str) (right dis : Bool) : l.head? ≠ some '%' → 2 < (splitWs ws l).length → Params.Spec.Gives ws l label rest →
      Params.Spec.Gives ws rest d heads → d ∈ Spec.dirWords right dis → Says ws l (.rule label ⟨right, dis, splitWs ws heads⟩)
  | like (l label rest other : Str) : l.head? ≠ some '%' → 2 < (splitWs ws l).length → Params.Spec.Gives ws l label rest →
      Params.Spec.Gives ws rest "LIKE".toList other → Says ws l (.like label other)

/-- The labels that have rules after some lines. -/
def Spec.labels (ls : List Spec.Line) : List Str := ls.filterMap fun x => match x with
  | .nothing => none
  | .rule l _ => some l
  | .like l _ => some l

/-- The rules for a label after some lines, given in reverse order: its own rules in the order of the file; a line with `LIKE` adds the rules
which the other label has at that point. -/
def Spec.rules : List Spec.Line → Str → List HRule
  | [], _ => []
  | .nothing :: ls, x => Spec.rules ls x
  | .rule l r :: ls, x => if x = l then Spec.rules ls x ++ [r] else Spec.rules ls x
  | .like l o :: ls, x => if x = l then Spec.rules ls x ++ Spec.rules ls o else Spec.rules ls x

/-- All labels after `LIKE` have been introduced before (or by this line); the lines are given in reverse order. -/
def Spec.Closed : List Spec.Line → Prop
  | [] => True
  | .nothing :: ls => Spec.Closed ls
  | .rule _ _ :: ls => Spec.Closed ls
  | .like l o :: ls => (o = l ∨ o ∈ Spec.labels ls) ∧ Spec.Closed ls

/-! ### Lemmas -/

theorem direction_iff (d : Str) (right dis : Bool) : direction d = some (right, dis) ↔ d ∈ Spec.dirWords right dis := by
  constructor
  · intro h
    rw [direction] at h
    split at h
    · rename_i h1
      obtain ⟨rfl, rfl⟩ : false = right ∧ false = dis := by simpa using h
      rcases h1 with rfl | rfl <;> decide
    · split at h
      · rename_i _ h1
        obtain ⟨rfl, rfl⟩ : true = right ∧ false = dis := by simpa using h
        rcases h1 with rfl | rfl <;> decide
      · split at h
        · rename_i h1
          obtain ⟨rfl, rfl⟩ : false = right ∧ true = dis := by simpa using h
          subst h1; decide
        · split at h
          · rename_i h1
            obtain ⟨rfl, rfl⟩ : true = right ∧ true = dis := by simpa using h
            subst h1; decide
          · simp at h
  · intro h
    cases right <;> cases dis <;> simp only [Spec.dirWords, List.mem_cons, List.not_mem_nil, or_false] at h
    · rcases h with rfl | rfl <;> decide
    · subst h; decide
    · rcases h with rfl | rfl <;> decide
    · subst h; decide

theorem like_not_dir (right dis : Bool) : "LIKE".toList ∉ Spec.dirWords right dis := by cases right <;> cases dis <;> decide

/-- What a line does. -/
def apply (d : Dict Str (List HRule)) : Spec.Line → Option (Dict Str (List HRule))
  | .nothing => some d
  | .rule l r => some (addRules d l [r])
  | .like l o => ((addRules d l []).get? o).map fun rs => addRules d l rs

theorem split1_length {ws : Char → Bool} : ∀ {l : Str}, 2 < (splitWs ws l).length → l ≠ [] := by
  rintro l h rfl
  simp [splitWs] at h

theorem addHeadLine_says {ws : Char → Bool} {upper : Str → Str} {line : Str} {x : Spec.Line} (h : Spec.Says ws (upper (strip ws line)) x)
    (d d' : Dict Str (List HRule)) : addHeadLine ws upper d line = .ok d' ↔ apply d x = some d' := by
  rw [addHeadLine]
  generalize upper (strip ws line) = l at h
  cases h with
  | short h => rw [if_neg (by omega)]; simp [apply]
  | comment h => rw [if_neg (by simp [h])]; simp [apply]
  | rule label rest dir heads right dis h1 h2 h3 h4 h5 =>
    rw [if_pos ⟨split1_length h2, h1, h2⟩, (Params.gives_iff ..).1 h3]
    simp only [(Params.gives_iff ..).1 h4]
    have hne : dir ≠ "LIKE".toList := fun e => like_not_dir right dis (e ▸ h5)
    simp only [addMatch, if_neg hne, (direction_iff ..).2 h5, apply]
    simp
  | like label rest other h1 h2 h3 h4 =>
    rw [if_pos ⟨split1_length h2, h1, h2⟩, (Params.gives_iff ..).1 h3]
    simp only [(Params.gives_iff ..).1 h4]
    simp only [addMatch, if_true, apply]
    cases (addRules d label []).get? other <;> simp

theorem says_of_ok {ws : Char → Bool} {upper : Str → Str} {line : Str} {d d' : Dict Str (List HRule)} (h : addHeadLine ws upper d line = .ok d') :
    ∃ x, Spec.Says ws (upper (strip ws line)) x := by
  rw [addHeadLine] at h
  generalize upper (strip ws line) = l at h
  by_cases h0 : l ≠ [] ∧ l.head? ≠ some '%' ∧ 2 < (splitWs ws l).length
  · rw [if_pos h0] at h
    obtain ⟨-, h1, h2⟩ := h0
    split at h
    · rename_i label rest e1
      split at h
      · rename_i dir heads e2
        have g1 := (Params.gives_iff ..).2 e1
        have g2 := (Params.gives_iff ..).2 e2
        rw [addMatch] at h
        by_cases hd : dir = "LIKE".toList
        · subst hd
          exact ⟨_, .like l label rest heads h1 h2 g1 g2⟩
        · rw [if_neg hd] at h
          split at h
          · rename_i r x e3
            exact ⟨_, .rule l label rest dir heads r x h1 h2 g1 g2 ((direction_iff ..).1 e3)⟩
          · simp at h
      · simp at h
    · simp at h
  · by_cases h1 : l.head? = some '%'
    · exact ⟨_, .comment l h1⟩
    · refine ⟨_, .short l ?_⟩
      by_cases h2 : l = []
      · subst h2; simp [splitWs]
      · by_contra h3
        exact h0 ⟨h2, h1, by omega⟩

theorem says_unique {ws : Char → Bool} {l : Str} {x x' : Spec.Line} (h : Spec.Says ws l x) (h' : Spec.Says ws l x') : x = x' := by
  have un : ∀ l k v k' v', Params.Spec.Gives ws l k v → Params.Spec.Gives ws l k' v' → k = k' ∧ v = v' := by
    intro l k v k' v' h1 h2
    rw [Params.gives_iff] at h1 h2
    simpa [h1] using h2
  have ud : ∀ d a b a' b', d ∈ Spec.dirWords a b → d ∈ Spec.dirWords a' b' → a = a' ∧ b = b' := by
    intro d a b a' b' h1 h2
    rw [← direction_iff] at h1 h2
    simpa [h1] using h2
  cases h with
  | short h =>
    cases h' with
    | short => rfl
    | comment => rfl
    | rule _ _ _ _ _ _ _ g => omega
    | like _ _ _ _ g => omega
  | comment h =>
    cases h' with
    | short => rfl
    | comment => rfl
    | rule _ _ _ _ _ _ g => exact absurd h g
    | like _ _ _ g => exact absurd h g
  | rule label rest dir heads right dis h1 h2 h3 h4 h5 =>
    cases h' with
    | short g => omega
    | comment g => exact absurd g h1
    | rule label' rest' dir' heads' right' dis' g1 g2 g3 g4 g5 =>
      obtain ⟨rfl, rfl⟩ := un _ _ _ _ _ h3 g3
      obtain ⟨rfl, rfl⟩ := un _ _ _ _ _ h4 g4
      obtain ⟨rfl, rfl⟩ := ud _ _ _ _ _ h5 g5
      rfl
    | like label' rest' other g1 g2 g3 g4 =>
      obtain ⟨rfl, rfl⟩ := un _ _ _ _ _ h3 g3
      obtain ⟨rfl, rfl⟩ := un _ _ _ _ _ h4 g4
      exact absurd h5 (like_not_dir _ _)
  | like label rest other h1 h2 h3 h4 =>
    cases h' with
    | short g => omega
    | comment g => exact absurd g h1
    | rule label' rest' dir' heads' right' dis' g1 g2 g3 g4 g5 =>
      obtain ⟨rfl, rfl⟩ := un _ _ _ _ _ h3 g3
      obtain ⟨rfl, rfl⟩ := un _ _ _ _ _ h4 g4
      exact absurd g5 (like_not_dir _ _)
    | like label' rest' other' g1 g2 g3 g4 =>
      obtain ⟨rfl, rfl⟩ := un _ _ _ _ _ h3 g3
      obtain ⟨-, rfl⟩ := un _ _ _ _ _ h4 g4
      rfl

theorem loop_append {σ : Type} (f : σ → Str → Except Err σ) : ∀ (l1 l2 : List Str) (d : σ), loop f d (l1 ++ l2) =
    match loop f d l1 with
    | .error e => .error e
    | .ok d' => loop f d' l2
  | [], l2, d => rfl
  | l :: l1, l2, d => by
    rw [List.cons_append, loop, loop]
    cases f d l with
    | error e => rfl
    | ok d' => exact loop_append f l1 l2 d'

theorem get?_addRules (d : Dict Str (List HRule)) (l x : Str) (rs : List HRule) :
    (addRules d l rs).get? x = if l = x then some ((d.get? l).getD [] ++ rs) else d.get? x := by rw [addRules, Dict.get?_set]

/-- The state after the lines `xs` (in reverse order). -/
def Good (xs : List Spec.Line) (d : Dict Str (List HRule)) : Prop :=
  (∀ x, ((d.get? x).isSome ↔ x ∈ Spec.labels xs)) ∧ ∀ x, rulesFor d x = Spec.rules xs x

theorem good_apply {xs : List Spec.Line} {d : Dict Str (List HRule)} (hg : Good xs d) (y : Spec.Line) :
    ((apply d y).isSome ↔ (match y with | .like l o => o = l ∨ o ∈ Spec.labels xs | _ => True)) ∧ ∀ d', apply d y = some d' → Good (y :: xs) d' := by
  obtain ⟨g1, g2⟩ := hg
  have add : ∀ l rs x, rulesFor (addRules d l rs) x = if x = l then Spec.rules xs x ++ rs else Spec.rules xs x := by
    intro l rs x
    rw [rulesFor, get?_addRules]
    by_cases hx : l = x
    · subst hx
      simp [← g2, rulesFor]
    · simp only [if_neg hx, if_neg (Ne.symm hx)]
      exact g2 x
  have addk : ∀ l rs x, ((addRules d l rs).get? x).isSome ↔ x = l ∨ x ∈ Spec.labels xs := by
    intro l rs x
    rw [get?_addRules]
    by_cases hx : l = x
    · simp [hx]
    · simp [hx, Ne.symm hx, g1 x]
  cases y with
  | nothing =>
    refine ⟨by simp [apply], fun d' h => ?_⟩
    obtain rfl : d = d' := by simpa [apply] using h
    exact ⟨by simpa [Spec.labels] using g1, by simpa [Spec.rules] using g2⟩
  | rule l r =>
    refine ⟨by simp [apply], fun d' h => ?_⟩
    obtain rfl : addRules d l [r] = d' := by simpa [apply] using h
    exact ⟨fun x => by rw [addk]; simp [Spec.labels], fun x => by rw [add]; rfl⟩
  | like l o =>
    constructor
    · simp only [apply, Option.isSome_map]
      exact addk l [] o
    · intro d' h
      rw [apply, Option.map_eq_some_iff] at h
      obtain ⟨rs, h1, rfl⟩ := h
      have hrs : rs = Spec.rules xs o := by
        rw [get?_addRules] at h1
        by_cases hx : l = o
        · subst hx
          simp only [if_true, Option.some.injEq] at h1
          rw [← h1, ← g2]
          simp [rulesFor]
        · rw [if_neg hx] at h1
          rw [← g2, rulesFor, h1]
          rfl
      subst hrs
      exact ⟨fun x => by rw [addk]; simp [Spec.labels], fun x => by rw [add]; rfl⟩

theorem loop_head {ws : Char → Bool} {upper : Str → Str} : ∀ (lines : List Str) (xs0 : List Spec.Line) (d : Dict Str (List HRule)), Good xs0 d → Spec.Closed xs0 →
    (∀ d', loop (addHeadLine ws upper) d lines = .ok d' →
      ∃ xs, List.Forall₂ (Spec.Says ws) (lines.map fun l => upper (strip ws l)) xs ∧ Spec.Closed (xs.reverse ++ xs0) ∧ Good (xs.reverse ++ xs0) d') ∧
    (∀ xs, List.Forall₂ (Spec.Says ws) (lines.map fun l => upper (strip ws l)) xs → Spec.Closed (xs.reverse ++ xs0) →
      ∃ d', loop (addHeadLine ws upper) d lines = .ok d')
  | [], xs0, d, hg, hc => by
    constructor
    · intro d' h
      obtain rfl : d = d' := by simpa [loop] using h
      exact ⟨[], .nil, hc, hg⟩
    · intro xs h _
      exact ⟨d, rfl⟩
  | l :: ls, xs0, d, hg, hc => by
    constructor
    · intro d' h
      rw [loop] at h
      split at h
      · simp at h
      · rename_i d1 e
        obtain ⟨y, hy⟩ := says_of_ok e
        have ha := (addHeadLine_says hy d d1).1 e
        obtain ⟨k1, k2⟩ := good_apply hg y
        have hc1 : Spec.Closed (y :: xs0) := by
          have := k1.1 (by rw [ha]; rfl)
          cases y with
          | nothing => exact hc
          | rule => exact hc
          | like => exact ⟨this, hc⟩
        obtain ⟨xs, h1, h2, h3⟩ := (loop_head ls (y :: xs0) d1 (k2 d1 ha) hc1).1 d' h
        exact ⟨y :: xs, .cons hy h1, by simpa using h2, by simpa using h3⟩
    · intro xs h hcl
      cases h with
      | cons hy h1 =>
        rename_i y xs
        obtain ⟨k1, k2⟩ := good_apply hg y
        rw [List.reverse_cons, List.append_assoc, List.singleton_append] at hcl
        have tail : ∀ (a b : List Spec.Line), Spec.Closed (a ++ b) → Spec.Closed b := by
          intro a
          induction a with
          | nil => exact fun b h => h
          | cons z a ih =>
            intro b h
            cases z with
            | nothing => exact ih b h
            | rule => exact ih b h
            | like => exact ih b h.2
        have hc1 := tail _ _ hcl
        have : (apply d y).isSome := k1.2 (by
          cases y with
          | nothing => trivial
          | rule => trivial
          | like => exact hc1.1)
        obtain ⟨d1, e1⟩ := Option.isSome_iff_exists.1 this
        rw [loop, (addHeadLine_says hy d d1).2 e1]
        exact (loop_head ls (y :: xs0) d1 (k2 d1 e1) hc1).2 xs h1 hcl

/-! ### C83: head rules -/

/-- **C83** A file with head rules is accepted if and only if each line is a comment, has at most two words, or is a rule with a known direction or
`LIKE`, where each label after `LIKE` has been introduced before. -/
theorem C83_accepted (ws : Char → Bool) (upper : Str → Str) (lines : List Str) : (∃ d, readheadrules ws upper lines = .ok d) ↔
    ∃ xs, List.Forall₂ (Spec.Says ws) (lines.map fun l => upper (strip ws l)) xs ∧ Spec.Closed xs.reverse := by
  have h := loop_head (ws := ws) (upper := upper) lines [] [] ⟨by simp [Spec.labels, Dict.get?], by simp [rulesFor, Spec.rules, Dict.get?]⟩ trivial
  constructor
  · rintro ⟨d, hd⟩
    obtain ⟨xs, h1, h2, -⟩ := h.1 d hd
    exact ⟨xs, h1, by simpa using h2⟩
  · rintro ⟨xs, h1, h2⟩
    exact h.2 xs h1 (by simpa using h2)

/-- **C83** The rules for a label are those of the file, in the order of the file, where a line with `LIKE` stands for the rules that the other label has at
that point. -/
theorem C83_rules (ws : Char → Bool) (upper : Str → Str) (lines : List Str) (xs : List Spec.Line)
    (hs : List.Forall₂ (Spec.Says ws) (lines.map fun l => upper (strip ws l)) xs) (d : Dict Str (List HRule)) (h : readheadrules ws upper lines = .ok d)
    (label : Str) : rulesFor d label = Spec.rules xs.reverse label := by
  have h' := loop_head (ws := ws) (upper := upper) lines [] [] ⟨by simp [Spec.labels, Dict.get?], by simp [rulesFor, Spec.rules, Dict.get?]⟩ trivial
  obtain ⟨xs', h1, -, h3⟩ := h'.1 d h
  obtain rfl := Params.forall₂_unique (R := Spec.Says ws) (fun _ _ _ a b => says_unique a b) hs h1
  simpa using h3.2 label

/-- The direction and labels of a rule in a file determine the head: if a file consists of one line with a rule for `label`, and no child has been marked,
the first child (in the direction of the rule) that matches is chosen as in C36. -/
theorem C83_single (ws : Char → Bool) (upper : Str → Str) (line label : Str) (r : HRule) (h : Spec.Says ws (upper (strip ws line)) (.rule label r)) :
    ∃ d, readheadrules ws upper [line] = .ok d ∧ rulesFor d label = [r] ∧ ∀ l, l ≠ label → rulesFor d l = [] := by
  have hs : List.Forall₂ (Spec.Says ws) ([line].map fun l => upper (strip ws l)) [.rule label r] := .cons h .nil
  obtain ⟨d, hd⟩ := (C83_accepted ws upper [line]).2 ⟨_, hs, trivial⟩
  have hr := C83_rules ws upper [line] _ hs d hd
  exact ⟨d, hd, by rw [hr]; simp [Spec.rules], fun l hl => by rw [hr]; simp [Spec.rules, hl]⟩

/-- White space for the examples. -/
def wsEx (c : Char) : Bool := c = ' ' || c = '\t' || c = '\n'

/-- `str.upper` for the examples: ASCII letters. -/
def upperEx (s : Str) : Str := s.map fun c => if 'a' ≤ c ∧ c ≤ 'z' then Char.ofNat (c.toNat - 32) else c

/-- Two rules for a label and a label with `LIKE`. -/
example : (match readheadrules wsEx upperEx ["% comment line here\n".toList, "NP right-to-left noun N\n".toList, "\n".toList, "NP leftdis det adj\n".toList,
      "NX LIKE NP\n".toList] with
    | .ok d => decide ((rulesFor d "NP".toList).map (fun r => (r.right, r.dis, r.heads)) =
        [(true, false, ["NOUN".toList, "N".toList]), (false, true, ["DET".toList, "ADJ".toList])] ∧
        (rulesFor d "NX".toList).map (fun r => (r.right, r.dis)) = [(true, false), (false, true)])
    | .error _ => false) = true := by decide +kernel

/-- Files that are rejected: an unknown direction; a label after `LIKE` that has no rules yet. -/
example : (match readheadrules wsEx upperEx ["NP up N".toList] with | .error e => decide (e = .noMatch) | _ => false) = true ∧
    (match readheadrules wsEx upperEx ["NX like NP".toList, "NP left N".toList] with | .error e => decide (e = .key "NP".toList) | _ => false) = true := by
  decide +kernel

theorem loop_skip {σ : Type} (f : σ → Str → Except Err σ) (line : Str) (h : ∀ d, f d line = .ok d) (l1 l2 : List Str) (d : σ) :
    loop f d (l1 ++ line :: l2) = loop f d (l1 ++ l2) := by
  rw [loop_append, loop_append]
  cases loop f d l1 with
  | error e => rfl
  | ok d' => simp only [loop, h]

/-- **C83, disagreement** A rule without possible heads (such as `MWCL right-to-left` in ftb.headrules, line 33; `HEADRULERE` makes the list of heads
optional) has no effect, because lines with less than three words are skipped. -/
theorem C83_short_disagreement (ws : Char → Bool) (upper : Str → Str) (line : Str) (h : (splitWs ws (upper (strip ws line))).length ≤ 2) (l1 l2 : List Str) :
    readheadrules ws upper (l1 ++ line :: l2) = readheadrules ws upper (l1 ++ l2) :=
  loop_skip _ line (fun d => by rw [addHeadLine, if_neg (by omega)]) l1 l2 []

/-- The rules as used by `headfinder` in the examples. -/
def cfgEx (d : Dict Str (List HRule)) : HCfg := { rules := rulesFor d, upper := upperEx, ptag := fun _ => false, pword := fun _ => false }

/-- A constituent of two words for the examples. -/
def kidsEx : List (PTree Deps.Ann) := [.node ⟨"A".toList, false, none⟩ [.leaf 0], .node ⟨"B".toList, false, none⟩ [.leaf 1]]

/-- **C83, disagreement** With the rule `MWCL right-to-left` of ftb.headrules, the first child is chosen as the default head of an MWCL constituent; the
rule asks for the last one (which is chosen if the rule has a list of heads, none of which occurs). -/
theorem C83_ftb_disagreement :
    (∃ d, readheadrules wsEx upperEx ["MWCL right-to-left\n".toList] = .ok d ∧ (cfgEx d).headfinder "MWCL".toList kidsEx = 0) ∧
    ∃ d, readheadrules wsEx upperEx ["MWCL right-to-left X\n".toList] = .ok d ∧ (cfgEx d).headfinder "MWCL".toList kidsEx = 1 := by
  refine ⟨⟨[], ?_, ?_⟩, ⟨[("MWCL".toList, [⟨true, false, ["X".toList]⟩])], ?_, ?_⟩⟩
  · rw [show ["MWCL right-to-left\n".toList] = [] ++ "MWCL right-to-left\n".toList :: [] from rfl, C83_short_disagreement _ _ _ (by decide +kernel)]
    rfl
  · decide +kernel
  · have h : (match readheadrules wsEx upperEx ["MWCL right-to-left X\n".toList] with
      | .ok d => decide (d.map (fun p => (p.1, p.2.map fun r => (r.right, r.dis, r.heads))) = [("MWCL".toList, [(true, false, ["X".toList])])])
      | .error _ => false) = true := by decide +kernel
    revert h
    cases readheadrules wsEx upperEx ["MWCL right-to-left X\n".toList] with
    | error e => simp
    | ok d =>
      simp only [decide_eq_true_eq]
      intro h
      match d, h with
      | [(k, [⟨a, b, c⟩])], h => simp at h; simp [h]
  · decide +kernel

theorem mem_split {ws : Char → Bool} {line k v : Str} (h : Params.Spec.Gives ws line k v) : ∀ c ∈ k, c ∈ line := by
  obtain ⟨s, t, rfl, -⟩ := h
  intro c hc
  simp [hc]

theorem rules_label {ls : List Spec.Line} {x : Str} (h : Spec.rules ls x ≠ []) : x ∈ Spec.labels ls := by
  induction ls with
  | nil => simp [Spec.rules] at h
  | cons y ls ih =>
    cases y with
    | nothing => exact (by simpa [Spec.labels] using ih h)
    | rule l r =>
      by_cases hx : x = l
      · simp [Spec.labels, hx]
      · rw [Spec.rules, if_neg hx] at h
        have := ih h
        simp only [Spec.labels, List.filterMap_cons, List.mem_cons] at this ⊢
        exact Or.inr this
    | like l o =>
      by_cases hx : x = l
      · simp [Spec.labels, hx]
      · rw [Spec.rules, if_neg hx] at h
        have := ih h
        simp only [Spec.labels, List.filterMap_cons, List.mem_cons] at this ⊢
        exact Or.inr this

/-- **C83, disagreement** The labels in the file are converted to upper case, but the label of the constituent is not: a constituent whose label has a
lower case letter gets no rules, even if the file has a rule for exactly that label. -/
theorem C83_lower_disagreement (ws : Char → Bool) (up : Char → Str) (hup : ∀ c, ∀ x ∈ up c, up x = [x]) (lines : List Str) (d : Dict Str (List HRule))
    (h : readheadrules ws (fun s => s.flatMap up) lines = .ok d) (label : Str) (c : Char) (hc : c ∈ label) (hl : up c ≠ [c]) : rulesFor d label = [] := by
  by_contra hne
  have h' := loop_head (ws := ws) (upper := fun s => s.flatMap up) lines [] []
    ⟨by simp [Spec.labels, Dict.get?], by simp [rulesFor, Spec.rules, Dict.get?]⟩ trivial
  obtain ⟨xs, h1, -, h3⟩ := h'.1 d h
  rw [h3.2, List.append_nil] at hne
  have hm0 := rules_label hne
  have hm : label ∈ Spec.labels xs := by
    rw [Spec.labels, List.mem_filterMap] at hm0 ⊢
    obtain ⟨a, ha, e⟩ := hm0
    exact ⟨a, by simpa using ha, e⟩
  clear h h' h3 hne hm0
  induction lines generalizing xs with
  | nil => cases h1; simp [Spec.labels] at hm
  | cons l ls ih =>
    rw [List.map_cons] at h1
    cases h1 with
    | @cons _ y _ xs hy hr =>
      have key : ∀ rest, Params.Spec.Gives ws ((strip ws l).flatMap up) label rest → False := by
        intro rest hg
        obtain ⟨b, -, hb⟩ := List.mem_flatMap.1 (mem_split hg c hc)
        exact hl (hup b c hb)
      cases y with
      | nothing => exact ih xs hr (by simpa [Spec.labels] using hm)
      | rule lab r =>
        rw [Spec.labels, List.filterMap_cons] at hm
        rcases List.mem_cons.1 hm with rfl | hm
        · cases hy with
          | rule _ _ _ _ _ _ _ _ g => exact key _ g
        · exact ih xs hr hm
      | like lab o =>
        rw [Spec.labels, List.filterMap_cons] at hm
        rcases List.mem_cons.1 hm with rfl | hm
        · cases hy with
          | like _ _ _ _ _ g => exact key _ g
        · exact ih xs hr hm

/-- The case of lower case labels (as in the Alpino treebank): a rule for `np` is not used for `np`. -/
example : (match readheadrules wsEx upperEx ["np right-to-left noun".toList] with
    | .ok d => decide ((rulesFor d "np".toList).length = 0 ∧ (rulesFor d "NP".toList).length = 1)
    | .error _ => false) = true := by decide +kernel

/-! ### C83: modifier rules -/

/-- What a line of a file with modifier rules says (without white space around it, in upper case): nothing, or the modifiers for a label. -/
inductive Spec.SaysMod (ws : Char → Bool) : Str → Option (Str × List Str) → Prop
  | empty : SaysMod ws [] none
  | comment (l : Str) : l.head? = some '%' → SaysMod ws l none
  | mods (l label ms : Str) : l.head? ≠ some '%' → Params.Spec.Gives ws l label ms → SaysMod ws l (some (label, splitWs ws ms))

theorem addModLine_ok_iff {ws : Char → Bool} {upper : Str → Str} (d d' : Dict Str (List Str)) (line : Str) : addModLine ws upper d line = .ok d' ↔
    ∃ o, Spec.SaysMod ws (upper (strip ws line)) o ∧ match o with
      | none => d = d'
      | some (l, ms) => d.get? l = none ∧ d' = d.set l ms := by
  rw [addModLine]
  generalize upper (strip ws line) = l
  by_cases h0 : l ≠ [] ∧ l.head? ≠ some '%'
  · rw [if_pos h0]
    constructor
    · intro h
      split at h
      · rename_i label ms e
        refine ⟨_, .mods l label ms h0.2 ((Params.gives_iff ..).2 e), ?_⟩
        cases hg : d.get? label with
        | none => simp only [hg] at h; exact ⟨hg, by simpa using h.symm⟩
        | some v => simp [hg] at h
      · simp at h
    · rintro ⟨o, ho, h⟩
      cases ho with
      | empty => exact absurd rfl h0.1
      | comment _ h1 => exact absurd h1 h0.2
      | mods _ label ms h1 h2 =>
        obtain ⟨h3, rfl⟩ := h
        rw [(Params.gives_iff ..).1 h2]
        simp [h3]
  · rw [if_neg h0]
    constructor
    · intro h
      refine ⟨none, ?_, by simpa using h⟩
      by_cases h1 : l = []
      · subst h1; exact .empty
      · exact .comment l (by
          by_contra h2
          exact h0 ⟨h1, h2⟩)
    · rintro ⟨o, ho, h⟩
      cases ho with
      | empty => simp only at h; simp [h]
      | comment _ h1 => simp only at h; simp [h]
      | mods _ label ms h1 h2 =>
        exfalso
        refine h0 ⟨?_, h1⟩
        rintro rfl
        rw [Params.gives_iff] at h2
        simp [split1] at h2

theorem loop_mod {ws : Char → Bool} {upper : Str → Str} : ∀ (lines : List Str) (d d' : Dict Str (List Str)),
    loop (addModLine ws upper) d lines = .ok d' ↔
      ∃ os : List (Option (Str × List Str)), List.Forall₂ (Spec.SaysMod ws) (lines.map fun l => upper (strip ws l)) os ∧
        ((os.filterMap id).map Prod.fst).Nodup ∧ (∀ p ∈ os.filterMap id, d.get? p.1 = none) ∧ d' = (os.filterMap id).foldl (fun d p => d.set p.1 p.2) d
  | [], d, d' => by
    constructor
    · intro h
      obtain rfl : d = d' := by simpa [loop] using h
      exact ⟨[], .nil, by simp, by simp, rfl⟩
    · rintro ⟨os, h1, -, -, h⟩
      cases h1
      rw [h]; rfl
  | l :: ls, d, d' => by
    constructor
    · intro h
      rw [loop] at h
      split at h
      · simp at h
      · rename_i d1 e
        obtain ⟨o, ho, hd⟩ := (addModLine_ok_iff d d1 l).1 e
        obtain ⟨os, h1, h2, h3, h4⟩ := (loop_mod ls d1 d').1 h
        refine ⟨o :: os, .cons ho h1, ?_⟩
        cases o with
        | none =>
          simp only at hd
          subst hd
          exact ⟨by simpa using h2, by simpa using h3, by simpa using h4⟩
        | some p =>
          obtain ⟨k, ms⟩ := p
          obtain ⟨g1, rfl⟩ := hd
          have hk : ∀ p ∈ os.filterMap id, p.1 ≠ k ∧ d.get? p.1 = none := by
            intro p hp
            have := h3 p hp
            rw [Dict.get?_set] at this
            split at this
            · simp at this
            · rename_i hne
              exact ⟨Ne.symm hne, this⟩
          refine ⟨?_, ?_, by simpa using h4⟩
          · simp only [List.filterMap_cons, id, List.map_cons, List.nodup_cons]
            refine ⟨fun hm => ?_, h2⟩
            obtain ⟨p, hp, e⟩ := List.mem_map.1 hm
            exact (hk p hp).1 e
          · simp only [List.filterMap_cons, id, List.mem_cons]
            rintro p (rfl | hp)
            · exact g1
            · exact (hk p hp).2
    · rintro ⟨os, h1, h2, h3, h4⟩
      rw [List.map_cons] at h1
      cases h1 with
      | @cons _ o _ os ho hr =>
        cases o with
        | none =>
          rw [loop, (addModLine_ok_iff d d l).2 ⟨none, ho, rfl⟩]
          exact (loop_mod ls d d').2 ⟨os, hr, by simpa using h2, by simpa using h3, by simpa using h4⟩
        | some p =>
          obtain ⟨k, ms⟩ := p
          simp only [List.filterMap_cons, id, List.map_cons, List.nodup_cons, List.mem_cons] at h2 h3
          rw [loop, (addModLine_ok_iff d (d.set k ms) l).2 ⟨some (k, ms), ho, h3 (k, ms) (Or.inl rfl), rfl⟩]
          refine (loop_mod ls _ d').2 ⟨os, hr, h2.2, fun p hp => ?_, by simpa using h4⟩
          rw [Dict.get?_set, if_neg, h3 p (Or.inr hp)]
          rintro rfl
          exact h2.1 (List.mem_map.2 ⟨p, hp, rfl⟩)

theorem get?_foldl_set (ps : List (Str × List Str)) : ∀ (d : Dict Str (List Str)), (ps.map Prod.fst).Nodup → (∀ p ∈ ps, d.get? p.1 = none) →
    ∀ l ms, ((ps.foldl (fun d p => d.set p.1 p.2) d).get? l = some ms ↔ (l, ms) ∈ ps ∨ d.get? l = some ms) := by
  induction ps with
  | nil => intro d _ _ l ms; simp
  | cons p ps ih =>
    intro d hn hd l ms
    obtain ⟨k, v⟩ := p
    simp only [List.map_cons, List.nodup_cons] at hn
    have hk : ∀ p ∈ ps, p.1 ≠ k := fun p hp e => hn.1 (List.mem_map.2 ⟨p, hp, e⟩)
    rw [List.foldl_cons, ih _ hn.2 (fun p hp => by
      simp only
      rw [Dict.get?_set, if_neg (Ne.symm (hk p hp)), hd p (by simp [hp])])]
    rw [Dict.get?_set]
    simp only [List.mem_cons, Prod.mk.injEq]
    by_cases hkl : k = l
    · subst hkl
      have := hd (k, v) (by simp)
      simp only at this
      simp only [if_true, this, Option.some.injEq]
      constructor
      · rintro (h | h)
        · exact Or.inl (Or.inr h)
        · exact Or.inl (Or.inl ⟨trivial, h.symm⟩)
      · rintro ((⟨-, h⟩ | h) | h)
        · exact Or.inr h.symm
        · exact Or.inl h
        · simp at h
    · rw [if_neg hkl]
      have : ¬ l = k := fun e => hkl e.symm
      simp [this]

theorem saysMod_unique {ws : Char → Bool} {l : Str} {o o' : Option (Str × List Str)} (h : Spec.SaysMod ws l o) (h' : Spec.SaysMod ws l o') : o = o' := by
  have ne : ∀ k v, ¬ Params.Spec.Gives ws [] k v := by
    intro k v hg
    rw [Params.gives_iff] at hg
    simp [split1] at hg
  cases h with
  | empty => cases h' with
    | empty => rfl
    | comment _ _ => rfl
    | mods _ _ _ _ h => exact absurd h (ne _ _)
  | comment _ h => cases h' with
    | empty => rfl
    | comment _ _ => rfl
    | mods _ _ _ g _ => exact absurd h g
  | mods _ label ms h1 h2 => cases h' with
    | empty => exact absurd h2 (ne _ _)
    | comment _ g => exact absurd g h1
    | mods _ label' ms' g1 g2 =>
      rw [Params.gives_iff] at h2 g2
      rw [h2] at g2
      obtain ⟨rfl, rfl⟩ : label = label' ∧ ms = ms' := by simpa using g2
      rfl

/-- **C83** A file with modifier rules is accepted if and only if each line is empty, a comment, or a label with modifiers, and no label has two lines; the
modifiers of a label are then those of its line. -/
theorem C83_modifier_file (ws : Char → Bool) (upper : Str → Str) (lines : List Str) :
    ((∃ d, readmodifierrules ws upper lines = .ok d) ↔
      ∃ os : List (Option (Str × List Str)), List.Forall₂ (Spec.SaysMod ws) (lines.map fun l => upper (strip ws l)) os ∧ ((os.filterMap id).map Prod.fst).Nodup) ∧
    ∀ d os, readmodifierrules ws upper lines = .ok d → List.Forall₂ (Spec.SaysMod ws) (lines.map fun l => upper (strip ws l)) os →
      ∀ l ms, d.get? l = some ms ↔ some (l, ms) ∈ os := by
  constructor
  · constructor
    · rintro ⟨d, hd⟩
      obtain ⟨os, h1, h2, -⟩ := (loop_mod lines [] d).1 hd
      exact ⟨os, h1, h2⟩
    · rintro ⟨os, h1, h2⟩
      exact ⟨_, (loop_mod lines [] _).2 ⟨os, h1, h2, by simp [Dict.get?], rfl⟩⟩
  · intro d os hd hs l ms
    obtain ⟨os', h1, h2, h3, rfl⟩ := (loop_mod lines [] d).1 hd
    obtain rfl := Params.forall₂_unique (R := Spec.SaysMod ws) (fun _ _ _ a b => saysMod_unique a b) hs h1
    rw [get?_foldl_set _ _ h2 h3]
    simp [Dict.get?]

/-- A modifier rule `mod` (a category or `*`, optionally with `-` and a function tag or `*`) matches a child. -/
def Spec.Matches (upper : Str → Str) (c : Child) (mod : Str) : Prop :=
  ('-' ∉ mod ∧ (mod = ['*'] ∨ upper (cat c.label) = mod)) ∨
  ∃ k f, mod = k ++ '-' :: f ∧ '-' ∉ k ∧ (k = ['*'] ∨ upper (cat c.label) = k) ∧ (f = ['*'] ∨ upper (function c) = f)

theorem cat_after (s : Str) : ('-' ∉ s ∧ cat s = s ∧ after s = none) ∨ ∃ k f, s = k ++ '-' :: f ∧ '-' ∉ k ∧ cat s = k ∧ after s = some f := by
  induction s with
  | nil => left; simp [cat, after]
  | cons c s ih =>
    by_cases hc : c = '-'
    · subst hc
      right
      exact ⟨[], s, rfl, by simp, by simp [cat], by simp [after]⟩
    · have e1 : cat (c :: s) = c :: cat s := by simp [cat, hc]
      have e2 : after (c :: s) = after s := by simp [after, hc]
      rcases ih with ⟨h1, h2, h3⟩ | ⟨k, f, rfl, h2, h3, h4⟩
      · left
        exact ⟨by simp [h1, Ne.symm hc], by rw [e1, h2], by rw [e2, h3]⟩
      · right
        exact ⟨c :: k, f, rfl, by simp [h2, Ne.symm hc], by rw [e1, h3], by rw [e2, h4]⟩

theorem matchesMod_iff (upper : Str → Str) (c : Child) (mod : Str) : matchesMod upper c mod = true ↔ Spec.Matches upper c mod := by
  rw [matchesMod, Spec.Matches]
  rcases cat_after mod with ⟨h1, h2, h3⟩ | ⟨k, f, rfl, h2, h3, h4⟩
  · rw [h2, h3]
    simp only [Bool.and_true, Bool.or_eq_true, decide_eq_true_eq]
    constructor
    · rintro (h | h)
      · exact Or.inl ⟨h1, Or.inr h⟩
      · exact Or.inl ⟨h1, Or.inl h⟩
    · rintro (⟨-, h | h⟩ | ⟨k, f, rfl, -⟩)
      · exact Or.inr h
      · exact Or.inl h
      · simp at h1
  · rw [h3, h4]
    simp only [Bool.and_eq_true, Bool.or_eq_true, decide_eq_true_eq]
    constructor
    · rintro ⟨h, h'⟩
      exact Or.inr ⟨k, f, rfl, h2, h.symm, h'⟩
    · rintro (⟨h, -⟩ | ⟨k', f', e, g2, g3, g4⟩)
      · simp at h
      · rcases cat_after (k ++ '-' :: f) with ⟨a1, -⟩ | ⟨k2, f2, -, -, b3, b4⟩
        · simp at a1
        · have c1 : cat (k ++ '-' :: f) = k' := by
            rw [e, cat, List.takeWhile_append_of_pos (fun a ha => by
              simp only [ne_eq, decide_not, Bool.not_eq_eq_eq_not, Bool.not_true, decide_eq_false_iff_not]
              rintro rfl
              exact g2 ha)]
            simp
          obtain rfl : k = k' := h3.symm.trans c1
          obtain rfl : f = f' := by simpa using e
          exact ⟨g3.symm, g4⟩

/-- The label of the nearest child before position `i` that is not a head. -/
def Spec.prevLabel (cs : List Child) (i : Nat) : Option Str := ((cs.take i).filter fun c => decide (c.ty ≠ .head)).getLast?.map Child.label

theorem markLoop_spec (upper : Str → Str) (mods : List Str) : ∀ (cs : List Child) (prev : Option Str), (markLoop upper mods prev cs).length = cs.length ∧
    ∀ i (h : i < cs.length), ∃ c', (markLoop upper mods prev cs)[i]? = some c' ∧ c'.label = cs[i].label ∧ c'.func = cs[i].func ∧
      (cs[i].ty = .head → c'.ty = .head) ∧
      (cs[i].ty ≠ .head → (c'.ty = .modifier ∧ ((∃ m ∈ mods, Spec.Matches upper cs[i] m) ∨
          ((Spec.prevLabel cs i).or prev) = some cs[i].label)) ∨
        (c'.ty = .complement ∧ ¬ ((∃ m ∈ mods, Spec.Matches upper cs[i] m) ∨ ((Spec.prevLabel cs i).or prev) = some cs[i].label)))
  | [], prev => by simp [markLoop]
  | c :: cs, prev => by
    by_cases hh : c.ty = .head
    · obtain ⟨h1, h2⟩ := markLoop_spec upper mods cs prev
      rw [markLoop, if_pos hh]
      refine ⟨by simp [h1], fun i hi => ?_⟩
      cases i with
      | zero => exact ⟨c, by simp, rfl, rfl, fun h => h, fun h => absurd hh (by simpa using h)⟩
      | succ i =>
        obtain ⟨c', k1, k2, k3, k4, k5⟩ := h2 i (by simpa using hi)
        refine ⟨c', by simpa using k1, by simpa using k2, by simpa using k3, by simpa using k4, ?_⟩
        have e : Spec.prevLabel (c :: cs) (i + 1) = Spec.prevLabel cs i := by simp [Spec.prevLabel, hh]
        rw [e]
        simpa using k5
    · rw [markLoop, if_neg hh]
      obtain ⟨h1, h2⟩ := markLoop_spec upper mods cs (some c.label)
      refine ⟨by simp [h1], fun i hi => ?_⟩
      cases i with
      | zero =>
        refine ⟨_, List.getElem?_cons_zero, rfl, rfl, fun h => absurd h (by simpa using hh), fun _ => ?_⟩
        have e : Spec.prevLabel (c :: cs) 0 = none := by simp [Spec.prevLabel]
        rw [e]
        simp only [List.getElem_cons_zero, Option.none_or]
        have key : (mods.any (matchesMod upper c) || decide (some c.label = prev)) = true ↔
            ((∃ m ∈ mods, Spec.Matches upper c m) ∨ prev = some c.label) := by
          rw [Bool.or_eq_true, List.any_eq_true, decide_eq_true_eq]
          constructor
          · rintro (⟨m, hm, h⟩ | h)
            · exact Or.inl ⟨m, hm, (matchesMod_iff ..).1 h⟩
            · exact Or.inr h.symm
          · rintro (⟨m, hm, h⟩ | h)
            · exact Or.inl ⟨m, hm, (matchesMod_iff ..).2 h⟩
            · exact Or.inr h.symm
        by_cases hk : (mods.any (matchesMod upper c) || decide (some c.label = prev)) = true
        · exact Or.inl ⟨by rw [if_pos hk], key.1 hk⟩
        · exact Or.inr ⟨by rw [if_neg hk], fun h => hk (key.2 h)⟩
      | succ i =>
        obtain ⟨c', k1, k2, k3, k4, k5⟩ := h2 i (by simpa using hi)
        refine ⟨c', by simpa using k1, by simpa using k2, by simpa using k3, by simpa using k4, ?_⟩
        have e : (Spec.prevLabel (c :: cs) (i + 1)).or prev = (Spec.prevLabel cs i).or (some c.label) := by
          simp only [Spec.prevLabel, List.take_succ_cons, List.filter_cons, hh, ne_eq, not_false_eq_true, decide_true, if_true, List.getLast?_cons]
          cases ((cs.take i).filter fun c => decide (¬ c.ty = .head)).getLast? <;> simp
        rw [e]
        simpa using k5

/-- **C83** `markmodifiers` changes only types; heads stay heads; another child becomes a modifier if and only if a rule for the category of the parent or for
`*` matches it, or its label is that of the nearest sibling before it that is not a head; otherwise it becomes a complement. -/
theorem C83_modifiers (upper : Str → Str) (rules : Dict Str (List Str)) (label : Str) (cs : List Child) :
    (markmodifiers upper rules label cs).length = cs.length ∧
    ∀ i (h : i < cs.length), ∃ c', (markmodifiers upper rules label cs)[i]? = some c' ∧ c'.label = cs[i].label ∧ c'.func = cs[i].func ∧
      (cs[i].ty = .head → c'.ty = .head) ∧
      (cs[i].ty ≠ .head → c'.ty ≠ .head ∧ c'.ty ≠ .none ∧
        (c'.ty = .modifier ↔
          (∃ k ms m, (k = cat label ∨ k = ['*']) ∧ rules.get? k = some ms ∧ m ∈ ms ∧ Spec.Matches upper cs[i] m) ∨
          Spec.prevLabel cs i = some cs[i].label)) := by
  obtain ⟨h1, h2⟩ := markLoop_spec upper (applicable rules label) cs none
  refine ⟨h1, fun i hi => ?_⟩
  obtain ⟨c', k1, k2, k3, k4, k5⟩ := h2 i hi
  refine ⟨c', k1, k2, k3, k4, fun hne => ?_⟩
  have key : (∃ m ∈ applicable rules label, Spec.Matches upper cs[i] m) ↔
      ∃ k ms m, (k = cat label ∨ k = ['*']) ∧ rules.get? k = some ms ∧ m ∈ ms ∧ Spec.Matches upper cs[i] m := by
    have hget : ∀ k m, m ∈ (rules.get? k).getD [] ↔ ∃ ms, rules.get? k = some ms ∧ m ∈ ms := by
      intro k m
      cases rules.get? k <;> simp
    simp only [applicable, List.mem_append, hget]
    constructor
    · rintro ⟨m, ⟨ms, g1, g2⟩ | ⟨ms, g1, g2⟩, hm⟩
      · exact ⟨_, ms, m, Or.inl rfl, g1, g2, hm⟩
      · exact ⟨_, ms, m, Or.inr rfl, g1, g2, hm⟩
    · rintro ⟨k, ms, m, rfl | rfl, g1, g2, hm⟩
      · exact ⟨m, Or.inl ⟨ms, g1, g2⟩, hm⟩
      · exact ⟨m, Or.inr ⟨ms, g1, g2⟩, hm⟩
  rw [← key]
  rw [Option.or_none] at k5
  rcases k5 hne with ⟨a, b⟩ | ⟨a, b⟩
  · exact ⟨by simp [a], by simp [a], ⟨fun _ => b, fun _ => a⟩⟩
  · exact ⟨by simp [a], by simp [a], ⟨fun h => by rw [a] at h; simp at h, fun h => absurd h b⟩⟩

/-- **C83** Doing it again changes nothing. -/
theorem C83_modifiers_idem (upper : Str → Str) (rules : Dict Str (List Str)) (label : Str) (cs : List Child) :
    markmodifiers upper rules label (markmodifiers upper rules label cs) = markmodifiers upper rules label cs := by
  rw [markmodifiers, markmodifiers]
  generalize applicable rules label = mods
  generalize (none : Option Str) = prev
  induction cs generalizing prev with
  | nil => rfl
  | cons c cs ih =>
    by_cases hh : c.ty = .head
    · rw [markLoop, if_pos hh, markLoop, if_pos hh, ih]
    · rw [markLoop, if_neg hh]
      have hm : ∀ t, matchesMod upper { c with ty := t } = matchesMod upper c := fun t => rfl
      rw [markLoop, if_neg]
      · simp only [hm, ih]
      · simp only
        split <;> simp

/-- A file and a constituent: subject (no rule), head, adverbial phrase (rule), two noun phrases in a row. -/
example : (match readmodifierrules wsEx upperEx ["% modifiers".toList, "S ADVP *-MOD".toList] with
    | .ok d => decide ((markmodifiers upperEx d "S-x".toList [⟨"NP".toList, none, .none⟩, ⟨"VP".toList, none, .head⟩, ⟨"ADVP".toList, none, .none⟩,
        ⟨"PP".toList, some "mod-x".toList, .none⟩, ⟨"NP".toList, none, .none⟩, ⟨"NP".toList, none, .none⟩]).map Child.ty =
        [.complement, .head, .modifier, .modifier, .complement, .modifier])
    | .error _ => false) = true := by decide +kernel
end Disco.RuleFiles
