import Verif.Basic.StrLemmas
import Mathlib.Data.List.Forall2
/-!
# C64: reading trees from a stream of lines, `incrementaltreereader` with `segmentbrackets` (treebank.py:1002-1141)
-/
namespace Disco.Incr

/-- `line.find(c, i)`; `-1` is `none`. -/
def find (c : Char) (line : Str) (i : Nat) : Option Nat :=
  if c ∈ line.drop i then some (i + ((line.drop i).takeWhile (· ≠ c)).length) else none

/-- `s.rstrip()`; `ws` is white space. -/
def rstrip (ws : Char → Bool) (s : Str) : Str := (s.reverse.dropWhile ws).reverse

/-- The parameters of `segmentbrackets` and `brackettree`, of which `none` is any exception. -/
structure P (T : Type) where
  strict : Bool
  robust : Bool
  ws : Char → Bool
  bt : Str → Option T

/-- The local variables of `segmentbrackets` (treebank.py:1084-1090). `ended`: the co-routine is at the `yield` after the end of the input
(treebank.py:1136), which ignores the value that is sent. -/
structure St (T : Type) where
  parens : Nat
  depth : Nat
  prev : Str
  result : Str
  results : List (T × Str)
  rest : Str
  ended : Bool

/-- The initial state. -/
def St.init (T : Type) : St T := ⟨0, 0, [], [], [], [], false⟩

variable {T : Type}

/-- `tryparse(result, rest)` (treebank.py:1073-1082); `none` is the `ValueError`. -/
def tryparse (p : P T) (s : St T) (rest : Str) : Option (St T) :=
  match p.bt s.result with
  | none => none
  | some t => some { s with results := s.results ++ [(t, rstrip p.ws rest)] }

/-- `parens == 0 and (b == -1 or (not robust or 0 <= line.find(lb, a + 1) < b))` (treebank.py:1103-1104). -/
def ahead (p : P T) (line : Str) (a : Nat) (b : Option Nat) : Bool :=
  match b with
  | none => true
  | some b => !p.robust || (match find '(' line (a + 1) with
    | none => false
    | some x => decide (x < b))

/-- A left bracket at `a` (treebank.py:1101-1110): the new state and `start`. -/
def left (p : P T) (line : Str) (a : Nat) (b : Option Nat) (start : Nat) (s : St T) : Option (St T × Nat) :=
  if s.parens = 0 ∧ ahead p line a b then
    let s1 := { s with rest := slice line start a, prev := line.drop a }
    if s1.result ≠ [] then
      match tryparse p s1 s1.rest with
      | none => none
      | some s2 => some ({ s2 with result := [], parens := s2.parens + 1, depth := max s2.depth (s2.parens + 1) }, a)
    else some ({ s1 with parens := s1.parens + 1, depth := max s1.depth (s1.parens + 1) }, start)
  else some ({ s with parens := s.parens + 1, depth := max s.depth (s.parens + 1) }, start)

/-- A right bracket at `b` (treebank.py:1111-1121); `parens` becomes negative only if it was zero. -/
def right (p : P T) (line : Str) (b start : Nat) (s : St T) : Option (St T × Nat) :=
  if s.parens = 0 then if p.strict then none else some (s, start)
  else if s.parens = 1 ∧ (!p.robust || decide (1 < s.depth)) then
    some ({ s with parens := 0, result := slice line start (b + 1), prev := line.drop (b + 1), depth := 0 }, b + 1)
  else some ({ s with parens := s.parens - 1 }, start)

/-- The loop over the brackets of a line (treebank.py:1100-1121); `fuel` bounds the number of brackets. -/
def loop (p : P T) (line : Str) : Nat → Option Nat → Option Nat → Nat → St T → Option (St T)
  | 0, _, _, _, _ => none
  | _ + 1, none, none, _, s => some s
  | fuel + 1, some a, b, start, s =>
    if (match b with | none => true | some b => decide (a < b)) then
      match left p line a b start s with
      | none => none
      | some (s, start) => loop p line fuel (find '(' line (a + 1)) b start s
    else match b with
      | none => none
      | some b => match right p line b start s with
        | none => none
        | some (s, start) => loop p line fuel (some a) (find ')' line (b + 1)) start s
  | fuel + 1, none, some b, start, s => match right p line b start s with
    | none => none
    | some (s, start) => loop p line fuel none (find ')' line (b + 1)) start s

/-- `NEWLB.match(prev) is not None`: the pattern `(?:.*[\n\r])?\s*` matches at the start of every string, as both its parts are optional. -/
def newlb (_ : Str) : Bool := true

/-- One line (treebank.py:1092-1122); `s.prev` is the part of the line that was searched before. -/
def body (p : P T) (s : St T) (line : Str) : Option (St T) :=
  let a := find '(' line s.prev.length
  let b := find ')' line s.prev.length
  let a := if decide (s.parens = 0) && (match a with | some x => decide (0 < x) | none => false) && !newlb s.prev then none else a
  loop p line (line.length + 1) a b 0 { s with prev := line }

/-- `CONSUMED if results or result or parens else not CONSUMED`. -/
def status (s : St T) : Bool := decide (s.results ≠ [] ∨ s.result ≠ [] ∨ s.parens ≠ 0)

/-- `if parens or result: line = prev + line; else: prev = ''` (treebank.py:1139-1142), followed by the next iteration. The results are those of this
line. -/
def next (p : P T) (s : St T) (line : Str) : Option (St T) :=
  if s.parens ≠ 0 ∨ s.result ≠ [] then body p { s with results := [] } (s.prev ++ line)
  else body p { s with results := [], prev := [] } line

/-- `reader.send(line)`: the state at the next `yield`, which gives `results or None` and the status (treebank.py:1122-1142). -/
def send (p : P T) (s : St T) (line : Option Str) : Option (St T) :=
  if s.ended then next p { s with ended := false } []
  else match line with
    | some line => next p s line
    | none =>
      let s := { s with results := [] }
      (if s.result ≠ [] then tryparse p s s.rest else some s).map fun s => { s with ended := true }

/-- What `incrementaltreereader` yields: `(tree, sent, rest)`, or `(None, None, text)`. -/
inductive Out (T : Type) where
  | tree (t : T) (rest : Str)
  | text (s : Str)
  deriving DecidableEq

/-- `rest.find('\n')`, `rest[:x]` and `rest[x:]` (treebank.py:1048-1054). -/
def emit (other : Bool) (r : T × Str) : List (Out T) :=
  match find '\n' r.2 0 with
  | none => [.tree r.1 r.2]
  | some x => if other then [.tree r.1 (r.2.take x), .text (r.2.drop x)] else [.tree r.1 r.2]

/-- A result of the reader: no `ValueError`, with the items that were yielded. -/
def addOut (o : List (Out T)) : Option (List (Out T)) → Option (List (Out T))
  | none => none
  | some l => some (o ++ l)

/-- A line that no reader accepted (treebank.py:1055-1057). -/
def declined (p : P T) (other : Bool) : Option Str → List (Out T)
  | some line => if other then [.text (rstrip p.ws line)] else []
  | none => []

/-- The loop `while res is None` for `segmentbrackets` (treebank.py:1036-1045), which has `line` and the lines `ls` that follow, and the rest of the
outer loop of `incrementaltreereader` (treebank.py:1030-1062), for lines that `segmentexport` and `segmentalpino` decline. After results have been
yielded or a line was not consumed, the next line is first sent to `segmentexport`, which ends (and `incrementaltreereader` with it) on `None`. -/
def feed (p : P T) (other : Bool) : St T → Option Str → List (Option Str) → Option (List (Out T))
  | s, line, [] => match send p s line with
    | none => none
    | some s' => some (if status s' then s'.results.flatMap (emit other) else declined p other line)
  | s, line, l :: ls => match send p s line with
    | none => none
    | some s' =>
      if status s' then
        if s'.results.isEmpty then feed p other s' l ls
        else addOut (s'.results.flatMap (emit other)) (if l.isNone then some [] else feed p other s' l ls)
      else addOut (declined p other line) (if l.isNone then some [] else feed p other s' l ls)

/-- `next(treeinput)` and the outer loop. -/
def top (p : P T) (other : Bool) (s : St T) : List (Option Str) → Option (List (Out T))
  | some line :: ls => feed p other s (some line) ls
  | _ => some []

/-- `list(incrementaltreereader(lines, strict=..., robust=..., othertext=...))`: the lines, followed by `'('` and twice `None` (treebank.py:1025). -/
def reader (p : P T) (other : Bool) (lines : List Str) : Option (List (Out T)) :=
  top p other (St.init T) (lines.map some ++ [some ['('], none, none])

/-! ## Specification -/

/-- Text with matching brackets. -/
inductive Spec.Bal : Str → Prop
  | nil : Spec.Bal []
  | chr {c s} : c ≠ '(' → c ≠ ')' → Spec.Bal s → Spec.Bal (c :: s)
  | par {s r} : Spec.Bal s → Spec.Bal r → Spec.Bal ('(' :: (s ++ ')' :: r))

/-- A bracketed tree, of at least two levels if `robust`. -/
def Spec.IsTree (robust : Bool) (t : Str) : Prop := ∃ s, Spec.Bal s ∧ t = '(' :: (s ++ [')']) ∧ (robust = true → '(' ∈ s)

/-- Text outside of trees: no left bracket, and no right bracket if `strict`. -/
def Spec.Outside (strict : Bool) (r : Str) : Prop := '(' ∉ r ∧ (strict = true → ')' ∉ r)

/-- A tree with the text after it, and the value of `brackettree`. -/
structure Spec.Good (p : P T) (x : Str × Str × T) : Prop where
  tree : Spec.IsTree p.robust x.1
  out : Spec.Outside p.strict x.2.1
  val : p.bt x.1 = some x.2.2

/-- The trees with the text after each of them. -/
def Spec.text : List (Str × Str × T) → Str
  | [] => []
  | (t, r, _) :: l => t ++ (r ++ Spec.text l)

/-- What is expected: the values with the text after each tree, without trailing white space. -/
def Spec.outs (ws : Char → Bool) (l : List (Str × Str × T)) : List (T × Str) := l.map fun x => (x.2.2, rstrip ws x.2.1)

/-- With `othertext`, the text after a tree is divided at the first newline. -/
def Spec.divide (other : Bool) (a : T × Str) : List (Out T) :=
  if other = true ∧ '\n' ∈ a.2 then [.tree a.1 (a.2.takeWhile (· ≠ '\n')), .text (a.2.dropWhile (· ≠ '\n'))] else [.tree a.1 a.2]

/-! ## Lines as sequences of characters -/

/-- The look-ahead in the rest of the line. -/
def aheadS (p : P T) (cs : Str) : Bool := decide (')' ∉ cs) || !p.robust || decide ('(' ∈ cs.takeWhile (· ≠ ')'))

/-- A left bracket, before the rest `cs` of the line; `pend` is the text since `start`. -/
def leftS (p : P T) (cs pend pv : Str) (s : St T) : Option (St T × Str × Str) :=
  if s.parens = 0 ∧ aheadS p cs then
    if s.result ≠ [] then
      match tryparse p { s with rest := pend } pend with
      | none => none
      | some s2 => some ({ s2 with result := [], parens := s2.parens + 1, depth := max s2.depth (s2.parens + 1) }, ['('], ['('])
    else some ({ s with rest := pend, parens := s.parens + 1, depth := max s.depth (s.parens + 1) }, pend ++ ['('], ['('])
  else some ({ s with parens := s.parens + 1, depth := max s.depth (s.parens + 1) }, pend ++ ['('], pv ++ ['('])

/-- A right bracket. -/
def rightS (p : P T) (pend pv : Str) (s : St T) : Option (St T × Str × Str) :=
  if s.parens = 0 then if p.strict then none else some (s, pend ++ [')'], pv ++ [')'])
  else if s.parens = 1 ∧ (!p.robust || decide (1 < s.depth)) then
    some ({ s with parens := 0, result := pend ++ [')'], depth := 0 }, [], [])
  else some ({ s with parens := s.parens - 1 }, pend ++ [')'], pv ++ [')'])

/-- The rest of a line, character by character; `pv` is the text since the start of `prev`. -/
def scan (p : P T) : Str → Str → Str → St T → Option (St T)
  | [], _, pv, s => some { s with prev := pv }
  | c :: cs, pend, pv, s =>
    if c = '(' then match leftS p cs pend pv s with
      | none => none
      | some (s, pend, pv) => scan p cs pend pv s
    else if c = ')' then match rightS p pend pv s with
      | none => none
      | some (s, pend, pv) => scan p cs pend pv s
    else scan p cs (pend ++ [c]) (pv ++ [c]) s

theorem drop_succ {line : Str} {i : Nat} {c : Char} {cs : Str} (h : line.drop i = c :: cs) : line.drop (i + 1) = cs := by
  have := List.drop_drop (l := line) (i := 1) (j := i)
  rw [h] at this
  simpa using this.symm

theorem slice_succ {line : Str} {i a : Nat} {c : Char} {cs : Str} (h : line.drop i = c :: cs) (ha : a ≤ i) :
    slice line a (i + 1) = slice line a i ++ [c] := by
  unfold slice
  have e : i + 1 - a = (i - a) + 1 := by omega
  have hg : (line.drop a)[i - a]? = some c := by
    rw [List.getElem?_drop]
    have : a + (i - a) = i := by omega
    rw [this]
    have := congrArg (·[0]?) h
    simpa using this
  rw [e, List.take_add_one, hg]
  rfl

theorem find_hit {line : Str} {i : Nat} {c : Char} {cs : Str} (h : line.drop i = c :: cs) : find c line i = some i := by
  unfold find; rw [h]; simp

theorem find_skip {line : Str} {i : Nat} {c x : Char} {cs : Str} (h : line.drop i = c :: cs) (hx : x ≠ c) : find x line i = find x line (i + 1) := by
  unfold find
  rw [h, drop_succ h]
  by_cases hm : x ∈ cs
  · rw [if_pos (List.mem_cons_of_mem _ hm), if_pos hm]
    have : (decide (c ≠ x)) = true := by simpa using Ne.symm hx
    rw [List.takeWhile_cons, this]
    simp only [if_true, List.length_cons]
    congr 1; omega
  · rw [if_neg (by rw [List.mem_cons]; rintro (h | h); exacts [hx h, hm h]), if_neg hm]

theorem find_nil {line : Str} {i : Nat} {x : Char} (h : line.drop i = []) : find x line i = none := by
  unfold find; rw [h]; simp

theorem find_ge {line : Str} {i b : Nat} {x : Char} (h : find x line i = some b) : i ≤ b := by
  unfold find at h
  split at h
  · have := Option.some.inj h; omega
  · simp at h

theorem before_iff {cs : Str} (hr : ')' ∈ cs) :
    ('(' ∈ cs.takeWhile (· ≠ ')')) ↔ ('(' ∈ cs ∧ (cs.takeWhile (· ≠ '(')).length < (cs.takeWhile (· ≠ ')')).length) := by
  induction cs with
  | nil => simp at hr
  | cons c cs ih =>
    by_cases h1 : c = ')'
    · subst h1; simp
    · by_cases h2 : c = '('
      · subst h2; simp
      · have hr' : ')' ∈ cs := by
          rcases List.mem_cons.mp hr with h | h
          · exact absurd h.symm h1
          · exact h
        have := ih hr'
        simp only [List.takeWhile_cons, ne_eq, h1, h2, not_false_eq_true, decide_true, if_true, List.mem_cons, List.length_cons]
        simp only [ne_eq] at this
        rw [this]
        constructor
        · rintro (h | ⟨h, h'⟩)
          · exact absurd h.symm h2
          · exact ⟨Or.inr h, by omega⟩
        · rintro ⟨h | h, h'⟩
          · exact absurd h.symm h2
          · exact Or.inr ⟨h, by omega⟩

theorem ahead_eq (p : P T) {line : Str} {i : Nat} {c : Char} {cs : Str} (h : line.drop i = c :: cs) :
    ahead p line i (find ')' line (i + 1)) = aheadS p cs := by
  unfold ahead aheadS find
  rw [drop_succ h]
  by_cases hr : ')' ∈ cs
  · rw [if_pos hr]
    simp only [hr, not_true_eq_false, decide_false, Bool.false_or]
    congr 1
    by_cases hl : '(' ∈ cs
    · rw [if_pos hl]
      simp only
      rw [decide_eq_decide, before_iff hr]
      constructor
      · intro h; exact ⟨hl, by omega⟩
      · rintro ⟨-, h⟩; omega
    · rw [if_neg hl]
      simp only
      symm
      rw [decide_eq_false_iff_not, before_iff hr]
      exact fun h => hl h.1
  · rw [if_neg hr]; simp [hr]

theorem scan_prev (p : P T) (cs pend pv : Str) (s : St T) (q : Str) : scan p cs pend pv { s with prev := q } = scan p cs pend pv s := by
  induction cs generalizing pend pv s with
  | nil => rfl
  | cons c cs ih =>
    rw [scan, scan]
    by_cases h1 : c = '('
    · rw [if_pos h1, if_pos h1]
      unfold leftS tryparse
      simp only
      by_cases h3 : s.parens = 0 ∧ aheadS p cs = true
      · rw [if_pos h3, if_pos h3]
        by_cases h4 : s.result ≠ []
        · rw [if_pos h4, if_pos h4]
          cases p.bt s.result with
          | none => rfl
          | some t => exact ih _ _ ⟨s.parens + 1, max s.depth (s.parens + 1), s.prev, [], s.results ++ [(t, rstrip p.ws pend)], pend, s.ended⟩
        · rw [if_neg h4, if_neg h4]; exact ih _ _ { s with rest := pend, parens := s.parens + 1, depth := max s.depth (s.parens + 1) }
      · rw [if_neg h3, if_neg h3]; exact ih _ _ { s with parens := s.parens + 1, depth := max s.depth (s.parens + 1) }
    · rw [if_neg h1, if_neg h1]
      by_cases h2 : c = ')'
      · rw [if_pos h2, if_pos h2]
        unfold rightS
        simp only
        by_cases h3 : s.parens = 0
        · rw [if_pos h3, if_pos h3]
          cases p.strict
          · exact ih _ _ s
          · rfl
        · rw [if_neg h3, if_neg h3]
          by_cases h4 : s.parens = 1 ∧ (!p.robust || decide (1 < s.depth)) = true
          · rw [if_pos h4, if_pos h4]; exact ih _ _ { s with parens := 0, result := pend ++ [')'], depth := 0 }
          · rw [if_neg h4, if_neg h4]; exact ih _ _ { s with parens := s.parens - 1 }
      · rw [if_neg h2, if_neg h2]; exact ih _ _ _

theorem loop_some (p : P T) (line : Str) (fuel a : Nat) (b : Option Nat) (start : Nat) (s : St T) : loop p line (fuel + 1) (some a) b start s =
    if (match b with | none => true | some b => decide (a < b)) then
      match left p line a b start s with
      | none => none
      | some (s, start) => loop p line fuel (find '(' line (a + 1)) b start s
    else match b with
      | none => none
      | some b => match right p line b start s with
        | none => none
        | some (s, start) => loop p line fuel (some a) (find ')' line (b + 1)) start s := by cases b <;> rfl

theorem loop_scan (p : P T) (line : Str) : ∀ (rest : Str) (fuel i start q : Nat) (s : St T), line.drop i = rest → rest.length < fuel → start ≤ i → q ≤ i →
    i ≤ line.length → s.prev = line.drop q →
    loop p line fuel (find '(' line i) (find ')' line i) start s = scan p rest (slice line start i) (slice line q i) s := by
  intro rest
  induction rest with
  | nil =>
    intro fuel i start q s hd hf hs hq hi hp
    cases fuel with
    | zero => simp at hf
    | succ fuel =>
      rw [find_nil hd, find_nil hd, loop, scan]
      have : i = line.length := by
        have := List.drop_eq_nil_iff.mp hd; omega
      have e : slice line q i = s.prev := by
        rw [hp]; unfold slice
        rw [List.take_of_length_le]; simp; omega
      rw [e]
  | cons c cs ih =>
    intro fuel i start q s hd hf hs hq hi hp
    have hi' : i + 1 ≤ line.length := by
      have := congrArg List.length hd
      simp at this; omega
    cases fuel with
    | zero => simp at hf
    | succ fuel =>
      have hf' : cs.length < fuel := by simpa using hf
      have hf2 : cs.length < fuel + 1 := by omega
      have hd' := drop_succ hd
      rw [scan]
      by_cases h1 : c = '('
      · subst h1
        rw [if_pos rfl, find_hit hd, find_skip hd (by decide), loop_some]
        have hb : (match find ')' line (i + 1) with | none => true | some b => decide (i < b)) = true := by
          cases hb : find ')' line (i + 1) with
          | none => rfl
          | some b => have := find_ge hb; simp; omega
        rw [if_pos hb]
        unfold left leftS
        rw [ahead_eq p hd]
        by_cases h3 : s.parens = 0 ∧ aheadS p cs = true
        · rw [if_pos h3, if_pos h3]
          by_cases h4 : s.result ≠ []
          · simp only [if_pos h4, tryparse]
            cases p.bt s.result with
            | none => rfl
            | some t =>
              simp only
              rw [ih fuel (i + 1) i i _ hd' hf' (by omega) (by omega) hi' rfl, slice_succ hd (by omega)]
              have e : slice line i i = [] := by unfold slice; simp
              rw [e]
              exact scan_prev p cs _ _ ⟨s.parens + 1, max s.depth (s.parens + 1), s.prev, [], s.results ++ [(t, rstrip p.ws (slice line start i))],
                slice line start i, s.ended⟩ _
          · simp only [if_neg h4]
            rw [ih fuel (i + 1) start i _ hd' hf' (by omega) (by omega) hi' rfl, slice_succ hd hs, slice_succ hd (by omega)]
            have e : slice line i i = [] := by unfold slice; simp
            rw [e]
            exact scan_prev p cs _ _ { s with rest := slice line start i, parens := s.parens + 1, depth := max s.depth (s.parens + 1) } _
        · rw [if_neg h3, if_neg h3]
          simp only
          rw [ih fuel (i + 1) start q { s with parens := s.parens + 1, depth := max s.depth (s.parens + 1) } hd' hf' (by omega) (by omega) hi' hp, slice_succ hd hs, slice_succ hd hq]
      · rw [if_neg h1]
        by_cases h2 : c = ')'
        · subst h2
          rw [if_pos rfl, find_hit hd, find_skip hd (by decide)]
          have key : (match right p line i start s with
              | none => none
              | some (s, start) => loop p line fuel (find '(' line (i + 1)) (find ')' line (i + 1)) start s) =
              (match rightS p (slice line start i) (slice line q i) s with
              | none => none
              | some (s, pend, pv) => scan p cs pend pv s) := by
            unfold right rightS
            by_cases h3 : s.parens = 0
            · rw [if_pos h3, if_pos h3]
              cases p.strict
              · simp only [Bool.false_eq_true, if_false]
                rw [ih fuel (i + 1) start q _ hd' hf' (by omega) (by omega) hi' hp, slice_succ hd hs, slice_succ hd hq]
              · rfl
            · rw [if_neg h3, if_neg h3]
              by_cases h4 : s.parens = 1 ∧ (!p.robust || decide (1 < s.depth)) = true
              · rw [if_pos h4, if_pos h4]
                simp only
                rw [ih fuel (i + 1) (i + 1) (i + 1) _ hd' hf' (by omega) (by omega) hi' rfl, slice_succ hd hs]
                have e : slice line (i + 1) (i + 1) = [] := by unfold slice; simp
                rw [e]
                exact scan_prev p cs _ _ { s with parens := 0, result := slice line start i ++ [')'], depth := 0 } _
              · rw [if_neg h4, if_neg h4]
                simp only
                rw [ih fuel (i + 1) start q { s with parens := s.parens - 1 } hd' hf' (by omega) (by omega) hi' hp, slice_succ hd hs, slice_succ hd hq]
          rw [← key]
          cases ha : find '(' line (i + 1) with
          | none => rw [loop]
          | some a =>
            have := find_ge ha
            rw [loop_some, if_neg (by simp; omega)]
        · rw [if_neg h2, find_skip hd (Ne.symm h1), find_skip hd (Ne.symm h2),
            ih (fuel + 1) (i + 1) start q s hd' hf2 (by omega) (by omega) hi' hp, slice_succ hd hs, slice_succ hd hq]

/-- A line is a scan of its new part. -/
theorem body_scan (p : P T) (s : St T) (l : Str) : body p s (s.prev ++ l) = scan p l s.prev s.prev s := by
  unfold body
  simp only [newlb, Bool.not_true, Bool.and_false, Bool.false_eq_true, if_false]
  rw [loop_scan p (s.prev ++ l) l _ s.prev.length 0 0 _ (by simp) (by simp; omega) (by omega) (by omega) (by simp) (by simp)]
  have e : slice (s.prev ++ l) 0 s.prev.length = s.prev := by unfold slice; simp
  rw [e, scan_prev]

theorem next_scan (p : P T) (s : St T) (l : Str) (h : s.parens ≠ 0 ∨ s.result ≠ []) :
    next p s l = scan p l s.prev s.prev { s with results := [] } := by
  unfold next
  rw [if_pos h]
  exact body_scan p { s with results := [] } l

theorem next_scan0 (p : P T) (s : St T) (l : Str) (h1 : s.parens = 0) (h2 : s.result = []) :
    next p s l = scan p l [] [] { s with results := [] } := by
  unfold next
  rw [if_neg (by rintro (h | h); exacts [h h1, h h2])]
  have := body_scan p { s with results := [], prev := [] } l
  simp only [List.nil_append] at this
  rw [this, ← scan_prev p l [] [] { s with results := [] } []]

/-! ## Positions in the text -/

/-- The text closes `d` brackets exactly at its end. -/
def rem : Nat → Str → Prop
  | _, [] => False
  | d, c :: v => if c = '(' then rem (d + 1) v else if c = ')' then (if d = 1 then v = [] else rem (d - 1) v) else rem d v

theorem bal_rem {s : Str} (h : Spec.Bal s) (d : Nat) (hd : 1 ≤ d) (v : Str) (hv : rem d v) : rem d (s ++ v) := by
  induction h generalizing d v with
  | nil => exact hv
  | chr h1 h2 _ ih =>
    rw [List.cons_append, rem, if_neg h1, if_neg h2]
    exact ih d hd v hv
  | @par s r _ _ ih1 ih2 =>
    rw [List.cons_append, rem, if_pos rfl, List.append_assoc, List.cons_append]
    refine ih1 (d + 1) (by omega) _ ?_
    rw [rem, if_neg (by decide), if_pos rfl, if_neg (by omega)]
    exact ih2 d hd v hv

theorem rem_ne {d : Nat} {v : Str} (h : rem d v) : v ≠ [] := by
  rintro rfl; exact h

/-- The first bracket is a left bracket. -/
def firstOpen (v : Str) : Prop := '(' ∈ v.takeWhile (· ≠ ')')

theorem bal_first {s : Str} (h : Spec.Bal s) (hm : '(' ∈ s) (v : Str) : firstOpen (s ++ v) := by
  induction h with
  | nil => simp at hm
  | @chr c s h1 h2 _ ih =>
    have : '(' ∈ s := by
      rcases List.mem_cons.mp hm with h | h
      · exact absurd h.symm h1
      · exact h
    have := ih this
    unfold firstOpen at this ⊢
    rw [List.cons_append, List.takeWhile_cons, if_pos (by simpa using h2)]
    exact List.mem_cons_of_mem _ this
  | par _ _ _ _ => unfold firstOpen; simp

theorem firstOpen_tail {c : Char} {v : Str} (h : firstOpen (c :: v)) (hc : c ≠ '(') : firstOpen v := by
  unfold firstOpen at h ⊢
  rw [List.takeWhile_cons] at h
  split at h
  · rcases List.mem_cons.mp h with h | h
    · exact absurd h.symm hc
    · exact h
  · simp at h

/-- A position in the text: in a tree `u ++ v`, of which `u` was read, or after a tree `t`, with `q` read of the text after it. `w` is text on the same
line before the tree. -/
inductive Cf (T : Type) where
  | ins (w u v r : Str) (x : T) (items : List (Str × Str × T))
  | aft (t q r : Str) (x : T) (items : List (Str × Str × T))

/-- The text that follows. -/
def Cf.remaining : Cf T → Str
  | .ins _ _ v r _ items => v ++ (r ++ Spec.text items)
  | .aft _ _ r _ items => r ++ Spec.text items

/-- The trees that are still to come. -/
def Cf.items : Cf T → List (Str × Str × T)
  | .ins _ _ _ _ _ items => items
  | .aft _ _ _ _ items => items

/-- The results that follow, with the text as it is. -/
def Cf.sig : Cf T → List (T × Str)
  | .ins _ _ _ r x items => (x, r) :: items.map fun i => (i.2.2, i.2.1)
  | .aft _ q r x items => (x, q ++ r) :: items.map fun i => (i.2.2, i.2.1)

/-- Results as they are yielded. -/
def fin (ws : Char → Bool) (l : List (T × Str)) : List (T × Str) := l.map fun a => (a.1, rstrip ws a.2)

/-- The state at a position. -/
def Cf.R (p : P T) (pend pv : Str) (s : St T) : Cf T → Prop
  | .ins w u v r x items => 1 ≤ s.parens ∧ rem s.parens v ∧ s.result = [] ∧ (p.robust = true → 1 < s.depth ∨ firstOpen v) ∧ pend = w ++ u ∧ u = pv ∧
      p.bt (u ++ v) = some x ∧ p.bt (w ++ (u ++ v)) = some x ∧ Spec.Outside p.strict r ∧ s.ended = false ∧ ∀ i ∈ items, Spec.Good p i
  | .aft t q r x items => s.parens = 0 ∧ s.result = t ∧ t ≠ [] ∧ q = pend ∧ q = pv ∧ p.bt t = some x ∧ Spec.Outside p.strict r ∧ s.ended = false ∧
      ∀ i ∈ items, Spec.Good p i

theorem first_prefix {l t v : Str} (h : firstOpen v) (e : ∃ z, l ++ t = v ++ z) (hr : ')' ∈ l) : '(' ∈ l.takeWhile (· ≠ ')') := by
  obtain ⟨z, e⟩ := e
  induction l generalizing v with
  | nil => simp at hr
  | cons c l ih =>
    cases v with
    | nil => simp [firstOpen] at h
    | cons c' v =>
      rw [List.cons_append, List.cons_append, List.cons.injEq] at e
      obtain ⟨rfl, e⟩ := e
      unfold firstOpen at h
      rw [List.takeWhile_cons] at h ⊢
      by_cases h1 : c = ')'
      · subst h1; simp at h
      · have hd : (decide (c ≠ ')')) = true := by simpa using h1
        rw [if_pos hd] at h ⊢
        by_cases h2 : c = '('
        · rw [h2]; exact List.mem_cons_self
        · rcases List.mem_cons.mp h with h | h
          · exact absurd h.symm h2
          · refine List.mem_cons_of_mem _ (ih h ?_ e)
            rcases List.mem_cons.mp hr with h' | h'
            · exact absurd h'.symm h1
            · exact h'

theorem ahead_first {p : P T} {l t v z : Str} (h : p.robust = true → firstOpen v) (e : l ++ t = v ++ z) : aheadS p l = true := by
  unfold aheadS
  by_cases hr : ')' ∈ l
  · cases hp : p.robust with
    | false => simp
    | true => simp only [decide_eq_true (first_prefix (h hp) ⟨z, e⟩ hr), Bool.or_true]
  · simp [hr]

theorem tree_open {robust : Bool} {t : Str} (h : Spec.IsTree robust t) : ∃ v, t = '(' :: v ∧ rem 1 v ∧ (robust = true → firstOpen v) := by
  obtain ⟨s, hs, rfl, hr⟩ := h
  refine ⟨_, rfl, bal_rem hs 1 (by omega) _ ?_, fun h => bal_first hs (hr h) _⟩
  rw [rem, if_neg (by decide), if_pos rfl, if_pos rfl]

/-- Scanning a part of the text. -/
theorem scan_text (p : P T) (l : Str) : ∀ (t : Str) (c : Cf T) (pend pv : Str) (s : St T), c.R p pend pv s → l ++ t = c.remaining →
    ∃ (c' : Cf T) (pend' : Str) (s' : St T) (new : List (T × Str)), scan p l pend pv s = some s' ∧ c'.R p pend' s'.prev s' ∧ c'.remaining = t ∧
      s'.results = s.results ++ fin p.ws new ∧ c.sig = new ++ c'.sig ∧ c'.items <:+ c.items := by
  induction l with
  | nil =>
    intro t c pend pv s hR e
    refine ⟨c, pend, { s with prev := pv }, [], rfl, ?_, e.symm, by simp [fin], by simp, List.suffix_refl _⟩
    cases c <;> exact hR
  | cons a l ih =>
    intro t c pend pv s hR e
    rw [scan]
    cases c with
    | ins w u v r x items =>
      obtain ⟨h1, h2, h3, h4, rfl, rfl, h5, h6, h7, h8, h9⟩ := hR
      cases v with
      | nil => exact absurd rfl (rem_ne h2)
      | cons b v =>
        simp only [Cf.remaining, List.cons_append, List.cons.injEq] at e
        obtain ⟨rfl, e⟩ := e
        rw [rem] at h2
        by_cases ha : a = '('
        · subst ha
          rw [if_pos rfl] at h2
          rw [if_pos rfl]
          unfold leftS
          rw [if_neg (by omega)]
          simp only
          obtain ⟨c', pend', s', new, q1, q2, q3, q4, q5, q6⟩ := ih t (.ins w (u ++ ['(']) v r x items) (w ++ u ++ ['(']) (u ++ ['('])
            { s with parens := s.parens + 1, depth := max s.depth (s.parens + 1) }
            ⟨by simp, h2, h3, fun _ => Or.inl (by simp only; omega), by simp, rfl, by simpa using h5, by simpa using h6, h7, h8, h9⟩ (by simp [Cf.remaining, e])
          exact ⟨c', pend', s', new, q1, q2, q3, q4, q5, q6⟩
        · rw [if_neg ha] at h2 ⊢
          by_cases hb : a = ')'
          · subst hb
            rw [if_pos rfl] at h2 ⊢
            unfold rightS
            rw [if_neg (by omega)]
            by_cases hd : s.parens = 1
            · rw [if_pos hd] at h2
              subst h2
              have hr : (!p.robust || decide (1 < s.depth)) = true := by
                cases hp : p.robust with
                | false => rfl
                | true =>
                  rcases h4 hp with h | h
                  · simpa using h
                  · simp [firstOpen] at h
              rw [if_pos ⟨hd, hr⟩]
              simp only
              obtain ⟨c', pend', s', new, q1, q2, q3, q4, q5, q6⟩ := ih t (.aft (w ++ u ++ [')']) [] r x items) [] []
                { s with parens := 0, result := w ++ u ++ [')'], depth := 0 }
                ⟨rfl, rfl, by simp, rfl, rfl, by simpa using h6, h7, h8, h9⟩ (by simpa [Cf.remaining] using e)
              exact ⟨c', pend', s', new, q1, q2, q3, q4, q5, q6⟩
            · rw [if_neg hd] at h2
              rw [if_neg (fun h => hd h.1)]
              simp only
              obtain ⟨c', pend', s', new, q1, q2, q3, q4, q5, q6⟩ := ih t (.ins w (u ++ [')']) v r x items) (w ++ u ++ [')']) (u ++ [')'])
                { s with parens := s.parens - 1 }
                ⟨by simp only; omega, h2, h3, fun h => Or.inl (by
                  rcases h4 h with h | h
                  · exact h
                  · simp [firstOpen] at h), by simp, rfl, by simpa using h5, by simpa using h6, h7, h8, h9⟩ (by simp [Cf.remaining, e])
              exact ⟨c', pend', s', new, q1, q2, q3, q4, q5, q6⟩
          · rw [if_neg hb] at h2 ⊢
            obtain ⟨c', pend', s', new, q1, q2, q3, q4, q5, q6⟩ := ih t (.ins w (u ++ [a]) v r x items) (w ++ u ++ [a]) (u ++ [a]) s
              ⟨h1, h2, h3, fun h => (h4 h).imp id fun h => firstOpen_tail h ha, by simp, rfl, by simpa using h5, by simpa using h6, h7, h8, h9⟩
              (by simp [Cf.remaining, e])
            exact ⟨c', pend', s', new, q1, q2, q3, q4, q5, q6⟩
    | aft tr q r x items =>
      obtain ⟨h1, h2, h3, rfl, rfl, h5, h6, h8, h9⟩ := hR
      cases r with
      | cons b r =>
        simp only [Cf.remaining, List.cons_append, List.cons.injEq] at e
        obtain ⟨rfl, e⟩ := e
        have ha : a ≠ '(' := fun h => h6.1 (h ▸ List.mem_cons_self)
        have h6' : Spec.Outside p.strict r := ⟨fun h => h6.1 (List.mem_cons_of_mem _ h), fun hs h => h6.2 hs (List.mem_cons_of_mem _ h)⟩
        rw [if_neg ha]
        obtain ⟨c', pend', s', new, q1, q2, q3, q4, q5, q6⟩ := ih t (.aft tr (q ++ [a]) r x items) (q ++ [a]) (q ++ [a]) s
          ⟨h1, h2, h3, rfl, rfl, h5, h6', h8, h9⟩ (by simp [Cf.remaining, e])
        refine ⟨c', pend', s', new, ?_, q2, q3, q4, by simpa [Cf.sig] using q5, q6⟩
        by_cases hb : a = ')'
        · subst hb
          rw [if_pos rfl]
          unfold rightS
          rw [if_pos h1]
          have : p.strict = false := by
            cases hp : p.strict with
            | false => rfl
            | true => exact absurd List.mem_cons_self (h6.2 hp)
          rw [this]
          exact q1
        · rw [if_neg hb]; exact q1
      | nil =>
        cases items with
        | nil => simp [Cf.remaining, Spec.text] at e
        | cons i items =>
          obtain ⟨tr2, r2, x2⟩ := i
          have hg := h9 _ List.mem_cons_self
          obtain ⟨v, hv, hrem, hfo⟩ := tree_open hg.tree
          simp only at hv
          subst hv
          simp only [Cf.remaining, Spec.text, List.nil_append, List.cons_append, List.cons.injEq] at e
          obtain ⟨rfl, e⟩ := e
          rw [if_pos rfl]
          unfold leftS tryparse
          rw [if_pos ⟨h1, ahead_first hfo e⟩, if_pos (by rw [h2]; exact h3)]
          simp only [h2, h5]
          obtain ⟨c', pend', s', new, q1, q2, q3, q4, q5, q6⟩ := ih t (.ins [] ['('] v r2 x2 items) ['('] ['(']
            ⟨s.parens + 1, max s.depth (s.parens + 1), s.prev, [], s.results ++ [(x, rstrip p.ws q)], q, s.ended⟩
            ⟨by simp, by simpa [h1] using hrem, rfl, fun h => Or.inr (hfo h), rfl, rfl, hg.val, hg.val, hg.out, h8,
              fun i hi => h9 i (List.mem_cons_of_mem _ hi)⟩ (by simp [Cf.remaining, e])
          refine ⟨c', pend', s', (x, q) :: new, q1, q2, q3, ?_, ?_, ?_⟩
          · rw [q4]; simp [fin]
          · simp only [Cf.sig, List.map_cons, List.append_nil] at q5 ⊢
            rw [q5]; simp
          · exact q6.trans (List.suffix_cons _ _)

/-! ## The lines -/

theorem R_line {p : P T} {pend : Str} {s : St T} {c : Cf T} (h : c.R p pend s.prev s) :
    (∃ c2 : Cf T, c2.R p s.prev s.prev { s with results := [] } ∧ c2.remaining = c.remaining ∧ c2.sig = c.sig ∧ c2.items = c.items) ∧
      (s.parens ≠ 0 ∨ s.result ≠ []) ∧ s.ended = false := by
  cases c with
  | ins w u v r x items =>
    obtain ⟨h1, h2, h3, h4, h5, h6, h7, h8, h9, h10, h11⟩ := h
    exact ⟨⟨.ins [] u v r x items, ⟨h1, h2, h3, h4, h6.symm, h6, h7, h7, h9, h10, h11⟩, rfl, rfl, rfl⟩, Or.inl (by omega), h10⟩
  | aft t q r x items =>
    obtain ⟨h1, h2, h3, h4, h5, h6, h7, h8, h9⟩ := h
    exact ⟨⟨.aft t q r x items, ⟨h1, h2, h3, h5, h5, h6, h7, h8, h9⟩, rfl, rfl, rfl⟩, Or.inr (h2 ▸ h3), h8⟩

theorem R_status {p : P T} {pend : Str} {s : St T} {c : Cf T} (h : c.R p pend s.prev s) : status s = true := by
  have := (R_line h).2.1
  unfold status
  rw [decide_eq_true_eq]
  rcases this with h | h
  · exact Or.inr (Or.inr h)
  · exact Or.inr (Or.inl h)

theorem addOut_addOut (a b : List (Out T)) (x : Option (List (Out T))) : addOut a (addOut b x) = addOut (a ++ b) x := by
  cases x <;> simp [addOut]

theorem addOut_nil (x : Option (List (Out T))) : addOut [] x = x := by cases x <;> simp [addOut]

/-- A consumed line with its results, and the line that follows. -/
theorem feed_step {p : P T} {other : Bool} {s s' : St T} {l x : Str} {tail : List (Option Str)} (h : send p s (some l) = some s') (hs : status s' = true) :
    feed p other s (some l) (some x :: tail) = addOut (s'.results.flatMap (emit other)) (feed p other s' (some x) tail) := by
  rw [feed, h]
  simp only [hs, if_true]
  cases hr : s'.results with
  | nil => simp [addOut_nil]
  | cons a as => simp

theorem feed_lines (p : P T) (other : Bool) (x : Str) (tail : List (Option Str)) : ∀ (ls : List Str) (l t : Str) (c : Cf T) (pend : Str) (s : St T),
    c.R p pend s.prev s → l ++ ls.flatten ++ t = c.remaining →
    ∃ (c' : Cf T) (pend' : Str) (s' : St T) (new : List (T × Str)), c'.R p pend' s'.prev s' ∧ c'.remaining = t ∧ c.sig = new ++ c'.sig ∧ c'.items <:+ c.items ∧
      feed p other s (some l) (ls.map some ++ some x :: tail) = addOut ((fin p.ws new).flatMap (emit other)) (feed p other s' (some x) tail) := by
  intro ls
  induction ls with
  | nil =>
    intro l t c pend s hR e
    obtain ⟨⟨c2, hc, e1, e2, e3⟩, hn, hend⟩ := R_line hR
    obtain ⟨c', pend', s', new, q1, q2, q3, q4, q5, q6⟩ := scan_text p l t c2 _ _ _ hc (by rw [e1, ← e]; simp)
    have hsend : send p s (some l) = some s' := by
      unfold send; rw [if_neg (by simp [hend])]; simp only; rw [next_scan p s l hn, q1]
    refine ⟨c', pend', s', new, q2, q3, by rw [← e2, q5], e3 ▸ q6, ?_⟩
    rw [List.map_nil, List.nil_append, feed_step hsend (R_status q2), q4]
    rfl
  | cons l2 ls ih =>
    intro l t c pend s hR e
    obtain ⟨⟨c2, hc, e1, e2, e3⟩, hn, hend⟩ := R_line hR
    obtain ⟨c', pend', s', new, q1, q2, q3, q4, q5, q6⟩ := scan_text p l (l2 ++ ls.flatten ++ t) c2 _ _ _ hc (by rw [e1, ← e]; simp)
    have hsend : send p s (some l) = some s' := by
      unfold send; rw [if_neg (by simp [hend])]; simp only; rw [next_scan p s l hn, q1]
    obtain ⟨c3, pend3, s3, new3, a1, a2, a3, a5, a4⟩ := ih l2 t c' pend' s' q2 q3.symm
    refine ⟨c3, pend3, s3, new ++ new3, a1, a2, by rw [← e2, q5, a3, List.append_assoc], a5.trans (e3 ▸ q6), ?_⟩
    rw [List.map_cons, List.cons_append, feed_step hsend (R_status q2), a4, addOut_addOut, q4]
    simp [fin]

theorem text_ne {p : P T} {i : Str × Str × T} {items : List (Str × Str × T)} (h : Spec.Good p i) : Spec.text (i :: items) ≠ [] := by
  obtain ⟨t, r, x⟩ := i
  obtain ⟨s, -, h, -⟩ := h.tree
  simp only at h
  rw [Spec.text, h]; simp

/-- The end of the input after a tree. -/
theorem end_aft {p : P T} {other : Bool} {pend : Str} {s : St T} {c : Cf T} (hR : c.R p pend s.prev s) (hr : c.remaining = []) :
    feed p other s (some ['(']) [none, none] = some ((fin p.ws c.sig).flatMap (emit other)) := by
  cases c with
  | ins w u v r x items =>
    have := rem_ne hR.2.1
    simp only [Cf.remaining, List.append_eq_nil_iff] at hr
    exact absurd hr.1 this
  | aft t q r x items =>
    obtain ⟨h1, h2, h3, h4, h5, h6, h7, h8, h9⟩ := hR
    simp only [Cf.remaining, List.append_eq_nil_iff] at hr
    obtain ⟨rfl, hr⟩ := hr
    cases items with
    | cons i items => exact absurd hr (text_ne (h9 _ List.mem_cons_self))
    | nil =>
      have hn : s.parens ≠ 0 ∨ s.result ≠ [] := Or.inr (h2 ▸ h3)
      have hs : ∃ s', send p s (some ['(']) = some s' ∧ s'.results = [(x, rstrip p.ws q)] := by
        unfold send
        rw [if_neg (by simp [h8])]
        simp only
        rw [next_scan p s _ hn, scan, if_pos rfl]
        unfold leftS tryparse
        rw [if_pos ⟨h1, by simp [aheadS]⟩, if_pos (by simpa [h2] using h3)]
        simp only [h2, h6, scan]
        exact ⟨_, rfl, by rw [h5]; rfl⟩
      obtain ⟨s', e, er⟩ := hs
      rw [feed, e]
      have hst : status s' = true := by unfold status; rw [er]; simp
      simp only [hst, if_true, er]
      simp [Cf.sig, fin, addOut]

/-- The end of the input with open brackets. -/
theorem end_open {p : P T} {other : Bool} {s s' : St T} (h : send p s (some ['(']) = some s') (h1 : s'.parens ≠ 0) (h2 : s'.results = []) (h3 : s'.result = [])
    (h4 : s'.ended = false) : feed p other s (some ['(']) [none, none] = some [] := by
  have hst : status s' = true := by unfold status; simp [h1]
  rw [feed, h]
  simp only [hst, if_true, h2, List.isEmpty_nil]
  have hs2 : send p s' none = some { s' with results := [], ended := true } := by unfold send; simp [h4, h3]
  have hst2 : status ({ s' with results := [], ended := true } : St T) = true := by unfold status; simp [h1]
  rw [feed, hs2]
  simp only [hst2, if_true, List.isEmpty_nil]
  have hs3 : ∃ s3, send p { s' with results := [], ended := true } none = some s3 ∧ s3.results = [] ∧ s3.parens ≠ 0 := by
    unfold send
    simp only [if_true]
    rw [next_scan p ({ s' with results := [], ended := false } : St T) [] (Or.inl h1), scan]
    exact ⟨_, rfl, rfl, h1⟩
  obtain ⟨s3, e1, e2, e3⟩ := hs3
  have hst3 : status s3 = true := by unfold status; simp [e3]
  rw [feed, e1]
  simp [hst3, e2]

/-- The end of the input in a tree. -/
theorem end_ins {p : P T} {other : Bool} {pend : Str} {s : St T} {w u v r : Str} {x : T} {items : List (Str × Str × T)}
    (hR : (Cf.ins w u v r x items).R p pend s.prev s) : feed p other s (some ['(']) [none, none] = some [] := by
  obtain ⟨h1, h2, h3, h4, h5, h6, h7, h8, h9, h10, h11⟩ := hR
  have hsend : ∃ s', send p s (some ['(']) = some s' ∧ s'.parens ≠ 0 ∧ s'.results = [] ∧ s'.result = [] ∧ s'.ended = false := by
    unfold send
    rw [if_neg (by simp [h10])]
    simp only
    rw [next_scan p s _ (Or.inl (by omega)), scan, if_pos rfl]
    unfold leftS
    rw [if_neg (by simp only; omega)]
    simp only [scan]
    exact ⟨_, rfl, by simp, rfl, h3, h10⟩
  obtain ⟨s', e1, e2, e3, e4, e5⟩ := hsend
  exact end_open e1 e2 e3 e4 e5

theorem scan_outside (p : P T) (l : Str) (hl : Spec.Outside p.strict l) : ∀ (pend pv : Str) (s : St T), s.parens = 0 →
    scan p l pend pv s = some { s with prev := pv ++ l } := by
  induction l with
  | nil => intro pend pv s _; rw [scan]; simp
  | cons c l ih =>
    intro pend pv s hs
    have hl' : Spec.Outside p.strict l := ⟨fun h => hl.1 (List.mem_cons_of_mem _ h), fun hs h => hl.2 hs (List.mem_cons_of_mem _ h)⟩
    have hc : c ≠ '(' := fun h => hl.1 (h ▸ List.mem_cons_self)
    rw [scan, if_neg hc]
    by_cases hb : c = ')'
    · subst hb
      have : p.strict = false := by
        cases hp : p.strict with
        | false => rfl
        | true => exact absurd List.mem_cons_self (hl.2 hp)
      rw [if_pos rfl]
      unfold rightS
      rw [if_pos hs, this]
      simp only [Bool.false_eq_true, if_false]
      rw [ih hl' _ _ _ hs]
      simp
    · rw [if_neg hb, ih hl' _ _ _ hs]
      simp

/-- Nothing has been read. -/
def Idle (s : St T) : Prop := s.parens = 0 ∧ s.result = [] ∧ s.ended = false

/-- The text of a line without trees. -/
def lineText (p : P T) (other : Bool) (l : Str) : List (Out T) := if other then [.text (rstrip p.ws l)] else []

theorem feed_outside {p : P T} {other : Bool} {s : St T} (hs : Idle s) {l x : Str} (hl : Spec.Outside p.strict l) (tail : List (Option Str)) :
    ∃ s', Idle s' ∧ feed p other s (some l) (some x :: tail) = addOut (lineText p other l) (feed p other s' (some x) tail) := by
  have hsend : send p s (some l) = some { s with results := [], prev := l } := by
    unfold send
    rw [if_neg (by simp [hs.2.2])]
    simp only
    rw [next_scan0 p s l hs.1 hs.2.1, scan_outside p l hl _ _ { s with results := [] } hs.1]
    simp
  refine ⟨{ s with results := [], prev := l }, hs, ?_⟩
  have hst : status ({ s with results := [], prev := l } : St T) = false := by unfold status; simp [hs.1, hs.2.1]
  rw [feed, hsend]
  generalize ({ s with results := [], prev := l } : St T) = s2 at hst
  simp [hst, lineText, declined]

theorem feed_lead {p : P T} {other : Bool} (x : Str) (tail : List (Option Str)) : ∀ (lead : List Str) (s : St T), Idle s → (∀ l ∈ lead, Spec.Outside p.strict l) →
    ∃ s', Idle s' ∧ top p other s (lead.map some ++ some x :: tail) = addOut (lead.flatMap (lineText p other)) (feed p other s' (some x) tail) := by
  intro lead
  induction lead with
  | nil => intro s hs _; exact ⟨s, hs, by simp [top, addOut_nil]⟩
  | cons l lead ih =>
    intro s hs hl
    cases lead with
    | nil =>
      obtain ⟨s', h1, h2⟩ := feed_outside (other := other) (x := x) hs (hl l List.mem_cons_self) tail
      exact ⟨s', h1, by simpa [top] using h2⟩
    | cons l2 lead =>
      obtain ⟨s', h1, h2⟩ := feed_outside (other := other) (x := l2) hs (hl l List.mem_cons_self) (lead.map some ++ some x :: tail)
      obtain ⟨s2, h3, h4⟩ := ih s' h1 (fun l h => hl l (List.mem_cons_of_mem _ h))
      refine ⟨s2, h3, ?_⟩
      simp only [List.map_cons, List.cons_append, top] at h4 ⊢
      rw [h2, h4, addOut_addOut]
      simp

/-- Values and texts. -/
def sigOf (items : List (Str × Str × T)) : List (T × Str) := items.map fun i => (i.2.2, i.2.1)

theorem outs_fin (ws : Char → Bool) (items : List (Str × Str × T)) : Spec.outs ws items = fin ws (sigOf items) := by
  simp [Spec.outs, fin, sigOf]

/-- The first line with a tree. -/
theorem feed_first {p : P T} {s : St T} (hs : Idle s) {w l1 t : Str} (hw : ∀ c ∈ w, p.ws c = true ∧ c ≠ '(' ∧ c ≠ ')')
    (hws : ∀ c u, p.ws c = true → p.bt (c :: u) = p.bt u) {items : List (Str × Str × T)} (hi : ∀ i ∈ items, Spec.Good p i) (hne : l1 ≠ [])
    (e : l1 ++ t = Spec.text items) :
    ∃ (c' : Cf T) (pend' : Str) (s' : St T) (new : List (T × Str)), send p s (some (w ++ l1)) = some s' ∧ c'.R p pend' s'.prev s' ∧ c'.remaining = t ∧
      s'.results = fin p.ws new ∧ sigOf items = new ++ c'.sig ∧ c'.items <:+ items.tail := by
  cases items with
  | nil => rw [Spec.text] at e; exact absurd (List.append_eq_nil_iff.mp e).1 hne
  | cons i items =>
    obtain ⟨tr, r, x⟩ := i
    have hg := hi _ List.mem_cons_self
    obtain ⟨v, hv, hrem, hfo⟩ := tree_open hg.tree
    simp only at hv
    subst hv
    cases l1 with
    | nil => exact absurd rfl hne
    | cons a l1 =>
      simp only [Spec.text, List.cons_append, List.cons.injEq] at e
      obtain ⟨rfl, e⟩ := e
      have hbt : ∀ w : Str, (∀ c ∈ w, p.ws c = true) → ∀ u, p.bt (w ++ u) = p.bt u := by
        intro w
        induction w with
        | nil => intro _ u; rfl
        | cons c w ih =>
          intro h u
          rw [List.cons_append, hws _ _ (h c List.mem_cons_self), ih (fun c hc => h c (List.mem_cons_of_mem _ hc))]
      have hscan : ∀ (w : Str), (∀ c ∈ w, p.ws c = true ∧ c ≠ '(' ∧ c ≠ ')') → ∀ (l pend pv : Str) (s : St T),
          scan p (w ++ l) pend pv s = scan p l (pend ++ w) (pv ++ w) s := by
        intro w
        induction w with
        | nil => intro _ l pend pv s; simp
        | cons c w ih =>
          intro h l pend pv s
          obtain ⟨-, h1, h2⟩ := h c List.mem_cons_self
          rw [List.cons_append, scan, if_neg h1, if_neg h2, ih (fun c hc => h c (List.mem_cons_of_mem _ hc))]
          simp
      obtain ⟨c', pend', s', new, q1, q2, q3, q4, q5, q6⟩ := scan_text p l1 t (.ins w ['('] v r x items) (w ++ ['(']) ['(']
        ⟨s.parens + 1, max s.depth (s.parens + 1), s.prev, s.result, [], w, s.ended⟩
        ⟨by simp, by simpa [hs.1] using hrem, hs.2.1, fun h => Or.inr (hfo h), rfl, rfl, hg.val, by
          rw [hbt w fun c hc => (hw c hc).1]; exact hg.val, hg.out, hs.2.2, fun i h => hi i (List.mem_cons_of_mem _ h)⟩ (by simp [Cf.remaining, e])
      refine ⟨c', pend', s', new, ?_, q2, q3, by simpa using q4, by simpa [Cf.sig, sigOf] using q5, q6⟩
      unfold send
      rw [if_neg (by simp [hs.2.2])]
      simp only
      rw [next_scan0 p s _ hs.1 hs.2.1, hscan w hw, scan, if_pos rfl]
      unfold leftS
      rw [if_pos ⟨hs.1, ahead_first hfo e⟩, if_neg (by simp [hs.2.1])]
      simpa using q1

/-- The lines from the first tree on, up to the last given line. -/
theorem feed_all {p : P T} {other : Bool} {s : St T} (hs : Idle s) {w l1 t : Str} (hw : ∀ c ∈ w, p.ws c = true ∧ c ≠ '(' ∧ c ≠ ')')
    (hws : ∀ c u, p.ws c = true → p.bt (c :: u) = p.bt u) {items : List (Str × Str × T)} (hi : ∀ i ∈ items, Spec.Good p i) (hne : l1 ≠ []) {ls : List Str}
    (e : l1 ++ ls.flatten ++ t = Spec.text items) (x : Str) (tail : List (Option Str)) :
    ∃ (c' : Cf T) (pend' : Str) (s' : St T) (new : List (T × Str)), c'.R p pend' s'.prev s' ∧ c'.remaining = t ∧
      sigOf items = new ++ c'.sig ∧ c'.items <:+ items.tail ∧
      feed p other s (some (w ++ l1)) (ls.map some ++ some x :: tail) = addOut ((fin p.ws new).flatMap (emit other)) (feed p other s' (some x) tail) := by
  obtain ⟨c', pend', s', new, q1, q2, q3, q4, q5, q6⟩ := feed_first hs hw hws hi hne (t := ls.flatten ++ t) (by rw [← e]; simp)
  cases ls with
  | nil =>
    refine ⟨c', pend', s', new, q2, by simpa using q3, q5, q6, ?_⟩
    rw [List.map_nil, List.nil_append, feed_step q1 (R_status q2), q4]
  | cons l ls =>
    obtain ⟨c3, pend3, s3, new3, a1, a2, a3, a5, a4⟩ := feed_lines p other x tail ls l t c' pend' s' q2 (by rw [q3]; simp)
    refine ⟨c3, pend3, s3, new ++ new3, a1, a2, by rw [q5, a3, List.append_assoc], a5.trans q6, ?_⟩
    rw [List.map_cons, List.cons_append, feed_step q1 (R_status q2), q4, a4, addOut_addOut]
    simp [fin]

theorem emit_eq (other : Bool) (a : T × Str) : emit other a = Spec.divide other a := by
  unfold emit Spec.divide find
  simp only [List.drop_zero, Nat.zero_add]
  by_cases h : '\n' ∈ a.2
  · rw [if_pos h]
    cases other with
    | false => simp
    | true =>
      rw [if_pos ⟨rfl, h⟩]
      have h1 := List.takeWhile_append_dropWhile (p := fun x => decide (x ≠ '\n')) (l := a.2)
      have h2 : a.2.take (a.2.takeWhile fun x => decide (x ≠ '\n')).length = a.2.takeWhile fun x => decide (x ≠ '\n') := by
        conv => lhs; arg 2; rw [← h1]
        rw [List.take_left' rfl]
      have h3 : a.2.drop (a.2.takeWhile fun x => decide (x ≠ '\n')).length = a.2.dropWhile fun x => decide (x ≠ '\n') := by
        conv => lhs; arg 2; rw [← h1]
        rw [List.drop_left' rfl]
      simp only [if_true]
      rw [h2, h3]
  · rw [if_neg h, if_neg (fun h' => h h'.2)]

/-- **C64** (all trees, for any division in lines): lines without trees, followed by lines that together form trees, each followed by text; the first of
these lines starts with white space and the first tree. The reader yields exactly these trees, in order, each with the text up to the next tree, no matter
where the text is divided in lines; with `othertext`, also the lines before the first tree, and the text after a tree is divided at the end of the line
(`Spec.divide`). -/
theorem C64_othertext (p : P T) (other : Bool) (hws : ∀ c u, p.ws c = true → p.bt (c :: u) = p.bt u) (lead : List Str)
    (hl : ∀ l ∈ lead, Spec.Outside p.strict l) (w l1 : Str) (hw : ∀ c ∈ w, p.ws c = true ∧ c ≠ '(' ∧ c ≠ ')') (hne : l1 ≠ []) (ls : List Str)
    (items : List (Str × Str × T)) (hi : ∀ i ∈ items, Spec.Good p i) (e : l1 ++ ls.flatten = Spec.text items) :
    reader p other (lead ++ (w ++ l1) :: ls) =
      some ((if other then lead.map (fun l => Out.text (rstrip p.ws l)) else []) ++ (Spec.outs p.ws items).flatMap (Spec.divide other)) := by
  rw [← funext (emit_eq (T := T) other)]
  unfold reader
  rw [List.map_append, List.map_cons, List.append_assoc, List.cons_append]
  obtain ⟨s, hs, h1⟩ := feed_lead (p := p) (other := other) (w ++ l1) (ls.map some ++ [some ['('], none, none]) lead (St.init T) ⟨rfl, rfl, rfl⟩ hl
  rw [h1]
  obtain ⟨c', pend', s', new, q1, q2, q3, q5, q4⟩ := feed_all (other := other) hs hw hws hi hne (ls := ls) (t := []) (by rw [← e]; simp) ['('] [none, none]
  rw [q4, end_aft q1 q2, addOut_addOut, outs_fin, q3]
  have : lead.flatMap (lineText p other) = if other then lead.map (fun l => Out.text (rstrip p.ws l)) else [] := by
    clear hl h1
    induction lead with
    | nil => cases other <;> rfl
    | cons l lead ih => rw [List.flatMap_cons, ih]; cases other <;> simp [lineText]
  rw [this]
  simp [addOut, fin]

theorem flatMap_emit (l : List (T × Str)) : l.flatMap (emit false) = l.map fun r => .tree r.1 r.2 := by
  induction l with
  | nil => rfl
  | cons a l ih =>
    rw [List.flatMap_cons, ih, List.map_cons]
    have : emit false a = [.tree a.1 a.2] := by unfold emit; cases find '\n' a.2 0 <;> rfl
    rw [this]; rfl

/-- **C64** (by default, only the trees): as `C64_othertext`. -/
theorem C64_reader (p : P T) (hws : ∀ c u, p.ws c = true → p.bt (c :: u) = p.bt u) (lead : List Str) (hl : ∀ l ∈ lead, Spec.Outside p.strict l)
    (w l1 : Str) (hw : ∀ c ∈ w, p.ws c = true ∧ c ≠ '(' ∧ c ≠ ')') (hne : l1 ≠ []) (ls : List Str) (items : List (Str × Str × T))
    (hi : ∀ i ∈ items, Spec.Good p i) (e : l1 ++ ls.flatten = Spec.text items) :
    reader p false (lead ++ (w ++ l1) :: ls) = some (items.map fun i => .tree i.2.2 (rstrip p.ws i.2.1)) := by
  rw [C64_othertext p false hws lead hl w l1 hw hne ls items hi e, ← funext (emit_eq (T := T) false), flatMap_emit]
  simp [Spec.outs]

/-- **C64** (no trees): text without trees gives nothing. -/
theorem C64_notrees (p : P T) (lead : List Str) (hl : ∀ l ∈ lead, Spec.Outside p.strict l) : reader p false lead = some [] := by
  unfold reader
  obtain ⟨s, hs, h1⟩ := feed_lead (p := p) (other := false) ['('] [none, none] lead (St.init T) ⟨rfl, rfl, rfl⟩ hl
  rw [h1]
  have hsend : ∃ s', send p s (some ['(']) = some s' ∧ s'.parens = 1 ∧ s'.results = [] ∧ s'.result = [] ∧ s'.ended = false := by
    unfold send
    rw [if_neg (by simp [hs.2.2])]
    simp only
    rw [next_scan0 p s _ hs.1 hs.2.1, scan, if_pos rfl]
    unfold leftS
    rw [if_pos ⟨hs.1, by simp [aheadS]⟩, if_neg (by simp [hs.2.1])]
    simp only [scan]
    exact ⟨_, rfl, by simp [hs.1], rfl, hs.2.1, hs.2.2⟩
  obtain ⟨s', e1, e2, e3, e4, e5⟩ := hsend
  rw [end_open e1 (by omega) e3 e4 e5]
  have : lead.flatMap (lineText p false) = [] := by
    clear hl h1
    induction lead with
    | nil => rfl
    | cons l lead ih => rw [List.flatMap_cons, ih]; rfl
  rw [this]; rfl

/-- **C64** (disagreement, `strict`): "if True, raise ValueError on malformed data", but when the input ends in the middle of a tree (`u`, of which `v` is
missing), the trees before it are yielded and the incomplete one is dropped without an error, whether or not `strict` is set. -/
theorem C64_unclosed_disagreement (p : P T) (hws : ∀ c u, p.ws c = true → p.bt (c :: u) = p.bt u) (l1 : Str) (hne : l1 ≠ []) (ls : List Str)
    (items : List (Str × Str × T)) (hi : ∀ i ∈ items, Spec.Good p i) (u v : Str) (hu : u ≠ []) (hv : v ≠ []) (x : T) (huv : Spec.Good p (u ++ v, [], x))
    (e : l1 ++ ls.flatten = Spec.text items ++ u) :
    reader p false (l1 :: ls) = some (items.map fun i => .tree i.2.2 (rstrip p.ws i.2.1)) := by
  have htext : ∀ a b : List (Str × Str × T), Spec.text (a ++ b) = Spec.text a ++ Spec.text b := by
    intro a b
    induction a with
    | nil => rfl
    | cons i a ih => obtain ⟨t, r, y⟩ := i; simp [Spec.text, ih]
  obtain ⟨c', pend', s', new, q1, q2, q3, q5, q4⟩ := feed_all (p := p) (other := false) (s := St.init T) ⟨rfl, rfl, rfl⟩ (w := []) (by simp) hws
    (items := items ++ [(u ++ v, [], x)]) (by
      intro i h
      rcases List.mem_append.mp h with h | h
      · exact hi i h
      · rw [List.mem_singleton.mp h]; exact huv) hne (ls := ls) (t := v) (by rw [e, htext]; simp [Spec.text]) ['('] [none, none]
  unfold reader
  rw [List.map_cons, List.cons_append, top]
  simp only [List.nil_append] at q4
  rw [q4]
  have hit : c'.items = [] := by
    cases hc : c'.items with
    | nil => rfl
    | cons i is =>
      exfalso
      have hsuf : c'.items <:+ items ++ [(u ++ v, [], x)] := q5.trans (List.tail_suffix _)
      have hlast : (u ++ v, [], x) ∈ c'.items := by
        obtain ⟨d, hd⟩ := hsuf
        have h1 : (d ++ c'.items).getLast? = some (u ++ v, [], x) := by rw [hd]; simp
        rw [List.getLast?_append_of_ne_nil _ (by rw [hc]; simp)] at h1
        exact List.mem_of_getLast? h1
      have hlen : ∀ l : List (Str × Str × T), (u ++ v, [], x) ∈ l → (u ++ v).length ≤ (Spec.text l).length := by
        intro l
        induction l with
        | nil => simp
        | cons j l ih =>
          intro h
          obtain ⟨t, r, y⟩ := j
          rcases List.mem_cons.mp h with h | h
          · cases h; simp [Spec.text]
          · have := ih h; simp [Spec.text] at this ⊢; omega
      have h2 := hlen _ hlast
      have h3 : (Spec.text c'.items).length ≤ c'.remaining.length := by cases c' <;> (simp [Cf.remaining, Cf.items]; try omega)
      rw [q2] at h3
      have : 0 < u.length := List.length_pos_iff.mpr hu
      simp at h2; omega
  have hsig : new = sigOf items ∧ c'.sig = [(x, [])] := by
    have h1 : c'.sig.length = 1 := by cases c' <;> simp_all [Cf.sig, Cf.items]
    have h2 : sigOf items ++ [(x, [])] = new ++ c'.sig := by simpa [sigOf] using q3
    have := List.append_inj' h2 (by rw [h1]; rfl)
    exact ⟨this.1.symm, this.2.symm⟩
  cases c' with
  | aft t q r y its =>
    exfalso
    simp only [Cf.items] at hit
    subst hit
    have := hsig.2
    simp only [Cf.sig, List.map_nil, List.cons.injEq, Prod.mk.injEq, List.append_eq_nil_iff] at this
    rw [Cf.remaining, this.1.2.2] at q2
    simp [Spec.text] at q2
    exact hv q2
  | ins w' u' v' r y its =>
    rw [end_ins q1, hsig.1]
    have : (fin p.ws (sigOf items)).flatMap (emit false) = items.map fun i => Out.tree i.2.2 (rstrip p.ws i.2.1) := by
      rw [flatMap_emit]; simp [fin, sigOf]
    rw [this]; simp [addOut]

/-! ## Witnesses -/

/-- Blank and newline. -/
def exWs (c : Char) : Bool := decide (c = ' ') || decide (c = '\n')

/-- Stands for `brackettree`: text that starts with a bracket. -/
def exBt (s : Str) : Option Str := match s.dropWhile exWs with
  | '(' :: u => some ('(' :: u)
  | _ => none

/-- Parameters of the examples. -/
def exP (strict robust : Bool) : P Str := ⟨strict, robust, exWs, exBt⟩

theorem exBt_ws (c : Char) (u : Str) (h : exWs c = true) : exBt (c :: u) = exBt u := by
  unfold exBt; rw [List.dropWhile_cons, if_pos h]

theorem exBal (s : Str) (h1 : '(' ∉ s) (h2 : ')' ∉ s) : Spec.Bal s := by
  induction s with
  | nil => exact .nil
  | cons c s ih =>
    exact .chr (fun h => h1 (h ▸ List.mem_cons_self)) (fun h => h2 (h ▸ List.mem_cons_self))
      (ih (fun h => h1 (List.mem_cons_of_mem _ h)) (fun h => h2 (List.mem_cons_of_mem _ h)))

theorem exTree (l s : Str) (h1 : '(' ∉ l) (h2 : ')' ∉ l) (h3 : '(' ∉ s) (h4 : ')' ∉ s) : Spec.IsTree true ('(' :: (l ++ '(' :: (s ++ ')' :: [')']))) := by
  refine ⟨l ++ '(' :: (s ++ ')' :: []), ?_, by simp, fun _ => by simp⟩
  induction l with
  | nil => exact .par (exBal s h3 h4) .nil
  | cons c l ih =>
    exact .chr (fun h => h1 (h ▸ List.mem_cons_self)) (fun h => h2 (h ▸ List.mem_cons_self))
      (ih (fun h => h1 (List.mem_cons_of_mem _ h)) (fun h => h2 (List.mem_cons_of_mem _ h)))

/-- Two trees with comments. -/
def exItems : List (Str × Str × Str) :=
  [("(S (A b))".toList, " x\n".toList, "(S (A b))".toList), ("(T\n (B c))".toList, "\n y ".toList, "(T\n (B c))".toList)]

theorem exItems_good : ∀ i ∈ exItems, Spec.Good (exP true true) i := by
  intro i hi
  simp only [exItems, List.mem_cons, List.not_mem_nil, or_false] at hi
  rcases hi with rfl | rfl
  · exact ⟨exTree "S ".toList "A b".toList (by decide) (by decide) (by decide) (by decide), ⟨by decide, by decide⟩, by decide⟩
  · exact ⟨exTree "T\n ".toList "B c".toList (by decide) (by decide) (by decide) (by decide), ⟨by decide, by decide⟩, by decide⟩

-- The hypotheses hold for a text that is divided within trees and comments; the two trees are yielded with their comments.
example : reader (exP true true) false
    ["title\n".toList, " (S (A".toList, " b)) x".toList, "\n(T\n".toList, " (B c)".toList, ")\n".toList, " y ".toList] =
    some [.tree "(S (A b))".toList " x".toList, .tree "(T\n (B c))".toList "\n y".toList] :=
  C64_reader (exP true true) exBt_ws ["title\n".toList] (by
      intro l hl; rw [List.mem_singleton.mp hl]; exact ⟨by decide, by decide⟩) [' '] "(S (A".toList (by decide) (by decide)
    [" b)) x".toList, "\n(T\n".toList, " (B c)".toList, ")\n".toList, " y ".toList] exItems exItems_good (by decide)

-- With `othertext`: the title, and the second line of a comment.
example : reader (exP true true) true ["title\n".toList, "(S (A b)) x\ny".toList] =
    some [.text "title".toList, .tree "(S (A b))".toList " x".toList, .text "\ny".toList] := by decide +kernel

-- The hypotheses of `C64_notrees` and `C64_unclosed_disagreement` hold for concrete input.
example : reader (exP true true) false ["one\n".toList, "two".toList] = some [] :=
  C64_notrees _ _ (by
    intro l hl
    simp only [List.mem_cons, List.not_mem_nil, or_false] at hl
    rcases hl with rfl | rfl <;> exact ⟨by decide, by decide⟩)
example : reader (exP true true) false ["(S (A b)) x\n(T\n (".toList, "B c)".toList] = some [.tree "(S (A b))".toList " x".toList] :=
  C64_unclosed_disagreement (exP true true) exBt_ws "(S (A b)) x\n(T\n (".toList (by decide) ["B c)".toList] [("(S (A b))".toList, " x\n".toList, "(S (A b))".toList)]
    (fun i hi => exItems_good i (by rw [List.mem_singleton.mp hi]; simp [exItems])) "(T\n (B c)".toList ")".toList (by decide) (by decide) _
    ⟨exTree "T\n ".toList "B c".toList (by decide) (by decide) (by decide) (by decide), ⟨by decide, by decide⟩, rfl⟩ (by decide)

/-- **C64** (disagreement, text before a tree on the same line): the pattern that should exclude brackets after text (treebank.py:1095-1097) matches always, so the
text is taken as part of the tree if the tree ends on the same line, and dropped otherwise. For every `brackettree`: `x (S (A b))` on one line is read as
the tree `x (S (A b))`, and if `brackettree` does not accept that, the reader raises an exception even without `strict`; when there is a newline after `(S`,
the tree is `(S\n (A b))`. -/
theorem C64_prefix_disagreement {T : Type} (bt : Str → Option T) :
    (reader ⟨false, true, exWs, bt⟩ false ["x (S (A b))".toList] = (bt "x (S (A b))".toList).map fun t => [.tree t []]) ∧
    (bt "x (S (A b))".toList = none → reader ⟨false, true, exWs, bt⟩ false ["x (S (A b))".toList] = none) ∧
    (reader ⟨false, true, exWs, bt⟩ false ["x (S\n".toList, " (A b))".toList] = (bt "(S\n (A b))".toList).map fun t => [.tree t []]) := by
  have h1 : reader ⟨false, true, exWs, bt⟩ false ["x (S (A b))".toList] = (bt "x (S (A b))".toList).map fun t => [.tree t []] := by
    cases h : bt "x (S (A b))".toList with
    | none => simp_all [reader, top, feed, send, next, body, loop, St.init, left, right, tryparse, ahead, find, newlb, status, slice]
    | some t => simp_all [reader, top, feed, send, next, body, loop, St.init, left, right, tryparse, ahead, find, newlb, status, slice, rstrip, emit, addOut]
  refine ⟨h1, fun h => by rw [h1, h]; rfl, ?_⟩
  cases h : bt "(S\n (A b))".toList with
  | none => simp_all [reader, top, feed, send, next, body, loop, St.init, left, right, tryparse, ahead, find, newlb, status, slice]
  | some t => simp_all [reader, top, feed, send, next, body, loop, St.init, left, right, tryparse, ahead, find, newlb, status, slice, rstrip, emit, addOut]

/-- **C64** (disagreement, brackets in comments): a pair of brackets `(x y)` after a tree is part of the comment, but when it is divided over two lines, it is
lost, together with the rest of the comment. -/
theorem C64_group_disagreement : ∃ (p : P Str) (a b : List Str), a.flatten = b.flatten ∧ p.strict = true ∧
    reader p false a = some [.tree "(S (A b))".toList " (x y) z".toList] ∧ reader p false b = some [.tree "(S (A b))".toList []] :=
  ⟨exP true true, ["(S (A b)) (x y) z".toList], ["(S (A b)) (x ".toList, "y) z".toList], by decide, rfl, by decide +kernel, by decide +kernel⟩
end Disco.Incr
