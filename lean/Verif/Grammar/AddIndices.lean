import Verif.Basic.Dict
import Verif.Basic.StrLemmas
/-!
# C93: reading a tree-substitution grammar from bracketed fragments

`addindices` (grammar.py:1277-1280) with `LEAVESRE` (treebank.py:26), ` (?=\))| ([^ ()]+)\s*(?=[\s)])`; `splitweight` (grammar.py:1172-1182); reading fragments in
`discodop grammar ptsg` (cli.py:452-458) with `STRTERMRE` (tree.py:28), ` (?![0-9]+=)[^()]*\s*\)`.

Simplifications: the only white space in fragments is the space; reading a number (`float`, `float.fromhex`) is a parameter.
-/
namespace Disco.AddIndices

/-! ## Model -/

/-- A character in `[^ ()]`. -/
def plain (c : Char) : Bool := decide (c ≠ ' ') && decide (c ≠ '(') && decide (c ≠ ')')

/-- `LEAVESRE` after its space: group 1, and the number of characters that are matched. -/
def leaves (s : Str) : Option (Option Str × Nat) :=
  if s.head? = some ')' then some (none, 0)
  else if s.takeWhile plain = [] then none
  else match s.dropWhile plain with
    | ')' :: _ => some (some (s.takeWhile plain), (s.takeWhile plain).length)
    | ' ' :: r =>
      some (some (s.takeWhile plain), (s.takeWhile plain).length +
        if (r.dropWhile (· = ' ')).head? = some ')' then (r.takeWhile (· = ' ')).length + 1 else (r.takeWhile (· = ' ')).length)
    | _ => none

/-- `'%s' % m.group(1)`. -/
def group : Option Str → Str
  | some w => w
  | none => ['N', 'o', 'n', 'e']

/-- The index. -/
def index (n : Nat) : Str := Nat.toDigits 10 n

/-- `LEAVESRE.sub(…)`, from the place where the last match ended; the first argument says how many characters of it are still to come. -/
def sub : Nat → Nat → Str → Str
  | _, _, [] => []
  | k + 1, n, _ :: s => sub k n s
  | 0, n, c :: s =>
    if c = ' ' then
      match leaves s with
      | some (g, k) => ' ' :: (index n ++ '=' :: group g) ++ sub k (n + 1) s
      | none => c :: sub 0 n s
    else c :: sub 0 n s

/-- `addindices(frag)` (grammar.py:1277-1280). -/
def addindices (frag : Str) : Str := sub 0 0 frag

/-- A weight: a string as it is read, or one or two numbers. -/
inductive Weight (F : Type) where
  | str (s : Str)
  | num (x : F)
  | frac (x y : F)

/-- Exceptions. -/
inductive Err where
  | typeError
  | attributeError
  | valueError
  | stopIteration
  deriving DecidableEq

variable {F : Type}

/-- `splitweight(weight)` (grammar.py:1172-1182): `'/' in weight` raises `TypeError` for a number; a tuple has no method `startswith`. The parameters are
`float` and `float.fromhex`. -/
def splitweight (float fromhex : Str → Option F) : Weight F → Except Err (Weight F)
  | .str s =>
    if '/' ∈ s then
      match Str.splitAll '/' s with
      | [a, b] => match float a, float b with
        | some x, some y => .ok (.frac x y)
        | _, _ => .error .valueError
      | _ => .error .valueError
    else if ['0', 'x'].isPrefixOf s then
      match fromhex s with | some x => .ok (.num x) | none => .error .valueError
    else match float s with | some x => .ok (.num x) | none => .error .valueError
  | .num _ => .error .typeError
  | .frac _ _ => .error .attributeError

/-- `{f(frag): splitweight(weight) for frag, weight in xs}`. -/
def dictOf (float fromhex : Str → Option F) (f : Str → Str) : Dict Str (Weight F) → List (Str × Weight F) → Except Err (Dict Str (Weight F))
  | d, [] => .ok d
  | d, (frag, weight) :: r => match splitweight float fromhex weight with
    | .error e => .error e
    | .ok w => dictOf float fromhex f (d.set (f frag) w) r

/-- `for frag, weight in (line.split('\t') for line in lines)`, for the lines up to the first one without exactly two parts, which raises `ValueError`. -/
def pairs : List Str → List (Str × Weight F) × Bool
  | [] => ([], true)
  | l :: r => match Str.splitAll '\t' l with
    | [a, b] => ((a, .str b) :: (pairs r).1, (pairs r).2)
    | _ => ([], false)

/-- `STRTERMRE` after its space. -/
def strterm1 (s : Str) : Bool :=
  !(decide (s.takeWhile Char.isDigit ≠ []) && decide ((s.dropWhile Char.isDigit).head? = some '=')) &&
    decide ((s.dropWhile fun c => decide (c ≠ '(') && decide (c ≠ ')')).head? = some ')')

/-- `STRTERMRE.search(s) is not None`. -/
def strterm : Str → Bool
  | [] => false
  | c :: s => (decide (c = ' ') && strterm1 s) || strterm s

/-- Reading the fragments (cli.py:452-458). -/
def readFragments (float fromhex : Str → Option F) (lines : List Str) : Except Err (Dict Str (Weight F)) :=
  match dictOf float fromhex id [] (pairs lines).1 with
  | .error e => .error e
  | .ok x =>
    if (pairs (F := F) lines).2 = false then .error .valueError
    else match x with
      | [] => .error .stopIteration
      | (frag, _) :: _ => if strterm frag then dictOf float fromhex addindices [] x else .ok x

/-! ## Specification -/

/-- A fragment: a non-terminal without children is a frontier node. -/
inductive Frag where
  | word (w : Str)
  | nt (l : Str) (cs : List Frag)

mutual
/-- The fragment in brackets. -/
def Frag.write : Frag → Str
  | .word w => w
  | .nt l cs => '(' :: (l ++ (if cs.isEmpty then [' '] else Frag.writeL cs) ++ [')'])
def Frag.writeL : List Frag → Str
  | [] => []
  | c :: cs => ' ' :: (c.write ++ Frag.writeL cs)
end

mutual
/-- The number of words. -/
def Frag.size : Frag → Nat
  | .word _ => 1
  | .nt _ cs => Frag.sizeL cs
def Frag.sizeL : List Frag → Nat
  | [] => 0
  | c :: cs => c.size + Frag.sizeL cs
end

mutual
/-- Each word with its index, counted from `n`. -/
def Frag.number (n : Nat) : Frag → Frag
  | .word w => .word (index n ++ '=' :: w)
  | .nt l cs => .nt l (Frag.numberL n cs)
def Frag.numberL (n : Nat) : List Frag → List Frag
  | [] => []
  | c :: cs => c.number n :: Frag.numberL (n + c.size) cs
end

mutual
/-- With a word `None` below each frontier node. -/
def Frag.fill : Frag → Frag
  | .word w => .word w
  | .nt l cs => .nt l (if cs.isEmpty then [.word ['N', 'o', 'n', 'e']] else Frag.fillL cs)
def Frag.fillL : List Frag → List Frag
  | [] => []
  | c :: cs => c.fill :: Frag.fillL cs
end

mutual
/-- Labels and words have no spaces and brackets; words are not empty. -/
def Frag.Good : Frag → Prop
  | .word w => w ≠ [] ∧ ∀ c ∈ w, c ≠ ' ' ∧ c ≠ '(' ∧ c ≠ ')'
  | .nt l cs => (∀ c ∈ l, c ≠ ' ' ∧ c ≠ '(' ∧ c ≠ ')') ∧ Frag.GoodL cs
def Frag.GoodL : List Frag → Prop
  | [] => True
  | c :: cs => c.Good ∧ Frag.GoodL cs
end

mutual
/-- There are no frontier nodes. -/
def Frag.Full : Frag → Prop
  | .word _ => True
  | .nt _ cs => cs ≠ [] ∧ Frag.FullL cs
def Frag.FullL : List Frag → Prop
  | [] => True
  | c :: cs => c.Full ∧ Frag.FullL cs
end

/-! ## Lemmas -/

theorem plain_of {c : Char} (h : c ≠ ' ' ∧ c ≠ '(' ∧ c ≠ ')') : plain c = true := by
  simp [plain, h.1, h.2.1, h.2.2]

/-- Nothing is replaced in text without spaces. -/
theorem sub_plain (n : Nat) (l r : Str) (h : ∀ c ∈ l, c ≠ ' ') : sub 0 n (l ++ r) = l ++ sub 0 n r := by
  induction l with
  | nil => rfl
  | cons c l ih =>
    rw [List.cons_append, sub, if_neg (h c List.mem_cons_self), ih (fun x hx => h x (List.mem_cons_of_mem _ hx))]
    rfl

theorem sub_skip (n : Nat) (l r : Str) : sub l.length n (l ++ r) = sub 0 n r := by
  induction l with
  | nil => rfl
  | cons c l ih => rw [List.cons_append, List.length_cons, sub, ih]

/-- What can follow a word or a constituent. -/
def Next (r : Str) : Prop := (∃ s, r = ')' :: s) ∨ ∃ c s, r = ' ' :: c :: s ∧ c ≠ ' ' ∧ c ≠ ')'

theorem sub_word (n : Nat) (w r : Str) (h : w ≠ []) (hw : ∀ c ∈ w, c ≠ ' ' ∧ c ≠ '(' ∧ c ≠ ')') (hr : Next r) :
    sub 0 n (' ' :: (w ++ r)) = ' ' :: (index n ++ '=' :: w) ++ sub 0 (n + 1) r := by
  have hp : ∀ c ∈ w, plain c = true := fun c hc => plain_of (hw c hc)
  have ht : (w ++ r).takeWhile plain = w ∧ (w ++ r).dropWhile plain = r := by
    rw [List.takeWhile_append_of_pos hp, List.dropWhile_append_of_pos hp]
    rcases hr with ⟨s, rfl⟩ | ⟨c, s, rfl, -⟩ <;> simp [plain]
  have hh : (w ++ r).head? ≠ some ')' := by
    cases w with
    | nil => exact absurd rfl h
    | cons c w =>
      simp only [List.cons_append, List.head?_cons, ne_eq, Option.some.injEq]
      exact (hw c List.mem_cons_self).2.2
  have hl : leaves (w ++ r) = some (some w, w.length) := by
    unfold leaves
    rw [if_neg hh, ht.1, ht.2, if_neg h]
    rcases hr with ⟨s, rfl⟩ | ⟨c, s, rfl, h1, h2⟩
    · rfl
    · simp [h1, h2]
  rw [sub, if_pos rfl, hl]
  simp only [group]
  rw [sub_skip]

theorem sub_paren (n : Nat) (s : Str) : sub 0 n (' ' :: '(' :: s) = ' ' :: sub 0 n ('(' :: s) := by
  rw [sub, if_pos rfl]
  rfl

theorem next_writeL {cs : List Frag} (h : Frag.GoodL cs) (r : Str) : Next (Frag.writeL cs ++ ')' :: r) := by
  cases cs with
  | nil => exact .inl ⟨r, rfl⟩
  | cons c cs =>
    right
    rw [Frag.GoodL] at h
    cases c with
    | word w =>
      obtain ⟨h1, h2⟩ := h.1
      cases w with
      | nil => exact absurd rfl h1
      | cons x w => exact ⟨x, _, rfl, (h2 x List.mem_cons_self).1, (h2 x List.mem_cons_self).2.2⟩
    | nt l ds => exact ⟨'(', _, by simp [Frag.writeL, Frag.write]; rfl, by decide, by decide⟩

mutual
theorem sub_nt (n : Nat) (l : Str) : ∀ (cs : List Frag) (r : Str), (Frag.nt l cs).Good →
    sub 0 n ((Frag.nt l cs).write ++ r) = ((Frag.nt l cs).fill.number n).write ++ sub 0 (n + (Frag.nt l cs).fill.size) r
  | [], r, h => by
    rw [Frag.Good] at h
    have hl : ∀ c ∈ '(' :: l, c ≠ ' ' := by
      intro c hc
      rw [List.mem_cons] at hc
      rcases hc with rfl | hc
      · decide
      · exact (h.1 c hc).1
    have := sub_plain n ('(' :: l) (' ' :: ')' :: r) hl
    simp only [List.cons_append] at this
    simp only [Frag.write, List.isEmpty_nil, if_true, List.append_assoc, List.cons_append, List.nil_append, this, Frag.fill, Frag.number, Frag.numberL,
      List.isEmpty_cons, Bool.false_eq_true, if_false, Frag.writeL, Frag.size, Frag.sizeL, List.append_nil]
    rw [sub, if_pos rfl]
    simp [leaves, group, sub]
  | c :: cs, r, h => by
    have ih := sub_list n (c :: cs) r h.2
    have hl : ∀ c ∈ '(' :: l, c ≠ ' ' := by
      intro c hc
      rw [List.mem_cons] at hc
      rcases hc with rfl | hc
      · decide
      · exact (h.1 c hc).1
    have := sub_plain n ('(' :: l) (Frag.writeL (c :: cs) ++ ')' :: r) hl
    simp only [List.cons_append] at this
    rw [Frag.write]
    simp only [List.isEmpty_cons, Bool.false_eq_true, if_false, List.append_assoc, List.cons_append, List.nil_append]
    rw [this, ih]
    simp [Frag.fill, Frag.fillL, Frag.number, Frag.numberL, Frag.write, Frag.size]
theorem sub_list (n : Nat) : ∀ (cs : List Frag) (r : Str), Frag.GoodL cs →
    sub 0 n (Frag.writeL cs ++ ')' :: r) = Frag.writeL (Frag.numberL n (Frag.fillL cs)) ++ ')' :: sub 0 (n + Frag.sizeL (Frag.fillL cs)) r
  | [], r, _ => by
    simp [Frag.writeL, Frag.fillL, Frag.numberL, Frag.sizeL, sub]
  | .word w :: cs, r, h => by
    have ih := sub_list (n + 1) cs r h.2
    have := sub_word n w (Frag.writeL cs ++ ')' :: r) h.1.1 h.1.2 (next_writeL h.2 r)
    simp only [Frag.writeL, Frag.write, List.cons_append, List.append_assoc]
    rw [this, ih]
    simp [Frag.fillL, Frag.fill, Frag.numberL, Frag.number, Frag.writeL, Frag.write, Frag.sizeL, Frag.size, Nat.add_assoc]
  | .nt l ds :: cs, r, h => by
    have ih1 := sub_nt n l ds (Frag.writeL cs ++ ')' :: r) h.1
    have ih := sub_list (n + (Frag.nt l ds).fill.size) cs r h.2
    have hp : ∃ s, (Frag.nt l ds).write = '(' :: s := ⟨_, by rw [Frag.write]⟩
    obtain ⟨s, hs⟩ := hp
    rw [Frag.writeL, List.cons_append, List.append_assoc, hs, List.cons_append, sub_paren, ← List.cons_append, ← hs, ih1, ih]
    simp [Frag.fillL, Frag.numberL, Frag.writeL, Frag.sizeL, Nat.add_assoc]
end

mutual
theorem fill_full : ∀ t : Frag, t.Full → t.fill = t
  | .word w, _ => by rw [Frag.fill]
  | .nt l cs, h => by
    rw [Frag.fill, if_neg (by simpa using h.1), fillL_full cs h.2]
theorem fillL_full : ∀ ts : List Frag, Frag.FullL ts → Frag.fillL ts = ts
  | [], _ => by rw [Frag.fillL]
  | t :: ts, h => by rw [Frag.fillL, fill_full t h.1, fillL_full ts h.2]
end

mutual
theorem full_fill : ∀ t : Frag, t.fill.Full
  | .word w => by simp [Frag.fill, Frag.Full]
  | .nt l [] => by simp [Frag.fill, Frag.Full, Frag.FullL]
  | .nt l (c :: cs) => by
    rw [Frag.fill, if_neg (by simp), Frag.Full]
    exact ⟨by simp [Frag.fillL], full_fillL (c :: cs)⟩
theorem full_fillL : ∀ ts : List Frag, Frag.FullL (Frag.fillL ts)
  | [] => by simp [Frag.fillL, Frag.FullL]
  | t :: ts => by rw [Frag.fillL, Frag.FullL]; exact ⟨full_fill t, full_fillL ts⟩
end

mutual
theorem good_fill : ∀ t : Frag, t.Good → t.fill.Good
  | .word w, h => by rw [Frag.fill]; exact h
  | .nt l [], h => by
    rw [Frag.fill, List.isEmpty_nil, if_pos rfl]
    exact ⟨h.1, ⟨by decide, by decide⟩, trivial⟩
  | .nt l (c :: cs), h => by
    rw [Frag.fill, if_neg (by simp)]
    exact ⟨h.1, good_fillL (c :: cs) h.2⟩
theorem good_fillL : ∀ ts : List Frag, Frag.GoodL ts → Frag.GoodL (Frag.fillL ts)
  | [], h => by rw [Frag.fillL]; exact h
  | t :: ts, h => by rw [Frag.fillL]; exact ⟨good_fill t h.1, good_fillL ts h.2⟩
end

/-- The values of the dictionary have been split. -/
def Split (d : Dict Str (Weight F)) : Prop := ∀ p ∈ d, ∀ s, p.2 ≠ .str s

theorem splitweight_split {float fromhex : Str → Option F} {w w' : Weight F} (h : splitweight float fromhex w = .ok w') : ∀ s, w' ≠ .str s := by
  unfold splitweight at h
  split at h
  · split at h
    · split at h
      · split at h <;> simp at h
        subst h
        simp
      · simp at h
    · split at h
      · split at h <;> simp at h
        subst h
        simp
      · split at h <;> simp at h
        subst h
        simp
  · simp at h
  · simp at h

theorem mem_set {d : Dict Str (Weight F)} {k : Str} {v : Weight F} {p : Str × Weight F} (h : p ∈ d.set k v) : p ∈ d ∨ p.2 = v := by
  induction d with
  | nil => simp [Dict.set] at h; exact .inr (by rw [h])
  | cons q d ih =>
    obtain ⟨j, w⟩ := q
    rw [Dict.set] at h
    split at h
    · rw [List.mem_cons] at h
      rcases h with rfl | h
      · exact .inr rfl
      · exact .inl (List.mem_cons_of_mem _ h)
    · rw [List.mem_cons] at h
      rcases h with rfl | h
      · exact .inl List.mem_cons_self
      · rcases ih h with h | h
        · exact .inl (List.mem_cons_of_mem _ h)
        · exact .inr h

theorem dictOf_split {float fromhex : Str → Option F} {f : Str → Str} {d : Dict Str (Weight F)} {xs : List (Str × Weight F)} {x : Dict Str (Weight F)}
    (hd : Split d) (h : dictOf float fromhex f d xs = .ok x) : Split x := by
  induction xs generalizing d with
  | nil => rw [dictOf] at h; cases h; exact hd
  | cons p xs ih =>
    obtain ⟨frag, w⟩ := p
    rw [dictOf] at h
    split at h
    · simp at h
    · rename_i w' hw
      refine ih ?_ h
      intro p hp
      rcases mem_set hp with hp | hp
      · exact hd p hp
      · rw [hp]; exact splitweight_split hw

theorem set_head (d : Dict Str (Weight F)) (k : Str) (v : Weight F) (j : Str) (h : d.head?.map Prod.fst = some j) : (d.set k v).head?.map Prod.fst = some j := by
  cases d with
  | nil => simp at h
  | cons p d =>
    obtain ⟨i, w⟩ := p
    rw [Dict.set]
    split <;> exact h

theorem dictOf_head {float fromhex : Str → Option F} {d : Dict Str (Weight F)} {xs : List (Str × Weight F)} {x : Dict Str (Weight F)} (j : Str)
    (hd : d.head?.map Prod.fst = some j) (h : dictOf float fromhex id d xs = .ok x) : x.head?.map Prod.fst = some j := by
  induction xs generalizing d with
  | nil => rw [dictOf] at h; cases h; exact hd
  | cons p xs ih =>
    obtain ⟨frag, w⟩ := p
    rw [dictOf] at h
    split at h
    · simp at h
    · exact ih (set_head _ _ _ _ hd) h

theorem dictOf_again (float fromhex : Str → Option F) (f : Str → Str) {x : Dict Str (Weight F)} (hs : Split x) (hx : x ≠ []) :
    ∃ e, dictOf float fromhex f [] x = .error e := by
  cases x with
  | nil => exact absurd rfl hx
  | cons p x =>
    obtain ⟨k, w⟩ := p
    cases w with
    | str s => exact absurd rfl (hs _ List.mem_cons_self s)
    | num y => exact ⟨.typeError, by rw [dictOf]; rfl⟩
    | frac y z => exact ⟨.attributeError, by rw [dictOf]; rfl⟩

/-! ## Theorems -/

/-- **C93.** In a fragment in brackets without frontier nodes, each word gets its index, from left to right, and nothing else changes. -/
theorem C93_addindices (l : Str) (cs : List Frag) (hg : (Frag.nt l cs).Good) (hf : (Frag.nt l cs).Full) :
    addindices (Frag.nt l cs).write = ((Frag.nt l cs).number 0).write := by
  have := sub_nt 0 l cs [] hg
  rw [List.append_nil, sub, List.append_nil, fill_full _ hf] at this
  exact this

/-- **C93 (disagreement).** For every fragment, each frontier node gets the word `None`: the result is the one for the fragment in which this word is
below each frontier node. -/
theorem C93_frontier_disagreement (l : Str) (cs : List Frag) (hg : (Frag.nt l cs).Good) :
    addindices (Frag.nt l cs).write = ((Frag.nt l cs).fill.number 0).write ∧ addindices (Frag.nt l cs).write = addindices (Frag.nt l cs).fill.write := by
  have h1 := sub_nt 0 l cs [] hg
  rw [List.append_nil, sub, List.append_nil] at h1
  refine ⟨h1, ?_⟩
  have hg2 := good_fill _ hg
  have hf := full_fill (Frag.nt l cs)
  have h2 : addindices (Frag.nt l cs).fill.write = ((Frag.nt l cs).fill.number 0).write := by
    rw [Frag.fill] at hg2 hf ⊢
    exact C93_addindices _ _ hg2 hf
  rw [h2]
  exact h1

/-- **C93 (disagreement).** Whatever the fragments and their weights, and whatever the readers of numbers: if the first fragment is in bracket notation,
reading the grammar raises an exception. (Each weight is split for a second time.) -/
theorem C93_ptsg_disagreement (float fromhex : Str → Option F) (frag weight : Str) (lines : List Str) (h1 : '\t' ∉ frag) (h2 : '\t' ∉ weight)
    (h : strterm frag = true) : ∃ e, readFragments float fromhex ((frag ++ '\t' :: weight) :: lines) = .error e := by
  have hsp : Str.splitAll '\t' (frag ++ '\t' :: weight) = [frag, weight] := by rw [Str.splitAll_append_cons h1, Str.splitAll_of_not_mem h2]
  unfold readFragments
  split
  · exact ⟨_, rfl⟩
  · rename_i x hx
    split
    · exact ⟨_, rfl⟩
    · have hpairs : (pairs (F := F) ((frag ++ '\t' :: weight) :: lines)).1 = (frag, .str weight) :: (pairs lines).1 := by rw [pairs, hsp]
      rw [hpairs] at hx
      have hs : Split x := dictOf_split (by intro p hp; simp at hp) hx
      rw [dictOf] at hx
      split at hx
      · simp at hx
      · have hh := dictOf_head frag (by simp [Dict.set]) hx
        cases x with
        | nil => simp at hh
        | cons p x =>
          obtain ⟨k, w⟩ := p
          simp only [List.head?_cons, Option.map_some, Option.some.injEq] at hh
          subst hh
          simp only
          rw [if_pos h]
          exact dictOf_again float fromhex addindices hs (by simp)

/-! ## Examples -/

def exFrag : Frag := .nt ['S'] [.nt ['N', 'P'] [], .nt ['V', 'P'] [.nt ['V'] [.word ['i', 's']], .nt ['A'] [.word ['o', 'k']]]]
def exFull : Frag := .nt ['S'] [.nt ['N'] [.word ['a'], .word ['b']], .nt ['V'] [.word ['c']]]

example : exFull.Good ∧ exFull.Full ∧ exFrag.Good := by
  simp [exFull, exFrag, Frag.Good, Frag.GoodL, Frag.Full, Frag.FullL]
example : exFull.write = "(S (N a b) (V c))".toList ∧ addindices "(S (N a b) (V c))".toList = "(S (N 0=a 1=b) (V 2=c))".toList := by
  constructor <;> decide +kernel
example : exFrag.write = "(S (NP ) (VP (V is) (A ok)))".toList ∧
    addindices "(S (NP ) (VP (V is) (A ok)))".toList = "(S (NP 0=None) (VP (V 1=is) (A 2=ok)))".toList ∧
    addindices "(S (NP None) (VP (V is) (A ok)))".toList = "(S (NP 0=None) (VP (V 1=is) (A 2=ok)))".toList := by
  refine ⟨?_, ?_, ?_⟩ <;> decide +kernel
example : strterm "(S (NP ) (VP (V is) (A ok)))".toList = true ∧ strterm "(S (NP 0=) (VP (V 1=is) (A 2=ok)))".toList = false := by
  constructor <;> decide +kernel

end Disco.AddIndices
