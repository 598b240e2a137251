import Verif.Format.Escape
import Verif.Basic.Dict
import Mathlib.Data.List.Nodup
/-!
# C12, C13: bracket and discbracket notation

`discodop/tree.py:413-475` (`Tree.parse`), `496-552` (`pprint`, `_pprint_flat`), `1920-1953` (`discbrackettree`, `writediscbrackettree`).
-/
namespace Disco.Bracket
open PTree

theorem length_dropWhile_le {α : Type} (p : α → Bool) (xs : List α) : (xs.dropWhile p).length ≤ xs.length :=
  (List.dropWhile_sublist p).length_le

/-! ### Models -/

/-- A match of `token_re` in `Tree.parse` (tree.py:441-444). -/
inductive Tok where
  | op (label : Str)
  | cl
  | lf (s : Str)
  deriving DecidableEq, Repr

/-- A character of `[^\s()]`; `ws` is the class `\s`. -/
def tokChar (ws : Char → Bool) (c : Char) : Bool := !ws c && c ≠ '(' && c ≠ ')'

/-- `token_re.finditer(s)` (tree.py:447): `\(\s*([^\s()]+)?` with the label `token[1:].lstrip()`, `\)`, or a leaf `[^\s()]+`; other characters
(white space) are skipped. -/
def tokenize (ws : Char → Bool) : Str → List Tok
  | [] => []
  | c :: s =>
    if c = '(' then
      .op ((s.dropWhile ws).takeWhile (tokChar ws)) :: tokenize ws ((s.dropWhile ws).dropWhile (tokChar ws))
    else if c = ')' then .cl :: tokenize ws s
    else if ws c then tokenize ws s
    else .lf (c :: s.takeWhile (tokChar ws)) :: tokenize ws (s.dropWhile (tokChar ws))
termination_by s => s.length
decreasing_by
  · have h1 := length_dropWhile_le (tokChar ws) (s.dropWhile ws)
    have h2 := length_dropWhile_le ws s
    simp; omega
  · simp
  · simp
  · have h1 := length_dropWhile_le (tokChar ws) s
    simp; omega

/-- The stack of `Tree.parse` (tree.py:446): open constituents, innermost first, and the children of the bottom entry `(None, [])`; `st` is the
state of the closure `parse_leaf`. -/
structure St (σ : Type) where
  frames : List (Str × List (PTree Str))
  bot : List (PTree Str)
  st : σ

/-- `stack[-1][1].append(x)`. -/
def St.append {σ : Type} (s : St σ) (x : PTree Str) : St σ :=
  match s.frames with
  | [] => { s with bot := s.bot ++ [x] }
  | (l, cs) :: fs => { s with frames := (l, cs ++ [x]) :: fs }

/-- One token (tree.py:447-467). `none` models the `ValueError` of `_parse_error` or of `parse_leaf`. -/
def step {σ : Type} (pl : σ → Str → Option (Nat × σ)) (s : St σ) : Tok → Option (St σ)
  | .op l => if s.frames = [] ∧ s.bot ≠ [] then none else some { s with frames := (l, []) :: s.frames }
  | .cl => match s.frames with
    | [] => none
    | (l, cs) :: fs => some (St.append { s with frames := fs } (.node l cs))
  | .lf x =>
    if s.frames = [] then none
    else match pl s.st x with
      | none => none
      | some (i, σ') => some (St.append { s with st := σ' } (.leaf i))

/-- The loop over the tokens. -/
def run {σ : Type} (pl : σ → Str → Option (Nat × σ)) : St σ → List Tok → Option (St σ)
  | s, [] => some s
  | s, t :: ts => match step pl s t with
    | none => none
    | some s' => run pl s' ts

/-- `Tree.parse(s, parse_leaf=...)` (tree.py:413-475): the tree and the final state of the closure. -/
def parse {σ : Type} (ws : Char → Bool) (pl : σ → Str → Option (Nat × σ)) (init : σ) (s : Str) : Option (PTree Str × σ) :=
  match run pl ⟨[], [], init⟩ (tokenize ws s) with
  | none => none
  | some r => if r.frames ≠ [] then none else match r.bot with
    | [] => none
    | t :: _ => some (t, r.st)

mutual
/-- `_pprint_flat('()')`, i.e. `str(tree)` (tree.py:534-549); `repr` of an index is its decimal notation. -/
def flat : PTree Str → Str
  | .leaf i => Nat.toDigits 10 i
  | .node l cs => '(' :: (l ++ ' ' :: (Str.join [' '] (flatL cs) ++ [')']))
/-- `childstrs`. -/
def flatL : List (PTree Str) → List Str
  | [] => []
  | c :: cs => flat c :: flatL cs
end

mutual
/-- `pprint(margin, indent)` (tree.py:504-532). -/
def pprint (margin indent : Nat) : PTree Str → Str
  | .leaf i => Nat.toDigits 10 i
  | .node l cs =>
    if (flat (.node l cs)).length + indent < margin then flat (.node l cs)
    else '(' :: (l ++ (pprintL margin indent cs ++ [')']))
/-- `'\n' + ' ' * (indent + 2) + child` for each child. -/
def pprintL (margin indent : Nat) : List (PTree Str) → Str
  | [] => []
  | c :: cs => '\n' :: (List.replicate (indent + 2) ' ' ++ (pprint margin (indent + 2) c ++ pprintL margin indent cs))
end

/-- `INDEXRE.sub(f, s)` with `INDEXRE = r' ([0-9]+)\)'`, where the replacement is `' %s)' % f(digits)`; `none` when `f` raises. -/
def indexSub (f : Str → Option Str) : Str → Option Str
  | [] => some []
  | c :: s =>
    if c = ' ' ∧ s.takeWhile Char.isDigit ≠ [] ∧ (s.dropWhile Char.isDigit).head? = some ')' then
      match f (s.takeWhile Char.isDigit), indexSub f ((s.dropWhile Char.isDigit).drop 1) with
      | some r, some r' => some (' ' :: (r ++ ')' :: r'))
      | _, _ => none
    else (indexSub f s).map (c :: ·)
termination_by s => s.length
decreasing_by
  · have h1 := length_dropWhile_le Char.isDigit s
    simp; omega
  · simp

/-- Words; `none` is Python's `None`. -/
abbrev Word := Option Str

/-- `'%s=%s' % (x, escape(sent[int(x)]))` (tree.py:1951). -/
def discLeaf (sent : List Word) (x : Str) : Option Str :=
  (sent[Nat.ofDigitChars 10 x 0]?).map (fun w => x ++ '=' :: Escape.escape w)

/-- `writediscbrackettree` (tree.py:1947-1952). -/
def writediscbrackettree (t : PTree Str) (sent : List Word) (pretty : Bool) : Option Str :=
  (indexSub (discLeaf sent) (if pretty then pprint 70 0 t else flat t)).map (· ++ ['\n'])

/-- `SUPERFLUOUSSPACERE.sub(')', s)` with `r'\)\s+(?=\))'`. -/
def superfluous (ws : Char → Bool) : Str → Str
  | [] => []
  | c :: s =>
    if c = ')' ∧ s.takeWhile ws ≠ [] ∧ (s.dropWhile ws).head? = some ')' then ')' :: superfluous ws (s.dropWhile ws)
    else c :: superfluous ws s
termination_by s => s.length
decreasing_by
  · have h1 := length_dropWhile_le ws s
    simp; omega
  · simp

/-- `x.split('=', 1)`; `none` when there is no `=` (the unpacking raises `ValueError`). -/
def splitEq : Str → Option (Str × Str)
  | [] => none
  | c :: s => if c = '=' then some ([], s) else (splitEq s).map (fun p => (c :: p.1, p.2))

/-- `substleaf` of `discbrackettree` (tree.py:1926-1931). `pyInt` is Python's `int`. -/
def substleaf (pyInt : Str → Option Nat) (sent : Dict Nat Word) (x : Str) : Option (Nat × Dict Nat Word) :=
  match splitEq x with
  | none => none
  | some (a, w) => (pyInt a).map (fun i => (i, sent.set i (Escape.unescape w)))

/-- `discbrackettree` (tree.py:1920-1937). `max(sent)` of an empty dict raises `ValueError`. -/
def discbrackettree (ws : Char → Bool) (pyInt : Str → Option Nat) (s : Str) : Option (PTree Str × List Word) :=
  match parse ws (substleaf pyInt) [] (superfluous ws s) with
  | none => none
  | some (t, d) => (d.keys.max?).map (fun m => (t, (List.range (m + 1)).map (fun n => (d.get? n).join)))

/-! ### Specification -/

/-- What is assumed of the class `\s`: blank and newline belong to it, brackets, digits and the characters of escape sequences do not. -/
structure Spec.Space (ws : Char → Bool) : Prop where
  blank : ws ' ' = true
  newline : ws '\n' = true
  open_ : ws '(' = false
  close : ws ')' = false
  digit : ∀ c, c.isDigit = true → ws c = false
  eq : ws '=' = false
  esc : ∀ c ∈ ['#', 'L', 'R', 'B'], ws c = false

/-- Labels are non-empty and contain neither white space nor brackets. -/
def Spec.Labels (ws : Char → Bool) (t : PTree Str) : Prop :=
  ∀ l cs, .node l cs ∈ subtrees t → l ≠ [] ∧ ∀ c ∈ l, ws c = false ∧ c ≠ '(' ∧ c ≠ ')'

/-- A terminal has no right sister (e.g. it is the only child of its preterminal). -/
def Spec.TermsLast (t : PTree Str) : Prop :=
  ∀ l cs, .node l cs ∈ subtrees t → ∀ c ∈ cs.dropLast, c.isNode = true

/-- Words that can be written: `None`, or a word without white space that can be escaped. -/
def Spec.Writable (ws : Char → Bool) : Word → Prop
  | none => True
  | some w => Escape.Spec.Escapable w ∧ ∀ c ∈ w, ws c = false

/-! ### Renderings with arbitrary white space -/

/-- White space that ends in a blank. -/
def Gap (ws : Char → Bool) (g : Str) : Prop := ∃ g', g = g' ++ [' '] ∧ ∀ c ∈ g', ws c = true

mutual
/-- `s` is a rendering of the tree, with terminals written by `wl`. -/
inductive Renders (ws : Char → Bool) (wl : Nat → Str) : PTree Str → Str → Prop
  | leaf (i : Nat) : Renders ws wl (.leaf i) (wl i)
  | node (l : Str) (cs : List (PTree Str)) (s : Str) : RendersL ws wl cs s → Renders ws wl (.node l cs) ('(' :: (l ++ s ++ [')']))
  | blank (l : Str) : Renders ws wl (.node l []) ('(' :: (l ++ [' '] ++ [')']))
/-- Each child after a gap. -/
inductive RendersL (ws : Char → Bool) (wl : Nat → Str) : List (PTree Str) → Str → Prop
  | nil : RendersL ws wl [] []
  | cons {c : PTree Str} {cs : List (PTree Str)} {g s s' : Str} : Gap ws g → Renders ws wl c s → RendersL ws wl cs s' →
      RendersL ws wl (c :: cs) (g ++ s ++ s')
end

mutual
/-- The tokens of a tree. -/
def toks (wl : Nat → Str) : PTree Str → List Tok
  | .leaf i => [.lf (wl i)]
  | .node l cs => .op l :: (toksL wl cs ++ [.cl])
/-- The tokens of a list of sisters. -/
def toksL (wl : Nat → Str) : List (PTree Str) → List Tok
  | [] => []
  | c :: cs => toks wl c ++ toksL wl cs
end

theorem dropWhile_ws {ws : Char → Bool} {g s : Str} (h : ∀ c ∈ g, ws c = true) :
    (g ++ s).dropWhile ws = s.dropWhile ws := by
  induction g with
  | nil => rfl
  | cons c g ih =>
    rw [List.cons_append, List.dropWhile_cons_of_pos (h c (by simp)), ih (fun d hd => h d (by simp [hd]))]

theorem tokenize_gap {ws : Char → Bool} (hws : Spec.Space ws) {g : Str} (h : ∀ c ∈ g, ws c = true) (s : Str) :
    tokenize ws (g ++ s) = tokenize ws s := by
  induction g with
  | nil => rfl
  | cons c g ih =>
    have hc := h c (by simp)
    rw [List.cons_append, tokenize, if_neg (by rintro rfl; rw [hws.open_] at hc; simp at hc),
      if_neg (by rintro rfl; rw [hws.close] at hc; simp at hc), if_pos hc, ih (fun d hd => h d (by simp [hd]))]

theorem Gap.ws {ws : Char → Bool} (hws : Spec.Space ws) {g : Str} (h : Gap ws g) : ∀ c ∈ g, ws c = true := by
  obtain ⟨g', rfl, h⟩ := h
  intro c hc
  rcases List.mem_append.1 hc with hc | hc
  · exact h c hc
  · simp at hc; subst hc; exact hws.blank

/-- What may follow a token. -/
def Delim (ws : Char → Bool) (s : Str) : Prop := ∀ c ∈ s.head?, tokChar ws c = false

theorem takeWhile_tok {ws : Char → Bool} {x rest : Str} (hx : ∀ c ∈ x, tokChar ws c = true) (hr : Delim ws rest) :
    (x ++ rest).takeWhile (tokChar ws) = x ∧ (x ++ rest).dropWhile (tokChar ws) = rest := by
  induction x with
  | nil =>
    cases rest with
    | nil => simp
    | cons c r =>
      have := hr c (by simp)
      simp [this]
  | cons c x ih =>
    obtain ⟨i1, i2⟩ := ih (fun d hd => hx d (by simp [hd]))
    have hc := hx c (by simp)
    simp [hc, i1, i2]

theorem delim_close {ws : Char → Bool} (s : Str) : Delim ws (')' :: s) := by
  intro c hc; simp at hc; subst hc; simp [tokChar]

theorem Gap.delim {ws : Char → Bool} (hws : Spec.Space ws) {g : Str} (h : Gap ws g) (s : Str) : Delim ws (g ++ s) := by
  have h2 := h.ws hws
  obtain ⟨g', rfl, _⟩ := h
  intro c hc
  cases g' with
  | nil => simp at hc; subst hc; simp [tokChar, hws.blank]
  | cons d g' =>
    simp at hc; subst hc
    have := h2 d (by simp)
    simp [tokChar, this]

/-- Terminals are written as non-empty tokens. -/
def LeafOk (ws : Char → Bool) (wl : Nat → Str) (i : Nat) : Prop := wl i ≠ [] ∧ ∀ c ∈ wl i, tokChar ws c = true

theorem tokChar_not {ws : Char → Bool} {c : Char} (h : tokChar ws c = true) : c ≠ '(' ∧ c ≠ ')' ∧ ws c = false := by
  simp [tokChar] at h
  exact ⟨h.1.2, h.2, h.1.1⟩

theorem Labels.child {ws : Char → Bool} {l : Str} {cs : List (PTree Str)} (h : Spec.Labels ws (.node l cs)) :
    ∀ c ∈ cs, Spec.Labels ws c :=
  fun c hc l' cs' hm => h l' cs' (by
    rw [subtrees_node]; exact List.mem_cons_of_mem _ (mem_subtreesL.2 ⟨c, hc, hm⟩))

theorem rendersL_delim {ws : Char → Bool} {wl : Nat → Str} (hws : Spec.Space ws) {cs : List (PTree Str)} {s : Str}
    (h : RendersL ws wl cs s) (rest : Str) : Delim ws (s ++ ')' :: rest) := by
  cases h with
  | nil => exact delim_close _
  | cons hg _ _ => rw [List.append_assoc, List.append_assoc]; exact hg.delim hws _

/-- Tokenizing a rendering followed by a delimiter. -/
theorem tokenize_renders {ws : Char → Bool} {wl : Nat → Str} (hws : Spec.Space ws) (t : PTree Str) :
    ∀ (s rest : Str), Spec.Labels ws t → (∀ i ∈ t.leaves, LeafOk ws wl i) → Renders ws wl t s → Delim ws rest →
    tokenize ws (s ++ rest) = toks wl t ++ tokenize ws rest := by
  induction t using PTree.ind with
  | hleaf i =>
    intro s rest _ hl h hd
    cases h
    obtain ⟨hne, htok⟩ := hl i (by simp)
    rw [toks]
    cases hw : wl i with
    | nil => exact absurd hw hne
    | cons c x =>
      rw [hw] at htok
      have hc := tokChar_not (htok c (by simp))
      obtain ⟨t1, t2⟩ := takeWhile_tok (x := x) (rest := rest) (fun d hd => htok d (by simp [hd])) hd
      rw [List.cons_append, tokenize, if_neg hc.1, if_neg hc.2.1, if_neg (by simp [hc.2.2]), t1, t2]
      rfl
  | hnode l cs ih =>
    intro s rest hlab hl h _
    obtain ⟨hne, hchars⟩ := hlab l cs (by simp)
    have hltok : ∀ c ∈ l, tokChar ws c = true := by
      intro c hc; obtain ⟨h1, h2, h3⟩ := hchars c hc; simp [tokChar, h1, h2, h3]
    have hop : ∀ s : Str, Delim ws (s ++ ')' :: rest) →
        tokenize ws ('(' :: (l ++ s ++ [')']) ++ rest) = .op l :: tokenize ws (s ++ ')' :: rest) := by
      intro s hs
      have hdrop : (l ++ s ++ [')'] ++ rest).dropWhile ws = l ++ (s ++ ')' :: rest) := by
        cases l with
        | nil => exact absurd rfl hne
        | cons c l =>
          have := (hchars c (by simp)).1
          simp [this]
      obtain ⟨t1, t2⟩ := takeWhile_tok (x := l) hltok hs
      rw [List.cons_append, tokenize, if_pos rfl, hdrop, t1, t2]
    have hcl : tokenize ws (')' :: rest) = .cl :: tokenize ws rest := by
      rw [tokenize, if_neg (by decide), if_pos rfl]
    cases h with
    | blank _ =>
      rw [hop [' '] (by intro c hc; simp at hc; subst hc; simp [tokChar, hws.blank]), toks, toksL,
        tokenize_gap hws (by simpa using hws.blank), hcl]
      rfl
    | node _ _ s hs =>
      rw [hop s (rendersL_delim hws hs rest), toks, List.cons_append]
      congr 1
      -- the children
      have hL : ∀ (cs : List (PTree Str)) (s : Str), (∀ c ∈ cs, ∀ (s rest : Str), Spec.Labels ws c →
            (∀ i ∈ c.leaves, LeafOk ws wl i) → Renders ws wl c s → Delim ws rest →
            tokenize ws (s ++ rest) = toks wl c ++ tokenize ws rest) → (∀ c ∈ cs, Spec.Labels ws c) →
          (∀ i ∈ leavesL cs, LeafOk ws wl i) → RendersL ws wl cs s →
          tokenize ws (s ++ ')' :: rest) = toksL wl cs ++ (.cl :: tokenize ws rest) := by
        intro cs
        induction cs with
        | nil =>
          intro s _ _ _ h
          cases h
          rw [List.nil_append, hcl, toksL]; rfl
        | cons c cs ih2 =>
          intro s ih hlab hl h
          cases h with
          | @cons _ _ g s1 s2 hg h1 h2 =>
            rw [List.append_assoc, List.append_assoc, tokenize_gap hws (hg.ws hws),
              ih c (by simp) s1 _ (hlab c (by simp)) (fun i hi => hl i (by simp [hi])) h1 (rendersL_delim hws h2 rest),
              ih2 s2 (fun d hd => ih d (by simp [hd])) (fun d hd => hlab d (by simp [hd])) (fun i hi => hl i (by simp [hi])) h2,
              toksL]
            simp
      rw [hL cs s ih (Labels.child hlab) (by simpa using hl) hs]
      simp

/-! ### The stack machine -/

/-- Reading the terminals one after the other. -/
inductive Reads {σ : Type} (pl : σ → Str → Option (Nat × σ)) (wl : Nat → Str) : List Nat → σ → σ → Prop
  | nil (s : σ) : Reads pl wl [] s s
  | cons {i : Nat} {is : List Nat} {s s' s'' : σ} : pl s (wl i) = some (i, s') → Reads pl wl is s' s'' → Reads pl wl (i :: is) s s''

theorem Reads.append_inv {σ : Type} {pl : σ → Str → Option (Nat × σ)} {wl : Nat → Str} {xs ys : List Nat} :
    ∀ {s s'' : σ}, Reads pl wl (xs ++ ys) s s'' → ∃ s', Reads pl wl xs s s' ∧ Reads pl wl ys s' s'' := by
  induction xs with
  | nil => intro s s'' h; exact ⟨s, .nil s, h⟩
  | cons x xs ih =>
    intro s s'' h
    cases h with
    | cons h1 h2 =>
      obtain ⟨s', h3, h4⟩ := ih h2
      exact ⟨s', .cons h1 h3, h4⟩

theorem run_append {σ : Type} (pl : σ → Str → Option (Nat × σ)) (xs ys : List Tok) : ∀ s,
    run pl s (xs ++ ys) = (run pl s xs).bind (fun s' => run pl s' ys) := by
  induction xs with
  | nil => intro s; rfl
  | cons x xs ih =>
    intro s
    rw [List.cons_append, run, run]
    split
    · rfl
    · exact ih _

theorem run_toks {σ : Type} {pl : σ → Str → Option (Nat × σ)} {wl : Nat → Str} (t : PTree Str) :
    ∀ (fs : List (Str × List (PTree Str))) (bot : List (PTree Str)) (s s' : σ), Reads pl wl t.leaves s s' →
    (fs ≠ [] ∨ (bot = [] ∧ t.isNode = true)) →
    run pl ⟨fs, bot, s⟩ (toks wl t) = some (St.append ⟨fs, bot, s'⟩ t) := by
  induction t using PTree.ind with
  | hleaf i =>
    intro fs bot s s' h hfs
    have hfs : fs ≠ [] := by
      rcases hfs with h | h
      · exact h
      · simp [isNode] at h
    cases h with
    | cons h1 h2 =>
      cases h2
      simp [toks, run, step, hfs, h1]
  | hnode l cs ih =>
    intro fs bot s s' h hfs
    rw [leaves_node] at h
    have hL : ∀ (cs done : List (PTree Str)) (s s' : σ), (∀ c ∈ cs, ∀ (fs : List (Str × List (PTree Str)))
          (bot : List (PTree Str)) (s s' : σ), Reads pl wl c.leaves s s' →
          (fs ≠ [] ∨ (bot = [] ∧ c.isNode = true)) →
          run pl ⟨fs, bot, s⟩ (toks wl c) = some (St.append ⟨fs, bot, s'⟩ c)) → Reads pl wl (leavesL cs) s s' →
        run pl ⟨(l, done) :: fs, bot, s⟩ (toksL wl cs) = some ⟨(l, done ++ cs) :: fs, bot, s'⟩ := by
      intro cs
      induction cs with
      | nil => intro done s s' _ h; cases h; simp [toksL, run]
      | cons c cs ih2 =>
        intro done s s' ih h
        rw [leavesL_cons] at h
        obtain ⟨s1, h1, h2⟩ := h.append_inv
        rw [toksL, run_append, ih c (by simp) _ _ _ _ h1 (Or.inl (by simp))]
        simp only [Option.bind_some, St.append]
        rw [ih2 (done ++ [c]) s1 s' (fun d hd => ih d (by simp [hd])) h2]
        simp
    rw [toks, run]
    have hop : step pl ⟨fs, bot, s⟩ (.op l) = some ⟨(l, []) :: fs, bot, s⟩ := by
      simp only [step]
      rw [if_neg]
      rintro ⟨h1, h2⟩
      rcases hfs with h | h
      · exact h h1
      · exact h2 h.1
    rw [hop]
    simp only []
    rw [run_append, hL cs [] s s' ih h]
    simp [run, step]

/-- Parsing a rendering. -/
theorem parse_renders {σ : Type} {ws : Char → Bool} {pl : σ → Str → Option (Nat × σ)} {wl : Nat → Str} (hws : Spec.Space ws)
    {t : PTree Str} (hn : t.isNode = true) {s r : Str} {a b : σ} (hl : Spec.Labels ws t) (hleaf : ∀ i ∈ t.leaves, LeafOk ws wl i)
    (hr : Renders ws wl t s) (hreads : Reads pl wl t.leaves a b) (hrest : ∀ c ∈ r, ws c = true) :
    parse ws pl a (s ++ r) = some (t, b) := by
  have hd : Delim ws r := by
    intro c hc
    have : c ∈ r := by cases r <;> simp_all
    simp [tokChar, hrest c this]
  have hnil : tokenize ws r = [] := by
    have := tokenize_gap hws hrest []
    rw [List.append_nil] at this
    rw [this, tokenize]
  rw [parse, tokenize_renders hws t s r hl hleaf hr hd, hnil, List.append_nil,
    run_toks t [] [] a b hreads (Or.inr ⟨rfl, hn⟩)]
  simp [St.append]

/-! ### str and pprint are renderings -/

theorem flat_renders (ws : Char → Bool) (t : PTree Str) : Renders ws (Nat.toDigits 10) t (flat t) := by
  induction t using PTree.ind with
  | hleaf i => rw [flat]; exact .leaf i
  | hnode l cs ih =>
    have key : ∀ cs : List (PTree Str), cs ≠ [] → (∀ c ∈ cs, Renders ws (Nat.toDigits 10) c (flat c)) →
        RendersL ws (Nat.toDigits 10) cs (' ' :: Str.join [' '] (flatL cs)) := by
      intro cs
      induction cs with
      | nil => simp
      | cons c cs ih2 =>
        intro _ h
        have hg : Gap ws [' '] := ⟨[], rfl, by simp⟩
        cases cs with
        | nil =>
          have := RendersL.cons hg (h c (by simp)) (RendersL.nil (ws := ws) (wl := Nat.toDigits 10))
          simpa [flatL, Str.join, List.intercalate] using this
        | cons d ds =>
          have := RendersL.cons hg (h c (by simp)) (ih2 (by simp) (fun x hx => h x (by simp [hx])))
          simpa [flatL, Str.join, List.intercalate] using this
    rw [flat]
    cases cs with
    | nil =>
      have := Renders.blank (ws := ws) (wl := Nat.toDigits 10) l
      simpa [flatL, Str.join, List.intercalate] using this
    | cons c cs =>
      have := Renders.node l _ _ (key (c :: cs) (by simp) ih)
      simpa using this

theorem pprint_renders {ws : Char → Bool} (hws : Spec.Space ws) (margin : Nat) (t : PTree Str) :
    ∀ indent, Renders ws (Nat.toDigits 10) t (pprint margin indent t) := by
  induction t using PTree.ind with
  | hleaf i => intro _; rw [pprint]; exact .leaf i
  | hnode l cs ih =>
    intro indent
    rw [pprint]
    split
    · exact flat_renders ws _
    · rename_i hm
      have key : RendersL ws (Nat.toDigits 10) cs (pprintL margin indent cs) := by
        clear hm
        induction cs with
        | nil => rw [pprintL]; exact .nil
        | cons c cs ih2 =>
          rw [pprintL]
          have hg : Gap ws ('\n' :: List.replicate (indent + 2) ' ') := by
            refine ⟨'\n' :: List.replicate (indent + 1) ' ', ?_, ?_⟩
            · rw [List.replicate_succ' (n := indent + 1)]; rfl
            · intro d hd
              rcases List.mem_cons.1 hd with rfl | hd
              · exact hws.newline
              · rw [(List.mem_replicate.1 hd).2]; exact hws.blank
          have := RendersL.cons hg (ih c (by simp) (indent + 2)) (ih2 (fun x hx => ih x (by simp [hx])))
          simpa using this
      have := Renders.node l _ _ key
      simpa using this

theorem leafOk_digits {ws : Char → Bool} (hws : Spec.Space ws) (i : Nat) : LeafOk ws (Nat.toDigits 10) i := by
  refine ⟨Nat.toDigits_ne_nil, fun c hc => ?_⟩
  have hd := Nat.isDigit_of_mem_toDigits (by decide) (by decide) hc
  have h1 : c ≠ '(' := by rintro rfl; simp at hd
  have h2 : c ≠ ')' := by rintro rfl; simp at hd
  simp [tokChar, hws.digit c hd, h1, h2]

theorem reads_int {pyInt : Str → Option Nat} (h : ∀ n, pyInt (Nat.toDigits 10 n) = some n) (is : List Nat) :
    Reads (fun (_ : Unit) x => (pyInt x).map (fun i => (i, ()))) (Nat.toDigits 10) is () () := by
  induction is with
  | nil => exact .nil ()
  | cons i is ih => exact .cons (by simp [h]) ih

/-! ### C12 -/

/-- `Tree.parse(s)` with the default `parse_leaf=int`. -/
def parseTree (ws : Char → Bool) (pyInt : Str → Option Nat) (s : Str) : Option (PTree Str) :=
  (parse ws (fun (_ : Unit) x => (pyInt x).map (fun i => (i, ()))) () s).map Prod.fst

/-- **C12.** `Tree.parse(str(t)) == t` for every tree whose labels are non-empty and contain no white space or brackets (for any
`int` that reads decimal numbers). -/
theorem C12_parse_str (ws : Char → Bool) (hws : Spec.Space ws) (pyInt : Str → Option Nat)
    (hint : ∀ n, pyInt (Nat.toDigits 10 n) = some n) (l : Str) (cs : List (PTree Str)) (h : Spec.Labels ws (.node l cs)) :
    parseTree ws pyInt (flat (.node l cs)) = some (.node l cs) := by
  have := parse_renders (r := []) hws (t := .node l cs) rfl h (fun i _ => leafOk_digits hws i) (flat_renders ws _)
    (reads_int hint _) (by simp)
  rw [List.append_nil] at this
  rw [parseTree, this]; rfl

/-- **C12.** The same for the pretty-printed form with any margin and indentation. -/
theorem C12_parse_pprint (ws : Char → Bool) (hws : Spec.Space ws) (pyInt : Str → Option Nat)
    (hint : ∀ n, pyInt (Nat.toDigits 10 n) = some n) (margin indent : Nat) (l : Str) (cs : List (PTree Str))
    (h : Spec.Labels ws (.node l cs)) :
    parseTree ws pyInt (pprint margin indent (.node l cs)) = some (.node l cs) := by
  have := parse_renders (r := []) hws (t := .node l cs) rfl h (fun i _ => leafOk_digits hws i) (pprint_renders hws margin _ indent)
    (reads_int hint _) (by simp)
  rw [List.append_nil] at this
  rw [parseTree, this]; rfl

/-- An instance: labels with digits, a childless node, and a discontinuous constituent. -/
example : Spec.Labels (fun c => c == ' ' || c == '\n')
    (.node ['S'] [.node ['V', 'P'] [.node ['A'] [.leaf 0], .node ['7'] [.leaf 12]], .node ['-'] []]) := by
  intro l cs h
  simp [subtrees, subtreesL] at h
  rcases h with h | h | h | h | h <;> obtain ⟨rfl, rfl⟩ := h <;> simp

/-- The class `\s` restricted to blank and newline. -/
def wsBN (c : Char) : Bool := c == ' ' || c == '\n'

theorem wsBN_space : Spec.Space wsBN := by
  refine ⟨rfl, rfl, rfl, rfl, ?_, rfl, ?_⟩
  · intro c hc
    have h1 : c ≠ ' ' := by rintro rfl; simp at hc
    have h2 : c ≠ '\n' := by rintro rfl; simp at hc
    simp [wsBN, h1, h2]
  · intro c hc
    simp at hc
    rcases hc with rfl | rfl | rfl | rfl <;> rfl

/-- **C12 (the hypothesis on labels is needed).** The tree with an empty label over terminal 7 is written as `( 7)`, which is read as a
childless node labelled `7`. -/
theorem C12_empty_label_lost (pyInt : Str → Option Nat) :
    flat (.node [] [.leaf 7]) = ['(', ' ', '7', ')'] ∧
    parseTree wsBN pyInt (flat (.node [] [.leaf 7])) = some (.node ['7'] []) := by
  have h : flat (.node [] [.leaf 7]) = ['(', ' ', '7', ')'] := by
    simp [flat, flatL, Str.join, List.intercalate]; rfl
  refine ⟨h, ?_⟩
  rw [h, parseTree, parse]
  simp [tokenize, wsBN, tokChar, run, step, St.append]

/-! ### Lemmas for C13 -/

theorem takeWhile_eq_nil_of_head {p : Char → Bool} {s : Str} (h : ∀ c ∈ s.head?, p c = false) : s.takeWhile p = [] := by
  cases s with
  | nil => rfl
  | cons c s => rw [List.takeWhile_cons, h c (by simp)]; simp

theorem indexSub_cons (f : Str → Option Str) (c : Char) (s : Str) (h : c ≠ ' ' ∨ ∀ d ∈ s.head?, d.isDigit = false) :
    indexSub f (c :: s) = (indexSub f s).map (c :: ·) := by
  rw [indexSub, if_neg]
  rintro ⟨h1, h2, _⟩
  rcases h with h | h
  · exact h h1
  · exact h2 (takeWhile_eq_nil_of_head h)

theorem indexSub_copy (f : Str → Option Str) (x rest : Str) (h : ' ' ∉ x) :
    indexSub f (x ++ rest) = (indexSub f rest).map (x ++ ·) := by
  induction x with
  | nil => simp
  | cons c x ih =>
    rw [List.cons_append, indexSub_cons _ _ _ (Or.inl (by rintro rfl; simp at h)), ih (by intro hx; simp [hx] at h), Option.map_map]
    rfl

theorem indexSub_gap (f : Str → Option Str) {ws : Char → Bool} (hws : Spec.Space ws) (g rest : Str) (h : ∀ c ∈ g, ws c = true)
    (hr : ∀ d ∈ rest.head?, d.isDigit = false) :
    indexSub f (g ++ rest) = (indexSub f rest).map (g ++ ·) := by
  induction g with
  | nil => simp
  | cons c g ih =>
    rw [List.cons_append, indexSub_cons _ _ _ (Or.inr ?_), ih (fun d hd => h d (by simp [hd])), Option.map_map]
    · rfl
    · intro d hd
      cases g with
      | nil => exact hr d hd
      | cons e g =>
        simp at hd; subst hd
        have := h e (by simp)
        cases hdig : e.isDigit with
        | false => rfl
        | true => rw [hws.digit e hdig] at this; simp at this

theorem takeWhile_append_stop {p : Char → Bool} {x : Str} {c : Char} {rest : Str} (hx : ∀ d ∈ x, p d = true) (hc : p c = false) :
    (x ++ c :: rest).takeWhile p = x ∧ (x ++ c :: rest).dropWhile p = c :: rest := by
  induction x with
  | nil => simp [hc]
  | cons d x ih =>
    obtain ⟨i1, i2⟩ := ih (fun e he => hx e (by simp [he]))
    simp [hx d (by simp), i1, i2]

theorem indexSub_hit (f : Str → Option Str) (n : Nat) (r rest : Str) (h : f (Nat.toDigits 10 n) = some r) :
    indexSub f (' ' :: (Nat.toDigits 10 n ++ ')' :: rest)) = (indexSub f rest).map (' ' :: (r ++ [')']) ++ ·) := by
  obtain ⟨h1, h2⟩ := takeWhile_append_stop (p := Char.isDigit) (x := Nat.toDigits 10 n) (c := ')') (rest := rest)
    (fun d hd => Nat.isDigit_of_mem_toDigits (by decide) (by decide) hd) (by decide)
  rw [indexSub, if_pos ⟨rfl, by rw [h1]; exact Nat.toDigits_ne_nil, by rw [h2]; rfl⟩, h1, h2, h]
  simp only [List.drop_succ_cons, List.drop_zero]
  cases indexSub f rest <;> simp

theorem TermsLast.child {l : Str} {cs : List (PTree Str)} (h : Spec.TermsLast (.node l cs)) : ∀ c ∈ cs, Spec.TermsLast c :=
  fun c hc l' cs' hm => h l' cs' (by
    rw [subtrees_node]; exact List.mem_cons_of_mem _ (mem_subtreesL.2 ⟨c, hc, hm⟩))

theorem renders_node_head {ws : Char → Bool} {wl : Nat → Str} {t : PTree Str} {s : Str} (h : Renders ws wl t s)
    (hn : t.isNode = true) : ∃ s', s = '(' :: s' := by
  cases h with
  | leaf i => simp [isNode] at hn
  | node l cs s h => exact ⟨_, rfl⟩
  | blank l => exact ⟨_, rfl⟩

/-- Substituting the indices in a rendering yields a rendering with the substituted terminals. -/
theorem indexSub_renders {ws : Char → Bool} (hws : Spec.Space ws) {f : Str → Option Str} {wl : Nat → Str} (t : PTree Str) :
    ∀ s, t.isNode = true → Spec.Labels ws t → Spec.TermsLast t → (∀ i ∈ t.leaves, f (Nat.toDigits 10 i) = some (wl i)) →
    Renders ws (Nat.toDigits 10) t s →
    ∃ s', Renders ws wl t s' ∧ ∀ rest, indexSub f (s ++ rest) = (indexSub f rest).map (s' ++ ·) := by
  induction t using PTree.ind with
  | hleaf i => intro s hn; simp [isNode] at hn
  | hnode l cs ih =>
    intro s _ hlab htl hf h
    have hl : ' ' ∉ l := by
      intro hm
      have := ((hlab l cs (by simp)).2 _ hm).1
      rw [hws.blank] at this; simp at this
    have hhead : ∀ (r : Str) (a : Option Str), indexSub f r = a → indexSub f ('(' :: (l ++ r)) = a.map (fun x => '(' :: (l ++ x)) := by
      intro r a ha
      have := indexSub_copy f ('(' :: l) r (by simp [hl])
      rw [List.cons_append] at this
      rw [this, ha]; rfl
    cases h with
    | blank _ =>
      refine ⟨_, .blank l, fun rest => ?_⟩
      have h1 := indexSub_gap f hws [' '] (')' :: rest) (by simpa using hws.blank) (by simp)
      rw [indexSub_cons f ')' rest (Or.inl (by decide))] at h1
      have h2 := hhead _ _ h1
      have e : '(' :: (l ++ [' '] ++ [')']) ++ rest = '(' :: (l ++ ([' '] ++ ')' :: rest)) := by simp
      rw [e, h2, Option.map_map, Option.map_map]
      congr 1; funext x; simp
    | node _ _ s hs =>
      have hL : ∀ (cs : List (PTree Str)) (s : Str), (∀ c ∈ cs, ∀ s, c.isNode = true → Spec.Labels ws c → Spec.TermsLast c →
            (∀ i ∈ c.leaves, f (Nat.toDigits 10 i) = some (wl i)) → Renders ws (Nat.toDigits 10) c s →
            ∃ s', Renders ws wl c s' ∧ ∀ rest, indexSub f (s ++ rest) = (indexSub f rest).map (s' ++ ·)) →
          (∀ c ∈ cs, Spec.Labels ws c) → (∀ c ∈ cs, Spec.TermsLast c) → (∀ c ∈ cs.dropLast, c.isNode = true) →
          (∀ i ∈ leavesL cs, f (Nat.toDigits 10 i) = some (wl i)) → RendersL ws (Nat.toDigits 10) cs s →
          ∃ s', RendersL ws wl cs s' ∧ ∀ rest, indexSub f (s ++ ')' :: rest) = (indexSub f rest).map (s' ++ ')' :: ·) := by
        intro cs
        induction cs with
        | nil =>
          intro s _ _ _ _ _ h
          cases h
          refine ⟨[], .nil, fun rest => ?_⟩
          rw [List.nil_append, indexSub_cons f ')' rest (Or.inl (by decide))]; rfl
        | cons c cs ih2 =>
          intro s ih hlab htl hlast hf h
          cases h with
          | @cons _ _ g s1 s2 hg h1 h2 =>
            cases c with
            | leaf i =>
              cases cs with
              | cons d ds => exact absurd (hlast (.leaf i) (by simp)) (by simp [isNode])
              | nil =>
                cases h2
                cases h1
                obtain ⟨g', rfl, hg'⟩ := hg
                refine ⟨g' ++ [' '] ++ wl i ++ [], .cons ⟨g', rfl, hg'⟩ (.leaf i) .nil, fun rest => ?_⟩
                have e : g' ++ [' '] ++ Nat.toDigits 10 i ++ [] ++ ')' :: rest = g' ++ (' ' :: (Nat.toDigits 10 i ++ ')' :: rest)) := by
                  simp
                rw [e, indexSub_gap f hws g' _ hg' (by simp), indexSub_hit f i (wl i) rest (hf i (by simp)), Option.map_map]
                congr 1; funext x; simp
            | node l' cs' =>
              obtain ⟨s1', r1, e1⟩ := ih _ (by simp) s1 rfl (hlab _ (by simp)) (htl _ (by simp))
                (fun i hi => hf i (by rw [leavesL_cons]; exact List.mem_append_left _ hi)) h1
              obtain ⟨s2', r2, e2⟩ := ih2 s2 (fun d hd => ih d (by simp [hd])) (fun d hd => hlab d (by simp [hd]))
                (fun d hd => htl d (by simp [hd]))
                (fun d hd => hlast d (by cases cs with
                  | nil => simp at hd
                  | cons e es => rw [List.dropLast_cons_of_ne_nil (by simp)]; simp [hd]))
                (fun i hi => hf i (by rw [leavesL_cons]; exact List.mem_append_right _ hi)) h2
              refine ⟨g ++ s1' ++ s2', .cons hg r1 r2, fun rest => ?_⟩
              obtain ⟨s1t, hs1⟩ := renders_node_head h1 rfl
              have e : g ++ s1 ++ s2 ++ ')' :: rest = g ++ (s1 ++ (s2 ++ ')' :: rest)) := by simp
              rw [e, indexSub_gap f hws g _ (hg.ws hws) (by rw [hs1]; simp), e1, e2, Option.map_map, Option.map_map]
              congr 1; funext x; simp
      obtain ⟨s', r', e'⟩ := hL cs s ih (Labels.child hlab) (TermsLast.child htl) (htl l cs (by simp)) (by simpa using hf) hs
      refine ⟨_, .node l cs s' r', fun rest => ?_⟩
      have e : '(' :: (l ++ s ++ [')']) ++ rest = '(' :: (l ++ (s ++ ')' :: rest)) := by simp
      rw [e, hhead _ _ (e' rest), Option.map_map]
      congr 1; funext x; simp

theorem superfluous_copy (ws : Char → Bool) (x rest : Str) (h : ')' ∉ x) : superfluous ws (x ++ rest) = x ++ superfluous ws rest := by
  induction x with
  | nil => rfl
  | cons c x ih =>
    have hc : ¬ c = ')' := by rintro rfl; simp at h
    rw [List.cons_append, superfluous, if_neg (fun hh => hc hh.1), ih (by intro hx; simp [hx] at h)]; rfl

/-- What may follow a closing bracket so that it is not followed by superfluous space. -/
def Tight (ws : Char → Bool) (s : Str) : Prop := s.takeWhile ws = [] ∨ (s.dropWhile ws).head? ≠ some ')'

theorem superfluous_close {ws : Char → Bool} {rest : Str} (h : Tight ws rest) :
    superfluous ws (')' :: rest) = ')' :: superfluous ws rest := by
  rw [superfluous, if_neg]
  rintro ⟨_, h1, h2⟩
  rcases h with h | h
  · exact h1 h
  · exact h h2

theorem renders_head {ws : Char → Bool} {wl : Nat → Str} (hws : Spec.Space ws) {t : PTree Str} {s : Str} (h : Renders ws wl t s)
    (hl : ∀ i ∈ t.leaves, LeafOk ws wl i) : ∃ c s', s = c :: s' ∧ ws c = false ∧ c ≠ ')' := by
  cases h with
  | leaf i =>
    obtain ⟨h1, h2⟩ := hl i (by simp)
    cases hw : wl i with
    | nil => exact absurd hw h1
    | cons c s' =>
      have := tokChar_not (h2 c (by rw [hw]; simp))
      exact ⟨c, s', rfl, this.2.2, this.2.1⟩
  | node l cs s h => exact ⟨_, _, rfl, hws.open_, by decide⟩
  | blank l => exact ⟨_, _, rfl, hws.open_, by decide⟩

theorem rendersL_tight {ws : Char → Bool} {wl : Nat → Str} (hws : Spec.Space ws) {cs : List (PTree Str)} {s : Str}
    (h : RendersL ws wl cs s) (hl : ∀ i ∈ leavesL cs, LeafOk ws wl i) (rest : Str) : Tight ws (s ++ ')' :: rest) := by
  cases h with
  | nil => left; simp [hws.close]
  | @cons c cs g s1 s2 hg h1 h2 =>
    right
    obtain ⟨d, s', rfl, hd1, hd2⟩ := renders_head hws h1 (fun i hi => hl i (by rw [leavesL_cons]; exact List.mem_append_left _ hi))
    rw [List.append_assoc, List.append_assoc, dropWhile_ws (hg.ws hws)]
    simp [hd1, hd2]

/-- Renderings contain no superfluous space. -/
theorem superfluous_renders {ws : Char → Bool} {wl : Nat → Str} (hws : Spec.Space ws) (t : PTree Str) :
    ∀ s rest, Spec.Labels ws t → (∀ i ∈ t.leaves, LeafOk ws wl i) → Renders ws wl t s → Tight ws rest →
    superfluous ws (s ++ rest) = s ++ superfluous ws rest := by
  induction t using PTree.ind with
  | hleaf i =>
    intro s rest _ hl h _
    cases h
    exact superfluous_copy ws _ _ (fun hm => (tokChar_not ((hl i (by simp)).2 _ hm)).2.1 rfl)
  | hnode l cs ih =>
    intro s rest hlab hl h htight
    have hlc : ')' ∉ '(' :: l := by
      intro hm
      rcases List.mem_cons.1 hm with hm | hm
      · revert hm; decide
      · exact ((hlab l cs (by simp)).2 _ hm).2.2 rfl
    cases h with
    | blank _ =>
      have := superfluous_copy ws ('(' :: l ++ [' ']) (')' :: rest) (by simpa using hlc)
      rw [superfluous_close htight] at this
      simpa using this
    | node _ _ s hs =>
      have hL : ∀ (cs : List (PTree Str)) (s : Str), (∀ c ∈ cs, ∀ s rest, Spec.Labels ws c → (∀ i ∈ c.leaves, LeafOk ws wl i) →
            Renders ws wl c s → Tight ws rest → superfluous ws (s ++ rest) = s ++ superfluous ws rest) →
          (∀ c ∈ cs, Spec.Labels ws c) → (∀ i ∈ leavesL cs, LeafOk ws wl i) → RendersL ws wl cs s →
          superfluous ws (s ++ ')' :: rest) = s ++ ')' :: superfluous ws rest := by
        intro cs
        induction cs with
        | nil => intro s _ _ _ h; cases h; exact superfluous_close htight
        | cons c cs ih2 =>
          intro s ih hlab hl h
          cases h with
          | @cons _ _ g s1 s2 hg h1 h2 =>
            have hg2 : ')' ∉ g := by
              intro hm
              have := hg.ws hws _ hm
              rw [hws.close] at this; simp at this
            have hl2 : ∀ i ∈ leavesL cs, LeafOk ws wl i := fun i hi => hl i (by rw [leavesL_cons]; exact List.mem_append_right _ hi)
            rw [List.append_assoc, List.append_assoc, superfluous_copy ws g _ hg2,
              ih c (by simp) s1 _ (hlab c (by simp)) (fun i hi => hl i (by rw [leavesL_cons]; exact List.mem_append_left _ hi)) h1
                (rendersL_tight hws h2 hl2 rest),
              ih2 s2 (fun d hd => ih d (by simp [hd])) (fun d hd => hlab d (by simp [hd])) hl2 h2]
            simp
      have h1 := superfluous_copy ws ('(' :: l) (s ++ ')' :: rest) hlc
      rw [hL cs s ih (Labels.child hlab) (by simpa using hl) hs] at h1
      simpa using h1

theorem splitEq_append (a w : Str) (h : '=' ∉ a) : splitEq (a ++ '=' :: w) = some (a, w) := by
  induction a with
  | nil => simp [splitEq]
  | cons c a ih =>
    rw [List.cons_append, splitEq, if_neg (by rintro rfl; simp at h), ih (by intro hx; simp [hx] at h)]; rfl

/-- How a terminal is written. -/
def wordLeaf (sent : List Word) (i : Nat) : Str := Nat.toDigits 10 i ++ '=' :: Escape.escape ((sent[i]?).join)

theorem unescape_escape {ws : Char → Bool} {w : Word} (h : Spec.Writable ws w) : Escape.unescape (Escape.escape w) = w := by
  cases w with
  | none => exact Escape.C39_none
  | some w => exact Escape.C39_unescape_escape w h.1

theorem wordLeaf_ok {ws : Char → Bool} (hws : Spec.Space ws) {sent : List Word} (hw : ∀ w ∈ sent, Spec.Writable ws w) (i : Nat) :
    LeafOk ws (wordLeaf sent) i := by
  refine ⟨by simp [wordLeaf], fun c hc => ?_⟩
  rcases List.mem_append.1 hc with hc | hc
  · exact (leafOk_digits hws i).2 c hc
  · rcases List.mem_cons.1 hc with rfl | hc
    · simp [tokChar, hws.eq]
    · have hp := Escape.C39_no_paren ((sent[i]?).join)
      have h1 : c ≠ '(' := by rintro rfl; exact hp.1 hc
      have h2 : c ≠ ')' := by rintro rfl; exact hp.2 hc
      have h3 : ws c = false := by
        cases hs : (sent[i]?).join with
        | none => rw [hs] at hc; simp [Escape.escape] at hc
        | some w =>
          rw [hs] at hc
          have hm : some w ∈ sent := by
            rw [Option.join_eq_some_iff] at hs
            exact List.mem_of_getElem? hs
          rcases Escape.mem_escape hc with h | h | h
          · exact (hw _ hm).2 c h
          · apply hws.esc; simp [Escape.lrb] at h ⊢; tauto
          · apply hws.esc; simp [Escape.rrb] at h ⊢; tauto
      simp [tokChar, h1, h2, h3]

/-- Reading `index=word` terminals fills the dictionary. -/
theorem reads_words {ws : Char → Bool} {pyInt : Str → Option Nat} (hint : ∀ n, pyInt (Nat.toDigits 10 n) = some n)
    {sent : List Word} (hw : ∀ w ∈ sent, Spec.Writable ws w) (is : List Nat) :
    ∀ d : Dict Nat Word, ∃ d', Reads (substleaf pyInt) (wordLeaf sent) is d d' ∧
      (∀ i, i ∈ is → d'.get? i = some ((sent[i]?).join)) ∧ (∀ i, i ∉ is → d'.get? i = d.get? i) := by
  induction is with
  | nil => intro d; exact ⟨d, .nil d, by simp, fun _ _ => rfl⟩
  | cons i is ih =>
    intro d
    obtain ⟨d', h1, h2, h3⟩ := ih (d.set i ((sent[i]?).join))
    refine ⟨d', .cons ?_ h1, ?_, ?_⟩
    · rw [substleaf, wordLeaf, splitEq_append]
      · simp only [hint, Option.map_some]
        congr 3
        cases hs : sent[i]? with
        | none => exact Escape.C39_none
        | some w => exact unescape_escape (hw w (List.mem_of_getElem? hs))
      · intro hm
        have := Nat.isDigit_of_mem_toDigits (by decide) (by decide) hm
        simp at this
    · intro j hj
      by_cases hji : j ∈ is
      · exact h2 j hji
      · have : i = j := by simpa [hji, eq_comm] using hj
        subst this
        rw [h3 _ hji, Dict.get?_set, if_pos rfl]
    · intro j hj
      simp at hj
      rw [h3 j hj.2, Dict.get?_set, if_neg (Ne.symm hj.1)]

/-- A text with the words of the sentence at the terminals is read as the tree and the sentence. -/
theorem discbrackettree_renders {ws : Char → Bool} (hws : Spec.Space ws) {pyInt : Str → Option Nat}
    (hint : ∀ n, pyInt (Nat.toDigits 10 n) = some n) {l : Str} {cs : List (PTree Str)} {sent : List Word} {s' rest : Str}
    (hlab : Spec.Labels ws (.node l cs)) (hleaves : (PTree.leaves (.node l cs)).Perm (List.range sent.length)) (hne : sent ≠ [])
    (hw : ∀ w ∈ sent, Spec.Writable ws w) (r' : Renders ws (wordLeaf sent) (.node l cs) s') (hrest : rest = [] ∨ rest = ['\n']) :
    discbrackettree ws pyInt (s' ++ rest) = some (.node l cs, sent) := by
  have hlt : ∀ i ∈ PTree.leaves (.node l cs), i < sent.length := fun i hi => List.mem_range.1 (hleaves.mem_iff.1 hi)
  have hok : ∀ i ∈ PTree.leaves (.node l cs), LeafOk ws (wordLeaf sent) i := fun i _ => wordLeaf_ok hws hw i
  have hws' : ∀ c ∈ rest, ws c = true := by rcases hrest with rfl | rfl <;> simp [hws.newline]
  have hsup : superfluous ws (s' ++ rest) = s' ++ rest := by
    rw [superfluous_renders hws _ s' rest hlab hok r' (Or.inr (by rcases hrest with rfl | rfl <;> simp [hws.newline]))]
    rcases hrest with rfl | rfl
    · rw [superfluous]
    · rw [superfluous, if_neg (by simp), superfluous]
  obtain ⟨d, hr, hd1, hd2⟩ := reads_words (ws := ws) hint hw (PTree.leaves (.node l cs)) []
  rw [discbrackettree, hsup, parse_renders hws rfl hlab hok r' hr hws']
  have hkeys : ∀ i, i ∈ d.keys ↔ i < sent.length := by
    intro i
    rw [Dict.mem_keys]
    by_cases hi : i ∈ PTree.leaves (.node l cs)
    · rw [hd1 i hi]; simp [hlt i hi]
    · rw [hd2 i hi]
      simp only [Dict.get?, Option.isSome_none, Bool.false_eq_true, false_iff]
      intro h
      exact hi (hleaves.mem_iff.2 (List.mem_range.2 h))
  have hmax : d.keys.max? = some (sent.length - 1) := by
    have hpos : 0 < sent.length := List.length_pos_iff.2 hne
    rw [List.max?_eq_some_iff]
    refine ⟨(hkeys _).2 (by omega), fun b hb => ?_⟩
    have := (hkeys b).1 hb
    omega
  simp only [hmax, Option.map_some]
  congr 2
  have hpos : 0 < sent.length := List.length_pos_iff.2 hne
  apply List.ext_getElem
  · simp; omega
  · intro i h1 h2
    simp only [List.getElem_map, List.getElem_range]
    rw [hd1 i (hleaves.mem_iff.2 (List.mem_range.2 h2)), List.getElem?_eq_getElem h2]; rfl

/-! ### C13 -/

/-- **C13.** Writing a tree in discbracket format and reading it back yields the same tree, with the same indices, and the same sentence: for
every tree, discontinuous or not, whose labels are non-empty without white space and brackets, whose terminals are the indices `0..n-1` of the
sentence and have no right sister, and for every sentence of writable words; both on a single line and pretty-printed. -/
theorem C13_roundtrip (ws : Char → Bool) (hws : Spec.Space ws) (pyInt : Str → Option Nat)
    (hint : ∀ n, pyInt (Nat.toDigits 10 n) = some n) (l : Str) (cs : List (PTree Str)) (sent : List Word) (pretty : Bool)
    (hlab : Spec.Labels ws (.node l cs)) (hterm : Spec.TermsLast (.node l cs))
    (hleaves : (PTree.leaves (.node l cs)).Perm (List.range sent.length)) (hne : sent ≠ [])
    (hw : ∀ w ∈ sent, Spec.Writable ws w) :
    ∃ s, writediscbrackettree (.node l cs) sent pretty = some s ∧ discbrackettree ws pyInt s = some (.node l cs, sent) := by
  have hlt : ∀ i ∈ PTree.leaves (.node l cs), i < sent.length := fun i hi => List.mem_range.1 (hleaves.mem_iff.1 hi)
  have hren : Renders ws (Nat.toDigits 10) (.node l cs) (if pretty then pprint 70 0 (.node l cs) else flat (.node l cs)) := by
    cases pretty with
    | false => exact flat_renders ws _
    | true => exact pprint_renders hws 70 _ 0
  obtain ⟨s', r', e'⟩ := indexSub_renders hws (f := discLeaf sent) (wl := wordLeaf sent) (.node l cs) _ rfl hlab hterm
    (fun i hi => by
      have := hlt i hi
      rw [discLeaf, Nat.ofDigitChars_ten_toDigits, wordLeaf, List.getElem?_eq_getElem this]; rfl) hren
  have e2 := e' []
  rw [List.append_nil] at e2
  refine ⟨s' ++ ['\n'], by rw [writediscbrackettree, e2]; simp [indexSub], ?_⟩
  exact discbrackettree_renders hws hint hlab hleaves hne hw r' (Or.inr rfl)

/-- The hypotheses of `C13_roundtrip` are met by a discontinuous tree. -/
example : ∃ s, writediscbrackettree (.node ['S'] [.node ['V', 'P'] [.node ['A'] [.leaf 0], .node ['B'] [.leaf 2]], .node ['N'] [.leaf 1]])
      [some ['('], some ['1', '=', '2'], none] true = some s ∧
    discbrackettree wsBN (fun s => some (Nat.ofDigitChars 10 s 0)) s =
      some (.node ['S'] [.node ['V', 'P'] [.node ['A'] [.leaf 0], .node ['B'] [.leaf 2]], .node ['N'] [.leaf 1]],
        [some ['('], some ['1', '=', '2'], none]) := by
  refine C13_roundtrip wsBN wsBN_space _ (fun n => by rw [Nat.ofDigitChars_ten_toDigits]) _ _ _ true ?_ ?_ ?_ (by simp) ?_
  · intro l cs h
    simp [subtrees, subtreesL] at h
    rcases h with h | h | h | h | h <;> obtain ⟨rfl, rfl⟩ := h <;> simp [wsBN]
  · intro l cs h
    simp [subtrees, subtreesL] at h
    rcases h with h | h | h | h | h <;> obtain ⟨rfl, rfl⟩ := h <;> simp [isNode]
  · decide
  · intro w hw
    simp at hw
    rcases hw with rfl | rfl | rfl
    · refine ⟨⟨by decide, by decide, ?_, ?_, ?_⟩, by decide⟩ <;>
        exact (Str.find_eq_none_iff _ _).1 (by decide +kernel)
    · refine ⟨⟨by decide, by decide, ?_, ?_, ?_⟩, by decide⟩ <;>
        exact (Str.find_eq_none_iff _ _).1 (by decide +kernel)
    · trivial

/-- **C13 (the hypothesis on terminals is needed).** A terminal with a right sister is written without its word, and the result cannot be
read back. -/
theorem C13_terminal_with_right_sister (pyInt : Str → Option Nat) :
    writediscbrackettree (.node ['S'] [.leaf 0, .node ['A'] [.leaf 1]]) [some ['a'], some ['b']] false =
      some ['(', 'S', ' ', '0', ' ', '(', 'A', ' ', '1', '=', 'b', ')', ')', '\n'] ∧
    discbrackettree wsBN pyInt ['(', 'S', ' ', '0', ' ', '(', 'A', ' ', '1', '=', 'b', ')', ')', '\n'] = none := by
  have h : flat (.node ['S'] [.leaf 0, .node ['A'] [.leaf 1]]) = ['(', 'S', ' ', '0', ' ', '(', 'A', ' ', '1', ')', ')'] := by
    simp [flat, flatL, Str.join, List.intercalate]; rfl
  constructor
  · simp [writediscbrackettree, h]
    simp [indexSub, discLeaf, Nat.ofDigitChars, Escape.escape, Escape.replace]
  · simp [discbrackettree, superfluous, wsBN, parse, tokenize, tokChar, run, step, substleaf, splitEq]

end Disco.Bracket
