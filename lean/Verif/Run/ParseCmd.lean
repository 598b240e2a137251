import Verif.Basic.StrLemmas
import Verif.Basic.Sort
import Mathlib.Data.List.Perm.Basic

/-!
# The parse command: input, numbering, output (parser.py:915-1020)

Sentences are read from a text, given a number or a key, parsed (by one process or by several), and the results are written in order.
-/

namespace Disco.ParseCmd
open Disco

/-! ## Model -/

/-- Whitespace for `str.strip()`; the ASCII characters. -/
def sp (c : Char) : Bool := c = ' ' ∨ c = '\n' ∨ c = '\t' ∨ c = '\r' ∨ c = '\x0b' ∨ c = '\x0c' ∨ c = '\x1c' ∨ c = '\x1d' ∨ c = '\x1e' ∨ c = '\x1f'

/-- `s.strip()`. -/
def strip (s : Str) : Str := ((s.dropWhile sp).reverse.dropWhile sp).reverse

/-- `readinputbitparstyle` (parser.py:915-928): `sent` are the lines so far. After an empty line the list starts with that line. -/
def bitpar (sent : List Str) : List Str → List Str
  | [] => if sent = [] then [] else [Str.join [' '] sent]
  | line :: lines =>
    if strip line = [] then Str.join [' '] sent :: bitpar [strip line] lines
    else bitpar (sent ++ [strip line]) lines

/-- `line.split('|', 1)`. -/
def split1 (c : Char) : Str → List Str
  | [] => [[]]
  | x :: s => if x = c then [[], s] else
    match split1 c s with
    | [] => [[x]]
    | w :: ws => (x :: w) :: ws

/-- `a.rsplit('/', 1)`. -/
def rsplit1 (c : Char) (s : Str) : List Str := ((split1 c s.reverse).map List.reverse).reverse

/-- `str(n)` of a positive number. -/
def showNat (n : Nat) : Str := (toString n).toList

/-- `enumerate(lines, n)`, as arguments for the worker. -/
def enumJobs : Nat → List Str → List (List Str)
  | _, [] => []
  | n, line :: lines => [showNat n, line] :: enumJobs (n + 1) lines

/-- The arguments for the workers (parser.py:987-992). -/
def jobs (oneline sentid : Bool) (infile : List Str) : List (List Str) :=
  let lines := (if oneline then infile else bitpar [] infile).filter (fun l => decide (strip l ≠ []))
  if sentid then lines.map (split1 '|') else enumJobs 1 lines

/-- The result of the parser for a sentence (the last stage). -/
inductive Res (T : Type) where
  | noparse (tree : T) (prob : Rat)
  | parses (trees : List (T × Rat))

/-- Parameters: the parser with its post-processing, the writer of trees; and the options. -/
structure Env (T : Type) where
  parse : List Str → Option (List Str) → Except String (Res T)
  /-- `postprocess`, and `handlefunctions('add', tree)` for bracket formats. -/
  post : T → List Str → T
  /-- `writetree(tree, sent, key, fmt, morphology=..., comment=...)`. -/
  write : T → List Str → Str → Option Rat → Str
  /-- `'prob=%.16g\n' % prob`. -/
  showProb : Rat → Str
  printprob : Bool
  usetags : Bool
  numparses : Nat

/-- `zip(*(a.rsplit('/', 1) for a in sent))`, to be unpacked to words and tags (parser.py:953). -/
def untag (sent : List Str) : Except String (List Str × List Str) :=
  match sent.mapM (fun a => match rsplit1 '/' a with | [w, t] => some (w, t) | _ => none) with
  | some xs => .ok (xs.map Prod.fst, xs.map Prod.snd)
  | none => .error "ValueError"

/-- `nlargest(n, xs, key=itemgetter(1))`: as sorting in descending order (stable) and taking the first. -/
def nlargest {T : Type} (n : Nat) (xs : List (T × Rat)) : List (T × Rat) := (stableSort (fun a b => decide (b.2 ≤ a.2)) xs).take n

/-- The parses of a sentence are written (parser.py:968-979). -/
def writeParses {T : Type} (env : Env T) (key : Str) (sent : List Str) (k : Nat) : List (T × Rat) → Str
  | [] => []
  | (t, p) :: xs =>
    env.write (env.post t sent) sent (if env.numparses = 1 then key else key ++ ['-'] ++ showNat k) (if env.printprob then some p else none)
      ++ writeParses env key sent (k + 1) xs

/-- The output for a result (parser.py:956-980). -/
def outputOf {T : Type} (env : Env T) (key : Str) (sent : List Str) : Res T → Str × Bool
  | .noparse t p =>
    ((if env.printprob then env.showProb p else []) ++
      env.write t sent (if env.numparses = 1 then key else key ++ ['-', '1']) (if env.printprob then some p else none), true)
  | .parses xs => (writeParses env key sent 0 (nlargest env.numparses xs), false)

/-- The sentence is parsed (parser.py:948-983). -/
def parseSent {T : Type} (env : Env T) (key : Str) (tokens : List Str) : Except String (Str × Bool) :=
  if env.usetags then
    match untag tokens with
    | .error e => .error e
    | .ok (sent, tags) =>
      match env.parse sent (some tags) with
      | .error e => .error e
      | .ok r => .ok (outputOf env key sent r)
  else
    match env.parse tokens none with
    | .error e => .error e
    | .ok r => .ok (outputOf env key tokens r)

/-- `worker` (parser.py:941-983). -/
def worker {T : Type} (env : Env T) (args : List Str) : Except String (Str × Bool) :=
  match args with
  | [key, line] => if strip line = [] then .ok ([], true) else parseSent env key (Str.splitAll ' ' (strip line))
  | _ => .error "ValueError"

/-- What is written to the file, and how the command ends: an exception, or the number of unparsed sentences. -/
structure Out where
  written : Str
  status : Except String Nat

/-- The loop over the results (parser.py:1003-1016); `next` gives the results one by one or raises the exception. -/
def loop (w : List Str → Except String (Str × Bool)) : List (List Str) → Str → Nat → Nat → Out
  | [], out, unparsed, n => if n = 0 then ⟨out, .error "ZeroDivisionError"⟩ else ⟨out, .ok unparsed⟩
  | job :: js, out, unparsed, n =>
    match w job with
    | .error e => ⟨out, .error e⟩
    | .ok (o, noparse) => if o = [] then loop w js out unparsed n else loop w js (out ++ o) (unparsed + (if noparse then 1 else 0)) (n + 1)

/-- The exception of a job. -/
def errorOf (w : List Str → Except String (Str × Bool)) (job : List Str) : Option String :=
  match w job with
  | .error e => some e
  | .ok _ => none

/-- `pool.map` (parser.py:998-1003): all results are computed before the first is used; `finished` is the order in which the jobs are done,
and the first exception to arrive is raised. -/
def poolMap (w : List Str → Except String (Str × Bool)) (js finished : List (List Str)) : Out :=
  match finished.findSome? (errorOf w) with
  | some e => ⟨[], .error e⟩
  | none => loop w js [] 0 0

/-- How the work is done. -/
inductive Procs where
  | one
  | pool (finished : List (List Str))

/-- `doparsing` (parser.py:980-1020). -/
def doparsing {T : Type} (env : Env T) (oneline sentid : Bool) (infile : List Str) : Procs → Out
  | .one => loop (worker env) (jobs oneline sentid infile) [] 0 0
  | .pool finished => poolMap (worker env) (jobs oneline sentid infile) finished

/-! ## Specification -/

/-- The sentences of a text with one token per line: maximal runs of lines that are not blank. -/
def Spec.runs (infile : List Str) : List (List Str) := ((infile.map strip).splitOnP (fun l => l = [])).filter (fun r => decide (r ≠ []))

/-- The tokens of each sentence. -/
def Spec.sentences (oneline : Bool) (infile : List Str) : List (List Str) :=
  if oneline then ((infile.map strip).filter (fun l => decide (l ≠ []))).map (Str.splitAll ' ')
  else (Spec.runs infile).map (fun r => r.flatMap (Str.splitAll ' '))

/-- The order in which jobs are done is possible: each is done once. -/
def Spec.Possible (js : List (List Str)) : Procs → Prop
  | .one => True
  | .pool finished => finished.Perm js

/-- The ranking of the parses: by descending probability, parses with the same probability as in the input. -/
def Spec.Ranking {T : Type} (xs ys : List (T × Rat)) : Prop :=
  ys.Perm xs ∧ ys.Pairwise (fun a b => b.2 ≤ a.2) ∧ ∀ p : Rat, ys.filter (fun a => decide (a.2 = p)) = xs.filter (fun a => decide (a.2 = p))

/-- The results in order, numbered from `n`. -/
def Spec.results {T : Type} (env : Env T) (n : Nat) : List (List Str) → List (Except String (Str × Bool))
  | [] => []
  | s :: ss => parseSent env (showNat n) s :: Spec.results env (n + 1) ss

/-! ## Lemmas -/

theorem strip_cons_of_not {c : Char} {s : Str} (h : sp c = false) : strip (c :: s) = ((c :: s).reverse.dropWhile sp).reverse := by
  unfold strip
  rw [List.dropWhile_cons_of_neg (by rw [h]; simp)]

theorem head_strip (s : Str) : ∀ c t, strip s = c :: t → sp c = false := by
  intro c t h
  unfold strip at h
  have hsuf : ((s.dropWhile sp).reverse.dropWhile sp).reverse <+: s.dropWhile sp := by
    rw [← List.reverse_suffix, List.reverse_reverse]
    exact List.dropWhile_suffix _
  rw [h] at hsuf
  obtain ⟨r, hr⟩ := hsuf
  rw [List.cons_append] at hr
  by_contra hc
  have hne : s.dropWhile sp ≠ [] := by rw [← hr]; exact List.cons_ne_nil _ _
  have := List.head_dropWhile_not sp hne
  simp only [← hr, List.head_cons] at this
  exact hc this

theorem last_strip (s : Str) : ∀ c t, strip s = t ++ [c] → sp c = false := by
  intro c t h
  unfold strip at h
  have h' := congrArg List.reverse h
  rw [List.reverse_reverse, List.reverse_append] at h'
  have hne : (s.dropWhile sp).reverse.dropWhile sp ≠ [] := by rw [h']; simp
  have := List.head_dropWhile_not sp hne
  simp only [h'] at this
  simpa using this

/-- A text that neither starts nor ends with whitespace. -/
def Tight (s : Str) : Prop := (∀ c t, s = c :: t → sp c = false) ∧ ∀ c t, s = t ++ [c] → sp c = false

theorem strip_tight (s : Str) : Tight (strip s) := ⟨head_strip s, last_strip s⟩

theorem strip_of_tight {s : Str} (h : Tight s) : strip s = s := by
  have h1 : s.dropWhile sp = s := by
    cases s with
    | nil => rfl
    | cons c t => exact List.dropWhile_cons_of_neg (by rw [h.1 c t rfl]; simp)
  unfold strip
  rw [h1]
  have h2 : s.reverse.dropWhile sp = s.reverse := by
    cases hr : s.reverse with
    | nil => rfl
    | cons c t =>
      have : s = t.reverse ++ [c] := by
        have := congrArg List.reverse hr
        simpa using this
      exact List.dropWhile_cons_of_neg (by rw [h.2 c _ this]; simp)
  rw [h2, List.reverse_reverse]

theorem strip_strip (s : Str) : strip (strip s) = strip s := strip_of_tight (strip_tight s)

/-- A leading space is removed. -/
theorem strip_space {s : Str} : strip (' ' :: s) = strip s := by
  unfold strip
  rw [List.dropWhile_cons_of_pos (by decide)]

theorem join_cons2 (a b : Str) (xs : List Str) : Str.join [' '] (a :: b :: xs) = a ++ ' ' :: Str.join [' '] (b :: xs) := by
  simp [Str.join, List.intercalate, List.intersperse]

theorem join_single (a : Str) : Str.join [' '] [a] = a := by simp [Str.join, List.intercalate, List.intersperse]

theorem tight_join : ∀ xs : List Str, (∀ x ∈ xs, Tight x ∧ x ≠ []) → xs ≠ [] → Tight (Str.join [' '] xs) ∧ Str.join [' '] xs ≠ []
  | [], _, h => absurd rfl h
  | [a], h, _ => by rw [join_single]; exact h a (by simp)
  | a :: b :: xs, h, _ => by
    obtain ⟨⟨ih1, ih2⟩, ih3⟩ := tight_join (b :: xs) (fun x hx => h x (List.mem_cons_of_mem _ hx)) (List.cons_ne_nil _ _)
    obtain ⟨⟨h1, h2⟩, h3⟩ := h a List.mem_cons_self
    rw [join_cons2]
    refine ⟨⟨?_, ?_⟩, by simp⟩
    · intro c t he
      cases a with
      | nil => exact absurd rfl h3
      | cons c' t' =>
        rw [List.cons_append] at he
        injection he with he1 _
        exact h1 c t' (by rw [he1])
    · intro c t he
      rcases List.eq_nil_or_concat (Str.join [' '] (b :: xs)) with h' | ⟨t', c', h'⟩
      · exact absurd h' ih3
      · rw [List.concat_eq_append] at h'
        rw [h'] at he
        have : a ++ ' ' :: (t' ++ [c']) = (a ++ ' ' :: t') ++ [c'] := by simp
        rw [this] at he
        have hc := List.append_inj_right' he rfl
        injection hc with hc _
        rw [← hc]
        exact ih2 c' t' h'

theorem splitAll_append_sep (c : Char) : ∀ (a b : Str), Str.splitAll c (a ++ c :: b) = Str.splitAll c a ++ Str.splitAll c b
  | [], b => by simp [Str.splitAll]
  | x :: a, b => by
    rw [List.cons_append, Str.splitAll, Str.splitAll, splitAll_append_sep c a b]
    by_cases h : x = c
    · simp [h]
    · simp only [if_neg h]
      cases hs : Str.splitAll c a with
      | nil => exact absurd hs (Str.splitAll_ne_nil c a)
      | cons w ws => rfl

theorem splitAll_join : ∀ xs : List Str, xs ≠ [] → Str.splitAll ' ' (Str.join [' '] xs) = xs.flatMap (Str.splitAll ' ')
  | [], h => absurd rfl h
  | [a], _ => by rw [join_single]; simp
  | a :: b :: xs, _ => by
    rw [join_cons2, splitAll_append_sep, splitAll_join (b :: xs) (List.cons_ne_nil _ _)]
    rfl

/-- `bitpar` in the middle of a text: the lines so far, possibly after an empty line. -/
theorem bitpar_runs : ∀ (infile : List Str) (pre run : List Str), (pre = [] ∨ pre = [[]]) → (∀ x ∈ run, Tight x ∧ x ≠ []) →
    ((bitpar (pre ++ run) infile).filter (fun l => decide (strip l ≠ []))).map strip =
      (((run ++ infile.map strip).splitOnP (fun l => l = [])).filter (fun r => decide (r ≠ []))).map (Str.join [' '])
  := by
  have hjoin : ∀ pre run : List Str, (pre = [] ∨ pre = [[]]) → (∀ x ∈ run, Tight x ∧ x ≠ []) → run ≠ [] → strip (Str.join [' '] (pre ++ run)) = Str.join [' '] run := by
    intro pre run hp hr hne
    have ht := (tight_join run hr hne).1
    rcases hp with rfl | rfl
    · exact strip_of_tight ht
    · cases run with
      | nil => exact absurd rfl hne
      | cons a xs =>
        rw [List.singleton_append, join_cons2, List.nil_append, strip_space]
        exact strip_of_tight ht
  have hempty : ∀ pre : List Str, (pre = [] ∨ pre = [[]]) → strip (Str.join [' '] pre) = [] := by
    intro pre hp
    rcases hp with rfl | rfl <;> rfl
  have hsingle : ∀ run : List Str, (∀ x ∈ run, Tight x ∧ x ≠ []) → run.splitOnP (fun l : Str => l = []) = [run] := by
    intro run hr
    apply List.splitOnP_eq_singleton
    intro x hx
    simpa using (hr x hx).2
  have hnb : ∀ run : List Str, (∀ x ∈ run, Tight x ∧ x ≠ []) → ∀ rest, (run ++ [] :: rest).splitOnP (fun l : Str => l = []) = run :: rest.splitOnP (fun l : Str => l = []) := by
    intro run hr rest
    rw [List.splitOnP_append_cons _ _ (by simp), hsingle run hr]
    rfl
  intro infile
  induction infile with
  | nil =>
    intro pre run hp hr
    rw [bitpar, List.map_nil, List.append_nil]
    rw [hsingle run hr]
    by_cases hne : run = []
    · subst hne
      rw [List.append_nil]
      rcases hp with rfl | rfl <;> simp [Str.join, strip]
    · rw [if_neg (by simp [hne])]
      have hs := hjoin pre run hp hr hne
      have h2 := (tight_join run hr hne).2
      rw [List.filter_cons_of_pos (by rw [hs]; simpa using h2), List.filter_cons_of_pos (by simpa using hne)]
      simp [hs]
  | cons line rest ih =>
    intro pre run hp hr
    rw [bitpar, List.map_cons]
    by_cases hb : strip line = []
    · rw [if_pos hb, hb, hnb run hr]
      have := ih [[]] [] (.inr rfl) (by simp)
      rw [List.append_nil, List.nil_append] at this
      by_cases hne : run = []
      · subst hne
        rw [List.append_nil, List.filter_cons_of_neg (by rw [hempty pre hp]; simp), this, List.filter_cons_of_neg (by simp)]
      · have hs := hjoin pre run hp hr hne
        have h2 := (tight_join run hr hne).2
        rw [List.filter_cons_of_pos (by rw [hs]; simpa using h2), List.filter_cons_of_pos (by simpa using hne), List.map_cons, List.map_cons, hs, this]
    · rw [if_neg hb, List.append_assoc, ih pre (run ++ [strip line]) hp]
      · rw [List.append_assoc]; rfl
      · intro x hx
        rcases List.mem_append.mp hx with h | h
        · exact hr x h
        · simp only [List.mem_singleton] at h
          subst h
          exact ⟨strip_tight line, hb⟩

theorem enumJobs_worker {T : Type} (env : Env T) : ∀ (lines : List Str) (n : Nat), (∀ l ∈ lines, strip l ≠ []) →
    (enumJobs n lines).map (worker env) = Spec.results env n ((lines.map strip).map (Str.splitAll ' '))
  | [], _, _ => rfl
  | l :: lines, n, h => by
    rw [enumJobs, List.map_cons, List.map_cons, List.map_cons, Spec.results, enumJobs_worker env lines (n + 1) (fun x hx => h x (List.mem_cons_of_mem _ hx))]
    congr 1
    rw [worker, if_neg (h l List.mem_cons_self)]

theorem filter_strip : ∀ l : List Str, (l.filter (fun l => decide (strip l ≠ []))).map strip = (l.map strip).filter (fun l => decide (l ≠ []))
  | [] => rfl
  | a :: l => by
    by_cases h : strip a = []
    · rw [List.filter_cons_of_neg (by simp [h]), List.map_cons, List.filter_cons_of_neg (by simp [h]), filter_strip l]
    · rw [List.filter_cons_of_pos (by simpa using h), List.map_cons, List.map_cons, List.filter_cons_of_pos (by simpa using h), filter_strip l]

/-- The work for the workers. -/
theorem jobs_worker {T : Type} (env : Env T) (oneline : Bool) (infile : List Str) :
    (jobs oneline false infile).map (worker env) = Spec.results env 1 (Spec.sentences oneline infile) := by
  unfold jobs
  simp only [Bool.false_eq_true, if_false]
  rw [enumJobs_worker env _ 1 (by intro l hl; simpa using (List.mem_filter.mp hl).2)]
  congr 1
  unfold Spec.sentences
  cases oneline with
  | true => simp only [if_true]; rw [filter_strip]
  | false =>
    simp only [Bool.false_eq_true, if_false]
    have := bitpar_runs infile [] [] (.inl rfl) (by simp)
    rw [List.append_nil, List.nil_append] at this
    rw [this, Spec.runs, List.map_map]
    apply List.map_congr_left
    intro r hr
    exact splitAll_join r (by simpa using (List.mem_filter.mp hr).2)

theorem loop_ok (w : List Str → Except String (Str × Bool)) : ∀ (js : List (List Str)) (outs : List (Str × Bool)) (out : Str) (u n : Nat),
    js.map w = outs.map .ok → (∀ o ∈ outs, o.1 ≠ []) → (n ≠ 0 ∨ outs ≠ []) →
    loop w js out u n = ⟨out ++ outs.flatMap Prod.fst, .ok (u + outs.countP Prod.snd)⟩
  | [], [], out, u, n, _, _, hn => by
    rw [loop, if_neg (by rcases hn with h | h; exact h; exact absurd rfl h)]
    simp
  | [], o :: outs, out, u, n, h, _, _ => by cases h
  | j :: js, [], out, u, n, h, _, _ => by cases h
  | j :: js, (o, np) :: outs, out, u, n, h, ho, _ => by
    rw [List.map_cons, List.map_cons] at h
    injection h with h1 h2
    rw [loop, h1]
    dsimp only
    rw [if_neg (ho _ List.mem_cons_self), loop_ok w js outs _ _ _ h2 (fun o' h' => ho o' (List.mem_cons_of_mem _ h')) (.inl (by omega))]
    rw [List.flatMap_cons, List.append_assoc, List.countP_cons]
    congr 2
    cases np <;> simp
    omega

theorem loop_error (w : List Str → Except String (Str × Bool)) : ∀ (js : List (List Str)) (outs : List (Str × Bool)) (e : String) (rest : List (Except String (Str × Bool)))
    (out : Str) (u n : Nat), js.map w = outs.map .ok ++ .error e :: rest → loop w js out u n = ⟨out ++ outs.flatMap Prod.fst, .error e⟩
  | [], [], e, rest, out, u, n, h => by cases h
  | [], o :: outs, e, rest, out, u, n, h => by cases h
  | j :: js, [], e, rest, out, u, n, h => by
    rw [List.map_cons, List.map_nil, List.nil_append] at h
    injection h with h1 _
    rw [loop, h1]
    simp
  | j :: js, (o, np) :: outs, e, rest, out, u, n, h => by
    rw [List.map_cons, List.map_cons, List.cons_append] at h
    injection h with h1 h2
    rw [loop, h1]
    dsimp only
    by_cases ho : o = []
    · rw [if_pos ho, loop_error w js outs e rest _ _ _ h2, List.flatMap_cons, ho, List.nil_append]
    · rw [if_neg ho, loop_error w js outs e rest _ _ _ h2, List.flatMap_cons, List.append_assoc]

theorem mem_map_of_perm {w : List Str → Except String (Str × Bool)} {js finished : List (List Str)} (h : finished.Perm js) (r : Except String (Str × Bool)) :
    r ∈ js.map w ↔ r ∈ finished.map w := ((h.map w).mem_iff).symm

theorem findSome_none (w : List Str → Except String (Str × Bool)) (js : List (List Str)) (h : ∀ r ∈ js.map w, ∃ o, r = .ok o) : js.findSome? (errorOf w) = none := by
  rw [List.findSome?_eq_none_iff]
  intro j hj
  obtain ⟨o, ho⟩ := h _ (List.mem_map.mpr ⟨j, hj, rfl⟩)
  unfold errorOf
  rw [ho]

theorem findSome_some (w : List Str → Except String (Str × Bool)) (js : List (List Str)) (h : ∃ e, .error e ∈ js.map w) :
    ∃ e, js.findSome? (errorOf w) = some e ∧ .error e ∈ js.map w := by
  obtain ⟨e, he⟩ := h
  obtain ⟨j, hj, hw⟩ := List.mem_map.mp he
  have : (js.findSome? (errorOf w)).isSome := by
    rw [List.findSome?_isSome_iff]
    exact ⟨j, hj, by unfold errorOf; rw [hw]; rfl⟩
  obtain ⟨e', he'⟩ := Option.isSome_iff_exists.mp this
  refine ⟨e', he', ?_⟩
  obtain ⟨j', hj', hw'⟩ := List.exists_of_findSome?_eq_some he'
  refine List.mem_map.mpr ⟨j', hj', ?_⟩
  unfold errorOf at hw'
  cases hx : w j' with
  | ok o => rw [hx] at hw'; cases hw'
  | error e'' => rw [hx] at hw'; injection hw' with hw'; rw [hw']

theorem split1_sep {c : Char} : ∀ (a b : Str), c ∉ a → split1 c (a ++ c :: b) = [a, b]
  | [], b, _ => by simp [split1]
  | x :: a, b, h => by
    rw [List.cons_append, split1, if_neg (fun e => h (by rw [e]; exact List.mem_cons_self)), split1_sep a b (fun h' => h (List.mem_cons_of_mem _ h'))]

theorem split1_none {c : Char} : ∀ a : Str, c ∉ a → split1 c a = [a]
  | [], _ => rfl
  | x :: a, h => by
    rw [split1, if_neg (fun e => h (by rw [e]; exact List.mem_cons_self)), split1_none a (fun h' => h (List.mem_cons_of_mem _ h'))]

theorem rsplit1_sep {c : Char} (a b : Str) (h : c ∉ b) : rsplit1 c (a ++ c :: b) = [a, b] := by
  unfold rsplit1
  have : (a ++ c :: b).reverse = b.reverse ++ c :: a.reverse := by simp
  rw [this, split1_sep _ _ (by simpa using h)]
  simp

theorem rsplit1_none {c : Char} (a : Str) (h : c ∉ a) : rsplit1 c a = [a] := by
  unfold rsplit1
  rw [split1_none _ (by simpa using h)]
  simp

theorem filter_insert {T : Type} (p : Rat) (a : T × Rat) : ∀ l : List (T × Rat), (insertSorted (fun a b : T × Rat => decide (b.2 ≤ a.2)) a l).filter (fun a => decide (a.2 = p)) =
    (a :: l).filter (fun a => decide (a.2 = p))
  | [] => rfl
  | c :: l => by
    rw [insertSorted]
    by_cases h : c.2 ≤ a.2
    · rw [if_pos (by simpa using h)]
    · rw [if_neg (by simpa using h)]
      by_cases hc : c.2 = p
      · have ha : a.2 ≠ p := by
          intro ha
          apply h
          rw [ha, hc]
          exact Rat.le_refl
        rw [List.filter_cons_of_pos (by simpa using hc), filter_insert p a l, List.filter_cons_of_neg (by simpa using ha),
          List.filter_cons_of_neg (by simpa using ha), List.filter_cons_of_pos (by simpa using hc)]
      · rw [List.filter_cons_of_neg (by simpa using hc), filter_insert p a l]
        by_cases ha : a.2 = p
        · rw [List.filter_cons_of_pos (by simpa using ha), List.filter_cons_of_pos (by simpa using ha), List.filter_cons_of_neg (by simpa using hc)]
        · rw [List.filter_cons_of_neg (by simpa using ha), List.filter_cons_of_neg (by simpa using ha), List.filter_cons_of_neg (by simpa using hc)]

theorem filter_sort {T : Type} (p : Rat) : ∀ l : List (T × Rat), (stableSort (fun a b : T × Rat => decide (b.2 ≤ a.2)) l).filter (fun a => decide (a.2 = p)) =
    l.filter (fun a => decide (a.2 = p))
  | [] => rfl
  | a :: l => by
    rw [stableSort, filter_insert, List.filter_cons, List.filter_cons, filter_sort p l]

theorem takeWhile_all (q : Char → Bool) : ∀ l : Str, ∀ c ∈ l.takeWhile q, q c = true
  | [], c, hc => by cases hc
  | x :: l, c, hc => by
    by_cases hx : q x = true
    · rw [List.takeWhile_cons_of_pos hx] at hc
      rcases List.mem_cons.mp hc with rfl | hc
      · exact hx
      · exact takeWhile_all q l c hc
    · rw [List.takeWhile_cons_of_neg hx] at hc
      cases hc

theorem dropWhile_nil (q : Char → Bool) : ∀ l : Str, l.dropWhile q = [] → ∀ c ∈ l, q c = true
  | [], _, c, hc => by cases hc
  | x :: l, h, c, hc => by
    by_cases hx : q x = true
    · rw [List.dropWhile_cons_of_pos hx] at h
      rcases List.mem_cons.mp hc with rfl | hc
      · exact hx
      · exact dropWhile_nil q l h c hc
    · rw [List.dropWhile_cons_of_neg hx] at h
      cases h

/-! ## Theorems -/

/-- **Output in order.** When all sentences can be parsed, with one process or several and whatever the order in which these finish: the
output is the output for each sentence of the text, in order, numbered from 1. -/
theorem C72_success {T : Type} (env : Env T) (oneline : Bool) (infile : List Str) (procs : Procs) (outs : List (Str × Bool))
    (hp : Spec.Possible (jobs oneline false infile) procs) (hr : Spec.results env 1 (Spec.sentences oneline infile) = outs.map .ok)
    (hne : outs ≠ []) (hw : ∀ o ∈ outs, o.1 ≠ []) :
    doparsing env oneline false infile procs = ⟨outs.flatMap Prod.fst, .ok (outs.countP Prod.snd)⟩ := by
  have h := jobs_worker env oneline infile
  rw [hr] at h
  have hl := loop_ok (worker env) _ outs [] 0 0 h hw (.inr hne)
  rw [List.nil_append, Nat.zero_add] at hl
  cases procs with
  | one => exact hl
  | pool finished =>
    rw [doparsing, poolMap, findSome_none]
    · exact hl
    · intro r hr'
      rw [← mem_map_of_perm hp, h] at hr'
      obtain ⟨o, _, ho⟩ := List.mem_map.mp hr'
      exact ⟨o, ho.symm⟩

/-- **Exception, one process.** What comes before the sentence has been written. -/
theorem C72_exception {T : Type} (env : Env T) (oneline : Bool) (infile : List Str) (outs : List (Str × Bool)) (e : String) (rest : List (Except String (Str × Bool)))
    (hr : Spec.results env 1 (Spec.sentences oneline infile) = outs.map .ok ++ .error e :: rest) :
    doparsing env oneline false infile .one = ⟨outs.flatMap Prod.fst, .error e⟩ := by
  have h := jobs_worker env oneline infile
  rw [hr] at h
  have hl := loop_error (worker env) _ outs e rest [] 0 0 h
  rw [List.nil_append] at hl
  exact hl

/-- **Exception, several processes.** Nothing has been written; the exception is that of one of the sentences. -/
theorem C72_exception_pool {T : Type} (env : Env T) (oneline : Bool) (infile : List Str) (finished : List (List Str))
    (hp : finished.Perm (jobs oneline false infile)) (hr : ∃ e, .error e ∈ Spec.results env 1 (Spec.sentences oneline infile)) :
    ∃ e, .error e ∈ Spec.results env 1 (Spec.sentences oneline infile) ∧ doparsing env oneline false infile (.pool finished) = ⟨[], .error e⟩ := by
  have h := jobs_worker env oneline infile
  obtain ⟨e, he⟩ := hr
  rw [← h, mem_map_of_perm hp] at he
  obtain ⟨e', h1, h2⟩ := findSome_some (worker env) finished ⟨e, he⟩
  refine ⟨e', ?_, ?_⟩
  · rw [← h, mem_map_of_perm hp]; exact h2
  · rw [doparsing, poolMap, h1]

/-- **Keys.** With keys, a line `key|text` is the sentence `text` with that key. -/
theorem C72_keys {T : Type} (env : Env T) (lines : List (Str × Str)) (h : ∀ l ∈ lines, '|' ∉ l.1 ∧ strip l.2 ≠ []) :
    (jobs true true (lines.map (fun l => l.1 ++ '|' :: l.2))).map (worker env) = lines.map (fun l => parseSent env l.1 (Str.splitAll ' ' (strip l.2))) := by
  unfold jobs
  simp only [if_true]
  have hne : ∀ l ∈ lines, strip (l.1 ++ '|' :: l.2) ≠ [] := by
    intro l _ hs
    have hd : ∀ s : Str, strip s = [] → ∀ c ∈ s, sp c = true := by
      intro s hs c hc
      unfold strip at hs
      rw [List.reverse_eq_nil_iff] at hs
      replace hs := dropWhile_nil sp _ hs
      by_contra hcs
      have : c ∈ s.dropWhile sp := by
        have hsplit := List.takeWhile_append_dropWhile (p := sp) (l := s)
        rw [← hsplit] at hc
        rcases List.mem_append.mp hc with h' | h'
        · exact absurd (takeWhile_all sp s c h') hcs
        · exact h'
      exact hcs (hs c (by simpa using this))
    exact absurd (hd _ hs '|' (by simp)) (by decide)
  rw [List.filter_eq_self.mpr]
  · rw [List.map_map, List.map_map]
    apply List.map_congr_left
    intro l hl
    simp only [Function.comp]
    rw [split1_sep _ _ (h l hl).1, worker, if_neg (h l hl).2]
  · intro x hx
    obtain ⟨l, hl, rfl⟩ := List.mem_map.mp hx
    simpa using hne l hl

/-- **Tags.** A token `word/tag` (the tag has no slash) is split at the last slash. -/
theorem C72_tags (ws : List (Str × Str)) (h : ∀ w ∈ ws, '/' ∉ w.2) :
    untag (ws.map (fun w => w.1 ++ '/' :: w.2)) = .ok (ws.map Prod.fst, ws.map Prod.snd) := by
  have key : ∀ ws : List (Str × Str), (∀ w ∈ ws, '/' ∉ w.2) →
      (ws.map (fun w => w.1 ++ '/' :: w.2)).mapM (fun a => match rsplit1 '/' a with | [w, t] => some (w, t) | _ => none) = some ws := by
    intro ws
    induction ws with
    | nil => intro _; rfl
    | cons w ws ih =>
      intro h
      rw [List.map_cons, List.mapM_cons, rsplit1_sep _ _ (h w List.mem_cons_self), ih (fun x hx => h x (List.mem_cons_of_mem _ hx))]
      rfl
  unfold untag
  rw [key ws h]

/-- A token without slash is refused. -/
theorem C72_tags_missing (ts : List Str) (h : ∃ t ∈ ts, '/' ∉ t) : untag ts = .error "ValueError" := by
  have key : ∀ ts : List Str, (∃ t ∈ ts, '/' ∉ t) →
      ts.mapM (fun a => match rsplit1 '/' a with | [w, t] => some (w, t) | _ => none) = (none : Option (List (Str × Str))) := by
    intro ts
    induction ts with
    | nil => intro h; obtain ⟨t, ht, _⟩ := h; cases ht
    | cons a ts ih =>
      intro h
      rw [List.mapM_cons]
      obtain ⟨t, ht, hs⟩ := h
      rcases List.mem_cons.mp ht with rfl | ht
      · rw [rsplit1_none _ hs]; rfl
      · rw [ih ⟨t, ht, hs⟩]
        split <;> rfl
  unfold untag
  rw [key ts h]

/-- **The best parses.** For a sentence with parses, the first `numparses` by descending probability are written, numbered from 0 when
more than one is asked for. -/
theorem C72_best {T : Type} (env : Env T) (key : Str) (sent : List Str) (xs : List (T × Rat)) : ∃ ys, Spec.Ranking xs ys ∧
    outputOf env key sent (.parses xs) = ((ys.take env.numparses).zipIdx.flatMap (fun x =>
      env.write (env.post x.1.1 sent) sent (if env.numparses = 1 then key else key ++ ['-'] ++ showNat x.2) (if env.printprob then some x.1.2 else none)), false) := by
  refine ⟨stableSort (fun a b => decide (b.2 ≤ a.2)) xs, ⟨StableSort.perm xs, ?_, ?_⟩, ?_⟩
  · have := StableSort.pairwise (le := fun a b : T × Rat => decide (b.2 ≤ a.2)) (by
      intro a b c h1 h2
      simp only [decide_eq_true_eq] at h1 h2 ⊢
      exact Rat.le_trans h2 h1) (by
      intro a b
      simp only [Bool.or_eq_true, decide_eq_true_eq]
      exact Rat.le_total) xs
    simpa using this
  · intro p
    exact filter_sort p xs
  · rw [outputOf, nlargest]
    congr 1
    generalize (stableSort (fun a b : T × Rat => decide (b.2 ≤ a.2)) xs).take env.numparses = ys
    have : ∀ (ys : List (T × Rat)) k, writeParses env key sent k ys = (ys.zipIdx k).flatMap (fun x =>
      env.write (env.post x.1.1 sent) sent (if env.numparses = 1 then key else key ++ ['-'] ++ showNat x.2) (if env.printprob then some x.1.2 else none)) := by
      intro ys
      induction ys with
      | nil => intro k; rfl
      | cons y ys ih => intro k; rw [writeParses, ih, List.zipIdx_cons, List.flatMap_cons]
    exact this ys 0

/-! ## Concrete cases -/

/-- A parser that fails for the word "x", has no parse for a sentence with one word, and two parses otherwise. -/
def envEx (printprob usetags : Bool) (numparses : Nat) : Env Nat where
  parse sent _ := if ['x'] ∈ sent then .error "KeyError" else if sent.length = 1 then .ok (.noparse 0 1) else .ok (.parses [(1, 1 / 4), (2, 1 / 2)])
  post t _ := t
  write t sent key _ := key ++ [':'] ++ showNat t ++ [' '] ++ Str.join [' '] sent ++ ['\n']
  showProb _ := "prob".toList
  printprob := printprob
  usetags := usetags
  numparses := numparses

/-- Lines of a text. -/
def textEx : List Str := ["the\n".toList, "dog\n".toList, "\n".toList, "\n".toList, "cat\n".toList, "\n".toList]

/-- Two sentences; two processes that finish in the reverse order. -/
example : (doparsing (envEx false false 1) false false textEx (.pool [["2".toList, " cat".toList], ["1".toList, "the dog".toList]])).written = "1:2 the dog\n2:0 cat\n".toList := by
  rw [C72_success (envEx false false 1) false textEx (.pool [["2".toList, " cat".toList], ["1".toList, "the dog".toList]]) [("1:2 the dog\n".toList, false), ("2:0 cat\n".toList, true)]
    (by unfold Spec.Possible; decide +kernel) (by decide +kernel) (by decide) (by decide)]
  decide +kernel

/-- The second of three sentences is a failure. -/
example : (doparsing (envEx false false 1) true false ["a b\n".toList, "x\n".toList, "c\n".toList] .one).written = "1:2 a b\n".toList := by
  rw [C72_exception (envEx false false 1) true _ [("1:2 a b\n".toList, false)] "KeyError" [.ok ("3:0 c\n".toList, true)] (by decide +kernel)]
  decide +kernel

example : ∃ e, doparsing (envEx false false 1) true false ["a b\n".toList, "x\n".toList] (.pool [["2".toList, "x\n".toList], ["1".toList, "a b\n".toList]]) = ⟨[], .error e⟩ := by
  obtain ⟨e, _, h⟩ := C72_exception_pool (envEx false false 1) true ["a b\n".toList, "x\n".toList] [["2".toList, "x\n".toList], ["1".toList, "a b\n".toList]]
    (by decide +kernel) ⟨"KeyError", by
      have : Spec.results (envEx false false 1) 1 (Spec.sentences true ["a b\n".toList, "x\n".toList]) = [.ok ("1:2 a b\n".toList, false), .error "KeyError"] := by decide +kernel
      rw [this]; simp⟩
  exact ⟨e, h⟩

example : untag ["a/b/N".toList, "//".toList] = .ok (["a/b".toList, "/".toList], ["N".toList, []]) :=
  C72_tags [("a/b".toList, "N".toList), ("/".toList, [])] (by decide)

/-- **Disagreement.** A text without sentences: there is an exception at the end (the average time is computed by dividing by zero). -/
theorem C72_empty_disagreement : ∀ {T : Type} (env : Env T) (oneline sentid : Bool), (doparsing env oneline sentid [] .one).status = .error "ZeroDivisionError" := by
  intro T env oneline sentid
  cases oneline <;> cases sentid <;> rfl

/-- **Disagreement.** With keys and one token per line, the key of every sentence but the first starts with a space. -/
theorem C72_key_disagreement : jobs false true ["s1|the\n".toList, "dog\n".toList, "\n".toList, "s2|cat\n".toList] =
    [["s1".toList, "the dog".toList], [" s2".toList, "cat".toList]] := by decide +kernel


end Disco.ParseCmd
