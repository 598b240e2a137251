import Verif.Eval.Closure
import Verif.Eval.Transform
import Verif.Format.ExportText
/-!
# C82: evaluation parameters

`readparam` (eval.py:661-707) reads an EVALB parameter file. White space and `int` are parameters. The file is given by its lines.
-/
namespace Disco.Params
open Export (splitWs)
open Closure (St Reach Done)

/-- `line.split(None, 1)`. -/
def split1 (ws : Char → Bool) (line : Str) : List Str :=
  let l := line.dropWhile ws
  if l = [] then []
  else
    let rest := (l.dropWhile (fun c => !ws c)).dropWhile ws
    if rest = [] then [l.takeWhile (fun c => !ws c)] else [l.takeWhile (fun c => !ws c), rest]

/-- `validkeysonce` (eval.py:665-666). -/
def onceKeys : List Str := ["DEBUG".toList, "MAX_ERROR".toList, "CUTOFF_LEN".toList, "LABELED".toList, "DISC_ONLY".toList, "LA".toList, "TED".toList,
  "DEP".toList, "DELETE_ROOT_PRETERMS".toList]

/-- The parameters that are sets (eval.py:684-685). -/
def setKeys : List Str := ["DELETE_LABEL".toList, "DELETE_LABEL_FOR_LENGTH".toList, "DELETE_WORD".toList]

/-- The parameters that are pairs (eval.py:687). -/
def eqKeys : List Str := ["EQ_LABEL".toList, "EQ_WORD".toList]

/-- The exceptions: a line without value, a parameter that is given twice, no number, not two values, an unknown parameter. -/
inductive Err where
  | noValue
  | twice (k : Str)
  | notInt
  | notTwo (k : Str)
  | unknown (k : Str)
  deriving DecidableEq, Repr

/-- `param` and `seen` while the lines are read (eval.py:667-673). A set is a list of its elements. -/
structure PState where
  num : Str → Int
  seen : List Str
  sets : Str → List Str
  pairs : Str → List (Str × Str)

/-- The initial values (eval.py:667-672). -/
def default (k : Str) : Int :=
  if k = "MAX_ERROR".toList then 10 else if k = "CUTOFF_LEN".toList then 40 else if k = "LABELED".toList then 1 else 0

/-- The state before the loop. -/
def start : PState := { num := default, seen := [], sets := fun _ => [], pairs := fun _ => [] }

/-- `f` with the value `v` at `k`. -/
def upd {α : Type} (f : Str → α) (k : Str) (v : α) : Str → α := fun x => if x = k then v else f x

/-- `param[key] = int(val)` after the check of `seen` (eval.py:680-683). -/
def addOnce (toInt : Str → Option Int) (st : PState) (key val : Str) : Except Err PState :=
  if key ∈ st.seen then .error (.twice key)
  else match toInt val with
    | none => .error .notInt
    | some i => .ok { st with num := upd st.num key i, seen := key :: st.seen }

/-- `param[key].add(val)` (eval.py:686). -/
def addSet (st : PState) (key val : Str) : PState := { st with sets := upd st.sets key (val :: st.sets key) }

/-- `b, c = val.split(); param[key].add((b, c))` (eval.py:690-694). -/
def addPair (ws : Char → Bool) (st : PState) (key val : Str) : Except Err PState :=
  match splitWs ws val with
  | [b, c] => .ok { st with pairs := upd st.pairs key ((b, c) :: st.pairs key) }
  | _ => .error (.notTwo key)

/-- The branches for a key and a value (eval.py:679-696). -/
def addKey (ws : Char → Bool) (toInt : Str → Option Int) (st : PState) (key val : Str) : Except Err PState :=
  if key ∈ onceKeys then addOnce toInt st key val
  else if key ∈ setKeys then .ok (addSet st key val)
  else if key ∈ eqKeys then addPair ws st key val
  else .error (.unknown key)

/-- One line (eval.py:677-696). -/
def addLine (ws : Char → Bool) (toInt : Str → Option Int) (st : PState) (line : Str) : Except Err PState :=
  if line = [] ∨ line.head? = some '#' then .ok st
  else match split1 ws line with
    | [key, val] => addKey ws toInt st key val
    | _ => .error .noValue

/-- The loop over the lines (eval.py:677-696). -/
def addLines (ws : Char → Bool) (toInt : Str → Option Int) : PState → List Str → Except Err PState
  | st, [] => .ok st
  | st, l :: ls => match addLine ws toInt st l with
    | .error e => .error e
    | .ok st' => addLines ws toInt st' ls

/-- `readparam` up to eval.py:696; the last loop is `repOf`. -/
def readparam (ws : Char → Bool) (toInt : Str → Option Int) (lines : List Str) : Except Err PState := addLines ws toInt start lines

/-- `{x: k for k, eqclass in transitiveclosure(param[key]).items() for x in eqclass}.get(l)` (eval.py:697-706): of several entries for `l` the last one
is used. The classes are those of `transitiveclosure` (C30). -/
def repOf (classes : List (Str × Finset Str)) (l : Str) : Option Str := (classes.reverse.find? fun p => decide (l ∈ p.2)).map Prod.fst

/-- The parameters as used by `transform` (C27 and others). -/
def toParam (st : PState) (labels words : List (Str × Finset Str)) : EvalTransform.Param where
  delLabel l := decide (l ∈ st.sets "DELETE_LABEL".toList)
  delWord w := decide (w ∈ st.sets "DELETE_WORD".toList)
  eqLabel := repOf labels
  eqWord := repOf words
  delRootPreterms := decide (st.num "DELETE_ROOT_PRETERMS".toList ≠ 0)
  labeled := decide (st.num "LABELED".toList ≠ 0)
  discOnly := decide (st.num "DISC_ONLY".toList ≠ 0)

/-! ### Specification -/

/-- What a line of a parameter file says. -/
inductive Spec.Decl where
  | nothing
  | num (k : Str) (i : Int)
  | elem (k v : Str)
  | pair (k b c : Str)
  deriving DecidableEq

/-- The line gives the value `v` (which may contain blanks) for `k`: white space, `k`, white space, `v`. -/
def Spec.Gives (ws : Char → Bool) (line k v : Str) : Prop :=
  ∃ s t : Str, line = s ++ k ++ t ++ v ∧ (∀ c ∈ s, ws c = true) ∧ (∀ c ∈ t, ws c = true) ∧ t ≠ [] ∧ k ≠ [] ∧ (∀ c ∈ k, ws c = false) ∧
    ∃ c r, v = c :: r ∧ ws c = false

/-- The meaning of a line. -/
inductive Spec.Says (ws : Char → Bool) (toInt : Str → Option Int) : Str → Spec.Decl → Prop
  | empty : Says ws toInt [] .nothing
  | comment (r : Str) : Says ws toInt ('#' :: r) .nothing
  | num (line k v : Str) (i : Int) : line.head? ≠ some '#' → k ∈ onceKeys → toInt v = some i → Spec.Gives ws line k v → Says ws toInt line (.num k i)
  | elem (line k v : Str) : line.head? ≠ some '#' → k ∈ setKeys → Spec.Gives ws line k v → Says ws toInt line (.elem k v)
  | pair (line k v b c : Str) : line.head? ≠ some '#' → k ∈ eqKeys → Spec.Gives ws line k v → splitWs ws v = [b, c] → Says ws toInt line (.pair k b c)

/-- The number that the declarations give for `k`. -/
def Spec.numOf (ds : List Spec.Decl) (k : Str) : Option Int := ds.findSome? fun d => match d with
  | .num k' i => if k' = k then some i else none
  | _ => none

/-- The names of the numeric parameters in a list of declarations. -/
def Spec.nums (ds : List Spec.Decl) : List Str := ds.filterMap fun d => match d with
  | .num k _ => some k
  | _ => none

/-! ### Lemmas -/

theorem dropWhile_app {p : Char → Bool} {s r : Str} (hs : ∀ c ∈ s, p c = true) (hr : ∃ c q, r = c :: q ∧ p c = false) : (s ++ r).dropWhile p = r := by
  obtain ⟨c, q, rfl, hc⟩ := hr
  induction s with
  | nil => simp [hc]
  | cons a s ih =>
    rw [List.cons_append, List.dropWhile_cons_of_pos (hs a (by simp))]
    exact ih fun x hx => hs x (by simp [hx])

theorem takeWhile_app {p : Char → Bool} {s r : Str} (hs : ∀ c ∈ s, p c = true) (hr : ∃ c q, r = c :: q ∧ p c = false) : (s ++ r).takeWhile p = s := by
  obtain ⟨c, q, rfl, hc⟩ := hr
  induction s with
  | nil => simp [hc]
  | cons a s ih =>
    rw [List.cons_append, List.takeWhile_cons_of_pos (hs a (by simp)), ih fun x hx => hs x (by simp [hx])]

theorem takeWhile_all {p : Char → Bool} {s : Str} {c : Char} (h : c ∈ s.takeWhile p) : p c = true := by
  induction s with
  | nil => simp at h
  | cons a s ih =>
    rw [List.takeWhile_cons] at h
    split at h
    · rcases List.mem_cons.1 h with rfl | h
      · assumption
      · exact ih h
    · simp at h

theorem dropWhile_head {p : Char → Bool} {s : Str} (h : s.dropWhile p ≠ []) : ∃ c q, s.dropWhile p = c :: q ∧ p c = false := by
  cases e : s.dropWhile p with
  | nil => exact absurd e h
  | cons c q =>
    refine ⟨c, q, rfl, ?_⟩
    have := List.head_dropWhile_not p (l := s) h
    simpa [e] using this

/-- `line.split(None, 1)` gives two parts iff the line consists of white space, a word, white space, and something. -/
theorem gives_iff (ws : Char → Bool) (line k v : Str) : Spec.Gives ws line k v ↔ split1 ws line = [k, v] := by
  constructor
  · rintro ⟨s, t, rfl, hs, ht, htne, hk, hkw, c, r, rfl, hc⟩
    obtain ⟨k0, k', rfl⟩ : ∃ a b, k = a :: b := by
      cases k with
      | nil => exact absurd rfl hk
      | cons a b => exact ⟨a, b, rfl⟩
    obtain ⟨t0, t', rfl⟩ : ∃ a b, t = a :: b := by
      cases t with
      | nil => exact absurd rfl htne
      | cons a b => exact ⟨a, b, rfl⟩
    have e1 : (s ++ (k0 :: k') ++ (t0 :: t') ++ c :: r).dropWhile ws = (k0 :: k') ++ (t0 :: t' ++ c :: r) := by
      rw [List.append_assoc, List.append_assoc]
      exact dropWhile_app hs ⟨k0, _, rfl, hkw k0 (by simp)⟩
    have hw : ∀ x ∈ k0 :: k', (!ws x) = true := fun x hx => by simp [hkw x hx]
    have ht0 : ∃ a q, t0 :: t' ++ c :: r = a :: q ∧ (!ws a) = false := ⟨t0, _, rfl, by simp [ht t0 (by simp)]⟩
    rw [split1, e1, dropWhile_app hw ht0, takeWhile_app hw ht0, dropWhile_app ht ⟨c, r, rfl, hc⟩]
    simp
  · intro h
    rw [split1] at h
    by_cases h1 : line.dropWhile ws = []
    · simp [h1] at h
    · simp only [h1, if_false] at h
      by_cases h2 : ((line.dropWhile ws).dropWhile (fun c => !ws c)).dropWhile ws = []
      · simp [h2] at h
      · simp only [h2, if_false] at h
        obtain ⟨rfl, rfl⟩ : _ = k ∧ _ = v := by simpa using h
        refine ⟨line.takeWhile ws, ((line.dropWhile ws).dropWhile (fun c => !ws c)).takeWhile ws, ?_, ?_, ?_, ?_, ?_, ?_, ?_⟩
        · rw [List.append_assoc, List.takeWhile_append_dropWhile, List.append_assoc, List.takeWhile_append_dropWhile, List.takeWhile_append_dropWhile]
        · exact fun c hc => takeWhile_all hc
        · exact fun c hc => takeWhile_all hc
        · obtain ⟨c, q, e, hc⟩ := dropWhile_head (p := fun c => !ws c) (s := line.dropWhile ws) (fun h => h2 (by rw [h]; rfl))
          have : ws c = true := by simpa using hc
          rw [e, List.takeWhile_cons_of_pos this]; simp
        · obtain ⟨c, q, e, hc⟩ := dropWhile_head h1
          rw [e, List.takeWhile_cons_of_pos (by simp [hc])]; simp
        · intro c hc
          simpa using takeWhile_all hc
        · exact dropWhile_head h2

/-- What a declaration does with the state; none if a number is given twice. -/
def apply (st : PState) : Spec.Decl → Option PState
  | .nothing => some st
  | .num k i => if k ∈ st.seen then none else some { st with num := upd st.num k i, seen := k :: st.seen }
  | .elem k v => some (addSet st k v)
  | .pair k b c => some { st with pairs := upd st.pairs k ((b, c) :: st.pairs k) }

theorem keys_disjoint : (∀ k ∈ setKeys, k ∉ onceKeys) ∧ (∀ k ∈ eqKeys, k ∉ onceKeys) ∧ (∀ k ∈ eqKeys, k ∉ setKeys) := by decide

theorem addLine_says {ws : Char → Bool} {toInt : Str → Option Int} {line : Str} {d : Spec.Decl} (h : Spec.Says ws toInt line d) (st : PState) :
    (∀ st', addLine ws toInt st line = .ok st' ↔ apply st d = some st') := by
  intro st'
  have ne : ∀ k v, Spec.Gives ws line k v → line ≠ [] := by
    rintro k v hg rfl
    rw [gives_iff] at hg
    simp [split1] at hg
  cases h with
  | empty => simp [addLine, apply]
  | comment r => simp [addLine, apply]
  | num _ k v i h1 h2 h3 h4 =>
    have hl : ¬ (line = [] ∨ line.head? = some '#') := by simp [ne _ _ h4, h1]
    rw [addLine, if_neg hl, (gives_iff ..).1 h4]
    simp only [addKey, if_pos h2, addOnce, h3, apply]
    by_cases hk : k ∈ st.seen <;> simp [hk]
  | elem _ k v h1 h2 h4 =>
    have hl : ¬ (line = [] ∨ line.head? = some '#') := by simp [ne _ _ h4, h1]
    rw [addLine, if_neg hl, (gives_iff ..).1 h4]
    simp only [addKey, if_neg (keys_disjoint.1 k h2), if_pos h2, apply]
    simp
  | pair _ k v b c h1 h2 h4 h5 =>
    have hl : ¬ (line = [] ∨ line.head? = some '#') := by simp [ne _ _ h4, h1]
    rw [addLine, if_neg hl, (gives_iff ..).1 h4]
    simp only [addKey, if_neg (keys_disjoint.2.1 k h2), if_neg (keys_disjoint.2.2 k h2), if_pos h2, apply, addPair, h5]
    simp

theorem says_of_ok {ws : Char → Bool} {toInt : Str → Option Int} {line : Str} {st st' : PState} (h : addLine ws toInt st line = .ok st') :
    ∃ d, Spec.Says ws toInt line d := by
  by_cases hl : line = [] ∨ line.head? = some '#'
  · rcases hl with rfl | hl
    · exact ⟨_, .empty⟩
    · cases line with
      | nil => simp at hl
      | cons a r =>
        obtain rfl : a = '#' := by simpa using hl
        exact ⟨_, .comment r⟩
  · rw [addLine, if_neg hl] at h
    have hh : line.head? ≠ some '#' := fun e => hl (Or.inr e)
    split at h
    · rename_i k v e
      have hg := (gives_iff ws line k v).2 e
      rw [addKey] at h
      by_cases h1 : k ∈ onceKeys
      · rw [if_pos h1, addOnce] at h
        by_cases h2 : k ∈ st.seen
        · simp [h2] at h
        · rw [if_neg h2] at h
          cases h3 : toInt v with
          | none => simp [h3] at h
          | some i => exact ⟨_, .num line k v i hh h1 h3 hg⟩
      · rw [if_neg h1] at h
        by_cases h2 : k ∈ setKeys
        · exact ⟨_, .elem line k v hh h2 hg⟩
        · rw [if_neg h2] at h
          by_cases h3 : k ∈ eqKeys
          · rw [if_pos h3, addPair] at h
            split at h
            · rename_i b c e2
              exact ⟨_, .pair line k v b c hh h3 hg e2⟩
            · simp at h
          · simp [h3] at h
    · simp at h

/-- Apply all declarations. -/
def applyAll : PState → List Spec.Decl → Option PState
  | st, [] => some st
  | st, d :: ds => (apply st d).bind fun st' => applyAll st' ds

theorem addLines_ok_iff {ws : Char → Bool} {toInt : Str → Option Int} : ∀ (lines : List Str) (st st' : PState),
    addLines ws toInt st lines = .ok st' ↔ ∃ ds, List.Forall₂ (Spec.Says ws toInt) lines ds ∧ applyAll st ds = some st'
  | [], st, st' => by
    constructor
    · intro h
      exact ⟨[], .nil, by simpa [addLines, applyAll] using h⟩
    · rintro ⟨ds, h, h2⟩
      cases h
      simpa [addLines, applyAll] using h2
  | l :: ls, st, st' => by
    constructor
    · intro h
      rw [addLines] at h
      split at h
      · simp at h
      · rename_i st1 e
        obtain ⟨d, hd⟩ := says_of_ok e
        obtain ⟨ds, h1, h2⟩ := (addLines_ok_iff ls st1 st').1 h
        exact ⟨d :: ds, .cons hd h1, by simp [applyAll, (addLine_says hd st st1).1 e, h2]⟩
    · rintro ⟨ds, h, h2⟩
      cases h with
      | cons hd h1 =>
        rename_i d ds
        rw [applyAll] at h2
        obtain ⟨st1, e1, e2⟩ := Option.bind_eq_some_iff.1 h2
        rw [addLines, (addLine_says hd st st1).2 e1]
        exact (addLines_ok_iff ls st1 st').2 ⟨ds, h1, e2⟩

theorem applyAll_spec : ∀ (ds : List Spec.Decl) (st : PState),
    ((applyAll st ds).isSome ↔ (Spec.nums ds).Nodup ∧ ∀ k ∈ Spec.nums ds, k ∉ st.seen) ∧
    ∀ st', applyAll st ds = some st' →
      (∀ k, st'.num k = (Spec.numOf ds k).getD (st.num k)) ∧
      (∀ k v, v ∈ st'.sets k ↔ .elem k v ∈ ds ∨ v ∈ st.sets k) ∧
      (∀ k p, p ∈ st'.pairs k ↔ .pair k p.1 p.2 ∈ ds ∨ p ∈ st.pairs k)
  | [], st => by simp [applyAll, Spec.nums, Spec.numOf]
  | .nothing :: ds, st => by simpa [applyAll, apply, Spec.nums, Spec.numOf] using applyAll_spec ds st
  | .elem k v :: ds, st => by
    have ih := applyAll_spec ds (addSet st k v)
    simp only [applyAll, apply, Option.bind_some]
    refine ⟨by simpa [Spec.nums, addSet] using ih.1, fun st' h => ?_⟩
    obtain ⟨h1, h2, h3⟩ := ih.2 st' h
    refine ⟨by simpa [Spec.numOf, addSet] using h1, fun k' v' => ?_, by simpa [addSet] using h3⟩
    rw [h2]
    simp only [addSet, upd, List.mem_cons, Spec.Decl.elem.injEq]
    by_cases hk : k' = k
    · subst hk; simp; tauto
    · simp [hk]
  | .pair k b c :: ds, st => by
    have ih := applyAll_spec ds { st with pairs := upd st.pairs k ((b, c) :: st.pairs k) }
    simp only [applyAll, apply, Option.bind_some]
    refine ⟨by simpa [Spec.nums] using ih.1, fun st' h => ?_⟩
    obtain ⟨h1, h2, h3⟩ := ih.2 st' h
    refine ⟨by simpa [Spec.numOf] using h1, by simpa using h2, fun k' p => ?_⟩
    rw [h3]
    obtain ⟨p1, p2⟩ := p
    simp only [upd, List.mem_cons, Spec.Decl.pair.injEq]
    by_cases hk : k' = k
    · subst hk; simp; tauto
    · simp [hk]
  | .num k i :: ds, st => by
    have ih := applyAll_spec ds { st with num := upd st.num k i, seen := k :: st.seen }
    simp only [applyAll, apply]
    by_cases hk : k ∈ st.seen
    · simp only [if_pos hk, Option.bind_none]
      refine ⟨?_, by simp⟩
      simp only [Option.isSome_none, Bool.false_eq_true, false_iff]
      rintro ⟨-, h⟩
      exact h k (by simp [Spec.nums]) hk
    · simp only [if_neg hk, Option.bind_some]
      constructor
      · rw [ih.1]
        simp only [Spec.nums, List.filterMap_cons, List.nodup_cons, List.mem_cons, not_or]
        constructor
        · rintro ⟨h1, h2⟩
          refine ⟨⟨fun h => (h2 k h).1 rfl, h1⟩, ?_⟩
          rintro x (rfl | hx)
          · exact hk
          · exact (h2 x hx).2
        · rintro ⟨⟨h1, h2⟩, h3⟩
          exact ⟨h2, fun x hx => ⟨fun e => h1 (e ▸ hx), h3 x (Or.inr hx)⟩⟩
      · intro st' h
        have hn : k ∉ Spec.nums ds := by
          have := ih.1.1 (by rw [h]; rfl)
          exact fun hx => this.2 k hx (by simp)
        obtain ⟨h1, h2, h3⟩ := ih.2 st' h
        refine ⟨fun k' => ?_, by simpa using h2, by simpa using h3⟩
        rw [h1]
        simp only [Spec.numOf, List.findSome?_cons, upd]
        by_cases hk' : k' = k
        · subst hk'
          have : Spec.numOf ds k' = none := by
            rw [Spec.numOf, List.findSome?_eq_none_iff]
            intro d hd
            cases d with
            | num k2 j =>
              have : k2 ≠ k' := fun e => hn (by rw [Spec.nums, List.mem_filterMap]; exact ⟨_, hd, by simp [e]⟩)
              simp [this]
            | _ => rfl
          rw [Spec.numOf] at this
          simp [this]
        · simp [hk', Ne.symm hk']

theorem says_unique {ws : Char → Bool} {toInt : Str → Option Int} {line : Str} {d d' : Spec.Decl} (h : Spec.Says ws toInt line d)
    (h' : Spec.Says ws toInt line d') : d = d' := by
  have ne : ∀ k v, ¬ Spec.Gives ws [] k v := by
    intro k v hg
    rw [gives_iff] at hg
    simp [split1] at hg
  have un : ∀ k v k' v', Spec.Gives ws line k v → Spec.Gives ws line k' v' → k = k' ∧ v = v' := by
    intro k v k' v' h1 h2
    rw [gives_iff] at h1 h2
    simpa [h1] using h2
  have dj := keys_disjoint
  cases h with
  | empty => cases h' <;> first | rfl | (exfalso; apply ne; assumption)
  | comment r => cases h' <;> first | rfl | (exfalso; simp_all)
  | num _ k v i h1 h2 h3 h4 =>
    cases h' with
    | empty => exact absurd h4 (ne _ _)
    | comment r => simp at h1
    | num _ k' v' i' g1 g2 g3 g4 => obtain ⟨rfl, rfl⟩ := un _ _ _ _ h4 g4; simp_all
    | elem _ k' v' g1 g2 g4 => obtain ⟨rfl, rfl⟩ := un _ _ _ _ h4 g4; exact absurd h2 (dj.1 _ g2)
    | pair _ k' v' b c g1 g2 g4 => obtain ⟨rfl, rfl⟩ := un _ _ _ _ h4 g4; exact absurd h2 (dj.2.1 _ g2)
  | elem _ k v h1 h2 h4 =>
    cases h' with
    | empty => exact absurd h4 (ne _ _)
    | comment r => simp at h1
    | num _ k' v' i' g1 g2 g3 g4 => obtain ⟨rfl, rfl⟩ := un _ _ _ _ h4 g4; exact absurd g2 (dj.1 _ h2)
    | elem _ k' v' g1 g2 g4 => obtain ⟨rfl, rfl⟩ := un _ _ _ _ h4 g4; rfl
    | pair _ k' v' b c g1 g2 g4 => obtain ⟨rfl, rfl⟩ := un _ _ _ _ h4 g4; exact absurd h2 (dj.2.2 _ g2)
  | pair _ k v b c h1 h2 h4 h5 =>
    cases h' with
    | empty => exact absurd h4 (ne _ _)
    | comment r => simp at h1
    | num _ k' v' i' g1 g2 g3 g4 => obtain ⟨rfl, rfl⟩ := un _ _ _ _ h4 g4; exact absurd g2 (dj.2.1 _ h2)
    | elem _ k' v' g1 g2 g4 => obtain ⟨rfl, rfl⟩ := un _ _ _ _ h4 g4; exact absurd g2 (dj.2.2 _ h2)
    | pair _ k' v' b' c' g1 g2 g4 g5 => obtain ⟨rfl, rfl⟩ := un _ _ _ _ h4 g4; rw [h5] at g5; simpa using g5

/-! ### C82 -/

/-- **C82** A parameter file is accepted if and only if every line is empty, a comment, or a declaration, and no number is declared twice. -/
theorem C82_accepted (ws : Char → Bool) (toInt : Str → Option Int) (lines : List Str) :
    (∃ st, readparam ws toInt lines = .ok st) ↔ ∃ ds, List.Forall₂ (Spec.Says ws toInt) lines ds ∧ (Spec.nums ds).Nodup := by
  simp only [readparam, addLines_ok_iff]
  constructor
  · rintro ⟨st, ds, h1, h2⟩
    exact ⟨ds, h1, ((applyAll_spec ds start).1.1 (by rw [h2]; rfl)).1⟩
  · rintro ⟨ds, h1, h2⟩
    obtain ⟨st, e⟩ := Option.isSome_iff_exists.1 ((applyAll_spec ds start).1.2 ⟨h2, by simp [start]⟩)
    exact ⟨st, ds, h1, e⟩

theorem forall₂_unique {α β : Type} {R : α → β → Prop} (hu : ∀ a b c, R a b → R a c → b = c) {l : List α} {m m' : List β} (h : List.Forall₂ R l m)
    (h' : List.Forall₂ R l m') : m = m' := by
  induction h generalizing m' with
  | nil => cases h'; rfl
  | cons h1 _ ih =>
    cases h' with
    | cons g1 g2 => rw [hu _ _ _ h1 g1, ih g2]

/-- **C82** The parameters are what the lines say: numbers that are not declared have their default value, sets and pairs contain exactly what is declared. -/
theorem C82_values (ws : Char → Bool) (toInt : Str → Option Int) (lines : List Str) (ds : List Spec.Decl) (st : PState)
    (hs : List.Forall₂ (Spec.Says ws toInt) lines ds) (h : readparam ws toInt lines = .ok st) :
    (∀ k i, .num k i ∈ ds → st.num k = i) ∧ (∀ k, (∀ i, .num k i ∉ ds) → st.num k = default k) ∧
    (∀ k v, v ∈ st.sets k ↔ .elem k v ∈ ds) ∧ (∀ k b c, (b, c) ∈ st.pairs k ↔ .pair k b c ∈ ds) := by
  obtain ⟨ds', h1, h2⟩ := (addLines_ok_iff lines start st).1 h
  obtain rfl := forall₂_unique (R := Spec.Says ws toInt) (fun _ _ _ a b => says_unique a b) hs h1
  obtain ⟨g1, g2, g3⟩ := (applyAll_spec ds start).2 st h2
  have hn := ((applyAll_spec ds start).1.1 (by rw [h2]; rfl)).1
  refine ⟨fun k i hk => ?_, fun k hk => ?_, fun k v => by rw [g2]; simp [start], fun k b c => by rw [g3]; simp [start]⟩
  · have : Spec.numOf ds k = some i := by
      clear g1 g2 g3 h h1 h2 hs
      induction ds with
      | nil => simp at hk
      | cons d ds ih =>
        rw [Spec.numOf, List.findSome?_cons]
        cases d with
        | num k' i' =>
          by_cases e : k' = k
          · subst e
            rcases List.mem_cons.1 hk with e2 | hm
            · obtain ⟨-, rfl⟩ : k' = k' ∧ i = i' := by simpa using e2
              simp
            · exfalso
              simp only [Spec.nums, List.filterMap_cons, List.nodup_cons] at hn
              exact hn.1 (List.mem_filterMap.2 ⟨_, hm, rfl⟩)
          · simp only [if_neg e]
            refine ih ?_ ?_
            · simp only [Spec.nums, List.filterMap_cons, List.nodup_cons] at hn
              exact hn.2
            · rcases List.mem_cons.1 hk with e2 | hm
              · exact absurd (by simpa using e2 : k = k' ∧ i = i').1.symm e
              · exact hm
        | nothing => exact ih (by simpa [Spec.nums] using hn) (by simpa using hk)
        | elem _ _ => exact ih (by simpa [Spec.nums] using hn) (by simpa using hk)
        | pair _ _ _ => exact ih (by simpa [Spec.nums] using hn) (by simpa using hk)
    rw [g1, this]; rfl
  · have : Spec.numOf ds k = none := by
      rw [Spec.numOf, List.findSome?_eq_none_iff]
      intro d hd
      cases d with
      | num k2 j =>
        have : k2 ≠ k := by
          rintro rfl
          exact hk j hd
        simp [this]
      | _ => rfl
    rw [g1, this]; rfl

/-- **C82** The values of the numbers that are not declared: cutoff length 40, labeled evaluation, at most 10 errors, everything else off. -/
theorem C82_defaults (ws : Char → Bool) (toInt : Str → Option Int) (lines : List Str) (ds : List Spec.Decl) (st : PState)
    (hs : List.Forall₂ (Spec.Says ws toInt) lines ds) (h : readparam ws toInt lines = .ok st) (k : Str) (hk : ∀ i, .num k i ∉ ds) :
    (k = "CUTOFF_LEN".toList → st.num k = 40) ∧ (k = "LABELED".toList → st.num k = 1) ∧ (k = "MAX_ERROR".toList → st.num k = 10) ∧
    (k ∈ ["DEBUG".toList, "DISC_ONLY".toList, "LA".toList, "TED".toList, "DEP".toList, "DELETE_ROOT_PRETERMS".toList] → st.num k = 0) := by
  rw [(C82_values ws toInt lines ds st hs h).2.1 k hk]
  refine ⟨?_, ?_, ?_, ?_⟩
  · rintro rfl; rfl
  · rintro rfl; rfl
  · rintro rfl; rfl
  · intro hm
    simp only [List.mem_cons, List.not_mem_nil, or_false] at hm
    rcases hm with rfl | rfl | rfl | rfl | rfl | rfl <;> rfl

theorem repOf_spec {pairs : List (Str × Str)} {s : St Str} (hr : Reach pairs s) (hd : Done s) (x : Str) :
    (x ∈ Closure.Spec.elems pairs → ∃ k, repOf s.classes x = some k ∧ (∃ c, (k, c) ∈ s.classes) ∧ Closure.Spec.Conn pairs k x) ∧
    (x ∉ Closure.Spec.elems pairs → repOf s.classes x = none) := by
  obtain ⟨h1, h2, _⟩ := Closure.C30_classes pairs s hr hd
  constructor
  · intro hx
    obtain ⟨k, c, hk, hc⟩ := h2 x hx
    cases e : s.classes.reverse.find? fun p => decide (x ∈ p.2) with
    | none =>
      have := List.find?_eq_none.1 e (k, c) (by simpa using hk)
      simp [hc] at this
    | some p =>
      have hp : p ∈ s.classes := by simpa using List.mem_of_find?_eq_some e
      have hx' := List.find?_some e
      refine ⟨p.1, by rw [repOf, e]; rfl, ⟨p.2, hp⟩, ((h1 p.1 p.2 hp).2 x).1 (by simpa using hx')⟩
  · intro hx
    rw [repOf, Option.map_eq_none_iff, List.find?_eq_none]
    intro p hp
    have hp : p ∈ s.classes := by simpa using hp
    simp only [decide_eq_true_eq]
    intro hxp
    obtain ⟨g1, g2⟩ := h1 p.1 p.2 hp
    refine hx ?_
    have hc := (g2 x).1 hxp
    have : ∀ a b, Closure.Spec.Conn pairs a b → (a ∈ Closure.Spec.elems pairs ↔ b ∈ Closure.Spec.elems pairs) := by
      intro a b h
      induction h with
      | rel a b h =>
        simp only [Closure.Spec.elems, List.mem_append, List.mem_map]
        exact ⟨fun _ => Or.inr ⟨_, h, rfl⟩, fun _ => Or.inl ⟨_, h, rfl⟩⟩
      | refl => exact Iff.rfl
      | symm _ _ _ ih => exact ih.symm
      | trans _ _ _ _ _ i1 i2 => exact i1.trans i2
    exact (this _ _ hc).1 g1

theorem conn_unmentioned {pairs : List (Str × Str)} {x y : Str} (h : Closure.Spec.Conn pairs x y) :
    x = y ∨ (x ∈ Closure.Spec.elems pairs ∧ y ∈ Closure.Spec.elems pairs) := by
  induction h with
  | rel a b h => exact Or.inr ⟨by simp only [Closure.Spec.elems, List.mem_append, List.mem_map]; exact Or.inl ⟨_, h, rfl⟩,
      by simp only [Closure.Spec.elems, List.mem_append, List.mem_map]; exact Or.inr ⟨_, h, rfl⟩⟩
  | refl => exact Or.inl rfl
  | symm _ _ _ ih => rcases ih with rfl | ⟨h1, h2⟩
                     · exact Or.inl rfl
                     · exact Or.inr ⟨h2, h1⟩
  | trans _ _ _ _ _ i1 i2 =>
    rcases i1 with rfl | ⟨h1, h2⟩
    · exact i2
    · rcases i2 with rfl | ⟨h3, h4⟩
      · exact Or.inr ⟨h1, h2⟩
      · exact Or.inr ⟨h1, h4⟩

/-- **C82** Two labels (for `EQ_WORD`: two words) are treated as equal in evaluation if and only if a chain of pairs in the file connects them, for every
order in which Python may go through the sets; this includes labels that do not occur in any pair, which are equal only to themselves. `pairs` is the
set of pairs in any order. -/
theorem C82_equal (ws : Char → Bool) (toInt : Str → Option Int) (lines : List Str) (ds : List Spec.Decl) (st : PState)
    (hs : List.Forall₂ (Spec.Says ws toInt) lines ds) (h : readparam ws toInt lines = .ok st) (key : Str) (pairs : List (Str × Str))
    (hp : ∀ p, p ∈ pairs ↔ p ∈ st.pairs key) (s : St Str) (hr : Reach pairs s) (hd : Done s) (x y : Str) :
    (repOf s.classes x).getD x = (repOf s.classes y).getD y ↔ Relation.EqvGen (fun a b => Spec.Decl.pair key a b ∈ ds) x y := by
  have hv := (C82_values ws toInt lines ds st hs h).2.2.2
  have hc : Relation.EqvGen (fun a b => Spec.Decl.pair key a b ∈ ds) x y ↔ Closure.Spec.Conn pairs x y := by
    rw [Closure.Spec.Conn]
    have : (fun a b => Spec.Decl.pair key a b ∈ ds) = (fun a b => (a, b) ∈ pairs) := by
      funext a b
      rw [hp, hv]
    rw [this]
  rw [hc]
  have h3 := (Closure.C30_classes pairs s hr hd).2.2
  obtain ⟨hx1, hx2⟩ := repOf_spec hr hd x
  obtain ⟨hy1, hy2⟩ := repOf_spec hr hd y
  by_cases hx : x ∈ Closure.Spec.elems pairs
  · obtain ⟨k, e, ⟨c, hkc⟩, hk⟩ := hx1 hx
    by_cases hy : y ∈ Closure.Spec.elems pairs
    · obtain ⟨k', e', ⟨c', hkc'⟩, hk'⟩ := hy1 hy
      rw [e, e']
      simp only [Option.getD_some]
      constructor
      · rintro rfl
        exact hk.symm.trans hk'
      · intro hxy
        by_contra hne
        have hkk : Closure.Spec.Conn pairs k k' := (hk.trans hxy).trans hk'.symm
        have hm1 : k ∈ s.classes.map Prod.fst := List.mem_map.2 ⟨_, hkc, rfl⟩
        have hm2 : k' ∈ s.classes.map Prod.fst := List.mem_map.2 ⟨_, hkc', rfl⟩
        obtain ⟨i, hi, ei⟩ := List.mem_iff_getElem.1 hm1
        obtain ⟨j, hj, ej⟩ := List.mem_iff_getElem.1 hm2
        rw [List.pairwise_iff_getElem] at h3
        rcases Nat.lt_trichotomy i j with hl | rfl | hl
        · exact h3 i j hi hj hl (by rw [ei, ej]; exact hkk)
        · exact hne (ei.symm.trans ej)
        · exact h3 j i hj hi hl (by rw [ei, ej]; exact hkk.symm)
    · rw [e, hy2 hy]
      simp only [Option.getD_some, Option.getD_none]
      constructor
      · rintro rfl
        exact hk.symm
      · intro hxy
        rcases conn_unmentioned hxy with rfl | hh
        · exact absurd hx hy
        · exact absurd hh.2 hy
  · rw [hx2 hx]
    by_cases hy : y ∈ Closure.Spec.elems pairs
    · obtain ⟨k', e', -, hk'⟩ := hy1 hy
      rw [e']
      simp only [Option.getD_some, Option.getD_none]
      constructor
      · rintro rfl
        exact hk'
      · intro hxy
        rcases conn_unmentioned hxy with rfl | hh
        · exact absurd hy hx
        · exact absurd hh.1 hx
    · rw [hy2 hy]
      simp only [Option.getD_none]
      constructor
      · rintro rfl
        exact .refl _
      · intro hxy
        rcases conn_unmentioned hxy with h | hh
        · exact h
        · exact absurd hh.1 hx

theorem forall₂_perm {α β : Type} {R : α → β → Prop} {l l' : List α} (hp : l.Perm l') : ∀ {m : List β}, List.Forall₂ R l m →
    ∃ m', List.Forall₂ R l' m' ∧ m.Perm m' := by
  induction hp with
  | nil => intro m h; exact ⟨m, h, .refl _⟩
  | cons x _ ih =>
    intro m h
    cases h with
    | cons h1 h2 =>
      obtain ⟨m', g1, g2⟩ := ih h2
      exact ⟨_ :: m', .cons h1 g1, g2.cons _⟩
  | swap x y l =>
    intro m h
    cases h with
    | cons h1 h2 =>
      cases h2 with
      | cons h3 h4 => exact ⟨_ :: _ :: _, .cons h3 (.cons h1 h4), .swap ..⟩
  | trans _ _ i1 i2 =>
    intro m h
    obtain ⟨m1, g1, g2⟩ := i1 h
    obtain ⟨m2, g3, g4⟩ := i2 g1
    exact ⟨m2, g3, g2.trans g4⟩

/-- **C82** The order of the lines does not matter: a file with the same lines in another order is accepted as well, with the same numbers and sets. -/
theorem C82_order (ws : Char → Bool) (toInt : Str → Option Int) (lines lines' : List Str) (hp : lines.Perm lines') (st : PState)
    (h : readparam ws toInt lines = .ok st) :
    ∃ st', readparam ws toInt lines' = .ok st' ∧ (∀ k, st'.num k = st.num k) ∧ (∀ k v, v ∈ st'.sets k ↔ v ∈ st.sets k) ∧
      ∀ k b c, (b, c) ∈ st'.pairs k ↔ (b, c) ∈ st.pairs k := by
  obtain ⟨ds, h1, h2⟩ := (C82_accepted ws toInt lines).1 ⟨st, h⟩
  obtain ⟨ds', g1, g2⟩ := forall₂_perm hp h1
  obtain ⟨st', h'⟩ := (C82_accepted ws toInt lines').2 ⟨ds', g1, ((g2.filterMap _).nodup_iff).1 h2⟩
  obtain ⟨a1, a2, a3, a4⟩ := C82_values ws toInt lines ds st h1 h
  obtain ⟨b1, b2, b3, b4⟩ := C82_values ws toInt lines' ds' st' g1 h'
  refine ⟨st', h', fun k => ?_, fun k v => by rw [a3, b3, g2.mem_iff], fun k b c => by rw [a4, b4, g2.mem_iff]⟩
  by_cases hk : ∃ i, .num k i ∈ ds
  · obtain ⟨i, hi⟩ := hk
    rw [a1 k i hi, b1 k i (g2.mem_iff.1 hi)]
  · have hk : ∀ i, .num k i ∉ ds := fun i hi => hk ⟨i, hi⟩
    rw [a2 k hk, b2 k fun i hi => hk i (g2.mem_iff.2 hi)]

/-- White space for the examples. -/
def wsEx (c : Char) : Bool := c = ' ' || c = '\t'

/-- `int` for the examples: one digit. -/
def intEx (s : Str) : Option Int := match s with
  | [c] => if c.isDigit then some (c.toNat - 48 : Nat) else none
  | _ => none

/-- A file that is accepted, with a comment, a number, a set and pairs. -/
example : (match readparam wsEx intEx ["# comment".toList, [], "LABELED 0".toList, "DELETE_LABEL TOP".toList, "  EQ_LABEL ADVP  PRT".toList,
      "EQ_LABEL PRT X".toList] with
    | .ok st => decide (st.num "LABELED".toList = 0 ∧ st.num "CUTOFF_LEN".toList = 40 ∧ st.sets "DELETE_LABEL".toList = ["TOP".toList] ∧
        st.pairs "EQ_LABEL".toList = [("PRT".toList, "X".toList), ("ADVP".toList, "PRT".toList)])
    | .error _ => false) = true := by decide +kernel

/-- The files that are rejected. -/
example : (match readparam wsEx intEx ["DEBUG 0".toList, "DEBUG 1".toList] with | .error e => decide (e = .twice "DEBUG".toList) | _ => false) = true ∧
    (match readparam wsEx intEx ["EQ_LABEL A B C".toList] with | .error e => decide (e = .notTwo "EQ_LABEL".toList) | _ => false) = true ∧
    (match readparam wsEx intEx ["DELETE A".toList] with | .error e => decide (e = .unknown "DELETE".toList) | _ => false) = true := by decide +kernel

/-- **C82, disagreement** White space at the end of a line (which EVALB ignores) becomes part of the label: `TOP` is not deleted. -/
theorem C82_trailing_disagreement : ∃ st, readparam wsEx intEx ["DELETE_LABEL TOP ".toList] = .ok st ∧
    st.sets "DELETE_LABEL".toList = ["TOP ".toList] ∧ ∀ labels words, (toParam st labels words).delLabel "TOP".toList = false := by
  refine ⟨_, rfl, rfl, fun _ _ => rfl⟩

/-- **C82, disagreement** A line of white space only is not treated as an empty line: the whole file is rejected. -/
theorem C82_blank_disagreement (ws : Char → Bool) (toInt : Str → Option Int) (c : Char) (line : Str) (hc : c ≠ '#') (h : ∀ x ∈ c :: line, ws x = true)
    (l1 l2 : List Str) : ∀ st, readparam ws toInt (l1 ++ (c :: line) :: l2) ≠ .ok st := by
  intro st hst
  obtain ⟨ds, h1, -⟩ := (C82_accepted ws toInt _).1 ⟨st, hst⟩
  have hs : split1 ws (c :: line) = [] := by
    have : (c :: line).dropWhile ws = [] := by
      by_contra hne
      obtain ⟨x, q, e, hx⟩ := dropWhile_head hne
      have := h x ((List.dropWhile_suffix ws).subset (by rw [e]; simp))
      simp [this] at hx
    simp [split1, this]
  have key : ∀ l ds, List.Forall₂ (Spec.Says ws toInt) (l ++ (c :: line) :: l2) ds → False := by
    intro l
    induction l with
    | nil =>
      intro ds h
      cases h with
      | cons hd _ =>
        cases hd with
        | comment r => exact hc rfl
        | num _ k v i _ _ _ g => rw [gives_iff, hs] at g; simp at g
        | elem _ k v _ _ g => rw [gives_iff, hs] at g; simp at g
        | pair _ k v b c _ _ g => rw [gives_iff, hs] at g; simp at g
    | cons a l ih =>
      intro ds h
      cases h with
      | cons _ h2 => exact ih _ h2
  exact key l1 ds h1
end Disco.Params
