import Verif.Estimate.Sx
import Verif.Parse.PlcfrsItems
/-!
# C59: the agenda parser with outside estimates (A*), `parse_main` with `estimates` (plcfrs.pyx:355-600), `populatepos` (668-757)

Simplifications as in C25 (Parse/Plcfrs.lean), whose definitions of items, charts and `process_edge` are used. The table of estimates is a function from items, `none` for `INFINITY`.
-/
set_option linter.unusedSectionVars false
namespace Disco.Astar
open Dict Bits Plcfrs

variable {V : Type} [DecidableEq V] {R : Type} [AddCommGroup R] [LinearOrder R] [IsOrderedAddMonoid R]

/-! ### Model -/

/-- `score += outside[...]; if score > MAX_LOGPROB: continue` (plcfrs.pyx:440-448, 503-518, 566-581, 732-740): `none` if the edge is skipped. -/
def score (est : Item V → Option R) (M : R) (x : Item V) (prob : R) : Option R := (est x).bind (fun e => if M < prob + e then none else some (prob + e))

/-- An edge is skipped, or given to `process_edge` (plcfrs.pyx:454-465, 521-530, 584-592). -/
def tryEdge (est : Item V → Option R) (M : R) (allowed : Item V → Bool) (st : State V R) (x : Item V) (prob : R) (r : PRule R) (left : Item V) : State V R :=
  match score est M x prob with
  | none => st
  | some s => processEdge allowed st x prob s r left

/-- The unary rules for an item (plcfrs.pyx:415-465). -/
def unaries (est : Item V → Option R) (M : R) (g : Grammar R) (allowed : Item V → Bool) (x : Item V) (prob : R) (st : State V R) : State V R :=
  (g.unary.filter (fun r => decide (r.rhs1 = x.label))).foldl (fun st r => tryEdge est M allowed st ⟨r.lhs, x.vec⟩ (prob + r.prob) r x) st

/-- The binary rules with the item on the right (plcfrs.pyx:466-530). -/
def rights (est : Item V → Option R) (M : R) (o : Ops V) (g : Grammar R) (allowed : Item V → Bool) (x : Item V) (prob : R) (st : State V R) : State V R :=
  (g.rbinary.filter (fun r => decide (r.rhs2 = x.label))).foldl (fun st r =>
    (st.items.filter (fun y => decide (y.label = r.rhs1))).foldl (fun st sib =>
      if o.concat r.args r.lengths sib.vec x.vec then
        match st.probs sib with
        | none => st
        | some p => tryEdge est M allowed st ⟨r.lhs, o.combine sib.vec x.vec⟩ (prob + p + r.prob) r sib
      else st) st) st

/-- The binary rules with the item on the left (plcfrs.pyx:531-592). -/
def lefts (est : Item V → Option R) (M : R) (o : Ops V) (g : Grammar R) (allowed : Item V → Bool) (x : Item V) (prob : R) (st : State V R) : State V R :=
  (g.lbinary.filter (fun r => decide (r.rhs1 = x.label))).foldl (fun st r =>
    (st.items.filter (fun y => decide (y.label = r.rhs2))).foldl (fun st sib =>
      if o.concat r.args r.lengths x.vec sib.vec then
        match st.probs sib with
        | none => st
        | some p => tryEdge est M allowed st ⟨r.lhs, o.combine x.vec sib.vec⟩ (prob + p + r.prob) r x
      else st) st) st

/-- The main loop (plcfrs.pyx:404-594), for a number of rounds. -/
def loop (est : Item V → Option R) (M : R) (o : Ops V) (g : Grammar R) (allowed : Item V → Bool) (pick : Nat → Dict (Item V) (R × R) → Item V) (goal : Item V) (exhaustive : Bool) :
    Nat → State V R → Option (State V R)
  | fuel, st =>
    if st.agenda.isEmpty then some st
    else match fuel with
      | 0 => none
      | fuel + 1 => (get? st.agenda (pick fuel st.agenda)).bind (fun v =>
        let x := pick fuel st.agenda
        let st := updateProb { st with agenda := erase st.agenda x } x v.2
        if x = goal then (if exhaustive then loop est M o g allowed pick goal exhaustive fuel st else some st)
        else loop est M o g allowed pick goal exhaustive fuel
          (lefts est M o g allowed x v.2 (rights est M o g allowed x v.2 (unaries est M g allowed x v.2 st))))

/-- `process_lexedge` (plcfrs.pyx:832-879); the exception is `none`. -/
def processLex (allowed : Item V → Bool) (st : State V R) (x : Item V) (prob sc : R) (word : Nat) : Option (State V R × Bool) :=
  let st := { st with items := if x ∈ st.items then st.items else st.items ++ [x] }
  if (get? st.agenda x).isSome then some (st, false)
  else if !(st.forest x).isEmpty then none
  else if !allowed x then some (st, false)
  else some (addEdge { st with agenda := Dict.set st.agenda x (sc, prob) } x (.lex word), true)

/-- The lexical rules of one word (plcfrs.pyx:722-757). -/
def tagWord (est : Item V → Option R) (M : R) (o : Ops V) (allowed : Item V → Bool) (i : Nat) : List (Nat × R) → State V R × Bool → Option (State V R × Bool)
  | [], st => some st
  | (t, p) :: rest, (st, recognized) => match score est M ⟨t, o.unit i⟩ p with
    | none => tagWord est M o allowed i rest (st, recognized)
    | some s => (processLex allowed st ⟨t, o.unit i⟩ p s i).bind (fun (st, ok) => tagWord est M o allowed i rest (st, recognized || ok))

/-- `populatepos` (plcfrs.pyx:668-829). -/
def populate (est : Item V → Option R) (M : R) (o : Ops V) (g : Grammar R) (allowed : Item V → Bool) : List Nat → State V R → Result (State V R)
  | [], st => .ok st
  | i :: rest, st => match tagWord est M o allowed i (g.lexicon i) (st, false) with
    | none => .error
    | some (st, true) => populate est M o g allowed rest st
    | some (_, false) => .notags i

/-- `parse` with `estimates` (plcfrs.pyx:306-404). -/
def parse (est : Item V → Option R) (M : R) (o : Ops V) (g : Grammar R) (allowed : Item V → Bool) (pick : Nat → Dict (Item V) (R × R) → Item V) (goal : Item V) (exhaustive : Bool)
    (n fuel : Nat) : Option (Result (State V R)) :=
  match populate est M o g allowed (List.range n) State.init with
  | .ok st => if st.agenda.isEmpty then some .error else (loop est M o g allowed pick goal exhaustive fuel st).map .ok
  | .notags i => some (.notags i)
  | .error => some .error

/-! ### Specification -/

/-- The estimate of a part of a derivation is at most the cost of what the parent adds, plus the estimate of the parent. -/
structure Spec.Consistent (est : Item V → Option R) (o : Ops V) (g : Grammar R) (allowed : Item V → Bool) (n : Nat) : Prop where
  unary : ∀ r ∈ g.unary, ∀ v c e, Spec.Derives o g allowed n ⟨r.rhs1, v⟩ c → est ⟨r.lhs, v⟩ = some e → ∃ e', est ⟨r.rhs1, v⟩ = some e' ∧ e' ≤ r.prob + e
  left : ∀ r ∈ g.lbinary, ∀ v w c d e, Spec.Derives o g allowed n ⟨r.rhs1, v⟩ c → Spec.Derives o g allowed n ⟨r.rhs2, w⟩ d → o.concat r.args r.lengths v w = true →
    est ⟨r.lhs, o.combine v w⟩ = some e → ∃ e', est ⟨r.rhs1, v⟩ = some e' ∧ e' ≤ r.prob + d + e
  right : ∀ r ∈ g.lbinary, ∀ v w c d e, Spec.Derives o g allowed n ⟨r.rhs1, v⟩ c → Spec.Derives o g allowed n ⟨r.rhs2, w⟩ d → o.concat r.args r.lengths v w = true →
    est ⟨r.lhs, o.combine v w⟩ = some e → ∃ e', est ⟨r.rhs2, w⟩ = some e' ∧ e' ≤ r.prob + c + e

/-- The arrays have the same binary rules, the goal is not on a right-hand side, and a word does not have the same tag twice. -/
structure Spec.Parsable (g : Grammar R) (n : Nat) (goal : Nat) : Prop where
  unary : ∀ r ∈ g.unary, r.rhs1 ≠ goal
  binary : ∀ r ∈ g.lbinary, r.rhs1 ≠ goal ∧ r.rhs2 ≠ goal
  same : ∀ r, r ∈ g.rbinary ↔ r ∈ g.lbinary
  tags : ∀ i < n, ((g.lexicon i).map Prod.fst).Nodup

/-- An edge that explains a cost: the cost of the lexical rule, or the costs of the parts in the chart and of the rule. -/
def Spec.Explains (o : Ops V) (g : Grammar R) (probs : Item V → Option R) (x : Item V) (c : R) : Edge V R → Prop
  | .lex i => x.vec = o.unit i ∧ (x.label, c) ∈ g.lexicon i
  | .rule r left => r.lhs = x.label ∧ left.label = r.rhs1 ∧ ∃ d, probs left = some d ∧
      (r ∈ g.unary ∧ x.vec = left.vec ∧ c = d + r.prob ∨
       r ∈ g.lbinary ∧ ∃ w e, probs ⟨r.rhs2, w⟩ = some e ∧ o.concat r.args r.lengths left.vec w = true ∧ x.vec = o.combine left.vec w ∧ c = d + e + r.prob)

/-! ### One edge -/

section
variable {o : Ops V} {g : Grammar R} {allowed : Item V → Bool} {n : Nat} {univ : List V} {mem : V → Nat → Bool} {M : R} {est : Item V → Option R} {goal : Item V}

theorem score_some {x : Item V} {p s : R} : score est M x p = some s ↔ ∃ e, est x = some e ∧ s = p + e ∧ p + e ≤ M := by
  unfold score
  constructor
  · intro h
    obtain ⟨e, h1, h2⟩ := Option.bind_eq_some_iff.1 h
    split at h2
    · cases h2
    · rename_i hlt
      injection h2 with h2
      exact ⟨e, h1, h2.symm, not_lt.1 hlt⟩
  · rintro ⟨e, h1, rfl, h2⟩
    rw [h1, Option.bind_some, if_neg (not_lt.2 h2)]

/-- Facts about the chart that hold all the time. -/
structure Ok (est : Item V → Option R) (M : R) (o : Ops V) (g : Grammar R) (allowed : Item V → Bool) (n : Nat) (st : State V R) : Prop where
  wf : WF st.agenda
  agenda : ∀ x s c, get? st.agenda x = some (s, c) → Spec.Derives o g allowed n x c ∧ score est M x c = some s ∧ st.probs x = none
  probs : ∀ x c, st.probs x = some c → Spec.Derives o g allowed n x c ∧ (∀ d, Spec.Derives o g allowed n x d → c ≤ d) ∧ ∃ s, score est M x c = some s
  forest : ∀ x, st.forest x = [] ↔ get? st.agenda x = none ∧ st.probs x = none
  items : ∀ x, st.forest x ≠ [] → x ∈ st.items
  why : ∀ x c, (st.probs x = some c ∨ ∃ s, get? st.agenda x = some (s, c)) → ∃ e ∈ st.forest x, Spec.Explains o g st.probs x c e

/-- What an edge (or several) changes. -/
structure More (st st' : State V R) : Prop where
  probs : st'.probs = st.probs
  known : ∀ x c, Known st x c → Known st' x c
  items : ∀ x ∈ st.items, x ∈ st'.items

theorem More.refl (st : State V R) : More st st := ⟨rfl, fun _ _ h => h, fun _ h => h⟩
theorem More.trans {s1 s2 s3 : State V R} (h : More s1 s2) (h' : More s2 s3) : More s1 s3 :=
  ⟨h'.probs.trans h.probs, fun x c k => h'.known x c (h.known x c k), fun x k => h'.items x (h.items x k)⟩

/-- A new entry in the agenda, with an edge. -/
theorem ok_entry {st : State V R} (K : Ok est M o g allowed n st) {x : Item V} {s c : R} {e : Edge V R} {its : List (Item V)} (hits : ∀ y, y ∈ its ↔ y = x ∨ y ∈ st.items) (hpr : st.probs x = none)
    (hD : Spec.Derives o g allowed n x c) (hs : score est M x c = some s) (he : Spec.Explains o g st.probs x c e) (hold : ∀ s' c', get? st.agenda x = some (s', c') → c ≤ c') :
    Ok est M o g allowed n (addEdge { st with items := its, agenda := Dict.set st.agenda x (s, c) } x e) ∧
      More st (addEdge { st with items := its, agenda := Dict.set st.agenda x (s, c) } x e) ∧ Known (addEdge { st with items := its, agenda := Dict.set st.agenda x (s, c) } x e) x c := by
  have hf : ∀ y, (addEdge { st with items := its, agenda := Dict.set st.agenda x (s, c) } x e).forest y = if y = x then st.forest x ++ [e] else st.forest y := by
    intro y
    simp only [addEdge]
    by_cases hy : y = x
    · subst hy; simp
    · rw [if_neg hy, Function.update_of_ne hy]
  refine ⟨⟨K.wf.set _ _, ?_, K.probs, ?_, ?_, ?_⟩, ⟨rfl, ?_, fun y hy => (hits y).2 (.inr hy)⟩, .inr ⟨s, c, get?_set_self _ _ _, le_refl _⟩⟩
  · intro y s' c' hy
    simp only [addEdge, get?_set] at hy ⊢
    split at hy
    · rename_i hxy; subst hxy
      injection hy with hy; injection hy with h1 h2; subst h1; subst h2
      exact ⟨hD, hs, hpr⟩
    · exact K.agenda y s' c' hy
  · intro y
    rw [hf]
    simp only [addEdge, get?_set]
    by_cases hy : y = x
    · subst hy; simp
    · rw [if_neg hy, if_neg (Ne.symm hy)]; exact K.forest y
  · intro y hy
    rw [hf] at hy
    show y ∈ its
    rw [hits]
    split at hy
    · rename_i h; exact .inl h
    · exact .inr (K.items y hy)
  · intro y c' hy
    rw [hf]
    simp only [addEdge, get?_set] at hy ⊢
    by_cases hyx : y = x
    · subst hyx
      rw [if_pos rfl]
      rw [if_pos rfl] at hy
      rcases hy with hy | ⟨s', hy⟩
      · rw [hpr] at hy; cases hy
      · injection hy with hy; injection hy with h1 h2; subst h2
        exact ⟨e, by simp, he⟩
    · rw [if_neg hyx]
      rw [if_neg (Ne.symm hyx)] at hy
      exact K.why y c' hy
  · rintro y d (hy | ⟨s', c', hy, hle⟩)
    · exact .inl hy
    · by_cases hyx : y = x
      · subst hyx
        exact .inr ⟨s, c, get?_set_self _ _ _, (hold s' c' hy).trans hle⟩
      · refine .inr ⟨s', c', ?_, hle⟩
        simp only [addEdge, get?_set]
        rw [if_neg (Ne.symm hyx)]
        exact hy

/-- An edge for an item that keeps its cost. -/
theorem ok_edge {st : State V R} (K : Ok est M o g allowed n st) {x : Item V} {e : Edge V R} (hx : st.forest x ≠ []) :
    Ok est M o g allowed n (addEdge st x e) ∧ More st (addEdge st x e) := by
  have hf : ∀ y, (addEdge st x e).forest y = if y = x then st.forest x ++ [e] else st.forest y := by
    intro y
    simp only [addEdge]
    by_cases hy : y = x
    · subst hy; simp
    · rw [if_neg hy, Function.update_of_ne hy]
  refine ⟨⟨K.wf, K.agenda, K.probs, ?_, ?_, ?_⟩, ⟨rfl, fun _ _ h => h, fun _ h => h⟩⟩
  · intro y
    rw [hf]
    by_cases hy : y = x
    · subst hy
      rw [if_pos rfl]
      have : ¬ (get? st.agenda y = none ∧ st.probs y = none) := fun h => hx ((K.forest y).2 h)
      exact ⟨fun h => by simp at h, fun h => absurd h this⟩
    · rw [if_neg hy]; exact K.forest y
  · intro y hy
    rw [hf] at hy
    split at hy
    · rename_i h; exact K.items y (h ▸ hx)
    · exact K.items y hy
  · intro y c hy
    obtain ⟨e', h1, h2⟩ := K.why y c hy
    refine ⟨e', ?_, h2⟩
    rw [hf]
    split
    · rename_i h; subst h; exact List.mem_append_left _ h1
    · exact h1

theorem items_if {x : Item V} {its : List (Item V)} : ∀ y, (y ∈ if x ∈ its then its else its ++ [x]) ↔ y = x ∨ y ∈ its := by
  intro y
  split
  · rename_i h
    constructor
    · exact .inr
    · rintro (rfl | h')
      · exact h
      · exact h'
  · rw [List.mem_append, List.mem_singleton, or_comm]

theorem processEdge_ok {st : State V R} (K : Ok est M o g allowed n st) {x : Item V} {c s : R} {r : PRule R} {left : Item V} (hD : allowed x = true → Spec.Derives o g allowed n x c)
    (hs : score est M x c = some s) (he : Spec.Explains o g st.probs x c (.rule r left)) :
    Ok est M o g allowed n (processEdge allowed st x c s r left) ∧ More st (processEdge allowed st x c s r left) ∧ (allowed x = true → Known (processEdge allowed st x c s r left) x c) := by
  unfold processEdge
  by_cases ha : allowed x = true
  · have hD := hD ha
    by_cases hnew : (get? st.agenda x).isNone && (st.forest x).isEmpty
    · rw [if_pos hnew, if_pos ha]
      simp only [Bool.and_eq_true, Option.isNone_iff_eq_none, List.isEmpty_iff] at hnew
      obtain ⟨h1, h2, h3⟩ := ok_entry K items_if ((K.forest x).1 hnew.2).2 hD hs he (by intro s' c' h; rw [hnew.1] at h; cases h)
      exact ⟨h1, h2, fun _ => h3⟩
    · rw [if_neg hnew]
      have hfx : st.forest x ≠ [] := by
        intro hf
        rw [((K.forest x).1 hf).1, hf] at hnew
        simp at hnew
      cases hg : get? st.agenda x with
      | some v =>
        obtain ⟨s', c'⟩ := v
        rw [Option.isSome_some, if_pos rfl]
        obtain ⟨hD', hs', hpr⟩ := K.agenda x s' c' hg
        obtain ⟨e, he1, rfl, _⟩ := score_some.1 hs
        obtain ⟨e', he2, rfl, _⟩ := score_some.1 hs'
        rw [he1] at he2; injection he2 with he2; subst he2
        unfold setIfBetter
        rw [hg]
        simp only
        split
        · rename_i hlt
          have hlt : c < c' := by
            simp only [ltPair, Bool.or_eq_true, Bool.and_eq_true, decide_eq_true_eq] at hlt
            rcases hlt with h | ⟨_, h⟩
            · exact lt_of_add_lt_add_right h
            · exact h
          obtain ⟨h1, h2, h3⟩ := ok_entry (its := st.items) K (fun y => ⟨.inr, by rintro (rfl | h); exacts [K.items y hfx, h]⟩) hpr hD hs he
            (by intro s'' c'' h; rw [hg] at h; injection h with h; injection h with _ h; subst h; exact hlt.le)
          exact ⟨h1, h2, fun _ => h3⟩
        · rename_i hlt
          have hle : c' ≤ c := by
            by_contra hc
            apply hlt
            simp only [ltPair, Bool.or_eq_true, decide_eq_true_eq]
            exact .inl (add_lt_add_left (not_le.1 hc) _)
          obtain ⟨h1, h2⟩ := ok_edge (e := .rule r left) K hfx
          exact ⟨h1, h2, fun _ => h2.known _ _ (.inr ⟨_, c', hg, hle⟩)⟩
      | none =>
        rw [Option.isSome_none, if_neg (by simp)]
        cases hpr : st.probs x with
        | none => exact absurd ((K.forest x).2 ⟨hg, hpr⟩) hfx
        | some d =>
          have hle := (K.probs x d hpr).2.1 c hD
          rw [Option.all_some, if_neg (by simpa using hle)]
          obtain ⟨h1, h2⟩ := ok_edge (e := .rule r left) K hfx
          exact ⟨h1, h2, fun _ => h2.known _ _ (.inl ⟨d, hpr, hle⟩)⟩
  · have h1 : get? st.agenda x = none := by
      cases hg : get? st.agenda x with
      | none => rfl
      | some v => exact absurd (derives_allowed (K.agenda x v.1 v.2 hg).1) ha
    have h2 : st.probs x = none := by
      cases hg : st.probs x with
      | none => rfl
      | some c => exact absurd (derives_allowed (K.probs x c hg).1) ha
    have h3 := (K.forest x).2 ⟨h1, h2⟩
    rw [h1, h3, if_pos (by simp), if_neg ha]
    exact ⟨K, More.refl _, fun h => absurd h ha⟩

theorem tryEdge_ok {st : State V R} (K : Ok est M o g allowed n st) {x : Item V} {c : R} {r : PRule R} {left : Item V} (hD : allowed x = true → Spec.Derives o g allowed n x c)
    (he : Spec.Explains o g st.probs x c (.rule r left)) :
    Ok est M o g allowed n (tryEdge est M allowed st x c r left) ∧ More st (tryEdge est M allowed st x c r left) ∧
      (allowed x = true → ∀ s, score est M x c = some s → Known (tryEdge est M allowed st x c r left) x c) := by
  unfold tryEdge
  cases hs : score est M x c with
  | none => exact ⟨K, More.refl _, by intro _ s h; cases h⟩
  | some s =>
    obtain ⟨h1, h2, h3⟩ := processEdge_ok (left := left) K hD hs he
    exact ⟨h1, h2, fun ha _ _ => h3 ha⟩

/-- A loop. -/
theorem fold_ok {α : Type} {F : State V R → α → State V R} {Q : α → Item V → R → Prop} {P0 : Item V → Option R} (xs : List α)
    (hF : ∀ a ∈ xs, ∀ st, Ok est M o g allowed n st → st.probs = P0 → Ok est M o g allowed n (F st a) ∧ More st (F st a) ∧ ∀ y c, Q a y c → Known (F st a) y c) :
    ∀ st, Ok est M o g allowed n st → st.probs = P0 → Ok est M o g allowed n (xs.foldl F st) ∧ More st (xs.foldl F st) ∧ ∀ a ∈ xs, ∀ y c, Q a y c → Known (xs.foldl F st) y c := by
  induction xs with
  | nil => intro st K _; exact ⟨K, More.refl _, by simp⟩
  | cons a xs ih =>
    intro st K h0
    obtain ⟨h1, h2, h3⟩ := hF a (by simp) st K h0
    obtain ⟨e1, e2, e3⟩ := ih (fun b hb => hF b (List.mem_cons_of_mem _ hb)) (F st a) h1 (h2.probs.trans h0)
    refine ⟨e1, h2.trans e2, ?_⟩
    intro b hb y c hQ
    rcases List.mem_cons.1 hb with rfl | hb
    · exact e2.known _ _ (h3 y c hQ)
    · exact e3 b hb y c hQ

theorem unaries_ok {st : State V R} (K : Ok est M o g allowed n st) {x : Item V} {c : R} (hx : st.probs x = some c) :
    Ok est M o g allowed n (unaries est M g allowed x c st) ∧ More st (unaries est M g allowed x c st) ∧
      ∀ r ∈ g.unary, r.rhs1 = x.label → allowed ⟨r.lhs, x.vec⟩ = true → ∀ s, score est M ⟨r.lhs, x.vec⟩ (c + r.prob) = some s → Known (unaries est M g allowed x c st) ⟨r.lhs, x.vec⟩ (c + r.prob) := by
  obtain ⟨h1, h2, h3⟩ := fold_ok (est := est) (M := M) (o := o) (g := g) (allowed := allowed) (n := n) (P0 := st.probs)
    (F := fun st r => tryEdge est M allowed st ⟨r.lhs, x.vec⟩ (c + r.prob) r x)
    (Q := fun r y d => y = ⟨r.lhs, x.vec⟩ ∧ d = c + r.prob ∧ allowed y = true ∧ ∃ s, score est M y d = some s)
    (g.unary.filter (fun r => decide (r.rhs1 = x.label))) (by
      intro r hr st' K' hp
      simp only [List.mem_filter, decide_eq_true_eq] at hr
      have hd : Spec.Derives o g allowed n ⟨r.rhs1, x.vec⟩ c := by rw [hr.2]; exact (K.probs x c hx).1
      obtain ⟨e1, e2, e3⟩ := tryEdge_ok (est := est) (M := M) (x := ⟨r.lhs, x.vec⟩) (c := c + r.prob) (r := r) (left := x) K' (fun ha => .unary hr.1 hd ha)
        ⟨rfl, hr.2.symm, c, by rw [hp]; exact hx, .inl ⟨hr.1, rfl, rfl⟩⟩
      refine ⟨e1, e2, ?_⟩
      rintro y d ⟨rfl, rfl, ha, s, hs⟩
      exact e3 ha s hs) st K rfl
  refine ⟨h1, h2, ?_⟩
  intro r hr hl ha s hs
  exact h3 r (by simp [hr, hl]) _ _ ⟨rfl, rfl, ha, s, hs⟩

theorem rights_ok (hsame : ∀ r, r ∈ g.rbinary ↔ r ∈ g.lbinary) {st : State V R} (K : Ok est M o g allowed n st) {x : Item V} {c : R} (hx : st.probs x = some c) :
    Ok est M o g allowed n (rights est M o g allowed x c st) ∧ More st (rights est M o g allowed x c st) ∧
      ∀ r ∈ g.lbinary, r.rhs2 = x.label → ∀ v p, st.probs ⟨r.rhs1, v⟩ = some p → o.concat r.args r.lengths v x.vec = true → allowed ⟨r.lhs, o.combine v x.vec⟩ = true →
        ∀ s, score est M ⟨r.lhs, o.combine v x.vec⟩ (p + c + r.prob) = some s → Known (rights est M o g allowed x c st) ⟨r.lhs, o.combine v x.vec⟩ (p + c + r.prob) := by
  have hx' := (K.probs x c hx).1
  obtain ⟨h1, h2, h3⟩ := fold_ok (est := est) (M := M) (o := o) (g := g) (allowed := allowed) (n := n) (P0 := st.probs)
    (F := fun st r => (st.items.filter (fun y => decide (y.label = r.rhs1))).foldl (fun st sib =>
      if o.concat r.args r.lengths sib.vec x.vec then
        match st.probs sib with
        | none => st
        | some p => tryEdge est M allowed st ⟨r.lhs, o.combine sib.vec x.vec⟩ (c + p + r.prob) r sib
      else st) st)
    (Q := fun r y d => ∃ v p, st.probs ⟨r.rhs1, v⟩ = some p ∧ o.concat r.args r.lengths v x.vec = true ∧ y = ⟨r.lhs, o.combine v x.vec⟩ ∧ d = p + c + r.prob ∧ allowed y = true ∧
      ∃ s, score est M y d = some s)
    (g.rbinary.filter (fun r => decide (r.rhs2 = x.label))) (by
      intro r hr st' K' hp
      simp only [List.mem_filter, decide_eq_true_eq] at hr
      obtain ⟨hr, hl⟩ := hr
      rw [hsame] at hr
      obtain ⟨e1, e2, e3⟩ := fold_ok (est := est) (M := M) (o := o) (g := g) (allowed := allowed) (n := n) (P0 := st.probs)
        (F := fun st sib => if o.concat r.args r.lengths sib.vec x.vec then
            match st.probs sib with
            | none => st
            | some p => tryEdge est M allowed st ⟨r.lhs, o.combine sib.vec x.vec⟩ (c + p + r.prob) r sib
          else st)
        (Q := fun sib y d => ∃ p, st.probs sib = some p ∧ o.concat r.args r.lengths sib.vec x.vec = true ∧ y = ⟨r.lhs, o.combine sib.vec x.vec⟩ ∧ d = p + c + r.prob ∧ allowed y = true ∧
          ∃ s, score est M y d = some s)
        (st'.items.filter (fun y => decide (y.label = r.rhs1))) (by
          intro sib hsib st'' K'' hp'
          simp only [List.mem_filter, decide_eq_true_eq] at hsib
          obtain ⟨hmem, hsl⟩ := hsib
          by_cases hc : o.concat r.args r.lengths sib.vec x.vec = true
          · rw [if_pos hc]
            cases hps : st''.probs sib with
            | none =>
              refine ⟨K'', More.refl _, ?_⟩
              rintro y d ⟨p, h, _⟩
              rw [hp'] at hps; rw [hps] at h; cases h
            | some p =>
              simp only
              have hs' : Spec.Derives o g allowed n ⟨r.rhs1, sib.vec⟩ p := by rw [← hsl]; exact (K''.probs sib p hps).1
              have hx'' : Spec.Derives o g allowed n ⟨r.rhs2, x.vec⟩ c := by rw [hl]; exact hx'
              have ec : c + p + r.prob = p + c + r.prob := by rw [add_comm c p]
              rw [ec]
              obtain ⟨e1, e2, e3⟩ := tryEdge_ok (est := est) (M := M) (x := ⟨r.lhs, o.combine sib.vec x.vec⟩) (c := p + c + r.prob) (r := r) (left := sib) K''
                (fun ha => .binary hr hs' hx'' hc ha)
                ⟨rfl, hsl, p, hps, .inr ⟨hr, x.vec, c, by rw [hp', hl]; exact hx, hc, rfl, rfl⟩⟩
              refine ⟨e1, e2, ?_⟩
              rintro y d ⟨q, hq, _, rfl, rfl, ha, s, hs⟩
              rw [hp', hq] at hps
              injection hps with hps; subst hps
              exact e3 ha s hs
          · rw [if_neg hc]
            exact ⟨K'', More.refl _, by rintro y d ⟨q, _, h, _⟩; exact absurd h hc⟩) st' K' hp
      refine ⟨e1, e2, ?_⟩
      rintro y d ⟨v, p, hv, hc, rfl, rfl, ha, s, hs⟩
      have hit : (⟨r.rhs1, v⟩ : Item V) ∈ st'.items := by
        refine K'.items _ ?_
        intro hf
        have := ((K'.forest _).1 hf).2
        rw [hp, hv] at this; cases this
      exact e3 ⟨r.rhs1, v⟩ (by simp [hit]) _ _ ⟨p, hv, hc, rfl, rfl, ha, s, hs⟩) st K rfl
  refine ⟨h1, h2, ?_⟩
  intro r hr hl v p hv hc ha s hs
  exact h3 r (by simp [hl, hsame, hr]) _ _ ⟨v, p, hv, hc, rfl, rfl, ha, s, hs⟩

theorem lefts_ok {st : State V R} (K : Ok est M o g allowed n st) {x : Item V} {c : R} (hx : st.probs x = some c) :
    Ok est M o g allowed n (lefts est M o g allowed x c st) ∧ More st (lefts est M o g allowed x c st) ∧
      ∀ r ∈ g.lbinary, r.rhs1 = x.label → ∀ v p, st.probs ⟨r.rhs2, v⟩ = some p → o.concat r.args r.lengths x.vec v = true → allowed ⟨r.lhs, o.combine x.vec v⟩ = true →
        ∀ s, score est M ⟨r.lhs, o.combine x.vec v⟩ (c + p + r.prob) = some s → Known (lefts est M o g allowed x c st) ⟨r.lhs, o.combine x.vec v⟩ (c + p + r.prob) := by
  have hx' := (K.probs x c hx).1
  obtain ⟨h1, h2, h3⟩ := fold_ok (est := est) (M := M) (o := o) (g := g) (allowed := allowed) (n := n) (P0 := st.probs)
    (F := fun st r => (st.items.filter (fun y => decide (y.label = r.rhs2))).foldl (fun st sib =>
      if o.concat r.args r.lengths x.vec sib.vec then
        match st.probs sib with
        | none => st
        | some p => tryEdge est M allowed st ⟨r.lhs, o.combine x.vec sib.vec⟩ (c + p + r.prob) r x
      else st) st)
    (Q := fun r y d => ∃ v p, st.probs ⟨r.rhs2, v⟩ = some p ∧ o.concat r.args r.lengths x.vec v = true ∧ y = ⟨r.lhs, o.combine x.vec v⟩ ∧ d = c + p + r.prob ∧ allowed y = true ∧
      ∃ s, score est M y d = some s)
    (g.lbinary.filter (fun r => decide (r.rhs1 = x.label))) (by
      intro r hr st' K' hp
      simp only [List.mem_filter, decide_eq_true_eq] at hr
      obtain ⟨hr, hl⟩ := hr
      obtain ⟨e1, e2, e3⟩ := fold_ok (est := est) (M := M) (o := o) (g := g) (allowed := allowed) (n := n) (P0 := st.probs)
        (F := fun st sib => if o.concat r.args r.lengths x.vec sib.vec then
            match st.probs sib with
            | none => st
            | some p => tryEdge est M allowed st ⟨r.lhs, o.combine x.vec sib.vec⟩ (c + p + r.prob) r x
          else st)
        (Q := fun sib y d => ∃ p, st.probs sib = some p ∧ o.concat r.args r.lengths x.vec sib.vec = true ∧ y = ⟨r.lhs, o.combine x.vec sib.vec⟩ ∧ d = c + p + r.prob ∧ allowed y = true ∧
          ∃ s, score est M y d = some s)
        (st'.items.filter (fun y => decide (y.label = r.rhs2))) (by
          intro sib hsib st'' K'' hp'
          simp only [List.mem_filter, decide_eq_true_eq] at hsib
          obtain ⟨hmem, hsl⟩ := hsib
          by_cases hc : o.concat r.args r.lengths x.vec sib.vec = true
          · rw [if_pos hc]
            cases hps : st''.probs sib with
            | none =>
              refine ⟨K'', More.refl _, ?_⟩
              rintro y d ⟨p, h, _⟩
              rw [hp'] at hps; rw [hps] at h; cases h
            | some p =>
              simp only
              have hs' : Spec.Derives o g allowed n ⟨r.rhs2, sib.vec⟩ p := by rw [← hsl]; exact (K''.probs sib p hps).1
              have hx'' : Spec.Derives o g allowed n ⟨r.rhs1, x.vec⟩ c := by rw [hl]; exact hx'
              obtain ⟨e1, e2, e3⟩ := tryEdge_ok (est := est) (M := M) (x := ⟨r.lhs, o.combine x.vec sib.vec⟩) (c := c + p + r.prob) (r := r) (left := x) K''
                (fun ha => .binary hr hx'' hs' hc ha)
                ⟨rfl, hl.symm, c, by rw [hp']; exact hx, .inr ⟨hr, sib.vec, p, by rw [← hsl]; exact hps, hc, rfl, rfl⟩⟩
              refine ⟨e1, e2, ?_⟩
              rintro y d ⟨q, hq, _, rfl, rfl, ha, s, hs⟩
              rw [hp', hq] at hps
              injection hps with hps; subst hps
              exact e3 ha s hs
          · rw [if_neg hc]
            exact ⟨K'', More.refl _, by rintro y d ⟨q, _, h, _⟩; exact absurd h hc⟩) st' K' hp
      refine ⟨e1, e2, ?_⟩
      rintro y d ⟨v, p, hv, hc, rfl, rfl, ha, s, hs⟩
      have hit : (⟨r.rhs2, v⟩ : Item V) ∈ st'.items := by
        refine K'.items _ ?_
        intro hf
        have := ((K'.forest _).1 hf).2
        rw [hp, hv] at this; cases this
      exact e3 ⟨r.rhs2, v⟩ (by simp [hit]) _ _ ⟨p, hv, hc, rfl, rfl, ha, s, hs⟩) st K rfl
  refine ⟨h1, h2, ?_⟩
  intro r hr hl v p hv hc ha s hs
  exact h3 r (by simp [hl, hr]) _ _ ⟨v, p, hv, hc, rfl, rfl, ha, s, hs⟩

/-! ### The loop -/

/-- The ways to make an item from items with a cost. -/
inductive Step (o : Ops V) (g : Grammar R) (allowed : Item V → Bool) (n : Nat) (probs : Item V → Option R) : Item V → R → Prop
  | lex {i t p} : i < n → (t, p) ∈ g.lexicon i → allowed ⟨t, o.unit i⟩ = true → Step o g allowed n probs ⟨t, o.unit i⟩ p
  | unary {r v c} : r ∈ g.unary → probs ⟨r.rhs1, v⟩ = some c → allowed ⟨r.lhs, v⟩ = true → Step o g allowed n probs ⟨r.lhs, v⟩ (c + r.prob)
  | binary {r v w c d} : r ∈ g.lbinary → probs ⟨r.rhs1, v⟩ = some c → probs ⟨r.rhs2, w⟩ = some d → o.concat r.args r.lengths v w = true →
      allowed ⟨r.lhs, o.combine v w⟩ = true → Step o g allowed n probs ⟨r.lhs, o.combine v w⟩ (c + d + r.prob)

structure Inv (est : Item V → Option R) (M : R) (o : Ops V) (g : Grammar R) (allowed : Item V → Bool) (n : Nat) (st : State V R) : Prop extends Ok est M o g allowed n st where
  closed : ∀ x c s, Step o g allowed n st.probs x c → score est M x c = some s → Known st x c

/-- An item with a derivation is in the chart, or its score is at least that of an item in the agenda. -/
theorem frontier (C : Spec.Consistent est o g allowed n) {st : State V R} (I : Inv est M o g allowed n st) {z : Item V} {d : R} (h : Spec.Derives o g allowed n z d) :
    ∀ {e : R}, est z = some e → d + e ≤ M → (∃ c, st.probs z = some c ∧ c ≤ d) ∨ ∃ y s c, get? st.agenda y = some (s, c) ∧ s ≤ d + e := by
  have known : ∀ (z : Item V) (d d' e : R), est z = some e → d' ≤ d → Known st z d' → (∃ c, st.probs z = some c ∧ c ≤ d) ∨ ∃ y s c, get? st.agenda y = some (s, c) ∧ s ≤ d + e := by
    rintro z d d' e he hle (⟨c, h1, h2⟩ | ⟨s, c, h1, h2⟩)
    · exact .inl ⟨c, h1, h2.trans hle⟩
    · refine .inr ⟨z, s, c, h1, ?_⟩
      obtain ⟨e', h3, rfl, _⟩ := score_some.1 (I.agenda z s c h1).2.1
      rw [he] at h3; injection h3 with h3; subst h3
      exact add_le_add (h2.trans hle) (le_refl _)
  induction h with
  | lex hi ht ha =>
    intro e he hM
    exact known _ _ _ e he (le_refl _) (I.closed _ _ _ (.lex hi ht ha) (score_some.2 ⟨e, he, rfl, hM⟩))
  | @unary r v c hr hd ha ih =>
    intro e he hM
    obtain ⟨e', he', hle⟩ := C.unary r hr v c e hd he
    have hle' : c + e' ≤ c + r.prob + e := by rw [add_assoc]; exact add_le_add (le_refl _) hle
    rcases ih he' (hle'.trans hM) with ⟨c', h1, h2⟩ | ⟨y, s, c', h1, h2⟩
    · have hle2 : c' + r.prob ≤ c + r.prob := add_le_add h2 (le_refl _)
      exact known _ _ _ e he hle2 (I.closed _ _ _ (.unary hr h1 ha) (score_some.2 ⟨e, he, rfl, (add_le_add hle2 (le_refl _)).trans hM⟩))
    · exact .inr ⟨y, s, c', h1, h2.trans hle'⟩
  | @binary r v w c d hr hv hw hc ha ih1 ih2 =>
    intro e he hM
    obtain ⟨e1, he1, hle1⟩ := C.left r hr v w c d e hv hw hc he
    obtain ⟨e2, he2, hle2⟩ := C.right r hr v w c d e hv hw hc he
    have h1 : c + e1 ≤ c + d + r.prob + e := by
      rw [add_assoc c, add_assoc c, add_comm d]; exact add_le_add (le_refl _) hle1
    have h2 : d + e2 ≤ c + d + r.prob + e := by
      rw [add_comm c, add_assoc d, add_assoc d, add_comm c]; exact add_le_add (le_refl _) hle2
    rcases ih1 he1 (h1.trans hM) with ⟨c', p1, l1⟩ | ⟨y, s, c', p1, l1⟩
    · rcases ih2 he2 (h2.trans hM) with ⟨d', p2, l2⟩ | ⟨y, s, c', p2, l2⟩
      · have hle : c' + d' + r.prob ≤ c + d + r.prob := add_le_add (add_le_add l1 l2) (le_refl _)
        exact known _ _ _ e he hle (I.closed _ _ _ (.binary hr p1 p2 hc ha) (score_some.2 ⟨e, he, rfl, (add_le_add hle (le_refl _)).trans hM⟩))
      · exact .inr ⟨y, s, c', p2, l2.trans h2⟩
    · exact .inr ⟨y, s, c', p1, l1.trans h1⟩

/-- An item is taken from the agenda. -/
theorem popped_ok (C : Spec.Consistent est o g allowed n) {st : State V R} (I : Inv est M o g allowed n st) {x : Item V} {s c : R} (hx : get? st.agenda x = some (s, c))
    (hl : ∀ y w, get? st.agenda y = some w → ltPair w (s, c) = false) :
    Ok est M o g allowed n (popped st x c) ∧ (popped st x c).probs = Function.update st.probs x (some c) ∧ (∀ y d, Known st y d → Known (popped st x c) y d) := by
  obtain ⟨hD, hs, hpr⟩ := I.agenda x s c hx
  obtain ⟨e, he, rfl, hM⟩ := score_some.1 hs
  have hopt : ∀ d, Spec.Derives o g allowed n x d → c ≤ d := by
    intro d hd
    by_contra hlt
    have hlt := not_le.1 hlt
    have hlt' : d + e < c + e := add_lt_add_left hlt e
    rcases frontier C I hd he (hlt'.le.trans hM) with ⟨c', h, _⟩ | ⟨y, s', c', h1, h2⟩
    · rw [hpr] at h; cases h
    · have := hl y _ h1
      simp only [ltPair, Bool.or_eq_false_iff, decide_eq_false_iff_not] at this
      exact this.1 (h2.trans_lt hlt')
  have hst : popped st x c = { st with agenda := erase st.agenda x, probs := Function.update st.probs x (some c) } := by
    simp [popped, updateProb, hpr]
  have hag : ∀ y, y ≠ x → get? (erase st.agenda x) y = get? st.agenda y := fun y hy => by rw [get?_erase I.wf, if_neg (Ne.symm hy)]
  have hagx : get? (erase st.agenda x) x = none := by rw [get?_erase I.wf, if_pos rfl]
  have hknown : ∀ y d, Known st y d → Known (popped st x c) y d := by
    rw [hst]
    rintro y d (⟨d', h1, h2⟩ | ⟨s', d', h1, h2⟩)
    · refine .inl ⟨d', ?_, h2⟩
      have hy : y ≠ x := by rintro rfl; rw [hpr] at h1; cases h1
      simp only [Function.update_of_ne hy]; exact h1
    · by_cases hy : y = x
      · subst hy
        rw [hx] at h1; injection h1 with h1; injection h1 with h3 h4; subst h4
        exact .inl ⟨c, by simp, h2⟩
      · exact .inr ⟨s', d', by simp only; rw [hag y hy]; exact h1, h2⟩
  have hmono : ∀ y e, st.probs y = some e → (Function.update st.probs x (some c)) y = some e := by
    intro y e h
    have hy : y ≠ x := by rintro rfl; rw [hpr] at h; cases h
    rw [Function.update_of_ne hy]; exact h
  refine ⟨?_, by rw [hst], hknown⟩
  rw [hst]
  refine ⟨I.wf.erase _, ?_, ?_, ?_, I.items, ?_⟩
  · intro y s' c' hy
    simp only at hy ⊢
    by_cases hyx : y = x
    · subst hyx; rw [hagx] at hy; cases hy
    · rw [hag y hyx] at hy
      rw [Function.update_of_ne hyx]
      exact I.agenda y s' c' hy
  · intro y c' hy
    simp only at hy
    by_cases hyx : y = x
    · subst hyx
      rw [Function.update_self] at hy
      injection hy with hy; subst hy
      exact ⟨hD, hopt, _, hs⟩
    · rw [Function.update_of_ne hyx] at hy
      exact I.probs y c' hy
  · intro y
    simp only
    by_cases hyx : y = x
    · subst hyx
      rw [Function.update_self, I.forest y, hx]
      simp
    · rw [hag y hyx, Function.update_of_ne hyx]; exact I.forest y
  · intro y c' hy
    simp only at hy ⊢
    have : st.probs y = some c' ∨ ∃ s, get? st.agenda y = some (s, c') := by
      by_cases hyx : y = x
      · subst hyx
        rw [Function.update_self, hagx] at hy
        rcases hy with hy | ⟨_, hy⟩
        · injection hy with hy; subst hy; exact .inr ⟨_, hx⟩
        · cases hy
      · rwa [Function.update_of_ne hyx, hag y hyx] at hy
    obtain ⟨e, h1, h2⟩ := I.why y c' this
    refine ⟨e, h1, ?_⟩
    cases e with
    | lex i => exact h2
    | rule r left =>
      obtain ⟨a1, a2, d, a3, a4⟩ := h2
      refine ⟨a1, a2, d, hmono _ _ a3, ?_⟩
      rcases a4 with a4 | ⟨a4, w, e, a5, a6⟩
      · exact .inl a4
      · exact .inr ⟨a4, w, e, hmono _ _ a5, a6⟩

/-- One round. -/
theorem inv_step (C : Spec.Consistent est o g allowed n) (U : Spec.Parsable g n goal.label) {st : State V R} (I : Inv est M o g allowed n st) {x : Item V} {s c : R}
    (hx : get? st.agenda x = some (s, c)) (hl : ∀ y w, get? st.agenda y = some w → ltPair w (s, c) = false) :
    (x = goal → Inv est M o g allowed n (popped st x c)) ∧
    Inv est M o g allowed n (lefts est M o g allowed x c (rights est M o g allowed x c (unaries est M g allowed x c (popped st x c)))) ∧
    (lefts est M o g allowed x c (rights est M o g allowed x c (unaries est M g allowed x c (popped st x c)))).probs = Function.update st.probs x (some c) := by
  obtain ⟨K, hp, hkn⟩ := popped_ok C I hx hl
  have hpr := (I.agenda x s c hx).2.2
  have hold : ∀ y, y ≠ x → (popped st x c).probs y = st.probs y := fun y hy => by rw [hp, Function.update_of_ne hy]
  have hxx : (popped st x c).probs x = some c := by rw [hp]; simp
  constructor
  · rintro rfl
    refine ⟨K, ?_⟩
    intro z d s' hz hs'
    refine hkn _ _ (I.closed z d s' ?_ hs')
    cases hz with
    | lex hi ht ha => exact .lex hi ht ha
    | unary hr h1 ha =>
      refine .unary hr ?_ ha
      rwa [hold _ (by rintro rfl; exact U.unary _ hr rfl)] at h1
    | binary hr h1 h2 hc ha =>
      refine .binary hr ?_ ?_ hc ha
      · rwa [hold _ (by rintro rfl; exact (U.binary _ hr).1 rfl)] at h1
      · rwa [hold _ (by rintro rfl; exact (U.binary _ hr).2 rfl)] at h2
  · obtain ⟨K1, m1, f1⟩ := unaries_ok (x := x) K hxx
    obtain ⟨K2, m2, f2⟩ := rights_ok U.same K1 (x := x) (c := c) (by rw [m1.probs]; exact hxx)
    obtain ⟨K3, m3, f3⟩ := lefts_ok K2 (x := x) (c := c) (by rw [m2.probs, m1.probs]; exact hxx)
    have e3 : (lefts est M o g allowed x c (rights est M o g allowed x c (unaries est M g allowed x c (popped st x c)))).probs = (popped st x c).probs := by
      rw [m3.probs, m2.probs, m1.probs]
    refine ⟨⟨K3, ?_⟩, by rw [e3, hp]⟩
    rw [e3]
    rw [m1.probs] at f2
    rw [m2.probs, m1.probs] at f3
    intro z d s' hz hs'
    cases hz with
    | lex hi ht ha => exact m3.known _ _ (m2.known _ _ (m1.known _ _ (hkn _ _ (I.closed _ _ s' (.lex hi ht ha) hs'))))
    | @unary r v c' hr h1 ha =>
      by_cases hy : (⟨r.rhs1, v⟩ : Item V) = x
      · subst hy
        rw [hxx] at h1; injection h1 with h1; subst h1
        exact m3.known _ _ (m2.known _ _ (f1 r hr rfl ha s' hs'))
      · rw [hold _ hy] at h1
        exact m3.known _ _ (m2.known _ _ (m1.known _ _ (hkn _ _ (I.closed _ _ s' (.unary hr h1 ha) hs'))))
    | @binary r v w c1 c2 hr h1 h2 hc ha =>
      by_cases hy : (⟨r.rhs1, v⟩ : Item V) = x
      · subst hy
        rw [hxx] at h1; injection h1 with h1; subst h1
        exact f3 r hr rfl w c2 h2 hc ha s' hs'
      · by_cases hy2 : (⟨r.rhs2, w⟩ : Item V) = x
        · subst hy2
          rw [hxx] at h2; injection h2 with h2; subst h2
          exact m3.known _ _ (f2 r hr rfl v c1 h1 hc ha s' hs')
        · rw [hold _ hy] at h1
          rw [hold _ hy2] at h2
          exact m3.known _ _ (m2.known _ _ (m1.known _ _ (hkn _ _ (I.closed _ _ s' (.binary hr h1 h2 hc ha) hs'))))

theorem picks {pick : Nat → Dict (Item V) (R × R) → Item V} (hp : Spec.PicksLeast pick) (fuel : Nat) {st : State V R} (K : Ok est M o g allowed n st) (h : st.agenda ≠ []) :
    ∃ s c, get? st.agenda (pick fuel st.agenda) = some (s, c) ∧ ∀ y w, get? st.agenda y = some w → ltPair w (s, c) = false := by
  obtain ⟨v, h1, h2⟩ := hp fuel st.agenda h K.wf
  exact ⟨v.1, v.2, h1, h2⟩

/-- The loop ends, with the invariant, and with the goal or an empty agenda. -/
theorem loop_spec (C : Spec.Consistent est o g allowed n) (U : Spec.Parsable g n goal.label) {pick : Nat → Dict (Item V) (R × R) → Item V} (hp : Spec.PicksLeast pick) {ex : Bool}
    (all : List (Item V)) (hall : ∀ x c, Spec.Derives o g allowed n x c → x ∈ all) : ∀ (fuel : Nat) (st : State V R), Inv est M o g allowed n st →
      (all.filter (fun x => (st.probs x).isNone)).length ≤ fuel →
      ∃ st', loop est M o g allowed pick goal ex fuel st = some st' ∧ Ok est M o g allowed n st' ∧ (Inv est M o g allowed n st' ∧ st'.agenda = [] ∨ ex = false ∧ st'.probs goal ≠ none) := by
  intro fuel
  induction fuel with
  | zero =>
    intro st I hf
    by_cases hne : st.agenda = []
    · exact ⟨st, by rw [loop, hne]; rfl, I.toOk, .inl ⟨I, hne⟩⟩
    · exfalso
      obtain ⟨s, c, hx, hl⟩ := picks hp 0 I.toOk hne
      obtain ⟨hD, _, hpr⟩ := I.agenda _ _ _ hx
      have : pick 0 st.agenda ∈ all.filter (fun x => (st.probs x).isNone) := List.mem_filter.2 ⟨hall _ _ hD, by rw [hpr]; rfl⟩
      rw [List.length_eq_zero_iff.1 (Nat.le_zero.1 hf)] at this
      cases this
  | succ fuel ih =>
    intro st I hf
    by_cases hne : st.agenda = []
    · exact ⟨st, by rw [loop, hne]; rfl, I.toOk, .inl ⟨I, hne⟩⟩
    · obtain ⟨s, c, hx, hl⟩ := picks hp fuel I.toOk hne
      have he : st.agenda.isEmpty = false := by cases h : st.agenda <;> simp_all
      obtain ⟨hD, _, hprx⟩ := I.agenda _ _ _ hx
      have hcount : (all.filter (fun y => ((Function.update st.probs (pick fuel st.agenda) (some c)) y).isNone)).length ≤ fuel :=
        Nat.le_of_lt_succ (lt_of_lt_of_le (count_update st.probs _ c hprx all (hall _ _ hD)) hf)
      obtain ⟨K, hpp, _⟩ := popped_ok C I hx hl
      obtain ⟨i1, i2, i3⟩ := inv_step (goal := goal) C U I hx hl
      rw [loop, he]
      simp only [Bool.false_eq_true, if_false, hx, Option.bind_some]
      change ∃ st', (if pick fuel st.agenda = goal then (if ex = true then loop est M o g allowed pick goal ex fuel (popped st (pick fuel st.agenda) c) else
        some (popped st (pick fuel st.agenda) c)) else loop est M o g allowed pick goal ex fuel (lefts est M o g allowed _ c (rights est M o g allowed _ c
          (unaries est M g allowed _ c (popped st (pick fuel st.agenda) c))))) = some st' ∧ _
      by_cases hg : pick fuel st.agenda = goal
      · rw [if_pos hg]
        cases ex with
        | false =>
          refine ⟨_, rfl, K, .inr ⟨rfl, ?_⟩⟩
          rw [hpp, hg]; simp
        | true =>
          rw [if_pos rfl]
          exact ih _ (i1 hg) (by rw [hpp]; exact hcount)
      · rw [if_neg hg]
        exact ih _ i2 (by rw [i3]; exact hcount)

/-! ### Tagging -/

/-- The chart while words are being tagged: `done` are the words so far. -/
structure Lex (est : Item V → Option R) (M : R) (o : Ops V) (g : Grammar R) (allowed : Item V → Bool) (n : Nat) (done : Nat → Nat → R → Prop) (st : State V R) : Prop extends Ok est M o g allowed n st where
  noprob : ∀ x, st.probs x = none
  only : ∀ x, st.forest x ≠ [] → ∃ i t p, done i t p ∧ x = ⟨t, o.unit i⟩
  known : ∀ i t p s, done i t p → allowed ⟨t, o.unit i⟩ = true → score est M ⟨t, o.unit i⟩ p = some s → Known st ⟨t, o.unit i⟩ p

theorem init_lex : Lex est M o g allowed n (fun _ _ _ => False) State.init := by
  refine ⟨⟨by simp [State.init, WF, keys], ?_, ?_, ?_, ?_, ?_⟩, fun _ => rfl, ?_, ?_⟩
  · intro x s c h; cases h
  · intro x c h; cases h
  · intro x; simp [State.init, get?]
  · intro x h; exact absurd rfl h
  · rintro x c (h | ⟨s, h⟩) <;> cases h
  · intro x h; exact absurd rfl h
  · intro i t p s h; cases h

/-- An item in the list of items changes nothing. -/
theorem lex_items {done : Nat → Nat → R → Prop} {st : State V R} (I : Lex est M o g allowed n done st) {its : List (Item V)} (h : ∀ x ∈ st.items, x ∈ its) :
    Lex est M o g allowed n done { st with items := its } :=
  { I with items := fun x hx => h x (I.items x hx) }

theorem tagWord_spec {i : Nat} (hi : i < n) (hinj : ∀ j < n, o.unit i = o.unit j → i = j) : ∀ (tags : List (Nat × R)) (done : Nat → Nat → R → Prop) (st : State V R) (b : Bool),
    (∀ x ∈ tags, x ∈ g.lexicon i) → (tags.map Prod.fst).Nodup → (∀ j t p, done j t p → j < n ∧ (j = i → t ∉ tags.map Prod.fst)) → Lex est M o g allowed n done st →
    (b = true → st.agenda ≠ []) →
    ∃ st' b', tagWord est M o allowed i tags (st, b) = some (st', b') ∧ Lex est M o g allowed n (fun j t p => done j t p ∨ j = i ∧ (t, p) ∈ tags) st' ∧
      (b' = true → st'.agenda ≠ []) ∧
      (b' = false → b = false ∧ ∀ t p, (t, p) ∈ tags → ∀ s, score est M ⟨t, o.unit i⟩ p = some s → allowed ⟨t, o.unit i⟩ = false) := by
  intro tags
  induction tags with
  | nil =>
    intro done st b _ _ _ I hb
    refine ⟨st, b, rfl, ⟨I.toOk, I.noprob, ?_, ?_⟩, hb, fun h => ⟨h, by simp⟩⟩
    · intro x hx
      obtain ⟨j, t, p, h1, h2⟩ := I.only x hx
      exact ⟨j, t, p, .inl h1, h2⟩
    · rintro j t p s (h | ⟨_, h⟩)
      · exact I.known j t p s h
      · cases h
  | cons tp rest ih =>
    obtain ⟨t, p⟩ := tp
    intro done st b hlex hnd hdone I hb
    simp only [List.map_cons, List.nodup_cons] at hnd
    rw [tagWord]
    have hrest : ∀ x ∈ rest, x ∈ g.lexicon i := fun x hx => hlex x (List.mem_cons_of_mem _ hx)
    have hdone' : ∀ j t' p', (done j t' p' ∨ j = i ∧ (t', p') = (t, p)) → j < n ∧ (j = i → t' ∉ rest.map Prod.fst) := by
      rintro j t' p' (h | ⟨rfl, h⟩)
      · obtain ⟨h1, h2⟩ := hdone j t' p' h
        exact ⟨h1, fun e hm => h2 e (by simp only [List.map_cons, List.mem_cons]; exact .inr hm)⟩
      · injection h with h1 h2; subst h1
        exact ⟨hi, fun _ => hnd.1⟩
    have wrap : ∀ st', Lex est M o g allowed n (fun j t' p' => (done j t' p' ∨ j = i ∧ (t', p') = (t, p)) ∨ j = i ∧ (t', p') ∈ rest) st' →
        Lex est M o g allowed n (fun j t' p' => done j t' p' ∨ j = i ∧ (t', p') ∈ (t, p) :: rest) st' := by
      intro st' L
      have : (fun j t' p' => (done j t' p' ∨ j = i ∧ (t', p') = (t, p)) ∨ j = i ∧ (t', p') ∈ rest) = (fun j t' p' => done j t' p' ∨ j = i ∧ (t', p') ∈ (t, p) :: rest) := by
        funext j t' p'
        simp only [List.mem_cons, eq_iff_iff]
        tauto
      rw [← this]; exact L
    cases hs : score est M ⟨t, o.unit i⟩ p with
    | none =>
      simp only
      obtain ⟨st', b', h1, h2, h3, h4⟩ := ih (fun j t' p' => done j t' p' ∨ j = i ∧ (t', p') = (t, p)) st b hrest hnd.2 hdone' (by
        refine ⟨I.toOk, I.noprob, ?_, ?_⟩
        · intro x hx
          obtain ⟨j, t', p', h1, h2⟩ := I.only x hx
          exact ⟨j, t', p', .inl h1, h2⟩
        · rintro j t' p' s (h | ⟨rfl, h⟩) ha hs'
          · exact I.known j t' p' s h ha hs'
          · injection h with e1 e2; subst e1; subst e2
            rw [hs] at hs'; cases hs') hb
      refine ⟨st', b', h1, wrap st' h2, h3, fun hb' => ⟨(h4 hb').1, ?_⟩⟩
      intro t' p' hm s hs'
      rcases List.mem_cons.1 hm with e | hm
      · injection e with e1 e2; subst e1; subst e2
        rw [hs] at hs'; cases hs'
      · exact (h4 hb').2 t' p' hm s hs'
    | some s =>
      simp only
      have hfe : st.forest ⟨t, o.unit i⟩ = [] := by
        by_contra hf
        obtain ⟨j, t', p', h1, h2⟩ := I.only _ hf
        injection h2 with h2 h3
        obtain ⟨hj, hne⟩ := hdone j t' p' h1
        have hij := hinj j hj h3
        subst hij; subst h2
        exact hne rfl (by simp)
      obtain ⟨hage, hpre⟩ := (I.forest _).1 hfe
      rw [processLex]
      simp only [hage, Option.isSome_none, Bool.false_eq_true, if_false, hfe, List.isEmpty_nil, Bool.not_true]
      have hitems : ∀ x ∈ st.items, x ∈ (if (⟨t, o.unit i⟩ : Item V) ∈ st.items then st.items else st.items ++ [⟨t, o.unit i⟩]) := fun x hx => (items_if x).2 (.inr hx)
      by_cases ha : allowed ⟨t, o.unit i⟩ = true
      · rw [ha]
        simp only [Bool.not_true, Bool.false_eq_true, if_false, Option.bind_some, Bool.or_true]
        have hD : Spec.Derives o g allowed n ⟨t, o.unit i⟩ p := .lex hi (hlex _ (by simp)) ha
        obtain ⟨K1, m1, k1⟩ := ok_entry (x := ⟨t, o.unit i⟩) (s := s) (c := p) (e := .lex i) I.toOk items_if hpre hD hs ⟨rfl, hlex _ (by simp)⟩
          (by intro s' c' h; rw [hage] at h; cases h)
        obtain ⟨st', b', h1, h2, h3, h4⟩ := ih (fun j t' p' => done j t' p' ∨ j = i ∧ (t', p') = (t, p)) _ true hrest hnd.2 hdone' (by
          refine ⟨K1, by rw [m1.probs]; exact I.noprob, ?_, ?_⟩
          · intro x hx
            by_cases hxe : x = ⟨t, o.unit i⟩
            · exact ⟨i, t, p, .inr ⟨rfl, rfl⟩, hxe⟩
            · simp only [addEdge, Function.update_of_ne hxe] at hx
              obtain ⟨j, t', p', h1, h2⟩ := I.only x hx
              exact ⟨j, t', p', .inl h1, h2⟩
          · rintro j t' p' s' (h | ⟨rfl, h⟩) ha' hs'
            · exact m1.known _ _ (I.known j t' p' s' h ha' hs')
            · injection h with e1 e2; subst e1; subst e2
              exact k1) (by
            intro _ he
            have : get? (Dict.set st.agenda (⟨t, o.unit i⟩ : Item V) (s, p)) ⟨t, o.unit i⟩ = some (s, p) := get?_set_self _ _ _
            simp only [addEdge] at he
            rw [he] at this; cases this)
        exact ⟨st', b', h1, wrap st' h2, h3, fun hb' => absurd (h4 hb').1 (by simp)⟩
      · rw [Bool.not_eq_true] at ha
        rw [ha]
        simp only [Bool.not_false, if_true, Option.bind_some, Bool.or_false]
        have I' := lex_items I hitems
        obtain ⟨st', b', h1, h2, h3, h4⟩ := ih (fun j t' p' => done j t' p' ∨ j = i ∧ (t', p') = (t, p)) { st with items := if (⟨t, o.unit i⟩ : Item V) ∈ st.items then st.items else st.items ++ [⟨t, o.unit i⟩] } b hrest hnd.2 hdone' (by
          refine ⟨I'.toOk, I'.noprob, ?_, ?_⟩
          · intro x hx
            obtain ⟨j, t', p', h1, h2⟩ := I'.only x hx
            exact ⟨j, t', p', .inl h1, h2⟩
          · rintro j t' p' s' (h | ⟨rfl, h⟩) ha' hs'
            · exact I'.known j t' p' s' h ha' hs'
            · injection h with e1 e2; subst e1; subst e2
              rw [ha] at ha'; cases ha') hb
        refine ⟨st', b', h1, wrap st' h2, h3, fun hb' => ⟨(h4 hb').1, ?_⟩⟩
        intro t' p' hm s' hs'
        rcases List.mem_cons.1 hm with e | hm
        · injection e with e1 e2; subst e1; subst e2
          exact ha
        · exact (h4 hb').2 t' p' hm s' hs'

theorem populate_spec (htags : ∀ i < n, ((g.lexicon i).map Prod.fst).Nodup) (hinj : ∀ i < n, ∀ j < n, o.unit i = o.unit j → i = j) : ∀ (words : List Nat) (done : Nat → Nat → R → Prop) (st : State V R),
    (∀ i ∈ words, i < n) → words.Nodup → (∀ j t p, done j t p → j < n ∧ j ∉ words) → Lex est M o g allowed n done st →
    (∃ i ∈ words, populate est M o g allowed words st = .notags i ∧ ∀ t p, (t, p) ∈ g.lexicon i → ∀ s, score est M ⟨t, o.unit i⟩ p = some s → allowed ⟨t, o.unit i⟩ = false) ∨
    ∃ st', populate est M o g allowed words st = .ok st' ∧ Lex est M o g allowed n (fun j t p => done j t p ∨ j ∈ words ∧ (t, p) ∈ g.lexicon j) st' ∧ (words ≠ [] → st'.agenda ≠ []) := by
  intro words
  induction words with
  | nil =>
    intro done st _ _ _ I
    refine .inr ⟨st, rfl, ?_, fun h => absurd rfl h⟩
    simpa using I
  | cons i rest ih =>
    intro done st hw hnd hdone I
    rw [List.nodup_cons] at hnd
    obtain ⟨st1, b, h1, h2, h3, h4⟩ := tagWord_spec (est := est) (M := M) (g := g) (allowed := allowed) (hw i (by simp)) (hinj i (hw i (by simp))) (g.lexicon i) done st false (fun _ h => h) (htags i (hw i (by simp)))
      (fun j t p h => ⟨(hdone j t p h).1, fun e => absurd (e ▸ (hdone j t p h).2) (by simp)⟩) I (by simp)
    rw [populate, h1]
    cases b with
    | false => exact .inl ⟨i, by simp, rfl, (h4 rfl).2⟩
    | true =>
      simp only
      rcases ih (fun j t p => done j t p ∨ j = i ∧ (t, p) ∈ g.lexicon i) st1 (fun j hj => hw j (List.mem_cons_of_mem _ hj)) hnd.2 (by
          rintro j t p (h | ⟨rfl, _⟩)
          · exact ⟨(hdone j t p h).1, fun hm => (hdone j t p h).2 (List.mem_cons_of_mem _ hm)⟩
          · exact ⟨hw j (by simp), hnd.1⟩) h2 with ⟨k, hk, e1, e2⟩ | ⟨st', e1, e2, e3⟩
      · exact .inl ⟨k, List.mem_cons_of_mem _ hk, e1, e2⟩
      · refine .inr ⟨st', e1, ?_, fun _ => ?_⟩
        · have : (fun j t p => (done j t p ∨ j = i ∧ (t, p) ∈ g.lexicon i) ∨ j ∈ rest ∧ (t, p) ∈ g.lexicon j) = (fun j t p => done j t p ∨ j ∈ i :: rest ∧ (t, p) ∈ g.lexicon j) := by
            funext j t p
            simp only [List.mem_cons, eq_iff_iff]
            constructor
            · rintro ((h | ⟨rfl, h⟩) | ⟨h1, h2⟩)
              · exact .inl h
              · exact .inr ⟨.inl rfl, h⟩
              · exact .inr ⟨.inr h1, h2⟩
            · rintro (h | ⟨e | k1, k2⟩)
              · exact .inl (.inl h)
              · exact .inl (.inr ⟨e, e ▸ k2⟩)
              · exact .inr ⟨k1, k2⟩
          rw [this] at e2; exact e2
        · by_cases hr : rest = []
          · subst hr
            rw [populate] at e1
            injection e1 with e1; subst e1
            exact h3 rfl
          · exact e3 hr

/-- Every word of a derived item has a tag with a score. -/
theorem derives_mem' (L : Spec.Laws o n univ mem) (C : Spec.Consistent est o g allowed n) {x : Item V} {c : R} (h : Spec.Derives o g allowed n x c) :
    ∀ {e : R}, est x = some e → c + e ≤ M → ∀ j, mem x.vec j = true → ∃ t p s, (t, p) ∈ g.lexicon j ∧ allowed ⟨t, o.unit j⟩ = true ∧ score est M ⟨t, o.unit j⟩ p = some s := by
  induction h with
  | @lex i t p hi ht ha =>
    intro e he hM j hj
    simp only [L.unit_mem i hi, decide_eq_true_eq] at hj
    subst hj
    exact ⟨t, p, p + e, ht, ha, score_some.2 ⟨e, he, rfl, hM⟩⟩
  | @unary r v c hr hd ha ih =>
    intro e he hM j hj
    obtain ⟨e', he', hle⟩ := C.unary r hr v c e hd he
    exact ih he' (le_trans (by rw [add_assoc]; exact add_le_add (le_refl _) hle) hM) j hj
  | @binary r v w c d hr hv hw hc ha ih1 ih2 =>
    intro e he hM j hj
    simp only [L.combine_mem _ (derives_univ L hv).1 _ (derives_univ L hw).1 _ _ hc, Bool.or_eq_true] at hj
    rcases hj with hj | hj
    · obtain ⟨e1, he1, hle1⟩ := C.left r hr v w c d e hv hw hc he
      exact ih1 he1 (le_trans (by rw [add_assoc c, add_assoc c, add_comm d]; exact add_le_add (le_refl _) hle1) hM) j hj
    · obtain ⟨e2, he2, hle2⟩ := C.right r hr v w c d e hv hw hc he
      exact ih2 he2 (le_trans (by rw [add_comm c, add_assoc d, add_assoc d, add_comm c]; exact add_le_add (le_refl _) hle2) hM) j hj

/-- **C59**: with estimates that are consistent, the parser finds a best derivation of the goal, whether or not it is `exhaustive`: if the least cost is at most `MAX_LOGPROB`, the goal gets this cost in the chart, and
from each item of the chart an edge explains its cost; otherwise the goal is not in the chart. The number of rounds is at most the number of items. -/
theorem C59_astar (L : Spec.Laws o n univ mem) (hn : 0 < n) (U : Spec.Parsable g n goal.label) (C : Spec.Consistent est o g allowed n) (hgoal : est goal = some 0) (hall : ∀ j < n, mem goal.vec j = true)
    {pick : Nat → Dict (Item V) (R × R) → Item V} (hp : Spec.PicksLeast pick) (ex : Bool) {items : List (Item V)} (hitems : ∀ x c, Spec.Derives o g allowed n x c → x ∈ items) {fuel : Nat}
    (hf : items.length ≤ fuel) :
    (∃ i < n, parse est M o g allowed pick goal ex n fuel = some (.notags i) ∧ ∀ d, Spec.Derives o g allowed n goal d → M < d) ∨
    ∃ st, parse est M o g allowed pick goal ex n fuel = some (.ok st) ∧
      (∀ c, st.probs goal = some c ↔ IsLeast {d | Spec.Derives o g allowed n goal d} c ∧ c ≤ M) ∧
      ((∃ d, Spec.Derives o g allowed n goal d ∧ d ≤ M) → st.probs goal ≠ none) ∧
      ∀ x c, st.probs x = some c → IsLeast {d | Spec.Derives o g allowed n x d} c ∧ ∃ e ∈ st.forest x, Spec.Explains o g st.probs x c e := by
  have hinj : ∀ i < n, ∀ j < n, o.unit i = o.unit j → i = j := fun i hi j hj h => unit_inj L hi hj h
  rcases populate_spec (est := est) (M := M) (allowed := allowed) U.tags hinj (List.range n) _ State.init (by simp) List.nodup_range (by simp) init_lex with ⟨i, hi, h1, h2⟩ | ⟨st0, h1, h2, h3⟩
  · refine .inl ⟨i, List.mem_range.1 hi, by rw [parse, h1], ?_⟩
    intro d hd
    by_contra hle
    obtain ⟨t, p, s, a1, a2, a3⟩ := derives_mem' (M := M) L C hd hgoal (by rw [add_zero]; exact not_lt.1 hle) i (hall i (List.mem_range.1 hi))
    rw [h2 t p a1 s a3] at a2; cases a2
  · have hne : st0.agenda ≠ [] := h3 (by intro h; rw [List.range_eq_nil] at h; omega)
    have I0 : Inv est M o g allowed n st0 := by
      refine ⟨h2.toOk, ?_⟩
      intro x c s hx hs
      cases hx with
      | @lex i t p hi ht ha => exact h2.known i t c s (.inr ⟨List.mem_range.2 hi, ht⟩) ha hs
      | unary hr h => rw [h2.noprob] at h; cases h
      | binary hr h => rw [h2.noprob] at h; cases h
    obtain ⟨st, e1, K, e2⟩ := loop_spec (ex := ex) (goal := goal) C U hp items hitems fuel st0 I0 (le_trans (List.length_filter_le _ _) hf)
    have he : st0.agenda.isEmpty = false := by cases h : st0.agenda <;> simp_all
    have hfound : (∃ d, Spec.Derives o g allowed n goal d ∧ d ≤ M) → st.probs goal ≠ none := by
      rintro ⟨d, hd, hM⟩
      rcases e2 with ⟨I, hA⟩ | ⟨_, h⟩
      · rcases frontier C I hd hgoal (by rw [add_zero]; exact hM) with ⟨c, hc, _⟩ | ⟨y, s, c, h, _⟩
        · rw [hc]; simp
        · rw [hA] at h; cases h
      · exact h
    refine .inr ⟨st, by rw [parse, h1]; simp only [he, Bool.false_eq_true, if_false, e1, Option.map_some], ?_, hfound, ?_⟩
    · intro c
      constructor
      · intro hc
        obtain ⟨h4, h5, s, h6⟩ := K.probs goal c hc
        refine ⟨⟨h4, fun d hd => h5 d hd⟩, ?_⟩
        obtain ⟨e, h7, _, h8⟩ := score_some.1 h6
        rw [hgoal] at h7; injection h7 with h7; subst h7
        rwa [add_zero] at h8
      · rintro ⟨⟨h4, h5⟩, hM⟩
        obtain ⟨c', hc'⟩ := Option.ne_none_iff_exists'.1 (hfound ⟨c, h4, hM⟩)
        obtain ⟨h6, h7, _⟩ := K.probs goal c' hc'
        rw [hc', le_antisymm (h7 c h4) (h5 h6)]
    · intro x c hc
      obtain ⟨h4, h5, _⟩ := K.probs x c hc
      exact ⟨⟨h4, fun d hd => h5 d hd⟩, K.why x c (.inl hc)⟩

end

end Disco.Astar
