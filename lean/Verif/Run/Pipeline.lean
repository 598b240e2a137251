import Verif.Basic.Dict
import Verif.Basic.Tree

/-!
# Parsing a sentence with several stages (parser.py: Parser.parse 239-563, noparse 590-604)

The parsing algorithms, disambiguation and post-processing are parameters; what is modelled is how the stages work together.
-/

namespace Disco.Pipeline
open Disco

/-! ## Model -/

/-- What a stage does: parsing, or reranking the parse trees of an earlier stage (`dop-rerank`, `mc-rerank`). -/
inductive Kind where
  | parse
  | rerank
  deriving DecidableEq

/-- Parameters of a stage. -/
structure Stage where
  name : Str
  prune : Option Str
  split : Bool
  kind : Kind
  deriving DecidableEq

/-- Parse trees with probabilities. -/
abbrev Trees := List (Str × Rat)

/-- The functions that are parameters, for a given sentence. The number is that of the stage. -/
structure Env (C T : Type) where
  /-- `bool(sent)`. -/
  nonempty : Bool
  /-- `self.relationalrealizational`. -/
  rr : Bool
  /-- `bool(chart)`: there is a derivation of the whole sentence. -/
  ok : C → Bool
  /-- `pcfg.parse` or `plcfrs.parse`, with the chart for pruning. -/
  parse : Nat → Option C → C
  /-- `getderivations` and `marginalize`. -/
  disamb : Nat → C → Trees
  /-- `doprerank` or `mcrerank`. -/
  rerank : Nat → Trees → Trees
  /-- A parse tree put together from parts (parser.py:468-500). -/
  partialParse : Option C → Str × Rat
  /-- `postprocess` (parser.py:563-589). -/
  post : Nat → Str → Except String T
  /-- No empty nodes, and as many leaves as words (parser.py:517-521). -/
  check : T → Bool
  /-- The dummy parse, and its string. -/
  default : Nat → T
  show_ : T → Str

/-- The result of a stage (the fields that do not depend on time). `chosen` is `resultstr`. -/
structure Result (T : Type) where
  name : Str
  tree : T
  prob : Rat
  trees : Trees
  noparse : Bool
  chosen : Option Str
  deriving DecidableEq

/-- The variables of the loop (parser.py:285-290). -/
structure State (C : Type) where
  charts : Dict Str (Option C)
  prevs : Dict Str (Option Trees)
  chart : Option C
  last : Option Str
  isPartial : Bool

/-- `max(parsetrees, key=itemgetter(1))`: the first with the highest probability. -/
def best : Str × Rat → Trees → Str × Rat
  | b, [] => b
  | b, x :: xs => if b.2 < x.2 then best x xs else best b xs

/-- `bool(chart)`; `None` is false. -/
def okOpt {C T : Type} (env : Env C T) : Option C → Bool
  | some c => env.ok c
  | none => false

/-- `bool(parsetrees)`. -/
def treesOf : Option Trees → Trees
  | some xs => xs
  | none => []

/-- The first part (parser.py:311-400): the sentence is parsed when the stage for pruning was successful.
The chart of an earlier stage stays when it is not. -/
def doParse {C T : Type} (env : Env C T) (n : Nat) (st : Stage) (s : State C) : Except String (Option C × Option Trees) :=
  if env.nonempty then
    match st.prune with
    | none =>
      match st.kind with
      | .parse => .ok (some (env.parse n none), none)
      | .rerank => .error "KeyError"
    | some p =>
      match s.charts.get? p with
      | none => .error "KeyError"
      | some c =>
        if okOpt env c then
          match st.kind with
          | .parse => .ok (some (env.parse n (if 0 < n then c else none)), none)
          | .rerank =>
            match s.prevs.get? p with
            | none => .error "KeyError"
            | some ts => if treesOf ts = [] then .ok (s.chart, none) else .ok (s.chart, some (env.rerank n (treesOf ts)))
        else .ok (s.chart, none)
  else .ok (s.chart, none)

/-- Disambiguation, or a partial parse (parser.py:408-500). -/
def doDisamb {C T : Type} (env : Env C T) (n : Nat) (st : Stage) (isPartial : Bool) (chart : Option C) (trees : Option Trees) : Option Trees × Bool :=
  if env.nonempty && okOpt env chart && decide (st.kind = .parse) && !(env.rr && st.split) then
    (chart.map (env.disamb n), isPartial)
  else if env.nonempty && !okOpt env chart && decide (st.kind = .parse) && !(env.rr && st.split) && !isPartial then
    (some [env.partialParse chart], true)
  else (trees, isPartial)

/-- `noparse` (parser.py:590-604). -/
def fallback {C T : Type} (env : Env C T) (n : Nat) (last : Option Str) : Except String T :=
  match last with
  | some s => env.post n s
  | none => .ok (env.default n)

/-- Post-processing of the best parse (parser.py:509-521); none when there is an exception or a problem. -/
def postBest {C T : Type} (env : Env C T) (n : Nat) (s : Str) : Option T :=
  match env.post n s with
  | .ok t => if env.check t then some t else none
  | .error _ => none

/-- The result that is yielded (parser.py:505-561), and `lastsuccessfulparse`. -/
def finish {C T : Type} (env : Env C T) (n : Nat) (name : Str) (last : Option Str) (trees : Trees) : Except String (Result T × Option Str) :=
  match trees with
  | x :: xs =>
    match postBest env n (best x xs).1 with
    | some t => .ok (⟨name, t, (best x xs).2, x :: xs, false, some (best x xs).1⟩, some (best x xs).1)
    | none =>
      match fallback env n last with
      | .error e => .error e
      | .ok t => .ok (⟨name, t, 1, x :: xs, true, none⟩, last)
  | [] =>
    match fallback env n last with
    | .error e => .error e
    | .ok t => .ok (⟨name, t, 1, [(last.getD (env.show_ t), 1)], true, none⟩, last)

/-- One stage (parser.py:292-561). `prunes` are the names of stages that are used for pruning. -/
def step {C T : Type} (env : Env C T) (prunes : List Str) (n : Nat) (st : Stage) (s : State C) : Except String (Result T × State C) :=
  match doParse env n st s with
  | .error e => .error e
  | .ok (chart, trees) =>
    let d := doDisamb env n st s.isPartial chart trees
    let charts := if st.name ∈ prunes then s.charts.set st.name chart else s.charts
    let prevs := if st.name ∈ prunes then s.prevs.set st.name d.1 else s.prevs
    match finish env n st.name s.last (treesOf d.1) with
    | .error e => .error e
    | .ok (r, last) => .ok (r, ⟨charts, prevs, chart, last, d.2⟩)

/-- The loop over stages. The results so far and the exception, if any (the function is a generator). -/
def loop {C T : Type} (env : Env C T) (prunes : List Str) : Nat → List Stage → State C → List (Result T) × Option String
  | _, [], _ => ([], none)
  | n, st :: sts, s =>
    match step env prunes n st s with
    | .error e => ([], some e)
    | .ok (r, s') =>
      let rest := loop env prunes (n + 1) sts s'
      (r :: rest.1, rest.2)

/-- `Parser.parse` (parser.py:239-561). -/
def parse {C T : Type} (env : Env C T) (stages : List Stage) : List (Result T) × Option String :=
  loop env (stages.filterMap (·.prune)) 0 stages ⟨[], [], none, none, false⟩

/-! ## Specification -/

/-- The stages after a stage, each pruned with the one before it. -/
def Spec.Rest (prev : Str) : List Stage → Prop
  | [] => True
  | st :: sts => st.kind = .parse ∧ st.prune = some prev ∧ Spec.Rest st.name sts

/-- Coarse-to-fine in the usual form: every stage but the first is pruned with the stage before it. -/
def Spec.Chain : List Stage → Prop
  | [] => True
  | st :: sts => st.kind = .parse ∧ st.prune = none ∧ Spec.Rest st.name sts

/-- The parse trees of a chart: of the whole sentence, or else put together from parts. -/
def Spec.treesOfChart {C T : Type} (env : Env C T) (n : Nat) (c : C) : Trees := if env.ok c then env.disamb n c else [env.partialParse (some c)]

/-- The parse trees of each stage after a stage with chart `c`: after a failure there are none. -/
def Spec.restTrees {C T : Type} (env : Env C T) : Nat → C → List Stage → List Trees
  | _, _, [] => []
  | n, c, _ :: sts =>
    if env.ok c then Spec.treesOfChart env n (env.parse n (some c)) :: Spec.restTrees env (n + 1) (env.parse n (some c)) sts
    else [] :: Spec.restTrees env (n + 1) c sts

/-- The parse trees of each stage. -/
def Spec.chainTrees {C T : Type} (env : Env C T) : List Stage → List Trees
  | [] => []
  | _ :: sts => Spec.treesOfChart env 0 (env.parse 0 none) :: Spec.restTrees env 1 (env.parse 0 none) sts

/-- The stages refer to stages before them; `seen` are the names of those. -/
def Spec.Valid (seen : List Str) : List Stage → Prop
  | [] => True
  | st :: sts => (st.kind = .rerank → st.prune ≠ none) ∧ (∀ p, st.prune = some p → p ∈ seen) ∧ Spec.Valid (st.name :: seen) sts

/-- The result is the best of its parse trees. -/
def Spec.IsBest {C T : Type} (env : Env C T) (n : Nat) (r : Result T) : Prop :=
  ∃ s, r.chosen = some s ∧ (s, r.prob) ∈ r.trees ∧ (∀ x ∈ r.trees, x.2 ≤ r.prob) ∧ env.post n s = .ok r.tree ∧ env.check r.tree = true

/-- The result is a copy of the parse of the last successful stage, or a dummy. -/
def Spec.IsFallback {C T : Type} (env : Env C T) (n : Nat) (earlier : List (Result T)) (r : Result T) : Prop :=
  r.chosen = none ∧ r.prob = 1 ∧
    ((∃ s, (earlier.filterMap (·.chosen)).getLast? = some s ∧ env.post n s = .ok r.tree) ∨
      ((∀ e ∈ earlier, e.noparse = true) ∧ r.tree = env.default n))

/-! ## Lemmas -/

theorem best_spec : ∀ (xs : Trees) (b : Str × Rat), best b xs ∈ b :: xs ∧ ∀ x ∈ b :: xs, x.2 ≤ (best b xs).2
  | [], b => ⟨List.mem_cons_self, by intro x hx; simp only [List.mem_singleton] at hx; subst hx; exact Rat.le_refl⟩
  | x :: xs, b => by
    rw [best]
    by_cases h : b.2 < x.2
    · rw [if_pos h]
      obtain ⟨h1, h2⟩ := best_spec xs x
      refine ⟨List.mem_cons_of_mem _ h1, ?_⟩
      intro y hy
      rcases List.mem_cons.mp hy with rfl | hy
      · exact Rat.le_trans (Rat.le_of_lt h) (h2 x List.mem_cons_self)
      · exact h2 y hy
    · rw [if_neg h]
      obtain ⟨h1, h2⟩ := best_spec xs b
      refine ⟨?_, ?_⟩
      · rcases List.mem_cons.mp h1 with h1 | h1
        · rw [h1]; exact List.mem_cons_self
        · exact List.mem_cons_of_mem _ (List.mem_cons_of_mem _ h1)
      · intro y hy
        rcases List.mem_cons.mp hy with rfl | hy
        · exact h2 y List.mem_cons_self
        · rcases List.mem_cons.mp hy with rfl | hy
          · exact Rat.le_trans (Rat.not_lt.mp h) (h2 b List.mem_cons_self)
          · exact h2 y (List.mem_cons_of_mem _ hy)

theorem postBest_some {C T : Type} {env : Env C T} {n : Nat} {s : Str} {t : T} (h : postBest env n s = some t) : env.post n s = .ok t ∧ env.check t = true := by
  unfold postBest at h
  cases hp : env.post n s with
  | error e => rw [hp] at h; cases h
  | ok t' =>
    rw [hp] at h
    dsimp only at h
    by_cases hc : env.check t' = true
    · rw [if_pos hc] at h
      injection h with h
      subst h
      exact ⟨rfl, hc⟩
    · rw [if_neg hc] at h
      cases h

/-- What `finish` yields. -/
theorem finish_spec {C T : Type} (env : Env C T) (n : Nat) (name : Str) (last : Option Str) (trees : Trees) (r : Result T) (last' : Option Str)
    (h : finish env n name last trees = .ok (r, last')) :
    r.name = name ∧ (trees ≠ [] → r.trees = trees) ∧ (trees = [] → r.noparse = true) ∧
    ((r.noparse = false ∧ Spec.IsBest env n r ∧ last' = r.chosen) ∨
      (r.noparse = true ∧ r.chosen = none ∧ r.prob = 1 ∧ fallback env n last = .ok r.tree ∧ last' = last)) := by
  unfold finish at h
  cases trees with
  | nil =>
    dsimp only at h
    cases hf : fallback env n last with
    | error e => rw [hf] at h; cases h
    | ok t =>
      rw [hf] at h
      injection h with h
      injection h with h1 h2
      subst h1; subst h2
      exact ⟨rfl, fun h => absurd rfl h, fun _ => rfl, .inr ⟨rfl, rfl, rfl, rfl, rfl⟩⟩
  | cons x xs =>
    dsimp only at h
    cases hp : postBest env n (best x xs).1 with
    | some t =>
      rw [hp] at h
      injection h with h
      injection h with h1 h2
      subst h1; subst h2
      obtain ⟨b1, b2⟩ := best_spec xs x
      obtain ⟨p1, p2⟩ := postBest_some hp
      exact ⟨rfl, fun _ => rfl, fun h => (by cases h), .inl ⟨rfl, ⟨_, rfl, b1, b2, p1, p2⟩, rfl⟩⟩
    | none =>
      rw [hp] at h
      dsimp only at h
      cases hf : fallback env n last with
      | error e => rw [hf] at h; cases h
      | ok t =>
        rw [hf] at h
        injection h with h
        injection h with h1 h2
        subst h1; subst h2
        exact ⟨rfl, fun _ => rfl, fun h => (by cases h), .inr ⟨rfl, rfl, rfl, rfl, rfl⟩⟩

/-- What a stage yields. -/
theorem step_spec {C T : Type} (env : Env C T) (prunes : List Str) (n : Nat) (st : Stage) (s s' : State C) (r : Result T)
    (h : step env prunes n st s = .ok (r, s')) : ∃ chart trees, doParse env n st s = .ok (chart, trees) ∧
      finish env n st.name s.last (treesOf (doDisamb env n st s.isPartial chart trees).1) = .ok (r, s'.last) ∧
      s'.charts = (if st.name ∈ prunes then s.charts.set st.name chart else s.charts) ∧
      s'.prevs = (if st.name ∈ prunes then s.prevs.set st.name (doDisamb env n st s.isPartial chart trees).1 else s.prevs) ∧
      s'.chart = chart ∧ s'.isPartial = (doDisamb env n st s.isPartial chart trees).2 := by
  unfold step at h
  cases hd : doParse env n st s with
  | error e => rw [hd] at h; cases h
  | ok ct =>
    obtain ⟨chart, trees⟩ := ct
    rw [hd] at h
    dsimp only at h
    cases hf : finish env n st.name s.last (treesOf (doDisamb env n st s.isPartial chart trees).1) with
    | error e => rw [hf] at h; cases h
    | ok rl =>
      obtain ⟨r', l'⟩ := rl
      rw [hf] at h
      injection h with h
      injection h with h1 h2
      subst h1; subst h2
      exact ⟨chart, trees, rfl, hf, rfl, rfl, rfl, rfl⟩

theorem getLast_append {α : Type} (a : List α) (x : α) : (a ++ [x]).getLast? = some x := by simp

theorem loop_results {C T : Type} (env : Env C T) (prunes : List Str) : ∀ (sts : List Stage) (n : Nat) (s : State C) (hist : List (Result T)),
    s.last = (hist.filterMap (·.chosen)).getLast? → (∀ e ∈ hist, e.noparse = true ↔ e.chosen = none) →
    ∀ i r, (loop env prunes n sts s).1[i]? = some r → (∃ st, sts[i]? = some st ∧ r.name = st.name) ∧
      ((r.noparse = false ∧ Spec.IsBest env (n + i) r) ∨ (r.noparse = true ∧ Spec.IsFallback env (n + i) (hist ++ (loop env prunes n sts s).1.take i) r))
  | [], n, s, hist, _, _, i, r, h => by simp [loop] at h
  | st :: sts, n, s, hist, hl, hh, i, r, h => by
    rw [loop] at h ⊢
    cases hs : step env prunes n st s with
    | error e => rw [hs] at h; simp at h
    | ok rs =>
      obtain ⟨r0, s'⟩ := rs
      rw [hs] at h
      dsimp only at h ⊢
      obtain ⟨chart, trees, _, hf, _⟩ := step_spec env prunes n st s s' r0 hs
      obtain ⟨f1, _, _, f4⟩ := finish_spec env n st.name s.last _ r0 s'.last hf
      cases i with
      | zero =>
        simp only [List.getElem?_cons_zero, Option.some.injEq] at h
        subst h
        refine ⟨⟨st, rfl, f1⟩, ?_⟩
        rcases f4 with ⟨g1, g2, _⟩ | ⟨g1, g2, g3, g4, _⟩
        · exact .inl ⟨g1, g2⟩
        · refine .inr ⟨g1, g2, g3, ?_⟩
          rw [List.take_zero, List.append_nil]
          unfold fallback at g4
          rw [hl] at g4
          cases hg : (hist.filterMap (·.chosen)).getLast? with
          | some x => rw [hg] at g4; exact .inl ⟨x, rfl, g4⟩
          | none =>
            rw [hg] at g4
            injection g4 with g4
            refine .inr ⟨?_, g4.symm⟩
            rw [List.getLast?_eq_none_iff, List.filterMap_eq_nil_iff] at hg
            intro e he
            exact (hh e he).mpr (hg e he)
      | succ i =>
        rw [List.getElem?_cons_succ] at h
        have hl' : s'.last = ((hist ++ [r0]).filterMap (·.chosen)).getLast? := by
          rw [List.filterMap_append]
          rcases f4 with ⟨_, ⟨c, hc, _⟩, g3⟩ | ⟨_, g2, _, _, g5⟩
          · rw [g3, List.filterMap_cons, hc, List.filterMap_nil, getLast_append]
          · rw [g5, List.filterMap_cons, g2, List.filterMap_nil, List.append_nil, hl]
        have hh' : ∀ e ∈ hist ++ [r0], e.noparse = true ↔ e.chosen = none := by
          intro e he
          rcases List.mem_append.mp he with he | he
          · exact hh e he
          · simp only [List.mem_singleton] at he
            subst he
            rcases f4 with ⟨g1, ⟨c, hc, _⟩, _⟩ | ⟨g1, g2, _⟩
            · rw [g1, hc]; simp
            · rw [g1, g2]; simp
        have ih := loop_results env prunes sts (n + 1) s' (hist ++ [r0]) hl' hh' i r h
        rw [List.getElem?_cons_succ, List.take_succ_cons]
        rw [List.append_assoc, List.singleton_append] at ih
        have : n + 1 + i = n + (i + 1) := by omega
        rw [this] at ih
        exact ih

/-! ## Theorems -/

/-- **Every result.** For every stage: the best of its parse trees, post-processed and checked; or it is marked as having no parse, and is
the parse chosen by the last successful stage before it, or a dummy when there is none. -/
theorem C74_results {C T : Type} (env : Env C T) (stages : List Stage) (i : Nat) (r : Result T) (h : (parse env stages).1[i]? = some r) :
    (∃ st, stages[i]? = some st ∧ r.name = st.name) ∧
    ((r.noparse = false ∧ Spec.IsBest env i r) ∨ (r.noparse = true ∧ Spec.IsFallback env i ((parse env stages).1.take i) r)) := by
  have := loop_results env (stages.filterMap (fun st : Stage => st.prune)) stages 0 ⟨[], [], none, none, false⟩ [] rfl (by simp) i r h
  rw [Nat.zero_add, List.nil_append] at this
  exact this

theorem finish_ok {C T : Type} (env : Env C T) (hp : ∀ n s, ∃ t, env.post n s = .ok t) (n : Nat) (name : Str) (last : Option Str) (trees : Trees) :
    ∃ x, finish env n name last trees = .ok x := by
  have hf : ∃ t, fallback env n last = .ok t := by
    unfold fallback
    cases last with
    | none => exact ⟨_, rfl⟩
    | some s => exact hp n s
  obtain ⟨t, ht⟩ := hf
  unfold finish
  cases trees with
  | nil => dsimp only; rw [ht]; exact ⟨_, rfl⟩
  | cons x xs =>
    dsimp only
    cases postBest env n (best x xs).1 with
    | some t' => exact ⟨_, rfl⟩
    | none => dsimp only; rw [ht]; exact ⟨_, rfl⟩

theorem loop_total {C T : Type} (env : Env C T) (hp : ∀ n s, ∃ t, env.post n s = .ok t) (prunes : List Str) :
    ∀ (sts : List Stage) (n : Nat) (s : State C) (seen : List Str), Spec.Valid seen sts → (∀ st ∈ sts, ∀ p, st.prune = some p → p ∈ prunes) →
    (∀ p ∈ seen, p ∈ prunes → (s.charts.get? p).isSome ∧ (s.prevs.get? p).isSome) →
    (loop env prunes n sts s).2 = none ∧ (loop env prunes n sts s).1.map (·.name) = sts.map (·.name)
  | [], n, s, seen, _, _, _ => ⟨rfl, rfl⟩
  | st :: sts, n, s, seen, hv, hpr, hinv => by
    rw [Spec.Valid] at hv
    obtain ⟨v1, v2, v3⟩ := hv
    have hdp : ∃ x, doParse env n st s = .ok x := by
      unfold doParse
      by_cases hn : env.nonempty = true
      · rw [if_pos hn]
        cases hpn : st.prune with
        | none =>
          dsimp only
          cases hk : st.kind with
          | parse => exact ⟨_, rfl⟩
          | rerank => exact absurd hpn (v1 hk)
        | some p =>
          dsimp only
          obtain ⟨i1, i2⟩ := hinv p (v2 p hpn) (hpr st List.mem_cons_self p hpn)
          obtain ⟨c, hc⟩ := Option.isSome_iff_exists.mp i1
          obtain ⟨ts, hts⟩ := Option.isSome_iff_exists.mp i2
          rw [hc]
          dsimp only
          by_cases ho : okOpt env c = true
          · rw [if_pos ho]
            cases st.kind with
            | parse => exact ⟨_, rfl⟩
            | rerank =>
              dsimp only
              rw [hts]
              dsimp only
              by_cases ht : treesOf ts = []
              · rw [if_pos ht]; exact ⟨_, rfl⟩
              · rw [if_neg ht]; exact ⟨_, rfl⟩
          · rw [if_neg ho]; exact ⟨_, rfl⟩
      · rw [if_neg hn]; exact ⟨_, rfl⟩
    obtain ⟨⟨chart, trees⟩, hdp⟩ := hdp
    obtain ⟨⟨r, l⟩, hfin⟩ := finish_ok env hp n st.name s.last (treesOf (doDisamb env n st s.isPartial chart trees).1)
    have hst : ∃ r s', step env prunes n st s = .ok (r, s') := by
      cases hx : step env prunes n st s with
      | ok x => exact ⟨x.1, x.2, rfl⟩
      | error e =>
        exfalso
        unfold step at hx
        rw [hdp] at hx
        dsimp only at hx
        rw [hfin] at hx
        cases hx
    obtain ⟨r', s', hst⟩ := hst
    obtain ⟨chart', trees', h1, h2, h3, h4, _⟩ := step_spec env prunes n st s s' r' hst
    have hname : r'.name = st.name := (finish_spec env n st.name s.last _ r' s'.last h2).1
    rw [loop, hst]
    dsimp only
    have ih := loop_total env hp prunes sts (n + 1) s' (st.name :: seen) v3 (fun st' hst' => hpr st' (List.mem_cons_of_mem _ hst')) (by
      intro p hps hpp
      rw [h3, h4]
      by_cases hm : st.name ∈ prunes
      · rw [if_pos hm, if_pos hm, Dict.get?_set, Dict.get?_set]
        by_cases he : st.name = p
        · simp [he]
        · simp only [if_neg he]
          rcases List.mem_cons.mp hps with h | h
          · exact absurd h.symm he
          · exact hinv p h hpp
      · rw [if_neg hm, if_neg hm]
        rcases List.mem_cons.mp hps with h | h
        · rw [h] at hpp; exact absurd hpp hm
        · exact hinv p h hpp)
    exact ⟨ih.1, by rw [List.map_cons, List.map_cons, ih.2, hname]⟩

/-- **A result for every stage.** When stages refer to stages before them and post-processing never fails, there is exactly one result for
each stage, in order. -/
theorem C74_total {C T : Type} (env : Env C T) (stages : List Stage) (hv : Spec.Valid [] stages) (hp : ∀ n s, ∃ t, env.post n s = .ok t) :
    (parse env stages).2 = none ∧ (parse env stages).1.map (·.name) = stages.map (·.name) :=
  loop_total env hp (stages.filterMap (fun st : Stage => st.prune)) stages 0 ⟨[], [], none, none, false⟩ [] hv
    (fun st hst p h => List.mem_filterMap.mpr ⟨st, hst, h⟩) (by simp)

/-- The trees of a stage that parses. -/
theorem disamb_ok {C T : Type} (env : Env C T) (hn : env.nonempty = true) (hrr : env.rr = false) (n : Nat) (st : Stage) (hk : st.kind = .parse) (c : C) :
    treesOf (doDisamb env n st false (some c) none).1 = Spec.treesOfChart env n c ∧ (doDisamb env n st false (some c) none).2 = !env.ok c := by
  unfold doDisamb Spec.treesOfChart
  cases h : env.ok c with
  | true => simp [hn, hrr, hk, okOpt, h, treesOf]
  | false => simp [hn, hrr, hk, okOpt, h, treesOf]

/-- After a failure. -/
theorem disamb_failed {C T : Type} (env : Env C T) (n : Nat) (st : Stage) (c : C) (h : env.ok c = false) :
    treesOf (doDisamb env n st true (some c) none).1 = [] ∧ (doDisamb env n st true (some c) none).2 = true := by
  unfold doDisamb
  simp [okOpt, h, treesOf]

theorem rest_trees {C T : Type} (env : Env C T) (hn : env.nonempty = true) (hrr : env.rr = false) (prunes : List Str) :
    ∀ (sts : List Stage) (n : Nat) (prev : Str) (s : State C) (c : C), 0 < n → Spec.Rest prev sts → (∀ st ∈ sts, ∀ p, st.prune = some p → p ∈ prunes) →
    (prev ∈ prunes → s.charts.get? prev = some (some c)) → s.chart = some c → s.isPartial = !env.ok c →
    ∀ (i : Nat) (r : Result T), (loop env prunes n sts s).1[i]? = some r → ∃ ts, (Spec.restTrees env n c sts)[i]? = some ts ∧ (ts ≠ [] → r.trees = ts) ∧ (ts = [] → r.noparse = true)
  | [], n, prev, s, c, _, _, _, _, _, _, i, r, h => by simp [loop] at h
  | st :: sts, n, prev, s, c, hpos, hr, hpr, hc, hch, hpa, i, r, h => by
    rw [Spec.Rest] at hr
    obtain ⟨hk, hprune, hrest⟩ := hr
    have hget := hc (hpr st List.mem_cons_self prev hprune)
    rw [loop] at h
    cases hs : step env prunes n st s with
    | error e => rw [hs] at h; simp at h
    | ok rs =>
      obtain ⟨r0, s'⟩ := rs
      rw [hs] at h
      dsimp only at h
      obtain ⟨chart, trees, d1, hf, h3, _, h5, h6⟩ := step_spec env prunes n st s s' r0 hs
      obtain ⟨_, f2, f3, _⟩ := finish_spec env n st.name s.last _ r0 s'.last hf
      unfold doParse at d1
      rw [if_pos hn, hprune] at d1
      dsimp only at d1
      rw [hget] at d1
      dsimp only at d1
      cases hok : env.ok c with
      | true =>
        rw [if_pos (show okOpt env (some c) = true from hok), hk] at d1
        dsimp only at d1
        rw [if_pos hpos] at d1
        injection d1 with d1
        injection d1 with e1 e2
        subst e1; subst e2
        rw [hok, Bool.not_true] at hpa
        obtain ⟨t1, t2⟩ := disamb_ok env hn hrr n st hk (env.parse n (some c))
        rw [hpa, t1] at f2 f3
        rw [hpa, t2] at h6
        rw [Spec.restTrees, if_pos hok]
        cases i with
        | zero =>
          simp only [List.getElem?_cons_zero, Option.some.injEq] at h
          subst h
          exact ⟨_, rfl, f2, f3⟩
        | succ i =>
          rw [List.getElem?_cons_succ] at h ⊢
          apply rest_trees env hn hrr prunes sts (n + 1) st.name s' (env.parse n (some c)) (by omega) hrest
            (fun st' hst' => hpr st' (List.mem_cons_of_mem _ hst')) _ h5 h6 i r h
          intro hm
          rw [h3, if_pos hm, Dict.get?_set, if_pos rfl]
      | false =>
        rw [if_neg (by rw [show okOpt env (some c) = env.ok c from rfl, hok]; simp)] at d1
        injection d1 with d1
        injection d1 with e1 e2
        subst e1; subst e2
        rw [hok, Bool.not_false] at hpa
        obtain ⟨t1, t2⟩ := disamb_failed env n st c hok
        rw [hpa, hch, t1] at f2 f3
        rw [hpa, hch, t2] at h6
        rw [Spec.restTrees, if_neg (by rw [hok]; simp)]
        cases i with
        | zero =>
          simp only [List.getElem?_cons_zero, Option.some.injEq] at h
          subst h
          exact ⟨_, rfl, f2, f3⟩
        | succ i =>
          rw [List.getElem?_cons_succ] at h ⊢
          apply rest_trees env hn hrr prunes sts (n + 1) st.name s' c (by omega) hrest
            (fun st' hst' => hpr st' (List.mem_cons_of_mem _ hst')) _ (by rw [h5, hch]) (by rw [h6, hok]; rfl) i r h
          intro hm
          rw [h3, if_pos hm, Dict.get?_set, if_pos rfl, hch]

/-- **Coarse-to-fine.** In the usual configuration: every stage is parsed with the chart of the stage before it, as long as that was
successful; the first stage that fails gives a tree made of parts; the stages after it have no parse. -/
theorem C74_chain {C T : Type} (env : Env C T) (stages : List Stage) (hn : env.nonempty = true) (hrr : env.rr = false) (hc : Spec.Chain stages)
    (i : Nat) (r : Result T) (h : (parse env stages).1[i]? = some r) :
    ∃ ts, (Spec.chainTrees env stages)[i]? = some ts ∧ (ts ≠ [] → r.trees = ts) ∧ (ts = [] → r.noparse = true) := by
  unfold parse at h
  cases stages with
  | nil => simp [loop] at h
  | cons st sts =>
    rw [Spec.Chain] at hc
    obtain ⟨hk, hprune, hrest⟩ := hc
    generalize hpr : (st :: sts).filterMap (fun st : Stage => st.prune) = prunes at h
    have hmem : ∀ st' ∈ sts, ∀ p, st'.prune = some p → p ∈ prunes := by
      intro st' hst' p hp
      rw [← hpr]
      exact List.mem_filterMap.mpr ⟨st', List.mem_cons_of_mem _ hst', hp⟩
    rw [loop] at h
    cases hs : step env prunes 0 st (⟨[], [], none, none, false⟩ : State C) with
    | error e => rw [hs] at h; simp at h
    | ok rs =>
      obtain ⟨r0, s'⟩ := rs
      rw [hs] at h
      dsimp only at h
      obtain ⟨chart, trees, d1, hf, h3, _, h5, h6⟩ := step_spec env prunes 0 st _ s' r0 hs
      obtain ⟨_, f2, f3, _⟩ := finish_spec env 0 st.name _ _ r0 s'.last hf
      unfold doParse at d1
      rw [if_pos hn, hprune, hk] at d1
      injection d1 with d1
      injection d1 with e1 e2
      subst e1; subst e2
      obtain ⟨t1, t2⟩ := disamb_ok env hn hrr 0 st hk (env.parse 0 none)
      rw [t1] at f2 f3
      rw [t2] at h6
      rw [Spec.chainTrees]
      cases i with
      | zero =>
        simp only [List.getElem?_cons_zero, Option.some.injEq] at h
        subst h
        exact ⟨_, rfl, f2, f3⟩
      | succ i =>
        rw [List.getElem?_cons_succ] at h ⊢
        apply rest_trees env hn hrr prunes sts 1 st.name s' (env.parse 0 none) (by omega) hrest hmem _ h5 h6 i r h
        intro hm
        rw [h3, if_pos hm, Dict.get?_set, if_pos rfl]

/-! ## Concrete cases -/

/-- Charts are numbers, 0 is a failure; trees are strings; `fails` are the stages that fail to parse, `empty` the stages of which disambiguation
gives nothing; `split` are the stages with split nodes, of which the parse trees have to be merged (removing `*`). -/
def envEx (fails empty split : List Nat) : Env Nat Str where
  nonempty := true
  rr := false
  ok c := c ≠ 0
  parse n _ := if n ∈ fails then 0 else n + 1
  disamb n c := if n ∈ empty then [] else
    [(if n ∈ split then "b*".toList else "b".toList, 1 / 4), ((if n ∈ split then "a*".toList else "a".toList) ++ (toString c).toList, 1 / 2)]
  rerank _ ts := ts.reverse
  partialParse _ := ("parts".toList, 1)
  post n s := .ok (if n ∈ split then s.filter (fun c => c ≠ '*') else s)
  check t := t ≠ []
  default _ := "dummy".toList
  show_ t := t

/-- A coarse stage and a fine stage. -/
def chainEx : List Stage := [⟨"pcfg".toList, none, true, .parse⟩, ⟨"plcfrs".toList, some "pcfg".toList, false, .parse⟩]

theorem ex_chain : Spec.Chain chainEx ∧ Spec.Valid [] chainEx := by
  simp [chainEx, Spec.Chain, Spec.Rest, Spec.Valid]

example : (parse (envEx [] [] [0]) chainEx).1.map (fun r => (r.tree, r.noparse)) = [("a1".toList, false), ("a2".toList, false)] := by decide +kernel

example : (parse (envEx [0] [] [0]) chainEx).2 = none ∧ (parse (envEx [0] [] [0]) chainEx).1.map (·.name) = ["pcfg".toList, "plcfrs".toList] :=
  C74_total (envEx [0] [] [0]) chainEx ex_chain.2 (fun _ _ => ⟨_, rfl⟩)

/-- The coarse stage fails: there is a tree made of parts, and the fine stage has no parse. -/
example : (parse (envEx [0] [] [0]) chainEx).1.map (fun r => (r.tree, r.noparse)) = [("parts".toList, false), ("parts".toList, true)] := by decide +kernel

/-- **Disagreement.** "Return parse from previous stage": when the fine stage fails to parse after a successful coarse stage, its result is not the
parse of the coarse stage, but a tree put together from parts; and it is not marked as having no parse. -/
theorem C74_partial_disagreement : ∃ env : Env Nat Str, (∀ n s, ∃ t, env.post n s = .ok t) ∧
    (parse env chainEx).1.map (fun r => (r.tree, r.noparse)) = [("a1".toList, false), ("parts".toList, false)] ∧ env.ok (env.parse 1 (some (env.parse 0 none))) = false :=
  ⟨envEx [1] [] [0], fun _ _ => ⟨_, rfl⟩, by decide +kernel, by decide +kernel⟩

/-- **Disagreement.** The coarse stage has split nodes, and disambiguation for the fine stage gives nothing: its result is the parse of the coarse
stage, but post-processed as a parse of the fine stage, so that the split nodes are not merged. -/
theorem C74_split_disagreement : (parse (envEx [] [1] [0]) chainEx).1.map (fun r => (r.tree, r.noparse)) = [("a1".toList, false), ("a*1".toList, true)] := by decide +kernel

/-- **Disagreement.** A stage is not parsed because its coarse stage failed, but there is another stage in between that was successful: the chart of
that stage is taken for its own, and its result is not marked as having no parse. -/
theorem C74_stale_disagreement : (parse (envEx [0] [] [])
      [⟨"A".toList, none, false, .parse⟩, ⟨"B".toList, none, false, .parse⟩, ⟨"C".toList, some "A".toList, false, .parse⟩]).1.map (fun r => (r.tree, r.noparse)) =
    [("parts".toList, false), ("a2".toList, false), ("a2".toList, false)] := by decide +kernel

/-- The probability of a parse tree: a number, or the number of subtrees of its shortest derivation with its probability. -/
inductive PProb where
  | num (p : Rat)
  | pair (n p : Rat)
  deriving DecidableEq

/-- `probmult` (parser.py:818-824); none is a TypeError. -/
def probmult : PProb → PProb → Option PProb
  | .num p1, q => if p1 = 1 then some q else
    match q with
    | .num p2 => some (.num (p1 * p2))
    | .pair _ _ => none
  | .pair n1 p1, .pair _ p2 => some (.pair (n1 + p2) (p1 * p2))
  | .pair _ _, .num _ => none

/-- Multiplying probabilities that are numbers. -/
theorem C74_probmult (ps : List Rat) : ∀ p : Rat, ps.foldlM (fun a b => probmult a (.num b)) (.num p) = some (.num (ps.foldl (· * ·) p)) := by
  induction ps with
  | nil => intro p; rfl
  | cons q ps ih =>
    intro p
    have h : probmult (.num p) (.num q) = some (.num (p * q)) := by
      by_cases hp : p = 1
      · simp [probmult, hp, Rat.one_mul]
      · simp [probmult, hp]
    rw [List.foldlM_cons, h]
    exact ih (p * q)

/-- **Disagreement.** With pairs, the numbers of subtrees are not added: the probability is. -/
theorem C74_probmult_disagreement : probmult (.pair 3 (1 / 2)) (.pair 4 (1 / 4)) = some (.pair (3 + 1 / 4) (1 / 8)) ∧
    probmult (.pair 3 (1 / 2)) (.pair 4 (1 / 4)) ≠ some (.pair (3 + 4) (1 / 8)) := by decide +kernel

end Disco.Pipeline
