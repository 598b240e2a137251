import Verif.Basic.Dict
import Verif.Basic.Sort
import Mathlib.Data.List.Basic
import Mathlib.Data.List.Nodup
import Mathlib.Data.List.Dedup
import Mathlib.Data.List.Perm.Basic

/-!
# The cache and the jobs of the corpus searchers (treesearch.py)

`FIFOOrederedDict`, and `counts`, `trees`, `sents` of `TgrepSearcher`, `FragmentSearcher` and `RegexSearcher`: the cache, the jobs, and
the order in which jobs are completed. What a query gives on a file is a parameter (an oracle); the cache, the truncation of
results, the order of completion and the variables that are shared with running jobs are modelled as they are.
-/

namespace Disco.Search
open Disco

/-! ## Model -/

section Fifo
variable {K V : Type} [DecidableEq K]

/-- `FIFOOrederedDict.__setitem__` (treesearch.py:1248-1255). -/
def setItem (limit : Nat) (d : Dict K V) (k : K) (v : V) : Dict K V :=
  if limit = 0 then d
  else if (d.get? k).isSome then d.erase k ++ [(k, v)]
  else if limit ≤ d.length then d.tail ++ [(k, v)]
  else d ++ [(k, v)]

end Fifo

/-- Keys of the cache: the method, the query with its other parameters, the file. -/
inductive Key (Q F : Type) where
  | counts (q : Q) (f : F)
  | trees (q : Q) (f : F)
  deriving DecidableEq, Repr

/-- Values of the cache: a count (or list of indices, …), or a list of results with the limit it was made with. -/
inductive Val (C R : Type) where
  | cnt (c : C)
  | lst (xs : List R) (maxresults : Option Nat)
  deriving DecidableEq, Repr

section Calls
variable {Q F C R : Type} [DecidableEq Q] [DecidableEq F]

/-- The cache. -/
abbrev Cache (Q F C R : Type) := Dict (Key Q F) (Val C R)

/-- The first loop of `counts`: the results that are in the cache, and the jobs (treesearch.py:267-286, 625-641, 915-927). -/
def countsHits (cache : Cache Q F C R) (q : Q) : List F → List (F × C) × List F
  | [] => ([], [])
  | f :: fs =>
    match cache.get? (.counts q f) with
    | some (.cnt c) => ((f, c) :: (countsHits cache q fs).1, (countsHits cache q fs).2)
    | _ => ((countsHits cache q fs).1, f :: (countsHits cache q fs).2)

/-- The loop over completed jobs (treesearch.py:286-290, 642-650, 928-931). -/
def countsJobs (limit : Nat) (run : Q → F → C) (q : Q) (cache : Cache Q F C R) (result : Dict F C) :
    List F → Dict F C × Cache Q F C R
  | [] => (result, cache)
  | f :: fs => countsJobs limit run q (setItem limit cache (.counts q f) (.cnt (run q f)))
      (result.set f (run q f)) fs

/-- `counts(query, subset, …)` (treesearch.py:254-290, 609-651, 906-932); `done` gives the order in which jobs are completed. -/
def counts (limit : Nat) (run : Q → F → C) (cache : Cache Q F C R) (q : Q) (subset : List F)
    (done : List F → List F) : Dict F C × Cache Q F C R :=
  let h := countsHits cache q subset
  countsJobs limit run q cache (h.1.foldl (fun d x => d.set x.1 x.2) []) (done h.2)

/-- `not maxresults or maxresults > maxresults2`; `none` is the `TypeError` of comparing a number with None. -/
def needsJob (maxresults maxresults2 : Option Nat) : Option Bool :=
  match maxresults, maxresults2 with
  | none, _ => some true
  | some 0, _ => some true
  | some _, none => none
  | some m, some m2 => some (decide (m2 < m))

/-- `x[:maxresults]`. -/
def upTo {α : Type} (maxresults : Option Nat) (xs : List α) : List α :=
  match maxresults with
  | none => xs
  | some m => xs.take m

/-- The first loop of `trees` (treesearch.py:354-367, 678-695). -/
def treesHits (cache : Cache Q F C R) (q : Q) (maxresults : Option Nat) : List F → Option (List R × List F)
  | [] => some ([], [])
  | f :: fs =>
    match cache.get? (.trees q f) with
    | some (.lst x m2) =>
      match needsJob maxresults m2 with
      | none => none
      | some true => (treesHits cache q maxresults fs).map (fun r => (r.1, f :: r.2))
      | some false => (treesHits cache q maxresults fs).map (fun r => (upTo maxresults x ++ r.1, r.2))
    | _ =>
      match needsJob maxresults (some 0) with
      | none => none
      | some true => (treesHits cache q maxresults fs).map (fun r => (r.1, f :: r.2))
      | some false => (treesHits cache q maxresults fs).map (fun r => (r.1, r.2))

/-- The loop over completed jobs (treesearch.py:368-400, 696-720). -/
def treesJobs (limit : Nat) (run : Q → F → Option Nat → List R) (q : Q) (maxresults : Option Nat)
    (cache : Cache Q F C R) (result : List R) : List F → List R × Cache Q F C R
  | [] => (result, cache)
  | f :: fs => treesJobs limit run q maxresults
      (setItem limit cache (.trees q f) (.lst (run q f maxresults) maxresults)) (result ++ run q f maxresults) fs

/-- `trees(query, subset, …, maxresults, …)` (treesearch.py:344-400, 670-720). -/
def trees (limit : Nat) (run : Q → F → Option Nat → List R) (cache : Cache Q F C R) (q : Q) (subset : List F)
    (maxresults : Option Nat) (done : List F → List F) : Option (List R × Cache Q F C R) :=
  match treesHits cache q maxresults subset with
  | none => none
  | some (hits, jobs) => some (treesJobs limit run q maxresults cache hits (done jobs))

/-- A call of one of the methods, with the order in which its jobs are completed. -/
inductive Call (Q F : Type) where
  | counts (q : Q) (subset : List F) (done : List F → List F)
  | trees (q : Q) (subset : List F) (maxresults : Option Nat) (done : List F → List F)

/-- The cache after a call; an exception leaves it as it was. -/
def Call.exec (limit : Nat) (runC : Q → F → C) (runT : Q → F → Option Nat → List R) (cache : Cache Q F C R) :
    Call Q F → Cache Q F C R
  | .counts q subset done => (Search.counts limit runC cache q subset done).2
  | .trees q subset m done =>
    match Search.trees limit runT cache q subset m done with
    | none => cache
    | some r => r.2

/-- The cache after a history of calls on a new searcher. -/
def history (limit : Nat) (runC : Q → F → C) (runT : Q → F → Option Nat → List R) (calls : List (Call Q F)) :
    Cache Q F C R :=
  calls.foldl (Call.exec limit runC runT) []

end Calls

/-- The loop of `TgrepSearcher._query` over the matches (sentence number and text), when `start`, `end` or `maxresults` is given
(treesearch.py:512-524); 0 stands for None as well. -/
def tgrepLoop {α : Type} (start end_ maxresults : Nat) : Nat → List (Nat × α) → List (Nat × α)
  | _, [] => []
  | n, (m, a) :: ms =>
    if m < start then tgrepLoop start end_ maxresults (n + 1) ms
    else if (end_ ≠ 0 ∧ end_ < m) ∨ (maxresults ≠ 0 ∧ maxresults ≤ n) then []
    else (m, a) :: tgrepLoop start end_ maxresults (n + 1) ms

/-- `TgrepSearcher._query` (treesearch.py:492-534) on the matches that tgrep2 prints. -/
def tgrepQuery {α : Type} (matches_ : List (Nat × α)) (start end_ maxresults : Nat) : List (Nat × α) :=
  if start ≠ 0 ∨ end_ ≠ 0 ∨ maxresults ≠ 0 then
    tgrepLoop (if start = 0 then 1 else start) end_ maxresults 0 matches_
  else matches_

/-- A match of `RegexSearcher`: sentence number, sentence, and the span in it (treesearch.py:1127-1128). -/
structure Match where
  sentno : Nat
  sent : List Char
  s : Nat
  e : Nat
  deriving DecidableEq, Repr

section Sents
variable {Q F : Type} [DecidableEq Q] [DecidableEq F]

/-- The cache of `sents`: the key has the values of `start` and `end`. -/
abbrev SCache (Q F : Type) := Dict (Q × F × Option Nat × Option Nat) (List Match × Nat)

/-- The first loop of `RegexSearcher.sents` (treesearch.py:942-957), for `maxresults > 0`. -/
def sentsHits (cache : SCache Q F) (q : Q) (start end_ : Option Nat) (maxresults : Nat) :
    List F → List (F × Match) × List F
  | [] => ([], [])
  | f :: fs =>
    match cache.get? (q, f, start, end_) with
    | some (x, m2) =>
      if m2 < maxresults then ((sentsHits cache q start end_ maxresults fs).1, f :: (sentsHits cache q start end_ maxresults fs).2)
      else ((x.take maxresults).map (fun y => (f, y)) ++ (sentsHits cache q start end_ maxresults fs).1,
        (sentsHits cache q start end_ maxresults fs).2)
    | none => ((sentsHits cache q start end_ maxresults fs).1, f :: (sentsHits cache q start end_ maxresults fs).2)

/-- `for sentno, sent, start, end in future.result()`: the loop assigns to the variables `start` and `end`
(treesearch.py:961-963). -/
def loopVars (ms : List Match) (vars : Option Nat × Option Nat) : Option Nat × Option Nat :=
  match ms.getLast? with
  | none => vars
  | some x => (some x.s, some x.e)

/-- The loop over completed jobs (treesearch.py:958-966). The jobs got `start` and `end` when they were submitted (`ms f` is
what they give); the key is made from the variables. -/
def sentsJobs (limit : Nat) (ms : F → List Match) (q : Q) (maxresults : Nat) (vars : Option Nat × Option Nat)
    (cache : SCache Q F) (result : List (F × Match)) : List F → List (F × Match) × SCache Q F
  | [] => (result, cache)
  | f :: fs =>
    let vars' := loopVars (ms f) vars
    sentsJobs limit ms q maxresults vars' (setItem limit cache (q, f, vars'.1, vars'.2) (ms f, maxresults))
      (result ++ (ms f).map (fun y => (f, y))) fs

/-- `RegexSearcher.sents(query, subset, start, end, maxresults)` (treesearch.py:934-967). -/
def sents (limit : Nat) (run : Q → F → Option Nat → Option Nat → Nat → List Match) (cache : SCache Q F) (q : Q)
    (subset : List F) (start end_ : Option Nat) (maxresults : Nat) (done : List F → List F) :
    List (F × Match) × SCache Q F :=
  let h := sentsHits cache q start end_ maxresults subset
  sentsJobs limit (fun f => run q f start end_ maxresults) q maxresults (start, end_) cache h.1 (done h.2)

end Sents

section Race
variable {F : Type} [DecidableEq F]

/-- Events of `TgrepSearcher.sents` and `batchsents` with several threads (treesearch.py:309-342, 402-446): a thread starts
the job of a file, i.e., calls the lambda, which reads the variable `end` of the method; the main thread handles the completed
job of a file. -/
inductive Ev (F : Type) where
  | start (f : F)
  | handle (f : F)
  deriving DecidableEq, Repr

/-- The variable `end`, what the jobs gave, the results. -/
structure RaceSt (F : Type) where
  end_ : Nat
  jobs : Dict F (List Match)
  result : List (F × Match)

/-- One event. `run f end` is what the query gives on a file. Handling a job assigns to `end`
(`sent, match, begin, end = line.splitlines()`, `begin, end = int(begin) - 1, int(end)`). -/
def Ev.exec (run : F → Nat → List Match) (s : RaceSt F) : Ev F → RaceSt F
  | .start f => { s with jobs := s.jobs.set f (run f s.end_) }
  | .handle f =>
    match s.jobs.get? f with
    | none => s
    | some ms =>
      { s with
        end_ := match ms.getLast? with
          | none => s.end_
          | some x => x.e
        result := s.result ++ ms.map (fun y => (f, y)) }

/-- A schedule. -/
def execAll (run : F → Nat → List Match) (end_ : Nat) (evs : List (Ev F)) : RaceSt F :=
  evs.foldl (Ev.exec run) ⟨end_, [], []⟩

end Race

/-- `TgrepSearcher.batchcounts` for one file (treesearch.py:299-305): from the numbers of the matching queries (1-based, as printed by
tgrep2), `[cnt for _, cnt in sorted(Counter(…).items())]`. -/
def tgrepBatch (queryno : List Nat) : List Nat :=
  (stableSort (fun a b => decide (a ≤ b)) queryno.dedup).map (fun i => queryno.count i)

/-! ## Specification -/

/-- The keys of a history of assignments (newest first), each once. -/
def Spec.recent {K V : Type} [DecidableEq K] : List (K × V) → List K
  | [] => []
  | (k, _) :: h => k :: (Spec.recent h).filter (fun x => decide (x ≠ k))

/-- The last value assigned to a key (history newest first). -/
def Spec.lastValue {K V : Type} [DecidableEq K] (k : K) : List (K × V) → Option V
  | [] => none
  | (k', v) :: h => if k' = k then some v else Spec.lastValue k h

/-- A limit only cuts off the results: with a limit (a positive number) the first results are given, without (None or 0) all. -/
def Spec.Prefix {Q F R : Type} (run : Q → F → Option Nat → List R) : Prop :=
  ∀ q f, run q f none = run q f (some 0) ∧ ∀ m, m ≠ 0 → run q f (some m) = (run q f none).take m

/-- An order of completion: a rearrangement of the jobs. -/
def Spec.Order {F : Type} (done : List F → List F) : Prop := ∀ l, (done l).Perm l

/-- The order of completion of a call, and no use of `maxresults=None`. -/
def Spec.CallOk {Q F : Type} : Call Q F → Prop
  | .counts _ _ done => Spec.Order done
  | .trees _ _ m done => Spec.Order done ∧ m ≠ none

/-! ## The cache -/

section Fifo
variable {K V : Type} [DecidableEq K]

theorem recent_nodup : ∀ h : List (K × V), (Spec.recent h).Nodup
  | [] => List.nodup_nil
  | (k, v) :: h => by
    rw [Spec.recent, List.nodup_cons]
    exact ⟨by simp, (recent_nodup h).filter _⟩

theorem mem_recent (h : List (K × V)) (k : K) : k ∈ Spec.recent h ↔ (Spec.lastValue k h).isSome = true := by
  induction h with
  | nil => simp [Spec.recent, Spec.lastValue]
  | cons x h ih =>
    obtain ⟨k', v⟩ := x
    rw [Spec.recent, Spec.lastValue, List.mem_cons, List.mem_filter, ih]
    by_cases e : k' = k
    · simp [e]
    · have : ¬ k = k' := fun h => e h.symm
      simp [e, this]

theorem take_filter_mem (k : K) : ∀ (L : List K) (n : Nat), L.Nodup → k ∈ L.take (n + 1) →
    (L.filter (fun x => decide (x ≠ k))).take n = (L.take (n + 1)).filter (fun x => decide (x ≠ k))
  | [], _, _, h => by simp at h
  | x :: L, n, hn, h => by
    rw [List.nodup_cons] at hn
    by_cases e : x = k
    · subst e
      have hf : L.filter (fun y => decide (y ≠ x)) = L := by
        rw [List.filter_eq_self]
        intro y hy
        have : y ≠ x := by rintro rfl; exact hn.1 hy
        simp [this]
      have hf2 : (L.take n).filter (fun y => decide (y ≠ x)) = L.take n := by
        rw [List.filter_eq_self]
        intro y hy
        have : y ≠ x := by rintro rfl; exact hn.1 (List.mem_of_mem_take hy)
        simp [this]
      rw [List.take_succ_cons, List.filter_cons_of_neg (by simp), List.filter_cons_of_neg (by simp), hf, hf2]
    · rw [List.take_succ_cons, List.filter_cons_of_pos (by simp [e]), List.filter_cons_of_pos (by simp [e])]
      rw [List.take_succ_cons, List.mem_cons] at h
      cases n with
      | zero =>
        rcases h with h | h
        · exact absurd h.symm e
        · simp at h
      | succ n =>
        rw [List.take_succ_cons]
        congr 1
        exact take_filter_mem k L n hn.2 (h.resolve_left (fun h => e h.symm))

theorem take_filter_not_mem (k : K) : ∀ (L : List K) (n : Nat), k ∉ L.take n →
    (L.filter (fun x => decide (x ≠ k))).take n = L.take n ∨ n = 0
  | _, 0, _ => .inr rfl
  | [], _ + 1, _ => .inl rfl
  | x :: L, n + 1, h => by
    left
    rw [List.take_succ_cons, List.mem_cons, not_or] at h
    rw [List.filter_cons_of_pos (by simp [Ne.symm h.1]), List.take_succ_cons, List.take_succ_cons]
    congr 1
    rcases take_filter_not_mem k L n h.2 with h | h
    · exact h
    · subst h; rfl

theorem erase_map (d : Dict K V) (k : K) (hd : d.WF) :
    (d.erase k).map (fun x => (x.1, some x.2)) =
      (d.map (fun x => (x.1, some x.2))).filter (fun x => decide (x.1 ≠ k)) := by
  induction d with
  | nil => rfl
  | cons x d ih =>
    obtain ⟨k', v⟩ := x
    rw [Dict.WF, Dict.keys, List.map_cons, List.nodup_cons] at hd
    by_cases e : k' = k
    · subst e
      rw [Dict.erase, if_pos rfl, List.map_cons, List.filter_cons_of_neg (by simp)]
      symm
      rw [List.filter_eq_self]
      intro y hy
      obtain ⟨z, hz, rfl⟩ := List.mem_map.mp hy
      have : z.1 ≠ k' := by
        intro e
        exact hd.1 (List.mem_map.mpr ⟨z, hz, e⟩)
      simp [this]
    · rw [Dict.erase, if_neg e, List.map_cons, List.map_cons, List.filter_cons_of_pos (by simp [e]), ih hd.2]

/-- The state of the cache after a history of assignments (newest first). -/
def cacheAfter (limit : Nat) (h : List (K × V)) : Dict K V := h.foldr (fun x d => setItem limit d x.1 x.2) []

theorem cache_entries (limit : Nat) : ∀ h : List (K × V),
    (cacheAfter limit h).map (fun x => (x.1, some x.2)) =
      ((Spec.recent h).take limit).reverse.map (fun k => (k, Spec.lastValue k h))
  | [] => by simp [cacheAfter, Spec.recent]
  | (k, v) :: h => by
    have ih := cache_entries limit h
    have hkeys : (cacheAfter limit h).keys = ((Spec.recent h).take limit).reverse := by
      have := congrArg (List.map Prod.fst) ih
      simpa [Dict.keys, Function.comp_def] using this
    have hnd : ((Spec.recent h).take limit).Nodup := (List.take_sublist _ _).nodup (recent_nodup h)
    have hwf : (cacheAfter limit h).WF := by
      rw [Dict.WF, hkeys, List.nodup_reverse]; exact hnd
    have hstep : cacheAfter limit ((k, v) :: h) = setItem limit (cacheAfter limit h) k v := rfl
    rw [hstep]
    cases limit with
    | zero =>
      rw [setItem, if_pos rfl, ih]
      simp
    | succ n =>
      rw [setItem, if_neg (by simp), Spec.recent, List.take_succ_cons, List.reverse_cons, List.map_append,
        List.map_singleton]
      have hlast : Spec.lastValue k ((k, v) :: h) = some v := by simp [Spec.lastValue]
      have hother : ∀ l : List K, (∀ x ∈ l, x ≠ k) →
          l.map (fun x => (x, Spec.lastValue x ((k, v) :: h))) = l.map (fun x => (x, Spec.lastValue x h)) := by
        intro l hl
        apply List.map_congr_left
        intro x hx
        have := hl x hx
        simp [Spec.lastValue, this.symm]
      rw [hlast, hother _ (by
        intro x hx
        have := List.mem_of_mem_take (List.mem_reverse.mp hx)
        simpa using (List.mem_filter.mp this).2)]
      by_cases hk : k ∈ (Spec.recent h).take (n + 1)
      · have hsome : ((cacheAfter (n + 1) h).get? k).isSome = true := by
          rw [← Dict.mem_keys, hkeys, List.mem_reverse]; exact hk
        rw [if_pos hsome, List.map_append, erase_map _ _ hwf, ih]
        congr 1
        rw [take_filter_mem k _ n (recent_nodup h) hk, ← List.filter_reverse, List.filter_map]
        rfl
      · have hnone : ¬ ((cacheAfter (n + 1) h).get? k).isSome = true := by
          rw [← Dict.mem_keys, hkeys, List.mem_reverse]; exact hk
        rw [if_neg hnone]
        have hk' : k ∉ (Spec.recent h).take n := fun hm => hk (List.take_subset_take_left _ (by omega) hm)
        have htake : ((Spec.recent h).filter (fun x => decide (x ≠ k))).take n = (Spec.recent h).take n := by
          rcases take_filter_not_mem k _ n hk' with h | h
          · exact h
          · subst h; simp
        rw [htake]
        have hlen : (cacheAfter (n + 1) h).length = min (n + 1) (Spec.recent h).length := by
          have := congrArg List.length ih
          simpa using this
        split
        · rename_i hle
          have hL : n + 1 ≤ (Spec.recent h).length := by omega
          rw [List.map_append, List.map_tail, ih]
          congr 1
          rw [← List.map_tail]
          congr 1
          rw [List.take_succ_eq_append_getElem (by omega : n < (Spec.recent h).length), List.reverse_append]
          rfl
        · rename_i hle
          have hL : (Spec.recent h).length ≤ n := by omega
          rw [List.map_append, ih, List.take_of_length_le (by omega), List.take_of_length_le hL]
          rfl

theorem get?_of_map (d : Dict K V) (L : List K) (f : K → Option V) (h : d.map (fun x => (x.1, some x.2)) = L.map (fun k => (k, f k)))
    (k : K) : d.get? k = if k ∈ L then f k else none := by
  induction d generalizing L with
  | nil =>
    cases L with
    | nil => rfl
    | cons a L => simp at h
  | cons x d ih =>
    obtain ⟨k', v⟩ := x
    cases L with
    | nil => simp at h
    | cons a L =>
      rw [List.map_cons, List.map_cons, List.cons.injEq, Prod.mk.injEq] at h
      obtain ⟨⟨rfl, hv⟩, h2⟩ := h
      rw [Dict.get?, ih L h2]
      by_cases e : k' = k
      · subst e; simp [← hv]
      · have : ¬ k = k' := fun h => e h.symm
        simp [e, this]

/-- **C68** The cache: after any history of assignments it holds exactly the `limit` keys that were assigned most recently, each
with the last value assigned to it, in the order of assignment; it never has more than `limit` elements. -/
theorem C68_fifo (limit : Nat) (h : List (K × V)) :
    (cacheAfter limit h).keys = ((Spec.recent h).take limit).reverse ∧
    (cacheAfter limit h).length ≤ limit ∧
    ∀ k, (cacheAfter limit h).get? k = if k ∈ (Spec.recent h).take limit then Spec.lastValue k h else none := by
  have he := cache_entries limit h
  refine ⟨?_, ?_, ?_⟩
  · have := congrArg (List.map Prod.fst) he
    simpa [Dict.keys, Function.comp_def] using this
  · have := congrArg List.length he
    simp at this
    omega
  · intro k
    rw [get?_of_map _ _ _ he k]
    simp

/-- Three assignments with limit 2, the first key assigned again. -/
example : cacheAfter 2 [(1, 'd'), (3, 'c'), (2, 'b'), (1, 'a')] = [(3, 'c'), (1, 'd')] ∧
    cacheAfter 2 [(1, 'd'), (2, 'b'), (1, 'a')] = [(2, 'b'), (1, 'd')] := by decide +kernel

theorem mem_setItem {limit : Nat} {d : Dict K V} {k : K} {v : V} {x : K × V} (h : x ∈ setItem limit d k v) :
    x = (k, v) ∨ x ∈ d := by
  have herase : ∀ d : Dict K V, x ∈ d.erase k → x ∈ d := by
    intro d
    induction d with
    | nil => intro h; exact h
    | cons y d ih =>
      obtain ⟨k', v'⟩ := y
      intro h
      rw [Dict.erase] at h
      split at h
      · exact List.mem_cons_of_mem _ h
      · rcases List.mem_cons.mp h with h | h
        · subst h; simp
        · exact List.mem_cons_of_mem _ (ih h)
  unfold setItem at h
  split at h
  · exact .inr h
  · split at h
    · rcases List.mem_append.mp h with h | h
      · exact .inr (herase d h)
      · exact .inl (by simpa using h)
    · split at h
      · rcases List.mem_append.mp h with h | h
        · exact .inr (List.mem_of_mem_tail h)
        · exact .inl (by simpa using h)
      · rcases List.mem_append.mp h with h | h
        · exact .inr h
        · exact .inl (by simpa using h)

end Fifo

/-! ## Histories of calls -/

section Calls
variable {Q F C R : Type} [DecidableEq Q] [DecidableEq F]

/-- What is in the cache is what the queries give. -/
def Inv (runC : Q → F → C) (runT : Q → F → Option Nat → List R) (cache : Cache Q F C R) : Prop :=
  (∀ q f v, (Key.counts q f, v) ∈ cache → v = .cnt (runC q f)) ∧
  (∀ q f v, (Key.trees q f, v) ∈ cache → ∃ m, v = .lst (runT q f (some m)) (some m))

theorem inv_counts {runC : Q → F → C} {runT : Q → F → Option Nat → List R} {limit : Nat} {cache : Cache Q F C R} (h : Inv runC runT cache)
    (q : Q) (f : F) : Inv runC runT (setItem limit cache (.counts q f) (.cnt (runC q f))) := by
  constructor
  · intro q' f' v hv
    rcases mem_setItem hv with e | e
    · injection e with e1 e2
      injection e1 with e3 e4
      subst e3; subst e4; exact e2
    · exact h.1 _ _ _ e
  · intro q' f' v hv
    rcases mem_setItem hv with e | e
    · injection e with e1 e2
      cases e1
    · exact h.2 _ _ _ e

theorem inv_trees {runC : Q → F → C} {runT : Q → F → Option Nat → List R} {limit : Nat} {cache : Cache Q F C R} (h : Inv runC runT cache)
    (q : Q) (f : F) (m : Nat) :
    Inv runC runT (setItem limit cache (.trees q f) (.lst (runT q f (some m)) (some m))) := by
  constructor
  · intro q' f' v hv
    rcases mem_setItem hv with e | e
    · injection e with e1 e2
      cases e1
    · exact h.1 _ _ _ e
  · intro q' f' v hv
    rcases mem_setItem hv with e | e
    · injection e with e1 e2
      injection e1 with e3 e4
      subst e3; subst e4; exact ⟨m, e2⟩
    · exact h.2 _ _ _ e

theorem inv_countsJobs {runC : Q → F → C} {runT : Q → F → Option Nat → List R} {limit : Nat} (q : Q) :
    ∀ (fs : List F) (cache : Cache Q F C R) (res : Dict F C), Inv runC runT cache →
      Inv runC runT (countsJobs limit runC q cache res fs).2
  | [], _, _, h => h
  | f :: fs, _, _, h => inv_countsJobs q fs _ _ (inv_counts h q f)

theorem inv_treesJobs {runC : Q → F → C} {runT : Q → F → Option Nat → List R} {limit : Nat} (q : Q) (m : Nat) :
    ∀ (fs : List F) (cache : Cache Q F C R) (res : List R), Inv runC runT cache →
      Inv runC runT (treesJobs limit runT q (some m) cache res fs).2
  | [], _, _, h => h
  | f :: fs, _, _, h => inv_treesJobs q m fs _ _ (inv_trees h q f m)

theorem inv_exec {runC : Q → F → C} {runT : Q → F → Option Nat → List R} {limit : Nat} {cache : Cache Q F C R} (h : Inv runC runT cache)
    (c : Call Q F) (hc : Spec.CallOk c) : Inv runC runT (c.exec limit runC runT cache) := by
  cases c with
  | counts q subset done => exact inv_countsJobs q _ _ _ h
  | trees q subset m done =>
    obtain ⟨_, hm⟩ := hc
    cases m with
    | none => exact absurd rfl hm
    | some m =>
      unfold Call.exec
      dsimp only
      unfold trees
      cases treesHits cache q (some m) subset with
      | none => exact h
      | some r => exact inv_treesJobs q m _ _ _ h

theorem inv_history {runC : Q → F → C} {runT : Q → F → Option Nat → List R} {limit : Nat} {calls : List (Call Q F)}
    (hc : ∀ c ∈ calls, Spec.CallOk c) : Inv runC runT (history limit runC runT calls) := by
  have : ∀ (calls : List (Call Q F)) (cache : Cache Q F C R), Inv runC runT cache → (∀ c ∈ calls, Spec.CallOk c) →
      Inv runC runT (calls.foldl (Call.exec limit runC runT) cache) := by
    intro calls
    induction calls with
    | nil => intro cache h _; exact h
    | cons c calls ih =>
      intro cache h hc
      exact ih _ (inv_exec h c (hc c (by simp))) (fun c' h' => hc c' (by simp [h']))
  refine this calls [] ⟨?_, ?_⟩ hc
  · intro q f v h; cases h
  · intro q f v h; cases h

theorem countsHits_spec {runC : Q → F → C} {runT : Q → F → Option Nat → List R} {cache : Cache Q F C R} (h : Inv runC runT cache) (q : Q) :
    ∀ fs : List F, (∀ x ∈ (countsHits cache q fs).1, x.2 = runC q x.1 ∧ x.1 ∈ fs) ∧
      (∀ f ∈ (countsHits cache q fs).2, f ∈ fs) ∧
      ∀ f ∈ fs, (∃ c, (f, c) ∈ (countsHits cache q fs).1) ∨ f ∈ (countsHits cache q fs).2
  | [] => by simp [countsHits]
  | f :: fs => by
    obtain ⟨h1, h2, h3⟩ := countsHits_spec h q fs
    unfold countsHits
    split
    · rename_i c hc
      have := h.1 _ _ _ (Dict.mem_of_get? hc)
      injection this with this
      refine ⟨?_, ?_, ?_⟩
      · intro x hx
        rcases List.mem_cons.mp hx with hx | hx
        · subst hx; exact ⟨this, by simp⟩
        · exact ⟨(h1 x hx).1, List.mem_cons_of_mem _ (h1 x hx).2⟩
      · intro g hg; exact List.mem_cons_of_mem _ (h2 g hg)
      · intro g hg
        rcases List.mem_cons.mp hg with hg | hg
        · subst hg; exact .inl ⟨c, by simp⟩
        · rcases h3 g hg with ⟨c', hc'⟩ | h'
          · exact .inl ⟨c', List.mem_cons_of_mem _ hc'⟩
          · exact .inr h'
    · refine ⟨?_, ?_, ?_⟩
      · intro x hx
        exact ⟨(h1 x hx).1, List.mem_cons_of_mem _ (h1 x hx).2⟩
      · intro g hg
        rcases List.mem_cons.mp hg with hg | hg
        · subst hg; simp
        · exact List.mem_cons_of_mem _ (h2 g hg)
      · intro g hg
        rcases List.mem_cons.mp hg with hg | hg
        · subst hg; exact .inr (by simp)
        · rcases h3 g hg with ⟨c', hc'⟩ | h'
          · exact .inl ⟨c', hc'⟩
          · exact .inr (List.mem_cons_of_mem _ h')

/-- The results are right for the files in a set, and no other files occur. -/
def Right (run : F → C) (P : F → Prop) (d : Dict F C) : Prop :=
  (∀ f, P f → d.get? f = some (run f)) ∧ ∀ f, ¬ P f → d.get? f = none

theorem right_set {run : F → C} {P P' : F → Prop} {d : Dict F C} (h : Right run P d) (f : F) (hP : ∀ g, P' g ↔ g = f ∨ P g) :
    Right run P' (d.set f (run f)) := by
  constructor
  · intro g hg
    rw [Dict.get?_set]
    by_cases e : f = g
    · subst e; simp
    · rw [if_neg e]
      rcases (hP g).mp hg with h' | h'
      · exact absurd h'.symm e
      · exact h.1 g h'
  · intro g hg
    rw [hP, not_or] at hg
    rw [Dict.get?_set, if_neg (fun e => hg.1 e.symm)]
    exact h.2 g hg.2

theorem right_foldl {run : F → C} : ∀ (l : List (F × C)) (P : F → Prop) (d : Dict F C), Right run P d → (∀ x ∈ l, x.2 = run x.1) →
    Right run (fun g => P g ∨ ∃ c, (g, c) ∈ l) (l.foldl (fun d x => d.set x.1 x.2) d)
  | [], P, d, h, _ => by simpa using h
  | (f, c) :: l, P, d, h, hl => by
    have hc := hl (f, c) (by simp)
    dsimp only at hc
    subst hc
    have := right_foldl l (fun g => g = f ∨ P g) (d.set f (run f)) (right_set h f (fun _ => Iff.rfl))
      (fun x hx => hl x (by simp [hx]))
    rw [List.foldl_cons]
    have e : (fun g => P g ∨ ∃ c, (g, c) ∈ (f, run f) :: l) = (fun g => (g = f ∨ P g) ∨ ∃ c, (g, c) ∈ l) := by
      funext g
      apply propext
      constructor
      · rintro (h | ⟨c, h⟩)
        · exact .inl (.inr h)
        · rcases List.mem_cons.mp h with h | h
          · injection h with h1 h2; exact .inl (.inl h1)
          · exact .inr ⟨c, h⟩
      · rintro ((h | h) | ⟨c, h⟩)
        · subst h; exact .inr ⟨run g, by simp⟩
        · exact .inl h
        · exact .inr ⟨c, by simp [h]⟩
    rw [e]; exact this

theorem right_countsJobs {runC : Q → F → C} {limit : Nat} (q : Q) : ∀ (fs : List F) (P : F → Prop) (cache : Cache Q F C R) (d : Dict F C),
    Right (runC q) P d → Right (runC q) (fun g => P g ∨ g ∈ fs) (countsJobs limit runC q cache d fs).1
  | [], P, _, d, h => by simpa [countsJobs] using h
  | f :: fs, P, cache, d, h => by
    have := right_countsJobs (limit := limit) q fs (fun g => g = f ∨ P g) (setItem limit cache (.counts q f) (.cnt (runC q f)))
      (d.set f (runC q f)) (right_set h f (fun _ => Iff.rfl))
    rw [countsJobs]
    have e : (fun g => P g ∨ g ∈ f :: fs) = (fun g => (g = f ∨ P g) ∨ g ∈ fs) := by
      funext g
      rw [List.mem_cons]
      apply propext
      tauto
    rw [e]; exact this

/-- **C68** `counts` after any history of calls of `counts` and `trees` (of any queries, on any files, with any order of
completion of their jobs): whatever is in the cache and whatever the order in which its own jobs are completed, the result has
exactly the requested files, each with what the query gives on it. -/
theorem C68_counts (limit : Nat) (runC : Q → F → C) (runT : Q → F → Option Nat → List R) (calls : List (Call Q F))
    (hc : ∀ c ∈ calls, Spec.CallOk c) (q : Q) (subset : List F) (done : List F → List F) (hd : Spec.Order done) (f : F) :
    (counts limit runC (history limit runC runT calls) q subset done).1.get? f =
      if f ∈ subset then some (runC q f) else none := by
  have hi := inv_history (limit := limit) (runC := runC) (runT := runT) hc
  generalize history limit runC runT calls = cache at hi
  obtain ⟨h1, h2, h3⟩ := countsHits_spec hi q subset
  have hr := right_foldl (countsHits cache q subset).1 (fun _ => False) [] ⟨fun _ h => h.elim, fun _ _ => rfl⟩
    (fun x hx => (h1 x hx).1)
  have hr2 := right_countsJobs (limit := limit) (R := R) q (done (countsHits cache q subset).2) _ cache _ hr
  have hmem : (f ∈ subset) ↔ ((False ∨ ∃ c, (f, c) ∈ (countsHits cache q subset).1) ∨
      f ∈ done (countsHits cache q subset).2) := by
    rw [(hd _).mem_iff]
    constructor
    · intro hf
      rcases h3 f hf with h | h
      · exact .inl (.inr h)
      · exact .inr h
    · rintro ((h | ⟨c, h⟩) | h)
      · exact h.elim
      · exact (h1 _ h).2
      · exact h2 _ h
  unfold counts
  dsimp only
  split
  · rename_i hf
    exact hr2.1 f (hmem.mp hf)
  · rename_i hf
    exact hr2.2 f (fun h => hf (hmem.mpr h))

theorem treesHits_spec {runC : Q → F → C} {runT : Q → F → Option Nat → List R} {cache : Cache Q F C R} (h : Inv runC runT cache)
    (hp : Spec.Prefix runT) (q : Q) (m : Nat) :
    ∀ fs : List F, ∃ hits jobs l, treesHits cache q (some m) fs = some (hits, jobs) ∧
      hits = l.flatMap (fun f => runT q f (some m)) ∧ (l ++ jobs).Perm fs
  | [] => ⟨[], [], [], rfl, rfl, .nil⟩
  | f :: fs => by
    obtain ⟨hits, jobs, l, e, hh, hl⟩ := treesHits_spec h hp q m fs
    have hjob : ∃ hits' jobs' l', (some (hits, f :: jobs) : Option (List R × List F)) = some (hits', jobs') ∧
        hits' = l'.flatMap (fun f => runT q f (some m)) ∧ (l' ++ jobs').Perm (f :: fs) :=
      ⟨hits, f :: jobs, l, rfl, hh, List.perm_middle.trans (hl.cons f)⟩
    unfold treesHits
    split
    · rename_i x m2 hx
      obtain ⟨m', hm'⟩ := h.2 _ _ _ (Dict.mem_of_get? hx)
      injection hm' with e1 e2
      subst e1; subst e2
      rw [e]
      cases m with
      | zero => exact hjob
      | succ m =>
        simp only [needsJob]
        by_cases hlt : m' < m + 1
        · rw [decide_eq_true hlt]; exact hjob
        · rw [decide_eq_false hlt]
          refine ⟨_, jobs, f :: l, rfl, ?_, by simpa using hl.cons f⟩
          rw [List.flatMap_cons, hh]
          congr 1
          rw [(hp q f).2 m' (by omega), (hp q f).2 (m + 1) (by omega), upTo, List.take_take]
          congr 1
          omega
    · rw [e]
      cases m with
      | zero => exact hjob
      | succ m =>
        simp only [needsJob, Nat.zero_lt_succ, decide_true]
        exact hjob

theorem treesJobs_spec {runT : Q → F → Option Nat → List R} {limit : Nat} (q : Q) (m : Option Nat) :
    ∀ (fs : List F) (cache : Cache Q F C R) (res : List R),
      (treesJobs limit runT q m cache res fs).1 = res ++ fs.flatMap (fun f => runT q f m)
  | [], _, _ => by simp [treesJobs]
  | f :: fs, cache, res => by
    rw [treesJobs, treesJobs_spec q m fs, List.flatMap_cons, List.append_assoc]

/-- **C68** `trees` (and `sents` of `FragmentSearcher`, which has the same code) after any history of calls in which `maxresults` is a
number: there is no exception, and the result consists of the requested files in some order, each with exactly the results that the
query gives on it for this `maxresults`, whatever larger or smaller numbers were used before. -/
theorem C68_trees (limit : Nat) (runC : Q → F → C) (runT : Q → F → Option Nat → List R) (hp : Spec.Prefix runT)
    (calls : List (Call Q F)) (hc : ∀ c ∈ calls, Spec.CallOk c) (q : Q) (subset : List F) (m : Nat)
    (done : List F → List F) (hd : Spec.Order done) :
    ∃ (l : List F) (res : List R), l.Perm subset ∧
      (trees limit runT (history limit runC runT calls) q subset (some m) done).map (·.1) = some res ∧
      res = l.flatMap (fun f => runT q f (some m)) := by
  have hi := inv_history (limit := limit) (runC := runC) (runT := runT) hc
  generalize history limit runC runT calls = cache at hi
  obtain ⟨hits, jobs, l, e, hh, hl⟩ := treesHits_spec hi hp q m subset
  refine ⟨l ++ done jobs, _, ((hd jobs).append_left l).trans hl, ?_, rfl⟩
  unfold trees
  rw [e]
  dsimp only [Option.map_some]
  rw [treesJobs_spec, hh, List.flatMap_append]

end Calls

/-- An oracle for the examples: files are numbers, file `f` has the results `f*10 + 0, f*10 + 1, …` (five of them). -/
def exRun (_ : Nat) (f : Nat) (m : Option Nat) : List Nat :=
  match m with
  | none => (List.range 5).map (f * 10 + ·)
  | some 0 => (List.range 5).map (f * 10 + ·)
  | some m => ((List.range 5).map (f * 10 + ·)).take m

theorem exRun_prefix : Spec.Prefix exRun := by
  intro q f
  refine ⟨rfl, ?_⟩
  intro m hm
  cases m with
  | zero => exact absurd rfl hm
  | succ m => rfl

/-- A history that meets the hypotheses, with jobs completed in reverse order, and a call which is answered partly from the
cache. -/
example : (∀ c ∈ [Call.trees 0 [1, 2] (some 3) List.reverse, Call.counts 0 [2] id], Spec.CallOk c) ∧
    (trees (C := Nat) 100 exRun (history 100 (fun _ f => f) exRun [Call.trees 0 [1, 2] (some 3) List.reverse, Call.counts 0 [2] id])
      0 [1, 2, 3] (some 2) id).map (·.1) = some [10, 11, 20, 21, 30, 31] ∧
    (trees (C := Nat) 100 exRun (history 100 (fun _ f => f) exRun [Call.trees 0 [1, 2] (some 3) List.reverse, Call.counts 0 [2] id])
      0 [1, 2, 3] (some 4) id).map (·.1) = some [10, 11, 12, 13, 20, 21, 22, 23, 30, 31, 32, 33] := by
  refine ⟨?_, by decide +kernel, by decide +kernel⟩
  intro c hc
  rcases List.mem_cons.mp hc with rfl | hc
  · exact ⟨fun l => List.reverse_perm l, by simp⟩
  · rcases List.mem_cons.mp hc with rfl | hc
    · exact fun l => .refl l
    · cases hc

/-- **C68** (disagreement) After a call with `maxresults=None` (accepted: it means that there is no limit), the same query with a number
fails with a TypeError, for as long as the result is in the cache. -/
theorem C68_none_disagreement :
    trees (C := Nat) 100 exRun (history 100 (fun _ f => f) exRun []) 0 [1] (some 10) id ≠ none ∧
    trees (C := Nat) 100 exRun (history 100 (fun _ f => f) exRun [Call.trees 0 [1] none id]) 0 [1] (some 10) id = none := by
  decide +kernel

/-! ## Limits of tgrep queries -/

theorem tgrepLoop_prefix {α : Type} (m end_ : Nat) (hm : m ≠ 0) : ∀ (ms : List (Nat × α)) (n : Nat), (∀ x ∈ ms, 1 ≤ x.1) →
    tgrepLoop 1 end_ m n ms = (tgrepLoop 1 end_ 0 n ms).take (m - n)
  | [], _, _ => by simp [tgrepLoop]
  | (k, a) :: ms, n, h => by
    have hk := h (k, a) (by simp)
    dsimp only at hk
    have ih := tgrepLoop_prefix m end_ hm ms (n + 1) (fun x hx => h x (by simp [hx]))
    unfold tgrepLoop
    rw [if_neg (by omega), if_neg (by omega : ¬ k < 1)]
    by_cases he : end_ ≠ 0 ∧ end_ < k
    · rw [if_pos (.inl he), if_pos (.inl he)]; simp
    · by_cases hn : m ≤ n
      · rw [if_pos (.inr ⟨hm, hn⟩)]
        have : m - n = 0 := by omega
        simp [this]
      · rw [if_neg (by omega), if_neg (by omega), ih]
        obtain ⟨j, hj⟩ : ∃ j, m - n = j + 1 := ⟨m - n - 1, by omega⟩
        rw [hj, List.take_succ_cons]
        congr 2
        omega

theorem tgrepLoop_noop {α : Type} : ∀ (ms : List (Nat × α)) (n : Nat), (∀ x ∈ ms, 1 ≤ x.1) → tgrepLoop 1 0 0 n ms = ms
  | [], _, _ => rfl
  | (k, a) :: ms, n, h => by
    have hk := h (k, a) (by simp)
    dsimp only at hk
    unfold tgrepLoop
    rw [if_neg (by omega), if_neg (by omega), tgrepLoop_noop ms _ (fun x hx => h x (by simp [hx]))]

/-- **C68** A tgrep query from the first sentence on: `maxresults` gives exactly the first results of the query without limit (so the
hypothesis of `C68_trees` holds). -/
theorem C68_tgrep_prefix {α : Type} (ms : List (Nat × α)) (h : ∀ x ∈ ms, 1 ≤ x.1) (start end_ m : Nat) (hs : start ≤ 1) (hm : m ≠ 0) :
    tgrepQuery ms start end_ m = (tgrepQuery ms start end_ 0).take m := by
  have e : (if start = 0 then 1 else start) = 1 := by split <;> omega
  unfold tgrepQuery
  rw [if_pos (.inr (.inr hm)), e, tgrepLoop_prefix m end_ hm ms 0 h]
  split
  · rfl
  · rename_i hn
    push Not at hn
    rw [hn.2.1, tgrepLoop_noop ms 0 h]
    rfl

example : tgrepQuery [(1, 'x'), (1, 'y'), (3, 'z'), (4, 'u')] 0 3 2 = [(1, 'x'), (1, 'y')] ∧
    tgrepQuery [(1, 'x'), (1, 'y'), (3, 'z'), (4, 'u')] 0 3 0 = [(1, 'x'), (1, 'y'), (3, 'z')] := by decide +kernel

/-- The oracle of a tgrep query on one file, with `start = 2`. -/
def exTgrep (_ : Nat) (_ : Nat) (m : Option Nat) : List (Nat × Char) :=
  tgrepQuery [(1, 'x'), (2, 'y'), (3, 'z')] 2 0 (m.getD 0)

/-- **C68** (disagreement) With `start > 1` the limit also counts the matches that are skipped: with `maxresults=2` one result is given
although there are two. After a call with a higher limit the same call gives two: results depend on the history. -/
theorem C68_tgrep_disagreement :
    tgrepQuery [(1, 'x'), (2, 'y'), (3, 'z')] 2 0 2 = [(2, 'y')] ∧
    tgrepQuery [(1, 'x'), (2, 'y'), (3, 'z')] 2 0 0 = [(2, 'y'), (3, 'z')] ∧
    (trees (C := Nat) 100 exTgrep (history 100 (fun _ f => f) exTgrep []) 0 [1] (some 2) id).map (·.1) = some [(2, 'y')] ∧
    (trees (C := Nat) 100 exTgrep (history 100 (fun _ f => f) exTgrep [Call.trees 0 [1] (some 10) id]) 0 [1] (some 2) id).map (·.1) =
      some [(2, 'y'), (3, 'z')] := by decide +kernel

/-! ## Sentences -/

section Sents
variable {Q F : Type} [DecidableEq Q] [DecidableEq F]

theorem sentsJobs_spec (limit : Nat) (ms : F → List Match) (q : Q) (m : Nat) : ∀ (fs : List F) (vars : Option Nat × Option Nat)
    (cache : SCache Q F) (res : List (F × Match)),
    (sentsJobs limit ms q m vars cache res fs).1 = res ++ fs.flatMap (fun f => (ms f).map (fun y => (f, y)))
  | [], _, _, _ => by simp [sentsJobs]
  | f :: fs, vars, cache, res => by
    rw [sentsJobs, sentsJobs_spec limit ms q m fs, List.flatMap_cons, List.append_assoc]

/-- **C68** `RegexSearcher.sents` with a query that was not used before: the matches of the requested files, in the order of
completion. -/
theorem C68_sents_fresh (limit : Nat) (run : Q → F → Option Nat → Option Nat → Nat → List Match) (cache : SCache Q F) (q : Q)
    (subset : List F) (start end_ : Option Nat) (m : Nat) (done : List F → List F) (hd : Spec.Order done)
    (hq : ∀ k ∈ cache.keys, k.1 ≠ q) :
    ∃ l : List F, l.Perm subset ∧ (sents limit run cache q subset start end_ m done).1 =
      l.flatMap (fun f => (run q f start end_ m).map (fun y => (f, y))) := by
  have hnone : ∀ f, cache.get? (q, f, start, end_) = none := by
    intro f
    by_contra h
    have : (q, f, start, end_) ∈ cache.keys := by
      rw [Dict.mem_keys]
      cases hg : cache.get? (q, f, start, end_) with
      | none => exact absurd hg h
      | some v => rfl
    exact hq _ this rfl
  have hh : ∀ fs : List F, sentsHits cache q start end_ m fs = ([], fs) := by
    intro fs
    induction fs with
    | nil => rfl
    | cons f fs ih => simp only [sentsHits, hnone, ih]
  refine ⟨done subset, hd subset, ?_⟩
  unfold sents
  dsimp only
  rw [hh, sentsJobs_spec]
  rfl

end Sents

/-- A file with the three lines `a`, searched for `a`, with the first and last line number. -/
def exSents (_ : Nat) (_ : Nat) (start end_ : Option Nat) (m : Nat) : List Match :=
  ([⟨1, ['a'], 0, 1⟩, ⟨2, ['a'], 0, 1⟩, ⟨3, ['a'], 0, 1⟩].filter
    (fun x => decide (start.getD 0 ≤ x.sentno) && decide (x.sentno ≤ end_.getD 3))).take m

/-- **C68** (disagreement) `RegexSearcher.sents`: the loop over the matches of a job assigns to the variables `start` and `end`, which
are then used in the key for the cache. A second call of the same search is not answered from the cache, and a search for the
lines `start=0, end=1` gives the matches of all lines when the last match of an earlier search was on columns 0–1. -/
theorem C68_sents_disagreement :
    let c := (sents 100 exSents [] 7 [1] none none 100 id).2
    (sents 100 exSents [] 7 [1] (some 0) (some 1) 100 id).1 = [(1, ⟨1, ['a'], 0, 1⟩)] ∧
    (sents 100 exSents c 7 [1] (some 0) (some 1) 100 id).1 =
      [(1, ⟨1, ['a'], 0, 1⟩), (1, ⟨2, ['a'], 0, 1⟩), (1, ⟨3, ['a'], 0, 1⟩)] ∧
    sentsHits c 7 none none 100 [1] = ([], [1]) := by decide +kernel

example : ∀ k ∈ Dict.keys (sents 100 exSents [] 7 [1] none none 100 id).2, k.1 ≠ 8 := by decide +kernel

/-! ## Jobs that read a variable of the method -/

section Race
variable {F : Type} [DecidableEq F]

theorem execAll_starts (run : F → Nat → List Match) : ∀ (fs : List F) (s : RaceSt F),
    (fs.map Ev.start).foldl (Ev.exec run) s =
      { s with jobs := fs.foldl (fun d f => d.set f (run f s.end_)) s.jobs }
  | [], s => rfl
  | f :: fs, s => by
    rw [List.map_cons, List.foldl_cons, execAll_starts run fs]
    rfl

theorem get?_starts (g : F → List Match) (f : F) : ∀ (fs : List F) (d : Dict F (List Match)),
    (fs.foldl (fun d f => d.set f (g f)) d).get? f = if f ∈ fs then some (g f) else d.get? f
  | [], d => by simp
  | x :: fs, d => by
    rw [List.foldl_cons, get?_starts g f fs, Dict.get?_set]
    by_cases h : f ∈ fs
    · simp [h]
    · by_cases e : x = f
      · subst e; simp
      · have : ¬ f = x := fun h => e h.symm
        simp [h, e, this]

theorem execAll_handles (run : F → Nat → List Match) (g : F → List Match) : ∀ (fs : List F) (s : RaceSt F),
    (∀ f ∈ fs, s.jobs.get? f = some (g f)) →
    ((fs.map Ev.handle).foldl (Ev.exec run) s).result = s.result ++ fs.flatMap (fun f => (g f).map (fun y => (f, y)))
  | [], s, _ => by simp
  | f :: fs, s, h => by
    rw [List.map_cons, List.foldl_cons, execAll_handles run g fs]
    · have hf := h f (by simp)
      simp only [Ev.exec, hf, List.flatMap_cons, List.append_assoc]
    · intro x hx
      have hf := h f (by simp)
      have hx' := h x (by simp [hx])
      simp only [Ev.exec, hf]
      exact hx'

/-- **C68** `TgrepSearcher.sents` / `batchsents`: when all jobs have started before the first is handled (at most as many files as
threads), the results are those of the query with the given `end`, for every order of starting and of handling. -/
theorem C68_race_ok (run : F → Nat → List Match) (end_ : Nat) (starts handles : List F) (h : ∀ f ∈ handles, f ∈ starts) :
    (execAll run end_ (starts.map Ev.start ++ handles.map Ev.handle)).result =
      handles.flatMap (fun f => (run f end_).map (fun y => (f, y))) := by
  unfold execAll
  rw [List.foldl_append, execAll_starts, execAll_handles run (fun f => run f end_)]
  · rfl
  · intro f hf
    dsimp only
    rw [get?_starts, if_pos (h f hf)]

end Race

/-- Files in which every sentence is one word and matches. -/
def exRace (_ : Nat) (end_ : Nat) : List Match :=
  [⟨1, ['a'], 0, 1⟩, ⟨2, ['a'], 0, 1⟩].filter (fun x => decide (end_ = 0) || decide (x.sentno ≤ end_))

example : (execAll exRace 0 ([1, 2].map Ev.start ++ [2, 1].map Ev.handle)).result.length = 4 := by decide +kernel

/-- **C68** (disagreement) With more files than threads, a job that starts after another is handled reads the `end` that was assigned
when handling: with the schedule of two threads and three files, the query without `end` gives one match in the third file
although there are two; with one thread (jobs are run when they are handled) already the second file is affected. -/
theorem C68_race_disagreement :
    (execAll exRace 0 [.start 1, .start 2, .handle 1, .start 3, .handle 2, .handle 3]).result =
      [(1, ⟨1, ['a'], 0, 1⟩), (1, ⟨2, ['a'], 0, 1⟩), (2, ⟨1, ['a'], 0, 1⟩), (2, ⟨2, ['a'], 0, 1⟩), (3, ⟨1, ['a'], 0, 1⟩)] ∧
    (execAll exRace 0 [.start 1, .start 2, .start 3, .handle 1, .handle 2, .handle 3]).result.length = 6 ∧
    (execAll exRace 0 [.start 1, .handle 1, .start 2, .handle 2]).result.length = 3 := by decide +kernel

/-! ## Batches -/

/-- **C68** `TgrepSearcher.batchcounts` for one file has one count for each query that matches, in the order of the queries. When every query
matches this is the list of counts of the queries. -/
theorem C68_batch (queryno : List Nat) (n : Nat) (h : ∀ i, i ∈ queryno ↔ 1 ≤ i ∧ i ≤ n) :
    tgrepBatch queryno = (List.range n).map (fun i => queryno.count (i + 1)) := by
  have hs : stableSort (fun a b => decide (a ≤ b)) queryno.dedup = (List.range n).map (· + 1) := by
    apply List.Perm.eq_of_pairwise (le := fun a b => a ≤ b)
    · intro a b _ _ h1 h2; omega
    · have := StableSort.pairwise (le := fun a b : Nat => decide (a ≤ b)) (by intro a b c; simp; omega) (by intro a b; simp; omega) queryno.dedup
      exact this.imp (fun h => by simpa using h)
    · rw [List.pairwise_map]
      exact (List.pairwise_lt_range (n := n)).imp (fun h => by omega)
    · refine (StableSort.perm _).trans ?_
      rw [List.perm_ext_iff_of_nodup (List.nodup_dedup _) (List.nodup_range.map (fun a b h => by simpa using h))]
      intro i
      rw [List.mem_dedup, h]
      constructor
      · intro hi; exact List.mem_map.mpr ⟨i - 1, List.mem_range.mpr (by omega), by omega⟩
      · intro hi
        obtain ⟨j, hj, rfl⟩ := List.mem_map.mp hi
        have := List.mem_range.mp hj
        omega
  unfold tgrepBatch
  rw [hs, List.map_map]
  rfl

example : tgrepBatch [2, 1, 1, 3] = [2, 1, 1] := by decide +kernel

/-- **C68** (disagreement) The documented result of `batchcounts` is a list with the counts of the given queries. A query without matches
has no place in it, so that the counts of later queries move to the wrong query: for three queries of which the second has no match, the
list has two elements and the count of the third is in the place of the second. -/
theorem C68_batch_disagreement : tgrepBatch [1, 1, 3] = [2, 1] ∧ tgrepBatch [1, 1, 3] ≠ (List.range 3).map (fun i => [1, 1, 3].count (i + 1)) := by
  decide +kernel

end Disco.Search
