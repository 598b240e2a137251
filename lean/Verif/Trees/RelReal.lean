import Verif.Basic.StrLemmas
import Verif.Basic.Sort
import Mathlib.Data.List.Forall2
/-!
# C63: the relational-realizational transform, `rrtransform` and `rrbacktransform` (treebanktransforms.py:1399-1519)
-/
namespace Disco.RR

/-- Trees with the fields of `source` that are used: a preterminal has a tag, a function, a morphological tag and an index; other nodes have a label and a
function. -/
inductive RT where
  | pre (tag func morph : Str) (i : Nat)
  | node (label func : Str) (cs : List RT)

/-- `child.label`. -/
def RT.label : RT → Str
  | .pre t _ _ _ => t
  | .node l _ _ => l

/-- `child.source[FUNC]`. -/
def RT.func : RT → Str
  | .pre _ f _ _ => f
  | .node _ f _ => f

/-- The parameters (treebanktransforms.py:1399-1401); `None` is `none`. -/
structure Cfg where
  morphlevels : Nat
  percolate : Option (List Str)
  adj : Option Str
  ignoref : Option (List Str)
  ignorec : Option (List Str)
  adjleft : Bool
  adjright : Bool

/-- Comparison of strings by code points. -/
def strLe : Str → Str → Bool
  | [], _ => true
  | _ :: _, [] => false
  | a :: s, b :: t => decide (a.toNat < b.toNat) || (decide (a.toNat = b.toNat) && strLe s t)

/-- `set`: the elements, each once. -/
def dedup : List Str → List Str
  | [] => []
  | a :: l => if a ∈ l then dedup l else a :: dedup l

/-- `if '[' in a: a = a[a.index('[') + 1:a.index(']')]` (treebanktransforms.py:1691-1692); a missing `]` is a `ValueError`. -/
def inBrackets (a : Str) : Option Str :=
  if '[' ∈ a then
    if ']' ∈ a then some (slice a ((a.takeWhile (· ≠ '[')).length + 1) (a.takeWhile (· ≠ ']')).length) else none
  else some a

/-- `unifymorphfeat(feats, percolatefeatures)` (treebanktransforms.py:1677-1696). -/
def unify (feats : List Str) (perc : Option (List Str)) : Option Str :=
  let sep := if feats.any (fun a => decide ('.' ∈ a)) then '.' else ','
  match feats.mapM inBrackets with
  | none => none
  | some fs =>
    let all := dedup (fs.flatMap (Str.splitAll sep))
    let sel := match perc with
      | some (p :: ps) => all.filter fun a => decide (a ∈ p :: ps)
      | _ => all
    some (Str.join [sep] (stableSort strLe (sel.filter fun a => decide (a ≠ ['*'] ∧ a ≠ ['-', '-']))))

/-- The condition on a child (treebanktransforms.py:1456-1459 etc.); `none` is the `TypeError` of `not in None`. -/
def Cfg.isArg (g : Cfg) (c : RT) : Option Bool :=
  if c.func = [] ∨ some c.func = g.adj then some false
  else match g.ignoref with
    | none => none
    | some fs =>
      if c.func ∈ fs then some false
      else match g.ignorec with
        | none => none
        | some ls => some (decide (c.label ∉ ls))

/-- The first loop (treebanktransforms.py:1454-1460): the list `childfuncsl`, from the current `prevfunc`, and the last value of `prevfunc`. -/
def Cfg.lefts (g : Cfg) : Str → List RT → Option (List Str × Str)
  | prev, [] => some ([], prev)
  | prev, c :: cs => match g.isArg c with
    | none => none
    | some b =>
      let p := if b then c.func else prev
      match g.lefts p cs with
      | none => none
      | some (l, last) => some (p :: l, last)

/-- The second loop (treebanktransforms.py:1461-1468): for each child but the first, *`prevfunc`* is inserted in front of the list. -/
def rights (prevfunc : Str) : List RT → List Str
  | [] => [[]]
  | _ :: cs => cs.foldl (fun l _ => prevfunc :: l) [[]]

/-- `childfuncsl`: the empty string followed by the values of the loop. -/
def Cfg.childfuncsl (g : Cfg) (cs : List RT) : Option (List Str × Str) := (g.lefts [] cs).map fun r => ([] :: r.1, r.2)

/-- The argument structure (treebanktransforms.py:1469-1473). -/
def Cfg.funcstr (g : Cfg) (cs : List RT) : Option Str :=
  (cs.mapM g.isArg).map fun bs => Str.join [','] (stableSort strLe ((cs.zip bs).filterMap fun p => if p.2 then some p.1.func else none))

/-- The function in a realization (treebanktransforms.py:1437-1440). -/
def Cfg.realFunc (g : Cfg) (f prev next : Str) : Str :=
  if some f = g.adj ∧ (prev ≠ [] ∨ next ≠ []) then prev ++ ':' :: next else f

/-- `morph.replace('(', '[').replace(')', ']')`. -/
def open' (c : Char) : Char := if c = '(' then '[' else if c = ')' then ']' else c

/-- `morph.replace('[', '(').replace(']', ')')`. -/
def close' (c : Char) : Char := if c = '[' then '(' else if c = ']' then ')' else c

/-- `if morph and lvl` (treebanktransforms.py:1480-1482). -/
def collect (rs : List (PTree Str × Option Str × Nat)) : List (Str × Nat) :=
  rs.filterMap fun r => match r.2.1 with
    | some m => if m ≠ [] ∧ r.2.2 ≠ 0 then some (m, r.2.2) else none
    | none => none

/-- The features of a node (treebanktransforms.py:1483-1485). -/
def Cfg.feats (g : Cfg) (l : Str) (rs : List (PTree Str × Option Str × Nat)) : Option (Option Str × Nat) :=
  let fl := collect rs
  let mx := (fl.map Prod.snd).foldl max 0
  if fl ≠ [] ∧ mx ≠ 0 ∧ l ≠ "ROOT".toList then (unify (fl.map Prod.fst) g.percolate).map fun m => (some m, mx - 1)
  else some (none, 0)

/-- The label of the projection (treebanktransforms.py:1488-1489). -/
def projLabel (l : Str) : Option Str → Str
  | some m => if m ≠ [] then l ++ '-' :: m else l
  | none => l

mutual
/-- `rrtransform(tree, ...)` (treebanktransforms.py:1446-1490); `none` is an exception. -/
def Cfg.rr (g : Cfg) : RT → Option (PTree Str × Option Str × Nat)
  | .pre t _ m i =>
    some (.node (t ++ '/' :: m.map open') [.leaf i], if g.morphlevels ≠ 0 then some (m.map open') else none, g.morphlevels)
  | .node l _ cs => match cs with
    | [] => none
    | c :: cs => match g.childfuncsl (c :: cs), g.funcstr (c :: cs) with
      | some (ls, last), some fstr => match g.rrL l (c :: cs) ls (rights last (c :: cs)) with
        | none => none
        | some rs => match g.feats l rs with
          | none => none
          | some (morph, lvl) => some (.node (projLabel l morph) [.node (l ++ '/' :: '<' :: (fstr ++ ['>'])) (rs.map Prod.fst)], morph, lvl)
      | _, _ => none
/-- The children with the functions on the left and right (treebanktransforms.py:1475-1479); `realize` (treebanktransforms.py:1432-1442). -/
def Cfg.rrL (g : Cfg) (l : Str) : List RT → List Str → List Str → Option (List (PTree Str × Option Str × Nat))
  | c :: cs, p :: ps, n :: ns => match g.rr c with
    | none => none
    | some (t, morph, lvl) => match g.rrL l cs ps ns with
      | none => none
      | some rs => some ((.node (g.realFunc c.func (if g.adjleft then p else []) (if g.adjright then n else []) ++ '/' :: l) [t], morph, lvl) :: rs)
  | _, _, _ => some []
end

/-- `result.source[FUNC]` (treebanktransforms.py:1514-1517), with the default `'--'`. -/
def backFunc (adj : Option Str) (func : Option Str) : Str :=
  match func, adj with
  | none, _ => ['-', '-']
  | some [], _ => ['-', '-']
  | some f, some (a :: as) => if ':' ∈ f then a :: as else f
  | some f, _ => f

/-- `result.source[MORPH]` (treebanktransforms.py:1512-1513), with the default `'--'`. -/
def backMorph (m : Str) : Str := if m = [] then ['-', '-'] else m.map close'

/-- `s.split(c)[0]`. -/
def splitHead (c : Char) (s : Str) : Str := s.takeWhile (· ≠ c)

mutual
/-- `rrbacktransform(tree, adjunctionlabel, func)` (treebanktransforms.py:1492-1519); `none` is an exception. -/
def back (adj : Option Str) : Option Str → PTree Str → Option RT
  | _, .leaf _ => none
  | func, .node l cs => match cs with
    | [] => none
    | .leaf i :: _ => match Str.splitAll '/' l with
      | [tag, morph] => some (.pre tag (backFunc adj func) (backMorph morph) i)
      | _ => none
    | .node l' cs' :: rest =>
      if '/' ∈ l' then (backKids adj cs').map fun rs => .node (splitHead '-' l) (backFunc adj func) rs
      else match back adj none (.node l' cs'), backL adj rest with
        | some r, some rs => some (.node l (backFunc adj func) (r :: rs))
        | _, _ => none
/-- `[rrbacktransform(child, adjunctionlabel) for child in tree]`. -/
def backL (adj : Option Str) : List (PTree Str) → Option (List RT)
  | [] => some []
  | c :: cs => match back adj none c, backL adj cs with
    | some r, some rs => some (r :: rs)
    | _, _ => none
/-- `[rrbacktransform(child[0], adjunctionlabel, child.label.split('/')[0]) for child in tree[0]]`. -/
def backKids (adj : Option Str) : List (PTree Str) → Option (List RT)
  | [] => some []
  | .leaf _ :: _ => none
  | .node _ [] :: _ => none
  | .node l (c :: _) :: cs => match back adj (some (splitHead '/' l)) c, backKids adj cs with
    | some r, some rs => some (r :: rs)
    | _, _ => none
end

/-! ## Specification -/

/-- An empty field becomes the default. -/
def Spec.fld (s : Str) : Str := if s = [] then ['-', '-'] else s

mutual
/-- The tree that is recovered: empty fields become `'--'`. -/
def Spec.norm : RT → RT
  | .pre t f m i => .pre t (Spec.fld f) (Spec.fld m) i
  | .node l f cs => .node l (Spec.fld f) (Spec.normL cs)
/-- For the children. -/
def Spec.normL : List RT → List RT
  | [] => []
  | c :: cs => Spec.norm c :: Spec.normL cs
end

/-- The tree with another function at the root. -/
def Spec.setFunc (f : Str) : RT → RT
  | .pre t _ m i => .pre t f m i
  | .node l _ cs => .node l f cs

/-- Trees on which the transform is invertible: every node has children; labels have no hyphen; tags, functions and morphological tags no slash;
morphological tags no square brackets; functions no colon if adjunctions are renamed, except for the adjunction label itself. -/
inductive Spec.Ok (g : Cfg) : RT → Prop
  | pre {t f m i} : '/' ∉ t → '/' ∉ m → '[' ∉ m → ']' ∉ m → Spec.Ok g (.pre t f m i)
  | node {l f cs} : cs ≠ [] → '-' ∉ l → (∀ c ∈ cs, '/' ∉ c.func ∧ (g.adj.isSome → ':' ∉ c.func ∨ some c.func = g.adj)) →
      (∀ c ∈ cs, Spec.Ok g c) → Spec.Ok g (.node l f cs)

/-! ## The round trip -/

theorem splitHead_append {c : Char} {a b : Str} (h : c ∉ a) : splitHead c (a ++ c :: b) = a := by
  induction a with
  | nil => simp [splitHead]
  | cons x a ih =>
    rw [List.mem_cons, not_or] at h
    have hx : (decide (x ≠ c)) = true := by simpa using Ne.symm h.1
    simp only [splitHead, List.cons_append, List.takeWhile_cons, hx, if_true]
    exact congrArg (x :: ·) (ih h.2)

theorem splitHead_none {c : Char} {a : Str} (h : c ∉ a) : splitHead c a = a := by
  induction a with
  | nil => simp [splitHead]
  | cons x a ih =>
    rw [List.mem_cons, not_or] at h
    have hx : (decide (x ≠ c)) = true := by simpa using Ne.symm h.1
    simp only [splitHead, List.takeWhile_cons, hx, if_true]
    exact congrArg (x :: ·) (ih h.2)

theorem splitHead_projLabel {l : Str} (h : '-' ∉ l) (m : Option Str) : splitHead '-' (projLabel l m) = l := by
  cases m with
  | none => exact splitHead_none h
  | some m =>
    simp only [projLabel]
    split
    · exact splitHead_append h
    · exact splitHead_none h

theorem close_open {m : Str} (h1 : '[' ∉ m) (h2 : ']' ∉ m) : (m.map open').map close' = m := by
  induction m with
  | nil => rfl
  | cons c m ih =>
    rw [List.mem_cons, not_or] at h1 h2
    simp only [List.map_cons]
    rw [ih h1.2 h2.2]
    congr 1
    unfold open'
    by_cases e1 : c = '('
    · subst e1; decide
    · rw [if_neg e1]
      by_cases e2 : c = ')'
      · subst e2; decide
      · rw [if_neg e2]
        unfold close'
        rw [if_neg (Ne.symm h1.1), if_neg (Ne.symm h2.1)]

theorem slash_open {m : Str} (h : '/' ∉ m) : '/' ∉ m.map open' := by
  intro hm
  obtain ⟨c, hc, e⟩ := List.mem_map.mp hm
  unfold open' at e
  by_cases e1 : c = '('
  · subst e1; simp at e
  · rw [if_neg e1] at e
    by_cases e2 : c = ')'
    · subst e2; simp at e
    · rw [if_neg e2] at e
      exact h (e ▸ hc)

theorem backMorph_open {m : Str} (h1 : '[' ∉ m) (h2 : ']' ∉ m) : backMorph (m.map open') = Spec.fld m := by
  unfold backMorph Spec.fld
  cases m with
  | nil => rfl
  | cons c m => rw [close_open h1 h2]; simp

theorem backFunc_real {g : Cfg} {f p n : Str} (hadj : g.adj ≠ some []) (hf : g.adj.isSome → ':' ∉ f ∨ some f = g.adj) :
    backFunc g.adj (some (g.realFunc f p n)) = Spec.fld f := by
  unfold Cfg.realFunc
  by_cases h : some f = g.adj ∧ (p ≠ [] ∨ n ≠ [])
  · rw [if_pos h, ← h.1]
    cases f with
    | nil => exact absurd h.1.symm hadj
    | cons a as =>
      have hm : ':' ∈ p ++ ':' :: n := by simp
      generalize hq : p ++ ':' :: n = q at hm
      cases q with
      | nil => cases p <;> cases hq
      | cons b bs => simp [backFunc, hm, Spec.fld]
  · rw [if_neg h]
    cases f with
    | nil => cases g.adj <;> simp [backFunc, Spec.fld]
    | cons a as =>
      cases ha : g.adj with
      | none => simp [backFunc, Spec.fld]
      | some b =>
        cases b with
        | nil => exact absurd ha hadj
        | cons b bs =>
          rw [ha] at hf
          simp only [backFunc, Spec.fld]
          by_cases hc : ':' ∈ a :: as
          · rcases hf rfl with h1 | h1
            · exact absurd hc h1
            · simp only [if_pos hc]
              rw [← Option.some.inj h1]; simp
          · rw [if_neg hc]; simp

theorem lefts_slash {g : Cfg} {cs : List RT} (h : ∀ c ∈ cs, '/' ∉ c.func) {prev : Str} (hp : '/' ∉ prev) {l : List Str} {last : Str}
    (e : g.lefts prev cs = some (l, last)) : (∀ p ∈ l, '/' ∉ p) ∧ '/' ∉ last ∧ l.length = cs.length := by
  induction cs generalizing prev l last with
  | nil =>
    simp only [Cfg.lefts, Option.some.injEq, Prod.mk.injEq] at e
    obtain ⟨rfl, rfl⟩ := e
    exact ⟨by simp, hp, rfl⟩
  | cons c cs ih =>
    rw [Cfg.lefts] at e
    cases hb : g.isArg c with
    | none => rw [hb] at e; simp at e
    | some b =>
      rw [hb] at e
      simp only at e
      have hq : '/' ∉ (if b then c.func else prev) := by
        cases b
        · simpa using hp
        · simpa using h c List.mem_cons_self
      generalize hqq : (if b then c.func else prev) = q at e hq
      cases hl : g.lefts q cs with
      | none => rw [hl] at e; simp at e
      | some r =>
        obtain ⟨l', last'⟩ := r
        rw [hl] at e
        simp only [Option.some.injEq, Prod.mk.injEq] at e
        obtain ⟨rfl, rfl⟩ := e
        obtain ⟨h1, h2, h3⟩ := ih (fun c hc => h c (List.mem_cons_of_mem _ hc)) hq hl
        refine ⟨?_, h2, by simp [h3]⟩
        intro p hp
        rcases List.mem_cons.mp hp with rfl | hp
        · exact hq
        · exact h1 p hp

theorem foldl_rep (x : Str) (cs : List RT) (l : List Str) : cs.foldl (fun l _ => x :: l) l = List.replicate cs.length x ++ l := by
  induction cs generalizing l with
  | nil => rfl
  | cons c cs ih =>
    rw [List.foldl_cons, ih, List.length_cons, List.replicate_succ', List.append_assoc]; rfl

theorem rights_eq (x : Str) (c : RT) (cs : List RT) : rights x (c :: cs) = List.replicate cs.length x ++ [[]] := foldl_rep x cs [[]]

mutual
theorem back_rr {g : Cfg} (hadj : g.adj ≠ some []) : ∀ (t : RT), Spec.Ok g t → ∀ {t' m lv}, g.rr t = some (t', m, lv) →
    ∀ fo, back g.adj fo t' = some (Spec.setFunc (backFunc g.adj fo) (Spec.norm t))
  | .pre t f m i, ho, t', mm, lv, e, fo => by
    cases ho with
    | pre h1 h2 h3 h4 =>
      rw [Cfg.rr, Option.some.injEq, Prod.mk.injEq] at e
      obtain ⟨rfl, -⟩ := e
      rw [back, Str.splitAll_append_cons h1, Str.splitAll_of_not_mem (slash_open h2)]
      simp [Spec.norm, Spec.setFunc, backMorph_open h3 h4]
  | .node l f [], ho, _, _, _, _, _ => by
    cases ho with
    | node h => exact absurd rfl h
  | .node l f (c :: cs), ho, t', mm, lv, e, fo => by
    cases ho with
    | node h1 h2 h3 h4 =>
      rw [Cfg.rr] at e
      cases hl : g.childfuncsl (c :: cs) with
      | none => rw [hl] at e; simp at e
      | some r =>
        obtain ⟨ls, last⟩ := r
        cases hs : g.funcstr (c :: cs) with
        | none => rw [hl, hs] at e; simp at e
        | some fstr =>
          rw [hl, hs] at e
          simp only at e
          cases hr : g.rrL l (c :: cs) ls (rights last (c :: cs)) with
          | none => rw [hr] at e; simp at e
          | some rs =>
            rw [hr] at e
            simp only at e
            cases hf : g.feats l rs with
            | none => rw [hf] at e; simp at e
            | some q =>
              obtain ⟨morph, lvl⟩ := q
              rw [hf] at e
              simp only [Option.some.injEq, Prod.mk.injEq] at e
              obtain ⟨rfl, -, -⟩ := e
              unfold Cfg.childfuncsl at hl
              cases hl' : g.lefts [] (c :: cs) with
              | none => rw [hl'] at hl; simp at hl
              | some r' =>
                obtain ⟨ls', last'⟩ := r'
                rw [hl'] at hl
                simp only [Option.map_some, Option.some.injEq, Prod.mk.injEq] at hl
                obtain ⟨rfl, rfl⟩ := hl
                obtain ⟨k1, k2, k3⟩ := lefts_slash (fun c hc => (h3 c hc).1) (by simp) hl'
                have hk := backKids_rr hadj l (c :: cs) h4 (fun c hc => (h3 c hc).2) (fun c hc => (h3 c hc).1) (ps := [] :: ls')
                  (ns := rights last' (c :: cs))
                  (by intro p hp; rcases List.mem_cons.mp hp with rfl | hp; simp; exact k1 p hp)
                  (by
                    rw [rights_eq]; intro p hp
                    rcases List.mem_append.mp hp with hp | hp
                    · rw [(List.mem_replicate.mp hp).2]; exact k2
                    · rw [List.mem_singleton.mp hp]; simp)
                  (by simp [k3]) (by rw [rights_eq]; simp) hr
                have hsl : '/' ∈ l ++ '/' :: '<' :: (fstr ++ ['>']) := by simp
                rw [back]
                simp only [if_pos hsl]
                rw [hk, splitHead_projLabel h2]
                rfl
theorem backKids_rr {g : Cfg} (hadj : g.adj ≠ some []) (l : Str) : ∀ (cs : List RT), (∀ c ∈ cs, Spec.Ok g c) →
    (∀ c ∈ cs, g.adj.isSome → ':' ∉ c.func ∨ some c.func = g.adj) → (∀ c ∈ cs, '/' ∉ c.func) → ∀ {ps ns : List Str}, (∀ p ∈ ps, '/' ∉ p) →
    (∀ p ∈ ns, '/' ∉ p) → cs.length ≤ ps.length → cs.length ≤ ns.length → ∀ {rs}, g.rrL l cs ps ns = some rs →
    backKids g.adj (rs.map Prod.fst) = some (Spec.normL cs)
  | [], _, _, _, ps, ns, _, _, _, _, rs, e => by
    rw [Cfg.rrL] at e
    · rw [← Option.some.inj e]; rfl
    · rintro _ _ _ _ _ _ ⟨⟩
  | c :: cs, ho, hc, hs, ps, ns, hps, hns, hlp, hln, rs, e => by
    cases ps with
    | nil => simp at hlp
    | cons p ps =>
      cases ns with
      | nil => simp at hln
      | cons n ns =>
        rw [Cfg.rrL] at e
        cases hr : g.rr c with
        | none => rw [hr] at e; simp at e
        | some r =>
          obtain ⟨t, morph, lvl⟩ := r
          rw [hr] at e
          simp only at e
          cases hl : g.rrL l cs ps ns with
          | none => rw [hl] at e; simp at e
          | some rs' =>
            rw [hl] at e
            simp only [Option.some.injEq] at e
            subst e
            simp only [List.map_cons]
            rw [backKids, backKids_rr hadj l cs (fun c h => ho c (List.mem_cons_of_mem _ h)) (fun c h => hc c (List.mem_cons_of_mem _ h))
              (fun c h => hs c (List.mem_cons_of_mem _ h)) (fun p h => hps p (List.mem_cons_of_mem _ h))
              (fun p h => hns p (List.mem_cons_of_mem _ h)) (by simpa using hlp) (by simpa using hln) hl]
            have hsl : '/' ∉ g.realFunc c.func (if g.adjleft then p else []) (if g.adjright then n else []) := by
              have hp : '/' ∉ (if g.adjleft then p else []) := by
                split
                · exact hps p List.mem_cons_self
                · simp
              have hn : '/' ∉ (if g.adjright then n else []) := by
                split
                · exact hns n List.mem_cons_self
                · simp
              generalize (if g.adjleft then p else []) = p' at hp
              generalize (if g.adjright then n else []) = n' at hn
              unfold Cfg.realFunc
              split
              · rw [List.mem_append, List.mem_cons]
                rintro (h | h | h)
                · exact hp h
                · exact absurd h (by decide)
                · exact hn h
              · exact hs c List.mem_cons_self
            rw [splitHead_append hsl, back_rr hadj c (ho c List.mem_cons_self) hr, backFunc_real hadj (hc c List.mem_cons_self)]
            simp only [Spec.normL]
            cases c <;> rfl
end

/-! ## Unification of features -/

theorem strLe_total (a b : Str) : (strLe a b || strLe b a) = true := by
  induction a generalizing b with
  | nil => simp [strLe]
  | cons x a ih =>
    cases b with
    | nil => simp [strLe]
    | cons y b =>
      have h := ih b
      simp only [strLe, Bool.or_eq_true, Bool.and_eq_true, decide_eq_true_eq] at h ⊢
      rcases Nat.lt_trichotomy x.toNat y.toNat with hx | hx | hx
      · exact Or.inl (Or.inl hx)
      · rcases h with h | h
        · exact Or.inl (Or.inr ⟨hx, h⟩)
        · exact Or.inr (Or.inr ⟨hx.symm, h⟩)
      · exact Or.inr (Or.inl hx)

theorem strLe_trans (a b c : Str) (h1 : strLe a b = true) (h2 : strLe b c = true) : strLe a c = true := by
  induction a generalizing b c with
  | nil => simp [strLe]
  | cons x a ih =>
    cases b with
    | nil => simp [strLe] at h1
    | cons y b =>
      cases c with
      | nil => simp [strLe] at h2
      | cons z c =>
        simp only [strLe, Bool.or_eq_true, Bool.and_eq_true, decide_eq_true_eq] at h1 h2 ⊢
        rcases h1 with h1 | ⟨h1, h1'⟩ <;> rcases h2 with h2 | ⟨h2, h2'⟩
        · left; omega
        · left; omega
        · left; omega
        · right; exact ⟨by omega, ih b c h1' h2'⟩

theorem mem_dedup {a : Str} {l : List Str} : a ∈ dedup l ↔ a ∈ l := by
  induction l with
  | nil => simp [dedup]
  | cons b l ih =>
    rw [dedup]
    split
    · rename_i h
      rw [ih, List.mem_cons]
      constructor
      · exact Or.inr
      · rintro (rfl | h')
        · exact h
        · exact h'
    · rw [List.mem_cons, List.mem_cons, ih]

theorem nodup_dedup (l : List Str) : (dedup l).Nodup := by
  induction l with
  | nil => simp [dedup]
  | cons b l ih =>
    rw [dedup]
    split
    · exact ih
    · rename_i h
      exact List.nodup_cons.mpr ⟨fun h' => h (mem_dedup.mp h'), ih⟩

/-- A feature vector `v`, bare or in brackets: `x[v]z`. -/
inductive Spec.Vec : Str → Str → Prop
  | bare {v} : '[' ∉ v → Spec.Vec v v
  | brack {x v z} : '[' ∉ x → ']' ∉ x → '[' ∉ v → ']' ∉ v → Spec.Vec (x ++ '[' :: (v ++ ']' :: z)) v

theorem takeWhile_len {c : Char} {a b : Str} (h : c ∉ a) : (List.takeWhile (fun x => decide (x ≠ c)) (a ++ c :: b)).length = a.length := by
  have := splitHead_append (b := b) h
  unfold splitHead at this
  exact congrArg List.length this

theorem inBrackets_vec {a v : Str} (h : Spec.Vec a v) : inBrackets a = some v := by
  cases h with
  | bare h => rw [inBrackets, if_neg h]
  | @brack x v z h1 h2 h3 h4 =>
    have m1 : '[' ∈ x ++ '[' :: (v ++ ']' :: z) := by simp
    have m2 : ']' ∈ x ++ '[' :: (v ++ ']' :: z) := by simp
    rw [inBrackets, if_pos m1, if_pos m2, takeWhile_len h1]
    have e : x ++ '[' :: (v ++ ']' :: z) = (x ++ '[' :: v) ++ ']' :: z := by simp
    have hn : ']' ∉ x ++ '[' :: v := by
      rw [List.mem_append, List.mem_cons]
      rintro (h | h | h)
      · exact h2 h
      · exact absurd h (by decide)
      · exact h4 h
    have hl : (List.takeWhile (fun x => decide (x ≠ ']')) (x ++ '[' :: (v ++ ']' :: z))).length = x.length + 1 + v.length := by
      rw [e, takeWhile_len hn]; simp; omega
    rw [hl]
    simp only [slice]
    have hd : List.drop (x.length + 1) (x ++ '[' :: (v ++ ']' :: z)) = v ++ ']' :: z := by
      have : x ++ '[' :: (v ++ ']' :: z) = (x ++ ['[']) ++ (v ++ ']' :: z) := by simp
      rw [this, List.drop_left' (by simp)]
    rw [hd]
    have : x.length + 1 + v.length - (x.length + 1) = v.length := by omega
    rw [this, List.take_left' rfl]

theorem mapM_vec {as vs : List Str} (h : List.Forall₂ Spec.Vec as vs) : as.mapM inBrackets = some vs := by
  induction h with
  | nil => rfl
  | cons h _ ih => rw [List.mapM_cons, inBrackets_vec h, ih]; rfl

/-- **C63** (union of features): for feature vectors, bare or in brackets, `unifymorphfeat` gives the features of the vectors, without the placeholders
`*` and `--`, and only the selected ones if there is a selection; each once and in alphabetical order, joined by the separator. -/
theorem C63_unify {feats vs : List Str} (hv : List.Forall₂ Spec.Vec feats vs) (perc : Option (List Str)) :
    ∃ (sep : Char) (L : List Str), sep = (if ∃ a ∈ feats, '.' ∈ a then '.' else ',') ∧ unify feats perc = some (Str.join [sep] L) ∧ L.Nodup ∧
      L.Pairwise (fun a b => strLe a b = true) ∧
      ∀ f, f ∈ L ↔ (∃ v ∈ vs, f ∈ Str.splitAll sep v) ∧ f ≠ "*".toList ∧ f ≠ "--".toList ∧ (∀ p ps, perc = some (p :: ps) → f ∈ p :: ps) := by
  have hsep : (if feats.any (fun a => decide ('.' ∈ a)) then '.' else ',') = (if ∃ a ∈ feats, '.' ∈ a then '.' else ',') := by
    by_cases h : ∃ a ∈ feats, '.' ∈ a
    · rw [if_pos h, if_pos]; simpa [List.any_eq_true] using h
    · rw [if_neg h, if_neg]; simpa [List.any_eq_true] using h
  refine ⟨_, stableSort strLe ((match perc with
      | some (p :: ps) => (dedup (vs.flatMap (Str.splitAll (if ∃ a ∈ feats, '.' ∈ a then '.' else ',')))).filter fun a => decide (a ∈ p :: ps)
      | _ => dedup (vs.flatMap (Str.splitAll (if ∃ a ∈ feats, '.' ∈ a then '.' else ',')))).filter
        fun a => decide (a ≠ ['*'] ∧ a ≠ ['-', '-'])), rfl, ?_, ?_, ?_, ?_⟩
  · unfold unify
    simp only [mapM_vec hv, hsep]
  · refine ((StableSort.perm _).nodup_iff).mpr (List.Pairwise.filter _ ?_)
    split
    · exact List.Pairwise.filter _ (nodup_dedup _)
    · exact nodup_dedup _
  · exact StableSort.pairwise strLe_trans strLe_total _
  · intro f
    rw [StableSort.mem, List.mem_filter]
    generalize (if ∃ a ∈ feats, '.' ∈ a then '.' else ',') = sep
    have hd : f ∈ dedup (vs.flatMap (Str.splitAll sep)) ↔ ∃ v ∈ vs, f ∈ Str.splitAll sep v := by rw [mem_dedup, List.mem_flatMap]
    have e1 : "*".toList = ['*'] := rfl
    have e2 : "--".toList = ['-', '-'] := rfl
    rw [e1, e2]
    cases perc with
    | none => simp only [hd, decide_eq_true_eq]; simp
    | some p =>
      cases p with
      | nil => simp only [hd, decide_eq_true_eq]; simp
      | cons p ps =>
        rw [List.mem_filter, hd]
        simp only [decide_eq_true_eq]
        constructor
        · rintro ⟨⟨h1, h2⟩, h3, h4⟩
          refine ⟨h1, h3, h4, ?_⟩
          rintro p' ps' e
          cases e; exact h2
        · rintro ⟨h1, h3, h4, h2⟩
          exact ⟨⟨h1, h2 p ps rfl⟩, h3, h4⟩

/-! ## Structure of the result -/

/-- The function of the closest argument among the siblings, the last in the list; empty if there is none. -/
def Spec.closest (isArg : RT → Bool) (cs : List RT) : Str := (((cs.filter isArg).getLast?).map RT.func).getD []

/-- A child is an argument if it has a function other than the adjunction label, the function is not to be ignored, nor the category. -/
def Spec.isArg (g : Cfg) (igf igc : List Str) (c : RT) : Bool :=
  decide (c.func ≠ [] ∧ some c.func ≠ g.adj ∧ c.func ∉ igf ∧ c.label ∉ igc)

theorem isArg_eq {g : Cfg} {igf igc : List Str} (h1 : g.ignoref = some igf) (h2 : g.ignorec = some igc) (c : RT) :
    g.isArg c = some (Spec.isArg g igf igc c) := by
  unfold Cfg.isArg Spec.isArg
  rw [h1, h2]
  by_cases a : c.func = [] ∨ some c.func = g.adj
  · rw [if_pos a]; rcases a with a | a <;> simp [a]
  · rw [if_neg a]
    simp only
    rw [not_or] at a
    by_cases b : c.func ∈ igf
    · rw [if_pos b]; simp [b]
    · rw [if_neg b]; simp [a, b]

theorem lefts_eq {g : Cfg} {igf igc : List Str} (h1 : g.ignoref = some igf) (h2 : g.ignorec = some igc) (cs : List RT) (pre : List RT) :
    ∃ l, g.lefts (Spec.closest (Spec.isArg g igf igc) pre) cs = some (l, Spec.closest (Spec.isArg g igf igc) (pre ++ cs)) ∧ l.length = cs.length ∧
      ∀ k, k < cs.length → l[k]? = some (Spec.closest (Spec.isArg g igf igc) (pre ++ cs.take (k + 1))) := by
  induction cs generalizing pre with
  | nil => exact ⟨[], by simp [Cfg.lefts], rfl, by simp⟩
  | cons c cs ih =>
    have hp : (if Spec.isArg g igf igc c then c.func else Spec.closest (Spec.isArg g igf igc) pre) = Spec.closest (Spec.isArg g igf igc) (pre ++ [c]) := by
      unfold Spec.closest
      rw [List.filter_append]
      by_cases hc : Spec.isArg g igf igc c = true
      · simp [hc]
      · simp [hc]
    obtain ⟨l, e, hl, hk⟩ := ih (pre ++ [c])
    refine ⟨Spec.closest (Spec.isArg g igf igc) (pre ++ [c]) :: l, ?_, by simp [hl], ?_⟩
    · rw [Cfg.lefts, isArg_eq h1 h2]
      simp only [hp]
      rw [e]
      simp
    · intro k hk'
      cases k with
      | zero => simp
      | succ k =>
        rw [List.getElem?_cons_succ, hk k (by simpa using hk')]
        simp

theorem funcstr_eq {g : Cfg} {igf igc : List Str} (h1 : g.ignoref = some igf) (h2 : g.ignorec = some igc) (cs : List RT) :
    g.funcstr cs = some (Str.join [','] (stableSort strLe ((cs.filter (Spec.isArg g igf igc)).map RT.func))) := by
  unfold Cfg.funcstr
  have : cs.mapM g.isArg = some (cs.map (Spec.isArg g igf igc)) := by
    induction cs with
    | nil => rfl
    | cons c cs ih => rw [List.mapM_cons, isArg_eq h1 h2, ih]; rfl
  rw [this, Option.map_some]
  congr 3
  induction cs with
  | nil => rfl
  | cons c cs ih =>
    have ih' := ih (by simp only [List.mapM_cons, isArg_eq h1 h2] at this; cases hm : List.mapM g.isArg cs with
      | none => rw [hm] at this; simp at this
      | some v => rw [hm] at this; simp at this; rw [this])
    simp only [List.map_cons, List.zip_cons_cons, List.filterMap_cons, List.filter_cons]
    by_cases hc : Spec.isArg g igf igc c = true
    · simp only [hc, if_true, List.map_cons]; rw [ih']
    · simp only [Bool.not_eq_true] at hc; simp only [hc]; exact ih'

theorem rrL_get {g : Cfg} {l : Str} {cs : List RT} {ps ns : List Str} {rs : List (PTree Str × Option Str × Nat)} (e : g.rrL l cs ps ns = some rs)
    (hp : cs.length ≤ ps.length) (hn : cs.length ≤ ns.length) : rs.length = cs.length ∧ ∀ k, k < cs.length → ∃ c p n t m lv, cs[k]? = some c ∧
      ps[k]? = some p ∧ ns[k]? = some n ∧ g.rr c = some (t, m, lv) ∧
      rs[k]? = some (.node (g.realFunc c.func (if g.adjleft then p else []) (if g.adjright then n else []) ++ '/' :: l) [t], m, lv) := by
  induction cs generalizing ps ns rs with
  | nil =>
    rw [Cfg.rrL] at e
    · rw [← Option.some.inj e]; simp
    · rintro _ _ _ _ _ _ ⟨⟩
  | cons c cs ih =>
    cases ps with
    | nil => simp at hp
    | cons p ps =>
      cases ns with
      | nil => simp at hn
      | cons n ns =>
        rw [Cfg.rrL] at e
        cases hr : g.rr c with
        | none => rw [hr] at e; simp at e
        | some r =>
          obtain ⟨t, m, lv⟩ := r
          rw [hr] at e
          simp only at e
          cases hl : g.rrL l cs ps ns with
          | none => rw [hl] at e; simp at e
          | some rs' =>
            rw [hl] at e
            simp only [Option.some.injEq] at e
            subst e
            obtain ⟨a, b⟩ := ih hl (by simpa using hp) (by simpa using hn)
            refine ⟨by simp [a], ?_⟩
            intro k hk
            cases k with
            | zero => exact ⟨c, p, n, t, m, lv, rfl, rfl, rfl, hr, rfl⟩
            | succ k =>
              obtain ⟨c', p', n', t', m', lv', q1, q2, q3, q4, q5⟩ := b k (by simpa using hk)
              exact ⟨c', p', n', t', m', lv', by simpa using q1, by simpa using q2, by simpa using q3, q4, by simpa using q5⟩

/-- The relabelling of an adjunct with the functions around it. -/
def Spec.realization (g : Cfg) (f left right : Str) : Str := if some f = g.adj ∧ (left ≠ [] ∨ right ≠ []) then left ++ ":".toList ++ right else f

/-- **C63** (structure of the result): a constituent becomes a projection with one daughter, labelled with the sorted functions of the arguments, with as
many daughters as the constituent had; each has one daughter, the transform of the child, and carries the function of the child; an adjunct instead
carries the function of the closest argument on its left and (if it is not the last child) the function of the *last* argument of the constituent. -/
theorem C63_structure {g : Cfg} {igf igc : List Str} (h1 : g.ignoref = some igf) (h2 : g.ignorec = some igc) {l f : Str} {cs : List RT} {t' : PTree Str}
    {m : Option Str} {lv : Nat} (e : g.rr (.node l f cs) = some (t', m, lv)) :
    ∃ pl kids, (pl = match m with
        | some (a :: s) => l ++ "-".toList ++ a :: s
        | _ => l) ∧ t' = .node pl [.node (l ++ "/<".toList ++ Str.join [','] (stableSort strLe ((cs.filter (Spec.isArg g igf igc)).map RT.func)) ++ ">".toList) kids] ∧
      kids.length = cs.length ∧ ∀ k, k < cs.length → ∃ c t m' lv', cs[k]? = some c ∧ g.rr c = some (t, m', lv') ∧
        kids[k]? = some (.node (Spec.realization g c.func (if g.adjleft then Spec.closest (Spec.isArg g igf igc) (cs.take k) else [])
          (if g.adjright ∧ k + 1 < cs.length then Spec.closest (Spec.isArg g igf igc) cs else []) ++ "/".toList ++ l) [t]) := by
  cases cs with
  | nil => rw [Cfg.rr] at e; simp at e
  | cons c cs =>
    rw [Cfg.rr, funcstr_eq h1 h2] at e
    obtain ⟨ls, e1, e2, e3⟩ := lefts_eq h1 h2 (c :: cs) []
    unfold Cfg.childfuncsl at e
    have e1' : g.lefts [] (c :: cs) = some (ls, Spec.closest (Spec.isArg g igf igc) (c :: cs)) := e1
    rw [e1'] at e
    simp only [Option.map_some] at e
    cases hr : g.rrL l (c :: cs) ([] :: ls) (rights (Spec.closest (Spec.isArg g igf igc) (c :: cs)) (c :: cs)) with
    | none => rw [hr] at e; simp at e
    | some rs =>
      rw [hr] at e
      simp only at e
      cases hf : g.feats l rs with
      | none => rw [hf] at e; simp at e
      | some q =>
        obtain ⟨morph, lvl⟩ := q
        rw [hf] at e
        simp only [Option.some.injEq, Prod.mk.injEq] at e
        obtain ⟨rfl, rfl, -⟩ := e
        obtain ⟨a, b⟩ := rrL_get hr (by simp [e2]) (by rw [rights_eq]; simp)
        refine ⟨projLabel l morph, rs.map Prod.fst, ?_, by simp, by simp [a], ?_⟩
        · cases morph with
          | none => rfl
          | some s => cases s <;> simp [projLabel]
        intro k hk
        obtain ⟨c', p, n, t, m', lv', q1, q2, q3, q4, q5⟩ := b k hk
        refine ⟨c', t, m', lv', q1, q4, ?_⟩
        have hp : p = Spec.closest (Spec.isArg g igf igc) ((c :: cs).take k) := by
          cases k with
          | zero => simpa [Spec.closest] using q2.symm
          | succ k =>
            rw [List.getElem?_cons_succ, e3 k (by omega)] at q2
            simpa using q2.symm
        have hn : n = if k + 1 < (c :: cs).length then Spec.closest (Spec.isArg g igf igc) (c :: cs) else [] := by
          rw [rights_eq] at q3
          by_cases hk' : k < cs.length
          · have hk2 : k + 1 < (c :: cs).length := by simpa using hk'
            rw [if_pos hk2]
            rw [List.getElem?_append_left (by simpa using hk'), List.getElem?_replicate, if_pos hk'] at q3
            exact (Option.some.inj q3).symm
          · have hk2 : ¬k + 1 < (c :: cs).length := by simpa using hk'
            rw [if_neg hk2]
            have : k = cs.length := by simp at hk; omega
            subst this
            simpa using q3.symm
        rw [List.getElem?_map, q5, hp, hn]
        simp only [Option.map_some, Option.some.injEq]
        have hz : (if g.adjright = true then (if k + 1 < (c :: cs).length then Spec.closest (Spec.isArg g igf igc) (c :: cs) else []) else []) =
            (if g.adjright = true ∧ k + 1 < (c :: cs).length then Spec.closest (Spec.isArg g igf igc) (c :: cs) else []) := by
          cases g.adjright <;> simp
        rw [hz]
        unfold Cfg.realFunc Spec.realization
        simp

/-! ## Existence -/

theorem mem_splitAll {c x : Char} {s f : Str} (hf : f ∈ Str.splitAll c s) (hx : x ∈ f) : x ∈ s := by
  induction s generalizing f with
  | nil => simp [Str.splitAll] at hf; subst hf; exact hx
  | cons y s ih =>
    rw [Str.splitAll] at hf
    split at hf
    · rcases List.mem_cons.mp hf with rfl | hf
      · simp at hx
      · exact List.mem_cons_of_mem _ (ih hf hx)
    · split at hf
      · rename_i heq
        exact absurd heq (Str.splitAll_ne_nil c s)
      · rename_i p ps heq
        rcases List.mem_cons.mp hf with rfl | hf
        · rcases List.mem_cons.mp hx with rfl | hx
          · exact List.mem_cons_self
          · exact List.mem_cons_of_mem _ (ih (heq ▸ List.mem_cons_self) hx)
        · exact List.mem_cons_of_mem _ (ih (heq ▸ List.mem_cons_of_mem _ hf) hx)

theorem mem_join {sep : Str} {x : Char} {L : List Str} (h : x ∈ Str.join sep L) : x ∈ sep ∨ ∃ f ∈ L, x ∈ f := by
  induction L with
  | nil => simp [Str.join, List.intercalate] at h
  | cons a L ih =>
    cases L with
    | nil => exact Or.inr ⟨a, by simp, by simpa [Str.join, List.intercalate] using h⟩
    | cons b L =>
      have e : Str.join sep (a :: b :: L) = a ++ (sep ++ Str.join sep (b :: L)) := by simp [Str.join, List.intercalate]
      rw [e, List.mem_append, List.mem_append] at h
      rcases h with h | h | h
      · exact Or.inr ⟨a, by simp, h⟩
      · exact Or.inl h
      · rcases ih h with h | ⟨f, hf, h⟩
        · exact Or.inl h
        · exact Or.inr ⟨f, List.mem_cons_of_mem _ hf, h⟩

theorem vec_open {as vs : List Str} (h : List.Forall₂ Spec.Vec as vs) : ∀ v ∈ vs, '[' ∉ v := by
  induction h with
  | nil => simp
  | cons h _ ih =>
    intro w hw
    rcases List.mem_cons.mp hw with rfl | hw
    · cases h <;> assumption
    · exact ih w hw

/-- All morphological tags of the tree are feature vectors, bare or in brackets. -/
inductive Spec.Morphs : RT → Prop
  | pre {t f m i} : (∃ v, Spec.Vec (m.map open') v) → Spec.Morphs (.pre t f m i)
  | node {l f cs} : cs ≠ [] → (∀ c ∈ cs, Spec.Morphs c) → Spec.Morphs (.node l f cs)

theorem unify_vec {feats : List Str} (h : ∀ a ∈ feats, ∃ v, Spec.Vec a v) (perc : Option (List Str)) : ∃ s, unify feats perc = some s ∧ ∃ v, Spec.Vec s v := by
  have hv : ∃ vs, List.Forall₂ Spec.Vec feats vs := by
    induction feats with
    | nil => exact ⟨[], .nil⟩
    | cons a as ih =>
      obtain ⟨v, hv⟩ := h a List.mem_cons_self
      obtain ⟨vs, hvs⟩ := ih (fun a ha => h a (List.mem_cons_of_mem _ ha))
      exact ⟨v :: vs, .cons hv hvs⟩
  obtain ⟨vs, hvs⟩ := hv
  obtain ⟨sep, L, hs, hu, -, -, hL⟩ := C63_unify hvs perc
  refine ⟨_, hu, _, .bare ?_⟩
  intro hm
  rcases mem_join hm with h1 | ⟨f, hf, hx⟩
  · rw [List.mem_singleton] at h1
    rw [← h1] at hs
    split at hs <;> exact absurd hs (by decide)
  · obtain ⟨⟨v, hv, hfv⟩, -⟩ := (hL f).mp hf
    have hb := mem_splitAll hfv hx
    exact vec_open hvs v hv hb

theorem feats_vec {g : Cfg} {l : Str} {rs : List (PTree Str × Option Str × Nat)} (h : ∀ r ∈ rs, ∀ s, r.2.1 = some s → ∃ v, Spec.Vec s v) :
    ∃ m lv, g.feats l rs = some (m, lv) ∧ ∀ s, m = some s → ∃ v, Spec.Vec s v := by
  unfold Cfg.feats
  simp only
  split
  · have : ∀ a ∈ (collect rs).map Prod.fst, ∃ v, Spec.Vec a v := by
      intro a ha
      obtain ⟨p, hp, rfl⟩ := List.mem_map.mp ha
      obtain ⟨r, hr, e⟩ := List.mem_filterMap.mp hp
      cases hm : r.2.1 with
      | none => rw [hm] at e; simp at e
      | some s =>
        rw [hm] at e
        simp only at e
        split at e
        · rw [← Option.some.inj e]; exact h r hr s hm
        · simp at e
    obtain ⟨s, e, hs⟩ := unify_vec this g.percolate
    exact ⟨some s, _, by rw [e]; rfl, by rintro _ ⟨⟩; exact hs⟩
  · exact ⟨none, 0, rfl, by simp⟩

mutual
theorem rr_exists {g : Cfg} {igf igc : List Str} (h1 : g.ignoref = some igf) (h2 : g.ignorec = some igc) :
    ∀ t, (Spec.Morphs t ∨ (g.morphlevels = 0 ∧ Spec.Ok g t)) → ∃ t' m lv, g.rr t = some (t', m, lv) ∧ ∀ s, m = some s → ∃ v, Spec.Vec s v
  | .pre t f m i, h => by
    refine ⟨_, _, _, by rw [Cfg.rr], ?_⟩
    intro s hs
    split at hs
    · rename_i hm
      rcases h with h | h
      · cases h with
        | pre h => rw [← Option.some.inj hs]; exact h
      · exact absurd h.1 hm
    · simp at hs
  | .node l f [], h => by
    rcases h with h | ⟨-, h⟩
    · cases h with
      | node h => exact absurd rfl h
    · cases h with
      | node h => exact absurd rfl h
  | .node l f (c :: cs), h => by
    have hc : ∀ c' ∈ c :: cs, Spec.Morphs c' ∨ (g.morphlevels = 0 ∧ Spec.Ok g c') := by
      rcases h with h | ⟨hz, h⟩
      · cases h with
        | node _ h => exact fun c hc => Or.inl (h c hc)
      · cases h with
        | node _ _ _ h => exact fun c hc => Or.inr ⟨hz, h c hc⟩
    rw [Cfg.rr, funcstr_eq h1 h2]
    obtain ⟨ls, e1, e2, e3⟩ := lefts_eq h1 h2 (c :: cs) []
    have e1' : g.lefts [] (c :: cs) = some (ls, Spec.closest (Spec.isArg g igf igc) (c :: cs)) := e1
    unfold Cfg.childfuncsl
    rw [e1']
    simp only [Option.map_some]
    obtain ⟨rs, hr, hv⟩ := rrL_exists h1 h2 l (c :: cs) hc ([] :: ls) (rights (Spec.closest (Spec.isArg g igf igc) (c :: cs)) (c :: cs))
    rw [hr]
    obtain ⟨m, lv, hf, hm⟩ := feats_vec (g := g) (l := l) hv
    simp only [hf]
    exact ⟨_, m, lv, rfl, hm⟩
theorem rrL_exists {g : Cfg} {igf igc : List Str} (h1 : g.ignoref = some igf) (h2 : g.ignorec = some igc) (l : Str) :
    ∀ cs, (∀ c ∈ cs, Spec.Morphs c ∨ (g.morphlevels = 0 ∧ Spec.Ok g c)) → ∀ ps ns, ∃ rs, g.rrL l cs ps ns = some rs ∧
      ∀ r ∈ rs, ∀ s, r.2.1 = some s → ∃ v, Spec.Vec s v
  | [], _, ps, ns => ⟨[], by rw [Cfg.rrL]; rintro _ _ _ _ _ _ ⟨⟩, by simp⟩
  | c :: cs, _, [], ns => ⟨[], by rw [Cfg.rrL]; rintro _ _ _ _ _ _ _ ⟨⟩, by simp⟩
  | c :: cs, _, p :: ps, [] => ⟨[], by rw [Cfg.rrL]; rintro _ _ _ _ _ _ _ _ ⟨⟩, by simp⟩
  | c :: cs, h, p :: ps, n :: ns => by
    obtain ⟨t', m, lv, e, hv⟩ := rr_exists h1 h2 c (h c List.mem_cons_self)
    obtain ⟨rs, e', hv'⟩ := rrL_exists h1 h2 l cs (fun c hc => h c (List.mem_cons_of_mem _ hc)) ps ns
    rw [Cfg.rrL, e]
    simp only [e']
    refine ⟨_, rfl, ?_⟩
    intro r hr
    rcases List.mem_cons.mp hr with rfl | hr
    · exact hv
    · exact hv' r hr
end

/-- **C63** (round trip): with lists of functions and categories to be ignored, a non-empty adjunction label, and a tree as in `Spec.Ok` whose
morphological tags are feature vectors (or no percolation of features), the transform succeeds, and the back transformation recovers the tree: all labels,
functions, morphological tags and indices, except that empty functions and tags become `--` and so does the function of the root. -/
theorem C63_roundtrip {g : Cfg} {igf igc : List Str} (h1 : g.ignoref = some igf) (h2 : g.ignorec = some igc) (hadj : g.adj ≠ some []) {t : RT}
    (ht : Spec.Ok g t) (hm : Spec.Morphs t ∨ g.morphlevels = 0) :
    ∃ t' m lv, g.rr t = some (t', m, lv) ∧ back g.adj none t' = some (Spec.setFunc ['-', '-'] (Spec.norm t)) := by
  obtain ⟨t', m, lv, e, -⟩ := rr_exists h1 h2 t (hm.elim Or.inl fun h => Or.inr ⟨h, ht⟩)
  refine ⟨t', m, lv, e, ?_⟩
  rw [back_rr hadj t ht e none]
  simp [backFunc]

/-! ## Witnesses -/

/-- `(S (NP-SBJ (DT a) (NN-HD b)) (ADV-MO c) (V-HD d) (NP-OA e) (ADV-MO f))`. -/
def ex1 : RT :=
  .node "S".toList [] [
    .node "NP".toList "SBJ".toList [.pre "DT".toList [] "Def.Sg".toList 0, .pre "NN".toList "HD".toList "Masc.Sg".toList 1],
    .pre "ADV".toList "MO".toList [] 2, .pre "V".toList "HD".toList "Past(x)".toList 3, .pre "NP".toList "OA".toList [] 4, .pre "ADV".toList "MO".toList [] 5]

/-- Adjunction label `MO`, features percolate one level. -/
def exg : Cfg := ⟨1, none, some "MO".toList, some [], some [], true, true⟩

mutual
/-- The labels of a tree in brackets. -/
def showP : PTree Str → Str
  | .leaf _ => []
  | .node l cs => '(' :: (l ++ (showPL cs ++ [')']))
/-- For the children. -/
def showPL : List (PTree Str) → Str
  | [] => []
  | c :: cs => showP c ++ showPL cs
end

/-- The bracketing of the result. -/
def showRR (g : Cfg) (t : RT) : Option String := (g.rr t).map fun r => String.ofList (showP r.1)
example : showRR exg ex1 = some ("(S-x(S/<HD,OA,SBJ>(SBJ/S(NP-Def.Masc.Sg(NP/<HD>(/NP(DT/Def.Sg))(HD/NP(NN/Masc.Sg)))))" ++
    "(SBJ:OA/S(ADV/))(HD/S(V/Past[x]))(OA/S(NP/))(OA:/S(ADV/))))") := by decide +kernel

theorem vecBare {m : Str} (h : '[' ∉ m.map open') : ∃ v, Spec.Vec (m.map open') v := ⟨_, .bare h⟩

-- The hypotheses of `C63_roundtrip` and `C63_structure` hold for the example, with adjuncts, brackets and percolation.
theorem ex1_ok : Spec.Ok exg ex1 ∧ Spec.Morphs ex1 := by
  constructor
  · refine .node (by decide) (by decide) (by decide +kernel) ?_
    intro c hc
    simp only [List.mem_cons, List.not_mem_nil, or_false] at hc
    rcases hc with rfl | rfl | rfl | rfl | rfl
    · refine .node (by decide) (by decide) (by decide +kernel) ?_
      intro c hc
      simp only [List.mem_cons, List.not_mem_nil, or_false] at hc
      rcases hc with rfl | rfl
      all_goals exact .pre (by decide) (by decide) (by decide) (by decide)
    all_goals exact .pre (by decide) (by decide) (by decide) (by decide)
  · refine .node (by decide) ?_
    intro c hc
    simp only [List.mem_cons, List.not_mem_nil, or_false] at hc
    rcases hc with rfl | rfl | rfl | rfl | rfl
    · refine .node (by decide) ?_
      intro c hc
      simp only [List.mem_cons, List.not_mem_nil, or_false] at hc
      rcases hc with rfl | rfl
      all_goals exact .pre (vecBare (by decide))
    · exact .pre (vecBare (by decide))
    · exact .pre ⟨['x'], @Spec.Vec.brack "Past".toList ['x'] [] (by decide) (by decide) (by decide) (by decide)⟩
    all_goals exact .pre (vecBare (by decide))

example : ∃ t' m lv, exg.rr ex1 = some (t', m, lv) ∧ back exg.adj none t' = some (Spec.setFunc ['-', '-'] (Spec.norm ex1)) :=
  C63_roundtrip (igf := []) (igc := []) rfl rfl (by decide) ex1_ok.1 (Or.inl ex1_ok.2)

example : unify ["Def.*.*".toList, "*.Sg.*".toList, "*.*.Akk".toList] none = some "Akk.Def.Sg".toList := by decide +kernel
example : unify ["LID[bep,stan,rest]".toList, "N[soort,ev,zijd,stan]".toList] none = some "bep,ev,rest,soort,stan,zijd".toList := by decide +kernel
example : List.Forall₂ Spec.Vec ["LID[bep,stan]".toList, "a,b".toList] ["bep,stan".toList, "a,b".toList] :=
  .cons (@Spec.Vec.brack "LID".toList "bep,stan".toList [] (by decide) (by decide) (by decide) (by decide)) (.cons (.bare (by decide)) .nil)

/-- **C63** (disagreement, the defaults): with `ignorefunctions=None`, the default, the transform of a tree raises an exception as soon as a child has a
function that is not the adjunction label (`'HD' not in None`). -/
theorem C63_default_disagreement (g : Cfg) (hg : g.ignoref = none) (l f : Str) (cs : List RT) (c : RT) (hc : c ∈ cs) (hf : c.func ≠ [])
    (ha : some c.func ≠ g.adj) : g.rr (.node l f cs) = none := by
  have hi : g.isArg c = none := by
    unfold Cfg.isArg
    rw [if_neg (by rintro (h | h); exacts [hf h, ha h]), hg]
  cases cs with
  | nil => rw [Cfg.rr]
  | cons d ds =>
    have : ∀ (cs : List RT), c ∈ cs → cs.mapM g.isArg = none := by
      intro cs hc
      induction cs with
      | nil => simp at hc
      | cons e es ih =>
        rw [List.mapM_cons]
        rcases List.mem_cons.mp hc with rfl | hc
        · rw [hi]; rfl
        · rw [ih hc]; cases g.isArg e <;> rfl
    rw [Cfg.rr]
    unfold Cfg.funcstr
    rw [this _ hc]
    cases g.childfuncsl (d :: ds) <;> rfl

example : (⟨0, none, none, none, none, true, true⟩ : Cfg).rr ex1 = none :=
  C63_default_disagreement _ rfl _ _ _ _ (List.mem_cons_self) (by decide) (by decide)

/-- What the docstring says (treebanktransforms.py:1415-1420): the function of an adjunct is replaced by the *neighbouring* non-adjunctive functions: the closest
argument on the left, and the closest argument on the right. -/
def Spec.neighbours (g : Cfg) (igf igc : List Str) (cs : List RT) (k : Nat) : Str × Str :=
  (Spec.closest (Spec.isArg g igf igc) (cs.take k), Spec.closest (Spec.isArg g igf igc) (cs.drop (k + 1)).reverse)

/-- **C63** (disagreement, the right neighbour): in `(S (NP-SBJ ..) (ADV-MO ..) (V-HD ..) (NP-OA ..) (ADV-MO ..))` the neighbours of the first adjunct are
`SBJ` and `HD`, but it is relabelled as `SBJ:OA`: on the right the last argument of the constituent is used instead of the closest. -/
theorem C63_right_disagreement : ∃ (g : Cfg) (l f : Str) (cs : List RT) (t' : PTree Str) (m : Option Str) (lv : Nat), g.ignoref = some [] ∧
    g.ignorec = some [] ∧ g.adjleft = true ∧ g.adjright = true ∧ g.rr (.node l f cs) = some (t', m, lv) ∧
    Spec.neighbours g [] [] cs 1 = ("SBJ".toList, "HD".toList) ∧ (cs[1]?).map (fun c => some c.func) = some g.adj ∧
    ∃ pl cl kids s, t' = .node pl [.node cl kids] ∧ kids[1]? = some (.node "SBJ:OA/S".toList s) := by
  cases hx : exg.rr ex1 with
  | none => exact absurd hx (by obtain ⟨t', m, lv, e, -⟩ := C63_roundtrip (g := exg) (igf := []) (igc := []) rfl rfl (by decide) ex1_ok.1 (Or.inl ex1_ok.2)
                                rw [e]; simp)
  | some r =>
    obtain ⟨t', m, lv⟩ := r
    refine ⟨exg, _, _, _, t', m, lv, rfl, rfl, rfl, rfl, hx, by decide +kernel, by decide +kernel, ?_⟩
    obtain ⟨pl, kids, -, rfl, hl, hk⟩ := C63_structure (igf := []) (igc := []) rfl rfl hx
    obtain ⟨c, t, m', lv', hc, -, h1⟩ := hk 1 (by decide)
    cases hc
    exact ⟨_, _, kids, [t], rfl, h1⟩

/-- **C63** (disagreement, hyphens): the label of a constituent with a hyphen, e.g. `NP-TMP`, is not recovered. -/
theorem C63_hyphen_disagreement : ∃ (g : Cfg) (t t' r : _) (m : Option Str) (lv : Nat), g.ignoref = some [] ∧ g.ignorec = some [] ∧
    g.rr t = some (t', m, lv) ∧ back g.adj none t' = some r ∧ t.label = "NP-TMP".toList ∧ r.label = "NP".toList := by
  refine ⟨⟨0, none, none, some [], some [], true, true⟩, .node "NP-TMP".toList [] [.pre "N".toList [] [] 0],
    .node "NP-TMP".toList [.node "NP-TMP/<>".toList [.node "/NP-TMP".toList [.node "N/".toList [.leaf 0]]]],
    .node "NP".toList "--".toList [.pre "N".toList "--".toList "--".toList 0], none, 0, rfl, rfl, ?_, ?_, rfl, rfl⟩
  · rfl
  · rfl

end Disco.RR
