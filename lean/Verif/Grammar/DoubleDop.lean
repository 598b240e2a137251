import Verif.Trees.Factor
import Verif.Grammar.TreebankGrammar
/-!
# C23: Double-DOP grammars: `flatten`, `dopgrammar` (grammar.py:225-320, 699-773) and `recoverfragments` (disambiguation.pyx:546-625)

Simplification: fragments and templates are trees instead of bracketed strings, so that the regular expression `FRONTIERORTERM`
becomes a traversal. A frontier node `(label i= j= ...)` or `(label i=word)` is `front label i [j, ...] word`, the word being empty for a
substitution site.
-/
namespace Disco.DDop
open PTree Prods Factor TBGrammar

/-- A match of `FRONTIERORTERM` (grammar.py:20). -/
structure Front where
  l : Str
  i : Nat
  is : List Nat
  w : Str
deriving DecidableEq, Repr

/-- A fragment. -/
inductive Frag where
  | front (f : Front)
  | node (l : Str) (cs : List Frag)
deriving Repr

/-- The label of the root. -/
def Frag.root : Frag → Str
  | .front f => f.l
  | .node l _ => l

mutual
/-- `FRONTIERORTERM.finditer(frag)`. -/
def Frag.fronts : Frag → List Front
  | .front f => [f]
  | .node _ cs => Frag.frontsL cs
/-- The same for a list of children. -/
def Frag.frontsL : List Frag → List Front
  | [] => []
  | c :: cs => c.fronts ++ Frag.frontsL cs
end

/-- The label of a frontier node after `repl` (grammar.py:726-740). -/
def Front.label (f : Front) : Str := if f.w = [] then f.l else f.l ++ '@' :: f.w

/-- The indices of a frontier node. -/
def Front.indices (f : Front) : List Nat := f.i :: f.is

/-- The frontier node as a tree with a bitset (grammar.py:761-764). -/
def Front.child (f : Front) : BT := .node f.label (some (Bits.bitsetOf f.indices)) (f.indices.map .leaf)

/-- The frontier nodes in the order of their first index (grammar.py:757-760). -/
def Frag.sorted (f : Frag) : List Front := stableSort (fun a b => decide (a.i ≤ b.i)) f.fronts

/-- The dictionary `sent` that `substleaf` makes (grammar.py:742-747); the indices are distinct. -/
def sentDict (F : List Front) : Dict Nat (Option Str) :=
  F.flatMap fun f => (f.i, if f.w = [] then none else some f.w) :: f.is.map fun j => (j, none)

/-- `[sent.get(n, None) for n in range(max(sent) + 1)]` (grammar.py:751, 762). -/
def sentOf (F : List Front) : List (Option Str) :=
  (List.range ((F.flatMap Front.indices).foldr max 0 + 1)).map fun n => (Dict.get? (sentDict F) n).getD none

mutual
/-- The tree without bitsets. -/
def erase : BT → PTree Str
  | .leaf i => .leaf i
  | .node l _ cs => .node l (eraseL cs)
/-- The same for a list of children. -/
def eraseL : List BT → List (PTree Str)
  | [] => []
  | c :: cs => erase c :: eraseL cs
end

/-- A template: a fragment with numbered holes; `leaf` occurs only for a fragment that is a preterminal. -/
inductive Tmpl where
  | hole (k : Nat)
  | leaf (i : Nat)
  | node (l : Str) (cs : List Tmpl)
deriving Repr

/-- The dictionary `order` (grammar.py:767-768) for the frontier nodes in order; its keys are the indices and the word. -/
def order (F : List Front) : Dict (Nat × List Nat × Str) Nat := F.zipIdx.map fun x => ((x.1.i, x.1.is, x.1.w), x.2)

mutual
/-- `FRONTIERORTERM.sub(lambda x: order[x.group(2)], frag)` (grammar.py:770). -/
def tmpl (o : Dict (Nat × List Nat × Str) Nat) : Frag → Option Tmpl
  | .front f => (Dict.get? o (f.i, f.is, f.w)).map .hole
  | .node l cs => (tmplL o cs).map (.node l)
/-- The same for a list of children. -/
def tmplL (o : Dict (Nat × List Nat × Str) Nat) : List Frag → Option (List Tmpl)
  | [] => some []
  | c :: cs => match tmpl o c, tmplL o cs with
    | some t, some ts => some (t :: ts)
    | _, _ => none
end

/-- The parameters of the call of `factorconstituent` (grammar.py:763-764). -/
def cfg : Cfg := ⟨['}'], 999, false, true, true, [], BT.label?⟩

/-- The extra artificial node for a fragment with one or two frontier nodes (grammar.py:771-785): the new productions. -/
def short (ids : IDs) (p : Rule) (ps : List Rule) : Option (List Rule × IDs) :=
  match p.nts, p.yf with
  | l :: r :: rest, .spans yf =>
    let newlabel := l ++ '}' :: '<' :: (ids.next.1 ++ '>' :: (if yf.length = 1 then [] else '_' :: Nat.toDigits 10 yf.length))
    some (⟨l :: newlabel :: rest, .spans yf⟩ :: ⟨[newlabel, r], .spans ((yf.flatten.filter (· = 0)).map fun _ => [0])⟩ :: ps, ids.next.2)
  | _, _ => none

/-- `flatten(frag, ids)` (grammar.py:699-786). -/
def flatten (f : Frag) (ids : IDs) : Option (List Rule × Tmpl × IDs) :=
  match f with
  | .front ⟨l, i, [], w⟩ => (lcfrsproductions (.node l [.leaf i]) (sentOf [⟨l, i, [], w⟩]) false).map fun ps => (ps, .node l [.leaf 0], ids)
  | f =>
    match cfg.factor 2 (some ids) f.root (some (Bits.bitsetOf (f.sorted.flatMap Front.indices))) (f.sorted.map Front.child) with
    | some (t, some ids') =>
      match lcfrsproductions (erase t) (sentOf f.sorted) false, tmpl (order f.sorted) f with
      | some (p :: ps), some T =>
        if f.sorted.length ≤ 2 then (short ids' p ps).map fun x => (x.1, T, x.2) else some (p :: ps, T, ids')
      | _, _ => none
    | _ => none

/-- The dictionaries of `dopgrammar`. -/
structure St (W : Type) where
  grammar : Dict Rule W
  bt : Dict Rule (Frag × Tmpl)
  ids : IDs

/-- `grammar.update(zip(prods, repeat(one)))`. -/
def updateAll {W : Type} (one : W) : Dict Rule W → List Rule → Dict Rule W
  | g, [] => g
  | g, p :: ps => updateAll one (Dict.set g p one) ps

/-- One iteration of the loop over the fragments (grammar.py:268-280); `weight` is `getweight`, `one` is `uniformweight`. -/
def step {W : Type} (weight : Frag → W) (one : W) (s : St W) (f : Frag) : Option (St W) :=
  match flatten f s.ids with
  | some (p :: ps, T, ids) =>
    if p.nts[1]? = some epsilon then some { s with grammar := Dict.set s.grammar p (weight f), ids := ids }
    else some ⟨updateAll one (Dict.set s.grammar p (weight f)) ps, Dict.set s.bt p (f, T), ids⟩
  | _ => none

/-- The loop (grammar.py:268-280). -/
def loop {W : Type} (weight : Frag → W) (one : W) : List Frag → St W → Option (St W)
  | [], s => some s
  | f :: fs, s => match step weight one s f with
    | some s' => loop weight one fs s'
    | none => none

/-- `dopgrammar(trees, fragments, ids)` without `extrarules` (grammar.py:225-320): the sorted rules with their weights, the templates and
the fragments. The weights are not computed here, see `weight` in `step`. -/
def dopgrammar {W : Type} (weight : Frag → W) (one : W) (ids : IDs) (fr : List Frag) : Option (List (Rule × W) × List Tmpl × List Frag) :=
  match loop weight one fr ⟨[], [], ids⟩ with
  | none => none
  | some s => (sortgrammar s.grammar).map fun G =>
    (G, G.filterMap (fun r => (Dict.get? s.bt r.1).map Prod.snd), G.filterMap (fun r => (Dict.get? s.bt r.1).map Prod.fst))

/-! ### Recovering fragments -/

/-- A derivation: a word with its tag, or a rule number with the derivations of its nonterminals. (In the chart: an item with an edge.) -/
inductive Der where
  | lex (tag : Str) (i : Nat)
  | un (no : Nat) (d : Der)
  | bin (no : Nat) (d e : Der)
deriving Repr

/-- `selfmapping[label] == 0`: the label matches `'.+}<'` (_grammar.pxi:867; runexp.py:451). -/
def art (l : Str) : Bool := isBinMark (l.drop 1)

/-- `selfmapping[rule.rhs1] == 0`. -/
def artRhs1 (G : List Rule) (no : Nat) : Bool :=
  match G[no]? with
  | some r => match r.nts[1]? with
    | some l => art l
    | none => false
  | none => false

mutual
/-- `frag.format(*children)` (disambiguation.pyx:619-620). -/
def Tmpl.fill (ts : List (PTree Str)) : Tmpl → Option (PTree Str)
  | .hole k => ts[k]?
  | .leaf i => some (.leaf i)
  | .node l cs => (Tmpl.fillL ts cs).map (.node l)
/-- The same for a list. -/
def Tmpl.fillL (ts : List (PTree Str)) : List Tmpl → Option (List (PTree Str))
  | [] => some []
  | c :: cs => match c.fill ts, Tmpl.fillL ts cs with
    | some t, some us => some (t :: us)
    | _, _ => none
end

/-- `backtransform[rule.no].format(*children)`. -/
def expand (bt : List Tmpl) (no : Nat) (children : Option (List (PTree Str))) : Option (PTree Str) :=
  match bt[no]?, children with
  | some T, some ts => T.fill ts
  | _, _ => none

/-- The children in order, from the left part and the right child. -/
def snoc (xs : Option (List (PTree Str))) (x : Option (PTree Str)) : Option (List (PTree Str)) :=
  match xs, x with
  | some xs, some x => some (xs ++ [x])
  | _, _ => none

mutual
/-- `recoverfragments_` (disambiguation.pyx:572-620), and the case of a lexical edge (565-567, 610-613). -/
def recover (G : List Rule) (bt : List Tmpl) : Der → Option (PTree Str)
  | .lex tag i => some (.node tag [.leaf i])
  | .un no d => expand bt no (if artRhs1 G no then (left G bt d).map ([·]) else (recover G bt d).map ([·]))
  | .bin no d e => expand bt no (snoc (if artRhs1 G no then walk G bt d else (recover G bt d).map ([·])) (recover G bt e))
/-- The loop (disambiguation.pyx:587-597) from a node that is part of the same constituent; the children are recovered in order. -/
def walk (G : List Rule) (bt : List Tmpl) : Der → Option (List (PTree Str))
  | .lex _ _ => none
  | .un no d => if artRhs1 G no then none else (recover G bt d).map ([·])
  | .bin no d e => snoc (if artRhs1 G no then walk G bt d else (recover G bt d).map ([·])) (recover G bt e)
/-- The left child (disambiguation.pyx:598-603). -/
def left (G : List Rule) (bt : List Tmpl) : Der → Option (PTree Str)
  | .lex _ _ => none
  | .un _ d => recover G bt d
  | .bin _ d _ => recover G bt d
end

/-- `REMOVEWORDTAGS.sub('', ...)` for one label (disambiguation.pyx:51): `'@'` and what follows, if anything follows. -/
def strip (l : Str) : Str :=
  match l.dropWhile (· ≠ '@') with
  | _ :: _ :: _ => l.takeWhile (· ≠ '@')
  | _ => l

/-- `recoverfragments` (disambiguation.pyx:546-569). -/
def recoverfragments (G : List Rule) (bt : List Tmpl) (d : Der) : Option (PTree Str) := (recover G bt d).map (mapLabel strip)

/-! ### Specification -/

/-- The derivations of a grammar for a sentence, with the label of their root; yield functions are ignored. -/
inductive Spec.Derives (G : List Rule) (sent : List Str) : Der → Str → Prop
  | lex {tag w j} : ⟨[tag, epsilon], .word w⟩ ∈ G → sent[j]? = some w → Spec.Derives G sent (.lex tag j) tag
  | un {no a b yf d} : G[no]? = some ⟨[a, b], .spans yf⟩ → Spec.Derives G sent d b → Spec.Derives G sent (.un no d) a
  | bin {no a b c yf d e} : G[no]? = some ⟨[a, b, c], .spans yf⟩ → Spec.Derives G sent d b → Spec.Derives G sent e c →
      Spec.Derives G sent (.bin no d e) a

mutual
/-- The trees that are composed of fragments: a fragment in which each substitution site is replaced by a composed tree whose root has
the same label, and each word by an occurrence of that word in the sentence. -/
inductive Spec.Composed (fr : List Frag) (sent : List Str) : Str → PTree Str → Prop
  | frag {f t} : f ∈ fr → Spec.Inst fr sent f t → Spec.Composed fr sent f.root t
/-- A part of a fragment with its substitution sites and words replaced. -/
inductive Spec.Inst (fr : List Frag) (sent : List Str) : Frag → PTree Str → Prop
  | word {l i is w j} : w ≠ [] → sent[j]? = some (Escape.escape (some w)) → Spec.Inst fr sent (.front ⟨l, i, is, w⟩) (.node l [.leaf j])
  | site {l i is t} : Spec.Composed fr sent l t → Spec.Inst fr sent (.front ⟨l, i, is, []⟩) t
  | node {l cs ts} : Spec.InstL fr sent cs ts → Spec.Inst fr sent (.node l cs) (.node l ts)
/-- The same for a list of children. -/
inductive Spec.InstL (fr : List Frag) (sent : List Str) : List Frag → List (PTree Str) → Prop
  | nil : Spec.InstL fr sent [] []
  | cons {c t cs ts} : Spec.Inst fr sent c t → Spec.InstL fr sent cs ts → Spec.InstL fr sent (c :: cs) (t :: ts)
end

/-- A label without the characters that have a meaning in labels of the grammar or in templates. -/
def Spec.Plain (l : Str) : Prop := l ≠ [] ∧ l ≠ epsilon ∧ '@' ∉ l ∧ '{' ∉ l ∧ '}' ∉ l

mutual
/-- Labels are plain, no node is empty, and a word has one index. -/
def Spec.Labels : Frag → Prop
  | .front f => Spec.Plain f.l ∧ ¬ ['}', '<'] <:+: f.w ∧ (f.w ≠ [] → f.is = [])
  | .node l cs => Spec.Plain l ∧ cs ≠ [] ∧ Spec.LabelsL cs
/-- The same for a list of children. -/
def Spec.LabelsL : List Frag → Prop
  | [] => True
  | c :: cs => Spec.Labels c ∧ Spec.LabelsL cs
end

/-- A fragment: a word with its tag, or a constituent; indices are distinct; at most 1000 frontier nodes. -/
structure Spec.Fragment (f : Frag) : Prop where
  labels : Spec.Labels f
  distinct : (f.fronts.flatMap Front.indices).Nodup
  size : f.fronts.length ≤ 1000
  top : ∀ x, f = .front x → x.is = [] ∧ x.w ≠ []

/-- The labels of frontier nodes, with words. -/
def Spec.FrontLabel (fr : List Frag) (x : Str) : Prop := ∃ f ∈ fr, ∃ y ∈ f.fronts, x = y.label

/-- A yield function as a string. -/
def Spec.IsYF (y : Str) : Prop := ∀ c ∈ y, c = '0' ∨ c = '1' ∨ c = ','

/-- Sequences of labels and yield functions can be told apart when they are joined with commas and a semicolon. -/
def Spec.Unambiguous (X : Str → Prop) : Prop :=
  ∀ xs ys y z, xs ≠ [] → ys ≠ [] → (∀ x ∈ xs, X x) → (∀ x ∈ ys, X x) → Spec.IsYF y → Spec.IsYF z →
    Str.join [','] xs ++ ';' :: y = Str.join [','] ys ++ ';' :: z → xs = ys

/-- The input of `dopgrammar`. -/
structure Spec.Input (fr : List Frag) (pre : Str) : Prop where
  frag : ∀ f ∈ fr, Spec.Fragment f
  keys : Spec.Unambiguous (Spec.FrontLabel fr)
  pre : '>' ∉ pre

end Disco.DDop
