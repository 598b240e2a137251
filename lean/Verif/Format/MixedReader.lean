import Verif.Format.Incremental
import Verif.Format.ExportMore
/-!
# C80: reading a stream of lines in several formats, `incrementaltreereader` with `segmentexport`, `segmentalpino` and `segmentbrackets`
(treebank.py:1002-1215)

The readers of single trees (`exporttree`, `alpinotree`, `brackettree`) are parameters; for the export format the model of C14 is used.
-/
namespace Disco.Mixed
open Incr (addOut)

/-- What is yielded: `(tree, sent, rest)` -- where `rest` may be `None` -- or `(None, None, text)`. -/
inductive Out (T : Type) where
  | tree (t : T) (rest : Option Str)
  | text (s : Str)
  deriving DecidableEq

/-- The parameters: those of the bracket reader, `exporttree` and `alpinotree` (tree and comment); `none` is any exception. -/
structure Q (T : Type) extends Incr.P T where
  ep : List Str → Option (T × Option Str)
  ap : List Str → Option (T × Option Str)

/-- The local variables `cur`, `inblock` of `segmentexport` and `segmentalpino`. -/
structure Blk where
  cur : List Str
  inblock : Nat
  deriving DecidableEq

/-- The answer to `reader.send(line)`: `StopIteration`, another exception, or the new state with `(result, status)`. -/
inductive Reply (T : Type) where
  | stop
  | error
  | ok (s : Blk) (res : Option (T × Option Str)) (consumed : Bool)

variable {T : Type}

/-- `s.startswith(t)`. -/
def starts (s t : Str) : Bool := t.isPrefixOf s

/-- `'#BOS '`, `'#BOT '`, `'#EOS '`, `'#EOT '`, `'#FORMAT '`, `'%%'`. -/
def bos : Str := ['#', 'B', 'O', 'S', ' ']
@[inherit_doc bos] def bot : Str := ['#', 'B', 'O', 'T', ' ']
@[inherit_doc bos] def eos : Str := ['#', 'E', 'O', 'S', ' ']
@[inherit_doc bos] def eot : Str := ['#', 'E', 'O', 'T', ' ']
@[inherit_doc bos] def fmt : Str := ['#', 'F', 'O', 'R', 'M', 'A', 'T', ' ']
@[inherit_doc bos] def pct : Str := ['%', '%']

/-- `'<alpino_ds'`, `'</alpino_ds>'`, `'<?xml'` and the XML declaration. -/
def alpOpen : Str := "<alpino_ds".toList
@[inherit_doc alpOpen] def alpClose : Str := "</alpino_ds>".toList
@[inherit_doc alpOpen] def xml : Str := "<?xml".toList
@[inherit_doc alpOpen] def xmlDecl : Str := "<?xml version=\"1.0\" encoding=\"UTF-8\"?>".toList

/-- `segmentexport` (treebank.py:1179-1215). The reset of `cur` and `inblock` after a result (1204-1205) is done at once. -/
def expSend (q : Q T) (s : Blk) : Option Str → Reply T
  | none => .stop
  | some raw =>
    let line := Incr.rstrip q.ws raw
    if starts line bos || starts line bot then
      if q.strict && decide (s.inblock ≠ 0) then .error
      else .ok ⟨[line], if starts line bos then 1 else 2⟩ none true
    else if starts line eos || starts line eot then
      if q.strict && decide (s.inblock = 0) then .error
      else match q.ep (s.cur ++ [line]) with
        | none => .error
        | some r => .ok ⟨[], 0⟩ (some r) true
    else if line ≠ [] then
      if s.inblock = 1 then .ok ⟨s.cur ++ [line], 1⟩ none true
      else .ok s none (decide (s.inblock ≠ 0) || starts (line.dropWhile q.ws) pct || starts (line.dropWhile q.ws) fmt)
    else .ok s none false

/-- `segmentalpino` (treebank.py:1145-1176). -/
def alpSend (q : Q T) (s : Blk) : Option Str → Reply T
  | none => .stop
  | some line =>
    if starts line alpOpen then .ok ⟨[xmlDecl, line], 1⟩ none true
    else if starts line alpClose then
      match q.ap (s.cur ++ [line]) with
      | none => .error
      | some r => .ok ⟨[], 0⟩ (some r) true
    else if line.dropWhile q.ws ≠ [] then
      .ok (if s.inblock = 1 then ⟨s.cur ++ [line], 1⟩ else s) none (decide (s.inblock ≠ 0) || starts (line.dropWhile q.ws) xml)
    else .ok s none false

/-- The states of the three co-routines. -/
structure S (T : Type) where
  e : Blk
  a : Blk
  b : Incr.St T

/-- What `incrementaltreereader` does with a line: return; raise an exception; go on with reader `k`, which has consumed the line; yield results;
or find that no reader accepts the line. -/
inductive Offer (T : Type) where
  | stop
  | error
  | waiting (k : Nat) (s : S T)
  | results (s : S T) (o : List (Out T))
  | declined (s : S T)

/-- The outputs of the bracket reader. -/
def conv : Incr.Out T → Out T
  | .tree t r => .tree t (some r)
  | .text s => .text s

/-- Yielding a result (treebank.py:1047-1054). -/
def emit (other : Bool) (r : T × Option Str) : List (Out T) :=
  match r.2 with
  | none => [.tree r.1 none]
  | some c => (Incr.emit other (r.1, c)).map conv

/-- The third reader (treebank.py:1035-1045). -/
def offer2 (q : Q T) (other : Bool) (s : S T) (line : Option Str) : Offer T :=
  match Incr.send q.toP s.b line with
  | none => .error
  | some b =>
    if Incr.status b then
      if b.results.isEmpty then .waiting 2 { s with b := b }
      else .results { s with b := b } ((b.results.flatMap (Incr.emit other)).map conv)
    else .declined { s with b := b }

/-- The answer of `segmentalpino`. -/
def reply1 (q : Q T) (other : Bool) (s : S T) (line : Option Str) : Reply T → Offer T
  | .stop => .stop
  | .error => .error
  | .ok a (some r) _ => .results { s with a := a } (emit other r)
  | .ok a none true => .waiting 1 { s with a := a }
  | .ok a none false => offer2 q other { s with a := a } line

/-- The second reader, and those after it. -/
def offer1 (q : Q T) (other : Bool) (s : S T) (line : Option Str) : Offer T := reply1 q other s line (alpSend q s.a line)

/-- The answer of `segmentexport`. -/
def reply0 (q : Q T) (other : Bool) (s : S T) (line : Option Str) : Reply T → Offer T
  | .stop => .stop
  | .error => .error
  | .ok e (some r) _ => .results { s with e := e } (emit other r)
  | .ok e none true => .waiting 0 { s with e := e }
  | .ok e none false => offer1 q other { s with e := e } line

/-- The first reader, and those after it. -/
def offer0 (q : Q T) (other : Bool) (s : S T) (line : Option Str) : Offer T := reply0 q other s line (expSend q s.e line)

/-- The readers from number `k` on (treebank.py:1034). -/
def offer (q : Q T) (other : Bool) : Nat → S T → Option Str → Offer T
  | 0, s, line => offer0 q other s line
  | 1, s, line => offer1 q other s line
  | _, s, line => offer2 q other s line

/-- A line that no reader accepts (treebank.py:1055-1057). -/
def declined (q : Q T) (other : Bool) : Option Str → List (Out T)
  | some line => if other then [.text (Incr.rstrip q.ws line)] else []
  | none => []

/-- `list.__add__` on what is yielded, `none` is an exception. -/
def add (o : List (Out T)) : Option (List (Out T)) → Option (List (Out T))
  | none => none
  | some l => some (o ++ l)

/-- The end of the input (treebank.py:1042-1045): a reader that still waits is followed by the next reader, with `None`. -/
def atEnd (q : Q T) (other : Bool) (line : Option Str) : Offer T → Option (List (Out T))
  | .stop => some []
  | .error => none
  | .waiting 1 s => match offer2 q other s none with
    | .error => none
    | .results _ o => some o
    | _ => some []
  | .waiting _ _ => some []
  | .results _ o => some o
  | .declined _ => some (declined q other line)

/-- The outer loop (treebank.py:1030-1062): `line` is offered to the readers from number `k` on; `ls` is the rest of `treeinput`. -/
def run (q : Q T) (other : Bool) : Nat → S T → Option Str → List (Option Str) → Option (List (Out T))
  | k, s, line, [] => atEnd q other line (offer q other k s line)
  | k, s, line, l :: ls => match offer q other k s line with
    | .stop => some []
    | .error => none
    | .waiting j s' => run q other j s' l ls
    | .results s' o => add o (run q other 0 s' l ls)
    | .declined s' => add (declined q other line) (run q other 0 s' l ls)

/-- The initial state. -/
def S.init (T : Type) : S T := ⟨⟨[], 0⟩, ⟨[], 0⟩, Incr.St.init T⟩

/-- `next(treeinput)` and the outer loop. -/
def top (q : Q T) (other : Bool) (s : S T) : List (Option Str) → Option (List (Out T))
  | [] => some []
  | l :: ls => run q other 0 s l ls

/-- `list(incrementaltreereader(lines, ...))` (treebank.py:1006-1062). -/
def reader (q : Q T) (other : Bool) (lines : List Str) : Option (List (Out T)) :=
  top q other (S.init T) (lines.map some ++ [some ['('], none, none])

/-- `exporttree(block)` (treebank.py:544-579) with `morphology=None`, `functions=None`: tree, sentence and comment. -/
def exportItem (ws : Char → Bool) (block : List Str) : Option ((PTree Export.Lab × List Str) × Option Str) :=
  match block with
  | [] => none
  | first :: rest =>
    match Export.mapO (Export.exportsplit ws) rest.dropLast with
    | none => none
    | some table => (Export.readRows .no table).map fun x => (x, Export.commentOf ws first)

/-! ### Specification -/

/-- A line that is neither part of a tree in the export format or in Alpino's format, nor a header. -/
structure Spec.Plain (ws : Char → Bool) (l : Str) : Prop where
  marks : ∀ m ∈ [bos, bot, eos, eot], ¬ m <+: Incr.rstrip ws l
  heads : ∀ m ∈ [pct, fmt], ¬ m <+: (Incr.rstrip ws l).dropWhile ws
  alp : ¬ alpOpen <+: l ∧ ¬ alpClose <+: l
  xml : ¬ xml <+: l.dropWhile ws

/-- A line within a tree in the export format. -/
structure Spec.ExpBody (ws : Char → Bool) (l : Str) : Prop where
  marks : ∀ m ∈ [bos, bot, eos, eot], ¬ m <+: Incr.rstrip ws l
  ne : Incr.rstrip ws l ≠ []

/-- A line within a tree in Alpino's format. -/
structure Spec.AlpBody (ws : Char → Bool) (l : Str) : Prop where
  marks : ¬ alpOpen <+: l ∧ ¬ alpClose <+: l
  ne : l.dropWhile ws ≠ []

/-- A line that is not for the export reader. -/
def Spec.NotExp (ws : Char → Bool) (l : Str) : Prop :=
  (∀ m ∈ [bos, bot, eos, eot], ¬ m <+: Incr.rstrip ws l) ∧ ∀ m ∈ [pct, fmt], ¬ m <+: (Incr.rstrip ws l).dropWhile ws

/-- A piece of the input: a tree in the export format; a tree in Alpino's format, after XML declarations; a header; or a line of other text. -/
inductive Spec.Seg (T : Type) where
  | exp (first : Str) (body : List Str) (last : Str) (t : T) (comment : Option Str)
  | alp (decl : List Str) (first : Str) (body : List Str) (last : Str) (t : T) (comment : Option Str)
  | head (l : Str)
  | text (l : Str)

/-- The lines of a piece. -/
def Spec.Seg.lines : Spec.Seg T → List Str
  | .exp first body last _ _ => first :: body ++ [last]
  | .alp decl first body last _ _ => decl ++ first :: body ++ [last]
  | .head l => [l]
  | .text l => [l]

/-- What should be yielded for a piece (`comment`s are single lines). -/
def Spec.Seg.out (ws : Char → Bool) (other : Bool) : Spec.Seg T → List (Out T)
  | .exp _ _ _ t c => [.tree t c]
  | .alp _ _ _ _ t c => [.tree t c]
  | .head _ => []
  | .text l => if other then [.text (Incr.rstrip ws l)] else []

/-- Well-formed pieces. -/
def Spec.Seg.Ok (q : Q T) : Spec.Seg T → Prop
  | .exp first body last t c => bos <+: Incr.rstrip q.ws first ∧ (∀ l ∈ body, Spec.ExpBody q.ws l) ∧ eos <+: Incr.rstrip q.ws last ∧
      q.ep (Incr.rstrip q.ws first :: body.map (Incr.rstrip q.ws) ++ [Incr.rstrip q.ws last]) = some (t, c) ∧ ∀ x, c = some x → '\n' ∉ x
  | .alp decl first body last t c => (∀ l ∈ decl, xml <+: l.dropWhile q.ws ∧ Spec.NotExp q.ws l ∧ Spec.AlpBody q.ws l) ∧
      alpOpen <+: first ∧ Spec.NotExp q.ws first ∧ (∀ l ∈ body, Spec.AlpBody q.ws l) ∧ alpClose <+: last ∧
      q.ap (xmlDecl :: first :: body ++ [last]) = some (t, c) ∧ ∀ x, c = some x → '\n' ∉ x
  | .head l => (∀ m ∈ [bos, bot, eos, eot], ¬ m <+: Incr.rstrip q.ws l) ∧
      (pct <+: (Incr.rstrip q.ws l).dropWhile q.ws ∨ fmt <+: (Incr.rstrip q.ws l).dropWhile q.ws)
  | .text l => Spec.Plain q.ws l ∧ Incr.Spec.Outside q.strict l

open Spec

/-! ### Lines for the bracket reader -/

theorem starts_iff (s t : Str) : starts s t = true ↔ t <+: s := by rw [starts, List.isPrefixOf_iff_prefix]

theorem starts_false {s t : Str} (h : ¬ t <+: s) : starts s t = false := by
  rw [← starts_iff] at h; simpa using h

theorem expSend_decline (q : Q T) {l : Str} (h : NotExp q.ws l) {s : Blk} (hs : s.inblock = 0) : expSend q s (some l) = .ok s none false := by
  simp only [expSend]
  rw [starts_false (h.1 bos (by simp)), starts_false (h.1 bot (by simp)), starts_false (h.1 eos (by simp)), starts_false (h.1 eot (by simp)),
    starts_false (h.2 pct (by simp)), starts_false (h.2 fmt (by simp))]
  simp [hs]

theorem alpSend_decline (q : Q T) {l : Str} (h1 : ¬ alpOpen <+: l ∧ ¬ alpClose <+: l) (h2 : ¬ xml <+: l.dropWhile q.ws) {s : Blk}
    (hs : s.inblock = 0) : alpSend q s (some l) = .ok s none false := by
  simp only [alpSend]
  rw [starts_false h1.1, starts_false h1.2, starts_false h2]
  simp [hs]

/-- The other readers wait for the start of a block. -/
def Out0 (s : S T) : Prop := s.e.inblock = 0 ∧ s.a.inblock = 0

theorem offer0_plain (q : Q T) (other : Bool) {l : Str} (h : Plain q.ws l) {s : S T} (hs : Out0 s) :
    offer0 q other s (some l) = offer2 q other s (some l) := by
  rw [offer0, expSend_decline q ⟨h.marks, h.heads⟩ hs.1, reply0, offer1, alpSend_decline q h.alp h.xml hs.2, reply1]

theorem add_conv (a : List (Incr.Out T)) (x : Option (List (Incr.Out T))) :
    (addOut a x).map (List.map conv) = add (a.map conv) (x.map (List.map conv)) := by
  cases x <;> simp [addOut, add]

theorem declined_conv (q : Q T) (other : Bool) (line : Option Str) : (Incr.declined q.toP other line).map conv = declined q other line := by
  cases line with
  | none => rfl
  | some l => cases other <;> rfl

theorem offer_none (q : Q T) (other : Bool) (s : S T) : offer q other 0 s none = .stop := rfl

theorem run_none (q : Q T) (other : Bool) (s : S T) (ls : List (Option Str)) : run q other 0 s none ls = some [] := by
  cases ls <;> rfl

/-- The bracket reader, as modelled in C64, is what is left of the reader on plain lines. -/
theorem run_feed (q : Q T) (other : Bool) (ls : List (Option Str)) : ∀ (s : S T) (line : Option Str), Out0 s →
    (∀ l, some l ∈ ls → Plain q.ws l) → run q other 2 s line ls = (Incr.feed q.toP other s.b line ls).map (List.map conv) := by
  induction ls with
  | nil =>
    intro s line hs _
    rw [run, Incr.feed, offer, offer2]
    · cases h : Incr.send q.toP s.b line with
      | none => rfl
      | some b =>
        simp only
        cases hst : Incr.status b with
        | false => simp [atEnd, declined_conv]
        | true =>
          simp only [if_true]
          cases hr : b.results with
          | nil => simp [atEnd]
          | cons r rs => simp [atEnd]
    · simp
    · simp
  | cons l ls ih =>
    intro s line hs hp
    have hp' : ∀ l, some l ∈ ls → Plain q.ws l := fun x hx => hp x (by simp [hx])
    rw [run, Incr.feed, offer, offer2]
    · cases h : Incr.send q.toP s.b line with
      | none => rfl
      | some b =>
        simp only
        have h0 : run q other 0 { s with b := b } l ls =
            (if l.isNone then some [] else Incr.feed q.toP other b l ls).map (List.map conv) := by
          cases l with
          | none => rw [run_none]; rfl
          | some x =>
            have hx := hp x (by simp)
            have hs' : Out0 ({ s with b := b } : S T) := hs
            have : run q other 0 { s with b := b } (some x) ls = run q other 2 { s with b := b } (some x) ls := by
              cases ls with
              | nil =>
                show atEnd q other _ (offer0 q other _ _) = atEnd q other _ (offer2 q other _ _)
                rw [offer0_plain q other hx hs']
              | cons y ys =>
                rw [run, run]
                have e0 : offer q other 0 { s with b := b } (some x) = offer q other 2 { s with b := b } (some x) := offer0_plain q other hx hs'
                rw [e0]
            rw [this, ih _ _ hs' hp']
            simp
        cases hst : Incr.status b with
        | false =>
          simp only [Bool.false_eq_true, if_false]
          rw [h0, add_conv, declined_conv]
        | true =>
          simp only [if_true]
          cases hr : b.results.isEmpty with
          | true => simp only [if_true]; exact ih { s with b := b } l hs hp'
          | false => simp only [Bool.false_eq_true, if_false]; rw [h0, add_conv]
    · simp
    · simp

theorem top_plain (q : Q T) (other : Bool) (s : S T) (hs : Out0 s) (ls : List (Option Str)) (hp : ∀ l, some l ∈ ls → Plain q.ws l) :
    top q other s ls = (Incr.top q.toP other s.b ls).map (List.map conv) := by
  cases ls with
  | nil => rfl
  | cons l ls =>
    cases l with
    | none => rw [top, run_none]; rfl
    | some x =>
      rw [top, Incr.top, ← run_feed q other ls s (some x) hs (fun l hl => hp l (by simp [hl]))]
      have e0 : offer q other 0 s (some x) = offer q other 2 s (some x) := offer0_plain q other (hp x (by simp)) hs
      cases ls with
      | nil => rw [run, run, e0]
      | cons y ys => rw [run, run, e0]

theorem plain_open (ws : Char → Bool) (h : ws '(' = false) : Plain ws ['('] := by
  have e : Incr.rstrip ws ['('] = ['('] := by simp [Incr.rstrip, h]
  have e2 : (['('] : Str).dropWhile ws = ['('] := by simp [h]
  refine ⟨?_, ?_, ?_, ?_⟩
  · rw [e]; decide
  · rw [e, e2]; decide
  · decide
  · rw [e2]; decide

/-! ### Blocks -/

/-- A reader between trees: the bracket reader is as at the start, but for `prev`, which is not used. -/
def Idle (s : S T) : Prop := s.e = ⟨[], 0⟩ ∧ s.a = ⟨[], 0⟩ ∧ ∃ x, s.b = { Incr.St.init T with prev := x }

theorem add_nil (x : Option (List (Out T))) : add [] x = x := by cases x <;> simp [add]

theorem add_add (a b : List (Out T)) (x : Option (List (Out T))) : add a (add b x) = add (a ++ b) x := by cases x <;> simp [add]

theorem emit_line (other : Bool) (t : T) (c : Option Str) (h : ∀ x, c = some x → '\n' ∉ x) : emit other (t, c) = [.tree t c] := by
  cases c with
  | none => rfl
  | some x => simp [emit, Incr.emit, Incr.find, h x rfl, conv]

theorem exp_body (q : Q T) (other : Bool) (s : S T) (last : Str) (rest : List (Option Str)) : ∀ (body cur : List Str) (l : Str), s.e = ⟨cur, 1⟩ →
    (∀ x ∈ l :: body, ExpBody q.ws x) →
    run q other 0 s (some l) ((body.map some) ++ some last :: rest) =
      run q other 0 { s with e := ⟨cur ++ (l :: body).map (Incr.rstrip q.ws), 1⟩ } (some last) rest := by
  intro body
  induction body generalizing s with
  | nil =>
    intro cur l hs h
    have hl := h l (by simp)
    rw [List.map_nil, List.nil_append, run, offer, offer0]
    have : expSend q s.e (some l) = .ok ⟨cur ++ [Incr.rstrip q.ws l], 1⟩ none true := by
      simp only [expSend]
      rw [starts_false (hl.marks bos (by simp)), starts_false (hl.marks bot (by simp)), starts_false (hl.marks eos (by simp)),
        starts_false (hl.marks eot (by simp)), hs]
      simp [hl.ne]
    rw [this, reply0]
    rfl
  | cons l2 body ih =>
    intro cur l hs h
    have hl := h l (by simp)
    rw [List.map_cons, List.cons_append, run, offer, offer0]
    have : expSend q s.e (some l) = .ok ⟨cur ++ [Incr.rstrip q.ws l], 1⟩ none true := by
      simp only [expSend]
      rw [starts_false (hl.marks bos (by simp)), starts_false (hl.marks bot (by simp)), starts_false (hl.marks eos (by simp)),
        starts_false (hl.marks eot (by simp)), hs]
      simp [hl.ne]
    rw [this, reply0]
    simp only
    rw [ih { s with e := ⟨cur ++ [Incr.rstrip q.ws l], 1⟩ } (cur ++ [Incr.rstrip q.ws l]) l2 rfl (fun x hx => h x (by simp at hx ⊢; tauto))]
    simp

theorem bos_ne {s : Str} (h : bos <+: s) : ¬ eos <+: s ∧ ¬ eot <+: s ∧ ¬ bot <+: s := by
  obtain ⟨r, rfl⟩ := h
  refine ⟨?_, ?_, ?_⟩ <;> (rintro ⟨r', h⟩; simp [bos, eos, eot, bot] at h)

theorem eos_ne {s : Str} (h : eos <+: s) : ¬ bos <+: s ∧ ¬ bot <+: s := by
  obtain ⟨r, rfl⟩ := h
  refine ⟨?_, ?_⟩ <;> (rintro ⟨r', h⟩; simp [bos, eos, bot] at h)

theorem exp_first (q : Q T) (other : Bool) (s : S T) (hs : s.e = ⟨[], 0⟩) {first : Str} (h : bos <+: Incr.rstrip q.ws first) (l : Option Str)
    (ls : List (Option Str)) :
    run q other 0 s (some first) (l :: ls) = run q other 0 { s with e := ⟨[Incr.rstrip q.ws first], 1⟩ } l ls := by
  rw [run, offer, offer0]
  have : expSend q s.e (some first) = .ok ⟨[Incr.rstrip q.ws first], 1⟩ none true := by
    simp only [expSend]
    rw [(starts_iff _ _).2 h, hs]
    simp
  rw [this, reply0]

theorem exp_last (q : Q T) (other : Bool) (s : S T) {cur : List Str} (hs : s.e = ⟨cur, 1⟩) {last : Str} (h : eos <+: Incr.rstrip q.ws last)
    {t : T} {c : Option Str} (ht : q.ep (cur ++ [Incr.rstrip q.ws last]) = some (t, c)) (hc : ∀ x, c = some x → '\n' ∉ x) (l : Option Str)
    (ls : List (Option Str)) :
    run q other 0 s (some last) (l :: ls) = add [.tree t c] (run q other 0 { s with e := ⟨[], 0⟩ } l ls) := by
  rw [run, offer, offer0]
  have : expSend q s.e (some last) = .ok ⟨[], 0⟩ (some (t, c)) true := by
    simp only [expSend]
    rw [starts_false (eos_ne h).1, starts_false (eos_ne h).2, (starts_iff _ _).2 h, hs, ht]
    simp
  rw [this, reply0]
  simp only [emit_line other t c hc]

theorem alp_body (q : Q T) (other : Bool) (s : S T) (last : Str) (rest : List (Option Str)) : ∀ (body cur : List Str) (l : Str), s.a = ⟨cur, 1⟩ →
    (∀ x ∈ l :: body, AlpBody q.ws x) →
    run q other 1 s (some l) ((body.map some) ++ some last :: rest) =
      run q other 1 { s with a := ⟨cur ++ (l :: body), 1⟩ } (some last) rest := by
  intro body
  induction body generalizing s with
  | nil =>
    intro cur l hs h
    have hl := h l (by simp)
    rw [List.map_nil, List.nil_append, run, offer, offer1]
    have : alpSend q s.a (some l) = .ok ⟨cur ++ [l], 1⟩ none true := by
      simp only [alpSend]
      rw [starts_false hl.marks.1, starts_false hl.marks.2, hs]
      simp only [Bool.false_eq_true, if_false, if_pos hl.ne, if_true]
      simp
    rw [this, reply1]
  | cons l2 body ih =>
    intro cur l hs h
    have hl := h l (by simp)
    rw [List.map_cons, List.cons_append, run, offer, offer1]
    have : alpSend q s.a (some l) = .ok ⟨cur ++ [l], 1⟩ none true := by
      simp only [alpSend]
      rw [starts_false hl.marks.1, starts_false hl.marks.2, hs]
      simp only [Bool.false_eq_true, if_false, if_pos hl.ne, if_true]
      simp
    rw [this, reply1]
    simp only
    rw [ih { s with a := ⟨cur ++ [l], 1⟩ } (cur ++ [l]) l2 rfl (fun x hx => h x (by simp at hx ⊢; tauto))]
    simp

theorem close_not_open {s : Str} (h : alpClose <+: s) : ¬ alpOpen <+: s := by
  obtain ⟨r, rfl⟩ := h
  rintro ⟨r', h⟩
  have h2 := congrArg (fun s : Str => s[1]?) h
  rw [show alpOpen = '<' :: 'a' :: alpOpen.drop 2 by decide, show alpClose = '<' :: '/' :: alpClose.drop 2 by decide] at h2
  exact absurd h2 (by simp)

theorem alp_last (q : Q T) (other : Bool) (s : S T) {cur : List Str} (hs : s.a = ⟨cur, 1⟩) {last : Str} (h : alpClose <+: last)
    {t : T} {c : Option Str} (ht : q.ap (cur ++ [last]) = some (t, c)) (hc : ∀ x, c = some x → '\n' ∉ x) (l : Option Str)
    (ls : List (Option Str)) :
    run q other 1 s (some last) (l :: ls) = add [.tree t c] (run q other 0 { s with a := ⟨[], 0⟩ } l ls) := by
  rw [run, offer, offer1]
  have : alpSend q s.a (some last) = .ok ⟨[], 0⟩ (some (t, c)) true := by
    simp only [alpSend]
    rw [starts_false (close_not_open h), (starts_iff _ _).2 h, hs, ht]
    simp
  rw [this, reply1]
  simp only [emit_line other t c hc]

theorem alp_first (q : Q T) (other : Bool) (s : S T) (he : s.e.inblock = 0) {first : Str} (h : alpOpen <+: first) (hn : NotExp q.ws first)
    (l : Option Str) (ls : List (Option Str)) : ∀ k, k ≤ 1 →
    run q other k s (some first) (l :: ls) = run q other 1 { s with a := ⟨[xmlDecl, first], 1⟩ } l ls := by
  intro k hk
  have h1 : offer1 q other s (some first) = .waiting 1 { s with a := ⟨[xmlDecl, first], 1⟩ } := by
    have : alpSend q s.a (some first) = .ok ⟨[xmlDecl, first], 1⟩ none true := by
      simp only [alpSend]
      rw [(starts_iff _ _).2 h]
      simp
    rw [offer1, this, reply1]
  have h0 : offer0 q other s (some first) = .waiting 1 { s with a := ⟨[xmlDecl, first], 1⟩ } := by
    rw [offer0, expSend_decline q hn he, reply0]
    exact h1
  match k, hk with
  | 0, _ => rw [run, offer, h0]
  | 1, _ => rw [run, offer, h1]

theorem alp_decl (q : Q T) (other : Bool) (s : S T) (he : s.e.inblock = 0) (ha : s.a.inblock = 0) {d : Str}
    (h : xml <+: d.dropWhile q.ws ∧ NotExp q.ws d ∧ AlpBody q.ws d) (l : Option Str) (ls : List (Option Str)) : ∀ k, k ≤ 1 →
    run q other k s (some d) (l :: ls) = run q other 1 s l ls := by
  intro k hk
  obtain ⟨hx, hn, hb⟩ := h
  have h1 : offer1 q other s (some d) = .waiting 1 s := by
    have : alpSend q s.a (some d) = .ok s.a none true := by
      simp only [alpSend]
      rw [starts_false hb.marks.1, starts_false hb.marks.2, (starts_iff _ _).2 hx]
      simp only [Bool.false_eq_true, if_false, if_pos hb.ne, Bool.or_true]
      rw [if_neg (by omega)]
    rw [offer1, this, reply1]
  have h0 : offer0 q other s (some d) = .waiting 1 s := by
    rw [offer0, expSend_decline q hn he, reply0]
    exact h1
  match k, hk with
  | 0, _ => rw [run, offer, h0]
  | 1, _ => rw [run, offer, h1]

theorem alp_decls (q : Q T) (other : Bool) (s : S T) (he : s.e.inblock = 0) (ha : s.a.inblock = 0) {first : Str} (h : alpOpen <+: first)
    (hn : NotExp q.ws first) (l : Option Str) (ls : List (Option Str)) : ∀ (decl : List Str) (k : Nat), k ≤ 1 →
    (∀ d ∈ decl, xml <+: d.dropWhile q.ws ∧ NotExp q.ws d ∧ AlpBody q.ws d) →
    (match decl ++ [first] with
      | [] => none
      | x :: xs => run q other k s (some x) (xs.map some ++ l :: ls)) = run q other 1 { s with a := ⟨[xmlDecl, first], 1⟩ } l ls := by
  intro decl
  induction decl with
  | nil => intro k hk _; exact alp_first q other s he h hn l ls k hk
  | cons d decl ih =>
    intro k hk hd
    have := ih 1 (Nat.le_refl _) (fun x hx => hd x (by simp [hx]))
    rw [← this]
    cases decl with
    | nil => exact alp_decl q other s he ha (hd d (by simp)) _ _ k hk
    | cons d2 decl => exact alp_decl q other s he ha (hd d (by simp)) _ _ k hk

theorem send_idle (q : Q T) {l : Str} (h : Incr.Spec.Outside q.strict l) (x : Str) :
    Incr.send q.toP { Incr.St.init T with prev := x } (some l) = some { Incr.St.init T with prev := l } := by
  unfold Incr.send
  rw [if_neg (by simp [Incr.St.init])]
  simp only
  rw [Incr.next_scan0 q.toP _ l rfl rfl, Incr.scan_outside q.toP l h _ _ _ rfl]
  simp [Incr.St.init]

/-- One piece of the input. -/
theorem seg_step (q : Q T) (other : Bool) (s : S T) (hs : Idle s) (g : Seg T) (hg : g.Ok q) (l : Option Str) (ls : List (Option Str)) :
    ∃ s', Idle s' ∧ top q other s (g.lines.map some ++ l :: ls) = add (g.out q.ws other) (top q other s' (l :: ls)) := by
  obtain ⟨he, ha, x, hb⟩ := hs
  cases g with
  | exp first body last t c =>
    obtain ⟨h1, h2, h3, h4, h5⟩ := hg
    refine ⟨{ s with e := ⟨[], 0⟩ }, ⟨rfl, ha, x, hb⟩, ?_⟩
    simp only [Seg.lines, List.map_append, List.map_cons, List.map_nil, List.cons_append, List.append_assoc, List.nil_append,
      top, Seg.out]
    cases body with
    | nil =>
      rw [List.map_nil, List.nil_append, exp_first q other s he h1]
      exact exp_last q other _ rfl h3 h4 h5 l ls
    | cons b body =>
      rw [List.map_cons, List.cons_append, exp_first q other s he h1, exp_body q other _ last (l :: ls) body _ b rfl h2]
      exact exp_last q other _ rfl h3 (by simpa using h4) h5 l ls
  | alp decl first body last t c =>
    obtain ⟨h0, h1, h1', h2, h3, h4, h5⟩ := hg
    refine ⟨{ s with a := ⟨[], 0⟩ }, ⟨he, rfl, x, hb⟩, ?_⟩
    have he0 : s.e.inblock = 0 := by rw [he]
    have ha0 : s.a.inblock = 0 := by rw [ha]
    have key : ∀ (l2 : Option Str) (ls2 : List (Option Str)), top q other s ((decl ++ [first]).map some ++ l2 :: ls2) =
        run q other 1 { s with a := ⟨[xmlDecl, first], 1⟩ } l2 ls2 := by
      intro l2 ls2
      rw [← alp_decls q other s he0 ha0 h1 h1' l2 ls2 decl 0 (by omega) h0]
      cases decl <;> rfl
    have e1 : (Seg.alp decl first body last t c).lines.map some ++ l :: ls = (decl ++ [first]).map some ++ (body.map some ++ some last :: l :: ls) := by
      simp [Seg.lines]
    rw [e1]
    simp only [Seg.out]
    cases body with
    | nil =>
      rw [List.map_nil, List.nil_append, key]
      exact alp_last q other _ rfl h3 (by simpa using h4) h5 l ls
    | cons b body =>
      rw [List.map_cons, List.cons_append, key, alp_body q other _ last (l :: ls) body _ b rfl h2]
      exact alp_last q other _ rfl h3 (by simpa using h4) h5 l ls
  | head l1 =>
    refine ⟨s, ⟨he, ha, x, hb⟩, ?_⟩
    obtain ⟨h1, h2⟩ := hg
    have hne : Incr.rstrip q.ws l1 ≠ [] := by
      intro h0
      rw [h0] at h2
      rcases h2 with ⟨r, h⟩ | ⟨r, h⟩ <;> simp [pct, fmt] at h
    have : expSend q s.e (some l1) = .ok s.e none true := by
      simp only [expSend]
      rw [starts_false (h1 bos (by simp)), starts_false (h1 bot (by simp)), starts_false (h1 eos (by simp)), starts_false (h1 eot (by simp)), he]
      simp only [Bool.or_self, Bool.false_eq_true, if_false, if_pos hne]
      rcases h2 with h | h
      · rw [(starts_iff _ _).2 h]; simp
      · rw [(starts_iff _ _).2 h]; simp
    simp only [Seg.lines, List.map_cons, List.map_nil, List.cons_append, List.nil_append, top, Seg.out, add_nil]
    rw [run, offer, offer0, this, reply0]
  | text l1 =>
    obtain ⟨h1, h2⟩ := hg
    refine ⟨{ s with b := { Incr.St.init T with prev := l1 } }, ⟨he, ha, l1, rfl⟩, ?_⟩
    simp only [Seg.lines, List.map_cons, List.map_nil, List.cons_append, List.nil_append, top, Seg.out]
    rw [run, offer, offer0_plain q other h1 ⟨by rw [he], by rw [ha]⟩, offer2, hb, send_idle q h2 x]
    have : Incr.status ({ Incr.St.init T with prev := l1 } : Incr.St T) = false := by simp [Incr.status, Incr.St.init]
    simp only [this, Bool.false_eq_true, if_false, declined]

theorem segs_step (q : Q T) (other : Bool) (l : Option Str) (ls : List (Option Str)) : ∀ (gs : List (Seg T)) (s : S T), Idle s → (∀ g ∈ gs, g.Ok q) →
    ∃ s', Idle s' ∧ top q other s ((gs.flatMap Seg.lines).map some ++ l :: ls) = add (gs.flatMap (Seg.out q.ws other)) (top q other s' (l :: ls)) := by
  intro gs
  induction gs with
  | nil => intro s hs _; exact ⟨s, hs, by simp [add_nil]⟩
  | cons g gs ih =>
    intro s hs hg
    have hrest : ∃ l2 ls2, (gs.flatMap Seg.lines).map some ++ l :: ls = l2 :: ls2 := by
      cases h : (gs.flatMap Seg.lines).map some with
      | nil => exact ⟨l, ls, rfl⟩
      | cons a b => exact ⟨a, b ++ l :: ls, rfl⟩
    obtain ⟨l2, ls2, e⟩ := hrest
    obtain ⟨s1, h1, h2⟩ := seg_step q other s hs g (hg g (by simp)) l2 ls2
    obtain ⟨s2, h3, h4⟩ := ih s1 h1 (fun x hx => hg x (by simp [hx]))
    refine ⟨s2, h3, ?_⟩
    rw [List.flatMap_cons, List.map_append, List.append_assoc, e, h2, ← e, h4, add_add, List.flatMap_cons]

theorem send_prev (p : Incr.P T) (x : Str) (l : Str) : Incr.send p { Incr.St.init T with prev := x } (some l) = Incr.send p (Incr.St.init T) (some l) := by
  unfold Incr.send
  rw [if_neg (by simp [Incr.St.init]), if_neg (by simp [Incr.St.init])]
  simp only [Incr.next, Incr.St.init, ne_eq, not_true, or_self, if_false]

theorem top_prev (p : Incr.P T) (other : Bool) (x : Str) (ls : List (Option Str)) :
    Incr.top p other { Incr.St.init T with prev := x } ls = Incr.top p other (Incr.St.init T) ls := by
  cases ls with
  | nil => rfl
  | cons l ls =>
    cases l with
    | none => rfl
    | some l =>
      rw [Incr.top, Incr.top]
      cases ls with
      | nil => rw [Incr.feed, Incr.feed, send_prev]
      | cons y ys => rw [Incr.feed, Incr.feed, send_prev]

/-! ### C80 -/

/-- **C80.** For every input that consists of trees in the export format, trees in Alpino's format, headers and lines of other text, in any order,
followed by lines in bracket format (as in C64), the reader yields just these trees, in order, each with its comment, then what it yields for the
lines in bracket format alone; other text is yielded where it occurs, if asked for. This holds with and without `strict`. -/
theorem C80_mixed (q : Q T) (hq : q.ws '(' = false) (other : Bool) (gs : List (Seg T)) (hg : ∀ g ∈ gs, g.Ok q) (ls : List Str)
    (hl : ∀ l ∈ ls, Plain q.ws l) :
    reader q other (gs.flatMap Seg.lines ++ ls) =
      add (gs.flatMap (Seg.out q.ws other)) ((Incr.reader q.toP other ls).map (List.map conv)) := by
  rw [reader, List.map_append, List.append_assoc]
  have hrest : ∃ l2 ls2, ls.map some ++ [some ['('], none, none] = l2 :: ls2 := by
    cases h : ls.map some with
    | nil => exact ⟨_, _, rfl⟩
    | cons a b => exact ⟨a, b ++ _, rfl⟩
  obtain ⟨l2, ls2, e⟩ := hrest
  rw [e]
  obtain ⟨s, ⟨h1, h2, x, h3⟩, h4⟩ := segs_step q other l2 ls2 gs (S.init T) ⟨rfl, rfl, [], rfl⟩ hg
  rw [h4, ← e, top_plain q other s ⟨by rw [h1], by rw [h2]⟩, h3, top_prev, Incr.reader]
  intro l hm
  rw [List.mem_append] at hm
  rcases hm with hm | hm
  · obtain ⟨y, hy, he⟩ := List.mem_map.1 hm
    cases he
    exact hl _ hy
  · simp at hm
    subst hm
    exact plain_open q.ws hq

/-- **C80**, without lines in bracket format: exactly the trees and the text. -/
theorem C80_blocks (q : Q T) (hq : q.ws '(' = false) (other : Bool) (gs : List (Seg T)) (hg : ∀ g ∈ gs, g.Ok q) :
    reader q other (gs.flatMap Seg.lines) = some (gs.flatMap (Seg.out q.ws other)) := by
  have h := C80_mixed q hq other gs hg [] (by simp)
  rw [List.append_nil] at h
  have e : Incr.reader q.toP other [] = some [] := by
    have hsend : ∃ s', Incr.send q.toP (Incr.St.init T) (some ['(']) = some s' ∧ s'.parens = 1 ∧ s'.results = [] ∧ s'.result = [] ∧ s'.ended = false := by
      unfold Incr.send
      rw [if_neg (by simp [Incr.St.init])]
      simp only
      rw [Incr.next_scan0 q.toP _ _ rfl rfl, Incr.scan, if_pos rfl]
      unfold Incr.leftS
      rw [if_pos ⟨rfl, by simp [Incr.aheadS]⟩, if_neg (by simp [Incr.St.init])]
      simp only [Incr.scan]
      exact ⟨_, rfl, by simp [Incr.St.init], rfl, rfl, rfl⟩
    obtain ⟨s', e1, e2, e3, e4, e5⟩ := hsend
    rw [Incr.reader, List.map_nil, List.nil_append, Incr.top, Incr.end_open e1 (by omega) e3 e4 e5]
  rw [h, e]
  simp [add]


/-! ### Trees written in the export format -/

open Export (Lab Entry writeCorpus fileLines treeLines bosLine eosLine joinTab RowOk)

/-- The items of a treebank in the export format are trees with their sentences. -/
abbrev XTree := PTree Lab × List Str

theorem rstrip_nl {ws : Char → Bool} (h : ws '\n' = true) (l : Str) : Incr.rstrip ws (l ++ ['\n']) = Incr.rstrip ws l := by
  simp [Incr.rstrip, h]

theorem exportItem_tree {ws : Char → Bool} (hw : Export.Spec.White ws) {key : Str} (hk : Export.Spec.Field ws key) {comment : Option Str}
    (hc : ∀ c, comment = some c → Export.Spec.CommentOk ws c) {rows : List (List Str)} (hr : ∀ row ∈ rows, RowOk ws row) :
    exportItem ws (treeLines key comment rows) = (Export.readRows .no rows).map fun x => (x, comment) := by
  obtain ⟨-, -, -, -, b3⟩ := Export.bos_line hw hk hc
  rw [treeLines, exportItem, List.dropLast_concat, b3]
  have : Export.mapO (Export.exportsplit ws) (rows.map joinTab) = some rows := by
    rw [Export.mapO_map]
    have := Export.mapO_some (f := fun a => Export.exportsplit ws (joinTab a)) (g := fun a => a) (l := rows)
      fun a ha => Export.C14_line hw a (hr a ha).1 (hr a ha).2.1 (hr a ha).2.2
    simpa using this
  rw [this]

/-- A written tree, each line with its line ending, is a piece of input. -/
theorem entry_seg (q : Q XTree) (hw : Export.Spec.White q.ws) (hep : q.ep = exportItem q.ws) {key : Str} (hk : Export.Spec.Field q.ws key)
    {comment : Option Str} (hc : ∀ c, comment = some c → Export.Spec.CommentOk q.ws c) {rows : List (List Str)} (hr : ∀ row ∈ rows, RowOk q.ws row)
    {x : XTree} (hx : Export.readRows .no rows = some x) :
    ∃ g : Seg XTree, g.Ok q ∧ g.lines = (treeLines key comment rows).map (· ++ ['\n']) ∧ ∀ other, g.out q.ws other = [.tree x comment] := by
  obtain ⟨b1, -⟩ := Export.bos_line hw hk hc
  obtain ⟨e1, -⟩ := Export.eos_line hw hk
  have b2 : Incr.rstrip q.ws (bosLine key comment ++ ['\n']) = bosLine key comment := (rstrip_nl hw.newline _).trans b1
  have e2 : Incr.rstrip q.ws (eosLine key ++ ['\n']) = eosLine key := (rstrip_nl hw.newline _).trans e1
  refine ⟨.exp (bosLine key comment ++ ['\n']) ((rows.map joinTab).map (· ++ ['\n'])) (eosLine key ++ ['\n']) x comment, ⟨?_, ?_, ?_, ?_, ?_⟩, ?_, ?_⟩
  · rw [b2]; exact ⟨key ++ _, by simp only [bosLine, bos, List.append_assoc]; rfl⟩
  · intro l hl
    obtain ⟨l', hl', rfl⟩ := List.mem_map.1 hl
    obtain ⟨row, hrow, rfl⟩ := List.mem_map.1 hl'
    obtain ⟨r1, -, -, r2⟩ := Export.row_line hw (hr row hrow)
    have r3 : Incr.rstrip q.ws (joinTab row ++ ['\n']) = joinTab row := (rstrip_nl hw.newline _).trans r1
    constructor
    · intro m hm hp
      rw [r3] at hp
      refine r2 (hp.subset ?_)
      simp only [List.mem_cons, List.not_mem_nil, or_false] at hm
      rcases hm with rfl | rfl | rfl | rfl <;> decide
    · rw [r3]
      intro h0
      have hne : row ≠ [] := by rintro rfl; have := (hr [] hrow).2.1; simp at this
      obtain ⟨c, hcm, -⟩ := Export.getLast?_joinTab hne (hr row hrow).1
      rw [h0] at hcm; simp at hcm
  · rw [e2]; exact ⟨key, rfl⟩
  · rw [hep, b2, e2]
    have : ((rows.map joinTab).map (· ++ ['\n'])).map (Incr.rstrip q.ws) = rows.map joinTab := by
      rw [List.map_map, List.map_map, List.map_map.symm]
      rw [List.map_map]
      refine List.map_congr_left fun row hrow => ?_
      obtain ⟨r1, -⟩ := Export.row_line hw (hr row hrow)
      exact (rstrip_nl hw.newline _).trans r1
    rw [this]
    have := exportItem_tree hw hk hc hr
    rw [treeLines, hx] at this
    simpa using this
  · intro c h; exact (hc c h).noNl
  · simp [Seg.lines, treeLines]
  · intro other; rfl

/-- **C80** for trees in the export format. For all trees that can be written in this format (as in C14, but the keys need not be distinct): when the
file to which they have been written is given to the reader, line by line, it yields just these trees, in order, each with its sentence and comment;
constituents, labels, attributes are the same, up to the order of sisters. -/
theorem C80_export {pyInt : Str → Option Int} (q : Q XTree) (hw : Export.Spec.White q.ws) (hep : q.ep = exportItem q.ws) (other : Bool)
    (es : List Entry) (h : ∀ e ∈ es, Export.Spec.EntryOk q.ws pyInt e) :
    ∃ text items, writeCorpus pyInt .no es = some text ∧
      reader q other ((fileLines false text).map (· ++ ['\n'])) = some (items.map fun x => .tree x.1 x.2) ∧
      List.Forall₂ (fun e (x : XTree × Option Str) => x.1.2 = e.sent ∧ x.2 = e.comment ∧
        Canon.Spec.SameUpToOrder (Export.Spec.view (Export.Spec.withRoot e.tree.children)) (Export.Spec.view x.1.1)) es items := by
  obtain ⟨R, hes, hR⟩ : ∃ R : List (Entry × List (List Str) × PTree Lab), R.map (·.1) = es ∧ ∀ x ∈ R,
      Export.writeRows pyInt .no x.1.tree x.1.sent = some x.2.1 ∧ (∀ row ∈ x.2.1, RowOk q.ws row) ∧
      Export.readRows .no x.2.1 = some (x.2.2, x.1.sent) ∧
      Canon.Spec.SameUpToOrder (Export.Spec.view (Export.Spec.withRoot x.1.tree.children)) (Export.Spec.view x.2.2) := by
    induction es with
    | nil => exact ⟨[], rfl, by simp⟩
    | cons e es ih =>
      obtain ⟨R, h1, h2⟩ := ih fun e he => h e (by simp [he])
      have h3 : ∃ rows u, Export.writeRows pyInt .no e.tree e.sent = some rows ∧ (∀ row ∈ rows, RowOk q.ws row) ∧
          Export.readRows .no rows = some (u, e.sent) ∧
          Canon.Spec.SameUpToOrder (Export.Spec.view (Export.Spec.withRoot e.tree.children)) (Export.Spec.view u) := by
        have he := h e (by simp)
        obtain ⟨key, t, sent, comment⟩ := e
        cases t with
        | leaf i => exact absurd he.root (by simp [PTree.isNode])
        | node l cs =>
          have hW : Export.Spec.Writable q.ws pyInt cs sent := he.tree
          obtain ⟨ids, -, k2, -⟩ := Export.roundtrip .no l hW he.few
          obtain ⟨rows, u, a1, a2, a3⟩ := Export.C14_tree l hW he.few
          have e1 : rows = Export.rowsF pyInt .no ids sent (Export.itemsL none 0 cs) := by rw [a1] at k2; exact Option.some.inj k2
          exact ⟨rows, u, a1, by rw [e1]; exact Export.rows_ok hw hW ids, a2, a3⟩
      obtain ⟨rows, u, h3⟩ := h3
      exact ⟨(e, rows, u) :: R, by simp [h1], by
        intro x hx
        rcases List.mem_cons.1 hx with rfl | hx
        · exact h3
        · exact h2 x hx⟩
  subst hes
  have hO : ∀ x ∈ R, Export.Spec.Field q.ws x.1.key ∧ ∀ c, x.1.comment = some c → Export.Spec.CommentOk q.ws c := fun x hx => by
    have ho := h x.1 (List.mem_map.2 ⟨x, hx, rfl⟩)
    exact ⟨ho.key, ho.comment⟩
  refine ⟨(R.map fun x => Export.unlines (treeLines x.1.key x.1.comment x.2.1)).flatten,
    R.map fun x => ((x.2.2, x.1.sent), x.1.comment), ?_, ?_, ?_⟩
  · rw [writeCorpus, Export.mapO_map, Export.mapO_some (g := fun x => Export.unlines (treeLines x.1.key x.1.comment x.2.1)) fun x hx => ?_]
    · rfl
    · rw [Export.writeexporttree, (hR x hx).1]; rfl
  · have hlines := Export.fileLines_all hw (R.map fun x => (x.1.key, x.1.comment, x.2.1)) (fun e he => by
      obtain ⟨x, hx, rfl⟩ := List.mem_map.1 he
      exact ⟨(hO x hx).1, (hO x hx).2, (hR x hx).2.1⟩)
    rw [List.flatMap_map, List.flatMap_map, List.flatMap_def] at hlines
    rw [hlines]
    have hseg : ∃ gs : List (Seg XTree), (∀ g ∈ gs, g.Ok q) ∧
        gs.flatMap Seg.lines = (R.flatMap fun x => treeLines x.1.key x.1.comment x.2.1).map (· ++ ['\n']) ∧
        gs.flatMap (Seg.out q.ws other) = R.map fun x => .tree (x.2.2, x.1.sent) x.1.comment := by
      clear hlines h
      induction R with
      | nil => exact ⟨[], by simp, rfl, rfl⟩
      | cons x R ih =>
        obtain ⟨gs, g1, g2, g3⟩ := ih (fun y hy => hR y (by simp [hy])) (fun y hy => hO y (by simp [hy]))
        obtain ⟨g, k1, k2, k3⟩ := entry_seg q hw hep (hO x (by simp)).1 (hO x (by simp)).2 (hR x (by simp)).2.1 (hR x (by simp)).2.2.1
        refine ⟨g :: gs, ?_, ?_, ?_⟩
        · intro y hy
          rcases List.mem_cons.1 hy with rfl | hy
          · exact k1
          · exact g1 y hy
        · rw [List.flatMap_cons, List.flatMap_cons, List.map_append, g2, k2]
        · rw [List.flatMap_cons, List.map_cons, g3, k3]; rfl
    obtain ⟨gs, g1, g2, g3⟩ := hseg
    rw [← g2, C80_blocks q (hw.visible _ (by decide) (by decide)) other gs g1, g3, List.map_map]
    rfl
  · rw [List.forall₂_map_left_iff, List.forall₂_map_right_iff]
    exact List.forall₂_same.2 fun x hx => ⟨rfl, rfl, (hR x hx).2.2.2⟩

/-! ### Disagreements -/

/-- The end of the input within a block: the bracket that is added at the end is taken as part of the block. -/
theorem exp_end (q : Q T) (other : Bool) (hq : q.ws '(' = false) (s : S T) {cur : List Str} (hs : s.e = ⟨cur, 1⟩) :
    run q other 0 s (some ['(']) [none, none] = some [] := by
  have hb : ExpBody q.ws ['('] := ⟨(plain_open q.ws hq).marks, by simp [Incr.rstrip, hq]⟩
  have : expSend q s.e (some ['(']) = .ok ⟨cur ++ [Incr.rstrip q.ws ['(']], 1⟩ none true := by
    simp only [expSend]
    rw [starts_false (hb.marks bos (by simp)), starts_false (hb.marks bot (by simp)), starts_false (hb.marks eos (by simp)),
      starts_false (hb.marks eot (by simp)), hs]
    simp [hb.ne]
  rw [run, offer, offer0, this, reply0]
  exact run_none q other _ _

/-- **C80**, disagreement: for every input that ends within a tree in the export format (no `#EOS` line after the last `#BOS` line), this tree is left
out, and no exception is raised; not even with `strict`. -/
theorem C80_unclosed_disagreement (q : Q T) (hq : q.ws '(' = false) (other : Bool) (gs : List (Seg T)) (hg : ∀ g ∈ gs, g.Ok q) (first : Str)
    (h1 : bos <+: Incr.rstrip q.ws first) (body : List Str) (h2 : ∀ l ∈ body, ExpBody q.ws l) :
    reader q other (gs.flatMap Seg.lines ++ first :: body) = some (gs.flatMap (Seg.out q.ws other)) := by
  rw [reader, List.map_append, List.append_assoc, List.map_cons, List.cons_append]
  obtain ⟨s, ⟨k1, k2, x, k3⟩, k4⟩ := segs_step q other (some first) (body.map some ++ [some ['('], none, none]) gs (S.init T) ⟨rfl, rfl, [], rfl⟩ hg
  rw [k4, top]
  have : run q other 0 s (some first) (body.map some ++ [some ['('], none, none]) = some [] := by
    cases body with
    | nil =>
      rw [List.map_nil, List.nil_append, exp_first q other s k1 h1]
      exact exp_end q other hq _ rfl
    | cons b body =>
      rw [List.map_cons, List.cons_append, exp_first q other s k1 h1, exp_body q other _ ['('] [none, none] body _ b rfl h2]
      exact exp_end q other hq _ rfl
  rw [this]
  simp [add]

theorem bot_ne {s : Str} (h : bot <+: s) : ¬ bos <+: s := by
  obtain ⟨r, rfl⟩ := h
  rintro ⟨r', h⟩; simp [bos, bot] at h

theorem eot_ne {s : Str} (h : eot <+: s) : ¬ bos <+: s ∧ ¬ bot <+: s := by
  obtain ⟨r, rfl⟩ := h
  refine ⟨?_, ?_⟩ <;> (rintro ⟨r', h⟩; simp [bos, eot, bot] at h)

/-- The lines of a table are skipped. -/
theorem table_body (q : Q T) (other : Bool) (s : S T) {cur : List Str} (hs : s.e = ⟨cur, 2⟩) (l : Option Str) (ls : List (Option Str)) :
    ∀ (body : List Str), (∀ x ∈ body, ExpBody q.ws x) →
    (match body.map some ++ l :: ls with
      | [] => none
      | x :: xs => run q other 0 s x xs) = run q other 0 s l ls := by
  intro body
  induction body with
  | nil => intro _; rfl
  | cons b body ih =>
    intro h
    have hl := h b (by simp)
    rw [← ih (fun x hx => h x (by simp [hx]))]
    have : expSend q s.e (some b) = .ok s.e none true := by
      simp only [expSend]
      rw [starts_false (hl.marks bos (by simp)), starts_false (hl.marks bot (by simp)), starts_false (hl.marks eos (by simp)),
        starts_false (hl.marks eot (by simp)), hs]
      simp [hl.ne]
    cases body with
    | nil => simp only [List.map_cons, List.map_nil, List.nil_append, List.cons_append]; rw [run, offer, offer0, this, reply0]
    | cons b2 body => simp only [List.map_cons, List.cons_append]; rw [run, offer, offer0, this, reply0]

/-- **C80**, disagreement: the tables at the start of a file in the export format (lines from `#BOT ...` to `#EOT ...`, which are not trees) are not
skipped: for every such table, a tree with root `ROOT`, no constituents, and an empty sentence is yielded. This holds with and without `strict`. -/
theorem C80_table_disagreement (q : Q XTree) (hq : q.ws '(' = false) (hep : q.ep = exportItem q.ws) (other : Bool) (gs : List (Seg XTree))
    (hg : ∀ g ∈ gs, g.Ok q) (first : Str) (h1 : bot <+: Incr.rstrip q.ws first) (hc : ¬ ['%', '%'] <:+: Incr.rstrip q.ws first)
    (body : List Str) (h2 : ∀ l ∈ body, ExpBody q.ws l) (last : Str) (h3 : eot <+: Incr.rstrip q.ws last) :
    reader q other (first :: body ++ last :: gs.flatMap Seg.lines) =
      some (.tree (.node ⟨['R', 'O', 'O', 'T'], none⟩ [], []) none :: gs.flatMap (Seg.out q.ws other)) := by
  rw [reader, List.map_append, List.map_cons, List.map_cons, List.append_assoc, List.cons_append, List.cons_append, top]
  generalize hr : (gs.flatMap Seg.lines).map some ++ [some ['('], none, none] = rest
  have hne : ∃ l2 ls2, rest = l2 :: ls2 := by
    rw [← hr]
    cases h : (gs.flatMap Seg.lines).map some with
    | nil => exact ⟨_, _, rfl⟩
    | cons a b => exact ⟨a, b ++ _, rfl⟩
  obtain ⟨l2, ls2, e⟩ := hne
  have hfirst : expSend q (S.init XTree).e (some first) = .ok ⟨[Incr.rstrip q.ws first], 2⟩ none true := by
    simp only [expSend]
    rw [(starts_iff _ _).2 h1, starts_false (bot_ne h1)]
    simp [S.init]
  have hlast : expSend q ⟨[Incr.rstrip q.ws first], 2⟩ (some last) = .ok ⟨[], 0⟩ (some ((.node ⟨['R', 'O', 'O', 'T'], none⟩ [], []), none)) true := by
    simp only [expSend]
    rw [starts_false (eot_ne h3).1, starts_false (eot_ne h3).2, (starts_iff _ _).2 h3, hep]
    have : exportItem q.ws ([Incr.rstrip q.ws first] ++ [Incr.rstrip q.ws last]) = some ((.node ⟨['R', 'O', 'O', 'T'], none⟩ [], []), none) := by
      simp only [exportItem, List.cons_append, List.nil_append, List.dropLast_singleton, Export.mapO, Export.commentOf, (Str.find_eq_none_iff _ _).2 hc]
      rfl
    rw [this]
    simp
  have step1 : run q other 0 (S.init XTree) (some first) (body.map some ++ some last :: rest) =
      run q other 0 { S.init XTree with e := ⟨[Incr.rstrip q.ws first], 2⟩ } (some last) rest := by
    rw [← table_body q other { S.init XTree with e := ⟨[Incr.rstrip q.ws first], 2⟩ } rfl (some last) rest body h2]
    cases body with
    | nil => simp only [List.map_nil, List.nil_append]; rw [run, offer, offer0, hfirst, reply0]
    | cons b body => simp only [List.map_cons, List.cons_append]; rw [run, offer, offer0, hfirst, reply0]
  rw [step1, e, run, offer, offer0]
  simp only [hlast, reply0, emit]
  have h4 := C80_blocks q hq other gs hg
  rw [reader, hr, e, top] at h4
  have : ({ e := ⟨[], 0⟩, a := (S.init XTree).a, b := (S.init XTree).b } : S XTree) = S.init XTree := rfl
  rw [this, h4]
  rfl

/-- `#BOS` within a block: an exception, or the block is started anew. -/
theorem exp_again (q : Q T) (other : Bool) (s s' : S T) {cur : List Str} (hs : s = { s' with e := ⟨cur, 1⟩ }) (hs' : s'.e = ⟨[], 0⟩) {first : Str}
    (h : bos <+: Incr.rstrip q.ws first) (l : Option Str) (ls : List (Option Str)) :
    run q other 0 s (some first) (l :: ls) = if q.strict then none else run q other 0 s' (some first) (l :: ls) := by
  rw [exp_first q other s' hs' h, run, offer, offer0]
  subst hs
  cases hst : q.strict with
  | true =>
    have : expSend q ⟨cur, 1⟩ (some first) = .error := by
      simp only [expSend]
      rw [(starts_iff _ _).2 h, hst]
      simp
    simp only [this, reply0, if_true]
  | false =>
    have : expSend q ⟨cur, 1⟩ (some first) = .ok ⟨[Incr.rstrip q.ws first], 1⟩ none true := by
      simp only [expSend]
      rw [(starts_iff _ _).2 h, hst]
      simp
    simp only [this, reply0, Bool.false_eq_true, if_false]

/-- **C80** for malformed input: when a tree in the export format has not been ended and another one starts, an exception is raised with `strict`;
without `strict`, the first tree is left out and all others are yielded. -/
theorem C80_reopened (q : Q T) (hq : q.ws '(' = false) (other : Bool) (gs : List (Seg T)) (hg : ∀ g ∈ gs, g.Ok q) (first : Str)
    (h1 : bos <+: Incr.rstrip q.ws first) (body : List Str) (h2 : ∀ l ∈ body, ExpBody q.ws l) (first2 : Str) (body2 : List Str) (last2 : Str) (t : T)
    (c : Option Str) (hg2 : (Seg.exp first2 body2 last2 t c).Ok q) (gs2 : List (Seg T)) (hgs2 : ∀ g ∈ gs2, g.Ok q) :
    reader q other (gs.flatMap Seg.lines ++ first :: body ++ (Seg.exp first2 body2 last2 t c :: gs2).flatMap Seg.lines) =
      if q.strict then none
      else some (gs.flatMap (Seg.out q.ws other) ++ .tree t c :: gs2.flatMap (Seg.out q.ws other)) := by
  have e0 : ∀ tail : List (Option Str), ∃ l ls, ((Seg.exp first2 body2 last2 t c :: gs2).flatMap Seg.lines).map some ++ tail = some first2 :: l :: ls := by
    intro tail
    rw [List.flatMap_cons]
    simp only [Seg.lines]
    cases body2 with
    | nil => exact ⟨_, _, rfl⟩
    | cons b r => exact ⟨_, _, rfl⟩
  obtain ⟨l, ls, e1⟩ := e0 [some ['('], none, none]
  rw [reader, List.map_append, List.append_assoc, e1, List.map_append, List.append_assoc, List.map_cons, List.cons_append]
  obtain ⟨s, hidle, k4⟩ := segs_step q other (some first) (body.map some ++ some first2 :: l :: ls) gs (S.init T) ⟨rfl, rfl, [], rfl⟩ hg
  have ⟨k1, k2, x, k3⟩ := hidle
  rw [k4, top]
  have hrun : run q other 0 s (some first) (body.map some ++ some first2 :: l :: ls) =
      if q.strict then none else run q other 0 s (some first2) (l :: ls) := by
    cases body with
    | nil =>
      rw [List.map_nil, List.nil_append, exp_first q other s k1 h1]
      exact exp_again q other _ s rfl k1 hg2.1 l ls
    | cons b body =>
      rw [List.map_cons, List.cons_append, exp_first q other s k1 h1, exp_body q other _ first2 (l :: ls) body _ b rfl h2]
      exact exp_again q other _ s rfl k1 hg2.1 l ls
  rw [hrun]
  cases q.strict with
  | true => rfl
  | false =>
    simp only [Bool.false_eq_true, if_false]
    obtain ⟨s3, ⟨n1, n2, x3, n3⟩, n4⟩ := segs_step q other (some ['(']) [none, none] (Seg.exp first2 body2 last2 t c :: gs2) s hidle (by
      intro g hm
      rcases List.mem_cons.1 hm with rfl | hm
      · exact hg2
      · exact hgs2 g hm)
    rw [e1, top] at n4
    rw [n4]
    have := C80_blocks q hq other [] (by simp)
    have hend : top q other s3 [some ['('], none, none] = some [] := by
      have h5 : ∀ y, top q other (⟨⟨[], 0⟩, ⟨[], 0⟩, { Incr.St.init T with prev := y }⟩ : S T) [some ['('], none, none] = some [] := by
        intro y
        have hp : ∀ l, some l ∈ ([some ['('], none, none] : List (Option Str)) → Plain q.ws l := by
          intro l hl
          simp at hl
          subst hl
          exact plain_open q.ws hq
        rw [top_plain q other _ ⟨rfl, rfl⟩ _ hp]
        simp only
        rw [top_prev]
        have h6 : reader q other [] = some [] := this
        rw [reader, List.map_nil, List.nil_append, top_plain q other (S.init T) ⟨rfl, rfl⟩ _ hp] at h6
        exact h6
      have : s3 = ⟨⟨[], 0⟩, ⟨[], 0⟩, { Incr.St.init T with prev := x3 }⟩ := by
        cases s3; simp only at n1 n2 n3; rw [n1, n2, n3]
      rw [this]; exact h5 x3
    rw [hend]
    simp [add, Seg.out]

/-! ### Witnesses -/

/-- Parameters of the examples: trees are strings; a block is read as the text of its lines. -/
def exQ (strict : Bool) : Q Str := ⟨Incr.exP strict true, fun b => some (b.flatten, none), fun b => some ((b.drop 1).flatten, some "c".toList)⟩

/-- A header, other text, a tree in the export format, a tree in Alpino's format. -/
def exSegs : List (Seg Str) :=
  [.head "%% header\n".toList, .text "title\n".toList,
   .exp "#BOS 1\n".toList ["w (\n".toList, " x\n".toList] "#EOS 1\n".toList "#BOS 1w ( x#EOS 1".toList none,
   .alp ["<?xml?>\n".toList] "<alpino_ds>\n".toList ["(\n".toList] "</alpino_ds>\n".toList "<alpino_ds>\n(\n</alpino_ds>\n".toList (some "c".toList),
   .text "\n".toList]

theorem exSegs_ok : ∀ g ∈ exSegs, g.Ok (exQ true) := by
  intro g hg
  simp only [exSegs, List.mem_cons, List.not_mem_nil, or_false] at hg
  rcases hg with rfl | rfl | rfl | rfl | rfl
  · exact ⟨by decide +kernel, by decide +kernel⟩
  · exact ⟨⟨by decide +kernel, by decide +kernel, by decide +kernel, by decide +kernel⟩, ⟨by decide, by decide⟩⟩
  · refine ⟨by decide +kernel, fun l hl => ?_, by decide +kernel, by decide +kernel, by simp⟩
    simp only [List.mem_cons, List.not_mem_nil, or_false] at hl
    rcases hl with rfl | rfl <;> exact ⟨by decide +kernel, by decide +kernel⟩
  · refine ⟨fun l hl => ?_, by decide +kernel, ⟨by decide +kernel, by decide +kernel⟩, fun l hl => ?_, by decide +kernel, by decide +kernel, ?_⟩
    · rw [List.mem_singleton.1 hl]
      exact ⟨by decide +kernel, ⟨by decide +kernel, by decide +kernel⟩, by decide +kernel, by decide +kernel⟩
    · rw [List.mem_singleton.1 hl]
      exact ⟨by decide +kernel, by decide +kernel⟩
    · intro x hx; cases hx; decide
  · exact ⟨⟨by decide +kernel, by decide +kernel, by decide +kernel, by decide +kernel⟩, ⟨by decide, by decide⟩⟩

-- The hypotheses of `C80_mixed` hold: three formats in one input, with a bracket within a tree in the export format.
example : reader (exQ true) true (exSegs.flatMap Seg.lines ++ ["(S (A b)) x\n".toList]) =
    some [.text "title".toList, .tree "#BOS 1w ( x#EOS 1".toList none, .tree "<alpino_ds>\n(\n</alpino_ds>\n".toList (some "c".toList),
      .text [], .tree "(S (A b))".toList (some " x".toList)] := by
  rw [C80_mixed (exQ true) (by decide) true exSegs exSegs_ok _ (by
    intro l hl
    rw [List.mem_singleton.1 hl]
    exact ⟨by decide +kernel, by decide +kernel, by decide +kernel, by decide +kernel⟩)]
  decide +kernel

example : reader (exQ true) false (exSegs.flatMap Seg.lines) =
    some [.tree "#BOS 1w ( x#EOS 1".toList none, .tree "<alpino_ds>\n(\n</alpino_ds>\n".toList (some "c".toList)] := by
  rw [C80_blocks (exQ true) (by decide) false exSegs exSegs_ok]
  decide +kernel

-- The hypotheses of `C80_unclosed_disagreement` hold: the second tree is lost, with `strict`.
example : reader (exQ true) true ["#BOS 1".toList, "w".toList, "#EOS 1".toList, "#BOS 2".toList, "v".toList] = some [.tree "#BOS 1w#EOS 1".toList none] :=
  C80_unclosed_disagreement (exQ true) (by decide) true [.exp "#BOS 1".toList ["w".toList] "#EOS 1".toList "#BOS 1w#EOS 1".toList none]
    (by
      intro g hg
      rw [List.mem_singleton.1 hg]
      refine ⟨by decide +kernel, fun l hl => ?_, by decide +kernel, by decide +kernel, by simp⟩
      rw [List.mem_singleton.1 hl]
      exact ⟨by decide +kernel, by decide +kernel⟩)
    "#BOS 2".toList (by decide +kernel) ["v".toList] (by
      intro l hl
      rw [List.mem_singleton.1 hl]
      exact ⟨by decide +kernel, by decide +kernel⟩)

-- The hypotheses of `C80_reopened` hold; the first tree is lost without `strict`.
example (strict : Bool) : reader (exQ strict) false ["#BOS 1".toList, "w".toList, "#BOS 2".toList, "v".toList, "#EOS 2".toList] =
    if strict then none else some [.tree "#BOS 2v#EOS 2".toList none] :=
  C80_reopened (exQ strict) (by cases strict <;> decide) false [] (by simp) "#BOS 1".toList (by cases strict <;> decide +kernel) ["w".toList] (by
      intro l hl
      rw [List.mem_singleton.1 hl]
      exact ⟨by cases strict <;> decide +kernel, by cases strict <;> decide +kernel⟩) "#BOS 2".toList ["v".toList] "#EOS 2".toList _ none (by
      refine ⟨by cases strict <;> decide +kernel, fun l hl => ?_, by cases strict <;> decide +kernel, by cases strict <;> decide +kernel, by simp⟩
      rw [List.mem_singleton.1 hl]
      exact ⟨by cases strict <;> decide +kernel, by cases strict <;> decide +kernel⟩) [] (by simp)

/-- Parameters with the reader of C14. -/
def exX : Q XTree := ⟨⟨true, true, Export.exWs, fun _ => none⟩, exportItem Export.exWs, fun _ => none⟩

-- The hypotheses of `C80_export` hold for the discontinuous tree of C14, written twice with the same key.
example : ∃ (text : Str) (items : List (XTree × Option Str)), writeCorpus Export.exInt .no (List.replicate 2 ⟨"1".toList, .node ⟨"ROOT".toList, none⟩ Export.exKids, Export.exSent, none⟩) = some text ∧
    reader exX false ((fileLines false text).map (· ++ ['\n'])) = some (items.map fun x => .tree x.1 x.2) ∧ items.length = 2 := by
  obtain ⟨text, items, h1, h2, h3⟩ := C80_export (pyInt := Export.exInt) exX Export.exWs_white rfl false
    (List.replicate 2 ⟨"1".toList, .node ⟨"ROOT".toList, none⟩ Export.exKids, Export.exSent, none⟩) (by
      intro e he
      obtain rfl := List.eq_of_mem_replicate he
      exact ⟨rfl, Export.exWritable, by decide +kernel, Export.exNoEmpty, Export.field_of_bool (by decide +kernel), by simp⟩)
  exact ⟨text, items, h1, h2, by rw [← h3.length_eq]; rfl⟩

-- The hypotheses of `C80_table_disagreement` hold for a table as in the Negra treebank.
example : reader exX false ["#BOT ORIGIN\n".toList, "0\trspc\n".toList, "#EOT ORIGIN\n".toList] =
    some [.tree (.node ⟨['R', 'O', 'O', 'T'], none⟩ [], []) none] :=
  C80_table_disagreement exX (by decide) rfl false [] (by simp) "#BOT ORIGIN\n".toList (by decide +kernel)
    (by rw [← Str.find_eq_none_iff]; decide +kernel) ["0\trspc\n".toList] (by
      intro l hl
      rw [List.mem_singleton.1 hl]
      exact ⟨by decide +kernel, by decide +kernel⟩) "#EOT ORIGIN\n".toList (by decide +kernel)

/-- **C80**, disagreement: the order of the formats matters. After a tree in bracket format, a tree in the export format on the following lines is not
recognized: its lines are taken as text that follows the bracketed tree. In the opposite order, both are recognized. -/
theorem C80_brackets_first_disagreement :
    reader (exQ false) false ["(S (A b))\n".toList, "#BOS 1\n".toList, "w\n".toList, "#EOS 1\n".toList] =
      some [.tree "(S (A b))".toList (some "\n#BOS 1\nw\n#EOS 1".toList)] ∧
    reader (exQ false) false ["#BOS 1\n".toList, "w\n".toList, "#EOS 1\n".toList, "(S (A b))\n".toList] =
      some [.tree "#BOS 1w#EOS 1".toList none, .tree "(S (A b))".toList (some [])] := by decide +kernel
end Disco.Mixed
