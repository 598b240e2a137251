/-!
# Model of `discodop/bit.pyx`, `discodop/bit.pxd`, `discodop/macros.h`, and the bit helpers of
`treetransforms.py`, `tree.py`, `eval.py`

`uint64_t` is `BitVec 64`; Python integers are `Nat` (bit sets are never negative).  The result `-1`
is modelled by `none`.  An array of `slots` words is a list of words of that length.
-/
namespace Disco.Bits

abbrev Word := BitVec 64

/-- `bit_ctz` (bitcount.h:55-66, `__builtin_ctzl`): index of the lowest set bit; undefined for 0 in C
(here 64, callers only use it on nonzero words). -/
def ctz (x : Word) : Nat := ((List.range 64).find? (x.getLsbD ·)).getD 64

/-- `bit_clz` (bitcount.h:41-52, `__builtin_clzl`): number of leading zeros. -/
def clz (x : Word) : Nat := ((List.range 64).find? fun i => x.getLsbD (63 - i)).getD 64

/-- `bit_popcount` (bitcount.h:69-77). -/
def popcount (x : Word) : Nat := (List.range 64).countP (x.getLsbD ·)

/-- `nextset` (bit.pxd:78-84). `pos < 64`. -/
def nextset (vec : Word) (pos : Nat) : Option Nat :=
  if vec >>> pos ≠ 0 then some (pos + ctz (vec >>> pos)) else none

/-- `nextunset` (bit.pxd:93-102). `pos < 64`. -/
def nextunset (vec : Word) (pos : Nat) : Nat :=
  let x := ~~~vec &&& (BitVec.allOnes 64 <<< pos)
  if x ≠ 0 then ctz x else 64

/-- `bitlength` (bit.pxd:105-112). -/
def bitlength (vec : Word) : Nat := if vec ≠ 0 then 64 - clz vec else 0

/-- `abitcount` (bit.pxd:115-121). -/
def abitcount : List Word → Nat
  | [] => 0
  | w :: ws => popcount w + abitcount ws

/-- `abitlength` (bit.pxd:124-133): scan from the last slot downwards. The argument is the number of
slots still to be inspected. -/
def abitlength (vec : List Word) : Nat → Nat
  | 0 => 0
  | a + 1 =>
    let w := vec.getD a 0
    if w ≠ 0 then (a + 1) * 64 - clz w else abitlength vec a

/-- The `while x == 0UL` loop of `anextset` (bit.pxd:143-147); `rest` are the slots after `a`. -/
def anextsetLoop (x : Word) (a : Nat) : List Word → Option Nat
  | [] => if x = 0 then none else some (a * 64 + ctz x)
  | w :: rest => if x = 0 then anextsetLoop w (a + 1) rest else some (a * 64 + ctz x)

/-- `anextset` (bit.pxd:136-148). -/
def anextset (vec : List Word) (pos : Nat) : Option Nat :=
  let a := pos / 64
  if a ≥ vec.length then none
  else anextsetLoop (vec.getD a 0 &&& (BitVec.allOnes 64 <<< (pos % 64))) a (vec.drop (a + 1))

/-- The `while x == ~0UL` loop of `anextunset` (bit.pxd:158-162). -/
def anextunsetLoop (x : Word) (a : Nat) : List Word → Nat
  | [] => if x = BitVec.allOnes 64 then (a + 1) * 64 else a * 64 + ctz (~~~x)
  | w :: rest => if x = BitVec.allOnes 64 then anextunsetLoop w (a + 1) rest
      else a * 64 + ctz (~~~x)

/-- `anextunset` (bit.pxd:151-163); `BITMASK(pos) - 1` (macros.h:4) is `(1 << pos % 64) - 1`. -/
def anextunset (vec : List Word) (pos : Nat) : Nat :=
  let a := pos / 64
  if a ≥ vec.length then a * 64
  else anextunsetLoop (vec.getD a 0 ||| ((1#64 <<< (pos % 64)) - 1)) a (vec.drop (a + 1))

/-- Iterator state of `iteratesetbits`: `cur`, `idx`, and the slots after `idx`. -/
structure IterState where
  cur : Word
  idx : Nat
  rest : List Word

/-- One call of `iteratesetbits` (bit.pxd:166-195) with `neg = false`, or of `iterateunsetbits`
(bit.pxd:198-210) with `neg = true`; returns the bit index and the new state, `none` for -1. -/
def iterBits (neg : Bool) (cur : Word) (idx : Nat) : List Word → Option (Nat × IterState)
  | [] => if cur = 0 then none
    else some (idx * 64 + ctz cur, ⟨cur ^^^ (1#64 <<< ctz cur), idx, []⟩)
  | w :: rest => if cur = 0 then iterBits neg (if neg then ~~~w else w) (idx + 1) rest
    else some (idx * 64 + ctz cur, ⟨cur ^^^ (1#64 <<< ctz cur), idx, w :: rest⟩)

/-- A full iteration: call the iterator until it returns -1 (at most `fuel` calls). -/
def iterAll (neg : Bool) : (fuel : Nat) → IterState → List Nat
  | 0, _ => []
  | fuel + 1, s => match iterBits neg s.cur s.idx s.rest with
    | none => []
    | some (i, s') => i :: iterAll neg fuel s'

/-- Initial state: `idx = 0`, `cur = vec[0]` (or `~vec[0]`). -/
def iterInit (neg : Bool) : List Word → IterState
  | [] => ⟨0, 0, []⟩
  | w :: ws => ⟨if neg then ~~~w else w, 0, ws⟩

/-- `setintersect`, `setintersectinplace` (bit.pxd:213-220, bit.pxd:231-240). -/
def setintersect (a b : List Word) : List Word := List.zipWith (· &&& ·) a b
/-- `setunion`, `setunioninplace` (bit.pxd:222-229, bit.pxd:241-250). -/
def setunion (a b : List Word) : List Word := List.zipWith (· ||| ·) a b
/-- `subset` (bit.pxd:252-260). -/
def subset : List Word → List Word → Bool
  | a :: as, b :: bs => if (a &&& b) ≠ a then false else subset as bs
  | _, _ => true

/-- `SETBIT(a, b)` (macros.h:6). -/
def setbit (vec : List Word) (b : Nat) : List Word :=
  vec.modify (b / 64) (· ||| (1#64 <<< (b % 64)))
/-- `CLEARBIT(a, b)` (macros.h:8). -/
def clearbit (vec : List Word) (b : Nat) : List Word :=
  vec.modify (b / 64) (· &&& ~~~(1#64 <<< (b % 64)))
/-- `TOGGLEBIT(a, b)` (macros.h:7). -/
def togglebit (vec : List Word) (b : Nat) : List Word :=
  vec.modify (b / 64) (· ^^^ (1#64 <<< (b % 64)))
/-- `TESTBIT(a, b)` (macros.h:9), as a truth value. -/
def testbit (vec : List Word) (b : Nat) : Bool :=
  (vec.getD (b / 64) 0 &&& (1#64 <<< (b % 64))) ≠ 0
/-- `BITNSLOTS(nb)` (macros.h:10). -/
def bitnslots (nb : Nat) : Nat := (nb + 64 - 1) / 64

/-! ### Python integers -/

theorem and_pred_lt {a : Nat} (h : a ≠ 0) : a &&& (a - 1) < a :=
  Nat.lt_of_le_of_lt Nat.and_le_right (by omega)

/-- `pyintbitcount` (bit.pyx:7-16, eval.py:1066-1075): Kernighan's loop. -/
def pyintbitcount (a : Nat) : Nat :=
  if h : a = 0 then 0 else pyintbitcount (a &&& (a - 1)) + 1
termination_by a
decreasing_by exact and_pred_lt h

/-- The `while a & mask == 0` loop of `pyintnextset` (bit.pyx:36-38) and the final `pos + bit_ctz(a & mask)`. -/
def pyintnextsetLoop (a pos : Nat) : Nat :=
  if h : a % 2 ^ 64 = 0 ∧ a ≠ 0 then pyintnextsetLoop (a >>> 64) (pos + 64)
  else pos + ctz (BitVec.ofNat 64 a)
termination_by a
decreasing_by
  rw [Nat.shiftRight_eq_div_pow]
  exact Nat.div_lt_self (by omega) (by omega)

/-- `pyintnextset` (bit.pyx:27-39). -/
def pyintnextset (a pos : Nat) : Option Nat :=
  if a >>> pos = 0 then none else some (pyintnextsetLoop (a >>> pos) pos)

/-- Big-integer branch of `fanout` (bit.pyx:54-66), also `bitfanout` (tree.py:33-41). `prev` equals `arg` at
the start of each iteration. -/
def fanoutBig (a : Nat) : Nat :=
  if h : a = 0 then 0
  else
    (if ((a - (a &&& (a - 1))) <<< 1) &&& a = 0 then 1 else 0) + fanoutBig (a &&& (a - 1))
termination_by a
decreasing_by exact and_pred_lt h

/-- Word branch of `fanout` (bit.pyx:48-52); `fuel` bounds the number of iterations (64 suffice,
see `fanout_eq_runs`). -/
def fanoutWord : (fuel : Nat) → Word → Nat
  | 0, _ => 0
  | fuel + 1, vec =>
    if vec = 0 then 0
    else
      let v1 := vec >>> ctz vec
      let v2 := v1 >>> ctz (~~~v1)
      fanoutWord fuel v2 + 1

/-- `fanout` (bit.pyx:42-66): dispatch on `arg < (1 << 63) - 1`. -/
def fanout (arg : Nat) : Nat :=
  if arg < 2 ^ 63 - 1 then fanoutWord 64 (BitVec.ofNat 64 arg) else fanoutBig arg

/-- `getbits` (treetransforms.py:929-938): indices of set bits, lowest first; `n` is the position. -/
def getbitsFrom (n : Nat) (bitset : Nat) : List Nat :=
  if bitset = 0 then []
  else if bitset &&& 1 = 1 then n :: getbitsFrom (n + 1) (bitset >>> 1)
  else getbitsFrom (n + 1) (bitset >>> 1)
termination_by bitset
decreasing_by all_goals (rw [Nat.shiftRight_eq_div_pow]; exact Nat.div_lt_self (by omega) (by omega))

/-- `getbits(bitset)`. -/
def getbits (bitset : Nat) : List Nat := getbitsFrom 0 bitset

/-- `sum(1 << n for n in a.leaves())` of `addbitsets` (treetransforms.py:955-956). -/
def bitsetOf (leaves : List Nat) : Nat := (leaves.map (1 <<< ·)).foldr (· + ·) 0

/-- Loop of `intervals` (eval.py:1019-1028) over the remaining bits; `cur` is `(start, prev)`. -/
def intervalsLoop : Option (Nat × Nat) → List Nat → List (Nat × Nat)
  | none, [] => []
  | some p, [] => [p]
  | none, a :: as => intervalsLoop (some (a, a)) as
  | some (start, prev), a :: as =>
    if a = prev + 1 then intervalsLoop (some (start, a)) as
    else (start, prev) :: intervalsLoop (some (a, a)) as

/-- `intervals(bitset)` (eval.py:1009-1028). -/
def intervals (bitset : Nat) : List (Nat × Nat) := intervalsLoop none (getbits bitset)

/-- Loop of `ranges` (grammar.py:1006-1014, identical in tree.py:2025-2033); `rng` is the current run. -/
def rangesLoop (rng : List Nat) : List Nat → List (List Nat)
  | [] => if rng ≠ [] then [rng] else []
  | a :: s =>
    if rng = [] ∨ rng.getLast?.map (· + 1) = some a then rangesLoop (rng ++ [a]) s
    else rng :: rangesLoop [a] s

/-- `ranges(s)` (grammar.py:1001-1014; tree.py:2020-2033). -/
def ranges (s : List Nat) : List (List Nat) := rangesLoop [] s

/-- `rangeheads(s)` (grammar.py:992-998): elements whose predecessor is absent. -/
def rangeheads (s : List Nat) : List Nat := s.filter fun a => !(a ≠ 0 && s.contains (a - 1))

end Disco.Bits
