import Verif.Basic.Tree
/-!
# Python string primitives on `List Char`
-/
namespace Disco

/-- `s.find(p)`: index of the first occurrence of `p` in `s`; `none` models `-1`. -/
def Str.find (p : Str) : Str → Option Nat
  | [] => if p.isEmpty then some 0 else none
  | c :: s => if p.isPrefixOf (c :: s) then some 0 else (Str.find p s).map (· + 1)

/-- `sep.join(xs)`. -/
def Str.join (sep : Str) (xs : List Str) : Str := List.intercalate sep xs

/-- `s.split(c)` for a single character separator. -/
def Str.splitAll (c : Char) : Str → List Str
  | [] => [[]]
  | x :: s =>
    if x = c then [] :: Str.splitAll c s
    else match Str.splitAll c s with
      | [] => [[x]]
      | w :: ws => (x :: w) :: ws

/-- `s[a:b]` for non-negative slice bounds. -/
def slice {α : Type} (xs : List α) (a b : Nat) : List α := (xs.drop a).take (b - a)

end Disco
