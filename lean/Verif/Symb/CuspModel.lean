import Verif.Symb.Model
import Verif.Small.RatModel

/-!
# Model of `cusp.cc`: lists of cusps

A cusp is a `rational`, infinity being `1/0` (or `-1/0`).  The products of `long`s are not checked
for overflow.  `none` is an access outside a table or a division by zero.
-/

namespace Eclib.Symb

open Eclib.Ratl (R)

/-- `cusplist::cuspeq` (cusp.cc:30-47) -/
def cuspeq (M : Moddata) (c1 c2 : R) (plusflag : Int) : Option Bool :=
  if Ratl.eq c1 c2 then some true
  else
    match M.gcd c1.d, M.gcd c2.d with
    | some g1, some g2 =>
      if g1 ≠ g2 then some false
      else
        let s1 := (Arith.bezout c1.n c1.d).2.1 * c2.d
        let s2 := (Arith.bezout c2.n c2.d).2.1 * c1.d
        match M.gcd (c1.d * c2.d) with
        | none => none
        | some q3 =>
          if q3 = 0 then none
          else if (s1 - s2).tmod q3 = 0 then some true
          else if plusflag ≠ 1 then some false
          else some ((s1 + s2).tmod q3 = 0)
    | _, _ => none

/-- the search of `cusplist::index` (cusp.cc:51-54): position of the first `d` in the list with
`cuspeq(c,d,plusflag)`, starting at `i` -/
def cuspFind (M : Moddata) (pf : Int) (c : R) (i : Nat) : List R → Option (Option Nat)
  | [] => some none
  | d :: l =>
    match cuspeq M c d pf with
    | none => none
    | some true => some (some i)
    | some false => cuspFind M pf c (i + 1) l

/-- `cusplist::index` (cusp.cc:49-58): the new list and the index, offset by 1; `pf` is
`N->plusflag` -/
def cuspIndex (M : Moddata) (pf : Int) (L : List R) (c : R) : Option (List R × Int) :=
  match cuspFind M pf c 0 L with
  | none => none
  | some (some i) => some (L, 1 + (i : Int))
  | some none => some (L ++ [c], (L.length : Int) + 1)

/-- the loop of `cusplist::index_1` (cusp.cc:70-77); `0` when nothing is found -/
def cuspFind1 (M : Moddata) (c : R) (i : Nat) : List R → Option Int
  | [] => some 0
  | d :: l =>
    match cuspeq M c d 0 with
    | none => none
    | some true => some ((i : Int) + 1)
    | some false =>
      match cuspeq M (Ratl.neg false c) d 0 with
      | none => none
      | some true => some (-((i : Int) + 1))
      | some false => cuspFind1 M c (i + 1) l

/-- `cusplist::index_1` (cusp.cc:60-82) -/
def cuspIndex1 (M : Moddata) (L : List R) (c : R) : Option (List R × Int) :=
  match cuspeq M c (Ratl.neg false c) 0 with
  | none => none
  | some true => some (L, 0)
  | some false =>
    match cuspFind1 M c 0 L with
    | none => none
    | some j => if j ≠ 0 then some (L, j) else some (L ++ [c], (L.length : Int) + 1)

/-- `cusplist::index_2` (cusp.cc:84-93) -/
def cuspIndex2 (M : Moddata) (L : List R) (c : R) : Option (List R × Int) :=
  match cuspeq M c (Ratl.neg false c) 0 with
  | none => none
  | some false => some (L, 0)
  | some true =>
    match cuspFind M 0 c 0 L with
    | none => none
    | some (some i) => some (L, (i : Int) + 1)
    | some none => some (L ++ [c], (L.length : Int) + 1)

/-- a history of calls on one `cusplist`: the final list and the indices returned -/
def cuspRun (f : List R → R → Option (List R × Int)) : List R → List R → Option (List R × List Int)
  | L, [] => some (L, [])
  | L, c :: cs =>
    match f L c with
    | none => none
    | some (L', j) =>
      match cuspRun f L' cs with
      | none => none
      | some (L'', js) => some (L'', j :: js)

end Eclib.Symb
