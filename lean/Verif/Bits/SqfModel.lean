import Verif.Marith.Model
import Verif.Bits.Model

/-!
# Model of `sqfdiv.cc`: subgroups of the squarefree divisors modulo squares

`bigint` arithmetic is exact.  `none` is an access outside a vector or a shift of an `int` that
overflows.
-/

namespace Eclib.Sqf

open Eclib.Marith (val div)

/-- `sqfred(a,plist)` (sqfdiv.cc:149-158) -/
def sqfred (a : Int) (plist : List Int) : Int :=
  plist.foldl (fun ans p => if val p a % 2 = 1 then ans * p else ans) a.sign

/-- `sqfmul` (sqfdiv.cc:160-164); the divisions are exact -/
def sqfmul (a b : Int) : Int :=
  let g : Int := Int.gcd a b
  a.fdiv g * b.fdiv g

/-- `makenum` (sqfdiv.cc:166-172), the loop starting at bit `i` -/
def makenumLoop (mask : Nat) : List Int → Nat → Int → Option Int
  | [], _, ans => some ans
  | p :: l, i, ans =>
    match Bits.testbit mask i with
    | none => none
    | some true => makenumLoop mask l (i + 1) (sqfmul ans p)
    | some false => makenumLoop mask l (i + 1) ans

/-- `makenum` (sqfdiv.cc:166-172) -/
def makenum (supp : List Int) (mask : Nat) : Option Int := makenumLoop mask supp 0 1

/-- the loop of `makeindex` (sqfdiv.cc:178-189): `index` and `n0`; `setbit` (bitspace.h:61) shifts
an `int` -/
def makeindexLoop (n : Int) : List Int → Nat → Nat × Int → Option (Nat × Int)
  | [], _, s => some s
  | p :: l, i, (index, n0) =>
    if p < 0 then
      if n < 0 then
        if i < 31 then makeindexLoop n l (i + 1) (index ||| 2 ^ i, -n0) else none
      else makeindexLoop n l (i + 1) (index, n0)
    else if val p n % 2 = 1 then
      if i < 31 then makeindexLoop n l (i + 1) (index ||| 2 ^ i, n0 * p) else none
    else makeindexLoop n l (i + 1) (index, n0)

/-- `makeindex` (sqfdiv.cc:174-191): the index and `n0`, which is left alone (here: 0) when `n` is
zero -/
def makeindex (supp : List Int) (n : Int) : Option (Nat × Int) :=
  if n = 0 then some (0, 0) else makeindexLoop n supp 0 (0, 1)

/-- class `sqfdiv` (sqfdiv.h:29-39): `nsub` and `ngens` are the lengths of `subgp` and `pivs`; of
`gens` only the entries below `ngens` are kept -/
structure SD where
  /-- `*primebase` -/
  pb : List Int
  /-- `d` -/
  d : Int
  /-- `np` -/
  np : Nat
  /-- `positive` -/
  positive : Bool
  /-- `factor` -/
  factor : Nat
  /-- `subgp`, the first `nsub` entries -/
  subgp : List Int
  /-- `gens`, the first `ngens` entries -/
  gens : List Int
  /-- `pivs`, the first `ngens` entries -/
  pivs : List Int
  /-- `maxnsub` -/
  maxnsub : Nat
  /-- `maxngens` -/
  maxngens : Nat
  deriving DecidableEq, Repr

/-- the loop of the constructor (sqfdiv.cc:33-34): `d` and `np` -/
def initLoop (dd : Int) : List Int → Int × Nat → Int × Nat
  | [], s => s
  | p :: l, (d, np) => if div p dd then initLoop dd l (d * p, np + 1) else initLoop dd l (d, np)

/-- the constructor (sqfdiv.cc:29-42); `2<<np` is an `int` -/
def SD.new (dd : Int) (posd : Bool) (plist : List Int) : Option SD :=
  let s := initLoop dd plist (1, 0)
  if 30 ≤ s.2 then none
  else
    some { pb := plist, d := s.1, np := s.2, positive := posd, factor := 0,
           subgp := if posd then [1, -1] else [1],
           gens := if posd then [-1] else [],
           pivs := if posd then [-1] else [],
           maxnsub := 2 * 2 ^ s.2, maxngens := s.2 + 1 }

/-- the first loop of `usediv` (sqfdiv.cc:52-62) over the pairs (pivot, generator) -/
def redLoop (pb : List Int) : List (Int × Int) → Int → Option Int
  | [], e => some e
  | (piv, g) :: l, e =>
    if e = 1 then some e
    else if piv = -1 then redLoop pb l |e|
    else
      match pb[piv.toNat]? with
      | none => none
      | some p => redLoop pb l (if div p e then sqfmul e g else e)

/-- the search for a pivot (sqfdiv.cc:84-89): position and prime, from the end of the list -/
def findPiv (pb : List Int) (d e : Int) : Nat → Option (Nat × Int)
  | 0 => none
  | i + 1 =>
    match pb[i]? with
    | none => none
    | some p => if div p d ∧ val p e ≠ 0 then some (i, p) else findPiv pb d e i

/-- `usediv` (sqfdiv.cc:44-103) -/
def SD.usediv (D : SD) (ee : Int) : Option SD :=
  match redLoop D.pb (D.pivs.zip D.gens) (sqfred ee D.pb) with
  | none => none
  | some e =>
    if e = 1 then some D
    else if D.maxngens ≤ D.pivs.length ∨ D.maxnsub < 2 * D.subgp.length then none
    else
      let D1 := { D with subgp := D.subgp ++ D.subgp.map (sqfmul · e) }
      match findPiv D.pb D.d e D.pb.length with
      | some (i, p) =>
        some { D1 with d := D.d.fdiv p, np := D.np - 1, factor := D.factor + 1,
                       gens := D.gens ++ [e], pivs := D.pivs ++ [(i : Int)] }
      | none =>
        if e < 0 ∧ D.positive = false then
          some { D1 with positive := true, factor := D.factor + 1,
                         gens := D.gens ++ [e], pivs := D.pivs ++ [-1] }
        else some D1

/-- a history of calls of `usediv` -/
def SD.run (D : SD) : List Int → Option SD
  | [] => some D
  | u :: us =>
    match D.usediv u with
    | none => none
    | some D' => D'.run us

/-- the loop of `getdivs` (sqfdiv.cc:116-123): the entries written so far -/
def divLoop (d : Int) : List Int → List Int → List Int
  | [], L => L
  | p :: l, L => if div p d then divLoop d l (L ++ L.map (p * ·)) else divLoop d l L

/-- `getdivs` (sqfdiv.cc:105-125): the vector has `nd` entries from the start, those never written
being zero; `none` for a write beyond its end and for the overflow of `1<<np` -/
def SD.getdivs (D : SD) : Option (List Int) :=
  if 31 ≤ D.np then none
  else
    let nd := if D.positive then 2 ^ D.np else 2 * 2 ^ D.np
    let L := divLoop D.d D.pb (if D.positive then [1] else [1, -1])
    if nd < L.length then none else some (L ++ List.replicate (nd - L.length) 0)

/-- `getsupp` (sqfdiv.cc:127-138) -/
def SD.getsupp (D : SD) (bothsigns : Bool) : List Int :=
  (if !D.positive || bothsigns then [-1] else []) ++ D.pb.filter (fun p => div p D.d)

end Eclib.Sqf
