import Verif.Marith.Model

/-!
# Model of `hilbert.cc` / `hilbert.h`

`ZZ % long` of NTL is the remainder in `[0, m)`, `Int.fmod` here.  The answer `-1` (after the
message for a zero argument) is kept; `none` means that the code does not return (`divide_out` by
`1`).
-/

namespace Eclib.Local

open Eclib.Marith (divideOut legendre)

/-- `omega8` (hilbert.h:39-43) -/
def omega8 (u : Int) : Bool := (u - 3).fmod 8 == 0 || (u + 3).fmod 8 == 0

/-- the case `p==two` of `local_hilbert` (hilbert.cc:54-61) -/
def hilbertTwo (u v : Int) (alpha beta : Bool) : Bool :=
  let ans := (u + 1).fmod 4 == 0
  let ans := if ans then (v + 1).fmod 4 == 0 else ans
  let ans := if alpha then (if omega8 v then !ans else ans) else ans
  if beta then (if omega8 u then !ans else ans) else ans

/-- `if(c) if(legendre(w,p)==-1) ans=!ans;` (hilbert.cc:67-68) -/
def toggle (c : Bool) (w p : Int) (ans : Bool) : Option Bool :=
  if c then
    match legendre w p with
    | none => none
    | some l => some (if l = -1 then !ans else ans)
  else some ans

/-- the case of odd `p` of `local_hilbert` (hilbert.cc:65-69) -/
def hilbertOdd (u v p : Int) (alpha beta : Bool) : Option Bool :=
  let ans := alpha && beta
  let ans := if ans then (p + 1).fmod 4 == 0 else ans
  match toggle alpha v p ans with
  | none => none
  | some ans => toggle beta u p ans

/-- a C truth value -/
def b2i (b : Bool) : Int := if b then 1 else 0

/-- `local_hilbert(a,b,p)` (hilbert.cc:32-70) -/
def localHilbert (a b p : Int) : Option Int :=
  if a = 0 then some (-1)
  else if b = 0 then some (-1)
  else if p ≤ 0 then
    if 0 < a then some 0 else if 0 < b then some 0 else some 1
  else
    match divideOut a p, divideOut b p with
    | some (u, al), some (v, be) =>
      let alpha := al % 2 == 1
      let beta := be % 2 == 1
      if p = 2 then some (b2i (hilbertTwo u v alpha beta))
      else (hilbertOdd u v p alpha beta).map b2i
    | _, _ => none

/-- the search of `any_of` in `global_hilbert` (hilbert.cc:84-85): the answer and `badp`, the last
prime looked at -/
def anyBad (a b : Int) : List Int → Int → Option (Int × Int)
  | [], badp => some (0, badp)
  | p :: ps, _ =>
    match localHilbert a b p with
    | none => none
    | some 0 => anyBad a b ps p
    | some _ => some (1, p)

/-- `global_hilbert(a,b,plist,badp)` (hilbert.cc:72-86): the answer and the final value of `badp`,
which is `badp` at the call if nothing is stored -/
def globalHilbert (a b : Int) (plist : List Int) (badp : Int) : Option (Int × Int) :=
  match localHilbert a b 0 with
  | none => none
  | some 0 => anyBad a b plist badp
  | some _ => some (1, 0)

/-- `global_hilbert(q,d,plist,badp)` (hilbert.cc:102-105) with `q = [q0,q1,q2]` -/
def globalHilbertQ (q0 q1 q2 d : Int) (plist : List Int) (badp : Int) : Option (Int × Int) :=
  globalHilbert (q0 * d) (q1 * q1 - 4 * q0 * q2) plist badp

end Eclib.Local
