import Verif.Local.LocallySoluble
import Verif.Legendre.Desc2Model
import Verif.Bits.SqfModel

/-!
# Model of the first descent of `rank2` (libsrc/mrank2.cc)

The curve is `E: y² = x³ + cx² + dx` (`ee`), with the point `(0,0)` of order 2, and the isogenous
curve is `E': y² = x³ + c'x² + d'x` (`eedash`), `c' = -2c`, `d' = c² - 4d`.

`none` stands for undefined behaviour; `some none` for the return with `success = 0`.
-/

namespace Eclib.Rank2

open Eclib.Sqf (makenum makeindex)

/-- what the code calls and is not part of this model: `ss` the second method of
`locallysoluble` for primes above 1000 and the `fuel` of its recursion (see `Verif.Local`), `pdivs`
(marith.cc), `torsion_points` (points.cc) of the curve `y² = x³ + cx² + dx` (the points have integral
coordinates; `none` is the origin), their `order`, and the first coordinate of a multiple of a point -/
structure Env where
  /-- the test at primes above 1000 (mlocsol.cc:250-255) -/
  ss : Int → Int → Int → Int → Int → Int → Option Bool
  /-- bound for the recursion -/
  fuel : Nat
  /-- `pdivs` -/
  pdivs : Int → List Int
  /-- `torsion_points(E)` for the coefficients `c`, `d` -/
  tors : Int → Int → List (Option (Int × Int))
  /-- `order(T)` -/
  ord : Int → Int → Option (Int × Int) → Int
  /-- `(n*T).getX()` -/
  mulX : Int → Int → Int → Option (Int × Int) → Int

/-- `elsgens`, `mask` and `nt2gens` of one of the two curves; `els` is the length of `gens` -/
structure Els where
  /-- `elsgens0`, `elsgens1` -/
  gens : List Int
  /-- `mask0`, `mask1` -/
  mask : Nat
  /-- `nt2gens0`, `nt2gens1` -/
  nt2 : Nat
  deriving DecidableEq, Repr

/-- the loop `for(j=ns-1; j>=0; j--) if(index&(1<<j)) {mask|=(1<<j); break;}` (mrank2.cc:283-284 and
341-343); the shift is of an `int` -/
def setPivot : Nat → Nat → Nat → Option Nat
  | 0, _, mask => some mask
  | j + 1, index, mask =>
    if j < 31 then
      if index.testBit j then some (mask ||| 2 ^ j) else setPivot j index mask
    else none

/-- `posd1` (mrank2.cc:171-176); `sqrt` is the integer part of the square root -/
def posd1 (c d : Int) : Bool :=
  if c * c - 4 * d < 0 then true else decide (c + Int.sqrt (c * c - 4 * d) < 0)

/-- the point of largest order, the first one found (mrank2.cc:228-234) -/
def pickT1 (ord : Option (Int × Int) → Int) (l : List (Option (Int × Int))) : Option (Int × Int) :=
  (l.foldl (fun (s : Option (Int × Int) × Int) T => if ord T > s.2 then (T, ord T) else s) (none, 1)).1

/-- the points that generate the torsion modulo doubles (mrank2.cc:238-262): `ee2` is given when there
is more 2-torsion. The entries 0 and (in this case) 1 of `torsion` are overwritten, outside the vector
if it is too short -/
def torsGens (ord : Option (Int × Int) → Int) (mulX : Int → Option (Int × Int) → Int)
    (l : List (Option (Int × Int))) (ee2 : Option Int) : Option (List (Option (Int × Int))) :=
  let T1 := pickT1 ord l
  match ee2 with
  | some e => if l.length < 2 then none else
      some [T1, if mulX (Int.tdiv l.length 4) T1 = 0 then some (e, 0) else some (0, 0)]
  | none => if l.length < 1 then none else some [T1]

/-- the loop over these points (mrank2.cc:268-296) -/
def torsLoop (supp : List Int) (d : Int) : List (Option (Int × Int)) → Nat × List Int → Option (Nat × List Int)
  | [], s => some s
  | none :: l, s => torsLoop supp d l s
  | some T :: l, (mask, gens) =>
    match makeindex supp (if T.1 = 0 then d else T.1) with
    | none => none
    | some (index, d1) =>
      if mask &&& index ≠ 0 then torsLoop supp d l (mask, gens)
      else if index ≠ 0 then
        match setPivot supp.length index mask with
        | none => none
        | some mask' => torsLoop supp d l (mask', gens ++ [d1])
      else torsLoop supp d l (mask, gens)

/-- the body of the loop over all divisors (mrank2.cc:315-345) -/
def elsStep (sol : Int → Int → Option Bool) (supp : List Int) (d : Int) (index : Nat) (s : Nat × List Int) :
    Option (Nat × List Int) :=
  if s.1 &&& index ≠ 0 then some s
  else
    match makenum supp index with
    | none => none
    | some d1 =>
      match sol d1 (d.fdiv d1) with
      | none => none
      | some false => some s
      | some true =>
        match setPivot supp.length index s.1 with
        | none => none
        | some mask' => some (mask', s.2 ++ [d1])

/-- the loop `for(index=istep; index<maxn; index+=istep)` (mrank2.cc:313): `n` iterations are left,
from the value `index` -/
def elsLoop (sol : Int → Int → Option Bool) (supp : List Int) (d : Int) (istep : Nat) :
    Nat → Nat → Nat × List Int → Option (Nat × List Int)
  | 0, _, s => some s
  | n + 1, index, s =>
    match elsStep sol supp d index s with
    | none => none
    | some s' => elsLoop sol supp d istep n (index + istep) s'

/-- `rank2::find_elsgens` (mrank2.cc:160-381), with `c`, `d` and `supp` of the curve concerned, and
`ee2` given if `extra2torsion`. `maxn=1<<ns` is the shift of an `int` -/
def findEls (V : Env) (badprimes supp : List Int) (c d : Int) (ee2 : Option Int) : Option (Option Els) :=
  if supp.length ≥ 64 then some none
  else if supp.length ≥ 31 then none
  else
    let istep := if posd1 c d then 2 else 1
    match torsGens (V.ord c d) (V.mulX c d) (V.tors c d) ee2 with
    | none => none
    | some tg =>
      match torsLoop supp d tg (0, []) with
      | none => none
      | some s =>
        let sol := fun (d1 d2 : Int) =>
          (LocSol.locallysolubleAce V.ss V.fuel d1 c d2 badprimes 0).map fun (r : Bool × Int) => r.1
        match elsLoop sol supp d istep ((2 ^ supp.length - 1) / istep) istep s with
        | none => none
        | some r => some (some ⟨r.2, r.1, s.2.length⟩)

/-- `isqrt(n,root)` (marith.cc): the root if `n` is a square -/
def isqrt (n : Int) : Option Int :=
  if n < 0 then none else if Int.sqrt n * Int.sqrt n = n then some (Int.sqrt n) else none

/-- the primes for the local tests (mrank2.cc:720-725) -/
def badPrimes (supp0 supp1 : List Int) : List Int :=
  let u := Desc2.setUnion supp0 supp1
  if (2 : Int) ∈ u then u else 2 :: u

/-- `elsgens0`, `elsgens1` and `rank_bound` after the first descent -/
structure LD where
  /-- first curve -/
  e0 : Els
  /-- second curve -/
  e1 : Els
  /-- `rank_bound` -/
  bound : Int
  deriving DecidableEq, Repr

/-- the first step of `rank2::local_descent` (mrank2.cc:688-763): `s2`, `s4` are the coefficients of
the curve `y² = x³ + s2 x² + s4 x + s6`, `x0` a root of the cubic. The curves `ee`, `eedash` and the
minimal model `Eprime` are only used for the torsion points and for display -/
def localDescent (V : Env) (s2 s4 x0 : Int) : Option (Option LD) :=
  let c := 3 * x0 + s2
  let d := x0 * (c + s2) + s4
  let c' := -2 * c
  let d' := c * c - 4 * d
  if 2 * d * d' = 0 then some none
  else
    let supp0 := V.pdivs d
    let supp1 := V.pdivs d'
    let bp := badPrimes supp0 supp1
    let e2 := (isqrt d').map fun (r : Int) => (-c - r).fdiv 2
    let e2' := (isqrt d).map fun (r : Int) => c - 2 * r
    match findEls V bp (-1 :: supp0) c d e2 with
    | none => none
    | some none => some none
    | some (some e0) =>
      match findEls V bp (-1 :: supp1) c' d' e2' with
      | none => none
      | some none => some none
      | some (some e1) => some (some ⟨e0, e1, e0.gens.length + e1.gens.length - 2⟩)

end Eclib.Rank2
