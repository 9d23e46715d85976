import Verif.Curve.Model
import Verif.Tate.Model

/-!
# Model of Tate's algorithm (`curvered.cc:58-330`)

`bigint` is NTL's `ZZ`: `/` is floor division, `%` the residue in `[0,p)`.  The NTL routines which
are not elementary enter as a structure `Lib` carrying what is used of them.  `none` means that the
code does not return a value (Legendre symbol, bound on the number of passes reached).
-/

namespace Eclib.Tate

open Eclib.Marith (XGcd SqrRootMod val div mod invmod legendre sqrtModP)
open Eclib.Curve (Cd)

/-- the NTL routines used by Tate's algorithm -/
structure Lib where
  /-- `XGCD` -/
  xg : XGcd
  /-- `SqrRootMod` -/
  sq : SqrRootMod
  /-- NTL documents `SqrRootMod` for odd primes only; its text begins with
  `if (aa == 0 || aa == 1) { x = aa; return; }`, and `root` relies on that for the prime 2 -/
  sq_one : sq.run 1 2 = 1
  /-- `rootsmod` (polys.cc:50-64) for a monic cubic with coefficients `b`, `c`, `d`: the roots found by
  `FindRoots` -/
  roots : Int → Int → Int → Int → List Int
  /-- the list has no repetition and holds all roots in `[0,p)` -/
  roots_spec : ∀ (b c d : Int) (p : ℕ), p.Prime → (roots b c d p).Nodup ∧
    ∀ x, x ∈ roots b c d p ↔ (0 ≤ x ∧ x < p) ∧ (p : Int) ∣ x ^ 3 + b * x ^ 2 + c * x + d

/-- the loop of `root` (curvered.cc:70-74), `n` passes to go; `power_mod` (marith.h) of NTL gives the
residue in `[0,p)` -/
def rootLoop (a p : Int) (e : Nat) : Nat → Int → Int
  | 0, _ => 0
  | n + 1, r => if (r ^ e).fmod p = a then r else rootLoop a p e n (r + 1)

/-- `root(aa,e,p)` (curvered.cc:60-76) -/
def root (L : Lib) (aa : Int) (e : Nat) (p : Int) : Int :=
  let a := aa.fmod p
  if a = 0 then a
  else if e = 2 then sqrtModP L.sq a p
  else rootLoop a p e (p - 1).toNat 1

/-- `rootsexist(aa,bb,cc,p)` (curvered.cc:79-88) -/
def rootsexist (aa bb cc p : Int) : Option Bool :=
  if p % 2 = 0 then some ((aa * bb * cc).fmod p = 0)
  else
    let a := aa.fmod p
    if a = 0 then some true
    else
      let b := bb.fmod p
      let c := cc.fmod p
      if c = 0 then some true
      else (legendre (b * b - 4 * a * c) p).map fun l => decide (l ≥ 0)

/-- `rootsexist(bb,cc,p)` (curvered.cc:91-95) -/
def rootsexist1 (bb cc p : Int) : Option Bool := rootsexist 1 bb cc p

/-- `halfmodp = (p+1)>>1` (curvered.cc:145) -/
def halfmodp (p : Int) : Int := (p + 1).fdiv 2

/-- `r` and `t` of the first change of coordinates (curvered.cc:149-164); `c4`, `c6` belong to the
curve the algorithm was called with -/
def first (L : Lib) (c4 c6 p : Int) (C : Cd) : Int × Int :=
  if p % 2 = 0 then
    if div p C.b2 then
      let r := root L C.a4 2 p
      (r, root L (((r + C.a2) * r + C.a4) * r + C.a6) 2 p)
    else
      let temp := invmod L.xg C.a1 p
      let r := temp * C.a3
      (r, temp * (C.a4 + r * r))
  else if p = 3 then
    let r := if div p C.b2 then root L (-C.b6) 3 p else -invmod L.xg C.b2 p * C.b4
    (r, C.a1 * r + C.a3)
  else
    let r := if div p c4 then -invmod L.xg 12 p * C.b2 else -invmod L.xg (12 * c4) p * (c6 + C.b2 * c4)
    (r, -halfmodp p * (C.a1 * r + C.a3))

/-- `s` and `t` of the second change of coordinates (curvered.cc:195-203) -/
def second (L : Lib) (p : Int) (C : Cd) : Int × Int :=
  if p % 2 = 0 then (root L C.a2 2 p, p * root L ((C.a6.fdiv p).fdiv p) 2 p)
  else if p = 3 then (C.a1, C.a3)
  else (-C.a1 * halfmodp p, -C.a3 * halfmodp p)

/-- the loop for type `I*m` (curvered.cc:240-275), with a bound on the number of passes: the curve,
`ix`, `iy` and `c_p` -/
def starLoop (L : Lib) (p : Int) : Nat → Cd → Int → Int → Int → Int → Option (Cd × Int × Int × Int)
  | 0, _, _, _, _, _ => none
  | fuel + 1, C, ix, iy, mx, my =>
    let a3t := C.a3.fdiv my
    let a6t := (C.a6.fdiv mx).fdiv my
    if div p (a3t * a3t + 4 * a6t) then
      let t := if p % 2 = 0 then my * root L a6t 2 p else my * mod (-a3t * halfmodp p) p
      let C := C.transform 0 0 t
      let my := my * p
      let iy := iy + 1
      let a2t := C.a2.fdiv p
      let a4t := (C.a4.fdiv p).fdiv mx
      let a6t := (C.a6.fdiv mx).fdiv my
      if div p (a4t * a4t - 4 * a6t * a2t) then
        let r := if p % 2 = 0 then mx * root L (a6t * invmod L.xg a2t p) 2 p
          else mx * mod (-a4t * invmod L.xg (2 * a2t) p) p
        starLoop L p fuel (C.transform r 0 0) (ix + 1) iy (mx * p) my
      else (rootsexist a2t a4t a6t p).map fun e => (C, ix, iy, if e then 4 else 2)
    else (rootsexist1 a3t (-a6t) p).map fun e => (C, ix, iy, if e then 4 else 2)

/-- the case of a triple root (curvered.cc:281-323); `none` inside: "reached end of loop" -/
def triple (L : Lib) (p b d od oj : Int) (C : Cd) : Option (Cd × Option Red) :=
  let r := if p % 2 = 0 then b else if p = 3 then root L (-d) 3 p else -b * invmod L.xg 3 p
  let r := p * mod r p
  let C := C.transform r 0 0
  let a3t := (C.a3.fdiv p).fdiv p
  let a6t := (((C.a6.fdiv p).fdiv p).fdiv p).fdiv p
  if !div p (a3t * a3t + 4 * a6t) then
    (rootsexist1 a3t (-a6t) p).map fun e => (C, some ⟨od, od - 6, oj, 5, if e then 3 else 1⟩)
  else
    let t := if p % 2 = 0 then -p * p * root L a6t 2 p else p * p * mod (-a3t * halfmodp p) p
    let C := C.transform 0 0 t
    if val p C.a4 < 4 then some (C, some ⟨od, od - 7, oj, 6, 2⟩)
    else if val p C.a6 < 6 then some (C, some ⟨od, od - 8, oj, 7, 1⟩)
    else some (C, none)

/-- the analysis of the cubic (curvered.cc:206-324) -/
def cubicCase (L : Lib) (fuel : Nat) (p od oj : Int) (C : Cd) : Option (Cd × Option Red) :=
  let b := C.a2.fdiv p
  let c := (C.a4.fdiv p).fdiv p
  let d := ((C.a6.fdiv p).fdiv p).fdiv p
  let bb := b * b
  let cc := c * c
  let bc := b * c
  let w := 27 * d * d - bb * cc + 4 * b * bb * d - 18 * bc * d + 4 * c * cc
  let x := 3 * c - bb
  if div p w then
    if div p x then triple L p b d od oj C
    else
      let r := if p % 2 = 0 then root L c 2 p else if p = 3 then c * invmod L.xg b p
        else (bc - 9 * d) * invmod L.xg (2 * x) p
      let r := p * mod r p
      (starLoop L p fuel (C.transform r 0 0) 3 3 (p * p) (p * p)).map fun q =>
        (q.1, some ⟨od, od - q.2.1 - q.2.2.1 + 1, oj, 10 * (q.2.1 + q.2.2.1) - 49, q.2.2.2⟩)
  else some (C, some ⟨od, od - 4, oj, 1, 1 + (L.roots b c d p).length⟩)

/-- the part after the first change of coordinates (curvered.cc:169-324) -/
def afterFirst (L : Lib) (fuel : Nat) (c4 p od oj : Int) (C : Cd) : Option (Cd × Option Red) :=
  if !div p c4 then
    (rootsexist1 C.a1 (-C.a2) p).map fun e =>
      (C, some ⟨od, 1, oj, 10 * od, if e then od else if od % 2 = 1 then 1 else 2⟩)
  else if val p C.a6 < 2 then some (C, some ⟨od, od, oj, 2, 1⟩)
  else if val p C.b8 < 3 then some (C, some ⟨od, od - 1, oj, 3, 2⟩)
  else if val p C.b6 < 3 then
    (rootsexist1 (C.a3.fdiv p) (-((C.a6.fdiv p).fdiv p)) p).map fun e =>
      (C, some ⟨od, od - 2, oj, 4, if e then 3 else 1⟩)
  else
    let st := second L p C
    cubicCase L fuel p od oj (C.transform 0 st.1 st.2)

/-- one pass of the loop over the bad primes (curvered.cc:140-325): `c4`, `c6`, `discr` are those of
the curve itself, `C` is the working copy, which keeps the changes of coordinates made for the
earlier primes.  The result is the new `C` and the entry of `reduct_array`, if one is made. -/
def tateP (L : Lib) (fuel : Nat) (c4 c6 discr p : Int) (C : Cd) : Option (Cd × Option Red) :=
  let od : Int := val p discr
  let oj := od - 3 * val p c4
  let oj := if oj < 0 then 0 else oj
  let rt := first L c4 c6 p C
  afterFirst L fuel c4 p od oj (C.transform (mod rt.1 p) 0 (mod rt.2 p))

/-- the loop over the bad primes: `reduct_array` -/
def tateLoop (L : Lib) (fuel : Nat) (c4 c6 discr : Int) : List Int → Cd → Option (List (Int × Red))
  | [], _ => some []
  | p :: ps, C =>
    match tateP L fuel c4 c6 discr p C with
    | none => none
    | some (C, none) => tateLoop L fuel c4 c6 discr ps C
    | some (C, some red) => (tateLoop L fuel c4 c6 discr ps C).map fun l => (p, red) :: l

/-- the constructor `CurveRed(const Curvedata&)` (curvered.cc:120-330) for a curve `E` that is already
minimal and has been factored: `reduct_array` and the conductor `N`.  The map is kept in the order of
the list `the_bad_primes`. -/
def curveRed (L : Lib) (fuel : Nat) (badPrimes : List Int) (E : Cd) : Option (List (Int × Red) × Int) :=
  if E.discr = 0 then some ([], 0)
  else
    (tateLoop L fuel E.c4 E.c6 E.discr badPrimes E).map fun l =>
      (l, l.foldl (fun N e => N * e.1 ^ e.2.ordN.toNat) 1)

end Eclib.Tate
