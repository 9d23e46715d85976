import Verif.Marith.Model

/-!
# Model of libsrc/curve.cc, curvedata.cc, p2points.cc and points.cc

All numbers are `bigint` (NTL `ZZ`): `/` on them is floor division (`Int.fdiv`).
-/

namespace Eclib.Curve

open Marith (mod div val isqrt)

/-- class `Curve` (eclib/curve.h:54-106) -/
structure Cv where
  /-- coefficients -/
  a1 : Int
  a2 : Int
  a3 : Int
  a4 : Int
  a6 : Int
deriving DecidableEq, Repr

/-- `Curve::isnull` (eclib/curve.h:58-59) -/
def Cv.isnull (E : Cv) : Bool := E.a1 = 0 && E.a2 = 0 && E.a3 = 0 && E.a4 = 0 && E.a6 = 0

/-- class `Curvedata` (eclib/curve.h:115-197) without the flags `minimal_flag`, `discr_factored`,
the list of bad primes and the torsion order -/
structure Cd extends Cv where
  b2 : Int
  b4 : Int
  b6 : Int
  b8 : Int
  c4 : Int
  c6 : Int
  discr : Int
  conncomp : Int
deriving DecidableEq, Repr

/-- the null curve left by the constructors for a singular equation (curvedata.cc:38-43) -/
def Cd.null : Cd := ⟨⟨0, 0, 0, 0, 0⟩, 0, 0, 0, 0, 0, 0, 0, 0⟩

/-- `Curvedata(a1,a2,a3,a4,a6,0)` and `Curvedata(const Curve&, 0)` (curvedata.cc:28-52, 120-142) -/
def Cd.ofAi (E : Cv) : Cd :=
  let b2 := E.a1 * E.a1 + 4 * E.a2
  let b4 := 2 * E.a4 + E.a1 * E.a3
  let b6 := E.a3 * E.a3 + 4 * E.a6
  let b8 := (b2 * b6 - b4 * b4).fdiv 4
  let c4 := b2 * b2 - 24 * b4
  let c6 := -b2 * b2 * b2 + 36 * b2 * b4 - 216 * b6
  let discr := (c4 * c4 * c4 - c6 * c6).fdiv 1728
  if discr.sign = 0 then Cd.null
  else ⟨E, b2, b4, b6, b8, c4, c6, discr, if discr.sign > 0 then 2 else 1⟩

/-- `valid_invariants` (curve.cc:30-42) -/
def validInvariants (c4 c6 : Int) : Bool :=
  let disc := c4 * c4 * c4 - c6 * c6
  if disc.sign = 0 then false
  else if !div 1728 disc then false
  else if mod c6 27 = 9 || mod c6 27 = -9 then false
  else if mod c6 4 = -1 then true
  else if !div 16 c4 then false
  else mod c6 32 = 0 || mod c6 32 = 8

/-- `odd(x) ? 1 : 0` -/
def oddBit (x : Int) : Int := if x % 2 = 1 then 1 else 0

/-- the result of `c4c6_to_ai` -/
structure AB extends Cv where
  b2 : Int
  b4 : Int
  b6 : Int
  b8 : Int
deriving DecidableEq, Repr

/-- `c4c6_to_ai` (curve.cc:44-64); `mod` is the symmetric residue, `/` floor division -/
def c4c6ToAi (c4 c6 : Int) : AB :=
  let b2 := mod (-c6) 12
  let b22 := b2 * b2
  let b4 := (b22 - c4).fdiv 24
  let b6 := (-b2 * b22 + 36 * b2 * b4 - c6).fdiv 216
  let b8 := (b2 * b6 - b4 * b4).fdiv 4
  let a1 := oddBit b2
  let a3 := oddBit b6
  ⟨⟨a1, (b2 - a1).fdiv 4, a3, (b4 - a1 * a3).fdiv 2, (b6 - a3).fdiv 4⟩, b2, b4, b6, b8⟩

/-- `Curvedata(c4,c6,0)` (curvedata.cc:163-193).  For invalid invariants the code leaves `conncomp`
unset; the model puts 0. -/
def Cd.ofC4C6 (c4 c6 : Int) : Cd :=
  if validInvariants c4 c6 then
    let r := c4c6ToAi c4 c6
    let discr := (c4 * c4 * c4 - c6 * c6).fdiv 1728
    ⟨r.toCv, r.b2, r.b4, r.b6, r.b8, c4, c6, discr, if discr.sign > 0 then 2 else 1⟩
  else Cd.null

/-- the exponent `d` of the prime `p` in `u` (curve.cc:88-100).  `val(p,g)/12.0` rounded down is the
integer quotient; `>>` is NTL's shift, which rounds towards zero (here the division is exact). -/
def minExp (c4 c6 g p : Int) : Int :=
  let d : Int := (val p g : Int) / 12
  if p = 2 then
    let a := mod (c4.tdiv (2 ^ (4 * d).toNat)) 16
    let b := mod (c6.tdiv (2 ^ (6 * d).toNat)) 32
    let b := if b < 0 then b + 32 else b
    if b.tmod 4 ≠ 3 && !(a = 0 && (b = 0 || b = 8)) then d - 1 else d
  else if p = 3 then (if (val 3 c6 : Int) = 6 * d + 2 then d - 1 else d)
  else d

/-- the loop over the primes (curve.cc:86-103) -/
def minU (c4 c6 g : Int) : List Int → Int → Int
  | [], u => u
  | p :: ps, u =>
    let d := minExp c4 c6 g p
    minU c4 c6 g ps (if d > 0 then u * p ^ d.toNat else u)

/-- `minimise_c4c6` (curve.cc:74-110): the new `c4`, `c6`, discriminant and `u`.  `pdivs` stands for
the function of that name. -/
def minimiseC4C6 (pdivs : Int → List Int) (c4 c6 : Int) : Int × Int × Int × Int :=
  let c62 := c6 * c6
  let newdiscr := (c4 * c4 * c4 - c62).fdiv 1728
  if (Int.gcd c4 c6 : Int) = 1 then (c4, c6, newdiscr, 1)
  else
    let g : Int := Int.gcd c62 newdiscr
    if g = 1 then (c4, c6, newdiscr, 1)
    else
      let u := minU c4 c6 g (pdivs g) 1
      if u = 1 then (c4, c6, newdiscr, u)
      else
        let u2 := u * u
        let u4 := u2 * u2
        let u6 := u2 * u4
        let u12 := u6 * u6
        (c4.fdiv u4, c6.fdiv u6, newdiscr.fdiv u12, u)

/-- `Curvedata::minimalize(u,r,s,t)` for a curve not flagged minimal (curvedata.cc:248-271):
the new curve and `u, r, s, t` -/
def minimalize (pdivs : Int → List Int) (E : Cd) : Cd × Int × Int × Int × Int :=
  let (newc4, newc6, _, u) := minimiseC4C6 pdivs E.c4 E.c6
  let newc := Cd.ofC4C6 newc4 newc6
  let s := (u * newc.a1 - E.a1).fdiv 2
  let u2 := u * u
  let r := (u2 * newc.a2 - E.a2 + s * E.a1 + s * s).fdiv 3
  let t := (u2 * u * newc.a3 - E.a3 - r * E.a1).fdiv 2
  (newc, u, r, s, t)

/-- `Curvedata::transform` (curvedata.cc:273-284) -/
def Cd.transform (E : Cd) (r s t : Int) : Cd :=
  let a6 := E.a6 + (r * (E.a4 + r * (E.a2 + r)) - t * (E.a3 + r * E.a1 + t))
  let a4 := E.a4 + (-s * E.a3 + 2 * r * E.a2 - (t + r * s) * E.a1 + 3 * r * r - 2 * s * t)
  let a3 := E.a3 + (r * E.a1 + t + t)
  let a2 := E.a2 + (-s * E.a1 + 3 * r - s * s)
  let a1 := E.a1 + (s + s)
  let b2 := a1 * a1 + 4 * a2
  let b4 := a4 + a4 + a1 * a3
  let b6 := a3 * a3 + 4 * a6
  let b8 := (b2 * b6 - b4 * b4).fdiv 4
  { E with a1 := a1, a2 := a2, a3 := a3, a4 := a4, a6 := a6, b2 := b2, b4 := b4, b6 := b6, b8 := b8 }

/-! ## projective points -/

/-- class `P2Point` (eclib/p2points.h) -/
structure P2 where
  X : Int
  Y : Int
  Z : Int
deriving DecidableEq, Repr

namespace P2

/-- `reduce` (p2points.cc:31-48) -/
def reduce (P : P2) : P2 :=
  if P.Z = 1 then P
  else
    let d : Int := Int.gcd (Int.gcd P.X P.Y) P.Z
    if d.sign = 0 then P
    else
      let P := if d ≠ 1 then ⟨P.X.fdiv d, P.Y.fdiv d, P.Z.fdiv d⟩ else P
      if P.Z.sign < 0 then ⟨-P.X, -P.Y, -P.Z⟩ else P

/-- `P2Point(x,y,z)` (eclib/p2points.h:50-52): reduces -/
def mk' (x y z : Int) : P2 := reduce ⟨x, y, z⟩

/-- `eq` (p2points.cc:73-79) -/
def eq (P Q : P2) : Bool :=
  if (P.X * Q.Z - P.Z * Q.X).sign ≠ 0 then false
  else if (P.Y * Q.Z - P.Z * Q.Y).sign ≠ 0 then false
  else if (P.Y * Q.X - P.X * Q.Y).sign ≠ 0 then false
  else true

/-- `scale` (p2points.cc:116-125) -/
def scale (P : P2) (u : Int) (back : Bool) : P2 :=
  if u = 1 then P
  else
    let u2 := u * u
    let u3 := u * u2
    if back then mk' (u2 * P.X) (u3 * P.Y) P.Z else mk' (u * P.X) P.Y (u3 * P.Z)

/-- `shift` (p2points.cc:133-141) -/
def shift (P : P2) (r s t : Int) (back : Bool) : P2 :=
  if back then mk' (P.X + r * P.Z) (P.Y + s * P.X + t * P.Z) P.Z
  else mk' (P.X - r * P.Z) (P.Y - s * P.X + (r * s - t) * P.Z) P.Z

/-- `transform` (p2points.cc:143-152) -/
def transform (P : P2) (u r s t : Int) (back : Bool) : P2 :=
  if back then shift (scale P u true) r s t true else scale (shift P r s t false) u false

/-- `Point::isvalid` (points.cc:239-256) -/
def isvalid (E : Cv) (P : P2) : Bool :=
  if P.X.sign = 0 && P.Y.sign = 0 && P.Z.sign = 0 then false
  else if P.X.sign = 0 && P.Z.sign = 0 then true
  else
    let lhs := P.Y * P.Z * (P.Y + E.a1 * P.X + E.a3 * P.Z)
    let rhs := E.a6 * P.Z ^ 3 + P.X * (E.a4 * P.Z * P.Z + P.X * (E.a2 * P.Z + P.X))
    lhs = rhs

/-- the point at infinity `Point(E)` (eclib/points.h:54-56) -/
def zero : P2 := ⟨0, 1, 0⟩

/-- unary minus (points.cc:159-164): not reduced -/
def neg (E : Cv) (P : P2) : P2 := ⟨P.X, -P.Y - E.a3 * P.Z - E.a1 * P.X, P.Z⟩

/-- `twice` (points.cc:130-157) -/
def twice (E : Cv) (P : P2) : P2 :=
  if P.Z = 0 then zero
  else if eq P (neg E P) then zero
  else
    let Zsq := P.Z * P.Z
    let L := 3 * P.X * P.X + 2 * E.a2 * P.X * P.Z + E.a4 * Zsq - E.a1 * P.Y * P.Z
    let M := 2 * P.Y + E.a1 * P.X + E.a3 * P.Z
    let Mz := M * P.Z
    let N := -P.X * P.X * P.X - E.a3 * P.Y * Zsq + E.a4 * P.X * Zsq + 2 * E.a6 * P.Z * Zsq
    let t := L * L + Mz * (E.a1 * L - M * (E.a2 * P.Z + 2 * P.X))
    mk' (t * Mz) (-(L * t + Mz * (E.a1 * t + M * (N + E.a3 * Mz * P.Z)))) (Mz * Mz * Mz)

/-- `operator+` (points.cc:78-121) for two points on the same curve -/
def add (E : Cv) (P Q : P2) : P2 :=
  if P.Z = 0 then Q
  else if Q.Z = 0 then P
  else if eq P Q then twice E Q
  else if eq P (neg E Q) then zero
  else
    let Z12 := P.Z * Q.Z
    let L := -Q.Y * P.Z + P.Y * Q.Z
    let M := -Q.X * P.Z + P.X * Q.Z
    let N := -P.Y * Q.X + Q.Y * P.X
    let Mz := M * M * Z12
    let t := L * L * Z12 + M * (E.a1 * L * Z12 - M * (E.a2 * Z12 + P.X * Q.Z + Q.X * P.Z))
    mk' (M * t) (-(t * (L + E.a1 * M) + Mz * (N + E.a3 * M))) (M * Mz)

/-- `operator+=` (points.cc:64-69) -/
def addAssign (E : Cv) (P Q : P2) : P2 := reduce (add E P Q)

/-- `operator-` (points.cc:123-128) -/
def sub (E : Cv) (P Q : P2) : P2 := addAssign E (neg E Q) P

/-- `operator-=` (points.cc:71-76) -/
def subAssign (E : Cv) (P Q : P2) : P2 := reduce (addAssign E (neg E Q) P)

/-- the loop of `operator*` (points.cc:187-191) -/
def mulLoop (E : Cv) (n : Nat) (Q ans : P2) : P2 :=
  if n > 1 then
    let Q := twice E Q
    let n' := n / 2
    mulLoop E n' Q (if n' % 2 = 1 then add E ans Q else ans)
  else ans
termination_by n
decreasing_by omega

/-- `operator*(int n, const Point& P)` (points.cc:167-194).  `n` ranges over the integers; the code
uses `int`, so `n = INT_MIN`, for which `-n` overflows, is excluded. -/
def mul (E : Cv) (n : Int) (P : P2) : P2 :=
  if P.Z = 0 || n = 0 then zero
  else
    let negative : Bool := n < 0
    let n := n.natAbs
    if n = 1 then (if negative then neg E P else P)
    else if n = 2 then (if negative then neg E (twice E P) else twice E P)
    else
      let ans := if n % 2 = 1 then P else zero
      let ans := mulLoop E n P ans
      if negative then neg E ans else ans

/-- the loop of `order` (points.cc:204-205), with fuel -/
def orderLoop (E : Cv) (p : P2) : Nat → P2 → Int → Option (P2 × Int)
  | 0, _, _ => none
  | k + 1, q, ord =>
    if q.Z.sign ≠ 0 && q.Z ≤ 8 then orderLoop E p k (addAssign E q p) (ord + 1)
    else some (q, ord)

/-- `order(Point&)` for a point whose order is not yet stored (points.cc:196-209) -/
def order (E : Cv) (fuel : Nat) (p : P2) : Option Int :=
  if p.Z = 0 then some 1
  else if p.Z > 8 then some (-1)
  else do
    let (q, ord) ← orderLoop E p fuel p 1
    if q.Z.sign ≠ 0 then some (-1) else some ord

/-- the loop of the second `order` (points.cc:223-229); `ms` is the list so far -/
def orderListLoop (E : Cv) (p : P2) (q : P2) (ms : List P2) : P2 × List P2 :=
  if _h : q.Z ≠ 0 ∧ q.Z ≤ 8 ∧ ms.length < 13 then
    let q := addAssign E q p
    if q.Z ≠ 0 then orderListLoop E p q (ms ++ [q]) else (q, ms)
  else (q, ms)
termination_by 13 - ms.length
decreasing_by simp only [List.length_append, List.length_singleton]; omega

/-- `order(Point&, vector<Point>&)` (points.cc:211-237): the order and the list of multiples.
When the loop ends with a zero point the next loop test fails, as in the model. -/
def orderList (E : Cv) (p : P2) : Int × List P2 :=
  if p.Z = 0 then (1, [zero])
  else
    let r := orderListLoop E p p [zero, p]
    (if r.1.Z = 0 then (r.2.length : Int) else -1, r.2)

/-- `points_from_x` (points.cc:259-287); the argument is the numerator and denominator of `x`,
as stored in a `bigrational` -/
def pointsFromX (E : Cd) (xn xd2 : Int) : List P2 :=
  let r := isqrt xd2
  if r.1 then
    let xd : Int := r.2
    let xd4 := xd2 * xd2
    let s := ((4 * xn + E.b2 * xd2) * xn + (2 * E.b4 * xd4)) * xn + E.b6 * xd4 * xd2
    let q := isqrt s
    if q.1 then
      let t : Int := q.2
      let yn := (t - (E.a1 * xn + E.a3 * xd2) * xd).fdiv 2
      let P := mk' (xn * xd) yn (xd2 * xd)
      if t ≠ 0 then [P, neg E.toCv P] else [P]
    else []
  else []

/-- `is_on_real_identity_component` (points.cc:625-639) -/
def onRealIdentity (E : Cd) (P : P2) : Bool :=
  if P.Z = 0 then true
  else if E.conncomp = 1 then true
  else
    let FD := 6 * P.X * P.X + E.b2 * P.X * P.Z + E.b4 * P.Z * P.Z
    if FD.sign < 0 then false
    else
      let FDD := 12 * P.X + E.b2 * P.Z
      if FDD.sign < 0 then false else true

/-- `has_good_reduction(const bigint& p)` (points.cc:655-677) -/
def hasGoodReduction (E : Cd) (P : P2) (p : Int) : Bool :=
  if div p P.Z then true
  else if p = 0 then onRealIdentity E P
  else
    let FY := 2 * P.Y + E.a1 * P.X + E.a3 * P.Z
    let ok := !div p FY
    if !ok then
      let FX := E.a1 * P.Y * P.Z - (3 * P.X * P.X + 2 * E.a2 * P.X * P.Z + E.a4 * P.Z * P.Z)
      let ok := !div p FX
      if !ok then
        let FZ := P.Y * (P.Y + E.a1 * P.X + 2 * E.a3 * P.Z)
          - (E.a2 * P.X * P.X + 2 * E.a4 * P.X * P.Z + 3 * E.a6 * P.Z * P.Z)
        !div p FZ
      else ok
    else ok

/-- `has_good_reduction(plist, p0, check_real)` (points.cc:683-700): the answer and, if it is 0, the
offending prime (0 for the reals) -/
def hasGoodReductionList (E : Cd) (P : P2) (plist : List Int) (checkReal : Bool) :
    Bool × Option Int :=
  if checkReal && !onRealIdentity E P then (false, some 0)
  else match plist.find? (fun p => !hasGoodReduction E P p) with
    | none => (true, none)
    | some p => (false, some p)

end P2

end Eclib.Curve
