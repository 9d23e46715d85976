import Verif.Marith.Model

/-!
# Model of unimod, scaled_unimod, quadratic, cubic and the quartic transforms

libsrc/unimod.cc, libsrc/eclib/unimod.h, libsrc/quadratic.cc, libsrc/eclib/quadratic.h,
libsrc/cubic.cc, libsrc/eclib/cubic.h, libsrc/transform.cc, libsrc/eclib/mquartic.h.

`bigint` is `Int`.  A C++ method which updates `*this` and the matrix `m` is a function returning
the updated pair.  Loops take a fuel parameter and return `none` when the fuel runs out; `none` is
also the outcome of a division by zero (NTL aborts).
-/

namespace Eclib.Forms

/-- `class unimod` (eclib/unimod.h:30-35) -/
@[ext] structure U where
  m11 : Int
  m12 : Int
  m21 : Int
  m22 : Int
deriving DecidableEq, Repr

namespace U

/-- default constructor and `reset` (unimod.h:37, 42-43) -/
def one : U := ⟨1, 0, 0, 1⟩

/-- `operator*=` and `operator*` (unimod.h:53-57, unimod.cc:26-34) -/
def mul (m a : U) : U :=
  ⟨m.m11 * a.m11 + m.m12 * a.m21, m.m11 * a.m12 + m.m12 * a.m22,
   m.m21 * a.m11 + m.m22 * a.m21, m.m21 * a.m12 + m.m22 * a.m22⟩

/-- `det` (unimod.h:60) -/
def det (m : U) : Int := m.m11 * m.m22 - m.m12 * m.m21

/-- `x_shift` (unimod.h:61) -/
def xShift (m : U) (a : Int) : U := { m with m12 := m.m12 + a * m.m11, m22 := m.m22 + a * m.m21 }

/-- `y_shift` (unimod.h:62) -/
def yShift (m : U) (a : Int) : U := { m with m11 := m.m11 + a * m.m12, m21 := m.m21 + a * m.m22 }

/-- `negate` (unimod.h:63) -/
def negate (m : U) : U := ⟨m.m11 * -1, m.m12 * -1, m.m21 * -1, m.m22 * -1⟩

/-- `seminegate` (unimod.h:64) -/
def seminegate (m : U) : U := { m with m12 := m.m12 * -1, m22 := m.m22 * -1 }

/-- `inverse` (unimod.h:65-70): returns the new value of `*this` and the result.  When the
determinant is negative the code negates `*this`, not `ans`. -/
def inverse (m : U) : U × U :=
  let ans : U := ⟨m.m22, -m.m12, -m.m21, m.m11⟩
  if m.det < 0 then (m.negate, ans) else (m, ans)

/-- `invert` (unimod.h:71-74) -/
def invert (m : U) : U := ⟨m.m12, -m.m11, m.m22, -m.m21⟩

end U

/-- `class scaled_unimod` (unimod.h:82-85) -/
@[ext] structure SU extends U where
  m00 : Int
deriving DecidableEq, Repr

namespace SU

/-- default constructor and `reset` (unimod.h:86, 93) -/
def one : SU := ⟨U.one, 1⟩

/-- `operator*=(const scaled_unimod&)`, `operator*` (unimod.h:106-111, unimod.cc:36-45) -/
def mul (m a : SU) : SU := ⟨m.toU.mul a.toU, m.m00 * a.m00⟩

/-- `operator*=(const unimod&)` (unimod.h:112-117) -/
def mulU (m : SU) (a : U) : SU := ⟨m.toU.mul a, m.m00⟩

/-- `x_scale` (unimod.h:119) -/
def xScale (m : SU) (c : Int) : SU :=
  ⟨⟨m.m11 * c, m.m12, m.m21 * c, m.m22⟩, m.m00⟩

/-- `y_scale` (unimod.h:120) -/
def yScale (m : SU) (c : Int) : SU :=
  ⟨⟨m.m11, m.m12 * c, m.m21, m.m22 * c⟩, m.m00⟩

/-- `u_scale` (unimod.h:121) -/
def uScale (m : SU) (c : Int) : SU := ⟨m.toU, m.m00 * c⟩

/-- the `unimod` methods inherited by `scaled_unimod` act on the base class part only -/
def xShift (m : SU) (a : Int) : SU := ⟨m.toU.xShift a, m.m00⟩
/-- inherited `y_shift` -/
def yShift (m : SU) (a : Int) : SU := ⟨m.toU.yShift a, m.m00⟩
/-- inherited `invert` -/
def invert (m : SU) : SU := ⟨m.toU.invert, m.m00⟩

end SU

/-- `bigint roundover(a,b)` (eclib/marith.h:69-70): NTL `%` and `/` are the floor operations and
abort for `b = 0`. -/
def roundover (a b : Int) : Option Int :=
  if b = 0 then none
  else
    let a0 := Int.fmod a b
    let c := Int.fdiv (a - a0) b
    some (if 2 * a0 > b then c + 1 else c)

/-! ## quadratic -/

/-- `class quadratic`: `coeffs[0..2]` (eclib/quadratic.h:32-42) -/
@[ext] structure Q where
  a : Int
  b : Int
  c : Int
deriving DecidableEq, Repr

namespace Q

/-- `eval(x,z)` (quadratic.h:44-45) -/
def eval (q : Q) (x z : Int) : Int := q.a * (x * x) + q.b * x * z + q.c * (z * z)

/-- `disc` (quadratic.h:56) -/
def disc (q : Q) : Int := q.b * q.b - 4 * q.a * q.c

/-- `quadratic::transform` (quadratic.cc:26-34) -/
def transform (q : Q) (m : U) : Q :=
  ⟨q.eval m.m11 m.m21,
   2 * (q.a * m.m11 * m.m12 + q.c * m.m21 * m.m22) + q.b * (m.m11 * m.m22 + m.m12 * m.m21),
   q.eval m.m12 m.m22⟩

/-- `quadratic::x_shift` (quadratic.cc:36-42) -/
def xShift (q : Q) (m : U) (a : Int) : Q × U :=
  let aq0 := a * q.a
  (⟨q.a, q.b + 2 * aq0, q.c + (aq0 + q.b) * a⟩, m.xShift a)

/-- `quadratic::y_shift` (quadratic.cc:44-50) -/
def yShift (q : Q) (m : U) (a : Int) : Q × U :=
  let aq2 := a * q.c
  (⟨q.a + (aq2 + q.b) * a, q.b + 2 * aq2, q.c⟩, m.yShift a)

/-- `quadratic::invert` (quadratic.cc:52-56) -/
def invert (q : Q) (m : U) : Q × U := (⟨q.c, -q.b, q.a⟩, m.invert)

/-- the `while(!reduced)` loop of `reduce` (quadratic.cc:69-76) -/
def reduceLoop : Nat → Q × U → Option (Q × U)
  | 0, _ => none
  | n + 1, (q, m) =>
    if q.a ≤ q.c then some (q, m)
    else
      let s := q.invert m
      (roundover (-s.1.b) (2 * s.1.a)).bind fun a => reduceLoop n (s.1.xShift s.2 a)

/-- the sign step of `reduce` (quadratic.cc:61-66); `m` is not changed -/
def signStep (q : Q) : Q := if q.a < 0 then ⟨-q.a, -q.b, -q.c⟩ else q

/-- `quadratic::reduce` (quadratic.cc:58-80) -/
def reduce (fuel : Nat) (q : Q) (m : U) : Option (Q × U) :=
  let q := q.signStep
  (roundover (-q.b) (2 * q.a)).bind fun a => reduceLoop fuel (q.xShift m a)

/-- `resultant(q1,q2)` (quadratic.cc:82-89) -/
def resultant (q1 q2 : Q) : Int :=
  (q2.c * q1.a) * (q2.c * q1.a) - q1.a * q2.c * q2.b * q1.b
    + (-2 * q2.c * q2.a + q2.b * q2.b) * q1.c * q1.a + q2.c * q2.a * (q1.b * q1.b)
    - q2.b * q2.a * q1.c * q1.b + (q2.a * q1.c) * (q2.a * q1.c)

end Q

/-! ## cubic -/

/-- `class cubic`: `coeffs[0..3]` (eclib/cubic.h:38-62) -/
@[ext] structure C where
  a : Int
  b : Int
  c : Int
  d : Int
deriving DecidableEq, Repr

namespace C

/-- `eval(x,z)` (cubic.h:65-67) -/
def eval (f : C) (x z : Int) : Int :=
  f.a * x * (x * x) + f.b * (x * x) * z + f.c * x * (z * z) + f.d * z * (z * z)

/-- `disc` (cubic.h:71-74) -/
def disc (f : C) : Int :=
  -27 * ((f.a * f.d) * (f.a * f.d)) + 18 * (f.a * f.c) * (f.b * f.d)
    - 4 * (f.a * f.c) * (f.c * f.c) - 4 * (f.b * f.d) * (f.b * f.b) + (f.b * f.b) * (f.c * f.c)

/-- `p_semi` (cubic.h:129-130) -/
def pSemi (f : C) : Int := f.b * f.b - 3 * f.a * f.c
/-- `q_semi` (cubic.h:131-132) -/
def qSemi (f : C) : Int := f.b * f.c - 9 * f.a * f.d
/-- `r_semi` (cubic.h:133-134) -/
def rSemi (f : C) : Int := f.c * f.c - 3 * f.b * f.d
/-- `u_semi` (cubic.h:135-136) -/
def uSemi (f : C) : Int :=
  2 * f.b * (f.b * f.b) + 27 * (f.a * f.a) * f.d - 9 * f.a * f.b * f.c

/-- `mat_c1` (cubic.h:121-122) -/
def matC1 (f : C) : Int := f.d * (f.d - f.b) + f.a * (f.c - f.a)
/-- `mat_c2` (cubic.h:123-124) -/
def matC2 (f : C) : Int := f.a * f.d - (f.a + f.b) * (f.a + f.b + f.c)
/-- `mat_c3` (cubic.h:125-126) -/
def matC3 (f : C) : Int := f.a * f.d + (f.a - f.b) * (f.a - f.b + f.c)

/-- `transform_helper`, `cubic::transform` and `transform(F,m)` (cubic.cc:39-70) -/
def transform (f : C) (m : U) : C :=
  let m112 := m.m11 * m.m11
  let m113 := m112 * m.m11
  let m212 := m.m21 * m.m21
  let m213 := m212 * m.m21
  let m222 := m.m22 * m.m22
  let m223 := m222 * m.m22
  let m122 := m.m12 * m.m12
  let m123 := m122 * m.m12
  ⟨m113 * f.a + m.m21 * m112 * f.b + m212 * m.m11 * f.c + m213 * f.d,
   3 * m.m12 * m112 * f.a + (m.m22 * m112 + 2 * m.m21 * m.m12 * m.m11) * f.b
     + (2 * m.m22 * m.m21 * m.m11 + m212 * m.m12) * f.c + 3 * m.m22 * m212 * f.d,
   3 * m122 * m.m11 * f.a + (2 * m.m22 * m.m12 * m.m11 + m.m21 * m122) * f.b
     + (m222 * m.m11 + 2 * m.m22 * m.m21 * m.m12) * f.c + 3 * m222 * m.m21 * f.d,
   m123 * f.a + m.m22 * m122 * f.b + m222 * m.m12 * f.c + m223 * f.d⟩

/-- `cubic::x_shift` (cubic.cc:208-214) -/
def xShift (f : C) (m : U) (e : Int) : C × U :=
  (⟨f.a, f.b + 3 * e * f.a, f.c + e * (2 * f.b + 3 * e * f.a),
    f.d + e * (f.c + e * (f.b + e * f.a))⟩, m.xShift e)

/-- `cubic::y_shift` (cubic.cc:216-222) -/
def yShift (f : C) (m : U) (e : Int) : C × U :=
  (⟨f.a + e * (f.b + e * (f.c + e * f.d)), f.b + e * (2 * f.c + 3 * e * f.d),
    f.c + 3 * e * f.d, f.d⟩, m.yShift e)

/-- `cubic::invert` (cubic.cc:224-229) -/
def invert (f : C) (m : U) : C × U := (⟨-f.d, f.c, -f.b, f.a⟩, m.invert)

/-- `cubic::negate` (cubic.cc:231-236) -/
def negate (f : C) (m : U) : C × U := (⟨-f.a, -f.b, -f.c, -f.d⟩, m.negate)

/-- `cubic::seminegate` (cubic.cc:238-243) -/
def seminegate (f : C) (m : U) : C × U := (⟨f.a, -f.b, f.c, -f.d⟩, m.seminegate)

/-- `operator<`: lexicographic comparison of the coefficients (cubic.cc:33-37) -/
def lt (f g : C) : Bool :=
  f.a < g.a || (f.a = g.a && (f.b < g.b || (f.b = g.b && (f.c < g.c || (f.c = g.c && f.d < g.d)))))

/-- `cubic::j_c1` (cubic.cc:248-274) -/
def jC1 (f : C) : Int :=
  let a := f.a; let b := f.b; let c := f.c; let d := f.d;
  - 108*b^3*a^2*d - 3*b^4*c^2 + 54*a^2*c^4 + 18*b^5*d + 243*a^2*d^2*b^2 -
    54*b^3*(a*c)*d - 162*(b*d)*c^2*a^2 - 54*a^3*c^3 + 486*a^3*(b*d)*c + 3*c^4*b^2 -
      18*c^5*a + 54*c^3*a*(b*d) - 243*d^2*a^2*c^2 + 162*d^2*(a*c)*b^2 + 2*c^6 -
        729*a^4*d^2 - 2*b^6 + 18*b^4*(a*c) - 27*a^2*b^2*c^2 + 729*d^4*a^2 + 54*b^3*d^3 +
          108*c^3*d^2*a - 18*c^4*(b*d) + 27*d^2*c^2*b^2 - 486*d^3*(a*c)*b - 54*d^2*b^4

/-- `cubic::j_c2` (cubic.cc:279-307) -/
def jC2 (f : C) : Int :=
  let a := f.a; let b := f.b; let c := f.c; let d := f.d;
  108*b^3*a^2*d - 12*b^4*c^2 + 216*a^2*c^4 + 72*b^5*d + 486*a^3*c^2*d
    - 270*a^2*c^3*b + 90*b^3*c^2*a + 972*a^2*d^2*b^2 - 216*b^3*(a*c)*d -
      648*(b*d)*c^2*a^2 + 54*a^3*c^3 - 486*a^3*(b*d)*c + 16*c^3*b^3 - 216*d^2*b^3*a -
        72*d*b^4*c - 72*c^4*b*a - 216*d*c^3*a^2 + 432*d*b^2*a*c^2
    + 729*a^4*d^2 + 2*b^6
          - 18*b^4*(a*c) + 27*a^2*b^2*c^2 - 6*b^5*c + 648*b^2*c*a^2*d
    - 162*a*d*b^4 - 1458*a^3*d^2*b

/-- `cubic::j_c3` (cubic.cc:312-337) -/
def jC3 (f : C) : Int :=
  let a := f.a; let b := f.b; let c := f.c; let d := f.d;
  108*b^3*a^2*d - 12*b^4*c^2 + 216*a^2*c^4 + 72*b^5*d - 486*a^3*c^2*d +
    270*a^2*c^3*b - 90*b^3*c^2*a + 972*a^2*d^2*b^2 - 216*b^3*c*a*d - 648*b*c^2*a^2*d
      + 54*a^3*c^3 - 486*a^3*d*c*b - 16*c^3*b^3 + 216*d^2*b^3*a + 72*d*b^4*c +
        72*c^4*b*a + 216*d*c^3*a^2 - 432*d*b^2*a*c^2 + 729*a^4*d^2 + 2*b^6 - 18*b^4*a*c
          + 27*a^2*b^2*c^2 + 6*b^5*c - 648*b^2*c*a^2*d + 162*a*d*b^4 + 1458*a^3*d^2*b

/-- `cubic::j_c4` (cubic.cc:342-355) -/
def jC4 (f : C) : Int :=
  let a := f.a; let b := f.b; let c := f.c; let d := f.d;
  27*d*c^3*a^2 + (27*d^2*b^3 - 54*d*c^2*b^2 + 9*c^4*b)*a + 9*d*c*b^4 - 2*c^3*b^3

/-- the number of automorphisms considered by `normalise` (cubic.cc:86-115) -/
def nautos (f : C) : Nat :=
  if f.disc < 0 then
    (if f.jC1 = 0 then (if f.jC4 = 0 then 4 else if f.jC2 = 0 then 6 else 2) else 2)
  else
    (if f.pSemi = f.rSemi then
      (if f.qSemi = 0 then 4 else if f.qSemi = f.rSemi then 6 else 2) else 2)

/-- the generating automorphism (cubic.cc:127-128) -/
def autOf (n : Nat) : U :=
  if n = 4 then ⟨0, -1, 1, 0⟩ else if n = 6 then ⟨1, 1, -1, 0⟩ else ⟨-1, 0, 0, -1⟩

/-- The candidates `Flist` and `transforms` (cubic.cc:121-135): `k` more entries, starting from
the current cubic and power. -/
def candidates (aut : U) : Nat → C → U → List (C × U)
  | 0, f, w => [(f, w)]
  | k + 1, f, w => (f, w) :: candidates aut k (f.transform aut) (w.mul aut)

/-- `std::max_element` (cubic.cc:140): the first of the largest entries -/
def maxElt : C × U → List (C × U) → C × U
  | best, [] => best
  | best, x :: l => maxElt (if best.1.lt x.1 then x else best) l

/-- `cubic::normalise` (cubic.cc:84-148) -/
def normalise (f : C) (m : U) : C × U :=
  let n := f.nautos
  let best := maxElt (f, U.one) ((candidates (autOf n) (n - 1) f U.one).tail)
  (best.1, m.mul best.2)

/-- `cubic::is_hessian_reduced` (cubic.cc:374-387) -/
def isHessianReduced (f : C) : Bool :=
  let P := f.pSemi
  let R := f.rSemi
  if P > R then false
  else
    let Q := f.qSemi
    if Q > P then false
    else if P = R then Q ≥ 0
    else Q > -P

/-- the loop of `hess_reduce` (cubic.cc:396-416) -/
def hessLoop : Nat → C × U → Option (C × U)
  | 0, _ => none
  | n + 1, (f, m) =>
    (roundover (-f.qSemi) (2 * f.pSemi)).bind fun k =>
      let s1 := if k ≠ 0 then f.xShift m k else (f, m)
      if s1.1.pSemi > s1.1.rSemi then hessLoop n (s1.1.invert s1.2)
      else if k ≠ 0 then hessLoop n s1
      else some s1

/-- `cubic::hess_reduce` (cubic.cc:389-426); the incoming `m` is reset to the identity -/
def hessReduce (fuel : Nat) (f : C) : Option (C × U) :=
  (hessLoop fuel (f, U.one)).bind fun s =>
    let s := if s.1.pSemi = s.1.rSemi ∧ s.1.qSemi < 0 then s.1.invert s.2 else s
    some (s.1.normalise s.2)

/-- `cubic::sl2_equivalent` (cubic.cc:151-165) when the discriminant of `*this` is not negative,
so that `sl2_reduce` (cubic.cc:72-78) is `hess_reduce`.  The case of negative discriminant goes
through `jc_reduce`, which uses floating point, and is not modelled. -/
def sl2EquivalentPos (fuel : Nat) (f g : C) : Option Bool :=
  if f = g then some true
  else
    let f1 := (f.negate U.one).1
    if f1 = g then some true
    else if f1.disc ≠ g.disc then some false
    else
      (hessReduce fuel f1).bind fun r1 =>
        (hessReduce fuel g).bind fun r2 => some (r1.1 = r2.1)

/-- `cubic::gl2_equivalent` (cubic.cc:167-171), with the same restriction -/
def gl2EquivalentPos (fuel : Nat) (f g : C) : Option Bool :=
  (sl2EquivalentPos fuel f g).bind fun b =>
    if b then some true else sl2EquivalentPos fuel f (g.transform ⟨-1, 0, 0, 1⟩)

/-- `content` (cubic.h:170-173) -/
def content (f : C) : Int :=
  Int.gcd (Int.gcd (Int.gcd f.a f.b) f.c) f.d

/-- `operator/` (cubic.h:179-182) -/
def divBy (f : C) (g : Int) : C :=
  ⟨Int.fdiv f.a g, Int.fdiv f.b g, Int.fdiv f.c g, Int.fdiv f.d g⟩

end C

/-! ## quartic -/

/-- the five coefficients `a,b,c,d,e` of a quartic -/
@[ext] structure G where
  a : Int
  b : Int
  c : Int
  d : Int
  e : Int
deriving DecidableEq, Repr

namespace G

/-- `II` (mquartic.h:30-34) -/
def II (g : G) : Int := 12 * g.a * g.e - 3 * g.b * g.d + g.c * g.c

/-- `JJ` (mquartic.h:36-40) -/
def JJ (g : G) : Int :=
  (72 * g.a * g.e + 9 * g.b * g.d - 2 * (g.c * g.c)) * g.c
    - 27 * (g.a * (g.d * g.d) + (g.b * g.b) * g.e)

/-- `H_invariant` (mquartic.h:42-45) -/
def HH (g : G) : Int := 8 * g.a * g.c - 3 * (g.b * g.b)

/-- `R_invariant` (mquartic.h:47-51) -/
def RR (g : G) : Int := g.b ^ 3 + 8 * g.d * (g.a * g.a) - 4 * g.a * g.b * g.c

/-- `disc` as computed in `set_roots_and_type` (mquartic.cc:61) -/
def disc (g : G) : Int := 4 * g.II ^ 3 - g.JJ * g.JJ

/-- `doubleup` on the coefficients (mquartic.h:89-92) -/
def doubleup (g : G) : G := ⟨g.a, g.b * 2, g.c * 4, g.d * 8, g.e * 16⟩

/-- `apply_transform(a,b,c,d,e,unimod)` (transform.cc:53-75) -/
def apply (g : G) (m : U) : G :=
  let m11 := m.m11
  let m12 := m.m12
  let m21 := m.m21
  let m22 := m.m22
  let m112 := m11 * m11
  let m113 := m112 * m11
  let m114 := m113 * m11
  let m212 := m21 * m21
  let m213 := m212 * m21
  let m214 := m213 * m21
  let m222 := m22 * m22
  let m223 := m222 * m22
  let m224 := m223 * m22
  let m122 := m12 * m12
  let m123 := m122 * m12
  let m124 := m123 * m12
  ⟨m214 * g.e + m11 * m213 * g.d + m112 * m212 * g.c + m113 * m21 * g.b + m114 * g.a,
   4 * m213 * m22 * g.e + (3 * m11 * m212 * m22 + m12 * m213) * g.d
    + 2 * (m112 * m21 * m22 + m11 * m12 * m212) * g.c
    + (3 * m112 * m12 * m21 + m113 * m22) * g.b + 4 * m113 * m12 * g.a,
   6 * m212 * m222 * g.e + 3 * (m12 * m212 * m22 + m11 * m21 * m222) * g.d
    + (m122 * m212 + 4 * m11 * m12 * m21 * m22 + m112 * m222) * g.c
    + 3 * (m11 * m122 * m21 + m112 * m12 * m22) * g.b + 6 * m112 * m122 * g.a,
   4 * m21 * m223 * g.e + (3 * m12 * m21 * m222 + m11 * m223) * g.d
    + 2 * (m122 * m21 * m22 + m11 * m12 * m222) * g.c
    + (m123 * m21 + 3 * m11 * m122 * m22) * g.b + 4 * m11 * m123 * g.a,
   m224 * g.e + m12 * m223 * g.d + m122 * m222 * g.c + m123 * m22 * g.b + m124 * g.a⟩

/-- the five `divide_exact` calls (transform.cc:84-88); `divide_exact` is NTL's floor division
(marith.h: `divide_exact(a,b,c)` is `c=a/b`) -/
def divBy (g : G) (u : Int) : G :=
  ⟨Int.fdiv g.a u, Int.fdiv g.b u, Int.fdiv g.c u, Int.fdiv g.d u, Int.fdiv g.e u⟩

/-- `apply_transform(a,b,c,d,e,scaled_unimod)` (transform.cc:77-90) -/
def applyS (g : G) (m : SU) : G :=
  let g := g.apply m.toU
  let u2 := m.m00 * m.m00
  if u2 > 1 then g.divBy u2 else g

/-- `xshift` (transform.cc:92-101) -/
def xshift (g : G) (m : U) (t : Int) : G × U :=
  (⟨g.a, g.b + 4 * t * g.a, g.c + t * (3 * g.b + 6 * t * g.a),
    g.d + t * (2 * g.c + t * (3 * g.b + 4 * t * g.a)),
    g.e + t * (g.d + t * (g.c + t * (g.b + t * g.a)))⟩, m.xShift t)

/-- `zshift` (transform.cc:103-112) -/
def zshift (g : G) (m : U) (t : Int) : G × U :=
  (⟨g.a + t * (g.b + t * (g.c + t * (g.d + t * g.e))),
    g.b + t * (2 * g.c + t * (3 * g.d + 4 * t * g.e)),
    g.c + t * (3 * g.d + 6 * t * g.e), g.d + 4 * t * g.e, g.e⟩, m.yShift t)

/-- `m_invert` (transform.cc:114-126) -/
def mInvert (g : G) (m : U) : G × U := (⟨g.e, -g.d, g.c, -g.b, g.a⟩, m.invert)

/-- `check_transform(…, unimod, …)` (transform.cc:128-142) -/
def checkTransform (g : G) (m : U) (x : G) : Bool :=
  let h := g.apply m
  if h.a ≠ x.a then false
  else if h.b ≠ x.b then false
  else if h.c ≠ x.c then false
  else if h.d ≠ x.d then false
  else if h.e ≠ x.e then false
  else true

/-- `check_transform(…, scaled_unimod, …)` (transform.cc:144-158) -/
def checkTransformS (g : G) (m : SU) (x : G) : Bool :=
  let h := g.applyS m
  if h.a ≠ x.a then false
  else if h.b ≠ x.b then false
  else if h.c ≠ x.c then false
  else if h.d ≠ x.d then false
  else if h.e ≠ x.e then false
  else true

end G

end Eclib.Forms
