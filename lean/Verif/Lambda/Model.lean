import Verif.Curve.Model
import Mathlib.Algebra.Order.Field.Rat

/-!
# Model of lambda.cc, and of the local height `pheight` (heights.cc)

`bigfloat` is an exact field; the logarithms are a function `lg` with values in this field.
-/

namespace Eclib.Lambda

open Eclib.Curve Marith

/-- `make_point_from_x(Curvedata*, const bigint& xa, const bigint& xd, Point*)` (lambda.cc:110-126); `none` for the return value 0 -/
def makePointFromX (E : Cd) (xa xd : ℤ) : Option P2 :=
  let a := if xd < 0 then -xa else xa
  let d := if xd < 0 then -xd else xd
  let r := isqrt d
  if r.1 then
    let c : ℤ := r.2
    let d2 := d * d
    let d3 := d2 * d
    let e2 := ((4 * a + E.b2 * d) * a + 2 * E.b4 * d2) * a + E.b6 * d3
    let q := isqrt e2
    if q.1 then
      let e : ℤ := q.2
      let b := (e - E.a1 * a * c - E.a3 * c * d).fdiv 2
      some (P2.mk' (a * c) b (c * d))
    else none
  else none

/-- the test of one denominator `xd²` in `make_point_from_x_and_ht` (lambda.cc:176-178, 186-188, 193-195); `rnd` is `Iround` -/
def tryD {K : Type} [Field K] (rnd : K → ℤ) (E : Cd) (xp : K) (xd : ℤ) : Option P2 :=
  let xd2 := xd * xd
  let xa := rnd (xp * (xd2 : K))
  makePointFromX E xa xd2

/-- the loop on `id` in `make_point_from_x_and_ht` (lambda.cc:182-197), `k` passages: as in the code the tests are for `xdx` but the
denominator used is `xd` -/
def deltaLoop {K : Type} [Field K] (rnd : K → ℤ) (E : Cd) (xp : K) (xd : ℤ) : ℕ → Option P2
  | 0 => none
  | k + 1 =>
    match (if xd + 10 > 0 then tryD rnd E xp xd else none) with
    | some P => some P
    | none =>
      match (if xd - 10 > 0 then tryD rnd E xp xd else none) with
      | some P => some P
      | none => deltaLoop rnd E xp xd k

/-- the body of the loop on the lambdas (lambda.cc:169-198); `xd` is `Iround(exp((ht-rh-lam)/2))` -/
def tryLam {K : Type} [Field K] (rnd : K → ℤ) (E : Cd) (xp : K) (xd : ℤ) : Option P2 :=
  match (if xd > 0 then tryD rnd E xp xd else none) with
  | some P => some P
  | none => deltaLoop rnd E xp xd 10

/-- `make_point_from_x_and_ht` (lambda.cc:166-201); the list has for every lambda the integer `xd = Iround(exp((ht-rh-lam)/2))`,
which the code computes from the heights -/
def makePointHt {K : Type} [Field K] (rnd : K → ℤ) (E : Cd) (xp : K) : List ℤ → Option P2
  | [] => none
  | xd :: l =>
    match tryLam rnd E xp xd with
    | some P => some P
    | none => makePointHt rnd E xp l

/-- `lambda_bad_1` (lambda.cc:36-73), without the factor `log p` common to all the values: the entries are `lambda / log p`, exact
rational numbers; the length of the list is `nlambda` -/
def lambdaBad1 (p kcode npd : ℤ) : List ℚ :=
  if kcode.tmod 10 = 0 then
    (List.range (1 + (kcode.tdiv 10).tdiv 2).toNat).map fun i : ℕ => ((i * i : ℚ) / npd - i)
  else if kcode.tmod 10 = 1 then
    let m : ℚ := ((kcode - 1 : ℤ) : ℚ) / 10
    [0, -1, -(1 + m / 4)]
  else if kcode = 2 ∨ kcode = 7 ∨ p > 3 then [0]
  else
    let nn : ℤ := if kcode < 5 then kcode else kcode + 3
    [0, -(nn : ℚ) / 6]

/-- one passage of the loop of `lambda_bad` (lambda.cc:100-105): the vector `ans` with `nlambda`, and the list for one prime -/
def lamStep {K : Type} [Field K] (s : List K × ℕ) (list : List K) : List K × ℕ :=
  (s.1 ++ (List.range s.2).flatMap (fun i => list.map (fun x => s.1.getD i 0 + x)), s.2 * list.length)

/-- `lambda_bad` (lambda.cc:75-105), the returned vector and `nlambda`; `data` has the bad primes with Kodaira code and valuation of
the discriminant -/
def lambdaBad {K : Type} [Field K] (lg : ℤ → K) (discr : ℤ) (data : List (ℤ × ℤ × ℤ)) : List K × ℕ :=
  data.foldl (fun s t =>
    if !div (t.1 * t.1) discr then s
    else lamStep s ((lambdaBad1 t.1 t.2.1 t.2.2).map (fun q => (q : K) * lg t.1))) ([0], 1)

/-- `pheight` (heights.cc:125-189), without the factor `log p`: the variable `lambda`, as an exact rational number -/
def pheight (E : Cd) (P : P2) (p : ℤ) : ℚ :=
  let n : ℤ := val p E.discr
  let x := P.X
  let y := P.Y
  let z := P.Z
  let zroot : ℤ := Int.gcd x z
  let vpz : ℤ := 3 * val p zroot
  let x2 := x * x
  let z2 := z * z
  let xz := x * z
  let yz := y * z
  let a : ℤ := val p (3 * x2 + 2 * E.a2 * xz + E.a4 * z2 - E.a1 * yz) - 2 * vpz
  let b : ℤ := val p (2 * y + E.a1 * x + E.a3 * z) - vpz
  let c : ℤ := val p (3 * x2 * x2 + E.b2 * x2 * xz + 3 * E.b4 * x2 * z2 + 3 * E.b6 * xz * z2 + E.b8 * z2 * z2) - 4 * vpz
  let halfn : ℚ := (n : ℚ) / 2
  if a ≤ 0 ∨ b ≤ 0 then
    let lam : ℚ := ((vpz - val p x : ℤ) : ℚ)
    if lam < 0 then 0 else lam
  else if !div p E.c4 then
    let m : ℚ := if halfn < b then halfn else b
    m * (m - n) / n
  else if c ≥ 3 * b then -2 * b / 3
  else -(c : ℚ) / 4

end Eclib.Lambda
