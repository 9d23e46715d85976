import Mathlib.Algebra.Field.ZMod
import Verif.Marith.Model
import Verif.Pmod.Model

/-!
# Model of the functions that find points by x-coordinate: set_x_coordinate, random_point,
set_group_order_via_legendre, and the second point of order 2 in my_isomorphism_type

Source: libsrc/pointsmod.cc, libsrc/curvemod.cc, eclib/gf.h.  The field is `ZMod p`.  `legendre` is
the function of marith.cc modelled in `Marith` (`none` when its loop does not end), `SqrRootMod` is
NTL's function, given by its contract.  `rep(d)` is `ZMod.val`.
-/

namespace Eclib.Pmod

open Marith (SqrRootMod)

variable {p : ℕ} [Fact p.Prime]

/-- `b2`, `b4`, `b6` and `d` (pointsmod.cc:63-66, curvemod.cc:83-90): the discriminant of the equation
for y -/
def discY (E : WeierstrassCurve (ZMod p)) (x : ZMod p) : ZMod p :=
  let b2 := E.a₁ * E.a₁ + 4 * E.a₂
  let b4 := 2 * E.a₄ + E.a₁ * E.a₃
  let b6 := E.a₃ * E.a₃ + 4 * E.a₆
  ((4 * x + b2) * x + 2 * b4) * x + b6

/-- `sqrt(F, a)` (gf.h:60-65) -/
def gfSqrt (S : SqrRootMod) (a : ZMod p) : ZMod p := (Marith.sqrtModP S a.val p : ZMod p)

/-- `sqrt(F, a, r)` (gf.h:68-79): `some none` when `a` is not a square -/
def gfSqrtTest (S : SqrRootMod) (a : ZMod p) : Option (Option (ZMod p)) :=
  match Marith.legendre a.val p with
  | none => none
  | some l =>
    if l = -1 then some none
    else if l = 1 then some (some (gfSqrt S a))
    else some (some 0)

/-- `pointmodq::set_x_coordinate` (pointsmod.cc:52-81): the returned flag and the point.  The division
by 2 is an error of NTL for `q = 2`; here it is the division of `ZMod p`. -/
def setX (S : SqrRootMod) (E : WeierstrassCurve (ZMod p)) (x : ZMod p) : Option (Bool × Pq (ZMod p)) :=
  let d := discY E x
  match Marith.legendre d.val p with
  | none => none
  | some l =>
    if l = -1 then some (false, .oo)
    else
      let P := Pq.pt x ((gfSqrt S d - (E.a₁ * x + E.a₃)) / 2)
      if !Pq.onCurve E P then some (false, P) else some (true, P)

/-- `curvemodq::random_point` (pointsmod.cc:231-241) with `xs` the values of `random(x)`: `none` when
they are used up -/
def randomPoint (S : SqrRootMod) (E : WeierstrassCurve (ZMod p)) : List (ZMod p) → Option (Pq (ZMod p))
  | [] => none
  | x :: xs =>
    match setX S E x with
    | none => none
    | some (_, .oo) => randomPoint S E xs
    | some (_, .pt x y) => some (.pt x y)

/-- the loop of `set_group_order_via_legendre` (curvemod.cc:87-92) with `n` values of `ix` to go -/
def countLoop (E : WeierstrassCurve (ZMod p)) : ℕ → ℕ → ℤ → Option ℤ
  | 0, _, order => some order
  | n + 1, ix, order =>
    match Marith.legendre (discY E (ix : ZMod p)).val p with
    | none => none
    | some l => countLoop E n (ix + 1) (order + (1 + l))

/-- `curvemodq::set_group_order_via_legendre` (curvemod.cc:75-93), when the order is not yet set -/
def countLegendre (E : WeierstrassCurve (ZMod p)) : Option ℤ := countLoop E p 0 1

/-- the second point of order 2 in `my_isomorphism_type` (pointsmod.cc:976-1003), `t` being the
x-coordinate of the first: the 2-division polynomial `4x³ + c₂x² + c₁x + c₀` (curvemod.cc:118-131) is
divided by `x - t`; `some none` when there is none.  The result of `set_x_coordinate` is used without
a test, as in the code. -/
def otherTwo (S : SqrRootMod) (E : WeierstrassCurve (ZMod p)) (t : ZMod p) :
    Option (Option (Pq (ZMod p))) :=
  let c2 := E.a₁ * E.a₁ + 4 * E.a₂
  let c1 := 2 * (2 * E.a₄ + E.a₁ * E.a₃)
  let a1 := c2 + 4 * t
  let a0 := c1 + a1 * t
  let d := a1 * a1 - 16 * a0
  match gfSqrtTest S d with
  | none => none
  | some none => some none
  | some (some _) =>
    match setX S E ((gfSqrt S d - a1) / 8) with
    | none => none
    | some (_, P) => some (some P)

end Eclib.Pmod
