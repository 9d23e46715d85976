import Mathlib.AlgebraicGeometry.EllipticCurve.Affine.Point
import Mathlib.Data.Int.Sqrt

/-!
# Model of class pointmodq: points on an elliptic curve over a finite field

Source: libsrc/pointsmod.cc and eclib/pointsmod.h.

NTL's `ZZ_p` is modelled by an arbitrary field `F` with decidable equality; the prime field is the
case `F = ZMod q`.  The division of `ZZ_p` raises an error when the divisor is not invertible; the
code divides only by elements it has tested to be non-zero (and by 2 in `set_x_coordinate`), and
`F` is a field, so that the division of `F` is used here.  A curve is the list of its five
coefficients, for which Mathlib's record `WeierstrassCurve F` is used.
-/

namespace Eclib.Pmod

/-- the data `X`, `Y`, `is0flag` of a pointmodq (pointsmod.h:54-60); the coordinates of the point at
infinity are not looked at by any member.  The cached `order` is modelled with the functions which
use it, the curve is an explicit argument. -/
inductive Pq (F : Type) where
  | oo
  | pt (x y : F)
  deriving DecidableEq

namespace Pq

variable {F : Type} [Field F] [DecidableEq F] (E : WeierstrassCurve F)

/-- `pointmodq::on_curve` (pointsmod.h:121-125) -/
def onCurve : Pq F → Bool
  | oo => true
  | pt X Y => decide (Y * (Y + E.a₁ * X + E.a₃) - (X * (X * (X + E.a₂) + E.a₄) + E.a₆) = 0)

/-- `pointmodq::operator==` for points on the same curve (pointsmod.h:109-117) -/
def eq : Pq F → Pq F → Bool
  | oo, oo => true
  | oo, pt _ _ => false
  | pt _ _, oo => false
  | pt X Y, pt X' Y' => X = X' && Y = Y'

/-- `pointmodq::negate` (pointsmod.cc:143-147) -/
def neg : Pq F → Pq F
  | oo => oo
  | pt X Y => pt X (-Y - E.a₁ * X - E.a₃)

/-- `pointmodq::twice` (pointsmod.cc:154-177), with the error exit, which returns the point itself -/
def twice : Pq F → Pq F
  | oo => oo
  | pt X Y =>
    let den := 2 * Y + E.a₁ * X + E.a₃
    if den = 0 then oo
    else
      let lambda := (3 * X * X + 2 * E.a₂ * X + E.a₄ - E.a₁ * Y) / den
      let mu := Y - lambda * X
      let x := lambda * (lambda + E.a₁) - E.a₂ - 2 * X
      let ans := pt x (lambda * x + mu)
      if !onCurve E ans then pt X Y else neg E ans

/-- `pointmodq::operator+` (pointsmod.cc:113-136), with the error exit -/
def add : Pq F → Pq F → Pq F
  | oo, Q => Q
  | P, oo => P
  | pt X Y, pt XQ YQ =>
    if X = XQ then
      if Y = YQ then twice E (pt X Y) else oo
    else
      let lambda := (Y - YQ) / (X - XQ)
      let mu := Y - lambda * X
      let x := lambda * (lambda + E.a₁) - E.a₂ - X - XQ
      let ans := pt x (lambda * x + mu)
      if !onCurve E ans then pt X Y else neg E ans

/-- `pointmodq::operator-` (pointsmod.cc:138-141) -/
def sub (P Q : Pq F) : Pq F := add E P (neg E Q)

/-- the loop of `operator*` (pointsmod.cc:200-205, 232-237): `Q` is doubled, `n` halved -/
def mulLoop (n : ℤ) (Q ans : Pq F) : Pq F :=
  if 1 < n then
    let Q := twice E Q
    let n' := n / 2
    mulLoop n' Q (if n' % 2 = 1 then add E ans Q else ans)
  else ans
termination_by n.toNat
decreasing_by omega

/-- `operator*(long, pointmodq)` and `operator*(bigint, pointmodq)` (pointsmod.cc:180-239), which are
the same code. For the first one `-n` must not overflow. -/
def mul (n : ℤ) (P : Pq F) : Pq F :=
  if P = oo ∨ n = 0 then oo
  else
    let negative := n < 0
    let n := if negative then -n else n
    if n = 1 then (if negative then neg E P else P)
    else if n = 2 then
      let ans := twice E P
      if negative then neg E ans else ans
    else
      let ans := mulLoop E n P (if n % 2 = 1 then P else oo)
      if negative then neg E ans else ans

end Pq

end Eclib.Pmod
