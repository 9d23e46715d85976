import Verif.Hasse.Bound
import Verif.Pmod.LegProps

/-!
# Orders and structure of the group of points of an elliptic curve over a prime field

The results of C67 and C69 which rest on Hasse's bound, stated for elliptic curves over `ZMod p` with
the bound supplied by `Eclib.Hasse.hasse` and with the order of a point computed by the modelled
`order_point`.
-/

namespace Eclib.Pmod

open Eclib.Marith

variable {p : ℕ} [Fact p.Prime]

theorem finite_point (E : WeierstrassCurve (ZMod p)) (hE : E.Δ ≠ 0) : Finite E.toAffine.Point :=
  Finite.of_equiv _ (pointEquiv E hE).symm

theorem two_le_prime : (2 : ℤ) ≤ p := by exact_mod_cast (Fact.out : p.Prime).two_le

/-- **C67.** For every elliptic curve over a prime field and every point `P` of it, `order_point(P)`
(pointsmod.h; the interval is the one of `set_hasse_bounds`) returns the order of `P`. -/
theorem C67_order_point (E : WeierstrassCurve (ZMod p)) (hE : E.Δ ≠ 0) {pdivs : ℤ → List ℤ}
    (hpd : Curve.PdivsOk pdivs) (P : E.toAffine.Point) (fuel : ℕ) (hf : (hasseBounds p).2 ≤ fuel) :
    orderPoint xKey pdivs fuel p P = some (addOrderOf P : ℤ) := by
  have := finite_point E hE
  exact order_point_of_hasse E hpd P p two_le_prime (Hasse.hasse E hE) fuel hf

/-- `ord` is the function computed by `order_point` -/
def OrdOf (E : WeierstrassCurve (ZMod p)) (pdivs : ℤ → List ℤ) (fuel : ℕ)
    (ord : E.toAffine.Point → ℤ) : Prop :=
  ∀ Q, orderPoint xKey pdivs fuel p Q = some (ord Q)

theorem OrdOf.ok {E : WeierstrassCurve (ZMod p)} (hE : E.Δ ≠ 0) {pdivs : ℤ → List ℤ}
    (hpd : Curve.PdivsOk pdivs) {fuel : ℕ} (hf : (hasseBounds p).2 ≤ fuel)
    {ord : E.toAffine.Point → ℤ} (h : OrdOf E pdivs fuel ord) (Q : E.toAffine.Point) :
    ord Q = addOrderOf Q := by
  have h1 := h Q
  rw [C67_order_point E hE hpd Q fuel hf] at h1
  exact (Option.some.inj h1).symm

/-- **C69 (small fields).** Over `F_q` with `q` odd and either below 100 or one of 181, 331, 547, with
the group order as counted by `set_group_order_via_legendre`, orders of points as computed by
`order_point`, the second point of order 2 as computed and any random points: if `my_isomorphism_type`
returns then `P1` and `P2` are independent, have the orders returned and generate the group. -/
theorem C69_curve_counted (hp : p ≠ 2) (hq : countDirectly p = true) (S : SqrRootMod)
    (E : WeierstrassCurve (ZMod p)) (hE : E.Δ ≠ 0) {K : Type} [Monoid K] [DecidableEq K]
    {wp : E.toAffine.Point → E.toAffine.Point → ℤ → K} (hwp : WeilOk wp) {pdivs : ℤ → List ℤ}
    (hpd : Curve.PdivsOk pdivs) {fuel : ℕ} (hf : (hasseBounds p).2 ≤ fuel)
    {ord : E.toAffine.Point → ℤ} (hord : OrdOf E pdivs fuel ord)
    {other2 : E.toAffine.Point → Option E.toAffine.Point} (h2 : Other2Of S E other2)
    (rnd : ℕ → E.toAffine.Point) (leg : ℤ) (hleg : countLegendre E = some leg)
    {P1 P2 : E.toAffine.Point} {n1 n2 : ℤ}
    (hres : isoType xKey pdivs fuel ord wp other2 rnd p leg = some (P1, n1, P2, n2)) :
    IsBasis P1 n1 P2 n2 := by
  refine C69_curve hp hq S E hE hwp hpd (hord.ok hE hpd hf) h2 rnd leg hleg ?_ hres
  rw [C70_count hp E hE, Option.some.injEq] at hleg
  rw [← hleg]
  exact le_trans ((C67_hasse_bounds p _ two_le_prime).2.2 (Hasse.hasse E hE)).2 hf

/-- **C69 (other fields).** For the remaining fields the same holds if the quotient of the number of
points by the exponent divides the exponent and `q - 1` (a consequence of the Weil pairing) and the
first loop reached the exponent.  Missing: the last hypothesis, without which the statement fails
(`C69_iso_type_wrong`). -/
theorem C69_curve_partial (hp : p ≠ 2) (hq : countDirectly p = false) (S : SqrRootMod)
    (E : WeierstrassCurve (ZMod p)) (hE : E.Δ ≠ 0) {K : Type} [Monoid K] [DecidableEq K]
    {wp : E.toAffine.Point → E.toAffine.Point → ℤ → K} (hwp : WeilOk wp) {pdivs : ℤ → List ℤ}
    (hpd : Curve.PdivsOk pdivs) {fuel : ℕ} (hf : (hasseBounds p).2 ≤ fuel)
    {ord : E.toAffine.Point → ℤ} (hord : OrdOf E pdivs fuel ord)
    {other2 : E.toAffine.Point → Option E.toAffine.Point} (h2 : Other2Of S E other2)
    (rnd : ℕ → E.toAffine.Point) (leg : ℤ)
    (hstr : ∀ n x : ℤ, (n = AddMonoid.exponent E.toAffine.Point) →
      n * x = Nat.card E.toAffine.Point → x ∣ n ∧ x ∣ (p : ℤ) - 1)
    (hmax : ∀ n P ordP, isoLoop1 ord rnd (hasseBounds p).1 (hasseBounds p).2 p fuel 1 (rnd 0)
      (addOrderOf (rnd 0)) = some (n, P, ordP) → ∀ R : E.toAffine.Point, ordP • R = 0)
    {P1 P2 : E.toAffine.Point} {n1 n2 : ℤ}
    (hres : isoType xKey pdivs fuel ord wp other2 rnd p leg = some (P1, n1, P2, n2)) :
    IsBasis P1 n1 P2 n2 := by
  have := finite_point E hE
  exact C69_iso_type_partial xKey_ok hwp hpd (hord.ok hE hpd hf) (h2.ok hp hE) rnd p leg two_le_prime
    hq (Hasse.hasse E hE) hstr hf hmax hres

/-- **C69 (cyclic case).** Over `F_q` with `q > 33`, whatever random points are drawn: when the first
loop ends with the only possible quotient equal to 1, its point `P` generates the group. -/
theorem C69_curve_cyclic (hq : 33 < p) (E : WeierstrassCurve (ZMod p)) (hE : E.Δ ≠ 0)
    {pdivs : ℤ → List ℤ} (hpd : Curve.PdivsOk pdivs) {fuel : ℕ} (hf : (hasseBounds p).2 ≤ fuel)
    {ord : E.toAffine.Point → ℤ} (hord : OrdOf E pdivs fuel ord) (rnd : ℕ → E.toAffine.Point)
    (n : ℕ) (P : E.toAffine.Point) (ordP : ℤ)
    (hl : isoLoop1 ord rnd (hasseBounds p).1 (hasseBounds p).2 p fuel 1 (rnd 0) (ord (rnd 0)) =
      some (n, P, ordP))
    (h1 : n2list ordP (hasseBounds p).1 (hasseBounds p).2 p = [1]) :
    IsBasis P ordP 0 1 := by
  have := finite_point E hE
  rw [hord.ok hE hpd hf] at hl
  exact C69_cyclic (hord.ok hE hpd hf) rnd p (by exact_mod_cast hq) (Hasse.hasse E hE) fuel n P ordP
    hl h1

/-! ### concrete cases -/

instance : Fact (Nat.Prime 37) := ⟨by decide +kernel⟩

/-- the curve y² = x³ + 5 over F_37, with 37 points -/
def ex37 : WeierstrassCurve (ZMod 37) := ⟨0, 0, 0, 0, 5⟩

/-- the point (6,6) of it -/
def p37 : ex37.toAffine.Point := .some 6 6
  ((WeierstrassCurve.Affine.equation_iff_nonsingular_of_Δ_ne_zero (by decide +kernel)).1
    ((onCurve_iff 6 6).1 (by decide +kernel)))

/-- the hypotheses of `C67_order_point`, and its conclusion computed -/
example : ex37.Δ ≠ 0 ∧ hasseBounds 37 = (26, 50) ∧
    orderPoint xKey (fun _ => [37]) 50 37 p37 = some 37 ∧ ex7.Δ ≠ 0 ∧
    orderPoint xKey (fun n => if n % 2 = 0 then [2, 3] else [3]) 13 7 p7 = some 6 := by
  decide +kernel

/-- the hypotheses of `C69_curve_cyclic` -/
example : isoLoop1 (fun Q => if Q = 0 then 1 else 37) (fun _ => p37) 26 50 37 50 1 p37 37 =
    some (1, p37, 37) ∧ n2list 37 26 50 37 = [1] := by
  decide +kernel

end Eclib.Pmod
