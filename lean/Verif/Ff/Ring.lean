import Verif.Ff.Model
import Verif.Pmod.Law

/-!
# The coordinate ring: elements, ideals of points, leading coefficients at infinity
-/

set_option linter.unusedSectionVars false

namespace Eclib.Ff

open Pmod (Pq coords)
open Polynomial
open WeierstrassCurve.Affine (CoordinateRing)
open WeierstrassCurve.Affine.CoordinateRing (mk XClass YClass XIdeal YIdeal XYIdeal)

variable {F : Type} [Field F] [DecidableEq F] {E : WeierstrassCurve F}

/-! ## the specification -/

/-- the polynomial with the given coefficients -/
noncomputable def toPoly (l : List F) : F[X] := l.foldr (fun a p => C a + X * p) 0

/-- the function `h1 + h2*Y` -/
noncomputable def toCR (E : WeierstrassCurve F) (h : FF F) : E.toAffine.CoordinateRing :=
  toPoly h.h1 • (1 : E.toAffine.CoordinateRing) + toPoly h.h2 • mk E.toAffine Polynomial.X

/-- the ideal of the functions vanishing at a point; for the point at infinity, all functions -/
noncomputable def I : E.toAffine.Point → Ideal E.toAffine.CoordinateRing
  | .zero => 1
  | .some x y _ => XYIdeal E.toAffine x (C y)

/-- the value of a function at a point -/
noncomputable def ev {x y : F} (h : E.toAffine.Equation x y) : E.toAffine.CoordinateRing →+* F :=
  AdjoinRoot.lift (evalRingHom x) y (by
    have e := (WeierstrassCurve.Affine.equation_iff x y).mp h
    simp only [WeierstrassCurve.Affine.polynomial, eval₂_add, eval₂_sub, eval₂_mul, eval₂_pow, eval₂_X, eval₂_C,
      coe_evalRingHom, eval_add, eval_mul, eval_pow, eval_X, eval_C]
    linear_combination e)

/-! ## polynomials -/

@[simp] theorem toPoly_nil : toPoly ([] : List F) = 0 := rfl

@[simp] theorem toPoly_cons (a : F) (l : List F) : toPoly (a :: l) = C a + X * toPoly l := rfl

@[simp] theorem toPoly_padd (f g : List F) : toPoly (padd f g) = toPoly f + toPoly g := by
  induction f generalizing g with
  | nil => simp [padd]
  | cons a f ih =>
    cases g with
    | nil => simp [padd]
    | cons b g =>
      simp only [padd, toPoly_cons, ih, C_add]
      ring

@[simp] theorem toPoly_psmul (c : F) (f : List F) : toPoly (psmul c f) = C c * toPoly f := by
  unfold psmul
  induction f with
  | nil => simp
  | cons a f ih =>
    rw [List.map_cons, toPoly_cons, toPoly_cons, ih, C_mul]
    ring

@[simp] theorem toPoly_psub (f g : List F) : toPoly (psub f g) = toPoly f - toPoly g := by
  rw [psub, toPoly_padd, toPoly_psmul, C_neg, C_1]
  ring

@[simp] theorem toPoly_pmul (f g : List F) : toPoly (pmul f g) = toPoly f * toPoly g := by
  induction f with
  | nil => simp [pmul]
  | cons a f ih =>
    simp only [pmul, toPoly_padd, toPoly_psmul, toPoly_cons, ih, C_0, zero_add]
    ring

theorem synth_spec (c : F) (f : List F) : toPoly f = (X - C c) * toPoly (synth c f).1 + C (synth c f).2 := by
  induction f with
  | nil => simp [synth]
  | cons a f ih =>
    simp only [synth, toPoly_cons, C_add, C_mul]
    linear_combination X * ih

theorem peval_spec (f : List F) (x : F) : peval f x = (toPoly f).eval x := by
  unfold peval
  induction f with
  | nil => simp
  | cons a f ih =>
    rw [List.foldr_cons, ih, toPoly_cons, eval_add, eval_C, eval_mul, eval_X]
    ring

theorem synth_of_mul {c : F} {f : List F} {g : F[X]} (h : toPoly f = (X - C c) * g) : toPoly (synth c f).1 = g := by
  have h1 := synth_spec c f
  have h0 : (synth c f).2 = 0 := by
    have := congrArg (Polynomial.eval c) (h.symm.trans h1)
    simpa using this.symm
  rw [h, h0, C_0, add_zero] at h1
  exact (mul_left_cancel₀ (X_sub_C_ne_zero c) h1).symm

/-! ## ring operations -/

theorem toCR_add (a b : FF F) : toCR E (add a b) = toCR E a + toCR E b := by
  simp only [toCR, add, toPoly_padd, add_smul]
  abel

theorem toCR_sub (a b : FF F) : toCR E (sub a b) = toCR E a - toCR E b := by
  simp only [toCR, sub, toPoly_psub, sub_smul]
  abel

theorem poly_f1 : toPoly (f1 E) = X ^ 3 + C E.a₂ * X ^ 2 + C E.a₄ * X + C E.a₆ := by
  simp [f1]; ring

theorem poly_f2 : toPoly (f2 E) = C E.a₁ * X + C E.a₃ := by
  simp [f2]; ring

/-- the product of two elements -/
theorem basis_mul (p q p' q' : F[X]) :
    (p • (1 : E.toAffine.CoordinateRing) + q • mk E.toAffine Polynomial.X) *
      (p' • (1 : E.toAffine.CoordinateRing) + q' • mk E.toAffine Polynomial.X) =
    (p * p' + toPoly (f1 E) * q * q') • (1 : E.toAffine.CoordinateRing) +
      (p * q' + q * p' - toPoly (f2 E) * q * q') • mk E.toAffine Polynomial.X := by
  have h := CoordinateRing.smul_basis_mul_Y (W' := E.toAffine) p q
  rw [← poly_f1, ← poly_f2] at h
  rw [mul_add, Algebra.mul_smul_comm, mul_one, Algebra.mul_smul_comm, h]
  module

theorem toCR_mul (a b : FF F) : toCR E (mul E a b) = toCR E a * toCR E b := by
  unfold toCR mul
  rw [basis_mul]
  simp only [toPoly_padd, toPoly_pmul, toPoly_psub]

theorem toCR_mulPoly (a : FF F) (h : List F) : toCR E (mulPoly a h) = toPoly h • toCR E a := by
  simp only [toCR, mulPoly, toPoly_pmul, smul_add, smul_smul]

theorem ev_smul {x y : F} (h : E.toAffine.Equation x y) (p : F[X]) (z : E.toAffine.CoordinateRing) :
    ev h (p • z) = p.eval x * ev h z := by
  rw [CoordinateRing.smul, map_mul]
  simp [ev]

theorem ev_basis {x y : F} (h : E.toAffine.Equation x y) (p q : F[X]) :
    ev h (p • (1 : E.toAffine.CoordinateRing) + q • mk E.toAffine Polynomial.X) = p.eval x + y * q.eval x := by
  rw [map_add, ev_smul, ev_smul, map_one]
  simp [ev, mul_comm]

theorem evaluate_spec (g : FF F) {x y : F} (h : E.toAffine.Equation x y) :
    evaluate g (.pt x y) = some (ev h (toCR E g)) := by
  rw [toCR, ev_basis, evaluate, peval_spec, peval_spec]

theorem basis_inj {p q p' q' : F[X]}
    (h : p • (1 : E.toAffine.CoordinateRing) + q • mk E.toAffine Polynomial.X = p' • 1 + q' • mk E.toAffine Polynomial.X) :
    p = p' ∧ q = q' := by
  have := CoordinateRing.smul_basis_eq_zero (W' := E.toAffine) (p := p - p') (q := q - q') (by
    rw [sub_smul, sub_smul]
    linear_combination h)
  exact ⟨sub_eq_zero.mp this.1, sub_eq_zero.mp this.2⟩

/-! ## ideals of points -/

theorem XClass_smul (x : F) : XClass E.toAffine x = (X - C x : F[X]) • (1 : E.toAffine.CoordinateRing) := by
  rw [CoordinateRing.smul, mul_one]; rfl

theorem XClass_toCR (x : F) (y : F) : XClass E.toAffine x = toCR E (vertical (.pt x y)) := by
  rw [XClass_smul]
  simp only [toCR, vertical, toPoly_cons, toPoly_nil, zero_smul, add_zero]
  congr 1
  simp; ring

theorem I_zero : I (0 : E.toAffine.Point) = 1 := rfl

theorem I_neg_mul (A : E.toAffine.Point) : I A * I (-A) = Ideal.span {toCR E (vertical (coords A))} := by
  cases A with
  | zero =>
    change (1 : Ideal _) * 1 = Ideal.span {toCR E (vertical .oo)}
    have : toCR E (vertical .oo) = 1 := by simp [toCR, vertical]
    rw [this, mul_one, Ideal.span_singleton_one, Ideal.one_eq_top]
  | some x y h =>
    change XYIdeal E.toAffine x (C y) * XYIdeal E.toAffine x (C (E.toAffine.negY x y)) = _
    rw [mul_comm, CoordinateRing.XYIdeal_neg_mul h, XIdeal, XClass_toCR x y]
    rfl

theorem vertical_ne (P : Pq F) : toCR E (vertical P) ≠ 0 := by
  cases P with
  | oo =>
    have : toCR E (vertical .oo) = 1 := by simp [toCR, vertical]
    rw [this]; exact one_ne_zero
  | pt x y => rw [← XClass_toCR]; exact CoordinateRing.XClass_ne_zero x

theorem line_toCR (x y s : F) :
    toCR E ⟨[-y - s * -x, -s], [1]⟩ = YClass E.toAffine (WeierstrassCurve.Affine.linePolynomial x y s) := by
  simp only [toCR, YClass, toPoly_cons, toPoly_nil, WeierstrassCurve.Affine.linePolynomial]
  rw [CoordinateRing.smul, CoordinateRing.smul, mul_one]
  simp
  ring

/-- the line through two points which are not opposite -/
theorem line_ideal {x₁ y₁ x₂ y₂ : F} (h₁ : E.toAffine.Nonsingular x₁ y₁) (h₂ : E.toAffine.Nonsingular x₂ y₂)
    (hxy : ¬ (x₁ = x₂ ∧ y₁ = E.toAffine.negY x₂ y₂)) :
    Ideal.span {YClass E.toAffine (WeierstrassCurve.Affine.linePolynomial x₁ y₁ (E.toAffine.slope x₁ x₂ y₁ y₂))} =
      I (.some x₁ y₁ h₁) * I (.some x₂ y₂ h₂) * I (-(.some x₁ y₁ h₁ + .some x₂ y₂ h₂)) := by
  have e := CoordinateRing.XYIdeal_mul_XYIdeal h₁.1 h₂.1 hxy
  rw [WeierstrassCurve.Affine.Point.add_some hxy]
  set s := E.toAffine.slope x₁ x₂ y₁ y₂
  have n := I_neg_mul (WeierstrassCurve.Affine.Point.some _ _ (WeierstrassCurve.Affine.nonsingular_add h₁ h₂ hxy))
  change XIdeal E.toAffine _ * (I (.some x₁ y₁ h₁) * I (.some x₂ y₂ h₂)) = Ideal.span {_} *
    I (.some _ _ (WeierstrassCurve.Affine.nonsingular_add h₁ h₂ hxy)) at e
  set S := WeierstrassCurve.Affine.Point.some _ _ (WeierstrassCurve.Affine.nonsingular_add h₁ h₂ hxy)
  have hx : XIdeal E.toAffine (E.toAffine.addX x₁ x₂ s) = Ideal.span {toCR E (vertical (coords S))} := by
    rw [XIdeal, XClass_toCR]; rfl
  rw [hx] at e
  have k := Ideal.span_singleton_mul_right_inj (vertical_ne (E := E) (coords S)) |>.mp
    (show Ideal.span {toCR E (vertical (coords S))} * (I (.some x₁ y₁ h₁) * I (.some x₂ y₂ h₂) * I (-S)) =
      Ideal.span {toCR E (vertical (coords S))} * Ideal.span {YClass E.toAffine
        (WeierstrassCurve.Affine.linePolynomial x₁ y₁ s)} by
    rw [← mul_assoc, e, mul_assoc, n, mul_comm])
  exact k.symm

end Eclib.Ff
