import Mathlib.AlgebraicGeometry.EllipticCurve.Affine.Point
import Mathlib.Tactic.LinearCombination
import Mathlib.Algebra.Group.Even

/-!
# The map `x - e` modulo squares on an elliptic curve

For a root `e` of the 2-division polynomial `4x³ + b₂x² + 2b₄x + b₆` the class of `x(P) - e` modulo squares is a homomorphism.
-/

namespace Eclib.Sift

open WeierstrassCurve Polynomial

variable {K : Type} [Field K] [DecidableEq K]

/-- `4x³ + b₂x² + 2b₄x + b₆` -/
def g2 (W : WeierstrassCurve K) (x : K) : K := 4 * x ^ 3 + W.b₂ * x ^ 2 + 2 * W.b₄ * x + W.b₆

/-- its derivative -/
def g2' (W : WeierstrassCurve K) (x : K) : K := 12 * x ^ 2 + 2 * W.b₂ * x + 2 * W.b₄

/-- a representative of the class of the point -/
def dl (W : WeierstrassCurve K) (e : K) : W.toAffine.Point → K
  | .zero => 1
  | .some x _ _ => if x = e then g2' W e else x - e

theorem sq_eq {W : WeierstrassCurve K} {x y : K} (h : W.toAffine.Equation x y) : (2 * y + W.a₁ * x + W.a₃) ^ 2 = g2 W x := by
  rw [Affine.equation_iff] at h
  unfold g2
  simp only [WeierstrassCurve.b₂, WeierstrassCurve.b₄, WeierstrassCurve.b₆]
  linear_combination 4 * h

theorem g2'_ne {W : WeierstrassCurve K} (h2 : (2 : K) ≠ 0) (hΔ : W.Δ ≠ 0) {e : K} (he : g2 W e = 0) : g2' W e ≠ 0 := by
  intro h0
  set y := -(W.a₁ * e + W.a₃) / 2 with hy
  have hy2 : 2 * y + W.a₁ * e + W.a₃ = 0 := by rw [hy]; field_simp; ring
  have h4 : (4 : K) ≠ 0 := by
    rw [show (4 : K) = 2 * 2 by norm_num]; exact mul_ne_zero h2 h2
  have heq : W.toAffine.Equation e y := by
    rw [Affine.equation_iff]
    unfold g2 at he
    simp only [WeierstrassCurve.b₂, WeierstrassCurve.b₄, WeierstrassCurve.b₆] at he
    apply mul_left_cancel₀ h4
    linear_combination (2 * y + W.a₁ * e + W.a₃) * hy2 - he
  have hns := (W.toAffine.equation_iff_nonsingular_of_Δ_ne_zero hΔ).1 heq
  rw [Affine.nonsingular_iff] at hns
  rcases hns.2 with h | h
  · apply h
    unfold g2' at h0
    simp only [WeierstrassCurve.b₂, WeierstrassCurve.b₄] at h0
    apply mul_left_cancel₀ h4
    linear_combination 2 * W.a₁ * hy2 - h0
  · apply h
    linear_combination hy2

theorem dl_ne {W : WeierstrassCurve K} (h2 : (2 : K) ≠ 0) (hΔ : W.Δ ≠ 0) {e : K} (he : g2 W e = 0) (P : W.toAffine.Point) :
    dl W e P ≠ 0 := by
  rcases P with _ | ⟨x, y, h⟩
  · exact one_ne_zero
  · show (if x = e then g2' W e else x - e) ≠ 0
    split
    · exact g2'_ne h2 hΔ he
    · rename_i h; exact sub_ne_zero.2 h

theorem dl_neg {W : WeierstrassCurve K} (e : K) (P : W.toAffine.Point) : dl W e (-P) = dl W e P := by
  rcases P with _ | ⟨x, y, h⟩ <;> rfl

/-- the relation between the three abscissas and the line -/
theorem line_eq {W : WeierstrassCurve K} {x₁ x₂ y₁ y₂ : K} (h₁ : W.toAffine.Equation x₁ y₁) (h₂ : W.toAffine.Equation x₂ y₂)
    (hxy : ¬(x₁ = x₂ ∧ y₁ = W.toAffine.negY x₂ y₂)) (e : K) :
    (2 * (W.toAffine.slope x₁ x₂ y₁ y₂ * (e - x₁) + y₁) + W.a₁ * e + W.a₃) ^ 2 - g2 W e =
      -4 * ((e - x₁) * (e - x₂) * (e - W.toAffine.addX x₁ x₂ (W.toAffine.slope x₁ x₂ y₁ y₂))) ∧
    2 * (2 * (W.toAffine.slope x₁ x₂ y₁ y₂ * (e - x₁) + y₁) + W.a₁ * e + W.a₃) * (2 * W.toAffine.slope x₁ x₂ y₁ y₂ + W.a₁) - g2' W e =
      -4 * ((e - x₁) * (e - x₂) + (e - x₁) * (e - W.toAffine.addX x₁ x₂ (W.toAffine.slope x₁ x₂ y₁ y₂)) +
        (e - x₂) * (e - W.toAffine.addX x₁ x₂ (W.toAffine.slope x₁ x₂ y₁ y₂))) := by
  have h := Affine.addPolynomial_slope h₁ h₂ hxy
  have h' := Affine.derivative_addPolynomial_slope h₁ h₂ hxy
  set L := W.toAffine.slope x₁ x₂ y₁ y₂ with hL
  set x₃ := W.toAffine.addX x₁ x₂ L with hx3
  rw [Affine.addPolynomial_eq] at h h'
  have h3 := congrArg (Polynomial.eval e) h
  have h4 := congrArg (Polynomial.eval e) h'
  simp only [Cubic.toPoly, eval_neg, eval_mul, eval_add, eval_sub, eval_X, eval_C, eval_pow, derivative_neg, derivative_add, derivative_mul,
    derivative_C, derivative_X, derivative_X_pow] at h3 h4
  unfold g2 g2'
  simp only [WeierstrassCurve.b₂, WeierstrassCurve.b₄, WeierstrassCurve.b₆]
  constructor
  · linear_combination 4 * h3
  · push_cast at h4
    simp at h4
    linear_combination 4 * h4

/-- **the map is a homomorphism modulo squares** -/
theorem dl_add {W : WeierstrassCurve K} (h2 : (2 : K) ≠ 0) (hΔ : W.Δ ≠ 0) {e : K} (he : g2 W e = 0) (P Q : W.toAffine.Point) :
    IsSquare (dl W e P * dl W e Q * dl W e (P + Q)) := by
  have h4 : (4 : K) ≠ 0 := by
    rw [show (4 : K) = 2 * 2 by norm_num]; exact mul_ne_zero h2 h2
  rcases P with _ | ⟨x₁, y₁, n₁⟩
  · rw [show (Affine.Point.zero : W.toAffine.Point) = 0 from rfl, zero_add]
    exact ⟨dl W e Q, by show 1 * dl W e Q * dl W e Q = _; ring⟩
  rcases Q with _ | ⟨x₂, y₂, n₂⟩
  · rw [show (Affine.Point.zero : W.toAffine.Point) = 0 from rfl, add_zero]
    exact ⟨dl W e (.some x₁ y₁ n₁), by show dl W e _ * 1 * dl W e _ = _; ring⟩
  by_cases hxy : x₁ = x₂ ∧ y₁ = W.toAffine.negY x₂ y₂
  · rw [Affine.Point.add_of_Y_eq hxy.1 hxy.2]
    obtain ⟨hx, _⟩ := hxy
    subst hx
    exact ⟨if x₁ = e then g2' W e else x₁ - e, by show (if x₁ = e then g2' W e else x₁ - e) * (if x₁ = e then g2' W e else x₁ - e) * 1 = _; ring⟩
  rw [Affine.Point.add_some hxy]
  obtain ⟨l1, l2⟩ := line_eq n₁.1 n₂.1 hxy e
  have n₃ := Affine.nonsingular_add n₁ n₂ hxy
  show IsSquare ((if x₁ = e then g2' W e else x₁ - e) * (if x₂ = e then g2' W e else x₂ - e) *
    (if W.toAffine.addX x₁ x₂ (W.toAffine.slope x₁ x₂ y₁ y₂) = e then g2' W e else W.toAffine.addX x₁ x₂ (W.toAffine.slope x₁ x₂ y₁ y₂) - e))
  set L := W.toAffine.slope x₁ x₂ y₁ y₂ with hL
  set x₃ := W.toAffine.addX x₁ x₂ L with hx3
  set m := 2 * (L * (e - x₁) + y₁) + W.a₁ * e + W.a₃ with hm
  rw [he, sub_zero] at l1
  have hg' := g2'_ne h2 hΔ he
  by_cases e1 : x₁ = e
  · have hm0 : m = 0 := by
      have : m ^ 2 = 0 := by rw [l1, e1]; ring
      exact pow_eq_zero_iff (two_ne_zero) |>.1 this
    rw [hm0] at l2
    have e2 : x₂ ≠ e := by
      intro e2
      apply hg'
      rw [e1, e2] at l2
      linear_combination -l2
    have e3 : x₃ ≠ e := by
      intro e3
      apply hg'
      rw [e1, e3] at l2
      linear_combination -l2
    rw [if_pos e1, if_neg e2, if_neg e3]
    refine ⟨2 * (x₂ - e) * (x₃ - e), ?_⟩
    rw [e1] at l2
    linear_combination -(x₂ - e) * (x₃ - e) * l2
  · rw [if_neg e1]
    by_cases e2 : x₂ = e
    · have hm0 : m = 0 := by
        have : m ^ 2 = 0 := by rw [l1, e2]; ring
        exact pow_eq_zero_iff (two_ne_zero) |>.1 this
      rw [hm0] at l2
      have e3 : x₃ ≠ e := by
        intro e3
        apply hg'
        rw [e2, e3] at l2
        linear_combination -l2
      rw [if_pos e2, if_neg e3]
      refine ⟨2 * (x₁ - e) * (x₃ - e), ?_⟩
      rw [e2] at l2
      linear_combination -(x₁ - e) * (x₃ - e) * l2
    · rw [if_neg e2]
      by_cases e3 : x₃ = e
      · have hm0 : m = 0 := by
          have : m ^ 2 = 0 := by rw [l1, e3]; ring
          exact pow_eq_zero_iff (two_ne_zero) |>.1 this
        rw [hm0] at l2
        rw [if_pos e3]
        refine ⟨2 * (x₁ - e) * (x₂ - e), ?_⟩
        rw [e3] at l2
        linear_combination -(x₁ - e) * (x₂ - e) * l2
      · rw [if_neg e3]
        refine ⟨m / 2, ?_⟩
        field_simp
        linear_combination -l1

end Eclib.Sift
