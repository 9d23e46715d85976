import Verif.Mw.Tate
import Verif.Mw.Proc
import Verif.Rank2.Height

/-!
# The canonical height of the rational points of an elliptic curve

For C119: the contract about heights is met by the canonical height of every elliptic curve over the
rational numbers.
-/

namespace Eclib.Mw

open WeierstrassCurve Height Eclib.Hasse
open Eclib.Rank2 (ht ht_parallelogram ht_northcott finite_y)

set_option linter.unusedSectionVars false

section square
variable {K : Type} [Field K] [DecidableEq K] (W : WeierstrassCurve K)

/-- completing the square -/
def sq : WeierstrassCurve K := ⟨0, W.a₂ + W.a₁ ^ 2 / 4, 0, W.a₄ + W.a₁ * W.a₃ / 2, W.a₆ + W.a₃ ^ 2 / 4⟩

variable {W} (h2 : (2 : K) ≠ 0)
include h2

theorem sq_disc : (sq W).Δ = W.Δ := by
  have h4 : (4 : K) ≠ 0 := by rw [show (4 : K) = 2 * 2 by norm_num]; exact mul_ne_zero h2 h2
  simp only [WeierstrassCurve.Δ, WeierstrassCurve.b₂, WeierstrassCurve.b₄, WeierstrassCurve.b₆, WeierstrassCurve.b₈, sq]
  field_simp
  ring

theorem sq_eqn {x y : K} (h : W.toAffine.Equation x y) : (sq W).toAffine.Equation x (y + (W.a₁ * x + W.a₃) / 2) := by
  have h4 : (4 : K) ≠ 0 := by rw [show (4 : K) = 2 * 2 by norm_num]; exact mul_ne_zero h2 h2
  rw [Affine.equation_iff] at h ⊢
  simp only [sq]
  field_simp
  linear_combination 16 * h

theorem sq_ns (hd : W.Δ ≠ 0) {x y : K} (h : W.toAffine.Equation x y) :
    (sq W).toAffine.Nonsingular x (y + (W.a₁ * x + W.a₃) / 2) :=
  ((sq W).toAffine.equation_iff_nonsingular_of_Δ_ne_zero (by rw [sq_disc h2]; exact hd)).1 (sq_eqn h2 h)

/-- the map of points -/
def toSq (hd : W.Δ ≠ 0) : W.toAffine.Point → (sq W).toAffine.Point
  | .zero => .zero
  | .some x y h => .some x (y + (W.a₁ * x + W.a₃) / 2) (sq_ns h2 hd h.1)

theorem toSq_zero (hd : W.Δ ≠ 0) : toSq h2 hd 0 = 0 := rfl

theorem toSq_some (hd : W.Δ ≠ 0) {x y : K} (h : W.toAffine.Nonsingular x y) :
    toSq h2 hd (.some x y h) = .some x (y + (W.a₁ * x + W.a₃) / 2) (sq_ns h2 hd h.1) := rfl

theorem toSq_xr (hd : W.Δ ≠ 0) (P : W.toAffine.Point) : xr (toSq h2 hd P) = xr P := by
  rcases P with _ | ⟨x, y, h⟩ <;> rfl

theorem sq_negY {x y : K} : (sq W).toAffine.negY x (y + (W.a₁ * x + W.a₃) / 2) = W.toAffine.negY x y + (W.a₁ * x + W.a₃) / 2 := by
  simp only [Affine.negY, sq]
  field_simp
  ring

theorem toSq_neg (hd : W.Δ ≠ 0) (P : W.toAffine.Point) : toSq h2 hd (-P) = -toSq h2 hd P := by
  rcases P with _ | ⟨x, y, h⟩
  · rfl
  · rw [Affine.Point.neg_some, toSq_some, toSq_some, Affine.Point.neg_some]
    congr 1
    exact (sq_negY h2).symm

theorem toSq_add (hd : W.Δ ≠ 0) (P Q : W.toAffine.Point) : toSq h2 hd (P + Q) = toSq h2 hd P + toSq h2 hd Q := by
  rcases P with _ | ⟨x, y, h⟩
  · change toSq h2 hd (0 + Q) = 0 + toSq h2 hd Q
    rw [zero_add, zero_add]
  rcases Q with _ | ⟨x', y', h'⟩
  · change toSq h2 hd (_ + 0) = toSq h2 hd _ + 0
    rw [add_zero, add_zero]
  by_cases hxy : x = x' ∧ y = W.toAffine.negY x' y'
  · rw [Affine.Point.add_of_Y_eq hxy.1 hxy.2, toSq_zero, toSq_some, toSq_some, Affine.Point.add_of_Y_eq hxy.1]
    rw [sq_negY h2, hxy.1, hxy.2]
  · have hxy' : ¬ (x = x' ∧ y + (W.a₁ * x + W.a₃) / 2 = (sq W).toAffine.negY x' (y' + (W.a₁ * x' + W.a₃) / 2)) := by
      rintro ⟨rfl, h3⟩
      rw [sq_negY h2] at h3
      exact hxy ⟨rfl, add_right_cancel h3⟩
    have hs : (sq W).toAffine.slope x x' (y + (W.a₁ * x + W.a₃) / 2) (y' + (W.a₁ * x' + W.a₃) / 2) = W.toAffine.slope x x' y y' + W.a₁ / 2 := by
      by_cases hx : x = x'
      · have hy : y ≠ W.toAffine.negY x' y' := fun h3 => hxy ⟨hx, h3⟩
        have hy' : y + (W.a₁ * x + W.a₃) / 2 ≠ (sq W).toAffine.negY x' (y' + (W.a₁ * x' + W.a₃) / 2) := fun h3 => hxy' ⟨hx, h3⟩
        rw [Affine.slope_of_Y_ne hx hy, Affine.slope_of_Y_ne hx hy', sq_negY h2]
        have hne : y - W.toAffine.negY x y ≠ 0 := by
          subst hx
          rcases Affine.Y_eq_of_X_eq h.1 h'.1 rfl with h3 | h3
          · rw [h3]; rw [h3] at hy; exact sub_ne_zero.2 hy
          · exact absurd h3 hy
        rw [add_sub_add_right_eq_sub]
        have h4 : (4 : K) ≠ 0 := by rw [show (4 : K) = 2 * 2 by norm_num]; exact mul_ne_zero h2 h2
        have e : W.a₁ / 2 = (W.a₁ / 2 * (y - W.toAffine.negY x y)) / (y - W.toAffine.negY x y) := by field_simp
        rw [e, ← add_div]
        congr 1
        simp only [Affine.negY, sq]
        field_simp
        ring
      · rw [Affine.slope_of_X_ne hx, Affine.slope_of_X_ne hx]
        have := sub_ne_zero.2 hx
        field_simp
        ring
    have key : ∀ (l : K), (sq W).toAffine.addX x x' (l + W.a₁ / 2) = W.toAffine.addX x x' l := by
      intro l
      have h4 : (4 : K) ≠ 0 := by rw [show (4 : K) = 2 * 2 by norm_num]; exact mul_ne_zero h2 h2
      simp only [Affine.addX, sq]
      field_simp
      ring
    have key2 : ∀ (l : K), (sq W).toAffine.addY x x' (y + (W.a₁ * x + W.a₃) / 2) (l + W.a₁ / 2) =
        W.toAffine.addY x x' y l + (W.a₁ * W.toAffine.addX x x' l + W.a₃) / 2 := by
      intro l
      simp only [Affine.addY, Affine.negAddY, key]
      simp only [Affine.negY, sq]
      field_simp
      ring
    rw [Affine.Point.add_some hxy, toSq_some, toSq_some, toSq_some, Affine.Point.add_some hxy']
    simp only [Affine.Point.some.injEq]
    rw [hs]
    exact ⟨(key _).symm, (key2 _).symm⟩

end square

section canon
variable (W : WeierstrassCurve ℚ) [W.IsElliptic]

theorem ht_law : ∃ C, ∀ P Q : W.toAffine.Point, |ht (P + Q) + ht (P - Q) - 2 * (ht P + ht Q)| ≤ C := by
  have hd : W.Δ ≠ 0 := (WeierstrassCurve.isUnit_Δ W).ne_zero
  have : (sq W).IsElliptic := ⟨by rw [sq_disc two_ne_zero]; exact WeierstrassCurve.isUnit_Δ W⟩
  obtain ⟨C, hC⟩ := ht_parallelogram (W := sq W) rfl rfl
  refine ⟨C, fun P Q => ?_⟩
  have e : ∀ P : W.toAffine.Point, ht P = ht (toSq two_ne_zero hd P) := by
    intro P
    unfold ht
    rw [toSq_xr]
  rw [e, e (P - Q), e P, e Q, toSq_add, sub_eq_add_neg P, toSq_add, toSq_neg, ← sub_eq_add_neg (toSq _ hd P)]
  exact hC _ _

/-- specification: the logarithmic height of the x-coordinate, `log max(|a|, b)` for `x = a/b` -/
noncomputable def naive : W.toAffine.Point → ℝ
  | .zero => 0
  | .some x _ _ => Real.log (max x.num.natAbs x.den : ℕ)

theorem ht_naive (P : W.toAffine.Point) : ht P = naive W P := by
  rcases P with _ | ⟨x, y, h⟩
  · show logHeight ![(1 : ℚ), 0] = 0
    rw [logHeight_swap, ← logHeight₁_eq_logHeight, logHeight₁_zero]
  · show logHeight ![x, 1] = _
    rw [← logHeight₁_eq_logHeight, Rat.logHeight₁_eq_log_max]
    rfl

namespace Props

/-- the canonical height exists: for every elliptic curve over the rational numbers there is a symmetric bilinear pairing such that
`⟨P,P⟩` differs from the height of the x-coordinate by a bounded amount; it is the only one; it is zero at the points of finite
order, positive at the others, and the regulator of independent points is not zero -/
theorem C119_canonical : ∃ B : W.toAffine.Point →+ W.toAffine.Point →+ ℝ, (∀ P Q, B P Q = B Q P) ∧
    (∃ C, ∀ P, |B P P - naive W P| ≤ C) ∧ (∀ P, 0 ≤ B P P) ∧ (∀ P, B P P = 0 ↔ IsOfFinAddOrder P) ∧
    (∀ n x, Indep n x → (gram B n x).det ≠ 0) ∧
    ∀ B' : W.toAffine.Point →+ W.toAffine.Point →+ ℝ, (∀ P Q, B' P Q = B' Q P) → (∃ C, ∀ P, |B' P P - naive W P| ≤ C) → B' = B := by
  obtain ⟨C, hC⟩ := ht_law W
  obtain ⟨q, hq, D, hD⟩ := exists_canonical hC
  refine ⟨bil hq, bil_symm hq, ⟨D, fun P => ?_⟩, fun P => ?_, fun P => ?_, fun n x hx => quad_nondeg hq hD hx, ?_⟩
  · rw [bil_self, ← ht_naive]
    exact hD P
  · rw [bil_self]
    exact quad_nonneg hq (fun x => logHeight_nonneg _) hD P
  · rw [bil_self]
    exact quad_tors hq hD P
  · rintro B' hs ⟨D', hD'⟩
    have hq' : ∀ x y, B' (x + y) (x + y) + B' (x - y) (x - y) = 2 * (B' x x + B' y y) := by
      intro x y
      simp only [map_add, map_sub, AddMonoidHom.add_apply, AddMonoidHom.sub_apply]
      ring
    have e := canonical_unique (q := fun P => B' P P) (q' := q) (h := ht (W := W)) hq' hq
      ⟨D', fun P => by rw [ht_naive]; exact hD' P⟩ ⟨D, hD⟩
    ext P Q
    rw [bil_apply, ← e]
    simp only [map_add, AddMonoidHom.add_apply]
    rw [hs Q P]
    ring

/-- so the contract of C119 is met on the group of rational points by the exact canonical height, the order of a point and any
saturation that replaces independent points by a basis of a larger group with the right index -/
theorem C119_contract (V : Env ℝ W.toAffine.Point) (hord : ∀ P, V.ord P = addOrderOf P)
    (hsat : ∀ (s : ℤ) (n : ℕ) (x : ℕ → W.toAffine.Point), Indep n x → 1 < (V.sat s n x).1 →
      ∃ C : Matrix (Fin n) (Fin n) ℤ, |C.det| = (V.sat s n x).1 ∧ ∀ i : Fin n, IsOfFinAddOrder (x i - ∑ j, C i j • (V.sat s n x).2 j))
    (hpar : ∀ P Q, V.h (P + Q) + V.h (P - Q) = 2 * (V.h P + V.h Q)) (hb : ∃ C, ∀ P, |V.h P - naive W P| ≤ C) :
    ∃ B, V.Ok B := by
  obtain ⟨D, hD⟩ := hb
  have hD' : ∀ P, |V.h P - ht P| ≤ D := fun P => by rw [ht_naive]; exact hD P
  refine ⟨bil hpar, bil_symm hpar, fun P => (bil_self hpar P).symm, fun P => ?_, fun n x hx => quad_nondeg hpar hD' hx, hsat⟩
  rw [hord]
  exact_mod_cast addOrderOf_pos_iff

end Props

/-- an environment that meets these assumptions -/
example : ∃ V : Env ℝ W.toAffine.Point, ∃ B, V.Ok B := by
  obtain ⟨C, hC⟩ := ht_law W
  obtain ⟨q, hq, D, hD⟩ := exists_canonical hC
  exact ⟨⟨q, fun P => addOrderOf P, fun _ _ x => (1, x), 0, true⟩, Props.C119_contract W _ (fun _ => rfl) (fun s n x _ h => absurd h (by simp))
    hq ⟨D, fun P => by rw [← ht_naive]; exact hD P⟩⟩

end canon

end Eclib.Mw
