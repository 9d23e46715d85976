import Verif.Ff.Weil

/-!
# The norm of `weil_pol`: the check in `weil_pol` (ffmod.cc:203-221)
-/

set_option linter.unusedSectionVars false

namespace Eclib.Ff

open Pmod (Pq coords)
open Polynomial
open WeierstrassCurve.Affine (CoordinateRing)
open WeierstrassCurve.Affine.CoordinateRing (mk XClass YClass XIdeal YIdeal XYIdeal)

variable {F : Type} [Field F] [DecidableEq F] {E : WeierstrassCurve F}

/-- `X - x` for a point with the coordinate `x`, 1 for infinity -/
noncomputable def V : Pq F → F[X]
  | .oo => 1
  | .pt x _ => X - C x

theorem V_ne (P : Pq F) : V P ≠ 0 := by
  cases P with
  | oo => exact one_ne_zero
  | pt x y => exact X_sub_C_ne_zero x

theorem norm_toCR (h : FF F) : Algebra.norm F[X] (toCR E h) =
    toPoly h.h1 ^ 2 - toPoly h.h1 * toPoly h.h2 * toPoly (f2 E) - toPoly h.h2 ^ 2 * toPoly (f1 E) := by
  rw [toCR, CoordinateRing.norm_smul_basis, poly_f1, poly_f2]

theorem norm_X (x : F) : Algebra.norm F[X] (toCR E ⟨[-x, 1], []⟩) = (X - C x) ^ 2 := by
  rw [norm_toCR]
  simp only [toPoly_cons, toPoly_nil, C_neg, C_1]
  ring

theorem norm_vertical (P : Pq F) : Algebra.norm F[X] (toCR E (vertical P)) = V P ^ 2 := by
  cases P with
  | oo => rw [vertical, toCR_one, map_one, V, one_pow]
  | pt x y => exact norm_X x

theorem norm_line (x y s : F) : Algebra.norm F[X] (toCR E ⟨[-y - s * -x, -s], [1]⟩) = E.toAffine.addPolynomial x y s := by
  rw [norm_toCR, poly_f1, poly_f2, WeierstrassCurve.Affine.addPolynomial_eq, Cubic.toPoly]
  simp only [toPoly_cons, toPoly_nil, WeierstrassCurve.toAffine, C_neg, C_1, C_mul, C_sub, C_add, C_pow, C_ofNat]
  ring

theorem norm_slope {x₁ y₁ x₂ y₂ : F} (h₁ : E.toAffine.Nonsingular x₁ y₁) (h₂ : E.toAffine.Nonsingular x₂ y₂)
    (hxy : ¬ (x₁ = x₂ ∧ y₁ = E.toAffine.negY x₂ y₂)) (s : F) (hs : s = E.toAffine.slope x₁ x₂ y₁ y₂) :
    Algebra.norm F[X] (toCR E ⟨[-y₁ - s * -x₁, -s], [1]⟩) =
      -(V (coords (.some x₁ y₁ h₁)) * V (coords (.some x₂ y₂ h₂)) * V (coords (.some x₁ y₁ h₁ + .some x₂ y₂ h₂))) := by
  subst hs
  rw [norm_line, WeierstrassCurve.Affine.addPolynomial_slope h₁.1 h₂.1 hxy, WeierstrassCurve.Affine.Point.add_some hxy]
  rfl

theorem ord_some {x y : F} (h : E.toAffine.Nonsingular x y) : ord (.some x y h) = 1 := if_neg (by rintro ⟨⟩)

theorem ord_zero : ord (0 : E.toAffine.Point) = 0 := if_pos rfl

theorem norm_tangent (A : E.toAffine.Point) : Algebra.norm F[X] (toCR E (tangent E (coords A))) =
    (-1) ^ (2 * ord A + ord (A + A)) * (V (coords A) ^ 2 * V (coords (A + A))) := by
  cases A with
  | zero =>
    change Algebra.norm F[X] (toCR E ⟨[1], []⟩) = (-1) ^ (2 * ord (0 : E.toAffine.Point) + ord ((0 : E.toAffine.Point) + 0)) *
      (1 ^ 2 * V (coords ((0 : E.toAffine.Point) + 0)))
    rw [toCR_one, add_zero, ord_zero, map_one]
    change 1 = (-1) ^ (2 * 0 + 0) * (1 ^ 2 * 1)
    ring
  | some x y h =>
    have hd : y + y + E.a₁ * x + E.a₃ = y - E.toAffine.negY x y := by
      simp only [WeierstrassCurve.Affine.negY]; ring
    change Algebra.norm F[X] (toCR E (tangent E (.pt x y))) = _
    rw [ord_some]
    unfold tangent
    simp only
    by_cases h0 : y + y + E.a₁ * x + E.a₃ = 0
    · rw [if_pos h0]
      rw [hd, sub_eq_zero] at h0
      rw [WeierstrassCurve.Affine.Point.add_self_of_Y_eq (h₁ := h) h0, ord_zero, norm_X]
      change _ = (-1) ^ (2 * 1 + 0) * ((X - C x) ^ 2 * 1)
      ring
    · rw [if_neg h0]
      have hne : y ≠ E.toAffine.negY x y := fun h => h0 (by rw [hd, ← h, sub_self])
      rw [show ord (WeierstrassCurve.Affine.Point.some x y h + WeierstrassCurve.Affine.Point.some x y h) = 1 from if_neg (by
        rw [WeierstrassCurve.Affine.Point.add_self_of_Y_ne hne]
        rintro ⟨⟩)]
      rw [norm_slope h h (fun hh => hne hh.2)]
      · ring
      · rw [WeierstrassCurve.Affine.slope_of_Y_ne rfl hne, ← hd]
        congr 1
        simp only [WeierstrassCurve.toAffine]
        ring

theorem norm_chord (A B : E.toAffine.Point) : Algebra.norm F[X] (toCR E (chord E (coords A) (coords B))) =
    (-1) ^ (ord A + ord B + ord (A + B)) * (V (coords A) * V (coords B) * V (coords (A + B))) := by
  cases A with
  | zero =>
    change Algebra.norm F[X] (toCR E (vertical (coords B))) =
      (-1) ^ (ord (0 : E.toAffine.Point) + ord B + ord ((0 : E.toAffine.Point) + B)) * (1 * V (coords B) * V (coords (0 + B)))
    rw [zero_add, ord_zero, zero_add, ← two_mul, pow_mul, norm_vertical]
    ring
  | some x y h =>
    cases B with
    | zero =>
      change Algebra.norm F[X] (toCR E (vertical (coords (.some x y h)))) =
        (-1) ^ (ord (.some x y h) + ord (0 : E.toAffine.Point) + ord (.some x y h + (0 : E.toAffine.Point))) *
          (V (coords (.some x y h)) * 1 * V (coords (.some x y h + 0)))
      rw [add_zero, ord_zero, add_zero, ← two_mul, pow_mul, norm_vertical]
      ring
    | some x' y' h' =>
      change Algebra.norm F[X] (toCR E (chord E (.pt x y) (.pt x' y'))) = _
      unfold chord
      simp only
      by_cases hx : x - x' = 0
      · rw [if_pos hx]
        obtain rfl := sub_eq_zero.mp hx
        by_cases hy : y - y' = 0
        · rw [if_pos hy]
          obtain rfl := sub_eq_zero.mp hy
          rw [← two_mul, ← sq]
          exact norm_tangent (.some x y h)
        · rw [if_neg hy]
          have hn : y = E.toAffine.negY x y' :=
            (WeierstrassCurve.Affine.Y_eq_of_X_eq h.1 h'.1 rfl).resolve_left (fun e => hy (sub_eq_zero.mpr e))
          rw [WeierstrassCurve.Affine.Point.add_of_Y_eq (h₁ := h) (h₂ := h') rfl hn, ord_some, ord_some, ord_zero]
          change Algebra.norm F[X] (toCR E ⟨[-x, 1], []⟩) = (-1) ^ (1 + 1 + 0) * ((X - C x) * (X - C x) * 1)
          rw [norm_X]
          ring
      · rw [if_neg hx, ord_some, ord_some,
            show ord (WeierstrassCurve.Affine.Point.some x y h + WeierstrassCurve.Affine.Point.some x' y' h') = 1 from if_neg (by
              rw [WeierstrassCurve.Affine.Point.add_of_X_ne (fun hh => hx (sub_eq_zero.mpr hh))]
              rintro ⟨⟩)]
        rw [norm_slope h h' (fun hh => hx (sub_eq_zero.mpr hh.1))]
        · ring
        · rw [WeierstrassCurve.Affine.slope_of_X_ne (fun hh => hx (sub_eq_zero.mpr hh))]

/-- the norm in the loop of `weil_pol` -/
def NInv (T : E.toAffine.Point) (k : ℕ) (h : FF F) : Prop :=
  Algebra.norm F[X] (toCR E h) = (-1) ^ (k * ord T + ord (k • T)) * (V (coords T) ^ k * V (coords (k • T)))

theorem NInv.step {T : E.toAffine.Point} {k : ℕ} {h : FF F} (hI : Inv T k h) (hN : NInv T k h) :
    NInv T (k + 1) (divVertical (mul E h (chord E (coords T) (coords (k • T)))) (coords (k • T))) := by
  have e : T + k • T = (k + 1) • T := by rw [succ_nsmul, add_comm]
  have hc := chord_ideal T (k • T)
  have hm := norm_chord T (k • T)
  rw [e] at hc hm
  have hv := I_neg_mul (k • T)
  have hs : Ideal.span {toCR E (mul E h (chord E (coords T) (coords (k • T))))} =
      Ideal.span {toCR E (vertical (coords (k • T)))} * (I T ^ (k + 1) * I (-((k + 1) • T))) := by
    rw [toCR_mul, ← Ideal.span_singleton_mul_span_singleton, hI.1, hc, ← hv]
    ring
  have hd := congrArg (Algebra.norm F[X]) (divVertical_spec (k • T) (hs.trans_le Ideal.mul_le_left))
  rw [toCR_mul, map_mul, map_mul, hN, hm, norm_vertical] at hd
  refine mul_left_cancel₀ (pow_ne_zero 2 (V_ne (coords (k • T)))) ?_
  rw [← hd]
  have e2 : (-1 : F[X]) ^ (ord (k • T)) * (-1) ^ (ord (k • T)) = 1 := by rw [← mul_pow]; simp
  simp only [add_mul, one_mul, pow_add, pow_one]
  linear_combination ((-1) ^ (k * ord T) * (-1) ^ ord T * (-1) ^ (ord ((k + 1) • T)) *
    (V (coords T) ^ k * V (coords T) * V (coords (k • T)) ^ 2 * V (coords ((k + 1) • T)))) * e2

theorem NInv_one (T : E.toAffine.Point) : NInv T 1 (vertical (coords T)) := by
  unfold NInv
  rw [norm_vertical, one_smul, one_mul, ← two_mul, pow_mul]
  ring

theorem NInv_two (T : E.toAffine.Point) : NInv T 2 (tangent E (coords T)) := by
  unfold NInv
  rw [norm_tangent, two_smul]

theorem NInv.loop {T : E.toAffine.Point} (n : ℕ) : ∀ {k : ℕ} {h : FF F}, Inv T k h → NInv T k h →
    NInv T (k + n) (weilLoop E (coords T) n h (coords (k • T))) := by
  induction n with
  | zero => intro k h _ hI; exact hI
  | succ n ih =>
    intro k h hI hN
    have := ih hI.step (hN.step hI)
    rw [add_assoc, add_comm 1 n] at this
    rw [weilLoop, ← Pmod.coords_add]
    have e : k • T + T = (k + 1) • T := (succ_nsmul T k).symm
    rwa [e]

theorem weilPol_norm (T : E.toAffine.Point) (m : ℕ) (hm : 2 ≤ m) : NInv T (m - 1) (weilPol E (coords T) m) := by
  unfold weilPol
  by_cases h2 : m = 2
  · subst h2
    rw [if_pos (by norm_num)]
    exact NInv_one T
  rw [if_neg (by exact_mod_cast h2)]
  by_cases h3 : m = 3
  · subst h3
    rw [if_pos (by norm_num)]
    exact NInv_two T
  rw [if_neg (by exact_mod_cast h3), show ((m : ℤ) - 1 - 2).toNat = m - 3 by omega]
  have h := NInv.loop (m - 3) (Inv_two T) (NInv_two T)
  rw [two_smul, Pmod.coords_add, show 2 + (m - 3) = m - 1 by omega] at h
  exact h

end Eclib.Ff
