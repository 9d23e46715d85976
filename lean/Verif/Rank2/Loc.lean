import Verif.Rank2.Isog
import Mathlib.Algebra.Squarefree.Basic
import Mathlib.RingTheory.Int.Basic
import Mathlib.RingTheory.PrincipalIdealDomain
import Mathlib.Data.Rat.Lemmas
import Mathlib.Data.Nat.Squarefree

/-!
# Points on the homogeneous spaces `y² = D x⁴ + c x² z² + (d/D) z⁴` and classes of points on `y² = x(x² + cx + d)`
-/

namespace Eclib.Rank2

set_option linter.unusedSectionVars false

open WeierstrassCurve
open Eclib.Sift (dl dl_add dl_ne)

variable {K : Type} [Field K] [DecidableEq K]

/-- a point over `K` -/
def QP (c D d2 : K) : Prop := ∃ x y z : K, ¬(x = 0 ∧ z = 0) ∧ y ^ 2 = D * x ^ 4 + c * x ^ 2 * z ^ 2 + d2 * z ^ 4

/-- the homogeneous space has a point exactly when `D` is the class of a point of the curve -/
theorem QP_iff {c d D d2 : K} (nd : Nd c d) (hD : D ≠ 0) (hd : D * d2 = d) :
    QP c D d2 ↔ ∃ P : (Cu c d).toAffine.Point, IsSquare (D * dl (Cu c d) 0 P) := by
  constructor
  · rintro ⟨x, y, z, h0, h⟩
    by_cases hz : z = 0
    · have hx : x ≠ 0 := fun hx => h0 ⟨hx, hz⟩
      refine ⟨0, y / x ^ 2, ?_⟩
      rw [dl_zero]
      rw [hz] at h
      field_simp
      linear_combination -h
    · by_cases hx : x = 0
      · refine ⟨pT nd, 2 * D * (y / z ^ 2), ?_⟩
        rw [dl_T, ← hd]
        rw [hx] at h
        field_simp
        linear_combination (-4) * h
      · have ht : x / z ≠ 0 := div_ne_zero hx hz
        have hw : (y / z ^ 2) ^ 2 = D * (x / z) ^ 4 + c * (x / z) ^ 2 + d2 := by
          field_simp
          linear_combination h
        generalize x / z = t at *
        generalize y / z ^ 2 = w at *
        have e : (D * t * w) ^ 2 = (D * t ^ 2) ^ 3 + c * (D * t ^ 2) ^ 2 + d * (D * t ^ 2) := by
          rw [← hd]
          linear_combination D ^ 2 * t ^ 2 * hw
        refine ⟨pt nd (D * t ^ 2) (D * t * w) e, D * t, ?_⟩
        rw [dl_pt nd (mul_ne_zero hD (pow_ne_zero _ ht))]
        ring
  · rintro ⟨P, s, hs⟩
    rcases cases nd P with rfl | rfl | ⟨x, y, e, hx, rfl⟩
    · rw [dl_zero] at hs
      exact ⟨1, s, 0, by simp, by linear_combination -hs⟩
    · rw [dl_T] at hs
      refine ⟨0, s / (2 * D), 1, by simp, ?_⟩
      have := nd.two
      rw [← hd] at hs
      field_simp
      linear_combination -hs
    · rw [dl_pt nd hx] at hs
      have hs0 : s ≠ 0 := by
        rintro rfl
        exact mul_ne_zero hD hx (by rw [hs]; ring)
      refine ⟨s, y * D ^ 2 / s, D, by tauto, ?_⟩
      field_simp
      rw [← hd] at e
      have h4 : s ^ 2 = D * x := by rw [hs]; ring
      rw [h4]
      linear_combination D ^ 3 * e

/-- the classes with a point form a group -/
theorem QP_mul {c d D₁ D₂ D₃ e₁ e₂ e₃ : K} (nd : Nd c d) (h₁ : D₁ * e₁ = d) (h₂ : D₂ * e₂ = d) (h₃ : D₃ * e₃ = d)
    (hsq : IsSquare (D₁ * D₂ * D₃)) (q₁ : QP c D₁ e₁) (q₂ : QP c D₂ e₂) : QP c D₃ e₃ := by
  have n₁ : D₁ ≠ 0 := by rintro rfl; exact nd.b0 (by rw [← h₁]; ring)
  have n₂ : D₂ ≠ 0 := by rintro rfl; exact nd.b0 (by rw [← h₂]; ring)
  have n₃ : D₃ ≠ 0 := by rintro rfl; exact nd.b0 (by rw [← h₃]; ring)
  rw [QP_iff nd n₁ h₁] at q₁
  rw [QP_iff nd n₂ h₂] at q₂
  rw [QP_iff nd n₃ h₃]
  obtain ⟨P, r, hr⟩ := q₁
  obtain ⟨Q, s, hs⟩ := q₂
  obtain ⟨u, hu⟩ := dl_add nd.two nd.disc (g2_zero c d) P Q
  obtain ⟨v, hv⟩ := hsq
  refine ⟨P + Q, ?_⟩
  have nP := dl_ne nd.two nd.disc (g2_zero c d) P
  have nQ := dl_ne nd.two nd.disc (g2_zero c d) Q
  generalize dl (Cu c d) 0 P = p at *
  generalize dl (Cu c d) 0 Q = q at *
  generalize dl (Cu c d) 0 (P + Q) = w at *
  refine ⟨u * v * r * s / (D₁ * p * D₂ * q), ?_⟩
  field_simp
  have : u ^ 2 * v ^ 2 * r ^ 2 * s ^ 2 = (u * u) * (v * v) * (r * r) * (s * s) := by ring
  rw [this, ← hu, ← hv, ← hr, ← hs]
  ring

theorem QP_one {c d : K} : QP c 1 d := ⟨1, 1, 0, by simp, by ring⟩

/-! ## rational points -/

theorem sq_int {D : ℤ} (hD : Squarefree D) {Y : ℚ} {N : ℤ} (h : (D : ℚ) * Y ^ 2 = N) : ∃ y : ℤ, Y = y := by
  have hn : (D : ℚ) * (Y.num : ℚ) ^ 2 = N * (Y.den : ℚ) ^ 2 := by
    have : Y = Y.num / Y.den := (Rat.num_div_den Y).symm
    have hd : (Y.den : ℚ) ≠ 0 := by exact_mod_cast Y.den_ne_zero
    rw [this] at h
    field_simp at h
    linear_combination h
  have hz : D * Y.num ^ 2 = N * (Y.den : ℤ) ^ 2 := by exact_mod_cast hn
  have hc : IsCoprime ((Y.den : ℤ) ^ 2) (Y.num ^ 2) := by
    apply IsCoprime.pow
    rw [Int.isCoprime_iff_gcd_eq_one, Int.gcd_comm]
    exact Y.reduced
  have hdvd : (Y.den : ℤ) ^ 2 ∣ D := hc.dvd_of_dvd_mul_right ⟨N, by rw [hz]; ring⟩
  have hu : IsUnit (Y.den : ℤ) := hD _ (by rw [← sq]; exact hdvd)
  have h1 : Y.den = 1 := by
    rcases Int.isUnit_iff.1 hu with h | h <;> omega
  exact ⟨Y.num, by rw [Rat.den_eq_one_iff] at h1; exact h1.symm⟩

theorem dvd_of_primes {D d : ℤ} (hD : Squarefree D) (h : ∀ p : ℤ, Prime p → p ∣ D → p ∣ d) : D ∣ d := by
  obtain ⟨e, he⟩ := Int.gcd_dvd_left D d
  by_cases hu : IsUnit e
  · have : D ∣ (Int.gcd D d : ℤ) := by
      obtain ⟨u, rfl⟩ := hu
      exact ⟨(↑u⁻¹ : ℤ), by
        calc (Int.gcd D d : ℤ) = Int.gcd D d * (u * (↑u⁻¹ : ℤ)) := by rw [Units.mul_inv, mul_one]
          _ = _ := by rw [← mul_assoc, ← he]⟩
    exact this.trans (Int.gcd_dvd_right D d)
  · exfalso
    have he0 : e ≠ 0 := by
      rintro rfl
      rw [mul_zero] at he
      exact hD.ne_zero he
    obtain ⟨p, hp, hpe⟩ := WfDvdMonoid.exists_irreducible_factor hu he0
    have hp' := hp.prime
    have hpD : p ∣ D := hpe.trans ⟨_, by rw [mul_comm]; exact he⟩
    have hg : p ∣ (Int.gcd D d : ℤ) := Int.dvd_coe_gcd hpD (h p hp' hpD)
    exact hp.not_isUnit (hD p (by rw [he]; exact mul_dvd_mul hg hpe))

/-- the class of a rational point divides `d` -/
theorem QP_dvd {c d D : ℤ} {d2 : ℚ} (hD : Squarefree D) (hd : (D : ℚ) * d2 = d) (h : QP (c : ℚ) D d2) : D ∣ d := by
  obtain ⟨x, y, z, h0, h⟩ := h
  have key : ∃ r s : ℤ, IsCoprime r s ∧ ∃ Y : ℚ, (D : ℚ) * Y ^ 2 = D ^ 2 * r ^ 4 + c * D * r ^ 2 * s ^ 2 + d * s ^ 4 := by
    by_cases hz : z = 0
    · have hx : x ≠ 0 := fun hx => h0 ⟨hx, hz⟩
      refine ⟨1, 0, isCoprime_one_left, y / x ^ 2, ?_⟩
      rw [hz] at h
      push_cast
      field_simp
      linear_combination D * h
    · have hd0 : ((x / z).den : ℚ) ≠ 0 := by exact_mod_cast (x / z).den_ne_zero
      refine ⟨(x / z).num, (x / z).den, ?_, y / z ^ 2 * (x / z).den ^ 2, ?_⟩
      · rw [Int.isCoprime_iff_gcd_eq_one]
        exact (x / z).reduced
      · have hw : (y / z ^ 2) ^ 2 = D * (x / z) ^ 4 + c * (x / z) ^ 2 + d2 := by
          field_simp
          linear_combination h
        have ht : (x / z) * (x / z).den = (x / z).num := Rat.mul_den_eq_num _
        push_cast
        rw [← ht, ← hd]
        generalize ((x / z).den : ℚ) = s at *
        generalize x / z = t at *
        generalize y / z ^ 2 = w at *
        linear_combination D * s ^ 4 * hw
  obtain ⟨r, s, hrs, Y, hY⟩ := key
  obtain ⟨v, rfl⟩ := sq_int hD (N := D ^ 2 * r ^ 4 + c * D * r ^ 2 * s ^ 2 + d * s ^ 4) (by push_cast; exact hY)
  have hv : D * v ^ 2 = D ^ 2 * r ^ 4 + c * D * r ^ 2 * s ^ 2 + d * s ^ 4 := by exact_mod_cast hY
  refine dvd_of_primes hD fun p hp hpD => ?_
  by_contra hpd
  obtain ⟨D', rfl⟩ := hpD
  have hD' : ¬ p ∣ D' := by
    intro hh
    exact hp.not_isUnit (hD p (mul_dvd_mul_left p hh))
  have h1 : p ∣ d * s ^ 4 := ⟨D' * v ^ 2 - p * D' ^ 2 * r ^ 4 - c * D' * r ^ 2 * s ^ 2, by linear_combination -hv⟩
  have hs : p ∣ s := hp.dvd_of_dvd_pow ((hp.dvd_or_dvd h1).resolve_left hpd)
  obtain ⟨s', rfl⟩ := hs
  have hp0 := hp.ne_zero
  have h2 : p ∣ D' * v ^ 2 := by
    refine ⟨D' ^ 2 * r ^ 4 + c * p * D' * r ^ 2 * s' ^ 2 + d * p ^ 2 * s' ^ 4, ?_⟩
    apply mul_left_cancel₀ hp0
    linear_combination hv
  have h3 : p ∣ v := hp.dvd_of_dvd_pow ((hp.dvd_or_dvd h2).resolve_left hD')
  obtain ⟨v', rfl⟩ := h3
  have h4 : p ∣ D' ^ 2 * r ^ 4 := by
    refine ⟨D' * v' ^ 2 - c * D' * r ^ 2 * s' ^ 2 - d * p * s' ^ 4, ?_⟩
    apply mul_left_cancel₀ (pow_ne_zero 2 hp0)
    linear_combination -hv
  rcases hp.dvd_or_dvd h4 with h5 | h5
  · exact hD' (hp.dvd_of_dvd_pow h5)
  · have h6 := hp.dvd_of_dvd_pow h5
    exact hp.not_isUnit (hrs.isUnit_of_dvd' h6 ⟨s', rfl⟩)

/-- every rational number is a squarefree integer times a square -/
theorem exists_sqf {q : ℚ} (hq : q ≠ 0) : ∃ D : ℤ, Squarefree D ∧ IsSquare ((D : ℚ) * q) := by
  obtain ⟨a, b, hab, ha⟩ := Nat.sq_mul_squarefree (q.num.natAbs * q.den)
  have hb0 : b ≠ 0 := by
    rintro rfl
    have : q.num.natAbs * q.den ≠ 0 := Nat.mul_ne_zero (by simpa using hq) q.den_ne_zero
    exact this (by rw [← hab]; ring)
  have hd : (q.den : ℚ) ≠ 0 := by exact_mod_cast q.den_ne_zero
  have hs : (q.num.natAbs : ℤ) = q.num.sign * q.num := by
    rcases lt_trichotomy q.num 0 with h | h | h
    · rw [Int.sign_eq_neg_one_of_neg h]; omega
    · rw [h]; rfl
    · rw [Int.sign_eq_one_of_pos h]; omega
  have hsg : q.num.sign * q.num.sign = 1 := by
    have : q.num ≠ 0 := by simpa using hq
    rcases lt_or_gt_of_ne this with h | h
    · rw [Int.sign_eq_neg_one_of_neg h]; rfl
    · rw [Int.sign_eq_one_of_pos h]; rfl
  have hu : IsUnit q.num.sign := IsUnit.of_mul_eq_one _ hsg
  have h1 : ((b : ℚ)) ^ 2 * a = q.num.sign * q.num * q.den := by
    have : ((b : ℤ)) ^ 2 * a = q.num.sign * q.num * q.den := by
      rw [← hs]; exact_mod_cast hab
    exact_mod_cast this
  have hq1 : q * q.den = q.num := Rat.mul_den_eq_num q
  refine ⟨q.num.sign * a, ?_, ?_⟩
  · have ha' : Squarefree (a : ℤ) := Int.squarefree_natCast.2 ha
    obtain ⟨u, hu'⟩ := hu
    rw [← hu']
    exact (Associated.squarefree_iff (associated_unit_mul_left (a : ℤ) (u : ℤ) u.isUnit)).2 ha'
  · have hb' : (b : ℚ) ≠ 0 := by exact_mod_cast hb0
    have hsgq : (q.num.sign : ℚ) * q.num.sign = 1 := by exact_mod_cast hsg
    refine ⟨q * q.den / b, ?_⟩
    push_cast
    field_simp
    rw [← hq1] at h1
    linear_combination (q.num.sign : ℚ) * h1 + q * q.den ^ 2 * hsgq

end Eclib.Rank2
