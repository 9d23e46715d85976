import Verif.Legendre.Desc2Model
import Verif.Legendre.Conic
import Verif.Forms.Quartic

/-!
# The algebra of the second descent
-/

namespace Eclib.Desc2

open Legendre (CSol CParam)
open Forms (Q G SU)
open Forms.Spec (quad quart act)

theorem sq_of_mul_sq {k a b : ℤ} (hk : k ≠ 0) (h : k ^ 2 * a = b ^ 2) : ∃ r, a = r ^ 2 := by
  obtain ⟨r, hr⟩ : k ∣ b := (Int.pow_dvd_pow_iff two_ne_zero).mp ⟨a, h.symm⟩
  exact ⟨r, mul_left_cancel₀ (pow_ne_zero 2 hk) (by rw [h, hr]; ring)⟩

theorem eval_eq (q : Q) (x z : ℤ) : q.eval x z = quad q.a q.b q.c x z := by
  simp only [Q.eval, quad]; ring

/-- the two numbers divided by their greatest common divisor -/
theorem exists_prim {s t : ℤ} (h : ¬ (s = 0 ∧ t = 0)) : ∃ g u v, g ≠ 0 ∧ s = g * u ∧ t = g * v ∧ IsCoprime u v := by
  have hg : Int.gcd s t ≠ 0 := fun h0 => h (Int.gcd_eq_zero_iff.mp h0)
  obtain ⟨u, v, h1, h2, h3⟩ := Int.exists_gcd_one (Nat.pos_of_ne_zero hg)
  exact ⟨Int.gcd s t, u, v, by exact_mod_cast hg, by rw [mul_comm]; exact h2, by rw [mul_comm]; exact h3,
    Int.isCoprime_iff_gcd_eq_one.mpr h1⟩

/-- every solution of the conic is in the image of the parametrization, up to the sign of `y` -/
theorem CParam.surj {a b c d : ℤ} {qx qy qz : Q} (h : CParam a b c d qx qy qz) {x y z : ℤ}
    (hs : a * x ^ 2 + b * x * z + c * z ^ 2 = d * y ^ 2) :
    ∃ s t, IsCoprime s t ∧ z * quad qx.a qx.b qx.c s t = x * quad qz.a qz.b qz.c s t := by
  have hx := h.dx
  have hz := h.dz
  have hb := h.bxz
  simp only [Q.disc] at hx hz
  obtain ⟨A, hA⟩ : ∃ A, A = z * qx.a - x * qz.a := ⟨_, rfl⟩
  obtain ⟨B, hB⟩ : ∃ B, B = z * qx.b - x * qz.b := ⟨_, rfl⟩
  obtain ⟨C, hC⟩ : ∃ C, C = z * qx.c - x * qz.c := ⟨_, rfl⟩
  have hd : B ^ 2 - 4 * A * C = (2 * d * y) ^ 2 := by
    rw [hA, hB, hC]
    linear_combination z ^ 2 * hx + x ^ 2 * hz - 2 * x * z * hb + 4 * d * hs
  have key : ∀ s t, A * s ^ 2 + B * s * t + C * t ^ 2 = 0 →
      z * quad qx.a qx.b qx.c s t = x * quad qz.a qz.b qz.c s t := by
    intro s t h0
    rw [hA, hB, hC] at h0
    simp only [quad]
    linear_combination h0
  by_cases h0 : A = 0
  · exact ⟨1, 0, isCoprime_one_left, key 1 0 (by rw [h0]; ring)⟩
  · obtain ⟨g, u, v, hg, h1, h2, h3⟩ := exists_prim (s := -B + 2 * d * y) (t := 2 * A)
      (fun h1 => h0 (by have := h1.2; omega))
    refine ⟨u, v, h3, key u v ?_⟩
    apply mul_left_cancel₀ (pow_ne_zero 2 hg)
    have e : A * (-B + 2 * d * y) ^ 2 + B * (-B + 2 * d * y) * (2 * A) + C * (2 * A) ^ 2 = 0 := by
      linear_combination -A * hd
    rw [h1, h2] at e
    linear_combination e

/-- the resultant of the first and the third quadratic -/
theorem CParam.res {a b c d : ℤ} {qx qy qz : Q} (h : CParam a b c d qx qy qz) :
    (qx.a * qz.c - qx.c * qz.a) ^ 2 - (qx.a * qz.b - qx.b * qz.a) * (qx.b * qz.c - qx.c * qz.b) =
      d ^ 2 * (b ^ 2 - 4 * a * c) := by
  have hx := h.dx
  have hz := h.dz
  have hb := h.bxz
  simp only [Q.disc] at hx hz
  apply mul_left_cancel₀ (show (4 : ℤ) ≠ 0 by norm_num)
  linear_combination (qx.b * qz.b - 2 * (qx.a * qz.c + qx.c * qz.a) - 2 * b * d) * hb -
    (qz.b * qz.b - 4 * qz.a * qz.c) * hx - 4 * c * d * hz

/-- a common divisor of the values at coprime arguments divides the resultant -/
theorem CParam.dvd_res {a b c d : ℤ} {qx qy qz : Q} (h : CParam a b c d qx qy qz) {s t k : ℤ} (hst : IsCoprime s t)
    (h1 : k ∣ quad qx.a qx.b qx.c s t) (h2 : k ∣ quad qz.a qz.b qz.c s t) : k ∣ d ^ 2 * (b ^ 2 - 4 * a * c) := by
  rw [← CParam.res h]
  generalize hR : (qx.a * qz.c - qx.c * qz.a) ^ 2 - (qx.a * qz.b - qx.b * qz.a) * (qx.b * qz.c - qx.c * qz.b) = R
  obtain ⟨u, hu⟩ := h1
  obtain ⟨v, hv⟩ := h2
  simp only [quad] at hu hv
  have c1 : k ∣ R * s ^ 3 := by
    refine ⟨(qx.a * qz.c - qx.c * qz.a) * s * (qz.c * u - qx.c * v) - (qx.b * qz.c - qx.c * qz.b) *
      (-(s * (qx.b * v - qz.b * u)) + t * (qz.c * u - qx.c * v)), ?_⟩
    rw [← hR]
    linear_combination ((qx.a * qz.c - qx.c * qz.a) * s * qz.c - (qx.b * qz.c - qx.c * qz.b) * (s * qz.b + t * qz.c)) * hu +
      (-(qx.a * qz.c - qx.c * qz.a) * s * qx.c - (qx.b * qz.c - qx.c * qz.b) * (-(s * qx.b) - t * qx.c)) * hv
  have c2 : k ∣ R * t ^ 3 := by
    refine ⟨(qx.c * qz.a - qx.a * qz.c) * t * (qz.a * u - qx.a * v) - (qx.b * qz.a - qx.a * qz.b) *
      (-(t * (qx.b * v - qz.b * u)) + s * (qz.a * u - qx.a * v)), ?_⟩
    rw [← hR]
    linear_combination ((qx.c * qz.a - qx.a * qz.c) * t * qz.a - (qx.b * qz.a - qx.a * qz.b) * (t * qz.b + s * qz.a)) * hu +
      (-(qx.c * qz.a - qx.a * qz.c) * t * qx.a - (qx.b * qz.a - qx.a * qz.b) * (-(t * qx.b) - s * qx.a)) * hv
  obtain ⟨m, n, hmn⟩ := hst.pow (m := 3) (n := 3)
  have : R = m * (R * s ^ 3) + n * (R * t ^ 3) := by linear_combination -R * hmn
  rw [this]
  exact dvd_add (Dvd.dvd.mul_left c1 m) (Dvd.dvd.mul_left c2 n)

/-- the values are not both zero -/
theorem CParam.ne_zero {a b c d : ℤ} {qx qy qz : Q} (h : CParam a b c d qx qy qz) (hd : d ≠ 0)
    (hD : b ^ 2 - 4 * a * c ≠ 0) {s t : ℤ} (hst : ¬ (s = 0 ∧ t = 0)) :
    ¬ (quad qx.a qx.b qx.c s t = 0 ∧ quad qz.a qz.b qz.c s t = 0) := by
  rintro ⟨h1, h2⟩
  obtain ⟨g, u, v, hg, rfl, rfl, huv⟩ := exists_prim hst
  have e1 : quad qx.a qx.b qx.c u v = 0 := by
    apply mul_left_cancel₀ (pow_ne_zero 2 hg)
    simp only [quad] at h1 ⊢
    linear_combination h1
  have e2 : quad qz.a qz.b qz.c u v = 0 := by
    apply mul_left_cancel₀ (pow_ne_zero 2 hg)
    simp only [quad] at h2 ⊢
    linear_combination h2
  have := CParam.dvd_res h huv (k := 0) (by rw [e1]) (by rw [e2])
  exact mul_ne_zero (pow_ne_zero 2 hd) hD (zero_dvd_iff.mp this)

/-- the descendent quartic is `d3·q3(Q1,Q3)` -/
theorem quarticOf_fn (q3 Q1 Q3 : Q) (d3 X Z : ℤ) : (quarticOf q3 Q1 Q3 d3).fn X Z =
    d3 * quad q3.a q3.b q3.c (quad Q1.a Q1.b Q1.c X Z) (quad Q3.a Q3.b Q3.c X Z) := by
  simp only [G.fn, quarticOf, quart, quad, Q.eval]; ring

theorem quarticOf_I (q3 Q1 Q3 : Q) (d3 : ℤ) {pp pr rr : ℤ} (h1 : Q1.disc = 4 * pp) (h3 : Q3.disc = 4 * rr)
    (h2 : Q1.b * Q3.b - 2 * (Q1.a * Q3.c + Q1.c * Q3.a) = -(2 * pr)) :
    (quarticOf q3 Q1 Q3 d3).II = d3 ^ 2 * (4 * (q3.b * pr - 2 * (rr * q3.c + pp * q3.a)) ^ 2 -
      3 * (pr ^ 2 - 4 * rr * pp) * q3.disc) := by
  have h : 4 * (quarticOf q3 Q1 Q3 d3).II = d3 ^ 2 * (4 * q3.c ^ 2 * Q3.disc ^ 2 +
      8 * q3.b * q3.c * (Q1.b * Q3.b - 2 * (Q1.a * Q3.c + Q1.c * Q3.a)) * Q3.disc +
      q3.b ^ 2 * (Q1.b * Q3.b - 2 * (Q1.a * Q3.c + Q1.c * Q3.a)) ^ 2 + 3 * q3.b ^ 2 * Q1.disc * Q3.disc +
      12 * q3.a * q3.c * (Q1.b * Q3.b - 2 * (Q1.a * Q3.c + Q1.c * Q3.a)) ^ 2 - 4 * q3.a * q3.c * Q1.disc * Q3.disc +
      8 * q3.a * q3.b * Q1.disc * (Q1.b * Q3.b - 2 * (Q1.a * Q3.c + Q1.c * Q3.a)) + 4 * q3.a ^ 2 * Q1.disc ^ 2) := by
    simp only [G.II, quarticOf, Q.disc, Q.eval]; ring
  rw [h1, h2, h3] at h
  apply mul_left_cancel₀ (show (4 : ℤ) ≠ 0 by norm_num)
  rw [h]
  simp only [Q.disc]
  ring

theorem quarticOf_J (q3 Q1 Q3 : Q) (d3 : ℤ) {pp pr rr : ℤ} (h1 : Q1.disc = 4 * pp) (h3 : Q3.disc = 4 * rr)
    (h2 : Q1.b * Q3.b - 2 * (Q1.a * Q3.c + Q1.c * Q3.a) = -(2 * pr)) :
    (quarticOf q3 Q1 Q3 d3).JJ = d3 ^ 3 * (16 * (q3.b * pr - 2 * (rr * q3.c + pp * q3.a)) ^ 3 -
      18 * (q3.b * pr - 2 * (rr * q3.c + pp * q3.a)) * (pr ^ 2 - 4 * rr * pp) * q3.disc) := by
  have h : 4 * (quarticOf q3 Q1 Q3 d3).JJ = d3 ^ 3 * (-8 * q3.c ^ 3 * Q3.disc ^ 3 -
      24 * q3.b * q3.c ^ 2 * (Q1.b * Q3.b - 2 * (Q1.a * Q3.c + Q1.c * Q3.a)) * Q3.disc ^ 2 -
      15 * q3.b ^ 2 * q3.c * (Q1.b * Q3.b - 2 * (Q1.a * Q3.c + Q1.c * Q3.a)) ^ 2 * Q3.disc -
      9 * q3.b ^ 2 * q3.c * Q1.disc * Q3.disc ^ 2 + q3.b ^ 3 * (Q1.b * Q3.b - 2 * (Q1.a * Q3.c + Q1.c * Q3.a)) ^ 3 -
      9 * q3.b ^ 3 * Q1.disc * (Q1.b * Q3.b - 2 * (Q1.a * Q3.c + Q1.c * Q3.a)) * Q3.disc -
      36 * q3.a * q3.c ^ 2 * (Q1.b * Q3.b - 2 * (Q1.a * Q3.c + Q1.c * Q3.a)) ^ 2 * Q3.disc +
      12 * q3.a * q3.c ^ 2 * Q1.disc * Q3.disc ^ 2 -
      36 * q3.a * q3.b * q3.c * (Q1.b * Q3.b - 2 * (Q1.a * Q3.c + Q1.c * Q3.a)) ^ 3 -
      12 * q3.a * q3.b * q3.c * Q1.disc * (Q1.b * Q3.b - 2 * (Q1.a * Q3.c + Q1.c * Q3.a)) * Q3.disc -
      15 * q3.a * q3.b ^ 2 * Q1.disc * (Q1.b * Q3.b - 2 * (Q1.a * Q3.c + Q1.c * Q3.a)) ^ 2 -
      9 * q3.a * q3.b ^ 2 * Q1.disc ^ 2 * Q3.disc -
      36 * q3.a ^ 2 * q3.c * Q1.disc * (Q1.b * Q3.b - 2 * (Q1.a * Q3.c + Q1.c * Q3.a)) ^ 2 +
      12 * q3.a ^ 2 * q3.c * Q1.disc ^ 2 * Q3.disc -
      24 * q3.a ^ 2 * q3.b * Q1.disc ^ 2 * (Q1.b * Q3.b - 2 * (Q1.a * Q3.c + Q1.c * Q3.a)) -
      8 * q3.a ^ 3 * Q1.disc ^ 3) := by
    simp only [G.JJ, quarticOf, Q.disc, Q.eval]; ring
  rw [h1, h2, h3] at h
  apply mul_left_cancel₀ (show (4 : ℤ) ≠ 0 by norm_num)
  rw [h]
  simp only [Q.disc]
  ring

/-- the invariants of the descendent quartic -/
theorem quarticOf_disc {c d1 d2 d3 : ℤ} {q1 q2 q3 Q1 Q2 Q3 : Q} (h : CParam d1 c d2 1 q1 q2 q3)
    (H : CParam q1.a q1.b q1.c d3 Q1 Q2 Q3) :
    (quarticOf q3 Q1 Q3 d3).II = 16 * d3 ^ 4 * (c ^ 2 - 3 * (d1 * d2)) ∧
    (quarticOf q3 Q1 Q3 d3).JJ = -(64 * d3 ^ 6 * c * (2 * c ^ 2 - 9 * (d1 * d2))) ∧
    (quarticOf q3 Q1 Q3 d3).disc = 110592 * d3 ^ 12 * (d1 * d2) ^ 2 * (c ^ 2 - 4 * d1 * d2) := by
  have e1 : Q1.disc = 4 * (q1.c * d3) := by rw [H.dx]; ring
  have e3 : Q3.disc = 4 * (q1.a * d3) := by rw [H.dz]; ring
  have e2 : Q1.b * Q3.b - 2 * (Q1.a * Q3.c + Q1.c * Q3.a) = -(2 * (q1.b * d3)) := by rw [H.bxz]; ring
  have f1 := h.dx
  have f3 := h.dz
  have f2 := h.bxz
  have f0 : q1.disc = q1.b * q1.b - 4 * q1.a * q1.c := rfl
  have s : q3.b * (q1.b * d3) - 2 * (q1.a * d3 * q3.c + q1.c * d3 * q3.a) = -(2 * c * d3) := by
    linear_combination d3 * f2
  have t : (q1.b * d3) ^ 2 - 4 * (q1.a * d3) * (q1.c * d3) = 4 * d2 * d3 ^ 2 := by
    rw [f0] at f1; linear_combination d3 ^ 2 * f1
  have hI := quarticOf_I q3 Q1 Q3 d3 e1 e3 e2
  have hJ := quarticOf_J q3 Q1 Q3 d3 e1 e3 e2
  rw [s, t, f3] at hI hJ
  refine ⟨by rw [hI]; ring, by rw [hJ]; ring, ?_⟩
  simp only [G.disc]
  rw [hI, hJ]; ring

end Eclib.Desc2
