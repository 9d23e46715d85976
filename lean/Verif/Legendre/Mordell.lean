import Verif.Legendre.ReduceModel
import Verif.Legendre.Lem4

/-!
# Reduction of solutions by Mordell's method
-/

namespace Eclib.Legendre

open Marith (XGcd)

/-- no common factor -/
def Prim (x y z : ℤ) : Prop := ∀ d : ℤ, d ∣ x → d ∣ y → d ∣ z → IsUnit d

theorem Prim.cyc {x y z : ℤ} (h : Prim y z x) : Prim x y z := fun d h1 h2 h3 => h d h2 h3 h1
theorem Prim.flip {x y z : ℤ} (h : Prim x z y) : Prim x y z := fun d h1 h2 h3 => h d h1 h3 h2

/-- `cancel1` divides by the greatest common divisor -/
theorem cancel1_spec {x y z : ℤ} (h : ¬ (x = 0 ∧ y = 0 ∧ z = 0)) :
    let r := cancel1 x y z
    Prim r.1 r.2.1 r.2.2 ∧ ∃ g : ℤ, 0 < g ∧ x = g * r.1 ∧ y = g * r.2.1 ∧ z = g * r.2.2 := by
  intro r
  have hr : r = cancel1 x y z := rfl
  unfold cancel1 at hr
  simp only at hr
  by_cases h1 : gcd x y = 1
  · rw [if_neg (not_not.mpr h1)] at hr
    rw [hr]
    refine ⟨fun d hx hy _ => ?_, 1, one_pos, by ring, by ring, by ring⟩
    exact (Int.isCoprime_iff_gcd_eq_one.mpr (by exact_mod_cast h1)).isUnit_of_dvd' hx hy
  rw [if_pos h1] at hr
  have key : ∀ d : ℤ, d ∣ x → d ∣ y → d ∣ z → d ∣ gcd (gcd x y) z := by
    intro d h1 h2 h3
    exact Int.dvd_coe_gcd (Int.dvd_coe_gcd h1 h2) h3
  by_cases h2 : gcd (gcd x y) z = 1
  · rw [if_neg (not_not.mpr h2)] at hr
    rw [hr]
    refine ⟨fun d hx hy hz => ?_, 1, one_pos, by ring, by ring, by ring⟩
    have := key d hx hy hz
    rw [h2] at this
    exact isUnit_of_dvd_one this
  rw [if_pos h2] at hr
  have dz : gcd (gcd x y) z ∣ z := dvd_snd _ _
  have dx : gcd (gcd x y) z ∣ x := (dvd_fst _ _).trans (dvd_fst _ _)
  have dy : gcd (gcd x y) z ∣ y := (dvd_fst _ _).trans (dvd_snd _ _)
  have hg0 : gcd (gcd x y) z ≠ 0 := by
    intro h0
    rw [h0] at dx dy dz
    exact h ⟨zero_dvd_iff.mp dx, zero_dvd_iff.mp dy, zero_dvd_iff.mp dz⟩
  have hgp : 0 ≤ gcd (gcd x y) z := Int.natCast_nonneg _
  generalize gcd (gcd x y) z = g at *
  obtain ⟨x', rfl⟩ := dx
  obtain ⟨y', rfl⟩ := dy
  obtain ⟨z', rfl⟩ := dz
  rw [Int.mul_fdiv_cancel_left _ hg0, Int.mul_fdiv_cancel_left _ hg0, Int.mul_fdiv_cancel_left _ hg0] at hr
  rw [hr]
  refine ⟨fun d hx hy hz => ?_, g, by omega, rfl, rfl, rfl⟩
  have := key (g * d) (mul_dvd_mul_left g hx) (mul_dvd_mul_left g hy) (mul_dvd_mul_left g hz)
  obtain ⟨t, ht⟩ := this
  have : d * t = 1 := by
    apply mul_left_cancel₀ hg0
    linarith
  exact IsUnit.of_mul_eq_one _ this

theorem Sol.of_mul {a b c x y z g : ℤ} (hg : g ≠ 0) (h : Sol a b c (g * x) (g * y) (g * z)) : Sol a b c x y z := by
  refine ⟨?_, fun ⟨h1, h2, h3⟩ => h.ne ⟨by rw [h1, mul_zero], by rw [h2, mul_zero], by rw [h3, mul_zero]⟩⟩
  have : g ^ 2 * (a * x ^ 2 + b * y ^ 2 + c * z ^ 2) = 0 := by linear_combination h.eqn
  exact (mul_eq_zero.mp this).resolve_left (pow_ne_zero 2 hg)

theorem Sol.cancel1 {a b c x y z : ℤ} (h : Sol a b c x y z) :
    let r := cancel1 x y z
    Sol a b c r.1 r.2.1 r.2.2 ∧ Prim r.1 r.2.1 r.2.2 ∧ r.2.2 ^ 2 ≤ z ^ 2 := by
  intro r
  obtain ⟨hp, g, hg, hx, hy, hz⟩ := cancel1_spec h.ne
  refine ⟨?_, hp, ?_⟩
  · apply Sol.of_mul hg.ne'
    rw [← hx, ← hy, ← hz]
    exact h
  · change (Legendre.cancel1 x y z).2.2 ^ 2 ≤ _
    generalize (Legendre.cancel1 x y z).2.2 = w at *
    rw [hz, mul_pow]
    have := sq_nonneg w
    have : 1 ≤ g ^ 2 := by nlinarith
    nlinarith

/-- the coefficients of the equation in the reduction -/
structure Coef (a b c : ℤ) : Prop where
  a0 : a ≠ 0
  b0 : b ≠ 0
  c0 : c ≠ 0
  cab : IsCoprime a b
  cbc : IsCoprime b c
  cca : IsCoprime c a

theorem Coef.cyc {a b c : ℤ} (h : Coef a b c) : Coef b c a := ⟨h.b0, h.c0, h.a0, h.cbc, h.cca, h.cab⟩
theorem Coef.flip {a b c : ℤ} (h : Coef a b c) : Coef a c b := ⟨h.a0, h.c0, h.b0, h.cca.symm, h.cbc.symm, h.cab.symm⟩
theorem Coef.neg {a b c : ℤ} (h : Coef a b c) : Coef (-a) (-b) (-c) :=
  ⟨neg_ne_zero.mpr h.a0, neg_ne_zero.mpr h.b0, neg_ne_zero.mpr h.c0, h.cab.neg_neg, h.cbc.neg_neg, h.cca.neg_neg⟩

/-- the algebra of one step -/
theorem mordell_alg {a b c x y z xx yy zz d u v : ℤ} (h : a * x ^ 2 + b * y ^ 2 + c * z ^ 2 = 0)
    (hd : y * xx - x * yy = d) (hu : u = a * xx ^ 2 + b * yy ^ 2 + c * zz ^ 2)
    (hv : v = 2 * (a * x * xx + b * y * yy + c * z * zz)) :
    a * (x * u - xx * v) ^ 2 + b * (y * u - yy * v) ^ 2 + c * (z * u - zz * v) ^ 2 = 0 ∧
    (z * u - zz * v) * (c * z) = -((c * z * zz + (a * x * xx + b * y * yy)) ^ 2 + a * b * d ^ 2) := by
  subst hu hv hd
  refine ⟨?_, ?_⟩
  · linear_combination (a * xx ^ 2 + b * yy ^ 2 + c * zz ^ 2) ^ 2 * h
  · linear_combination (a * xx ^ 2 + b * yy ^ 2) * h

/-- the new vector is divisible by `d` -/
theorem mordell_dvd {a b c x y z xx yy zz d u v : ℤ} (h : a * x ^ 2 + b * y ^ 2 + c * z ^ 2 = 0)
    (hd : y * xx - x * yy = d) (hdc : d ∣ c) (hy : IsCoprime y d)
    (hu : u = a * xx ^ 2 + b * yy ^ 2 + c * zz ^ 2)
    (hv : v = 2 * (a * x * xx + b * y * yy + c * z * zz)) : d ∣ u ∧ d ∣ v := by
  obtain ⟨k, rfl⟩ := hdc
  constructor
  · apply dvd_cancel (hy.pow_left (m := 2))
    have : y ^ 2 * u = d * (a * (y * xx + x * yy) + k * y ^ 2 * zz ^ 2 - k * yy ^ 2 * z ^ 2) := by
      rw [hu]
      linear_combination yy ^ 2 * h + a * (y * xx + x * yy) * hd
    rw [this]; exact Dvd.intro _ rfl
  · apply dvd_cancel hy
    have : y * v = d * (2 * (a * x + k * z * y * zz - k * yy * z ^ 2)) := by
      rw [hv]
      linear_combination 2 * yy * h + 2 * a * x * hd
    rw [this]; exact Dvd.intro _ rfl

/-- the new vector is not zero -/
theorem mordell_ne {a b c x y z xx yy zz d u v : ℤ} (hab : a * b ≠ 0) (h : a * x ^ 2 + b * y ^ 2 + c * z ^ 2 = 0)
    (hd : y * xx - x * yy = d) (hd0 : d ≠ 0) (hu : u = a * xx ^ 2 + b * yy ^ 2 + c * zz ^ 2)
    (hv : v = 2 * (a * x * xx + b * y * yy + c * z * zz)) :
    ¬ (x * u - xx * v = 0 ∧ y * u - yy * v = 0 ∧ z * u - zz * v = 0) := by
  rintro ⟨h1, h2, -⟩
  have hv0 : v = 0 := by
    have : d * v = 0 := by linear_combination x * h2 - y * h1 - v * hd
    exact (mul_eq_zero.mp this).resolve_left hd0
  have hu0 : u = 0 := by
    have : d * u = 0 := by linear_combination xx * h2 - yy * h1 - u * hd
    exact (mul_eq_zero.mp this).resolve_left hd0
  have hw : a * x * xx + b * y * yy + c * z * zz = 0 := by omega
  have : a * b * d ^ 2 = 0 := by
    rw [hu0] at hu
    rw [← hd]
    linear_combination (a * xx ^ 2 + b * yy ^ 2) * h - (a * x * xx + b * y * yy - c * z * zz) * hw - c * z ^ 2 * (-hu)
  rcases mul_eq_zero.mp this with h' | h'
  · exact hab h'
  · exact hd0 (pow_eq_zero_iff two_ne_zero |>.mp h')

/-- the choice of `zz` : for odd `c0` the parity is right and the distance from `u/v` is at most 1, for even `c0` at
most 1/2 -/
theorem mordellZ_spec (a b c0 xx yy u v : ℤ) (hv : 0 < v) :
    let zz := mordellZ a b c0 xx yy u v
    (c0 % 2 = 1 → (a * xx + b * yy - zz) % 2 = 0 ∧ (zz * v - u) ^ 2 ≤ v ^ 2) ∧
    (c0 % 2 = 0 → 4 * (zz * v - u) ^ 2 ≤ v ^ 2) := by
  intro zz
  have hz : zz = mordellZ a b c0 xx yy u v := rfl
  unfold mordellZ at hz
  have n1 := nearest_spec u v hv
  have n2 := nearest_spec u (2 * v) (by omega)
  generalize nearest u v = k at *
  generalize nearest u (2 * v) = l at *
  have e1 : l * (2 * v) = 2 * (l * v) := by ring
  refine ⟨fun hc => ?_, fun hc => ?_⟩
  · rw [if_pos hc] at hz
    by_cases hp : (a * xx + b * yy) % 2 = 0
    · rw [if_pos hp] at hz
      rw [hz]
      refine ⟨by omega, ?_⟩
      have : 2 * l * v = 2 * (l * v) := by ring
      rw [this]
      apply sq_le_sq'
      · omega
      · omega
    · rw [if_neg hp] at hz
      simp only at hz
      by_cases hk : k % 2 = 0
      · rw [if_pos hk] at hz
        have e2 : v * k = k * v := mul_comm _ _
        by_cases hg : v * k > u
        · rw [if_pos hg] at hz
          rw [hz]
          refine ⟨by omega, ?_⟩
          have : (k - 1) * v = k * v - v := by ring
          rw [this]
          apply sq_le_sq' <;> omega
        · rw [if_neg hg] at hz
          rw [hz]
          refine ⟨by omega, ?_⟩
          have : (k + 1) * v = k * v + v := by ring
          rw [this]
          apply sq_le_sq' <;> omega
      · rw [if_neg hk] at hz
        rw [hz]
        refine ⟨by omega, ?_⟩
        apply sq_le_sq' <;> omega
  · rw [if_neg (by omega)] at hz
    rw [hz]
    have : (2 * (k * v - u)) ^ 2 ≤ v ^ 2 := by apply sq_le_sq' <;> omega
    linarith [this]

/-- one step for coprime `x00`, `y00` -/
theorem mordellNew_spec {a b c0 x y z xx yy zz d : ℤ} (ha : 0 < a) (hb : 0 < b) (hc : c0 ≠ 0)
    (hz : a * b < z ^ 2) (h : a * x ^ 2 + b * y ^ 2 + c0 * z ^ 2 = 0) (hyc : IsCoprime y c0)
    (hd : d = if c0 % 2 = 1 then c0 else c0.fdiv 2) (hdet : y * xx - x * yy = d)
    (h1 : c0 % 2 = 1 → (a * xx + b * yy - zz) % 2 = 0 ∧
      (c0 * z * zz + (a * x * xx + b * y * yy)) ^ 2 ≤ (c0 * z) ^ 2)
    (h2 : c0 % 2 = 0 → 4 * (c0 * z * zz + (a * x * xx + b * y * yy)) ^ 2 ≤ (c0 * z) ^ 2) :
    ∃ s, mordellNew a b c0 d x y z xx yy zz = some s ∧ Sol a b c0 s.1 s.2.1 s.2.2 ∧ s.2.2 ^ 2 < z ^ 2 := by
  have hab : 0 < a * b := mul_pos ha hb
  have hz0 : z ≠ 0 := by rintro rfl; simp at hz; omega
  unfold mordellNew
  simp only
  obtain ⟨u, hu⟩ : ∃ u, u = a * xx ^ 2 + b * yy ^ 2 + c0 * zz ^ 2 := ⟨_, rfl⟩
  obtain ⟨v, hv⟩ : ∃ v, v = 2 * (a * x * xx + b * y * yy + c0 * z * zz) := ⟨_, rfl⟩
  rw [← hu, ← hv]
  have hdc : d ∣ c0 := by
    rw [hd]
    split_ifs with hp
    · exact dvd_rfl
    · refine ⟨2, ?_⟩
      obtain ⟨k, rfl⟩ : (2 : ℤ) ∣ c0 := by omega
      rw [Int.mul_fdiv_cancel_left _ two_ne_zero]; ring
  have hd0 : d ≠ 0 := fun h0 => hc (zero_dvd_iff.mp (h0 ▸ hdc))
  obtain ⟨du, dv⟩ := mordell_dvd h hdet hdc (hyc.of_isCoprime_of_dvd_right hdc) hu hv
  obtain ⟨m1, m2⟩ := mordell_alg h hdet hu hv
  have m3 := mordell_ne hab.ne' h hdet hd0 hu hv
  -- the divisor
  obtain ⟨D, hD⟩ : ∃ D, D = if c0 % 2 = 1 then d * 2 else d := ⟨_, rfl⟩
  rw [← hD]
  have hD0 : D ≠ 0 := by rw [hD]; split_ifs <;> omega
  have hDd : D ∣ x * u - xx * v ∧ D ∣ y * u - yy * v ∧ D ∣ z * u - zz * v := by
    have k1 : d ∣ x * u - xx * v := dvd_sub (du.mul_left _) (dv.mul_left _)
    have k2 : d ∣ y * u - yy * v := dvd_sub (du.mul_left _) (dv.mul_left _)
    have k3 : d ∣ z * u - zz * v := dvd_sub (du.mul_left _) (dv.mul_left _)
    by_cases hp : c0 % 2 = 1
    · rw [hD, if_pos hp]
      rw [if_pos hp] at hd
      have hv2 : (2 : ℤ) ∣ v := ⟨_, hv⟩
      have hu2 : (2 : ℤ) ∣ u := by
        have hpar := (h1 hp).1
        have e1 : ∀ t : ℤ, t ^ 2 % 2 = t % 2 := by
          intro t
          rcases Int.emod_two_eq_zero_or_one t with ht | ht <;> simp [sq, Int.mul_emod, ht]
        have e2 : (a * xx ^ 2) % 2 = (a * xx) % 2 := by rw [Int.mul_emod, e1, ← Int.mul_emod]
        have e3 : (b * yy ^ 2) % 2 = (b * yy) % 2 := by rw [Int.mul_emod, e1, ← Int.mul_emod]
        have e4 : (c0 * zz ^ 2) % 2 = zz % 2 := by rw [Int.mul_emod, e1, hp]; omega
        omega
      have co : IsCoprime d 2 := by
        rw [hd]
        exact ⟨1, -(c0 / 2), by omega⟩
      exact ⟨co.mul_dvd k1 (dvd_sub (hu2.mul_left _) (hv2.mul_left _)),
        co.mul_dvd k2 (dvd_sub (hu2.mul_left _) (hv2.mul_left _)),
        co.mul_dvd k3 (dvd_sub (hu2.mul_left _) (hv2.mul_left _))⟩
    · rw [hD, if_neg hp]; exact ⟨k1, k2, k3⟩
  generalize x * u - xx * v = nx at *
  generalize y * u - yy * v = ny at *
  generalize z * u - zz * v = nz at *
  obtain ⟨⟨nx', rfl⟩, ⟨ny', rfl⟩, ⟨nz', rfl⟩⟩ := hDd
  have f0 : ∀ t : ℤ, (D * t).fmod D = 0 := fun t => Int.fmod_eq_zero_of_dvd (Dvd.intro _ rfl)
  rw [if_pos ⟨hD0, f0 _, f0 _, f0 _⟩, Int.mul_fdiv_cancel_left _ hD0, Int.mul_fdiv_cancel_left _ hD0,
    Int.mul_fdiv_cancel_left _ hD0]
  refine ⟨_, rfl, Sol.of_mul hD0 ⟨m1, m3⟩, ?_⟩
  simp only
  -- size
  have hcz : 0 < (c0 * z) ^ 2 := by positivity
  by_cases hp : c0 % 2 = 1
  · obtain ⟨-, hs⟩ := h1 hp
    rw [if_pos hp] at hd hD
    rw [hD, hd] at m2
    -- 2 c0² z z' = -(…)
    have hzn : |nz'| < |z| := by
      have e : (2 * c0 ^ 2) * (z * nz') = -((c0 * z * zz + (a * x * xx + b * y * yy)) ^ 2 + a * b * c0 ^ 2) := by
        linear_combination m2
      have e' : (2 * c0 ^ 2) * |z * nz'| = (c0 * z * zz + (a * x * xx + b * y * yy)) ^ 2 + a * b * c0 ^ 2 := by
        have p1 : (0 : ℤ) ≤ 2 * c0 ^ 2 := by positivity
        have p2 : 0 ≤ (c0 * z * zz + (a * x * xx + b * y * yy)) ^ 2 + a * b * c0 ^ 2 := by positivity
        have e2 := congrArg abs e
        rw [abs_mul, abs_of_nonneg p1, abs_neg, abs_of_nonneg p2] at e2
        exact e2
      have hc2 : 0 < c0 ^ 2 := by positivity
      have l1 : (2 * c0 ^ 2) * |z * nz'| < (2 * c0 ^ 2) * z ^ 2 := by
        have : a * b * c0 ^ 2 < z ^ 2 * c0 ^ 2 := mul_lt_mul_of_pos_right hz hc2
        have : (c0 * z) ^ 2 = c0 ^ 2 * z ^ 2 := mul_pow _ _ _
        linarith
      have l2 : |z * nz'| < z ^ 2 := lt_of_mul_lt_mul_left l1 (by positivity)
      rw [abs_mul, ← sq_abs z, sq] at l2
      exact lt_of_mul_lt_mul_left l2 (abs_nonneg z)
    exact sq_lt_sq.mpr hzn
  · have hp' : c0 % 2 = 0 := by omega
    have hs := h2 hp'
    rw [if_neg hp] at hd hD
    have hcd : c0 = 2 * d := by
      obtain ⟨k, rfl⟩ : (2 : ℤ) ∣ c0 := by omega
      rw [Int.mul_fdiv_cancel_left _ two_ne_zero] at hd
      rw [hd]
    rw [hD] at m2
    have hzn : |nz'| < |z| := by
      have hc2 : 0 < d ^ 2 := by positivity
      have e : (2 * d ^ 2) * (z * nz') = -((c0 * z * zz + (a * x * xx + b * y * yy)) ^ 2 + a * b * d ^ 2) := by
        linear_combination m2 - d * nz' * z * hcd
      have e' : (2 * d ^ 2) * |z * nz'| = (c0 * z * zz + (a * x * xx + b * y * yy)) ^ 2 + a * b * d ^ 2 := by
        have p1 : (0 : ℤ) ≤ 2 * d ^ 2 := by positivity
        have p2 : 0 ≤ (c0 * z * zz + (a * x * xx + b * y * yy)) ^ 2 + a * b * d ^ 2 := by positivity
        have e2 := congrArg abs e
        rw [abs_mul, abs_of_nonneg p1, abs_neg, abs_of_nonneg p2] at e2
        exact e2
      have l1 : (2 * d ^ 2) * |z * nz'| < (2 * d ^ 2) * z ^ 2 := by
        have q1 : a * b * d ^ 2 < z ^ 2 * d ^ 2 := mul_lt_mul_of_pos_right hz hc2
        have q2 : (c0 * z) ^ 2 = 4 * (d ^ 2 * z ^ 2) := by rw [hcd]; ring
        linarith
      have l2 : |z * nz'| < z ^ 2 := lt_of_mul_lt_mul_left l1 (by positivity)
      rw [abs_mul, ← sq_abs z, sq] at l2
      exact lt_of_mul_lt_mul_left l2 (abs_nonneg z)
    exact sq_lt_sq.mpr hzn

/-- one step of `conic_mordell_reduce` -/
theorem mordellStep_spec (X : XGcd) {a b c x y z : ℤ} (hC : Coef a b c) (ha : 0 < a) (hb : 0 < b)
    (hz : a * b < z ^ 2) (hS : Sol a b c x y z) (hP : Prim x y z) :
    ∃ s, mordellStep X a b c x y z = some s ∧ Sol a b c s.1 s.2.1 s.2.2 ∧ Prim s.1 s.2.1 s.2.2 ∧
      s.2.2 ^ 2 < z ^ 2 := by
  have hab : 0 < a * b := mul_pos ha hb
  have hz0 : z ≠ 0 := by rintro rfl; simp at hz; omega
  have hxy : ¬ (x = 0 ∧ y = 0) := by
    rintro ⟨rfl, rfl⟩
    have := hS.eqn
    have h2 : c * z ^ 2 = 0 := by linarith
    exact (mul_ne_zero hC.c0 (pow_ne_zero 2 hz0)) h2
  -- the reduced data
  obtain ⟨g, hg⟩ : ∃ g, g = gcd x y := ⟨_, rfl⟩
  have hg0 : 0 < g := by
    rw [hg]
    have : Int.gcd x y ≠ 0 := fun h0 => hxy ⟨Int.eq_zero_of_gcd_eq_zero_left h0, Int.eq_zero_of_gcd_eq_zero_right h0⟩
    exact_mod_cast Nat.pos_of_ne_zero this
  obtain ⟨x', hx'⟩ : g ∣ x := hg ▸ dvd_fst _ _
  obtain ⟨y', hy'⟩ : g ∣ y := hg ▸ dvd_snd _ _
  have hco : IsCoprime x' y' := coprime_quot hg0.ne' hg hx' hy'
  have hgz : IsCoprime (g ^ 2) (z ^ 2) := by
    refine IsCoprime.pow (coprime_of_prime fun p hp h1 h2 => ?_)
    exact hp.not_isUnit (hP p (by rw [hx']; exact h1.mul_right _) (by rw [hy']; exact h1.mul_right _) h2)
  obtain ⟨c', hc'⟩ : g ^ 2 ∣ c := by
    apply dvd_cancel hgz.symm
    refine ⟨-(a * x' ^ 2 + b * y' ^ 2), ?_⟩
    have := hS.eqn
    rw [hx', hy'] at this
    linear_combination this
  have hg2 : g ^ 2 ≠ 0 := pow_ne_zero 2 hg0.ne'
  have hc0 : c' ≠ 0 := by rintro rfl; exact hC.c0 (by rw [hc', mul_zero])
  have heq : a * x' ^ 2 + b * y' ^ 2 + c' * z ^ 2 = 0 := by
    apply mul_left_cancel₀ hg2
    have := hS.eqn
    rw [hx', hy', hc'] at this
    linear_combination this
  have hyc : IsCoprime y' c' := by
    refine coprime_of_prime fun p hp h1 h2 => ?_
    have h3 : p ∣ a * x' ^ 2 := by
      have : a * x' ^ 2 = -(b * y' * y') - c' * z ^ 2 := by linear_combination heq
      rw [this]
      exact dvd_sub (dvd_neg.mpr (h1.mul_left _)) (h2.mul_right _)
    rcases hp.dvd_or_dvd h3 with h4 | h4
    · exact not_both hC.cca hp (by rw [hc']; exact h2.mul_left _) h4
    · exact not_both hco hp (hp.dvd_of_dvd_pow h4) h1
  unfold mordellStep
  simp only
  rw [← hg]
  have e1 : (if g > 1 then x.fdiv g else x) = x' := by
    split_ifs with h1
    · rw [hx', Int.mul_fdiv_cancel_left _ hg0.ne']
    · have : g = 1 := by omega
      rw [hx', this, one_mul]
  have e2 : (if g > 1 then y.fdiv g else y) = y' := by
    split_ifs with h1
    · rw [hy', Int.mul_fdiv_cancel_left _ hg0.ne']
    · have : g = 1 := by omega
      rw [hy', this, one_mul]
  have e3 : (if g > 1 then c.fdiv (g ^ 2) else c) = c' := by
    split_ifs with h1
    · rw [hc', Int.mul_fdiv_cancel_left _ hg2]
    · have : g = 1 := by omega
      rw [hc', this, one_pow, one_mul]
  rw [e1, e2, e3]
  obtain ⟨d, hd⟩ : ∃ d, d = if c' % 2 = 1 then c' else c'.fdiv 2 := ⟨_, rfl⟩
  rw [← hd]
  have hdet : y' * ((X.run y' (-x')).2.1 * d) - x' * ((X.run y' (-x')).2.2 * d) = d := by
    have h1 := X.identity y' (-x')
    rw [X.gcd_eq, Int.gcd_neg, Int.gcd_comm, Int.isCoprime_iff_gcd_eq_one.mp hco] at h1
    push_cast at h1
    linear_combination d * h1
  generalize (X.run y' (-x')).2.1 * d = xx at *
  generalize (X.run y' (-x')).2.2 * d = yy at *
  have hcz : c' * z ≠ 0 := mul_ne_zero hc0 hz0
  -- the rounding
  obtain ⟨u, hu⟩ : ∃ u, u = if -c' * z < 0 then -(a * x' * xx + b * y' * yy) else a * x' * xx + b * y' * yy := ⟨_, rfl⟩
  obtain ⟨v, hv⟩ : ∃ v, v = if -c' * z < 0 then -(-c' * z) else -c' * z := ⟨_, rfl⟩
  rw [← hu, ← hv]
  have hv0 : 0 < v := by
    have : -c' * z = -(c' * z) := by ring
    rw [hv]
    split_ifs <;> omega
  rw [if_neg hv0.ne']
  have huv : ∀ t : ℤ, (t * v - u) ^ 2 = (c' * z * t + (a * x' * xx + b * y' * yy)) ^ 2 := by
    intro t
    rw [hu, hv]
    split_ifs <;> ring
  have hv2 : v ^ 2 = (c' * z) ^ 2 := by
    rw [hv]
    split_ifs <;> ring
  have hzz := mordellZ_spec a b c' xx yy u v hv0
  simp only [huv, hv2] at hzz
  obtain ⟨s, hs, hSs, hlt⟩ := mordellNew_spec ha hb hc0 hz heq hyc hd hdet hzz.1 hzz.2
  rw [hs]
  refine ⟨_, rfl, ?_⟩
  by_cases h1 : g > 1
  · simp only [if_pos h1]
    have hS2 : Sol a b c (s.1 * g) (s.2.1 * g) s.2.2 := by
      refine ⟨by rw [hc']; linear_combination g ^ 2 * hSs.eqn, fun ⟨q1, q2, q3⟩ => hSs.ne ⟨?_, ?_, q3⟩⟩
      · exact (mul_eq_zero.mp q1).resolve_right hg0.ne'
      · exact (mul_eq_zero.mp q2).resolve_right hg0.ne'
    obtain ⟨r1, r2, r3⟩ := hS2.cancel1
    exact ⟨r1, r2, lt_of_le_of_lt r3 hlt⟩
  · simp only [if_neg h1]
    have hg1 : g = 1 := by omega
    have hcc : c = c' := by rw [hc', hg1, one_pow, one_mul]
    obtain ⟨r1, r2, r3⟩ := hSs.cancel1
    rw [hcc]
    exact ⟨r1, r2, lt_of_le_of_lt r3 hlt⟩

theorem mordellLoop_spec (X : XGcd) {a b c : ℤ} (hC : Coef a b c) (ha : 0 < a) (hb : 0 < b) :
    ∀ (k : ℕ) (x y z : ℤ), z.natAbs < k → Sol a b c x y z → Prim x y z →
    ∃ s, mordellLoop X a b c k x y z = some s ∧ Sol a b c s.1 s.2.1 s.2.2 ∧ Prim s.1 s.2.1 s.2.2 ∧
      s.2.2 ^ 2 ≤ a * b := by
  intro k
  induction k with
  | zero => intro x y z h; omega
  | succ k ih =>
    intro x y z hk hS hP
    unfold mordellLoop
    by_cases h1 : z ^ 2 ≤ a * b
    · rw [if_pos h1]
      exact ⟨_, rfl, hS, hP, h1⟩
    rw [if_neg h1]
    obtain ⟨s, hs, hSs, hPs, hlt⟩ := mordellStep_spec X hC ha hb (not_le.mp h1) hS hP
    rw [hs]
    have habs : |s.2.2| < |z| := sq_lt_sq.mp hlt
    simp only
    rw [if_neg (not_le.mpr habs)]
    refine ih _ _ _ ?_ hSs hPs
    rw [Int.abs_eq_natAbs, Int.abs_eq_natAbs] at habs
    omega

theorem mordellReduce_spec (X : XGcd) {a b c x y z : ℤ} (hC : Coef a b c) (ha : 0 < a) (hb : 0 < b)
    (hS : Sol a b c x y z) (hP : Prim x y z) :
    ∃ s, mordellReduce X a b c x y z = some s ∧ Sol a b c s.1 s.2.1 s.2.2 ∧ Prim s.1 s.2.1 s.2.2 ∧
      s.2.2 ^ 2 ≤ a * b := mordellLoop_spec X hC ha hb _ x y z (Nat.lt_succ_self _) hS hP

/-- Holzer's bounds -/
structure Holzer (a b c x y z : ℤ) : Prop where
  hx : x ^ 2 ≤ |b * c|
  hy : y ^ 2 ≤ |c * a|
  hz : z ^ 2 ≤ |a * b|

theorem Holzer.cyc {a b c x y z : ℤ} (h : Holzer b c a y z x) : Holzer a b c x y z := ⟨h.hz, h.hx, h.hy⟩
theorem Holzer.flip {a b c x y z : ℤ} (h : Holzer a c b x z y) : Holzer a b c x y z :=
  ⟨by rw [mul_comm]; exact h.hx, by rw [mul_comm]; exact h.hz, by rw [mul_comm]; exact h.hy⟩
theorem Holzer.neg {a b c x y z : ℤ} (h : Holzer (-a) (-b) (-c) x y z) : Holzer a b c x y z :=
  ⟨by simpa using h.hx, by simpa using h.hy, by simpa using h.hz⟩

theorem Sol.neg {a b c x y z : ℤ} (h : Sol (-a) (-b) (-c) x y z) : Sol a b c x y z :=
  ⟨by linear_combination -h.eqn, h.ne⟩

/-- one of Holzer's bounds implies the others -/
theorem holzer_of {a b c x y z : ℤ} (ha : 0 < a) (hb : 0 < b) (hc : c < 0) (hS : Sol a b c x y z)
    (hz : z ^ 2 ≤ a * b) : Holzer a b c x y z := by
  have hab := mul_pos ha hb
  have e := hS.eqn
  have h1 := sq_nonneg x
  have h2 := sq_nonneg y
  have hcz : -c * z ^ 2 ≤ -c * (a * b) := mul_le_mul_of_nonneg_left hz (by omega)
  refine ⟨?_, ?_, ?_⟩
  · rw [abs_of_neg (mul_neg_of_pos_of_neg hb hc)]
    apply le_of_mul_le_mul_left _ ha
    have : 0 ≤ b * y ^ 2 := by positivity
    linarith
  · rw [abs_of_neg (mul_neg_of_neg_of_pos hc ha)]
    apply le_of_mul_le_mul_left _ hb
    have : 0 ≤ a * x ^ 2 := by positivity
    linarith
  · rw [abs_of_pos hab]; exact hz

/-- `legendre_reduce` -/
theorem legendreReduce_spec (X : XGcd) {a b c x y z : ℤ} (hC : Coef a b c)
    (hpos : ¬ (0 < a ∧ 0 < b ∧ 0 < c)) (hneg : ¬ (a < 0 ∧ b < 0 ∧ c < 0))
    (hS : Sol a b c x y z) (hP : Prim x y z) :
    ∃ s, legendreReduce X a b c x y z = some s ∧ Sol a b c s.1 s.2.1 s.2.2 ∧ Prim s.1 s.2.1 s.2.2 ∧
      Holzer a b c s.1 s.2.1 s.2.2 := by
  have ha0 := hC.a0
  have hb0 := hC.b0
  have hc0 := hC.c0
  have sneg : ∀ {a b c x y z : ℤ}, Sol a b c x y z → Sol (-a) (-b) (-c) x y z := by
    intro a b c x y z h
    exact ⟨by linear_combination -h.eqn, h.ne⟩
  unfold legendreReduce
  by_cases ha : a > 0
  · rw [if_pos ha]
    by_cases hb : b > 0
    · rw [if_pos hb]
      obtain ⟨s, hs, h1, h2, h3⟩ := mordellReduce_spec X hC ha hb hS hP
      exact ⟨s, hs, h1, h2, holzer_of ha hb (by omega) h1 h3⟩
    rw [if_neg hb]
    by_cases hc : c > 0
    · rw [if_pos hc]
      obtain ⟨s, hs, h1, h2, h3⟩ := mordellReduce_spec X hC.flip ha hc hS.flip hP.flip
      rw [hs]
      exact ⟨_, rfl, h1.flip, h2.flip, (holzer_of ha hc (by omega) h1 h3).flip⟩
    · rw [if_neg hc]
      obtain ⟨s, hs, h1, h2, h3⟩ := mordellReduce_spec X hC.neg.flip.cyc (by omega) (by omega)
        (sneg hS).cyc.flip hP.cyc.flip
      rw [hs]
      have h4 := holzer_of (by omega) (by omega) (by omega) h1 h3
      exact ⟨_, rfl, h1.flip.cyc.cyc.neg, h2.flip.cyc.cyc, h4.flip.cyc.cyc.neg⟩
  rw [if_neg ha]
  by_cases hb : b > 0
  · rw [if_pos hb]
    by_cases hc : c > 0
    · rw [if_pos hc]
      obtain ⟨s, hs, h1, h2, h3⟩ := mordellReduce_spec X hC.cyc hb hc hS.cyc.cyc hP.cyc.cyc
      rw [hs]
      exact ⟨_, rfl, h1.cyc, h2.cyc, (holzer_of hb hc (by omega) h1 h3).cyc⟩
    · rw [if_neg hc]
      obtain ⟨s, hs, h1, h2, h3⟩ := mordellReduce_spec X hC.neg.flip (by omega) (by omega) (sneg hS).flip hP.flip
      rw [hs]
      have h4 := holzer_of (by omega) (by omega) (by omega) h1 h3
      exact ⟨_, rfl, h1.flip.neg, h2.flip, h4.flip.neg⟩
  · rw [if_neg hb]
    obtain ⟨s, hs, h1, h2, h3⟩ := mordellReduce_spec X hC.neg (by omega) (by omega) (sneg hS) hP
    have h4 := holzer_of (by omega) (by omega) (by omega) h1 h3
    exact ⟨s, hs, h1.neg, h2, h4.neg⟩

end Eclib.Legendre
