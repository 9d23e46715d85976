import Verif.Curve.Points
import Mathlib.GroupTheory.OrderOfElement
import Mathlib.Data.ZMod.Basic
import Mathlib.Data.Nat.Prime.Infinite
import Mathlib.NumberTheory.Padics.PadicVal.Basic
import Mathlib.RingTheory.Int.Basic

/-!
# Denominators of torsion points

The code of `order` relies on the fact that the `Z` coordinate of a torsion point on an integral
model is at most 8.  This file proves that fact from the chord and tangent law alone.

For a point `(x, y)` put `ξ = 4x`, `η = 4(2y + a₁x + a₃)`; then `η² = ξ³ + b₂ξ² + 8b₄ξ + 16b₆`.
A point is of level `n` at a prime `p` when `ξ/η ∈ pⁿℤ₍ₚ₎` and `1/η ∈ p³ⁿℤ₍ₚ₎`.
-/

namespace Eclib.Curve

open WeierstrassCurve Polynomial

/-! ### the ideals `pᵏℤ₍ₚ₎` -/

/-- `q ∈ pᵏℤ₍ₚ₎` -/
def Dv (p : ℕ) (k : ℕ) (q : ℚ) : Prop := ∃ a b : ℤ, ¬ (p : ℤ) ∣ b ∧ q * b = (p : ℚ) ^ k * a

namespace Dv

variable {p : ℕ} {k l : ℕ} {q r : ℚ}

theorem int (hp : p.Prime) (n : ℤ) : Dv p 0 n :=
  ⟨n, 1, fun h => hp.one_lt.ne' (by exact_mod_cast Int.eq_one_of_dvd_one (by positivity) h),
    by push_cast; ring⟩

theorem zero (hp : p.Prime) (k : ℕ) : Dv p k 0 :=
  ⟨0, 1, fun h => hp.one_lt.ne' (by exact_mod_cast Int.eq_one_of_dvd_one (by positivity) h),
    by push_cast; ring⟩

theorem mul (hp : p.Prime) (h : Dv p k q) (h' : Dv p l r) : Dv p (k + l) (q * r) := by
  obtain ⟨a, b, hb, e⟩ := h
  obtain ⟨c, d, hd, f⟩ := h'
  refine ⟨a * c, b * d, fun h => ?_, ?_⟩
  · rcases (Nat.prime_iff_prime_int.1 hp).dvd_or_dvd h with h | h
    · exact hb h
    · exact hd h
  · push_cast
    rw [pow_add]
    linear_combination r * d * e + (p : ℚ) ^ k * a * f

theorem add (hp : p.Prime) (h : Dv p k q) (h' : Dv p k r) : Dv p k (q + r) := by
  obtain ⟨a, b, hb, e⟩ := h
  obtain ⟨c, d, hd, f⟩ := h'
  refine ⟨a * d + c * b, b * d, fun h => ?_, ?_⟩
  · rcases (Nat.prime_iff_prime_int.1 hp).dvd_or_dvd h with h | h
    · exact hb h
    · exact hd h
  · push_cast
    linear_combination (d : ℚ) * e + (b : ℚ) * f

theorem neg (h : Dv p k q) : Dv p k (-q) := by
  obtain ⟨a, b, hb, e⟩ := h
  exact ⟨-a, b, hb, by push_cast; linear_combination -e⟩

theorem sub (hp : p.Prime) (h : Dv p k q) (h' : Dv p k r) : Dv p k (q - r) := by
  rw [sub_eq_add_neg]
  exact h.add hp h'.neg

theorem mono (h : Dv p k q) (hl : l ≤ k) : Dv p l q := by
  obtain ⟨a, b, hb, e⟩ := h
  obtain ⟨m, rfl⟩ := Nat.exists_eq_add_of_le hl
  exact ⟨p ^ m * a, b, hb, by push_cast; rw [e, pow_add]; ring⟩

theorem intMul (hp : p.Prime) (n : ℤ) (h : Dv p k q) : Dv p k (n * q) := by
  have := (int hp n).mul hp h
  rwa [zero_add] at this

theorem natMul (hp : p.Prime) (n : ℕ) (h : Dv p k q) : Dv p k (n * q) := by
  have := intMul hp n h
  rwa [Int.cast_natCast] at this

/-- `1 + q` is a unit for `q ∈ pℤ₍ₚ₎` -/
theorem one_add (h : Dv p 1 q) : 1 + q ≠ 0 ∧ Dv p 0 (1 / (1 + q)) := by
  obtain ⟨a, b, hb, e⟩ := h
  have hb0 : b ≠ 0 := fun h => hb (h ▸ dvd_zero _)
  have hbq : (b : ℚ) ≠ 0 := by exact_mod_cast hb0
  have h1 : ¬ (p : ℤ) ∣ b + p * a := fun h => hb ((Int.dvd_add_left (dvd_mul_right _ _)).1 h)
  have h0 : b + p * a ≠ 0 := fun h => h1 (h ▸ dvd_zero _)
  have h0q : (b + p * a : ℚ) ≠ 0 := by exact_mod_cast h0
  have hq : (1 + q) * b = b + p * a := by
    rw [pow_one] at e
    linear_combination e
  have hne : 1 + q ≠ 0 := by
    intro h
    rw [h, zero_mul] at hq
    exact h0q hq.symm
  refine ⟨hne, b, b + p * a, h1, ?_⟩
  push_cast
  rw [← hq]
  field_simp

theorem not_one (h : Dv p 1 1) : False := by
  have := (one_add h.neg).1
  norm_num at this

end Dv

/-! ### the third point on a line -/

/-- The intersection of a line with the cubic. -/
theorem third_point {E : Cv} {x₁ y₁ x₂ y₂ : ℚ} (h₁ : E.Q.toAffine.Nonsingular x₁ y₁)
    (h₂ : E.Q.toAffine.Nonsingular x₂ y₂)
    (hxy : ¬(x₁ = x₂ ∧ y₁ = E.Q.toAffine.negY x₂ y₂)) :
    ∃ x₃ y₃ ℓ ν, ∃ h₃ : E.Q.toAffine.Nonsingular x₃ y₃,
      Affine.Point.some _ _ h₁ + .some _ _ h₂ = -.some _ _ h₃ ∧
      y₁ = ℓ * x₁ + ν ∧ y₂ = ℓ * x₂ + ν ∧ y₃ = ℓ * x₃ + ν ∧
      x₁ + x₂ + x₃ = ℓ ^ 2 + E.a1 * ℓ - E.a2 ∧
      x₁ * x₂ + x₁ * x₃ + x₂ * x₃ = E.a4 - 2 * ℓ * ν - E.a1 * ν - E.a3 * ℓ ∧
      x₁ * x₂ * x₃ = ν ^ 2 + E.a3 * ν - E.a6 := by
  have hs := Affine.addPolynomial_slope h₁.1 h₂.1 hxy
  have h2 : y₂ = E.Q.toAffine.slope x₁ x₂ y₁ y₂ * x₂ +
      (y₁ - E.Q.toAffine.slope x₁ x₂ y₁ y₂ * x₁) := by
    by_cases hx : x₁ = x₂
    · have := Affine.Y_eq_of_Y_ne h₁.1 h₂.1 hx (fun h => hxy ⟨hx, h⟩)
      rw [← hx, ← this]; ring
    · rw [Affine.slope_of_X_ne hx]
      have : x₁ - x₂ ≠ 0 := sub_ne_zero.2 hx
      field_simp
      ring
  rw [Affine.addPolynomial_eq, neg_inj, Cubic.prod_X_sub_C_eq, Cubic.toPoly_injective] at hs
  simp only [Cubic.mk.injEq] at hs
  obtain ⟨-, -, e2, e3⟩ := hs
  refine ⟨_, _, _, _, Affine.nonsingular_negAdd h₁ h₂ hxy, ?_, ?_, h2, ?_, ?_, ?_, ?_⟩
  · exact Affine.Point.add_some hxy
  · ring
  · simp only [Affine.negAddY]; ring
  · simp only [Affine.addX, Cv.Q]; ring
  · simp only [Cv.Q] at e2 ⊢
    linear_combination -e2
  · simp only [Cv.Q] at e3 ⊢
    linear_combination e3

/-- The arithmetic core: three collinear points on `η² = ξ³ + aξ² + bξ + c`, the first two of level
`n`; then so is the third and the sum of the parameters `ξ/η` lies in `p³ⁿℤ₍ₚ₎`. -/
theorem level_core {p : ℕ} (hp : p.Prime) {n : ℕ} (hn : 0 < n) (a b c : ℤ)
    {x₁ y₁ x₂ y₂ x₃ y₃ ℓ ν : ℚ} (l1 : y₁ = ℓ * x₁ + ν) (l2 : y₂ = ℓ * x₂ + ν) (l3 : y₃ = ℓ * x₃ + ν)
    (s1 : x₁ + x₂ + x₃ = ℓ ^ 2 - a)
    (s2 : x₁ * x₂ + x₁ * x₃ + x₂ * x₃ = b - 2 * ℓ * ν)
    (s3 : x₁ * x₂ * x₃ = ν ^ 2 - c)
    (hy1 : y₁ ≠ 0) (hy2 : y₂ ≠ 0) (hx1 : x₁ ≠ 0) (hx2 : x₂ ≠ 0)
    (t1 : Dv p n (x₁ / y₁)) (t2 : Dv p n (x₂ / y₂))
    (w1 : Dv p (3 * n) (1 / y₁)) (w2 : Dv p (3 * n) (1 / y₂))
    (i1 : Dv p 1 (1 / x₁)) (i2 : Dv p 1 (1 / x₂)) :
    y₃ ≠ 0 ∧ Dv p n (x₃ / y₃) ∧ Dv p (3 * n) (1 / y₃) ∧
      Dv p (3 * n) (x₁ / y₁ + x₂ / y₂ + x₃ / y₃) := by
  have hν : ν ≠ 0 := by
    intro h
    subst h
    have key : (1 : ℚ) = b * (1 / x₁ * (1 / x₂)) +
        c * (1 / x₁ * (1 / x₂) * (1 / x₂) + 1 / x₁ * (1 / x₁) * (1 / x₂)) := by
      field_simp
      linear_combination x₁ * x₂ * s2 - (x₁ + x₂) * s3
    have j := i1.mul hp i2
    refine Dv.not_one (p := p) ?_
    rw [key]
    refine Dv.add hp (Dv.intMul hp _ (j.mono (by omega))) (Dv.intMul hp _ ?_)
    exact Dv.add hp ((j.mul hp i2).mono (by omega)) (((i1.mul hp i1).mul hp i2).mono (by omega))
  set τ₁ := x₁ / y₁ with hτ1
  set τ₂ := x₂ / y₂ with hτ2
  set σ₁ := 1 / y₁ with hσ1
  set σ₂ := 1 / y₂ with hσ2
  set α := -ℓ / ν with hα
  set β := 1 / ν with hβ
  have e1 : σ₁ = α * τ₁ + β := by
    rw [hσ1, hα, hτ1, hβ]; field_simp; rw [l1]; ring
  have e2 : σ₂ = α * τ₂ + β := by
    rw [hσ2, hα, hτ2, hβ]; field_simp; rw [l2]; ring
  -- the binary cubic
  have u3 : β ^ 3 * (y₁ * y₂ * y₃) = 1 + a * α + b * α ^ 2 + c * α ^ 3 := by
    rw [hβ, hα]; field_simp
    rw [l1, l2, l3]
    linear_combination ℓ ^ 3 * s3 + ℓ ^ 2 * ν * s2 + ℓ * ν ^ 2 * s1
  have u2 : -(β ^ 3 * (x₁ * y₂ * y₃ + y₁ * x₂ * y₃ + y₁ * y₂ * x₃)) =
      a * β + 2 * b * α * β + 3 * c * α ^ 2 * β := by
    rw [hβ, hα]; field_simp
    rw [l1, l2, l3]
    linear_combination -(3 * ℓ ^ 2 * s3 + 2 * ℓ * ν * s2 + ν ^ 2 * s1)
  have u1 : β ^ 3 * (x₁ * x₂ * y₃ + x₁ * y₂ * x₃ + y₁ * x₂ * x₃) =
      b * β ^ 2 + 3 * c * α * β ^ 2 - α := by
    rw [hβ, hα]; field_simp
    rw [l1, l2, l3]
    linear_combination 3 * ℓ * s3 + ν * s2
  have x1e : x₁ = τ₁ * y₁ := by rw [hτ1]; field_simp
  have x2e : x₂ = τ₂ * y₂ := by rw [hτ2]; field_simp
  have r0 : (1 + a * α + b * α ^ 2 + c * α ^ 3) * (τ₁ ^ 2 + τ₁ * τ₂ + τ₂ ^ 2) +
      (a * β + 2 * b * α * β + 3 * c * α ^ 2 * β) * (τ₁ + τ₂) +
      (b * β ^ 2 + 3 * c * α * β ^ 2 - α) = 0 := by
    rw [← u3, ← u2, ← u1, x1e, x2e]; ring
  have r1 : α * (1 + -(a * τ₁ ^ 2 + b * (τ₁ * (σ₁ + σ₂)) + c * (σ₁ ^ 2 + σ₁ * σ₂ + σ₂ ^ 2))) =
      τ₁ ^ 2 + τ₁ * τ₂ + τ₂ ^ 2 + a * ((τ₁ + τ₂) * σ₂) + b * σ₂ ^ 2 := by
    rw [e1, e2]
    linear_combination -r0
  have tt : ∀ {u v}, Dv p n u → Dv p n v → Dv p (2 * n) (u * v) := fun hu hv =>
    (hu.mul hp hv).mono (by omega)
  have t1' : Dv p n σ₁ := w1.mono (by omega)
  have t2' : Dv p n σ₂ := w2.mono (by omega)
  have hD : Dv p 1 (-(a * τ₁ ^ 2 + b * (τ₁ * (σ₁ + σ₂)) + c * (σ₁ ^ 2 + σ₁ * σ₂ + σ₂ ^ 2))) := by
    refine Dv.mono (k := 2 * n) (Dv.neg ?_) (by omega)
    simp only [pow_two]
    refine Dv.add hp (Dv.add hp (Dv.intMul hp _ (tt t1 t1))
      (Dv.intMul hp _ (tt t1 (t1'.add hp t2')))) (Dv.intMul hp _ ?_)
    exact Dv.add hp (Dv.add hp (tt t1' t1') (tt t1' t2')) (tt t2' t2')
  have hN : Dv p (2 * n) (τ₁ ^ 2 + τ₁ * τ₂ + τ₂ ^ 2 + a * ((τ₁ + τ₂) * σ₂) + b * σ₂ ^ 2) := by
    simp only [pow_two]
    exact Dv.add hp (Dv.add hp (Dv.add hp (Dv.add hp (tt t1 t1) (tt t1 t2)) (tt t2 t2))
      (Dv.intMul hp _ (tt (t1.add hp t2) t2'))) (Dv.intMul hp _ (tt t2' t2'))
  obtain ⟨hD0, hD1⟩ := Dv.one_add hD
  have ha : Dv p (2 * n) α := by
    have := hN.mul hp hD1
    rw [← r1, add_zero] at this
    rwa [mul_one_div, mul_div_cancel_right₀ _ hD0] at this
  have hb : Dv p (3 * n) β := by
    have : β = σ₁ - α * τ₁ := by rw [e1]; ring
    rw [this]
    exact w1.sub hp ((ha.mul hp t1).mono (by omega))
  have hu : Dv p 1 (a * α + b * α ^ 2 + c * α ^ 3) := by
    have h1 : Dv p 1 α := ha.mono (by omega)
    have h0 : Dv p 0 α := ha.mono (by omega)
    have h2 : Dv p 1 (α ^ 2) := by rw [pow_two]; exact (h1.mul hp h0)
    have h3 : Dv p 1 (α ^ 3) := by rw [pow_succ]; exact (h2.mul hp h0)
    exact Dv.add hp (Dv.add hp (Dv.intMul hp _ h1) (Dv.intMul hp _ h2)) (Dv.intMul hp _ h3)
  obtain ⟨hu0, hu1⟩ := Dv.one_add hu
  have hu0' : 1 + a * α + b * α ^ 2 + c * α ^ 3 ≠ 0 := by
    intro h; apply hu0; linear_combination h
  have hy3 : y₃ ≠ 0 := by
    intro h
    rw [h, mul_zero, mul_zero] at u3
    exact hu0' u3.symm
  have hsum : τ₁ + τ₂ + x₃ / y₃ = -(β * (a + 2 * b * α + 3 * c * α ^ 2)) *
      (1 / (1 + (a * α + b * α ^ 2 + c * α ^ 3))) := by
    have hβ0 : β ≠ 0 := by rw [hβ]; exact one_div_ne_zero hν
    have d : 1 + (a * α + b * α ^ 2 + c * α ^ 3) = β ^ 3 * (y₁ * y₂ * y₃) := by rw [u3]; ring
    have e : -(β * (a + 2 * b * α + 3 * c * α ^ 2)) =
      β ^ 3 * (x₁ * y₂ * y₃ + y₁ * x₂ * y₃ + y₁ * y₂ * x₃) := by linear_combination u2
    rw [d, e, hτ1, hτ2]
    field_simp
  have hs : Dv p (3 * n) (τ₁ + τ₂ + x₃ / y₃) := by
    rw [hsum]
    have h0 : Dv p 0 (a + 2 * b * α + 3 * c * α ^ 2) := by
      have hα0 : Dv p 0 α := ha.mono (by omega)
      have h2 : Dv p 0 (α ^ 2) := by rw [pow_two]; exact hα0.mul hp hα0
      refine Dv.add hp (Dv.add hp (Dv.int hp a) ?_) ?_
      · have := Dv.intMul hp (2 * b) hα0
        push_cast at this; exact this
      · have := Dv.intMul hp (3 * c) h2
        push_cast at this; exact this
    exact ((hb.mul hp h0).neg.mul hp hu1).mono (by omega)
  have ht3 : Dv p n (x₃ / y₃) := by
    have : x₃ / y₃ = (τ₁ + τ₂ + x₃ / y₃) - (τ₁ + τ₂) := by ring
    rw [this]
    exact (hs.mono (by omega)).sub hp (t1.add hp t2)
  refine ⟨hy3, ht3, ?_, hs⟩
  have e3 : 1 / y₃ = α * (x₃ / y₃) + β := by
    rw [hα, hβ]; field_simp; rw [l3]; ring
  rw [e3]
  exact ((ha.mul hp ht3).mono (by omega)).add hp hb

/-! ### valuations -/

theorem Dv.iff_val {p : ℕ} [Fact p.Prime] {k : ℕ} {q : ℚ} (hq : q ≠ 0) :
    Dv p k q ↔ (k : ℤ) ≤ padicValRat p q := by
  have hp : p.Prime := Fact.out
  have hp0 : (p : ℚ) ≠ 0 := by exact_mod_cast hp.ne_zero
  constructor
  · rintro ⟨a, b, hb, e⟩
    have hb0 : (b : ℚ) ≠ 0 := by
      intro h
      have : b = 0 := by exact_mod_cast h
      exact hb (this ▸ dvd_zero _)
    have ha0 : (a : ℚ) ≠ 0 := by
      intro h
      rw [h, mul_zero] at e
      exact mul_ne_zero hq hb0 e
    have := congrArg (padicValRat p) e
    rw [padicValRat.mul hq hb0, padicValRat.mul (pow_ne_zero _ hp0) ha0, padicValRat.pow,
      padicValRat.self hp.one_lt, padicValRat.of_int, padicValRat.of_int,
      padicValInt.eq_zero_of_not_dvd hb] at this
    push_cast at this
    have h0 : (0 : ℤ) ≤ padicValInt p a := by positivity
    linarith
  · intro h
    have hden : ¬ (p : ℤ) ∣ (q.den : ℤ) := by
      intro hd
      have hd : p ∣ q.den := by exact_mod_cast hd
      have hn : ¬ p ∣ q.num.natAbs := fun hn => by
        have := Nat.dvd_gcd hn hd
        rw [q.reduced] at this
        exact hp.one_lt.ne' (Nat.dvd_one.1 this)
      have hn' : ¬ (p : ℤ) ∣ q.num := fun h => hn (Int.natCast_dvd.1 h)
      rw [padicValRat_def, padicValInt.eq_zero_of_not_dvd hn'] at h
      have := one_le_padicValNat_of_dvd q.den_ne_zero hd
      omega
    have hnum : (p : ℤ) ^ k ∣ q.num := by
      rw [padicValRat_def, padicValNat.eq_zero_of_not_dvd (fun h => hden (by exact_mod_cast h))] at h
      rw [padicValInt_dvd_iff]
      right
      omega
    obtain ⟨a, ha⟩ := hnum
    refine ⟨a, q.den, hden, ?_⟩
    have : (q.num : ℚ) = p ^ k * a := by rw [ha]; push_cast; ring
    rw [← this]
    push_cast
    exact Rat.mul_den_eq_num q

theorem Dv.unit_val {p : ℕ} [Fact p.Prime] {q : ℚ} (h : Dv p 1 q) : padicValRat p (1 + q) = 0 := by
  have hp : p.Prime := Fact.out
  obtain ⟨h0, h1⟩ := h.one_add
  have h2 : Dv p 0 (1 + q) := by
    have := (Dv.int hp 1).add hp (h.mono (Nat.zero_le 1))
    rwa [Int.cast_one] at this
  rw [Dv.iff_val (one_div_ne_zero h0), one_div, padicValRat.inv] at h1
  rw [Dv.iff_val h0] at h2
  push_cast at h1 h2
  omega

/-- `b₂` as an integer -/
def Cv.B2 (E : Cv) : ℤ := E.a1 ^ 2 + 4 * E.a2
/-- `8b₄` as an integer -/
def Cv.B4 (E : Cv) : ℤ := 8 * (2 * E.a4 + E.a1 * E.a3)
/-- `16b₆` as an integer -/
def Cv.B6 (E : Cv) : ℤ := 16 * (E.a3 ^ 2 + 4 * E.a6)

/-- `η = 4(2y + a₁x + a₃)` -/
def Cv.eta (E : Cv) (x y : ℚ) : ℚ := 4 * (2 * y + E.a1 * x + E.a3)

theorem Cv.eta_sq {E : Cv} {x y : ℚ} (h : E.Q.toAffine.Nonsingular x y) :
    E.eta x y ^ 2 = (4 * x) ^ 3 + E.B2 * (4 * x) ^ 2 + E.B4 * (4 * x) + E.B6 := by
  have := eqn h
  simp only [Cv.eta, Cv.B2, Cv.B4, Cv.B6]
  push_cast
  linear_combination 64 * this

theorem Cv.eta_negY (E : Cv) (x y : ℚ) : E.eta x (E.Q.toAffine.negY x y) = -E.eta x y := by
  simp only [Cv.eta, Affine.negY, Cv.Q]; ring

/-- collinear points in the coordinates `ξ`, `η` -/
theorem third_point' {E : Cv} {x₁ y₁ x₂ y₂ : ℚ} (h₁ : E.Q.toAffine.Nonsingular x₁ y₁)
    (h₂ : E.Q.toAffine.Nonsingular x₂ y₂)
    (hxy : ¬(x₁ = x₂ ∧ y₁ = E.Q.toAffine.negY x₂ y₂)) :
    ∃ x₃ y₃ ℓ ν, ∃ h₃ : E.Q.toAffine.Nonsingular x₃ y₃,
      Affine.Point.some _ _ h₁ + .some _ _ h₂ = -.some _ _ h₃ ∧
      E.eta x₁ y₁ = ℓ * (4 * x₁) + ν ∧ E.eta x₂ y₂ = ℓ * (4 * x₂) + ν ∧
      E.eta x₃ y₃ = ℓ * (4 * x₃) + ν ∧
      4 * x₁ + 4 * x₂ + 4 * x₃ = ℓ ^ 2 - E.B2 ∧
      4 * x₁ * (4 * x₂) + 4 * x₁ * (4 * x₃) + 4 * x₂ * (4 * x₃) = E.B4 - 2 * ℓ * ν ∧
      4 * x₁ * (4 * x₂) * (4 * x₃) = ν ^ 2 - E.B6 := by
  obtain ⟨x₃, y₃, ℓ, ν, h₃, hs, l1, l2, l3, e1, e2, e3⟩ := third_point h₁ h₂ hxy
  refine ⟨x₃, y₃, 2 * ℓ + E.a1, 8 * ν + 4 * E.a3, h₃, hs, ?_, ?_, ?_, ?_, ?_, ?_⟩
  · simp only [Cv.eta]; rw [l1]; ring
  · simp only [Cv.eta]; rw [l2]; ring
  · simp only [Cv.eta]; rw [l3]; ring
  · simp only [Cv.B2]; push_cast; linear_combination 4 * e1
  · simp only [Cv.B4]; push_cast; linear_combination 16 * e2
  · simp only [Cv.B6]; push_cast; linear_combination 64 * e3

/-- the parameter `ξ/η` -/
def tau {E : Cv} : E.Pt → ℚ
  | .zero => 0
  | .some x y _ => 4 * x / E.eta x y

/-- the point is of level `n` at `p` -/
def Lvl {E : Cv} (p n : ℕ) : E.Pt → Prop
  | .zero => True
  | .some x y _ => E.eta x y ≠ 0 ∧ Dv p n (4 * x / E.eta x y) ∧ Dv p (3 * n) (1 / E.eta x y)

theorem tau_zero {E : Cv} : tau (0 : E.Pt) = 0 := rfl

theorem lvl_zero {E : Cv} (p n : ℕ) : Lvl p n (0 : E.Pt) := trivial

theorem tau_neg {E : Cv} (A : E.Pt) : tau (-A) = -tau A := by
  match A with
  | .zero => simp [tau, ← Affine.Point.zero_def]
  | .some x y h =>
    change 4 * x / E.eta x (E.Q.toAffine.negY x y) = _
    rw [Cv.eta_negY, div_neg]
    rfl

theorem lvl_neg {E : Cv} {p n : ℕ} {A : E.Pt} (h : Lvl p n A) : Lvl p n (-A) := by
  match A, h with
  | .zero, _ => exact trivial
  | .some x y hn, h =>
    change E.eta x (E.Q.toAffine.negY x y) ≠ 0 ∧ _
    obtain ⟨h1, h2, h3⟩ := h
    rw [Cv.eta_negY]
    refine ⟨neg_ne_zero.2 h1, ?_, ?_⟩
    · rw [div_neg]; exact h2.neg
    · rw [div_neg]; exact h3.neg

/-- `ξ` of a point of level `n`: its inverse lies in `p²ⁿℤ₍ₚ₎` -/
theorem lvl_inv {E : Cv} {p : ℕ} (hp : p.Prime) {n : ℕ} (hn : 0 < n) {x y : ℚ}
    {h : E.Q.toAffine.Nonsingular x y} (hl : Lvl p n (.some x y h : E.Pt)) :
    4 * x ≠ 0 ∧ Dv p (2 * n) (1 / (4 * x)) := by
  obtain ⟨h0, t, w⟩ := hl
  have e := Cv.eta_sq h
  generalize hξ : 4 * x = ξ at *
  generalize hη : E.eta x y = η at *
  have w' : Dv p n (1 / η) := w.mono (by omega)
  have hD : Dv p 1 (-(E.B2 * (ξ / η * (ξ / η)) + E.B4 * (ξ / η * (1 / η)) +
      E.B6 * (1 / η * (1 / η)))) := by
    refine Dv.mono (k := 2 * n) (Dv.neg ?_) (by omega)
    have tt : ∀ {u v}, Dv p n u → Dv p n v → Dv p (2 * n) (u * v) := fun hu hv =>
      (hu.mul hp hv).mono (by omega)
    exact Dv.add hp (Dv.add hp (Dv.intMul hp _ (tt t t)) (Dv.intMul hp _ (tt t w')))
      (Dv.intMul hp _ (tt w' w'))
  obtain ⟨d0, d1⟩ := hD.one_add
  have key : 1 + -(E.B2 * (ξ / η * (ξ / η)) + E.B4 * (ξ / η * (1 / η)) +
      E.B6 * (1 / η * (1 / η))) = ξ * (ξ / η * (ξ / η)) := by
    field_simp
    linear_combination e
  have hx0 : ξ ≠ 0 := by
    intro h
    rw [key, h, zero_mul] at d0
    exact d0 rfl
  refine ⟨hx0, ?_⟩
  have : 1 / ξ = ξ / η * (ξ / η) * (1 / (1 + -(E.B2 * (ξ / η * (ξ / η)) + E.B4 * (ξ / η * (1 / η)) +
      E.B6 * (1 / η * (1 / η))))) := by
    rw [key]; field_simp
  rw [this]
  exact ((t.mul hp t).mul hp d1).mono (by omega)

theorem lvl_add {E : Cv} {p : ℕ} (hp : p.Prime) {n : ℕ} (hn : 0 < n) {A B : E.Pt}
    (hA : Lvl p n A) (hB : Lvl p n B) :
    Lvl p n (A + B) ∧ Dv p (3 * n) (tau (A + B) - (tau A + tau B)) := by
  match A, B, hA, hB with
  | .zero, B, _, hB =>
    rw [← Affine.Point.zero_def, zero_add]
    refine ⟨hB, ?_⟩
    rw [tau_zero, zero_add, sub_self]
    exact Dv.zero hp _
  | .some x y h, .zero, hA, _ =>
    rw [← Affine.Point.zero_def, add_zero]
    refine ⟨hA, ?_⟩
    rw [tau_zero, add_zero, sub_self]
    exact Dv.zero hp _
  | .some x₁ y₁ h₁, .some x₂ y₂ h₂, hA, hB =>
    by_cases hxy : x₁ = x₂ ∧ y₁ = E.Q.toAffine.negY x₂ y₂
    · have h0 : (Affine.Point.some _ _ h₁ + .some _ _ h₂ : E.Pt) = 0 :=
        Affine.Point.add_of_Y_eq hxy.1 hxy.2
      have hB' : (.some _ _ h₂ : E.Pt) = -.some _ _ h₁ := (neg_eq_of_add_eq_zero_right h0).symm
      rw [h0]
      refine ⟨trivial, ?_⟩
      rw [hB', tau_neg, tau_zero]
      simpa using Dv.zero hp _
    · obtain ⟨x₃, y₃, ℓ, ν, h₃, hs, l1, l2, l3, e1, e2, e3⟩ := third_point' h₁ h₂ hxy
      obtain ⟨j1, k1⟩ := lvl_inv hp hn hA
      obtain ⟨j2, k2⟩ := lvl_inv hp hn hB
      obtain ⟨a1, a2, a3⟩ := hA
      obtain ⟨b1, b2, b3⟩ := hB
      obtain ⟨c1, c2, c3, c4⟩ := level_core hp hn E.B2 E.B4 E.B6 l1 l2 l3 e1 e2 e3 a1 b1 j1 j2
        a2 b2 a3 b3 (k1.mono (by omega)) (k2.mono (by omega))
      rw [hs]
      refine ⟨lvl_neg (A := .some _ _ h₃) ⟨c1, c2, c3⟩, ?_⟩
      rw [tau_neg]
      convert! c4.neg using 1
      simp only [tau]; ring

theorem lvl_nsmul {E : Cv} {p : ℕ} (hp : p.Prime) {n : ℕ} (hn : 0 < n) {A : E.Pt}
    (hA : Lvl p n A) (m : ℕ) : Lvl p n (m • A) ∧ Dv p (3 * n) (tau (m • A) - m * tau A) := by
  induction m with
  | zero =>
    rw [zero_nsmul]
    refine ⟨trivial, ?_⟩
    simpa [tau_zero] using Dv.zero hp _
  | succ m ih =>
    obtain ⟨h1, h2⟩ := lvl_add hp hn ih.1 hA
    rw [succ_nsmul]
    refine ⟨h1, ?_⟩
    have : tau (m • A + A) - ((m + 1 : ℕ) : ℚ) * tau A =
      (tau (m • A + A) - (tau (m • A) + tau A)) + (tau (m • A) - m * tau A) := by
      push_cast; ring
    rw [this]
    exact h2.add hp ih.2

/-- a point whose `ξ` is not integral at `p` has an exact positive level -/
theorem lvl_of_not_int {E : Cv} {p : ℕ} [Fact p.Prime] {x y : ℚ} (h : E.Q.toAffine.Nonsingular x y)
    (hx : 4 * x ≠ 0) (hi : Dv p 1 (1 / (4 * x))) :
    ∃ n : ℕ, 0 < n ∧ Lvl p n (.some x y h : E.Pt) ∧ tau (.some x y h : E.Pt) ≠ 0 ∧
      padicValRat p (tau (.some x y h : E.Pt)) = n := by
  have hp : p.Prime := Fact.out
  have e := Cv.eta_sq h
  have hI := hi
  rw [Dv.iff_val (one_div_ne_zero hx), one_div, padicValRat.inv] at hi
  simp only [Lvl, tau]
  generalize 4 * x = ξ at *
  generalize E.eta x y = η at *
  have hu : Dv p 1 (E.B2 * (1 / ξ) + E.B4 * (1 / ξ * (1 / ξ)) +
      E.B6 * (1 / ξ * (1 / ξ) * (1 / ξ))) := by
    have j0 : Dv p 0 (1 / ξ) := hI.mono (by omega)
    have j2 : Dv p 1 (1 / ξ * (1 / ξ)) := hI.mul hp j0
    exact Dv.add hp (Dv.add hp (Dv.intMul hp _ hI) (Dv.intMul hp _ j2))
      (Dv.intMul hp _ (j2.mul hp j0))
  have hu0 := hu.one_add.1
  have hu1 := hu.unit_val
  have e' : η ^ 2 = ξ ^ 3 * (1 + (E.B2 * (1 / ξ) + E.B4 * (1 / ξ * (1 / ξ)) +
      E.B6 * (1 / ξ * (1 / ξ) * (1 / ξ)))) := by
    rw [e]; field_simp; ring
  have hη : η ≠ 0 := by
    intro h0
    rw [h0] at e'
    have := mul_ne_zero (pow_ne_zero 3 hx) hu0
    apply this
    rw [← e']; norm_num
  have hv := congrArg (padicValRat p) e'
  rw [padicValRat.mul (pow_ne_zero 3 hx) hu0, hu1, padicValRat.pow, padicValRat.pow] at hv
  push_cast at hv hi
  have hvt : padicValRat p (ξ / η) = padicValRat p ξ - padicValRat p η := padicValRat.div hx hη
  have ht0 : ξ / η ≠ 0 := div_ne_zero hx hη
  refine ⟨(padicValRat p (ξ / η)).toNat, by omega, ⟨hη, ?_, ?_⟩, ht0, by omega⟩
  · rw [Dv.iff_val ht0]; omega
  · rw [Dv.iff_val (one_div_ne_zero hη), one_div, padicValRat.inv]
    push_cast
    omega

/-- **Torsion points are integral up to a factor 4.** -/
theorem torsion_int {E : Cv} {p : ℕ} (hp : p.Prime) {x y : ℚ} (h : E.Q.toAffine.Nonsingular x y)
    (ht : 0 < addOrderOf (.some x y h : E.Pt)) (hx : 4 * x ≠ 0) : ¬ Dv p 1 (1 / (4 * x)) := by
  intro hi
  have : Fact p.Prime := ⟨hp⟩
  obtain ⟨n, hn, hl, -, -⟩ := lvl_of_not_int h hx hi
  set A : E.Pt := .some x y h with hA
  have hne : addOrderOf A ≠ 1 := by
    rw [Ne, AddMonoid.addOrderOf_eq_one_iff, hA]
    exact Affine.Point.some_ne_zero h
  obtain ⟨q, hq, hqd⟩ := Nat.exists_prime_and_dvd hne
  obtain ⟨m, hm⟩ := hqd
  have hm0 : 0 < m := by
    rcases Nat.eq_zero_or_pos m with h | h
    · rw [h] at hm; omega
    · exact h
  have hB0 : m • A ≠ 0 := by
    intro h0
    have := addOrderOf_dvd_iff_nsmul_eq_zero.2 h0
    rw [hm] at this
    have := Nat.le_of_dvd hm0 this
    nlinarith [hq.two_le]
  have hqB : q • (m • A) = 0 := by
    rw [← mul_nsmul', ← hm, addOrderOf_nsmul_eq_zero]
  have hlB := (lvl_nsmul hp hn hl m).1
  obtain ⟨B, hB⟩ : ∃ B, B = m • A := ⟨_, rfl⟩
  rw [← hB] at hB0 hqB hlB
  match B, hB0, hqB, hlB with
  | .zero, hB0, _, _ => exact hB0 rfl
  | .some x' y' h', _, hqB, hlB =>
    obtain ⟨j, k⟩ := lvl_inv hp hn hlB
    obtain ⟨n', hn', hl', ht0, hv⟩ := lvl_of_not_int h' j (k.mono (by omega))
    have hd := (lvl_nsmul hp hn' hl' q).2
    rw [hqB, tau_zero, zero_sub] at hd
    have hd := hd.neg
    rw [neg_neg] at hd
    have hq0 : (q : ℚ) ≠ 0 := by exact_mod_cast hq.ne_zero
    rw [Dv.iff_val (mul_ne_zero hq0 ht0), padicValRat.mul hq0 ht0, hv, padicValRat.of_nat] at hd
    have : padicValNat p q ≤ 1 := by
      by_cases hpq : p = q
      · rw [← hpq, padicValNat_self]
      · have : Fact q.Prime := ⟨hq⟩
        rw [padicValNat_primes hpq]; omega
    omega

/-! ### the shape of a reduced triple -/

/-- a reduced triple on the curve is `(ud : Y : d³)` with `d` coprime to `u` -/
theorem reduced_shape {E : Cv} {P : P2} (hon : P2.OnE E P) (hr : P2.Reduced P) (hz : P.Z ≠ 0) :
    ∃ u d : ℤ, 0 < d ∧ P.X = u * d ∧ P.Z = d ^ 3 ∧ IsCoprime u d := by
  obtain ⟨hg, hz0⟩ := hr
  have hzp : 0 < P.Z := lt_of_le_of_ne hz0 (Ne.symm hz)
  unfold P2.OnE at hon
  have key : P.Z * (P.Y ^ 2 + E.a1 * P.X * P.Y + E.a3 * P.Y * P.Z - E.a2 * P.X ^ 2 -
      E.a4 * P.X * P.Z - E.a6 * P.Z ^ 2) = P.X ^ 3 := by linear_combination hon
  have hcop : IsCoprime P.Z (P.Y ^ 2 + E.a1 * P.X * P.Y + E.a3 * P.Y * P.Z - E.a2 * P.X ^ 2 -
      E.a4 * P.X * P.Z - E.a6 * P.Z ^ 2) := by
    rw [Int.isCoprime_iff_gcd_eq_one]
    by_contra hne
    obtain ⟨q, hq, hqd⟩ := Nat.exists_prime_and_dvd hne
    have hq' := Nat.prime_iff_prime_int.1 hq
    have hqd' : (q : ℤ) ∣ (Int.gcd P.Z _ : ℤ) := Int.natCast_dvd_natCast.2 hqd
    have d1 : (q : ℤ) ∣ P.Z := hqd'.trans (Int.gcd_dvd_left _ _)
    have d2 := hqd'.trans (Int.gcd_dvd_right _ _)
    have d3 : (q : ℤ) ∣ P.X := hq'.dvd_of_dvd_pow (key ▸ Dvd.dvd.mul_right d1 _)
    have d4 : (q : ℤ) ∣ P.Y := by
      apply hq'.dvd_of_dvd_pow (n := 2)
      obtain ⟨a, ha⟩ := d1
      obtain ⟨b, hb⟩ := d3
      obtain ⟨c, hc⟩ := d2
      refine ⟨c - (E.a1 * b * P.Y + E.a3 * P.Y * a - E.a2 * b * P.X - E.a4 * b * P.Z -
        E.a6 * a * P.Z), ?_⟩
      linear_combination hc - (E.a1 * P.Y - E.a2 * P.X - E.a4 * P.Z) * hb -
        (E.a3 * P.Y - E.a6 * P.Z) * ha
    have d5 : (q : ℤ) ∣ ((Int.gcd (Int.gcd P.X P.Y) P.Z : ℕ) : ℤ) :=
      Int.dvd_coe_gcd (Int.dvd_coe_gcd d3 d4) d1
    rw [hg] at d5
    exact hq'.not_isUnit (isUnit_of_dvd_one (by exact_mod_cast d5))
  obtain ⟨d, hd⟩ := Int.eq_pow_of_mul_eq_pow_odd_left hcop (by decide : Odd 3) key
  have hd0 : 0 < d := by
    by_contra hn
    have : d ^ 3 ≤ 0 := by
      have : d ≤ 0 := by omega
      exact Odd.pow_nonpos (by decide) this
    omega
  have hdx : d ∣ P.X := by
    have : d ^ 3 ∣ P.X ^ 3 := by rw [← key, hd]; exact dvd_mul_right _ _
    exact (Int.pow_dvd_pow_iff (by norm_num)).1 this
  obtain ⟨u, hu⟩ := hdx
  refine ⟨u, d, hd0, by rw [hu]; ring, hd, ?_⟩
  have hW : (P.Y ^ 2 + E.a1 * P.X * P.Y + E.a3 * P.Y * P.Z - E.a2 * P.X ^ 2 -
      E.a4 * P.X * P.Z - E.a6 * P.Z ^ 2) = u ^ 3 := by
    have h3 : d ^ 3 ≠ 0 := by positivity
    apply mul_left_cancel₀ h3
    rw [← hd, key, hu, hd]; ring
  rw [hW, hd] at hcop
  exact ((IsCoprime.pow_iff (by norm_num) (by norm_num)).1 hcop).symm

/-- **The bound used by `order`:** `Z ∈ {1, 8}` for a torsion point. -/
theorem torsion_Z {E : Cv} {P : P2} {A : E.Pt} (h : Rep E P A) (hr : P2.Reduced P)
    (ht : 0 < addOrderOf A) : P.Z ≤ 8 := by
  by_cases hz : P.Z = 0
  · rw [hz]; norm_num
  obtain ⟨u, d, hd, hX, hZ, hc⟩ := reduced_shape ((P2.isvalid_iff E P).1 h.valid).2 hr hz
  match A, h, ht with
  | .zero, h, _ => exact absurd h.2.2 hz
  | .some x y hns, h, ht =>
    obtain ⟨-, hx, hy⟩ := h
    have hdq : (d : ℚ) ≠ 0 := by exact_mod_cast hd.ne'
    have hxd : x * d ^ 2 = u := by
      rw [hX, hZ] at hx
      push_cast at hx
      apply mul_right_cancel₀ hdq
      linear_combination -hx
    -- every prime dividing `d²` to a higher power than 4 gives a contradiction
    have h4 : d ^ 2 ∣ 4 := by
      by_contra hnd
      have hnd' : ¬ d ^ 2 ∣ 4 * u := fun h =>
        hnd ((IsCoprime.pow_left hc.symm (m := 2)).dvd_of_dvd_mul_right h)
      -- the denominator of `4x`
      have hden : (4 * x).den ≠ 1 := by
        intro h1
        apply hnd'
        have : (4 * x) = ((4 * x).num : ℚ) := by
          conv_lhs => rw [← Rat.num_div_den (4 * x), h1]
          simp
        refine ⟨(4 * x).num, ?_⟩
        have : (4 * u : ℚ) = d ^ 2 * (4 * x).num := by
          rw [← this, ← hxd]; ring
        exact_mod_cast this
      obtain ⟨p, hp, hpd⟩ := Nat.exists_prime_and_dvd hden
      have hx0 : 4 * x ≠ 0 := by
        intro h0
        rw [h0] at hden
        exact hden rfl
      refine torsion_int hp hns ht hx0 ?_
      obtain ⟨m, hm⟩ := hpd
      have hnum : ¬ (p : ℤ) ∣ (4 * x).num := fun hn => by
        have := Nat.dvd_gcd (Int.natCast_dvd.1 hn) (Dvd.intro m hm.symm)
        rw [(4 * x).reduced] at this
        exact hp.one_lt.ne' (Nat.dvd_one.1 this)
      refine ⟨m, (4 * x).num, hnum, ?_⟩
      have e := Rat.mul_den_eq_num (4 * x)
      rw [← e, hm]
      push_cast
      rw [← mul_assoc, one_div, inv_mul_cancel₀ hx0, one_mul, pow_one]
    have : d ≤ 2 := by
      have := Int.le_of_dvd (by norm_num) h4
      nlinarith
    rw [hZ]
    have : d = 1 ∨ d = 2 := by omega
    rcases this with rfl | rfl <;> norm_num

end Eclib.Curve
