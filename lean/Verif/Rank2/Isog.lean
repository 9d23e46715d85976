import Verif.Sift.Delta
import Mathlib.Tactic.FieldSimp
import Mathlib.Tactic.LinearCombination

/-!
# The 2-isogeny of `y² = x(x² + ax + b)`

The map `(x,y) ↦ (y²/(s²x²), y(x² - b)/(s³x²))` to `y² = x(x² - 2a/s² x + (a² - 4b)/s⁴)` is a homomorphism; with `s = 1` and `s = 2` this gives
the isogeny and its dual.
-/

namespace Eclib.Rank2

set_option linter.unusedSectionVars false

open WeierstrassCurve Polynomial

variable {K : Type} [Field K] [DecidableEq K]

/-- the curve `y² = x(x² + ax + b)` -/
def Cu (a b : K) : WeierstrassCurve K := ⟨0, a, 0, b, 0⟩

theorem Cu_eq {a b x y : K} : (Cu a b).toAffine.Equation x y ↔ y ^ 2 = x ^ 3 + a * x ^ 2 + b * x := by
  rw [Affine.equation_iff]
  simp [Cu]

theorem Cu_disc (a b : K) : (Cu a b).Δ = 16 * b ^ 2 * (a ^ 2 - 4 * b) := by
  simp [Cu, WeierstrassCurve.Δ, WeierstrassCurve.b₂, WeierstrassCurve.b₄, WeierstrassCurve.b₆, WeierstrassCurve.b₈]
  ring

/-- `2`, `b` and `a² - 4b` are not zero -/
structure Nd (a b : K) : Prop where
  two : (2 : K) ≠ 0
  b0 : b ≠ 0
  d0 : a ^ 2 - 4 * b ≠ 0

theorem Nd.disc {a b : K} (h : Nd a b) : (Cu a b).Δ ≠ 0 := by
  rw [Cu_disc, show (16 : K) = 2 ^ 4 by norm_num]
  exact mul_ne_zero (mul_ne_zero (pow_ne_zero _ h.two) (pow_ne_zero _ h.b0)) h.d0

theorem Nd.ns {a b : K} (h : Nd a b) {x y : K} (e : y ^ 2 = x ^ 3 + a * x ^ 2 + b * x) : (Cu a b).toAffine.Nonsingular x y :=
  ((Cu a b).toAffine.equation_iff_nonsingular_of_Δ_ne_zero h.disc).1 (Cu_eq.2 e)

/-- the point with coordinates `x`, `y` -/
def pt {a b : K} (h : Nd a b) (x y : K) (e : y ^ 2 = x ^ 3 + a * x ^ 2 + b * x) : (Cu a b).toAffine.Point := .some x y (h.ns e)

/-- the point `(0,0)` -/
def pT {a b : K} (h : Nd a b) : (Cu a b).toAffine.Point := pt h 0 0 (by ring)

theorem cases {a b : K} (h : Nd a b) (P : (Cu a b).toAffine.Point) :
    P = 0 ∨ P = pT h ∨ ∃ x y e, x ≠ 0 ∧ P = pt h x y e := by
  rcases P with _ | ⟨x, y, n⟩
  · exact Or.inl rfl
  · have e := Cu_eq.1 n.1
    by_cases hx : x = 0
    · subst hx
      have hy : y = 0 := by
        have : y ^ 2 = 0 := by rw [e]; ring
        exact pow_eq_zero_iff two_ne_zero |>.1 this
      subst hy
      exact Or.inr (Or.inl rfl)
    · exact Or.inr (Or.inr ⟨x, y, e, hx, rfl⟩)

theorem pt_neg {a b : K} (h : Nd a b) {x y : K} (e : y ^ 2 = x ^ 3 + a * x ^ 2 + b * x) :
    -pt h x y e = pt h x (-y) (by rw [← e]; ring) := by
  unfold pt
  rw [Affine.Point.neg_some]
  congr 1
  simp [Affine.negY, Cu]

theorem pt_congr {a b : K} (h : Nd a b) {x y x' y' : K} (e : y ^ 2 = x ^ 3 + a * x ^ 2 + b * x) (e' : y' ^ 2 = x' ^ 3 + a * x' ^ 2 + b * x')
    (hx : x = x') (hy : y = y') : pt h x y e = pt h x' y' e' := by
  subst hx; subst hy; rfl

theorem pt_inj {a b : K} (h : Nd a b) {x y x' y' : K} {e : y ^ 2 = x ^ 3 + a * x ^ 2 + b * x} {e' : y' ^ 2 = x' ^ 3 + a * x' ^ 2 + b * x'}
    (hp : pt h x y e = pt h x' y' e') : x = x' ∧ y = y' := by
  unfold pt at hp
  simpa using hp

/-- three points on a line -/
structure Line (a b l n x₁ x₂ x₃ : K) : Prop where
  s1 : x₁ + x₂ + x₃ = l ^ 2 - a
  s2 : x₁ * x₂ + x₁ * x₃ + x₂ * x₃ = b - 2 * l * n
  s3 : x₁ * x₂ * x₃ = n ^ 2

theorem Line.on {a b l n x₁ x₂ x₃ : K} (h : Line a b l n x₁ x₂ x₃) : (l * x₁ + n) ^ 2 = x₁ ^ 3 + a * x₁ ^ 2 + b * x₁ := by
  linear_combination -h.s1 * x₁ ^ 2 + h.s2 * x₁ - h.s3

/-- **three points on a line have sum 0** -/
theorem Line.sum {a b l n x₁ x₂ x₃ : K} (h : Line a b l n x₁ x₂ x₃) (nd : Nd a b) {y₁ y₂ y₃ : K}
    (h₁ : y₁ = l * x₁ + n) (h₂ : y₂ = l * x₂ + n) (h₃ : y₃ = l * x₃ + n) (e₁ : y₁ ^ 2 = x₁ ^ 3 + a * x₁ ^ 2 + b * x₁)
    (e₂ : y₂ ^ 2 = x₂ ^ 3 + a * x₂ ^ 2 + b * x₂) (e₃ : y₃ ^ 2 = x₃ ^ 3 + a * x₃ ^ 2 + b * x₃) :
    pt nd x₁ y₁ e₁ + pt nd x₂ y₂ e₂ = -pt nd x₃ y₃ e₃ := by
  have hsl : ∀ _ : ¬(x₁ = x₂ ∧ y₁ = (Cu a b).toAffine.negY x₂ y₂), (Cu a b).toAffine.slope x₁ x₂ y₁ y₂ = l := by
    intro hxy
    by_cases hx : x₁ = x₂
    · have hy : y₁ ≠ (Cu a b).toAffine.negY x₂ y₂ := fun hh => hxy ⟨hx, hh⟩
      rw [Affine.slope_of_Y_ne hx hy]
      have hd : y₁ - (Cu a b).toAffine.negY x₁ y₁ ≠ 0 := by
        rw [sub_ne_zero]
        subst hx
        intro hh
        exact hy (by rw [h₂, ← h₁]; exact hh)
      rw [div_eq_iff hd]
      simp only [Affine.negY, Cu]
      subst hx
      rw [h₁]
      linear_combination (2 * x₁) * h.s1 - h.s2
    · rw [Affine.slope_of_X_ne hx, div_eq_iff (sub_ne_zero.2 hx), h₁, h₂]
      ring
  by_cases hxy : x₁ = x₂ ∧ y₁ = (Cu a b).toAffine.negY x₂ y₂
  · exfalso
    obtain ⟨hx, hy⟩ := hxy
    subst hx
    have hy0 : y₁ = 0 := by
      have : 2 * y₁ = 0 := by
        have e : y₂ = y₁ := by rw [h₁, h₂]
        rw [e] at hy
        simp only [Affine.negY, Cu] at hy
        linear_combination hy
      exact (mul_eq_zero.1 this).resolve_left nd.two
    have hn := (nd.ns e₁)
    rw [Affine.nonsingular_iff] at hn
    rcases hn.2 with hh | hh
    · apply hh
      simp only [Cu]
      have hz : l * x₁ + n = 0 := by rw [← h₁]; exact hy0
      linear_combination (-2 * x₁) * h.s1 + h.s2 - 2 * l * hz
    · apply hh
      simp only [Cu]
      rw [hy0]; ring
  · unfold pt
    rw [Affine.Point.add_some hxy, Affine.Point.neg_some]
    have hl := hsl hxy
    have hX : (Cu a b).toAffine.addX x₁ x₂ ((Cu a b).toAffine.slope x₁ x₂ y₁ y₂) = x₃ := by
      rw [hl]
      simp only [Affine.addX, Cu]
      linear_combination -h.s1
    have hY : (Cu a b).toAffine.addY x₁ x₂ y₁ ((Cu a b).toAffine.slope x₁ x₂ y₁ y₂) = (Cu a b).toAffine.negY x₃ y₃ := by
      unfold Affine.addY
      rw [hX]
      congr 1
      unfold Affine.negAddY
      rw [hX, hl, h₁, h₃]
      ring
    simp only [hX, hY]

/-- two points which are not inverse to each other are on a line with the inverse of their sum -/
theorem line_exists {a b : K} (nd : Nd a b) {x₁ y₁ x₂ y₂ : K} (e₁ : y₁ ^ 2 = x₁ ^ 3 + a * x₁ ^ 2 + b * x₁)
    (e₂ : y₂ ^ 2 = x₂ ^ 3 + a * x₂ ^ 2 + b * x₂) (hne : pt nd x₁ y₁ e₁ + pt nd x₂ y₂ e₂ ≠ 0) :
    ∃ l n x₃, Line a b l n x₁ x₂ x₃ ∧ y₁ = l * x₁ + n ∧ y₂ = l * x₂ + n := by
  have hxy : ¬(x₁ = x₂ ∧ y₁ = (Cu a b).toAffine.negY x₂ y₂) := by
    intro hh
    exact hne (Affine.Point.add_of_Y_eq hh.1 hh.2)
  have h₁ := Cu_eq.2 e₁
  have h₂ := Cu_eq.2 e₂
  have hs := Affine.addPolynomial_slope h₁ h₂ hxy
  have h2 : y₂ = (Cu a b).toAffine.slope x₁ x₂ y₁ y₂ * x₂ + (y₁ - (Cu a b).toAffine.slope x₁ x₂ y₁ y₂ * x₁) := by
    by_cases hx : x₁ = x₂
    · have := Affine.Y_eq_of_Y_ne h₁ h₂ hx (fun h => hxy ⟨hx, h⟩)
      rw [← hx, ← this]; ring
    · rw [Affine.slope_of_X_ne hx]
      have : x₁ - x₂ ≠ 0 := sub_ne_zero.2 hx
      field_simp
      ring
  rw [Affine.addPolynomial_eq, neg_inj, Cubic.prod_X_sub_C_eq, Cubic.toPoly_injective] at hs
  simp only [Cubic.mk.injEq] at hs
  obtain ⟨-, -, e2, e3⟩ := hs
  refine ⟨(Cu a b).toAffine.slope x₁ x₂ y₁ y₂, y₁ - (Cu a b).toAffine.slope x₁ x₂ y₁ y₂ * x₁,
    (Cu a b).toAffine.addX x₁ x₂ ((Cu a b).toAffine.slope x₁ x₂ y₁ y₂), ⟨?_, ?_, ?_⟩, by ring, h2⟩
  · simp only [Affine.addX, Cu]; ring
  · simp only [Cu] at e2 ⊢
    linear_combination -e2
  · simp only [Cu] at e3 ⊢
    linear_combination e3

/-! ## the isogeny -/

/-- the relation between the coefficients -/
structure Is (a b t a' b' : K) : Prop where
  nd : Nd a b
  nd' : Nd a' b'
  t0 : t ≠ 0
  ha : a' = -2 * a * t ^ 2
  hb : b' = (a ^ 2 - 4 * b) * t ^ 4

theorem rel {a b x y : K} (hx : x ≠ 0) (e : y ^ 2 = x ^ 3 + a * x ^ 2 + b * x) : (y / x) ^ 2 = x + a + b / x := by
  field_simp
  linear_combination e

theorem Is.on {a b t a' b' x y : K} (h : Is a b t a' b') (hx : x ≠ 0) (e : y ^ 2 = x ^ 3 + a * x ^ 2 + b * x) :
    (y / x * (x - b / x) * t ^ 3) ^ 2 = ((y / x * t) ^ 2) ^ 3 + a' * ((y / x * t) ^ 2) ^ 2 + b' * (y / x * t) ^ 2 := by
  have r := rel hx e
  have hw : b / x * x = b := div_mul_cancel₀ _ hx
  rw [h.ha, h.hb]
  generalize y / x = q at r ⊢
  generalize b / x = w at r hw ⊢
  subst hw
  linear_combination -(q ^ 2 * t ^ 6 * (x + w + q ^ 2 - a)) * r

/-- the isogeny -/
def isog {a b t a' b' : K} (h : Is a b t a' b') : (Cu a b).toAffine.Point → (Cu a' b').toAffine.Point
  | .zero => 0
  | .some x y n => if hx : x = 0 then 0 else pt h.nd' ((y / x * t) ^ 2) (y / x * (x - b / x) * t ^ 3) (h.on hx (Cu_eq.1 n.1))

variable {a b t a' b' : K} (h : Is a b t a' b')

theorem isog_zero : isog h 0 = 0 := rfl

theorem isog_T : isog h (pT h.nd) = 0 := dif_pos rfl

theorem isog_pt {x y : K} (hx : x ≠ 0) (e : y ^ 2 = x ^ 3 + a * x ^ 2 + b * x) :
    isog h (pt h.nd x y e) = pt h.nd' ((y / x * t) ^ 2) (y / x * (x - b / x) * t ^ 3) (h.on hx e) := dif_neg hx

theorem neg_T (nd : Nd a b) : -pT nd = pT nd := by
  unfold pT
  rw [pt_neg]
  exact pt_congr _ _ _ rfl neg_zero

theorem isog_neg (P : (Cu a b).toAffine.Point) : isog h (-P) = -isog h P := by
  rcases cases h.nd P with rfl | rfl | ⟨x, y, e, hx, rfl⟩
  · rw [neg_zero, isog_zero, neg_zero]
  · rw [neg_T, isog_T, neg_zero]
  · rw [pt_neg, isog_pt h hx, isog_pt h hx, pt_neg]
    refine pt_congr _ _ _ ?_ ?_ <;> field_simp

/-- three points on a line, none of them `0` or `T` -/
theorem isog_line {l n x₁ x₂ x₃ y₁ y₂ y₃ : K} (L : Line a b l n x₁ x₂ x₃) (h₁ : y₁ = l * x₁ + n) (h₂ : y₂ = l * x₂ + n)
    (h₃ : y₃ = l * x₃ + n) (e₁ : y₁ ^ 2 = x₁ ^ 3 + a * x₁ ^ 2 + b * x₁) (e₂ : y₂ ^ 2 = x₂ ^ 3 + a * x₂ ^ 2 + b * x₂)
    (e₃ : y₃ ^ 2 = x₃ ^ 3 + a * x₃ ^ 2 + b * x₃) (k₁ : x₁ ≠ 0) (k₂ : x₂ ≠ 0) (k₃ : x₃ ≠ 0) :
    isog h (pt h.nd x₁ y₁ e₁) + isog h (pt h.nd x₂ y₂ e₂) = -isog h (pt h.nd x₃ y₃ e₃) := by
  have hn : n ≠ 0 := by
    intro hn
    have := L.s3
    rw [hn] at this
    exact mul_ne_zero (mul_ne_zero k₁ k₂) k₃ (by rw [this]; ring)
  rw [isog_pt h k₁, isog_pt h k₂, isog_pt h k₃]
  have r₁ := rel k₁ e₁
  have r₂ := rel k₂ e₂
  have r₃ := rel k₃ e₃
  have hq : ∀ x y : K, x ≠ 0 → y = l * x + n → y / x = l + n * x⁻¹ := by
    rintro x y hx rfl
    field_simp
  have w : ∀ x : K, b / x = b * x⁻¹ := fun x => div_eq_mul_inv b x
  have c₁ : x₁ * x₁⁻¹ = 1 := mul_inv_cancel₀ k₁
  have c₂ : x₂ * x₂⁻¹ = 1 := mul_inv_cancel₀ k₂
  have c₃ : x₃ * x₃⁻¹ = 1 := mul_inv_cancel₀ k₃
  have cn : n * n⁻¹ = 1 := mul_inv_cancel₀ hn
  have U3 : x₁⁻¹ * x₂⁻¹ * x₃⁻¹ = (n⁻¹) ^ 2 := by
    rw [← mul_inv, ← mul_inv, L.s3, inv_pow]
  have U1 : x₁⁻¹ + x₂⁻¹ + x₃⁻¹ = (b - 2 * l * n) * (n⁻¹) ^ 2 := by
    rw [← L.s2, ← U3]
    field_simp
    ring
  have U2 : x₁⁻¹ * x₂⁻¹ + x₁⁻¹ * x₃⁻¹ + x₂⁻¹ * x₃⁻¹ = (l ^ 2 - a) * (n⁻¹) ^ 2 := by
    rw [← L.s1, ← U3]
    field_simp
    ring
  have q₁ := hq x₁ y₁ k₁ h₁
  have q₂ := hq x₂ y₂ k₂ h₂
  have q₃ := hq x₃ y₃ k₃ h₃
  have on : ∀ x u q : K, x * u = 1 → q = l + n * u → q ^ 2 = x + a + b * u →
      q * (x - b * u) * t ^ 3 = t * (l - b * n⁻¹) * (q * t) ^ 2 + t ^ 3 * (l ^ 2 * b * n⁻¹ - a * l + n) := by
    intro x u q c hq r
    subst hq
    linear_combination t ^ 3 * (-l * r + n * c + b * (2 * l * u + n * u ^ 2) * cn)
  have Q1 : y₁ / x₁ + y₂ / x₂ + y₃ / x₃ = l + b * n⁻¹ := by
    rw [q₁, q₂, q₃]
    linear_combination n * U1 + (b * n⁻¹ - 2 * l * (1 + n * n⁻¹)) * cn
  have Q2 : y₁ / x₁ * (y₂ / x₂) + y₁ / x₁ * (y₃ / x₃) + y₂ / x₂ * (y₃ / x₃) = 2 * l * b * n⁻¹ - a := by
    rw [q₁, q₂, q₃]
    linear_combination 2 * l * n * U1 + n ^ 2 * U2 + (2 * l * b * n⁻¹ - 4 * l ^ 2 * (1 + n * n⁻¹) + (l ^ 2 - a) * (1 + n * n⁻¹)) * cn
  have Q3 : y₁ / x₁ * (y₂ / x₂) * (y₃ / x₃) = l ^ 2 * b * n⁻¹ - a * l + n := by
    rw [q₁, q₂, q₃]
    linear_combination l ^ 2 * n * U1 + l * n ^ 2 * U2 + n ^ 3 * U3 +
      (l ^ 2 * b * n⁻¹ - 2 * l ^ 3 * (1 + n * n⁻¹) + l * (l ^ 2 - a) * (1 + n * n⁻¹) + n * (1 + n * n⁻¹)) * cn
  rw [w] at r₁ r₂ r₃
  have o₁ := on x₁ x₁⁻¹ _ c₁ q₁ r₁
  have o₂ := on x₂ x₂⁻¹ _ c₂ q₂ r₂
  have o₃ := on x₃ x₃⁻¹ _ c₃ q₃ r₃
  simp only [w]
  refine Line.sum (l := t * (l - b * n⁻¹)) (n := t ^ 3 * (l ^ 2 * b * n⁻¹ - a * l + n)) ⟨?_, ?_, ?_⟩ h.nd' o₁ o₂ o₃ _ _ _
  · rw [h.ha]
    generalize y₁ / x₁ = p₁ at *
    generalize y₂ / x₂ = p₂ at *
    generalize y₃ / x₃ = p₃ at *
    linear_combination t ^ 2 * ((p₁ + p₂ + p₃ + l + b * n⁻¹) * Q1 - 2 * Q2)
  · rw [h.hb]
    generalize y₁ / x₁ = p₁ at *
    generalize y₂ / x₂ = p₂ at *
    generalize y₃ / x₃ = p₃ at *
    linear_combination t ^ 4 * ((p₁ * p₂ + p₁ * p₃ + p₂ * p₃ + 2 * l * b * n⁻¹ - a) * Q2 - 2 * (p₁ * p₂ * p₃) * Q1
      - 2 * (l + b * n⁻¹) * Q3 - 4 * b * cn)
  · generalize y₁ / x₁ = p₁ at *
    generalize y₂ / x₂ = p₂ at *
    generalize y₃ / x₃ = p₃ at *
    linear_combination t ^ 6 * (p₁ * p₂ * p₃ + l ^ 2 * b * n⁻¹ - a * l + n) * Q3

/-- adding `T` -/
theorem isog_add_T (P : (Cu a b).toAffine.Point) : isog h (pT h.nd + P) = isog h P := by
  rcases cases h.nd P with rfl | rfl | ⟨x, y, e, hx, rfl⟩
  · rw [add_zero, isog_T, isog_zero]
  · rw [show pT h.nd + pT h.nd = 0 by nth_rw 1 [← neg_T h.nd]; exact neg_add_cancel _, isog_T, isog_zero]
  · have hne : pT h.nd + pt h.nd x y e ≠ 0 := by
      intro hh
      rw [← neg_T, neg_add_eq_zero] at hh
      exact hx (pt_inj h.nd hh).1.symm
    obtain ⟨l, n, x₃, L, h₁, h₂⟩ := line_exists h.nd (by ring) e hne
    have hn : n = 0 := by rw [mul_zero, zero_add] at h₁; exact h₁.symm
    subst hn
    have s2 := L.s2
    have x3 : x * x₃ = b := by linear_combination s2
    have k₃ : x₃ ≠ 0 := by
      rintro rfl
      exact h.nd.b0 (by rw [← x3]; ring)
    have e₃ : (l * x₃ + 0) ^ 2 = x₃ ^ 3 + a * x₃ ^ 2 + b * x₃ := by
      linear_combination -L.s1 * x₃ ^ 2 + L.s2 * x₃ - L.s3
    have := L.sum h.nd h₁ h₂ rfl (by ring) e e₃
    rw [show pT h.nd + pt h.nd x y e = _ from this, isog_neg, isog_pt h k₃, isog_pt h hx, pt_neg]
    have y1 : y / x = l := by rw [h₂]; field_simp; ring
    have y2 : (l * x₃ + 0) / x₃ = l := by field_simp; ring
    have w1 : b / x = x₃ := by rw [← x3]; field_simp
    have w2 : b / x₃ = x := by rw [← x3]; field_simp
    refine pt_congr _ _ _ ?_ ?_
    · rw [y1, y2]
    · rw [y1, y2, w1, w2]; ring

/-- **the isogeny is a homomorphism** -/
theorem isog_add (P Q : (Cu a b).toAffine.Point) : isog h (P + Q) = isog h P + isog h Q := by
  rcases cases h.nd P with rfl | rfl | ⟨x₁, y₁, e₁, k₁, rfl⟩
  · rw [zero_add, isog_zero, zero_add]
  · rw [isog_add_T, isog_T, zero_add]
  rcases cases h.nd Q with rfl | rfl | ⟨x₂, y₂, e₂, k₂, rfl⟩
  · rw [add_zero, isog_zero, add_zero]
  · rw [add_comm, isog_add_T, isog_T, add_zero]
  by_cases hne : pt h.nd x₁ y₁ e₁ + pt h.nd x₂ y₂ e₂ = 0
  · rw [hne, isog_zero, eq_neg_of_add_eq_zero_left hne, isog_neg, neg_add_cancel]
  · obtain ⟨l, n, x₃, L, h₁, h₂⟩ := line_exists h.nd e₁ e₂ hne
    have e₃ : (l * x₃ + n) ^ 2 = x₃ ^ 3 + a * x₃ ^ 2 + b * x₃ := by
      linear_combination -L.s1 * x₃ ^ 2 + L.s2 * x₃ - L.s3
    have hs := L.sum h.nd h₁ h₂ rfl e₁ e₂ e₃
    by_cases k₃ : x₃ = 0
    · have hT : pt h.nd x₃ (l * x₃ + n) e₃ = pT h.nd := by
        subst k₃
        refine pt_congr _ _ _ rfl ?_
        have : (l * 0 + n) ^ 2 = 0 := by rw [e₃]; ring
        exact pow_eq_zero_iff two_ne_zero |>.1 this
      rw [hT, neg_T] at hs
      rw [hs, isog_T]
      have : pt h.nd x₂ y₂ e₂ = pT h.nd + -pt h.nd x₁ y₁ e₁ := by rw [← hs]; abel
      rw [this, isog_add_T, isog_neg, add_neg_cancel]
    · rw [hs, isog_neg, isog_line h L h₁ h₂ rfl e₁ e₂ e₃ k₁ k₂ k₃]

/-- the isogeny as a homomorphism of groups -/
def isogHom : (Cu a b).toAffine.Point →+ (Cu a' b').toAffine.Point where
  toFun := isog h
  map_zero' := isog_zero h
  map_add' := isog_add h

theorem isog_ker (P : (Cu a b).toAffine.Point) : isog h P = 0 ↔ P = 0 ∨ P = pT h.nd := by
  constructor
  · intro hP
    rcases cases h.nd P with rfl | rfl | ⟨x, y, e, hx, rfl⟩
    · exact Or.inl rfl
    · exact Or.inr rfl
    · rw [isog_pt h hx] at hP
      unfold pt at hP
      exact absurd hP (Affine.Point.some_ne_zero _)
  · rintro (rfl | rfl)
    · exact isog_zero h
    · exact isog_T h

/-! ## the image -/

open Eclib.Sift (dl g2 g2')

theorem g2_zero (a b : K) : g2 (Cu a b) 0 = 0 := by
  simp [g2, Cu, WeierstrassCurve.b₆]

theorem g2'_zero (a b : K) : g2' (Cu a b) 0 = 4 * b := by
  simp [g2', Cu, WeierstrassCurve.b₄]
  ring

theorem dl_zero (a b : K) : dl (Cu a b) 0 0 = 1 := rfl

theorem dl_T (nd : Nd a b) : dl (Cu a b) 0 (pT nd) = 4 * b := by
  rw [← g2'_zero a b]
  exact if_pos rfl

theorem dl_pt (nd : Nd a b) {x y : K} (hx : x ≠ 0) (e : y ^ 2 = x ^ 3 + a * x ^ 2 + b * x) : dl (Cu a b) 0 (pt nd x y e) = x := by
  show (if x = 0 then _ else x - 0) = x
  rw [if_neg hx, sub_zero]

/-- on the image the class is a square -/
theorem dl_isog (P : (Cu a b).toAffine.Point) : IsSquare (dl (Cu a' b') 0 (isog h P)) := by
  rcases cases h.nd P with rfl | rfl | ⟨x, y, e, hx, rfl⟩
  · exact ⟨1, (mul_one 1).symm⟩
  · rw [isog_T]
    exact ⟨1, (mul_one 1).symm⟩
  · rw [isog_pt h hx]
    by_cases hy : y = 0
    · subst hy
      have hT : pt h.nd' ((0 / x * t) ^ 2) (0 / x * (x - b / x) * t ^ 3) (h.on hx e) = pT h.nd' :=
        pt_congr _ _ _ (by simp) (by simp)
      rw [hT, dl_T, h.hb]
      have hx2 : x ^ 2 + a * x + b = 0 := by
        apply mul_left_cancel₀ hx
        linear_combination -e
      exact ⟨2 * (2 * x + a) * t ^ 2, by linear_combination (-16 * t ^ 4) * hx2⟩
    · rw [dl_pt h.nd' (pow_ne_zero _ (mul_ne_zero (div_ne_zero hy hx) h.t0))]
      exact ⟨y / x * t, by ring⟩

/-- **the image is the kernel of the class** -/
theorem isog_surj (Q : (Cu a' b').toAffine.Point) (hQ : IsSquare (dl (Cu a' b') 0 Q)) : ∃ P, isog h P = Q := by
  have h2 := h.nd.two
  have ht := h.t0
  rcases cases h.nd' Q with rfl | rfl | ⟨X, Y, e, hX, rfl⟩
  · exact ⟨0, rfl⟩
  · rw [dl_T, h.hb] at hQ
    obtain ⟨r, hr⟩ := hQ
    have hs : a ^ 2 - 4 * b = (r / (2 * t ^ 2)) ^ 2 := by
      field_simp
      linear_combination hr
    generalize r / (2 * t ^ 2) = s at hs
    have h4 : (4 : K) ≠ 0 := by
      rw [show (4 : K) = 2 * 2 by norm_num]; exact mul_ne_zero h2 h2
    have hx : ((-a + s) / 2) ^ 2 + a * ((-a + s) / 2) + b = 0 := by
      field_simp
      linear_combination -hs
    have hx0 : (-a + s) / 2 ≠ 0 := by
      intro h0
      rw [h0] at hx
      exact h.nd.b0 (by linear_combination hx)
    generalize (-a + s) / 2 = x at hx hx0
    refine ⟨pt h.nd x 0 (by linear_combination (-x) * hx), ?_⟩
    rw [isog_pt h hx0]
    exact pt_congr _ _ _ (by simp) (by simp)
  · rw [dl_pt h.nd' hX] at hQ
    obtain ⟨r, hr⟩ := hQ
    have hr0 : r ≠ 0 := by
      rintro rfl
      exact hX (by rw [hr]; ring)
    obtain ⟨q, hq, hq0⟩ : ∃ q, r = q * t ∧ q ≠ 0 := ⟨r / t, by field_simp, div_ne_zero hr0 ht⟩
    obtain ⟨k, hk⟩ : ∃ k, Y = k * q * t ^ 3 := ⟨Y / (q * t ^ 3), by field_simp⟩
    have hk2 : k ^ 2 = (q ^ 2 - a) ^ 2 - 4 * b := by
      have : q ^ 2 * t ^ 6 * (k ^ 2 - ((q ^ 2 - a) ^ 2 - 4 * b)) = 0 := by
        rw [hr, hq, hk, h.ha, h.hb] at e
        linear_combination e
      have := (mul_eq_zero.1 this).resolve_left (mul_ne_zero (pow_ne_zero _ hq0) (pow_ne_zero _ ht))
      linear_combination this
    obtain ⟨x, hx⟩ : ∃ x, 2 * x = q ^ 2 - a + k := ⟨(q ^ 2 - a + k) / 2, by field_simp⟩
    obtain ⟨w, hw⟩ : ∃ w, 2 * w = q ^ 2 - a - k := ⟨(q ^ 2 - a - k) / 2, by field_simp⟩
    have h4 : (4 : K) ≠ 0 := by
      rw [show (4 : K) = 2 * 2 by norm_num]; exact mul_ne_zero h2 h2
    have hxw : x * w = b := by
      apply mul_left_cancel₀ h4
      linear_combination 2 * w * hx + (q ^ 2 - a + k) * hw - hk2
    have hx0 : x ≠ 0 := by
      rintro rfl
      exact h.nd.b0 (by rw [← hxw]; ring)
    have hsum : x + w = q ^ 2 - a := by
      apply mul_left_cancel₀ h2
      linear_combination hx + hw
    have hdiff : x - w = k := by
      apply mul_left_cancel₀ h2
      linear_combination hx - hw
    refine ⟨pt h.nd x (q * x) (by rw [← hxw]; linear_combination (-x ^ 2) * hsum), ?_⟩
    rw [isog_pt h hx0]
    have e1 : q * x / x = q := by field_simp
    have e2 : b / x = w := by rw [← hxw]; field_simp
    refine pt_congr _ _ _ ?_ ?_
    · rw [e1, hr, hq]; ring
    · rw [e1, e2, hk, hdiff]; ring

/-- **the composition with the dual isogeny is multiplication by 2** -/
theorem isog_dual {t' : K} (h' : Is a' b' t' a b) (htt : 2 * (t * t') = 1) (P : (Cu a b).toAffine.Point) : isog h' (isog h P) = P + P := by
  have h2 := h.nd.two
  have ht := h.t0
  rcases cases h.nd P with rfl | rfl | ⟨x, y, e, hx, rfl⟩
  · rw [isog_zero, isog_zero, add_zero]
  · rw [isog_T, isog_zero]
    nth_rw 1 [← neg_T h.nd]
    exact (neg_add_cancel _).symm
  · rw [isog_pt h hx]
    by_cases hy : y = 0
    · subst hy
      have hT : pt h.nd' ((0 / x * t) ^ 2) (0 / x * (x - b / x) * t ^ 3) (h.on hx e) = pT h'.nd :=
        pt_congr _ _ _ (by simp) (by simp)
      rw [hT, isog_T]
      have : -pt h.nd x 0 e = pt h.nd x 0 e := by
        rw [pt_neg]
        exact pt_congr _ _ _ rfl neg_zero
      nth_rw 1 [← this]
      exact (neg_add_cancel _).symm
    · have r := rel hx e
      have hq0 : y / x ≠ 0 := div_ne_zero hy hx
      have hX : (y / x * t) ^ 2 ≠ 0 := pow_ne_zero _ (mul_ne_zero hq0 ht)
      have hxw : x * (b / x) = b := by field_simp
      have hyq : y = y / x * x := by field_simp
      have hb := h.hb
      have hk1 : y / x * (x - b / x) * t ^ 3 / (y / x * t) ^ 2 * t' = (x - b / x) / (2 * (y / x)) := by
        generalize y / x = q at *
        generalize b / x = w at *
        field_simp
        linear_combination (x - w) * htt
      obtain ⟨k, hk⟩ : ∃ k, k = (x - b / x) / (2 * (y / x)) := ⟨_, rfl⟩
      have hk2 : 2 * (y / x) * k = x - b / x := by
        rw [hk]; field_simp
      have L : Line a b (y / x + k) (-(k * x)) x x (k ^ 2) := by
        generalize y / x = q at *
        generalize b / x = w at *
        refine ⟨?_, ?_, ?_⟩
        · linear_combination -hk2 - r
        · linear_combination -x * hk2 + hxw
        · ring
      have hl : y = (y / x + k) * x + -(k * x) := by
        nth_rw 1 [hyq]; ring
      have e₃ : ((y / x + k) * k ^ 2 + -(k * x)) ^ 2 = (k ^ 2) ^ 3 + a * (k ^ 2) ^ 2 + b * k ^ 2 := by
        linear_combination -L.s1 * (k ^ 2) ^ 2 + L.s2 * k ^ 2 - L.s3
      rw [L.sum h.nd hl hl rfl e e e₃, pt_neg, show pt h.nd' ((y / x * t) ^ 2) (y / x * (x - b / x) * t ^ 3) (h.on hx e) =
        pt h'.nd ((y / x * t) ^ 2) (y / x * (x - b / x) * t ^ 3) (h.on hx e) from rfl, isog_pt h' hX]
      refine pt_congr _ _ _ ?_ ?_
      · rw [hk1, ← hk]
      · have e5 : y / x * (x - b / x) * t ^ 3 / (y / x * t) ^ 2 * ((y / x * t) ^ 2 - b' / (y / x * t) ^ 2) * t' ^ 3 =
            (y / x * (x - b / x) * t ^ 3 / (y / x * t) ^ 2 * t') * ((y / x * t) ^ 2 - b' / (y / x * t) ^ 2) * t' ^ 2 := by ring
        rw [e5, hk1, ← hk]
        have e6 : ((y / x * t) ^ 2 - b' / (y / x * t) ^ 2) * t' ^ 2 = (t * t') ^ 2 * ((y / x) ^ 2 - (a ^ 2 - 4 * b) / (y / x) ^ 2) := by
          rw [hb]
          generalize y / x = q at *
          field_simp
        rw [mul_assoc, e6]
        have e7 : (a ^ 2 - 4 * b) / (y / x) ^ 2 = (y / x) ^ 2 - 2 * (x + b / x) + 4 * k ^ 2 := by
          rw [div_eq_iff (pow_ne_zero _ hq0)]
          generalize y / x = q at *
          generalize b / x = w at *
          subst hxw
          linear_combination (-(q ^ 2 - x - w + a)) * r - (2 * q * k + x - w) * hk2
        rw [e7]
        have e8 : 4 * (t * t') ^ 2 = 1 := by linear_combination (2 * (t * t') + 1) * htt
        generalize y / x = q at *
        generalize b / x = w at *
        have h4 : (4 : K) ≠ 0 := by
          rw [show (4 : K) = 2 * 2 by norm_num]; exact mul_ne_zero h2 h2
        apply mul_left_cancel₀ h4
        linear_combination k * (2 * (x + w) - 4 * k ^ 2) * e8 + 2 * k * hk2

end Eclib.Rank2
