import Mathlib.Algebra.Field.Basic
import Mathlib.Algebra.Group.Even
import Mathlib.Algebra.CharZero.Defs
import Mathlib.LinearAlgebra.Matrix.NonsingularInverse
import Mathlib.Data.Matrix.Mul
import Mathlib.Tactic.LinearCombination
import Mathlib.Tactic.FieldSimp
import Mathlib.Tactic.FinCases

/-!
# Classes of points of `y² = d1 x⁴ + c x² z² + d2 z⁴` over a field

The conic `d1 X² + c X Z + d2 Z² = Y²` has a parametrization by quadratics `q1`, `q2`, `q3`.  The class of a point is the
factor `k`, modulo squares, with `q1 = k x²`, `q3 = k z²`.  A point of `b² = g a⁴ - 2c a² e² + (d'/g) e⁴`, where
`d' = c² - 4 d1 d2`, changes the class by `g`: the translation by the point `(2ae/b, (g a⁴ - (d'/g) e⁴)/b²)` of
`w² = d1 d2 m⁴ + c m² + 1`.
-/

namespace Eclib.Desc2

variable {K : Type*} [Field K]

/-- a parametrization of the conic `d1 X² + c X Z + d2 Z² = Y²` with its identities -/
structure KPar (d1 c d2 a1 b1 c1 a2 b2 c2 a3 b3 c3 : K) : Prop where
  e0 : d1 * a1 ^ 2 + c * a1 * a3 + d2 * a3 ^ 2 = a2 ^ 2
  e1 : 2 * d1 * a1 * b1 + c * (a1 * b3 + b1 * a3) + 2 * d2 * a3 * b3 = 2 * a2 * b2
  e2 : d1 * (b1 ^ 2 + 2 * a1 * c1) + c * (b1 * b3 + a1 * c3 + c1 * a3) + d2 * (b3 ^ 2 + 2 * a3 * c3) = b2 ^ 2 + 2 * a2 * c2
  e3 : 2 * d1 * b1 * c1 + c * (b1 * c3 + c1 * b3) + 2 * d2 * b3 * c3 = 2 * b2 * c2
  e4 : d1 * c1 ^ 2 + c * c1 * c3 + d2 * c3 ^ 2 = c2 ^ 2
  dk : 2 * d1 * a1 * c1 + c * (a1 * c3 + c1 * a3) + 2 * d2 * a3 * c3 - 2 * a2 * c2 = c ^ 2 - 4 * d1 * d2

/-- the value of a quadratic -/
def qv (a b c s t : K) : K := a * s ^ 2 + b * s * t + c * t ^ 2

/-- `δ` is the class of a point -/
def Cls (a1 b1 c1 a3 b3 c3 δ : K) : Prop :=
  ∃ s t u v : K, ¬(s = 0 ∧ t = 0) ∧ qv a1 b1 c1 s t = δ * u ^ 2 ∧ qv a3 b3 c3 s t = δ * v ^ 2

section
variable {d1 c d2 a1 b1 c1 a2 b2 c2 a3 b3 c3 : K}

theorem KPar.eqn (h : KPar d1 c d2 a1 b1 c1 a2 b2 c2 a3 b3 c3) (s t : K) :
    d1 * qv a1 b1 c1 s t ^ 2 + c * qv a1 b1 c1 s t * qv a3 b3 c3 s t + d2 * qv a3 b3 c3 s t ^ 2 = qv a2 b2 c2 s t ^ 2 := by
  unfold qv
  linear_combination s ^ 4 * h.e0 + s ^ 3 * t * h.e1 + s ^ 2 * t ^ 2 * h.e2 + s * t ^ 3 * h.e3 + t ^ 4 * h.e4

/-- the polar form on two points of the parametrization -/
theorem KPar.polar (h : KPar d1 c d2 a1 b1 c1 a2 b2 c2 a3 b3 c3) (s t s' t' : K) :
    2 * d1 * qv a1 b1 c1 s t * qv a1 b1 c1 s' t' + c * (qv a1 b1 c1 s t * qv a3 b3 c3 s' t' + qv a1 b1 c1 s' t' * qv a3 b3 c3 s t) +
      2 * d2 * qv a3 b3 c3 s t * qv a3 b3 c3 s' t' - 2 * qv a2 b2 c2 s t * qv a2 b2 c2 s' t' =
      (c ^ 2 - 4 * d1 * d2) * (s * t' - s' * t) ^ 2 := by
  unfold qv
  linear_combination 2 * s ^ 2 * s' ^ 2 * h.e0 + s * s' * (s * t' + s' * t) * h.e1 + 2 * s * t * s' * t' * h.e2 +
    t * t' * (s * t' + s' * t) * h.e3 + 2 * t ^ 2 * t' ^ 2 * h.e4 + (s * t' - s' * t) ^ 2 * h.dk

/-- every point of the conic is reached -/
theorem KPar.surj (h : KPar d1 c d2 a1 b1 c1 a2 b2 c2 a3 b3 c3) (h2 : (2 : K) ≠ 0) (hD : c ^ 2 - 4 * d1 * d2 ≠ 0) {X Y Z : K}
    (he : d1 * X ^ 2 + c * X * Z + d2 * Z ^ 2 = Y ^ 2) (hn : ¬(X = 0 ∧ Y = 0 ∧ Z = 0)) :
    ∃ s t k, ¬(s = 0 ∧ t = 0) ∧ k ≠ 0 ∧ qv a1 b1 c1 s t = k * X ∧ qv a2 b2 c2 s t = k * Y ∧ qv a3 b3 c3 s t = k * Z := by
  obtain ⟨D, hDe⟩ : ∃ D, D = c ^ 2 - 4 * d1 * d2 := ⟨_, rfl⟩
  have hk := h.dk
  rw [← hDe] at hD hk
  let M : Matrix (Fin 3) (Fin 3) K := !![a1, b1, c1; a2, b2, c2; a3, b3, c3]
  let N : Matrix (Fin 3) (Fin 3) K := !![(2 * d1 * c1 + c * c3) / D, -2 * c2 / D, (c * c1 + 2 * d2 * c3) / D;
    -(2 * d1 * b1 + c * b3) / (2 * D), b2 / D, -(c * b1 + 2 * d2 * b3) / (2 * D);
    (2 * d1 * a1 + c * a3) / D, -2 * a2 / D, (c * a1 + 2 * d2 * a3) / D]
  have e2 := h.e2
  have hNM : N * M = 1 := by
    ext i j
    fin_cases i <;> fin_cases j <;> simp [N, M, Matrix.mul_apply, Fin.sum_univ_three] <;> field_simp
    · linear_combination hk
    · linear_combination h.e3
    · linear_combination 2 * h.e4
    · linear_combination -h.e1
    · linear_combination (-2) * e2 + 2 * hk
    · linear_combination -h.e3
    · linear_combination 2 * h.e0
    · linear_combination h.e1
    · linear_combination hk
  have hMN : M * N = 1 := mul_eq_one_comm.1 hNM
  have hv : M.mulVec (N.mulVec ![X, Y, Z]) = ![X, Y, Z] := by
    rw [Matrix.mulVec_mulVec, hMN, Matrix.one_mulVec]
  obtain ⟨S, hS⟩ : ∃ S, N.mulVec ![X, Y, Z] 0 = S := ⟨_, rfl⟩
  obtain ⟨T, hT⟩ : ∃ T, N.mulVec ![X, Y, Z] 1 = T := ⟨_, rfl⟩
  obtain ⟨U, hU⟩ : ∃ U, N.mulVec ![X, Y, Z] 2 = U := ⟨_, rfl⟩
  have hvec : N.mulVec ![X, Y, Z] = ![S, T, U] := by
    ext i; fin_cases i
    · exact hS
    · exact hT
    · exact hU
  rw [hvec] at hv
  have x1 : a1 * S + b1 * T + c1 * U = X := by
    have := congrFun hv 0
    simpa [M, Matrix.mulVec, dotProduct, Fin.sum_univ_three] using this
  have x2 : a2 * S + b2 * T + c2 * U = Y := by
    have := congrFun hv 1
    simpa [M, Matrix.mulVec, dotProduct, Fin.sum_univ_three] using this
  have x3 : a3 * S + b3 * T + c3 * U = Z := by
    have := congrFun hv 2
    simpa [M, Matrix.mulVec, dotProduct, Fin.sum_univ_three] using this
  have hq : S * U = T ^ 2 := by
    apply mul_left_cancel₀ hD
    rw [← x1, ← x2, ← x3] at he
    linear_combination he - S ^ 2 * h.e0 - S * T * h.e1 - U ^ 2 * h.e4 - T * U * h.e3 - T ^ 2 * h.e2 - (S * U - T ^ 2) * hk
  by_cases hS0 : S = 0
  · have hT0 : T = 0 := by
      rw [hS0, zero_mul] at hq
      exact pow_eq_zero_iff two_ne_zero |>.1 hq.symm
    have hU0 : U ≠ 0 := by
      rintro rfl
      apply hn
      rw [← x1, ← x2, ← x3, hS0, hT0]
      exact ⟨by ring, by ring, by ring⟩
    refine ⟨T, U, U, fun h0 => hU0 h0.2, hU0, ?_, ?_, ?_⟩ <;> unfold qv
    · rw [← x1]; linear_combination -a1 * hq
    · rw [← x2]; linear_combination -a2 * hq
    · rw [← x3]; linear_combination -a3 * hq
  · refine ⟨S, T, S, fun h0 => hS0 h0.1, hS0, ?_, ?_, ?_⟩ <;> unfold qv
    · rw [← x1]; linear_combination -c1 * hq
    · rw [← x2]; linear_combination -c2 * hq
    · rw [← x3]; linear_combination -c3 * hq

/-- classes are taken modulo squares -/
theorem Cls.mul_sq {δ r : K} (hr : r ≠ 0) (h : Cls a1 b1 c1 a3 b3 c3 δ) : Cls a1 b1 c1 a3 b3 c3 (δ * r ^ 2) := by
  obtain ⟨s, t, u, v, h0, h1, h2⟩ := h
  refine ⟨s, t, u / r, v / r, h0, ?_, ?_⟩
  · rw [h1]; field_simp
  · rw [h2]; field_simp

/-- the class of a second point -/
theorem KPar.second (h : KPar d1 c d2 a1 b1 c1 a2 b2 c2 a3 b3 c3) (h2 : (2 : K) ≠ 0) (hD : c ^ 2 - 4 * d1 * d2 ≠ 0)
    {δ s t u v : K} (hδ : δ ≠ 0) (s1 : qv a1 b1 c1 s t = δ * u ^ 2) (s3 : qv a3 b3 c3 s t = δ * v ^ 2)
    {Y : K} (s2 : qv a2 b2 c2 s t = δ * Y) {u' v' Y' g r q : K} (hY : Y' ^ 2 = d1 * u' ^ 4 + c * u' ^ 2 * v' ^ 2 + d2 * v' ^ 4)
    (hb : (2 * d1 * u ^ 2 * u' ^ 2 + c * (u ^ 2 * v' ^ 2 + u' ^ 2 * v ^ 2) + 2 * d2 * v ^ 2 * v' ^ 2 - 2 * Y * Y') * (g * r ^ 2) =
      (c ^ 2 - 4 * d1 * d2) * q ^ 2) (hq : q ≠ 0) : Cls a1 b1 c1 a3 b3 c3 (δ * g) := by
  have hn : ¬(u' ^ 2 = 0 ∧ Y' = 0 ∧ v' ^ 2 = 0) := by
    rintro ⟨n1, n2, n3⟩
    rw [n1, n2, n3] at hb
    exact mul_ne_zero hD (pow_ne_zero 2 hq) (by rw [← hb]; ring)
  obtain ⟨s', t', k, k1, k2, k3, k4, k5⟩ := h.surj h2 hD (X := u' ^ 2) (Y := Y') (Z := v' ^ 2) (by linear_combination -hY) hn
  have hp := h.polar s t s' t'
  rw [s1, s2, s3, k3, k4, k5] at hp
  have key : k * (δ * q) ^ 2 = δ * g * ((s * t' - s' * t) * r) ^ 2 := by
    apply mul_left_cancel₀ hD
    linear_combination (-(k * δ ^ 2)) * hb + δ * g * r ^ 2 * hp
  have hk : k = δ * g * ((s * t' - s' * t) * r / (δ * q)) ^ 2 := by
    rw [div_pow, ← mul_div_assoc, eq_div_iff (pow_ne_zero 2 (mul_ne_zero hδ hq))]
    exact key
  refine ⟨s', t', (s * t' - s' * t) * r / (δ * q) * u', (s * t' - s' * t) * r / (δ * q) * v', k1, ?_, ?_⟩
  · rw [k3]
    conv_lhs => rw [hk]
    ring
  · rw [k5]
    conv_lhs => rw [hk]
    ring

/-- the point translated -/
theorem shift_eqn {u v Y m n w : K} (hY : Y ^ 2 = d1 * u ^ 4 + c * u ^ 2 * v ^ 2 + d2 * v ^ 4)
    (hw : w ^ 2 = d1 * d2 * m ^ 4 + c * m ^ 2 * n ^ 2 + n ^ 4) {u' v' Y' : K} (hu' : u' = u * v * w + Y * m * n)
    (hv' : v' = v ^ 2 * n ^ 2 - d1 * m ^ 2 * u ^ 2)
    (hY' : Y' = (v ^ 2 * n ^ 2 + d1 * m ^ 2 * u ^ 2) * (Y * w + c * u * v * m * n) +
      2 * m * n * u * v * (d1 * d2 * m ^ 2 * v ^ 2 + d1 * u ^ 2 * n ^ 2)) :
    Y' ^ 2 = d1 * u' ^ 4 + c * u' ^ 2 * v' ^ 2 + d2 * v' ^ 4 ∧
    (2 * d1 * u ^ 2 * u' ^ 2 + c * (u ^ 2 * v' ^ 2 + u' ^ 2 * v ^ 2) + 2 * d2 * v ^ 2 * v' ^ 2 - 2 * Y * Y') *
      (c * m ^ 2 + 2 * w + 2 * n ^ 2) = (c ^ 2 - 4 * d1 * d2) * (m * (u * v' + u' * v)) ^ 2 := by
  subst hu' hv' hY'
  constructor
  · linear_combination (-1*d1^2*c*u^4*m^6*n^2 + -1*d1^2*u^4*m^4*n^4 + 1*d1^2*u^4*m^4*w^2 + 1*d1*c*u^2*v^2*m^4*n^4 + -1*d1*d2*v^4*m^4*n^4 + -4*d1*u^2*v^2*m^2*n^2*w^2 + -4*d1*u*v*Y*m^3*n^3*w + -1*d1*Y^2*m^4*n^4 + -1*c*v^4*m^2*n^6 + 1*v^4*n^4*w^2) * hY +
      (1*d1^3*u^8*m^4 + -4*d1^2*u^6*v^2*m^2*n^2 + -3*d1*c*u^4*v^4*m^2*n^2 + -4*d1*d2*u^2*v^6*m^2*n^2 + -1*d1*u^4*v^4*w^2 + -4*d1*u^3*v^3*Y*m*n*w + 1*d2*v^8*n^4) * hw
  · linear_combination (2*d1*c*u^2*m^4*n^2 + -2*d1*c*u^2*m^4*w + 4*d1*d2*v^2*m^4*n^2 + 4*d1*u^2*m^2*n^4 + -4*d1*u^2*m^2*w^2 + 2*c*v^2*m^2*n^4 + -4*v^2*n^4*w + -4*v^2*n^2*w^2) * hY +
      (-4*d1^2*u^6*m^2 + -2*d1*c*u^4*v^2*m^2 + 4*d1*u^4*v^2*w + 8*d1*u^3*v*Y*m*n + -2*c*u^2*v^4*n^2 + 2*c*u^2*v^4*w + 4*c*u*v^3*Y*m*n + -4*d2*v^6*n^2) * hw

/-- A point of `b² = g a⁴ - 2c a² e² + g' e⁴`, where `g g' = c² - 4 d1 d2`, changes the class by `g`. -/
theorem KPar.shift (h : KPar d1 c d2 a1 b1 c1 a2 b2 c2 a3 b3 c3) (h2 : (2 : K) ≠ 0) (hD : c ^ 2 - 4 * d1 * d2 ≠ 0)
    (hd1 : d1 ≠ 0) (hd2 : d2 ≠ 0) {δ g g' a b e : K} (hδ : δ ≠ 0) (hg : g * g' = c ^ 2 - 4 * d1 * d2) (hae : ¬(a = 0 ∧ e = 0))
    (hb : b ^ 2 = g * a ^ 4 - 2 * c * a ^ 2 * e ^ 2 + g' * e ^ 4) (hc : Cls a1 b1 c1 a3 b3 c3 δ) :
    Cls a1 b1 c1 a3 b3 c3 (δ * g) := by
  have hg0 : g ≠ 0 := fun h0 => hD (by rw [← hg, h0, zero_mul])
  have sqr : ∀ r z : K, z ≠ 0 → g * z ^ 2 = r ^ 2 → Cls a1 b1 c1 a3 b3 c3 (δ * g) := by
    intro r z hz hr
    have : g = (r / z) ^ 2 := by
      rw [div_pow, eq_div_iff (pow_ne_zero 2 hz), hr]
    rw [this]
    refine hc.mul_sq fun h0 => hg0 ?_
    rw [this, h0, zero_pow two_ne_zero]
  have hc' := hc
  obtain ⟨s, t, u, v, hst, s1, s3⟩ := hc'
  obtain ⟨Y, s2⟩ : ∃ Y, qv a2 b2 c2 s t = δ * Y := ⟨qv a2 b2 c2 s t / δ, by field_simp⟩
  have hY : Y ^ 2 = d1 * u ^ 4 + c * u ^ 2 * v ^ 2 + d2 * v ^ 4 := by
    have := h.eqn s t
    rw [s1, s2, s3] at this
    apply mul_left_cancel₀ (pow_ne_zero 2 hδ)
    linear_combination -this
  have huv : ¬(u = 0 ∧ v = 0) := by
    rintro ⟨rfl, rfl⟩
    have hY0 : Y = 0 := by
      have : Y ^ 2 = 0 := by rw [hY]; ring
      exact pow_eq_zero_iff two_ne_zero |>.1 this
    have p1 := h.polar s t 1 0
    have p2 := h.polar s t 0 1
    rw [s1, s2, s3, hY0] at p1 p2
    apply hst
    have q1 : t ^ 2 = 0 := by
      apply (mul_eq_zero.1 (show (c ^ 2 - 4 * d1 * d2) * t ^ 2 = 0 by linear_combination -p1)).resolve_left hD
    have q2 : s ^ 2 = 0 := by
      apply (mul_eq_zero.1 (show (c ^ 2 - 4 * d1 * d2) * s ^ 2 = 0 by linear_combination -p2)).resolve_left hD
    exact ⟨pow_eq_zero_iff two_ne_zero |>.1 q2, pow_eq_zero_iff two_ne_zero |>.1 q1⟩
  by_cases he : e = 0
  · -- the point at infinity
    have ha : a ≠ 0 := fun h0 => hae ⟨h0, he⟩
    refine sqr b (a ^ 2) (pow_ne_zero 2 ha) ?_
    rw [hb, he]; ring
  by_cases ha : a = 0
  · -- the point `a = 0`
    have hb' : b ^ 2 = g' * e ^ 4 := by rw [hb, ha]; ring
    have hb0 : b ≠ 0 := by
      rintro rfl
      have : g' * e ^ 4 = 0 := by rw [← hb']; ring
      rcases mul_eq_zero.1 this with h0 | h0
      · exact hD (by rw [← hg, h0, mul_zero])
      · exact pow_ne_zero 4 he h0
    by_cases hY0 : Y = 0
    · have hv : v ≠ 0 := by
        rintro rfl
        have : d1 * u ^ 4 = 0 := by rw [hY0] at hY; linear_combination -hY
        exact (mul_ne_zero hd1 (pow_ne_zero 4 fun h0 => huv ⟨h0, rfl⟩)) this
      have e1 : (2 * d1 * u ^ 2 + c * v ^ 2) ^ 2 = (c ^ 2 - 4 * d1 * d2) * v ^ 4 := by
        rw [hY0] at hY
        linear_combination (-4 * d1) * hY
      refine sqr ((2 * d1 * u ^ 2 + c * v ^ 2) * e ^ 2) (b * v ^ 2) (mul_ne_zero hb0 (pow_ne_zero 2 hv)) ?_
      rw [mul_pow, hb', mul_pow, e1, ← hg]
      ring
    · refine h.second h2 hD hδ s1 s3 s2 (u' := u) (v' := v) (Y' := -Y) (r := b) (q := 2 * Y * e ^ 2) (by rw [← hY]; ring) ?_
        (mul_ne_zero (mul_ne_zero h2 hY0) (pow_ne_zero 2 he))
      rw [hb', ← hg]
      linear_combination (-2 * g * g' * e ^ 4) * hY
  -- the general case
  obtain ⟨m, hm⟩ : ∃ m, m = 2 * a * e := ⟨_, rfl⟩
  obtain ⟨w, hw⟩ : ∃ w, w = g * a ^ 4 - g' * e ^ 4 := ⟨_, rfl⟩
  have hm0 : m ≠ 0 := by rw [hm]; exact mul_ne_zero (mul_ne_zero h2 ha) he
  have hww : w ^ 2 = d1 * d2 * m ^ 4 + c * m ^ 2 * b ^ 2 + b ^ 4 := by
    rw [show b ^ 4 = (b ^ 2) ^ 2 by ring, hb, hw, hm]
    linear_combination (-4 * a ^ 4 * e ^ 4) * hg
  have hnu : c * m ^ 2 + 2 * w + 2 * b ^ 2 = g * (2 * a ^ 2) ^ 2 := by
    rw [hb, hw, hm]; ring
  have hnu0 : g * (2 * a ^ 2) ^ 2 ≠ 0 := mul_ne_zero hg0 (pow_ne_zero 2 (mul_ne_zero h2 (pow_ne_zero 2 ha)))
  -- translation by the point or its negative
  have t1 : ∀ m' : K, m' ^ 2 = m ^ 2 → u * (v ^ 2 * (b ^ 2 + w) - d1 * m ^ 2 * u ^ 2) + Y * m' * b * v ≠ 0 →
      Cls a1 b1 c1 a3 b3 c3 (δ * g) := by
    intro m' hm' hE
    have hm4 : m' ^ 4 = m ^ 4 := by rw [show m' ^ 4 = (m' ^ 2) ^ 2 by ring, hm']; ring
    have hm'0 : m' ≠ 0 := by
      rintro rfl
      exact pow_ne_zero 2 hm0 (by rw [← hm']; ring)
    obtain ⟨f1, f2⟩ := shift_eqn hY (by rw [hm4, hm']; exact hww : w ^ 2 = d1 * d2 * m' ^ 4 + c * m' ^ 2 * b ^ 2 + b ^ 4) rfl rfl rfl
    rw [hm', hnu] at f2
    refine h.second h2 hD hδ s1 s3 s2 f1 ?_ (mul_ne_zero hm'0 hE) (r := 2 * a ^ 2)
    rw [hm', f2]
    rw [show u * (v ^ 2 * b ^ 2 - d1 * m ^ 2 * u ^ 2) + (u * v * w + Y * m' * b) * v =
      u * (v ^ 2 * (b ^ 2 + w) - d1 * m ^ 2 * u ^ 2) + Y * m' * b * v by ring]
  -- the same with the coordinates exchanged
  have t2 : ∀ m' : K, m' ^ 2 = m ^ 2 → v * (u ^ 2 * (b ^ 2 + w) - d2 * m ^ 2 * v ^ 2) + Y * m' * b * u ≠ 0 →
      Cls a1 b1 c1 a3 b3 c3 (δ * g) := by
    intro m' hm' hE
    have hm4 : m' ^ 4 = m ^ 4 := by rw [show m' ^ 4 = (m' ^ 2) ^ 2 by ring, hm']; ring
    have hm'0 : m' ≠ 0 := by
      rintro rfl
      exact pow_ne_zero 2 hm0 (by rw [← hm']; ring)
    obtain ⟨f1, f2⟩ := shift_eqn (d1 := d2) (d2 := d1) (c := c) (u := v) (v := u) (by rw [hY]; ring)
      (by rw [hm4, hm', hww]; ring : w ^ 2 = d2 * d1 * m' ^ 4 + c * m' ^ 2 * b ^ 2 + b ^ 4) rfl rfl rfl
    rw [hm', hnu] at f2
    refine h.second h2 hD hδ s1 s3 s2 (u' := u ^ 2 * b ^ 2 - d2 * m ^ 2 * v ^ 2) (v' := v * u * w + Y * m' * b)
      (by rw [hm'] at f1; rw [f1]; ring) ?_ (mul_ne_zero hm'0 hE) (r := 2 * a ^ 2)
    rw [hm'] at *
    linear_combination f2
  by_contra hcl
  have E1 := fun m' hm' => by_contra fun hx => hcl (t1 m' hm' hx)
  have E2 := fun m' hm' => by_contra fun hx => hcl (t2 m' hm' hx)
  have E1p := E1 m rfl
  have E1n := E1 (-m) (by ring)
  have E2p := E2 m rfl
  have E2n := E2 (-m) (by ring)
  have F1 : u * (v ^ 2 * (b ^ 2 + w) - d1 * m ^ 2 * u ^ 2) = 0 := by
    apply (mul_eq_zero.1 (show (2 : K) * (u * (v ^ 2 * (b ^ 2 + w) - d1 * m ^ 2 * u ^ 2)) = 0 by linear_combination E1p + E1n)).resolve_left h2
  have F2 : v * (u ^ 2 * (b ^ 2 + w) - d2 * m ^ 2 * v ^ 2) = 0 := by
    apply (mul_eq_zero.1 (show (2 : K) * (v * (u ^ 2 * (b ^ 2 + w) - d2 * m ^ 2 * v ^ 2)) = 0 by linear_combination E2p + E2n)).resolve_left h2
  have hu0 : u ≠ 0 := by
    rintro rfl
    have : d2 * m ^ 2 * v ^ 3 = 0 := by linear_combination -F2
    exact mul_ne_zero (mul_ne_zero hd2 (pow_ne_zero 2 hm0)) (pow_ne_zero 3 fun h0 => huv ⟨rfl, h0⟩) this
  have hv0 : v ≠ 0 := by
    rintro rfl
    have : d1 * m ^ 2 * u ^ 3 = 0 := by linear_combination -F1
    exact mul_ne_zero (mul_ne_zero hd1 (pow_ne_zero 2 hm0)) (pow_ne_zero 3 hu0) this
  have G1 := (mul_eq_zero.1 F1).resolve_left hu0
  have G2 := (mul_eq_zero.1 F2).resolve_left hv0
  have G3 : (b ^ 2 + w) ^ 2 = d1 * d2 * m ^ 4 := by
    apply mul_left_cancel₀ (mul_ne_zero (pow_ne_zero 2 hu0) (pow_ne_zero 2 hv0))
    linear_combination u ^ 2 * (b ^ 2 + w) * G1 + d1 * m ^ 2 * u ^ 2 * G2
  have G4 : b ^ 2 * (g * (2 * a ^ 2) ^ 2) = 0 := by
    rw [← hnu]
    linear_combination G3 - hww
  have hb0 : b ^ 2 = 0 := (mul_eq_zero.1 G4).resolve_right hnu0
  rw [hb0] at G1 G2 hnu
  refine hcl (sqr (m * Y) (2 * a ^ 2 * (u * v)) (mul_ne_zero (mul_ne_zero h2 (pow_ne_zero 2 ha)) (mul_ne_zero hu0 hv0)) ?_)
  have : g * (2 * a ^ 2 * (u * v)) ^ 2 = (g * (2 * a ^ 2) ^ 2) * (u * v) ^ 2 := by ring
  rw [this, ← hnu, mul_pow m Y, hY]
  linear_combination u ^ 2 * G1 + v ^ 2 * G2

end

end Eclib.Desc2
