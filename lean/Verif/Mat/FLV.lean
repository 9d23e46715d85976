import Mathlib.LinearAlgebra.Matrix.Charpoly.Coeff
import Mathlib.LinearAlgebra.Matrix.NonsingularInverse
import Mathlib.Algebra.Polynomial.Roots
import Mathlib.Data.Rat.Cast.CharZero
import Mathlib.Data.Matrix.Basic

/-!
# The Faddeev–LeVerrier recursion

The coefficients of the characteristic polynomial computed from traces: the mathematics behind
`mat::charpoly` (mat.cc:845-865).
-/

namespace Eclib.Mat

open Polynomial Matrix

variable {n : Nat}

/-- the matrices `B_i - t_i` of the recursion in terms of the coefficients of the characteristic polynomial -/
noncomputable def flv {R : Type} [CommRing R] (A : Matrix (Fin n) (Fin n) R) : Nat → Matrix (Fin n) (Fin n) R
  | 0 => 1
  | i + 1 => A * flv A i + A.charpoly.coeff (n - 1 - i) • (1 : Matrix (Fin n) (Fin n) R)

section field

variable (A : Matrix (Fin n) (Fin n) ℚ)

theorem coeff_n : A.charpoly.coeff n = 1 := by
  have h := A.charpoly_monic
  have h2 := A.charpoly_natDegree_eq_dim
  rw [Fintype.card_fin] at h2
  have := h.coeff_natDegree
  rwa [h2] at this

theorem flv_sum : ∀ i ≤ n, flv A i = ∑ j ∈ Finset.range (i + 1), A.charpoly.coeff (n - j) • A ^ (i - j)
  | 0, _ => by simp [flv, coeff_n]
  | i + 1, hi => by
    rw [flv, flv_sum i (by omega), Finset.sum_range_succ _ (i + 1), Finset.mul_sum]
    congr 1
    · refine Finset.sum_congr rfl fun j hj => ?_
      have : i + 1 - j = (i - j) + 1 := by have := Finset.mem_range.1 hj; omega
      rw [this, pow_succ', mul_smul_comm]
    · rw [show n - (i + 1) = n - 1 - i by omega]; simp

theorem flv_n : flv A n = 0 := by
  rw [flv_sum A n (le_refl n)]
  have h := A.aeval_self_charpoly
  rw [aeval_eq_sum_range' (n := n + 1) (by rw [A.charpoly_natDegree_eq_dim, Fintype.card_fin]; omega)] at h
  rw [← h, ← Finset.sum_range_reflect]
  refine Finset.sum_congr rfl fun j hj => ?_
  have := Finset.mem_range.1 hj
  rw [show n - (n + 1 - 1 - j) = j by omega]

/-- the adjugate of `xI - A` as a polynomial in `x` -/
theorem flv_adj (x : ℚ) : ∀ i ≤ n, (scalar (Fin n) x - A) * ∑ j ∈ Finset.range i, x ^ (n - 1 - j) • flv A j =
    ∑ j ∈ Finset.range (i + 1), (A.charpoly.coeff (n - j) * x ^ (n - j)) • (1 : Matrix (Fin n) (Fin n) ℚ) -
      x ^ (n - i) • flv A i
  | 0, _ => by simp [flv, coeff_n]
  | i + 1, hi => by
    rw [Finset.sum_range_succ, mul_add, flv_adj x i (by omega), Finset.sum_range_succ _ (i + 1), flv]
    have e : n - i = (n - 1 - i) + 1 := by omega
    rw [show n - (i + 1) = n - 1 - i by omega, e, sub_mul, mul_smul_comm, mul_smul_comm]
    rw [show (scalar (Fin n) x : Matrix (Fin n) (Fin n) ℚ) * flv A i = x • flv A i from by
      rw [scalar_apply, ← smul_eq_diagonal_mul]]
    simp only [smul_add, smul_smul, pow_succ, mul_comm (A.charpoly.coeff (n - 1 - i))]
    abel

theorem sum_charpoly (x : ℚ) : ∑ j ∈ Finset.range (n + 1), A.charpoly.coeff (n - j) * x ^ (n - j) =
    A.charpoly.eval x := by
  rw [eval_eq_sum_range' (n := n + 1) (by rw [A.charpoly_natDegree_eq_dim, Fintype.card_fin]; omega),
    ← Finset.sum_range_reflect]
  refine Finset.sum_congr rfl fun j hj => ?_
  have := Finset.mem_range.1 hj
  rw [show n - (n + 1 - 1 - j) = j by omega]

theorem flv_adj_n (x : ℚ) : (scalar (Fin n) x - A) * ∑ j ∈ Finset.range n, x ^ (n - 1 - j) • flv A j =
    A.charpoly.eval x • (1 : Matrix (Fin n) (Fin n) ℚ) := by
  rw [flv_adj A x n (le_refl n), flv_n, smul_zero, sub_zero, ← Finset.sum_smul, sum_charpoly]

/-- the derivative of the characteristic polynomial -/
theorem deriv_charpoly {x : ℚ} (hx : A.charpoly.eval x ≠ 0) :
    A.charpoly.derivative.eval x = A.charpoly.eval x * trace ((scalar (Fin n) x - A)⁻¹) := by
  set P := scalar (Fin n) x - A with hP
  have hdet : P.det = A.charpoly.eval x := (eval_charpoly A x).symm
  have hu : IsUnit P.det := by rw [hdet]; exact isUnit_iff_ne_zero.2 hx
  set q : ℚ[X] := (det (1 + (X : ℚ[X]) • (P⁻¹).map C)).divX.divX with hq
  have key : A.charpoly.comp (C x + X) = C (A.charpoly.eval x) * (1 + C (trace P⁻¹) * X + q * X ^ 2) := by
    refine Polynomial.funext fun y => ?_
    rw [eval_comp]
    simp only [eval_add, eval_C, eval_X, eval_mul, eval_one, eval_pow]
    rw [eval_charpoly]
    have h1 := det_one_add_smul y P⁻¹
    rw [← h1, ← hdet, ← det_mul, mul_add, mul_one, mul_smul_comm, mul_nonsing_inv _ hu]
    congr 1
    rw [hP, map_add]
    ext i j
    simp only [scalar_apply, one_apply, diagonal_apply, Matrix.add_apply, Matrix.sub_apply, Matrix.smul_apply,
      smul_eq_mul]
    split_ifs <;> ring
  have h2 := congrArg (fun f => (derivative f).eval 0) key
  simp only [derivative_comp, eval_mul, eval_comp, derivative_add, derivative_mul, derivative_C, derivative_X,
    eval_add, eval_C, eval_X, derivative_one, zero_mul, add_zero, zero_add, mul_one,
    one_mul, derivative_X_pow, eval_pow] at h2
  simpa using h2

theorem trace_flv {i : Nat} (hi : i < n) : trace (flv A i) = (n - i : ℕ) * A.charpoly.coeff (n - i) := by
  have key : ∑ j ∈ Finset.range n, C (trace (flv A j)) * X ^ (n - 1 - j) = A.charpoly.derivative := by
    have hz : A.charpoly * (∑ j ∈ Finset.range n, C (trace (flv A j)) * X ^ (n - 1 - j) - A.charpoly.derivative)
        = 0 := by
      refine Polynomial.funext fun x => ?_
      rw [eval_mul, eval_zero, eval_sub]
      by_cases hx : A.charpoly.eval x = 0
      · rw [hx, zero_mul]
      · have hu : IsUnit (scalar (Fin n) x - A).det := by
          rw [← eval_charpoly A x]; exact isUnit_iff_ne_zero.2 hx
        have h1 := flv_adj_n A x
        have h2 := congrArg (fun N => trace ((scalar (Fin n) x - A)⁻¹ * N)) h1
        simp only [← mul_assoc, nonsing_inv_mul _ hu, one_mul, mul_smul_comm, mul_one, trace_smul] at h2
        rw [deriv_charpoly A hx, ← smul_eq_mul (A.charpoly.eval x) (trace _), ← h2, trace_sum, eval_finsetSum]
        simp only [trace_smul, smul_eq_mul, eval_mul, eval_C, eval_pow, eval_X]
        rw [mul_eq_zero]
        right
        rw [sub_eq_zero]
        exact Finset.sum_congr rfl fun j _ => mul_comm _ _
    exact sub_eq_zero.1 ((mul_eq_zero.1 hz).resolve_left A.charpoly_monic.ne_zero)
  have h := congrArg (fun f => f.coeff (n - 1 - i)) key
  simp only [finsetSum_coeff, coeff_C_mul, coeff_X_pow, coeff_derivative] at h
  rw [Finset.sum_eq_single i] at h
  · rw [if_pos rfl, mul_one] at h
    rw [h, show n - 1 - i + 1 = n - i by omega]
    have : ((n - 1 - i : ℕ) : ℚ) + 1 = ((n - i : ℕ) : ℚ) := by
      rw [show n - i = n - 1 - i + 1 by omega]; push_cast; ring
    rw [this, mul_comm]
  · intro j hj hne
    have := Finset.mem_range.1 hj
    rw [if_neg (by omega), mul_zero]
  · intro hh; exact absurd (Finset.mem_range.2 hi) hh

theorem trace_mul_flv {i : Nat} (hi : i < n) :
    trace (A * flv A i) = -((i : ℚ) + 1) * A.charpoly.coeff (n - 1 - i) := by
  have h : trace (flv A (i + 1)) = trace (A * flv A i) + n * A.charpoly.coeff (n - 1 - i) := by
    rw [flv, trace_add, trace_smul, trace_one, Fintype.card_fin, smul_eq_mul, mul_comm (n : ℚ)]
  have h2 : trace (flv A (i + 1)) = ((n : ℚ) - (i + 1)) * A.charpoly.coeff (n - 1 - i) := by
    rcases Nat.lt_or_ge (i + 1) n with h1 | h1
    · rw [trace_flv A h1, Nat.cast_sub h1.le, show n - (i + 1) = n - 1 - i by omega]; push_cast; ring
    · have e : i + 1 = n := by omega
      have : (n : ℚ) = i + 1 := by rw [← e]; push_cast; ring
      rw [e, flv_n, trace_zero, this]; ring
  linarith

end field

theorem flv_map (A : Matrix (Fin n) (Fin n) ℤ) : ∀ i,
    flv (A.map (Int.castRingHom ℚ)) i = (flv A i).map (Int.castRingHom ℚ)
  | 0 => by rw [flv, flv, Matrix.map_one _ (map_zero _) (map_one _)]
  | i + 1 => by
    rw [flv, flv, flv_map A i, Matrix.map_add _ (map_add _), Matrix.map_mul, charpoly_map, coeff_map]
    congr 1
    ext k l
    simp only [Matrix.smul_apply, Matrix.map_apply, one_apply, smul_eq_mul]
    split_ifs <;> simp

/-- **Faddeev–LeVerrier**: the trace of the `i`-th matrix is divisible by `i` and gives a coefficient of the
characteristic polynomial -/
theorem trace_mul_flv_int (A : Matrix (Fin n) (Fin n) ℤ) {i : Nat} (hi : i < n) :
    trace (A * flv A i) = -((i : ℤ) + 1) * A.charpoly.coeff (n - 1 - i) := by
  have h := trace_mul_flv (A.map (Int.castRingHom ℚ)) hi
  rw [flv_map, ← Matrix.map_mul, charpoly_map, coeff_map] at h
  have e : trace ((A * flv A i).map (Int.castRingHom ℚ)) = ((trace (A * flv A i) : ℤ) : ℚ) := by
    simp [trace]
  rw [e] at h
  have h' : ((trace (A * flv A i) : ℤ) : ℚ) = ((-((i : ℤ) + 1) * A.charpoly.coeff (n - 1 - i) : ℤ) : ℚ) := by
    rw [h]; push_cast; simp
  exact_mod_cast h'

end Eclib.Mat
