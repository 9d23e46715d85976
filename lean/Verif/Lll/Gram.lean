import Mathlib.LinearAlgebra.Matrix.Determinant.Basic
import Mathlib.LinearAlgebra.Matrix.Block
import Mathlib.Algebra.Order.BigOperators.Ring.Finset
import Mathlib.Tactic.FieldSimp
import Mathlib.Tactic.Linarith
import Mathlib.Tactic.Ring
import Mathlib.Tactic.LinearCombination
import Verif.Lll.Model

/-!
# Triangular decompositions of integral Gram matrices

`Dec G N L d`: the Gram matrix `G` is `L W Lᵀ` with `L` lower triangular with diagonal `d` and
`W` the diagonal matrix of `1/(d_s d_{s-1})`.  The main fact is that all entries of `L` are then
integers (they are minors of `G`).
-/

namespace Eclib.Lll

open Finset

theorem sum_Icc_fin {M : Type*} [AddCommMonoid M] (t : ℕ) (f : ℕ → M) :
    ∑ s ∈ Icc 1 t, f s = ∑ s : Fin t, f (s + 1) := by
  rw [Finset.sum_fin_eq_sum_range]
  rw [Finset.range_eq_Ico]
  have : Icc 1 t = Ico (0 + 1) (t + 1) := by ext; simp
  rw [this, ← Finset.sum_Ico_add' ]
  apply Finset.sum_congr rfl
  intro i hi
  simp at hi
  simp [hi]

theorem prod_Icc_fin {M : Type*} [CommMonoid M] (t : ℕ) (f : ℕ → M) :
    ∏ s ∈ Icc 1 t, f s = ∏ s : Fin t, f (s + 1) := by
  rw [Finset.prod_fin_eq_prod_range]
  rw [Finset.range_eq_Ico]
  have : Icc 1 t = Ico (0 + 1) (t + 1) := by ext; simp
  rw [this, ← Finset.prod_Ico_add' ]
  apply Finset.prod_congr rfl
  intro i hi
  simp at hi
  simp [hi]

/-- The weight of the `s`-th square. -/
def wt (d : ℕ → ℚ) (s : ℕ) : ℚ := 1 / (d s * d (s - 1))

theorem prod_wt (d : ℕ → ℚ) (t : ℕ) (h0 : d 0 = 1) (hd : ∀ i ≤ t, d i ≠ 0) :
    (∏ s ∈ Icc 1 t, d s) * ((∏ s ∈ Icc 1 t, wt d s) * ∏ s ∈ Icc 1 t, d s) = d t := by
  induction t with
  | zero => simp [h0]
  | succ t ih =>
    have h1 := ih (fun i hi => hd i (by omega))
    have e : ∀ f : ℕ → ℚ, ∏ s ∈ Icc 1 (t + 1), f s = (∏ s ∈ Icc 1 t, f s) * f (t + 1) :=
      fun f => Finset.prod_Icc_succ_top (by omega) f
    rw [e, e]
    have hs := hd (t + 1) le_rfl
    have ht := hd t (by omega)
    have hw : wt d (t + 1) = 1 / (d (t + 1) * d t) := by simp [wt]
    rw [hw]
    have : ∀ P Q : ℚ, P * (Q * P) = d t →
        P * d (t + 1) * (Q * (1 / (d (t + 1) * d t)) * (P * d (t + 1))) = d (t + 1) := by
      intro P Q h
      have : P * d (t + 1) * (Q * (1 / (d (t + 1) * d t)) * (P * d (t + 1)))
          = (P * (Q * P)) * d (t + 1) / d t := by field_simp
      rw [this, h]; field_simp
    exact this _ _ h1

/-- Bordered Gram determinants of integral data are integers. -/
theorem integral (t : ℕ) (L : ℕ → ℕ → ℚ) (d : ℕ → ℚ) (x y : ℕ → ℚ) (z : ℤ)
    (h0 : d 0 = 1) (hd : ∀ i ≤ t, d i ≠ 0) (hdiag : ∀ i, 1 ≤ i → i ≤ t → L i i = d i)
    (hup : ∀ i s, 1 ≤ i → i ≤ t → i < s → L i s = 0)
    (hG : ∀ i j, 1 ≤ i → i ≤ t → 1 ≤ j → j ≤ t →
      ∃ n : ℤ, ∑ s ∈ Icc 1 t, L i s * L j s * wt d s = n)
    (hX : ∀ j, 1 ≤ j → j ≤ t → ∃ n : ℤ, ∑ s ∈ Icc 1 t, x s * L j s * wt d s = n)
    (hY : ∀ j, 1 ≤ j → j ≤ t → ∃ n : ℤ, ∑ s ∈ Icc 1 t, y s * L j s * wt d s = n) :
    ∃ n : ℤ, d t * (z - ∑ s ∈ Icc 1 t, x s * y s * wt d s) = n := by
  classical
  choose! G hG using hG
  choose! X hX using hX
  choose! Y hY using hY
  set r : ℚ := z - ∑ s ∈ Icc 1 t, x s * y s * wt d s with hr
  let Lm : Matrix (Fin t) (Fin t) ℚ := Matrix.of fun i s => L (i + 1) (s + 1)
  let W : Matrix (Fin t) (Fin t) ℚ := Matrix.diagonal fun s => wt d (s + 1)
  let xm : Matrix Unit (Fin t) ℚ := Matrix.of fun _ s => x (s + 1)
  let ym : Matrix Unit (Fin t) ℚ := Matrix.of fun _ s => y (s + 1)
  let M : Matrix (Fin t ⊕ Unit) (Fin t ⊕ Unit) ℤ :=
    Matrix.fromBlocks (Matrix.of fun i j => G (i + 1) (j + 1)) (Matrix.of fun i _ => Y (i + 1))
      (Matrix.of fun _ j => X (j + 1)) (Matrix.of fun _ _ => z)
  have hM : M.map (Int.castRingHom ℚ) =
      Matrix.fromBlocks Lm 0 xm 1 * (Matrix.fromBlocks W 0 0 (Matrix.of fun _ _ => r)
        * (Matrix.fromBlocks Lm 0 ym 1).transpose) := by
    have hWL : ∀ s j, (W * Lm.transpose) s j = wt d (s + 1) * L (j + 1) (s + 1) := by
      intro s j; simp [W, Lm, Matrix.diagonal_mul, Matrix.transpose_apply]
    have hWy : ∀ s u, (W * ym.transpose) s u = wt d (s + 1) * y (s + 1) := by
      intro s j; simp [W, ym, Matrix.diagonal_mul, Matrix.transpose_apply]
    rw [Matrix.fromBlocks_transpose, Matrix.fromBlocks_multiply, Matrix.fromBlocks_multiply]
    simp only [M, Matrix.fromBlocks_map]
    congr 1
    · ext i j
      simp only [Matrix.map_apply, Matrix.of_apply, Matrix.transpose_zero, Matrix.mul_zero, Matrix.zero_mul,
        add_zero]
      rw [eq_intCast, ← hG (i + 1) (j + 1) (by omega) (by omega) (by omega) (by omega), sum_Icc_fin,
        Matrix.mul_apply]
      apply Finset.sum_congr rfl
      intro s _
      rw [hWL]; simp only [Lm, Matrix.of_apply]; ring
    · ext i j
      simp only [Matrix.map_apply, Matrix.of_apply, Matrix.transpose_zero, Matrix.mul_zero, Matrix.zero_mul,
        add_zero]
      rw [eq_intCast, ← hY (i + 1) (by omega) (by omega), sum_Icc_fin,
        Matrix.mul_apply]
      apply Finset.sum_congr rfl
      intro s _
      rw [hWy]; simp only [Lm, Matrix.of_apply]; ring
    · ext i j
      simp only [Matrix.map_apply, Matrix.of_apply, Matrix.transpose_zero, Matrix.mul_zero, Matrix.zero_mul,
        add_zero]
      rw [eq_intCast, ← hX (j + 1) (by omega) (by omega), sum_Icc_fin,
        Matrix.mul_apply]
      apply Finset.sum_congr rfl
      intro s _
      rw [hWL]; simp only [xm, Matrix.of_apply]; ring
    · ext i j
      simp only [Matrix.map_apply, Matrix.of_apply, Matrix.zero_mul, zero_add, Matrix.transpose_one, Matrix.mul_one,
        Matrix.one_mul, add_zero, Matrix.add_apply]
      rw [eq_intCast, Matrix.mul_apply]
      have : ∑ s, xm i s * (W * ym.transpose) s j = ∑ s ∈ Icc 1 t, x s * y s * wt d s := by
        rw [sum_Icc_fin]
        apply Finset.sum_congr rfl
        intro s _
        rw [hWy]; simp only [xm, Matrix.of_apply]; ring
      rw [this]
      simp [hr]
  have hLm : Lm.det = ∏ s ∈ Icc 1 t, d s := by
    rw [Matrix.det_of_isLowerTriangular Lm, prod_Icc_fin]
    · apply Finset.prod_congr rfl
      intro s _
      exact hdiag _ (by omega) (by omega)
    · intro i j hij
      have : (i : ℕ) < j := hij
      exact hup _ _ (by omega) (by omega) (by omega)
  have hdet : (M.det : ℚ) = d t * r := by
    have h1 : (M.det : ℚ) = (M.map (Int.castRingHom ℚ)).det := by
      rw [← RingHom.mapMatrix_apply, ← RingHom.map_det]; simp
    rw [h1, hM, Matrix.det_mul, Matrix.det_mul, Matrix.det_transpose,
      Matrix.det_fromBlocks_zero₁₂, Matrix.det_fromBlocks_zero₁₂, Matrix.det_fromBlocks_zero₁₂,
      hLm, ← prod_wt d t h0 hd]
    simp only [W, Matrix.det_diagonal, Matrix.det_unique, Matrix.one_apply_eq, Matrix.of_apply]
    rw [prod_Icc_fin t (wt d)]
    ring
  exact ⟨M.det, hdet.symm⟩

end Eclib.Lll
