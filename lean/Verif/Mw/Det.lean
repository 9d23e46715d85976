import Verif.Mw.Model
import Mathlib.LinearAlgebra.Matrix.Adjugate
import Mathlib.LinearAlgebra.Matrix.ToLinearEquiv
import Mathlib.Tactic.Linarith
import Mathlib.Tactic.Ring
import Mathlib.Tactic.FieldSimp
import Mathlib.Tactic.LinearCombination
import Mathlib.Tactic.Positivity
import Mathlib.Tactic.NormNum
import Mathlib.Data.Rat.Floor

/-!
# Determinants: `det` of libsrc/mwprocs.cc
-/

namespace Eclib.Mw

set_option linter.unusedSectionVars false

variable {K : Type} [Field K] [LinearOrder K] [IsStrictOrderedRing K] [FloorRing K]

/-- the `n` by `n` matrix with the entries of `m` -/
def toM (n : ℕ) (m : ℕ → ℕ → K) : Matrix (Fin n) (Fin n) K := Matrix.of fun i j => m i j

theorem minor_eq (n : ℕ) (m : ℕ → ℕ → K) (i j : Fin (n + 1)) :
    toM n (getMinor m i j) = (toM (n + 1) m).submatrix i.succAbove j.succAbove := by
  ext a b
  have h : ∀ (i : Fin (n + 1)) (a : Fin n), ((i.succAbove a : Fin (n + 1)) : ℕ) = if (a : ℕ) ≥ i then (a : ℕ) + 1 else a := by
    intro i a
    unfold Fin.succAbove
    by_cases h : a.castSucc < i
    · rw [if_pos h, if_neg (by
        rw [Fin.lt_def] at h
        simpa using h)]
      rfl
    · rw [if_neg h, if_pos (by
        rw [Fin.lt_def] at h
        simpa using h)]
      rfl
  simp only [toM, Matrix.of_apply, Matrix.submatrix_apply, getMinor, h]

theorem det_elim {n : ℕ} {m : ℕ → ℕ → K} (h : m 0 0 ≠ 0) :
    (toM (n + 1) m).det = m 0 0 * (toM n (getMinor (elim0 m) 0 0)).det := by
  have e1 : (toM (n + 1) m).det = (toM (n + 1) (elim0 m)).det := by
    refine Matrix.det_eq_of_forall_row_eq_smul_add_const (fun i => if i = 0 then 0 else m i 0 / m 0 0) 0 (by simp) ?_
    intro i j
    simp only [toM, Matrix.of_apply, elim0]
    by_cases hi : i = 0
    · subst hi
      simp
    · have : (i : ℕ) ≠ 0 := fun h0 => hi (Fin.ext h0)
      simp [hi, this]
      ring
  rw [e1, Matrix.det_succ_column_zero, Fin.sum_univ_succ]
  have e2 := minor_eq n (elim0 m) 0 0
  simp only [Fin.val_zero] at e2
  have e0 : toM (n + 1) (elim0 m) 0 0 = m 0 0 := by simp [toM, elim0]
  rw [Finset.sum_eq_zero, add_zero, e0, e2]
  · simp
  · intro i _
    have : toM (n + 1) (elim0 m) i.succ 0 = 0 := by
      simp [toM, elim0]
      field_simp
      ring
    rw [this]
    ring

theorem det_swap0 {n i0 : ℕ} (m : ℕ → ℕ → K) (h0 : 0 < i0) (h : i0 < n + 1) :
    (toM (n + 1) (swap0 m i0)).det = -(toM (n + 1) m).det := by
  have e : toM (n + 1) (swap0 m i0) = (toM (n + 1) m).submatrix (Equiv.swap 0 ⟨i0, h⟩) id := by
    ext i j
    simp only [toM, Matrix.of_apply, Matrix.submatrix_apply, swap0, id]
    by_cases hi : i = 0
    · subst hi
      simp
    · have hi' : (i : ℕ) ≠ 0 := fun h0 => hi (Fin.ext h0)
      by_cases hj : (i : ℕ) = i0
      · have : i = ⟨i0, h⟩ := Fin.ext hj
        subst this
        simp [h0.ne']
      · have : i ≠ ⟨i0, h⟩ := fun he => hj (by rw [he])
        rw [Equiv.swap_apply_of_ne_of_ne hi this, if_neg hi', if_neg hj]
  rw [e, Matrix.det_permute, Equiv.Perm.sign_swap]
  · simp
  · intro he
    have := congrArg Fin.val he
    simp at this
    omega

theorem pivLoop_le (m : ℕ → ℕ → K) : ∀ (k i0 : ℕ) (piv : K), pivLoop m k i0 piv ≤ i0 + k := by
  intro k
  induction k with
  | zero => intro i0 piv; simp [pivLoop]
  | succ k ih =>
    intro i0 piv
    unfold pivLoop
    split_ifs
    · have := ih (i0 + 1) (m i0 0)
      omega
    · omega

/-- the leading entries met are not too small -/
def PivOk : ℕ → (ℕ → ℕ → K) → Prop
  | n + 3, m => 1 / 10 ^ 6 ≤ |m 0 0| ∧ PivOk (n + 2) (getMinor (elim0 m) 0 0)
  | _, _ => True

namespace Props

/-- for sizes up to 2 the value is the determinant -/
theorem C118_small (n : ℕ) (hn : n ≤ 2) (m : ℕ → ℕ → K) : det n m = some (Matrix.of fun (i j : Fin n) => m i j).det := by
  match n, hn with
  | 0, _ => simp [det]
  | 1, _ => simp [det]
  | 2, _ => simp [det, Matrix.det_fin_two]

/-- if no leading entry met in the elimination is smaller than `10⁻⁶`, the value is the determinant -/
theorem C118_det_partial : ∀ (n : ℕ) (m : ℕ → ℕ → K), PivOk n m → det n m = some (Matrix.of fun (i j : Fin n) => m i j).det := by
  intro n
  induction n with
  | zero => exact fun m _ => C118_small 0 (by norm_num) m
  | succ n ih =>
    match n, ih with
    | 0, _ => exact fun m _ => C118_small 1 (by norm_num) m
    | 1, _ => exact fun m _ => C118_small 2 (by norm_num) m
    | n + 2, ih =>
      intro m h
      obtain ⟨h1, h2⟩ := h
      have hp : pivLoop m (n + 3) 0 (m 0 0) = 0 := by
        unfold pivLoop
        rw [if_neg (not_lt.2 h1)]
      have h0 : m 0 0 ≠ 0 := by
        intro h0
        rw [h0] at h1
        norm_num at h1
      have hd : (toM (n + 3) m).det = _ := det_elim (n := n + 2) h0
      unfold det
      rw [hp]
      simp only [gt_iff_lt, lt_irrefl, if_false]
      rw [if_neg (by omega), if_neg h0, ih _ h2]
      exact congrArg some hd.symm

/-- a value that is not 0 is the determinant -/
theorem C118_nonzero : ∀ (n : ℕ) (m : ℕ → ℕ → K) (v : K), det n m = some v → v ≠ 0 → v = (Matrix.of fun (i j : Fin n) => m i j).det := by
  intro n
  induction n with
  | zero =>
    intro m v h _
    rw [C118_small 0 (by norm_num)] at h
    exact (Option.some.inj h).symm
  | succ n ih =>
    match n, ih with
    | 0, _ =>
      intro m v h _
      rw [C118_small 1 (by norm_num)] at h
      exact (Option.some.inj h).symm
    | 1, _ =>
      intro m v h _
      rw [C118_small 2 (by norm_num)] at h
      exact (Option.some.inj h).symm
    | n + 2, ih =>
      intro m v h hv
      unfold det at h
      simp only at h
      have hle := pivLoop_le m (n + 3) 0 (m 0 0)
      set i0 := pivLoop m (n + 3) 0 (m 0 0) with hi0
      split_ifs at h with h1 h2 h3 h3
      · exact absurd (Option.some.inj h).symm hv
      · obtain ⟨d, hd, rfl⟩ := Option.map_eq_some_iff.1 h
        have hd0 : d ≠ 0 := by
          rintro rfl
          simp at hv
        have e1 : (toM (n + 3) (swap0 m i0)).det = _ := det_elim (n := n + 2) h3
        have e2 : (toM (n + 3) (swap0 m i0)).det = _ := det_swap0 (n := n + 2) m h2 (by omega)
        have e3 : d = (toM (n + 2) (getMinor (elim0 (swap0 m i0)) 0 0)).det := ih _ d hd hd0
        show _ = (toM (n + 3) m).det
        rw [← e3] at e1
        rw [e1] at e2
        linear_combination -e2
      · obtain ⟨d, hd, rfl⟩ := Option.map_eq_some_iff.1 h
        have hd0 : d ≠ 0 := by
          rintro rfl
          simp at hv
        have e1 : (toM (n + 3) m).det = _ := det_elim (n := n + 2) h3
        have e3 : d = (toM (n + 2) (getMinor (elim0 m) 0 0)).det := ih _ d hd hd0
        show _ = (toM (n + 3) m).det
        rw [e1, ← e3]

/-- the search for a pivot counts one row too many: when the only large entry of the first column is in the last row the value is 0 -/
theorem C118_zero : ∃ m : ℕ → ℕ → ℚ, det 3 m = some 0 ∧ (Matrix.of fun (i j : Fin 3) => m i j).det = 1 := by
  refine ⟨fun i j => if (i + 1) % 3 = j then 1 else 0, by decide +kernel, ?_⟩
  rw [Matrix.det_fin_three]
  simp

/-- and when it is in the row before the program divides by 0 -/
theorem C118_division : ∃ m : ℕ → ℕ → ℚ, det 3 m = none ∧ (Matrix.of fun (i j : Fin 3) => m i j).det = -1 := by
  refine ⟨fun i j => if i + j = 1 ∨ (i = 2 ∧ j = 2) then 1 else 0, by decide +kernel, ?_⟩
  rw [Matrix.det_fin_three]
  simp

example : det 3 (fun i j => if i = j then 2 else (1 : ℚ)) = some 4 ∧ PivOk 3 (fun i j => if i = j then 2 else (1 : ℚ)) :=
  ⟨by decide +kernel, by norm_num [PivOk]⟩

end Props

/-! ## kernels and minors -/

theorem adj_kernel {n : ℕ} {M : Matrix (Fin n) (Fin n) K} {a : Fin n → K} (h : M.mulVec a = 0) (i j k : Fin n) :
    a j * M.adjugate i k = a i * M.adjugate j k := by
  by_cases ha : a = 0
  · simp [ha]
  · have hN : (M.updateRow k (a j • Pi.single i 1 + (-a i) • Pi.single j 1)).det = 0 := by
      rw [← Matrix.exists_mulVec_eq_zero_iff]
      refine ⟨a, ha, ?_⟩
      funext l
      by_cases hl : l = k
      · subst hl
        simp only [Matrix.mulVec, Matrix.updateRow_self, add_dotProduct, smul_dotProduct, single_one_dotProduct, smul_eq_mul, Pi.zero_apply]
        ring
      · have := congrFun h l
        simp only [Matrix.mulVec, Matrix.updateRow_ne hl, Pi.zero_apply] at this ⊢
        exact this
    rw [Matrix.det_updateRow_add, Matrix.det_updateRow_smul, Matrix.det_updateRow_smul, ← Matrix.adjugate_apply, ← Matrix.adjugate_apply] at hN
    linear_combination hN

theorem adj_sq {n : ℕ} {M : Matrix (Fin n) (Fin n) K} {a : Fin n → K} (h : M.mulVec a = 0) (hs : M.transpose = M) (i j : Fin n) :
    a j ^ 2 * M.adjugate i i = a i ^ 2 * M.adjugate j j := by
  have h1 := adj_kernel h i j i
  have h2 := adj_kernel h i j j
  have h3 : M.adjugate i j = M.adjugate j i := by
    have := M.adjugate_transpose
    rw [hs] at this
    exact (congrFun (congrFun this j) i)
  rw [h3] at h2
  linear_combination a j * h1 + a i * h2

theorem adj_diag {n : ℕ} (M : Matrix (Fin (n + 1)) (Fin (n + 1)) K) (i : Fin (n + 1)) :
    M.adjugate i i = (M.submatrix i.succAbove i.succAbove).det := by
  rw [Matrix.adjugate_fin_succ_eq_det_submatrix, ← two_mul, pow_mul]
  simp

end Eclib.Mw
