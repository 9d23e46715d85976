import Verif.Forms.Model
import Verif.Forms.Spec
import Mathlib.Tactic.Linarith
import Mathlib.Tactic.LinearCombination
import Mathlib.Tactic.FinCases

/-! # C22: unimod and scaled_unimod -/

namespace Eclib.Forms

open Eclib.Forms.Spec

/-- the matrix held by a `unimod` -/
def U.toM (m : U) : M2 := !![m.m11, m.m12; m.m21, m.m22]

/-- the `unimod` holding a matrix -/
def ofM (M : M2) : U := ⟨M 0 0, M 0 1, M 1 0, M 1 1⟩

theorem toM_inj {m n : U} (h : m.toM = n.toM) : m = n := by
  have h00 := congrFun (congrFun h 0) 0
  have h01 := congrFun (congrFun h 0) 1
  have h10 := congrFun (congrFun h 1) 0
  have h11 := congrFun (congrFun h 1) 1
  simp [U.toM] at h00 h01 h10 h11
  ext <;> assumption

theorem toM_ofM (M : M2) : (ofM M).toM = M := by
  ext i j
  fin_cases i <;> fin_cases j <;> rfl

theorem ofM_toM (m : U) : ofM m.toM = m := rfl

theorem act_toM (F : ℤ → ℤ → ℤ) (m : U) (X Z : ℤ) :
    act F m.toM X Z = F (m.m11 * X + m.m12 * Z) (m.m21 * X + m.m22 * Z) := rfl

namespace Props

theorem C22_one : U.one.toM = 1 := by
  ext i j
  fin_cases i <;> fin_cases j <;> rfl

/-- `operator*` and `operator*=` are the matrix product -/
theorem C22_mul (m a : U) : (m.mul a).toM = m.toM * a.toM := by
  simp [U.toM, U.mul]

/-- `det()` is the determinant -/
theorem C22_det (m : U) : m.det = m.toM.det := by
  simp [U.toM, U.det, Matrix.det_fin_two]

/-- `x_shift(a)` multiplies on the right by `[1,a;0,1]` -/
theorem C22_x_shift (m : U) (a : ℤ) : (m.xShift a).toM = m.toM * !![1, a; 0, 1] := by
  simp [U.toM, U.xShift]
  constructor <;> ring

/-- `y_shift(a)` multiplies on the right by `[1,0;a,1]` -/
theorem C22_y_shift (m : U) (a : ℤ) : (m.yShift a).toM = m.toM * !![1, 0; a, 1] := by
  simp [U.toM, U.yShift]
  constructor <;> ring

/-- `invert()` multiplies on the right by `[0,-1;1,0]` -/
theorem C22_invert (m : U) : m.invert.toM = m.toM * !![0, -1; 1, 0] := by
  simp [U.toM, U.invert]

/-- `negate()` multiplies by `-1` -/
theorem C22_negate (m : U) : m.negate.toM = -m.toM := by
  ext i j
  fin_cases i <;> fin_cases j <;> simp [U.toM, U.negate]

/-- `seminegate()` multiplies on the right by `[1,0;0,-1]` -/
theorem C22_seminegate (m : U) : m.seminegate.toM = m.toM * !![1, 0; 0, -1] := by
  simp [U.toM, U.seminegate]

/-- The comment of `invert()` (unimod.h:71) announces multiplication by `[0,1;-1,0]`, which is the
negative of what it does: no invertible matrix is multiplied by `[0,1;-1,0]`. -/
theorem C22_invert_comment_wrong (m : U) (h : m.det ≠ 0) :
    m.invert.toM ≠ m.toM * !![0, 1; -1, 0] := by
  intro e
  rw [C22_invert] at e
  simp [U.toM] at e
  obtain ⟨⟨h1, h2⟩, h3, h4⟩ := e
  apply h
  unfold U.det
  have e1 : m.m11 = 0 := by omega
  have e2 : m.m12 = 0 := by omega
  rw [e1, e2]; ring

example : (U.mk 2 1 1 1).det ≠ 0 := by decide

/-- products multiply determinants; the elementary operations keep the determinant and
`seminegate()` changes its sign -/
theorem C22_det_ops (m a : U) (t : ℤ) :
    (m.mul a).det = m.det * a.det ∧ (m.xShift t).det = m.det ∧ (m.yShift t).det = m.det ∧
      m.invert.det = m.det ∧ m.negate.det = m.det ∧ m.seminegate.det = -m.det := by
  simp only [U.mul, U.det, U.xShift, U.yShift, U.invert, U.negate, U.seminegate]
  refine ⟨?_, ?_, ?_, ?_, ?_, ?_⟩ <;> ring

/-- Unimodularity is preserved by every method. -/
theorem C22_unimodular (m a : U) (t : ℤ) (hm : m.det = 1 ∨ m.det = -1)
    (ha : a.det = 1 ∨ a.det = -1) :
    ∀ r ∈ [m.mul a, m.xShift t, m.yShift t, m.invert, m.negate, m.seminegate],
      r.det = 1 ∨ r.det = -1 := by
  obtain ⟨h1, h2, h3, h4, h5, h6⟩ := C22_det_ops m a t
  intro r hr
  simp only [List.mem_cons, List.not_mem_nil, or_false] at hr
  rcases hr with rfl | rfl | rfl | rfl | rfl | rfl
  · rw [h1]; rcases hm with e | e <;> rcases ha with e' | e' <;> simp [e, e']
  · rw [h2]; exact hm
  · rw [h3]; exact hm
  · rw [h4]; exact hm
  · rw [h5]; exact hm
  · rw [h6]; rcases hm with e | e <;> simp [e]

example : (U.mk 2 1 1 1).det = 1 ∧ (U.mk 2 3 1 1).det = -1 := by decide

/-- `inverse()` returns the two-sided inverse and leaves `*this` alone when the determinant is 1.
Missing from the full claim: determinant `-1`, where it is refuted by `C22_inverse_wrong`. -/
theorem C22_inverse_partial (m : U) (h : m.det = 1) :
    m.inverse.1 = m ∧ m.inverse.2.toM * m.toM = 1 ∧ m.toM * m.inverse.2.toM = 1 := by
  have h' : m.m11 * m.m22 - m.m12 * m.m21 = 1 := h
  refine ⟨?_, ?_, ?_⟩
  · simp [U.inverse, h]
  all_goals
    have e : m.inverse.2 = ⟨m.m22, -m.m12, -m.m21, m.m11⟩ := by
      simp only [U.inverse]
      split_ifs <;> rfl
    rw [e, ← C22_one]
    ext i j
    fin_cases i <;> fin_cases j <;> simp [U.toM, U.one] <;> linarith

example : (U.mk 2 1 1 1).det = 1 := by decide

/-- For every matrix of determinant `-1`, `inverse()` returns minus the inverse and changes the
sign of `*this`. -/
theorem C22_inverse_wrong (m : U) (h : m.det = -1) :
    m.inverse.1.toM = -m.toM ∧ m.inverse.2.toM * m.toM = -1 ∧
      m.inverse.2.toM * m.toM ≠ 1 ∧ m.inverse.1 ≠ m := by
  have h' : m.m11 * m.m22 - m.m12 * m.m21 = -1 := h
  have e : m.inverse = (m.negate, ⟨m.m22, -m.m12, -m.m21, m.m11⟩) := by
    simp [U.inverse, h]
  have e2 : m.inverse.2.toM * m.toM = -1 := by
    rw [e, ← C22_one]
    ext i j
    fin_cases i <;> fin_cases j <;> simp [U.toM, U.one] <;> linarith
  refine ⟨?_, e2, ?_, ?_⟩
  · rw [e]; exact C22_negate m
  · rw [e2]
    intro hh
    have := congrFun (congrFun hh 0) 0
    simp at this
  · rw [e]
    intro hh
    have h1 := congrArg U.m11 hh
    have h2 := congrArg U.m12 hh
    simp only [U.negate] at h1 h2
    have e1 : m.m11 = 0 := by omega
    have e2 : m.m12 = 0 := by omega
    rw [e1, e2] at h'
    omega

example : (U.mk 2 3 1 1).det = -1 := by decide

/-- `scaled_unimod`: products multiply both the matrices and the scale factors; the scalings
multiply on the right by a diagonal matrix or multiply the scale factor; multiplication by a
`unimod` and the inherited shifts keep the scale factor. -/
theorem C22_scaled (m a : SU) (u : U) (c : ℤ) :
    ((m.mul a).toU.toM = m.toU.toM * a.toU.toM ∧ (m.mul a).m00 = m.m00 * a.m00) ∧
    ((m.mulU u).toU.toM = m.toU.toM * u.toM ∧ (m.mulU u).m00 = m.m00) ∧
    ((m.xScale c).toU.toM = m.toU.toM * !![c, 0; 0, 1] ∧ (m.xScale c).m00 = m.m00) ∧
    ((m.yScale c).toU.toM = m.toU.toM * !![1, 0; 0, c] ∧ (m.yScale c).m00 = m.m00) ∧
    ((m.uScale c).toU.toM = m.toU.toM ∧ (m.uScale c).m00 = m.m00 * c) ∧
    ((m.xShift c).toU.toM = m.toU.toM * !![1, c; 0, 1] ∧ (m.xShift c).m00 = m.m00) ∧
    ((m.yShift c).toU.toM = m.toU.toM * !![1, 0; c, 1] ∧ (m.yShift c).m00 = m.m00) ∧
    (m.invert.toU.toM = m.toU.toM * !![0, -1; 1, 0] ∧ m.invert.m00 = m.m00) := by
  refine ⟨⟨C22_mul _ _, rfl⟩, ⟨C22_mul _ _, rfl⟩, ⟨?_, rfl⟩, ⟨?_, rfl⟩, ⟨rfl, rfl⟩,
    ⟨C22_x_shift _ _, rfl⟩, ⟨C22_y_shift _ _, rfl⟩, ⟨C22_invert _, rfl⟩⟩
  · simp [U.toM, SU.xScale]
  · simp [U.toM, SU.yScale]

example : ((SU.mk ⟨2, 1, 1, 1⟩ 3).xScale 5).uScale 7 = ⟨⟨10, 1, 5, 1⟩, 21⟩ := by decide

end Props

end Eclib.Forms
