import Mathlib.LinearAlgebra.Matrix.Determinant.Basic
import Mathlib.LinearAlgebra.Matrix.Notation
import Mathlib.Data.Matrix.Mul
import Mathlib.Tactic.Ring
import Mathlib.Tactic.NoncommRing

/-!
# Specification of binary forms and integral substitutions

Written without reference to the model: a form is the function `(X,Z) ↦ F(X,Z)` and a substitution
is a 2 by 2 matrix of Mathlib.
-/

namespace Eclib.Forms.Spec

/-- 2 by 2 integer matrices -/
abbrev M2 := Matrix (Fin 2) (Fin 2) ℤ

/-- the binary quadratic form with the given coefficients -/
def quad (a b c X Z : ℤ) : ℤ := a * X ^ 2 + b * X * Z + c * Z ^ 2

/-- the binary cubic form with the given coefficients -/
def cub (a b c d X Z : ℤ) : ℤ := a * X ^ 3 + b * X ^ 2 * Z + c * X * Z ^ 2 + d * Z ^ 3

/-- the binary quartic form with the given coefficients -/
def quart (a b c d e X Z : ℤ) : ℤ :=
  a * X ^ 4 + b * X ^ 3 * Z + c * X ^ 2 * Z ^ 2 + d * X * Z ^ 3 + e * Z ^ 4

/-- the form `F` with the substitution `(X,Z) ↦ M (X,Z)` -/
def act (F : ℤ → ℤ → ℤ) (M : M2) : ℤ → ℤ → ℤ :=
  fun X Z => F (M 0 0 * X + M 0 1 * Z) (M 1 0 * X + M 1 1 * Z)

theorem act_one (F : ℤ → ℤ → ℤ) : act F 1 = F := by
  funext X Z
  simp [act]

theorem act_mul (F : ℤ → ℤ → ℤ) (M N : M2) : act (act F M) N = act F (M * N) := by
  funext X Z
  simp only [act, Matrix.mul_apply, Fin.sum_univ_two]
  congr 1 <;> ring

/-- two forms are properly equivalent -/
def SL2Equiv (F H : ℤ → ℤ → ℤ) : Prop := ∃ M : M2, M.det = 1 ∧ H = act F M

/-- two forms are equivalent under substitutions of determinant `±1` -/
def GL2Equiv (F H : ℤ → ℤ → ℤ) : Prop := ∃ M : M2, (M.det = 1 ∨ M.det = -1) ∧ H = act F M

end Eclib.Forms.Spec
