import Mathlib.Algebra.Polynomial.Basic
import Mathlib.Algebra.Polynomial.Eval.Defs
import Mathlib.Tactic.Ring
import Mathlib.Tactic.LinearCombination

/-!
# Dense integer polynomials: lists of coefficients, constant term first (NTL `ZZX`)

NTL keeps the leading coefficient nonzero; here trailing zeros are allowed, so two lists are compared
through the polynomial they stand for.
-/

namespace Eclib.Poly

open Polynomial

/-- a polynomial by its coefficients -/
abbrev P := List Int

/-- sum -/
def add : P → P → P
  | [], g => g
  | f, [] => f
  | a :: f, b :: g => (a + b) :: add f g

/-- multiple by a constant -/
def smul (c : Int) (f : P) : P := f.map (c * ·)

/-- difference -/
def sub (f g : P) : P := add f (smul (-1) g)

/-- product -/
def mul : P → P → P
  | [], _ => []
  | a :: f, g => add (smul a g) (0 :: mul f g)

/-- the polynomial a list stands for -/
noncomputable def toPoly : P → ℤ[X]
  | [] => 0
  | a :: f => C a + X * toPoly f

theorem toPoly_add (f g : P) : toPoly (add f g) = toPoly f + toPoly g := by
  induction f generalizing g with
  | nil => simp [add, toPoly]
  | cons a f ih =>
    cases g with
    | nil => simp [add, toPoly]
    | cons b g => rw [add, toPoly, toPoly, toPoly, ih, C_add]; ring

theorem toPoly_smul (c : ℤ) (f : P) : toPoly (smul c f) = C c * toPoly f := by
  induction f with
  | nil => simp [smul, toPoly]
  | cons a f ih =>
    have : toPoly (smul c (a :: f)) = C (c * a) + X * toPoly (smul c f) := rfl
    rw [this, ih, toPoly, C_mul]; ring

theorem toPoly_sub (f g : P) : toPoly (sub f g) = toPoly f - toPoly g := by
  rw [sub, toPoly_add, toPoly_smul, C_neg, C_1]; ring

theorem toPoly_mul (f g : P) : toPoly (mul f g) = toPoly f * toPoly g := by
  induction f with
  | nil => simp [mul, toPoly]
  | cons a f ih =>
    rw [mul, toPoly_add, toPoly_smul, toPoly, ih, toPoly, C_0]; ring

end Eclib.Poly
