import Mathlib.NumberTheory.LegendreSymbol.JacobiSymbol
import Mathlib.NumberTheory.Padics.PadicVal.Basic

/-!
# Specifications for elementary arithmetic, independent of the model
-/

namespace Eclib.Spec

/-- `x` and `y` are congruent modulo `m`. -/
def Cong (m x y : ℤ) : Prop := m ∣ x - y

/-- `q` is a nearest integer to `a / b` (for `b > 0`), ties allowed on one side only:
`-1/2 ≤ a/b - q < 1/2`. -/
def NearestUp (a b q : ℤ) : Prop := -b ≤ 2 * (a - q * b) ∧ 2 * (a - q * b) < b

/-- `e` is the exact power of `f` dividing `n`. -/
def ExactPower (f n : ℤ) (e : ℕ) : Prop := f ^ e ∣ n ∧ ¬ f ^ (e + 1) ∣ n

/-- The Kronecker symbol `(x/y)`, by the textbook definition: `(x/0) = [|x| = 1]`, and for
`y = u * 2^v * m` with `u = ±1`, `m` odd positive, `(x/y) = (x/u) (x/2)^v (x/m)` where `(x/m)` is the
Jacobi symbol, `(x/2) = χ₈(x)` and the symbol at `-1` is `-1` exactly for negative `x`. -/
noncomputable def kronecker (x y : ℤ) : ℤ :=
  if y = 0 then (if |x| = 1 then 1 else 0)
  else (if y < 0 ∧ x < 0 then -1 else 1) *
    (ZMod.χ₈ (x : ZMod 8)) ^ (padicValNat 2 y.natAbs) *
    jacobiSym x (y.natAbs / 2 ^ padicValNat 2 y.natAbs)

/-- `ps` is the list of distinct positive primes dividing `a` (in any order); this is what
`pdivs` supplies. -/
structure IsPrimeDivisorList (a : Int) (ps : List Int) : Prop where
  nodup : ps.Nodup
  mem : ∀ p, p ∈ ps ↔ 0 < p ∧ Prime p ∧ p ∣ a

end Eclib.Spec
