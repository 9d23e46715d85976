import Verif.Pmod.Law
import Verif.Pmod.BgProps

/-!
# C66 for elliptic curves: the x-coordinate as key, and counterexamples
-/

namespace Eclib.Pmod

open WeierstrassCurve

variable {F : Type} [Field F] [DecidableEq F] {E : WeierstrassCurve F}

/-- `get_x` (pointsmod.h:97-101): zero for the point at infinity -/
def xKey : E.toAffine.Point → F
  | .zero => 0
  | .some x _ _ => x

theorem xKey_ok : KeyOk (xKey (E := E)) := by
  rintro (_ | ⟨x, y, h⟩) (_ | ⟨x', y', h'⟩) ha hb
  · exact absurd rfl ha
  · exact absurd rfl ha
  · exact absurd rfl hb
  · exact Affine.Point.X_eq_iff

/-- the point (4,1), of order 6, on the curve y² = x³ + x + 3 over F_7 -/
def p7 : ex7.toAffine.Point := .some 4 1
  ((Affine.equation_iff_nonsingular_of_Δ_ne_zero (by decide +kernel)).1
    ((onCurve_iff 4 1).1 (by decide +kernel)))

/-- **C66 fails at the upper end of a short interval**: the loop tests `h <= upper` after the
increment, so that `upper + 1` is tried, and may be returned. -/
theorem C66_upper_end : bg xKey p7 ((3 : ℤ) • p7) 0 2 = 3 := by decide +kernel

/-- The result need not be the least solution when `Q = lower P`. -/
theorem C66_not_least : bg xKey p7 ((6 : ℤ) • p7) 6 36 = 12 ∧ (6 : ℤ) • p7 = (12 : ℤ) • p7 := by
  decide +kernel

/-- a discrete logarithm by baby steps and giant steps, with the largest possible value -/
example : bg xKey p7 ((5 : ℤ) • p7) 0 40 = 5 ∧ bg xKey p7 ((1 : ℤ) • p7) 2 32 = 7 := by
  decide +kernel

example : KeyOk (xKey (E := ex7)) := xKey_ok

end Eclib.Pmod
