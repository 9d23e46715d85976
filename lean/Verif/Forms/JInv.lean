import Verif.Forms.Model
import Mathlib.Tactic.Ring
import Mathlib.Tactic.NormNum
import Mathlib.Tactic.LinearCombination
import Mathlib.Data.Int.Cast.Lemmas
import Mathlib.Data.Complex.Basic

/-!
# C56: the covariant quantities used for cubics of negative discriminant

`j_c1 … j_c4` are documented (cubic.cc:245-247, 276-277, 309-310, 339-340) as norms of
`h2-h0`, `h0-h1`, `h0+h1` and `h1/2`, where `(h0,h1,h2)` are the coefficients of the quadratic
covariant attached to a root `α` (cubic.cc:581-583).  The norm is the product over the three roots.
-/

namespace Eclib.Forms

section
variable {R : Type} [CommRing R]

/-- `h0` (cubic.cc:514, 581) -/
def h0 (a b c α : R) : R := (9 * a * a * α + 6 * a * b) * α + 6 * a * c - b * b
/-- `h1` (cubic.cc:515, 582) -/
def h1 (a b c α : R) : R := 6 * (a * b * α + (b * b - a * c)) * α + 2 * b * c
/-- `h2` (cubic.cc:516, 583) -/
def h2 (a b c d α : R) : R :=
  3 * (a * c * α + b * c - 3 * a * d) * α + 2 * c * c - 3 * b * d

variable (f : C) (r s t : R)
  (hb : (f.b : R) = -(f.a * (r + s + t)))
  (hc : (f.c : R) = f.a * (r * s + s * t + t * r))
  (hd : (f.d : R) = -(f.a * (r * s * t)))

include hb hc hd

namespace Props

theorem C56_j_c1 : (f.jC1 : R) =
    (h2 (f.a : R) f.b f.c f.d r - h0 (f.a : R) f.b f.c r) *
    (h2 (f.a : R) f.b f.c f.d s - h0 (f.a : R) f.b f.c s) *
    (h2 (f.a : R) f.b f.c f.d t - h0 (f.a : R) f.b f.c t) := by
  simp only [C.jC1]
  push_cast
  rw [hb, hc, hd]
  simp only [h0, h2]
  ring

theorem C56_j_c2 : (f.jC2 : R) =
    (h0 (f.a : R) f.b f.c r - h1 (f.a : R) f.b f.c r) *
    (h0 (f.a : R) f.b f.c s - h1 (f.a : R) f.b f.c s) *
    (h0 (f.a : R) f.b f.c t - h1 (f.a : R) f.b f.c t) := by
  simp only [C.jC2]
  push_cast
  rw [hb, hc, hd]
  simp only [h0, h1]
  ring

theorem C56_j_c3 : (f.jC3 : R) =
    (h0 (f.a : R) f.b f.c r + h1 (f.a : R) f.b f.c r) *
    (h0 (f.a : R) f.b f.c s + h1 (f.a : R) f.b f.c s) *
    (h0 (f.a : R) f.b f.c t + h1 (f.a : R) f.b f.c t) := by
  simp only [C.jC3]
  push_cast
  rw [hb, hc, hd]
  simp only [h0, h1]
  ring

theorem C56_j_c4 : 8 * (f.jC4 : R) =
    h1 (f.a : R) f.b f.c r * h1 (f.a : R) f.b f.c s * h1 (f.a : R) f.b f.c t := by
  simp only [C.jC4]
  push_cast
  rw [hb, hc, hd]
  simp only [h1]
  ring

end Props

end

namespace Props

open Complex ComplexConjugate in
/-- For a cubic with one real root `r` and two conjugate roots (negative discriminant), the signs
of `j_c1 … j_c4` are those of `h2-h0`, `h0-h1`, `h0+h1`, `h1` at the real root, up to a factor
which is the squared modulus of the value at the complex root. -/
theorem C56_signs (f : C) (r : ℝ) (s : ℂ)
    (hb : (f.b : ℂ) = -(f.a * (r + s + conj s)))
    (hc : (f.c : ℂ) = f.a * (r * s + s * conj s + conj s * r))
    (hd : (f.d : ℂ) = -(f.a * (r * s * conj s))) :
    (f.jC1 : ℝ) = (h2 (f.a : ℝ) f.b f.c f.d r - h0 (f.a : ℝ) f.b f.c r) *
        normSq (h2 (f.a : ℂ) f.b f.c f.d s - h0 (f.a : ℂ) f.b f.c s) ∧
      (f.jC2 : ℝ) = (h0 (f.a : ℝ) f.b f.c r - h1 (f.a : ℝ) f.b f.c r) *
        normSq (h0 (f.a : ℂ) f.b f.c s - h1 (f.a : ℂ) f.b f.c s) ∧
      (f.jC3 : ℝ) = (h0 (f.a : ℝ) f.b f.c r + h1 (f.a : ℝ) f.b f.c r) *
        normSq (h0 (f.a : ℂ) f.b f.c s + h1 (f.a : ℂ) f.b f.c s) ∧
      8 * (f.jC4 : ℝ) = h1 (f.a : ℝ) f.b f.c r * normSq (h1 (f.a : ℂ) f.b f.c s) := by
  have c0 : h0 (f.a : ℂ) f.b f.c (conj s) = conj (h0 (f.a : ℂ) f.b f.c s) := by
    simp [h0, map_sub, map_add, map_mul, map_ofNat]
  have c1 : h1 (f.a : ℂ) f.b f.c (conj s) = conj (h1 (f.a : ℂ) f.b f.c s) := by
    simp [h1, map_sub, map_add, map_mul, map_ofNat]
  have c2 : h2 (f.a : ℂ) f.b f.c f.d (conj s) = conj (h2 (f.a : ℂ) f.b f.c f.d s) := by
    simp [h2, map_sub, map_add, map_mul, map_ofNat]
  have r0 : h0 (f.a : ℂ) f.b f.c (r : ℂ) = ((h0 (f.a : ℝ) f.b f.c r : ℝ) : ℂ) := by
    simp [h0]
  have r1 : h1 (f.a : ℂ) f.b f.c (r : ℂ) = ((h1 (f.a : ℝ) f.b f.c r : ℝ) : ℂ) := by
    simp [h1]
  have r2 : h2 (f.a : ℂ) f.b f.c f.d (r : ℂ) = ((h2 (f.a : ℝ) f.b f.c f.d r : ℝ) : ℂ) := by
    simp [h2]
  have e1 := C56_j_c1 f (r : ℂ) s (conj s) hb hc hd
  have e2 := C56_j_c2 f (r : ℂ) s (conj s) hb hc hd
  have e3 := C56_j_c3 f (r : ℂ) s (conj s) hb hc hd
  have e4 := C56_j_c4 f (r : ℂ) s (conj s) hb hc hd
  rw [c0, c2, r0, r2, ← map_sub, mul_assoc, mul_conj] at e1
  rw [c0, c1, r0, r1, ← map_sub, mul_assoc, mul_conj] at e2
  rw [c0, c1, r0, r1, ← map_add, mul_assoc, mul_conj] at e3
  rw [c1, r1, mul_assoc, mul_conj] at e4
  refine ⟨?_, ?_, ?_, ?_⟩
  · exact_mod_cast e1
  · exact_mod_cast e2
  · exact_mod_cast e3
  · exact_mod_cast e4

/-- `X³ + X`, with roots `0, i, -i` -/
example : ((C.mk 1 0 1 0).b : ℂ) = -((C.mk 1 0 1 0).a * ((0 : ℝ) + Complex.I +
    (starRingEnd ℂ) Complex.I)) ∧ ((C.mk 1 0 1 0).c : ℂ) = (C.mk 1 0 1 0).a * ((0 : ℝ) * Complex.I +
    Complex.I * (starRingEnd ℂ) Complex.I + (starRingEnd ℂ) Complex.I * (0 : ℝ)) := by
  simp

end Props

end Eclib.Forms
