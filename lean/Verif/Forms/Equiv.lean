import Mathlib.Tactic.Ring
import Mathlib.Tactic.LinearCombination
import Mathlib.Algebra.Order.Ring.Int

/-!
# `mequiv.cc`: the certificate `testd` for the equivalence of two quartics (C54)
-/

namespace Eclib.Equiv

/-- a binary quartic by its coefficients -/
structure Q where
  /-- coefficient of `X^4` -/
  a : Int
  /-- coefficient of `X^3 Z` -/
  b : Int
  /-- coefficient of `X^2 Z^2` -/
  c : Int
  /-- coefficient of `X Z^3` -/
  d : Int
  /-- coefficient of `Z^4` -/
  e : Int
  deriving DecidableEq, Repr

/-- the value of the form -/
def Q.eval (q : Q) (X Z : Int) : Int :=
  q.a * X ^ 4 + q.b * X ^ 3 * Z + q.c * X ^ 2 * Z ^ 2 + q.d * X * Z ^ 3 + q.e * Z ^ 4

/-- `testd` (mequiv.cc:107-136): `q = (a,b,c,d,e)`, `s = (as,bs,cs,ds,es)` -/
def testd (q s : Q) (dd al be ga de : Int) : Bool :=
  let d2 := dd * dd
  let al2 := al * al
  let al3 := al2 * al
  let al4 := al3 * al
  let ga2 := ga * ga
  let ga3 := ga2 * ga
  let ga4 := ga3 * ga
  if ga4 * s.e + al * ga3 * s.d + al2 * ga2 * s.c + al3 * ga * s.b + al4 * s.a - d2 * q.a ≠ 0
  then false
  else
    let de2 := de * de
    let de3 := de2 * de
    let de4 := de3 * de
    let be2 := be * be
    let be3 := be2 * be
    let be4 := be3 * be
    if de4 * s.e + be * de3 * s.d + be2 * de2 * s.c + be3 * de * s.b + be4 * s.a - d2 * q.e ≠ 0
    then false
    else if 4 * ga3 * de * s.e + (3 * al * ga2 * de + be * ga3) * s.d
        + 2 * (al2 * ga * de + al * be * ga2) * s.c
        + (3 * al2 * be * ga + al3 * de) * s.b + 4 * al3 * be * s.a - d2 * q.b ≠ 0 then false
    else if 4 * ga * de3 * s.e + (3 * be * ga * de2 + al * de3) * s.d
        + 2 * (be2 * ga * de + al * be * de2) * s.c
        + (be3 * ga + 3 * al * be2 * de) * s.b + 4 * al * be3 * s.a - d2 * q.d ≠ 0 then false
    else if 6 * ga2 * de2 * s.e + 3 * (be * ga2 * de + al * ga * de2) * s.d
        + (be2 * ga2 + 4 * al * be * ga * de + al2 * de2) * s.c
        + 3 * (al * be2 * ga + al2 * be * de) * s.b + 6 * al2 * be2 * s.a - d2 * q.c ≠ 0 then false
    else true

/-- a quartic form that vanishes at five points of the plane on different lines is zero -/
theorem quartic_zero {a b c d e : ℤ}
    (h : ∀ X Z : ℤ, a * X ^ 4 + b * X ^ 3 * Z + c * X ^ 2 * Z ^ 2 + d * X * Z ^ 3 + e * Z ^ 4 = 0) :
    a = 0 ∧ b = 0 ∧ c = 0 ∧ d = 0 ∧ e = 0 := by
  have h1 := h 1 0
  have h2 := h 0 1
  have h3 := h 1 1
  have h4 := h 1 (-1)
  have h5 := h 2 1
  norm_num at h1 h2 h3 h4 h5
  omega

/-- C54: `testd` accepts exactly when the substitution of `(al X + be Z, ga X + de Z)` in the second
quartic gives `dd^2` times the first -/
theorem C54_testd (q s : Q) (dd al be ga de : ℤ) :
    testd q s dd al be ga de = true ↔
      ∀ X Z : ℤ, s.eval (al * X + be * Z) (ga * X + de * Z) = dd ^ 2 * q.eval X Z := by
  constructor
  · intro h X Z
    simp only [testd] at h
    split_ifs at h with h1 h2 h3 h4 h5
    simp only [ne_eq, not_not] at h1 h2 h3 h4 h5
    simp only [Q.eval]
    linear_combination X ^ 4 * h1 + Z ^ 4 * h2 + X ^ 3 * Z * h3 + X * Z ^ 3 * h4 + X ^ 2 * Z ^ 2 * h5
  · intro h
    simp only [Q.eval] at h
    obtain ⟨k1, k2, k3, k4, k5⟩ := quartic_zero
      (a := ga * ga * ga * ga * s.e + al * (ga * ga * ga) * s.d + al * al * (ga * ga) * s.c
        + al * al * al * ga * s.b + al * al * al * al * s.a - dd * dd * q.a)
      (b := 4 * (ga * ga * ga) * de * s.e + (3 * al * (ga * ga) * de + be * (ga * ga * ga)) * s.d
        + 2 * (al * al * ga * de + al * be * (ga * ga)) * s.c
        + (3 * (al * al) * be * ga + al * al * al * de) * s.b + 4 * (al * al * al) * be * s.a
        - dd * dd * q.b)
      (c := 6 * (ga * ga) * (de * de) * s.e + 3 * (be * (ga * ga) * de + al * ga * (de * de)) * s.d
        + (be * be * (ga * ga) + 4 * al * be * ga * de + al * al * (de * de)) * s.c
        + 3 * (al * (be * be) * ga + al * al * be * de) * s.b + 6 * (al * al) * (be * be) * s.a
        - dd * dd * q.c)
      (d := 4 * ga * (de * de * de) * s.e + (3 * be * ga * (de * de) + al * (de * de * de)) * s.d
        + 2 * (be * be * ga * de + al * be * (de * de)) * s.c
        + (be * be * be * ga + 3 * al * (be * be) * de) * s.b + 4 * al * (be * be * be) * s.a
        - dd * dd * q.d)
      (e := de * de * de * de * s.e + be * (de * de * de) * s.d + be * be * (de * de) * s.c
        + be * be * be * de * s.b + be * be * be * be * s.a - dd * dd * q.e)
      (fun X Z => by linear_combination h X Z)
    simp only [testd]
    rw [if_neg (not_not.2 k1), if_neg (not_not.2 k5), if_neg (not_not.2 k2), if_neg (not_not.2 k4),
      if_neg (not_not.2 k3)]

example : testd ⟨6, 16, 18, 8, 1⟩ ⟨1, 0, 0, 4, 1⟩ 1 1 0 1 1 = true ∧
    testd ⟨6, 16, 18, 8, 2⟩ ⟨1, 0, 0, 4, 1⟩ 1 1 0 1 1 = false := by decide +kernel
example : testd ⟨24, 32, 18, 4, 1⟩ ⟨1, 0, 0, 4, 1⟩ 2 4 0 4 2 = false := by decide +kernel

end Eclib.Equiv
