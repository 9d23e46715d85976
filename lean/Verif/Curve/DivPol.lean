import Verif.Poly.Dense
import Mathlib.AlgebraicGeometry.EllipticCurve.DivisionPolynomial.Basic

/-!
# `divpol.cc`: division polynomials (C38)
-/

namespace Eclib.DivPol

open Polynomial Eclib.Poly

/-- the coefficients of the curve, `[a1,a2,a3,a4,a6]` -/
structure Ai where
  /-- `a1` -/
  a1 : Int
  /-- `a2` -/
  a2 : Int
  /-- `a3` -/
  a3 : Int
  /-- `a4` -/
  a4 : Int
  /-- `a6` -/
  a6 : Int
  deriving DecidableEq, Repr

/-- `div_pol_2` (divpol.cc:33-43) -/
def divPol2 (E : Ai) : P :=
  [E.a3 * E.a3 + 4 * E.a6, 2 * E.a1 * E.a3 + 4 * E.a4, E.a1 * E.a1 + 4 * E.a2, 4]

/-- `case 3` of `div_pol_odd` (divpol.cc:67-74) -/
def case3 (E : Ai) : P :=
  let a1 := E.a1; let a2 := E.a2; let a3 := E.a3; let a4 := E.a4; let a6 := E.a6
  [a1*a1*a6-a1*a3*a4+a2*a3*a3+4*a2*a6-a4*a4,
   3*a3*a3+12*a6,
   3*a1*a3+6*a4,
   a1*a1+4*a2,
   3]

/-- `case 4` of `div_pol_odd` (divpol.cc:75-84) -/
def case4 (E : Ai) : P :=
  let a1 := E.a1; let a2 := E.a2; let a3 := E.a3; let a4 := E.a4; let a6 := E.a6
  [a1*a1*a1*a3*a6-a1*a1*a3*a3*a4+2*a1*a1*a4*a6+a1*a2*a3*a3*a3+4*a1*a2*a3*a6-3*a1*a3*a4*a4+2*a2*a3*a3*a4+8*a2*a4*a6-a3*a3*a3*a3-8*a3*a3*a6-2*a4*a4*a4-16*a6*a6,
   a1*a1*a1*a1*a6-a1*a1*a1*a3*a4+a1*a1*a2*a3*a3+8*a1*a1*a2*a6-a1*a1*a4*a4-4*a1*a2*a3*a4-a1*a3*a3*a3-4*a1*a3*a6+4*a2*a2*a3*a3+16*a2*a2*a6-4*a2*a4*a4-2*a3*a3*a4-8*a4*a6,
   10*a1*a1*a6-10*a1*a3*a4+10*a2*a3*a3+40*a2*a6-10*a4*a4,
   10*a3*a3+40*a6,
   5*a1*a3+10*a4,
   a1*a1+4*a2,
   2]

/-- `psi24` (divpol.cc:57-59): the square of `4*f1+f2^2` with
`f1 = X*(X*(X+a2)+a4)+a6`, `f2 = a1*X+a3` -/
def psi24 (E : Ai) : P :=
  let X : P := [0, 1]
  let f1 := add (mul X (add (mul X (add X [E.a2])) [E.a4])) [E.a6]
  let f2 := add (smul E.a1 X) [E.a3]
  let s := add (smul 4 f1) (mul f2 f2)
  mul s s

/-- `div_pol_odd` (divpol.cc:51-111); the first argument bounds the depth of the recursion and
`none` means that it was not enough -/
def divPolOdd (E : Ai) : Nat → Int → Option P
  | 0, _ => none
  | k + 1, n =>
    if n = 0 then some []
    else if n = 1 ∨ n = 2 then some [1]
    else if n = 3 then some (case3 E)
    else if n = 4 then some (case4 E)
    else if n.tmod 2 = 1 then
      let m := (n - 1).tdiv 2
      (divPolOdd E k m).bind fun t1 =>
      (divPolOdd E k (m + 2)).bind fun p2 =>
      let t1 := mul (mul (mul p2 t1) t1) t1
      (divPolOdd E k (m + 1)).bind fun t2 =>
      (divPolOdd E k (m - 1)).bind fun q2 =>
      let t2 := mul (mul (mul q2 t2) t2) t2
      if m.tmod 2 = 1 then some (sub t1 (mul (psi24 E) t2))
      else some (sub (mul (psi24 E) t1) t2)
    else
      let m := n.tdiv 2
      (divPolOdd E k (m - 1)).bind fun t1 =>
      (divPolOdd E k (m + 2)).bind fun p2 =>
      let t1 := mul (mul p2 t1) t1
      (divPolOdd E k (m + 1)).bind fun t2 =>
      (divPolOdd E k (m - 2)).bind fun q2 =>
      let t2 := mul (mul q2 t2) t2
      (divPolOdd E k m).bind fun pm =>
      some (mul pm (sub t1 t2))

/-- `div_pol` (divpol.cc:113-117) and `division_polynomial` (divpol.cc:119-124) -/
def divPol (E : Ai) (k : Nat) (n : Int) : Option P :=
  if n = 2 then some (divPol2 E) else divPolOdd E k n

/-- `mul_by_n_num` (divpol.cc:128-140) -/
def mulNum (E : Ai) (k : Nat) (n : Int) : Option P :=
  (divPolOdd E k n).bind fun pn =>
  (divPolOdd E k (n + 1)).bind fun pp =>
  (divPolOdd E k (n - 1)).bind fun pm =>
  let A := mul (mul [0, 1] pn) pn
  let B := mul pm pp
  if n.tmod 2 = 0 then some (sub (mul A (divPol2 E)) B) else some (sub A (mul (divPol2 E) B))

/-- `mul_by_n_den` (divpol.cc:144-149) -/
def mulDen (E : Ai) (k : Nat) (n : Int) : Option P :=
  (divPolOdd E k n).bind fun pn =>
  if n.tmod 2 = 1 then some (mul pn pn) else some (mul (mul pn pn) (divPol2 E))

/-- `division_points_X_pol` (divpol.cc:153-164) -/
def divisionPointsXPol (E : Ai) (k : Nat) (n xP zP : Int) : Option P :=
  (mulNum E k n).bind fun num =>
  (mulDen E k n).bind fun den =>
  some (sub (smul zP num) (smul xP den))

/-! ## specification: Mathlib's division polynomials -/

/-- the Weierstrass curve with these coefficients -/
def Ai.W (E : Ai) : WeierstrassCurve ℤ := ⟨E.a1, E.a2, E.a3, E.a4, E.a6⟩

theorem toPoly_divPol2 (E : Ai) : toPoly (divPol2 E) = E.W.Ψ₂Sq := by
  simp only [divPol2, toPoly, WeierstrassCurve.Ψ₂Sq, WeierstrassCurve.b₂, WeierstrassCurve.b₄,
    WeierstrassCurve.b₆, Ai.W]
  simp only [C_add, C_mul, C_pow, map_ofNat]
  ring

theorem toPoly_case3 (E : Ai) : toPoly (case3 E) = E.W.Ψ₃ := by
  simp only [case3, toPoly, WeierstrassCurve.Ψ₃, WeierstrassCurve.b₂, WeierstrassCurve.b₄,
    WeierstrassCurve.b₆, WeierstrassCurve.b₈, Ai.W]
  simp only [C_add, C_sub, C_mul, C_pow, map_ofNat]
  ring

theorem toPoly_case4 (E : Ai) : toPoly (case4 E) = E.W.preΨ₄ := by
  simp only [case4, toPoly, WeierstrassCurve.preΨ₄, WeierstrassCurve.b₂, WeierstrassCurve.b₄,
    WeierstrassCurve.b₆, WeierstrassCurve.b₈, Ai.W]
  simp only [C_add, C_sub, C_mul, C_pow, map_ofNat]
  ring

theorem toPoly_psi24 (E : Ai) : toPoly (psi24 E) = E.W.Ψ₂Sq ^ 2 := by
  simp only [psi24, toPoly_mul, toPoly_add, toPoly_smul]
  simp only [toPoly, WeierstrassCurve.Ψ₂Sq, WeierstrassCurve.b₂, WeierstrassCurve.b₄,
    WeierstrassCurve.b₆, Ai.W]
  simp only [C_add, C_mul, C_pow, map_ofNat, C_0, C_1]
  ring

theorem divPolOdd_spec (E : Ai) (k : ℕ) (n : ℕ) (hk : n < k) :
    ∃ f, divPolOdd E k n = some f ∧ toPoly f = E.W.preΨ' n := by
  induction k generalizing n with
  | zero => omega
  | succ k ih =>
    rw [divPolOdd]
    by_cases h0 : n = 0
    · subst h0; exact ⟨[], by simp, by simp [toPoly]⟩
    rw [if_neg (by exact_mod_cast h0)]
    by_cases h1 : n = 1 ∨ n = 2
    · rw [if_pos (by exact_mod_cast h1)]
      refine ⟨[1], rfl, ?_⟩
      rcases h1 with rfl | rfl <;> simp [toPoly]
    rw [if_neg (by exact_mod_cast h1)]
    by_cases h3 : n = 3
    · subst h3; exact ⟨case3 E, by simp, by rw [toPoly_case3]; simp⟩
    rw [if_neg (by exact_mod_cast h3)]
    by_cases h4 : n = 4
    · subst h4; exact ⟨case4 E, by simp, by rw [toPoly_case4]; simp⟩
    rw [if_neg (by exact_mod_cast h4)]
    have hmod : (n : ℤ).tmod 2 = (n % 2 : ℕ) := by
      rw [Int.tmod_eq_emod_of_nonneg (by omega)]; push_cast; rfl
    by_cases hodd : n % 2 = 1
    · rw [if_pos (by rw [hmod, hodd]; rfl)]
      obtain ⟨m, rfl⟩ : ∃ m, n = 2 * (m + 2) + 1 := ⟨(n - 5) / 2, by omega⟩
      have hm : (((2 * (m + 2) + 1 : ℕ) : ℤ) - 1).tdiv 2 = ((m + 2 : ℕ) : ℤ) := by
        rw [Int.tdiv_eq_ediv_of_nonneg (by push_cast; omega)]; push_cast; omega
      have e1 : ((m + 2 : ℕ) : ℤ) + 2 = ((m + 4 : ℕ) : ℤ) := by push_cast; ring
      have e2 : ((m + 2 : ℕ) : ℤ) + 1 = ((m + 3 : ℕ) : ℤ) := by push_cast; ring
      have e3 : ((m + 2 : ℕ) : ℤ) - 1 = ((m + 1 : ℕ) : ℤ) := by push_cast; ring
      simp only [hm, e1, e2, e3]
      obtain ⟨f1, g1, k1⟩ := ih (m + 2) (by omega)
      obtain ⟨f2, g2, k2⟩ := ih (m + 4) (by omega)
      obtain ⟨f3, g3, k3⟩ := ih (m + 3) (by omega)
      obtain ⟨f4, g4, k4⟩ := ih (m + 1) (by omega)
      simp only [g1, g2, g3, g4, Option.bind_some]
      have hm2 : ((m + 2 : ℕ) : ℤ).tmod 2 = ((m % 2 : ℕ) : ℤ) := by
        rw [Int.tmod_eq_emod_of_nonneg (by omega)]; push_cast; omega
      rw [hm2]
      rcases Nat.mod_two_eq_zero_or_one m with he | he
      · rw [he, if_neg (by decide)]
        refine ⟨_, rfl, ?_⟩
        simp only [toPoly_sub, toPoly_mul, toPoly_psi24, k1, k2, k3, k4]
        rw [WeierstrassCurve.preΨ'_odd, if_pos (Nat.even_iff.2 he), if_pos (Nat.even_iff.2 he)]
        ring
      · rw [he, if_pos (by decide)]
        refine ⟨_, rfl, ?_⟩
        have hne : ¬ Even m := by rw [Nat.even_iff]; omega
        simp only [toPoly_sub, toPoly_mul, toPoly_psi24, k1, k2, k3, k4]
        rw [WeierstrassCurve.preΨ'_odd, if_neg hne, if_neg hne]
        ring
    · have hev : n % 2 = 0 := by omega
      rw [if_neg (by rw [hmod, hev]; decide)]
      obtain ⟨m, rfl⟩ : ∃ m, n = 2 * (m + 3) := ⟨(n - 6) / 2, by omega⟩
      have hm : ((2 * (m + 3) : ℕ) : ℤ).tdiv 2 = ((m + 3 : ℕ) : ℤ) := by
        rw [Int.tdiv_eq_ediv_of_nonneg (by push_cast; omega)]; push_cast; omega
      have e1 : ((m + 3 : ℕ) : ℤ) - 1 = ((m + 2 : ℕ) : ℤ) := by push_cast; ring
      have e2 : ((m + 3 : ℕ) : ℤ) + 2 = ((m + 5 : ℕ) : ℤ) := by push_cast; ring
      have e3 : ((m + 3 : ℕ) : ℤ) + 1 = ((m + 4 : ℕ) : ℤ) := by push_cast; ring
      have e4 : ((m + 3 : ℕ) : ℤ) - 2 = ((m + 1 : ℕ) : ℤ) := by push_cast; ring
      simp only [hm, e1, e2, e3, e4]
      obtain ⟨f1, g1, k1⟩ := ih (m + 2) (by omega)
      obtain ⟨f2, g2, k2⟩ := ih (m + 5) (by omega)
      obtain ⟨f3, g3, k3⟩ := ih (m + 4) (by omega)
      obtain ⟨f4, g4, k4⟩ := ih (m + 1) (by omega)
      obtain ⟨f5, g5, k5⟩ := ih (m + 3) (by omega)
      simp only [g1, g2, g3, g4, g5, Option.bind_some]
      refine ⟨_, rfl, ?_⟩
      simp only [toPoly_sub, toPoly_mul, k1, k2, k3, k4, k5]
      rw [WeierstrassCurve.preΨ'_even]
      ring

/-- C38, `div_pol_odd`: for every curve and every `n ≥ 0` the recursion ends and gives the
polynomial `preΨ n` (the `n`-division polynomial for odd `n`, divided by the 2-torsion factor for
even `n`) -/
theorem C38_div_pol_odd (E : Ai) (n : ℕ) :
    ∃ k₀, ∀ k ≥ k₀, ∃ f, divPolOdd E k n = some f ∧ toPoly f = E.W.preΨ n :=
  ⟨n + 1, fun k hk => by
    obtain ⟨f, h1, h2⟩ := divPolOdd_spec E k n (by omega)
    exact ⟨f, h1, by rw [h2, WeierstrassCurve.preΨ_ofNat]⟩⟩

/-- C38, `div_pol`, `division_polynomial`: at `n = 2` the polynomial whose roots are the
`x`-coordinates of the points of order 2, otherwise `preΨ n` -/
theorem C38_div_pol (E : Ai) (n : ℕ) :
    ∃ k₀, ∀ k ≥ k₀, ∃ f, divPol E k n = some f ∧
      toPoly f = if n = 2 then E.W.Ψ₂Sq else E.W.preΨ n := by
  refine ⟨n + 1, fun k hk => ?_⟩
  by_cases h2 : n = 2
  · subst h2; exact ⟨divPol2 E, by simp [divPol], by rw [toPoly_divPol2, if_pos rfl]⟩
  · obtain ⟨f, h1, h3⟩ := divPolOdd_spec E k n (by omega)
    refine ⟨f, ?_, by rw [h3, if_neg h2, WeierstrassCurve.preΨ_ofNat]⟩
    rw [divPol, if_neg (by exact_mod_cast h2), h1]

theorem mulNum_spec (E : Ai) (n : ℕ) (hn : 0 < n) (k : ℕ) (hk : n + 2 ≤ k) :
    ∃ f, mulNum E k n = some f ∧ toPoly f = E.W.Φ n := by
  obtain ⟨m, rfl⟩ : ∃ m, n = m + 1 := ⟨n - 1, by omega⟩
  obtain ⟨f1, g1, k1⟩ := divPolOdd_spec E k (m + 1) (by omega)
  obtain ⟨f2, g2, k2⟩ := divPolOdd_spec E k (m + 2) (by omega)
  obtain ⟨f3, g3, k3⟩ := divPolOdd_spec E k m (by omega)
  have e2 : ((m + 1 : ℕ) : ℤ) + 1 = ((m + 2 : ℕ) : ℤ) := by push_cast; ring
  have e3 : ((m + 1 : ℕ) : ℤ) - 1 = (m : ℤ) := by push_cast; ring
  rw [mulNum, g1, e2, e3, g2, g3]
  simp only [Option.bind_some]
  have hX : toPoly [0, 1] = X := by simp [toPoly]
  have hc : ((m + 1 : ℕ) : ℤ) = (m : ℤ) + 1 := by push_cast; ring
  have hmod : ((m + 1 : ℕ) : ℤ).tmod 2 = ((m + 1) % 2 : ℕ) := by
    rw [Int.tmod_eq_emod_of_nonneg (by omega)]; push_cast; rfl
  rw [hmod, hc, E.W.Φ_ofNat m]
  rcases Nat.mod_two_eq_zero_or_one (m + 1) with he | he
  · rw [he, if_pos (by decide)]
    have hne : ¬ Even m := by rw [Nat.even_iff]; omega
    refine ⟨_, rfl, ?_⟩
    simp only [toPoly_sub, toPoly_mul, toPoly_divPol2, k1, k2, k3, hX]
    rw [if_neg hne, if_neg hne]
    ring
  · rw [he, if_neg (by decide)]
    have hev : Even m := by rw [Nat.even_iff]; omega
    refine ⟨_, rfl, ?_⟩
    simp only [toPoly_sub, toPoly_mul, toPoly_divPol2, k1, k2, k3, hX]
    rw [if_pos hev, if_pos hev]
    ring

theorem mulDen_spec (E : Ai) (n : ℕ) (k : ℕ) (hk : n + 1 ≤ k) :
    ∃ f, mulDen E k n = some f ∧ toPoly f = E.W.ΨSq n := by
  obtain ⟨f1, g1, k1⟩ := divPolOdd_spec E k n (by omega)
  have hmod : (n : ℤ).tmod 2 = (n % 2 : ℕ) := by
    rw [Int.tmod_eq_emod_of_nonneg (by omega)]; push_cast; rfl
  rw [mulDen, g1, hmod, WeierstrassCurve.ΨSq_ofNat]
  simp only [Option.bind_some]
  rcases Nat.mod_two_eq_zero_or_one n with he | he
  · rw [he, if_neg (by decide), if_pos (Nat.even_iff.2 he)]
    exact ⟨_, rfl, by rw [toPoly_mul, toPoly_mul, toPoly_divPol2, k1]; ring⟩
  · rw [he, if_pos (by decide), if_neg (by rw [Nat.even_iff]; omega)]
    exact ⟨_, rfl, by rw [toPoly_mul, k1]; ring⟩

/-- C38, `mul_by_n_num` and `mul_by_n_den`, for every `n ≥ 1`: numerator and denominator of the
multiplication by `n` on the `x`-coordinate, `Φ n` and `ΨSq n` -/
theorem C38_mul_by_n (E : Ai) (n : ℕ) (hn : 0 < n) :
    ∃ k₀, ∀ k ≥ k₀, ∃ f g, mulNum E k n = some f ∧ toPoly f = E.W.Φ n ∧
      mulDen E k n = some g ∧ toPoly g = E.W.ΨSq n := by
  refine ⟨n + 2, fun k hk => ?_⟩
  obtain ⟨f, h1, h2⟩ := mulNum_spec E n hn k hk
  obtain ⟨g, h3, h4⟩ := mulDen_spec E n k (by omega)
  exact ⟨f, g, h1, h2, h3, h4⟩

/-- C38, `division_points_X_pol`: `zP*Φ n - xP*ΨSq n` -/
theorem C38_division_points (E : Ai) (n : ℕ) (hn : 0 < n) (xP zP : ℤ) :
    ∃ k₀, ∀ k ≥ k₀, ∃ f, divisionPointsXPol E k n xP zP = some f ∧
      toPoly f = C zP * E.W.Φ n - C xP * E.W.ΨSq n := by
  refine ⟨n + 2, fun k hk => ?_⟩
  obtain ⟨f, h1, h2⟩ := mulNum_spec E n hn k hk
  obtain ⟨g, h3, h4⟩ := mulDen_spec E n k (by omega)
  refine ⟨_, by rw [divisionPointsXPol, h1, h3]; rfl, ?_⟩
  rw [toPoly_sub, toPoly_smul, toPoly_smul, h2, h4]

/-- C38, the code as it stands: for negative `n` the recursion of `div_pol_odd` never ends, so
neither does `mul_by_n_num(0)` -/
theorem C38_negative (E : Ai) (n : ℤ) (hn : n < 0) (k : ℕ) : divPolOdd E k n = none := by
  induction k generalizing n with
  | zero => rfl
  | succ k ih =>
    rw [divPolOdd, if_neg (by omega), if_neg (by omega), if_neg (by omega), if_neg (by omega)]
    have hmod : n.tmod 2 ≠ 1 := by
      intro h
      have h1 := Int.neg_tmod (a := n) (b := 2)
      have h2 := Int.tmod_nonneg 2 (show 0 ≤ -n by omega)
      omega
    rw [if_neg hmod]
    have hm : n.tdiv 2 - 1 < 0 := by
      have h1 := Int.neg_tdiv (a := n) (b := 2)
      have h2 := Int.tdiv_nonneg (show 0 ≤ -n by omega) (show (0 : ℤ) ≤ 2 by omega)
      omega
    simp only [ih _ hm, Option.bind_none]

/-- see `C38_negative` -/
theorem C38_num_zero (E : Ai) (k : ℕ) : mulNum E k 0 = none := by
  rw [mulNum, C38_negative E (0 - 1) (by omega)]
  cases divPolOdd E k 0 with
  | none => rfl
  | some f =>
    cases h : divPolOdd E k (0 + 1) with
    | none => simp
    | some g => simp

/-! concrete cases -/

example : divPol ⟨0, 0, 1, -1, 0⟩ 6 5 =
    divPol ⟨0, 0, 1, -1, 0⟩ 9 5 ∧ (divPol ⟨0, 0, 1, -1, 0⟩ 6 5).map List.length = some 13 := by
  decide +kernel
example : mulNum ⟨0, 0, 1, -1, 0⟩ 5 2 = some [1, -2, 2, 0, 1] := by decide +kernel

end Eclib.DivPol
