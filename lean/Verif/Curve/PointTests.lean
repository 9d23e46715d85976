import Mathlib.AlgebraicGeometry.EllipticCurve.Projective.Basic
import Mathlib.Data.ZMod.Basic
import Mathlib.Analysis.Real.Sqrt
import Mathlib.Tactic.Positivity
import Mathlib.Tactic.Linarith
import Verif.Curve.Points

/-!
# C36, C37, C39: real component, reduction modulo p, points with given x-coordinate
-/

namespace Eclib.Curve

open WeierstrassCurve

open Marith (mod div val isqrt)

namespace Props

open P2

/-! ## C37 -/

/-- C37: for a prime `p` and a reduced valid point, `has_good_reduction(p)` decides whether the
point reduces to a non-singular point of the reduced curve. -/
theorem C37_good_reduction (E : Cd) (P : P2) (hP : isvalid E.toCv P = true) (hr : Reduced P)
    (p : ℕ) (hp : p.Prime) :
    hasGoodReduction E P p = true ↔
      (E.toCv.W.map (Int.castRingHom (ZMod p))).toProjective.Nonsingular
        ![(P.X : ZMod p), (P.Y : ZMod p), (P.Z : ZMod p)] := by
  rw [isvalid_iff] at hP
  obtain ⟨-, hon⟩ := hP
  have hfact : Fact p.Prime := ⟨hp⟩
  have hp0 : (p : ℤ) ≠ 0 := by exact_mod_cast hp.ne_zero
  have hpi : Prime (p : ℤ) := Nat.prime_iff_prime_int.1 hp
  have z : ∀ a : ℤ, ((a : ℤ) : ZMod p) = 0 ↔ (p : ℤ) ∣ a := fun a => ZMod.intCast_zmod_eq_zero_iff_dvd a p
  rw [Projective.nonsingular_iff, Projective.equation_iff]
  simp only [map_a₁, map_a₂, map_a₃, map_a₄, map_a₆, eq_intCast, Cv.W]
  simp only [Matrix.cons_val_zero, Matrix.cons_val_one, Matrix.cons_val]
  have heq : ((P.Y : ZMod p) ^ 2 * P.Z + E.a1 * P.X * P.Y * P.Z + E.a3 * P.Y * P.Z ^ 2
      - (P.X ^ 3 + E.a2 * P.X ^ 2 * P.Z + E.a4 * P.X * P.Z ^ 2 + E.a6 * P.Z ^ 3)) = 0 := by
    unfold OnE at hon
    rw [sub_eq_zero]
    exact_mod_cast congrArg (fun t : ℤ => (t : ZMod p)) hon
  have eX : (E.a1 * P.Y * P.Z - (3 * P.X ^ 2 + 2 * E.a2 * P.X * P.Z + E.a4 * P.Z ^ 2) : ZMod p) =
    ((E.a1 * P.Y * P.Z - (3 * P.X * P.X + 2 * E.a2 * P.X * P.Z + E.a4 * P.Z * P.Z) : ℤ) : ZMod p) := by
    push_cast; ring
  have eY : (2 * P.Y * P.Z + E.a1 * P.X * P.Z + E.a3 * P.Z ^ 2 : ZMod p) =
    (((2 * P.Y + E.a1 * P.X + E.a3 * P.Z) * P.Z : ℤ) : ZMod p) := by push_cast; ring
  have eZ : (P.Y ^ 2 + E.a1 * P.X * P.Y + 2 * E.a3 * P.Y * P.Z
        - (E.a2 * P.X ^ 2 + 2 * E.a4 * P.X * P.Z + 3 * E.a6 * P.Z ^ 2) : ZMod p) =
    ((P.Y * (P.Y + E.a1 * P.X + 2 * E.a3 * P.Z)
          - (E.a2 * P.X * P.X + 2 * E.a4 * P.X * P.Z + 3 * E.a6 * P.Z * P.Z) : ℤ) : ZMod p) := by
    push_cast; ring
  rw [eX, eY, eZ]
  simp only [heq, true_and, ne_eq, z]
  unfold hasGoodReduction
  by_cases hZ : (p : ℤ) ∣ P.Z
  · rw [if_pos ((div_iff' hp0 _).2 hZ)]
    simp only [true_iff]
    right; right
    have hX : (p : ℤ) ∣ P.X := by
      apply hpi.dvd_of_dvd_pow (n := 3)
      unfold OnE at hon
      obtain ⟨k, hk⟩ := hZ
      exact ⟨k * (P.Y ^ 2 + E.a1 * P.X * P.Y + E.a3 * P.Y * P.Z - E.a2 * P.X ^ 2
        - E.a4 * P.X * P.Z - E.a6 * P.Z ^ 2), by
          linear_combination -hon + (P.Y ^ 2 + E.a1 * P.X * P.Y + E.a3 * P.Y * P.Z - E.a2 * P.X ^ 2
        - E.a4 * P.X * P.Z - E.a6 * P.Z ^ 2) * hk⟩
    intro hh
    have hY : (p : ℤ) ∣ P.Y := by
      apply hpi.dvd_of_dvd_pow (n := 2)
      have e : P.Y ^ 2 = (P.Y * (P.Y + E.a1 * P.X + 2 * E.a3 * P.Z)
          - (E.a2 * P.X * P.X + 2 * E.a4 * P.X * P.Z + 3 * E.a6 * P.Z * P.Z))
          - (P.X * (E.a1 * P.Y - E.a2 * P.X - 2 * E.a4 * P.Z)
            + P.Z * (2 * E.a3 * P.Y - 3 * E.a6 * P.Z)) := by ring
      rw [e]
      exact dvd_sub hh (dvd_add (Dvd.dvd.mul_right hX _) (Dvd.dvd.mul_right hZ _))
    exact hpi.not_isUnit (gcd3_dvd hr.1 hX hY hZ)
  · rw [if_neg (by rw [div_iff' hp0]; exact hZ), if_neg hp0]
    have d : ∀ x : ℤ, (!div (p : ℤ) x) = true ↔ ¬ (p : ℤ) ∣ x := by
      intro x
      rw [Bool.not_eq_true', ← Bool.not_eq_true, div_iff' hp0]
    have hYZ : (p : ℤ) ∣ (2 * P.Y + E.a1 * P.X + E.a3 * P.Z) * P.Z ↔
        (p : ℤ) ∣ 2 * P.Y + E.a1 * P.X + E.a3 * P.Z :=
      ⟨fun h => (hpi.dvd_or_dvd h).resolve_right hZ, fun h => Dvd.dvd.mul_right h _⟩
    rw [hYZ]
    simp only [Bool.not_not]
    by_cases hY : (p : ℤ) ∣ 2 * P.Y + E.a1 * P.X + E.a3 * P.Z
    · rw [if_pos ((div_iff' hp0 _).2 hY)]
      by_cases hX : (p : ℤ) ∣ E.a1 * P.Y * P.Z - (3 * P.X * P.X + 2 * E.a2 * P.X * P.Z + E.a4 * P.Z * P.Z)
      · rw [if_pos ((div_iff' hp0 _).2 hX), d]
        tauto
      · rw [if_neg (by rw [div_iff' hp0]; exact hX), d]
        tauto
    · rw [if_neg (by rw [div_iff' hp0]; exact hY), d]
      tauto

/-- C37: the test at a list of primes and at the real place -/
theorem C37_list (E : Cd) (P : P2) (plist : List ℤ) (checkReal : Bool) :
    ((hasGoodReductionList E P plist checkReal).1 = true ↔
      (checkReal = true → onRealIdentity E P = true) ∧
        ∀ p ∈ plist, hasGoodReduction E P p = true) ∧
    (∀ p0, (hasGoodReductionList E P plist checkReal).2 = some p0 →
      (p0 = 0 ∧ checkReal = true ∧ onRealIdentity E P = false) ∨
      (p0 ∈ plist ∧ hasGoodReduction E P p0 = false)) := by
  unfold hasGoodReductionList
  by_cases h : (checkReal && !onRealIdentity E P) = true
  · rw [if_pos h]
    simp only [Bool.and_eq_true, Bool.not_eq_true'] at h
    constructor
    · simp only [Bool.false_eq_true, false_iff]
      rintro ⟨h1, -⟩
      have := h1 h.1
      rw [h.2] at this
      exact absurd this (by simp)
    · intro p0 hp0
      simp only [Option.some.injEq] at hp0
      exact Or.inl ⟨hp0.symm, h⟩
  · rw [if_neg h]
    simp only [Bool.and_eq_true, Bool.not_eq_true', not_and, Bool.not_eq_false] at h
    cases hf : plist.find? (fun p => !hasGoodReduction E P p) with
    | none =>
      rw [List.find?_eq_none] at hf
      simp only [true_iff, reduceCtorEq, false_imp_iff, implies_true, and_true]
      refine ⟨h, fun p hp => ?_⟩
      have := hf p hp
      simpa using this
    | some p =>
      have h1 := List.find?_some hf
      have h2 := List.mem_of_find?_eq_some hf
      simp only [Bool.not_eq_true'] at h1
      constructor
      · simp only [Bool.false_eq_true, false_iff]
        rintro ⟨-, h3⟩
        rw [h3 p h2] at h1
        exact absurd h1 (by simp)
      · intro p0 hp0
        simp only [Option.some.injEq] at hp0
        subst hp0
        exact Or.inr ⟨h2, h1⟩

/-- 11a1, `(16,60)`: singular modulo 11, non-singular modulo 2 -/
example : hasGoodReduction (Cd.ofAi ⟨0, -1, 1, -10, -20⟩) ⟨16, 60, 1⟩ 11 = false ∧
    hasGoodReduction (Cd.ofAi ⟨0, -1, 1, -10, -20⟩) ⟨16, 60, 1⟩ 2 = true ∧
    isvalid ⟨0, -1, 1, -10, -20⟩ ⟨16, 60, 1⟩ = true := by decide +kernel

/-! ## C36 -/

/-- the cubic in the variable `z = 12x + b2` -/
theorem cubic_z (b2 b4 b6 t : ℝ) (c4 c6 : ℝ) (h4 : c4 = b2 ^ 2 - 24 * b4)
    (h6 : c6 = -b2 ^ 3 + 36 * b2 * b4 - 216 * b6) :
    432 * (4 * t ^ 3 + b2 * t ^ 2 + 2 * b4 * t + b6) =
      (12 * t + b2) ^ 3 - 3 * c4 * (12 * t + b2) - 2 * c6 := by
  rw [h4, h6]; ring

/-- negative discriminant: once non-negative, the cubic stays so -/
theorem cubic_neg {c4 c6 z w : ℝ} (hD : c4 ^ 3 < c6 ^ 2) (hz : 0 ≤ z ^ 3 - 3 * c4 * z - 2 * c6)
    (hw : z ≤ w) : 0 ≤ w ^ 3 - 3 * c4 * w - 2 * c6 := by
  have mono : 3 * c4 ≤ w ^ 2 + w * z + z ^ 2 → 0 ≤ w ^ 3 - 3 * c4 * w - 2 * c6 := by
    intro h
    have := mul_nonneg (sub_nonneg.2 hw) (sub_nonneg.2 h)
    nlinarith
  rcases le_or_gt c4 0 with hc | hc
  · apply mono
    nlinarith [sq_nonneg (w + z), sq_nonneg w, sq_nonneg z]
  · obtain ⟨s, hs, hs2⟩ : ∃ s : ℝ, 0 < s ∧ s ^ 2 = c4 := ⟨√c4, Real.sqrt_pos.2 hc, Real.sq_sqrt hc.le⟩
    have hc3 : c4 ^ 3 = (s ^ 3) ^ 2 := by rw [← hs2]; ring
    rw [hc3] at hD
    have habs : s ^ 3 < |c6| := by
      have := sq_lt_sq.1 hD
      rwa [abs_of_pos (pow_pos hs 3)] at this
    rcases le_or_gt 0 c6 with h6 | h6
    · rw [abs_of_nonneg h6] at habs
      have hz2 : 2 * s < z := by
        by_contra hle
        push Not at hle
        have e : z ^ 3 - 3 * c4 * z - 2 * c6 = (z + s) ^ 2 * (z - 2 * s) + 2 * (s ^ 3 - c6) := by
          rw [← hs2]; ring
        rw [e] at hz
        have := mul_nonneg (sq_nonneg (z + s)) (sub_nonneg.2 hle)
        nlinarith
      apply mono
      rw [← hs2]
      nlinarith [mul_pos hs hs]
    · rw [abs_of_neg h6] at habs
      rcases le_or_gt (-2 * s) w with hws | hws
      · have e : w ^ 3 - 3 * c4 * w - 2 * c6 = (w - s) ^ 2 * (w + 2 * s) + 2 * (-c6 - s ^ 3) := by
          rw [← hs2]; ring
        rw [e]
        have := mul_nonneg (sq_nonneg (w - s)) (by linarith : 0 ≤ w + 2 * s)
        linarith
      · apply mono
        rw [← hs2]
        nlinarith [mul_pos hs hs]

/-- positive discriminant: the cubic is non-negative to the right of `z` exactly when `z` is
non-negative and beyond the critical points -/
theorem cubic_pos {c4 c6 z : ℝ} (hD : c6 ^ 2 < c4 ^ 3) (hz : 0 ≤ z ^ 3 - 3 * c4 * z - 2 * c6) :
    (0 ≤ z ^ 2 - c4 ∧ 0 ≤ z) ↔ ∀ w, z ≤ w → 0 ≤ w ^ 3 - 3 * c4 * w - 2 * c6 := by
  have hc : 0 < c4 := by
    by_contra h
    push Not at h
    have : c4 ^ 3 ≤ 0 := by
      have := mul_nonneg (neg_nonneg.2 h) (mul_self_nonneg c4)
      nlinarith
    nlinarith [sq_nonneg c6]
  obtain ⟨s, hs, hs2⟩ : ∃ s : ℝ, 0 < s ∧ s ^ 2 = c4 := ⟨√c4, Real.sqrt_pos.2 hc, Real.sq_sqrt hc.le⟩
  constructor
  · rintro ⟨h1, h2⟩ w hw
    have h3 : 3 * c4 ≤ w ^ 2 + w * z + z ^ 2 := by nlinarith
    have := mul_nonneg (sub_nonneg.2 hw) (sub_nonneg.2 h3)
    nlinarith
  · intro h
    have hc3 : c4 ^ 3 = (s ^ 3) ^ 2 := by rw [← hs2]; ring
    rw [hc3] at hD
    have habs : |c6| < s ^ 3 := by
      have := sq_lt_sq.1 hD
      rwa [abs_of_pos (pow_pos hs 3)] at this
    have h6 := (abs_lt.1 habs).1
    have hsz : s ≤ z := by
      by_contra hlt
      push Not at hlt
      have := h s hlt.le
      have e : s ^ 3 - 3 * c4 * s - 2 * c6 = -2 * (s ^ 3 + c6) := by rw [← hs2]; ring
      rw [e] at this
      linarith
    refine ⟨?_, by linarith⟩
    rw [← hs2]
    nlinarith

/-- C36: a rational point with `Z > 0` is on the identity component exactly when the real locus
contains the whole half line to the right of its `x`-coordinate, that is
`4t³ + b2 t² + 2 b4 t + b6 ≥ 0` for every real `t ≥ x`. -/
theorem C36_real_component (E : Cv) (hE : E.W.Δ ≠ 0) (P : P2) (hP : isvalid E P = true)
    (hZ : 0 < P.Z) :
    onRealIdentity (Cd.ofAi E) P = true ↔
      ∀ t : ℝ, (P.X / P.Z : ℝ) ≤ t →
        0 ≤ 4 * t ^ 3 + (E.W.b₂ : ℝ) * t ^ 2 + 2 * (E.W.b₄ : ℝ) * t + (E.W.b₆ : ℝ) := by
  obtain ⟨hc, hstd⟩ := Cd.ofAi_std hE
  have e2 : (Cd.ofAi E).b2 = E.W.b₂ := by rw [hstd.b2, hc]
  have e4 : (Cd.ofAi E).b4 = E.W.b₄ := by rw [hstd.b4, hc]
  have ec : (Cd.ofAi E).conncomp = if 0 < E.W.Δ then 2 else 1 := by rw [hstd.conncomp, hc]
  rw [isvalid_iff] at hP
  obtain ⟨-, hon⟩ := hP
  unfold OnE at hon
  have hb2 : E.W.b₂ = E.a1 ^ 2 + 4 * E.a2 := by simp only [Cv.W, b₂]
  have hb4 : E.W.b₄ = 2 * E.a4 + E.a1 * E.a3 := by simp only [Cv.W, b₄]
  have hb6 : E.W.b₆ = E.a3 ^ 2 + 4 * E.a6 := by simp only [Cv.W, b₆]
  have hc4 : (E.W.c₄ : ℝ) = (E.W.b₂ : ℝ) ^ 2 - 24 * E.W.b₄ := by
    have : E.W.c₄ = E.W.b₂ ^ 2 - 24 * E.W.b₄ := rfl
    rw [this]; push_cast; ring
  have hc6 : (E.W.c₆ : ℝ) = -(E.W.b₂ : ℝ) ^ 3 + 36 * E.W.b₂ * E.W.b₄ - 216 * E.W.b₆ := by
    have : E.W.c₆ = -E.W.b₂ ^ 3 + 36 * E.W.b₂ * E.W.b₄ - 216 * E.W.b₆ := rfl
    rw [this]; push_cast; ring
  have hZr : (0 : ℝ) < P.Z := by exact_mod_cast hZ
  have hrel : (1728 : ℝ) * E.W.Δ = (E.W.c₄ : ℝ) ^ 3 - (E.W.c₆ : ℝ) ^ 2 := by
    exact_mod_cast E.W.c_relation
  obtain ⟨x, hx⟩ : ∃ x : ℝ, x = (P.X / P.Z : ℝ) := ⟨_, rfl⟩
  have hxz : (P.X : ℝ) = x * P.Z := by rw [hx]; field_simp
  rw [← hx]
  -- the point satisfies the equation
  have hpos : 0 ≤ 4 * x ^ 3 + (E.W.b₂ : ℝ) * x ^ 2 + 2 * (E.W.b₄ : ℝ) * x + (E.W.b₆ : ℝ) := by
    have hon' : (P.Y ^ 2 * P.Z + E.a1 * P.X * P.Y * P.Z + E.a3 * P.Y * P.Z ^ 2 : ℝ) =
        (P.X ^ 3 + E.a2 * P.X ^ 2 * P.Z + E.a4 * P.X * P.Z ^ 2 + E.a6 * P.Z ^ 3 : ℝ) := by
      exact_mod_cast hon
    rw [hxz] at hon'
    obtain ⟨y, hy⟩ : ∃ y : ℝ, (P.Y : ℝ) = y * P.Z := ⟨P.Y / P.Z, by field_simp⟩
    rw [hy] at hon'
    have hxy : y ^ 2 + E.a1 * x * y + E.a3 * y = x ^ 3 + E.a2 * x ^ 2 + E.a4 * x + E.a6 := by
      have h3 : (P.Z : ℝ) ^ 3 ≠ 0 := by positivity
      apply mul_left_cancel₀ h3
      linear_combination hon'
    have e : 4 * x ^ 3 + (E.W.b₂ : ℝ) * x ^ 2 + 2 * (E.W.b₄ : ℝ) * x + (E.W.b₆ : ℝ) =
      (2 * y + E.a1 * x + E.a3) ^ 2 := by
      rw [hb2, hb4, hb6]; push_cast
      linear_combination -4 * hxy
    rw [e]; positivity
  have g := fun t => cubic_z (E.W.b₂ : ℝ) E.W.b₄ E.W.b₆ t E.W.c₄ E.W.c₆ hc4 hc6
  have hz0 : 0 ≤ (12 * x + E.W.b₂ : ℝ) ^ 3 - 3 * E.W.c₄ * (12 * x + E.W.b₂) - 2 * E.W.c₆ := by
    rw [← g]; linarith
  have hall : (∀ t : ℝ, x ≤ t → 0 ≤ 4 * t ^ 3 + (E.W.b₂ : ℝ) * t ^ 2 + 2 * (E.W.b₄ : ℝ) * t + (E.W.b₆ : ℝ)) ↔
      ∀ w : ℝ, 12 * x + E.W.b₂ ≤ w → 0 ≤ w ^ 3 - 3 * E.W.c₄ * w - 2 * E.W.c₆ := by
    constructor
    · intro h w hw
      have h1 := h ((w - E.W.b₂) / 12) (by linarith)
      have h2 := g ((w - E.W.b₂) / 12)
      have h3 : 12 * ((w - E.W.b₂) / 12) + E.W.b₂ = w := by ring
      rw [h3] at h2
      linarith
    · intro h t ht
      have h1 := h (12 * t + E.W.b₂) (by linarith)
      have h2 := g t
      linarith
  rw [hall]
  unfold onRealIdentity
  rw [if_neg (by omega), ec, e2, e4]
  by_cases hD : 0 < E.W.Δ
  · have hDr : (0 : ℝ) < E.W.Δ := by exact_mod_cast hD
    rw [if_pos hD, if_neg (by norm_num), ← cubic_pos (by linarith) hz0]
    have f1 : ((6 * P.X * P.X + E.W.b₂ * P.X * P.Z + E.W.b₄ * P.Z * P.Z : ℤ) : ℝ) =
        (P.Z : ℝ) ^ 2 / 24 * ((12 * x + E.W.b₂) ^ 2 - E.W.c₄) := by
      push_cast; rw [hxz, hc4]; ring
    have f2 : ((12 * P.X + E.W.b₂ * P.Z : ℤ) : ℝ) = P.Z * (12 * x + E.W.b₂) := by
      push_cast; rw [hxz]; ring
    have k1 : (6 * P.X * P.X + E.W.b₂ * P.X * P.Z + E.W.b₄ * P.Z * P.Z).sign < 0 ↔
        ¬ 0 ≤ (12 * x + E.W.b₂ : ℝ) ^ 2 - E.W.c₄ := by
      rw [Int.sign_neg_iff, not_le, ← Int.cast_lt (R := ℝ), f1, Int.cast_zero]
      constructor
      · intro h; by_contra hn; push Not at hn
        have := mul_nonneg (by positivity : 0 ≤ (P.Z : ℝ) ^ 2 / 24) hn
        linarith
      · intro h
        exact mul_neg_of_pos_of_neg (by positivity) h
    have k2 : (12 * P.X + E.W.b₂ * P.Z).sign < 0 ↔ ¬ 0 ≤ (12 * x + E.W.b₂ : ℝ) := by
      rw [Int.sign_neg_iff, not_le, ← Int.cast_lt (R := ℝ), f2, Int.cast_zero]
      constructor
      · intro h; by_contra hn; push Not at hn
        have := mul_nonneg hZr.le hn
        linarith
      · intro h
        exact mul_neg_of_pos_of_neg hZr h
    simp only [k1, k2]
    by_cases h1 : 0 ≤ (12 * x + E.W.b₂ : ℝ) ^ 2 - E.W.c₄ <;>
      by_cases h2 : 0 ≤ (12 * x + E.W.b₂ : ℝ) <;> simp [h1, h2]
  · have hDr : (E.W.Δ : ℝ) < 0 := by
      have : E.W.Δ < 0 := lt_of_le_of_ne (not_lt.1 hD) hE
      exact_mod_cast this
    rw [if_neg hD, if_pos rfl]
    simp only [true_iff]
    intro w hw
    exact cubic_neg (by linarith) hz0 hw

/-- C36: the origin is on the identity component -/
theorem C36_origin (E : Cd) (P : P2) (hZ : P.Z = 0) : onRealIdentity E P = true := by
  unfold onRealIdentity; rw [if_pos hZ]

/-- 37a1 has two real components; `(0,0)` is on the bounded one, `(1,0)` on the other -/
example : onRealIdentity (Cd.ofAi ⟨0, 0, 1, -1, 0⟩) ⟨0, 0, 1⟩ = false ∧
    onRealIdentity (Cd.ofAi ⟨0, 0, 1, -1, 0⟩) ⟨1, 0, 1⟩ = true := by decide +kernel

/-! ## C39 -/

/-- the denominators of a rational point: a square and a cube -/
theorem denominators {E : Cv} {n D m e : ℤ} (hD : 0 < D) (he : 0 < e) (hn : IsCoprime n D)
    (hm : IsCoprime m e)
    (h : m ^ 2 * D ^ 3 + E.a1 * n * m * e * D ^ 2 + E.a3 * m * e * D ^ 3 =
      e ^ 2 * (n ^ 3 + E.a2 * n ^ 2 * D + E.a4 * n * D ^ 2 + E.a6 * D ^ 3)) :
    ∃ f, 0 < f ∧ D = f ^ 2 ∧ e = f ^ 3 := by
  obtain ⟨N, hN⟩ : ∃ N, N = n ^ 3 + E.a2 * n ^ 2 * D + E.a4 * n * D ^ 2 + E.a6 * D ^ 3 := ⟨_, rfl⟩
  rw [← hN] at h
  have hcop : IsCoprime N D := by
    have e : N = n ^ 3 + D * (E.a2 * n ^ 2 + E.a4 * n * D + E.a6 * D ^ 2) := by rw [hN]; ring
    rw [e]
    exact IsCoprime.add_mul_left_left (hn.pow_left) _
  have h1 : D ∣ e := by
    have : D ^ 2 ∣ e ^ 2 := by
      apply (hcop.symm.pow_left (m := 2)).dvd_of_dvd_mul_right
      exact ⟨m ^ 2 * D + E.a1 * n * m * e + E.a3 * m * e * D, by rw [← h]; ring⟩
    exact (Int.pow_dvd_pow_iff (by norm_num)).1 this
  obtain ⟨f, rfl⟩ := h1
  have hf : 0 < f := pos_of_mul_pos_right he hD.le
  have h2 : D * (m ^ 2 + E.a1 * n * m * f + E.a3 * m * f * D) = f ^ 2 * N := by
    apply mul_left_cancel₀ (pow_ne_zero 2 hD.ne')
    linear_combination h
  have hmf : IsCoprime m f := hm.of_mul_right_right
  have hDf : D ∣ f ^ 2 := hcop.symm.dvd_of_dvd_mul_right ⟨_, h2.symm⟩
  have hfD : f ^ 2 ∣ D := by
    have hc : IsCoprime (f ^ 2) (m ^ 2 + E.a1 * n * m * f + E.a3 * m * f * D) := by
      apply IsCoprime.pow_left
      have e : m ^ 2 + E.a1 * n * m * f + E.a3 * m * f * D =
        m ^ 2 + f * (E.a1 * n * m + E.a3 * m * D) := by ring
      rw [e]
      exact IsCoprime.add_mul_left_right (hmf.symm.pow_right) _
    exact hc.dvd_of_dvd_mul_right ⟨N, h2⟩
  have hDD : D = f ^ 2 := Int.dvd_antisymm hD.le (by positivity) hDf hfD
  exact ⟨f, hf, hDD, by rw [hDD]; ring⟩

/-- what the code computes when both numbers are squares -/
theorem pointsFromX_found {E : Cv} (hE : E.W.Δ ≠ 0) {n f t : ℤ} (hf : 0 < f) (ht : 0 ≤ t)
    (hs : 4 * n ^ 3 + E.W.b₂ * n ^ 2 * f ^ 2 + 2 * E.W.b₄ * n * f ^ 4 + E.W.b₆ * f ^ 6 = t ^ 2) :
    ∃ y, t = 2 * y + E.a1 * n * f + E.a3 * f ^ 3 ∧
      pointsFromX (Cd.ofAi E) n (f ^ 2) =
        if t ≠ 0 then [mk' (n * f) y (f ^ 3), neg E (mk' (n * f) y (f ^ 3))]
        else [mk' (n * f) y (f ^ 3)] := by
  obtain ⟨hc, hstd⟩ := Cd.ofAi_std hE
  have e2 : (Cd.ofAi E).b2 = E.W.b₂ := by rw [hstd.b2, hc]
  have e4 : (Cd.ofAi E).b4 = E.W.b₄ := by rw [hstd.b4, hc]
  have e6 : (Cd.ofAi E).b6 = E.W.b₆ := by rw [hstd.b6, hc]
  have hb2 : E.W.b₂ = E.a1 ^ 2 + 4 * E.a2 := by simp only [Cv.W, b₂]
  have hb4 : E.W.b₄ = 2 * E.a4 + E.a1 * E.a3 := by simp only [Cv.W, b₄]
  have hb6 : E.W.b₆ = E.a3 ^ 2 + 4 * E.a6 := by simp only [Cv.W, b₆]
  have i1 : isqrt (f ^ 2) = (true, f.natAbs) := by
    have := Marith.Props.C12_isqrt_root f.natAbs
    rwa [Int.natCast_natAbs, abs_of_pos hf] at this
  have hfa : (f.natAbs : ℤ) = f := by omega
  have i2 : isqrt (t ^ 2) = (true, t.natAbs) := by
    have := Marith.Props.C12_isqrt_root t.natAbs
    rwa [Int.natCast_natAbs, abs_of_nonneg ht] at this
  have hta : (t.natAbs : ℤ) = t := by omega
  -- parity
  obtain ⟨y, hy⟩ : ∃ y, t - (E.a1 * n * f + E.a3 * f ^ 3) = 2 * y := by
    have hev : ∃ k, t ^ 2 - (E.a1 * n * f + E.a3 * f ^ 3) ^ 2 = 2 * k :=
      ⟨2 * n ^ 3 + 2 * E.a2 * n ^ 2 * f ^ 2 + 2 * E.a4 * n * f ^ 4 + 2 * E.a6 * f ^ 6, by
        rw [← hs, hb2, hb4, hb6]; ring⟩
    obtain ⟨k, hk⟩ := hev
    generalize E.a1 * n * f + E.a3 * f ^ 3 = w at *
    rcases Int.even_or_odd' (t - w) with ⟨l, hl | hl⟩
    · exact ⟨l, hl⟩
    · exfalso
      have htw : t = w + 2 * l + 1 := by linarith
      rw [htw] at hk
      have : 2 * (k - (2 * l ^ 2 + 2 * l + w * (2 * l + 1))) = 1 := by linear_combination -hk
      omega
  refine ⟨y, by linarith, ?_⟩
  unfold pointsFromX
  simp only [i1, if_true, hfa]
  have es : ((4 * n + (Cd.ofAi E).b2 * f ^ 2) * n + 2 * (Cd.ofAi E).b4 * (f ^ 2 * f ^ 2)) * n +
      (Cd.ofAi E).b6 * (f ^ 2 * f ^ 2) * f ^ 2 = t ^ 2 := by
    rw [← hs, e2, e4, e6]; ring
  rw [es]
  simp only [i2, if_true, hta, hc]
  have ey : (t - (E.a1 * n + E.a3 * f ^ 2) * f).fdiv 2 = y := fdiv_eq two_ne_zero (by rw [← hy]; ring)
  have e3 : f ^ 2 * f = f ^ 3 := by ring
  rw [ey, e3]

/-- C39: every point returned by `points_from_x` is a valid reduced point with the given
`x`-coordinate, and the points are pairwise different. -/
theorem C39_sound (E : Cv) (hE : E.W.Δ ≠ 0) (n D : ℤ) (hD : 0 < D) :
    (∀ P ∈ pointsFromX (Cd.ofAi E) n D, isvalid E P = true ∧ Reduced P ∧ P.Z ≠ 0 ∧
      (P.X / P.Z : ℚ) = n / D) ∧
    (pointsFromX (Cd.ofAi E) n D).Pairwise fun P Q => P2.eq P Q = false := by
  obtain ⟨hc, hstd⟩ := Cd.ofAi_std hE
  have e2 : (Cd.ofAi E).b2 = E.W.b₂ := by rw [hstd.b2, hc]
  have e4 : (Cd.ofAi E).b4 = E.W.b₄ := by rw [hstd.b4, hc]
  have e6 : (Cd.ofAi E).b6 = E.W.b₆ := by rw [hstd.b6, hc]
  have hb2 : E.W.b₂ = E.a1 ^ 2 + 4 * E.a2 := by simp only [Cv.W, b₂]
  have hb4 : E.W.b₄ = 2 * E.a4 + E.a1 * E.a3 := by simp only [Cv.W, b₄]
  have hb6 : E.W.b₆ = E.a3 ^ 2 + 4 * E.a6 := by simp only [Cv.W, b₆]
  by_cases h1 : (isqrt D).1 = true
  · obtain ⟨f', hf'⟩ := (Marith.Props.C12_isqrt D).1 h1
    obtain ⟨f, hf, rfl⟩ : ∃ f, 0 < f ∧ D = f ^ 2 := by
      refine ⟨|f'|, abs_pos.2 ?_, by rw [hf', sq_abs]⟩
      rintro rfl; rw [hf'] at hD; norm_num at hD
    by_cases h2 : (isqrt (4 * n ^ 3 + E.W.b₂ * n ^ 2 * f ^ 2 + 2 * E.W.b₄ * n * f ^ 4
        + E.W.b₆ * f ^ 6)).1 = true
    · obtain ⟨t', ht'⟩ := (Marith.Props.C12_isqrt _).1 h2
      have ht2 : 4 * n ^ 3 + E.W.b₂ * n ^ 2 * f ^ 2 + 2 * E.W.b₄ * n * f ^ 4 + E.W.b₆ * f ^ 6 = |t'| ^ 2 := by
        rw [ht', sq_abs]
      obtain ⟨y, hy, hl⟩ := pointsFromX_found hE hf (abs_nonneg t') ht2
      rw [hl]
      generalize |t'| = t at *
      have hon : OnE E ⟨n * f, y, f ^ 3⟩ := by
        unfold OnE
        dsimp only
        have h4 : (4 : ℤ) ≠ 0 := by norm_num
        apply mul_left_cancel₀ h4
        rw [hy, hb2, hb4, hb6] at ht2
        linear_combination -f ^ 3 * ht2
      have hnz : NZ ⟨n * f, y, f ^ 3⟩ := Or.inr (Or.inr (pow_ne_zero 3 hf.ne'))
      obtain ⟨A, hA⟩ := rep_exists hE ((isvalid_iff _ _).2 ⟨hnz, hon⟩)
      have hA' := hA.reduce
      have hr := reduced_reduce hnz
      obtain ⟨k, hk, k1, -, k3, -⟩ := reduce_spec _ hnz
      dsimp only at k1 k3
      have hz : (reduce ⟨n * f, y, f ^ 3⟩).Z ≠ 0 := by
        intro h; rw [h, mul_zero] at k3; exact pow_ne_zero 3 hf.ne' k3
      have hx : ((reduce ⟨n * f, y, f ^ 3⟩).X / (reduce ⟨n * f, y, f ^ 3⟩).Z : ℚ) = n / (f ^ 2 : ℤ) := by
        have k1 : (n * f : ℚ) = k * (reduce ⟨n * f, y, f ^ 3⟩).X := by exact_mod_cast k1
        have k3 : (f ^ 3 : ℚ) = k * (reduce ⟨n * f, y, f ^ 3⟩).Z := by exact_mod_cast k3
        have hz' : ((reduce ⟨n * f, y, f ^ 3⟩).Z : ℚ) ≠ 0 := by exact_mod_cast hz
        have hk' : (k : ℚ) ≠ 0 := by exact_mod_cast hk
        have hf' : (f : ℚ) ≠ 0 := by exact_mod_cast hf.ne'
        push_cast
        rw [div_eq_div_iff hz' (pow_ne_zero 2 hf')]
        apply mul_left_cancel₀ (mul_ne_zero hk' hf')
        linear_combination f ^ 3 * (-k1) + n * f * k3
      have ok1 : isvalid E (mk' (n * f) y (f ^ 3)) = true ∧ Reduced (mk' (n * f) y (f ^ 3)) ∧
          (mk' (n * f) y (f ^ 3)).Z ≠ 0 ∧
          ((mk' (n * f) y (f ^ 3)).X / (mk' (n * f) y (f ^ 3)).Z : ℚ) = n / (f ^ 2 : ℤ) :=
        ⟨hA'.valid, hr, hz, hx⟩
      have ok2 : isvalid E (neg E (mk' (n * f) y (f ^ 3))) = true ∧
          Reduced (neg E (mk' (n * f) y (f ^ 3))) ∧
          (neg E (mk' (n * f) y (f ^ 3))).Z ≠ 0 ∧
          ((neg E (mk' (n * f) y (f ^ 3))).X / (neg E (mk' (n * f) y (f ^ 3))).Z : ℚ)
            = n / (f ^ 2 : ℤ) := ⟨hA'.neg.valid, reduced_neg hr, hz, hx⟩
      by_cases ht : t ≠ 0
      · rw [if_pos ht]
        constructor
        · intro P hP
          simp only [List.mem_cons, List.not_mem_nil, or_false] at hP
          rcases hP with rfl | rfl
          · exact ok1
          · exact ok2
        · simp only [List.pairwise_cons, List.mem_cons, List.not_mem_nil, or_false, forall_eq,
            false_imp_iff, implies_true, List.Pairwise.nil, and_true]
          rw [← Bool.not_eq_true]
          intro he
          have hAA : A = -A := (hA'.eq hA'.neg).1 he
          have hse := (hA.same hA.neg).2 hAA
          rw [← cross_iff hA.nz hA.neg.nz] at hse
          obtain ⟨-, hse, -⟩ := hse
          simp only [P2.neg] at hse
          apply ht
          have : f ^ 3 * t = 0 := by rw [hy]; linear_combination hse
          exact (mul_eq_zero.1 this).resolve_left (pow_ne_zero 3 hf.ne')
      · rw [if_neg ht]
        constructor
        · intro P hP
          simp only [List.mem_cons, List.not_mem_nil, or_false] at hP
          rw [hP]; exact ok1
        · simp
    · have : pointsFromX (Cd.ofAi E) n (f ^ 2) = [] := by
        unfold pointsFromX
        have i1 : isqrt (f ^ 2) = (true, f.natAbs) := by
          have := Marith.Props.C12_isqrt_root f.natAbs
          rwa [Int.natCast_natAbs, abs_of_pos hf] at this
        have es : ((4 * n + (Cd.ofAi E).b2 * f ^ 2) * n + 2 * (Cd.ofAi E).b4 * (f ^ 2 * f ^ 2)) * n +
            (Cd.ofAi E).b6 * (f ^ 2 * f ^ 2) * f ^ 2 = 4 * n ^ 3 + E.W.b₂ * n ^ 2 * f ^ 2
              + 2 * E.W.b₄ * n * f ^ 4 + E.W.b₆ * f ^ 6 := by
          rw [e2, e4, e6]; ring
        simp only [i1, if_true, es]
        rw [if_neg h2]
      rw [this]
      simp
  · have : pointsFromX (Cd.ofAi E) n D = [] := by
      unfold pointsFromX
      simp only
      rw [if_neg h1]
    rw [this]
    simp

/-- C39: every rational point with the given `x`-coordinate (in lowest terms) is found. -/
theorem C39_complete (E : Cv) (hE : E.W.Δ ≠ 0) (x y : ℚ) (h : E.Q.toAffine.Nonsingular x y) :
    ∃ P ∈ pointsFromX (Cd.ofAi E) x.num x.den, Rep E P (.some x y h) := by
  have he := eqn h
  have hx := Rat.mul_den_eq_num x
  have hy := Rat.mul_den_eq_num y
  have dx : (0 : ℤ) < x.den := by exact_mod_cast x.den_pos
  have dy : (0 : ℤ) < y.den := by exact_mod_cast y.den_pos
  have cx : IsCoprime x.num (x.den : ℤ) := by
    rw [Int.isCoprime_iff_nat_coprime]; exact x.reduced
  have cy : IsCoprime y.num (y.den : ℤ) := by
    rw [Int.isCoprime_iff_nat_coprime]; exact y.reduced
  have hb2 : E.W.b₂ = E.a1 ^ 2 + 4 * E.a2 := by simp only [Cv.W, b₂]
  have hb4 : E.W.b₄ = 2 * E.a4 + E.a1 * E.a3 := by simp only [Cv.W, b₄]
  have hb6 : E.W.b₆ = E.a3 ^ 2 + 4 * E.a6 := by simp only [Cv.W, b₆]
  obtain ⟨f, hf, hD, hE3⟩ := denominators (E := E) dx dy cx cy (by
    have : ((y.num : ℚ) ^ 2 * (x.den : ℚ) ^ 3 + E.a1 * x.num * y.num * y.den * (x.den : ℚ) ^ 2
        + E.a3 * y.num * y.den * (x.den : ℚ) ^ 3) =
      (y.den : ℚ) ^ 2 * (x.num ^ 3 + E.a2 * x.num ^ 2 * x.den + E.a4 * x.num * x.den ^ 2
        + E.a6 * x.den ^ 3) := by
      rw [← hx, ← hy]
      linear_combination (x.den : ℚ) ^ 3 * (y.den : ℚ) ^ 2 * he
    exact_mod_cast this)
  generalize hn : x.num = n at *
  generalize hm : y.num = m at *
  have hxd : (x.den : ℚ) = f ^ 2 := by exact_mod_cast hD
  have hyd : (y.den : ℚ) = f ^ 3 := by exact_mod_cast hE3
  rw [hxd] at hx
  rw [hyd] at hy
  have hf' : (f : ℚ) ≠ 0 := by exact_mod_cast hf.ne'
  rw [hD]
  -- 2m + a1 n f + a3 f³ up to sign
  have hs : 4 * n ^ 3 + E.W.b₂ * n ^ 2 * f ^ 2 + 2 * E.W.b₄ * n * f ^ 4 + E.W.b₆ * f ^ 6 =
      |2 * m + E.a1 * n * f + E.a3 * f ^ 3| ^ 2 := by
    rw [sq_abs, hb2, hb4, hb6]
    have : ((4 * n ^ 3 + (E.a1 ^ 2 + 4 * E.a2) * n ^ 2 * f ^ 2 + 2 * (2 * E.a4 + E.a1 * E.a3) * n * f ^ 4
        + (E.a3 ^ 2 + 4 * E.a6) * f ^ 6 : ℤ) : ℚ) = ((2 * m + E.a1 * n * f + E.a3 * f ^ 3) ^ 2 : ℤ) := by
      push_cast
      rw [← hx, ← hy]
      linear_combination (-4 * (f : ℚ) ^ 6) * he
    exact_mod_cast this
  obtain ⟨y', hy', hl⟩ := pointsFromX_found hE hf (abs_nonneg _) hs
  rw [hl]
  -- the two candidate representatives
  have r0 : Rep E ⟨n * f, m, f ^ 3⟩ (.some x y h) := by
    refine ⟨pow_ne_zero 3 hf.ne', ?_, ?_⟩
    · push_cast; rw [← hx]; ring
    · push_cast; rw [← hy]
  rcases le_or_gt 0 (2 * m + E.a1 * n * f + E.a3 * f ^ 3) with hsg | hsg
  · rw [abs_of_nonneg hsg] at hy'
    have : y' = m := by linarith
    subst this
    refine ⟨mk' (n * f) y' (f ^ 3), ?_, r0.reduce⟩
    split_ifs <;> simp
  · rw [abs_of_neg hsg] at hy'
    have : y' = -m - E.a3 * f ^ 3 - E.a1 * (n * f) := by linarith
    have hne : |2 * m + E.a1 * n * f + E.a3 * f ^ 3| ≠ 0 := abs_ne_zero.2 hsg.ne
    rw [if_pos hne]
    refine ⟨neg E (mk' (n * f) y' (f ^ 3)), by simp, ?_⟩
    have r1 : Rep E ⟨n * f, y', f ^ 3⟩ (-(.some x y h)) := by
      have := r0.neg
      simp only [P2.neg] at this
      rw [‹y' = _›]
      exact this
    have := r1.reduce.neg
    rw [neg_neg] at this
    exact this

/-- 37a1, `x = 1/4`: the points `(1/4, -3/8)` and `(1/4, -5/8)` -/
example : pointsFromX (Cd.ofAi ⟨0, 0, 1, -1, 0⟩) 1 4 = [⟨2, -3, 8⟩, ⟨2, -5, 8⟩] := by decide +kernel

end Props

end Eclib.Curve
