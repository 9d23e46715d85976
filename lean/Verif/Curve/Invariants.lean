import Mathlib.Tactic.Ring
import Mathlib.Tactic.LinearCombination
import Mathlib.Tactic.IntervalCases
import Mathlib.Algebra.Ring.Parity
import Mathlib.AlgebraicGeometry.EllipticCurve.VariableChange
import Mathlib.AlgebraicGeometry.EllipticCurve.Affine.Basic
import Verif.Marith.Props
import Verif.Curve.Model

/-!
# C26-C29: invariants, changes of coordinates, Kraus's criterion

The specification is Mathlib's `WeierstrassCurve`.
-/

namespace Eclib.Curve

open Marith (mod div val isqrt)

/-- the Weierstrass curve over `ℤ` with the given coefficients -/
def Cv.W (E : Cv) : WeierstrassCurve ℤ := ⟨E.a1, E.a2, E.a3, E.a4, E.a6⟩

theorem fdiv_eq {a b c : ℤ} (hb : b ≠ 0) (h : a = b * c) : a.fdiv b = c := by
  rw [h]; exact Int.mul_fdiv_cancel_left c hb

theorem div_iff' {p : ℤ} (hp : p ≠ 0) (x : ℤ) : div p x = true ↔ p ∣ x := by
  unfold Marith.div
  rw [if_neg hp, decide_eq_true_iff]
  constructor
  · intro h; exact Int.dvd_of_fmod_eq_zero h
  · rintro ⟨k, rfl⟩; exact Int.mul_fmod_right p k

/-- the symmetric residue in terms of `%` -/
theorem mod_eq {a n r : ℤ} (hn : 0 < n) (h : n ∣ a - r) (h1 : -n < 2 * r) (h2 : 2 * r ≤ n) :
    mod a n = r := by
  obtain ⟨d, l1, l2⟩ := Marith.Props.C04_mod_big a n hn.ne'
  rw [abs_of_pos hn] at l1 l2
  obtain ⟨k, hk⟩ := h
  obtain ⟨j, hj⟩ := d
  have hkj : n * (k + j) = mod a n - r := by linear_combination (-1 : ℤ) * hk - hj
  have : k + j = 0 := by
    by_contra hne
    rcases lt_or_gt_of_ne hne with h | h
    · have : n * (k + j) ≤ n * (-1) := mul_le_mul_of_nonneg_left (by omega) hn.le
      omega
    · have : n * 1 ≤ n * (k + j) := mul_le_mul_of_nonneg_left (by omega) hn.le
      omega
  rw [this] at hkj
  omega

theorem mod_eq_iff {a n r : ℤ} (hn : 0 < n) (h1 : -n < 2 * r) (h2 : 2 * r ≤ n) :
    mod a n = r ↔ n ∣ a - r := by
  constructor
  · intro h
    have := (Marith.Props.C04_mod_big a n hn.ne').1
    rw [h] at this
    rw [dvd_sub_comm]; exact this
  · intro h; exact mod_eq hn h h1 h2

theorem b8_spec (E : Cv) : ((E.a1 * E.a1 + 4 * E.a2) * (E.a3 * E.a3 + 4 * E.a6)
    - (2 * E.a4 + E.a1 * E.a3) * (2 * E.a4 + E.a1 * E.a3)).fdiv 4 = E.W.b₈ := by
  apply fdiv_eq (by norm_num)
  rw [WeierstrassCurve.b_relation]
  simp only [WeierstrassCurve.b₂, WeierstrassCurve.b₄, WeierstrassCurve.b₆, Cv.W]; ring

theorem c4_spec (E : Cv) : (E.a1 * E.a1 + 4 * E.a2) * (E.a1 * E.a1 + 4 * E.a2)
    - 24 * (2 * E.a4 + E.a1 * E.a3) = E.W.c₄ := by
  simp only [WeierstrassCurve.b₂, WeierstrassCurve.b₄, WeierstrassCurve.c₄, Cv.W]; ring

theorem c6_spec (E : Cv) : -(E.a1 * E.a1 + 4 * E.a2) * (E.a1 * E.a1 + 4 * E.a2)
    * (E.a1 * E.a1 + 4 * E.a2) + 36 * (E.a1 * E.a1 + 4 * E.a2) * (2 * E.a4 + E.a1 * E.a3)
    - 216 * (E.a3 * E.a3 + 4 * E.a6) = E.W.c₆ := by
  simp only [WeierstrassCurve.b₂, WeierstrassCurve.b₄, WeierstrassCurve.b₆, WeierstrassCurve.c₆,
    Cv.W]; ring

theorem disc_spec (E : Cv) : (E.W.c₄ * E.W.c₄ * E.W.c₄ - E.W.c₆ * E.W.c₆).fdiv 1728 = E.W.Δ := by
  apply fdiv_eq (by norm_num)
  rw [WeierstrassCurve.c_relation]; ring

/-- the fields of a `Curvedata` object built from a non-singular equation are the standard ones -/
structure Cd.Std (d : Cd) : Prop where
  b2 : d.b2 = d.toCv.W.b₂
  b4 : d.b4 = d.toCv.W.b₄
  b6 : d.b6 = d.toCv.W.b₆
  b8 : d.b8 = d.toCv.W.b₈
  c4 : d.c4 = d.toCv.W.c₄
  c6 : d.c6 = d.toCv.W.c₆
  discr : d.discr = d.toCv.W.Δ
  disc_ne : d.toCv.W.Δ ≠ 0
  conncomp : d.conncomp = if 0 < d.toCv.W.Δ then 2 else 1

theorem Cd.ofAi_eq (E : Cv) : Cd.ofAi E = if E.W.Δ = 0 then Cd.null else
    ⟨E, E.W.b₂, E.W.b₄, E.W.b₆, E.W.b₈, E.W.c₄, E.W.c₆, E.W.Δ, if 0 < E.W.Δ then 2 else 1⟩ := by
  have h2 : E.a1 * E.a1 + 4 * E.a2 = E.W.b₂ := by
    simp only [WeierstrassCurve.b₂, Cv.W]; ring
  have h4 : 2 * E.a4 + E.a1 * E.a3 = E.W.b₄ := by
    simp only [WeierstrassCurve.b₄, Cv.W]
  have h6 : E.a3 * E.a3 + 4 * E.a6 = E.W.b₆ := by
    simp only [WeierstrassCurve.b₆, Cv.W]; ring
  unfold Cd.ofAi
  have h8 := b8_spec E
  have hc4 := c4_spec E
  have hc6 := c6_spec E
  have hd := disc_spec E
  simp only [h2, h4, h6] at h8 hc4 hc6
  simp only [h2, h4, h6, h8, hc4, hc6, hd, Int.sign_eq_zero_iff_zero, gt_iff_lt]
  simp only [show (0 < E.W.Δ.sign) = (0 < E.W.Δ) from propext Int.sign_pos_iff]

theorem Cd.ofAi_std {E : Cv} (h : E.W.Δ ≠ 0) : (Cd.ofAi E).toCv = E ∧ (Cd.ofAi E).Std := by
  rw [Cd.ofAi_eq, if_neg h]
  exact ⟨rfl, rfl, rfl, rfl, rfl, rfl, rfl, rfl, h, rfl⟩

theorem Cd.ofAi_of_std {d : Cd} (h : d.Std) : Cd.ofAi d.toCv = d := by
  rw [Cd.ofAi_eq, if_neg h.disc_ne]
  obtain ⟨h1, h2, h3, h4, h5, h6, h7, h8, h9⟩ := h
  obtain ⟨E, b2, b4, b6, b8, c4, c6, D, cc⟩ := d
  dsimp only at *
  rw [h1, h2, h3, h4, h5, h6, h7, h9]

namespace Props

open WeierstrassCurve

/-- C26: the constructors store the standard invariants of a non-singular equation; for a singular
one they build the null curve. -/
theorem C26_constructor (E : Cv) :
    (E.W.Δ ≠ 0 → (Cd.ofAi E).toCv = E ∧ (Cd.ofAi E).b2 = E.W.b₂ ∧ (Cd.ofAi E).b4 = E.W.b₄ ∧
      (Cd.ofAi E).b6 = E.W.b₆ ∧ (Cd.ofAi E).b8 = E.W.b₈ ∧ (Cd.ofAi E).c4 = E.W.c₄ ∧
      (Cd.ofAi E).c6 = E.W.c₆ ∧ (Cd.ofAi E).discr = E.W.Δ ∧
      (Cd.ofAi E).conncomp = if 0 < E.W.Δ then 2 else 1) ∧
    (E.W.Δ = 0 → Cd.ofAi E = Cd.null) := by
  rw [Cd.ofAi_eq]
  constructor
  · intro h; rw [if_neg h]; exact ⟨rfl, rfl, rfl, rfl, rfl, rfl, rfl, rfl, rfl⟩
  · intro h; rw [if_pos h]

/-- C26: the identities between the stored numbers (also for the null curve) -/
theorem C26_identities (E : Cv) :
    4 * (Cd.ofAi E).b8 = (Cd.ofAi E).b2 * (Cd.ofAi E).b6 - (Cd.ofAi E).b4 ^ 2 ∧
    1728 * (Cd.ofAi E).discr = (Cd.ofAi E).c4 ^ 3 - (Cd.ofAi E).c6 ^ 2 := by
  rw [Cd.ofAi_eq]
  by_cases h : E.W.Δ = 0
  · rw [if_pos h]; simp [Cd.null]
  · rw [if_neg h]; exact ⟨E.W.b_relation, E.W.c_relation⟩

/-- C26: a curve is the null curve exactly when the equation is singular -/
theorem C26_isnull (E : Cv) : (Cd.ofAi E).isnull = true ↔ E.W.Δ = 0 := by
  rw [Cd.ofAi_eq]
  by_cases h : E.W.Δ = 0
  · rw [if_pos h]; simp [h, Cd.null, Cv.isnull]
  · rw [if_neg h]
    simp only [h, iff_false]
    intro hn
    apply h
    simp only [Cv.isnull, Bool.and_eq_true, decide_eq_true_iff] at hn
    obtain ⟨⟨⟨⟨h1, h2⟩, h3⟩, h4⟩, h6⟩ := hn
    simp [Cv.W, WeierstrassCurve.Δ, WeierstrassCurve.b₂, WeierstrassCurve.b₄, WeierstrassCurve.b₆,
      h1, h2, h3, h4, h6]

/-- 11a1 -/
example : Cd.ofAi ⟨0, -1, 1, -10, -20⟩ =
    ⟨⟨0, -1, 1, -10, -20⟩, -4, -20, -79, -21, 496, 20008, -161051, 1⟩ := by decide +kernel

/-- C27: `transform(r,s,t)` is the change of variables `x = x' + r`, `y = y' + s x' + t`, and all
the stored invariants of the result are those of its equation. -/
theorem C27_transform (E : Cv) (r s t : ℤ) (h : E.W.Δ ≠ 0) :
    ∃ E' : Cv, (Cd.ofAi E).transform r s t = Cd.ofAi E' ∧
      E'.W = (⟨1, r, s, t⟩ : VariableChange ℤ) • E.W ∧
      E'.W.c₄ = E.W.c₄ ∧ E'.W.c₆ = E.W.c₆ ∧ E'.W.Δ = E.W.Δ := by
  have hW : ((Cd.ofAi E).transform r s t).toCv.W =
      (⟨1, r, s, t⟩ : VariableChange ℤ) • E.W := by
    obtain ⟨h1, _⟩ := Cd.ofAi_std h
    have e1 := congrArg Cv.a1 h1
    have e2 := congrArg Cv.a2 h1
    have e3 := congrArg Cv.a3 h1
    have e4 := congrArg Cv.a4 h1
    have e6 := congrArg Cv.a6 h1
    simp only [Cd.transform, Cv.W, variableChange_def, e1, e2, e3, e4, e6]
    ext <;> simp only [inv_one, Units.val_one, one_pow, one_mul] <;> ring
  have hc4 : ((Cd.ofAi E).transform r s t).toCv.W.c₄ = E.W.c₄ := by
    rw [hW, variableChange_c₄]; simp
  have hc6 : ((Cd.ofAi E).transform r s t).toCv.W.c₆ = E.W.c₆ := by
    rw [hW, variableChange_c₆]; simp
  have hD : ((Cd.ofAi E).transform r s t).toCv.W.Δ = E.W.Δ := by
    rw [hW, variableChange_Δ]; simp
  refine ⟨((Cd.ofAi E).transform r s t).toCv, ?_, hW, hc4, hc6, hD⟩
  obtain ⟨h1, hstd⟩ := Cd.ofAi_std h
  symm
  apply Cd.ofAi_of_std
  refine ⟨?_, ?_, ?_, ?_, ?_, ?_, ?_, ?_, ?_⟩
  · simp only [Cd.transform, Cv.W, b₂]; ring
  · simp only [Cd.transform, Cv.W, b₄]; ring
  · simp only [Cd.transform, Cv.W, b₆]; ring
  · rw [← b8_spec]
    have e : ((Cd.ofAi E).transform r s t).b8 = (((Cd.ofAi E).transform r s t).b2 *
      ((Cd.ofAi E).transform r s t).b6 - ((Cd.ofAi E).transform r s t).b4 *
      ((Cd.ofAi E).transform r s t).b4).fdiv 4 := rfl
    rw [e]
    congr 1
    simp only [Cd.transform]; ring
  · rw [hc4]; change (Cd.ofAi E).c4 = _; rw [hstd.c4, h1]
  · rw [hc6]; change (Cd.ofAi E).c6 = _; rw [hstd.c6, h1]
  · rw [hD]; change (Cd.ofAi E).discr = _; rw [hstd.discr, h1]
  · rw [hD]; exact h
  · rw [hD]; change (Cd.ofAi E).conncomp = _; rw [hstd.conncomp, h1]

/-- C27: points correspond: `(x, y)` is on the new curve exactly when `(x + r, y + s x + t)` is on
the old one (over every commutative ring). -/
theorem C27_points {R : Type*} [CommRing R] (E : Cv) (r s t : ℤ) (h : E.W.Δ ≠ 0) (x y : R) :
    (((Cd.ofAi E).transform r s t).toCv.W.map (Int.castRingHom R)).toAffine.Equation x y ↔
      (E.W.map (Int.castRingHom R)).toAffine.Equation (x + r) (y + s * x + t) := by
  obtain ⟨h1, _⟩ := Cd.ofAi_std h
  have e1 := congrArg Cv.a1 h1
  have e2 := congrArg Cv.a2 h1
  have e3 := congrArg Cv.a3 h1
  have e4 := congrArg Cv.a4 h1
  have e6 := congrArg Cv.a6 h1
  rw [Affine.equation_iff', Affine.equation_iff']
  simp only [Cd.transform, Cv.W, map_a₁, map_a₂, map_a₃, map_a₄, map_a₆, eq_intCast, e1, e2, e3,
    e4, e6]
  push_cast
  constructor
  · intro h; linear_combination h
  · intro h; linear_combination h

/-- C27: the inverse change of variables restores the curve -/
theorem C27_inverse (E : Cv) (r s t : ℤ) (h : E.W.Δ ≠ 0) :
    ((Cd.ofAi E).transform r s t).transform (-r) (-s) (r * s - t) = Cd.ofAi E := by
  obtain ⟨E', h1, h2, -, -, h3⟩ := C27_transform E r s t h
  have hD : E'.W.Δ ≠ 0 := by rw [h3]; exact h
  obtain ⟨E'', k1, k2, -⟩ := C27_transform E' (-r) (-s) (r * s - t) hD
  rw [h1, k1]
  congr 1
  have e : E''.W = E.W := by
    rw [k2, h2]
    simp only [variableChange_def]
    ext <;> simp only [inv_one, Units.val_one, one_pow, one_mul] <;> ring
  obtain ⟨q1, q2, q3, q4, q6⟩ := E''
  obtain ⟨w1, w2, w3, w4, w6⟩ := E
  simp only [Cv.W, WeierstrassCurve.mk.injEq] at e
  obtain ⟨f1, f2, f3, f4, f6⟩ := e
  rw [f1, f2, f3, f4, f6]

example : (Cd.ofAi ⟨0, -1, 1, -10, -20⟩).transform 1 2 3 =
    Cd.ofAi ⟨4, -2, 7, -23, -42⟩ := by decide +kernel

end Props

end Eclib.Curve
