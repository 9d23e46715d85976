import Verif.Rank2.Good
import Verif.Rank2.Els
import Mathlib.NumberTheory.Padics.RingHoms

/-!
# The Selmer groups of the 2-isogeny descent
-/

namespace Eclib.Rank2

set_option linter.unusedSectionVars false

open WeierstrassCurve
open Eclib.Sift (dl dl_add dl_ne dl_neg)
open Eclib.LocSol (HasPoint PointAt HasRealPoint)


/-- the Selmer group: the squarefree divisors `D` of `d` such that `y² = Dx⁴ + cx² + d/D` has points over
the real numbers and over the `p`-adic numbers for every prime `p` -/
structure Sel (c d D : ℤ) : Prop where
  /-- squarefree -/
  sqf : Squarefree D
  /-- a divisor -/
  dvd : D ∣ d
  /-- real points -/
  real : HasRealPoint ⟨D, 0, c, 0, d / D⟩
  /-- `p`-adic points -/
  loc : ∀ (p : ℕ) (hp : p.Prime), @HasPoint p ⟨hp⟩ D 0 c 0 (d / D)

theorem real_iff {c D d2 : ℤ} : HasRealPoint ⟨D, 0, c, 0, d2⟩ ↔ QP (c : ℝ) D d2 := by
  unfold HasRealPoint QP
  simp

theorem loc_iff {p : ℕ} [Fact p.Prime] {c D d2 : ℤ} : HasPoint p D 0 c 0 d2 ↔ QP (c : ℚ_[p]) D d2 := by
  unfold HasPoint QP
  simp

theorem QP_map {K L : Type} [Field K] [Field L] (f : K →+* L) {c D d2 : K} (h : QP c D d2) : QP (f c) (f D) (f d2) := by
  obtain ⟨x, y, z, h0, h⟩ := h
  refine ⟨f x, f y, f z, ?_, ?_⟩
  · rwa [map_eq_zero, map_eq_zero]
  · rw [← map_pow, h]
    simp

theorem mul_cast {L : Type} [Field L] {D d : ℤ} (h : D ∣ d) : (D : L) * ((d / D : ℤ) : L) = (d : L) := by
  rw [← Int.cast_mul, Int.mul_ediv_cancel' h]

/-- `c`, `d` define a curve -/
def Curve (c d : ℤ) : Prop := d ≠ 0 ∧ c ^ 2 - 4 * d ≠ 0

theorem Curve.nd {c d : ℤ} (h : Curve c d) (L : Type) [Field L] [CharZero L] : Nd (c : L) (d : L) := by
  refine ⟨two_ne_zero, by exact_mod_cast h.1, ?_⟩
  have := h.2
  exact_mod_cast this

theorem sel_one (c : ℤ) (d : ℤ) : Sel c d 1 := by
  refine ⟨squarefree_one, one_dvd _, ?_, fun p hp => ?_⟩
  · rw [real_iff]; push_cast; exact QP_one
  · have : Fact p.Prime := ⟨hp⟩
    classical
    rw [loc_iff]; push_cast; exact QP_one

theorem sel_mul {c d D₁ D₂ D₃ : ℤ} (hc : Curve c d) (h₁ : Sel c d D₁) (h₂ : Sel c d D₂) (h₃ : Squarefree D₃)
    (hsq : IsSquare (D₁ * D₂ * D₃)) : Sel c d D₃ := by
  have hdvd : D₃ ∣ d := by
    refine dvd_of_primes h₃ fun p hp hpD => ?_
    obtain ⟨E, rfl⟩ := hpD
    obtain ⟨s, hs⟩ := hsq
    have h1 : p ∣ s := by
      apply hp.dvd_of_dvd_pow (n := 2)
      rw [sq, ← hs]
      exact ⟨D₁ * D₂ * E, by ring⟩
    obtain ⟨s', rfl⟩ := h1
    have hE : ¬ p ∣ E := fun hh => hp.not_isUnit (h₃ p (mul_dvd_mul_left p hh))
    have h2 : p ∣ D₁ * D₂ * E := by
      refine ⟨s' * s', ?_⟩
      apply mul_left_cancel₀ hp.ne_zero
      linear_combination hs
    rcases hp.dvd_or_dvd ((hp.dvd_or_dvd h2).resolve_right hE) with h | h
    · exact h.trans h₁.dvd
    · exact h.trans h₂.dvd
  have hsqL : ∀ (L : Type) [Field L], IsSquare ((D₁ : L) * D₂ * D₃) := by
    intro L _
    obtain ⟨s, hs⟩ := hsq
    exact ⟨s, by exact_mod_cast congrArg (Int.cast : ℤ → L) hs⟩
  refine ⟨h₃, hdvd, ?_, fun p hp => ?_⟩
  · rw [real_iff]
    classical
    exact QP_mul (hc.nd ℝ) (mul_cast h₁.dvd) (mul_cast h₂.dvd) (mul_cast hdvd) (hsqL ℝ) (real_iff.1 h₁.real) (real_iff.1 h₂.real)
  · have : Fact p.Prime := ⟨hp⟩
    rw [loc_iff]
    classical
    exact QP_mul (hc.nd ℚ_[p]) (mul_cast h₁.dvd) (mul_cast h₂.dvd) (mul_cast hdvd) (hsqL _) (loc_iff.1 (h₁.loc p hp))
      (loc_iff.1 (h₂.loc p hp))

/-- the class of a rational point -/
theorem sel_pt {c d D : ℤ} (hc : Curve c d) (hD : Squarefree D) (P : (Cu (c : ℚ) (d : ℚ)).toAffine.Point)
    (h : IsSquare ((D : ℚ) * dl (Cu (c : ℚ) (d : ℚ)) 0 P)) : Sel c d D := by
  have hD0 : (D : ℚ) ≠ 0 := by exact_mod_cast hD.ne_zero
  have q0 : QP (c : ℚ) D (d / D) := (QP_iff (hc.nd ℚ) hD0 (by field_simp)).2 ⟨P, h⟩
  have hdvd : D ∣ d := QP_dvd hD (by field_simp) q0
  have e : ((d / D : ℤ) : ℚ) = d / D := by
    rw [eq_div_iff hD0, mul_comm, mul_cast hdvd]
  rw [← e] at q0
  refine ⟨hD, hdvd, ?_, fun p hp => ?_⟩
  · rw [real_iff]
    have := QP_map (algebraMap ℚ ℝ) q0
    simpa only [map_intCast] using this
  · have : Fact p.Prime := ⟨hp⟩
    rw [loc_iff]
    have := QP_map (algebraMap ℚ ℚ_[p]) q0
    simpa only [map_intCast] using this

/-- primes of bad reduction are enough -/
theorem sel_bad {c d D : ℤ} (hD : Squarefree D) (hdvd : D ∣ d) (hr : HasRealPoint ⟨D, 0, c, 0, d / D⟩)
    (hl : ∀ (p : ℕ) (hp : p.Prime), (p : ℤ) ∣ 2 * d * (c ^ 2 - 4 * d) → @HasPoint p ⟨hp⟩ D 0 c 0 (d / D)) : Sel c d D := by
  refine ⟨hD, hdvd, hr, fun p hp => ?_⟩
  by_cases hg : (p : ℤ) ∣ 2 * d * (c ^ 2 - 4 * d)
  · exact hl p hp hg
  · have : Fact p.Prime := ⟨hp⟩
    exact good_prime (Int.mul_ediv_cancel' hdvd) hg

/-- only positive divisors when `posd1` -/
theorem sel_pos {c d D : ℤ} (hp : posd1 c d = true) (h : Sel c d D) : 0 < D := by
  by_contra hD
  have hD0 : D < 0 := lt_of_le_of_ne (not_lt.1 hD) h.sqf.ne_zero
  obtain ⟨x, y, z, h0, hq⟩ := real_iff.1 h.real
  have hm := mul_cast (L := ℝ) h.dvd
  have hDr : (D : ℝ) < 0 := by exact_mod_cast hD0
  have hfac : (D : ℝ) * y ^ 2 = (D * x ^ 2) ^ 2 + c * z ^ 2 * (D * x ^ 2) + d * z ^ 4 := by
    rw [hq, ← hm]; ring
  have hle : (D : ℝ) * y ^ 2 ≤ 0 := mul_nonpos_of_nonpos_of_nonneg hDr.le (sq_nonneg y)
  unfold posd1 at hp
  split_ifs at hp with h1
  · -- no real root
    have h1r : (c : ℝ) * c - 4 * d < 0 := by exact_mod_cast h1
    have h4 : (2 * (D * x ^ 2) + c * z ^ 2) ^ 2 + (4 * d - c * c) * z ^ 4 ≤ 0 := by nlinarith
    have hz : z = 0 := by
      by_contra hz
      have : 0 < z ^ 4 := by positivity
      nlinarith [sq_nonneg (2 * (D * x ^ 2) + c * z ^ 2), mul_pos (by linarith : (0 : ℝ) < 4 * d - c * c) this]
    have hx : x ≠ 0 := fun hx => h0 ⟨hx, hz⟩
    rw [hz] at h4
    have : 0 < ((D : ℝ) * x ^ 2) ^ 2 := by
      have : (D : ℝ) * x ^ 2 ≠ 0 := mul_ne_zero hDr.ne (pow_ne_zero 2 hx)
      positivity
    nlinarith
  · -- both roots positive
    rw [decide_eq_true_eq] at hp
    push Not at h1
    obtain ⟨n, hn⟩ : ∃ n : ℕ, c * c - 4 * d = n := Int.eq_ofNat_of_zero_le h1
    have hs : Int.sqrt (c * c - 4 * d) = (Nat.sqrt n : ℤ) := by rw [hn]; rfl
    rw [hs] at hp
    have hlt : n < (Nat.sqrt n + 1) * (Nat.sqrt n + 1) := Nat.lt_succ_sqrt n
    have hc0 : c < 0 := by have := Int.natCast_nonneg (Nat.sqrt n); omega
    have hd0 : 0 < d := by
      have h5 : (n : ℤ) < (Nat.sqrt n + 1) * (Nat.sqrt n + 1) := by exact_mod_cast hlt
      have h6 : (Nat.sqrt n : ℤ) + 1 ≤ -c := by omega
      nlinarith [Int.natCast_nonneg (Nat.sqrt n)]
    have hcr : (c : ℝ) < 0 := by exact_mod_cast hc0
    have hdr : (0 : ℝ) < d := by exact_mod_cast hd0
    have k1 : 0 ≤ (c : ℝ) * z ^ 2 * (D * x ^ 2) := by
      have : 0 ≤ (c * D : ℝ) * (z ^ 2 * x ^ 2) := mul_nonneg (mul_pos_of_neg_of_neg hcr hDr).le (by positivity)
      nlinarith
    have k2 : 0 ≤ (d : ℝ) * z ^ 4 := by positivity
    have k3 : ((D : ℝ) * x ^ 2) ^ 2 = 0 := by nlinarith [sq_nonneg ((D : ℝ) * x ^ 2)]
    have k4 : (d : ℝ) * z ^ 4 = 0 := by nlinarith [sq_nonneg ((D : ℝ) * x ^ 2)]
    apply h0
    constructor
    · by_contra hx
      exact pow_ne_zero 2 (mul_ne_zero hDr.ne (pow_ne_zero 2 hx)) k3
    · by_contra hz
      exact mul_ne_zero hdr.ne' (pow_ne_zero 4 hz) k4

/-- the squarefree part of an integer -/
theorem int_sqf {n : ℤ} (hn : n ≠ 0) : ∃ D t : ℤ, Squarefree D ∧ t ≠ 0 ∧ n = D * t ^ 2 := by
  obtain ⟨a, b, hab, ha⟩ := Nat.sq_mul_squarefree n.natAbs
  have hb : b ≠ 0 := by
    rintro rfl
    apply hn
    have : n.natAbs = 0 := by rw [← hab]; ring
    simpa using this
  have ha' : Squarefree (a : ℤ) := Int.squarefree_natCast.2 ha
  have e : (n.natAbs : ℤ) = a * b ^ 2 := by rw [← hab]; push_cast; ring
  rcases lt_or_gt_of_ne hn with h | h
  · refine ⟨-a, b, ?_, by exact_mod_cast hb, ?_⟩
    · exact (Associated.squarefree_iff (Associated.neg_left (Associated.refl (a : ℤ)))).2 ha'
    · have : n = -n.natAbs := by omega
      rw [this, e]; ring
  · exact ⟨a, b, ha', by exact_mod_cast hb, by rw [← e]; omega⟩

end Eclib.Rank2
