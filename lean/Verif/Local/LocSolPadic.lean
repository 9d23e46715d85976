import Verif.Local.Padic
import Mathlib.Tactic.FieldSimp

/-! # Squares in `ℤ_p` near a given element, and the Hensel step of the solubility test -/

namespace Eclib.LocSol

open Polynomial Eclib.Local

variable {p : ℕ} [hp : Fact p.Prime]

/-- being a square of a p-adic integer -/
def IsSq (u : ℤ_[p]) : Prop := ∃ z : ℤ_[p], z ^ 2 = u

theorem p_ne_zero' : (p : ℤ_[p]) ≠ 0 := by
  exact_mod_cast hp.out.ne_zero

theorem pow_ne (n : ℕ) : (p : ℤ_[p]) ^ n ≠ 0 := pow_ne_zero _ p_ne_zero'

theorem norm_lt_one_iff (x : ℤ_[p]) : ‖x‖ < 1 ↔ ∃ y, x = p * y := by
  rw [← PadicInt.mem_nonunits, ← IsLocalRing.mem_maximalIdeal, PadicInt.maximalIdeal_eq_span_p,
    Ideal.mem_span_singleton]
  exact Iff.rfl

theorem norm_unit_add {u w : ℤ_[p]} (h : ‖u‖ = 1) : ‖u + (p : ℤ_[p]) * w‖ = 1 := by
  rcases (PadicInt.norm_le_one (u + (p : ℤ_[p]) * w)).lt_or_eq with h1 | h1
  · exfalso
    obtain ⟨y, hy⟩ := (norm_lt_one_iff _).mp h1
    have : ‖u‖ < 1 := (norm_lt_one_iff _).mpr ⟨y - w, by linear_combination hy⟩
    rw [h] at this
    exact lt_irrefl _ this
  · exact h1

/-- a power of `p` times a unit is a square iff the exponent is even and the unit a square -/
theorem isSq_pow_mul (k : ℕ) {u : ℤ_[p]} (hu : ‖u‖ = 1) :
    IsSq ((p : ℤ_[p]) ^ k * u) ↔ k % 2 = 0 ∧ IsSq u := by
  constructor
  · rintro ⟨z, hz⟩
    have key : ∀ (k : ℕ) (z : ℤ_[p]), z ^ 2 = (p : ℤ_[p]) ^ k * u → k % 2 = 0 ∧ IsSq u := by
      intro k
      induction k using Nat.strong_induction_on with
      | _ k ih =>
        intro z hz
        rcases Nat.eq_zero_or_pos k with rfl | hk
        · exact ⟨rfl, z, by rw [hz]; ring⟩
        · have h1 : ‖z‖ < 1 := by
            have h2 : ‖z ^ 2‖ < 1 := by
              rw [norm_lt_one_iff]
              refine ⟨(p : ℤ_[p]) ^ (k - 1) * u, ?_⟩
              rw [hz, ← mul_assoc, ← pow_succ', Nat.sub_add_cancel hk]
            rw [norm_pow] at h2
            by_contra h3
            have := one_le_pow₀ (n := 2) (not_lt.mp h3)
            linarith
          obtain ⟨y, rfl⟩ := (norm_lt_one_iff z).mp h1
          rcases Nat.lt_or_ge k 2 with h2 | h2
          · have : k = 1 := by omega
            subst this
            exfalso
            have h3 : (p : ℤ_[p]) * y ^ 2 = u := by
              refine mul_left_cancel₀ (p_ne_zero' (p := p)) ?_
              linear_combination hz
            have : ‖u‖ < 1 := (norm_lt_one_iff u).mpr ⟨y ^ 2, h3.symm⟩
            rw [hu] at this
            exact lt_irrefl _ this
          · obtain ⟨j, rfl⟩ := Nat.exists_eq_add_of_le h2
            have h3 : y ^ 2 = (p : ℤ_[p]) ^ j * u := by
              refine mul_left_cancel₀ (pow_ne (p := p) 2) ?_
              rw [pow_add] at hz
              linear_combination hz
            obtain ⟨h4, h5⟩ := ih j (by omega) y h3
            exact ⟨by omega, h5⟩
    exact key k z hz
  · rintro ⟨hk, z, rfl⟩
    refine ⟨(p : ℤ_[p]) ^ (k / 2) * z, ?_⟩
    rw [mul_pow, ← pow_mul]
    congr 2
    omega

theorem norm_two (hp2 : p ≠ 2) : ‖(2 : ℤ_[p])‖ = 1 := by
  have h : ¬ (p : ℤ) ∣ 2 := by
    intro hd
    have : p ∣ 2 := by exact_mod_cast hd
    exact hp2 ((Nat.prime_dvd_prime_iff_eq hp.out Nat.prime_two).mp this)
  have := norm_int_eq_one h
  exact_mod_cast this

/-- for odd `p` the square class of a unit depends on its residue only -/
theorem isSq_congr_odd (hp2 : p ≠ 2) {u w : ℤ_[p]} (hu : ‖u‖ = 1) (h : IsSq u) :
    IsSq (u + (p : ℤ_[p]) * w) := by
  obtain ⟨z, rfl⟩ := h
  refine exists_sqrt _ z ?_
  have hz : ‖z‖ = 1 := by
    rw [norm_pow] at hu
    exact (pow_eq_one_iff_of_nonneg (norm_nonneg _) (by norm_num)).mp hu
  rw [norm_mul, norm_two hp2, hz, one_mul, one_pow]
  rw [norm_lt_one_iff]
  exact ⟨-w, by ring⟩

theorem isSq_odd_iff (hp2 : p ≠ 2) {u : ℤ_[p]} (w : ℤ_[p]) (hu : ‖u‖ = 1) :
    IsSq (u + (p : ℤ_[p]) * w) ↔ IsSq u := by
  constructor
  · intro h
    have := isSq_congr_odd hp2 (w := -w) (norm_unit_add hu) h
    have e : u + (p : ℤ_[p]) * w + p * -w = u := by ring
    rwa [e] at this
  · exact isSq_congr_odd hp2 hu

/-- a 2-adic unit is a square iff it is `1` modulo `8` -/
theorem isSq_two_iff {u : ℤ_[2]} (hu : ‖u‖ = 1) : IsSq u ↔ ∃ s, u = 1 + 8 * s := by
  constructor
  · rintro ⟨z, rfl⟩
    have hz : ‖z‖ = 1 := by
      rw [norm_pow] at hu
      exact (pow_eq_one_iff_of_nonneg (norm_nonneg _) (by norm_num)).mp hu
    -- every 2-adic integer is 0 or 1 modulo 2
    have par : ∀ t : ℤ_[2], ∃ y, t = 2 * y ∨ t = 1 + 2 * y := by
      intro t
      obtain ⟨n, hn, ht⟩ := PadicInt.exists_mem_range t
      rw [PadicInt.maximalIdeal_eq_span_p, Ideal.mem_span_singleton] at ht
      obtain ⟨y, hy⟩ := ht
      interval_cases n
      · exact ⟨y, Or.inl (by push_cast at hy; linear_combination hy)⟩
      · exact ⟨y, Or.inr (by push_cast at hy; linear_combination hy)⟩
    obtain ⟨t, ht | ht⟩ := par z
    · exfalso
      have : ‖z‖ < 1 := (norm_lt_one_iff z).mpr ⟨t, by rw [ht]; push_cast; ring⟩
      rw [hz] at this
      exact lt_irrefl _ this
    · obtain ⟨s, hs | hs⟩ := par t
      · exact ⟨s * (1 + 2 * s), by rw [ht, hs]; ring⟩
      · exact ⟨(1 + 2 * s) * (1 + s), by rw [ht, hs]; ring⟩
  · rintro ⟨s, rfl⟩
    refine exists_sqrt _ 1 ?_
    have e1 : ‖(2 * 1 : ℤ_[2])‖ = 2⁻¹ := by
      have := PadicInt.norm_p (p := 2)
      simpa using this
    have e2 : ‖(1 : ℤ_[2]) ^ 2 - (1 + 8 * s)‖ ≤ (2 : ℝ)⁻¹ ^ 3 := by
      have h3 : (1 : ℤ_[2]) ^ 2 - (1 + 8 * s) = 2 ^ 3 * (-s) := by ring
      rw [h3, norm_mul, norm_pow]
      have h4 : ‖(2 : ℤ_[2])‖ = 2⁻¹ := by
        have := PadicInt.norm_p (p := 2)
        simpa using this
      rw [h4]
      have := PadicInt.norm_le_one (-s)
      have h5 : (0 : ℝ) ≤ 2⁻¹ ^ 3 := by positivity
      nlinarith
    rw [e1]
    refine lt_of_le_of_lt e2 ?_
    norm_num

/-- the Hensel step: a polynomial which is linear with unit slope modulo `p` has a root -/
theorem hensel_lin (α β q0 q1 q2 : ℤ_[p]) (hβ : ‖β‖ = 1) :
    ∃ t : ℤ_[p], α + β * t + p * (t ^ 2 * (q0 + q1 * t + q2 * t ^ 2)) = 0 := by
  obtain ⟨γ, hγ⟩ : ∃ γ, β * γ = 1 := by
    have := PadicInt.isUnit_iff.mpr hβ
    exact this.exists_right_inv
  let F : ℤ_[p][X] := C α + C β * X + C (p : ℤ_[p]) * (X ^ 2 * (C q0 + C q1 * X + C q2 * X ^ 2))
  have h1 : ∀ t, F.aeval t = α + β * t + p * (t ^ 2 * (q0 + q1 * t + q2 * t ^ 2)) := by
    intro t
    simp [F]
  have h2 : ∀ t, (derivative F).aeval t =
      β + p * (2 * t * (q0 + q1 * t + q2 * t ^ 2) + t ^ 2 * (q1 + q2 * (2 * t))) := by
    intro t
    simp [F]
    norm_num
  obtain ⟨t, ht, -⟩ := hensels_lemma (F := F) (a := -(α * γ)) (by
    rw [h1, h2, norm_unit_add hβ, one_pow, norm_lt_one_iff]
    exact ⟨(-(α * γ)) ^ 2 * (q0 + q1 * -(α * γ) + q2 * (-(α * γ)) ^ 2), by
      linear_combination (-α) * hγ⟩)
  exact ⟨t, by rw [← h1]; exact ht⟩

end Eclib.LocSol
