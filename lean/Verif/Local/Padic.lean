import Mathlib.NumberTheory.Padics.Hensel
import Mathlib.NumberTheory.Padics.RingHoms
import Mathlib.Tactic.LinearCombination

/-! # Squares of p-adic integers, primitive solutions -/

namespace Eclib.Local

open Polynomial

variable {p : ℕ} [hp : Fact p.Prime]

/-- Hensel's lemma for square roots -/
theorem exists_sqrt (x y : ℤ_[p]) (h : ‖y ^ 2 - x‖ < ‖2 * y‖ ^ 2) : ∃ z : ℤ_[p], z ^ 2 = x := by
  have h1 : (X ^ 2 - C x : ℤ_[p][X]).aeval y = y ^ 2 - x := by simp
  have h2 : (derivative (X ^ 2 - C x : ℤ_[p][X])).aeval y = 2 * y := by
    simp
    exact Or.inl (by norm_num)
  obtain ⟨z, hz, -⟩ := hensels_lemma (F := (X ^ 2 - C x : ℤ_[p][X])) (a := y) (by rw [h1, h2]; exact h)
  refine ⟨z, ?_⟩
  have : z ^ 2 - x = 0 := by simpa using hz
  linear_combination this

theorem norm_int_lt_one_iff (a : ℤ) : ‖(a : ℤ_[p])‖ < 1 ↔ (p : ℤ) ∣ a := by
  rw [PadicInt.norm_int_lt_one_iff_dvd]

theorem norm_int_eq_one {a : ℤ} (h : ¬ (p : ℤ) ∣ a) : ‖(a : ℤ_[p])‖ = 1 := by
  have h1 := PadicInt.norm_le_one (a : ℤ_[p])
  rcases h1.lt_or_eq with h2 | h2
  · exact absurd ((norm_int_lt_one_iff a).mp h2) h
  · exact h2

/-- an integer that is a non-zero square modulo an odd `p` is a p-adic square -/
theorem sqrt_odd (hp2 : p ≠ 2) {a b : ℤ} (ha : ¬ (p : ℤ) ∣ a) (h : (p : ℤ) ∣ b ^ 2 - a) :
    ∃ z : ℤ_[p], z ^ 2 = (a : ℤ_[p]) := by
  refine exists_sqrt (a : ℤ_[p]) (b : ℤ_[p]) ?_
  have hpp : Prime (p : ℤ) := Nat.prime_iff_prime_int.mp hp.out
  have hb : ¬ (p : ℤ) ∣ 2 * b := by
    intro hd
    rcases hpp.dvd_or_dvd hd with h2 | h2
    · have : p ∣ 2 := by exact_mod_cast h2
      exact hp2 ((Nat.prime_dvd_prime_iff_eq hp.out Nat.prime_two).mp this)
    · apply ha
      have : a = b * b - (b ^ 2 - a) := by ring
      rw [this]
      exact dvd_sub (h2.mul_left b) h
  have e1 : ‖(2 * (b : ℤ_[p]))‖ = 1 := by
    have := norm_int_eq_one hb
    push_cast at this
    exact this
  rw [e1, one_pow]
  have := (norm_int_lt_one_iff (p := p) (b ^ 2 - a)).mpr h
  push_cast at this
  exact this

/-- an integer congruent to `1` modulo `8` is a 2-adic square -/
theorem sqrt_two {a : ℤ} (h : a % 8 = 1) : ∃ z : ℤ_[2], z ^ 2 = (a : ℤ_[2]) := by
  refine exists_sqrt (a : ℤ_[2]) 1 ?_
  have e1 : ‖(2 * 1 : ℤ_[2])‖ = 2⁻¹ := by
    have := PadicInt.norm_p (p := 2)
    simpa using this
  have e2 : ‖((1 - a : ℤ) : ℤ_[2])‖ ≤ (2 : ℝ) ^ (-3 : ℤ) := by
    have := (PadicInt.norm_int_le_pow_iff_dvd (p := 2) (k := 1 - a) (n := 3)).mpr (by
      norm_num
      omega)
    exact_mod_cast this
  push_cast at e2
  rw [e1, one_pow]
  refine lt_of_le_of_lt e2 ?_
  norm_num

/-- a non-trivial p-adic zero of a diagonal ternary quadratic form can be scaled to one in p-adic
integers with a coordinate equal to `1` -/
theorem primitive {a b c : ℚ_[p]} {x y z : ℚ_[p]} (h0 : ¬ (x = 0 ∧ y = 0 ∧ z = 0))
    (h : a * x ^ 2 + b * y ^ 2 = c * z ^ 2) :
    ∃ x y z : ℤ_[p], (x = 1 ∨ y = 1 ∨ z = 1) ∧
      a * (x : ℚ_[p]) ^ 2 + b * (y : ℚ_[p]) ^ 2 = c * (z : ℚ_[p]) ^ 2 := by
  -- an element of largest norm
  have hm : ∃ m : ℚ_[p], m ≠ 0 ∧ ‖x‖ ≤ ‖m‖ ∧ ‖y‖ ≤ ‖m‖ ∧ ‖z‖ ≤ ‖m‖ ∧ (m = x ∨ m = y ∨ m = z) := by
    have key : ∃ m : ℚ_[p], ‖x‖ ≤ ‖m‖ ∧ ‖y‖ ≤ ‖m‖ ∧ ‖z‖ ≤ ‖m‖ ∧ (m = x ∨ m = y ∨ m = z) := by
      rcases le_total ‖x‖ ‖y‖ with h1 | h1
      · rcases le_total ‖y‖ ‖z‖ with h2 | h2
        · exact ⟨z, h1.trans h2, h2, le_rfl, by simp⟩
        · exact ⟨y, h1, le_rfl, h2, by simp⟩
      · rcases le_total ‖x‖ ‖z‖ with h2 | h2
        · exact ⟨z, h2, h1.trans h2, le_rfl, by simp⟩
        · exact ⟨x, le_rfl, h1, h2, by simp⟩
    obtain ⟨m, h1, h2, h3, h4⟩ := key
    refine ⟨m, ?_, h1, h2, h3, h4⟩
    rintro rfl
    rw [norm_zero] at h1 h2 h3
    exact h0 ⟨norm_le_zero_iff.mp h1, norm_le_zero_iff.mp h2, norm_le_zero_iff.mp h3⟩
  obtain ⟨m, hm0, h1, h2, h3, h4⟩ := hm
  have hmn : 0 < ‖m‖ := norm_pos_iff.mpr hm0
  have hle : ∀ t : ℚ_[p], ‖t‖ ≤ ‖m‖ → ‖t / m‖ ≤ 1 := by
    intro t ht
    rw [norm_div, div_le_one hmn]
    exact ht
  refine ⟨⟨x / m, hle x h1⟩, ⟨y / m, hle y h2⟩, ⟨z / m, hle z h3⟩, ?_, ?_⟩
  · rcases h4 with rfl | rfl | rfl
    · exact Or.inl (Subtype.ext (div_self hm0))
    · exact Or.inr (Or.inl (Subtype.ext (div_self hm0)))
    · exact Or.inr (Or.inr (Subtype.ext (div_self hm0)))
  · simp only [div_pow]
    field_simp
    exact h

end Eclib.Local
