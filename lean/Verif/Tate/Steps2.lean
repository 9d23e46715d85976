import Verif.Tate.Steps

/-!
# The second change of coordinates and the cubic
-/

namespace Eclib.Tate

open WeierstrassCurve
open Eclib.Marith (XGcd SqrRootMod val div mod invmod legendre sqrtModP)
open Eclib.Curve (Cd fdiv_eq div_iff')

theorem prime_odd {p : ℕ} (hp : p.Prime) (h2 : p ≠ 2) : Odd p := by
  rcases hp.eq_two_or_odd' with h | h
  · exact (h2 h).elim
  · exact h

/-- cancelling a power of 2 modulo an odd prime power -/
theorem odd_cancel {p : ℕ} (hp : p.Prime) (h2 : p ≠ 2) {n : ℕ} {x : ℤ} (k : ℕ)
    (h : (p : ℤ) ^ n ∣ 2 ^ k * x) : (p : ℤ) ^ n ∣ x := by
  have hp' : Prime (p : ℤ) := Nat.prime_iff_prime_int.1 hp
  refine hp'.pow_dvd_of_dvd_mul_left n ?_ h
  intro hd
  have := hp'.dvd_of_dvd_pow hd
  rw [dvd_iff_cast] at this
  push_cast at this
  exact two_ne hp h2 this

theorem odd_cancel1 {p : ℕ} (hp : p.Prime) (h2 : p ≠ 2) {x : ℤ} (k : ℕ)
    (h : (p : ℤ) ∣ 2 ^ k * x) : (p : ℤ) ∣ x := by
  have := odd_cancel hp h2 (n := 1) k (by simpa using h)
  simpa using this

theorem two_dvd_sub {x y : ℤ} (h : (x : ZMod 2) = y) : (2 : ℤ) ∣ x - y := by
  have : ((2 : ℕ) : ℤ) ∣ x - y := by
    rw [dvd_iff_cast]; push_cast; rw [h, sub_self]
  exact_mod_cast this

theorem two_dvd_sq_sub (x : ℤ) : (2 : ℤ) ∣ x ^ 2 - x := by
  rcases Int.even_or_odd' x with ⟨k, e | e⟩
  · exact ⟨k * (x - 1), by rw [show x ^ 2 - x = x * (x - 1) by ring, e]; ring⟩
  · exact ⟨x * k, by rw [show x ^ 2 - x = x * (x - 1) by ring, e]; ring⟩

theorem second_spec (L : Lib) {p : ℕ} (hp : p.Prime) {C : Cd} {W V : WeierstrassCurve ℤ} (hC : Is C W)
    (h4 : Lev4 p W) (h6 : (p : ℤ) ^ 3 ∣ W.b₆)
    (hV : Chg W V 0 (second L p C).1 (second L p C).2) : Lev5 p V := by
  have hp' : Prime (p : ℤ) := Nat.prime_iff_prime_int.1 hp
  generalize hs : (second L p C).1 = s at hV
  generalize ht : (second L p C).2 = t at hV
  unfold second at hs ht
  have hp0 : (p : ℤ) ≠ 0 := by exact_mod_cast hp.ne_zero
  by_cases h2 : p = 2
  · subst h2
    rw [if_pos (by rfl)] at hs ht
    simp only [Nat.cast_ofNat] at hs ht h6 h4 hp'
    have a1 : (2 : ℤ) ∣ W.a₁ := by
      have : (2 : ℤ) ∣ W.a₁ ^ 2 := by
        have := h4.b2
        rw [show W.a₁ ^ 2 = W.b₂ - 2 * (2 * W.a₂) by unfold b₂; ring]
        exact dvd_sub this (dvd_mul_right _ _)
      exact hp'.dvd_of_dvd_pow this
    obtain ⟨α, hα⟩ := h4.a6'
    have v1 := Val.of1 a1
    have v6 : Val (2 : ℤ) W.a₆ 2 := ⟨h4.a6'⟩
    have vb6 : Val (2 : ℤ) W.b₆ 3 := ⟨h6⟩
    have vb8 : Val (2 : ℤ) W.b₈ 3 := ⟨h4.b8⟩
    have v4' := Val.of1 h4.a4
    have a3 : (2 : ℤ) ^ 2 ∣ W.a₃ := by
      refine dvd_of_sq hp' 1 (n := 3) (by norm_num) ?_
      rw [show W.a₃ ^ 2 = W.b₆ - 2 ^ 2 * W.a₆ by unfold b₆; ring]
      pv
    have v3 : Val (2 : ℤ) W.a₃ 2 := ⟨a3⟩
    have a4 : (2 : ℤ) ^ 2 ∣ W.a₄ := by
      refine dvd_of_sq hp' 1 (n := 3) (by norm_num) ?_
      rw [show W.a₄ ^ 2 = W.a₁ ^ 2 * W.a₆ + 2 ^ 2 * W.a₂ * W.a₆ - W.a₁ * W.a₃ * W.a₄ + W.a₂ * W.a₃ ^ 2 - W.b₈ by
        unfold b₈; ring]
      pv
    have v4 : Val (2 : ℤ) W.a₄ 2 := ⟨a4⟩
    have es : (2 : ℤ) ∣ s - W.a₂ := two_dvd_sub (by rw [← hs, ← hC.a2]; exact root2_cast L _)
    obtain ⟨u, hu, hu2⟩ : ∃ u, t = 2 * u ∧ (2 : ℤ) ∣ u - α := by
      refine ⟨_, ht.symm, two_dvd_sub ?_⟩
      refine (root2_cast L _).trans ?_
      rw [hC.a6, hα, show (2 : ℤ) ^ 2 * α = 2 * (2 * α) by ring, Int.mul_fdiv_cancel_left _ (by norm_num),
        Int.mul_fdiv_cancel_left _ (by norm_num)]
    have vt : Val (2 : ℤ) t 1 := ⟨by rw [hu]; simp⟩
    simp only [Nat.cast_ofNat]
    refine ⟨?_, ?_, ?_, ?_, ?_⟩
    · rw [hV.a1]; pv
    · have := two_dvd_sq_sub s
      rw [show V.a₂ = -(s - W.a₂) - (s ^ 2 - s) - s * W.a₁ by rw [hV.a2]; ring]
      exact dvd_sub (dvd_sub (dvd_neg.2 es) this) (by pv)
    · rw [show V.a₃ = W.a₃ + 2 * t by rw [hV.a3]; ring]; pv
    · rw [show V.a₄ = W.a₄ - s * W.a₃ - t * W.a₁ - 2 * s * t by rw [hV.a4]; ring]; pv
    · have := two_dvd_sq_sub u
      rw [show V.a₆ = 2 ^ 2 * (-(u - α) - (u ^ 2 - u)) - t * W.a₃ by rw [hV.a6, hu, hα]; ring]
      refine dvd_sub ?_ (by pv)
      rw [pow_succ]
      exact mul_dvd_mul_left _ (dvd_sub (dvd_neg.2 hu2) this)
  · have h20 : ¬ (p : ℤ) % 2 = 0 := fun h => h2 ((prime_even hp).1 h)
    rw [if_neg h20] at hs ht
    have hh := two_half (prime_odd hp h2)
    have v3 : Val (p : ℤ) W.a₃ 1 := Val.of1 h4.a3
    have e1 : (p : ℤ) ∣ V.a₁ ∧ (p : ℤ) ^ 2 ∣ V.a₃ := by
      rw [show V.a₁ = W.a₁ + 2 * s from hV.a1, show V.a₃ = W.a₃ + 2 * t by rw [hV.a3]; ring]
      by_cases h3 : (p : ℤ) = 3
      · rw [if_pos h3] at hs ht
        rw [← hs, ← ht, hC.a1, hC.a3]
        refine ⟨⟨W.a₁, by rw [h3]; ring⟩, ?_⟩
        rw [show W.a₃ + 2 * W.a₃ = (p : ℤ) * W.a₃ by rw [h3]; ring]
        pv
      · rw [if_neg h3] at hs ht
        rw [← hs, ← ht, hC.a1, hC.a3]
        refine ⟨⟨-W.a₁, by linear_combination (-W.a₁) * hh⟩, ?_⟩
        rw [show W.a₃ + 2 * (-W.a₃ * halfmodp p) = -((p : ℤ) * W.a₃) by linear_combination (-W.a₃) * hh]
        pv
    have w1 := Val.of1 e1.1
    have w3 : Val (p : ℤ) V.a₃ 2 := ⟨e1.2⟩
    have eb2 : V.b₂ = W.b₂ := by rw [hV.b2]; ring
    have eb4 : V.b₄ = W.b₄ := by rw [hV.b4]; ring
    have eb6 : V.b₆ = W.b₆ := by rw [hV.b6]; ring
    have vb2 : Val (p : ℤ) V.b₂ 1 := Val.of1 (by rw [eb2]; exact h4.b2)
    have vb4 : Val (p : ℤ) V.b₄ 2 := ⟨by rw [eb4]; exact h4.b4' hp'⟩
    have vb6 : Val (p : ℤ) V.b₆ 3 := ⟨by rw [eb6]; exact h6⟩
    refine ⟨e1.1, ?_, e1.2, ?_, ?_⟩
    · apply odd_cancel1 hp h2 2
      rw [show 2 ^ 2 * V.a₂ = V.b₂ - V.a₁ ^ 2 by unfold b₂; ring]
      pv
    · apply odd_cancel hp h2 1
      rw [show 2 ^ 1 * V.a₄ = V.b₄ - V.a₁ * V.a₃ by unfold b₄; ring]
      pv
    · apply odd_cancel hp h2 2
      rw [show 2 ^ 2 * V.a₆ = V.b₆ - V.a₃ ^ 2 by unfold b₆; ring]
      pv

/-! ### the cubic over the residue field -/

/-- `w` of curvered.cc:214 -/
def cw {R : Type*} [CommRing R] (b c d : R) : R :=
  27 * d * d - b * b * (c * c) + 4 * b * (b * b) * d - 18 * (b * c) * d + 4 * c * (c * c)

theorem cubic_double_two : ∀ b c d : ZMod 2, cw b c d = 0 → 3 * c - b * b ≠ 0 →
    c ^ 3 + b * c ^ 2 + c * c + d = 0 ∧ c + 2 * c * b + 3 * c ^ 2 = 0 := by
  unfold cw; decide

theorem cubic_double_three : ∀ b c d : ZMod 3, cw b c d = 0 → 3 * c - b * b ≠ 0 →
    b ≠ 0 ∧ (c * b⁻¹) ^ 3 + b * (c * b⁻¹) ^ 2 + c * (c * b⁻¹) + d = 0 ∧
      c + 2 * (c * b⁻¹) * b + 3 * (c * b⁻¹) ^ 2 = 0 := by
  unfold cw; decide +kernel

theorem cubic_double {K : Type*} [Field K] (h2 : (2 : K) ≠ 0) {b c d ρ : K}
    (hw : cw b c d = 0) (hx : 3 * c - b * b ≠ 0) (hρ : 2 * (3 * c - b * b) * ρ = b * c - 9 * d) :
    ρ ^ 3 + b * ρ ^ 2 + c * ρ + d = 0 ∧ c + 2 * ρ * b + 3 * ρ ^ 2 = 0 := by
  unfold cw at hw
  constructor
  · have : (2 * (3 * c - b * b)) ^ 3 * (ρ ^ 3 + b * ρ ^ 2 + c * ρ + d) = 0 := by
      have e : (2 * (3 * c - b * b)) ^ 3 * (ρ ^ 3 + b * ρ ^ 2 + c * ρ + d) =
        (2 * (3 * c - b * b) * ρ) ^ 3 + 2 * (3 * c - b * b) * b * (2 * (3 * c - b * b) * ρ) ^ 2 +
        (2 * (3 * c - b * b)) ^ 2 * c * (2 * (3 * c - b * b) * ρ) + (2 * (3 * c - b * b)) ^ 3 * d := by ring
      rw [e, hρ]
      linear_combination (-2 * b ^ 3 + 9 * b * c - 27 * d) * hw
    exact (mul_eq_zero.1 this).resolve_left (pow_ne_zero 3 (mul_ne_zero h2 hx))
  · have : (2 * (3 * c - b * b)) ^ 2 * (c + 2 * ρ * b + 3 * ρ ^ 2) = 0 := by
      have e : (2 * (3 * c - b * b)) ^ 2 * (c + 2 * ρ * b + 3 * ρ ^ 2) =
        (2 * (3 * c - b * b)) ^ 2 * c + 2 * (2 * (3 * c - b * b)) * b * (2 * (3 * c - b * b) * ρ) +
          3 * (2 * (3 * c - b * b) * ρ) ^ 2 := by ring
      rw [e, hρ]
      linear_combination 9 * hw
    exact (mul_eq_zero.1 this).resolve_left (pow_ne_zero 2 (mul_ne_zero h2 hx))

theorem cubic_simple {K : Type*} [Field K] {b c ρ : K} (hx : 3 * c - b * b ≠ 0)
    (h : c + 2 * ρ * b + 3 * ρ ^ 2 = 0) : b + 3 * ρ ≠ 0 := by
  intro hb
  apply hx
  linear_combination 3 * h - (b + 3 * ρ) * hb

theorem cubic_triple_two : ∀ b c d : ZMod 2, cw b c d = 0 → 3 * c - b * b = 0 →
    b + 3 * b = 0 ∧ c + 2 * b * b + 3 * b ^ 2 = 0 ∧ b ^ 3 + b * b ^ 2 + c * b + d = 0 := by
  unfold cw; decide

theorem cubic_triple_three : ∀ b c d : ZMod 3, cw b c d = 0 → 3 * c - b * b = 0 →
    b + 3 * -d = 0 ∧ c + 2 * (-d) * b + 3 * (-d) ^ 2 = 0 ∧ (-d) ^ 3 + b * (-d) ^ 2 + c * -d + d = 0 := by
  unfold cw; decide +kernel

theorem cubic_triple {K : Type*} [Field K] (h3 : (3 : K) ≠ 0) {b c d ρ : K}
    (hw : cw b c d = 0) (hx : 3 * c - b * b = 0) (hρ : 3 * ρ = -b) :
    b + 3 * ρ = 0 ∧ c + 2 * ρ * b + 3 * ρ ^ 2 = 0 ∧ ρ ^ 3 + b * ρ ^ 2 + c * ρ + d = 0 := by
  unfold cw at hw
  refine ⟨by linear_combination hρ, ?_, ?_⟩
  · have : 3 * (c + 2 * ρ * b + 3 * ρ ^ 2) = 0 := by
      linear_combination hx + (3 * ρ + b) * hρ
    exact (mul_eq_zero.1 this).resolve_left h3
  · have hs : 2 * b ^ 3 - 9 * b * c + 27 * d = 0 := by
      have : (2 * b ^ 3 - 9 * b * c + 27 * d) ^ 2 = 0 := by
        linear_combination 27 * hw - 4 * (3 * c - b * b) ^ 2 * hx
      exact pow_eq_zero_iff two_ne_zero |>.1 this
    have : 3 ^ 3 * (ρ ^ 3 + b * ρ ^ 2 + c * ρ + d) = 0 := by
      have e : 3 ^ 3 * (ρ ^ 3 + b * ρ ^ 2 + c * ρ + d) = (3 * ρ) ^ 3 + 3 * b * (3 * ρ) ^ 2 + 9 * c * (3 * ρ) + 27 * d := by
        ring
      rw [e, hρ]
      linear_combination hs
    exact (mul_eq_zero.1 this).resolve_left (pow_ne_zero 3 h3)

end Eclib.Tate
