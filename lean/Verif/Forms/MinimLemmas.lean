import Verif.Forms.MinimModel
import Verif.Forms.Quartic
import Verif.Marith.Props
import Mathlib.Data.ZMod.Basic
import Mathlib.Algebra.Field.ZMod
import Mathlib.Tactic.FieldSimp

/-! # Lemmas for `minim_p` -/

namespace Eclib.Forms

open Eclib.Forms.Spec Props
open Marith (XGcd mod invmod div)

theorem div_iff {p : ℤ} (hp : p ≠ 0) (x : ℤ) : div p x = true ↔ p ∣ x := by
  simp only [div, hp, if_false, decide_eq_true_eq]
  exact ⟨Int.dvd_of_fmod_eq_zero, Int.fmod_eq_zero_of_dvd⟩

theorem divAll_iff {p : ℤ} (hp : p ≠ 0) (g : G) : g.divAll p = true ↔
    p ∣ g.a ∧ p ∣ g.b ∧ p ∣ g.c ∧ p ∣ g.d ∧ p ∣ g.e := by
  simp only [G.divAll, Bool.and_eq_true, div_iff hp]
  tauto

/-! ## the multiple root over a field -/

section
variable {K : Type} [Field K] {a b c d e : K} (h2 : (2 : K) ≠ 0) (h3 : (3 : K) ≠ 0)
  (hI : 12 * a * e - 3 * b * d + c * c = 0)
  (hJ : (72 * a * e + 9 * b * d - 2 * (c * c)) * c - 27 * (a * (d * d) + b * b * e) = 0)
include h2 h3 hI hJ

/-- quadruple root -/
theorem root_quad (ha : a ≠ 0) (hP : 3 * (b * b) - 8 * (a * c) = 0) {t : K}
    (ht : 4 * a * t = -b) :
    c + t * (3 * b + 6 * t * a) = 0 ∧ d + t * (2 * c + t * (3 * b + 4 * t * a)) = 0 ∧
      e + t * (d + t * (c + t * (b + t * a))) = 0 := by
  have h4 : (4 : K) ≠ 0 := by
    have : (4 : K) = 2 * 2 := by norm_num
    rw [this]; exact mul_ne_zero h2 h2
  have hb : b = -(4 * a * t) := by rw [ht]; ring
  subst hb
  have hc : c = 6 * a * t ^ 2 := by
    have : (8 * a) * (c - 6 * a * t ^ 2) = 0 := by linear_combination -hP
    have h8 : (8 : K) * a ≠ 0 := by
      have : (8 : K) = 2 * 4 := by norm_num
      rw [this]; exact mul_ne_zero (mul_ne_zero h2 h4) ha
    rcases mul_eq_zero.mp this with h | h
    · exact absurd h h8
    · linear_combination h
  subst hc
  -- shifted coefficients
  set d' := d + t * (2 * (6 * a * t ^ 2) + t * (3 * (-(4 * a * t)) + 4 * t * a)) with hd'
  set e' := e + t * (d + t * (6 * a * t ^ 2 + t * (-(4 * a * t) + t * a))) with he'
  have e1 : 12 * a * e' = 0 := by rw [he']; linear_combination hI
  have hae : (12 : K) * a ≠ 0 := by
    have : (12 : K) = 4 * 3 := by norm_num
    rw [this]; exact mul_ne_zero (mul_ne_zero h4 h3) ha
  have e2 : e' = 0 := (mul_eq_zero.mp e1).resolve_left hae
  have d1 : 27 * a * (d' * d') = 0 := by
    have : 27 * a * (d' * d') = -((72 * a * e + 9 * -(4 * a * t) * d - 2 * (6 * a * t ^ 2 * (6 * a * t ^ 2)))
      * (6 * a * t ^ 2) - 27 * (a * (d * d) + -(4 * a * t) * -(4 * a * t) * e)) := by
      have e3 : e = -(t * (d + t * (6 * a * t ^ 2 + t * (-(4 * a * t) + t * a)))) := by
        linear_combination e2 - he'
      rw [hd', e3]; ring
    rw [this, hJ, neg_zero]
  have h27 : (27 : K) * a ≠ 0 := by
    have : (27 : K) = 3 * 3 * 3 := by norm_num
    rw [this]; exact mul_ne_zero (mul_ne_zero (mul_ne_zero h3 h3) h3) ha
  have d2 : d' = 0 := by
    rcases mul_eq_zero.mp d1 with h | h
    · exact absurd h h27
    · exact mul_self_eq_zero.mp h
  exact ⟨by ring, d2, e2⟩

omit h2 in
/-- triple root, fourth root at infinity -/
theorem root_triple_inf (ha : a = 0) (hb : b ≠ 0) {t : K} (ht : 3 * b * t = -c) :
    c + t * (3 * b + 6 * t * a) = 0 ∧ d + t * (2 * c + t * (3 * b + 4 * t * a)) = 0 ∧
      e + t * (d + t * (c + t * (b + t * a))) = 0 := by
  subst ha
  have hc : c = -(3 * b * t) := by rw [ht]; ring
  subst hc
  have h3b : 3 * b ≠ 0 := mul_ne_zero h3 hb
  have d1 : 3 * b * (d - 3 * b * t ^ 2) = 0 := by linear_combination -hI
  have hd : d = 3 * b * t ^ 2 := by
    have := (mul_eq_zero.mp d1).resolve_left h3b
    linear_combination this
  subst hd
  have e1 : (3 * b) * ((3 * b) * (3 * (e + b * t ^ 3))) = 0 := by
    linear_combination -hJ
  have e2 : e + b * t ^ 3 = 0 := by
    have := (mul_eq_zero.mp ((mul_eq_zero.mp e1).resolve_left h3b)).resolve_left h3b
    exact (mul_eq_zero.mp this).resolve_left h3
  refine ⟨by ring, by ring, by linear_combination e2⟩

/-- triple root, general case -/
theorem root_triple (ha : a ≠ 0) (hP : 3 * (b * b) - 8 * (a * c) ≠ 0) {t : K}
    (ht : 4 * a * (3 * (b * b) - 8 * (a * c)) * t =
      3 * (b * (b * b) + 8 * (a * a) * d - 4 * (a * c) * b) - b * (3 * (b * b) - 8 * (a * c))) :
    c + t * (3 * b + 6 * t * a) = 0 ∧ d + t * (2 * c + t * (3 * b + 4 * t * a)) = 0 ∧
      e + t * (d + t * (c + t * (b + t * a))) = 0 := by
  have h4 : (4 : K) ≠ 0 := by
    have : (4 : K) = 2 * 2 := by norm_num
    rw [this]; exact mul_ne_zero h2 h2
  have h8 : (8 : K) ≠ 0 := by
    have : (8 : K) = 2 * 4 := by norm_num
    rw [this]; exact mul_ne_zero h2 h4
  set P := 3 * (b * b) - 8 * (a * c) with hPdef
  set R := b * (b * b) + 8 * (a * a) * d - 4 * (a * c) * b with hRdef
  set u := 4 * a * t + b with hu
  have hu1 : P * u = 3 * R := by rw [hu]; linear_combination ht
  have hsyz : P ^ 3 = 27 * R ^ 2 := by
    rw [hPdef, hRdef]
    linear_combination (-48 * a ^ 2 * (8 * a * c - 3 * (b * b))) * hI + 64 * a ^ 3 * hJ
  have hu2 : 3 * u ^ 2 = P := by
    have : P ^ 2 * (3 * u ^ 2 - P) = 0 := by
      linear_combination (3 * (P * u + 3 * R)) * hu1 - hsyz
    have := (mul_eq_zero.mp this).resolve_left (pow_ne_zero 2 hP)
    linear_combination this
  have hc : c + t * (3 * b + 6 * t * a) = 0 := by
    have : 8 * a * (c + t * (3 * b + 6 * t * a)) = 0 := by
      have e : 8 * a * (c + t * (3 * b + 6 * t * a)) = 3 * u ^ 2 - P := by rw [hu, hPdef]; ring
      rw [e, hu2]; ring
    exact (mul_eq_zero.mp this).resolve_left (mul_ne_zero h8 ha)
  have hR : R = u ^ 3 := by
    have : 3 * (R - u ^ 3) = 0 := by linear_combination -hu1 - u * hu2
    have := (mul_eq_zero.mp this).resolve_left h3
    linear_combination this
  have hd : d + t * (2 * c + t * (3 * b + 4 * t * a)) = 0 := by
    have : 8 * (a * a) * (d + t * (2 * c + t * (3 * b + 4 * t * a))) = 0 := by
      have e : R = u ^ 3 + 8 * (a * a) * (d + t * (2 * c + t * (3 * b + 4 * t * a)))
          - 4 * a * u * (c + t * (3 * b + 6 * t * a)) := by rw [hRdef, hu]; ring
      rw [hc] at e
      linear_combination hR - e
    exact (mul_eq_zero.mp this).resolve_left (mul_ne_zero h8 (mul_ne_zero ha ha))
  refine ⟨hc, hd, ?_⟩
  have h12 : (12 : K) * a ≠ 0 := by
    have : (12 : K) = 4 * 3 := by norm_num
    rw [this]; exact mul_ne_zero (mul_ne_zero h4 h3) ha
  have : 12 * a * (e + t * (d + t * (c + t * (b + t * a)))) = 0 := by
    have e1 : 12 * a * (e + t * (d + t * (c + t * (b + t * a))))
        = (12 * a * e - 3 * b * d + c * c) + 3 * u * (d + t * (2 * c + t * (3 * b + 4 * t * a)))
          - (c + t * (3 * b + 6 * t * a)) ^ 2 := by rw [hu]; ring
    rw [e1, hI, hd, hc]; ring
  exact (mul_eq_zero.mp this).resolve_left h12

end

end Eclib.Forms
