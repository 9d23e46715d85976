import Verif.Stoll.Model
import Verif.Marith.Props
import Mathlib.Algebra.BigOperators.Intervals
import Mathlib.Data.Int.ModEq
import Mathlib.Tactic.LinearCombination
import Mathlib.Tactic.Ring
import Mathlib.Algebra.Group.Int.Even
import Mathlib.RingTheory.Int.Basic

/-!
# Tables of squares
-/

namespace Eclib.Stoll

open Marith (isqrt posmod)

/-! ## the specification -/

/-- The homogeneous form of even degree belonging to `f(x) = ∑ c_k x^k`: `∑ c_k a^k b^(d-k)`, times `b` if `d` is odd -/
def F (c : ℕ → ℤ) (deg : ℕ) (a b : ℤ) : ℤ :=
  (∑ i ∈ Finset.range (deg + 1), c (deg - i) * a ^ (deg - i) * b ^ i) * (if deg % 2 = 1 then b else 1)

/-- the value at `(a : b)` is a square modulo `p` -/
def SqF (c : ℕ → ℤ) (deg p : ℕ) (a b : ℤ) : Prop := ∃ y : ℤ, (p : ℤ) ∣ y ^ 2 - F c deg a b

/-! ## -/

theorem horner_sum (c : ℕ → ℤ) (deg : ℕ) (a b : ℤ) {n : ℕ} (hn : n ≤ deg) :
    horner c deg a b n = ∑ i ∈ Finset.range (n + 1), c (deg - i) * a ^ (n - i) * b ^ i := by
  induction n with
  | zero => simp [horner]
  | succ n ih =>
    rw [horner, ih (by omega), Finset.sum_range_succ _ (n + 1), Finset.sum_mul]
    congr 1
    · refine Finset.sum_congr rfl fun i hi => ?_
      have := Finset.mem_range.mp hi
      rw [show n + 1 - i = n - i + 1 by omega, pow_succ]
      ring
    · simp

theorem F_eq (c : ℕ → ℤ) (deg : ℕ) (a b : ℤ) : F c deg a b = horner c deg a b deg * (if deg % 2 = 1 then b else 1) := by
  rw [F, horner_sum c deg a b le_rfl]

theorem horner_scale (c : ℕ → ℤ) (deg : ℕ) (x b : ℤ) : horner c deg (x * b) b deg = b ^ deg * horner c deg x 1 deg := by
  rw [horner_sum _ _ _ _ le_rfl, horner_sum _ _ _ _ le_rfl, Finset.mul_sum]
  refine Finset.sum_congr rfl fun i hi => ?_
  have := Finset.mem_range.mp hi
  have e : b ^ deg = b ^ (deg - i) * b ^ i := by rw [← pow_add]; congr 1; omega
  rw [e, mul_pow, one_pow]
  ring

theorem F_scale (c : ℕ → ℤ) (deg : ℕ) (x b : ℤ) :
    F c deg (x * b) b = (b ^ ((deg + 1) / 2)) ^ 2 * horner c deg x 1 deg := by
  rw [F_eq, horner_scale, ← pow_mul]
  split_ifs with h
  · rw [show (deg + 1) / 2 * 2 = deg + 1 by omega, pow_succ]; ring
  · rw [show (deg + 1) / 2 * 2 = deg by omega]; ring

theorem horner_congr (c : ℕ → ℤ) (deg n : ℕ) {m a a' b : ℤ} (h : a ≡ a' [ZMOD m]) :
    horner c deg a b n ≡ horner c deg a' b n [ZMOD m] := by
  induction n with
  | zero => rfl
  | succ n ih => exact (ih.mul h).add_right _

theorem F_congr (c : ℕ → ℤ) (deg : ℕ) {m a a' b : ℤ} (h : a ≡ a' [ZMOD m]) : F c deg a b ≡ F c deg a' b [ZMOD m] := by
  rw [F_eq, F_eq]
  exact (horner_congr c deg deg h).mul_right _

theorem cmod_spec (c : ℕ → ℤ) {p : ℕ} (hp : 0 < p) (n : ℕ) : cmod c p n < p ∧ ((cmod c p n : ℕ) : ℤ) ≡ c n [ZMOD p] := by
  have hp' : (0 : ℤ) < p := by exact_mod_cast hp
  unfold cmod
  rw [Marith.posmod_eq _ _ hp'.ne', abs_of_pos hp']
  have h0 := Int.emod_nonneg (c n) hp'.ne'
  have h1 := Int.emod_lt_of_pos (c n) hp'
  rw [Int.toNat_of_nonneg h0]
  exact ⟨by omega, Int.mod_modEq _ _⟩

theorem hornerMod_spec (c : ℕ → ℤ) (deg : ℕ) {p : ℕ} (hp : 0 < p) (a n : ℕ) :
    hornerMod c deg p a n < p ∧ ((hornerMod c deg p a n : ℕ) : ℤ) ≡ horner c deg a 1 n [ZMOD p] := by
  induction n with
  | zero => exact cmod_spec c hp deg
  | succ n ih =>
    refine ⟨Nat.mod_lt _ hp, ?_⟩
    rw [hornerMod, horner, one_pow, mul_one]
    push_cast
    exact (Int.mod_modEq _ _).trans ((ih.2.mul_right _).add (cmod_spec c hp _).2)

theorem foldl_set {α : Type*} (g : α → ℕ) (l : List α) (t : List Bool) (r : ℕ) :
    (l.foldl (fun t i => t.set (g i) true) t).getD r false = true ↔
      (r < t.length ∧ ∃ i ∈ l, g i = r) ∨ t.getD r false = true := by
  induction l generalizing t with
  | nil => simp
  | cons i l ih =>
    rw [List.foldl_cons, ih, List.length_set]
    have key : (t.set (g i) true).getD r false = true ↔ (r < t.length ∧ g i = r) ∨ t.getD r false = true := by
      rw [List.getD_eq_getElem?_getD, List.getD_eq_getElem?_getD, List.getElem?_set]
      by_cases h : g i = r
      · by_cases h2 : r < t.length
        · simp [h, h2]
        · simp [h, h2]
      · simp [h]
    rw [key]
    simp only [List.mem_cons, exists_eq_or_imp]
    rw [and_or_left, or_assoc, or_left_comm]

theorem squares_spec {p : ℕ} (hp : p % 2 = 1) {r : ℕ} (hr : r < p) :
    (squares p).getD r false = true ↔ ∃ y : ℤ, (p : ℤ) ∣ y ^ 2 - r := by
  unfold squares
  rw [foldl_set (fun i => 2 * i * (2 * i) % p)]
  have hrep : ¬ (List.replicate p false).getD r false = true := by
    rw [List.getD_eq_getElem?_getD, List.getElem?_replicate]; simp [hr]
  have hp0 : (0 : ℤ) < p := by exact_mod_cast (by omega : 0 < p)
  constructor
  · rintro (⟨-, i, -, h⟩ | h)
    · refine ⟨2 * i, Int.ModEq.dvd ?_⟩
      have : (((2 * i * (2 * i) % p : ℕ)) : ℤ) ≡ 2 * i * (2 * i) [ZMOD p] := by
        push_cast; exact Int.mod_modEq _ _
      rw [h] at this
      exact this.trans (by rw [show (2 * (i : ℤ)) ^ 2 = 2 * i * (2 * i) by ring])
    · exact absurd h hrep
  · rintro ⟨y, hy⟩
    left
    rw [List.length_replicate]
    refine ⟨hr, ?_⟩
    -- an even representative
    obtain ⟨z, hz0, hz1, hz2⟩ : ∃ z : ℤ, 0 ≤ z ∧ z < p ∧ (p : ℤ) ∣ z ^ 2 - r := by
      refine ⟨y % p, Int.emod_nonneg _ hp0.ne', Int.emod_lt_of_pos _ hp0, ?_⟩
      have e : y % p ≡ y [ZMOD p] := Int.mod_modEq _ _
      have := ((e.pow 2).sub_right (r : ℤ)).symm.dvd
      have h3 := dvd_add this hy
      simpa using h3
    obtain ⟨i, hi, hd⟩ : ∃ i : ℕ, 2 * i < p ∧ (p : ℤ) ∣ (2 * (i : ℤ)) ^ 2 - r := by
      rcases Int.emod_two_eq_zero_or_one z with h | h
      · exact ⟨(z / 2).toNat, by omega, by
          rw [Int.toNat_of_nonneg (by omega), show 2 * (z / 2) = z by omega]; exact hz2⟩
      · refine ⟨((p - z) / 2).toNat, by omega, ?_⟩
        rw [Int.toNat_of_nonneg (by omega), show 2 * (((p : ℤ) - z) / 2) = p - z by omega]
        obtain ⟨k, hk⟩ := hz2
        exact ⟨p - 2 * z + k, by linear_combination hk⟩
    refine ⟨i, List.mem_range.mpr (by omega), ?_⟩
    have h1 : (r : ℤ) ≡ (2 * i * (2 * i) : ℤ) [ZMOD p] := Int.modEq_iff_dvd.mpr (by
      rw [show (2 * (i : ℤ) * (2 * i)) = (2 * i) ^ 2 by ring]; exact hd)
    have h2 : ((2 * i * (2 * i) % p : ℕ) : ℤ) = r := by
      push_cast
      rw [← h1]
      exact Int.emod_eq_of_lt (by omega) (by exact_mod_cast hr)
    exact_mod_cast h2

theorem sq_congr {p : ℕ} {u v : ℤ} (h : u ≡ v [ZMOD p]) : (∃ y : ℤ, (p : ℤ) ∣ y ^ 2 - u) ↔ ∃ y : ℤ, (p : ℤ) ∣ y ^ 2 - v := by
  constructor
  · rintro ⟨y, hy⟩
    exact ⟨y, by have := dvd_sub hy h.dvd; rwa [show y ^ 2 - u - (v - u) = y ^ 2 - v by ring] at this⟩
  · rintro ⟨y, hy⟩
    exact ⟨y, by have := dvd_add hy h.dvd; rwa [show y ^ 2 - v + (v - u) = y ^ 2 - u by ring] at this⟩

theorem isF_spec (c : ℕ → ℤ) (deg : ℕ) {p : ℕ} (hp : p % 2 = 1) (a : ℕ) :
    isF c deg p a = true ↔ ∃ y : ℤ, (p : ℤ) ∣ y ^ 2 - horner c deg a 1 deg := by
  have hp0 : 0 < p := by omega
  unfold isF
  split_ifs with h
  · obtain ⟨h1, h2⟩ := cmod_spec c hp0 0
    rw [squares_spec hp h1, sq_congr h2, h]
    have : horner c deg ((0 : ℕ) : ℤ) 1 deg = c 0 := by
      cases deg with
      | zero => rfl
      | succ n => simp [horner]
    rw [this]
  · obtain ⟨h1, h2⟩ := hornerMod_spec c deg hp0 a deg
    rw [squares_spec hp h1, sq_congr h2]

theorem leadOk_spec (c : ℕ → ℤ) (deg : ℕ) {p : ℕ} (hp : p % 2 = 1) :
    leadOk c deg p = true ↔ deg % 2 = 1 ∨ ∃ y : ℤ, (p : ℤ) ∣ y ^ 2 - c deg := by
  obtain ⟨h1, h2⟩ := cmod_spec c (show 0 < p by omega) deg
  rw [leadOk, Bool.or_eq_true, beq_iff_eq, squares_spec hp h1, sq_congr h2]

/-- multiplication by a unit square -/
theorem sq_unit {p : ℕ} {u t : ℤ} (h : IsCoprime t (p : ℤ)) :
    (∃ y : ℤ, (p : ℤ) ∣ y ^ 2 - t ^ 2 * u) ↔ ∃ y : ℤ, (p : ℤ) ∣ y ^ 2 - u := by
  constructor
  · rintro ⟨y, k, hk⟩
    obtain ⟨s, w, hs⟩ := h
    exact ⟨s * y, s ^ 2 * k + u * w * (-1 - s * t), by linear_combination s ^ 2 * hk - u * (-1 - s * t) * hs⟩
  · rintro ⟨y, k, hk⟩
    exact ⟨t * y, t ^ 2 * k, by linear_combination t ^ 2 * hk⟩

theorem SqF_iff (c : ℕ → ℤ) (deg : ℕ) {p : ℕ} (hp : p % 2 = 1) {b : ℤ} (hb : IsCoprime b (p : ℤ)) {a : ℤ} {x : ℕ}
    (h : a ≡ x * b [ZMOD p]) : SqF c deg p a b ↔ isF c deg p x = true := by
  unfold SqF
  rw [sq_congr (F_congr c deg h), F_scale, sq_unit hb.pow_left, isF_spec c deg hp]

end Eclib.Stoll
