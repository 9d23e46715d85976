import Verif.Local.LocSolModel
import Verif.Local.LocSolPadic
import Verif.Local.HilbertLocal
import Verif.Marith.Props

/-! # What `psquare`, `lemma6` and `lemma7` decide -/

namespace Eclib.LocSol

open Eclib.Local
open Eclib.Marith (val posmod legendre)

variable {p : ℕ} [hp : Fact p.Prime]

theorem val_factor {n : ℤ} (hn : n ≠ 0) :
    ∃ u : ℤ, n = (p : ℤ) ^ (val p n) * u ∧ ¬ (p : ℤ) ∣ u := by
  have h2 := hp.out.two_le
  obtain ⟨⟨u, hu⟩, h3⟩ := Eclib.Marith.val_spec (p : ℤ) n (by rw [abs_of_nonneg] <;> omega) hn
  refine ⟨u, hu, ?_⟩
  rintro ⟨w, rfl⟩
  exact h3 ⟨w, by rw [pow_succ]; linear_combination hu⟩

theorem divN_pow (q : ℤ) (hq : q ≠ 0) (k : ℕ) (u : ℤ) : divN q k (q ^ k * u) = u := by
  induction k with
  | zero => simp [divN]
  | succ k ih =>
    rw [divN, show q ^ (k + 1) * u = q * (q ^ k * u) by ring, Int.mul_fdiv_cancel_left _ hq, ih]

theorem cast_unit {u : ℤ} (hu : ¬ (p : ℤ) ∣ u) : ‖(u : ℤ_[p])‖ = 1 := norm_int_eq_one hu

/-- divisibility of integers by powers of `p` can be tested in `ℤ_p` -/
theorem dvd_of_padic {n : ℤ} {k : ℕ} {s : ℤ_[p]} (h : (n : ℤ_[p]) = (p : ℤ_[p]) ^ k * s) :
    ((p ^ k : ℕ) : ℤ) ∣ n := by
  have := (PadicInt.norm_int_le_pow_iff_dvd (p := p) (k := n) (n := k)).mp (by
    rw [h, norm_mul, PadicInt.norm_p_pow]
    have h1 := PadicInt.norm_le_one s
    have h2 : (0 : ℝ) ≤ (p : ℝ) ^ (-(k : ℤ)) := by positivity
    nlinarith)
  exact_mod_cast this

theorem isSq_int_two {u : ℤ} (hu : ¬ (2 : ℤ) ∣ u) : IsSq (u : ℤ_[2]) ↔ u % 8 = 1 := by
  rw [isSq_two_iff (cast_unit (p := 2) (by exact_mod_cast hu))]
  constructor
  · rintro ⟨s, hs⟩
    have := dvd_of_padic (p := 2) (n := u - 1) (k := 3) (s := s) (by push_cast; rw [hs]; ring)
    norm_num at this
    omega
  · intro h
    refine ⟨((u / 8 : ℤ) : ℤ_[2]), ?_⟩
    have : u = 1 + 8 * (u / 8) := by omega
    conv_lhs => rw [this]
    push_cast
    ring

theorem psquare_spec (n : ℤ) :
    ∃ r, psquare n p = some r ∧ (r = true ↔ IsSq (n : ℤ_[p])) := by
  by_cases h0 : n = 0
  · subst h0
    exact ⟨true, rfl, by simp only [true_iff]; exact ⟨0, by simp⟩⟩
  · obtain ⟨u, hu, hpu⟩ := val_factor (p := p) h0
    have hn : IsSq (n : ℤ_[p]) ↔ val p n % 2 = 0 ∧ IsSq (u : ℤ_[p]) := by
      rw [← isSq_pow_mul _ (cast_unit hpu)]
      conv_lhs => rw [hu]
      push_cast
      rfl
    have hd : divN p (val p n) n = u := by
      conv_lhs => arg 3; rw [hu]
      exact divN_pow _ (by exact_mod_cast hp.out.ne_zero) _ _
    simp only [psquare, if_neg h0, hd]
    by_cases h1 : val p n % 2 = 1
    · rw [if_pos h1]
      refine ⟨false, rfl, ?_⟩
      rw [hn]
      simp only [Bool.false_eq_true, false_iff]
      omega
    rw [if_neg h1]
    by_cases h2 : (p : ℤ) = 2
    · rw [if_pos h2]
      refine ⟨_, rfl, ?_⟩
      have h2' : p = 2 := by exact_mod_cast h2
      subst h2'
      rw [hn, isSq_int_two (by exact_mod_cast hpu), Eclib.Marith.posmod_pos _ _ (by norm_num)]
      simp only [decide_eq_true_eq]
      omega
    · have h2' : p ≠ 2 := by exact_mod_cast h2
      rw [if_neg h2, Eclib.Marith.legendre_eq u p (hp.out.odd_of_ne_two h2')]
      refine ⟨_, rfl, ?_⟩
      rw [hn, ← jacobiSym.legendreSym.to_jacobiSym]
      simp only [decide_eq_true_eq]
      rw [legendreSym.eq_one_iff p (ne_zero_of_not_dvd hpu)]
      constructor
      · intro h3
        exact ⟨by omega, padic_of_isSquare h2' hpu h3⟩
      · rintro ⟨-, z, hz⟩
        exact isSquare_of_padic hz

/-- the polynomial over `ℤ_p` -/
noncomputable def G (a b c d e : ℤ) (t : ℤ_[p]) : ℤ_[p] := a * t ^ 4 + b * t ^ 3 + c * t ^ 2 + d * t + e

/-- `g` takes a square value at some p-adic integer congruent to `x` modulo `p^nu` -/
def SolNear (p : ℕ) [Fact p.Prime] (a b c d e x : ℤ) (nu : ℕ) : Prop :=
  ∃ t : ℤ_[p], IsSq (G a b c d e ((x : ℤ_[p]) + (p : ℤ_[p]) ^ nu * t))

theorem G_int (a b c d e x : ℤ) : G a b c d e (x : ℤ_[p]) = ((gx a b c d e x : ℤ) : ℤ_[p]) := by
  unfold G gx
  push_cast
  ring

/-- Taylor expansion -/
theorem G_add (a b c d e x : ℤ) (h : ℤ_[p]) : G a b c d e ((x : ℤ_[p]) + h) =
    ((gx a b c d e x : ℤ) : ℤ_[p]) + ((gdashx a b c d x : ℤ) : ℤ_[p]) * h + h ^ 2 *
      (((6 * a * x ^ 2 + 3 * b * x + c : ℤ) : ℤ_[p]) + ((4 * a * x + b : ℤ) : ℤ_[p]) * h +
        (a : ℤ_[p]) * h ^ 2) := by
  unfold G gx gdashx
  push_cast
  ring

/-- modulo `p^m`, if `p^m` divides `p^nu * g'(x)` and `m ≤ 2*nu` -/
theorem G_congr {a b c d e x : ℤ} {nu m : ℕ} (h2 : m ≤ 2 * nu)
    (h : (p : ℤ) ^ m ∣ (p : ℤ) ^ nu * gdashx a b c d x) (t : ℤ_[p]) :
    ∃ s, G a b c d e ((x : ℤ_[p]) + (p : ℤ_[p]) ^ nu * t) =
      ((gx a b c d e x : ℤ) : ℤ_[p]) + (p : ℤ_[p]) ^ m * s := by
  obtain ⟨w, hw⟩ := h
  obtain ⟨k, hk⟩ := Nat.exists_eq_add_of_le h2
  have hw' : (p : ℤ_[p]) ^ nu * ((gdashx a b c d x : ℤ) : ℤ_[p]) = (p : ℤ_[p]) ^ m * (w : ℤ_[p]) := by
    exact_mod_cast congrArg (fun n : ℤ => (n : ℤ_[p])) hw
  have hk' : ((p : ℤ_[p]) ^ nu) ^ 2 = (p : ℤ_[p]) ^ m * (p : ℤ_[p]) ^ k := by
    rw [← pow_mul, ← pow_add, mul_comm nu 2, hk]
  rw [G_add]
  refine ⟨w * t + (p : ℤ_[p]) ^ k * t ^ 2 *
      (((6 * a * x ^ 2 + 3 * b * x + c : ℤ) : ℤ_[p]) + ((4 * a * x + b : ℤ) : ℤ_[p]) *
        ((p : ℤ_[p]) ^ nu * t) + (a : ℤ_[p]) * ((p : ℤ_[p]) ^ nu * t) ^ 2), ?_⟩
  generalize (((6 * a * x ^ 2 + 3 * b * x + c : ℤ) : ℤ_[p]) + ((4 * a * x + b : ℤ) : ℤ_[p]) *
        ((p : ℤ_[p]) ^ nu * t) + (a : ℤ_[p]) * ((p : ℤ_[p]) ^ nu * t) ^ 2) = Q
  linear_combination t * hw' + t ^ 2 * Q * hk'

/-- odd `p`: a non-square stays one modulo a higher power of `p` -/
theorem nonsq_odd (hp2 : p ≠ 2) {u : ℤ} (hu : ¬ (p : ℤ) ∣ u) {l m : ℕ} (hlm : l < m)
    (h : ¬ IsSq ((p : ℤ_[p]) ^ l * (u : ℤ_[p]))) (s : ℤ_[p]) :
    ¬ IsSq ((p : ℤ_[p]) ^ l * (u : ℤ_[p]) + (p : ℤ_[p]) ^ m * s) := by
  obtain ⟨k, rfl⟩ := Nat.exists_eq_add_of_lt hlm
  have e : (p : ℤ_[p]) ^ l * (u : ℤ_[p]) + (p : ℤ_[p]) ^ (l + k + 1) * s =
      (p : ℤ_[p]) ^ l * ((u : ℤ_[p]) + p * ((p : ℤ_[p]) ^ k * s)) := by
    rw [pow_succ, pow_add]; ring
  rw [e, isSq_pow_mul _ (norm_unit_add (cast_unit hu)), isSq_odd_iff hp2 _ (cast_unit hu),
    ← isSq_pow_mul _ (cast_unit hu)]
  exact h

/-- `p = 2` -/
theorem nonsq_two {u : ℤ} (hu : ¬ (2 : ℤ) ∣ u) {l m : ℕ} (hlm : l < m)
    (h : ¬ IsSq ((2 : ℤ_[2]) ^ l * (u : ℤ_[2]))) (h1 : ¬ (l % 2 = 0 ∧ l + 1 = m))
    (h2 : ¬ (l % 2 = 0 ∧ l + 2 = m ∧ u % 4 = 1)) (s : ℤ_[2]) :
    ¬ IsSq ((2 : ℤ_[2]) ^ l * (u : ℤ_[2]) + (2 : ℤ_[2]) ^ m * s) := by
  have hun : ‖(u : ℤ_[2])‖ = 1 := cast_unit (p := 2) (by exact_mod_cast hu)
  obtain ⟨k, rfl⟩ := Nat.exists_eq_add_of_lt hlm
  have e : (2 : ℤ_[2]) ^ l * (u : ℤ_[2]) + (2 : ℤ_[2]) ^ (l + k + 1) * s =
      ((2 : ℕ) : ℤ_[2]) ^ l * ((u : ℤ_[2]) + ((2 : ℕ) : ℤ_[2]) * (2 ^ k * s)) := by
    push_cast
    rw [pow_succ, pow_add]; ring
  have h' : ¬ (l % 2 = 0 ∧ u % 8 = 1) := by
    rw [← isSq_int_two hu, ← isSq_pow_mul (p := 2) l hun]
    exact h
  rw [e, isSq_pow_mul _ (norm_unit_add hun), isSq_two_iff (norm_unit_add hun)]
  rintro ⟨h3, r, hr⟩
  push_cast at hr
  have h4 : 1 ≤ k := by omega
  obtain ⟨j, rfl⟩ := Nat.exists_eq_add_of_le h4
  -- modulo 4
  have h5 := dvd_of_padic (p := 2) (n := u - 1) (k := 2) (s := 2 * r - 2 ^ j * s) (by
    push_cast
    rw [pow_add] at hr
    linear_combination hr)
  norm_num at h5
  have h6 : 1 ≤ j := by
    by_contra h7
    exact h2 ⟨h3, by omega, by omega⟩
  obtain ⟨i, rfl⟩ := Nat.exists_eq_add_of_le h6
  have h7 := dvd_of_padic (p := 2) (n := u - 1) (k := 3) (s := r - 2 ^ i * s) (by
    push_cast
    rw [pow_add, pow_add] at hr
    linear_combination hr)
  norm_num at h7
  exact h' ⟨h3, by omega⟩

/-- the positive cases: with `v(g'(x)) = mu < nu`, `g` takes every value congruent to `g(x)` modulo
`p^(mu+nu)` in the class of `x` -/
theorem G_surj {a b c d e x : ℤ} {nu mu : ℕ} {w : ℤ} (hw : gdashx a b c d x = (p : ℤ) ^ mu * w)
    (hwu : ¬ (p : ℤ) ∣ w) (hlt : mu < nu) {y r : ℤ}
    (hy : gx a b c d e x = y + (p : ℤ) ^ (mu + nu) * r) :
    ∃ t : ℤ_[p], G a b c d e ((x : ℤ_[p]) + (p : ℤ_[p]) ^ nu * t) = (y : ℤ_[p]) := by
  obtain ⟨k, rfl⟩ := Nat.exists_eq_add_of_lt hlt
  obtain ⟨t, ht⟩ := hensel_lin (p := p) (r : ℤ_[p]) (w : ℤ_[p])
    ((p : ℤ_[p]) ^ k * ((6 * a * x ^ 2 + 3 * b * x + c : ℤ) : ℤ_[p]))
    ((p : ℤ_[p]) ^ k * (p : ℤ_[p]) ^ (mu + k + 1) * ((4 * a * x + b : ℤ) : ℤ_[p]))
    ((p : ℤ_[p]) ^ k * ((p : ℤ_[p]) ^ (mu + k + 1)) ^ 2 * (a : ℤ_[p])) (cast_unit hwu)
  refine ⟨t, ?_⟩
  rw [G_add, hw, hy]
  push_cast at ht ⊢
  have e1 : ((p : ℤ_[p]) ^ (mu + k + 1)) = (p : ℤ_[p]) ^ mu * (p : ℤ_[p]) ^ k * p := by
    rw [pow_succ, pow_add]
  have e2 : ((p : ℤ_[p]) ^ (mu + (mu + k + 1))) =
      (p : ℤ_[p]) ^ mu * ((p : ℤ_[p]) ^ mu * (p : ℤ_[p]) ^ k * p) := by
    rw [pow_add, e1]
  rw [e2]
  rw [e1] at ht ⊢
  linear_combination (p : ℤ_[p]) ^ mu * ((p : ℤ_[p]) ^ mu * (p : ℤ_[p]) ^ k * p) * ht

end Eclib.LocSol
