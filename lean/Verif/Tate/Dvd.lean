import Mathlib.Tactic.Ring
import Mathlib.Tactic.LinearCombination
import Mathlib.Algebra.GCDMonoid.Nat
import Mathlib.RingTheory.Int.Basic

/-!
# Divisibility of polynomial expressions by powers of a prime

A class that computes, by instance resolution, a power of `p` dividing a polynomial expression from
the powers dividing its atoms.
-/

namespace Eclib.Tate

/-- `p^n` divides `x` -/
class Val (p x : ℤ) (n : outParam ℕ) : Prop where
  dvd : p ^ n ∣ x

namespace Val

variable {p x y : ℤ} {m n : ℕ}

instance (priority := 10) fallback : Val p x 0 := ⟨by simp⟩
instance (priority := 100) self : Val p p 1 := ⟨by simp⟩
instance (priority := 2000) selfPow (k : ℕ) : Val p (p ^ k) k := ⟨dvd_rfl⟩
instance (priority := 500) mul [h : Val p x m] [h' : Val p y n] : Val p (x * y) (m + n) :=
  ⟨by rw [pow_add]; exact mul_dvd_mul h.dvd h'.dvd⟩
instance (priority := 500) pow (k : ℕ) [h : Val p x m] : Val p (x ^ k) (k * m) :=
  ⟨by rw [mul_comm, pow_mul]; exact pow_dvd_pow_of_dvd h.dvd k⟩
instance (priority := 500) add [h : Val p x m] [h' : Val p y n] : Val p (x + y) (min m n) :=
  ⟨dvd_add ((pow_dvd_pow p (min_le_left _ _)).trans h.dvd)
    ((pow_dvd_pow p (min_le_right _ _)).trans h'.dvd)⟩
instance (priority := 500) sub [h : Val p x m] [h' : Val p y n] : Val p (x - y) (min m n) :=
  ⟨dvd_sub ((pow_dvd_pow p (min_le_left _ _)).trans h.dvd)
    ((pow_dvd_pow p (min_le_right _ _)).trans h'.dvd)⟩
instance (priority := 500) neg [h : Val p x m] : Val p (-x) m := ⟨(dvd_neg).2 h.dvd⟩

theorem le [h : Val p x n] (hm : m ≤ n) : p ^ m ∣ x := (pow_dvd_pow p hm).trans h.dvd
theorem one [h : Val p x n] (hm : 1 ≤ n) : p ∣ x := by simpa using h.le hm

theorem of1 (h : p ∣ x) : Val p x 1 := ⟨by simpa using h⟩

end Val

/-- prove `p ^ m ∣ E` or `p ∣ E` from `Val` instances in the context -/
macro "pv" : tactic => `(tactic| first
  | exact Val.le (by omega)
  | exact Val.one (by omega))

example (p a b r : ℤ) (k : ℕ) [Val p a (k + 1)] [Val p b (k + 2)] [Val p r 1] :
    p ^ (2 * k + 2) ∣ 3 * a ^ 2 - r * a * b + p ^ (k + 2) * a + r ^ 2 * p ^ (2 * k) := by pv

/-- exact division of squares -/
theorem dvd_of_sq {p : ℤ} (hp : Prime p) : ∀ (j : ℕ) {n : ℕ} {t : ℤ}, 2 * j + 1 ≤ n → p ^ n ∣ t ^ 2 →
    p ^ (j + 1) ∣ t
  | 0, n, t, hn, h => by
    have : p ∣ t ^ 2 := (dvd_pow_self p (by omega)).trans h
    simpa using hp.dvd_of_dvd_pow this
  | j + 1, n, t, hn, h => by
    obtain ⟨m, rfl⟩ : ∃ m, n = m + 2 := ⟨n - 2, by omega⟩
    have hpt : p ∣ t := hp.dvd_of_dvd_pow ((dvd_pow_self p (by omega)).trans h)
    obtain ⟨u, rfl⟩ := hpt
    have h2 : p ^ m ∣ u ^ 2 := by
      have : p ^ 2 * p ^ m ∣ p ^ 2 * u ^ 2 := by
        have e : p ^ (m + 2) = p ^ 2 * p ^ m := by ring
        rw [← e]; convert h using 1; ring
      exact (mul_dvd_mul_iff_left (pow_ne_zero 2 hp.ne_zero)).1 this
    have := dvd_of_sq hp j (by omega) h2
    rw [pow_succ']
    exact mul_dvd_mul_left p this

/-- exact division of cubes -/
theorem dvd_of_cube {p : ℤ} (hp : Prime p) {r : ℤ} (h : p ^ 4 ∣ r ^ 3) : p ^ 2 ∣ r := by
  have hpr : p ∣ r := hp.dvd_of_dvd_pow ((dvd_pow_self p (by omega)).trans h)
  obtain ⟨u, rfl⟩ := hpr
  have h2 : p ∣ u ^ 3 := by
    have : p ^ 3 * p ∣ p ^ 3 * u ^ 3 := by
      have e : p ^ 4 = p ^ 3 * p := by ring
      rw [← e]; convert h using 1; ring
    exact (mul_dvd_mul_iff_left (pow_ne_zero 3 hp.ne_zero)).1 this
  have := hp.dvd_of_dvd_pow h2
  rw [pow_two]
  exact mul_dvd_mul_left p this

end Eclib.Tate
