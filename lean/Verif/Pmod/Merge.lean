import Mathlib.Data.Nat.GCD.BigOperators
import Verif.Pmod.Order

/-!
# C68: tidy_lcm, merging of points, linear relations
-/

set_option linter.unusedSectionVars false

namespace Eclib.Pmod

variable {G : Type} [AddCommGroup G] [DecidableEq G] {κ : Type} [DecidableEq κ]

/-- `r ∣ t` prime to `gcd(t,g)` is prime to `g` -/
theorem coprime_via_gcd {r t g : ℤ} (h : IsCoprime r (Int.gcd t g : ℤ)) (hr : r ∣ t) :
    IsCoprime r g := by
  rw [Int.isCoprime_iff_gcd_eq_one] at h ⊢
  have h1 : (Int.gcd r g : ℤ) ∣ (Int.gcd r (Int.gcd t g : ℤ) : ℤ) :=
    Int.dvd_coe_gcd (Int.gcd_dvd_left _ _)
      (Int.dvd_coe_gcd ((Int.gcd_dvd_left _ _).trans hr) (Int.gcd_dvd_right _ _))
  rw [h] at h1
  have h2 : Int.gcd r g ∣ 1 := by exact_mod_cast h1
  exact Nat.dvd_one.1 h2

/-- the loop divides `m` by a number all of whose primes divide `g`, until it is prime to `g` -/
theorem tidyLoop_spec (m g : ℤ) (hm : 0 < m) (hg : 0 < g) (hgm : g ∣ m) :
    0 < tidyLoop m g ∧ tidyLoop m g ∣ m ∧ IsCoprime (tidyLoop m g) g ∧
      ∃ k : ℕ, m / tidyLoop m g ∣ g ^ k := by
  induction m, g using tidyLoop.induct with
  | case1 m g h ih =>
    rw [tidyLoop, dif_pos h]
    obtain ⟨t, ht⟩ := hgm
    have hq : m / g = t := by rw [ht, Int.mul_ediv_cancel_left _ (by omega)]
    rw [hq] at ih ⊢
    have ht0 : 0 < t := by
      by_contra hc
      have : g * t ≤ 0 := mul_nonpos_of_nonneg_of_nonpos (by omega) (by omega)
      omega
    have hg0 : 0 < (Int.gcd t g : ℤ) := by
      have := Int.gcd_pos_of_ne_zero_left g (a := t) (by omega)
      omega
    obtain ⟨h1, h2, h3, k, h4⟩ := ih ht0 hg0 (Int.gcd_dvd_left t g)
    obtain ⟨r, hr⟩ : ∃ r, r = tidyLoop t (Int.gcd t g) := ⟨_, rfl⟩
    rw [← hr] at h1 h2 h3 h4 ⊢
    obtain ⟨s, hs⟩ := h2
    have e1 : t / r = s := by rw [hs, Int.mul_ediv_cancel_left _ (by omega)]
    have e2 : m / r = g * s := by
      rw [ht, hs, show g * (r * s) = r * (g * s) by ring, Int.mul_ediv_cancel_left _ (by omega)]
    refine ⟨h1, ⟨g * s, by rw [ht, hs]; ring⟩, coprime_via_gcd h3 ⟨s, hs⟩, k + 1, ?_⟩
    rw [e2, pow_succ']
    rw [e1] at h4
    exact mul_dvd_mul_left _ (h4.trans (pow_dvd_pow_of_dvd (Int.gcd_dvd_right t g) k))
  | case2 m g h =>
    rw [tidyLoop, dif_neg h]
    have : g = 1 := by omega
    subst this
    exact ⟨hm, dvd_refl _, isCoprime_one_right, 0, by rw [Int.ediv_self (by omega), pow_zero]⟩

/-- **C68 (tidy_lcm).** For positive `m`, `n`: the result is their lcm and they are replaced by
coprime divisors of `m` and of `n` whose product is that lcm. -/
theorem C68_tidy_lcm (m n : ℤ) (hm : 0 < m) (hn : 0 < n) :
    (tidyLcm m n).1 = Int.lcm m n ∧
    0 < (tidyLcm m n).2.1 ∧ 0 < (tidyLcm m n).2.2 ∧
    (tidyLcm m n).2.1 ∣ m ∧ (tidyLcm m n).2.2 ∣ n ∧
    IsCoprime (tidyLcm m n).2.1 (tidyLcm m n).2.2 ∧
    (tidyLcm m n).2.1 * (tidyLcm m n).2.2 = Int.lcm m n := by
  unfold tidyLcm
  simp only []
  obtain ⟨g, hg⟩ : ∃ g : ℤ, g = Int.gcd m n := ⟨_, rfl⟩
  rw [← hg]
  have hg0 : 0 < g := by
    have := Int.gcd_pos_of_ne_zero_left n (a := m) (by omega)
    omega
  obtain ⟨a, ha⟩ : g ∣ m := hg ▸ Int.gcd_dvd_left m n
  obtain ⟨b, hb⟩ : g ∣ n := hg ▸ Int.gcd_dvd_right m n
  have hb0 : 0 < b := by nlinarith
  have ha0 : 0 < a := by nlinarith
  have hab : IsCoprime a b := by
    rw [Int.isCoprime_iff_gcd_eq_one]
    have : Int.gcd m n = g.natAbs * Int.gcd a b := by rw [ha, hb, Int.gcd_mul_left]
    have h2 : g.natAbs * 1 = g.natAbs * Int.gcd a b := by rw [← this, mul_one]; omega
    exact (Nat.eq_of_mul_eq_mul_left (by omega) h2).symm
  have hnb : n / g = b := by rw [hb, Int.mul_ediv_cancel_left _ (by omega)]
  have hl : m * n / g = m * b := by
    rw [hb, show m * (g * b) = g * (m * b) by ring, Int.mul_ediv_cancel_left _ (by omega)]
  rw [hnb, hl]
  have hlcm : (Int.lcm m n : ℤ) = m * b := by
    have h1 := Int.gcd_mul_lcm m n
    have h2 : (Int.gcd m n : ℤ) * Int.lcm m n = m * n := by
      have : ((Int.gcd m n * Int.lcm m n : ℕ) : ℤ) = ((m * n).natAbs : ℤ) := by rw [h1, Int.natAbs_mul]
      rw [Int.natAbs_of_nonneg (by positivity)] at this
      exact_mod_cast this
    rw [← hg] at h2
    have h3 : g * (Int.lcm m n : ℤ) = g * (m * b) := by rw [h2, hb]; ring
    exact mul_left_cancel₀ (by omega) h3
  have hg20 : 0 < (Int.gcd m b : ℤ) := by
    have := Int.gcd_pos_of_ne_zero_left b (a := m) (by omega)
    omega
  obtain ⟨h1, h2, h3, k, h4⟩ := tidyLoop_spec m (Int.gcd m b) hm hg20 (Int.gcd_dvd_left m b)
  obtain ⟨r, hr⟩ : ∃ r, r = tidyLoop m (Int.gcd m b) := ⟨_, rfl⟩
  rw [← hr] at h1 h2 h3 h4 ⊢
  obtain ⟨s, hs⟩ := h2
  have hs0 : 0 < s := by nlinarith
  have e1 : m / r = s := by rw [hs, Int.mul_ediv_cancel_left _ (by omega)]
  have e2 : m * b / r = s * b := by
    rw [hs, mul_assoc, Int.mul_ediv_cancel_left _ (by omega)]
  rw [e1] at h4
  rw [e2]
  have hrb : IsCoprime r b := coprime_via_gcd h3 ⟨s, hs⟩
  have hrs : IsCoprime r s := (h3.pow_right (n := k)).of_isCoprime_of_dvd_right h4
  have hsa : IsCoprime s a :=
    (hab.symm.pow_left (m := k)).of_isCoprime_of_dvd_left
      (h4.trans (pow_dvd_pow_of_dvd (Int.gcd_dvd_right m b) k))
  have hsg : s ∣ g := hsa.dvd_of_dvd_mul_right (by rw [← ha]; exact ⟨r, by rw [hs]; ring⟩)
  refine ⟨hlcm.symm, h1, by positivity, ⟨s, hs⟩, ?_, hrs.mul_right hrb, ?_⟩
  · rw [hb]
    exact mul_dvd_mul_right hsg b
  · rw [hlcm, hs]; ring

/-- order of a multiple by a quotient of the order -/
theorem order_quot {P : G} {n d : ℤ} (hn : (addOrderOf P : ℤ) = n) (hn0 : 0 < n) (hd : d ∣ n)
    (hd0 : 0 < d) : (addOrderOf ((n / d) • P) : ℤ) = d := by
  obtain ⟨e, rfl⟩ := hd
  have he0 : 0 < e := by nlinarith
  rw [Int.mul_ediv_cancel_left _ (by omega)]
  obtain ⟨d', rfl⟩ : ∃ d' : ℕ, d = d' := ⟨d.toNat, by omega⟩
  obtain ⟨e', rfl⟩ : ∃ e' : ℕ, e = e' := ⟨e.toNat, by omega⟩
  have hn' : addOrderOf P = d' * e' := by exact_mod_cast hn
  rw [natCast_zsmul, addOrderOf_nsmul' P (by omega), hn',
    Nat.gcd_eq_right (dvd_mul_left _ _), Nat.mul_div_cancel _ (by omega)]

/-- **C68 (merge_points_1).** `P` of order `ordP` is replaced by a point whose order is the lcm of
`ordP` and the order of `Q`, and `ordP` by that lcm; the new point is in the group generated by the
two. -/
theorem C68_merge1 (ord : G → ℤ) (P Q : G) (ordP : ℤ) (hP : (addOrderOf P : ℤ) = ordP)
    (hP0 : 0 < ordP) (hord : ord Q = addOrderOf Q) (hQ0 : 0 < addOrderOf Q) :
    (addOrderOf (merge1 ord P ordP Q).1 : ℤ) = (merge1 ord P ordP Q).2 ∧
    (merge1 ord P ordP Q).2 = Int.lcm ordP (addOrderOf Q) ∧
    ∃ a b : ℤ, (merge1 ord P ordP Q).1 = a • P + b • Q := by
  unfold merge1
  by_cases h1 : ordP • Q = 0
  · rw [if_pos h1]
    have hd : (addOrderOf Q : ℤ) ∣ ordP := addOrderOf_dvd_iff_zsmul_eq_zero.2 h1
    refine ⟨hP, ?_, 1, 0, by simp⟩
    have h3 : Int.lcm ordP (addOrderOf Q) = ordP.natAbs := by
      rw [Int.lcm, Int.natAbs_natCast]
      exact Nat.lcm_eq_left (Int.natCast_dvd.1 hd)
    rw [h3, Int.natAbs_of_nonneg hP0.le]
  rw [if_neg h1]
  simp only []
  rw [hord]
  by_cases h2 : (addOrderOf Q : ℤ) % ordP = 0
  · rw [if_pos h2]
    have hd : ordP ∣ (addOrderOf Q : ℤ) := Int.dvd_of_emod_eq_zero h2
    have h3 : Int.lcm ordP (addOrderOf Q) = addOrderOf Q := by
      rw [Int.lcm, Int.natAbs_natCast]
      exact Nat.lcm_eq_right (Int.natAbs_dvd_natAbs.2 hd |>.trans (by rw [Int.natAbs_natCast]))
    exact ⟨rfl, by rw [h3], 0, 1, by simp⟩
  rw [if_neg h2]
  obtain ⟨c1, c2, c3, c4, c5, c6, c7⟩ := C68_tidy_lcm ordP (addOrderOf Q) hP0 (by exact_mod_cast hQ0)
  obtain ⟨⟨l, a, b⟩, ht⟩ : ∃ x, x = tidyLcm ordP (addOrderOf Q) := ⟨_, rfl⟩
  rw [← ht] at c1 c2 c3 c4 c5 c6 c7 ⊢
  simp only [] at c1 c2 c3 c4 c5 c6 c7 ⊢
  have o1 := order_quot hP hP0 c4 c2
  have o2 := order_quot (P := Q) rfl (by exact_mod_cast hQ0) c5 c3
  refine ⟨?_, c1, _, _, rfl⟩
  have hcop : Nat.Coprime (addOrderOf ((ordP / a) • P)) (addOrderOf (((addOrderOf Q : ℤ) / b) • Q)) := by
    rw [← Nat.isCoprime_iff_coprime, o1, o2]
    exact c6
  have := (AddCommute.all ((ordP / a) • P) (((addOrderOf Q : ℤ) / b) • Q)).addOrderOf_add_eq_mul_addOrderOf_of_coprime hcop
  rw [this]
  push_cast
  rw [o1, o2, c7, c1]

/-- neither order divides the other, and the common part is divided unevenly -/
example : tidyLcm 12 90 = (180, 4, 45) := by decide +kernel

/-- points of orders 2 and 3 give a point of order 6 -/
example : (addOrderOf (merge1 (fun _ => 3) (3 • p7) 2 (2 • p7)).1 : ℤ) =
    (merge1 (fun _ => 3) (3 • p7) 2 (2 • p7)).2 ∧
    merge1 (fun _ => 3) (3 • p7) 2 (2 • p7) = (5 • p7, 6) :=
  ⟨(C68_merge1 _ _ _ 2 (by rw [p7_order_three]; rfl) (by omega) (by rw [p7_order_two]; rfl)
    (by rw [p7_order_two]; omega)).1, by decide +kernel⟩

end Eclib.Pmod
