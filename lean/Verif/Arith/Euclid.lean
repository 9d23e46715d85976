import Verif.Arith.Lemmas

/-!
# Sizes of the coefficients in the extended Euclidean algorithm with truncating division
-/

namespace Eclib.Arith

/-- What one coefficient column `(oldx, x)` of the loop satisfies: `a, b` are the current remainders
(of either sign) and `M` is the constant of the column. -/
structure Column (M a b oldx x : Int) : Prop where
  size : |x| * |a| + |oldx| * |b| = M
  alt : oldx * x * (a * b) ≤ 0

theorem tdiv_sign (a b : Int) : 0 ≤ a.tdiv b * (a * b) := by
  rcases le_total 0 a with ha | ha <;> rcases le_total 0 b with hb | hb
  · exact mul_nonneg (Int.tdiv_nonneg ha hb) (mul_nonneg ha hb)
  · exact mul_nonneg_of_nonpos_of_nonpos (Int.tdiv_nonpos_of_nonneg_of_nonpos ha hb)
      (mul_nonpos_of_nonneg_of_nonpos ha hb)
  · have h : a.tdiv b ≤ 0 := by
      have := Int.tdiv_nonneg (a := -a) (b := b) (by omega) hb
      rw [Int.neg_tdiv] at this; omega
    exact mul_nonneg_of_nonpos_of_nonpos h (mul_nonpos_of_nonpos_of_nonneg ha hb)
  · have h : 0 ≤ a.tdiv b := by
      have := Int.tdiv_nonneg (a := -a) (b := -b) (by omega) (by omega)
      rw [Int.neg_tdiv, Int.tdiv_neg] at this; omega
    exact mul_nonneg h (mul_nonneg_of_nonpos_of_nonpos ha hb)

theorem tmod_sign (a b : Int) : 0 ≤ a.tmod b * a := by
  rcases le_total 0 a with ha | ha
  · exact mul_nonneg (Int.tmod_nonneg _ ha) ha
  · have := Int.tmod_nonneg (a := -a) b (by omega)
    rw [Int.neg_tmod] at this
    exact mul_nonneg_of_nonpos_of_nonpos (by omega) ha

theorem abs_tdiv_tmod (a b : Int) : |a.tdiv b| * |b| + |a.tmod b| = |a| := by
  have h := Int.tmod_add_mul_tdiv a b
  have h1 := tdiv_sign a b
  have h2 := tmod_sign a b
  rw [← abs_mul]
  rcases lt_trichotomy a 0 with ha | ha | ha
  · have q1 : a.tmod b ≤ 0 := by nlinarith
    have q2 : a.tdiv b * b ≤ 0 := by nlinarith
    rw [abs_of_nonpos q1, abs_of_nonpos q2, abs_of_neg ha]; linarith
  · subst ha; simp
  · have q1 : 0 ≤ a.tmod b := by nlinarith
    have q2 : 0 ≤ a.tdiv b * b := by nlinarith
    rw [abs_of_nonneg q1, abs_of_nonneg q2, abs_of_pos ha]; linarith

theorem Column.sign_q {M a b oldx x : Int} (h : Column M a b oldx x) (hb : b ≠ 0) :
    oldx * (a.tdiv b * x) ≤ 0 := by
  have h1 := tdiv_sign a b
  have h2 := h.alt
  rcases lt_trichotomy (a * b) 0 with hab | hab | hab
  · have q : a.tdiv b ≤ 0 := by nlinarith
    have p : 0 ≤ oldx * x := by nlinarith
    nlinarith
  · have ha : a = 0 := by
      rcases mul_eq_zero.mp hab with h | h
      · exact h
      · exact absurd h hb
    subst ha; simp
  · have q : 0 ≤ a.tdiv b := by nlinarith
    have p : oldx * x ≤ 0 := by nlinarith
    nlinarith

theorem abs_sub_of_opp {u v : Int} (h : u * v ≤ 0) : |u - v| = |u| + |v| := by
  rcases mul_nonpos_iff.mp h with ⟨h1, h2⟩ | ⟨h1, h2⟩
  · rw [abs_of_nonneg h1, abs_of_nonpos h2, abs_of_nonneg (by omega)]; ring
  · rw [abs_of_nonpos h1, abs_of_nonneg h2, abs_of_nonpos (by omega)]; ring

/-- One step of the loop keeps the column invariant. -/
theorem Column.step {M a b oldx x : Int} (h : Column M a b oldx x) (hb : b ≠ 0) :
    Column M b (a - a.tdiv b * b) x (oldx - a.tdiv b * x) := by
  have hc : a - a.tdiv b * b = a.tmod b := by
    have := Int.tmod_add_mul_tdiv a b
    linarith [mul_comm b (a.tdiv b)]
  rw [hc]
  refine ⟨?_, ?_⟩
  · rw [abs_sub_of_opp (h.sign_q hb), abs_mul]
    have e := abs_tdiv_tmod a b
    have := h.size
    rw [← e] at this
    linear_combination this
  · -- sign of x * newx * (b * c), c has the sign of a
    have h1 := h.alt
    have h2 := tmod_sign a b
    have h3 := tdiv_sign a b
    have key : x * (oldx - a.tdiv b * x) * (b * a) ≤ 0 := by
      have : x * (oldx - a.tdiv b * x) * (b * a) =
          oldx * x * (a * b) - x * x * (a.tdiv b * (a * b)) := by ring
      rw [this]
      have := mul_nonneg (mul_self_nonneg x) h3
      omega
    rcases lt_trichotomy a 0 with ha | ha | ha
    · have hm : a.tmod b ≤ 0 := by nlinarith
      have : 0 ≤ x * (oldx - a.tdiv b * x) * b := by nlinarith
      nlinarith
    · subst ha; simp
    · have hm : 0 ≤ a.tmod b := by nlinarith
      have : x * (oldx - a.tdiv b * x) * b ≤ 0 := by nlinarith
      nlinarith

theorem Column.bound_x {M a b oldx x : Int} (h : Column M a b oldx x) (ha : a ≠ 0) : |x| ≤ M := by
  have h1 := h.size
  have h2 : 1 ≤ |a| := Int.one_le_abs ha
  have h3 := mul_nonneg (abs_nonneg oldx) (abs_nonneg b)
  nlinarith [abs_nonneg x]

theorem Column.bound_oldx {M a b oldx x : Int} (h : Column M a b oldx x) (hb : b ≠ 0) :
    |oldx| ≤ M := by
  have h1 := h.size
  have h2 : 1 ≤ |b| := Int.one_le_abs hb
  have h3 := mul_nonneg (abs_nonneg x) (abs_nonneg a)
  nlinarith [abs_nonneg oldx]

end Eclib.Arith
