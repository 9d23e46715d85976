import Verif.Mw.Model
import Mathlib.Tactic.Linarith
import Mathlib.Tactic.Ring
import Mathlib.Tactic.FieldSimp
import Mathlib.Tactic.LinearCombination
import Mathlib.Tactic.Positivity
import Mathlib.Tactic.NormNum
import Mathlib.RingTheory.Coprime.Lemmas
import Mathlib.RingTheory.Int.Basic
import Mathlib.Algebra.Order.Field.Basic
import Mathlib.Data.Rat.Floor

/-!
# Rational approximation: `ratapprox` of libsrc/marith.cc
-/

namespace Eclib.Mw

set_option linter.unusedSectionVars false

variable {K : Type} [Field K] [LinearOrder K] [IsStrictOrderedRing K] [FloorRing K]

theorem rnd_le (x : K) : |x - (rnd x : K)| ≤ 1 / 2 := by
  unfold rnd
  split_ifs with h
  · have h1 := Int.floor_le (x + 1 / 2)
    have h2 := Int.lt_floor_add_one (x + 1 / 2)
    rw [abs_le]
    constructor <;> linarith
  · have h1 := Int.floor_le (-x + 1 / 2)
    have h2 := Int.lt_floor_add_one (-x + 1 / 2)
    rw [abs_le]
    push_cast
    constructor <;> linarith

/-- the invariant of the loop after `k` iterations -/
structure RInv (x xx : K) (x0 x1 y0 y1 : ℤ) (k : ℕ) : Prop where
  eq : x * (y0 + xx * y1) = x0 + xx * x1
  det : x1 * y0 - x0 * y1 = 1 ∨ x1 * y0 - x0 * y1 = -1
  grow : (y0 = 1 ∧ y1 = 0 ∧ k = 0) ∨ (2 ≤ |xx| ∧ |y0| + 1 ≤ |y1| ∧ (k : ℤ) ≤ |y1|)

theorem c_two {xx : K} (h : 2 ≤ |xx|) : 2 ≤ |rnd xx| := by
  have h1 := rnd_le xx
  by_contra hc
  have : |rnd xx| ≤ 1 := by omega
  have h3 : |(rnd xx : K)| ≤ 1 := by exact_mod_cast this
  have h4 : |xx| ≤ |xx - rnd xx| + |(rnd xx : K)| := by
    simpa using abs_add_le (xx - rnd xx) (rnd xx : K)
  linarith

namespace RInv

variable {x xx : K} {x0 x1 y0 y1 : ℤ} {k : ℕ}

theorem y2_ge (I : RInv x xx x0 x1 y0 y1 k) : |y1| + 1 ≤ |y0 + rnd xx * y1| ∧ (k : ℤ) + 1 ≤ |y0 + rnd xx * y1| := by
  rcases I.grow with ⟨rfl, rfl, rfl⟩ | ⟨h1, h2, h3⟩
  · simp
  · have h4 := c_two h1
    have h5 : 2 * |y1| ≤ |rnd xx * y1| := by
      rw [abs_mul]
      exact mul_le_mul_of_nonneg_right h4 (abs_nonneg _)
    have h6 : |rnd xx * y1| ≤ |y0 + rnd xx * y1| + |y0| := by
      have := abs_sub (y0 + rnd xx * y1) y0
      simpa using this
    constructor <;> omega

theorem den_ge (I : RInv x xx x0 x1 y0 y1 k) : 1 ≤ |(y0 : K) + xx * y1| := by
  rcases I.grow with ⟨rfl, rfl, rfl⟩ | ⟨h1, h2, h3⟩
  · simp
  · have h5 : 2 * |(y1 : K)| ≤ |xx * y1| := by
      rw [abs_mul]
      exact mul_le_mul_of_nonneg_right h1 (abs_nonneg _)
    have h6 : |xx * y1| ≤ |(y0 : K) + xx * y1| + |(y0 : K)| := by
      have := abs_sub ((y0 : K) + xx * y1) y0
      simpa using this
    have h7 : |(y0 : K)| + 1 ≤ |(y1 : K)| := by exact_mod_cast h2
    have := abs_nonneg (y0 : K)
    linarith

theorem err (I : RInv x xx x0 x1 y0 y1 k) :
    |x - ((x0 + rnd xx * x1 : ℤ) : K) / ((y0 + rnd xx * y1 : ℤ) : K)| * (|((y0 + rnd xx * y1 : ℤ) : K)| * |(y0 : K) + xx * y1|) = |xx - rnd xx| := by
  have h1 := I.y2_ge
  have hy : ((y0 + rnd xx * y1 : ℤ) : K) ≠ 0 := by
    intro h0
    have : y0 + rnd xx * y1 = 0 := by exact_mod_cast h0
    rw [this] at h1
    have := abs_nonneg y1
    simp at h1
    omega
  rw [← abs_mul, ← abs_mul]
  have e : (x - ((x0 + rnd xx * x1 : ℤ) : K) / ((y0 + rnd xx * y1 : ℤ) : K)) * (((y0 + rnd xx * y1 : ℤ) : K) * ((y0 : K) + xx * y1)) =
      (xx - rnd xx) * ((x1 * y0 - x0 * y1 : ℤ) : K) := by
    have e2 : (x - ((x0 + rnd xx * x1 : ℤ) : K) / ((y0 + rnd xx * y1 : ℤ) : K)) * ((y0 + rnd xx * y1 : ℤ) : K) =
        x * ((y0 + rnd xx * y1 : ℤ) : K) - ((x0 + rnd xx * x1 : ℤ) : K) := by
      rw [sub_mul, div_mul_cancel₀ _ hy]
    rw [← mul_assoc, e2]
    push_cast
    linear_combination ((y0 : K) + rnd xx * y1) * I.eq
  rw [e, abs_mul]
  rcases I.det with h | h <;> rw [h] <;> simp

/-- the next state -/
theorem next (I : RInv x xx x0 x1 y0 y1 k) (h : xx - rnd xx ≠ 0) :
    RInv x (1 / (xx - rnd xx)) x1 (x0 + rnd xx * x1) y1 (y0 + rnd xx * y1) (k + 1) where
  eq := by
    push_cast
    field_simp
    linear_combination I.eq
  det := by
    rcases I.det with h | h
    · right
      linear_combination -h
    · left
      linear_combination -h
  grow := by
    right
    refine ⟨?_, I.y2_ge.1, ?_⟩
    · rw [abs_div, abs_one, le_div_iff₀ (abs_pos.2 h)]
      have := rnd_le xx
      linarith
    · push_cast
      exact I.y2_ge.2

end RInv

/-- what is known of the result -/
structure RRes (x : K) (a b : ℤ) : Prop where
  ne : b ≠ 0
  cop : IsCoprime a b
  near : |x - (a : K) / (b : K)| ≤ 1 / 10 ^ 7
  best : ∀ n d : ℤ, 0 < d → x = (n : K) / (d : K) → x ≠ (a : K) / (b : K) → |b| ≤ d

theorem RInv.res {x xx : K} {x0 x1 y0 y1 : ℤ} {k : ℕ} (I : RInv x xx x0 x1 y0 y1 k)
    (h : |x - ((x0 + rnd xx * x1 : ℤ) : K) / ((y0 + rnd xx * y1 : ℤ) : K)| ≤ 1 / 10 ^ 7) :
    RRes x (x0 + rnd xx * x1) (y0 + rnd xx * y1) := by
  have hy2 := I.y2_ge
  refine ⟨?_, ?_, h, ?_⟩
  · intro h0
    rw [h0] at hy2
    have := abs_nonneg y1
    simp at hy2
    omega
  · rcases I.det with h | h
    · exact ⟨-y1, x1, by linear_combination h⟩
    · exact ⟨y1, -x1, by linear_combination -h⟩
  · intro n d hd hx hne
    have hd' : (d : K) ≠ 0 := by exact_mod_cast hd.ne'
    -- u, v
    have h1 : xx * ((d * x1 - n * y1 : ℤ) : K) = ((n * y0 - d * x0 : ℤ) : K) := by
      have := I.eq
      rw [hx] at this
      field_simp at this
      push_cast
      linear_combination -this
    set u := d * x1 - n * y1 with hu
    set v := n * y0 - d * x0 with hv
    have huv : u * y0 + v * y1 = d ∨ u * y0 + v * y1 = -d := by
      rcases I.det with h | h
      · left
        rw [hu, hv]
        linear_combination d * h
      · right
        rw [hu, hv]
        linear_combination d * h
    set w := v - rnd xx * u with hw
    have h2 : (w : K) = (xx - rnd xx) * u := by
      rw [hw]
      push_cast
      linear_combination -h1
    have hw0 : w ≠ 0 := by
      intro h0
      apply hne
      have h3 : (xx - rnd xx) * (u : K) = 0 := by rw [← h2, h0]; simp
      have hxx : xx = rnd xx := by
        rcases mul_eq_zero.1 h3 with h | h
        · linear_combination h
        · exfalso
          have hu0 : u = 0 := by exact_mod_cast h
          have hv0 : v = 0 := by
            rw [hu0] at h1
            simp only [Int.cast_zero, mul_zero] at h1
            exact_mod_cast h1.symm
          rw [hu0, hv0] at huv
          omega
      have := I.err
      have e0 : |xx - (rnd xx : K)| = 0 := by rw [abs_eq_zero]; linear_combination hxx
      rw [e0] at this
      have hne2 : |((y0 + rnd xx * y1 : ℤ) : K)| * |(y0 : K) + xx * y1| ≠ 0 := by
        refine mul_ne_zero ?_ ?_
        · have : (1 : ℤ) ≤ |y0 + rnd xx * y1| := by have := abs_nonneg y1; omega
          have : (1 : K) ≤ |((y0 + rnd xx * y1 : ℤ) : K)| := by exact_mod_cast this
          linarith
        · have := I.den_ge
          linarith
      rcases mul_eq_zero.1 this with h | h
      · rw [abs_eq_zero] at h
        linear_combination h
      · exact absurd h hne2
    have h3 : 2 * |w| ≤ |u| := by
      have : |(w : K)| ≤ 1 / 2 * |(u : K)| := by
        rw [h2, abs_mul]
        exact mul_le_mul_of_nonneg_right (rnd_le xx) (abs_nonneg _)
      have : 2 * |(w : K)| ≤ |(u : K)| := by linarith
      exact_mod_cast this
    have hw1 : 1 ≤ |w| := Int.one_le_abs hw0
    have h4 : |u * (y0 + rnd xx * y1) + w * y1| = d := by
      have e : u * (y0 + rnd xx * y1) + w * y1 = u * y0 + v * y1 := by rw [hw]; ring
      rw [e]
      rcases huv with h | h <;> rw [h]
      · exact abs_of_pos hd
      · rw [abs_neg]
        exact abs_of_pos hd
    have h5 : |u| * |y0 + rnd xx * y1| ≤ d + |w| * |y1| := by
      rw [← abs_mul, ← abs_mul, ← h4]
      have := abs_sub (u * (y0 + rnd xx * y1) + w * y1) (w * y1)
      simpa using this
    have h6 : |w| * |y1| ≤ |w| * |y0 + rnd xx * y1| := mul_le_mul_of_nonneg_left (by omega) (abs_nonneg _)
    nlinarith [abs_nonneg (y0 + rnd xx * y1)]

theorem raLoop_spec {x : K} : ∀ (f : ℕ) (xx : K) (x0 x1 y0 y1 : ℤ) (k : ℕ), RInv x xx x0 x1 y0 y1 k → k ≤ 5 * 10 ^ 6 → 5 * 10 ^ 6 < f + k →
    ∃ a b, raLoop 0 x f xx x0 x1 y0 y1 = some (a, b) ∧ RRes x a b := by
  intro f
  induction f with
  | zero =>
    intro xx x0 x1 y0 y1 k I hb hk
    omega
  | succ f ih =>
    intro xx x0 x1 y0 y1 k I hb hk
    have hy2 := I.y2_ge
    have hne : y0 + rnd xx * y1 ≠ 0 := by
      intro h0
      rw [h0] at hy2
      have := abs_nonneg y1
      simp at hy2
      omega
    unfold raLoop
    rw [if_neg hne]
    have herr := I.err
    have hden := I.den_ge
    have hy2' : (1 : K) ≤ |((y0 + rnd xx * y1 : ℤ) : K)| := by
      have : (1 : ℤ) ≤ |y0 + rnd xx * y1| := by have := abs_nonneg y1; omega
      exact_mod_cast this
    set E := |x - ((x0 + rnd xx * x1 : ℤ) : K) / ((y0 + rnd xx * y1 : ℤ) : K)| with hE
    have hE0 : 0 ≤ E := abs_nonneg _
    have hle : E * |((y0 + rnd xx * y1 : ℤ) : K)| ≤ |xx - rnd xx| := by
      rw [← herr, ← mul_assoc]
      nlinarith [mul_nonneg hE0 (abs_nonneg ((y0 + rnd xx * y1 : ℤ) : K))]
    have hle1 : E ≤ |xx - rnd xx| := by nlinarith
    by_cases h1 : |xx - (rnd xx : K)| < 1 / 10 ^ 7
    · rw [if_pos h1]
      exact ⟨_, _, rfl, I.res (by rw [← hE]; linarith)⟩
    · rw [if_neg h1, if_neg (by simp)]
      by_cases h2 : E > 1 / 10 ^ 7
      · rw [if_pos h2]
        refine ih _ _ _ _ _ _ (I.next ?_) ?_ (by omega)
        · intro h0
          rw [h0] at h1
          norm_num at h1
        · have h3 : |((y0 + rnd xx * y1 : ℤ) : K)| < 5 * 10 ^ 6 := by
            have := rnd_le xx
            by_contra hc
            have : 1 / 10 ^ 7 * (5 * 10 ^ 6) < E * |((y0 + rnd xx * y1 : ℤ) : K)| :=
              mul_lt_mul h2 (not_lt.1 hc) (by norm_num) hE0
            have e5 : (1 / 10 ^ 7 * (5 * 10 ^ 6) : K) = 1 / 2 := by norm_num
            rw [e5] at this
            linarith
          have h4 : |y0 + rnd xx * y1| < 5 * 10 ^ 6 := by exact_mod_cast h3
          omega
      · rw [if_neg h2]
        exact ⟨_, _, rfl, I.res (by rw [← hE]; exact not_lt.1 h2)⟩

theorem rinv_init (x : K) : RInv x x 0 1 1 0 0 := ⟨by simp, by simp, Or.inl ⟨rfl, rfl, rfl⟩⟩

namespace Props

/-- `ratapprox` ends within five million and one iterations, with a fraction in lowest terms with positive denominator within `10⁻⁷` of
the argument, and with the argument itself if this is a fraction with denominator at most 3162 -/
theorem C117_ratapprox (x : K) (fuel : ℕ) (hf : 5 * 10 ^ 6 < fuel) :
    ∃ a b : ℤ, ratapprox fuel 0 x = some (a, b) ∧ 0 < b ∧ IsCoprime a b ∧ |x - (a : K) / (b : K)| ≤ 1 / 10 ^ 7 ∧
      ∀ n d : ℤ, 0 < d → d ≤ 3162 → x = (n : K) / (d : K) → IsCoprime n d → a = n ∧ b = d := by
  obtain ⟨a, b, h1, R⟩ := raLoop_spec fuel x 0 1 1 0 0 (rinv_init x) (by norm_num) (by omega)
  have key : ∀ n d : ℤ, 0 < d → d ≤ 3162 → x = (n : K) / (d : K) → x = (a : K) / (b : K) := by
    intro n d hd hd2 hx
    by_contra hne
    have hb := R.best n d hd hx hne
    have hd' : (d : K) ≠ 0 := by exact_mod_cast hd.ne'
    have hb' : (b : K) ≠ 0 := by exact_mod_cast R.ne
    have e : |x - (a : K) / (b : K)| * ((d : K) * |(b : K)|) = |((n * b - a * d : ℤ) : K)| := by
      rw [hx, ← abs_of_pos (show (0 : K) < d by exact_mod_cast hd), ← abs_mul, ← abs_mul, abs_of_pos (show (0 : K) < d by exact_mod_cast hd)]
      congr 1
      push_cast
      field_simp
    have h2 : (n * b - a * d : ℤ) ≠ 0 := by
      intro h0
      rw [h0, hx] at e
      simp only [Int.cast_zero, abs_zero, mul_eq_zero, abs_eq_zero] at e
      rcases e with h | h | h
      · exact hne (by rw [hx]; linear_combination h)
      · exact hd' h
      · exact hb' h
    have h3 : (1 : K) ≤ |((n * b - a * d : ℤ) : K)| := by exact_mod_cast Int.one_le_abs h2
    have h4 : (d : K) * |(b : K)| ≤ 3162 * 3162 := by
      have : d * |b| ≤ 3162 * 3162 := mul_le_mul hd2 (by omega) (abs_nonneg _) (by norm_num)
      exact_mod_cast this
    have h5 : |x - (a : K) / (b : K)| * ((d : K) * |(b : K)|) ≤ 1 / 10 ^ 7 * (3162 * 3162) :=
      mul_le_mul R.near h4 (mul_nonneg (by exact_mod_cast hd.le) (abs_nonneg _)) (by norm_num)
    rw [e] at h5
    have h6 : (1 / 10 ^ 7 * (3162 * 3162) : K) < 1 := by norm_num
    linarith
  have cmp : ∀ (a b n d : ℤ), b > 0 → 0 < d → IsCoprime a b → IsCoprime n d → a * d = n * b → a = n ∧ b = d := by
    intro a b n d hb hd h1 h2 h3
    have e1 : b ∣ d := h1.symm.dvd_of_dvd_mul_left (by rw [h3]; exact dvd_mul_left _ _)
    have e2 : d ∣ b := h2.symm.dvd_of_dvd_mul_left (by rw [← h3]; exact dvd_mul_left _ _)
    have e3 : b = d := Int.dvd_antisymm hb.le hd.le e1 e2
    subst e3
    exact ⟨mul_right_cancel₀ hb.ne' h3, rfl⟩
  have fin : ∀ (a' b' : ℤ), 0 < b' → IsCoprime a' b' → (a' : K) / (b' : K) = (a : K) / (b : K) →
      ∀ n d : ℤ, 0 < d → d ≤ 3162 → x = (n : K) / (d : K) → IsCoprime n d → a' = n ∧ b' = d := by
    intro a' b' hb' hc e n d hd hd2 hx hnd
    refine cmp _ _ _ _ hb' hd hc hnd ?_
    have h2 := key n d hd hd2 hx
    rw [← e, hx, div_eq_div_iff (by exact_mod_cast hd.ne') (by exact_mod_cast hb'.ne')] at h2
    exact_mod_cast h2.symm
  unfold ratapprox
  rw [h1]
  simp only [Option.map_some]
  by_cases hb : b < 0
  · have e : ((-a : ℤ) : K) / ((-b : ℤ) : K) = (a : K) / (b : K) := by
      push_cast
      rw [neg_div_neg_eq]
    refine ⟨-a, -b, by rw [if_pos hb], by omega, R.cop.neg_neg, by rw [e]; exact R.near, fin _ _ (by omega) R.cop.neg_neg e⟩
  · have hb : 0 < b := by have := R.ne; omega
    exact ⟨a, b, by rw [if_neg (by omega)], hb, R.cop, R.near, fin _ _ hb R.cop rfl⟩

/-- the bound `maxd` for the denominator is not kept: it is tested only if `xx` is not (nearly) an integer -/
theorem C117_maxd : ratapprox 3 10 (1 / 1000 : ℚ) = some (1, 1000) := by decide +kernel

/-- beyond the bound the fraction is not found: `10⁻⁸` is approximated by 0 -/
theorem C117_small : ratapprox 3 0 (1 / 10 ^ 8 : ℚ) = some (0, 1) := by decide +kernel

example : ratapprox 9 0 (-355 / 113 : ℚ) = some (-355, 113) := by decide +kernel

end Props

end Eclib.Mw
