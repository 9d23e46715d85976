import Verif.Forms.MinimTwo

/-! # C25: `minim_p` for `p = 3` -/

namespace Eclib.Forms

open Eclib.Forms.Spec Props
open Marith (XGcd mod invmod div val)

local instance : Fact (Nat.Prime 3) := ⟨Nat.prime_three⟩

/-- the condition for non-minimality at 3 in terms of `i = I/3⁴` and `j = J/3⁶` -/
def Cond3 (i j : ℤ) : Prop :=
  ((3 : ℤ) ∣ i ∧ (27 : ℤ) ∣ j) ∨ (¬ (3 : ℤ) ∣ j ∧ (27 : ℤ) ∣ 4 * i ^ 3 - j ^ 2)

theorem z3 (x : ℤ) : (3 : ℤ) ∣ x ↔ (x : ZMod 3) = 0 := by rw [cast_zero_iff]; rfl

private theorem pr3 : Prime (3 : ℤ) := Int.prime_three

theorem dvd_unit3 {u x : ℤ} (hu : ¬ (3 : ℤ) ∣ u) (h : (3 : ℤ) ∣ u * x) : (3 : ℤ) ∣ x :=
  (pr3.dvd_or_dvd h).resolve_left hu

theorem nd_mul3 {x y : ℤ} (hx : ¬ (3 : ℤ) ∣ x) (hy : ¬ (3 : ℤ) ∣ y) : ¬ (3 : ℤ) ∣ x * y :=
  fun h => (pr3.dvd_or_dvd h).elim hx hy

theorem nd_pow3 {x : ℤ} (hx : ¬ (3 : ℤ) ∣ x) (n : ℕ) : ¬ (3 : ℤ) ∣ x ^ n :=
  fun h => hx (pr3.dvd_of_dvd_pow h)

theorem rootOK_three (X : XGcd) (g : G) (hI : (9 : ℤ) ∣ g.II) : RootOK X 3 g := by
  intro h1 h2 m
  simp only [Nat.cast_ofNat] at h1 h2 ⊢
  obtain ⟨a, b, c, d, e⟩ := g
  obtain ⟨i, hi⟩ := hI
  simp only [G.II, G.xshift] at *
  have hc : (3 : ℤ) ∣ c := by
    have : (3 : ℤ) ∣ c ^ 2 := ⟨3 * i - 4 * a * e + b * d, by linarith⟩
    exact pr3.dvd_of_dvd_pow this
  have hae : (3 : ℤ) ∣ a * e - b * d := by
    obtain ⟨c', rfl⟩ := hc
    exact ⟨i - a * e - c' ^ 2, by linarith⟩
  have e1 : (div (3 : ℤ) a && div (3 : ℤ) b) = false := by
    rw [Bool.eq_false_iff, Ne, Bool.and_eq_true, div_iff (by norm_num), div_iff (by norm_num)]
    exact h1
  have e2 : (div (3 : ℤ) e && div (3 : ℤ) d) = false := by
    rw [Bool.eq_false_iff, Ne, Bool.and_eq_true, div_iff (by norm_num), div_iff (by norm_num)]
    exact h2
  have hr : ((rootP X ⟨a, b, c, d, e⟩ 3 : ℤ) : ZMod 3) =
      if (a : ZMod 3) = 0 then -b * e else -a * d := by
    unfold rootP
    simp only [e1, e2, Bool.false_eq_true, if_false, if_true, show ¬ (3 : ℤ) = 2 by norm_num]
    have hm : ∀ x : ℤ, ((mod x 3 : ℤ) : ZMod 3) = x := fun x => by
      have := cast_mod (p := 3) x
      exact_mod_cast this
    by_cases ha : (3 : ℤ) ∣ a
    · rw [if_pos ((div_iff (by norm_num) a).mpr ha), if_pos ((z3 a).mp ha), hm]
    · rw [if_neg (by rw [div_iff (by norm_num)]; exact ha), if_neg (by rw [← z3]; exact ha), hm]
  generalize rootP X ⟨a, b, c, d, e⟩ 3 = α at hr ⊢
  simp only [z3] at *
  push_cast at *
  rw [hr]
  clear hr hi e1 e2
  revert hc hae h1 h2
  generalize (a : ZMod 3) = a, (b : ZMod 3) = b, (c : ZMod 3) = c, (d : ZMod 3) = d,
    (e : ZMod 3) = e
  revert a b c d e
  decide

/-! ## not all coefficients divisible by 3 -/

/-- triple root, first stage -/
theorem t3_1 {a b c d e i j : ℤ} (ha : (3 : ℤ) ∣ a) (hb : ¬ (3 : ℤ) ∣ b) (hc : (3 : ℤ) ∣ c)
    (hd : (3 : ℤ) ∣ d) (he : (3 : ℤ) ∣ e) (hI : (G.mk a b c d e).II = 81 * i)
    (hJ : (G.mk a b c d e).JJ = 729 * j) : (9 : ℤ) ∣ c ∧ (27 : ℤ) ∣ d ∧ (27 : ℤ) ∣ e := by
  obtain ⟨a1, rfl⟩ := ha
  obtain ⟨c1, rfl⟩ := hc
  obtain ⟨d1, rfl⟩ := hd
  obtain ⟨e1, rfl⟩ := he
  simp only [G.II, G.JJ] at hI hJ
  have hc1 : (3 : ℤ) ∣ c1 := by
    have : (3 : ℤ) ∣ c1 ^ 3 := ⟨c1 ^ 3 - (24 * a1 * e1 * c1 + b * c1 * d1 - 9 * a1 * d1 ^ 2
      - b ^ 2 * e1 - 9 * j), by linarith⟩
    exact pr3.dvd_of_dvd_pow this
  obtain ⟨c2, rfl⟩ := hc1
  have hd1 : (3 : ℤ) ∣ d1 := dvd_unit3 hb ⟨4 * a1 * e1 + 3 * c2 ^ 2 - 3 * i, by linarith⟩
  obtain ⟨d2, rfl⟩ := hd1
  have he1 : (3 : ℤ) ^ 2 ∣ e1 := pr3.pow_dvd_of_dvd_mul_left 2 (nd_pow3 hb 2)
    ⟨8 * a1 * e1 * c2 + b * c2 * d2 - 2 * c2 ^ 3 - 9 * a1 * d2 ^ 2 - j, by linarith⟩
  obtain ⟨e3, rfl⟩ := he1
  have hd2 : (3 : ℤ) ∣ d2 := dvd_unit3 hb ⟨12 * a1 * e3 + c2 ^ 2 - i, by linarith⟩
  obtain ⟨d3, rfl⟩ := hd2
  exact ⟨⟨c2, by ring⟩, ⟨d3, by ring⟩, ⟨e3, by ring⟩⟩

/-- triple root, second stage, first condition -/
theorem t3_2 {a b c d e i j : ℤ} (ha : (3 : ℤ) ∣ a) (hb : ¬ (3 : ℤ) ∣ b) (hc : (27 : ℤ) ∣ c)
    (hd : (27 : ℤ) ∣ d) (he : (27 : ℤ) ∣ e) (hI : (G.mk a b c d e).II = 81 * i)
    (hJ : (G.mk a b c d e).JJ = 729 * j) (hi : (3 : ℤ) ∣ i) (hj : (27 : ℤ) ∣ j) :
    (81 : ℤ) ∣ d ∧ (729 : ℤ) ∣ e := by
  obtain ⟨a1, rfl⟩ := ha
  obtain ⟨c3, rfl⟩ := hc
  obtain ⟨d3, rfl⟩ := hd
  obtain ⟨e3, rfl⟩ := he
  obtain ⟨i, rfl⟩ := hi
  obtain ⟨j, rfl⟩ := hj
  simp only [G.II, G.JJ] at hI hJ
  have hd3 : (3 : ℤ) ∣ d3 := dvd_unit3 hb ⟨4 * a1 * e3 + 3 * c3 ^ 2 - i, by linarith⟩
  obtain ⟨d4, rfl⟩ := hd3
  have he3 : (3 : ℤ) ^ 3 ∣ e3 := pr3.pow_dvd_of_dvd_mul_left 3 (nd_pow3 hb 2)
    ⟨8 * a1 * e3 * c3 + b * d4 * c3 - 2 * c3 ^ 3 - 27 * a1 * d4 ^ 2 - j, by linarith⟩
  obtain ⟨e6, rfl⟩ := he3
  exact ⟨⟨d4, by ring⟩, ⟨e6, by ring⟩⟩

/-- triple root, second stage, second condition -/
theorem t3_3 {a b c d e i j : ℤ} (ha : (3 : ℤ) ∣ a) (hb : ¬ (3 : ℤ) ∣ b) (hc : (9 : ℤ) ∣ c)
    (hd : (27 : ℤ) ∣ d) (he : (81 : ℤ) ∣ e) (hI : (G.mk a b c d e).II = 81 * i)
    (hJ : (G.mk a b c d e).JJ = 729 * j) (hj : ¬ (3 : ℤ) ∣ j) (hij : (27 : ℤ) ∣ 4 * i ^ 3 - j ^ 2) :
    (81 : ℤ) ∣ d ∧ (729 : ℤ) ∣ e := by
  obtain ⟨a1, rfl⟩ := ha
  obtain ⟨c, rfl⟩ := hc
  obtain ⟨d3, rfl⟩ := hd
  obtain ⟨e4, rfl⟩ := he
  simp only [G.II, G.JJ] at hI hJ
  have ei : i = 36 * a1 * e4 - b * d3 + c ^ 2 := by linarith
  have ej : j = 216 * a1 * c * e4 + 3 * b * c * d3 - 81 * a1 * d3 ^ 2 - 3 * e4 * b ^ 2 - 2 * c ^ 3 := by
    linarith
  have hcu : ¬ (3 : ℤ) ∣ c := by
    rintro ⟨c', rfl⟩
    exact hj ⟨_, ej.trans (by ring_nf; rfl) |>.trans (by
      rw [show (3 : ℤ) * (216 * a1 * c' * e4 + 3 * b * c' * d3 - 27 * a1 * d3 ^ 2 - e4 * b ^ 2
        - 18 * c' ^ 3) = _ from by ring_nf; rfl])⟩
  have hd3 : (3 : ℤ) ∣ d3 := by
    apply dvd_unit3 hb
    have h3 : (3 : ℤ) ∣ 4 * i ^ 3 - j ^ 2 := dvd_trans (by norm_num) hij
    rw [ei, ej] at h3
    rw [z3] at h3 hcu ⊢
    push_cast at h3 hcu ⊢
    clear ei ej hI hJ hb hj hij
    revert h3 hcu
    have k3 : (3 : ZMod 3) = 0 := by decide
    have k36 : (36 : ZMod 3) = 0 := by decide
    have k81 : (81 : ZMod 3) = 0 := by decide
    have k216 : (216 : ZMod 3) = 0 := by decide
    simp only [k3, k36, k81, k216, zero_mul]
    generalize (b : ZMod 3) = b, (c : ZMod 3) = c, (d3 : ZMod 3) = d
    revert b c d
    decide
  obtain ⟨d4, rfl⟩ := hd3
  obtain ⟨k, hk⟩ := hij
  have he4 : (3 : ℤ) ^ 2 ∣ e4 := by
    have hu : ¬ (3 : ℤ) ∣ b ^ 2 * (4 * c ^ 3 + 3 * e4 * b ^ 2) := by
      refine nd_mul3 (nd_pow3 hb 2) ?_
      rintro ⟨q, hq⟩
      exact nd_pow3 hcu 3 ⟨q - c ^ 3 - e4 * b ^ 2, by linarith⟩
    apply pr3.pow_dvd_of_dvd_mul_left 2 hu
    obtain ⟨w', hw'⟩ : ∃ w', w' = 24 * a1 * c * e4 + b * c * d4 - 81 * a1 * d4 ^ 2 := ⟨_, rfl⟩
    obtain ⟨u, hu'⟩ : ∃ u, u = 12 * a1 * e4 - b * d4 := ⟨_, rfl⟩
    have ei' : i = c ^ 2 + 3 * u := by rw [ei, hu']; ring
    have ej' : j = -2 * c ^ 3 + 3 * (3 * w' - e4 * b ^ 2) := by rw [ej, hw']; ring
    refine ⟨48 * a1 * c ^ 4 * e4 - 108 * a1 * c ^ 3 * d4 ^ 2 + 2 * e4 * b ^ 2 * w' - 3 * w' ^ 2
      + 4 * (c ^ 2 * u ^ 2 + u ^ 3) - k, ?_⟩
    rw [ei', ej'] at hk
    have h12 : 12 * c ^ 4 * u + 12 * c ^ 3 * w' = 432 * a1 * c ^ 4 * e4 - 972 * a1 * c ^ 3 * d4 ^ 2 := by
      rw [hu', hw']; ring
    apply mul_left_cancel₀ (show (3 : ℤ) ≠ 0 by norm_num)
    linear_combination (-1) * hk + 3 * h12
  obtain ⟨e6, rfl⟩ := he4
  exact ⟨⟨d4, by ring⟩, ⟨e6, by ring⟩⟩

/-- quadruple root, first stage -/
theorem q3_1 {a b c d e i j : ℤ} (ha : ¬ (3 : ℤ) ∣ a) (hb : (9 : ℤ) ∣ b) (hc : (3 : ℤ) ∣ c)
    (hd : (3 : ℤ) ∣ d) (he : (3 : ℤ) ∣ e) (hI : (G.mk a b c d e).II = 81 * i)
    (hJ : (G.mk a b c d e).JJ = 729 * j) : (9 : ℤ) ∣ c ∧ (9 : ℤ) ∣ d ∧ (27 : ℤ) ∣ e := by
  obtain ⟨b2, rfl⟩ := hb
  obtain ⟨c1, rfl⟩ := hc
  obtain ⟨d1, rfl⟩ := hd
  obtain ⟨e1, rfl⟩ := he
  simp only [G.II, G.JJ] at hI hJ
  have hc1 : (3 : ℤ) ∣ c1 := by
    have : (3 : ℤ) ∣ c1 ^ 3 := ⟨c1 ^ 3 - (8 * a * e1 * c1 + 9 * b2 * c1 * d1 - 3 * a * d1 ^ 2
      - 81 * b2 ^ 2 * e1 - 9 * j), by linarith⟩
    exact pr3.dvd_of_dvd_pow this
  obtain ⟨c2, rfl⟩ := hc1
  have n4 : ¬ (3 : ℤ) ∣ 4 * a := nd_mul3 (by decide) ha
  have he1 : (3 : ℤ) ^ 2 ∣ e1 := pr3.pow_dvd_of_dvd_mul_left 2 n4
    ⟨b2 * d1 - c2 ^ 2 + i, by linarith⟩
  obtain ⟨e3, rfl⟩ := he1
  have hd1 : (3 : ℤ) ∣ d1 := by
    have : (3 : ℤ) ∣ d1 ^ 2 := dvd_unit3 ha ⟨24 * a * e3 * c2 + 3 * b2 * c2 * d1 - 2 * c2 ^ 3
      - 81 * b2 ^ 2 * e3 - j, by linarith⟩
    exact pr3.dvd_of_dvd_pow this
  obtain ⟨d2, rfl⟩ := hd1
  exact ⟨⟨c2, by ring⟩, ⟨d2, by ring⟩, ⟨e3, by ring⟩⟩

/-- quadruple root, second stage -/
theorem q3_2 {a b c d e i j : ℤ} (ha : ¬ (3 : ℤ) ∣ a) (hb : (9 : ℤ) ∣ b) (hc : (9 : ℤ) ∣ c)
    (hd : (9 : ℤ) ∣ d) (he : (27 : ℤ) ∣ e) (hI : (G.mk a b c d e).II = 81 * i)
    (hJ : (G.mk a b c d e).JJ = 729 * j) (hij : Cond3 i j) : (27 : ℤ) ∣ d ∧ (81 : ℤ) ∣ e := by
  obtain ⟨b2, rfl⟩ := hb
  obtain ⟨c, rfl⟩ := hc
  obtain ⟨d2, rfl⟩ := hd
  obtain ⟨e3, rfl⟩ := he
  simp only [G.II, G.JJ] at hI hJ
  have ei : i = 4 * a * e3 - 3 * b2 * d2 + c ^ 2 := by linarith
  have ej : j = 24 * a * c * e3 + 9 * b2 * c * d2 - 3 * a * d2 ^ 2 - 81 * e3 * b2 ^ 2 - 2 * c ^ 3 := by
    linarith
  have n4 : ¬ (3 : ℤ) ∣ 4 * a := nd_mul3 (by decide) ha
  rcases hij with ⟨⟨i', hi⟩, ⟨j', hj⟩⟩ | ⟨hj, hij⟩
  · rw [hi] at ei
    rw [hj] at ej
    have hc1 : (3 : ℤ) ∣ c := by
      have : (3 : ℤ) ∣ c ^ 3 := ⟨c ^ 3 - (8 * a * c * e3 + 3 * b2 * c * d2 - a * d2 ^ 2
        - 27 * e3 * b2 ^ 2 - 9 * j'), by linarith⟩
      exact pr3.dvd_of_dvd_pow this
    obtain ⟨c3, rfl⟩ := hc1
    have he3 : (3 : ℤ) ∣ e3 := dvd_unit3 n4 ⟨i' + b2 * d2 - 3 * c3 ^ 2, by linarith⟩
    obtain ⟨e4, rfl⟩ := he3
    have hd2 : (3 : ℤ) ∣ d2 := by
      have : (3 : ℤ) ∣ d2 ^ 2 := dvd_unit3 ha ⟨24 * a * c3 * e4 + 3 * b2 * c3 * d2
        - 27 * e4 * b2 ^ 2 - 6 * c3 ^ 3 - 3 * j', by linarith⟩
      exact pr3.dvd_of_dvd_pow this
    obtain ⟨d3, rfl⟩ := hd2
    exact ⟨⟨d3, by ring⟩, ⟨e4, by ring⟩⟩
  · have hcu : ¬ (3 : ℤ) ∣ c := by
      rintro ⟨c', rfl⟩
      exact hj ⟨24 * a * c' * e3 + 9 * b2 * c' * d2 - a * d2 ^ 2 - 27 * e3 * b2 ^ 2
        - 18 * c' ^ 3, by linarith⟩
    have he3 : (3 : ℤ) ∣ e3 := by
      apply dvd_unit3 n4
      have h3 : (3 : ℤ) ∣ 4 * i ^ 3 - j ^ 2 := dvd_trans (by norm_num) hij
      rw [ei, ej] at h3
      rw [z3] at h3 hcu ⊢
      push_cast at h3 hcu ⊢
      clear ei ej hI hJ n4 ha hj hij
      revert h3 hcu
      have k3 : (3 : ZMod 3) = 0 := by decide
      have k9 : (9 : ZMod 3) = 0 := by decide
      have k81 : (81 : ZMod 3) = 0 := by decide
      have k24 : (24 : ZMod 3) = 0 := by decide
      simp only [k3, k9, k81, k24, zero_mul]
      generalize (a : ZMod 3) = a, (c : ZMod 3) = c, (e3 : ZMod 3) = e
      revert a c e
      decide
    obtain ⟨e4, rfl⟩ := he3
    obtain ⟨k, hk⟩ := hij
    have hd2 : (3 : ℤ) ∣ d2 := by
      have : (3 : ℤ) ∣ d2 ^ 2 := by
        apply dvd_unit3 (nd_mul3 ha (nd_pow3 hcu 3))
        obtain ⟨w', hw'⟩ : ∃ w', w' = 24 * a * c * e4 + b2 * c * d2 - 27 * 3 * e4 * b2 ^ 2 := ⟨_, rfl⟩
        obtain ⟨u, hu'⟩ : ∃ u, u = 4 * a * e4 - b2 * d2 := ⟨_, rfl⟩
        have ei' : i = c ^ 2 + 3 * u := by rw [ei, hu']; ring
        obtain ⟨w, hw⟩ : ∃ w, w = 24 * a * c * e4 + 3 * b2 * c * d2 - a * d2 ^ 2
          - 81 * e4 * b2 ^ 2 := ⟨_, rfl⟩
        have ej' : j = -2 * c ^ 3 + 3 * w := by rw [ej, hw]; ring
        rw [ei', ej'] at hk
        have hw3 : c ^ 3 * w = 3 * (3 * k - 4 * c ^ 4 * u - c ^ 3 * w + w ^ 2
            - 12 * (c ^ 2 * u ^ 2 + u ^ 3)) := by
          apply mul_left_cancel₀ (show (3 : ℤ) ≠ 0 by norm_num)
          linarith
        refine ⟨c ^ 3 * (8 * a * c * e4 + b2 * c * d2 - 27 * e4 * b2 ^ 2) - (3 * k - 4 * c ^ 4 * u
          - c ^ 3 * w + w ^ 2 - 12 * (c ^ 2 * u ^ 2 + u ^ 3)), ?_⟩
        have : c ^ 3 * w = c ^ 3 * (24 * a * c * e4 + 3 * b2 * c * d2 - a * d2 ^ 2
          - 81 * e4 * b2 ^ 2) := by rw [hw]
        linarith
      exact pr3.dvd_of_dvd_pow this
    obtain ⟨d3, rfl⟩ := hd2
    exact ⟨⟨d3, by ring⟩, ⟨e4, by ring⟩⟩

/-! ## all coefficients divisible by 3 -/

/-- triple root, after removal of a factor 3 -/
theorem t3_all {a b c d e i j : ℤ} (hb : ¬ (3 : ℤ) ∣ b) (hc : (3 : ℤ) ∣ c)
    (hd : (3 : ℤ) ∣ d) (he : (3 : ℤ) ∣ e) (hI : (G.mk a b c d e).II = 9 * i)
    (hJ : (G.mk a b c d e).JJ = 27 * j) (hij : Cond3 i j) : (9 : ℤ) ∣ d ∧ (27 : ℤ) ∣ e := by
  obtain ⟨c, rfl⟩ := hc
  obtain ⟨d1, rfl⟩ := hd
  obtain ⟨e1, rfl⟩ := he
  simp only [G.II, G.JJ] at hI hJ
  have ei : i = 4 * a * e1 - b * d1 + c ^ 2 := by linarith
  have ej : j = 24 * a * e1 * c + 3 * b * c * d1 - 2 * c ^ 3 - 9 * a * d1 ^ 2 - 3 * b ^ 2 * e1 := by
    linarith
  rcases hij with ⟨⟨i', hi⟩, ⟨j', hj⟩⟩ | ⟨hj, hij⟩
  · rw [hi] at ei
    rw [hj] at ej
    have hc1 : (3 : ℤ) ∣ c := by
      have : (3 : ℤ) ∣ c ^ 3 := ⟨c ^ 3 - (8 * a * e1 * c + b * c * d1 - 3 * a * d1 ^ 2
        - b ^ 2 * e1 - 9 * j'), by linarith⟩
      exact pr3.dvd_of_dvd_pow this
    obtain ⟨c2, rfl⟩ := hc1
    have he1 : (3 : ℤ) ∣ e1 := dvd_unit3 (nd_pow3 hb 2) ⟨8 * a * e1 * c2 + b * c2 * d1
      - 6 * c2 ^ 3 - a * d1 ^ 2 - 3 * j', by linarith⟩
    obtain ⟨e2, rfl⟩ := he1
    have hd1 : (3 : ℤ) ∣ d1 := dvd_unit3 hb ⟨4 * a * e2 + 3 * c2 ^ 2 - i', by linarith⟩
    obtain ⟨d2, rfl⟩ := hd1
    have he2 : (3 : ℤ) ∣ e2 := dvd_unit3 (nd_pow3 hb 2) ⟨8 * a * e2 * c2 + b * c2 * d2
      - 2 * c2 ^ 3 - 3 * a * d2 ^ 2 - j', by linarith⟩
    obtain ⟨e3, rfl⟩ := he2
    exact ⟨⟨d2, by ring⟩, ⟨e3, by ring⟩⟩
  · have hcu : ¬ (3 : ℤ) ∣ c := by
      rintro ⟨c', rfl⟩
      exact hj ⟨24 * a * e1 * c' + 3 * b * c' * d1 - 18 * c' ^ 3 - 3 * a * d1 ^ 2 - b ^ 2 * e1,
        by linarith⟩
    have hv : (3 : ℤ) ∣ 4 * a * e1 - b * d1 := by
      have h3 : (3 : ℤ) ∣ 4 * i ^ 3 - j ^ 2 := dvd_trans (by norm_num) hij
      rw [ei, ej] at h3
      rw [z3] at h3 hcu ⊢
      push_cast at h3 hcu ⊢
      clear ei ej hI hJ hb hj hij
      revert h3 hcu
      have k3 : (3 : ZMod 3) = 0 := by decide
      have k9 : (9 : ZMod 3) = 0 := by decide
      have k24 : (24 : ZMod 3) = 0 := by decide
      simp only [k3, k9, k24, zero_mul]
      generalize (4 * (a : ZMod 3) * e1 - b * d1) = v, (c : ZMod 3) = c
      revert v c
      decide
    obtain ⟨u, hu⟩ := hv
    obtain ⟨k, hk⟩ := hij
    have ei' : i = c ^ 2 + 3 * u := by rw [ei]; linarith
    obtain ⟨w, hw⟩ : ∃ w, w = 8 * a * e1 * c + b * c * d1 - 3 * a * d1 ^ 2 - b ^ 2 * e1 := ⟨_, rfl⟩
    have ej' : j = -2 * c ^ 3 + 3 * w := by rw [ej, hw]; ring
    rw [ei', ej'] at hk
    have hw3 : c ^ 3 * w = 3 * (3 * k - 4 * c ^ 4 * u - c ^ 3 * w + w ^ 2
        - 12 * (c ^ 2 * u ^ 2 + u ^ 3)) := by
      apply mul_left_cancel₀ (show (3 : ℤ) ≠ 0 by norm_num)
      linarith
    obtain ⟨w1, hw1⟩ := dvd_unit3 (nd_pow3 hcu 3) ⟨_, hw3⟩
    have he1 : (3 : ℤ) ∣ e1 := by
      apply dvd_unit3 (nd_pow3 hb 2)
      refine ⟨4 * a * e1 * c - u * c - a * d1 ^ 2 - w1, ?_⟩
      linear_combination hw - hw1 - c * hu
    obtain ⟨e2, rfl⟩ := he1
    have hd1 : (3 : ℤ) ∣ d1 := dvd_unit3 hb ⟨4 * a * e2 - u, by linarith⟩
    obtain ⟨d2, rfl⟩ := hd1
    have hu' : u = 4 * a * e2 - b * d2 := by linarith
    have hw1' : w1 = 8 * a * e2 * c + b * c * d2 - 9 * a * d2 ^ 2 - b ^ 2 * e2 := by linarith
    have he2 : (3 : ℤ) ∣ e2 := by
      apply dvd_unit3 (nd_mul3 (nd_pow3 hcu 3) (nd_pow3 hb 2))
      refine ⟨4 * a * c ^ 4 * e2 - 3 * a * c ^ 3 * d2 ^ 2 - (k - c ^ 4 * u - c ^ 3 * w1 + 3 * w1 ^ 2
        - 4 * (c ^ 2 * u ^ 2 + u ^ 3)), ?_⟩
      have h9 : c ^ 4 * u + c ^ 3 * w1 = 3 * (k - c ^ 4 * u - c ^ 3 * w1 + 3 * w1 ^ 2
        - 4 * (c ^ 2 * u ^ 2 + u ^ 3)) := by
        rw [hw1] at hw3
        apply mul_left_cancel₀ (show (3 : ℤ) ≠ 0 by norm_num)
        linarith
      have h10 : c ^ 4 * u + c ^ 3 * w1 = 12 * a * c ^ 4 * e2 - 9 * a * c ^ 3 * d2 ^ 2
          - c ^ 3 * b ^ 2 * e2 := by rw [hu', hw1']; ring
      linarith
    obtain ⟨e3, rfl⟩ := he2
    exact ⟨⟨d2, by ring⟩, ⟨e3, by ring⟩⟩

/-- quadruple root, after removal of a factor 3 -/
theorem q3_all {a b c d e i j : ℤ} (ha : ¬ (3 : ℤ) ∣ a) (hb : (3 : ℤ) ∣ b) (hc : (3 : ℤ) ∣ c)
    (hd : (3 : ℤ) ∣ d) (he : (3 : ℤ) ∣ e) (hI : (G.mk a b c d e).II = 9 * i)
    (hJ : (G.mk a b c d e).JJ = 27 * j) (hij : Cond3 i j) :
    (9 : ℤ) ∣ d ∧ (9 : ℤ) ∣ e ∧ ((9 : ℤ) ∣ i → (27 : ℤ) ∣ j → (27 : ℤ) ∣ e) := by
  obtain ⟨b1, rfl⟩ := hb
  obtain ⟨c, rfl⟩ := hc
  obtain ⟨d1, rfl⟩ := hd
  obtain ⟨e1, rfl⟩ := he
  simp only [G.II, G.JJ] at hI hJ
  have ei : i = 4 * a * e1 - 3 * b1 * d1 + c ^ 2 := by linarith
  have ej : j = 24 * a * e1 * c + 9 * b1 * c * d1 - 2 * c ^ 3 - 9 * a * d1 ^ 2
      - 27 * b1 ^ 2 * e1 := by linarith
  have n4 : ¬ (3 : ℤ) ∣ 4 * a := nd_mul3 (by decide) ha
  rcases hij with ⟨⟨i', hi⟩, ⟨j', hj⟩⟩ | ⟨hj, hij⟩
  · rw [hi] at ei
    rw [hj] at ej
    have hc1 : (3 : ℤ) ∣ c := by
      have : (3 : ℤ) ∣ c ^ 3 := ⟨c ^ 3 - (8 * a * e1 * c + 3 * b1 * c * d1 - 3 * a * d1 ^ 2
        - 9 * b1 ^ 2 * e1 - 9 * j'), by linarith⟩
      exact pr3.dvd_of_dvd_pow this
    obtain ⟨c2, rfl⟩ := hc1
    have he1 : (3 : ℤ) ∣ e1 := dvd_unit3 n4 ⟨i' + b1 * d1 - 3 * c2 ^ 2, by linarith⟩
    obtain ⟨e2, rfl⟩ := he1
    have hd1 : (3 : ℤ) ∣ d1 := by
      have : (3 : ℤ) ∣ d1 ^ 2 := dvd_unit3 ha ⟨8 * a * e2 * c2 + b1 * c2 * d1
        - 2 * c2 ^ 3 - 3 * b1 ^ 2 * e2 - j' , by linarith⟩
      exact pr3.dvd_of_dvd_pow this
    obtain ⟨d2, rfl⟩ := hd1
    refine ⟨⟨d2, by ring⟩, ⟨e2, by ring⟩, ?_⟩
    intro h9 _
    have hi' : (3 : ℤ) ∣ i' := by rw [hi] at h9; omega
    obtain ⟨i2, rfl⟩ := hi'
    have he2 : (3 : ℤ) ∣ e2 := dvd_unit3 n4 ⟨i2 + b1 * d2 - c2 ^ 2, by linarith⟩
    obtain ⟨e3, rfl⟩ := he2
    exact ⟨e3, by ring⟩
  · have hcu : ¬ (3 : ℤ) ∣ c := by
      rintro ⟨c', rfl⟩
      exact hj ⟨24 * a * e1 * c' + 9 * b1 * c' * d1 - 18 * c' ^ 3 - 3 * a * d1 ^ 2 - 9 * b1 ^ 2 * e1,
        by linarith⟩
    have hv : (3 : ℤ) ∣ e1 := by
      apply dvd_unit3 n4
      have h3 : (3 : ℤ) ∣ 4 * i ^ 3 - j ^ 2 := dvd_trans (by norm_num) hij
      rw [ei, ej] at h3
      rw [z3] at h3 hcu ⊢
      push_cast at h3 hcu ⊢
      clear ei ej hI hJ ha n4 hj hij
      revert h3 hcu
      have k3 : (3 : ZMod 3) = 0 := by decide
      have k9 : (9 : ZMod 3) = 0 := by decide
      have k24 : (24 : ZMod 3) = 0 := by decide
      have k27 : (27 : ZMod 3) = 0 := by decide
      simp only [k3, k9, k24, k27, zero_mul]
      generalize (4 * (a : ZMod 3) * e1) = v, (c : ZMod 3) = c
      revert v c
      decide
    obtain ⟨e2, rfl⟩ := hv
    obtain ⟨k, hk⟩ := hij
    obtain ⟨u, hu⟩ : ∃ u, u = 4 * a * e2 - b1 * d1 := ⟨_, rfl⟩
    have ei' : i = c ^ 2 + 3 * u := by rw [ei, hu]; ring
    obtain ⟨w, hw⟩ : ∃ w, w = 8 * a * e2 * c + b1 * c * d1 - a * d1 ^ 2 - 9 * b1 ^ 2 * e2 := ⟨_, rfl⟩
    have ej' : j = -2 * c ^ 3 + 9 * w := by rw [ej, hw]; ring
    rw [ei', ej'] at hk
    have hd1 : (3 : ℤ) ∣ d1 := by
      have : (3 : ℤ) ∣ d1 ^ 2 := by
        apply dvd_unit3 (nd_mul3 ha (nd_pow3 hcu 3))
        have h9 : c ^ 4 * u + c ^ 3 * w = 3 * (k - c ^ 4 * u - c ^ 3 * w + 3 * w ^ 2
          - 4 * (c ^ 2 * u ^ 2 + u ^ 3)) - 2 * (c ^ 4 * u + c ^ 3 * w) + 2 * (c ^ 4 * u + c ^ 3 * w) := by
          apply mul_left_cancel₀ (show (9 : ℤ) ≠ 0 by norm_num)
          linarith
        have h10 : c ^ 4 * u + c ^ 3 * w = 12 * a * c ^ 4 * e2 - a * c ^ 3 * d1 ^ 2
          - 9 * c ^ 3 * b1 ^ 2 * e2 := by rw [hu, hw]; ring
        exact ⟨4 * a * c ^ 4 * e2 - 3 * c ^ 3 * b1 ^ 2 * e2 - (k - c ^ 4 * u - c ^ 3 * w + 3 * w ^ 2
          - 4 * (c ^ 2 * u ^ 2 + u ^ 3)), by linarith⟩
      exact pr3.dvd_of_dvd_pow this
    obtain ⟨d2, rfl⟩ := hd1
    refine ⟨⟨d2, by ring⟩, ⟨e2, by ring⟩, ?_⟩
    intro _ h27
    exact absurd (dvd_trans (by norm_num) h27) hj

/-! ## `minim_p` at 3 -/

theorem minimAll_three (X : XGcd) (g : G) (m : SU) (h1 : g.divAll (3 * 3) = false)
    (h2 : g.divAll 3 = true) {i j : ℤ} (hI : g.II = 81 * i) (hJ : g.JJ = 729 * j)
    (hij : Cond3 i j) (hs : SolMod 3 g ∨ ((9 : ℤ) ∣ i ∧ (27 : ℤ) ∣ j)) :
    StepOK 3 (g, m) (minimAll X g 3 m) := by
  have hg : (g.divBy 3).smul 3 = g := by
    rw [divAll_iff (by norm_num)] at h2
    obtain ⟨da, db, dc, dd, de⟩ := h2
    exact G.divBy_smul g (by norm_num) da db dc dd de
  have hI0 : (9 : ℤ) ∣ (g.divBy 3).II := by
    rw [← hg, (G.smul_inv _ 3).1] at hI
    exact ⟨i, by linarith⟩
  obtain ⟨t, s, g', ht, v, e1, hR, i0, j0, hm⟩ := minimAll_cases (p := 3) X g m
    (by exact_mod_cast h1) (by exact_mod_cast h2) (dvd_trans (by norm_num) hI0)
    (rootOK_three X _ hI0)
  simp only [Nat.cast_ofNat] at hm i0 j0 e1 hR
  have hI' : g'.II = 9 * i := by linarith
  have hJ' : g'.JJ = 27 * j := by linarith
  rw [if_neg (fun h => absurd h.1 (by decide))] at hm
  rw [hm]
  have hde : (3 : ℤ) ^ 2 ∣ g'.d ∧ (3 : ℤ) ^ 3 ∣ g'.e := by
    by_cases hb : (3 : ℤ) ∣ g'.b
    · have ha : ¬ (3 : ℤ) ∣ g'.a := fun h => hR.n ⟨h, hb⟩
      obtain ⟨q1, q2, q3⟩ := q3_all ha hb hR.c hR.d hR.e hI' hJ' hij
      refine ⟨by exact_mod_cast q1, ?_⟩
      rcases hs with hs | ⟨hs1, hs2⟩
      · have hsv := SolMod.via v ht hs
        rw [e1] at hsv
        have := val_quad_sol (p := 3) (by exact_mod_cast ha) (by exact_mod_cast hb)
          (by exact_mod_cast hR.c) (by exact_mod_cast q1) (by exact_mod_cast q2)
          (by exact_mod_cast hsv)
        exact_mod_cast this
      · exact_mod_cast q3 hs1 hs2
    · obtain ⟨q1, q2⟩ := t3_all hb hR.c hR.d hR.e hI' hJ' hij
      exact ⟨by exact_mod_cast q1, by exact_mod_cast q2⟩
  refine stepOK_rescale1 (p := 3) ht v ?_ ?_ ?_ ?_ <;> rw [e1] <;> simp only [G.smul, Nat.cast_ofNat]
  · exact Dvd.intro _ rfl
  · rw [sq]; exact mul_dvd_mul_left _ hR.c
  · rw [pow_succ']; exact mul_dvd_mul_left _ hde.1
  · rw [pow_succ']; exact mul_dvd_mul_left _ hde.2

theorem invmod3 (X : XGcd) {b : ℤ} (hb : ¬ (3 : ℤ) ∣ b) (x : ℤ) :
    (3 : ℤ) ∣ b * mod (x * invmod X b 3) 3 - x := by
  have hinv := cast_invmod (p := 3) X b (by rw [Ne, ← z3]; exact hb)
  have hm := cast_mod (p := 3) (x * invmod X b (3 : ℕ))
  rw [z3]
  push_cast at hinv hm ⊢
  rw [hm]
  linear_combination (x : ZMod 3) * hinv

theorem val_four {n : ℤ} (h : val 3 n = 4) : ¬ (3 : ℤ) ^ 5 ∣ n := by
  by_cases hn : n = 0
  · rw [hn] at h
    exact absurd h (by decide)
  · have := Marith.val_spec 3 n (by norm_num) hn
    rw [h] at this
    exact this.2

theorem val_four' {n i : ℤ} (h : n = 81 * i) (hi : ¬ (3 : ℤ) ∣ i) : val 3 n = 4 := by
  have hn : n ≠ 0 := by
    rintro rfl
    apply hi
    exact ⟨0, by linarith⟩
  obtain ⟨h1, h2⟩ := Marith.val_spec 3 n (by norm_num) hn
  have e4 : (3 : ℤ) ^ 4 ∣ n := ⟨i, by rw [h]; norm_num⟩
  have e5 : ¬ (3 : ℤ) ^ 5 ∣ n := by
    rintro ⟨q, hq⟩
    exact hi ⟨q, by linarith⟩
  by_contra hne
  rcases lt_or_gt_of_ne hne with hlt | hgt
  · exact h2 (dvd_trans (pow_dvd_pow 3 (by omega)) e4)
  · exact e5 (dvd_trans (pow_dvd_pow 3 (by omega)) h1)

/-- `beta` in the triple root case -/
theorem betaShift_three (X : XGcd) (g : G) (hb : ¬ (3 : ℤ) ∣ g.b) {i j : ℤ} (hI : g.II = 81 * i)
    (hij : Cond3 i j) (hc : (9 : ℤ) ∣ g.c) (he : (27 : ℤ) ∣ g.e) :
    ∃ k, betaShift X g 3 = 3 * k ∧
      (((3 : ℤ) ∣ i ∧ (27 : ℤ) ∣ j ∧ (27 : ℤ) ∣ g.c + 9 * g.b * k) ∨
       ((¬ (3 : ℤ) ∣ j ∧ (27 : ℤ) ∣ 4 * i ^ 3 - j ^ 2) ∧ (81 : ℤ) ∣ g.e + 27 * g.b * k)) := by
  obtain ⟨c2, hc2⟩ := hc
  obtain ⟨e3, he3⟩ := he
  have key : ∀ x : ℤ, ∃ k, (if (!div 3 x) = true then 3 * mod (x * invmod X g.b 3) 3 else 0) = 3 * k ∧
      (3 : ℤ) ∣ g.b * k - x := by
    intro x
    by_cases hx : (3 : ℤ) ∣ x
    · rw [(div_iff (by norm_num) _).mpr hx]
      refine ⟨0, by simp, ?_⟩
      rw [mul_zero, zero_sub]; exact (dvd_neg).mpr hx
    · have e5 : div (3 : ℤ) x = false := by
        rw [Bool.eq_false_iff, Ne, div_iff (by norm_num)]; exact hx
      rw [e5]
      exact ⟨_, by simp, invmod3 X hb x⟩
  have ec : (-g.c).fdiv 9 = -c2 := by
    rw [hc2, ← mul_neg]; exact Int.mul_fdiv_cancel_left _ (by norm_num)
  have ee : (-g.e).fdiv 27 = -e3 := by
    rw [he3, ← mul_neg]; exact Int.mul_fdiv_cancel_left _ (by norm_num)
  have hII : 12 * g.a * g.e - 3 * g.b * g.d + g.c * g.c = 81 * i := by
    rw [← hI]; rfl
  unfold betaShift
  simp only [if_true, hII, ec, ee]
  rcases hij with ⟨hi, hj⟩ | ⟨hj, hk⟩
  · have hv : ¬ val 3 (81 * i) = 4 := fun h => val_four h (by
      obtain ⟨q, rfl⟩ := hi
      exact ⟨q, by ring⟩)
    rw [if_neg hv]
    obtain ⟨k, k1, q, hq⟩ := key (-c2)
    exact ⟨k, k1, Or.inl ⟨hi, hj, q, by rw [hc2]; linarith⟩⟩
  · have hi : ¬ (3 : ℤ) ∣ i := by
      rintro ⟨q, rfl⟩
      apply hj
      obtain ⟨r, hr⟩ := hk
      apply pr3.dvd_of_dvd_pow (n := 2)
      exact ⟨36 * q ^ 3 - 9 * r, by linarith⟩
    rw [if_pos (val_four' rfl hi)]
    obtain ⟨k, k1, q, hq⟩ := key (-e3)
    exact ⟨k, k1, Or.inr ⟨⟨hj, hk⟩, q, by rw [he3]; linarith⟩⟩

theorem minimNot_three (X : XGcd) (g : G) (m : SU) (h1 : g.divAll 3 = false)
    {i j : ℤ} (hI : g.II = 81 * i) (hJ : g.JJ = 729 * j) (hij : Cond3 i j) :
    StepOK 3 (g, m) (minimNot X g 3 m) := by
  have hI0 : (9 : ℤ) ∣ g.II := ⟨9 * i, by linarith⟩
  obtain ⟨t, s, ht, v, hR, hcase⟩ := minimNot_cases (p := 3) X g m
    (by exact_mod_cast h1) (dvd_trans (by norm_num) hI0) (rootOK_three X _ hI0)
  simp only [Nat.cast_ofNat] at hR hcase
  obtain ⟨i1, j1⟩ := v.invs ht
  dsimp only at i1 j1
  rcases hcase with ⟨wa, wb, hm⟩ | ⟨wa, wb, hm⟩
  · rw [hm]
    obtain ⟨r1, r2, r3⟩ := t3_1 wa wb hR.c hR.d hR.e (i1.trans hI) (j1.trans hJ)
    obtain ⟨k, hk, hcond⟩ := betaShift_three X s.1 wb (i1.trans hI) hij r1 r3
    rw [hk]
    have v3 := v.trans (GVia.xshift s.1 s.2 (3 * k))
    have ht3 : (t * !![1, 3 * k; 0, 1]).det = 1 := by
      rw [Matrix.det_mul, ht]; simp [Matrix.det_fin_two]
    obtain ⟨i3, j3⟩ := v3.invs ht3
    obtain ⟨a1, ha1⟩ := wa
    obtain ⟨c2, hc2⟩ := r1
    obtain ⟨d3, hd3⟩ := r2
    obtain ⟨e3, he3⟩ := r3
    have xa : (3 : ℤ) ∣ (s.1.xshiftS s.2 (3 * k)).1.a := ⟨a1, ha1⟩
    have xb : ¬ (3 : ℤ) ∣ (s.1.xshiftS s.2 (3 * k)).1.b := by
      simp only [G.xshiftS, G.xshift]
      rintro ⟨q, hq⟩
      exact wb ⟨q - 4 * k * s.1.a, by linear_combination hq⟩
    have xc : (9 : ℤ) ∣ (s.1.xshiftS s.2 (3 * k)).1.c := by
      simp only [G.xshiftS, G.xshift]
      exact ⟨c2 + s.1.b * k + 18 * a1 * k ^ 2, by rw [hc2, ha1]; ring⟩
    have xd : (27 : ℤ) ∣ (s.1.xshiftS s.2 (3 * k)).1.d := by
      simp only [G.xshiftS, G.xshift]
      exact ⟨d3 + 2 * c2 * k + s.1.b * k ^ 2 + 12 * a1 * k ^ 3, by rw [hc2, ha1, hd3]; ring⟩
    have xe : (27 : ℤ) ∣ (s.1.xshiftS s.2 (3 * k)).1.e := by
      simp only [G.xshiftS, G.xshift]
      exact ⟨e3 + 3 * d3 * k + 3 * c2 * k ^ 2 + s.1.b * k ^ 3 + 9 * a1 * k ^ 4, by
        rw [hc2, ha1, hd3, he3]; ring⟩
    have xx : (81 : ℤ) ∣ (s.1.xshiftS s.2 (3 * k)).1.d ∧
        (729 : ℤ) ∣ (s.1.xshiftS s.2 (3 * k)).1.e := by
      rcases hcond with ⟨hi, hj, q, hq⟩ | ⟨⟨hj, hjj⟩, q, hq⟩
      · have xc' : (27 : ℤ) ∣ (s.1.xshiftS s.2 (3 * k)).1.c := by
          simp only [G.xshiftS, G.xshift]
          exact ⟨q + 6 * a1 * k ^ 2, by rw [ha1]; linear_combination hq⟩
        exact t3_2 xa xb xc' xd xe (i3.trans hI) (j3.trans hJ) hi hj
      · suffices xe' : (81 : ℤ) ∣ (s.1.xshiftS s.2 (3 * k)).1.e from
          t3_3 xa xb xc xd xe' (i3.trans hI) (j3.trans hJ) hj hjj
        simp only [G.xshiftS, G.xshift]
        have h3k : (3 : ℤ) ∣ k ^ 3 - k := by
          rw [z3]
          push_cast
          generalize (k : ZMod 3) = k
          revert k
          decide
        obtain ⟨r, hr⟩ := h3k
        exact ⟨q + d3 * k + c2 * k ^ 2 + s.1.b * r + 3 * a1 * k ^ 4, by
          rw [ha1, hc2, hd3]; linear_combination hq + 27 * s.1.b * hr⟩
    exact stepOK_rescale2 (p := 3) ht3 v3 (by exact_mod_cast xc) (by exact_mod_cast xx.1)
      (by exact_mod_cast xx.2)
  · rw [hm]
    unfold quadStep
    simp only [show ¬ (3 : ℤ) = 2 by norm_num, decide_false, Bool.false_and, Bool.false_eq_true,
      if_false, decide_true, Bool.true_and]
    obtain ⟨w, hw⟩ : ∃ w, (if (!div 3 (s.1.b.fdiv 3)) = true then
      s.1.xshiftS s.2 (3 * mod (-(s.1.b.fdiv 3) * invmod X s.1.a 3) 3) else s) = w := ⟨_, rfl⟩
    have key : ∃ t', t'.det = 1 ∧ GVia t' 1 (g, m) w ∧ ¬ (3 : ℤ) ∣ w.1.a ∧ (9 : ℤ) ∣ w.1.b ∧
        (3 : ℤ) ∣ w.1.c ∧ (3 : ℤ) ∣ w.1.d ∧ (3 : ℤ) ∣ w.1.e := by
      obtain ⟨b0, hb0⟩ := wb
      have eb : s.1.b.fdiv 3 = b0 := by
        rw [hb0]; exact Int.mul_fdiv_cancel_left _ (by norm_num)
      rw [← hw, eb]
      by_cases hx : (3 : ℤ) ∣ b0
      · rw [(div_iff (by norm_num) _).mpr hx]
        simp only [Bool.not_true, Bool.false_eq_true, if_false]
        obtain ⟨q, hq⟩ := hx
        exact ⟨t, ht, v, wa, ⟨q, by rw [hb0, hq]; ring⟩, hR.c, hR.d, hR.e⟩
      · have e5 : div (3 : ℤ) b0 = false := by
          rw [Bool.eq_false_iff, Ne, div_iff (by norm_num)]; exact hx
        simp only [e5, Bool.not_false, if_true]
        obtain ⟨k, hk⟩ : ∃ k, mod (-b0 * invmod X s.1.a 3) 3 = k := ⟨_, rfl⟩
        obtain ⟨q, hq⟩ := invmod3 X wa (-b0)
        rw [hk] at hq ⊢
        obtain ⟨c', hc'⟩ := hR.c
        obtain ⟨d', hd'⟩ := hR.d
        obtain ⟨e', he'⟩ := hR.e
        refine ⟨_, ?_, v.trans (GVia.xshift s.1 s.2 (3 * k)), wa, ?_, ?_, ?_, ?_⟩
        · rw [Matrix.det_mul, ht]; simp [Matrix.det_fin_two]
        all_goals try simp only [G.xshiftS, G.xshift]
        · exact ⟨q + s.1.a * k, by rw [hb0]; linear_combination 3 * hq⟩
        · exact ⟨c' + k * (3 * s.1.b + 6 * (3 * k) * s.1.a), by rw [hc']; ring⟩
        · exact ⟨d' + k * (2 * s.1.c + 3 * k * (3 * s.1.b + 4 * (3 * k) * s.1.a)), by
            rw [hd']; ring⟩
        · exact ⟨e' + k * (s.1.d + 3 * k * (s.1.c + 3 * k * (s.1.b + 3 * k * s.1.a))), by
            rw [he']; ring⟩
    rw [hw]
    obtain ⟨t', ht', v', wa', wb', wc', wd', we'⟩ := key
    obtain ⟨i3, j3⟩ := v'.invs ht'
    dsimp only at i3 j3
    obtain ⟨r1, r2, r3⟩ := q3_1 wa' wb' wc' wd' we' (i3.trans hI) (j3.trans hJ)
    obtain ⟨r4, r5⟩ := q3_2 wa' wb' r1 r2 r3 (i3.trans hI) (j3.trans hJ) hij
    exact stepOK_rescale1 (p := 3) ht' v' (dvd_trans (by norm_num) wb') (by exact_mod_cast r1)
      (by exact_mod_cast r4) (by exact_mod_cast r5)

end Eclib.Forms
