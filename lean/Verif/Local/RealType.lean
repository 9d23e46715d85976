import Verif.Forms.Model
import Verif.Local.LocSolModel
import Mathlib.Analysis.Complex.Polynomial.Basic
import Mathlib.Tactic.LinearCombination
import Mathlib.Data.Set.Card

/-! # The type of a quartic: its number of real roots (C61) -/

namespace Eclib.LocSol

open Eclib.Forms (G)

/-- the integer part of `set_roots_and_type` (mquartic.cc:57-79): the type of the quartic.  The
floating-point roots (80-192) are not modelled. -/
def qtype (g : G) : Int :=
  let disc := g.disc
  let H := g.HH
  let Q := H * H - 16 * g.a * g.a * g.II
  if disc < 0 then 3
  else if H < 0 ∧ 0 < Q then 2
  else 1

/-- `Rsoluble(g)` (mlocsol.cc:161-164) -/
def rsoluble (g : G) : Bool := decide (qtype g > 1) || decide (0 < g.a)

/-! ### specification -/

/-- number of real zeros of the form in the projective line: those of `g(X,1)`, and the point at
infinity if the leading coefficient vanishes -/
noncomputable def nRealRoots (g : G) : ℕ :=
  {t : ℝ | (g.a : ℝ) * t ^ 4 + g.b * t ^ 3 + g.c * t ^ 2 + g.d * t + g.e = 0}.ncard +
    if g.a = 0 then 1 else 0

/-- `y^2 = g(x,z)` has a real point -/
def HasRealPoint (g : G) : Prop :=
  ∃ x y z : ℝ, ¬ (x = 0 ∧ z = 0) ∧
    y ^ 2 = g.a * x ^ 4 + g.b * x ^ 3 * z + g.c * x ^ 2 * z ^ 2 + g.d * x * z ^ 3 + g.e * z ^ 4

/-! ### real factorisation -/

theorem cubic_root (b c d e : ℝ) (hb : b ≠ 0) : ∃ w : ℂ, b * w ^ 3 + c * w ^ 2 + d * w + e = 0 := by
  have hb' : (b : ℂ) ≠ 0 := by exact_mod_cast hb
  have hdeg : (Polynomial.C (b : ℂ) * Polynomial.X ^ 3 + Polynomial.C (c : ℂ) * Polynomial.X ^ 2 +
      Polynomial.C (d : ℂ) * Polynomial.X + Polynomial.C (e : ℂ)).degree = 3 :=
    Polynomial.degree_cubic hb'
  obtain ⟨w, hw⟩ := Complex.exists_root (f := Polynomial.C (b : ℂ) * Polynomial.X ^ 3 +
    Polynomial.C (c : ℂ) * Polynomial.X ^ 2 + Polynomial.C (d : ℂ) * Polynomial.X +
    Polynomial.C (e : ℂ)) (by rw [hdeg]; norm_num)
  refine ⟨w, ?_⟩
  simpa [Polynomial.IsRoot] using hw

theorem quartic_root (a b c d e : ℝ) (ha : a ≠ 0) :
    ∃ w : ℂ, a * w ^ 4 + b * w ^ 3 + c * w ^ 2 + d * w + e = 0 := by
  have ha' : (a : ℂ) ≠ 0 := by exact_mod_cast ha
  let P : Polynomial ℂ := Polynomial.C (a : ℂ) * Polynomial.X ^ 4 +
    (Polynomial.C (b : ℂ) * Polynomial.X ^ 3 + Polynomial.C (c : ℂ) * Polynomial.X ^ 2 +
      Polynomial.C (d : ℂ) * Polynomial.X + Polynomial.C (e : ℂ))
  have h1 : (Polynomial.C (a : ℂ) * Polynomial.X ^ 4).degree = 4 :=
    Polynomial.degree_C_mul_X_pow 4 ha'
  have hdeg : P.degree = 4 := by
    rw [← h1]
    refine Polynomial.degree_add_eq_left_of_degree_lt ?_
    rw [h1]
    refine lt_of_le_of_lt Polynomial.degree_cubic_le ?_
    norm_num
  obtain ⟨w, hw⟩ := Complex.exists_root (f := P) (by rw [hdeg]; norm_num)
  refine ⟨w, ?_⟩
  have : P.eval w = 0 := hw
  simp only [P, Polynomial.eval_add, Polynomial.eval_mul, Polynomial.eval_C, Polynomial.eval_pow,
    Polynomial.eval_X] at this
  linear_combination this

/-- a linear relation with real coefficients at a non-real number is trivial -/
theorem lin_zero {w : ℂ} (hw : w.im ≠ 0) {r s : ℝ} (h : (r : ℂ) * w + s = 0) : r = 0 ∧ s = 0 := by
  have h1 := congrArg Complex.im h
  have h2 := congrArg Complex.re h
  simp at h1 h2
  have hr : r = 0 := by tauto
  subst hr
  exact ⟨rfl, by simpa using h2⟩

/-- the minimal polynomial of a non-real number -/
theorem min_quad (w : ℂ) : ∃ s t : ℝ, w ^ 2 + s * w + t = 0 := by
  refine ⟨-2 * w.re, w.re ^ 2 + w.im ^ 2, ?_⟩
  apply Complex.ext <;> simp [sq] <;> ring

/-- a real cubic is a product of a linear and a quadratic polynomial -/
theorem cubic_factor (b c d e : ℝ) (hb : b ≠ 0) : ∃ l m q r s : ℝ,
    b = l * q ∧ c = l * r + m * q ∧ d = l * s + m * r ∧ e = m * s := by
  obtain ⟨w, hw⟩ := cubic_root b c d e hb
  by_cases him : w.im = 0
  · obtain ⟨v, rfl⟩ : ∃ v : ℝ, (v : ℂ) = w := ⟨w.re, Complex.ext (by simp) (by simp [him])⟩
    have hv : b * v ^ 3 + c * v ^ 2 + d * v + e = 0 := by exact_mod_cast hw
    exact ⟨1, -v, b, c + b * v, d + (c + b * v) * v, by ring, by ring, by ring,
      by linear_combination hv⟩
  · obtain ⟨s, t, hst⟩ := min_quad w
    have h1 : (((d - b * t - (c - b * s) * s : ℝ)) : ℂ) * w + ((e - (c - b * s) * t : ℝ) : ℂ) = 0 := by
      push_cast
      linear_combination hw - (b * w + (c - b * s)) * hst
    obtain ⟨h2, h3⟩ := lin_zero him h1
    exact ⟨b, c - b * s, 1, s, t, by ring, by ring, by linear_combination h2,
      by linear_combination h3⟩

/-- a real quartic form whose first two coefficients do not both vanish is a product of two
quadratic forms -/
theorem quartic_factor (a b c d e : ℝ) (h : a ≠ 0 ∨ b ≠ 0) : ∃ a1 b1 c1 a2 b2 c2 : ℝ,
    a = a1 * a2 ∧ b = a1 * b2 + b1 * a2 ∧ c = a1 * c2 + b1 * b2 + c1 * a2 ∧
      d = b1 * c2 + c1 * b2 ∧ e = c1 * c2 := by
  by_cases ha : a = 0
  · obtain ⟨l, m, q, r, s, h1, h2, h3, h4⟩ := cubic_factor b c d e (h.resolve_left (by simpa using ha))
    exact ⟨0, l, m, q, r, s, by rw [ha]; ring, by linear_combination h1,
      by linear_combination h2, by linear_combination h3, h4⟩
  · obtain ⟨w, hw⟩ := quartic_root a b c d e ha
    by_cases him : w.im = 0
    · obtain ⟨v, rfl⟩ : ∃ v : ℝ, (v : ℂ) = w := ⟨w.re, Complex.ext (by simp) (by simp [him])⟩
      have hv : a * v ^ 4 + b * v ^ 3 + c * v ^ 2 + d * v + e = 0 := by exact_mod_cast hw
      obtain ⟨l, m, q, r, s, h1, h2, h3, h4⟩ := cubic_factor a (b + a * v) (c + (b + a * v) * v)
        (d + (c + (b + a * v) * v) * v) ha
      refine ⟨l, m - v * l, -v * m, q, r, s, h1, by linear_combination h2 - v * h1,
        by linear_combination h3 - v * h2, by linear_combination h4 - v * h3,
        by linear_combination hv - v * h4⟩
    · obtain ⟨s, t, hst⟩ := min_quad w
      have h1 : (((d - (b - a * s) * t - (c - a * t - (b - a * s) * s) * s : ℝ)) : ℂ) * w +
          ((e - (c - a * t - (b - a * s) * s) * t : ℝ) : ℂ) = 0 := by
        push_cast
        linear_combination hw - (a * w ^ 2 + (b - a * s) * w + (c - a * t - (b - a * s) * s)) * hst
      obtain ⟨h2, h3⟩ := lin_zero him h1
      exact ⟨a, b - a * s, c - a * t - (b - a * s) * s, 1, s, t, by ring, by ring, by ring,
        by linear_combination h2, by linear_combination h3⟩

/-! ### real quadratic forms -/

theorem quad_count_pos {a b c : ℝ} (h : 0 < b ^ 2 - 4 * a * c) :
    {t : ℝ | a * t ^ 2 + b * t + c = 0}.Finite ∧
    {t : ℝ | a * t ^ 2 + b * t + c = 0}.ncard + (if a = 0 then 1 else 0) = 2 := by
  by_cases ha : a = 0
  · subst ha
    have hb : b ≠ 0 := by rintro rfl; simp at h
    have : {t : ℝ | 0 * t ^ 2 + b * t + c = 0} = {-c / b} := by
      ext t
      simp only [Set.mem_ofPred_eq, Set.mem_singleton_iff]
      rw [eq_div_iff hb]
      constructor <;> intro h <;> linarith
    rw [this]
    simp
  · obtain ⟨s, hs, hs2⟩ : ∃ s : ℝ, 0 < s ∧ s ^ 2 = b ^ 2 - 4 * a * c :=
      ⟨Real.sqrt _, Real.sqrt_pos.mpr h, Real.sq_sqrt h.le⟩
    have : {t : ℝ | a * t ^ 2 + b * t + c = 0} = {(-b + s) / (2 * a), (-b - s) / (2 * a)} := by
      ext t
      simp only [Set.mem_ofPred_eq, Set.mem_insert_iff, Set.mem_singleton_iff]
      have h2a : 2 * a ≠ 0 := by simpa using ha
      rw [eq_div_iff h2a, eq_div_iff h2a]
      have key : 4 * a * (a * t ^ 2 + b * t + c) =
          (t * (2 * a) - (-b + s)) * (t * (2 * a) - (-b - s)) := by
        linear_combination hs2
      constructor
      · intro h0
        rw [h0, mul_zero] at key
        rcases mul_eq_zero.mp key.symm with h3 | h3
        · left; linarith
        · right; linarith
      · rintro (h0 | h0)
        · rw [h0, sub_self, zero_mul] at key
          simpa [ha] using key
        · rw [h0, sub_self, mul_zero] at key
          simpa [ha] using key
    rw [this]
    refine ⟨Set.toFinite _, ?_⟩
    rw [Set.ncard_pair, if_neg ha]
    intro h0
    have h2a : 2 * a ≠ 0 := by simpa using ha
    rw [div_left_inj' h2a] at h0
    linarith

theorem quad_neg {a b c : ℝ} (h : b ^ 2 - 4 * a * c < 0) :
    a ≠ 0 ∧ {t : ℝ | a * t ^ 2 + b * t + c = 0} = ∅ := by
  constructor
  · rintro rfl
    nlinarith [sq_nonneg b]
  · ext t
    simp only [Set.mem_ofPred_eq, Set.mem_empty_iff_false, iff_false]
    intro h0
    have h1 : (2 * a * t + b) ^ 2 = b ^ 2 - 4 * a * c := by linear_combination 4 * a * h0
    linarith [sq_nonneg (2 * a * t + b)]

/-! ### the invariants of a product of two quadratics -/

section Product

variable (a1 b1 c1 a2 b2 c2 : ℝ)

/-- the resultant -/
def res : ℝ := (a1 * c2 - a2 * c1) ^ 2 - (a1 * b2 - a2 * b1) * (b1 * c2 - b2 * c1)

theorem disc_prod {a b c d e : ℝ} (ha : a = a1 * a2) (hb : b = a1 * b2 + b1 * a2)
    (hc : c = a1 * c2 + b1 * b2 + c1 * a2) (hd : d = b1 * c2 + c1 * b2) (he : e = c1 * c2) :
    4 * (12 * a * e - 3 * b * d + c * c) ^ 3 -
      ((72 * a * e + 9 * b * d - 2 * (c * c)) * c - 27 * (a * (d * d) + (b * b) * e)) *
      ((72 * a * e + 9 * b * d - 2 * (c * c)) * c - 27 * (a * (d * d) + (b * b) * e)) =
    27 * ((b1 ^ 2 - 4 * a1 * c1) * (b2 ^ 2 - 4 * a2 * c2) * res a1 b1 c1 a2 b2 c2 ^ 2) := by
  subst ha hb hc hd he
  unfold res
  ring

theorem H_prod {a b c : ℝ} (ha : a = a1 * a2) (hb : b = a1 * b2 + b1 * a2)
    (hc : c = a1 * c2 + b1 * b2 + c1 * a2) :
    8 * a * c - 3 * (b * b) = -((a2 * b1 - a1 * b2) ^ 2 +
      2 * (a2 ^ 2 * (b1 ^ 2 - 4 * a1 * c1) + a1 ^ 2 * (b2 ^ 2 - 4 * a2 * c2))) := by
  subst ha hb hc
  ring

theorem Q_prod {a b c d e : ℝ} (ha : a = a1 * a2) (hb : b = a1 * b2 + b1 * a2)
    (hc : c = a1 * c2 + b1 * b2 + c1 * a2) (hd : d = b1 * c2 + c1 * b2) (he : e = c1 * c2) :
    (8 * a * c - 3 * (b * b)) * (8 * a * c - 3 * (b * b)) -
      16 * a * a * (12 * a * e - 3 * b * d + c * c) =
    3 * (2 * (a2 * b1 - a1 * b2) ^ 2 *
        (a2 ^ 2 * (b1 ^ 2 - 4 * a1 * c1) + a1 ^ 2 * (b2 ^ 2 - 4 * a2 * c2)) +
      (a2 ^ 2 * (b1 ^ 2 - 4 * a1 * c1) - a1 ^ 2 * (b2 ^ 2 - 4 * a2 * c2)) ^ 2) := by
  subst ha hb hc hd he
  ring

variable {a1 b1 c1 a2 b2 c2}

/-- both discriminants positive -/
theorem seminv_pos (hR : res a1 b1 c1 a2 b2 c2 ≠ 0) (h1 : 0 < b1 ^ 2 - 4 * a1 * c1)
    (h2 : 0 < b2 ^ 2 - 4 * a2 * c2) :
    0 < (a2 * b1 - a1 * b2) ^ 2 +
      2 * (a2 ^ 2 * (b1 ^ 2 - 4 * a1 * c1) + a1 ^ 2 * (b2 ^ 2 - 4 * a2 * c2)) ∧
    0 < 2 * (a2 * b1 - a1 * b2) ^ 2 *
        (a2 ^ 2 * (b1 ^ 2 - 4 * a1 * c1) + a1 ^ 2 * (b2 ^ 2 - 4 * a2 * c2)) +
      (a2 ^ 2 * (b1 ^ 2 - 4 * a1 * c1) - a1 ^ 2 * (b2 ^ 2 - 4 * a2 * c2)) ^ 2 := by
  have h0 : ¬ (a1 = 0 ∧ a2 = 0) := by
    rintro ⟨rfl, rfl⟩
    apply hR
    unfold res
    ring
  have hP : 0 ≤ a2 ^ 2 * (b1 ^ 2 - 4 * a1 * c1) := by positivity
  have hS : 0 ≤ a1 ^ 2 * (b2 ^ 2 - 4 * a2 * c2) := by positivity
  have hPS : 0 < a2 ^ 2 * (b1 ^ 2 - 4 * a1 * c1) + a1 ^ 2 * (b2 ^ 2 - 4 * a2 * c2) := by
    by_cases ha : a1 = 0
    · have : a2 ≠ 0 := fun h => h0 ⟨ha, h⟩
      have : 0 < a2 ^ 2 * (b1 ^ 2 - 4 * a1 * c1) := by positivity
      linarith
    · have : 0 < a1 ^ 2 * (b2 ^ 2 - 4 * a2 * c2) := by positivity
      linarith
  refine ⟨by nlinarith [sq_nonneg (a2 * b1 - a1 * b2)], ?_⟩
  by_cases hz : a2 * b1 - a1 * b2 = 0
  · rw [hz]
    have hne : a2 ^ 2 * (b1 ^ 2 - 4 * a1 * c1) - a1 ^ 2 * (b2 ^ 2 - 4 * a2 * c2) ≠ 0 := by
      intro h3
      -- the two quadratics are proportional
      have h4 : a1 * a2 * (a1 * c2 - a2 * c1) = 0 := by
        have : 4 * (a1 * a2 * (a1 * c2 - a2 * c1)) = 0 := by
          linear_combination h3 - (a2 * b1 + a1 * b2) * hz
        linarith
      have h5 : a1 ≠ 0 ∧ a2 ≠ 0 := by
        constructor
        · rintro rfl
          have : a2 ^ 2 * (b1 ^ 2 - 4 * 0 * c1) = 0 := by linear_combination h3
          have h6 : a2 ≠ 0 := fun h => h0 ⟨rfl, h⟩
          rcases mul_eq_zero.mp this with h7 | h7
          · exact h6 (by simpa using h7)
          · linarith
        · rintro rfl
          have : a1 ^ 2 * (b2 ^ 2 - 4 * 0 * c2) = 0 := by linear_combination -h3
          have h6 : a1 ≠ 0 := fun h => h0 ⟨h, rfl⟩
          rcases mul_eq_zero.mp this with h7 | h7
          · exact h6 (by simpa using h7)
          · linarith
      have h6 : a1 * c2 - a2 * c1 = 0 := by
        rcases mul_eq_zero.mp h4 with h7 | h7
        · exact absurd h7 (mul_ne_zero h5.1 h5.2)
        · exact h7
      apply hR
      unfold res
      linear_combination (a1 * c2 - a2 * c1) * h6 + (b1 * c2 - b2 * c1) * hz
    positivity
  · positivity

/-- both discriminants negative -/
theorem seminv_neg (h1 : b1 ^ 2 - 4 * a1 * c1 < 0) (h2 : b2 ^ 2 - 4 * a2 * c2 < 0) :
    ¬ (0 < (a2 * b1 - a1 * b2) ^ 2 +
      2 * (a2 ^ 2 * (b1 ^ 2 - 4 * a1 * c1) + a1 ^ 2 * (b2 ^ 2 - 4 * a2 * c2)) ∧
    0 < 2 * (a2 * b1 - a1 * b2) ^ 2 *
        (a2 ^ 2 * (b1 ^ 2 - 4 * a1 * c1) + a1 ^ 2 * (b2 ^ 2 - 4 * a2 * c2)) +
      (a2 ^ 2 * (b1 ^ 2 - 4 * a1 * c1) - a1 ^ 2 * (b2 ^ 2 - 4 * a2 * c2)) ^ 2) := by
  have hP : 0 < a2 ^ 2 * -(b1 ^ 2 - 4 * a1 * c1) := by
    have := (quad_neg h2).1
    have : 0 < -(b1 ^ 2 - 4 * a1 * c1) := by linarith
    positivity
  have hS : 0 < a1 ^ 2 * -(b2 ^ 2 - 4 * a2 * c2) := by
    have := (quad_neg h1).1
    have : 0 < -(b2 ^ 2 - 4 * a2 * c2) := by linarith
    positivity
  rw [mul_neg] at hP hS
  generalize a2 ^ 2 * (b1 ^ 2 - 4 * a1 * c1) = P at *
  generalize a1 ^ 2 * (b2 ^ 2 - 4 * a2 * c2) = S at *
  generalize (a2 * b1 - a1 * b2) ^ 2 = z
  rintro ⟨h3, h4⟩
  nlinarith [mul_pos hP hS, mul_pos h3 (show 0 < -(P + S) by linarith)]

end Product

/-! ### the theorems -/

/-- a real factorisation of a quartic of non-zero discriminant, with the code's invariants -/
theorem factor_data (g : G) (hd : g.disc ≠ 0) : ∃ a1 b1 c1 a2 b2 c2 : ℝ,
    (g.a : ℝ) = a1 * a2 ∧ (g.b : ℝ) = a1 * b2 + b1 * a2 ∧
    (g.c : ℝ) = a1 * c2 + b1 * b2 + c1 * a2 ∧ (g.d : ℝ) = b1 * c2 + c1 * b2 ∧
    (g.e : ℝ) = c1 * c2 ∧
    res a1 b1 c1 a2 b2 c2 ≠ 0 ∧
    (g.disc : ℝ) =
      27 * ((b1 ^ 2 - 4 * a1 * c1) * (b2 ^ 2 - 4 * a2 * c2) * res a1 b1 c1 a2 b2 c2 ^ 2) ∧
    (g.HH : ℝ) = -((a2 * b1 - a1 * b2) ^ 2 +
      2 * (a2 ^ 2 * (b1 ^ 2 - 4 * a1 * c1) + a1 ^ 2 * (b2 ^ 2 - 4 * a2 * c2))) ∧
    ((g.HH * g.HH - 16 * g.a * g.a * g.II : ℤ) : ℝ) = 3 * (2 * (a2 * b1 - a1 * b2) ^ 2 *
        (a2 ^ 2 * (b1 ^ 2 - 4 * a1 * c1) + a1 ^ 2 * (b2 ^ 2 - 4 * a2 * c2)) +
      (a2 ^ 2 * (b1 ^ 2 - 4 * a1 * c1) - a1 ^ 2 * (b2 ^ 2 - 4 * a2 * c2)) ^ 2) := by
  have hab : (g.a : ℝ) ≠ 0 ∨ (g.b : ℝ) ≠ 0 := by
    by_contra h
    push Not at h
    have ha : g.a = 0 := by exact_mod_cast h.1
    have hb : g.b = 0 := by exact_mod_cast h.2
    apply hd
    unfold G.disc G.II G.JJ
    rw [ha, hb]
    ring
  obtain ⟨a1, b1, c1, a2, b2, c2, h1, h2, h3, h4, h5⟩ := quartic_factor _ _ (g.c : ℝ) g.d g.e hab
  have hdisc : (g.disc : ℝ) =
      27 * ((b1 ^ 2 - 4 * a1 * c1) * (b2 ^ 2 - 4 * a2 * c2) * res a1 b1 c1 a2 b2 c2 ^ 2) := by
    rw [← disc_prod a1 b1 c1 a2 b2 c2 h1 h2 h3 h4 h5]
    unfold G.disc G.II G.JJ
    push_cast
    rfl
  refine ⟨a1, b1, c1, a2, b2, c2, h1, h2, h3, h4, h5, ?_, hdisc, ?_, ?_⟩
  · intro h
    rw [h] at hdisc
    apply hd
    have : (g.disc : ℝ) = 0 := by rw [hdisc]; ring
    exact_mod_cast this
  · rw [← H_prod a1 b1 c1 a2 b2 c2 h1 h2 h3]
    unfold G.HH
    push_cast
    rfl
  · rw [← Q_prod a1 b1 c1 a2 b2 c2 h1 h2 h3 h4 h5]
    unfold G.HH G.II
    push_cast
    rfl

/-- the real zeros of a product -/
theorem roots_prod {a b c d e a1 b1 c1 a2 b2 c2 : ℝ} (ha : a = a1 * a2) (hb : b = a1 * b2 + b1 * a2)
    (hc : c = a1 * c2 + b1 * b2 + c1 * a2) (hd : d = b1 * c2 + c1 * b2) (he : e = c1 * c2) :
    {t : ℝ | a * t ^ 4 + b * t ^ 3 + c * t ^ 2 + d * t + e = 0} =
      {t | a1 * t ^ 2 + b1 * t + c1 = 0} ∪ {t | a2 * t ^ 2 + b2 * t + c2 = 0} := by
  ext t
  simp only [Set.mem_ofPred_eq, Set.mem_union]
  rw [← mul_eq_zero]
  subst ha hb hc hd he
  constructor <;> intro h <;> linear_combination h

theorem roots_disjoint {a1 b1 c1 a2 b2 c2 : ℝ} (hR : res a1 b1 c1 a2 b2 c2 ≠ 0) :
    Disjoint {t : ℝ | a1 * t ^ 2 + b1 * t + c1 = 0} {t | a2 * t ^ 2 + b2 * t + c2 = 0} := by
  rw [Set.disjoint_left]
  intro t h1 h2
  simp only [Set.mem_ofPred_eq] at h1 h2
  apply hR
  have e1 : (a1 * b2 - a2 * b1) * t + (a1 * c2 - a2 * c1) = 0 := by
    linear_combination a1 * h2 - a2 * h1
  have e2 : (a1 * c2 - a2 * c1) * t + (b1 * c2 - b2 * c1) = 0 ∨ t = 0 := by
    by_cases ht : t = 0
    · exact Or.inr ht
    · left
      have : t * ((a1 * c2 - a2 * c1) * t + (b1 * c2 - b2 * c1)) = 0 := by
        linear_combination c2 * h1 - c1 * h2
      exact (mul_eq_zero.mp this).resolve_left ht
  unfold res
  rcases e2 with e2 | rfl
  · linear_combination (a1 * c2 - a2 * c1) * e1 - (a1 * b2 - a2 * b1) * e2
  · have hc1 : c1 = 0 := by linear_combination h1
    have hc2 : c2 = 0 := by linear_combination h2
    rw [hc1, hc2]
    ring

/-- **C61**: for a quartic without a repeated factor the type is `3`, `2`, `1` exactly when there
are two, four, no real zeros -/
theorem C61_type (g : G) (hd : g.disc ≠ 0) :
    (qtype g = 3 ∧ nRealRoots g = 2) ∨ (qtype g = 2 ∧ nRealRoots g = 4) ∨
      (qtype g = 1 ∧ nRealRoots g = 0) := by
  obtain ⟨a1, b1, c1, a2, b2, c2, h1, h2, h3, h4, h5, hR, hD, hH, hQ⟩ := factor_data g hd
  have hR2 : 0 < res a1 b1 c1 a2 b2 c2 ^ 2 := by positivity
  have hd' : (g.disc : ℝ) ≠ 0 := by exact_mod_cast hd
  have hd1 : b1 ^ 2 - 4 * a1 * c1 ≠ 0 := by
    intro h; rw [h] at hD; apply hd'; rw [hD]; ring
  have hd2 : b2 ^ 2 - 4 * a2 * c2 ≠ 0 := by
    intro h; rw [h] at hD; apply hd'; rw [hD]; ring
  have hdisj := roots_disjoint hR
  have ha0 : ¬ (a1 = 0 ∧ a2 = 0) := by
    rintro ⟨rfl, rfl⟩
    apply hR
    unfold res
    ring
  have haz : g.a = 0 ↔ a1 = 0 ∨ a2 = 0 := by
    rw [← mul_eq_zero, ← h1]
    exact_mod_cast Iff.rfl
  have hneg : g.disc < 0 ↔ (b1 ^ 2 - 4 * a1 * c1) * (b2 ^ 2 - 4 * a2 * c2) < 0 := by
    have : g.disc < 0 ↔ (g.disc : ℝ) < 0 := by exact_mod_cast Iff.rfl
    rw [this, hD]
    constructor
    · intro h; nlinarith
    · intro h; nlinarith
  have hcond : (g.HH < 0 ∧ 0 < g.HH * g.HH - 16 * g.a * g.a * g.II) ↔
      (0 < (a2 * b1 - a1 * b2) ^ 2 +
        2 * (a2 ^ 2 * (b1 ^ 2 - 4 * a1 * c1) + a1 ^ 2 * (b2 ^ 2 - 4 * a2 * c2)) ∧
      0 < 2 * (a2 * b1 - a1 * b2) ^ 2 *
          (a2 ^ 2 * (b1 ^ 2 - 4 * a1 * c1) + a1 ^ 2 * (b2 ^ 2 - 4 * a2 * c2)) +
        (a2 ^ 2 * (b1 ^ 2 - 4 * a1 * c1) - a1 ^ 2 * (b2 ^ 2 - 4 * a2 * c2)) ^ 2) := by
    have e1 : g.HH < 0 ↔ (g.HH : ℝ) < 0 := by exact_mod_cast Iff.rfl
    have e2 : 0 < g.HH * g.HH - 16 * g.a * g.a * g.II ↔
        0 < ((g.HH * g.HH - 16 * g.a * g.a * g.II : ℤ) : ℝ) := by
      rw [Int.cast_pos]
    rw [e1, e2, hH, hQ, neg_lt_zero]
    refine and_congr Iff.rfl ?_
    constructor <;> intro h <;> linarith
  unfold nRealRoots
  rw [roots_prod h1 h2 h3 h4 h5]
  simp only [qtype]
  rcases lt_or_gt_of_ne hd1 with s1 | s1 <;> rcases lt_or_gt_of_ne hd2 with s2 | s2
  · -- no real zeros
    obtain ⟨n1, r1⟩ := quad_neg s1
    obtain ⟨n2, r2⟩ := quad_neg s2
    right; right
    rw [if_neg (by rw [hneg, not_lt]; exact (mul_pos_of_neg_of_neg s1 s2).le),
      if_neg (by rw [hcond]; exact seminv_neg s1 s2), r1, r2, if_neg (by rw [haz]; exact not_or.mpr ⟨n1, n2⟩)]
    simp
  · obtain ⟨n1, r1⟩ := quad_neg s1
    obtain ⟨f2, r2⟩ := quad_count_pos s2
    left
    rw [if_pos (hneg.mpr (mul_neg_of_neg_of_pos s1 s2)), r1, Set.empty_union]
    refine ⟨rfl, ?_⟩
    have : g.a = 0 ↔ a2 = 0 := by rw [haz]; exact or_iff_right n1
    simp only [this]
    exact r2
  · obtain ⟨n2, r2⟩ := quad_neg s2
    obtain ⟨f1, r1⟩ := quad_count_pos s1
    left
    rw [if_pos (hneg.mpr (mul_neg_of_pos_of_neg s1 s2)), r2, Set.union_empty]
    refine ⟨rfl, ?_⟩
    have : g.a = 0 ↔ a1 = 0 := by rw [haz]; exact or_iff_left n2
    simp only [this]
    exact r1
  · obtain ⟨f1, r1⟩ := quad_count_pos s1
    obtain ⟨f2, r2⟩ := quad_count_pos s2
    right; left
    rw [if_neg (by rw [hneg, not_lt]; exact (mul_pos s1 s2).le),
      if_pos (by rw [hcond]; exact seminv_pos hR s1 s2), Set.ncard_union_eq hdisj f1 f2]
    refine ⟨rfl, ?_⟩
    simp only [haz]
    by_cases e1 : a1 = 0
    · have e2 : a2 ≠ 0 := fun h => ha0 ⟨e1, h⟩
      rw [if_pos e1] at r1
      rw [if_neg e2] at r2
      rw [if_pos (Or.inl e1)]
      omega
    · rw [if_neg e1] at r1
      by_cases e2 : a2 = 0
      · rw [if_pos e2] at r2
        rw [if_pos (Or.inr e2)]
        omega
      · rw [if_neg e2] at r2
        rw [if_neg (not_or.mpr ⟨e1, e2⟩)]
        omega

/-- **C61**: `Rsoluble` decides whether `y^2 = g(x,z)` has a real point -/
theorem C61_rsoluble (g : G) (hd : g.disc ≠ 0) : rsoluble g = true ↔ HasRealPoint g := by
  have htype := C61_type g hd
  unfold rsoluble
  rw [Bool.or_eq_true, decide_eq_true_eq, decide_eq_true_eq]
  constructor
  · rintro (h | h)
    · -- a real zero
      have hN : nRealRoots g ≠ 0 := by
        rcases htype with ⟨h1, h2⟩ | ⟨h1, h2⟩ | ⟨h1, h2⟩ <;> omega
      unfold nRealRoots at hN
      by_cases ha : g.a = 0
      · exact ⟨1, 0, 0, by simp, by rw [ha]; push_cast; ring⟩
      · rw [if_neg ha, add_zero] at hN
        obtain ⟨t, ht⟩ := Set.nonempty_of_ncard_ne_zero hN
        simp only [Set.mem_ofPred_eq] at ht
        exact ⟨t, 0, 1, by simp, by linear_combination -ht⟩
    · have h' : (0 : ℝ) < g.a := by exact_mod_cast h
      exact ⟨1, Real.sqrt g.a, 0, by simp, by rw [Real.sq_sqrt h'.le]; ring⟩
  · rintro ⟨x, y, z, h0, h⟩
    by_contra hcon
    push Not at hcon
    obtain ⟨ht, ha⟩ := hcon
    have hN : nRealRoots g = 0 := by
      rcases htype with ⟨h1, h2⟩ | ⟨h1, h2⟩ | ⟨h1, h2⟩ <;> omega
    obtain ⟨a1, b1, c1, a2, b2, c2, h1, h2, h3, h4, h5, hR, hD, -, -⟩ := factor_data g hd
    unfold nRealRoots at hN
    rw [roots_prod h1 h2 h3 h4 h5] at hN
    have hd' : (g.disc : ℝ) ≠ 0 := by exact_mod_cast hd
    have hd1 : b1 ^ 2 - 4 * a1 * c1 ≠ 0 := by
      intro h; rw [h] at hD; apply hd'; rw [hD]; ring
    have hd2 : b2 ^ 2 - 4 * a2 * c2 ≠ 0 := by
      intro h; rw [h] at hD; apply hd'; rw [hD]; ring
    have hga : g.a ≠ 0 := by
      intro h; rw [if_pos h] at hN; omega
    have hga' : (g.a : ℝ) ≠ 0 := by exact_mod_cast hga
    rw [h1] at hga'
    have ha1 := left_ne_zero_of_mul hga'
    have ha2 := right_ne_zero_of_mul hga'
    rw [if_neg hga, add_zero] at hN
    have fin : ∀ a b c : ℝ, a ≠ 0 → b ^ 2 - 4 * a * c ≠ 0 →
        {t : ℝ | a * t ^ 2 + b * t + c = 0}.Finite := by
      intro a b c _ hne
      rcases lt_or_gt_of_ne hne with s | s
      · rw [(quad_neg s).2]; exact Set.finite_empty
      · exact (quad_count_pos s).1
    have hemp := (Set.ncard_eq_zero ((fin a1 b1 c1 ha1 hd1).union (fin a2 b2 c2 ha2 hd2))).mp hN
    obtain ⟨m1, m2⟩ := Set.union_empty_iff.mp hemp
    have s1 : b1 ^ 2 - 4 * a1 * c1 < 0 := by
      by_contra hs
      have := (quad_count_pos (lt_of_le_of_ne (not_lt.mp hs) hd1.symm)).2
      rw [m1, if_neg ha1] at this
      simp at this
    have s2 : b2 ^ 2 - 4 * a2 * c2 < 0 := by
      by_contra hs
      have := (quad_count_pos (lt_of_le_of_ne (not_lt.mp hs) hd2.symm)).2
      rw [m2, if_neg ha2] at this
      simp at this
    -- `a_i * q_i(x,z) > 0`
    have pos : ∀ a b c : ℝ, b ^ 2 - 4 * a * c < 0 →
        0 < a * (a * x ^ 2 + b * x * z + c * z ^ 2) := by
      intro a b c s
      have e : 4 * (a * (a * x ^ 2 + b * x * z + c * z ^ 2)) =
          (2 * a * x + b * z) ^ 2 + -(b ^ 2 - 4 * a * c) * z ^ 2 := by ring
      by_cases hz : z = 0
      · have hx : x ≠ 0 := fun hx => h0 ⟨hx, hz⟩
        have ha := (quad_neg s).1
        rw [hz]
        have : 0 < (a * x) ^ 2 := by positivity
        linarith [this, show a * (a * x ^ 2 + b * x * 0 + c * 0 ^ 2) = (a * x) ^ 2 by ring]
      · have hz2 : 0 < z ^ 2 := by positivity
        have : 0 < -(b ^ 2 - 4 * a * c) * z ^ 2 := mul_pos (by linarith) hz2
        nlinarith [sq_nonneg (2 * a * x + b * z)]
    have p1 := pos a1 b1 c1 s1
    have p2 := pos a2 b2 c2 s2
    have hy : g.a * y ^ 2 = (a1 * (a1 * x ^ 2 + b1 * x * z + c1 * z ^ 2)) *
        (a2 * (a2 * x ^ 2 + b2 * x * z + c2 * z ^ 2)) := by
      rw [h, h1, h2, h3, h4, h5]
      ring
    have hlt : (g.a : ℝ) ≤ 0 := by exact_mod_cast ha
    have := mul_pos p1 p2
    nlinarith [sq_nonneg y]

/-- the condition on the discriminant cannot be dropped: `-x^2(x^2+z^2)` has the real point
`(0:0:1)`, but `Rsoluble` returns `0` -/
theorem C61_repeated_fails : rsoluble ⟨-1, 0, -1, 0, 0⟩ = false ∧ HasRealPoint ⟨-1, 0, -1, 0, 0⟩ :=
  ⟨by decide, 0, 0, 1, by simp, by simp⟩

/-- cases meeting the hypothesis: two, four and no real zeros, and a zero at infinity -/
example : (⟨1, 0, 0, 0, -2⟩ : G).disc ≠ 0 ∧ qtype ⟨1, 0, 0, 0, -2⟩ = 3 := by decide
example : (⟨1, 0, -5, 0, 4⟩ : G).disc ≠ 0 ∧ qtype ⟨1, 0, -5, 0, 4⟩ = 2 := by decide
example : (⟨-1, 0, 0, 0, -2⟩ : G).disc ≠ 0 ∧ qtype ⟨-1, 0, 0, 0, -2⟩ = 1 ∧
    rsoluble ⟨-1, 0, 0, 0, -2⟩ = false := by decide
example : (⟨0, 1, 0, -1, 0⟩ : G).disc ≠ 0 ∧ qtype ⟨0, 1, 0, -1, 0⟩ = 2 := by decide

end Eclib.LocSol
