import Verif.Legendre.Lem4
import Verif.Marith.Props

/-!
# C89, C90: Legendre's equation from a certificate

The specification: `Cert` (coefficients not zero, pairwise coprime, not all of one sign; the three congruences),
`Sol` (non-trivial solution), `Lat` (the lattice of the certificate), in `Verif/Legendre/Lem1.lean`.
-/

namespace Eclib.Legendre

open Marith (XGcd)
open Marith.Props (xgcd0)

/-! ## C89 -/

/-- `minv`: the result is a shortest non-zero vector of the lattice, and its norm satisfies Hermite's bound. -/
theorem C89_minv (a1 a2 b1 b2 c1 c2 : ℤ) (h1 : 0 < c1) (h2 : 0 < c2) (hd : a1 * b2 - a2 * b1 ≠ 0) :
    let r := minv a1 a2 b1 b2 c1 c2
    (∃ s t, r.1 = s * a1 + t * b1 ∧ r.2 = s * a2 + t * b2) ∧ (r.1 ≠ 0 ∨ r.2 ≠ 0) ∧
    (∀ s t : ℤ, s ≠ 0 ∨ t ≠ 0 →
      c1 * r.1 ^ 2 + c2 * r.2 ^ 2 ≤ c1 * (s * a1 + t * b1) ^ 2 + c2 * (s * a2 + t * b2) ^ 2) ∧
    3 * (c1 * r.1 ^ 2 + c2 * r.2 ^ 2) ^ 2 ≤ 4 * (c1 * c2) * (a1 * b2 - a2 * b1) ^ 2 := by
  intro r
  obtain ⟨xx, yy, hb, hn, hle, hl, hu⟩ := minv_basis a1 a2 b1 b2 c1 c2 h1 h2 hd
  have hne := hb.ne hd
  refine ⟨hb.mem1, hne, ?_, hn⟩
  intro s t hst
  have hpos := norm_pos h1 h2 hne
  change c1 * (minv a1 a2 b1 b2 c1 c2).1 ^ 2 + c2 * (minv a1 a2 b1 b2 c1 c2).2 ^ 2 ≤ _
  generalize (minv a1 a2 b1 b2 c1 c2).1 = x at *
  generalize (minv a1 a2 b1 b2 c1 c2).2 = y at *
  -- coordinates of the vector in the reduced basis
  obtain ⟨s1, t1, e1, e2⟩ := hb.mem1
  obtain ⟨s2, t2, e3, e4⟩ := hb.mem2
  have hdet : x * yy - y * xx = (s1 * t2 - t1 * s2) * (a1 * b2 - a2 * b1) := by rw [e1, e2, e3, e4]; ring
  have hu : s1 * t2 - t1 * s2 = 1 ∨ s1 * t2 - t1 * s2 = -1 := by
    rcases hb.det with h | h
    · left; exact mul_right_cancel₀ hd (by linarith)
    · right; exact mul_right_cancel₀ hd (by linarith)
  obtain ⟨δ, hδ, hδ2⟩ : ∃ δ : ℤ, s1 * t2 - t1 * s2 = δ ∧ δ * δ = 1 := by
    rcases hu with h | h
    · exact ⟨1, h, by norm_num⟩
    · exact ⟨-1, h, by norm_num⟩
  have f1 : s * a1 + t * b1 = δ * (s * t2 - t * s2) * x + δ * (t * s1 - s * t1) * xx := by
    rw [e1, e3]
    linear_combination (s * a1 + t * b1) * (-hδ2 - δ * hδ)
  have f2 : s * a2 + t * b2 = δ * (s * t2 - t * s2) * y + δ * (t * s1 - s * t1) * yy := by
    rw [e2, e4]
    linear_combination (s * a2 + t * b2) * (-hδ2 - δ * hδ)
  rw [f1, f2]
  refine reduced_min hle hl ‹_› hpos _ _ ?_
  by_contra hc
  push Not at hc
  obtain ⟨g1, g2⟩ := hc
  have h0 : δ ≠ 0 := by rintro rfl; simp at hδ2
  have g1' := (mul_eq_zero.mp g1).resolve_left h0
  have g2' := (mul_eq_zero.mp g2).resolve_left h0
  have hs : s = 0 := by
    have : s * δ = 0 := by linear_combination s1 * g1' + s2 * g2' - s * hδ
    exact (mul_eq_zero.mp this).resolve_right h0
  have ht : t = 0 := by
    have : t * δ = 0 := by linear_combination t1 * g1' + t2 * g2' - t * hδ
    exact (mul_eq_zero.mp this).resolve_right h0
  rcases hst with h | h
  · exact h hs
  · exact h ht

example : minv 10 3 7 8 2 3 = (-3, 5) := by decide +kernel

/-- `GIgcd`: a greatest common divisor of the Gaussian integers, in the quadrant `e > 0`, `f ≥ 0`. -/
theorem C89_GIgcd (a b c d : ℤ) :
    let r := giGcd a b c d
    (∀ v : GaussianInt, v ∣ ⟨r.1, r.2⟩ ↔ v ∣ ⟨a, b⟩ ∧ v ∣ ⟨c, d⟩) ∧
    ((a ≠ 0 ∨ b ≠ 0 ∨ c ≠ 0 ∨ d ≠ 0) → 0 < r.1 ∧ 0 ≤ r.2) := by
  intro r
  refine ⟨giGcd_isGcd a b c d, fun h => ?_⟩
  have hg := giGcd_isGcd a b c d
  have hr : r = giGcd a b c d := rfl
  have hz : r.1 ≠ 0 ∨ r.2 ≠ 0 := by
    by_contra hc
    push Not at hc
    have h0 := (hg 0).mp (by rw [← hr, hc.1, hc.2]; exact dvd_of_eq rfl)
    have ha := zero_dvd_iff.mp h0.1
    have hb := zero_dvd_iff.mp h0.2
    have := congrArg Zsqrtd.re ha
    have := congrArg Zsqrtd.im ha
    have := congrArg Zsqrtd.re hb
    have := congrArg Zsqrtd.im hb
    simp_all
  unfold giGcd at hr
  simp only at hr
  generalize (if c = 0 ∧ d = 0 then (a, b) else giLoop ((c ^ 2 + d ^ 2).toNat + 1) a b c d) = w at hr
  rw [hr] at hz ⊢
  refine (giNorm_spec w.1 w.2).2.2 ?_
  by_contra hc
  push Not at hc
  have := (giNorm_spec w.1 w.2).2.1
  rw [hc.1, hc.2] at this hz
  revert hz
  decide

example : giGcd 5 14 13 0 = (2, 3) := by decide +kernel

/-- `lem1`: if the product of two coefficients is `±1` then the result is a solution in the lattice of the certificate. -/
theorem C89_lem1 (a b c n p q : ℤ) (h : Cert a b c n p q) (hu : |b * c| = 1 ∨ |a * b| = 1 ∨ |c * a| = 1) :
    ∃ r, lem1 a b c n p q = some r ∧ Sol a b c r.1 r.2.1 r.2.2 ∧ Lat a b c n p q r.1 r.2.1 r.2.2 :=
  lem1_spec h hu

example : Cert 1 1 (-65) 0 0 8 ∧ lem1 1 1 (-65) 0 0 8 = some (8, 1, 1) :=
  ⟨⟨by norm_num, by norm_num, by norm_num, isCoprime_one_left, isCoprime_one_left, isCoprime_one_right, by norm_num,
    by norm_num, by norm_num, by norm_num, by norm_num⟩, by decide +kernel⟩

/-! ## C90 -/

/-- `lem3`: `a = c1² m1 m3`, `b = c2² m2 m3` with the `m`'s pairwise coprime. -/
theorem C90_lem3 (a b : ℤ) (ha : a ≠ 0) (hb : b ≠ 0) :
    let r := lem3 a b
    (a = r.c1 ^ 2 * r.m1 * r.m3 ∧ b = r.c2 ^ 2 * r.m2 * r.m3) ∧ (0 < r.m3 ∧ 0 < r.c1 ∧ 0 < r.c2) ∧
      IsCoprime r.m1 r.m2 ∧ IsCoprime r.m1 r.m3 ∧ IsCoprime r.m2 r.m3 := lem3_spec a b ha hb

example : lem3 (-360) 42 = ⟨-5, 21, 2, 6, 1⟩ := by decide +kernel

/-- `legendre_solve_cert_1`: for every certificate the recursion terminates (its depth is at most the product of two
of the coefficients); the result is a non-trivial solution in the lattice of the certificate, or a number greater than
1 whose square divides the coefficient given by the return code.  In particular the return code is never `-1`. -/
theorem C90_solve_cert (X : XGcd) (a b c n p q : ℤ) (h : Cert a b c n p q) (k : ℕ) (hk : |b * c| < k) :
    (∃ x y z, solveCert X k a b c n p q = some (.sol x y z) ∧ Sol a b c x y z ∧ Lat a b c n p q x y z) ∨
    (∃ i u, solveCert X k a b c n p q = some (.sq i u) ∧ 1 < u ∧
      ((i = 1 ∧ u ^ 2 ∣ a) ∨ (i = 2 ∧ u ^ 2 ∣ b) ∨ (i = 3 ∧ u ^ 2 ∣ c))) := by
  obtain ⟨o, ho, hok⟩ := solveCert_spec X k a b c n p q h (Or.inr (Or.inl hk))
  cases o with
  | sol x y z => exact Or.inl ⟨x, y, z, ho, hok⟩
  | sq i u => exact Or.inr ⟨i, u, ho, hok⟩
  | bad => exact hok.elim

/-- For square-free coefficients the return code is 0. -/
theorem C90_solve_cert_squarefree (X : XGcd) (a b c n p q : ℤ) (h : Cert a b c n p q) (ha : Squarefree a)
    (hb : Squarefree b) (hc : Squarefree c) (k : ℕ) (hk : |b * c| < k) :
    ∃ x y z, solveCert X k a b c n p q = some (.sol x y z) ∧ Sol a b c x y z ∧ Lat a b c n p q x y z := by
  rcases C90_solve_cert X a b c n p q h k hk with h1 | ⟨i, u, -, hu, h1⟩
  · exact h1
  · exfalso
    have key : ∀ m : ℤ, Squarefree m → ¬ u ^ 2 ∣ m := by
      intro m hm hd
      have := hm u (by rwa [sq] at hd)
      rw [Int.isUnit_iff] at this
      omega
    rcases h1 with ⟨-, h1⟩ | ⟨-, h1⟩ | ⟨-, h1⟩
    · exact key a ha h1
    · exact key b hb h1
    · exact key c hc h1

/-- Legendre's theorem follows: the certificate is a proof of solubility. -/
theorem C90_soluble (a b c n p q : ℤ) (h : Cert a b c n p q) (ha : Squarefree a)
    (hb : Squarefree b) (hc : Squarefree c) : ∃ x y z, Sol a b c x y z := by
  obtain ⟨x, y, z, -, h1, -⟩ := C90_solve_cert_squarefree xgcd0 a b c n p q h ha hb hc (|b * c|.toNat + 1)
    (by have := abs_nonneg (b * c); omega)
  exact ⟨x, y, z, h1⟩

theorem cert_ex : Cert 39 34 (-31) 1 11 10 :=
  ⟨by norm_num, by norm_num, by norm_num, ⟨7, -8, by norm_num⟩, ⟨-10, -11, by norm_num⟩, ⟨5, 4, by norm_num⟩,
    by norm_num, by norm_num, by norm_num, by norm_num, by norm_num⟩

example : solveCert xgcd0 1100 39 34 (-31) 1 11 10 = some (.sol 3 (-10) 11) ∧
    39 * 3 ^ 2 + 34 * (-10) ^ 2 + (-31) * 11 ^ 2 = (0 : ℤ) := by decide +kernel

end Eclib.Legendre
