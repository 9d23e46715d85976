import Verif.Lambda.Height
import Verif.Curve.NagellLutz
import Mathlib.Analysis.SpecialFunctions.Log.Basic

/-!
# C127, C128: local heights at primes in the denominator, and their invariance
-/

namespace Eclib.Lambda

open Eclib.Curve P2 Marith Eclib.Tate WeierstrassCurve

variable {p : ℕ}

theorem exact_fact (hp : p.Prime) {D : ℕ} (hD : D ≠ 0) : Spec.ExactPower (p : ℤ) (D : ℤ) (D.factorization p) :=
  ⟨by exact_mod_cast Nat.ordProj_dvd D p, by
    intro h
    exact Nat.pow_succ_factorization_not_dvd hD hp (by exact_mod_cast h)⟩

theorem exact_mul (hp : p.Prime) {z a : ℤ} (hz : ¬ (p : ℤ) ∣ z) {k : ℕ} (h : Spec.ExactPower (p : ℤ) a k) :
    Spec.ExactPower (p : ℤ) (z * a) k := by
  have e : z * a = z ^ 1 * a := by ring
  exact ⟨h.1.mul_left _, by rw [e, pow_dvd_scale hp hz]; exact h.2⟩

theorem exact_sq (hp : p.Prime) {D : ℕ} (hD : D ≠ 0) : Spec.ExactPower (p : ℤ) ((D : ℤ) ^ 2) (2 * D.factorization p) := by
  have := exact_fact hp (pow_ne_zero 2 hD)
  rw [Nat.factorization_pow] at this
  simpa using this

/-- the shape of a point, with the denominator as a natural number -/
theorem shape {E : Cv} {P : P2} (hon : OnE E P) (hr : Reduced P) (hz : P.Z ≠ 0) :
    ∃ (u : ℤ) (D : ℕ), D ≠ 0 ∧ P.X = u * D ∧ P.Z = (D : ℤ) ^ 3 ∧ IsCoprime u (D : ℤ) ∧ Int.gcd P.X P.Z = D ∧
      (P.X / P.Z : ℚ).den = D ^ 2 := by
  obtain ⟨u, d, hd, hx, hz', hc⟩ := reduced_shape hon hr hz
  obtain ⟨D, rfl⟩ := Int.eq_ofNat_of_zero_le hd.le
  have hD : D ≠ 0 := by rintro rfl; simp at hd
  refine ⟨u, D, hD, hx, hz', hc, ?_, ?_⟩
  · rw [hx, hz', show ((D : ℤ)) ^ 3 = (D : ℤ) ^ 2 * D by ring, Int.gcd_mul_right,
      Int.isCoprime_iff_gcd_eq_one.1 (hc.pow_right (n := 2))]
    simp
  · have h1 : (P.X / P.Z : ℚ) = (u : ℚ) / (((D : ℤ) ^ 2 : ℤ) : ℚ) := by
      have : (D : ℚ) ≠ 0 := by exact_mod_cast hD
      rw [hx, hz']; push_cast; field_simp
    rw [h1]
    have h2 := Rat.den_div_eq_of_coprime (a := u) (b := (D : ℤ) ^ 2) (by positivity)
      (by rw [← Int.isCoprime_iff_nat_coprime]; exact hc.pow_right)
    exact_mod_cast h2

/-- **C127** (`pheight`): at a prime dividing the denominator of a point the local height is the exponent of the prime in the
denominator of the `x`-coordinate (times `log p`). -/
theorem C127_denominator (hp : p.Prime) {E : Cv} (hE : E.W.Δ ≠ 0) {P : P2} (hOn : OnE E P) (hr : Reduced P) (hz0 : P.Z ≠ 0)
    (hz : (p : ℤ) ∣ P.Z) : pheight (Cd.ofAi E) P p = ((P.X / P.Z : ℚ).den.factorization p : ℕ) := by
  have hpp : Prime (p : ℤ) := Nat.prime_iff_prime_int.1 hp
  obtain ⟨u, D, hD, hx, hz', hc, hg, hden⟩ := shape hOn hr hz0
  have hpD : (p : ℤ) ∣ (D : ℤ) := by rw [hz'] at hz; exact hpp.dvd_of_dvd_pow hz
  have hpu : ¬ (p : ℤ) ∣ u := fun h => hpp.not_isUnit (hc.isUnit_of_dvd' h hpD)
  have hpy : ¬ (p : ℤ) ∣ P.Y := by
    intro h
    have h1 : (p : ℤ) ∣ ((Int.gcd (Int.gcd P.X P.Y) P.Z : ℕ) : ℤ) :=
      Int.dvd_coe_gcd (Int.dvd_coe_gcd (by rw [hx]; exact hpD.mul_left _) h) hz
    rw [hr.1] at h1
    exact hpp.not_isUnit (isUnit_of_dvd_one (by simpa using h1))
  obtain ⟨hcv, -⟩ := Cd.ofAi_std hE
  set e := D.factorization p with he
  have v1 : val (p : ℤ) ((Int.gcd P.X P.Z : ℕ) : ℤ) = e := by rw [hg]; exact val_eq_of hp (exact_fact hp hD)
  have v2 : val (p : ℤ) P.X = e := by rw [hx]; exact val_eq_of hp (exact_mul hp hpu (exact_fact hp hD))
  have i1 : 3 * (P.X * P.X) + 2 * (Cd.ofAi E).a2 * (P.X * P.Z) + (Cd.ofAi E).a4 * (P.Z * P.Z) - (Cd.ofAi E).a1 * (P.Y * P.Z) =
      (3 * u ^ 2 + D * (2 * E.a2 * u * D + E.a4 * D ^ 3 - E.a1 * P.Y)) * (D : ℤ) ^ 2 := by rw [hcv, hx, hz']; ring
  have i2 : 2 * P.Y + (Cd.ofAi E).a1 * P.X + (Cd.ofAi E).a3 * P.Z = 2 * P.Y + D * (E.a1 * u + E.a3 * D ^ 2) := by
    rw [hcv, hx, hz']; ring
  have hcond : ((val (p : ℤ) (3 * (P.X * P.X) + 2 * (Cd.ofAi E).a2 * (P.X * P.Z) + (Cd.ofAi E).a4 * (P.Z * P.Z) -
      (Cd.ofAi E).a1 * (P.Y * P.Z)) : ℕ) : ℤ) - 2 * (3 * (e : ℤ)) ≤ 0 ∨
      ((val (p : ℤ) (2 * P.Y + (Cd.ofAi E).a1 * P.X + (Cd.ofAi E).a3 * P.Z) : ℕ) : ℤ) - 3 * (e : ℤ) ≤ 0 := by
    by_cases h3 : p = 3
    · right
      have : val (p : ℤ) (2 * P.Y + (Cd.ofAi E).a1 * P.X + (Cd.ofAi E).a3 * P.Z) = 0 := by
        by_contra h
        have h := (val_pos hp _).1 (Nat.one_le_iff_ne_zero.2 h)
        rw [i2, dvd_add_left (hpD.mul_right _)] at h
        rcases hpp.dvd_or_dvd h with h | h
        · subst h3; revert h; decide
        · exact hpy h
      rw [this]; push_cast; omega
    · left
      have : val (p : ℤ) (3 * (P.X * P.X) + 2 * (Cd.ofAi E).a2 * (P.X * P.Z) + (Cd.ofAi E).a4 * (P.Z * P.Z) -
          (Cd.ofAi E).a1 * (P.Y * P.Z)) = 2 * e := by
        rw [i1]
        apply val_eq_of hp
        apply exact_mul hp _ (exact_sq hp hD)
        intro h
        rw [dvd_add_left (hpD.mul_right _)] at h
        rcases hpp.dvd_or_dvd h with h | h
        · have h' : p ∣ 3 := by exact_mod_cast h
          exact h3 ((Nat.prime_dvd_prime_iff_eq hp (by decide)).1 h')
        · exact hpu (hpp.dvd_of_dvd_pow h)
      rw [this]; push_cast; omega
  have hq : (((3 * (e : ℤ) - (e : ℤ)) : ℤ) : ℚ) = 2 * e := by push_cast; ring
  unfold pheight
  simp only [v1, v2, hq]
  rw [if_pos hcond, if_neg (by
    have : (0 : ℚ) ≤ e := Nat.cast_nonneg _
    linarith), hden, Nat.factorization_pow]
  simp [he]

/-- **C127**, the sum over these primes: it is `2 log(zroot)`, as added by `height` (heights.cc:86), which passes over them in its loop
on the bad primes. -/
theorem C127_sum {E : Cv} (hE : E.W.Δ ≠ 0) {P : P2} (hOn : OnE E P) (hr : Reduced P) (hz0 : P.Z ≠ 0) :
    ∑ q ∈ P.Z.natAbs.primeFactors, (pheight (Cd.ofAi E) P q : ℝ) * Real.log q = 2 * Real.log (Int.gcd P.X P.Z : ℕ) := by
  obtain ⟨u, D, hD, hx, hz', hc, hg, hden⟩ := shape hOn hr hz0
  have hpf : P.Z.natAbs.primeFactors = (D ^ 2).primeFactors := by
    rw [hz', Int.natAbs_pow, Int.natAbs_natCast, Nat.primeFactors_pow _ (by norm_num), Nat.primeFactors_pow _ (by norm_num)]
  have h1 : ∀ q ∈ P.Z.natAbs.primeFactors, (pheight (Cd.ofAi E) P q : ℝ) * Real.log q = ((D ^ 2).factorization q : ℕ) * Real.log q := by
    intro q hq
    have h := C127_denominator (Nat.prime_of_mem_primeFactors hq) hE hOn hr hz0 (by
      have := Nat.dvd_of_mem_primeFactors hq
      exact Int.natCast_dvd.2 this)
    rw [h, hden, Rat.cast_natCast]
  rw [Finset.sum_congr rfl h1, hpf, hg]
  have h2 := Real.log_nat_eq_sum_factorization (D ^ 2)
  rw [Finsupp.sum, Nat.support_factorization] at h2
  rw [← h2]
  push_cast
  rw [Real.log_pow]
  norm_num

/-- the point (1/4, -3/8) of 37a -/
example := C127_denominator (p := 2) (by decide) (E := ⟨0, 0, 1, -1, 0⟩) (by decide +kernel) (P := ⟨2, -3, 8⟩) (by simp [OnE])
  ⟨by decide, by decide⟩ (by decide) (by decide)
example := C127_sum (E := ⟨0, 0, 1, -1, 0⟩) (by decide +kernel) (P := ⟨2, -3, 8⟩) (by simp [OnE]) ⟨by decide, by decide⟩ (by decide)

/-! ## C128 -/

theorem val_neg (hp : p.Prime) (n : ℤ) : val (p : ℤ) (-n) = val (p : ℤ) n := by
  by_cases h0 : n = 0
  · simp [h0]
  · have hp2 : 2 ≤ |(p : ℤ)| := by rw [abs_of_nonneg (by positivity)]; exact_mod_cast hp.two_le
    obtain ⟨h1, h2⟩ := val_spec (p : ℤ) n hp2 h0
    exact val_eq_of hp ⟨(dvd_neg).2 h1, fun h => h2 ((dvd_neg).1 h)⟩

/-- the values on which `pheight` depends -/
theorem pheight_congr (hp : p.Prime) {E E' : Cv} (hE : E.W.Δ ≠ 0) (hE' : E'.W.Δ ≠ 0) {P P' : P2} (hOn : OnE E P) (hOn' : OnE E' P')
    (hr : Reduced P) (hr' : Reduced P') (hz0 : P.Z ≠ 0) (hZ : P'.Z = P.Z) (hden : (P'.X / P'.Z : ℚ).den = (P.X / P.Z : ℚ).den)
    (h4 : ∃ k, derX E'.W P' = derX E.W P + k * psi2 E.W P) (h2 : psi2 E'.W P' = psi2 E.W P ∨ psi2 E'.W P' = -psi2 E.W P)
    (h3 : psi3 E'.W P' = psi3 E.W P) (hc : E'.W.c₄ = E.W.c₄) (hd : E'.W.Δ = E.W.Δ) :
    pheight (Cd.ofAi E') P' p = pheight (Cd.ofAi E) P p := by
  by_cases hz : (p : ℤ) ∣ P.Z
  · rw [C127_denominator hp hE hOn hr hz0 hz, C127_denominator hp hE' hOn' hr' (by rw [hZ]; exact hz0) (by rw [hZ]; exact hz), hden]
  · rw [pheight_eq hp hE hz, pheight_eq hp hE' (by rw [hZ]; exact hz), h3, hc, hd]
    have e1 : (p : ℤ) ∣ psi2 E'.W P' ↔ (p : ℤ) ∣ psi2 E.W P := by
      rcases h2 with h | h <;> rw [h]
      rw [dvd_neg]
    have e2 : val (p : ℤ) (psi2 E'.W P') = val (p : ℤ) (psi2 E.W P) := by
      rcases h2 with h | h <;> rw [h]
      rw [val_neg hp]
    have e3 : ((p : ℤ) ∣ derX E'.W P' ∧ (p : ℤ) ∣ psi2 E'.W P') ↔ ((p : ℤ) ∣ derX E.W P ∧ (p : ℤ) ∣ psi2 E.W P) := by
      obtain ⟨k, hk⟩ := h4
      rw [e1, hk]
      constructor
      · rintro ⟨a, b⟩; exact ⟨(dvd_add_left (b.mul_left _)).1 a, b⟩
      · rintro ⟨a, b⟩; exact ⟨(dvd_add_left (b.mul_left _)).2 a, b⟩
    simp only [e2, e3]

/-- **C128** (`pheight`): the local height is even. -/
theorem C128_neg (hp : p.Prime) {E : Cv} (hE : E.W.Δ ≠ 0) {P : P2} (hOn : OnE E P) (hr : Reduced P) (hz0 : P.Z ≠ 0) :
    pheight (Cd.ofAi E) (neg E P) p = pheight (Cd.ofAi E) P p := by
  refine pheight_congr hp hE hE hOn ?_ hr (reduced_neg hr) hz0 rfl rfl ⟨E.a1 * P.Z, ?_⟩ (Or.inr ?_) rfl rfl rfl
  · unfold OnE at hOn ⊢; simp only [neg]; linear_combination hOn
  · simp only [derX, psi2, neg, Cv.W]; ring
  · simp only [psi2, neg, Cv.W]; ring

/-- **C128** (`pheight`): the local height is the same for two integral equations which differ by `x = x' + r`, `y = y' + s x' + t`. -/
theorem C128_change (hp : p.Prime) {E E' : Cv} (hE : E.W.Δ ≠ 0) {r s t : ℤ} (hch : E'.W = (⟨1, r, s, t⟩ : VariableChange ℤ) • E.W)
    {P : P2} (hOn : OnE E P) (hr : Reduced P) (hz0 : P.Z ≠ 0) :
    pheight (Cd.ofAi E') ⟨P.X - r * P.Z, P.Y - s * (P.X - r * P.Z) - t * P.Z, P.Z⟩ p = pheight (Cd.ofAi E) P p := by
  have h := chg_of E.W r s t
  rw [← hch] at h
  have a1 : E'.a1 = E.a1 + 2 * s := h.a1
  have a2 : E'.a2 = E.a2 - s * E.a1 + 3 * r - s ^ 2 := h.a2
  have a3 : E'.a3 = E.a3 + r * E.a1 + 2 * t := h.a3
  have a4 : E'.a4 = E.a4 - s * E.a3 + 2 * r * E.a2 - (t + r * s) * E.a1 + 3 * r ^ 2 - 2 * s * t := h.a4
  have a6 : E'.a6 = E.a6 + r * E.a4 + r ^ 2 * E.a2 + r ^ 3 - t * E.a3 - t ^ 2 - r * t * E.a1 := h.a6
  have hOn' : OnE E' ⟨P.X - r * P.Z, P.Y - s * (P.X - r * P.Z) - t * P.Z, P.Z⟩ := by
    unfold OnE at hOn ⊢
    simp only [a1, a2, a3, a4, a6]
    linear_combination hOn
  have hr' : Reduced ⟨P.X - r * P.Z, P.Y - s * (P.X - r * P.Z) - t * P.Z, P.Z⟩ := by
    refine ⟨?_, hr.2⟩
    have hg := hr.1
    by_contra hne
    obtain ⟨q, hq, hd⟩ := Nat.exists_prime_and_dvd hne
    have hd' : (q : ℤ) ∣ ((Int.gcd (Int.gcd (P.X - r * P.Z) (P.Y - s * (P.X - r * P.Z) - t * P.Z)) P.Z : ℕ) : ℤ) := by
      exact_mod_cast hd
    have d3 : (q : ℤ) ∣ P.Z := hd'.trans (Int.gcd_dvd_right _ _)
    have d12 := hd'.trans (Int.gcd_dvd_left _ _)
    have d1 := d12.trans (Int.gcd_dvd_left _ _)
    have d2 := d12.trans (Int.gcd_dvd_right _ _)
    have x1 : (q : ℤ) ∣ P.X := (dvd_sub_left (d3.mul_left _)).1 d1
    have y1 : (q : ℤ) ∣ P.Y := (dvd_sub_left (d1.mul_left _)).1 ((dvd_sub_left (d3.mul_left _)).1 d2)
    have := Int.dvd_coe_gcd (Int.dvd_coe_gcd x1 y1) d3
    rw [hg] at this
    exact hq.one_lt.ne' (by exact_mod_cast Int.eq_one_of_dvd_one (by positivity) this)
  refine pheight_congr hp hE (by rw [h.disc]; exact hE) hOn hOn' hr hr' hz0 rfl ?_ ⟨-(s * P.Z), ?_⟩ (Or.inl ?_) ?_ h.c4 h.disc
  · have : ((P.X - r * P.Z : ℤ) / P.Z : ℚ) = P.X / P.Z - r := by
      have : (P.Z : ℚ) ≠ 0 := by exact_mod_cast hz0
      push_cast; field_simp
    rw [this, Rat.sub_intCast_den]
  · simp only [derX, psi2, h.a1, h.a2, h.a4]; ring
  · simp only [psi2, h.a1, h.a3]; ring
  · simp only [psi3, h.b2, h.b4, h.b6, h.b8]; ring

example := C128_neg (p := 11) (by decide) (E := ⟨0, -1, 1, -10, -20⟩) (by decide +kernel) (P := ⟨16, -61, 1⟩) (by simp [OnE])
  ⟨by decide, by decide⟩ (by decide)
example := C128_change (p := 11) (by decide) (E := ⟨0, -1, 1, -10, -20⟩) (E' := ⟨2, 1, 3, -12, -32⟩) (r := 1) (s := 1) (t := 1)
  (by decide +kernel) (by simp [Cv.W, variableChange_def]) (P := ⟨16, -61, 1⟩) (by simp [OnE]) ⟨by decide, by decide⟩ (by decide)

end Eclib.Lambda
