import Verif.Forms.Minim

/-! # C25: `minim_p` for primes `p ≥ 5` -/

namespace Eclib.Forms

open Eclib.Forms.Spec Props
open Marith (XGcd mod invmod div)

theorem GVia.rescale1 (g : G) (p : ℤ) (m : SU) (hp : p ≠ 0) (hb : p ∣ g.b) (hc : p ^ 2 ∣ g.c)
    (hd : p ^ 3 ∣ g.d) (he : p ^ 4 ∣ g.e) :
    GVia !![p, 0; 0, 1] (p ^ 2) (g, m) (Forms.rescale1 g p m) := by
  obtain ⟨a, b, c, d, e⟩ := g
  obtain ⟨b1, rfl⟩ := hb
  obtain ⟨c1, rfl⟩ := hc
  obtain ⟨d1, rfl⟩ := hd
  obtain ⟨e1, rfl⟩ := he
  refine ⟨?_, ?_, ?_⟩
  · ext i j
    fin_cases i <;> fin_cases j <;>
      simp [Forms.rescale1, SU.uScale, SU.xScale, U.toM, Matrix.mul_apply, Fin.sum_univ_two]
  · simp only [Forms.rescale1, SU.uScale, SU.xScale]; ring
  · intro X Z
    have e1' : (p * b1).fdiv p = b1 := Int.mul_fdiv_cancel_left _ hp
    have e2 : (p ^ 2 * c1).fdiv (p * p) = c1 := by
      rw [show p ^ 2 = p * p by ring]; exact Int.mul_fdiv_cancel_left _ (by simp [hp])
    have e3 : (p ^ 3 * d1).fdiv (p * (p * p)) = d1 := by
      rw [show p ^ 3 = p * (p * p) by ring]; exact Int.mul_fdiv_cancel_left _ (by simp [hp])
    have e4 : (p ^ 4 * e1).fdiv (p * p * (p * p)) = e1 := by
      rw [show p ^ 4 = p * p * (p * p) by ring]; exact Int.mul_fdiv_cancel_left _ (by simp [hp])
    simp only [Forms.rescale1, e1', e2, e3, e4, act, G.fn, quart]
    simp
    ring

theorem GVia.rescale2 (g : G) (p : ℤ) (m : SU) (hp : p ≠ 0) (hc : p ^ 2 ∣ g.c)
    (hd : p ^ 4 ∣ g.d) (he : p ^ 6 ∣ g.e) :
    GVia !![p ^ 2, 0; 0, 1] (p ^ 3) (g, m) (Forms.rescale2 g p m) := by
  obtain ⟨a, b, c, d, e⟩ := g
  obtain ⟨c1, rfl⟩ := hc
  obtain ⟨d1, rfl⟩ := hd
  obtain ⟨e1, rfl⟩ := he
  refine ⟨?_, ?_, ?_⟩
  · ext i j
    fin_cases i <;> fin_cases j <;>
      simp [Forms.rescale2, SU.uScale, SU.xScale, U.toM, Matrix.mul_apply, Fin.sum_univ_two, sq]
  · simp only [Forms.rescale2, SU.uScale, SU.xScale]; ring
  · intro X Z
    have e2 : (p ^ 2 * c1).fdiv (p * p) = c1 := by
      rw [show p ^ 2 = p * p by ring]; exact Int.mul_fdiv_cancel_left _ (by simp [hp])
    have e3 : (p ^ 4 * d1).fdiv (p * p * (p * p)) = d1 := by
      rw [show p ^ 4 = p * p * (p * p) by ring]; exact Int.mul_fdiv_cancel_left _ (by simp [hp])
    have e4 : (p ^ 6 * e1).fdiv (p * p * (p * p) * (p * p)) = e1 := by
      rw [show p ^ 6 = p * p * (p * p) * (p * p) by ring]
      exact Int.mul_fdiv_cancel_left _ (by simp [hp])
    simp only [Forms.rescale2, e2, e3, e4, act, G.fn, quart]
    simp
    ring

theorem GVia.dvd_back {t : M2} {s0 s : G × SU} (h : GVia t 1 s0 s) (ht : t.det = 1) {k : ℤ}
    (hk : k ∣ s.1.a ∧ k ∣ s.1.b ∧ k ∣ s.1.c ∧ k ∣ s.1.d ∧ k ∣ s.1.e) :
    k ∣ s0.1.a ∧ k ∣ s0.1.b ∧ k ∣ s0.1.c ∧ k ∣ s0.1.d ∧ k ∣ s0.1.e := by
  obtain ⟨⟨a, ha⟩, ⟨b, hb⟩, ⟨c, hc⟩, ⟨d, hd⟩, ⟨e, he⟩⟩ := hk
  have hs : s.1 = (G.mk a b c d e).smul k := by ext <;> simp [G.smul, *]
  have e1 : s0.1 = ((G.mk a b c d e).apply (ofM t.adjugate)).smul k := by
    apply G.ext_fn
    funext X Z
    rw [G.fn_smul, C25_apply_transform, toM_ofM]
    have hmul : t * t.adjugate = 1 := by rw [Matrix.mul_adjugate, ht, one_smul]
    have h1 : s0.1.fn X Z = act (act s0.1.fn t) t.adjugate X Z := by
      rw [act_mul, hmul, act_one]
    have h2 : act s0.1.fn t = s.1.fn := by
      funext X Z
      rw [← h.2.2]; ring
    rw [h1, h2, hs]
    simp only [act, G.fn_smul]
  rw [e1]
  simp [G.smul]

/-- solubility of `y² = g(x,z)` modulo `p⁴` in coordinates not both divisible by `p` -/
def SolMod (p : ℤ) (g : G) : Prop :=
  ∃ x y z : ℤ, ¬ (p ∣ x ∧ p ∣ z) ∧ p ^ 4 ∣ y ^ 2 - g.fn x z

theorem SolMod.via {p : ℤ} {t : M2} {s0 s : G × SU} (h : GVia t 1 s0 s) (ht : t.det = 1)
    (hs : SolMod p s0.1) : SolMod p s.1 := by
  obtain ⟨x, y, z, h1, h2⟩ := hs
  rw [Matrix.det_fin_two] at ht
  refine ⟨t 1 1 * x - t 0 1 * z, y, -t 1 0 * x + t 0 0 * z, ?_, ?_⟩
  · rintro ⟨⟨u, hu⟩, ⟨v, hv⟩⟩
    apply h1
    refine ⟨⟨t 0 0 * u + t 0 1 * v, ?_⟩, ⟨t 1 0 * u + t 1 1 * v, ?_⟩⟩
    · linear_combination (-x) * ht + t 0 0 * hu + t 0 1 * hv
    · linear_combination (-z) * ht + t 1 0 * hu + t 1 1 * hv
  · have := h.2.2 (t 1 1 * x - t 0 1 * z) (-t 1 0 * x + t 0 0 * z)
    have e : s.1.fn (t 1 1 * x - t 0 1 * z) (-t 1 0 * x + t 0 0 * z) = s0.1.fn x z := by
      have h3 : act s0.1.fn t (t 1 1 * x - t 0 1 * z) (-t 1 0 * x + t 0 0 * z) = s0.1.fn x z := by
        simp only [act]
        congr 1
        · linear_combination x * ht
        · linear_combination z * ht
      rw [← h3, ← this]; ring
    rw [e]; exact h2

/-- the result of one minimisation step -/
def StepOK (p : ℤ) (s0 : G × SU) (r : G × SU × Bool) : Prop :=
  r.2.2 = true ∧ ∃ t u, t.det ≠ 0 ∧ u = p * t.det ∧ GVia t u s0 (r.1, r.2.1)

theorem StepOK.inv {p : ℤ} {s0 : G × SU} {r : G × SU × Bool} (h : StepOK p s0 r) :
    p ^ 4 * r.1.II = s0.1.II ∧ p ^ 6 * r.1.JJ = s0.1.JJ := by
  obtain ⟨_, t, u, h0, hu, hv⟩ := h
  obtain ⟨i, j⟩ := hv.inv
  subst hu
  refine ⟨mul_left_cancel₀ (pow_ne_zero 4 h0) ?_, mul_left_cancel₀ (pow_ne_zero 6 h0) ?_⟩
  · rw [← i]; ring
  · rw [← j]; ring

section
variable {p : ℕ} [hp : Fact p.Prime] (h5 : 5 ≤ p)
include h5

omit h5 in
theorem stepOK_rescale1 {s0 s : G × SU} {t : M2} (ht : t.det = 1) (h : GVia t 1 s0 s)
    (hb : (p : ℤ) ∣ s.1.b) (hc : (p : ℤ) ^ 2 ∣ s.1.c) (hd : (p : ℤ) ^ 3 ∣ s.1.d)
    (he : (p : ℤ) ^ 4 ∣ s.1.e) :
    StepOK p s0 ((rescale1 s.1 p s.2).1, (rescale1 s.1 p s.2).2, true) := by
  have hp0 : (p : ℤ) ≠ 0 := by exact_mod_cast hp.out.ne_zero
  refine ⟨rfl, _, _, ?_, ?_, h.trans (GVia.rescale1 s.1 p s.2 hp0 hb hc hd he)⟩
  · rw [Matrix.det_mul, ht]; simp [Matrix.det_fin_two, hp.out.ne_zero]
  · rw [Matrix.det_mul, ht]; simp [Matrix.det_fin_two]; ring

omit h5 in
theorem stepOK_rescale2 {s0 s : G × SU} {t : M2} (ht : t.det = 1) (h : GVia t 1 s0 s)
    (hc : (p : ℤ) ^ 2 ∣ s.1.c) (hd : (p : ℤ) ^ 4 ∣ s.1.d) (he : (p : ℤ) ^ 6 ∣ s.1.e) :
    StepOK p s0 ((rescale2 s.1 p s.2).1, (rescale2 s.1 p s.2).2, true) := by
  have hp0 : (p : ℤ) ≠ 0 := by exact_mod_cast hp.out.ne_zero
  refine ⟨rfl, _, _, ?_, ?_, h.trans (GVia.rescale2 s.1 p s.2 hp0 hc hd he)⟩
  · rw [Matrix.det_mul, ht]; simp [Matrix.det_fin_two, hp.out.ne_zero]
  · rw [Matrix.det_mul, ht]; simp [Matrix.det_fin_two]; ring

omit h5 in
/-- the quadruple root case after removal of a factor `p`, for a soluble quartic -/
theorem val_quad_sol {a b c d e : ℤ} (ha : ¬ (p : ℤ) ∣ a) (hb : (p : ℤ) ∣ b)
    (hc : (p : ℤ) ∣ c) (hd : (p : ℤ) ^ 2 ∣ d) (he : (p : ℤ) ^ 2 ∣ e)
    (hs : SolMod p ((G.mk a b c d e).smul p)) : (p : ℤ) ^ 3 ∣ e := by
  have hpr : Prime (p : ℤ) := Nat.prime_iff_prime_int.mp hp.out
  have hp0 : (p : ℤ) ≠ 0 := hpr.ne_zero
  obtain ⟨b1, rfl⟩ := hb
  obtain ⟨c1, rfl⟩ := hc
  obtain ⟨d1, rfl⟩ := hd
  obtain ⟨x, y, z, h1, w, h2⟩ := hs
  obtain ⟨e1, he⟩ := he
  rw [G.fn_smul] at h2
  simp only [G.fn, quart] at h2
  have sy : (p : ℤ) ∣ y := by
    apply hpr.dvd_of_dvd_pow (n := 2)
    exact ⟨_, eq_add_of_sub_eq' (a := y ^ 2) h2 |>.trans (by ring_nf; rfl) |>.trans
      (by rw [show (p : ℤ) * (p ^ 3 * w + (a * x ^ 4 + p * b1 * x ^ 3 * z + p * c1 * x ^ 2 * z ^ 2
        + p ^ 2 * d1 * x * z ^ 3 + e * z ^ 4)) = _ from by ring_nf; rfl])⟩
  obtain ⟨y1, rfl⟩ := sy
  have k1 : p * y1 ^ 2 - (a * x ^ 4 + p * b1 * x ^ 3 * z + p * c1 * x ^ 2 * z ^ 2
        + p ^ 2 * d1 * x * z ^ 3 + e * z ^ 4) = p ^ 3 * w := by
    apply mul_left_cancel₀ hp0
    linear_combination h2
  have sx : (p : ℤ) ∣ x := by
    have : (p : ℤ) ∣ a * x ^ 4 := ⟨y1 ^ 2 - (b1 * x ^ 3 * z + c1 * x ^ 2 * z ^ 2
        + p * d1 * x * z ^ 3 + p * e1 * z ^ 4) - p ^ 2 * w, by
          rw [he] at k1
          linear_combination (-1) * k1⟩
    rcases hpr.dvd_or_dvd this with h | h
    · exact absurd h ha
    · exact hpr.dvd_of_dvd_pow h
  obtain ⟨x1, rfl⟩ := sx
  have hz : ¬ (p : ℤ) ∣ z := fun h => h1 ⟨Dvd.intro _ rfl, h⟩
  have sy : (p : ℤ) ∣ y1 := by
    apply hpr.dvd_of_dvd_pow (n := 2)
    refine ⟨p ^ 2 * a * x1 ^ 4 + p ^ 2 * b1 * x1 ^ 3 * z + p * c1 * x1 ^ 2 * z ^ 2
        + p * d1 * x1 * z ^ 3 + e1 * z ^ 4 + p * w, ?_⟩
    apply mul_left_cancel₀ hp0
    rw [he] at k1
    linear_combination k1
  obtain ⟨y2, rfl⟩ := sy
  have hz4 : ¬ (p : ℤ) ∣ z ^ 4 := fun h => hz (hpr.dvd_of_dvd_pow h)
  apply hpr.pow_dvd_of_dvd_mul_left 3 hz4
  exact ⟨y2 ^ 2 - (p * a * x1 ^ 4 + p * b1 * x1 ^ 3 * z + c1 * x1 ^ 2 * z ^ 2
        + d1 * x1 * z ^ 3) - w, by linear_combination (-1) * k1⟩

/-- the quadruple root case after removal of a factor `p` -/
theorem val_quad_e {a b c d e : ℤ} (ha : ¬ (p : ℤ) ∣ a) (hb : (p : ℤ) ∣ b)
    (hc : (p : ℤ) ∣ c) (hd : (p : ℤ) ^ 2 ∣ d) (he : (p : ℤ) ^ 2 ∣ e)
    (hs : SolMod p ((G.mk a b c d e).smul p) ∨
      ((p : ℤ) ^ 3 ∣ (G.mk a b c d e).II ∧ (p : ℤ) ^ 4 ∣ (G.mk a b c d e).JJ)) :
    (p : ℤ) ^ 3 ∣ e := by
  have hpr : Prime (p : ℤ) := Nat.prime_iff_prime_int.mp hp.out
  have hp0 : (p : ℤ) ≠ 0 := hpr.ne_zero
  rcases hs with hs | ⟨hI, hJ⟩
  · exact val_quad_sol ha hb hc hd he hs
  · obtain ⟨b1, rfl⟩ := hb
    obtain ⟨c1, rfl⟩ := hc
    obtain ⟨d1, rfl⟩ := hd
    obtain ⟨e2, rfl⟩ := he
    have n2 := not_dvd_two h5
    have n3 := not_dvd_three h5
    have n12 : ¬ (p : ℤ) ∣ 12 * a := by
      have : (12 : ℤ) * a = 2 * (2 * (3 * a)) := by ring
      rw [this]
      exact not_dvd_mul n2 (not_dvd_mul n2 (not_dvd_mul n3 ha))
    have n8 : ¬ (p : ℤ) ∣ 8 := by
      have : (8 : ℤ) = 2 * (2 * 2) := by norm_num
      rw [this]
      exact not_dvd_mul n2 (not_dvd_mul n2 n2)
    obtain ⟨i, hI⟩ := hI
    obtain ⟨j, hJ⟩ := hJ
    simp only [G.II, G.JJ] at hI hJ
    have I1 : 12 * a * e2 - 3 * p * b1 * d1 + c1 ^ 2 = p * i := by
      apply mul_left_cancel₀ (pow_ne_zero 2 hp0)
      linear_combination hI
    have J1 : (72 * a * e2 + 9 * p * b1 * d1 - 2 * c1 ^ 2) * c1 - 27 * p * a * d1 ^ 2
        - 27 * p * b1 ^ 2 * e2 = p * j := by
      apply mul_left_cancel₀ (pow_ne_zero 3 hp0)
      linear_combination hJ
    have s1 : (p : ℤ) ∣ c1 := by
      have : (p : ℤ) ∣ 8 * c1 ^ 3 := ⟨6 * i * c1 + 27 * b1 * d1 * c1 - 27 * a * d1 ^ 2
        - 27 * b1 ^ 2 * e2 - j, by linear_combination (6 * c1) * I1 - J1⟩
      rcases hpr.dvd_or_dvd this with h | h
      · exact absurd h n8
      · exact hpr.dvd_of_dvd_pow h
    obtain ⟨c2, rfl⟩ := s1
    have s2 : (p : ℤ) ∣ e2 := by
      have : (p : ℤ) ∣ 12 * a * e2 := ⟨3 * b1 * d1 - p * c2 ^ 2 + i, by linear_combination I1⟩
      rcases hpr.dvd_or_dvd this with h | h
      · exact absurd h n12
      · exact h
    obtain ⟨e3, rfl⟩ := s2
    exact ⟨e3, by ring⟩

theorem minimAll_ok (X : XGcd) (g : G) (m : SU) (h1 : g.divAll (p * p) = false)
    (h2 : g.divAll p = true) (hI : (p : ℤ) ^ 4 ∣ g.II) (hJ : (p : ℤ) ^ 6 ∣ g.JJ)
    (hs : SolMod p g ∨ ((p : ℤ) ^ 5 ∣ g.II ∧ (p : ℤ) ^ 7 ∣ g.JJ)) :
    StepOK p (g, m) (minimAll X g p m) := by
  have hpr : Prime (p : ℤ) := Nat.prime_iff_prime_int.mp hp.out
  have hp0 : (p : ℤ) ≠ 0 := hpr.ne_zero
  have hpp : (p : ℤ) * p ≠ 0 := mul_ne_zero hp0 hp0
  rw [divAll_iff hp0] at h2
  obtain ⟨da, db, dc, dd, de⟩ := h2
  obtain ⟨g0, hg0⟩ : ∃ g0, g.divBy p = g0 := ⟨_, rfl⟩
  have hg : g0.smul p = g := by rw [← hg0]; exact G.divBy_smul g hp0 da db dc dd de
  have cancelI : ∀ (h : G) (n : ℕ), (p : ℤ) ^ (n + 2) ∣ (h.smul p).II → (p : ℤ) ^ n ∣ h.II := by
    intro h n hh
    rw [(G.smul_inv h p).1, pow_add, mul_comm ((p : ℤ) ^ n)] at hh
    exact (mul_dvd_mul_iff_left (pow_ne_zero 2 hp0)).mp hh
  have cancelJ : ∀ (h : G) (n : ℕ), (p : ℤ) ^ (n + 3) ∣ (h.smul p).JJ → (p : ℤ) ^ n ∣ h.JJ := by
    intro h n hh
    rw [(G.smul_inv h p).2, pow_add, mul_comm ((p : ℤ) ^ n)] at hh
    exact (mul_dvd_mul_iff_left (pow_ne_zero 3 hp0)).mp hh
  have hI0 := cancelI g0 2 (by rw [hg]; exact hI)
  have hJ0 := cancelJ g0 3 (by rw [hg]; exact hJ)
  obtain ⟨t, g', ht, e1, v1, v2, c1, c2, c3⟩ := moveRoot_spec h5 X g0 p m
    (dvd_trans (dvd_pow_self _ two_ne_zero) hI0) (dvd_trans (dvd_pow_self _ three_ne_zero) hJ0)
  rw [hg] at e1 v1 v2
  -- not all coefficients of g' are divisible by p
  have hn : ¬ ((p : ℤ) ∣ g'.a ∧ (p : ℤ) ∣ g'.b) := by
    rintro ⟨ha, hb⟩
    obtain ⟨q1, q2, q3, q4, q5⟩ := v2.dvd_back ht ⟨ha, hb, c1, c2, c3⟩
    rw [Bool.eq_false_iff, Ne, divAll_iff hpp] at h1
    apply h1
    rw [← hg]
    simp only [G.smul]
    exact ⟨mul_dvd_mul_left _ q1, mul_dvd_mul_left _ q2, mul_dvd_mul_left _ q3,
      mul_dvd_mul_left _ q4, mul_dvd_mul_left _ q5⟩
  have invs : ∀ {t : M2} {s0 s : G × SU}, GVia t 1 s0 s → t.det = 1 →
      s.1.II = s0.1.II ∧ s.1.JJ = s0.1.JJ := by
    intro t s0 s h ht
    have := h.inv
    rw [ht] at this
    simpa using this
  obtain ⟨i1, j1⟩ := invs v2 ht
  dsimp only at i1 j1
  have hb0 : ((moveRoot X g0 g p m).1.b).fdiv p = g'.b := by
    rw [e1]; exact Int.mul_fdiv_cancel_left _ hp0
  have np2 : ¬ (p : ℤ) = 2 := by omega
  unfold minimAll
  simp only [hg0, np2, decide_false, Bool.false_and, Bool.false_eq_true, if_false, hb0]
  have hda : div ((p : ℤ) * p) (moveRoot X g0 g p m).1.a = true ↔ (p : ℤ) ∣ g'.a := by
    rw [div_iff hpp, e1]; exact mul_dvd_mul_iff_left hp0
  by_cases hb : (p : ℤ) ∣ g'.b
  · -- quadruple root
    have ha : ¬ (p : ℤ) ∣ g'.a := fun h => hn ⟨h, hb⟩
    have e2 : (!div ((p : ℤ) * p) (moveRoot X g0 g p m).1.a && !div (p : ℤ) g'.b) = false := by
      rw [(div_iff hp0 g'.b).mpr hb]; simp
    simp only [e2, Bool.false_eq_true, if_false]
    obtain ⟨q1, q2⟩ := val_quad' h5 ha hb c1 c2 c3 (by rw [i1]; exact hI0) (by rw [j1]; exact hJ0)
    have q3 : (p : ℤ) ^ 3 ∣ g'.e := by
      apply val_quad_e h5 ha hb c1 q1 q2
      rcases hs with hs | ⟨hs1, hs2⟩
      · left
        have := SolMod.via v1 ht hs
        rw [e1] at this
        exact this
      · right
        exact ⟨by rw [i1]; exact cancelI g0 3 (by rw [hg]; exact hs1),
          by rw [j1]; exact cancelJ g0 4 (by rw [hg]; exact hs2)⟩
    refine stepOK_rescale1 ht v1 ?_ ?_ ?_ ?_ <;> rw [e1] <;> simp only [G.smul]
    · exact Dvd.intro _ rfl
    · rw [sq]; exact mul_dvd_mul_left _ c1
    · rw [pow_succ']; exact mul_dvd_mul_left _ q1
    · rw [pow_succ']; exact mul_dvd_mul_left _ q3
  · split_ifs with hc
    · -- the fourth root is moved to infinity
      set γ := mod (-g0.a * invmod X g'.b p) p
      have v3 := GVia.zshift (moveRoot X g0 g p m).1 (moveRoot X g0 g p m).2 γ
      have v4 := GVia.zshift g' (moveRoot X g0 g p m).2 γ
      obtain ⟨i2, j2⟩ := invs v4 (by simp [Matrix.det_fin_two])
      dsimp only at i2 j2
      have hbb : ¬ (p : ℤ) ∣ (g'.zshiftS (moveRoot X g0 g p m).2 γ).1.b := by
        intro h
        apply hb
        simp only [G.zshiftS, G.zshift] at h
        obtain ⟨c', hc'⟩ := c1
        obtain ⟨d', hd'⟩ := c2
        obtain ⟨e', he'⟩ := c3
        obtain ⟨k, hk⟩ := h
        rw [hc', hd', he'] at hk
        exact ⟨k - (2 * c' * γ + 3 * d' * γ ^ 2 + 4 * e' * γ ^ 3), by linear_combination hk⟩
      have hdc : (p : ℤ) ∣ (g'.zshiftS (moveRoot X g0 g p m).2 γ).1.c := by
        simp only [G.zshiftS, G.zshift]
        obtain ⟨c', hc'⟩ := c1
        obtain ⟨d', hd'⟩ := c2
        obtain ⟨e', he'⟩ := c3
        rw [hc', hd', he']
        exact ⟨c' + 3 * γ * d' + 6 * γ ^ 2 * e', by ring⟩
      have hdd : (p : ℤ) ∣ (g'.zshiftS (moveRoot X g0 g p m).2 γ).1.d := by
        simp only [G.zshiftS, G.zshift]
        obtain ⟨d', hd'⟩ := c2
        obtain ⟨e', he'⟩ := c3
        rw [hd', he']
        exact ⟨d' + 4 * γ * e', by ring⟩
      have hde : (p : ℤ) ∣ (g'.zshiftS (moveRoot X g0 g p m).2 γ).1.e := by
        simp only [G.zshiftS, G.zshift]
        exact c3
      obtain ⟨q1, q2⟩ := val_triple' (not_dvd_three h5) hbb hdc hdd hde (by rw [i2, i1]; exact hI0)
        (by rw [j2, j1]; exact hJ0)
      have e5 : ((moveRoot X g0 g p m).1.zshiftS (moveRoot X g0 g p m).2 γ).1 =
          (g'.zshiftS (moveRoot X g0 g p m).2 γ).1.smul p := by
        rw [e1]; exact G.smul_zshift g' p γ (moveRoot X g0 g p m).2.toU
      refine stepOK_rescale1 ?_ (v1.trans v3) ?_ ?_ ?_ ?_
      · rw [Matrix.det_mul, ht]; simp [Matrix.det_fin_two]
      all_goals rw [e5]; simp only [G.smul]
      · exact Dvd.intro _ rfl
      · rw [sq]; exact mul_dvd_mul_left _ hdc
      · rw [pow_succ']; exact mul_dvd_mul_left _ q1
      · rw [pow_succ']; exact mul_dvd_mul_left _ q2
    · obtain ⟨q1, q2⟩ := val_triple' (not_dvd_three h5) hb c1 c2 c3 (by rw [i1]; exact hI0)
        (by rw [j1]; exact hJ0)
      refine stepOK_rescale1 ht v1 ?_ ?_ ?_ ?_ <;> rw [e1] <;> simp only [G.smul]
      · exact Dvd.intro _ rfl
      · rw [sq]; exact mul_dvd_mul_left _ c1
      · rw [pow_succ']; exact mul_dvd_mul_left _ q1
      · rw [pow_succ']; exact mul_dvd_mul_left _ q2

theorem minimNot_ok (X : XGcd) (g : G) (m : SU) (h1 : g.divAll p = false)
    (hI : (p : ℤ) ^ 4 ∣ g.II) (hJ : (p : ℤ) ^ 6 ∣ g.JJ) :
    StepOK p (g, m) (minimNot X g p m) := by
  have hpr : Prime (p : ℤ) := Nat.prime_iff_prime_int.mp hp.out
  have hp0 : (p : ℤ) ≠ 0 := hpr.ne_zero
  have hg : g.smul 1 = g := by ext <;> simp [G.smul]
  obtain ⟨t, g', ht, e1, v1, -, c1, c2, c3⟩ := moveRoot_spec h5 X g 1 m
    (dvd_trans (dvd_pow_self _ four_ne_zero) hI) (dvd_trans (dvd_pow_self _ (by norm_num)) hJ)
  rw [hg] at e1 v1
  have hg' : g'.smul 1 = g' := by ext <;> simp [G.smul]
  rw [hg'] at e1
  have hn : ¬ ((p : ℤ) ∣ g'.a ∧ (p : ℤ) ∣ g'.b) := by
    rintro ⟨ha, hb⟩
    have := v1.dvd_back ht (k := p) (by rw [e1]; exact ⟨ha, hb, c1, c2, c3⟩)
    rw [Bool.eq_false_iff, Ne, divAll_iff hp0] at h1
    exact h1 this
  have invs : ∀ {t : M2} {s0 s : G × SU}, GVia t 1 s0 s → t.det = 1 →
      s.1.II = s0.1.II ∧ s.1.JJ = s0.1.JJ := by
    intro t s0 s h ht
    have := h.inv
    rw [ht] at this
    simpa using this
  obtain ⟨i1, j1⟩ := invs v1 ht
  dsimp only at i1 j1
  have np2 : ¬ (p : ℤ) = 2 := by omega
  have np3 : ¬ (p : ℤ) = 3 := by omega
  unfold minimNot
  simp only [np2, np3, decide_false, Bool.false_and, Bool.false_eq_true, if_false]
  obtain ⟨s, hs⟩ : ∃ s, moveRoot X g g p m = s := ⟨_, rfl⟩
  rw [hs] at e1 v1 i1 j1 ⊢
  rw [← e1] at c1 c2 c3 hn
  by_cases hb : (p : ℤ) ∣ s.1.b
  · have ha : ¬ (p : ℤ) ∣ s.1.a := fun h => hn ⟨h, hb⟩
    have e2 : div (p : ℤ) s.1.b = true := (div_iff hp0 _).mpr hb
    have e3 : div (p : ℤ) s.1.a = false := by
      rw [Bool.eq_false_iff, Ne, div_iff hp0]; exact ha
    simp only [e2, e3, Bool.not_true, Bool.and_false, Bool.false_eq_true, if_false]
    obtain ⟨q1, q2, q3⟩ := val_quad h5 ha hb c1 c2 c3 (by rw [i1]; exact hI) (by rw [j1]; exact hJ)
    exact stepOK_rescale1 ht v1 hb q1 q2 q3
  · -- triple root
    have e2 : div (p : ℤ) s.1.b = false := by
      rw [Bool.eq_false_iff, Ne, div_iff hp0]; exact hb
    obtain ⟨w, hw⟩ : ∃ w, (if (!div (p : ℤ) s.1.a && !div (p : ℤ) s.1.b) = true then
      s.1.zshiftS s.2 (mod (-s.1.a * invmod X s.1.b p) p) else s) = w := ⟨_, rfl⟩
    have key : ∃ t', t'.det = 1 ∧ GVia t' 1 (g, m) w ∧ (p : ℤ) ∣ w.1.a ∧ ¬ (p : ℤ) ∣ w.1.b ∧
        (p : ℤ) ∣ w.1.c ∧ (p : ℤ) ∣ w.1.d ∧ (p : ℤ) ∣ w.1.e := by
      rw [← hw, e2]
      by_cases ha : (p : ℤ) ∣ s.1.a
      · have e3 : div (p : ℤ) s.1.a = true := (div_iff hp0 _).mpr ha
        simp only [e3, Bool.not_true, Bool.false_and, Bool.false_eq_true, if_false]
        exact ⟨t, ht, v1, ha, hb, c1, c2, c3⟩
      · have e3 : div (p : ℤ) s.1.a = false := by
          rw [Bool.eq_false_iff, Ne, div_iff hp0]; exact ha
        simp only [e3, Bool.not_false, Bool.true_and, if_true]
        obtain ⟨γ, hγ⟩ : ∃ γ, mod (-s.1.a * invmod X s.1.b p) p = γ := ⟨_, rfl⟩
        rw [hγ]
        have hγ' : (p : ℤ) ∣ s.1.a + γ * s.1.b := by
          rw [← cast_zero_iff, ← hγ]
          push_cast
          rw [cast_mod]
          push_cast
          have hinv := cast_invmod (p := p) X s.1.b (by rwa [Ne, cast_zero_iff])
          linear_combination (-(s.1.a : ZMod p)) * hinv
        refine ⟨_, ?_, v1.trans (GVia.zshift s.1 s.2 γ), ?_⟩
        · rw [Matrix.det_mul, ht]; simp [Matrix.det_fin_two]
        · simp only [G.zshiftS, G.zshift]
          obtain ⟨c', hc'⟩ := c1
          obtain ⟨d', hd'⟩ := c2
          obtain ⟨e', he'⟩ := c3
          obtain ⟨k, hk⟩ := hγ'
          rw [hc', hd', he']
          refine ⟨⟨k + γ ^ 2 * (c' + γ * (d' + γ * e')), by linear_combination hk⟩, ?_,
            ⟨c' + 3 * γ * d' + 6 * γ ^ 2 * e', by ring⟩, ⟨d' + 4 * γ * e', by ring⟩,
            Dvd.intro _ rfl⟩
          rintro ⟨k, hk⟩
          exact hb ⟨k - (2 * c' * γ + 3 * d' * γ ^ 2 + 4 * e' * γ ^ 3), by linear_combination hk⟩
    rw [hw]
    obtain ⟨t', ht', v2, wa, wb, wc, wd, we⟩ := key
    have e3 : div (p : ℤ) w.1.a = true := (div_iff hp0 _).mpr wa
    simp only [e3, if_true]
    obtain ⟨β, hβ⟩ : ∃ β, betaShift X w.1 p = β := ⟨_, rfl⟩
    rw [hβ]
    have hβ' : (p : ℤ) ^ 2 ∣ w.1.c + 3 * w.1.b * β ∧ (p : ℤ) ∣ β := by
      obtain ⟨c', hc'⟩ := wc
      rw [← hβ, hc']
      unfold betaShift
      have e4 : (-w.1.c).fdiv p = -c' := by
        rw [hc', ← mul_neg]; exact Int.mul_fdiv_cancel_left _ hp0
      simp only [np3, if_false, e4]
      by_cases hcc : (p : ℤ) ∣ -c'
      · rw [(div_iff hp0 _).mpr hcc]
        simp only [Bool.not_true, Bool.false_eq_true, if_false]
        obtain ⟨k, hk⟩ := hcc
        exact ⟨⟨-k, by linear_combination (-(p : ℤ)) * hk⟩, dvd_zero _⟩
      · have e5 : div (p : ℤ) (-c') = false := by
          rw [Bool.eq_false_iff, Ne, div_iff hp0]; exact hcc
        simp only [e5, Bool.not_false, if_true]
        refine ⟨?_, Dvd.intro _ rfl⟩
        have h3b : ((3 * w.1.b : ℤ) : ZMod p) ≠ 0 := by
          rw [Ne, cast_zero_iff]; exact not_dvd_mul (not_dvd_three h5) wb
        have hd : (p : ℤ) ∣ c' + 3 * w.1.b * mod (-c' * invmod X (3 * w.1.b) p) p := by
          rw [← cast_zero_iff]
          have hinv := cast_invmod (p := p) X (3 * w.1.b) h3b
          push_cast at hinv ⊢
          rw [cast_mod]
          push_cast
          linear_combination (-(c' : ZMod p)) * hinv
        obtain ⟨k, hk⟩ := hd
        exact ⟨k, by linear_combination (p : ℤ) * hk⟩
    obtain ⟨⟨k, hk⟩, b', hb'⟩ := hβ'
    have v3 := v2.trans (GVia.xshift w.1 w.2 β)
    have ht3 : (t' * !![1, β; 0, 1]).det = 1 := by
      rw [Matrix.det_mul, ht']; simp [Matrix.det_fin_two]
    obtain ⟨i3, j3⟩ := invs v3 ht3
    obtain ⟨a', ha'⟩ := wa
    obtain ⟨c', hc'⟩ := wc
    obtain ⟨d', hd'⟩ := wd
    obtain ⟨e', he'⟩ := we
    have xa : (p : ℤ) ∣ (w.1.xshiftS w.2 β).1.a := ⟨a', ha'⟩
    have xb : ¬ (p : ℤ) ∣ (w.1.xshiftS w.2 β).1.b := by
      simp only [G.xshiftS, G.xshift]
      rintro ⟨q, hq⟩
      exact wb ⟨q - 4 * b' * w.1.a, by rw [hb'] at hq; linear_combination hq⟩
    have xc : (p : ℤ) ^ 2 ∣ (w.1.xshiftS w.2 β).1.c := by
      simp only [G.xshiftS, G.xshift]
      exact ⟨k + 6 * b' ^ 2 * w.1.a, by
        linear_combination hk + 6 * w.1.a * (β + p * b') * hb'⟩
    have xd : (p : ℤ) ∣ (w.1.xshiftS w.2 β).1.d := by
      simp only [G.xshiftS, G.xshift]
      exact ⟨d' + b' * (2 * w.1.c + β * (3 * w.1.b + 4 * β * w.1.a)), by
        linear_combination hd' + (2 * w.1.c + β * (3 * w.1.b + 4 * β * w.1.a)) * hb'⟩
    have xe : (p : ℤ) ∣ (w.1.xshiftS w.2 β).1.e := by
      simp only [G.xshiftS, G.xshift]
      exact ⟨e' + b' * (w.1.d + β * (w.1.c + β * (w.1.b + β * w.1.a))), by
        linear_combination he' + (w.1.d + β * (w.1.c + β * (w.1.b + β * w.1.a))) * hb'⟩
    obtain ⟨q1, q2⟩ := val_triple (not_dvd_three h5) xb xa xc xd xe (by rw [i3]; exact hI) (by rw [j3]; exact hJ)
    exact stepOK_rescale2 ht3 v3 xc q1 q2

end

namespace Props

/-- C25 (minimisation): for a prime `p ≥ 5` and a quartic with `p⁴ ∣ I`, `p⁶ ∣ J` which is
soluble modulo `p⁴` (or has `p⁵ ∣ I`, `p⁷ ∣ J`), `minim_p` succeeds, divides `I` by `p⁴` and `J` by
`p⁶`, and the new quartic is `1/u²` times the old one after the substitution `t`, where `t` and `u`
are the factors by which the matrix and the scale of `m` have been multiplied.
Missing: `p = 2` and `p = 3`. -/
theorem C25_minim_p_five (X : XGcd) (p : ℕ) (hp : p.Prime) (h5 : 5 ≤ p) (g : G) (m : SU)
    (hI : (p : ℤ) ^ 4 ∣ g.II) (hJ : (p : ℤ) ^ 6 ∣ g.JJ)
    (hs : (∃ x y z : ℤ, ¬ ((p : ℤ) ∣ x ∧ (p : ℤ) ∣ z) ∧ (p : ℤ) ^ 4 ∣ y ^ 2 - g.fn x z) ∨
      ((p : ℤ) ^ 5 ∣ g.II ∧ (p : ℤ) ^ 7 ∣ g.JJ)) :
    (minimP X g p m).2.2 = true ∧
    (p : ℤ) ^ 4 * (minimP X g p m).1.II = g.II ∧ (p : ℤ) ^ 6 * (minimP X g p m).1.JJ = g.JJ ∧
    ∃ (t : M2) (u : ℤ), t.det ≠ 0 ∧ u = p * t.det ∧
      (minimP X g p m).2.1.toU.toM = m.toU.toM * t ∧ (minimP X g p m).2.1.m00 = m.m00 * u ∧
      ∀ x z, u ^ 2 * (minimP X g p m).1.fn x z = act g.fn t x z := by
  have : Fact p.Prime := ⟨hp⟩
  have hp0 : (p : ℤ) ≠ 0 := by exact_mod_cast hp.ne_zero
  have hpp : (p : ℤ) * p ≠ 0 := mul_ne_zero hp0 hp0
  have ok : StepOK p (g, m) (minimP X g p m) := by
    unfold minimP
    split_ifs with h1 h2
    · rw [divAll_iff hpp] at h1
      obtain ⟨da, db, dc, dd, de⟩ := h1
      have hg := G.divBy_smul g hpp da db dc dd de
      refine ⟨rfl, 1, p, by simp, by simp, by simp [SU.uScale], rfl, ?_⟩
      intro x z
      rw [act_one]
      dsimp only
      have := G.fn_smul ((p : ℤ) * p) (g.divBy (p * p)) x z
      rw [hg] at this
      rw [this]; ring
    · exact minimAll_ok h5 X g m (by simpa using h1) h2 hI hJ hs
    · exact minimNot_ok h5 X g m (by simpa using h2) hI hJ
  obtain ⟨i, j⟩ := ok.inv
  obtain ⟨h1, t, u, h2, h3, h4, h4', h4''⟩ := ok
  exact ⟨h1, i, j, t, u, h2, h3, h4, h4', h4''⟩

example : minimP Marith.Props.xgcd0 ⟨1, 0, 25, 0, 625 * 3⟩ 5 ⟨⟨1, 0, 0, 1⟩, 1⟩ =
    (⟨1, 0, 1, 0, 3⟩, ⟨⟨5, 0, 0, 1⟩, 25⟩, true) := by decide
example : (5 : ℤ) ^ 4 ∣ (G.mk 1 0 25 0 (625 * 3)).II ∧ (5 : ℤ) ^ 6 ∣ (G.mk 1 0 25 0 (625 * 3)).JJ ∧
    ¬ ((5 : ℤ) ∣ 1 ∧ (5 : ℤ) ∣ 0) ∧ (5 : ℤ) ^ 4 ∣ 1 ^ 2 - (G.mk 1 0 25 0 (625 * 3)).fn 1 0 := by
  decide

/-- C25: the solubility hypothesis cannot be dropped: for `5x⁴ + 125z⁴` and `p = 5` the stated
precondition `p⁴ ∣ I`, `p⁶ ∣ J` holds, but the division of `e` by `p⁴` is not exact and the flag still
reports success. -/
theorem C25_minim_p_insoluble (X : XGcd) :
    (5 : ℤ) ^ 4 ∣ (G.mk 5 0 0 0 125).II ∧ (5 : ℤ) ^ 6 ∣ (G.mk 5 0 0 0 125).JJ ∧
    (minimP X ⟨5, 0, 0, 0, 125⟩ 5 ⟨⟨1, 0, 0, 1⟩, 1⟩).2.2 = true ∧
    (5 : ℤ) ^ 4 * (minimP X ⟨5, 0, 0, 0, 125⟩ 5 ⟨⟨1, 0, 0, 1⟩, 1⟩).1.II ≠
      (G.mk 5 0 0 0 125).II := by
  have e : minimP X ⟨5, 0, 0, 0, 125⟩ 5 ⟨⟨1, 0, 0, 1⟩, 1⟩ =
      (⟨5, 0, 0, 0, 0⟩, ⟨⟨5, 0, 0, 1⟩, 25⟩, true) := by rfl
  rw [e]
  decide

end Props

end Eclib.Forms
