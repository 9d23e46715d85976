import Verif.Lambda.Model
import Verif.Curve.PointTests
import Verif.Lambda.Types

/-!
# C124: `lambda_bad_1` and the local heights of `pheight`
-/

namespace Eclib.Lambda

open Eclib.Curve P2 Marith Eclib.Tate WeierstrassCurve

/-! ## The curve with the point moved to the origin -/

/-- the equation scaled by `z` -/
def scale (W : WeierstrassCurve ℤ) (z : ℤ) : WeierstrassCurve ℤ :=
  ⟨z * W.a₁, z ^ 2 * W.a₂, z ^ 3 * W.a₃, z ^ 4 * W.a₄, z ^ 6 * W.a₆⟩

theorem scale_b2 (W : WeierstrassCurve ℤ) (z : ℤ) : (scale W z).b₂ = z ^ 2 * W.b₂ := by simp only [scale, b₂]; ring
theorem scale_b4 (W : WeierstrassCurve ℤ) (z : ℤ) : (scale W z).b₄ = z ^ 4 * W.b₄ := by simp only [scale, b₄]; ring
theorem scale_b6 (W : WeierstrassCurve ℤ) (z : ℤ) : (scale W z).b₆ = z ^ 6 * W.b₆ := by simp only [scale, b₆]; ring
theorem scale_b8 (W : WeierstrassCurve ℤ) (z : ℤ) : (scale W z).b₈ = z ^ 8 * W.b₈ := by simp only [scale, b₈]; ring
theorem scale_c4 (W : WeierstrassCurve ℤ) (z : ℤ) : (scale W z).c₄ = z ^ 4 * W.c₄ := by
  simp only [c₄, scale_b2, scale_b4]; ring
theorem scale_disc (W : WeierstrassCurve ℤ) (z : ℤ) : (scale W z).Δ = z ^ 12 * W.Δ := by
  simp only [Δ, scale_b2, scale_b4, scale_b6, scale_b8]; ring

theorem scale_chg {W V : WeierstrassCurve ℤ} {r s t : ℤ} (h : Chg W V r s t) (z : ℤ) :
    Chg (scale W z) (scale V z) (z ^ 2 * r) (z * s) (z ^ 3 * t) := by
  constructor <;> simp only [scale, h.a1, h.a2, h.a3, h.a4, h.a6] <;> ring

/-- the scaled curve with the point at the origin -/
def atPt (W : WeierstrassCurve ℤ) (P : P2) : WeierstrassCurve ℤ :=
  (⟨1, P.X * P.Z, 0, P.Y * P.Z ^ 2⟩ : VariableChange ℤ) • scale W P.Z

theorem atPt_chg (W : WeierstrassCurve ℤ) (P : P2) : Chg (scale W P.Z) (atPt W P) (P.X * P.Z) 0 (P.Y * P.Z ^ 2) := chg_of _ _ _ _

/-- `2y + a1 x + a3 z` -/
def psi2 (W : WeierstrassCurve ℤ) (P : P2) : ℤ := 2 * P.Y + W.a₁ * P.X + W.a₃ * P.Z
/-- the derivative with respect to `x` -/
def derX (W : WeierstrassCurve ℤ) (P : P2) : ℤ :=
  3 * P.X ^ 2 + 2 * W.a₂ * P.X * P.Z + W.a₄ * P.Z ^ 2 - W.a₁ * P.Y * P.Z
/-- the 3-division polynomial at the point -/
def psi3 (W : WeierstrassCurve ℤ) (P : P2) : ℤ :=
  3 * P.X ^ 4 + W.b₂ * P.X ^ 3 * P.Z + 3 * W.b₄ * P.X ^ 2 * P.Z ^ 2 + 3 * W.b₆ * P.X * P.Z ^ 3 + W.b₈ * P.Z ^ 4

theorem atPt_a3 (W : WeierstrassCurve ℤ) (P : P2) : (atPt W P).a₃ = P.Z ^ 2 * psi2 W P := by
  rw [(atPt_chg W P).a3]; simp only [scale, psi2]; ring
theorem atPt_a4 (W : WeierstrassCurve ℤ) (P : P2) : (atPt W P).a₄ = P.Z ^ 2 * derX W P := by
  rw [(atPt_chg W P).a4]; simp only [scale, derX]; ring
theorem atPt_a6 (E : Cv) (P : P2) (h : OnE E P) : (atPt E.W P).a₆ = 0 := by
  rw [(atPt_chg E.W P).a6]
  unfold OnE at h
  simp only [scale, Cv.W]
  linear_combination -P.Z ^ 3 * h
theorem atPt_b8 (W : WeierstrassCurve ℤ) (P : P2) : (atPt W P).b₈ = P.Z ^ 4 * psi3 W P := by
  rw [(atPt_chg W P).b8, scale_b2, scale_b4, scale_b6, scale_b8]; simp only [psi3]; ring
theorem atPt_c4 (W : WeierstrassCurve ℤ) (P : P2) : (atPt W P).c₄ = P.Z ^ 4 * W.c₄ := by
  rw [(atPt_chg W P).c4, scale_c4]
theorem atPt_disc (W : WeierstrassCurve ℤ) (P : P2) : (atPt W P).Δ = P.Z ^ 12 * W.Δ := by
  rw [(atPt_chg W P).disc, scale_disc]

/-! ## Valuations -/

variable {p : ℕ}

theorem pow_dvd_scale (hp : p.Prime) {z : ℤ} (hz : ¬ (p : ℤ) ∣ z) (k m : ℕ) (a : ℤ) : (p : ℤ) ^ k ∣ z ^ m * a ↔ (p : ℤ) ^ k ∣ a := by
  constructor
  · have hc : IsCoprime ((p : ℤ) ^ k) (z ^ m) :=
      ((Nat.prime_iff_prime_int.1 hp).coprime_iff_not_dvd.2 hz).pow
    exact hc.dvd_of_dvd_mul_left
  · exact fun h => h.mul_left _

theorem dvd_scale (hp : p.Prime) {z : ℤ} (hz : ¬ (p : ℤ) ∣ z) (m : ℕ) (a : ℤ) : (p : ℤ) ∣ z ^ m * a ↔ (p : ℤ) ∣ a := by
  have := pow_dvd_scale hp hz 1 m a
  rwa [pow_one] at this

theorem le_val (hp : p.Prime) {k : ℕ} (hk : k ≤ 99999) (n : ℤ) : k ≤ val (p : ℤ) n ↔ (p : ℤ) ^ k ∣ n := by
  have hp2 : 2 ≤ |(p : ℤ)| := by rw [abs_of_nonneg (by positivity)]; exact_mod_cast hp.two_le
  by_cases h0 : n = 0
  · subst h0; simp [val, hk]
  · obtain ⟨h1, h2⟩ := val_spec (p : ℤ) n hp2 h0
    constructor
    · exact fun h => (pow_dvd_pow _ h).trans h1
    · intro h
      by_contra hlt
      exact h2 ((pow_dvd_pow _ (by omega)).trans h)

theorem val_pos (hp : p.Prime) (n : ℤ) : 1 ≤ val (p : ℤ) n ↔ (p : ℤ) ∣ n := by
  rw [le_val hp (by norm_num), pow_one]

theorem val_dvd (hp : p.Prime) (n : ℤ) : (p : ℤ) ^ val (p : ℤ) n ∣ n := by
  by_cases h0 : n = 0
  · simp [h0]
  · have hp2 : 2 ≤ |(p : ℤ)| := by rw [abs_of_nonneg (by positivity)]; exact_mod_cast hp.two_le
    exact (val_spec (p : ℤ) n hp2 h0).1

theorem val_eq_of (hp : p.Prime) {n : ℤ} {N : ℕ} (h : Spec.ExactPower (p : ℤ) n N) : val (p : ℤ) n = N := by
  have hp2 : 2 ≤ |(p : ℤ)| := by rw [abs_of_nonneg (by positivity)]; exact_mod_cast hp.two_le
  have h0 : n ≠ 0 := by rintro rfl; exact h.2 (dvd_zero _)
  obtain ⟨h1, h2⟩ := val_spec (p : ℤ) n hp2 h0
  apply le_antisymm
  · by_contra hlt
    exact h.2 ((pow_dvd_pow _ (by omega)).trans h1)
  · by_contra hlt
    exact h2 ((pow_dvd_pow _ (by omega)).trans h.1)

/-- what `pheight` computes at a point without `p` in the denominator -/
theorem pheight_eq (hp : p.Prime) {E : Cv} (hE : E.W.Δ ≠ 0) {P : P2} (hz : ¬ (p : ℤ) ∣ P.Z) :
    pheight (Cd.ofAi E) P p =
      if (p : ℤ) ∣ derX E.W P ∧ (p : ℤ) ∣ psi2 E.W P then
        let n : ℚ := (val (p : ℤ) E.W.Δ : ℕ)
        let b : ℕ := val (p : ℤ) (psi2 E.W P)
        let c : ℕ := val (p : ℤ) (psi3 E.W P)
        if ¬ (p : ℤ) ∣ E.W.c₄ then
          let m : ℚ := if n / 2 < b then n / 2 else b
          m * (m - n) / n
        else if 3 * b ≤ c then -2 * b / 3 else -(c : ℚ) / 4
      else 0 := by
  obtain ⟨hc, hstd⟩ := Cd.ofAi_std hE
  have e2 : (Cd.ofAi E).b2 = E.W.b₂ := by rw [hstd.b2, hc]
  have e4 : (Cd.ofAi E).b4 = E.W.b₄ := by rw [hstd.b4, hc]
  have e6 : (Cd.ofAi E).b6 = E.W.b₆ := by rw [hstd.b6, hc]
  have e8 : (Cd.ofAi E).b8 = E.W.b₈ := by rw [hstd.b8, hc]
  have ec : (Cd.ofAi E).c4 = E.W.c₄ := by rw [hstd.c4, hc]
  have ed : (Cd.ofAi E).discr = E.W.Δ := by rw [hstd.discr, hc]
  have hv : val (p : ℤ) ((Int.gcd P.X P.Z : ℕ) : ℤ) = 0 := by
    by_contra h
    exact hz (((val_pos hp _).1 (Nat.one_le_iff_ne_zero.2 h)).trans (Int.gcd_dvd_right _ _))
  have i1 : 3 * (P.X * P.X) + 2 * (Cd.ofAi E).a2 * (P.X * P.Z) + (Cd.ofAi E).a4 * (P.Z * P.Z) - (Cd.ofAi E).a1 * (P.Y * P.Z) =
      derX E.W P := by rw [hc]; simp only [derX, Cv.W]; ring
  have i2 : 2 * P.Y + (Cd.ofAi E).a1 * P.X + (Cd.ofAi E).a3 * P.Z = psi2 E.W P := by rw [hc]; simp only [psi2, Cv.W]
  have i3 : 3 * (P.X * P.X) * (P.X * P.X) + (Cd.ofAi E).b2 * (P.X * P.X) * (P.X * P.Z) + 3 * (Cd.ofAi E).b4 * (P.X * P.X) * (P.Z * P.Z) +
      3 * (Cd.ofAi E).b6 * (P.X * P.Z) * (P.Z * P.Z) + (Cd.ofAi E).b8 * (P.Z * P.Z) * (P.Z * P.Z) = psi3 E.W P := by
    rw [e2, e4, e6, e8]; simp only [psi3]; ring
  have hdiv : (!div (p : ℤ) E.W.c₄) = true ↔ ¬ (p : ℤ) ∣ E.W.c₄ := by
    unfold div
    rw [if_neg (by exact_mod_cast hp.ne_zero)]
    simp only [Bool.not_eq_true', decide_eq_false_iff_not]
    exact not_congr ⟨Int.dvd_of_fmod_eq_zero, Int.fmod_eq_zero_of_dvd⟩
  unfold pheight
  simp only [i1, i2, i3, ec, ed, hv, hdiv]
  have ha := val_pos hp (derX E.W P)
  have hb := val_pos hp (psi2 E.W P)
  by_cases hs : (p : ℤ) ∣ derX E.W P ∧ (p : ℤ) ∣ psi2 E.W P
  · have ha := ha.2 hs.1
    have hb := hb.2 hs.2
    rw [if_pos hs, if_neg (by push_cast; omega)]
    simp only [Nat.cast_zero, mul_zero, sub_zero, Int.cast_natCast]
    split
    · rfl
    · congr 1
      apply propext
      constructor <;> intro h <;> omega
  · rw [if_neg hs, if_pos (by
      push_cast
      by_contra hh
      exact hs ⟨ha.1 (by omega), hb.1 (by omega)⟩)]
    split
    · rfl
    · rename_i h
      have hx : ((3 * ((0 : ℕ) : ℤ) - (val (p : ℤ) P.X : ℕ) : ℤ) : ℚ) = -((val (p : ℤ) P.X : ℕ) : ℚ) := by push_cast; ring
      rw [hx] at h ⊢
      have : (0 : ℚ) ≤ (val (p : ℤ) P.X : ℕ) := Nat.cast_nonneg _
      linarith

/-! ## The reduction types -/

theorem scale_cub (W : WeierstrassCurve ℤ) (z : ℤ) : cubDisc (scale W z) = z ^ 12 * cubDisc W := by
  simp only [scale, cubDisc]; ring

theorem lv_scale (hp : p.Prime) {z : ℤ} (hz : ¬ (p : ℤ) ∣ z) {V : WeierstrassCurve ℤ} {k : Kodaira} (h : Lv p V k) :
    Lv p (scale V z) k := by
  have l1 : Lev1 (p : ℤ) V → Lev1 (p : ℤ) (scale V z) := fun h => ⟨h.a3.mul_left _, h.a4.mul_left _, h.a6.mul_left _⟩
  have l2 : Lev2 (p : ℤ) V → Lev2 (p : ℤ) (scale V z) := fun h => ⟨l1 h.toLev1, by rw [scale_b2]; exact h.b2.mul_left _⟩
  have l3 : Lev3 (p : ℤ) V → Lev3 (p : ℤ) (scale V z) := fun h => ⟨l2 h.toLev2, h.a6'.mul_left _⟩
  have l4 : Lev4 (p : ℤ) V → Lev4 (p : ℤ) (scale V z) := fun h => ⟨l3 h.toLev3, by rw [scale_b8]; exact h.b8.mul_left _⟩
  have l7 : Lev7 (p : ℤ) V → Lev7 (p : ℤ) (scale V z) := fun h =>
    ⟨h.a1.mul_left _, h.a2.mul_left _, h.a3.mul_left _, h.a4.mul_left _, h.a6.mul_left _⟩
  have e3 : (scale V z).a₃ ^ 2 + 4 * (scale V z).a₆ = z ^ 6 * (V.a₃ ^ 2 + 4 * V.a₆) := by simp only [scale]; ring
  have e4 : (scale V z).a₄ ^ 2 - 4 * (scale V z).a₂ * (scale V z).a₆ = z ^ 8 * (V.a₄ ^ 2 - 4 * V.a₂ * V.a₆) := by
    simp only [scale]; ring
  cases k with
  | I n =>
    cases n with
    | zero => show ¬ _ ∣ _; rw [scale_disc, dvd_scale hp hz]; exact h
    | succ n =>
      refine ⟨l1 h.1, ?_, ?_, ?_⟩
      · rw [scale_b2, dvd_scale hp hz]; exact h.2.1
      · rw [scale_disc]; exact h.2.2.1.mul_left _
      · rw [scale_disc, pow_dvd_scale hp hz]; exact h.2.2.2
  | II => exact ⟨l2 h.1, fun hh => h.2 ((pow_dvd_scale hp hz _ _ _).1 hh)⟩
  | III => exact ⟨l3 h.1, by rw [scale_b8, pow_dvd_scale hp hz]; exact h.2⟩
  | IV => exact ⟨l4 h.1, by rw [scale_b6, pow_dvd_scale hp hz]; exact h.2⟩
  | Istar m =>
    cases m with
    | zero =>
      exact ⟨⟨h.1.a1.mul_left _, h.1.a2.mul_left _, h.1.a3.mul_left _, h.1.a4.mul_left _, h.1.a6.mul_left _⟩, by
        rw [scale_cub, pow_dvd_scale hp hz]; exact h.2⟩
    | succ m =>
      refine ⟨⟨h.1.a1.mul_left _, h.1.a2.mul_left _, fun hh => h.1.a2' ((pow_dvd_scale hp hz _ _ _).1 hh), h.1.a3.mul_left _,
        h.1.a4.mul_left _, h.1.a6.mul_left _⟩, ?_⟩
      rw [e3, e4, pow_dvd_scale hp hz, pow_dvd_scale hp hz]
      exact h.2
  | IVstar =>
    exact ⟨⟨h.1.a1.mul_left _, h.1.a2.mul_left _, h.1.a3.mul_left _, h.1.a4.mul_left _, h.1.a6.mul_left _⟩, by
      rw [e3, pow_dvd_scale hp hz]; exact h.2⟩
  | IIIstar => exact ⟨l7 h.1, fun hh => h.2 ((pow_dvd_scale hp hz _ _ _).1 hh)⟩
  | IIstar => exact ⟨l7 h.1, h.2.1.mul_left _, fun hh => h.2.2 ((pow_dvd_scale hp hz _ _ _).1 hh)⟩

/-- the data used of the equation at the point -/
theorem at_point (hp : p.Prime) {E : Cv} {P : P2} (hOn : OnE E P) (hz : ¬ (p : ℤ) ∣ P.Z) {k : Kodaira} {c : ℕ}
    (hk : HasType p E.W k c) (h4 : (p : ℤ) ∣ derX E.W P) (h3 : (p : ℤ) ∣ psi2 E.W P) :
    ∃ V U r t, Lv p V k ∧ Chg V U r 0 t ∧ U.a₆ = 0 ∧ U.a₃ = P.Z ^ 2 * psi2 E.W P ∧ U.b₈ = P.Z ^ 4 * psi3 E.W P ∧
      (p : ℤ) ∣ U.a₃ ∧ (p : ℤ) ∣ U.a₄ := by
  obtain ⟨V, hsim, hNF⟩ := hk
  obtain ⟨r, s, t, hc⟩ := sim_iff.1 hsim
  have h1 := ((scale_chg hc P.Z).symm).trans (atPt_chg E.W P)
  generalize hr : -(P.Z ^ 2 * r) + P.X * P.Z = r' at h1
  generalize hs : -(P.Z * s) + 0 = s' at h1
  generalize ht : P.Z ^ 2 * r * (P.Z * s) - P.Z ^ 3 * t + P.Y * P.Z ^ 2 + -(P.Z * s) * (P.X * P.Z) = t' at h1
  have h2 := chg_of (scale V P.Z) r' 0 t'
  set U := (⟨1, r', 0, t'⟩ : VariableChange ℤ) • scale V P.Z with hU
  have i3 : U.a₃ = (atPt E.W P).a₃ := by rw [h2.a3, h1.a3]
  have i6 : U.a₆ = (atPt E.W P).a₆ := by rw [h2.a6, h1.a6]
  have i8 : U.b₈ = (atPt E.W P).b₈ := by rw [h2.b8, h1.b8]
  have i4 : U.a₄ = (atPt E.W P).a₄ + s' * (atPt E.W P).a₃ := by rw [h2.a4, h1.a4, h1.a3]; ring
  refine ⟨scale V P.Z, U, r', t', lv_scale hp hz (lv_of_NF hNF), h2, ?_, ?_, ?_, ?_, ?_⟩
  · rw [i6, atPt_a6 E P hOn]
  · rw [i3, atPt_a3]
  · rw [i8, atPt_b8]
  · rw [i3, atPt_a3]; exact h3.mul_left _
  · rw [i4, atPt_a3, atPt_a4]; exact dvd_add (h4.mul_left _) ((h3.mul_left _).mul_left _)

/-- additive reduction -/
theorem c4_add {W : WeierstrassCurve ℤ} {k : Kodaira} {c : ℕ} (hk : HasType p W k c) (ha : ∀ n, k ≠ .I n) :
    (p : ℤ) ∣ W.c₄ := by
  obtain ⟨V, hsim, hNF⟩ := hk
  obtain ⟨r, s, t, hc⟩ := sim_iff.1 hsim
  rw [← hc.c4]
  have h2 := (lv_of_NF hNF).b2 ha
  have := Val.of1 h2.b2
  have := Val.of1 h2.toLev1.b4
  unfold c₄; pv

/-- the value of `pheight` at a point which is singular modulo `p`, when the reduction is additive -/
def addVals : Kodaira → List ℚ
  | .I _ => []
  | .II => []
  | .III => [-1 / 2]
  | .IV => [-2 / 3]
  | .Istar m => [-1, -(1 + (m : ℚ) / 4)]
  | .IVstar => [-4 / 3]
  | .IIIstar => [-3 / 2]
  | .IIstar => []

theorem val_two (hp : p.Prime) {z a : ℤ} (hz : ¬ (p : ℤ) ∣ z) {k m : ℕ} (h1 : (p : ℤ) ^ k ∣ z ^ m * a)
    (h2 : ¬ (p : ℤ) ^ (k + 1) ∣ z ^ m * a) : val (p : ℤ) a = k := by
  rw [pow_dvd_scale hp hz] at h1 h2
  exact val_eq_of hp ⟨h1, h2⟩

theorem pheight_add (hp : p.Prime) {E : Cv} (hE : E.W.Δ ≠ 0) {P : P2} (hOn : OnE E P) (hz : ¬ (p : ℤ) ∣ P.Z) {k : Kodaira} {c : ℕ}
    (hk : HasType p E.W k c) (ha : ∀ n, k ≠ .I n) (hcomp : k.components < 99999)
    (h4 : (p : ℤ) ∣ derX E.W P) (h3 : (p : ℤ) ∣ psi2 E.W P) : pheight (Cd.ofAi E) P p ∈ addVals k := by
  have hpp : Prime (p : ℤ) := Nat.prime_iff_prime_int.1 hp
  have hc4 := c4_add hk ha
  obtain ⟨V, U, r, t, hV, hch, u6, u3, u8, d3, d4⟩ := at_point hp hOn hz hk h4 h3
  rw [pheight_eq hp hE hz, if_pos ⟨h4, h3⟩]
  simp only [hc4, not_true, if_false]
  have lowb : ∀ j ≤ 99999, (p : ℤ) ^ j ∣ U.a₃ → j ≤ val (p : ℤ) (psi2 E.W P) := by
    intro j hj hd
    rw [u3, pow_dvd_scale hp hz] at hd
    exact (le_val hp hj _).2 hd
  have lowc : ∀ j ≤ 99999, (p : ℤ) ^ j ∣ U.b₈ → j ≤ val (p : ℤ) (psi3 E.W P) := by
    intro j hj hd
    rw [u8, pow_dvd_scale hp hz] at hd
    exact (le_val hp hj _).2 hd
  have exb : ∀ j, (p : ℤ) ^ j ∣ U.a₃ → ¬ (p : ℤ) ^ (j + 1) ∣ U.a₃ → val (p : ℤ) (psi2 E.W P) = j := by
    intro j h1 h2
    rw [u3] at h1 h2
    exact val_two hp hz h1 h2
  have exc : ∀ j, (p : ℤ) ^ j ∣ U.b₈ → ¬ (p : ℤ) ^ (j + 1) ∣ U.b₈ → val (p : ℤ) (psi3 E.W P) = j := by
    intro j h1 h2
    rw [u8] at h1 h2
    exact val_two hp hz h1 h2
  cases k with
  | I n => exact absurd rfl (ha n)
  | II => exact (core_II hpp hch u6 d3 d4 hV).elim
  | IIstar => exact (core_IIstar hpp hch u6 d3 d4 hV).elim
  | III =>
    obtain ⟨a, b⟩ := core_III hpp hch u6 d3 d4 hV
    rw [exc 2 a b]
    have := lowb 1 (by norm_num) (by simpa using d3)
    rw [if_neg (by omega)]
    simp only [addVals, List.mem_singleton]; norm_num
  | IV =>
    obtain ⟨a, b⟩ := core_IV hpp hch u6 d3 d4 hV
    rw [exb 1 (by simpa using d3) a]
    have := lowc 3 (by norm_num) b
    rw [if_pos (by omega)]
    simp only [addVals, List.mem_singleton]; norm_num
  | IVstar =>
    obtain ⟨a, b, d⟩ := core_IVstar hpp hch u6 d3 d4 hV
    rw [exb 2 a b]
    have := lowc 6 (by norm_num) d
    rw [if_pos (by omega)]
    simp only [addVals, List.mem_singleton]; norm_num
  | IIIstar =>
    obtain ⟨a, b, d⟩ := core_IIIstar hpp hch u6 d3 d4 hV
    rw [exc 6 b d]
    have := lowb 3 (by norm_num) a
    rw [if_neg (by omega)]
    simp only [addVals, List.mem_singleton]; norm_num
  | Istar m =>
    cases m with
    | zero =>
      obtain ⟨a, b, d⟩ := core_I0star hpp hch u6 d3 d4 hV
      rw [exc 4 b d]
      have := lowb 2 (by norm_num) a
      rw [if_neg (by omega)]
      simp only [addVals, List.mem_cons]; left; norm_num
    | succ m =>
      rcases core_Istar hpp hch u6 d3 d4 m hV with ⟨a, b, d⟩ | ⟨a, b, d⟩
      · rw [exc 4 b d]
        have := lowb 2 (by norm_num) a
        rw [if_neg (by omega)]
        simp only [addVals, List.mem_cons]; left; norm_num
      · rw [exc (m + 5) b d]
        have hcm : m + 1 + 5 < 99999 := hcomp
        have := lowb ((m + 5) / 2) (by omega) a
        rw [if_neg (by omega)]
        simp only [addVals, List.mem_cons]; right; left; push_cast; ring

/-- multiplicative reduction -/
theorem pheight_mult (hp : p.Prime) {E : Cv} (hE : E.W.Δ ≠ 0) {P : P2} (hOn : OnE E P) (hz : ¬ (p : ℤ) ∣ P.Z) {n c : ℕ}
    (hk : HasType p E.W (.I (n + 1)) c) (h4 : (p : ℤ) ∣ derX E.W P) (h3 : (p : ℤ) ∣ psi2 E.W P) :
    ∃ i : ℕ, i ≤ (n + 1) / 2 ∧ pheight (Cd.ofAi E) P p = (i * i : ℚ) / (n + 1 : ℕ) - i := by
  have hpp : Prime (p : ℤ) := Nat.prime_iff_prime_int.1 hp
  obtain ⟨V, hsim, hNF⟩ := hk
  obtain ⟨r, s, t, hc⟩ := sim_iff.1 hsim
  obtain ⟨hl, hb2, hd1, hd2⟩ := lv_of_NF hNF
  rw [hc.disc] at hd1 hd2
  have hc4 : ¬ (p : ℤ) ∣ E.W.c₄ := by
    rw [← hc.c4]
    intro hh
    have := Val.of1 hl.b4
    apply hb2
    have h2 : (p : ℤ) ∣ V.b₂ ^ 2 := by
      rw [show V.b₂ ^ 2 = V.c₄ + 24 * V.b₄ by unfold c₄; ring]
      have := Val.of1 hh
      pv
    exact hpp.dvd_of_dvd_pow h2
  have hv : val (p : ℤ) E.W.Δ = n + 1 := val_eq_of hp ⟨hd1, hd2⟩
  rw [pheight_eq hp hE hz, if_pos ⟨h4, h3⟩]
  simp only [hc4, not_false_eq_true, if_true, hv]
  set b := val (p : ℤ) (psi2 E.W P) with hb
  have hn0 : ((n + 1 : ℕ) : ℚ) ≠ 0 := by positivity
  by_cases hlt : n + 1 < 2 * b
  · have hpos : ((n + 1 : ℕ) : ℚ) / 2 < b := by
      rw [div_lt_iff₀ (by norm_num)]
      have : ((n + 1 : ℕ) : ℚ) < ((2 * b : ℕ) : ℚ) := by exact_mod_cast hlt
      push_cast at this ⊢; linarith
    have u3 := atPt_a3 E.W P
    have hev : Even (n + 1) := by
      refine core_I (U := atPt E.W P) (k := b) hpp (atPt_a6 E P hOn) ?_ ?_ ?_ (N := n + 1) ?_ ?_ ?_ hlt
      · rw [u3]; exact h3.mul_left _
      · rw [atPt_a4]; exact h4.mul_left _
      · rw [atPt_c4, dvd_scale hp hz]; exact hc4
      · rw [atPt_disc]; exact hd1.mul_left _
      · rw [atPt_disc, pow_dvd_scale hp hz]; exact hd2
      · rw [u3]; exact (val_dvd hp _).mul_left _
    obtain ⟨j, hj⟩ := hev
    refine ⟨j, by omega, ?_⟩
    rw [if_pos hpos, hj]
    have hj0 : (j : ℚ) ≠ 0 := by
      have : j ≠ 0 := by omega
      exact_mod_cast this
    push_cast
    field_simp
    ring
  · refine ⟨b, by omega, ?_⟩
    rw [if_neg (by
      rw [not_lt, le_div_iff₀ (by norm_num)]
      have : ((2 * b : ℕ) : ℚ) ≤ ((n + 1 : ℕ) : ℚ) := by exact_mod_cast (not_lt.1 hlt)
      push_cast at this ⊢; linarith)]
    field_simp

/-! ## C124 -/

theorem lam_mult (q : ℤ) (n : ℕ) (N : ℤ) {i : ℕ} (hi : i ≤ n / 2) : (i * i : ℚ) / N - i ∈ lambdaBad1 q (Kodaira.I n).code N := by
  show _ ∈ lambdaBad1 q (10 * (n : ℤ)) N
  unfold lambdaBad1
  rw [if_pos (by simp), List.mem_map]
  refine ⟨i, ?_, rfl⟩
  rw [List.mem_range, Int.mul_tdiv_cancel_left _ (by norm_num), Int.tdiv_eq_ediv_of_nonneg (by positivity)]
  omega

theorem lam_star (q : ℤ) (n : ℕ) (N : ℤ) : lambdaBad1 q (Kodaira.Istar n).code N = [0, -1, -(1 + (n : ℚ) / 4)] := by
  show lambdaBad1 q (10 * (n : ℤ) + 1) N = _
  unfold lambdaBad1
  have e : (10 * (n : ℤ) + 1).tmod 10 = 1 := by
    rw [Int.tmod_eq_emod_of_nonneg (by omega)]; omega
  rw [if_neg (by rw [e]; norm_num), if_pos e]
  push_cast
  congr 4
  ring

theorem lam_III (q N : ℤ) : lambdaBad1 q Kodaira.III.code N = if q > 3 then [0] else [0, -1 / 2] := by
  show lambdaBad1 q 3 N = _
  unfold lambdaBad1
  rw [if_neg (by decide), if_neg (by decide)]
  norm_num

theorem lam_IV (q N : ℤ) : lambdaBad1 q Kodaira.IV.code N = if q > 3 then [0] else [0, -2 / 3] := by
  show lambdaBad1 q 4 N = _
  unfold lambdaBad1
  rw [if_neg (by decide), if_neg (by decide)]
  norm_num

theorem lam_IVstar (q N : ℤ) : lambdaBad1 q Kodaira.IVstar.code N = if q > 3 then [0] else [0, -4 / 3] := by
  show lambdaBad1 q 5 N = _
  unfold lambdaBad1
  rw [if_neg (by decide), if_neg (by decide)]
  norm_num

theorem lam_IIIstar (q N : ℤ) : lambdaBad1 q Kodaira.IIIstar.code N = if q > 3 then [0] else [0, -3 / 2] := by
  show lambdaBad1 q 6 N = _
  unfold lambdaBad1
  rw [if_neg (by decide), if_neg (by decide)]
  norm_num

theorem lam_II (q N : ℤ) : lambdaBad1 q Kodaira.II.code N = [0] ∧ lambdaBad1 q Kodaira.IIstar.code N = [0] := by
  show lambdaBad1 q 2 N = _ ∧ lambdaBad1 q 7 N = _
  constructor <;> unfold lambdaBad1 <;> rw [if_neg (by decide), if_neg (by decide)] <;> norm_num

/-- **C124** (`lambda_bad_1`), without the types III, IV, IV*, III* at primes above 3: for a point of a curve, without `p` in the
denominator, the local height computed by `pheight` at `p` is one of the values which `lambda_bad_1` lists for the Kodaira code of the
reduction type. (`val(p,0)` is 99999 in the code, hence the bound for the number of components.) -/
theorem C124_partial (hp : p.Prime) {E : Cv} (hE : E.W.Δ ≠ 0) {P : P2} (hOn : OnE E P) (hz : ¬ (p : ℤ) ∣ P.Z) {k : Kodaira} {c N : ℕ}
    (hk : HasType p E.W k c) (hcomp : k.components < 99999) (hN : Spec.ExactPower (p : ℤ) E.W.Δ N)
    (h : p ≤ 3 ∨ (k ≠ .III ∧ k ≠ .IV ∧ k ≠ .IVstar ∧ k ≠ .IIIstar)) :
    pheight (Cd.ofAi E) P p ∈ lambdaBad1 p k.code N := by
  have h0 : (0 : ℚ) ∈ lambdaBad1 p k.code N := by
    cases k
    case I n => simpa using lam_mult p n N (i := 0) (by omega)
    case Istar n => rw [lam_star]; simp
    case II => rw [(lam_II _ _).1]; simp
    case IIstar => rw [(lam_II _ _).2]; simp
    case III => rw [lam_III]; split <;> simp
    case IV => rw [lam_IV]; split <;> simp
    case IVstar => rw [lam_IVstar]; split <;> simp
    case IIIstar => rw [lam_IIIstar]; split <;> simp
  by_cases hs : (p : ℤ) ∣ derX E.W P ∧ (p : ℤ) ∣ psi2 E.W P
  swap
  · rw [pheight_eq hp hE hz, if_neg hs]; exact h0
  have p3 : ∀ {q : Prop}, (p ≤ 3 ∨ q) → ¬ q → ¬ (p : ℤ) > 3 := by
    intro q h1 h2
    have := h1.resolve_right h2
    omega
  cases k with
  | I n =>
    cases n with
    | zero =>
      rw [pheight_eq hp hE hz, if_pos hs] at *
      exfalso
      obtain ⟨V, hsim, hNF⟩ := hk
      obtain ⟨r, s, t, hc⟩ := sim_iff.1 hsim
      have h1 : ¬ (p : ℤ) ∣ V.Δ := lv_of_NF hNF
      rw [hc.disc] at h1
      apply h1
      have hl : Lev1 (p : ℤ) (atPt E.W P) :=
        ⟨by rw [atPt_a3]; exact hs.2.mul_left _, by rw [atPt_a4]; exact hs.1.mul_left _, by rw [atPt_a6 E P hOn]; exact dvd_zero _⟩
      have := hl.disc
      rwa [atPt_disc, dvd_scale hp hz] at this
    | succ n =>
      obtain ⟨i, hi, he⟩ := pheight_mult hp hE hOn hz hk hs.1 hs.2
      have hNn : N = n + 1 := by
        obtain ⟨V, hsim, hNF⟩ := hk
        obtain ⟨r, s, t, hc⟩ := sim_iff.1 hsim
        obtain ⟨-, -, hd1, hd2⟩ := lv_of_NF hNF
        rw [hc.disc] at hd1 hd2
        rw [← val_eq_of hp hN, val_eq_of hp ⟨hd1, hd2⟩]
      rw [he, hNn]
      exact lam_mult p (n + 1) ((n + 1 : ℕ) : ℤ) hi
  | II =>
    have := pheight_add hp hE hOn hz hk (by simp) hcomp hs.1 hs.2
    simp [addVals] at this
  | IIstar =>
    have := pheight_add hp hE hOn hz hk (by simp) hcomp hs.1 hs.2
    simp [addVals] at this
  | III =>
    have := pheight_add hp hE hOn hz hk (by simp) hcomp hs.1 hs.2
    have hp3 := p3 h (by simp)
    simp only [addVals, List.mem_singleton] at this
    rw [this, lam_III, if_neg hp3]
    simp
  | IV =>
    have := pheight_add hp hE hOn hz hk (by simp) hcomp hs.1 hs.2
    have hp3 := p3 h (by simp)
    simp only [addVals, List.mem_singleton] at this
    rw [this, lam_IV, if_neg hp3]
    simp
  | IVstar =>
    have := pheight_add hp hE hOn hz hk (by simp) hcomp hs.1 hs.2
    have hp3 := p3 h (by simp)
    simp only [addVals, List.mem_singleton] at this
    rw [this, lam_IVstar, if_neg hp3]
    simp
  | IIIstar =>
    have := pheight_add hp hE hOn hz hk (by simp) hcomp hs.1 hs.2
    have hp3 := p3 h (by simp)
    simp only [addVals, List.mem_singleton] at this
    rw [this, lam_IIIstar, if_neg hp3]
    simp
  | Istar m =>
    have := pheight_add hp hE hOn hz hk (by simp) hcomp hs.1 hs.2
    simp only [addVals, List.mem_cons, List.not_mem_nil, or_false] at this
    rw [lam_star]
    rcases this with this | this
    · rw [this]; simp
    · rw [this]; simp

/-- **C124**, negative: at a prime above 3 and for the types III, IV, IV*, III* the list has only the value 0, although `pheight` is
negative at every point with singular reduction. -/
theorem C124_missing (hp : p.Prime) (hp3 : 3 < p) {E : Cv} (hE : E.W.Δ ≠ 0) {P : P2} (hOn : OnE E P) (hz : ¬ (p : ℤ) ∣ P.Z)
    {k : Kodaira} {c : ℕ} (N : ℤ) (hk : HasType p E.W k c) (h : k = .III ∨ k = .IV ∨ k = .IVstar ∨ k = .IIIstar)
    (h4 : (p : ℤ) ∣ derX E.W P) (h3 : (p : ℤ) ∣ psi2 E.W P) :
    lambdaBad1 p k.code N = [0] ∧ pheight (Cd.ofAi E) P p < 0 := by
  constructor
  · have hp3' : (p : ℤ) > 3 := by exact_mod_cast hp3
    rcases h with rfl | rfl | rfl | rfl
    · rw [lam_III, if_pos hp3']
    · rw [lam_IV, if_pos hp3']
    · rw [lam_IVstar, if_pos hp3']
    · rw [lam_IIIstar, if_pos hp3']
  · have := pheight_add hp hE hOn hz hk (by rcases h with rfl | rfl | rfl | rfl <;> simp)
      (by rcases h with rfl | rfl | rfl | rfl <;> simp [Kodaira.components]) h4 h3
    rcases h with rfl | rfl | rfl | rfl <;> simp only [addVals, List.mem_singleton] at this <;> rw [this] <;> norm_num

/-! ## Examples -/

/-- the curve `y² = x³ - 20x` has type III at 5; the point (5,5) -/
theorem ex_type : HasType 5 (⟨0, 0, 0, -20, 0⟩ : Cv).W .III 2 :=
  ⟨(⟨0, 0, 0, -20, 0⟩ : Cv).W, sim_iff.2 ⟨0, 0, 0, by constructor <;> simp [Cv.W]⟩, by
    refine ⟨?_, ?_, ?_, ?_, ?_, rfl⟩ <;> simp [Cv.W, b₂, b₈]⟩

example := C124_missing (p := 5) (by decide) (by norm_num) (E := ⟨0, 0, 0, -20, 0⟩) (by decide +kernel) (P := ⟨5, 5, 1⟩)
  (by simp [OnE]) (by decide) 3 ex_type (Or.inl rfl) (by simp [derX, Cv.W]) (by simp [psi2, Cv.W])

/-- the curve 11a1 has type I5 at 11; the point (16,-61) -/
theorem ex_type2 : HasType 11 (⟨0, -1, 1, -10, -20⟩ : Cv).W (.I 5) 5 :=
  ⟨(⟨1, 16, 0, -61⟩ : VariableChange ℤ) • _, ⟨16, 0, -61, rfl⟩, by
    have h := chg_of (⟨0, -1, 1, -10, -20⟩ : Cv).W 16 0 (-61)
    refine ⟨?_, ?_, ?_, ?_, ?_, ?_, Or.inl ⟨⟨5, ?_⟩, rfl⟩⟩
    · rw [h.a3]; decide
    · rw [h.a4]; decide
    · rw [h.a6]; decide
    · rw [h.b2]; decide
    · rw [h.disc]; decide +kernel
    · rw [h.disc]; decide +kernel
    · rw [h.a1, h.a2]; decide⟩

example := C124_partial (p := 11) (by decide) (E := ⟨0, -1, 1, -10, -20⟩) (by decide +kernel) (P := ⟨16, -61, 1⟩)
  (by simp [OnE]) (by decide) ex_type2 (by simp [Kodaira.components]) (N := 5) (by unfold Spec.ExactPower; decide +kernel) (by simp)

end Eclib.Lambda
