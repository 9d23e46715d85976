import Verif.Tate.Unique2

/-!
# The valuations of the division polynomials at a point with singular reduction, for every reduction type

`V` is an equation in normal form at `p`, `U` the equation with the point moved to the origin (`a6 = 0`), and the point is singular
modulo `p` (`p ∣ a3`, `p ∣ a4`). Then `a3` and `b8` of `U` are the values of the 2- and 3-division polynomials at the point.
-/

namespace Eclib.Lambda

open Eclib.Tate WeierstrassCurve

/-- the divisibilities of the normal forms, without the number of components -/
def Lv (p : ℤ) (W : WeierstrassCurve ℤ) : Kodaira → Prop
  | .I 0 => ¬ p ∣ W.Δ
  | .I (n + 1) => Lev1 p W ∧ ¬ p ∣ W.b₂ ∧ p ^ (n + 1) ∣ W.Δ ∧ ¬ p ^ (n + 2) ∣ W.Δ
  | .II => Lev2 p W ∧ ¬ p ^ 2 ∣ W.a₆
  | .III => Lev3 p W ∧ ¬ p ^ 3 ∣ W.b₈
  | .IV => Lev4 p W ∧ ¬ p ^ 3 ∣ W.b₆
  | .Istar 0 => Lev5 p W ∧ ¬ p ^ 7 ∣ cubDisc W
  | .Istar (m + 1) => StarLev p W (m + 1) ∧
      if (m + 1) % 2 = 1 then ¬ p ^ (m + 5) ∣ W.a₃ ^ 2 + 4 * W.a₆ else ¬ p ^ (m + 6) ∣ W.a₄ ^ 2 - 4 * W.a₂ * W.a₆
  | .IVstar => Lev6 p W ∧ ¬ p ^ 5 ∣ W.a₃ ^ 2 + 4 * W.a₆
  | .IIIstar => Lev7 p W ∧ ¬ p ^ 4 ∣ W.a₄
  | .IIstar => Lev7 p W ∧ p ^ 4 ∣ W.a₄ ∧ ¬ p ^ 6 ∣ W.a₆

theorem lv_of_NF {p : ℕ} {W : WeierstrassCurve ℤ} {k : Kodaira} {c : ℕ} (h : NF p W k c) : Lv p W k := by
  cases k with
  | I n =>
    cases n with
    | zero => exact h.1
    | succ n =>
      obtain ⟨h1, h2, h3, h4, h5, h6, -⟩ := h
      exact ⟨⟨h1, h2, h3⟩, h4, h5, h6⟩
  | II =>
    obtain ⟨h1, h2, h3, h4, h5, -⟩ := h
    exact ⟨⟨⟨h1, h2, h3⟩, h4⟩, h5⟩
  | III =>
    obtain ⟨h1, h2, h3, h4, h5, -⟩ := h
    exact ⟨⟨⟨⟨h1, h2, (dvd_pow_self _ two_ne_zero).trans h4⟩, h3⟩, h4⟩, h5⟩
  | IV =>
    obtain ⟨h1, h2, h3, h4, h5, h6, -⟩ := h
    exact ⟨⟨⟨⟨⟨h1, h2, (dvd_pow_self _ two_ne_zero).trans h4⟩, h3⟩, h4⟩, h5⟩, h6⟩
  | Istar m =>
    cases m with
    | zero =>
      obtain ⟨h1, h2, h3, h4, h5, h6, -⟩ := h
      exact ⟨⟨h1, h2, h3, h4, h5⟩, h6⟩
    | succ m =>
      obtain ⟨h1, h2⟩ := h
      refine ⟨h1, ?_⟩
      split at h2
      · rw [if_pos (by assumption)]; exact h2.1
      · rw [if_neg (by assumption)]; exact h2.1
  | IVstar =>
    obtain ⟨h1, h2, h3, h4, h5, h6, -⟩ := h
    exact ⟨⟨h1, h2, h3, h4, h5⟩, h6⟩
  | IIIstar =>
    obtain ⟨h1, h2, h3, h4, h5, h6, -⟩ := h
    exact ⟨⟨h1, h2, h3, h4, h5⟩, h6⟩
  | IIstar =>
    obtain ⟨h1, h2, h3, h4, h5, h6, -⟩ := h
    exact ⟨⟨h1, h2, h3, (pow_dvd_pow _ (by norm_num)).trans h4, h5⟩, h4, h6⟩

variable {p : ℤ} {V U : WeierstrassCurve ℤ} {r t : ℤ}

/-- `p` divides `b2`: additive reduction -/
theorem Lv.b2 {k : Kodaira} (h : Lv p V k) (hk : ∀ n, k ≠ .I n) : Lev2 p V := by
  cases k with
  | I n => exact absurd rfl (hk n)
  | II => exact h.1
  | III => exact h.1.toLev2
  | IV => exact h.1.toLev2
  | Istar m =>
    cases m with
    | zero => exact h.1.lev4.1.toLev2
    | succ m => exact (h.1.lev5 (by omega)).lev4.1.toLev2
  | IVstar => exact h.1.lev5.lev4.1.toLev2
  | IIIstar => exact h.1.lev6.1.lev5.lev4.1.toLev2
  | IIstar => exact h.1.lev6.1.lev5.lev4.1.toLev2

theorem b8_zero (h6 : U.a₆ = 0) : U.b₈ = -(U.a₄ ^ 2) + (U.a₂ * U.a₃ ^ 2 - U.a₁ * U.a₃ * U.a₄) := by
  unfold b₈; rw [h6]; ring

/-- the equation of the point -/
theorem eqn0 (h : Chg V U r 0 t) (h6 : U.a₆ = 0) :
    t ^ 2 + r * t * V.a₁ + t * V.a₃ = V.a₆ + r * V.a₄ + r ^ 2 * V.a₂ + r ^ 3 := by
  have := h.a6
  rw [h6] at this
  linear_combination this

theorem core_II (hp : Prime p) (h : Chg V U r 0 t) (h6 : U.a₆ = 0) (h3 : p ∣ U.a₃) (h4 : p ∣ U.a₄) (hV : Lv p V .II) : False := by
  have hU : Lev1 p U := ⟨h3, h4, by rw [h6]; exact dvd_zero _⟩
  exact hV.2 ((inv_a6 hp h hV.1.toLev1 hU).2 (by rw [h6]; exact dvd_zero _))

theorem core_lev3 (hp : Prime p) (h : Chg V U r 0 t) (h6 : U.a₆ = 0) (h3 : p ∣ U.a₃) (h4 : p ∣ U.a₄) (hV : Lev2 p V) : Lev3 p U := by
  have hU : Lev1 p U := ⟨h3, h4, by rw [h6]; exact dvd_zero _⟩
  exact ⟨⟨hU, (inv_b2 hp h hV.toLev1 hU).1 hV.b2⟩, by rw [h6]; exact dvd_zero _⟩

theorem core_III (hp : Prime p) (h : Chg V U r 0 t) (h6 : U.a₆ = 0) (h3 : p ∣ U.a₃) (h4 : p ∣ U.a₄) (hV : Lv p V .III) :
    p ^ 2 ∣ U.b₈ ∧ ¬ p ^ 3 ∣ U.b₈ := by
  have hU := core_lev3 hp h h6 h3 h4 hV.1.toLev2
  refine ⟨?_, fun h8 => hV.2 ((inv_b8 hp h hV.1 hU).2 h8)⟩
  have := Val.of1 h3
  have := Val.of1 h4
  rw [b8_zero h6]
  pv

theorem core_IV (hp : Prime p) (h : Chg V U r 0 t) (h6 : U.a₆ = 0) (h3 : p ∣ U.a₃) (h4 : p ∣ U.a₄) (hV : Lv p V .IV) :
    ¬ p ^ 2 ∣ U.a₃ ∧ p ^ 3 ∣ U.b₈ := by
  have hU := core_lev3 hp h h6 h3 h4 hV.1.toLev2
  have hb8 := (inv_b8 hp h hV.1.toLev3 hU).1 hV.1.b8
  refine ⟨fun h9 => ?_, hb8⟩
  refine hV.2 ((inv_b6 hp h hV.1 ⟨hU, hb8⟩).2 ?_)
  have : Val p U.a₃ 2 := ⟨h9⟩
  unfold b₆
  rw [h6, mul_zero, add_zero]
  pv

/-- the first steps for the types with a star -/
theorem core_star (hp : Prime p) (h : Chg V U r 0 t) (h6 : U.a₆ = 0) (h3 : p ∣ U.a₃) (h4 : p ∣ U.a₄) (hV : Lev5 p V) :
    p ∣ r ∧ p ^ 2 ∣ t ∧ Lev5 p U := by
  have hU : Lev1 p U := ⟨h3, h4, by rw [h6]; exact dvd_zero _⟩
  obtain ⟨hr, ht⟩ := lev1_rt hp h hV.lev4.1.toLev1 hU
  have := Val.of1 hr
  have := Val.of1 hV.a1
  have := Val.of1 hV.a2
  have : Val p V.a₃ 2 := ⟨hV.a3⟩
  have : Val p V.a₄ 2 := ⟨hV.a4⟩
  have : Val p V.a₆ 3 := ⟨hV.a6⟩
  have ht2 : p ^ 2 ∣ t := by
    have := Val.of1 ht
    refine dvd_of_sq hp 1 (n := 3) (by norm_num) ?_
    rw [show t ^ 2 = V.a₆ + r * V.a₄ + r ^ 2 * V.a₂ + r ^ 3 - r * t * V.a₁ - t * V.a₃ by linear_combination eqn0 h h6]
    pv
  have : Val p t 2 := ⟨ht2⟩
  refine ⟨hr, ht2, ?_, ?_, ?_, ?_, by rw [h6]; exact dvd_zero _⟩
  · rw [h.a1]; simpa using hV.a1
  · rw [show U.a₂ = V.a₂ + 3 * r by rw [h.a2]; ring]; pv
  · rw [h.a3]; pv
  · rw [show U.a₄ = V.a₄ + 2 * r * V.a₂ - t * V.a₁ + 3 * r ^ 2 by rw [h.a4]; ring]; pv

/-- the value at a component where the derivative has valuation 2 -/
theorem b8_four (hp : Prime p) (h6 : U.a₆ = 0) (hU : Lev5 p U) (h4 : ¬ p ^ 3 ∣ U.a₄) : p ^ 4 ∣ U.b₈ ∧ ¬ p ^ 5 ∣ U.b₈ := by
  have := Val.of1 hU.a1
  have := Val.of1 hU.a2
  have : Val p U.a₃ 2 := ⟨hU.a3⟩
  have : Val p U.a₄ 2 := ⟨hU.a4⟩
  have hr : p ^ 5 ∣ U.a₂ * U.a₃ ^ 2 - U.a₁ * U.a₃ * U.a₄ := by pv
  rw [b8_zero h6]
  refine ⟨by pv, fun h8 => h4 ?_⟩
  refine dvd_of_sq hp 2 (n := 5) (by norm_num) ?_
  rw [dvd_add_left hr, dvd_neg] at h8
  exact h8

theorem core_I0star (hp : Prime p) (h : Chg V U r 0 t) (h6 : U.a₆ = 0) (h3 : p ∣ U.a₃) (h4 : p ∣ U.a₄) (hV : Lv p V (.Istar 0)) :
    p ^ 2 ∣ U.a₃ ∧ p ^ 4 ∣ U.b₈ ∧ ¬ p ^ 5 ∣ U.b₈ := by
  obtain ⟨hr, ht, hU⟩ := core_star hp h h6 h3 h4 hV.1
  refine ⟨hU.a3, b8_four hp h6 hU fun h9 => ?_⟩
  refine hV.2 ((inv_cubDisc hp h hV.1 hU).2 ?_)
  have := Val.of1 hU.a2
  have : Val p U.a₄ 3 := ⟨h9⟩
  unfold cubDisc
  rw [h6, show U.a₂ ^ 2 * U.a₄ ^ 2 - 4 * U.a₄ ^ 3 - 4 * U.a₂ ^ 3 * 0 - 27 * 0 ^ 2 + 18 * U.a₂ * U.a₄ * 0 =
    U.a₂ ^ 2 * U.a₄ ^ 2 - 4 * U.a₄ ^ 3 by ring]
  pv

theorem core_six (hp : Prime p) (h : Chg V U r 0 t) (h6 : U.a₆ = 0) (h3 : p ∣ U.a₃) (h4 : p ∣ U.a₄) (hV : Lev6 p V) :
    p ^ 2 ∣ r ∧ p ^ 2 ∣ t ∧ Lev6 p U := by
  obtain ⟨hr, ht, hU⟩ := core_star hp h h6 h3 h4 hV.lev5
  have := Val.of1 hV.a1
  have : Val p V.a₂ 2 := ⟨hV.a2⟩
  have : Val p V.a₃ 2 := ⟨hV.a3⟩
  have : Val p V.a₄ 3 := ⟨hV.a4⟩
  have : Val p V.a₆ 4 := ⟨hV.a6⟩
  have : Val p t 2 := ⟨ht⟩
  have hr2 : p ^ 2 ∣ r := by
    have := Val.of1 hr
    refine dvd_of_cube hp ?_
    rw [show r ^ 3 = t ^ 2 + r * t * V.a₁ + t * V.a₃ - V.a₆ - r * V.a₄ - r ^ 2 * V.a₂ by linear_combination -eqn0 h h6]
    pv
  have : Val p r 2 := ⟨hr2⟩
  refine ⟨hr2, ht, hU.a1, ?_, hU.a3, ?_, by rw [h6]; exact dvd_zero _⟩
  · rw [show U.a₂ = V.a₂ + 3 * r by rw [h.a2]; ring]; pv
  · rw [show U.a₄ = V.a₄ + 2 * r * V.a₂ - t * V.a₁ + 3 * r ^ 2 by rw [h.a4]; ring]; pv

theorem core_IVstar (hp : Prime p) (h : Chg V U r 0 t) (h6 : U.a₆ = 0) (h3 : p ∣ U.a₃) (h4 : p ∣ U.a₄) (hV : Lv p V .IVstar) :
    p ^ 2 ∣ U.a₃ ∧ ¬ p ^ 3 ∣ U.a₃ ∧ p ^ 6 ∣ U.b₈ := by
  obtain ⟨hr, ht, hU⟩ := core_six hp h h6 h3 h4 hV.1
  refine ⟨hU.a3, fun h9 => hV.2 ((inv_IVstar hp h hV.1 hU).2 ?_), ?_⟩
  · have : Val p U.a₃ 3 := ⟨h9⟩
    rw [h6, mul_zero, add_zero]; pv
  · have := Val.of1 hU.a1
    have : Val p U.a₂ 2 := ⟨hU.a2⟩
    have : Val p U.a₃ 2 := ⟨hU.a3⟩
    have : Val p U.a₄ 3 := ⟨hU.a4⟩
    rw [b8_zero h6]; pv

theorem core_seven (hp : Prime p) (h : Chg V U r 0 t) (h6 : U.a₆ = 0) (h3 : p ∣ U.a₃) (h4 : p ∣ U.a₄) (hV : Lev7 p V) : Lev7 p U := by
  obtain ⟨hr, ht, hU⟩ := core_six hp h h6 h3 h4 hV.lev6.1
  have := Val.of1 hV.a1
  have : Val p V.a₂ 2 := ⟨hV.a2⟩
  have : Val p V.a₃ 3 := ⟨hV.a3⟩
  have : Val p V.a₄ 3 := ⟨hV.a4⟩
  have : Val p V.a₆ 5 := ⟨hV.a6⟩
  have : Val p r 2 := ⟨hr⟩
  have ht3 : p ^ 3 ∣ t := by
    have : Val p t 2 := ⟨ht⟩
    refine dvd_of_sq hp 2 (n := 5) (by norm_num) ?_
    rw [show t ^ 2 = V.a₆ + r * V.a₄ + r ^ 2 * V.a₂ + r ^ 3 - r * t * V.a₁ - t * V.a₃ by linear_combination eqn0 h h6]
    pv
  have : Val p t 3 := ⟨ht3⟩
  refine ⟨hU.a1, hU.a2, ?_, hU.a4, by rw [h6]; exact dvd_zero _⟩
  rw [h.a3]; pv

theorem core_IIIstar (hp : Prime p) (h : Chg V U r 0 t) (h6 : U.a₆ = 0) (h3 : p ∣ U.a₃) (h4 : p ∣ U.a₄) (hV : Lv p V .IIIstar) :
    p ^ 3 ∣ U.a₃ ∧ p ^ 6 ∣ U.b₈ ∧ ¬ p ^ 7 ∣ U.b₈ := by
  have hU := core_seven hp h h6 h3 h4 hV.1
  have h9 : ¬ p ^ 4 ∣ U.a₄ := fun h9 => hV.2 ((inv_IIIstar hp h hV.1 hU).2 h9)
  have := Val.of1 hU.a1
  have : Val p U.a₂ 2 := ⟨hU.a2⟩
  have : Val p U.a₃ 3 := ⟨hU.a3⟩
  have : Val p U.a₄ 3 := ⟨hU.a4⟩
  have hr : p ^ 7 ∣ U.a₂ * U.a₃ ^ 2 - U.a₁ * U.a₃ * U.a₄ := by pv
  rw [b8_zero h6]
  refine ⟨hU.a3, by pv, fun h8 => h9 (dvd_of_sq hp 3 (n := 7) (by norm_num) ?_)⟩
  rw [dvd_add_left hr, dvd_neg] at h8
  exact h8

theorem core_IIstar (hp : Prime p) (h : Chg V U r 0 t) (h6 : U.a₆ = 0) (h3 : p ∣ U.a₃) (h4 : p ∣ U.a₄) (hV : Lv p V .IIstar) : False := by
  have hU := core_seven hp h h6 h3 h4 hV.1
  exact hV.2.2 ((inv_IIstar hp h hV.1 hU hV.2.1).2 (by rw [h6]; exact dvd_zero _))

/-- for `I*m` and a point on a far component the equation at the point is again of this form -/
theorem star_level (hp : Prime p) (h : Chg V U r 0 t) (h6 : U.a₆ = 0) (hr : p ^ 2 ∣ r) (ht : p ^ 2 ∣ t) :
    ∀ m, StarLev p V (m + 1) → StarLev p U (m + 1) := by
  intro m
  induction m with
  | zero =>
    intro hV
    have := Val.of1 hV.a1
    have := Val.of1 hV.a2
    have : Val p V.a₃ 2 := ⟨hV.a3⟩
    have : Val p V.a₄ 3 := ⟨hV.a4⟩
    have : Val p r 2 := ⟨hr⟩
    have : Val p t 2 := ⟨ht⟩
    have e2 : U.a₂ = V.a₂ + 3 * r := by rw [h.a2]; ring
    refine ⟨?_, ?_, ?_, ?_, ?_, by rw [h6]; exact dvd_zero _⟩
    · rw [h.a1]; simpa using hV.a1
    · rw [e2]; pv
    · rw [e2, dvd_add_left (by pv)]; exact hV.a2'
    · rw [h.a3]; pv
    · rw [show U.a₄ = V.a₄ + 2 * r * V.a₂ - t * V.a₁ + 3 * r ^ 2 by rw [h.a4]; ring]; pv
  | succ m ih =>
    intro hV
    have hU := ih hV.pred
    obtain ⟨hr, -, ht⟩ := star_rst hp h (m := m + 1) (by omega) hV.pred hU
    have := Val.of1 hV.a1
    have := Val.of1 hV.a2
    have : Val p V.a₃ ((m + 2 + 4) / 2) := ⟨hV.a3⟩
    have : Val p V.a₄ ((m + 2 + 5) / 2) := ⟨hV.a4⟩
    have : Val p V.a₆ (m + 2 + 3) := ⟨hV.a6⟩
    have key : p ^ ((m + 5) / 2) ∣ r ∧ p ^ ((m + 6) / 2) ∣ t := by
      have : Val p r ((m + 1 + 3) / 2) := ⟨hr⟩
      have : Val p t ((m + 1 + 4) / 2) := ⟨ht⟩
      rcases Nat.even_or_odd' m with ⟨k, rfl | rfl⟩
      · refine ⟨(pow_dvd_pow p (by omega)).trans hr, ?_⟩
        have : p ^ (2 * k + 5) ∣ t ^ 2 := by
          rw [show t ^ 2 = V.a₆ + r * V.a₄ + r ^ 2 * V.a₂ + r ^ 3 - r * t * V.a₁ - t * V.a₃ by linear_combination eqn0 h h6]
          pv
        exact (pow_dvd_pow p (by omega)).trans (dvd_of_sq hp (k + 2) (by omega) this)
      · refine ⟨?_, (pow_dvd_pow p (by omega)).trans ht⟩
        obtain ⟨b, hb⟩ := hV.a2
        have hb' : ¬ p ∣ b := by
          rintro ⟨c, rfl⟩
          exact hV.a2' ⟨c, by rw [hb]; ring⟩
        have h6' : p ^ (2 * k + 6) ∣ p * (r ^ 2 * b) := by
          rw [show p * (r ^ 2 * b) = t ^ 2 + r * t * V.a₁ + t * V.a₃ - V.a₆ - r * V.a₄ - r ^ 3 by
            linear_combination -r ^ 2 * hb - eqn0 h h6]
          pv
        have h5 : p ^ (2 * k + 5) ∣ r ^ 2 * b := by
          rw [pow_succ'] at h6'
          exact (mul_dvd_mul_iff_left hp.ne_zero).1 h6'
        have h4 : p ^ (2 * k + 5) ∣ r ^ 2 := hp.pow_dvd_of_dvd_mul_right _ hb' h5
        exact (pow_dvd_pow p (by omega)).trans (dvd_of_sq hp (k + 2) (by omega) h4)
    have : Val p r ((m + 5) / 2) := ⟨key.1⟩
    have : Val p t ((m + 6) / 2) := ⟨key.2⟩
    refine ⟨hU.a1, hU.a2, hU.a2', ?_, ?_, by rw [h6]; exact dvd_zero _⟩
    · rw [h.a3]; pv
    · rw [show U.a₄ = V.a₄ + 2 * r * V.a₂ - t * V.a₁ + 3 * r ^ 2 by rw [h.a4]; ring]; pv

theorem core_Istar (hp : Prime p) (h : Chg V U r 0 t) (h6 : U.a₆ = 0) (h3 : p ∣ U.a₃) (h4 : p ∣ U.a₄) (m : ℕ)
    (hV : Lv p V (.Istar (m + 1))) :
    (p ^ 2 ∣ U.a₃ ∧ p ^ 4 ∣ U.b₈ ∧ ¬ p ^ 5 ∣ U.b₈) ∨ (p ^ ((m + 5) / 2) ∣ U.a₃ ∧ p ^ (m + 5) ∣ U.b₈ ∧ ¬ p ^ (m + 6) ∣ U.b₈) := by
  obtain ⟨hr, ht, hU⟩ := core_star hp h h6 h3 h4 (hV.1.lev5 (by omega))
  by_cases hr2 : p ^ 2 ∣ r
  · right
    have hS := star_level hp h h6 hr2 ht m hV.1
    have := Val.of1 hS.a1
    have := Val.of1 hS.a2
    have : Val p U.a₃ ((m + 1 + 4) / 2) := ⟨hS.a3⟩
    have : Val p U.a₄ ((m + 1 + 5) / 2) := ⟨hS.a4⟩
    refine ⟨(pow_dvd_pow p (by omega)).trans hS.a3, ?_⟩
    have hv := hV.2
    split at hv
    · rename_i hm
      have hn : ¬ p ^ (m + 5) ∣ U.a₃ ^ 2 := by
        have := hv
        rw [inv_star_odd hp h hm hV.1 hS, h6, mul_zero, add_zero] at this
        exact this
      rw [show U.b₈ = U.a₂ * U.a₃ ^ 2 + (-(U.a₄ ^ 2) - U.a₁ * U.a₃ * U.a₄) by rw [b8_zero h6]; ring]
      have hrest : p ^ (m + 6) ∣ -(U.a₄ ^ 2) - U.a₁ * U.a₃ * U.a₄ := by pv
      refine ⟨by pv, fun h8 => hn ?_⟩
      rw [dvd_add_left hrest] at h8
      obtain ⟨b, hb⟩ := hS.a2
      have hb' : ¬ p ∣ b := by
        rintro ⟨c, rfl⟩
        exact hS.a2' ⟨c, by rw [hb]; ring⟩
      rw [show U.a₂ * U.a₃ ^ 2 = p * (U.a₃ ^ 2 * b) by rw [hb]; ring, pow_succ'] at h8
      exact hp.pow_dvd_of_dvd_mul_right _ hb' ((mul_dvd_mul_iff_left hp.ne_zero).1 h8)
    · rename_i hm
      have hn : ¬ p ^ (m + 6) ∣ U.a₄ ^ 2 := by
        have := hv
        rw [inv_star_even hp h (by omega) (by omega) hV.1 hS, h6, mul_zero, sub_zero] at this
        exact this
      have hrest : p ^ (m + 6) ∣ U.a₂ * U.a₃ ^ 2 - U.a₁ * U.a₃ * U.a₄ := by pv
      rw [b8_zero h6]
      refine ⟨by pv, fun h8 => hn ?_⟩
      rw [dvd_add_left hrest, dvd_neg] at h8
      exact h8
  · left
    have := Val.of1 hV.1.a1
    have : Val p V.a₃ 2 := ⟨(pow_dvd_pow p (by omega)).trans hV.1.a3⟩
    have : Val p V.a₄ 3 := ⟨(pow_dvd_pow p (by omega)).trans hV.1.a4⟩
    have : Val p V.a₆ 4 := ⟨(pow_dvd_pow p (by omega)).trans hV.1.a6⟩
    have : Val p t 2 := ⟨ht⟩
    have := Val.of1 hr
    refine ⟨hU.a3, b8_four hp h6 hU fun h9 => hr2 ?_⟩
    have e1 : p ^ 4 ∣ r ^ 2 * (V.a₂ + r) := by
      rw [show r ^ 2 * (V.a₂ + r) = t ^ 2 + r * t * V.a₁ + t * V.a₃ - V.a₆ - r * V.a₄ by linear_combination -eqn0 h h6]
      pv
    have e2 : p ^ 3 ∣ r * (2 * V.a₂ + 3 * r) := by
      rw [show r * (2 * V.a₂ + 3 * r) = U.a₄ - V.a₄ + t * V.a₁ by rw [h.a4]; ring]
      have : Val p U.a₄ 3 := ⟨h9⟩
      pv
    have e3 : p ^ 4 ∣ r ^ 3 := by
      have : Val p (r * (2 * V.a₂ + 3 * r)) 3 := ⟨e2⟩
      have : Val p (r ^ 2 * (V.a₂ + r)) 4 := ⟨e1⟩
      rw [show r ^ 3 = r * (r * (2 * V.a₂ + 3 * r)) - 2 * (r ^ 2 * (V.a₂ + r)) by ring]
      pv
    exact dvd_of_cube hp e3

/-- multiplicative reduction: if `a3` is divisible by more than half of the discriminant then the valuation of the discriminant is
even -/
theorem core_I (hp : Prime p) (h6 : U.a₆ = 0) (h3 : p ∣ U.a₃) (h4 : p ∣ U.a₄) (hc : ¬ p ∣ U.c₄) {N k : ℕ} (hN : p ^ N ∣ U.Δ)
    (hN' : ¬ p ^ (N + 1) ∣ U.Δ) (hk : p ^ k ∣ U.a₃) (hlt : N < 2 * k) : Even N := by
  have hb4 : p ∣ U.b₄ := by
    have := Val.of1 h3
    have := Val.of1 h4
    unfold b₄; pv
  have hb2 : ¬ p ∣ U.b₂ := by
    intro hb
    apply hc
    have := Val.of1 hb
    have := Val.of1 hb4
    unfold c₄; pv
  have : Val p U.a₃ k := ⟨hk⟩
  have hk1 : 1 ≤ k := by omega
  have hD : U.Δ = U.b₂ ^ 2 * U.a₄ ^ 2 - 8 * (2 * U.a₄ + U.a₁ * U.a₃) ^ 3 +
      (-U.b₂ ^ 2 * (U.a₂ * U.a₃ ^ 2 - U.a₁ * U.a₃ * U.a₄) - 27 * U.a₃ ^ 4 + 9 * U.b₂ * (2 * U.a₄ + U.a₁ * U.a₃) * U.a₃ ^ 2) := by
    unfold Δ; rw [b8_zero h6]; unfold b₄ b₆; rw [h6]; ring
  by_cases hz : p ^ k ∣ U.a₄
  · exfalso
    have : Val p U.a₄ k := ⟨hz⟩
    apply hN'
    refine (pow_dvd_pow p (show N + 1 ≤ 2 * k by omega)).trans ?_
    rw [hD]; pv
  · -- the valuation of `a4`
    obtain ⟨j, hj1, hj2⟩ : ∃ j, p ^ j ∣ U.a₄ ∧ ¬ p ^ (j + 1) ∣ U.a₄ := by
      by_contra hh
      push Not at hh
      have : ∀ j, p ^ j ∣ U.a₄ := fun j => by
        induction j with
        | zero => simp
        | succ j ih => exact hh j ih
      exact hz (this k)
    have hjk : j < k := by
      by_contra hlt'
      exact hz ((pow_dvd_pow p (by omega)).trans hj1)
    have hj0 : 1 ≤ j := by
      by_contra hlt'
      have : j = 0 := by omega
      subst this
      exact hj2 (by simpa using h4)
    have : Val p U.a₄ j := ⟨hj1⟩
    have hd1 : p ^ (2 * j) ∣ U.Δ := by rw [hD]; pv
    have hd2 : ¬ p ^ (2 * j + 1) ∣ U.Δ := by
      intro hd
      apply hj2
      refine dvd_of_sq hp j (n := 2 * j + 1) le_rfl ?_
      have h7 : p ^ (2 * j + 1) ∣ U.a₄ ^ 2 * U.b₂ ^ 2 := by
        rw [show U.a₄ ^ 2 * U.b₂ ^ 2 = U.Δ + 8 * (2 * U.a₄ + U.a₁ * U.a₃) ^ 3 -
          (-U.b₂ ^ 2 * (U.a₂ * U.a₃ ^ 2 - U.a₁ * U.a₃ * U.a₄) - 27 * U.a₃ ^ 4 + 9 * U.b₂ * (2 * U.a₄ + U.a₁ * U.a₃) * U.a₃ ^ 2) by
            rw [hD]; ring]
        have : Val p U.Δ (2 * j + 1) := ⟨hd⟩
        pv
      exact hp.pow_dvd_of_dvd_mul_right _ (fun hh => hb2 (hp.dvd_of_dvd_pow hh)) h7
    have : N = 2 * j := by
      apply le_antisymm
      · by_contra hlt'
        exact hd2 ((pow_dvd_pow p (by omega)).trans hN)
      · by_contra hlt'
        exact hN' ((pow_dvd_pow p (by omega)).trans hd1)
    exact ⟨j, by omega⟩

end Eclib.Lambda
