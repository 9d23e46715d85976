import Verif.Tate.TypeSpec
import Verif.Tate.Dvd

/-!
# An equation has at most one reduction type
-/

namespace Eclib.Tate

open WeierstrassCurve

/-- the equations of a change of coordinates -/
structure Chg (W V : WeierstrassCurve ℤ) (r s t : ℤ) : Prop where
  a1 : V.a₁ = W.a₁ + 2 * s
  a2 : V.a₂ = W.a₂ - s * W.a₁ + 3 * r - s ^ 2
  a3 : V.a₃ = W.a₃ + r * W.a₁ + 2 * t
  a4 : V.a₄ = W.a₄ - s * W.a₃ + 2 * r * W.a₂ - (t + r * s) * W.a₁ + 3 * r ^ 2 - 2 * s * t
  a6 : V.a₆ = W.a₆ + r * W.a₄ + r ^ 2 * W.a₂ + r ^ 3 - t * W.a₃ - t ^ 2 - r * t * W.a₁

theorem chg_of (W : WeierstrassCurve ℤ) (r s t : ℤ) : Chg W ((⟨1, r, s, t⟩ : VariableChange ℤ) • W) r s t := by
  constructor <;> simp [variableChange_def]

theorem sim_iff {W V : WeierstrassCurve ℤ} : Sim W V ↔ ∃ r s t, Chg W V r s t := by
  constructor
  · rintro ⟨r, s, t, rfl⟩
    exact ⟨r, s, t, chg_of W r s t⟩
  · rintro ⟨r, s, t, h⟩
    refine ⟨r, s, t, ?_⟩
    have h' := chg_of W r s t
    ext
    · rw [h.a1, h'.a1]
    · rw [h.a2, h'.a2]
    · rw [h.a3, h'.a3]
    · rw [h.a4, h'.a4]
    · rw [h.a6, h'.a6]

theorem Chg.symm {W V : WeierstrassCurve ℤ} {r s t : ℤ} (h : Chg W V r s t) :
    Chg V W (-r) (-s) (r * s - t) := by
  constructor <;> simp only [h.a1, h.a2, h.a3, h.a4, h.a6] <;> ring

theorem Chg.trans {W V U : WeierstrassCurve ℤ} {r s t r' s' t' : ℤ} (h : Chg W V r s t)
    (h' : Chg V U r' s' t') : Chg W U (r + r') (s + s') (t + t' + s * r') := by
  constructor <;> simp only [h'.a1, h'.a2, h'.a3, h'.a4, h'.a6, h.a1, h.a2, h.a3, h.a4, h.a6] <;> ring

theorem Sim.symm {W V : WeierstrassCurve ℤ} (h : Sim W V) : Sim V W := by
  obtain ⟨r, s, t, h⟩ := sim_iff.1 h
  exact sim_iff.2 ⟨_, _, _, h.symm⟩

theorem Sim.trans {W V U : WeierstrassCurve ℤ} (h : Sim W V) (h' : Sim V U) : Sim W U := by
  obtain ⟨r, s, t, h⟩ := sim_iff.1 h
  obtain ⟨r', s', t', h'⟩ := sim_iff.1 h'
  exact sim_iff.2 ⟨_, _, _, h.trans h'⟩

theorem Sim.refl (W : WeierstrassCurve ℤ) : Sim W W :=
  sim_iff.2 ⟨0, 0, 0, by constructor <;> ring⟩

theorem Chg.b2 {W V : WeierstrassCurve ℤ} {r s t : ℤ} (h : Chg W V r s t) : V.b₂ = W.b₂ + 12 * r := by
  simp only [b₂, h.a1, h.a2]; ring

theorem Chg.b4 {W V : WeierstrassCurve ℤ} {r s t : ℤ} (h : Chg W V r s t) :
    V.b₄ = W.b₄ + r * W.b₂ + 6 * r ^ 2 := by
  simp only [b₂, b₄, h.a1, h.a3, h.a4]; ring

theorem Chg.b6 {W V : WeierstrassCurve ℤ} {r s t : ℤ} (h : Chg W V r s t) :
    V.b₆ = W.b₆ + 2 * r * W.b₄ + r ^ 2 * W.b₂ + 4 * r ^ 3 := by
  simp only [b₂, b₄, b₆, h.a3, h.a6]; ring

theorem Chg.b8 {W V : WeierstrassCurve ℤ} {r s t : ℤ} (h : Chg W V r s t) :
    V.b₈ = W.b₈ + 3 * r * W.b₆ + 3 * r ^ 2 * W.b₄ + r ^ 3 * W.b₂ + 3 * r ^ 4 := by
  simp only [b₂, b₄, b₆, b₈, h.a1, h.a2, h.a3, h.a4, h.a6]; ring

theorem Chg.c4 {W V : WeierstrassCurve ℤ} {r s t : ℤ} (h : Chg W V r s t) : V.c₄ = W.c₄ := by
  simp only [c₄, h.b2, h.b4]; ring

theorem Chg.c6 {W V : WeierstrassCurve ℤ} {r s t : ℤ} (h : Chg W V r s t) : V.c₆ = W.c₆ := by
  simp only [c₆, h.b2, h.b4, h.b6]; ring

theorem Chg.disc {W V : WeierstrassCurve ℤ} {r s t : ℤ} (h : Chg W V r s t) : V.Δ = W.Δ := by
  simp only [Δ, b₂, b₄, b₆, b₈, h.a1, h.a2, h.a3, h.a4, h.a6]; ring

/-! ### the levels of the algorithm -/

variable {p : ℤ} {W V : WeierstrassCurve ℤ} {r s t : ℤ}

/-- the singular point is at the origin -/
structure Lev1 (p : ℤ) (W : WeierstrassCurve ℤ) : Prop where
  a3 : p ∣ W.a₃
  a4 : p ∣ W.a₄
  a6 : p ∣ W.a₆

theorem lev1_rt (hp : Prime p) (h : Chg W V r s t) (hW : Lev1 p W) (hV : Lev1 p V) : p ∣ r ∧ p ∣ t := by
  have := Val.of1 hW.a3
  have := Val.of1 hW.a4
  have := Val.of1 hW.a6
  have := Val.of1 hV.a3
  have := Val.of1 hV.a4
  have := Val.of1 hV.a6
  have hr : p ∣ r := by
    have : p ∣ r ^ 3 := by
      rw [show r ^ 3 = 2 * W.a₆ + r * W.a₄ - t * W.a₃ + (r * s - t) * V.a₃ - 2 * V.a₆ + r * V.a₄ by
        rw [h.a3, h.a4, h.a6]; ring]
      pv
    exact hp.dvd_of_dvd_pow this
  have := Val.of1 hr
  refine ⟨hr, ?_⟩
  have : p ∣ t ^ 2 := by
    rw [show t ^ 2 = W.a₆ + r * W.a₄ + r ^ 2 * W.a₂ + r ^ 3 - t * W.a₃ - r * t * W.a₁ - V.a₆ by
      rw [h.a6]; ring]
    pv
  exact hp.dvd_of_dvd_pow this

theorem Lev1.b4 (h : Lev1 p W) : p ∣ W.b₄ := by
  have := Val.of1 h.a3
  have := Val.of1 h.a4
  unfold b₄; pv

theorem Lev1.b6 (h : Lev1 p W) : p ∣ W.b₆ := by
  have := Val.of1 h.a3
  have := Val.of1 h.a6
  unfold b₆; pv

theorem Lev1.disc (h : Lev1 p W) : p ∣ W.Δ := by
  have := Val.of1 h.b4
  have := Val.of1 h.b6
  have := Val.of1 h.a3
  have := Val.of1 h.a4
  have := Val.of1 h.a6
  have : p ∣ W.b₈ := by unfold b₈; pv
  have := Val.of1 this
  unfold Δ; pv

theorem inv_b2 (hp : Prime p) (h : Chg W V r s t) (hW : Lev1 p W) (hV : Lev1 p V) :
    p ∣ W.b₂ ↔ p ∣ V.b₂ := by
  have hr := (lev1_rt hp h hW hV).1
  have := Val.of1 hr
  rw [h.b2]
  exact (dvd_add_left (by pv)).symm

/-- additive reduction -/
structure Lev2 (p : ℤ) (W : WeierstrassCurve ℤ) : Prop extends Lev1 p W where
  b2 : p ∣ W.b₂

theorem inv_a6 (hp : Prime p) (h : Chg W V r s t) (hW : Lev1 p W) (hV : Lev1 p V) :
    p ^ 2 ∣ W.a₆ ↔ p ^ 2 ∣ V.a₆ := by
  obtain ⟨hr, ht⟩ := lev1_rt hp h hW hV
  have := Val.of1 hr
  have := Val.of1 ht
  have := Val.of1 hW.a3
  have := Val.of1 hW.a4
  rw [show V.a₆ = W.a₆ + (r * W.a₄ + r ^ 2 * W.a₂ + r ^ 3 - t * W.a₃ - t ^ 2 - r * t * W.a₁) by
    rw [h.a6]; ring]
  exact (dvd_add_left (by pv)).symm

/-- not of type II -/
structure Lev3 (p : ℤ) (W : WeierstrassCurve ℤ) : Prop extends Lev2 p W where
  a6' : p ^ 2 ∣ W.a₆

theorem Lev3.b6' (h : Lev3 p W) : p ^ 2 ∣ W.b₆ := by
  have := Val.of1 h.a3
  have : Val p W.a₆ 2 := ⟨h.a6'⟩
  unfold b₆; pv

theorem inv_b8 (hp : Prime p) (h : Chg W V r s t) (hW : Lev3 p W) (hV : Lev3 p V) :
    p ^ 3 ∣ W.b₈ ↔ p ^ 3 ∣ V.b₈ := by
  obtain ⟨hr, ht⟩ := lev1_rt hp h hW.toLev1 hV.toLev1
  have := Val.of1 hr
  have := Val.of1 hW.b2
  have := Val.of1 hW.b4
  have : Val p W.b₆ 2 := ⟨hW.b6'⟩
  rw [show V.b₈ = W.b₈ + (3 * r * W.b₆ + 3 * r ^ 2 * W.b₄ + r ^ 3 * W.b₂ + 3 * r ^ 4) by
    rw [h.b8]; ring]
  exact (dvd_add_left (by pv)).symm

/-- not of type III -/
structure Lev4 (p : ℤ) (W : WeierstrassCurve ℤ) : Prop extends Lev3 p W where
  b8 : p ^ 3 ∣ W.b₈

theorem Lev4.b4' (hp : Prime p) (h : Lev4 p W) : p ^ 2 ∣ W.b₄ := by
  have := Val.of1 h.b2
  have : Val p W.b₆ 2 := ⟨h.b6'⟩
  have : Val p W.b₈ 3 := ⟨h.b8⟩
  have h3 : p ^ 3 ∣ W.b₄ ^ 2 := by
    rw [show W.b₄ ^ 2 = W.b₂ * W.b₆ - 4 * W.b₈ by unfold b₂ b₄ b₆ b₈; ring]
    pv
  exact dvd_of_sq hp 1 (by norm_num) h3

theorem inv_b6 (hp : Prime p) (h : Chg W V r s t) (hW : Lev4 p W) (hV : Lev4 p V) :
    p ^ 3 ∣ W.b₆ ↔ p ^ 3 ∣ V.b₆ := by
  obtain ⟨hr, ht⟩ := lev1_rt hp h hW.toLev1 hV.toLev1
  have := Val.of1 hr
  have := Val.of1 hW.b2
  have : Val p W.b₄ 2 := ⟨hW.b4' hp⟩
  rw [show V.b₆ = W.b₆ + (2 * r * W.b₄ + r ^ 2 * W.b₂ + 4 * r ^ 3) by rw [h.b6]; ring]
  exact (dvd_add_left (by pv)).symm

/-- not of type IV -/
structure Lev5 (p : ℤ) (W : WeierstrassCurve ℤ) : Prop where
  a1 : p ∣ W.a₁
  a2 : p ∣ W.a₂
  a3 : p ^ 2 ∣ W.a₃
  a4 : p ^ 2 ∣ W.a₄
  a6 : p ^ 3 ∣ W.a₆

theorem Lev5.lev4 (h : Lev5 p W) : Lev4 p W ∧ p ^ 3 ∣ W.b₆ := by
  have := Val.of1 h.a1
  have := Val.of1 h.a2
  have : Val p W.a₃ 2 := ⟨h.a3⟩
  have : Val p W.a₄ 2 := ⟨h.a4⟩
  have : Val p W.a₆ 3 := ⟨h.a6⟩
  refine ⟨⟨⟨⟨⟨?_, ?_, ?_⟩, ?_⟩, ?_⟩, ?_⟩, ?_⟩
  · pv
  · pv
  · pv
  · unfold b₂; pv
  · pv
  · unfold b₈; pv
  · unfold b₆; pv

theorem lev5_rst (hp : Prime p) (h : Chg W V r s t) (hW : Lev5 p W) (hV : Lev5 p V) :
    p ∣ r ∧ p ∣ s ∧ p ^ 2 ∣ t := by
  obtain ⟨hr, ht⟩ := lev1_rt hp h hW.lev4.1.toLev1 hV.lev4.1.toLev1
  have := Val.of1 hW.a1
  have := Val.of1 hW.a2
  have := Val.of1 hV.a2
  have : Val p W.a₃ 2 := ⟨hW.a3⟩
  have : Val p W.a₄ 2 := ⟨hW.a4⟩
  have : Val p W.a₆ 3 := ⟨hW.a6⟩
  have : Val p V.a₆ 3 := ⟨hV.a6⟩
  have := Val.of1 hr
  have := Val.of1 ht
  refine ⟨hr, ?_, ?_⟩
  · have : p ∣ s ^ 2 := by
      rw [show s ^ 2 = W.a₂ - s * W.a₁ + 3 * r - V.a₂ by rw [h.a2]; ring]
      pv
    exact hp.dvd_of_dvd_pow this
  · have : p ^ 3 ∣ t ^ 2 := by
      rw [show t ^ 2 = W.a₆ + r * W.a₄ + r ^ 2 * W.a₂ + r ^ 3 - t * W.a₃ - r * t * W.a₁ - V.a₆ by
        rw [h.a6]; ring]
      pv
    exact dvd_of_sq hp 1 (by norm_num) this

/-- the coefficients of the cubic after the change -/
theorem lev5_cubic (hp : Prime p) (h : Chg W V r s t) (hW : Lev5 p W) (hV : Lev5 p V) :
    p ^ 2 ∣ V.a₂ - (W.a₂ + 3 * r) ∧ p ^ 3 ∣ V.a₄ - (W.a₄ + 2 * r * W.a₂ + 3 * r ^ 2) ∧
    p ^ 4 ∣ V.a₆ - (W.a₆ + r * W.a₄ + r ^ 2 * W.a₂ + r ^ 3) := by
  obtain ⟨hr, hs, ht⟩ := lev5_rst hp h hW hV
  have := Val.of1 hr
  have := Val.of1 hs
  have : Val p t 2 := ⟨ht⟩
  have := Val.of1 hW.a1
  have : Val p W.a₃ 2 := ⟨hW.a3⟩
  refine ⟨?_, ?_, ?_⟩
  · rw [show V.a₂ - (W.a₂ + 3 * r) = -s * W.a₁ - s ^ 2 by rw [h.a2]; ring]; pv
  · rw [show V.a₄ - (W.a₄ + 2 * r * W.a₂ + 3 * r ^ 2) = -s * W.a₃ - (t + r * s) * W.a₁ - 2 * s * t by
      rw [h.a4]; ring]
    pv
  · rw [show V.a₆ - (W.a₆ + r * W.a₄ + r ^ 2 * W.a₂ + r ^ 3) = -t * W.a₃ - t ^ 2 - r * t * W.a₁ by
      rw [h.a6]; ring]
    pv

theorem inv_cubDisc (hp : Prime p) (h : Chg W V r s t) (hW : Lev5 p W) (hV : Lev5 p V) :
    p ^ 7 ∣ cubDisc W ↔ p ^ 7 ∣ cubDisc V := by
  obtain ⟨hr, hs, ht⟩ := lev5_rst hp h hW hV
  obtain ⟨⟨x, hx⟩, ⟨y, hy⟩, ⟨z, hz⟩⟩ := lev5_cubic hp h hW hV
  obtain ⟨r, rfl⟩ := hr
  obtain ⟨b, hb⟩ := hW.a2
  obtain ⟨c, hc⟩ := hW.a4
  obtain ⟨d, hd⟩ := hW.a6
  have e2 : V.a₂ = p * (b + 3 * r + p * x) := by linear_combination hx + hb
  have e4 : V.a₄ = p ^ 2 * (c + 2 * r * b + 3 * r ^ 2 + p * y) := by
    linear_combination hy + hc + 2 * p * r * hb
  have e6 : V.a₆ = p ^ 3 * (d + r * c + r ^ 2 * b + r ^ 3 + p * z) := by
    linear_combination hz + hd + p * r * hc + p ^ 2 * r ^ 2 * hb
  have hW' : cubDisc W = p ^ 6 * (b ^ 2 * c ^ 2 - 4 * c ^ 3 - 4 * b ^ 3 * d - 27 * d ^ 2 + 18 * b * c * d) := by
    unfold cubDisc; rw [hb, hc, hd]; ring
  -- the discriminant as a function of the coefficients modulo p
  have key : ∀ B C D x y z : ℤ, p ∣
      ((B + p * x) ^ 2 * (C + p * y) ^ 2 - 4 * (C + p * y) ^ 3 - 4 * (B + p * x) ^ 3 * (D + p * z)
        - 27 * (D + p * z) ^ 2 + 18 * (B + p * x) * (C + p * y) * (D + p * z))
      - (B ^ 2 * C ^ 2 - 4 * C ^ 3 - 4 * B ^ 3 * D - 27 * D ^ 2 + 18 * B * C * D) := by
    intro B C D x y z
    have e : ∀ X Y : ℤ, X ≡ Y [ZMOD p] → p ∣ X - Y := fun X Y hXY => hXY.symm.dvd
    apply e
    have hB : B + p * x ≡ B [ZMOD p] := by simp [Int.ModEq]
    have hC : C + p * y ≡ C [ZMOD p] := by simp [Int.ModEq]
    have hD : D + p * z ≡ D [ZMOD p] := by simp [Int.ModEq]
    gcongr
  have hV' : cubDisc V = cubDisc W + p ^ 6 * ((((b + 3 * r) + p * x) ^ 2 * ((c + 2 * r * b + 3 * r ^ 2) + p * y) ^ 2
      - 4 * ((c + 2 * r * b + 3 * r ^ 2) + p * y) ^ 3
      - 4 * ((b + 3 * r) + p * x) ^ 3 * ((d + r * c + r ^ 2 * b + r ^ 3) + p * z)
      - 27 * ((d + r * c + r ^ 2 * b + r ^ 3) + p * z) ^ 2
      + 18 * ((b + 3 * r) + p * x) * ((c + 2 * r * b + 3 * r ^ 2) + p * y) * ((d + r * c + r ^ 2 * b + r ^ 3) + p * z))
      - ((b + 3 * r) ^ 2 * (c + 2 * r * b + 3 * r ^ 2) ^ 2 - 4 * (c + 2 * r * b + 3 * r ^ 2) ^ 3
        - 4 * (b + 3 * r) ^ 3 * (d + r * c + r ^ 2 * b + r ^ 3) - 27 * (d + r * c + r ^ 2 * b + r ^ 3) ^ 2
        + 18 * (b + 3 * r) * (c + 2 * r * b + 3 * r ^ 2) * (d + r * c + r ^ 2 * b + r ^ 3))) := by
    rw [hW']; unfold cubDisc; rw [e2, e4, e6]; ring
  rw [hV']
  refine (dvd_add_left ?_).symm
  rw [pow_succ]
  exact mul_dvd_mul_left _ (key _ _ _ _ _ _)

theorem inv_x (hp : Prime p) (h : Chg W V r s t) (hW : Lev5 p W) (hV : Lev5 p V) :
    p ^ 3 ∣ 3 * W.a₄ - W.a₂ ^ 2 ↔ p ^ 3 ∣ 3 * V.a₄ - V.a₂ ^ 2 := by
  obtain ⟨hr, hs, ht⟩ := lev5_rst hp h hW hV
  have := Val.of1 hr
  have := Val.of1 hs
  have : Val p t 2 := ⟨ht⟩
  have := Val.of1 hW.a1
  have := Val.of1 hW.a2
  have : Val p W.a₃ 2 := ⟨hW.a3⟩
  rw [show 3 * V.a₄ - V.a₂ ^ 2 = 3 * W.a₄ - W.a₂ ^ 2 + (-3 * s * W.a₃ - 3 * (t + r * s) * W.a₁ - 6 * s * t
    + 2 * (W.a₂ + 3 * r) * (s * W.a₁ + s ^ 2) - (s * W.a₁ + s ^ 2) ^ 2) by rw [h.a4, h.a2]; ring]
  exact (dvd_add_left (by pv)).symm

/-! ### types `I*m` -/

theorem StarLev.lev5 {m : ℕ} (hm : 1 ≤ m) (h : StarLev p W m) : Lev5 p W :=
  ⟨h.a1, h.a2, (pow_dvd_pow p (by omega)).trans h.a3, (pow_dvd_pow p (by omega)).trans h.a4,
    (pow_dvd_pow p (by omega)).trans h.a6⟩

theorem StarLev.x {m : ℕ} (hp : Prime p) (hm : 1 ≤ m) (h : StarLev p W m) :
    ¬ p ^ 3 ∣ 3 * W.a₄ - W.a₂ ^ 2 := by
  intro h3
  have : Val p W.a₄ 3 := ⟨(pow_dvd_pow p (by omega)).trans h.a4⟩
  have : Val p (3 * W.a₄ - W.a₂ ^ 2) 3 := ⟨h3⟩
  apply h.a2'
  apply dvd_of_sq hp 1 (n := 3) (by norm_num)
  rw [show W.a₂ ^ 2 = 3 * W.a₄ - (3 * W.a₄ - W.a₂ ^ 2) by ring]
  have h4 : Val p (3 * W.a₄) 3 := ⟨Val.le (by omega)⟩
  exact dvd_sub h4.dvd h3

theorem StarLev.pred {m : ℕ} (h : StarLev p W (m + 1)) : StarLev p W m :=
  ⟨h.a1, h.a2, h.a2', (pow_dvd_pow p (by omega)).trans h.a3, (pow_dvd_pow p (by omega)).trans h.a4,
    (pow_dvd_pow p (by omega)).trans h.a6⟩

/-- for `I*m` the change of coordinates is deeply divisible -/
theorem star_rst (hp : Prime p) (h : Chg W V r s t) : ∀ {m : ℕ}, 1 ≤ m → StarLev p W m → StarLev p V m →
    p ^ ((m + 3) / 2) ∣ r ∧ p ∣ s ∧ p ^ ((m + 4) / 2) ∣ t
  | 0, hm, _, _ => by omega
  | 1, hm, hW, hV => by
    obtain ⟨hr, hs, ht⟩ := lev5_rst hp h (hW.lev5 hm) (hV.lev5 hm)
    refine ⟨?_, hs, ht⟩
    have := Val.of1 hs
    have : Val p t 2 := ⟨ht⟩
    have := Val.of1 hW.a1
    have : Val p W.a₃ 2 := ⟨hW.a3⟩
    have : Val p W.a₄ 3 := ⟨hW.a4⟩
    have : Val p V.a₄ 3 := ⟨hV.a4⟩
    have : Val p W.a₆ 4 := ⟨hW.a6⟩
    have : Val p V.a₆ 4 := ⟨hV.a6⟩
    obtain ⟨b, hb⟩ := hW.a2
    have := Val.of1 hr
    have h4 : p ^ 3 ∣ 2 * r * W.a₂ + 3 * r ^ 2 := by
      rw [show 2 * r * W.a₂ + 3 * r ^ 2 = V.a₄ - W.a₄ + s * W.a₃ + (t + r * s) * W.a₁ + 2 * s * t by
        rw [h.a4]; ring]
      pv
    have h6 : p ^ 4 ∣ r ^ 2 * W.a₂ + r ^ 3 := by
      rw [show r ^ 2 * W.a₂ + r ^ 3 = V.a₆ - W.a₆ - r * W.a₄ + t * W.a₃ + t ^ 2 + r * t * W.a₁ by
        rw [h.a6]; ring]
      pv
    have h7 : p ^ 4 ∣ r ^ 3 := by
      have : Val p (2 * r * W.a₂ + 3 * r ^ 2) 3 := ⟨h4⟩
      have : Val p (r * (2 * r * W.a₂ + 3 * r ^ 2)) 4 := ⟨Val.le (by omega)⟩
      have h8 : p ^ 4 ∣ r * (2 * r * W.a₂ + 3 * r ^ 2) - 2 * (r ^ 2 * W.a₂ + r ^ 3) :=
        dvd_sub this.dvd (h6.mul_left 2)
      rwa [show r * (2 * r * W.a₂ + 3 * r ^ 2) - 2 * (r ^ 2 * W.a₂ + r ^ 3) = r ^ 3 by ring] at h8
    exact dvd_of_cube hp h7
  | m + 2, hm, hW, hV => by
    obtain ⟨hr, hs, ht⟩ := star_rst hp h (m := m + 1) (by omega) hW.pred hV.pred
    have := Val.of1 hs
    have : Val p r ((m + 1 + 3) / 2) := ⟨hr⟩
    have : Val p t ((m + 1 + 4) / 2) := ⟨ht⟩
    have := Val.of1 hW.a1
    have := Val.of1 hW.a2
    have : Val p W.a₃ ((m + 2 + 4) / 2) := ⟨hW.a3⟩
    have : Val p W.a₄ ((m + 2 + 5) / 2) := ⟨hW.a4⟩
    have : Val p W.a₆ (m + 2 + 3) := ⟨hW.a6⟩
    have : Val p V.a₆ (m + 2 + 3) := ⟨hV.a6⟩
    rcases Nat.even_or_odd' m with ⟨k, rfl | rfl⟩
    · -- new level even: `t` improves
      refine ⟨(pow_dvd_pow p (by omega)).trans hr, hs, ?_⟩
      have : p ^ (2 * k + 5) ∣ t ^ 2 := by
        rw [show t ^ 2 = W.a₆ + r * W.a₄ + r ^ 2 * W.a₂ + r ^ 3 - t * W.a₃ - r * t * W.a₁ - V.a₆ by
          rw [h.a6]; ring]
        pv
      have := dvd_of_sq hp (k + 2) (by omega) this
      exact (pow_dvd_pow p (by omega)).trans this
    · -- new level odd: `r` improves
      refine ⟨?_, hs, (pow_dvd_pow p (by omega)).trans ht⟩
      obtain ⟨b, hb⟩ := hW.a2
      have hb' : ¬ p ∣ b := by
        rintro ⟨c, rfl⟩
        exact hW.a2' ⟨c, by rw [hb]; ring⟩
      have h6 : p ^ (2 * k + 6) ∣ p * (r ^ 2 * b) := by
        rw [show p * (r ^ 2 * b) = V.a₆ - W.a₆ - r * W.a₄ - r ^ 3 + t * W.a₃ + t ^ 2 + r * t * W.a₁ by
          rw [h.a6, hb]; ring]
        pv
      have h5 : p ^ (2 * k + 5) ∣ r ^ 2 * b := by
        rw [pow_succ'] at h6
        exact (mul_dvd_mul_iff_left hp.ne_zero).1 h6
      have h4 : p ^ (2 * k + 5) ∣ r ^ 2 := hp.pow_dvd_of_dvd_mul_right _ hb' h5
      have := dvd_of_sq hp (k + 2) (by omega) h4
      exact (pow_dvd_pow p (by omega)).trans this

theorem inv_star_odd (hp : Prime p) (h : Chg W V r s t) {m : ℕ} (hm : m % 2 = 1) (hW : StarLev p W m)
    (hV : StarLev p V m) : p ^ (m + 4) ∣ W.a₃ ^ 2 + 4 * W.a₆ ↔ p ^ (m + 4) ∣ V.a₃ ^ 2 + 4 * V.a₆ := by
  obtain ⟨hr, hs, ht⟩ := star_rst hp h (by omega) hW hV
  have : Val p r ((m + 3) / 2) := ⟨hr⟩
  have := Val.of1 hW.a1
  have := Val.of1 hW.a2
  have : Val p W.a₃ ((m + 4) / 2) := ⟨hW.a3⟩
  have : Val p W.a₄ ((m + 5) / 2) := ⟨hW.a4⟩
  rw [show V.a₃ ^ 2 + 4 * V.a₆ = W.a₃ ^ 2 + 4 * W.a₆ + (2 * r * (2 * W.a₄ + W.a₁ * W.a₃) +
    r ^ 2 * (W.a₁ ^ 2 + 4 * W.a₂) + 4 * r ^ 3) by rw [h.a3, h.a6]; ring]
  exact (dvd_add_left (by pv)).symm

theorem star_b8 {m : ℕ} (hm : m % 2 = 0) (hW : StarLev p W m) :
    p ^ (m + 5) ∣ W.a₄ ^ 2 - 4 * W.a₂ * W.a₆ ↔ p ^ (m + 5) ∣ W.b₈ := by
  have := Val.of1 hW.a1
  have := Val.of1 hW.a2
  have : Val p W.a₃ ((m + 4) / 2) := ⟨hW.a3⟩
  have : Val p W.a₄ ((m + 5) / 2) := ⟨hW.a4⟩
  have : Val p W.a₆ (m + 3) := ⟨hW.a6⟩
  rw [show W.b₈ = -(W.a₄ ^ 2 - 4 * W.a₂ * W.a₆) + (W.a₁ ^ 2 * W.a₆ - W.a₁ * W.a₃ * W.a₄ + W.a₂ * W.a₃ ^ 2) by
    unfold b₈; ring]
  rw [dvd_add_left (by pv), dvd_neg]

theorem inv_star_even (hp : Prime p) (h : Chg W V r s t) {m : ℕ} (hm : m % 2 = 0) (hm1 : 1 ≤ m)
    (hW : StarLev p W m) (hV : StarLev p V m) :
    p ^ (m + 5) ∣ W.a₄ ^ 2 - 4 * W.a₂ * W.a₆ ↔ p ^ (m + 5) ∣ V.a₄ ^ 2 - 4 * V.a₂ * V.a₆ := by
  rw [star_b8 hm hW, star_b8 hm hV]
  obtain ⟨hr, hs, ht⟩ := star_rst hp h (by omega) hW hV
  have : Val p r ((m + 3) / 2) := ⟨hr⟩
  have := Val.of1 hW.a1
  have := Val.of1 hW.a2
  have : Val p W.a₃ ((m + 4) / 2) := ⟨hW.a3⟩
  have : Val p W.a₄ ((m + 5) / 2) := ⟨hW.a4⟩
  have : Val p W.a₆ (m + 3) := ⟨hW.a6⟩
  rw [show V.b₈ = W.b₈ + (3 * r * (W.a₃ ^ 2 + 4 * W.a₆) + 3 * r ^ 2 * (2 * W.a₄ + W.a₁ * W.a₃) +
    r ^ 3 * (W.a₁ ^ 2 + 4 * W.a₂) + 3 * r ^ 4) by rw [h.b8]; unfold b₆ b₄ b₂; ring]
  exact (dvd_add_left (by pv)).symm

/-! ### types IV*, III*, II* -/

/-- triple root at the origin -/
structure Lev6 (p : ℤ) (W : WeierstrassCurve ℤ) : Prop where
  a1 : p ∣ W.a₁
  a2 : p ^ 2 ∣ W.a₂
  a3 : p ^ 2 ∣ W.a₃
  a4 : p ^ 3 ∣ W.a₄
  a6 : p ^ 4 ∣ W.a₆

theorem Lev6.lev5 (h : Lev6 p W) : Lev5 p W :=
  ⟨h.a1, (dvd_pow_self p (by norm_num)).trans h.a2, h.a3, (pow_dvd_pow p (by norm_num)).trans h.a4,
    (pow_dvd_pow p (by norm_num)).trans h.a6⟩

theorem Lev6.x (h : Lev6 p W) : p ^ 3 ∣ 3 * W.a₄ - W.a₂ ^ 2 := by
  have : Val p W.a₂ 2 := ⟨h.a2⟩
  have : Val p W.a₄ 3 := ⟨h.a4⟩
  pv

theorem lev6_rst (hp : Prime p) (h : Chg W V r s t) (hW : Lev6 p W) (hV : Lev6 p V) :
    p ^ 2 ∣ r ∧ p ∣ s ∧ p ^ 2 ∣ t := by
  obtain ⟨hr, hs, ht⟩ := lev5_rst hp h hW.lev5 hV.lev5
  refine ⟨dvd_of_cube hp ?_, hs, ht⟩
  have := Val.of1 hr
  have : Val p t 2 := ⟨ht⟩
  have := Val.of1 hW.a1
  have : Val p W.a₂ 2 := ⟨hW.a2⟩
  have : Val p W.a₃ 2 := ⟨hW.a3⟩
  have : Val p W.a₄ 3 := ⟨hW.a4⟩
  have : Val p W.a₆ 4 := ⟨hW.a6⟩
  have : Val p V.a₆ 4 := ⟨hV.a6⟩
  rw [show r ^ 3 = V.a₆ - W.a₆ - r * W.a₄ - r ^ 2 * W.a₂ + t * W.a₃ + t ^ 2 + r * t * W.a₁ by
    rw [h.a6]; ring]
  pv

theorem inv_IVstar (hp : Prime p) (h : Chg W V r s t) (hW : Lev6 p W) (hV : Lev6 p V) :
    p ^ 5 ∣ W.a₃ ^ 2 + 4 * W.a₆ ↔ p ^ 5 ∣ V.a₃ ^ 2 + 4 * V.a₆ := by
  obtain ⟨hr, hs, ht⟩ := lev6_rst hp h hW hV
  have : Val p r 2 := ⟨hr⟩
  have := Val.of1 hW.a1
  have : Val p W.a₂ 2 := ⟨hW.a2⟩
  have : Val p W.a₃ 2 := ⟨hW.a3⟩
  have : Val p W.a₄ 3 := ⟨hW.a4⟩
  rw [show V.a₃ ^ 2 + 4 * V.a₆ = W.a₃ ^ 2 + 4 * W.a₆ + (2 * r * (2 * W.a₄ + W.a₁ * W.a₃) +
    r ^ 2 * (W.a₁ ^ 2 + 4 * W.a₂) + 4 * r ^ 3) by rw [h.a3, h.a6]; ring]
  exact (dvd_add_left (by pv)).symm

/-- not of type IV* -/
structure Lev7 (p : ℤ) (W : WeierstrassCurve ℤ) : Prop where
  a1 : p ∣ W.a₁
  a2 : p ^ 2 ∣ W.a₂
  a3 : p ^ 3 ∣ W.a₃
  a4 : p ^ 3 ∣ W.a₄
  a6 : p ^ 5 ∣ W.a₆

theorem Lev7.lev6 (h : Lev7 p W) : Lev6 p W ∧ p ^ 5 ∣ W.a₃ ^ 2 + 4 * W.a₆ := by
  refine ⟨⟨h.a1, h.a2, (pow_dvd_pow p (by norm_num)).trans h.a3, h.a4,
    (pow_dvd_pow p (by norm_num)).trans h.a6⟩, ?_⟩
  have : Val p W.a₃ 3 := ⟨h.a3⟩
  have : Val p W.a₆ 5 := ⟨h.a6⟩
  pv

theorem lev7_rst (hp : Prime p) (h : Chg W V r s t) (hW : Lev7 p W) (hV : Lev7 p V) :
    p ^ 2 ∣ r ∧ p ∣ s ∧ p ^ 3 ∣ t := by
  obtain ⟨hr, hs, ht⟩ := lev6_rst hp h hW.lev6.1 hV.lev6.1
  refine ⟨hr, hs, dvd_of_sq hp 2 (n := 5) (by norm_num) ?_⟩
  have : Val p r 2 := ⟨hr⟩
  have : Val p t 2 := ⟨ht⟩
  have := Val.of1 hW.a1
  have : Val p W.a₂ 2 := ⟨hW.a2⟩
  have : Val p W.a₃ 3 := ⟨hW.a3⟩
  have : Val p W.a₄ 3 := ⟨hW.a4⟩
  have : Val p W.a₆ 5 := ⟨hW.a6⟩
  have : Val p V.a₆ 5 := ⟨hV.a6⟩
  rw [show t ^ 2 = W.a₆ + r * W.a₄ + r ^ 2 * W.a₂ + r ^ 3 - t * W.a₃ - r * t * W.a₁ - V.a₆ by
    rw [h.a6]; ring]
  pv

theorem inv_IIIstar (hp : Prime p) (h : Chg W V r s t) (hW : Lev7 p W) (hV : Lev7 p V) :
    p ^ 4 ∣ W.a₄ ↔ p ^ 4 ∣ V.a₄ := by
  obtain ⟨hr, hs, ht⟩ := lev7_rst hp h hW hV
  have : Val p r 2 := ⟨hr⟩
  have := Val.of1 hs
  have : Val p t 3 := ⟨ht⟩
  have := Val.of1 hW.a1
  have : Val p W.a₂ 2 := ⟨hW.a2⟩
  have : Val p W.a₃ 3 := ⟨hW.a3⟩
  rw [show V.a₄ = W.a₄ + (-s * W.a₃ + 2 * r * W.a₂ - (t + r * s) * W.a₁ + 3 * r ^ 2 - 2 * s * t) by
    rw [h.a4]; ring]
  exact (dvd_add_left (by pv)).symm

theorem inv_IIstar (hp : Prime p) (h : Chg W V r s t) (hW : Lev7 p W) (hV : Lev7 p V)
    (h4 : p ^ 4 ∣ W.a₄) : p ^ 6 ∣ W.a₆ ↔ p ^ 6 ∣ V.a₆ := by
  obtain ⟨hr, hs, ht⟩ := lev7_rst hp h hW hV
  have : Val p r 2 := ⟨hr⟩
  have : Val p t 3 := ⟨ht⟩
  have := Val.of1 hW.a1
  have : Val p W.a₂ 2 := ⟨hW.a2⟩
  have : Val p W.a₃ 3 := ⟨hW.a3⟩
  have : Val p W.a₄ 4 := ⟨h4⟩
  rw [show V.a₆ = W.a₆ + (r * W.a₄ + r ^ 2 * W.a₂ + r ^ 3 - t * W.a₃ - t ^ 2 - r * t * W.a₁) by
    rw [h.a6]; ring]
  exact (dvd_add_left (by pv)).symm

end Eclib.Tate
