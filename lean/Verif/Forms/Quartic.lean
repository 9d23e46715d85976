import Verif.Forms.Cubic

/-! # C25: quartic transforms -/

namespace Eclib.Forms

open Eclib.Forms.Spec

/-- the function of a quartic -/
def G.fn (g : G) : ℤ → ℤ → ℤ := quart g.a g.b g.c g.d g.e

theorem G.ext_fn {f g : G} (h : f.fn = g.fn) : f = g := by
  have h1 := congrFun (congrFun h 1) 0
  have h2 := congrFun (congrFun h 0) 1
  have h3 := congrFun (congrFun h 1) 1
  have h4 := congrFun (congrFun h 1) (-1)
  have h5 := congrFun (congrFun h 1) 2
  simp [G.fn, quart] at h1 h2 h3 h4 h5
  ext <;> omega

/-- multiplication of the coefficients by an integer -/
def G.smul (k : ℤ) (g : G) : G := ⟨k * g.a, k * g.b, k * g.c, k * g.d, k * g.e⟩

theorem G.fn_smul (k : ℤ) (g : G) (X Z : ℤ) : (g.smul k).fn X Z = k * g.fn X Z := by
  simp only [G.fn, quart, G.smul]; ring

theorem G.divBy_smul (g : G) {u : ℤ} (hu : u ≠ 0) (ha : u ∣ g.a) (hb : u ∣ g.b) (hc : u ∣ g.c)
    (hd : u ∣ g.d) (he : u ∣ g.e) : (g.divBy u).smul u = g := by
  obtain ⟨a, ha⟩ := ha
  obtain ⟨b, hb⟩ := hb
  obtain ⟨c, hc⟩ := hc
  obtain ⟨d, hd⟩ := hd
  obtain ⟨e, he⟩ := he
  ext <;> simp only [G.smul, G.divBy, ha, hb, hc, hd, he, Int.mul_fdiv_cancel_left _ hu]

namespace Props

/-- `apply_transform` with a `unimod` is the substitution by its matrix -/
theorem C25_apply_transform (g : G) (m : U) : (g.apply m).fn = act g.fn m.toM := by
  funext X Z
  simp only [G.fn, act_toM, quart, G.apply]
  ring

/-- `I` and `J` are invariants of weights 4 and 6 -/
theorem C25_invariants (g : G) (m : U) :
    (g.apply m).II = m.det ^ 4 * g.II ∧ (g.apply m).JJ = m.det ^ 6 * g.JJ := by
  constructor <;> simp only [G.II, G.JJ, G.apply, U.det] <;> ring

/-- the syzygy relating the seminvariants to `I` and `J` (checked at run time under DEBUG_ROOTS,
mquartic.cc:66) -/
theorem C25_syzygy (g : G) :
    -g.HH ^ 3 + 48 * g.a ^ 2 * g.II * g.HH - 64 * g.a ^ 3 * g.JJ - 27 * g.RR ^ 2 = 0 := by
  simp only [G.HH, G.RR, G.II, G.JJ]; ring

/-- `disc = 4I³ - J²` is 27 times the discriminant of the quartic -/
theorem C25_disc (g : G) : g.disc = 27 * (256 * g.a ^ 3 * g.e ^ 3 - 192 * g.a ^ 2 * g.b * g.d * g.e ^ 2
    - 128 * g.a ^ 2 * g.c ^ 2 * g.e ^ 2 + 144 * g.a ^ 2 * g.c * g.d ^ 2 * g.e - 27 * g.a ^ 2 * g.d ^ 4
    + 144 * g.a * g.b ^ 2 * g.c * g.e ^ 2 - 6 * g.a * g.b ^ 2 * g.d ^ 2 * g.e
    - 80 * g.a * g.b * g.c ^ 2 * g.d * g.e + 18 * g.a * g.b * g.c * g.d ^ 3
    + 16 * g.a * g.c ^ 4 * g.e - 4 * g.a * g.c ^ 3 * g.d ^ 2 - 27 * g.b ^ 4 * g.e ^ 2
    + 18 * g.b ^ 3 * g.c * g.d * g.e - 4 * g.b ^ 3 * g.d ^ 3 - 4 * g.b ^ 2 * g.c ^ 3 * g.e
    + g.b ^ 2 * g.c ^ 2 * g.d ^ 2) := by
  simp only [G.disc, G.II, G.JJ]; ring

/-- `doubleup` is the substitution `(X,Z) ↦ (X,2Z)`; `I`, `J`, `disc` are multiplied by 16, 64 and
4096, as the code records. -/
theorem C25_doubleup (g : G) : g.doubleup.fn = act g.fn !![1, 0; 0, 2] ∧
    g.doubleup.II = 16 * g.II ∧ g.doubleup.JJ = 64 * g.JJ ∧ g.doubleup.disc = 4096 * g.disc := by
  refine ⟨?_, ?_, ?_, ?_⟩
  · funext X Z
    simp only [G.fn, act, quart, G.doubleup, Matrix.of_apply, Matrix.cons_val_zero,
      Matrix.cons_val_one, Matrix.cons_val', Matrix.cons_val_fin_one]
    ring
  all_goals simp only [G.disc, G.II, G.JJ, G.doubleup]; ring

/-- `xshift` -/
theorem C25_xshift (g : G) (m : U) (t : ℤ) :
    (g.xshift m t).1.fn = act g.fn !![1, t; 0, 1] ∧
      (g.xshift m t).2.toM = m.toM * !![1, t; 0, 1] ∧
      (g.xshift m t).1.II = g.II ∧ (g.xshift m t).1.JJ = g.JJ := by
  refine ⟨?_, C22_x_shift m t, ?_, ?_⟩
  · funext X Z
    simp only [G.fn, act, quart, G.xshift, Matrix.of_apply, Matrix.cons_val_zero,
      Matrix.cons_val_one, Matrix.cons_val', Matrix.cons_val_fin_one]
    ring
  · simp only [G.II, G.xshift]; ring
  · simp only [G.JJ, G.xshift]; ring

/-- `zshift` -/
theorem C25_zshift (g : G) (m : U) (t : ℤ) :
    (g.zshift m t).1.fn = act g.fn !![1, 0; t, 1] ∧
      (g.zshift m t).2.toM = m.toM * !![1, 0; t, 1] ∧
      (g.zshift m t).1.II = g.II ∧ (g.zshift m t).1.JJ = g.JJ := by
  refine ⟨?_, C22_y_shift m t, ?_, ?_⟩
  · funext X Z
    simp only [G.fn, act, quart, G.zshift, Matrix.of_apply, Matrix.cons_val_zero,
      Matrix.cons_val_one, Matrix.cons_val', Matrix.cons_val_fin_one]
    ring
  · simp only [G.II, G.zshift]; ring
  · simp only [G.JJ, G.zshift]; ring

/-- `m_invert` -/
theorem C25_m_invert (g : G) (m : U) :
    (g.mInvert m).1.fn = act g.fn !![0, -1; 1, 0] ∧
      (g.mInvert m).2.toM = m.toM * !![0, -1; 1, 0] ∧
      (g.mInvert m).1.II = g.II ∧ (g.mInvert m).1.JJ = g.JJ := by
  refine ⟨?_, C22_invert m, ?_, ?_⟩
  · funext X Z
    simp only [G.fn, act, quart, G.mInvert, Matrix.of_apply, Matrix.cons_val_zero,
      Matrix.cons_val_one, Matrix.cons_val', Matrix.cons_val_fin_one]
    ring
  · simp only [G.II, G.mInvert]; ring
  · simp only [G.JJ, G.mInvert]; ring

/-- `apply_transform` with a `scaled_unimod` whose scale factor `u` is not zero: if `u²` divides
the coefficients of the transformed quartic then the result is `g(m(X,Z))/u²`, and the invariants
are multiplied by the 4th and 6th power of `det/u`. -/
theorem C25_apply_scaled (g : G) (m : SU) (hu : m.m00 ≠ 0)
    (h : ∃ h : G, h.smul (m.m00 ^ 2) = g.apply m.toU) :
    (∀ X Z, m.m00 ^ 2 * (g.applyS m).fn X Z = act g.fn m.toU.toM X Z) ∧
      m.m00 ^ 4 * (g.applyS m).II = m.det ^ 4 * g.II ∧
      m.m00 ^ 6 * (g.applyS m).JJ = m.det ^ 6 * g.JJ := by
  obtain ⟨h, hh⟩ := h
  have hu2 : m.m00 * m.m00 ≠ 0 := mul_ne_zero hu hu
  have hsm : (g.applyS m).smul (m.m00 ^ 2) = g.apply m.toU := by
    have hpos : 0 < m.m00 * m.m00 := lt_of_le_of_ne (mul_self_nonneg _) hu2.symm
    simp only [G.applyS]
    split_ifs with h1
    · rw [sq]
      rw [sq] at hh
      apply G.divBy_smul _ hu2
      · exact ⟨_, (congrArg G.a hh).symm⟩
      · exact ⟨_, (congrArg G.b hh).symm⟩
      · exact ⟨_, (congrArg G.c hh).symm⟩
      · exact ⟨_, (congrArg G.d hh).symm⟩
      · exact ⟨_, (congrArg G.e hh).symm⟩
    · have : m.m00 ^ 2 = 1 := by rw [sq]; omega
      rw [this]
      ext <;> simp [G.smul]
  obtain ⟨i1, i2⟩ := C25_invariants g m.toU
  refine ⟨?_, ?_, ?_⟩
  · intro X Z
    rw [← G.fn_smul, hsm, C25_apply_transform]
  · rw [← i1, ← hsm]
    simp only [G.II, G.smul]; ring
  · rw [← i2, ← hsm]
    simp only [G.JJ, G.smul]; ring

example : (SU.mk ⟨2, 0, 0, 1⟩ 4).m00 ≠ 0 ∧ ∃ h : G, h.smul ((SU.mk ⟨2, 0, 0, 1⟩ 4).m00 ^ 2)
    = (G.mk 1 2 4 8 16).apply (SU.mk ⟨2, 0, 0, 1⟩ 4).toU :=
  ⟨by decide, ⟨1, 1, 1, 1, 1⟩, by decide⟩

/-- `check_transform` with a `unimod` accepts exactly when the second quartic is the transform -/
theorem C25_check_transform (g x : G) (m : U) :
    g.checkTransform m x = true ↔
      ∀ X Z, quart x.a x.b x.c x.d x.e X Z = act (quart g.a g.b g.c g.d g.e) m.toM X Z := by
  have e : g.checkTransform m x = true ↔ g.apply m = x := by
    rw [G.ext_iff]
    simp only [G.checkTransform]
    split_ifs <;> simp_all
  rw [e]
  constructor
  · rintro rfl X Z
    exact congrFun (congrFun (C25_apply_transform g m) X) Z
  · intro h
    apply G.ext_fn
    rw [C25_apply_transform]
    funext X Z
    exact (h X Z).symm

/-- `check_transform` with a `scaled_unimod` accepts every right transform; it accepts only right
transforms when `u²` divides the transformed coefficients.  Missing from the full claim: that
condition, see `C25_check_transform_scaled_wrong`. -/
theorem C25_check_transform_scaled_partial (g x : G) (m : SU) (hu : m.m00 ≠ 0) :
    ((∀ X Z, m.m00 ^ 2 * x.fn X Z = act g.fn m.toU.toM X Z) → g.checkTransformS m x = true) ∧
    ((∃ h : G, h.smul (m.m00 ^ 2) = g.apply m.toU) → g.checkTransformS m x = true →
      ∀ X Z, m.m00 ^ 2 * x.fn X Z = act g.fn m.toU.toM X Z) := by
  have e : g.checkTransformS m x = true ↔ g.applyS m = x := by
    rw [G.ext_iff]
    simp only [G.checkTransformS]
    split_ifs <;> simp_all
  rw [e]
  constructor
  · intro h
    have hs : x.smul (m.m00 ^ 2) = g.apply m.toU := by
      apply G.ext_fn
      funext X Z
      rw [G.fn_smul, C25_apply_transform, h]
    have := (C25_apply_scaled g m hu ⟨x, hs⟩).1
    apply G.ext_fn
    funext X Z
    have h1 := this X Z
    rw [← h X Z] at h1
    exact mul_left_cancel₀ (pow_ne_zero 2 hu) h1
  · rintro hh rfl
    exact (C25_apply_scaled g m hu hh).1

/-- `check_transform` with a `scaled_unimod` accepts some wrong transforms, because the divisions
are rounded down. -/
theorem C25_check_transform_scaled_wrong :
    ∃ (g x : G) (m : SU), m.m00 ≠ 0 ∧ g.checkTransformS m x = true ∧
      ¬ ∀ X Z, m.m00 ^ 2 * x.fn X Z = act g.fn m.toU.toM X Z := by
  refine ⟨⟨5, 4, 8, 12, 16⟩, ⟨1, 1, 2, 3, 4⟩, ⟨⟨1, 0, 0, 1⟩, 2⟩, by decide, by decide, ?_⟩
  intro h
  have := h 1 0
  simp [G.fn, act, quart, U.toM] at this

end Props

end Eclib.Forms
