import Verif.Forms.MinimProps

/-! # C25: the shape of the quartic before the coefficients are rescaled, for every prime -/

namespace Eclib.Forms

open Eclib.Forms.Spec Props
open Marith (XGcd mod invmod div val)

theorem GVia.invs {t : M2} {s0 s : G × SU} (h : GVia t 1 s0 s) (ht : t.det = 1) :
    s.1.II = s0.1.II ∧ s.1.JJ = s0.1.JJ := by
  have := h.inv
  rw [ht] at this
  simpa using this

/-- `root_p` moves the multiple root to 0 -/
def RootOK (X : XGcd) (p : ℕ) (g : G) : Prop :=
  ¬ ((p : ℤ) ∣ g.a ∧ (p : ℤ) ∣ g.b) → ¬ ((p : ℤ) ∣ g.e ∧ (p : ℤ) ∣ g.d) → ∀ m : U,
    (p : ℤ) ∣ (g.xshift m (rootP X g p)).1.c ∧ (p : ℤ) ∣ (g.xshift m (rootP X g p)).1.d ∧
      (p : ℤ) ∣ (g.xshift m (rootP X g p)).1.e

/-- `p` divides the last three coefficients and not the first two -/
structure Rooted (p : ℤ) (g : G) : Prop where
  c : p ∣ g.c
  d : p ∣ g.d
  e : p ∣ g.e
  n : ¬ (p ∣ g.a ∧ p ∣ g.b)

theorem Rooted.zshift {p : ℤ} {g : G} (h : Rooted p g) (m : SU) (γ : ℤ) :
    Rooted p (g.zshiftS m γ).1 := by
  obtain ⟨⟨c', hc'⟩, ⟨d', hd'⟩, ⟨e', he'⟩, hn⟩ := h
  refine ⟨?_, ?_, ?_, ?_⟩ <;> simp only [G.zshiftS, G.zshift]
  · rw [hc', hd', he']
    exact ⟨c' + 3 * γ * d' + 6 * γ ^ 2 * e', by ring⟩
  · rw [hd', he']
    exact ⟨d' + 4 * γ * e', by ring⟩
  · exact ⟨e', he'⟩
  · rw [hc', hd', he']
    rintro ⟨⟨x, hx⟩, ⟨y, hy⟩⟩
    apply hn
    have hb : p ∣ g.b := ⟨y - (2 * c' * γ + 3 * d' * γ ^ 2 + 4 * e' * γ ^ 3), by
      linear_combination hy⟩
    refine ⟨?_, hb⟩
    obtain ⟨b', hb'⟩ := hb
    rw [hb'] at hx
    exact ⟨x - γ * (b' + γ * (c' + γ * (d' + γ * e'))), by linear_combination hx⟩

section
variable {p : ℕ} [hp : Fact p.Prime]

theorem minimAll_cases (X : XGcd) (g : G) (m : SU) (h1 : g.divAll (p * p) = false)
    (h2 : g.divAll p = true) (hI : (p : ℤ) ∣ (g.divBy p).II) (hr : RootOK X p (g.divBy p)) :
    ∃ (t : M2) (s : G × SU) (g' : G), t.det = 1 ∧ GVia t 1 (g, m) s ∧ s.1 = g'.smul p ∧
      Rooted p g' ∧ (p : ℤ) ^ 2 * g'.II = g.II ∧ (p : ℤ) ^ 3 * g'.JJ = g.JJ ∧
      minimAll X g p m = if p = 2 ∧ ¬ (16 : ℤ) ∣ s.1.e then (s.1, s.2, false) else
        ((rescale1 s.1 p s.2).1, (rescale1 s.1 p s.2).2, true) := by
  have hpr : Prime (p : ℤ) := Nat.prime_iff_prime_int.mp hp.out
  have hp0 : (p : ℤ) ≠ 0 := hpr.ne_zero
  have hpp : (p : ℤ) * p ≠ 0 := mul_ne_zero hp0 hp0
  rw [divAll_iff hp0] at h2
  obtain ⟨da, db, dc, dd, de⟩ := h2
  obtain ⟨g0, hg0⟩ : ∃ g0, g.divBy p = g0 := ⟨_, rfl⟩
  have hg : g0.smul p = g := by rw [← hg0]; exact G.divBy_smul g hp0 da db dc dd de
  rw [hg0] at hI hr
  obtain ⟨t, g', ht, e1, v1, v2, c1, c2, c3⟩ := moveRoot_of X g0 p m hI hr
  rw [hg] at e1 v1 v2
  have hn : ¬ ((p : ℤ) ∣ g'.a ∧ (p : ℤ) ∣ g'.b) := by
    rintro ⟨ha, hb⟩
    obtain ⟨q1, q2, q3, q4, q5⟩ := v2.dvd_back ht ⟨ha, hb, c1, c2, c3⟩
    rw [Bool.eq_false_iff, Ne, divAll_iff hpp] at h1
    apply h1
    rw [← hg]
    simp only [G.smul]
    exact ⟨mul_dvd_mul_left _ q1, mul_dvd_mul_left _ q2, mul_dvd_mul_left _ q3,
      mul_dvd_mul_left _ q4, mul_dvd_mul_left _ q5⟩
  have hinv : ∀ (s : G × SU) (g' : G) (t : M2), t.det = 1 → GVia t 1 (g, m) s →
      s.1 = g'.smul p → (p : ℤ) ^ 2 * g'.II = g.II ∧ (p : ℤ) ^ 3 * g'.JJ = g.JJ := by
    intro s g' t ht v e
    obtain ⟨i, j⟩ := v.invs ht
    rw [e, (G.smul_inv g' p).1] at i
    rw [e, (G.smul_inv g' p).2] at j
    exact ⟨i, j⟩
  have hif : ∀ (s : G × SU), (if (decide ((p : ℤ) = 2) && !div 16 s.1.e) = true then
      (s.1, s.2, false) else ((rescale1 s.1 p s.2).1, (rescale1 s.1 p s.2).2, true)) =
      if p = 2 ∧ ¬ (16 : ℤ) ∣ s.1.e then (s.1, s.2, false) else
        ((rescale1 s.1 p s.2).1, (rescale1 s.1 p s.2).2, true) := by
    intro s
    have : (decide ((p : ℤ) = 2) && !div 16 s.1.e) = true ↔ p = 2 ∧ ¬ (16 : ℤ) ∣ s.1.e := by
      rw [Bool.and_eq_true, decide_eq_true_eq, Bool.not_eq_true', Bool.eq_false_iff, Ne,
        div_iff (by norm_num)]
      norm_cast
    simp only [this]
  unfold minimAll
  simp only [hg0, hif]
  obtain ⟨w, hw⟩ : ∃ w, (if (!div ((p : ℤ) * p) (moveRoot X g0 g p m).1.a &&
      !div (p : ℤ) ((moveRoot X g0 g p m).1.b.fdiv p)) = true then
      (moveRoot X g0 g p m).1.zshiftS (moveRoot X g0 g p m).2
        (mod (-g0.a * invmod X ((moveRoot X g0 g p m).1.b.fdiv p) p) p)
      else moveRoot X g0 g p m) = w := ⟨_, rfl⟩
  have key : ∃ t' g'', t'.det = 1 ∧ GVia t' 1 (g, m) w ∧ w.1 = G.smul p g'' ∧ Rooted p g'' := by
    rw [← hw]
    split_ifs with hc
    · obtain ⟨γ, hγ⟩ : ∃ γ, mod (-g0.a * invmod X ((moveRoot X g0 g p m).1.b.fdiv p) p) p = γ :=
        ⟨_, rfl⟩
      rw [hγ]
      refine ⟨_, (g'.zshiftS (moveRoot X g0 g p m).2 γ).1, ?_,
        v1.trans (GVia.zshift (moveRoot X g0 g p m).1 (moveRoot X g0 g p m).2 γ), ?_,
        Rooted.zshift ⟨c1, c2, c3, hn⟩ _ _⟩
      · rw [Matrix.det_mul, ht]; simp [Matrix.det_fin_two]
      · rw [e1]; exact G.smul_zshift g' p γ (moveRoot X g0 g p m).2.toU
    · exact ⟨t, g', ht, v1, e1, c1, c2, c3, hn⟩
  rw [hw]
  obtain ⟨t', g'', k1, k2, k3, k4⟩ := key
  obtain ⟨i, j⟩ := hinv w g'' t' k1 k2 k3
  exact ⟨t', w, g'', k1, k2, k3, k4, i, j, rfl⟩

/-- what happens to a quartic with a quadruple root (minim.cc:251-283) -/
def quadStep (X : XGcd) (p : ℤ) (s : G × SU) : G × SU × Bool :=
  let s := if p = 3 && !div p (s.1.b.fdiv 3) then
      s.1.xshiftS s.2 (3 * mod (-(s.1.b.fdiv 3) * invmod X s.1.a p) p) else s
  if p = 2 && !div 16 s.1.e then (s.1, s.2, false)
  else ((rescale1 s.1 p s.2).1, (rescale1 s.1 p s.2).2, true)

theorem minimNot_cases (X : XGcd) (g : G) (m : SU) (h1 : g.divAll p = false)
    (hI : (p : ℤ) ∣ g.II) (hr : RootOK X p g) :
    ∃ (t : M2) (s : G × SU), t.det = 1 ∧ GVia t 1 (g, m) s ∧ Rooted p s.1 ∧
      (((p : ℤ) ∣ s.1.a ∧ ¬ (p : ℤ) ∣ s.1.b ∧ minimNot X g p m =
          ((rescale2 (s.1.xshiftS s.2 (betaShift X s.1 p)).1 p
            (s.1.xshiftS s.2 (betaShift X s.1 p)).2).1,
           (rescale2 (s.1.xshiftS s.2 (betaShift X s.1 p)).1 p
            (s.1.xshiftS s.2 (betaShift X s.1 p)).2).2, true)) ∨
       (¬ (p : ℤ) ∣ s.1.a ∧ (p : ℤ) ∣ s.1.b ∧ minimNot X g p m = quadStep X p s)) := by
  have hpr : Prime (p : ℤ) := Nat.prime_iff_prime_int.mp hp.out
  have hp0 : (p : ℤ) ≠ 0 := hpr.ne_zero
  have hg : g.smul 1 = g := by ext <;> simp [G.smul]
  obtain ⟨t, g', ht, e1, v1, -, c1, c2, c3⟩ := moveRoot_of X g 1 m hI hr
  rw [hg] at e1 v1
  have hg' : g'.smul 1 = g' := by ext <;> simp [G.smul]
  rw [hg'] at e1
  have hn : ¬ ((p : ℤ) ∣ g'.a ∧ (p : ℤ) ∣ g'.b) := by
    rintro ⟨ha, hb⟩
    have := v1.dvd_back ht (k := p) (by rw [e1]; exact ⟨ha, hb, c1, c2, c3⟩)
    rw [Bool.eq_false_iff, Ne, divAll_iff hp0] at h1
    exact h1 this
  unfold minimNot
  obtain ⟨s, hs⟩ : ∃ s, moveRoot X g g p m = s := ⟨_, rfl⟩
  rw [hs] at e1 v1 ⊢
  rw [← e1] at c1 c2 c3 hn
  have hR : Rooted p s.1 := ⟨c1, c2, c3, hn⟩
  obtain ⟨w, hw⟩ : ∃ w, (if (!div (p : ℤ) s.1.a && !div (p : ℤ) s.1.b) = true then
    s.1.zshiftS s.2 (mod (-s.1.a * invmod X s.1.b p) p) else s) = w := ⟨_, rfl⟩
  have key : ∃ t', t'.det = 1 ∧ GVia t' 1 (g, m) w ∧ Rooted p w.1 ∧
      ((p : ℤ) ∣ w.1.a ∨ (p : ℤ) ∣ w.1.b) := by
    rw [← hw]
    split_ifs with hc
    · rw [Bool.and_eq_true, Bool.not_eq_true', Bool.not_eq_true', Bool.eq_false_iff,
        Bool.eq_false_iff, Ne, Ne, div_iff hp0, div_iff hp0] at hc
      obtain ⟨γ, hγ⟩ : ∃ γ, mod (-s.1.a * invmod X s.1.b p) p = γ := ⟨_, rfl⟩
      rw [hγ]
      have hγ' : (p : ℤ) ∣ s.1.a + γ * s.1.b := by
        rw [← cast_zero_iff, ← hγ]
        push_cast
        rw [cast_mod]
        push_cast
        have hinv := cast_invmod (p := p) X s.1.b (by rw [Ne, cast_zero_iff]; exact hc.2)
        linear_combination (-(s.1.a : ZMod p)) * hinv
      refine ⟨_, ?_, v1.trans (GVia.zshift s.1 s.2 γ), hR.zshift _ _, Or.inl ?_⟩
      · rw [Matrix.det_mul, ht]; simp [Matrix.det_fin_two]
      · simp only [G.zshiftS, G.zshift]
        obtain ⟨c', hc'⟩ := c1
        obtain ⟨d', hd'⟩ := c2
        obtain ⟨e', he'⟩ := c3
        obtain ⟨k, hk⟩ := hγ'
        rw [hc', hd', he']
        exact ⟨k + γ ^ 2 * (c' + γ * (d' + γ * e')), by linear_combination hk⟩
    · rw [Bool.and_eq_true, Bool.not_eq_true', Bool.not_eq_true', Bool.eq_false_iff,
        Bool.eq_false_iff, Ne, Ne, div_iff hp0, div_iff hp0] at hc
      exact ⟨t, ht, v1, hR, by tauto⟩
  dsimp only
  rw [hw]
  obtain ⟨t', ht', v2, hR', hab⟩ := key
  refine ⟨t', w, ht', v2, hR', ?_⟩
  by_cases ha : (p : ℤ) ∣ w.1.a
  · left
    refine ⟨ha, fun hb => hR'.n ⟨ha, hb⟩, ?_⟩
    rw [if_pos ((div_iff hp0 _).mpr ha)]
  · right
    refine ⟨ha, hab.resolve_left ha, ?_⟩
    rw [if_neg (by rw [div_iff hp0]; exact ha)]
    rfl

end

end Eclib.Forms
