import Verif.Forms.MinimCases

/-! # C25: `minim_p` for `p = 2` -/

namespace Eclib.Forms

open Eclib.Forms.Spec Props
open Marith (XGcd mod invmod div val)

local instance : Fact (Nat.Prime 2) := ⟨Nat.prime_two⟩

theorem two_parity {a b c d e : ℤ}
    (hI : (2 : ℤ) ∣ 12 * a * e - 3 * b * d + c * c)
    (hJ : (2 : ℤ) ∣ (72 * a * e + 9 * b * d - 2 * (c * c)) * c - 27 * (a * (d * d) + b * b * e))
    (h1 : ¬ ((2 : ℤ) ∣ a ∧ (2 : ℤ) ∣ b)) (h2 : ¬ ((2 : ℤ) ∣ e ∧ (2 : ℤ) ∣ d)) :
    (2 : ℤ) ∣ c + 1 * (3 * b + 6 * 1 * a) ∧ (2 : ℤ) ∣ d + 1 * (2 * c + 1 * (3 * b + 4 * 1 * a)) ∧
      (2 : ℤ) ∣ e + 1 * (d + 1 * (c + 1 * (b + 1 * a))) := by
  have z : ∀ x : ℤ, (2 : ℤ) ∣ x ↔ (x : ZMod 2) = 0 := fun x => by
    rw [cast_zero_iff]; rfl
  simp only [z] at *
  push_cast at *
  revert hI hJ h1 h2
  generalize (a : ZMod 2) = a, (b : ZMod 2) = b, (c : ZMod 2) = c, (d : ZMod 2) = d,
    (e : ZMod 2) = e
  revert a b c d e
  decide

theorem pow_cancel {x : ℤ} {p : ℤ} (hp : p ≠ 0) (n : ℕ) {k : ℕ} (h : p ^ (n + k) ∣ p ^ n * x) :
    p ^ k ∣ x := by
  rw [pow_add] at h
  exact (mul_dvd_mul_iff_left (pow_ne_zero n hp)).mp h

theorem rootOK_two (X : XGcd) (g : G) (hI : (2 : ℤ) ∣ g.II) (hJ : (2 : ℤ) ∣ g.JJ) :
    RootOK X 2 g := by
  intro h1 h2 m
  have e1 : (div (2 : ℤ) g.a && div (2 : ℤ) g.b) = false := by
    rw [Bool.eq_false_iff, Ne, Bool.and_eq_true, div_iff (by norm_num), div_iff (by norm_num)]
    exact h1
  have e2 : (div (2 : ℤ) g.e && div (2 : ℤ) g.d) = false := by
    rw [Bool.eq_false_iff, Ne, Bool.and_eq_true, div_iff (by norm_num), div_iff (by norm_num)]
    exact h2
  have e3 : rootP X g ((2 : ℕ) : ℤ) = 1 := by
    unfold rootP
    push_cast
    rw [e1, e2]
    simp
  rw [e3]
  obtain ⟨a, b, c, d, e⟩ := g
  exact (two_parity hI hJ h1 h2)

theorem val_quad_two {a b c d e : ℤ} (ha : ¬ (2 : ℤ) ∣ a) (hb : (2 : ℤ) ∣ b)
    (hc : (2 : ℤ) ∣ c) (hd : (2 : ℤ) ∣ d) (he : (16 : ℤ) ∣ e)
    (hI : (2 : ℤ) ^ 4 ∣ (G.mk a b c d e).II) (hJ : (2 : ℤ) ^ 6 ∣ (G.mk a b c d e).JJ) :
    (2 : ℤ) ^ 2 ∣ c ∧ (2 : ℤ) ^ 3 ∣ d := by
  obtain ⟨b1, rfl⟩ := hb
  obtain ⟨c1, rfl⟩ := hc
  obtain ⟨d1, rfl⟩ := hd
  obtain ⟨e1, rfl⟩ := he
  obtain ⟨i, hI⟩ := hI
  obtain ⟨j, hJ⟩ := hJ
  simp only [G.II, G.JJ] at hI hJ
  have two := Int.prime_two
  have hd1 : (2 : ℤ) ∣ d1 := by
    have : (2 : ℤ) ∣ a * d1 ^ 2 := ⟨2 * (144 * a * e1 * c1) + 9 * b1 * c1 * d1 - 2 * c1 ^ 3
      - 27 * 8 * b1 ^ 2 * e1 - 8 * j - 13 * a * d1 ^ 2, by linarith⟩
    exact two.dvd_of_dvd_pow ((two.dvd_or_dvd this).resolve_left ha)
  obtain ⟨d2, rfl⟩ := hd1
  have hc1 : (2 : ℤ) ∣ c1 := by
    have : (2 : ℤ) ∣ c1 ^ 2 := ⟨2 * i + 3 * b1 * d2 - 24 * a * e1, by linarith⟩
    exact two.dvd_of_dvd_pow this
  obtain ⟨c2, rfl⟩ := hc1
  have hbd : (2 : ℤ) ∣ b1 * d2 := ⟨-i + 12 * a * e1 - b1 * d2 + c2 ^ 2, by linarith⟩
  obtain ⟨k, hk⟩ := hbd
  have hd2 : (2 : ℤ) ∣ d2 := by
    have : (2 : ℤ) ∣ a * d2 ^ 2 := ⟨144 * a * e1 * c2 + 18 * k * c2 - 4 * c2 ^ 3
      - 54 * b1 ^ 2 * e1 - 2 * j - 13 * a * d2 ^ 2, by
        have : 9 * b1 * c2 * d2 = 18 * k * c2 := by linear_combination 9 * c2 * hk
        linarith⟩
    exact two.dvd_of_dvd_pow ((two.dvd_or_dvd this).resolve_left ha)
  obtain ⟨d3, rfl⟩ := hd2
  exact ⟨⟨c2, by ring⟩, ⟨d3, by ring⟩⟩

theorem val_quad_two' {a b c d e : ℤ} (ha : ¬ (2 : ℤ) ∣ a) (hb : (2 : ℤ) ∣ b)
    (hc : (2 : ℤ) ∣ c) (hd : (2 : ℤ) ∣ d) (he : (8 : ℤ) ∣ e)
    (hJ : (2 : ℤ) ^ 3 ∣ (G.mk a b c d e).JJ) : (2 : ℤ) ^ 2 ∣ d := by
  obtain ⟨b1, rfl⟩ := hb
  obtain ⟨c1, rfl⟩ := hc
  obtain ⟨d1, rfl⟩ := hd
  obtain ⟨e1, rfl⟩ := he
  obtain ⟨j, hJ⟩ := hJ
  simp only [G.JJ] at hJ
  have two := Int.prime_two
  have hd1 : (2 : ℤ) ∣ d1 := by
    have : (2 : ℤ) ∣ a * d1 ^ 2 := ⟨2 * (72 * a * e1 * c1) + 9 * b1 * c1 * d1 - 2 * c1 ^ 3
      - 27 * 4 * b1 ^ 2 * e1 - j - 13 * a * d1 ^ 2, by linarith⟩
    exact two.dvd_of_dvd_pow ((two.dvd_or_dvd this).resolve_left ha)
  obtain ⟨d2, rfl⟩ := hd1
  exact ⟨d2, by ring⟩

/-- the step failed: the quartic has only been moved by a unimodular substitution -/
def StepNo (s0 : G × SU) (r : G × SU × Bool) : Prop :=
  r.2.2 = false ∧ ∃ t : M2, t.det = 1 ∧ GVia t 1 s0 (r.1, r.2.1)

theorem minimAll_two (X : XGcd) (g : G) (m : SU) (h1 : g.divAll (2 * 2) = false)
    (h2 : g.divAll 2 = true) (hI : (2 : ℤ) ^ 4 ∣ g.II) (hJ : (2 : ℤ) ^ 6 ∣ g.JJ) :
    StepOK 2 (g, m) (minimAll X g 2 m) ∨ StepNo (g, m) (minimAll X g 2 m) := by
  have hg : (g.divBy 2).smul 2 = g := by
    rw [divAll_iff (by norm_num)] at h2
    obtain ⟨da, db, dc, dd, de⟩ := h2
    exact G.divBy_smul g (by norm_num) da db dc dd de
  have hI0 : (2 : ℤ) ^ 2 ∣ (g.divBy 2).II := by
    rw [← hg, (G.smul_inv _ 2).1] at hI
    exact pow_cancel (by norm_num) 2 hI
  have hJ0 : (2 : ℤ) ^ 3 ∣ (g.divBy 2).JJ := by
    rw [← hg, (G.smul_inv _ 2).2] at hJ
    exact pow_cancel (by norm_num) 3 hJ
  obtain ⟨t, s, g', ht, v, e1, hR, i, j, hm⟩ := minimAll_cases (p := 2) X g m
    (by exact_mod_cast h1) (by exact_mod_cast h2) (dvd_trans (by norm_num) hI0)
    (rootOK_two X _ (dvd_trans (by norm_num) hI0) (dvd_trans (by norm_num) hJ0))
  simp only [Nat.cast_ofNat] at hm i j e1 hR
  have iI : (2 : ℤ) ^ 2 ∣ g'.II := by
    rw [← i] at hI
    exact pow_cancel (by norm_num) 2 hI
  have jJ : (2 : ℤ) ^ 3 ∣ g'.JJ := by
    rw [← j] at hJ
    exact pow_cancel (by norm_num) 3 hJ
  rw [hm]
  split_ifs with hf
  · exact Or.inr ⟨rfl, t, ht, v⟩
  · left
    have he : (16 : ℤ) ∣ s.1.e := by tauto
    have he8 : (8 : ℤ) ∣ g'.e := by
      rw [e1] at he
      simp only [G.smul] at he
      omega
    have hd4 : (2 : ℤ) ^ 2 ∣ g'.d := by
      by_cases hb : (2 : ℤ) ∣ g'.b
      · exact val_quad_two' (fun h => hR.n ⟨h, hb⟩) hb hR.c hR.d he8 jJ
      · exact (val_triple' (p := 2) (by decide) (by exact_mod_cast hb) (by exact_mod_cast hR.c)
          (by exact_mod_cast hR.d) (by exact_mod_cast hR.e) (by exact_mod_cast iI)
          (by exact_mod_cast jJ)).1
    refine stepOK_rescale1 (p := 2) ht v ?_ ?_ ?_ ?_ <;> rw [e1] <;> simp only [G.smul, Nat.cast_ofNat]
    · exact Dvd.intro _ rfl
    · rw [sq]; exact mul_dvd_mul_left _ hR.c
    · rw [pow_succ']; exact mul_dvd_mul_left _ hd4
    · rw [e1] at he; simpa [G.smul] using he

theorem betaShift_two (X : XGcd) (g : G) (hb : ¬ (2 : ℤ) ∣ g.b) (hc : (2 : ℤ) ∣ g.c) :
    (2 : ℤ) ∣ betaShift X g 2 ∧ (2 : ℤ) ^ 2 ∣ g.c + 3 * g.b * betaShift X g 2 := by
  obtain ⟨c', hc'⟩ := hc
  unfold betaShift
  have e4 : (-g.c).fdiv 2 = -c' := by
    rw [hc', ← mul_neg]; exact Int.mul_fdiv_cancel_left _ (by norm_num)
  simp only [show ¬ (2 : ℤ) = 3 by norm_num, if_false, e4]
  by_cases hcc : (2 : ℤ) ∣ -c'
  · rw [(div_iff (by norm_num) _).mpr hcc]
    simp only [Bool.not_true, Bool.false_eq_true, if_false]
    obtain ⟨k, hk⟩ := hcc
    exact ⟨dvd_zero _, ⟨-k, by rw [hc']; linear_combination (-2) * hk⟩⟩
  · have e5 : div (2 : ℤ) (-c') = false := by
      rw [Bool.eq_false_iff, Ne, div_iff (by norm_num)]; exact hcc
    simp only [e5, Bool.not_false, if_true]
    refine ⟨Dvd.intro _ rfl, ?_⟩
    have h3b : ((3 * g.b : ℤ) : ZMod 2) ≠ 0 := by
      rw [Ne, cast_zero_iff]
      push_cast
      omega
    have hd : (2 : ℤ) ∣ c' + 3 * g.b * mod (-c' * invmod X (3 * g.b) 2) 2 := by
      have := (cast_zero_iff (p := 2) (c' + 3 * g.b * mod (-c' * invmod X (3 * g.b) 2) 2)).mp (by
        have hinv := cast_invmod (p := 2) X (3 * g.b) h3b
        have hm := cast_mod (p := 2) (-c' * invmod X (3 * g.b) (2 : ℕ))
        push_cast at hinv hm ⊢
        rw [hm]
        linear_combination (-(c' : ZMod 2)) * hinv)
      exact_mod_cast this
    obtain ⟨k, hk⟩ := hd
    exact ⟨k, by rw [hc']; linear_combination 2 * hk⟩

theorem minimNot_two (X : XGcd) (g : G) (m : SU) (h1 : g.divAll 2 = false)
    (hI : (2 : ℤ) ^ 4 ∣ g.II) (hJ : (2 : ℤ) ^ 6 ∣ g.JJ) :
    StepOK 2 (g, m) (minimNot X g 2 m) ∨ StepNo (g, m) (minimNot X g 2 m) := by
  obtain ⟨t, s, ht, v, hR, hcase⟩ := minimNot_cases (p := 2) X g m
    (by exact_mod_cast h1) (dvd_trans (by norm_num) hI)
    (rootOK_two X _ (dvd_trans (by norm_num) hI) (dvd_trans (by norm_num) hJ))
  push_cast at hR hcase
  obtain ⟨i, j⟩ := v.invs ht
  rcases hcase with ⟨wa, wb, hm⟩ | ⟨wa, wb, hm⟩
  · left
    rw [hm]
    obtain ⟨hβ1, hβ2⟩ := betaShift_two X s.1 wb hR.c
    obtain ⟨β, hβ⟩ : ∃ β, betaShift X s.1 2 = β := ⟨_, rfl⟩
    rw [hβ] at hβ1 hβ2 ⊢
    have v3 := v.trans (GVia.xshift s.1 s.2 β)
    have ht3 : (t * !![1, β; 0, 1]).det = 1 := by
      rw [Matrix.det_mul, ht]; simp [Matrix.det_fin_two]
    obtain ⟨i3, j3⟩ := v3.invs ht3
    obtain ⟨b', hb'⟩ := hβ1
    obtain ⟨k, hk⟩ := hβ2
    obtain ⟨d', hd'⟩ := hR.d
    obtain ⟨e', he'⟩ := hR.e
    have xb : ¬ (2 : ℤ) ∣ (s.1.xshiftS s.2 β).1.b := by
      simp only [G.xshiftS, G.xshift]
      rintro ⟨q, hq⟩
      exact wb ⟨q - 4 * b' * s.1.a, by rw [hb'] at hq; linear_combination hq⟩
    have xc : (2 : ℤ) ^ 2 ∣ (s.1.xshiftS s.2 β).1.c := by
      simp only [G.xshiftS, G.xshift]
      exact ⟨k + 6 * b' ^ 2 * s.1.a, by
        linear_combination hk + 6 * s.1.a * (β + 2 * b') * hb'⟩
    have xd : (2 : ℤ) ∣ (s.1.xshiftS s.2 β).1.d := by
      simp only [G.xshiftS, G.xshift]
      exact ⟨d' + b' * (2 * s.1.c + β * (3 * s.1.b + 4 * β * s.1.a)), by
        linear_combination hd' + (2 * s.1.c + β * (3 * s.1.b + 4 * β * s.1.a)) * hb'⟩
    have xe : (2 : ℤ) ∣ (s.1.xshiftS s.2 β).1.e := by
      simp only [G.xshiftS, G.xshift]
      exact ⟨e' + b' * (s.1.d + β * (s.1.c + β * (s.1.b + β * s.1.a))), by
        linear_combination he' + (s.1.d + β * (s.1.c + β * (s.1.b + β * s.1.a))) * hb'⟩
    obtain ⟨q1, q2⟩ := val_triple (p := 2) (by decide) (by exact_mod_cast xb)
      (by exact_mod_cast wa : ((2 : ℕ) : ℤ) ∣ (s.1.xshiftS s.2 β).1.a) (by exact_mod_cast xc)
      (by exact_mod_cast xd) (by exact_mod_cast xe) (by rw [i3]; exact_mod_cast hI)
      (by rw [j3]; exact_mod_cast hJ)
    exact stepOK_rescale2 (p := 2) ht3 v3 (by exact_mod_cast xc) q1 q2
  · rw [hm]
    unfold quadStep
    simp only [show ¬ (2 : ℤ) = 3 by norm_num, decide_false, Bool.false_and, Bool.false_eq_true,
      if_false, decide_true, Bool.true_and, Bool.not_eq_true']
    split_ifs with hf
    · exact Or.inr ⟨rfl, t, ht, v⟩
    · left
      rw [Bool.not_eq_false, div_iff (by norm_num)] at hf
      obtain ⟨q1, q2⟩ := val_quad_two wa wb hR.c hR.d hf (by rw [i]; exact hI) (by rw [j]; exact hJ)
      exact stepOK_rescale1 (p := 2) ht v (by exact_mod_cast wb) (by exact_mod_cast q1)
        (by exact_mod_cast q2) (by norm_num; exact hf)

end Eclib.Forms
