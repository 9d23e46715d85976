import Verif.Forms.MinimLemmas

/-! # C25: minimisation of quartics at a prime `p ≥ 5` -/

namespace Eclib.Forms

open Eclib.Forms.Spec Props
open Marith (XGcd mod invmod div)

/-- `s` is obtained from `s0` by the substitution `t` with scale factor `u` -/
def GVia (t : M2) (u : ℤ) (s0 s : G × SU) : Prop :=
  s.2.toU.toM = s0.2.toU.toM * t ∧ s.2.m00 = s0.2.m00 * u ∧
    ∀ X Z, u ^ 2 * s.1.fn X Z = act s0.1.fn t X Z

theorem GVia.refl (s : G × SU) : GVia 1 1 s s :=
  ⟨by simp, by simp, fun X Z => by rw [act_one]; ring⟩

theorem GVia.trans {t t' : M2} {u u' : ℤ} {r s w : G × SU} (h1 : GVia t u r s)
    (h2 : GVia t' u' s w) : GVia (t * t') (u * u') r w := by
  obtain ⟨a1, a2, a3⟩ := h1
  obtain ⟨b1, b2, b3⟩ := h2
  refine ⟨by rw [b1, a1, mul_assoc], by rw [b2, a2, mul_assoc], ?_⟩
  intro X Z
  rw [← act_mul]
  have h := a3 (t' 0 0 * X + t' 0 1 * Z) (t' 1 0 * X + t' 1 1 * Z)
  have h' : act (act r.1.fn t) t' X Z = u ^ 2 * act s.1.fn t' X Z := by
    simp only [act] at h ⊢
    exact h.symm
  rw [h', ← b3]; ring

theorem GVia.xshift (g : G) (m : SU) (t : ℤ) : GVia !![1, t; 0, 1] 1 (g, m) (g.xshiftS m t) := by
  obtain ⟨h1, h2, _⟩ := C25_xshift g m.toU t
  exact ⟨h2, by simp [G.xshiftS], fun X Z => by
    have := congrFun (congrFun h1 X) Z
    simp only [G.xshiftS]; rw [this]; ring⟩

theorem GVia.zshift (g : G) (m : SU) (t : ℤ) : GVia !![1, 0; t, 1] 1 (g, m) (g.zshiftS m t) := by
  obtain ⟨h1, h2, _⟩ := C25_zshift g m.toU t
  exact ⟨h2, by simp [G.zshiftS], fun X Z => by
    have := congrFun (congrFun h1 X) Z
    simp only [G.zshiftS]; rw [this]; ring⟩

theorem GVia.mInvert (g : G) (m : SU) : GVia !![0, -1; 1, 0] 1 (g, m) (g.mInvertS m) := by
  obtain ⟨h1, h2, _⟩ := C25_m_invert g m.toU
  exact ⟨h2, by simp [G.mInvertS], fun X Z => by
    have := congrFun (congrFun h1 X) Z
    simp only [G.mInvertS]; rw [this]; ring⟩

/-- the invariants under a scaled substitution -/
theorem GVia.inv {t : M2} {u : ℤ} {s0 s : G × SU} (h : GVia t u s0 s) :
    u ^ 4 * s.1.II = t.det ^ 4 * s0.1.II ∧ u ^ 6 * s.1.JJ = t.det ^ 6 * s0.1.JJ := by
  have e : s.1.smul (u ^ 2) = s0.1.apply (ofM t) := by
    apply G.ext_fn
    funext X Z
    rw [G.fn_smul, C25_apply_transform, toM_ofM, h.2.2]
  have hd : (ofM t).det = t.det := by rw [C22_det, toM_ofM]
  obtain ⟨i1, i2⟩ := C25_invariants s0.1 (ofM t)
  rw [← e, hd] at i1 i2
  refine ⟨?_, ?_⟩
  · rw [← i1]; simp only [G.II, G.smul]; ring
  · rw [← i2]; simp only [G.JJ, G.smul]; ring

theorem G.smul_xshift (g : G) (k t : ℤ) (m : U) :
    ((g.smul k).xshift m t).1 = (g.xshift m t).1.smul k := by
  ext <;> simp only [G.xshift, G.smul] <;> ring

theorem G.smul_zshift (g : G) (k t : ℤ) (m : U) :
    ((g.smul k).zshift m t).1 = (g.zshift m t).1.smul k := by
  ext <;> simp only [G.zshift, G.smul] <;> ring

theorem G.smul_mInvert (g : G) (k : ℤ) (m : U) :
    ((g.smul k).mInvert m).1 = (g.mInvert m).1.smul k := by
  ext <;> simp only [G.mInvert, G.smul] <;> ring

theorem G.smul_inv (g : G) (k : ℤ) : (g.smul k).II = k ^ 2 * g.II ∧
    (g.smul k).JJ = k ^ 3 * g.JJ := by
  constructor <;> simp only [G.II, G.JJ, G.smul] <;> ring

section
variable {p : ℕ} [hp : Fact p.Prime] (h5 : 5 ≤ p)
include h5

omit h5 in
theorem cast_zero_iff (x : ℤ) : ((x : ℤ) : ZMod p) = 0 ↔ (p : ℤ) ∣ x :=
  ZMod.intCast_zmod_eq_zero_iff_dvd x p

omit h5 in
theorem cast_mod (x : ℤ) : ((mod x p : ℤ) : ZMod p) = (x : ZMod p) := by
  have h := (Marith.Props.C04_mod_big x p (by exact_mod_cast hp.out.ne_zero)).1
  have := (cast_zero_iff (p := p) _).mpr h
  push_cast at this
  exact sub_eq_zero.mp this

omit h5 in
theorem cast_invmod (X : XGcd) (x : ℤ) (hx : (x : ZMod p) ≠ 0) :
    (x : ZMod p) * ((invmod X x p : ℤ) : ZMod p) = 1 := by
  have hc : ∃ y, Eclib.Spec.Cong (p : ℤ) (x * y) 1 := by
    have hcop : IsCoprime x (p : ℤ) := by
      rw [isCoprime_comm]
      refine (Prime.coprime_iff_not_dvd (Nat.prime_iff_prime_int.mp hp.out)).mpr ?_
      rwa [← cast_zero_iff]
    obtain ⟨u, v, huv⟩ := hcop
    exact ⟨u, -v, by linear_combination huv⟩
  have h := (Marith.Props.C02_invmod_big X x p).1 hc
  have := (cast_zero_iff (p := p) _).mpr h
  push_cast at this
  exact sub_eq_zero.mp this

theorem two_ne : (2 : ZMod p) ≠ 0 := by
  have : ((2 : ℤ) : ZMod p) ≠ 0 := by
    rw [Ne, cast_zero_iff]
    intro h
    have := Int.le_of_dvd (by norm_num) h
    omega
  exact_mod_cast this

theorem three_ne : (3 : ZMod p) ≠ 0 := by
  have : ((3 : ℤ) : ZMod p) ≠ 0 := by
    rw [Ne, cast_zero_iff]
    intro h
    have := Int.le_of_dvd (by norm_num) h
    omega
  exact_mod_cast this

/-- `root_p` finds the multiple root -/
theorem rootP_spec (X : XGcd) (g : G) (hI : (p : ℤ) ∣ g.II) (hJ : (p : ℤ) ∣ g.JJ)
    (h1 : ¬ ((p : ℤ) ∣ g.a ∧ (p : ℤ) ∣ g.b)) (h2 : ¬ ((p : ℤ) ∣ g.e ∧ (p : ℤ) ∣ g.d)) (m : U) :
    (p : ℤ) ∣ (g.xshift m (rootP X g p)).1.c ∧ (p : ℤ) ∣ (g.xshift m (rootP X g p)).1.d ∧
      (p : ℤ) ∣ (g.xshift m (rootP X g p)).1.e := by
  have hp0 : (p : ℤ) ≠ 0 := by exact_mod_cast hp.out.ne_zero
  have n2 := two_ne h5
  have n3 := three_ne h5
  have n4 : (4 : ZMod p) ≠ 0 := by
    have : (4 : ZMod p) = 2 * 2 := by norm_num
    rw [this]; exact mul_ne_zero n2 n2
  rw [← cast_zero_iff] at hI hJ
  simp only [G.II, G.JJ] at hI hJ
  push_cast at hI hJ
  have e1 : (div (p : ℤ) g.a && div (p : ℤ) g.b) = false := by
    rw [Bool.eq_false_iff, Ne, Bool.and_eq_true, div_iff hp0, div_iff hp0]; exact h1
  have e2 : (div (p : ℤ) g.e && div (p : ℤ) g.d) = false := by
    rw [Bool.eq_false_iff, Ne, Bool.and_eq_true, div_iff hp0, div_iff hp0]; exact h2
  have e3 : ¬ (p : ℤ) = 2 := by omega
  have e4 : ¬ (p : ℤ) = 3 := by omega
  rw [← cast_zero_iff, ← cast_zero_iff, ← cast_zero_iff]
  simp only [G.xshift]
  push_cast
  have hP0 : mod (3 * (g.b * g.b) - 8 * (g.a * g.c)) p = 0 ↔
      3 * ((g.b : ZMod p) * g.b) - 8 * ((g.a : ZMod p) * g.c) = 0 := by
    have hc := cast_mod (p := p) (3 * (g.b * g.b) - 8 * (g.a * g.c))
    push_cast at hc
    constructor
    · intro h
      rw [h] at hc
      rw [← hc]; simp
    · intro h
      rw [h, cast_zero_iff] at hc
      obtain ⟨_, l1, l2⟩ := Marith.Props.C04_mod_big (3 * (g.b * g.b) - 8 * (g.a * g.c)) p hp0
      rw [abs_of_nonneg (by omega : (0 : ℤ) ≤ p)] at l1 l2
      obtain ⟨k, hk⟩ := hc
      rw [hk] at l1 l2 ⊢
      have hpp : (0 : ℤ) < p := by omega
      have : k = 0 := by
        by_contra hne
        rcases lt_or_gt_of_ne hne with h | h
        · have : (p : ℤ) * k ≤ p * (-1) := mul_le_mul_of_nonneg_left (by omega) hpp.le
          omega
        · have : (p : ℤ) * 1 ≤ p * k := mul_le_mul_of_nonneg_left (by omega) hpp.le
          omega
      rw [this]; ring
  have hP := cast_mod (p := p) (3 * (g.b * g.b) - 8 * (g.a * g.c))
  push_cast at hP
  unfold rootP
  simp only [e1, e2, e3, e4, if_false, Bool.false_eq_true]
  split_ifs with c1 c2
  · -- quadruple root
    rw [hP0] at c1
    have ha : (g.a : ZMod p) ≠ 0 := by
      intro ha
      apply h1
      rw [← cast_zero_iff, ← cast_zero_iff]
      refine ⟨ha, ?_⟩
      rw [ha] at c1
      have : 3 * ((g.b : ZMod p) * g.b) = 0 := by linear_combination c1
      exact mul_self_eq_zero.mp ((mul_eq_zero.mp this).resolve_left n3)
    have hinv := cast_invmod (p := p) X (4 * g.a) (by push_cast; exact mul_ne_zero n4 ha)
    push_cast at hinv
    apply root_quad n2 n3 hI hJ ha c1
    rw [cast_mod]
    push_cast
    linear_combination (-(g.b : ZMod p)) * hinv
  · rw [div_iff hp0] at c2
    have ha : (g.a : ZMod p) = 0 := (cast_zero_iff _).mpr c2
    have hb : (g.b : ZMod p) ≠ 0 := by
      intro hb
      exact h1 ⟨c2, (cast_zero_iff _).mp hb⟩
    have hinv := cast_invmod (p := p) X (3 * g.b) (by push_cast; exact mul_ne_zero n3 hb)
    push_cast at hinv
    apply root_triple_inf n3 hI hJ ha hb
    rw [cast_mod]
    push_cast
    linear_combination (-(g.c : ZMod p)) * hinv
  · rw [div_iff hp0] at c2
    rw [hP0] at c1
    have ha : (g.a : ZMod p) ≠ 0 := by rwa [Ne, cast_zero_iff]
    have hinv := cast_invmod (p := p) X (4 * g.a * mod (3 * (g.b * g.b) - 8 * (g.a * g.c)) p)
      (by push_cast; rw [hP]; exact mul_ne_zero (mul_ne_zero n4 ha) c1)
    push_cast at hinv
    rw [hP] at hinv
    apply root_triple n2 n3 hI hJ ha c1
    rw [cast_mod]
    push_cast
    rw [hP]
    linear_combination (3 * ((g.b : ZMod p) * (g.b * g.b) + 8 * (g.a * g.a) * g.d
      - 4 * (g.a * g.c) * g.b) - g.b * (3 * (g.b * g.b) - 8 * (g.a * g.c))) * hinv

omit h5 in
/-- After moving the root, `p` divides `c`, `d`, `e` of the quartic without the factor `k`. -/
theorem moveRoot_of (X : XGcd) (g : G) (k : ℤ) (m : SU) (hI : (p : ℤ) ∣ g.II)
    (hr : ¬ ((p : ℤ) ∣ g.a ∧ (p : ℤ) ∣ g.b) → ¬ ((p : ℤ) ∣ g.e ∧ (p : ℤ) ∣ g.d) → ∀ m : U,
      (p : ℤ) ∣ (g.xshift m (rootP X g p)).1.c ∧ (p : ℤ) ∣ (g.xshift m (rootP X g p)).1.d ∧
      (p : ℤ) ∣ (g.xshift m (rootP X g p)).1.e) :
    ∃ (t : M2) (g' : G), t.det = 1 ∧ (moveRoot X g (g.smul k) p m).1 = g'.smul k ∧
      GVia t 1 (g.smul k, m) (moveRoot X g (g.smul k) p m) ∧
      GVia t 1 (g, m) (g', (moveRoot X g (g.smul k) p m).2) ∧
      ((p : ℤ) ∣ g'.c ∧ (p : ℤ) ∣ g'.d ∧ (p : ℤ) ∣ g'.e) := by
  have hp0 : (p : ℤ) ≠ 0 := by exact_mod_cast hp.out.ne_zero
  have hpr : Prime (p : ℤ) := Nat.prime_iff_prime_int.mp hp.out
  have hcc : ∀ g : G, (p : ℤ) ∣ g.II → (p : ℤ) ∣ g.a * g.e → (p : ℤ) ∣ g.b * g.d → (p : ℤ) ∣ g.c := by
    intro g h1 h2 h3
    have : (p : ℤ) ∣ g.c * g.c := by
      have e : g.c * g.c = g.II - 12 * (g.a * g.e) + 3 * (g.b * g.d) := by simp only [G.II]; ring
      rw [e]
      exact dvd_add (dvd_sub h1 (Dvd.dvd.mul_left h2 _)) (Dvd.dvd.mul_left h3 _)
    rcases hpr.dvd_or_dvd this with h | h <;> exact h
  unfold moveRoot
  by_cases c1 : (p : ℤ) ∣ g.a ∧ (p : ℤ) ∣ g.b
  · have e1 : (div (p : ℤ) g.a && div (p : ℤ) g.b) = true := by
      rw [Bool.and_eq_true, div_iff hp0, div_iff hp0]; exact c1
    rw [if_pos e1]
    refine ⟨!![0, -1; 1, 0], (g.mInvert m.toU).1, by simp [Matrix.det_fin_two], ?_,
      GVia.mInvert _ _, GVia.mInvert g m, ?_⟩
    · exact G.smul_mInvert g k m.toU
    · simp only [G.mInvert]
      exact ⟨hcc g hI (Dvd.dvd.mul_right c1.1 _) (Dvd.dvd.mul_right c1.2 _),
        (dvd_neg).mpr c1.2, c1.1⟩
  · have e1 : ¬ (div (p : ℤ) g.a && div (p : ℤ) g.b) = true := by
      rw [Bool.and_eq_true, div_iff hp0, div_iff hp0]; exact c1
    rw [if_neg e1]
    by_cases c2 : (p : ℤ) ∣ g.e ∧ (p : ℤ) ∣ g.d
    · have e2 : ¬ (!div (p : ℤ) g.e || !div (p : ℤ) g.d) = true := by
        rw [← Bool.not_and, Bool.not_eq_true', Bool.eq_false_iff, Ne, not_not, Bool.and_eq_true,
          div_iff hp0, div_iff hp0]
        exact c2
      rw [if_neg e2]
      refine ⟨1, g, by simp, rfl, GVia.refl _, GVia.refl _, ?_⟩
      exact ⟨hcc g hI (Dvd.dvd.mul_left c2.1 _) (Dvd.dvd.mul_left c2.2 _), c2.2, c2.1⟩
    · have e2 : (!div (p : ℤ) g.e || !div (p : ℤ) g.d) = true := by
        rw [← Bool.not_and, Bool.not_eq_true', Bool.eq_false_iff, Ne, Bool.and_eq_true,
          div_iff hp0, div_iff hp0]
        exact c2
      rw [if_pos e2]
      refine ⟨!![1, rootP X g p; 0, 1], (g.xshift m.toU (rootP X g p)).1,
        by simp [Matrix.det_fin_two], ?_, GVia.xshift _ _ _, GVia.xshift g m _, ?_⟩
      · exact G.smul_xshift g k _ m.toU
      · exact hr c1 c2 m.toU

theorem moveRoot_spec (X : XGcd) (g : G) (k : ℤ) (m : SU) (hI : (p : ℤ) ∣ g.II)
    (hJ : (p : ℤ) ∣ g.JJ) :
    ∃ (t : M2) (g' : G), t.det = 1 ∧ (moveRoot X g (g.smul k) p m).1 = g'.smul k ∧
      GVia t 1 (g.smul k, m) (moveRoot X g (g.smul k) p m) ∧
      GVia t 1 (g, m) (g', (moveRoot X g (g.smul k) p m).2) ∧
      ((p : ℤ) ∣ g'.c ∧ (p : ℤ) ∣ g'.d ∧ (p : ℤ) ∣ g'.e) :=
  moveRoot_of X g k m hI (rootP_spec h5 X g hI hJ)

/-! ## divisibility of the coefficients -/

omit hp in
theorem not_dvd_two : ¬ (p : ℤ) ∣ 2 := fun h => by have := Int.le_of_dvd (by norm_num) h; omega
omit hp in
theorem not_dvd_three : ¬ (p : ℤ) ∣ 3 := fun h => by have := Int.le_of_dvd (by norm_num) h; omega

omit h5 in
theorem not_dvd_mul {x y : ℤ} (hx : ¬ (p : ℤ) ∣ x) (hy : ¬ (p : ℤ) ∣ y) : ¬ (p : ℤ) ∣ x * y := by
  intro h
  rcases (Nat.prime_iff_prime_int.mp hp.out).dvd_or_dvd h with h | h
  · exact hx h
  · exact hy h

omit h5 in
/-- triple root, `p` divides `a`, `p²` divides `c` -/
theorem val_triple (n3 : ¬ (p : ℤ) ∣ 3) {a b c d e : ℤ} (hb : ¬ (p : ℤ) ∣ b) (ha : (p : ℤ) ∣ a)
    (hc : (p : ℤ) ^ 2 ∣ c) (hd : (p : ℤ) ∣ d) (he : (p : ℤ) ∣ e)
    (hI : (p : ℤ) ^ 4 ∣ (G.mk a b c d e).II) (hJ : (p : ℤ) ^ 6 ∣ (G.mk a b c d e).JJ) :
    (p : ℤ) ^ 4 ∣ d ∧ (p : ℤ) ^ 6 ∣ e := by
  have hpr : Prime (p : ℤ) := Nat.prime_iff_prime_int.mp hp.out
  have n3b : ¬ (p : ℤ) ∣ 3 * b := not_dvd_mul n3 hb
  have n27 : ¬ (p : ℤ) ∣ 27 * (b * b) := by
    have : (27 : ℤ) * (b * b) = (3 * b) * ((3 * b) * 3) := by ring
    rw [this]
    exact not_dvd_mul n3b (not_dvd_mul n3b n3)
  obtain ⟨a1, rfl⟩ := ha
  obtain ⟨c1, rfl⟩ := hc
  obtain ⟨d1, hd⟩ := hd
  obtain ⟨e1, he⟩ := he
  obtain ⟨i, hI⟩ := hI
  obtain ⟨j, hJ⟩ := hJ
  simp only [G.II, G.JJ] at hI hJ
  have s1 : (p : ℤ) ^ 3 ∣ e := by
    apply hpr.pow_dvd_of_dvd_mul_left 3 n27
    refine ⟨p * (108 * a1 * e1 * c1) + p ^ 3 * c1 ^ 3 - 3 * p ^ 3 * i * c1 - 27 * a1 * d1 ^ 2
      - p ^ 3 * j, ?_⟩
    subst hd; subst he
    linear_combination (-1) * hJ + (-3 * (p : ℤ) ^ 2 * c1) * hI
  obtain ⟨e3, he3⟩ := s1
  have s2 : (p : ℤ) ^ 4 ∣ d := by
    apply hpr.pow_dvd_of_dvd_mul_left 4 n3b
    refine ⟨12 * a1 * e3 + c1 ^ 2 - i, ?_⟩
    subst he3
    linear_combination (-1) * hI
  refine ⟨s2, ?_⟩
  obtain ⟨d4, hd4⟩ := s2
  apply hpr.pow_dvd_of_dvd_mul_left 6 n27
  refine ⟨108 * a1 * e3 * c1 + c1 ^ 3 - 3 * i * c1 - 27 * p ^ 3 * a1 * d4 ^ 2 - j, ?_⟩
  subst he3; subst hd4
  linear_combination (-1) * hJ + (-3 * (p : ℤ) ^ 2 * c1) * hI

/-- quadruple root -/
theorem val_quad {a b c d e : ℤ} (ha : ¬ (p : ℤ) ∣ a) (hb : (p : ℤ) ∣ b)
    (hc : (p : ℤ) ∣ c) (hd : (p : ℤ) ∣ d) (he : (p : ℤ) ∣ e)
    (hI : (p : ℤ) ^ 4 ∣ (G.mk a b c d e).II) (hJ : (p : ℤ) ^ 6 ∣ (G.mk a b c d e).JJ) :
    (p : ℤ) ^ 2 ∣ c ∧ (p : ℤ) ^ 3 ∣ d ∧ (p : ℤ) ^ 4 ∣ e := by
  have hpr : Prime (p : ℤ) := Nat.prime_iff_prime_int.mp hp.out
  have hp0 : (p : ℤ) ≠ 0 := hpr.ne_zero
  have n2 := not_dvd_two h5
  have n3 := not_dvd_three h5
  have n12 : ¬ (p : ℤ) ∣ 12 * a := by
    have : (12 : ℤ) * a = 2 * (2 * (3 * a)) := by ring
    rw [this]
    exact not_dvd_mul n2 (not_dvd_mul n2 (not_dvd_mul n3 ha))
  have n27 : ¬ (p : ℤ) ∣ 27 * a := by
    have : (27 : ℤ) * a = 3 * (3 * (3 * a)) := by ring
    rw [this]
    exact not_dvd_mul n3 (not_dvd_mul n3 (not_dvd_mul n3 ha))
  have n8 : ¬ (p : ℤ) ∣ 8 := by
    have : (8 : ℤ) = 2 * (2 * 2) := by norm_num
    rw [this]
    exact not_dvd_mul n2 (not_dvd_mul n2 n2)
  obtain ⟨b1, rfl⟩ := hb
  obtain ⟨c1, rfl⟩ := hc
  obtain ⟨d1, rfl⟩ := hd
  obtain ⟨e1, he⟩ := he
  obtain ⟨i, hI⟩ := hI
  obtain ⟨j, hJ⟩ := hJ
  simp only [G.II, G.JJ] at hI hJ
  -- p² | e
  have s1 : (p : ℤ) ^ 2 ∣ e := by
    apply hpr.pow_dvd_of_dvd_mul_left 2 n12
    exact ⟨3 * b1 * d1 - c1 ^ 2 + p ^ 2 * i, by linear_combination hI⟩
  obtain ⟨e2, rfl⟩ := s1
  have I1 : 12 * a * e2 - 3 * b1 * d1 + c1 ^ 2 = p ^ 2 * i := by
    have : (p : ℤ) ^ 2 * (12 * a * e2 - 3 * b1 * d1 + c1 ^ 2) = p ^ 2 * (p ^ 2 * i) := by
      linear_combination hI
    exact mul_left_cancel₀ (pow_ne_zero 2 hp0) this
  have J1 : p * ((72 * a * e2 + 9 * b1 * d1 - 2 * c1 ^ 2) * c1) - 27 * a * d1 ^ 2
      - 27 * p ^ 2 * b1 ^ 2 * e2 = p ^ 4 * j := by
    have : (p : ℤ) ^ 2 * (p * ((72 * a * e2 + 9 * b1 * d1 - 2 * c1 ^ 2) * c1) - 27 * a * d1 ^ 2
      - 27 * p ^ 2 * b1 ^ 2 * e2) = p ^ 2 * (p ^ 4 * j) := by
      linear_combination hJ
    exact mul_left_cancel₀ (pow_ne_zero 2 hp0) this
  -- p | d1
  have s2 : (p : ℤ) ∣ d1 := by
    have : (p : ℤ) ∣ 27 * a * d1 ^ 2 :=
      ⟨(72 * a * e2 + 9 * b1 * d1 - 2 * c1 ^ 2) * c1 - 27 * p * b1 ^ 2 * e2 - p ^ 3 * j,
        by linear_combination (-1) * J1⟩
    rcases hpr.dvd_or_dvd this with h | h
    · exact absurd h n27
    · exact hpr.dvd_of_dvd_pow h
  obtain ⟨d2, rfl⟩ := s2
  have J2 : (72 * a * e2 + 9 * p * b1 * d2 - 2 * c1 ^ 2) * c1 - 27 * p * a * d2 ^ 2
      - 27 * p * b1 ^ 2 * e2 = p ^ 3 * j := by
    have : (p : ℤ) * ((72 * a * e2 + 9 * p * b1 * d2 - 2 * c1 ^ 2) * c1 - 27 * p * a * d2 ^ 2
      - 27 * p * b1 ^ 2 * e2) = p * (p ^ 3 * j) := by linear_combination J1
    exact mul_left_cancel₀ hp0 this
  -- p | c1
  have s3 : (p : ℤ) ∣ c1 := by
    have : (p : ℤ) ∣ 8 * c1 ^ 3 :=
      ⟨6 * p * i * c1 + 27 * b1 * d2 * c1 - 27 * a * d2 ^ 2 - 27 * b1 ^ 2 * e2 - p ^ 2 * j,
        by linear_combination (6 * c1) * I1 - J2⟩
    rcases hpr.dvd_or_dvd this with h | h
    · exact absurd h n8
    · exact hpr.dvd_of_dvd_pow h
  obtain ⟨c2, rfl⟩ := s3
  -- p | e2
  have s4 : (p : ℤ) ∣ e2 := by
    have : (p : ℤ) ∣ 12 * a * e2 :=
      ⟨3 * b1 * d2 - p * c2 ^ 2 + p * i, by linear_combination I1⟩
    rcases hpr.dvd_or_dvd this with h | h
    · exact absurd h n12
    · exact h
  obtain ⟨e3, rfl⟩ := s4
  -- p | d2
  have J3 : (72 * a * e3 + 9 * b1 * d2 - 2 * p * c2 ^ 2) * c2 * p - 27 * a * d2 ^ 2
      - 27 * p * b1 ^ 2 * e3 = p ^ 2 * j := by
    have : (p : ℤ) * ((72 * a * e3 + 9 * b1 * d2 - 2 * p * c2 ^ 2) * c2 * p - 27 * a * d2 ^ 2
      - 27 * p * b1 ^ 2 * e3) = p * (p ^ 2 * j) := by linear_combination J2
    exact mul_left_cancel₀ hp0 this
  have s5 : (p : ℤ) ∣ d2 := by
    have : (p : ℤ) ∣ 27 * a * d2 ^ 2 :=
      ⟨(72 * a * e3 + 9 * b1 * d2 - 2 * p * c2 ^ 2) * c2 - 27 * b1 ^ 2 * e3 - p * j,
        by linear_combination (-1) * J3⟩
    rcases hpr.dvd_or_dvd this with h | h
    · exact absurd h n27
    · exact hpr.dvd_of_dvd_pow h
  obtain ⟨d3, rfl⟩ := s5
  have s6 : (p : ℤ) ∣ e3 := by
    have I2 : 12 * a * e3 - 3 * p * b1 * d3 + p * c2 ^ 2 = p * i := by
      have : (p : ℤ) * (12 * a * e3 - 3 * p * b1 * d3 + p * c2 ^ 2) = p * (p * i) := by
        linear_combination I1
      exact mul_left_cancel₀ hp0 this
    have : (p : ℤ) ∣ 12 * a * e3 :=
      ⟨3 * b1 * d3 - c2 ^ 2 + i, by linear_combination I2⟩
    rcases hpr.dvd_or_dvd this with h | h
    · exact absurd h n12
    · exact h
  obtain ⟨e4, rfl⟩ := s6
  exact ⟨⟨c2, by ring⟩, ⟨d3, by ring⟩, ⟨e4, by ring⟩⟩

omit h5 in
/-- triple root, after removal of a factor `p` -/
theorem val_triple' (n3 : ¬ (p : ℤ) ∣ 3) {a b c d e : ℤ} (hb : ¬ (p : ℤ) ∣ b)
    (hc : (p : ℤ) ∣ c) (hd : (p : ℤ) ∣ d) (he : (p : ℤ) ∣ e)
    (hI : (p : ℤ) ^ 2 ∣ (G.mk a b c d e).II) (hJ : (p : ℤ) ^ 3 ∣ (G.mk a b c d e).JJ) :
    (p : ℤ) ^ 2 ∣ d ∧ (p : ℤ) ^ 3 ∣ e := by
  have hpr : Prime (p : ℤ) := Nat.prime_iff_prime_int.mp hp.out
  have n3b : ¬ (p : ℤ) ∣ 3 * b := not_dvd_mul n3 hb
  have n27 : ¬ (p : ℤ) ∣ 27 * (b * b) := by
    have : (27 : ℤ) * (b * b) = (3 * b) * ((3 * b) * 3) := by ring
    rw [this]
    exact not_dvd_mul n3b (not_dvd_mul n3b n3)
  obtain ⟨c1, rfl⟩ := hc
  obtain ⟨d1, hd⟩ := hd
  obtain ⟨e1, he⟩ := he
  obtain ⟨i, hI⟩ := hI
  obtain ⟨j, hJ⟩ := hJ
  simp only [G.II, G.JJ] at hI hJ
  have s1 : (p : ℤ) ^ 2 ∣ e := by
    apply hpr.pow_dvd_of_dvd_mul_left 2 n27
    refine ⟨108 * a * e1 * c1 + p * c1 ^ 3 - 3 * p * i * c1 - 27 * a * d1 ^ 2 - p * j, ?_⟩
    subst hd; subst he
    linear_combination (-1) * hJ + (-3 * (p : ℤ) * c1) * hI
  obtain ⟨e2, he2⟩ := s1
  have s2 : (p : ℤ) ^ 2 ∣ d := by
    apply hpr.pow_dvd_of_dvd_mul_left 2 n3b
    refine ⟨12 * a * e2 + c1 ^ 2 - i, ?_⟩
    subst he2
    linear_combination (-1) * hI
  refine ⟨s2, ?_⟩
  obtain ⟨d2, hd2⟩ := s2
  apply hpr.pow_dvd_of_dvd_mul_left 3 n27
  refine ⟨108 * a * e2 * c1 + c1 ^ 3 - 3 * i * c1 - 27 * p * a * d2 ^ 2 - j, ?_⟩
  subst he2; subst hd2
  linear_combination (-1) * hJ + (-3 * (p : ℤ) * c1) * hI

/-- quadruple root, after removal of a factor `p`: only `p² | e` follows -/
theorem val_quad' {a b c d e : ℤ} (ha : ¬ (p : ℤ) ∣ a) (hb : (p : ℤ) ∣ b)
    (hc : (p : ℤ) ∣ c) (hd : (p : ℤ) ∣ d) (he : (p : ℤ) ∣ e)
    (hI : (p : ℤ) ^ 2 ∣ (G.mk a b c d e).II) (hJ : (p : ℤ) ^ 3 ∣ (G.mk a b c d e).JJ) :
    (p : ℤ) ^ 2 ∣ d ∧ (p : ℤ) ^ 2 ∣ e := by
  have hpr : Prime (p : ℤ) := Nat.prime_iff_prime_int.mp hp.out
  have hp0 : (p : ℤ) ≠ 0 := hpr.ne_zero
  have n2 := not_dvd_two h5
  have n3 := not_dvd_three h5
  have n12 : ¬ (p : ℤ) ∣ 12 * a := by
    have : (12 : ℤ) * a = 2 * (2 * (3 * a)) := by ring
    rw [this]
    exact not_dvd_mul n2 (not_dvd_mul n2 (not_dvd_mul n3 ha))
  have n27 : ¬ (p : ℤ) ∣ 27 * a := by
    have : (27 : ℤ) * a = 3 * (3 * (3 * a)) := by ring
    rw [this]
    exact not_dvd_mul n3 (not_dvd_mul n3 (not_dvd_mul n3 ha))
  obtain ⟨b1, rfl⟩ := hb
  obtain ⟨c1, rfl⟩ := hc
  obtain ⟨d1, rfl⟩ := hd
  obtain ⟨e1, he⟩ := he
  obtain ⟨i, hI⟩ := hI
  obtain ⟨j, hJ⟩ := hJ
  simp only [G.II, G.JJ] at hI hJ
  have s1 : (p : ℤ) ^ 2 ∣ e := by
    apply hpr.pow_dvd_of_dvd_mul_left 2 n12
    exact ⟨3 * b1 * d1 - c1 ^ 2 + i, by linear_combination hI⟩
  obtain ⟨e2, rfl⟩ := s1
  have J1 : p * ((72 * a * e2 + 9 * b1 * d1 - 2 * c1 ^ 2) * c1) - 27 * a * d1 ^ 2
      - 27 * p ^ 2 * b1 ^ 2 * e2 = p * j := by
    have : (p : ℤ) ^ 2 * (p * ((72 * a * e2 + 9 * b1 * d1 - 2 * c1 ^ 2) * c1) - 27 * a * d1 ^ 2
      - 27 * p ^ 2 * b1 ^ 2 * e2) = p ^ 2 * (p * j) := by
      linear_combination hJ
    exact mul_left_cancel₀ (pow_ne_zero 2 hp0) this
  have s2 : (p : ℤ) ∣ d1 := by
    have : (p : ℤ) ∣ 27 * a * d1 ^ 2 :=
      ⟨(72 * a * e2 + 9 * b1 * d1 - 2 * c1 ^ 2) * c1 - 27 * p * b1 ^ 2 * e2 - j,
        by linear_combination (-1) * J1⟩
    rcases hpr.dvd_or_dvd this with h | h
    · exact absurd h n27
    · exact hpr.dvd_of_dvd_pow h
  obtain ⟨d2, rfl⟩ := s2
  exact ⟨⟨d2, by ring⟩, ⟨e2, by ring⟩⟩

end

end Eclib.Forms
