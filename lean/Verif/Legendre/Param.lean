import Verif.Legendre.Mordell
import Verif.Forms.Quadratic

/-!
# Parametrization of the solutions and reduction by quadratics
-/

namespace Eclib.Legendre

open Marith (XGcd)
open Forms (Q U)
open Forms.Spec (quad act)

theorem reduce_pos (q : Q) (ha : 0 < q.a) (hd : q.disc < 0) (fuel : ℕ) (hf : q.a.natAbs < fuel) :
    ∃ q' m', q.reduce fuel U.one = some (q', m') ∧ m'.det = 1 ∧ q'.disc = q.disc ∧
      (∀ X Z, quad q'.a q'.b q'.c X Z = quad q.a q.b q.c (m'.m11 * X + m'.m12 * Z) (m'.m21 * X + m'.m22 * Z)) ∧
      -q'.a ≤ q'.b ∧ q'.b < q'.a ∧ q'.a ≤ q'.c := by
  have hs : q.signStep = q := by simp [Q.signStep, not_lt.mpr ha.le]
  obtain ⟨k, e, h1, h2, h3⟩ := Forms.Q.shift_range q U.one ha
  have hv := Forms.Q.via_xShift q U.one k
  have hpd : (q.xShift U.one k).1.PosDef := by
    apply Forms.Q.posDef_of_disc
    · rw [h1]; exact ha
    · obtain ⟨_, _, _, _, hd'⟩ := hv
      rw [hd']; exact hd
  obtain ⟨r, hr, hvr, r1, r2, r3⟩ := Forms.Q.reduceLoop_spec (q.xShift U.one k).1.a.toNat
    (q.xShift U.one k).1 (q.xShift U.one k).2 hpd (by rw [h1]; exact h2) (by rw [h1]; exact h3) le_rfl
  obtain ⟨t, t1, t2, t3, t4⟩ := Forms.Q.via_trans hv hvr
  refine ⟨r.1, r.2, ?_, ?_, t4, ?_, r1, r2, r3⟩
  · simp only [Q.reduce, hs, e, Option.bind_some]
    exact hr fuel (by rw [h1]; omega)
  · have : r.2.toM.det = 1 := by
      rw [t2, Matrix.det_mul, t1, mul_one]
      simp [Forms.Props.C22_one]
    rw [← this]
    simp [U.det, U.toM, Matrix.det_fin_two]
  · intro X Z
    have : r.2.toM = t := by
      rw [t2]; simp [Forms.Props.C22_one]
    have h5 := congrFun (congrFun t3 X) Z
    rw [← this, Forms.act_toM] at h5
    exact h5

/-- `reduce` of a definite form -/
theorem reduceQ_spec (q : Q) (hd : q.disc < 0) :
    ∃ q' m', reduceQ q = some (q', m') ∧ m'.det = 1 ∧ q'.disc = q.disc ∧
      (∀ X Z, (quad q'.a q'.b q'.c X Z) ^ 2 =
        (quad q.a q.b q.c (m'.m11 * X + m'.m12 * Z) (m'.m21 * X + m'.m22 * Z)) ^ 2) ∧
      -q'.a ≤ q'.b ∧ q'.b < q'.a ∧ q'.a ≤ q'.c := by
  have ha0 : q.a ≠ 0 := by
    intro h0
    rw [Q.disc, h0] at hd
    nlinarith
  unfold reduceQ
  rcases lt_or_gt_of_ne ha0 with ha | ha
  · obtain ⟨q', m', h1, h2, h3, h4, h5⟩ := reduce_pos ⟨-q.a, -q.b, -q.c⟩ (by simpa using ha)
      (by simpa [Q.disc] using hd) (q.a.natAbs + 1) (by simp)
    refine ⟨q', m', ?_, h2, ?_, ?_, h5⟩
    · have e1 : q.signStep = ⟨-q.a, -q.b, -q.c⟩ := by simp [Q.signStep, ha]
      have e2 : (Q.mk (-q.a) (-q.b) (-q.c)).signStep = ⟨-q.a, -q.b, -q.c⟩ := by
        simp [Q.signStep, not_lt.mpr ha.le]
      simp only [Q.reduce, e1]
      simp only [Q.reduce, e2] at h1
      exact h1
    · rw [h3]; simp [Q.disc]
    · intro X Z
      rw [h4]
      simp only [quad]
      ring
  · obtain ⟨q', m', h1, h2, h3, h4, h5⟩ := reduce_pos q ha hd (q.a.natAbs + 1) (by simp)
    exact ⟨q', m', h1, h2, h3, fun X Z => by rw [h4], h5⟩

/-- a parametrization of the solutions by quadratics, with the discriminants -/
structure Param (a b c : ℤ) (qx qy qz : Q) : Prop where
  ident : ∀ X Z, a * quad qx.a qx.b qx.c X Z ^ 2 + b * quad qy.a qy.b qy.c X Z ^ 2 +
    c * quad qz.a qz.b qz.c X Z ^ 2 = 0
  dx : qx.disc = -4 * b * c
  dy : qy.disc = -4 * a * c
  dz : qz.disc = -4 * a * b

/-- the leading coefficients are a solution -/
theorem Param.lead {a b c : ℤ} {qx qy qz : Q} (h : Param a b c qx qy qz) (ha : a ≠ 0) (hb : b ≠ 0) (hc : c ≠ 0) :
    Sol a b c qx.a qy.a qz.a := by
  refine ⟨?_, ?_⟩
  · have := h.ident 1 0
    simpa [quad] using this
  · rintro ⟨h1, h2, h3⟩
    have e1 := h.dx
    have e2 := h.dy
    have e3 := h.dz
    simp only [Q.disc, h1, h2, h3] at e1 e2 e3
    have n1 : b * c ≤ 0 := by nlinarith [mul_self_nonneg qx.b]
    have n2 : a * c ≤ 0 := by nlinarith [mul_self_nonneg qy.b]
    have n3 : a * b ≤ 0 := by nlinarith [mul_self_nonneg qz.b]
    rcases lt_or_gt_of_ne ha with pa | pa <;> rcases lt_or_gt_of_ne hb with pb | pb <;>
      rcases lt_or_gt_of_ne hc with pc | pc <;> nlinarith

theorem Param.transform {a b c : ℤ} {qx qy qz rx ry rz : Q} (h : Param a b c qx qy qz) (m : U)
    (hx : rx.disc = qx.disc) (hy : ry.disc = qy.disc) (hz : rz.disc = qz.disc)
    (ix : ∀ X Z, quad rx.a rx.b rx.c X Z ^ 2 = quad qx.a qx.b qx.c (m.m11 * X + m.m12 * Z) (m.m21 * X + m.m22 * Z) ^ 2)
    (iy : ∀ X Z, quad ry.a ry.b ry.c X Z ^ 2 = quad qy.a qy.b qy.c (m.m11 * X + m.m12 * Z) (m.m21 * X + m.m22 * Z) ^ 2)
    (iz : ∀ X Z, quad rz.a rz.b rz.c X Z ^ 2 = quad qz.a qz.b qz.c (m.m11 * X + m.m12 * Z) (m.m21 * X + m.m22 * Z) ^ 2) :
    Param a b c rx ry rz := by
  refine ⟨fun X Z => ?_, by rw [hx, h.dx], by rw [hy, h.dy], by rw [hz, h.dz]⟩
  rw [ix, iy, iz]
  exact h.ident _ _

theorem transform_eq (q : Q) (m : U) (X Z : ℤ) : quad (q.transform m).a (q.transform m).b (q.transform m).c X Z ^ 2 =
    quad q.a q.b q.c (m.m11 * X + m.m12 * Z) (m.m21 * X + m.m22 * Z) ^ 2 := by
  simp only [quad, Q.transform, Q.eval]
  ring

theorem transform_disc (q : Q) (m : U) (h : m.det = 1) : (q.transform m).disc = q.disc := by
  rw [Forms.Props.C23_transform_disc, h]; ring

/-- exact division in `paramShift` -/
theorem paramShift_spec {e z1 : ℤ} {q : Q} (hz : z1 ≠ 0) (h1 : z1 ∣ q.b + 2 * (e * q.a))
    (h2 : z1 ^ 2 ∣ q.c + (e * q.a + q.b) * e) :
    (∀ X Z, z1 ^ 2 * quad (paramShift e z1 q).a (paramShift e z1 q).b (paramShift e z1 q).c X Z =
      quad q.a q.b q.c (z1 * X + e * Z) Z) ∧ z1 ^ 2 * (paramShift e z1 q).disc = q.disc := by
  obtain ⟨s, hs⟩ := h1
  obtain ⟨t, ht⟩ := h2
  have e1 : paramShift e z1 q = ⟨q.a, s, t⟩ := by
    simp only [paramShift, Q.xShift]
    rw [hs, ht, Int.mul_fdiv_cancel_left _ hz, Int.mul_fdiv_cancel_left _ (pow_ne_zero 2 hz)]
  rw [e1]
  refine ⟨fun X Z => ?_, ?_⟩
  · simp only [quad]
    linear_combination -z1 * X * Z * hs - Z ^ 2 * ht
  · simp only [Q.disc]
    linear_combination -(z1 * s + q.b + 2 * (e * q.a)) * hs + 4 * q.a * ht

/-- the quadratics before the reduction -/
theorem param_base {a1 b c x0 y1 z1 e : ℤ} (hz : z1 ≠ 0) (h : a1 * x0 ^ 2 + b * y1 ^ 2 + c * z1 ^ 2 = 0)
    (hco : IsCoprime y1 z1) (he : z1 ^ 2 ∣ e * y1 - x0) :
    Param a1 b c (paramShift e z1 ⟨a1 * x0, 2 * b * y1, -b * x0⟩) (paramShift e z1 ⟨-a1 * y1, 2 * a1 * x0, b * y1⟩)
      (paramShift e z1 ⟨a1 * z1, 0, b * z1⟩) := by
  obtain ⟨k, hk⟩ := he
  have hx0 : x0 = e * y1 - z1 ^ 2 * k := by linarith
  have co2 : IsCoprime y1 (z1 ^ 2) := hco.pow_right
  have co22 : IsCoprime (y1 ^ 2) (z1 ^ 2) := co2.pow_left
  have dz2 : z1 ∣ z1 ^ 2 := dvd_pow_self _ two_ne_zero
  obtain ⟨ix, jx⟩ := paramShift_spec (e := e) (q := ⟨a1 * x0, 2 * b * y1, -b * x0⟩) hz
    (by
      refine dz2.trans (dvd_cancel co2 ?_)
      exact ⟨-2 * c + 2 * k * a1 * x0, by simp only; linear_combination 2 * h + 2 * a1 * x0 * hk⟩)
    (by
      refine dvd_cancel co22 ?_
      refine ⟨-c * x0 + a1 * x0 * k * (e * y1 + x0) + 2 * b * y1 ^ 2 * k, ?_⟩
      simp only
      linear_combination x0 * h + (a1 * x0 * (e * y1 + x0) + 2 * b * y1 ^ 2) * hk)
  obtain ⟨iy, jy⟩ := paramShift_spec (e := e) (q := ⟨-a1 * y1, 2 * a1 * x0, b * y1⟩) hz
    (by
      refine dz2.trans ?_
      exact ⟨-2 * a1 * k, by simp only; linear_combination -2 * a1 * hk⟩)
    (by
      refine dvd_cancel co2 ?_
      refine ⟨-c - a1 * k * (e * y1 - x0), ?_⟩
      simp only
      linear_combination h - a1 * (e * y1 - x0) * hk)
  have hze : z1 ^ 2 ∣ a1 * e ^ 2 + b := by
    refine dvd_cancel co22 ?_
    refine ⟨-c + a1 * k * (e * y1 + x0), ?_⟩
    linear_combination h + a1 * (e * y1 + x0) * hk
  obtain ⟨iz, jz⟩ := paramShift_spec (e := e) (q := ⟨a1 * z1, 0, b * z1⟩) hz
    (⟨2 * e * a1, by simp only; ring⟩)
    (by
      obtain ⟨w, hw⟩ := hze
      exact ⟨z1 * w, by simp only; linear_combination z1 * hw⟩)
  have hz2 : z1 ^ 2 ≠ 0 := pow_ne_zero 2 hz
  refine ⟨fun X Z => ?_, ?_, ?_, ?_⟩
  · have h1 := ix X Z
    have h2 := iy X Z
    have h3 := iz X Z
    generalize quad (paramShift e z1 ⟨a1 * x0, 2 * b * y1, -b * x0⟩).a _ _ X Z = A at *
    generalize quad (paramShift e z1 ⟨-a1 * y1, 2 * a1 * x0, b * y1⟩).a _ _ X Z = B at *
    generalize quad (paramShift e z1 ⟨a1 * z1, 0, b * z1⟩).a _ _ X Z = C at *
    have h4 : z1 ^ 2 * z1 ^ 2 * (a1 * A ^ 2 + b * B ^ 2 + c * C ^ 2) = 0 := by
      have : z1 ^ 2 * z1 ^ 2 * (a1 * A ^ 2 + b * B ^ 2 + c * C ^ 2) =
          a1 * (z1 ^ 2 * A) ^ 2 + b * (z1 ^ 2 * B) ^ 2 + c * (z1 ^ 2 * C) ^ 2 := by ring
      rw [this, h1, h2, h3]
      simp only [quad]
      generalize z1 * X + e * Z = Y
      linear_combination (a1 * Y ^ 2 + b * Z ^ 2) ^ 2 * h
    exact (mul_eq_zero.mp h4).resolve_left (mul_ne_zero hz2 hz2)
  · apply mul_left_cancel₀ hz2
    rw [jx]
    simp only [Q.disc]
    linear_combination 4 * b * h
  · apply mul_left_cancel₀ hz2
    rw [jy]
    simp only [Q.disc]
    linear_combination 4 * a1 * h
  · apply mul_left_cancel₀ hz2
    rw [jz]
    simp only [Q.disc]
    ring

/-- `legendre_param` for a primitive solution with `z0 ≠ 0` -/
theorem legendreParam_spec (X : XGcd) {a b c x0 y0 z0 : ℤ} (ha : a ≠ 0) (hb : b ≠ 0) (hc : c ≠ 0)
    (hS : Sol a b c x0 y0 z0) (hP : Prim x0 y0 z0) (hz0 : z0 ≠ 0) :
    ∃ qx qy qz, legendreParam X a b c x0 y0 z0 = some (qx, qy, qz) ∧ Param a b c qx qy qz := by
  obtain ⟨g, hg⟩ : ∃ g, g = gcd y0 z0 := ⟨_, rfl⟩
  have hg0 : 0 < g := by
    rw [hg]
    exact_mod_cast Int.gcd_pos_of_ne_zero_right _ hz0
  obtain ⟨y1, hy1⟩ : g ∣ y0 := hg ▸ dvd_fst _ _
  obtain ⟨z1, hz1⟩ : g ∣ z0 := hg ▸ dvd_snd _ _
  have hco : IsCoprime y1 z1 := coprime_quot hg0.ne' hg hy1 hz1
  have hgx : IsCoprime (x0 ^ 2) (g ^ 2) := by
    refine IsCoprime.pow (coprime_of_prime fun p hp h1 h2 => ?_)
    exact hp.not_isUnit (hP p h1 (by rw [hy1]; exact h2.mul_right _) (by rw [hz1]; exact h2.mul_right _))
  obtain ⟨a1, ha1⟩ : g ^ 2 ∣ a := by
    apply dvd_cancel hgx
    refine ⟨-(b * y1 ^ 2 + c * z1 ^ 2), ?_⟩
    have := hS.eqn
    rw [hy1, hz1] at this
    linear_combination this
  have hg2 : g ^ 2 ≠ 0 := pow_ne_zero 2 hg0.ne'
  have hz10 : z1 ≠ 0 := by rintro rfl; exact hz0 (by rw [hz1, mul_zero])
  have ha10 : a1 ≠ 0 := by rintro rfl; exact ha (by rw [ha1, mul_zero])
  have heq : a1 * x0 ^ 2 + b * y1 ^ 2 + c * z1 ^ 2 = 0 := by
    apply mul_left_cancel₀ hg2
    have := hS.eqn
    rw [hy1, hz1, ha1] at this
    linear_combination this
  unfold legendreParam
  simp only
  rw [← hg]
  have e1 : (if g > 1 then a.fdiv (g ^ 2) else a) = a1 := by
    split_ifs with h1
    · rw [ha1, Int.mul_fdiv_cancel_left _ hg2]
    · have : g = 1 := by omega
      rw [ha1, this, one_pow, one_mul]
  have e2 : (if g > 1 then y0.fdiv g else y0) = y1 := by
    split_ifs with h1
    · rw [hy1, Int.mul_fdiv_cancel_left _ hg0.ne']
    · have : g = 1 := by omega
      rw [hy1, this, one_mul]
  have e3 : (if g > 1 then z0.fdiv g else z0) = z1 := by
    split_ifs with h1
    · rw [hz1, Int.mul_fdiv_cancel_left _ hg0.ne']
    · have : g = 1 := by omega
      rw [hz1, this, one_mul]
  rw [e1, e2, e3, if_neg hz10]
  obtain ⟨e, he⟩ : ∃ e, e = ((X.run y1 (z1 ^ 2)).2.1 * x0).fmod (z1 ^ 2) := ⟨_, rfl⟩
  rw [← he]
  have hed : z1 ^ 2 ∣ e * y1 - x0 := by
    have h1 := X.identity y1 (z1 ^ 2)
    have h2 : Int.gcd y1 (z1 ^ 2) = 1 := Int.isCoprime_iff_gcd_eq_one.mp hco.pow_right
    rw [X.gcd_eq, h2] at h1
    push_cast at h1
    have h3 := Int.fmod_add_mul_fdiv ((X.run y1 (z1 ^ 2)).2.1 * x0) (z1 ^ 2)
    rw [← he] at h3
    refine ⟨-(((X.run y1 (z1 ^ 2)).2.1 * x0).fdiv (z1 ^ 2)) * y1 - (X.run y1 (z1 ^ 2)).2.2 * x0, ?_⟩
    linear_combination y1 * h3 + x0 * h1
  have hB := param_base hz10 heq hco hed
  generalize paramShift e z1 ⟨a1 * x0, 2 * b * y1, -b * x0⟩ = qx at *
  generalize paramShift e z1 ⟨-a1 * y1, 2 * a1 * x0, b * y1⟩ = qy at *
  generalize paramShift e z1 ⟨a1 * z1, 0, b * z1⟩ = qz at *
  have hg2p : 0 < g ^ 2 := by positivity
  -- the reduced quadratics
  obtain ⟨rx, ry, rz, hr, hR⟩ : ∃ rx ry rz, (if a * b > 0 then
      (reduceQ qz).map fun s => (qx.transform s.2, qy.transform s.2, s.1)
      else if a * c > 0 then (reduceQ qy).map fun s => (qx.transform s.2, s.1, qz.transform s.2)
      else (reduceQ qx).map fun s => (s.1, qy.transform s.2, qz.transform s.2)) = some (rx, ry, rz) ∧
      Param a1 b c rx ry rz := by
    split_ifs with h1 h2
    · have hd : qz.disc < 0 := by
        rw [hB.dz]
        have : g ^ 2 * (a1 * b) > 0 := by rw [← mul_assoc, ← ha1]; exact h1
        have := (mul_pos_iff_of_pos_left hg2p).mp this
        linarith
      obtain ⟨q', m', h3, h4, h5, h6, -⟩ := reduceQ_spec qz hd
      rw [h3]
      exact ⟨_, _, _, rfl, hB.transform m' (transform_disc _ _ h4) (transform_disc _ _ h4) h5
        (transform_eq _ _) (transform_eq _ _) h6⟩
    · have hd : qy.disc < 0 := by
        rw [hB.dy]
        have : g ^ 2 * (a1 * c) > 0 := by rw [← mul_assoc, ← ha1]; exact h2
        have := (mul_pos_iff_of_pos_left hg2p).mp this
        linarith
      obtain ⟨q', m', h3, h4, h5, h6, -⟩ := reduceQ_spec qy hd
      rw [h3]
      exact ⟨_, _, _, rfl, hB.transform m' (transform_disc _ _ h4) h5 (transform_disc _ _ h4)
        (transform_eq _ _) h6 (transform_eq _ _)⟩
    · have hd : qx.disc < 0 := by
        rw [hB.dx]
        have : 0 < b * c := by
          rcases lt_or_gt_of_ne ha with pa | pa <;> rcases lt_or_gt_of_ne hb with pb | pb <;>
            rcases lt_or_gt_of_ne hc with pc | pc <;> nlinarith
        linarith
      obtain ⟨q', m', h3, h4, h5, h6, -⟩ := reduceQ_spec qx hd
      rw [h3]
      exact ⟨_, _, _, rfl, hB.transform m' h5 (transform_disc _ _ h4) (transform_disc _ _ h4)
        h6 (transform_eq _ _) (transform_eq _ _)⟩
  rw [hr]
  by_cases hg1 : g > 1
  · rw [if_pos hg1]
    refine ⟨_, _, _, rfl, ⟨fun X Z => ?_, ?_, ?_, ?_⟩⟩
    · have := hR.ident X Z
      simp only [quad] at this ⊢
      rw [ha1]
      linear_combination g ^ 2 * this
    · exact hR.dx
    · have := hR.dy
      simp only [Q.disc] at this ⊢
      rw [ha1]
      linear_combination g ^ 2 * this
    · have := hR.dz
      simp only [Q.disc] at this ⊢
      rw [ha1]
      linear_combination g ^ 2 * this
  · rw [if_neg hg1]
    have : a = a1 := by
      have : g = 1 := by omega
      rw [ha1, this, one_pow, one_mul]
    rw [this]
    exact ⟨_, _, _, rfl, hR⟩

/-- the test of one bound implies all bounds -/
theorem holzerTest_spec {a b c x y z : ℤ} (hC : Coef a b c) (hpos : ¬ (0 < a ∧ 0 < b ∧ 0 < c))
    (hneg : ¬ (a < 0 ∧ b < 0 ∧ c < 0)) (hS : Sol a b c x y z) (h : holzerTest a b c x y z = true) :
    Holzer a b c x y z := by
  have ha0 := hC.a0
  have hb0 := hC.b0
  have hc0 := hC.c0
  have sneg : ∀ {a b c x y z : ℤ}, Sol a b c x y z → Sol (-a) (-b) (-c) x y z := by
    intro a b c x y z h
    exact ⟨by linear_combination -h.eqn, h.ne⟩
  unfold holzerTest at h
  split_ifs at h with h1 h2
  · have h := of_decide_eq_true h
    rcases h1 with ⟨p1, p2, p3⟩ | ⟨p1, p2, p3⟩
    · exact (holzer_of p2 p3 p1 hS.cyc.cyc h).cyc
    · exact ((holzer_of (a := -b) (b := -c) (c := -a) (by omega) (by omega) (by omega) (sneg hS).cyc.cyc
        (by rw [neg_mul_neg]; exact h)).cyc).neg
  · have h := of_decide_eq_true h
    rcases h2 with ⟨p1, p2, p3⟩ | ⟨p1, p2, p3⟩
    · exact (holzer_of p2 p3 p1 hS.flip h).flip
    · exact ((holzer_of (a := -a) (b := -c) (c := -b) (by omega) (by omega) (by omega) (sneg hS).flip
        (by rw [neg_mul_neg]; exact h)).flip).neg
  · have h := of_decide_eq_true h
    rcases lt_or_gt_of_ne ha0 with p1 | p1
    · exact (holzer_of (a := -a) (b := -b) (c := -c) (by omega) (by omega) (by omega) (sneg hS)
        (by rw [neg_mul_neg]; exact h)).neg
    · exact holzer_of p1 (by omega) (by omega) hS h

/-- a primitive solution with `z = 0` passes the test -/
theorem holzerTest_z0 {a b c x y : ℤ} (hC : Coef a b c) (hS : Sol a b c x y 0) (hP : Prim x y 0) :
    holzerTest a b c x y 0 = true := by
  have hco : IsCoprime x y := coprime_of_prime fun p hp h1 h2 => hp.not_isUnit (hP p h1 h2 (dvd_zero p))
  have heq : a * x ^ 2 + b * y ^ 2 = 0 := by have := hS.eqn; linarith
  have hc2 : IsCoprime (x ^ 2) (y ^ 2) := hco.pow
  have h1 : x ^ 2 ∣ b := dvd_cancel hc2.symm ⟨-a, by linear_combination heq⟩
  have h2 : y ^ 2 ∣ a := dvd_cancel hc2 ⟨-b, by linear_combination heq⟩
  have hx0 : x ^ 2 ≤ |b| := by
    have := Int.le_of_dvd (abs_pos.mpr hC.b0) ((dvd_abs _ _).mpr h1)
    exact this
  have hy0 : y ^ 2 ≤ |a| := Int.le_of_dvd (abs_pos.mpr hC.a0) ((dvd_abs _ _).mpr h2)
  have hc1 := Int.one_le_abs hC.c0
  have hxb : x ^ 2 ≤ |b * c| := by
    rw [abs_mul]
    nlinarith [abs_nonneg b]
  have hya : y ^ 2 ≤ |a * c| := by
    rw [abs_mul]
    nlinarith [abs_nonneg a]
  unfold holzerTest
  split_ifs with t1 t2
  · apply decide_eq_true
    have : 0 < b * c := by
      rcases t1 with ⟨_, p2, p3⟩ | ⟨_, p2, p3⟩
      · exact mul_pos p2 p3
      · exact mul_pos_of_neg_of_neg p2 p3
    rwa [abs_of_pos this] at hxb
  · apply decide_eq_true
    have : 0 < a * c := by
      rcases t2 with ⟨_, p2, p3⟩ | ⟨_, p2, p3⟩
      · exact mul_pos p2 p3
      · exact mul_pos_of_neg_of_neg p2 p3
    rwa [abs_of_pos this] at hya
  · apply decide_eq_true
    have ha0 := hC.a0
    have hb0 := hC.b0
    have hc0 := hC.c0
    have : 0 < a * b := by
      rcases lt_or_gt_of_ne ha0 with pa | pa <;> rcases lt_or_gt_of_ne hb0 with pb | pb
      · exact mul_pos_of_neg_of_neg pa pb
      · exfalso; omega
      · exfalso; omega
      · exact mul_pos pa pb
    simpa using this.le

theorem cancel_spec {x y z : ℤ} (h : ¬ (x = 0 ∧ y = 0 ∧ z = 0)) :
    let r := cancel x y z
    Prim r.1 r.2.1 r.2.2 ∧ (∃ g : ℤ, g ≠ 0 ∧ x = g * r.1 ∧ y = g * r.2.1 ∧ z = g * r.2.2) ∧ 0 ≤ r.2.2 ∧
      (r.2.2 = 0 → 0 ≤ r.2.1) ∧ (r.2.2 = 0 → r.2.1 = 0 → 0 ≤ r.1) := by
  intro r
  have hr : r = cancel x y z := rfl
  unfold cancel at hr
  obtain ⟨h1, g, hg, hx, hy, hz⟩ := cancel1_spec h
  simp only at hr
  generalize cancel1 x y z = s at *
  have hn : Prim (-s.1) (-s.2.1) (-s.2.2) := fun d h2 h3 h4 =>
    h1 d (by simpa using h2) (by simpa using h3) (by simpa using h4)
  by_cases t1 : s.2.2 > 0
  · rw [if_pos t1] at hr; rw [hr]
    exact ⟨h1, ⟨g, hg.ne', hx, hy, hz⟩, by omega, by omega, by omega⟩
  rw [if_neg t1] at hr
  by_cases t2 : s.2.2 < 0
  · rw [if_pos t2] at hr; rw [hr]
    exact ⟨hn, ⟨-g, by omega, by rw [hx]; ring, by rw [hy]; ring, by rw [hz]; ring⟩, by simp only; omega,
      by simp only; omega, by simp only; omega⟩
  rw [if_neg t2] at hr
  have z0 : s.2.2 = 0 := by omega
  by_cases t3 : s.2.1 > 0
  · rw [if_pos t3] at hr; rw [hr]
    exact ⟨h1, ⟨g, hg.ne', hx, hy, hz⟩, by omega, by omega, by omega⟩
  rw [if_neg t3] at hr
  by_cases t4 : s.2.1 < 0
  · rw [if_pos t4] at hr; rw [hr]
    refine ⟨fun d h2 h3 h4 => hn d h2 h3 (by simpa using h4), ⟨-g, by omega, by simp only; rw [hx]; ring, by simp only; rw [hy]; ring, by
      simp only; rw [hz, z0]; ring⟩, by simp only; omega, by simp only; omega, by simp only; omega⟩
  rw [if_neg t4] at hr
  have y0 : s.2.1 = 0 := by omega
  by_cases t5 : s.1 < 0
  · rw [if_pos t5] at hr; rw [hr]
    refine ⟨fun d h2 h3 h4 => hn d h2 (by simpa using h3) (by simpa using h4), ⟨-g, by omega, by simp only; rw [hx]; ring, by
      simp only; rw [hy, y0]; ring, by
      simp only; rw [hz, z0]; ring⟩, by simp only; omega, by simp only; omega, by simp only; omega⟩
  · rw [if_neg t5] at hr; rw [hr]
    exact ⟨h1, ⟨g, hg.ne', hx, hy, hz⟩, by omega, by omega, by omega⟩

theorem Sol.abs {a b c x y z : ℤ} (h : Sol a b c x y z) : Sol a b c |x| |y| |z| :=
  ⟨by rw [sq_abs, sq_abs, sq_abs]; exact h.eqn, fun ⟨h1, h2, h3⟩ => h.ne ⟨abs_eq_zero.mp h1, abs_eq_zero.mp h2, abs_eq_zero.mp h3⟩⟩

/-- `new_legendre_reduce` -/
theorem newReduce_spec (X : XGcd) {a b c x y z : ℤ} (hC : Coef a b c)
    (hpos : ¬ (0 < a ∧ 0 < b ∧ 0 < c)) (hneg : ¬ (a < 0 ∧ b < 0 ∧ c < 0))
    (hS : Sol a b c x y z) (hP : Prim x y z) :
    ∃ s, newReduce X a b c x y z = some s ∧ Sol a b c s.1 s.2.1 s.2.2 ∧ Prim s.1 s.2.1 s.2.2 ∧
      Holzer a b c s.1 s.2.1 s.2.2 := by
  unfold newReduce
  by_cases h1 : holzerTest a b c x y z = true
  · rw [if_pos h1]
    exact ⟨_, rfl, hS, hP, holzerTest_spec hC hpos hneg hS h1⟩
  rw [if_neg h1]
  have hz0 : z ≠ 0 := by
    rintro rfl
    exact h1 (holzerTest_z0 hC hS hP)
  obtain ⟨qx, qy, qz, hq, hp⟩ := legendreParam_spec X hC.a0 hC.b0 hC.c0 hS hP hz0
  rw [hq]
  have hS1 := (hp.lead hC.a0 hC.b0 hC.c0).abs
  obtain ⟨c1, ⟨g, hg, c2, c3, c4⟩, -⟩ := cancel_spec hS1.ne
  have hS2 : Sol a b c (cancel |qx.a| |qy.a| |qz.a|).1 (cancel |qx.a| |qy.a| |qz.a|).2.1
      (cancel |qx.a| |qy.a| |qz.a|).2.2 := by
    apply Sol.of_mul hg
    rw [← c2, ← c3, ← c4]
    exact hS1
  simp only
  generalize cancel |qx.a| |qy.a| |qz.a| = s at *
  by_cases h2 : holzerTest a b c s.1 s.2.1 s.2.2 = true
  · rw [if_pos h2]
    exact ⟨_, rfl, hS2, c1, holzerTest_spec hC hpos hneg hS2 h2⟩
  · rw [if_neg h2]
    exact legendreReduce_spec X hC hpos hneg hS2 c1

end Eclib.Legendre
