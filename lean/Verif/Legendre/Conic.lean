import Verif.Legendre.Local

/-!
# `solve_conic` and `solve_conic_param`
-/

namespace Eclib.Legendre

open Marith (XGcd SqrRootMod isqrt)
open Forms (Q)
open Forms.Spec (quad)

/-- a non-trivial solution of `a x² + b x z + c z² = d y²` -/
structure CSol (a b c d x y z : ℤ) : Prop where
  eqn : a * x ^ 2 + b * x * z + c * z ^ 2 = d * y ^ 2
  ne : ¬ (x = 0 ∧ y = 0 ∧ z = 0)

/-- a parametrization of the solutions of `a x² + b x z + c z² = d y²` by quadratics, with the discriminants -/
structure CParam (a b c d : ℤ) (qx qy qz : Q) : Prop where
  lead : CSol a b c d qx.a qy.a qz.a
  ident : ∀ X Z, a * quad qx.a qx.b qx.c X Z ^ 2 + b * quad qx.a qx.b qx.c X Z * quad qz.a qz.b qz.c X Z +
      c * quad qz.a qz.b qz.c X Z ^ 2 = d * quad qy.a qy.b qy.c X Z ^ 2
  dx : qx.disc = 4 * c * d
  dy : qy.disc = b ^ 2 - 4 * a * c
  dz : qz.disc = 4 * a * d
  bxz : qx.b * qz.b - 2 * (qx.a * qz.c + qx.c * qz.a) = -(2 * b * d)

theorem CSol.cancel {a b c d x y z : ℤ} (h : CSol a b c d x y z) :
    CSol a b c d (cancel x y z).1 (cancel x y z).2.1 (cancel x y z).2.2 ∧
      Prim (cancel x y z).1 (cancel x y z).2.1 (cancel x y z).2.2 := by
  obtain ⟨hP, ⟨g, hg, gx, gy, gz⟩, -⟩ := cancel_spec h.ne
  have h3 := h.eqn
  have hn := h.ne
  generalize (Legendre.cancel x y z).1 = u at *
  generalize (Legendre.cancel x y z).2.1 = v at *
  generalize (Legendre.cancel x y z).2.2 = w at *
  subst gx gy gz
  refine ⟨⟨?_, ?_⟩, hP⟩
  · apply mul_left_cancel₀ (pow_ne_zero 2 hg)
    linear_combination h3
  · rintro ⟨rfl, rfl, rfl⟩
    simp at hn

/-! ### `solve_conic` -/

theorem solveConic_spec (X : XGcd) (S : SqrRootMod) {a b c d : ℤ} {fb : List ℤ} (ha : a ≠ 0) (hd : d ≠ 0)
    (hD : b ^ 2 - 4 * a * c ≠ 0) (hpr : ∀ p ∈ fb, 0 < p ∧ Prime p) (hnd : fb.Nodup)
    (hall : ∀ p, 0 < p → Prime p → p ∣ (b ^ 2 - 4 * a * c) * a * d → p ∈ fb) :
    (∃ x y z, solveConic X S a b c d fb = .sol x y z ∧ CSol a b c d x y z ∧ Prim x y z) ∨
    (solveConic X S a b c d fb = .insol ∧ ¬ ∃ x y z, CSol a b c d x y z) := by
  by_cases hb : b = 0
  · subst hb
    have e0 : solveConic X S a 0 c d fb = legendreSolve X S a (-d) c fb := by
      unfold solveConic; rw [if_pos rfl]
    have hc : c ≠ 0 := by rintro rfl; simp at hD
    rw [e0]
    rcases legendreSolve_spec X S ha (neg_ne_zero.mpr hd) hc hpr hnd (fun p h0 h1 h2 => hall p h0 h1 (by
      have : (0 ^ 2 - 4 * a * c) * a * d = a * (-d) * c * (4 * a) := by ring
      rw [this]; exact h2.mul_right _)) with ⟨x, y, z, h1, h2, h3, -⟩ | ⟨h1, h2⟩
    · exact Or.inl ⟨x, y, z, h1, ⟨by linear_combination h2.eqn, h2.ne⟩, h3⟩
    · refine Or.inr ⟨h1, ?_⟩
      rintro ⟨x, y, z, h⟩
      exact h2 ⟨x, y, z, by linear_combination h.eqn, h.ne⟩
  · have e0 : solveConic X S a b c d fb = match legendreSolve X S 1 (-(b ^ 2 - 4 * a * c)) (-(a * d)) fb with
        | .sol x z y =>
          .sol (cancel (x - b * z) (y * a) (z * (2 * a))).1 (cancel (x - b * z) (y * a) (z * (2 * a))).2.1
            (cancel (x - b * z) (y * a) (z * (2 * a))).2.2
        | .insol => .insol
        | .problem => .problem := by
      unfold solveConic; rw [if_neg hb]; rfl
    rw [e0]
    rcases legendreSolve_spec X S one_ne_zero (neg_ne_zero.mpr hD) (neg_ne_zero.mpr (mul_ne_zero ha hd)) hpr hnd
      (fun p h0 h1 h2 => hall p h0 h1 (by
        have : (b ^ 2 - 4 * a * c) * a * d = 1 * -(b ^ 2 - 4 * a * c) * -(a * d) := by ring
        rw [this]; exact h2)) with ⟨x, z, y, h1, h2, -⟩ | ⟨h1, h2⟩
    · rw [h1]
      left
      have hne : ¬ (x - b * z = 0 ∧ y * a = 0 ∧ z * (2 * a) = 0) := by
        rintro ⟨k1, k2, k3⟩
        have k4 := (mul_eq_zero.mp k2).resolve_right ha
        have k5 := (mul_eq_zero.mp k3).resolve_right (mul_ne_zero two_ne_zero ha)
        rw [k5, mul_zero, sub_zero] at k1
        exact h2.ne ⟨k1, k5, k4⟩
      have hs : CSol a b c d (x - b * z) (y * a) (z * (2 * a)) := ⟨by linear_combination a * h2.eqn, hne⟩
      exact ⟨_, _, _, rfl, hs.cancel.1, hs.cancel.2⟩
    · rw [h1]
      refine Or.inr ⟨rfl, ?_⟩
      rintro ⟨x, y, z, h⟩
      refine h2 ⟨2 * a * x + b * z, z, 2 * y, by linear_combination 4 * a * h.eqn, ?_⟩
      rintro ⟨k1, k2, k3⟩
      rw [k2, mul_zero, add_zero] at k1
      exact h.ne ⟨(mul_eq_zero.mp k1).resolve_left (mul_ne_zero two_ne_zero ha),
        (mul_eq_zero.mp k3).resolve_left two_ne_zero, k2⟩

/-! ### the methods 0 to 3 -/

/-- For `b = 0` the methods 0 to 3 are right, if `solve_conic_diag` is. -/
theorem solveConicOld_diag {diag : ℤ → List ℤ → ℤ → List ℤ → Option (ℤ × ℤ × ℤ)} {a c d : ℤ} {fb : List ℤ}
    (ha : a ≠ 0) (hc : c ≠ 0) (hd : d ≠ 0) (hpr : ∀ p ∈ fb, 0 < p ∧ Prime p) (hnd : fb.Nodup)
    (hall : ∀ p, 0 < p → Prime p → p ∣ a * c * d → p ∈ fb)
    (hdiag : ∀ u lu v lv, Squarefree u → Squarefree v → Spec.IsPrimeDivisorList u lu → Spec.IsPrimeDivisorList v lv →
      (∃ x y z : ℤ, u * x ^ 2 + v * y ^ 2 = z ^ 2 ∧ ¬ (x = 0 ∧ y = 0 ∧ z = 0)) →
      ∃ s, diag u lu v lv = some s ∧ s.1 ^ 2 - u * s.2.2 ^ 2 = v * s.2.1 ^ 2 ∧ ¬ (s.1 = 0 ∧ s.2.1 = 0 ∧ s.2.2 = 0)) :
    (∃ x y z, solveConicOld diag a 0 c d fb = .sol x y z ∧ CSol a 0 c d x y z ∧ Prim x y z) ∨
    (solveConicOld diag a 0 c d fb = .insol ∧ ¬ ∃ x y z, CSol a 0 c d x y z) := by
  have haa : -a * c ≠ 0 := mul_ne_zero (neg_ne_zero.mpr ha) hc
  have hbb : a * d ≠ 0 := mul_ne_zero ha hd
  have hA := Marith.Props.C14_sqfdecomp_factorbase (-a * c) fb haa hpr hnd fun p h0 h1 h2 =>
    hall p h0 h1 (by
      have : a * c * d = -a * c * -d := by ring
      rw [this]; exact h2.mul_right _)
  have hB := Marith.Props.C14_sqfdecomp_factorbase (a * d) fb hbb hpr hnd fun p h0 h1 h2 =>
    hall p h0 h1 (by
      have : a * c * d = a * d * c := by ring
      rw [this]; exact h2.mul_right _)
  have e0 : solveConicOld diag a 0 c d fb =
      if !testlocsol2 (Marith.sqfdecomp (-a * c) fb).1 (Marith.sqfdecomp (-a * c) fb).2.2
        (Marith.sqfdecomp (a * d) fb).1 (Marith.sqfdecomp (a * d) fb).2.2 then .insol
      else
        match diag (Marith.sqfdecomp (-a * c) fb).1 (Marith.sqfdecomp (-a * c) fb).2.2
            (Marith.sqfdecomp (a * d) fb).1 (Marith.sqfdecomp (a * d) fb).2.2 with
        | none => .problem
        | some s =>
          let r := cancel (s.1 * ((Marith.sqfdecomp (-a * c) fb).2.1 * (Marith.sqfdecomp (a * d) fb).2.1))
            (s.2.1 * (Marith.sqfdecomp (-a * c) fb).2.1 * a) (s.2.2 * (Marith.sqfdecomp (a * d) fb).2.1 * a)
          .sol r.1 r.2.1 r.2.2 := rfl
  rw [e0]
  obtain ⟨a1, a2, a3, a4⟩ := hA
  obtain ⟨b1, b2, b3, b4⟩ := hB
  generalize (Marith.sqfdecomp (-a * c) fb).1 = u at *
  generalize (Marith.sqfdecomp (-a * c) fb).2.1 = s at *
  generalize (Marith.sqfdecomp (-a * c) fb).2.2 = lu at *
  generalize (Marith.sqfdecomp (a * d) fb).1 = v at *
  generalize (Marith.sqfdecomp (a * d) fb).2.1 = t at *
  generalize (Marith.sqfdecomp (a * d) fb).2.2 = lv at *
  have hloc := testlocsol2_spec a2 b2 a4 b4
  by_cases ht : testlocsol2 u lu v lv = true
  · left
    obtain ⟨r, hr, r1, r2⟩ := hdiag u lu v lv a2 b2 a4 b4 (hloc.mp ht)
    rw [ht, hr]
    have hs : CSol a 0 c d (r.1 * (s * t)) (r.2.1 * s * a) (r.2.2 * t * a) := by
      refine ⟨?_, ?_⟩
      · linear_combination a * s ^ 2 * t ^ 2 * r1 - a * (r.2.2 * t) ^ 2 * a1 - a * (r.2.1 * s) ^ 2 * b1
      · rintro ⟨k1, k2, k3⟩
        have k1 := (mul_eq_zero.mp k1).resolve_right (mul_ne_zero a3.ne' b3.ne')
        have k2 := (mul_eq_zero.mp ((mul_eq_zero.mp k2).resolve_right ha)).resolve_right a3.ne'
        have k3 := (mul_eq_zero.mp ((mul_eq_zero.mp k3).resolve_right ha)).resolve_right b3.ne'
        exact r2 ⟨k1, k2, k3⟩
    exact ⟨_, _, _, rfl, hs.cancel.1, hs.cancel.2⟩
  · right
    rw [Bool.not_eq_true] at ht
    rw [ht]
    refine ⟨rfl, ?_⟩
    rintro ⟨x, y, z, h⟩
    rw [Bool.eq_false_iff] at ht
    refine ht (hloc.mpr ⟨s * z, t * y, a * x, ?_, ?_⟩)
    · linear_combination -a * h.eqn - z ^ 2 * a1 - y ^ 2 * b1
    · rintro ⟨k1, k2, k3⟩
      exact h.ne ⟨(mul_eq_zero.mp k3).resolve_left ha, (mul_eq_zero.mp k2).resolve_left b3.ne',
        (mul_eq_zero.mp k1).resolve_left a3.ne'⟩

/-! ### `solve_conic_param` -/

theorem divExact_of {a b : ℤ} (hb : b ≠ 0) (h : b ∣ a) : ∃ q, divExact a b = some q ∧ a = b * q := by
  obtain ⟨q, rfl⟩ := h
  refine ⟨q, ?_, rfl⟩
  unfold divExact
  rw [if_pos (Int.fmod_eq_zero_of_dvd ⟨q, rfl⟩), Int.mul_fdiv_cancel_left _ hb]

theorem divQ_of {q : Q} {f0 f1 f2 : ℤ} (h0 : f0 ≠ 0) (h1 : f1 ≠ 0) (h2 : f2 ≠ 0) (d0 : f0 ∣ q.a) (d1 : f1 ∣ q.b)
    (d2 : f2 ∣ q.c) : ∃ r, divQ q f0 f1 f2 = some r ∧ q.a = f0 * r.a ∧ q.b = f1 * r.b ∧ q.c = f2 * r.c := by
  obtain ⟨s, hs, es⟩ := divExact_of h0 d0
  obtain ⟨t, ht, et⟩ := divExact_of h1 d1
  obtain ⟨u, hu, eu⟩ := divExact_of h2 d2
  exact ⟨⟨s, t, u⟩, by unfold divQ; rw [hs, ht, hu], es, et, eu⟩

/-- the case of a square discriminant -/
theorem paramSquare_spec {a b c d delta : ℤ} (ha : a ≠ 0) (hd : d ≠ 0) (h : b * b - 4 * a * c = delta * delta) :
    ∃ qx qy qz, paramSquare a b d delta = .sol qx qy qz ∧ CParam a b c d qx qy qz := by
  obtain ⟨u, hu⟩ : ∃ u, delta - b = 2 * u := by
    have h1 : (2 : ℤ) ∣ (delta - b) * (delta + b) := ⟨-(2 * a * c), by linear_combination -h⟩
    rcases Int.prime_two.dvd_or_dvd h1 with ⟨u, h2⟩ | ⟨u, h2⟩
    · exact ⟨u, h2⟩
    · exact ⟨u - b, by linear_combination h2⟩
  have hv : delta + b = 2 * (u + b) := by linear_combination hu
  have e1 : (delta - b).fdiv 2 = u := by rw [hu, Int.mul_fdiv_cancel_left _ two_ne_zero]
  have e2 : (delta + b).fdiv 2 = u + b := by rw [hv, Int.mul_fdiv_cancel_left _ two_ne_zero]
  have huv : u * (u + b) = -(a * c) := by
    have : delta = 2 * u + b := by linear_combination hu
    rw [this] at h
    linarith
  have hdel : delta = 2 * u + b := by linear_combination hu
  -- a1 and a2
  have g1 : gcd a (u + b) ∣ a := gcd_dvd_left a (u + b)
  have g2 : gcd a (u + b) ∣ u + b := gcd_dvd_right a (u + b)
  have g0 : gcd a (u + b) ≠ 0 := fun h0 => ha ((gcd_eq_zero_iff _ _).mp h0).1
  have gb : ∃ m n : ℤ, gcd a (u + b) = a * m + (u + b) * n := by
    have := exists_gcd_eq_mul_add_mul a (u + b)
    obtain ⟨m, n, h⟩ := this
    exact ⟨m, n, h⟩
  unfold paramSquare
  simp only [e1, e2]
  generalize gcd a (u + b) = g at *
  obtain ⟨k, hk⟩ := g1
  obtain ⟨l, hl⟩ := g2
  have e3 : (a * a).fdiv g = a * k := by
    conv_lhs => rw [hk]
    rw [show g * k * (g * k) = g * (g * k * k) by ring, Int.mul_fdiv_cancel_left _ g0, ← hk]
  rw [e3]
  have hk0 : k ≠ 0 := by rintro rfl; simp [ha] at hk
  obtain ⟨m, n, hmn⟩ := gb
  have ku : k ∣ u := by
    have hc1 : k * m + l * n = 1 := by
      apply mul_left_cancel₀ g0
      rw [hk, hl] at hmn
      linear_combination -hmn
    have hul : u * l = -(k * c) := by
      apply mul_left_cancel₀ g0
      rw [hl, hk] at huv
      linear_combination huv
    exact ⟨u * m - c * n, by linear_combination -u * hc1 + n * hul⟩
  obtain ⟨w, hw⟩ := ku
  have hak : a * k ≠ 0 := mul_ne_zero ha hk0
  obtain ⟨rx, hrx, x1, x2, x3⟩ := divQ_of (q := ⟨a * d * u, 0, u + b⟩) hak ha g0
    ⟨d * w, by rw [hw]; ring⟩ (dvd_zero _) ⟨l, hl⟩
  obtain ⟨ry, hry, y1, y2, y3⟩ := divQ_of (q := ⟨0, a * delta, 0⟩) hak ha g0
    (dvd_zero _) ⟨delta, rfl⟩ (dvd_zero _)
  obtain ⟨rz, hrz, z1, z2, z3⟩ := divQ_of (q := ⟨a ^ 2 * d, 0, -a⟩) hak ha g0
    ⟨g * d, by linear_combination a * d * hk⟩ (dvd_zero _) ⟨-k, by linear_combination -hk⟩
  rw [hrx, hry, hrz]
  refine ⟨rx, ry, rz, rfl, ?_⟩
  simp only at x1 x2 x3 y1 y2 y3 z1 z2 z3
  have X1 : rx.a = d * w := mul_left_cancel₀ hak (by rw [← x1, hw]; ring)
  have X2 : rx.b = 0 := (mul_eq_zero.mp x2.symm).resolve_left ha
  have X3 : rx.c = l := mul_left_cancel₀ g0 (by rw [← x3, hl])
  have Y1 : ry.a = 0 := (mul_eq_zero.mp y1.symm).resolve_left hak
  have Y2 : ry.b = delta := mul_left_cancel₀ ha y2.symm
  have Y3 : ry.c = 0 := (mul_eq_zero.mp y3.symm).resolve_left g0
  have Z1 : rz.a = g * d := mul_left_cancel₀ hak (by rw [← z1]; linear_combination a * d * hk)
  have Z2 : rz.b = 0 := (mul_eq_zero.mp z2.symm).resolve_left ha
  have Z3 : rz.c = -k := mul_left_cancel₀ g0 (by rw [← z3]; linear_combination -hk)
  -- the relations
  have hb : b = g * l - k * w := by linear_combination hl - hw
  have hc : c = -(w * l) := by
    apply mul_left_cancel₀ ha
    rw [hl, hw] at huv
    rw [hk] at huv ⊢
    linear_combination huv
  have hdl : delta = k * w + g * l := by rw [hdel, hw, hb]; ring
  refine ⟨⟨?_, ?_⟩, fun X Z => ?_, ?_, ?_, ?_, ?_⟩
  · rw [X1, Y1, Z1, hk, hb, hc]; ring
  · rintro ⟨-, -, h3⟩
    rw [Z1] at h3
    exact (mul_ne_zero g0 hd) h3
  · simp only [quad, X1, X2, X3, Y1, Y2, Y3, Z1, Z2, Z3]
    rw [hdl, hk, hb, hc]; ring
  · simp only [Q.disc, X1, X2, X3]
    rw [hc]; ring
  · simp only [Q.disc, Y1, Y2, Y3]
    linear_combination -h
  · simp only [Q.disc, Z1, Z2, Z3]
    rw [hk]; ring
  · simp only [X1, X2, X3, Z1, Z2, Z3]
    rw [hb]; ring

/-- after the shift and the division -/
theorem paramShiftC_spec {e f : ℤ} {q : Q} (hf : f ≠ 0) (h1 : f ∣ q.b + 2 * e * q.a)
    (h2 : f ^ 2 ∣ q.c + e * (q.b + e * q.a)) :
    ∃ r, paramShiftC e f q = some r ∧ r.a = q.a ∧ (q.b + 2 * e * q.a = f * r.b ∧
        q.c + e * (q.b + e * q.a) = f ^ 2 * r.c) ∧ f ^ 2 * r.disc = q.disc ∧
      ∀ X Z, f ^ 2 * quad r.a r.b r.c X Z = quad q.a q.b q.c (f * X + e * Z) Z := by
  obtain ⟨r, hr, e0, e1, e2⟩ := divQ_of (q := ⟨q.a, q.b + 2 * e * q.a, q.c + e * (q.b + e * q.a)⟩) one_ne_zero hf
    (pow_ne_zero 2 hf) (one_dvd _) h1 h2
  simp only [one_mul] at e0 e1 e2
  refine ⟨r, hr, e0.symm, ⟨e1, e2⟩, ?_, ?_⟩
  · simp only [Q.disc]
    rw [← e0]
    linear_combination -(f * r.b + (q.b + 2 * e * q.a)) * e1 + 4 * q.a * e2
  · intro X Z
    simp only [quad]
    rw [← e0]
    linear_combination -f * X * Z * e1 - Z ^ 2 * e2

/-- the generic case -/
theorem paramGeneric_spec (X : XGcd) {a b c d x0 y0 z0 : ℤ} (h : CSol a b c d x0 y0 z0) (hy : y0 ≠ 0)
    (hco : IsCoprime x0 z0) :
    ∃ qx qy qz, paramGeneric X a b c x0 y0 z0 = .sol qx qy qz ∧ CParam a b c d qx qy qz := by
  have hid := X.identity x0 z0
  rw [X.gcd_eq, Int.isCoprime_iff_gcd_eq_one.mp hco] at hid
  unfold paramGeneric
  simp only
  generalize (X.run x0 z0).2.1 = s at *
  generalize (X.run x0 z0).2.2 = t at *
  push_cast at hid
  have heq := h.eqn
  have hy2 : (2 * y0 ^ 2) ≠ 0 := mul_ne_zero two_ne_zero (pow_ne_zero 2 hy)
  obtain ⟨k, hk⟩ : ∃ k, (x0 * (2 * t * a - s * b) + z0 * (t * b - 2 * c * s)).fmod (2 * y0 ^ 2) =
      t * (2 * a * x0 + b * z0) - s * (b * x0 + 2 * c * z0) + 2 * y0 ^ 2 * k := by
    refine ⟨-(x0 * (2 * t * a - s * b) + z0 * (t * b - 2 * c * s)).fdiv (2 * y0 ^ 2), ?_⟩
    have := Int.mul_fdiv_add_fmod (x0 * (2 * t * a - s * b) + z0 * (t * b - 2 * c * s)) (2 * y0 ^ 2)
    linear_combination this
  generalize (x0 * (2 * t * a - s * b) + z0 * (t * b - 2 * c * s)).fmod (2 * y0 ^ 2) = e at *
  obtain ⟨D, hD⟩ : ∃ D, D = b * b - 4 * a * c := ⟨_, rfl⟩
  rw [← hD]
  obtain ⟨fx, hfx⟩ : ∃ fx, fx = 2 * a * x0 + b * z0 := ⟨_, rfl⟩
  obtain ⟨fz, hfz⟩ : ∃ fz, fz = b * x0 + 2 * c * z0 := ⟨_, rfl⟩
  rw [← hfx, ← hfz] at hk ⊢
  have r1 : x0 * fx + z0 * fz = 2 * d * y0 ^ 2 := by rw [hfx, hfz]; linear_combination 2 * heq
  have r2 : fz ^ 2 = x0 ^ 2 * D + 4 * c * d * y0 ^ 2 := by rw [hfz, hD]; linear_combination 4 * c * heq
  have r3 : fx ^ 2 = z0 ^ 2 * D + 4 * a * d * y0 ^ 2 := by rw [hfx, hD]; linear_combination 4 * a * heq
  have r4 : fx * fz + x0 * z0 * D = 2 * b * d * y0 ^ 2 := by rw [hfx, hfz, hD]; linear_combination 2 * b * heq
  obtain ⟨A, hA⟩ : ∃ A, A = t * d + k * x0 := ⟨_, rfl⟩
  obtain ⟨B, hB⟩ : ∃ B, B = k * z0 - s * d := ⟨_, rfl⟩
  have q1 : e * x0 = 2 * y0 ^ 2 * A - fz := by
    rw [hk, hA]; linear_combination t * r1 - fz * hid
  have q2 : e * z0 = fx + 2 * y0 ^ 2 * B := by
    rw [hk, hB]; linear_combination -s * r1 + fx * hid
  obtain ⟨par, hpar⟩ : ∃ par, b * d + A * fx + B * fz = 2 * par := by
    refine ⟨d * k * y0 ^ 2 + d * (t * a * x0 + t * b * z0 - s * c * z0), ?_⟩
    rw [hA, hB]
    have : d * (t * fx - s * fz) + b * d = 2 * (d * (t * a * x0 + t * b * z0 - s * c * z0)) := by
      rw [hfx, hfz]; linear_combination -b * d * hid
    linear_combination this + k * r1
  have hf : 2 * y0 ≠ 0 := mul_ne_zero two_ne_zero hy
  obtain ⟨qx, hqx, xa, ⟨xb, xc⟩, xd, xq⟩ := paramShiftC_spec (e := e) (q := ⟨x0, 2 * fz, x0 * D⟩) hf
    ⟨2 * y0 * A, by simp only; linear_combination 2 * q1⟩
    (by
      have c1 : x0 * (x0 * D + e * (2 * fz + e * x0)) = 4 * y0 ^ 2 * (y0 ^ 2 * A ^ 2 - c * d) := by
        linear_combination (2 * fz + e * x0 + (2 * y0 ^ 2 * A - fz)) * q1 - r2
      have c2 : z0 * (x0 * D + e * (2 * fz + e * x0)) = 4 * y0 ^ 2 * (par + y0 ^ 2 * A * B) := by
        linear_combination (2 * fz + e * x0) * q2 + (fx + 2 * y0 ^ 2 * B) * q1 + r4 + 2 * y0 ^ 2 * hpar
      refine ⟨s * (y0 ^ 2 * A ^ 2 - c * d) + t * (par + y0 ^ 2 * A * B), ?_⟩
      simp only
      linear_combination s * c1 + t * c2 - (x0 * D + e * (2 * fz + e * x0)) * hid)
  obtain ⟨qz, hqz, za, ⟨zb, zc⟩, zd, zq⟩ := paramShiftC_spec (e := e) (q := ⟨z0, -2 * fx, z0 * D⟩) hf
    ⟨2 * y0 * B, by simp only; linear_combination 2 * q2⟩
    (by
      have c1 : z0 * (z0 * D + e * (-2 * fx + e * z0)) = 4 * y0 ^ 2 * (y0 ^ 2 * B ^ 2 - a * d) := by
        linear_combination (-2 * fx + e * z0 + (fx + 2 * y0 ^ 2 * B)) * q2 - r3
      have c2 : x0 * (z0 * D + e * (-2 * fx + e * z0)) = 4 * y0 ^ 2 * (b * d - par + y0 ^ 2 * A * B) := by
        linear_combination (-2 * fx + e * z0) * q1 + (2 * y0 ^ 2 * A - fz) * q2 + r4 - 2 * y0 ^ 2 * hpar
      refine ⟨t * (y0 ^ 2 * B ^ 2 - a * d) + s * (b * d - par + y0 ^ 2 * A * B), ?_⟩
      simp only
      linear_combination t * c1 + s * c2 - (z0 * D + e * (-2 * fx + e * z0)) * hid)
  obtain ⟨qy, hqy, ya, ⟨yb, yc⟩, yd, yq⟩ := paramShiftC_spec (e := e) (q := ⟨y0, 0, -y0 * D⟩) hf
    ⟨e, by simp only; ring⟩
    (by
      have c1 : x0 ^ 2 * (e ^ 2 - D) = 4 * y0 ^ 2 * (y0 ^ 2 * A ^ 2 - A * fz + c * d) := by
        linear_combination (e * x0 + (2 * y0 ^ 2 * A - fz)) * q1 + r2
      have c2 : z0 ^ 2 * (e ^ 2 - D) = 4 * y0 ^ 2 * (y0 ^ 2 * B ^ 2 + B * fx + a * d) := by
        linear_combination (e * z0 + (fx + 2 * y0 ^ 2 * B)) * q2 + r3
      obtain ⟨m, n, hmn⟩ := (hco.pow_left (m := 2)).pow_right (n := 2)
      refine ⟨y0 * (m * (y0 ^ 2 * A ^ 2 - A * fz + c * d) + n * (y0 ^ 2 * B ^ 2 + B * fx + a * d)), ?_⟩
      simp only
      linear_combination y0 * m * c1 + y0 * n * c2 - y0 * (e ^ 2 - D) * hmn)
  rw [hqx, hqy, hqz]
  simp only at xa ya za xq yq zq
  simp only [Q.disc] at xd yd zd
  have hf2 : (2 * y0) ^ 2 ≠ 0 := pow_ne_zero 2 hf
  refine ⟨qx, qy, qz, rfl, by rw [xa, ya, za]; exact h, fun X Z => ?_, ?_, ?_, ?_, ?_⟩
  · apply mul_left_cancel₀ (pow_ne_zero 2 hf2)
    have k1 := xq X Z
    have k2 := yq X Z
    have k3 := zq X Z
    generalize quad qx.a qx.b qx.c X Z = vx at *
    generalize quad qy.a qy.b qy.c X Z = vy at *
    generalize quad qz.a qz.b qz.c X Z = vz at *
    generalize 2 * y0 * X + e * Z = W at *
    simp only [quad] at k1 k2 k3
    have k4 : a * (x0 * W ^ 2 + 2 * fz * W * Z + x0 * D * Z ^ 2) ^ 2 +
        b * (x0 * W ^ 2 + 2 * fz * W * Z + x0 * D * Z ^ 2) * (z0 * W ^ 2 + -2 * fx * W * Z + z0 * D * Z ^ 2) +
        c * (z0 * W ^ 2 + -2 * fx * W * Z + z0 * D * Z ^ 2) ^ 2 = d * (y0 * W ^ 2 + 0 * W * Z + -y0 * D * Z ^ 2) ^ 2 := by
      rw [hfx, hfz, hD]
      linear_combination (W ^ 2 - (b * b - 4 * a * c) * Z ^ 2) ^ 2 * heq
    rw [← k1, ← k2, ← k3] at k4
    linear_combination k4
  · apply mul_left_cancel₀ hf2
    simp only [Q.disc]
    linear_combination xd + 4 * r2
  · apply mul_left_cancel₀ hf2
    simp only [Q.disc]
    linear_combination yd + 4 * y0 ^ 2 * hD
  · apply mul_left_cancel₀ hf2
    simp only [Q.disc]
    linear_combination zd + 4 * r3
  · apply mul_left_cancel₀ hf2
    simp only at xb xc zb zc
    rw [xa, za]
    linear_combination -(2 * y0) * qz.b * xb - (2 * fz + 2 * e * x0) * zb + 2 * x0 * zc + 2 * z0 * xc - 4 * r4

/-- `y ≠ 0` if the discriminant is not a square -/
theorem y_ne_zero {a b c d x y z : ℤ} (ha : a ≠ 0) (h : CSol a b c d x y z) (hsq : ¬ ∃ r : ℤ, b * b - 4 * a * c = r ^ 2) :
    y ≠ 0 := by
  rintro rfl
  have h1 : (2 * a * x + b * z) ^ 2 = (b * b - 4 * a * c) * z ^ 2 := by linear_combination 4 * a * h.eqn
  by_cases hz : z = 0
  · subst hz
    rw [mul_zero, add_zero, zero_pow two_ne_zero, mul_zero] at h1
    have h2 := pow_eq_zero_iff two_ne_zero |>.mp h1
    exact h.ne ⟨(mul_eq_zero.mp h2).resolve_left (mul_ne_zero two_ne_zero ha), rfl, rfl⟩
  · obtain ⟨r, hr⟩ : z ∣ 2 * a * x + b * z := (Int.pow_dvd_pow_iff two_ne_zero).mp ⟨_, by rw [h1, mul_comm]⟩
    apply hsq
    refine ⟨r, mul_right_cancel₀ (pow_ne_zero 2 hz) ?_⟩
    rw [← h1, hr]; ring

/-- for square-free `d` the first and the third coordinate of a primitive solution are coprime -/
theorem coprime_xz {a b c d x y z : ℤ} (hd : Squarefree d) (h : CSol a b c d x y z) (hP : Prim x y z) :
    IsCoprime x z := by
  refine coprime_of_prime fun p hp h1 h2 => ?_
  obtain ⟨u, rfl⟩ := h1
  obtain ⟨v, rfl⟩ := h2
  have h3 : p * p ∣ d * y ^ 2 := ⟨a * u ^ 2 + b * u * v + c * v ^ 2, by rw [← h.eqn]; ring⟩
  by_cases hy : p ∣ y
  · exact hp.not_isUnit (hP p ⟨u, rfl⟩ hy ⟨v, rfl⟩)
  · have hc : IsCoprime (p * p) (y ^ 2) := by
      have : IsCoprime p y := (hp.coprime_iff_not_dvd).mpr hy
      rw [← sq]
      exact this.pow
    exact hp.not_isUnit (hd p (hc.dvd_of_dvd_mul_right h3))

theorem solveConicParam_spec (X : XGcd) (S : SqrRootMod) {a b c d : ℤ} {fb : List ℤ} (ha : a ≠ 0)
    (hd : Squarefree d) (hD : b ^ 2 - 4 * a * c ≠ 0) (hpr : ∀ p ∈ fb, 0 < p ∧ Prime p) (hnd : fb.Nodup)
    (hall : ∀ p, 0 < p → Prime p → p ∣ (b ^ 2 - 4 * a * c) * a * d → p ∈ fb) :
    (∃ qx qy qz, solveConicParam X S a b c d fb = .sol qx qy qz ∧ CParam a b c d qx qy qz) ∨
    (solveConicParam X S a b c d fb = .insol ∧ ¬ ∃ x y z, CSol a b c d x y z) := by
  unfold solveConicParam
  simp only
  by_cases hs : (isqrt (b * b - 4 * a * c)).1 = true
  · rw [if_pos hs]
    exact Or.inl (paramSquare_spec ha hd.ne_zero (Marith.isqrt_sound _ hs))
  · rw [if_neg hs]
    rcases solveConic_spec X S ha hd.ne_zero hD hpr hnd hall with ⟨x, y, z, h1, h2, h3⟩ | ⟨h1, h2⟩
    · rw [h1]
      refine Or.inl (paramGeneric_spec X h2 (y_ne_zero ha h2 ?_) (coprime_xz hd h2 h3))
      exact fun h => hs ((Marith.Props.C12_isqrt _).mpr h)
    · rw [h1]
      exact Or.inr ⟨rfl, h2⟩

end Eclib.Legendre
