import Mathlib.RingTheory.Polynomial.UniqueFactorization
import Verif.Ff.Cubic
import Verif.Ff.Eval

/-!
# Reciprocity: the product of the values of `weil_pol` at three points of a line is an m-th power

The lines `Y = sX + μ` of slope `s` make the coordinate ring a cubic extension of `F[μ]`.  The norm of `weil_pol(T,m)` to `F[μ]` is
monic of degree `m` and divides a power of `μ - (y(T) - s x(T))`.
-/

set_option linter.unusedSectionVars false

namespace Eclib.Ff

open Pmod (Pq coords)
open Polynomial
open WeierstrassCurve.Affine (CoordinateRing)
open WeierstrassCurve.Affine.CoordinateRing (mk XClass YClass XIdeal YIdeal XYIdeal)

variable {F : Type} [Field F] [DecidableEq F] {E : WeierstrassCurve F}

/-- the coefficients of the cubic in `X` after the substitution `Y = sX + μ` -/
noncomputable def ca (E : WeierstrassCurve F) (s : F) : F[X] := C (E.a₂ - s ^ 2 - E.a₁ * s)
noncomputable def cb (E : WeierstrassCurve F) (s : F) : F[X] := C (E.a₄ - E.a₃ * s) - C (2 * s + E.a₁) * X
noncomputable def cc (E : WeierstrassCurve F) : F[X] := C E.a₆ - C E.a₃ * X - X ^ 2

theorem cf (E : WeierstrassCurve F) (s : F) : Cf (ca E s) (cb E s) (cc E) where
  a := W_C _
  b := ((W_C _).mono (by omega)).sub ((W_C _).mul W_X (by omega))
  c := by
    rw [cc, sub_add_cancel]
    exact ((W_C _).mono (by omega)).sub ((W_C _).mul W_X (by omega))

/-- `F[μ][X]` modulo the cubic -/
abbrev S3 (E : WeierstrassCurve F) (s : F) : Type := AdjoinRoot (cub (ca E s) (cb E s) (cc E))

noncomputable def th (E : WeierstrassCurve F) (s : F) : S3 E s := AdjoinRoot.root _

noncomputable def ofm (E : WeierstrassCurve F) (s : F) : F[X] →+* S3 E s := AdjoinRoot.of _

/-- polynomials in `X` -/
noncomputable def ix (E : WeierstrassCurve F) (s : F) : F[X] →+* S3 E s := eval₂RingHom ((ofm E s).comp C) (th E s)

noncomputable def yy (E : WeierstrassCurve F) (s : F) : S3 E s := ofm E s (C s) * th E s + ofm E s X

theorem th_eq (E : WeierstrassCurve F) (s : F) : th E s ^ 3 + ofm E s (ca E s) * th E s ^ 2 + ofm E s (cb E s) * th E s +
    ofm E s (cc E) = 0 := by
  have := root_eq (ca E s) (cb E s) (cc E)
  unfold th ofm
  linear_combination this

/-- the coordinate ring as an extension of `F[μ]` -/
noncomputable def phi (E : WeierstrassCurve F) (s : F) : E.toAffine.CoordinateRing →+* S3 E s :=
  AdjoinRoot.lift (ix E s) (yy E s) (by
    have h := th_eq E s
    simp only [ca, cb, cc, map_sub, map_add, map_mul, map_pow] at h
    simp only [WeierstrassCurve.Affine.polynomial, eval₂_add, eval₂_sub, eval₂_mul, eval₂_pow, eval₂_X, eval₂_C, ix, yy,
      coe_eval₂RingHom, RingHom.comp_apply, WeierstrassCurve.toAffine]
    have h2 : ofm E s (C 2) = 2 := by rw [C_ofNat, map_ofNat]
    rw [h2] at h
    linear_combination -h)

theorem phi_basis (s : F) (p q : F[X]) :
    phi E s (p • (1 : E.toAffine.CoordinateRing) + q • mk E.toAffine Polynomial.X) = ix E s p + ix E s q * yy E s := by
  rw [CoordinateRing.smul, CoordinateRing.smul, mul_one, map_add, map_mul]
  simp only [phi, mk]
  rw [AdjoinRoot.lift_mk, AdjoinRoot.lift_mk, AdjoinRoot.lift_mk]
  simp

/-! ## weights -/

theorem GM_pow (s : F) (k : ℕ) : GM (ca E s) (cb E s) (cc E) (2 * k) (th E s ^ k) := by
  induction k with
  | zero => rw [pow_zero]; exact GM_one
  | succ k ih => rw [pow_succ]; exact ih.mul_root (cf E s) (by omega)

theorem GM_pow_yy (s : F) (k : ℕ) : GM (ca E s) (cb E s) (cc E) (2 * k + 3) (th E s ^ k * yy E s) := by
  have e : th E s ^ k * yy E s = ofm E s X * th E s ^ k + ofm E s (C s) * th E s ^ (k + 1) := by
    unfold yy; ring
  rw [e]
  exact ((GM_pow s k).mul_X (by omega)).add ((GM_pow s (k + 1)).toG.smul s) (by push_cast; omega)

theorem D.sum {p : F[X]} {k : ℕ} (h : D p k) : p = ∑ j ∈ Finset.range k, C (p.coeff j) * X ^ j := by
  ext i
  rw [finsetSum_coeff]
  simp only [coeff_C_mul_X_pow]
  rw [Finset.sum_ite_eq (Finset.range k) i (fun j => p.coeff j)]
  split_ifs with hi
  · rfl
  · exact h i (by simpa using hi)

theorem G_poly (s : F) {p : F[X]} {k : ℕ} (hp : D p k) (w : S3 E s) (r : ℤ)
    (hw : ∀ j < k, G (ca E s) (cb E s) (cc E) (2 * j + r) (th E s ^ j * w)) :
    G (ca E s) (cb E s) (cc E) (2 * k - 2 + r) (ix E s p * w) := by
  rw [hp.sum, map_sum, Finset.sum_mul]
  refine Finset.sum_induction _ (G (ca E s) (cb E s) (cc E) (2 * k - 2 + r)) (fun _ _ => G.add) (G_zero _) fun j hj => ?_
  have hj := Finset.mem_range.mp hj
  have e : ix E s (C (p.coeff j) * X ^ j) * w = ofm E s (C (p.coeff j)) * (th E s ^ j * w) := by
    rw [map_mul, map_pow]
    simp only [ix, coe_eval₂RingHom, eval₂_C, eval₂_X, RingHom.comp_apply]
    ring
  rw [e]
  exact ((hw j hj).smul _).mono (by omega)

theorem Mon.GM {n : ℕ} {z : E.toAffine.CoordinateRing} (hz : Mon n z) (s : F) :
    n ≠ 1 ∧ GM (ca E s) (cb E s) (cc E) n (phi E s z) := by
  obtain ⟨p, q, rfl, h⟩ := hz
  rw [phi_basis]
  have hX : ∀ k : ℕ, ix E s (X ^ k) = th E s ^ k := fun k => by
    rw [map_pow]; simp [ix]
  rcases h with ⟨k, rfl, h1, h2⟩ | ⟨k, rfl, h1, h2⟩
  · refine ⟨by omega, ?_⟩
    have e : ix E s p + ix E s q * yy E s = th E s ^ k + (ix E s (p - X ^ k) * 1 + ix E s q * yy E s) := by
      rw [map_sub, hX]; ring
    rw [e]
    have g1 := G_poly (E := E) s h1 1 0 (fun j _ => by
      rw [mul_one]; simpa using (GM_pow (E := E) s j).toG)
    have g2 := G_poly (E := E) s h2 (yy E s) 3 (fun j _ => by simpa using (GM_pow_yy (E := E) s j).toG)
    rcases Nat.eq_zero_or_pos k with hk | hk
    · have hq : q = 0 := by ext i; rw [coeff_zero]; exact h2 i (by omega)
      rw [hq, map_zero, zero_mul, add_zero]
      exact (GM_pow s k).add g1 (by push_cast; omega)
    · exact (GM_pow s k).add ((g1.mono (by omega : _ ≤ (2 * k - 1 : ℤ))).add (g2.mono (by omega))) (by push_cast; omega)
  · refine ⟨by omega, ?_⟩
    have e : ix E s p + ix E s q * yy E s = th E s ^ k * yy E s + (ix E s p * 1 + ix E s (q - X ^ k) * yy E s) := by
      rw [map_sub, hX]; ring
    rw [e]
    have g1 := G_poly (E := E) s h2 1 0 (fun j _ => by
      rw [mul_one]; simpa using (GM_pow (E := E) s j).toG)
    have g2 := G_poly (E := E) s h1 (yy E s) 3 (fun j _ => by simpa using (GM_pow_yy (E := E) s j).toG)
    exact (GM_pow_yy s k).add ((g1.mono (by push_cast; omega : _ ≤ (2 * k + 2 : ℤ))).add (g2.mono (by omega))) (by push_cast; omega)

/-! ## the norm of a function with divisor `m(T)` -/

theorem norm_ofm (s : F) (p : F[X]) : Algebra.norm F[X] (ofm E s p) = p ^ 3 := by
  have e : ofm E s p = el (ca E s) (cb E s) (cc E) p 0 0 := by simp [el, ofm]
  rw [e, norm_el]
  unfold nm
  ring

theorem ix_C (s a : F) : ix E s (C a) = ofm E s (C a) := by simp [ix]

theorem ix_X (s : F) : ix E s X = th E s := by simp [ix]

theorem phi_line (s x y : F) : phi E s (YClass E.toAffine (WeierstrassCurve.Affine.linePolynomial x y s)) =
    ofm E s (X - C (y - s * x)) := by
  rw [← line_toCR, toCR, phi_basis]
  simp only [toPoly_cons, toPoly_nil, map_add, map_mul, ix_C, ix_X, map_zero, yy, map_sub, map_neg, map_one]
  ring

theorem line_mem {x y : F} (h : E.toAffine.Nonsingular x y) (s : F) :
    YClass E.toAffine (WeierstrassCurve.Affine.linePolynomial x y s) ∈ I (.some x y h) := by
  rw [← ker_ev, RingHom.mem_ker, ev_YClass]
  simp [WeierstrassCurve.Affine.linePolynomial]

theorem norm_phi {m : ℕ} {f : E.toAffine.CoordinateRing} {x y : F} (h : E.toAffine.Nonsingular x y)
    (hf : Ideal.span {f} = I (.some x y h) ^ m) (hm : Mon m f) (s : F) :
    Algebra.norm F[X] (phi E s f) = (X - C (y - s * x)) ^ m := by
  obtain ⟨hn, hg⟩ := hm.GM s
  obtain ⟨h1, h2⟩ := hg.norm (cf E s) hn
  have hd : f ∣ YClass E.toAffine (WeierstrassCurve.Affine.linePolynomial x y s) ^ m := by
    rw [← Ideal.mem_span_singleton, hf]
    exact Ideal.pow_mem_pow (line_mem h s) m
  have hd2 := map_dvd (Algebra.norm F[X]) (map_dvd (phi E s) hd)
  rw [map_pow, map_pow, phi_line, norm_ofm, ← pow_mul] at hd2
  obtain ⟨j, _, hj⟩ := (dvd_prime_pow (prime_X_sub_C _) _).mp hd2
  obtain ⟨u, hu⟩ := hj.symm
  obtain ⟨c, hc0, hc⟩ := Polynomial.isUnit_iff.mp u.isUnit
  rw [← hc] at hu
  have hN : (Algebra.norm F[X] (phi E s f)).natDegree = m := by
    refine le_antisymm ?_ (le_natDegree_of_ne_zero (by rw [h1]; exact one_ne_zero))
    exact natDegree_le_iff_coeff_eq_zero.mpr fun i hi => h2 i (by omega)
  have hmon : (Algebra.norm F[X] (phi E s f)).Monic := by rw [Monic, leadingCoeff, hN, h1]
  have hj : j = m := by
    rw [← hN, ← hu, natDegree_mul_C hc0.ne_zero, natDegree_pow, natDegree_X_sub_C, mul_one]
  have hc1 : c = 1 := by
    rw [← hu, Monic, leadingCoeff_mul, leadingCoeff_pow, leadingCoeff_X_sub_C, one_pow, one_mul, leadingCoeff_C] at hmon
    exact hmon
  rw [← hu, hj, hc1, C_1, mul_one]

/-! ## values -/

theorem ev_el {x y s : F} (h : E.toAffine.Equation x y) (z : E.toAffine.CoordinateRing) {c0 c1 c2 : F[X]}
    (hz : phi E s z = el (ca E s) (cb E s) (cc E) c0 c1 c2) :
    ev h z = c0.eval (y - s * x) + c1.eval (y - s * x) * x + c2.eval (y - s * x) * x ^ 2 := by
  have hroot : eval₂ (evalRingHom (y - s * x)) x (cub (ca E s) (cb E s) (cc E)) = 0 := by
    have e := (WeierstrassCurve.Affine.equation_iff x y).mp h
    simp only [cub, ca, cb, cc, eval₂_add, eval₂_mul, eval₂_pow, eval₂_X, eval₂_C, coe_evalRingHom, eval_sub, eval_mul,
      eval_pow, eval_X, eval_C]
    linear_combination -e
  let psi : S3 E s →+* F := AdjoinRoot.lift (evalRingHom (y - s * x)) x hroot
  have p1 : ∀ p, psi (ofm E s p) = p.eval (y - s * x) := fun p => AdjoinRoot.lift_of hroot
  have p2 : psi (th E s) = x := AdjoinRoot.lift_root hroot
  have p3 : psi (yy E s) = y := by
    rw [yy, map_add, map_mul, p1, p1, p2, eval_C, eval_X]; ring
  have p4 : ∀ p, psi (ix E s p) = p.eval x := fun p => by
    rw [ix, coe_eval₂RingHom, hom_eval₂, p2]
    have : psi.comp ((ofm E s).comp C) = RingHom.id F := by
      ext t
      simp [p1]
    rw [this]
    exact eval₂_id
  have h1 : psi (phi E s z) = ev h z := by
    obtain ⟨p, q, rfl⟩ := CoordinateRing.exists_smul_basis_eq z
    rw [phi_basis, ev_basis, map_add, map_mul, p3, p4, p4, mul_comm]
  rw [← h1, hz]
  change psi (ofm E s c0 + ofm E s c1 * th E s + ofm E s c2 * th E s ^ 2) = _
  rw [map_add, map_add, map_mul, map_mul, map_pow, p1, p1, p1, p2]

/-- the product of the values at the three points of a line -/
theorem prod_values {s u x₁ y₁ x₂ y₂ x₃ y₃ : F} (h₁ : E.toAffine.Equation x₁ y₁) (h₂ : E.toAffine.Equation x₂ y₂)
    (h₃ : E.toAffine.Equation x₃ y₃) (u₁ : y₁ - s * x₁ = u) (u₂ : y₂ - s * x₂ = u) (u₃ : y₃ - s * x₃ = u)
    (e1 : (ca E s).eval u = -(x₁ + x₂ + x₃)) (e2 : (cb E s).eval u = x₁ * x₂ + x₁ * x₃ + x₂ * x₃)
    (e3 : (cc E).eval u = -(x₁ * x₂ * x₃)) (z : E.toAffine.CoordinateRing) :
    (Algebra.norm F[X] (phi E s z)).eval u = ev h₁ z * ev h₂ z * ev h₃ z := by
  obtain ⟨c0, c1, c2, hz⟩ := exists_el (phi E s z)
  rw [ev_el h₁ z hz, ev_el h₂ z hz, ev_el h₃ z hz, u₁, u₂, u₃, ← nm_split e1 e2 e3, hz, norm_el]
  unfold nm
  simp only [eval_add, eval_sub, eval_mul, eval_pow, eval_ofNat]

/-- the value of a function at a point, with the convention 1 at infinity -/
noncomputable def vl (z : E.toAffine.CoordinateRing) : E.toAffine.Point → F
  | .zero => 1
  | .some _ _ h => ev h.1 z

theorem vl_some (z : E.toAffine.CoordinateRing) {x y : F} (h : E.toAffine.Nonsingular x y) : vl z (.some x y h) = ev h.1 z := rfl

theorem vl_zero (z : E.toAffine.CoordinateRing) : vl z 0 = 1 := rfl

/-- three points on a line which is not vertical -/
theorem recip_line {m : ℕ} {f : E.toAffine.CoordinateRing} {xT yT : F} (hT : E.toAffine.Nonsingular xT yT)
    (hf : Ideal.span {f} = I (.some xT yT hT) ^ m) (hm : Mon m f) {x₁ y₁ x₂ y₂ : F} (h₁ : E.toAffine.Nonsingular x₁ y₁)
    (h₂ : E.toAffine.Nonsingular x₂ y₂) (hxy : ¬ (x₁ = x₂ ∧ y₁ = E.toAffine.negY x₂ y₂)) :
    ∃ d, vl f (.some x₁ y₁ h₁) * vl f (.some x₂ y₂ h₂) * vl f (-(.some x₁ y₁ h₁ + .some x₂ y₂ h₂)) = d ^ m := by
  generalize hs : E.toAffine.slope x₁ x₂ y₁ y₂ = s
  have hadd := WeierstrassCurve.Affine.addPolynomial_slope h₁.1 h₂.1 hxy
  rw [hs, WeierstrassCurve.Affine.addPolynomial_eq, neg_inj, Cubic.prod_X_sub_C_eq, Cubic.toPoly_injective, Cubic.mk.injEq] at hadd
  obtain ⟨-, e1, e2, e3⟩ := hadd
  have u2 : y₂ - s * x₂ = y₁ - s * x₁ := by
    by_cases hx : x₁ = x₂
    · subst hx
      have hy := (WeierstrassCurve.Affine.Y_eq_of_X_eq h₁.1 h₂.1 rfl).resolve_right (fun e => hxy ⟨rfl, e⟩)
      rw [hy]
    · rw [← hs, WeierstrassCurve.Affine.slope_of_X_ne hx]
      have : x₁ - x₂ ≠ 0 := sub_ne_zero.mpr hx
      field_simp
      ring
  rw [WeierstrassCurve.Affine.Point.add_some hxy, WeierstrassCurve.Affine.Point.neg_some]
  refine ⟨y₁ - s * x₁ - (yT - s * xT), ?_⟩
  have key := prod_values (E := E) (s := s) (u := y₁ - s * x₁) h₁.1 h₂.1
    ((WeierstrassCurve.Affine.nonsingular_neg _ _).mpr (WeierstrassCurve.Affine.nonsingular_add h₁ h₂ hxy)).1 rfl u2
    (by
      rw [hs]
      simp only [WeierstrassCurve.Affine.addY, WeierstrassCurve.Affine.negY_negY, WeierstrassCurve.Affine.negAddY]
      ring)
    (by rw [hs]; simp only [ca, eval_C]; simp only [WeierstrassCurve.toAffine] at e1; linear_combination e1)
    (by
      rw [hs]
      simp only [cb, eval_sub, eval_mul, eval_C, eval_X]
      simp only [WeierstrassCurve.toAffine] at e2
      linear_combination e2)
    (by
      rw [hs]
      simp only [cc, eval_sub, eval_mul, eval_pow, eval_C, eval_X]
      simp only [WeierstrassCurve.toAffine] at e3
      linear_combination e3) f
  rw [norm_phi hT hf hm s] at key
  rw [vl_some, vl_some, vl_some]
  rw [← key]
  simp

end Eclib.Ff
