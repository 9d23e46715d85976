import Mathlib.AlgebraicGeometry.EllipticCurve.Affine.AddSubMap

/-!
# The x-coordinates of P+Q and P-Q

Towards Hasse's theorem (used for C67 and C69): for points of y² = x³ + a₂x² + a₄x + a₆ over a field, the
triple `(x(P+Q)x(P-Q) : x(P+Q)+x(P-Q) : 1)` is given by three quadratic forms in the same triple for
`P, Q`, and these forms have no common zero (the second fact is in Mathlib).
-/

namespace Eclib.Hasse

open WeierstrassCurve

set_option linter.unusedSectionVars false

section forms

variable {R : Type} [CommRing R] (W : WeierstrassCurve R)

/-- first form -/
def F0 (s t u : R) : R := s ^ 2 - W.b₄ * s * u - W.b₆ * t * u - W.b₈ * u ^ 2
/-- second form -/
def F1 (s t u : R) : R := 2 * t * s + W.b₂ * s * u + W.b₄ * t * u + W.b₆ * u ^ 2
/-- third form -/
def F2 (s t u : R) : R := t ^ 2 - 4 * s * u

/-- the fourth powers of the variables are combinations of the forms -/
theorem forms_combination [W.IsElliptic] (s t u : R) :
    (∃ c0 c1 c2, c0 * F0 W s t u + c1 * F1 W s t u + c2 * F2 s t u = s ^ 4) ∧
    (∃ c0 c1 c2, c0 * F0 W s t u + c1 * F1 W s t u + c2 * F2 s t u = t ^ 4) ∧
    (∃ c0 c1 c2, c0 * F0 W s t u + c1 * F1 W s t u + c2 * F2 s t u = u ^ 4) := by
  have h : ∀ i : Fin 3, ∃ c0 c1 c2, c0 * F0 W s t u + c1 * F1 W s t u + c2 * F2 s t u =
      (![s, t, u] : Fin 3 → R) i ^ 4 := by
    intro i
    have := addSubMapCoeff_condition W ![s, t, u] i
    rw [Fin.sum_univ_three] at this
    have e0 : (addSubMap W 0).eval ![s, t, u] = F0 W s t u := by simp [addSubMap, F0]
    have e1 : (addSubMap W 1).eval ![s, t, u] = F1 W s t u := by simp [addSubMap, F1]
    have e2 : (addSubMap W 2).eval ![s, t, u] = F2 s t u := by simp [addSubMap, F2]
    rw [e0, e1, e2] at this
    exact ⟨_, _, _, this⟩
  exact ⟨h 0, h 1, h 2⟩

end forms

variable {K : Type} [Field K] [DecidableEq K] {W : WeierstrassCurve K}

/-- projective x-coordinate -/
def xr : W.toAffine.Point → K × K
  | .zero => (1, 0)
  | .some x _ _ => (x, 1)

theorem xr_neg (P : W.toAffine.Point) : xr (-P) = xr P := by
  rcases P with _ | ⟨x, y, h⟩ <;> rfl

theorem xr_zero : xr (0 : W.toAffine.Point) = (1, 0) := rfl

/-- what is to be shown for a pair of points -/
def AddSub (P Q : W.toAffine.Point) : Prop :=
  ∃ e : K,
    F0 W ((xr P).1 * (xr Q).1) ((xr P).1 * (xr Q).2 + (xr P).2 * (xr Q).1) ((xr P).2 * (xr Q).2) =
      e * ((xr (P + Q)).1 * (xr (P - Q)).1) ∧
    F1 W ((xr P).1 * (xr Q).1) ((xr P).1 * (xr Q).2 + (xr P).2 * (xr Q).1) ((xr P).2 * (xr Q).2) =
      e * ((xr (P + Q)).1 * (xr (P - Q)).2 + (xr (P + Q)).2 * (xr (P - Q)).1) ∧
    F2 ((xr P).1 * (xr Q).1) ((xr P).1 * (xr Q).2 + (xr P).2 * (xr Q).1) ((xr P).2 * (xr Q).2) =
      e * ((xr (P + Q)).2 * (xr (P - Q)).2)

theorem AddSub.neg_right {P Q : W.toAffine.Point} (h : AddSub P (-Q)) : AddSub P Q := by
  obtain ⟨e, h0, h1, h2⟩ := h
  refine ⟨e, ?_, ?_, ?_⟩
  · rw [xr_neg, sub_neg_eq_add, ← sub_eq_add_neg] at h0; rw [h0]; ring
  · rw [xr_neg, sub_neg_eq_add, ← sub_eq_add_neg] at h1; rw [h1]; ring
  · rw [xr_neg, sub_neg_eq_add, ← sub_eq_add_neg] at h2; rw [h2]; ring

theorem addSub_self (ha1 : W.a₁ = 0) (ha3 : W.a₃ = 0) (h2 : (2 : K) ≠ 0) {x y : K}
    (h : W.toAffine.Nonsingular x y) :
    AddSub (Affine.Point.some x y h) (Affine.Point.some x y h) := by
  have heq : y ^ 2 = x ^ 3 + W.a₂ * x ^ 2 + W.a₄ * x + W.a₆ := by
    have := (Affine.equation_iff _ _).1 h.1
    rw [ha1, ha3] at this
    linear_combination this
  unfold AddSub
  rw [sub_self, xr_zero]
  by_cases hy : y = 0
  · have h0 : Affine.Point.some x y h + Affine.Point.some x y h = 0 :=
      Affine.Point.add_self_of_Y_eq (by rw [Affine.negY, ha1, ha3, hy]; ring)
    rw [h0, xr_zero]
    refine ⟨_, (show _ = _ * ((1 : K) * 1) by rw [mul_one, mul_one]), ?_, ?_⟩
    · simp only [xr, F1, b₂, b₄, b₆, ha1, ha3]
      rw [hy] at heq
      linear_combination (-4 : K) * heq
    · simp only [xr, F2]; ring
  · have hyn : y ≠ W.toAffine.negY x y := by
      rw [Affine.negY, ha1, ha3]
      intro h3
      have : 2 * y = 0 := by linear_combination h3
      exact hy ((mul_eq_zero.1 this).resolve_left h2)
    rw [Affine.Point.add_self_of_Y_ne hyn]
    simp only [xr]
    rw [Affine.slope_of_Y_ne rfl hyn]
    obtain ⟨l, hl⟩ : ∃ l, l = (3 * x ^ 2 + 2 * W.a₂ * x + W.a₄ - W.a₁ * y) / (y - W.toAffine.negY x y) :=
      ⟨_, rfl⟩
    rw [← hl]
    have hl2 : l * (2 * y) = 3 * x ^ 2 + 2 * W.a₂ * x + W.a₄ := by
      rw [hl, Affine.negY, ha1, ha3]
      have : y - (-y - 0 * x - 0) = 2 * y := by ring
      rw [this, zero_mul, sub_zero, div_mul_cancel₀ _ (mul_ne_zero h2 hy)]
    refine ⟨4 * y ^ 2, ?_, ?_, ?_⟩
    · simp only [F0, Affine.addX, b₄, b₆, b₈, ha1, ha3]
      linear_combination (8 * x + 4 * W.a₂) * heq -
        (l * (2 * y) + 3 * x ^ 2 + 2 * W.a₂ * x + W.a₄) * hl2
    · simp only [F1, b₂, b₄, b₆, ha1, ha3]
      linear_combination (-4 : K) * heq
    · simp only [F2]; ring

theorem addSub_generic (ha1 : W.a₁ = 0) (ha3 : W.a₃ = 0) {x y x' y' : K}
    (h : W.toAffine.Nonsingular x y) (h' : W.toAffine.Nonsingular x' y') (hx : x ≠ x') :
    AddSub (Affine.Point.some x y h) (Affine.Point.some x' y' h') := by
  have heq : y ^ 2 = x ^ 3 + W.a₂ * x ^ 2 + W.a₄ * x + W.a₆ := by
    have := (Affine.equation_iff _ _).1 h.1
    rw [ha1, ha3] at this
    linear_combination this
  have heq' : y' ^ 2 = x' ^ 3 + W.a₂ * x' ^ 2 + W.a₄ * x' + W.a₆ := by
    have := (Affine.equation_iff _ _).1 h'.1
    rw [ha1, ha3] at this
    linear_combination this
  have hD : x - x' ≠ 0 := sub_ne_zero.2 hx
  unfold AddSub
  rw [sub_eq_add_neg, Affine.Point.neg_some, Affine.Point.add_of_X_ne hx, Affine.Point.add_of_X_ne hx]
  simp only [xr]
  rw [Affine.slope_of_X_ne hx, Affine.slope_of_X_ne hx]
  have hn : W.toAffine.negY x' y' = -y' := by rw [Affine.negY, ha1, ha3]; ring
  rw [hn]
  obtain ⟨l, hl⟩ : ∃ l, l = (y - y') / (x - x') := ⟨_, rfl⟩
  obtain ⟨m, hm⟩ : ∃ m, m = (y - -y') / (x - x') := ⟨_, rfl⟩
  rw [← hl, ← hm]
  have hl1 : l * (x - x') = y - y' := by rw [hl, div_mul_cancel₀ _ hD]
  have hm1 : m * (x - x') = y + y' := by rw [hm, div_mul_cancel₀ _ hD, sub_neg_eq_add]
  have e3 : (x - x') ^ 2 * W.toAffine.addX x x' l = (y - y') ^ 2 - (W.a₂ + x + x') * (x - x') ^ 2 := by
    rw [Affine.addX, ha1]
    linear_combination (l * (x - x') + y - y') * hl1
  have e4 : (x - x') ^ 2 * W.toAffine.addX x x' m = (y + y') ^ 2 - (W.a₂ + x + x') * (x - x') ^ 2 := by
    rw [Affine.addX, ha1]
    linear_combination (m * (x - x') + y + y') * hm1
  obtain ⟨u, hu⟩ : ∃ u, u = W.toAffine.addX x x' l := ⟨_, rfl⟩
  obtain ⟨v, hv⟩ : ∃ v, v = W.toAffine.addX x x' m := ⟨_, rfl⟩
  rw [← hu] at e3 ⊢
  rw [← hv] at e4 ⊢
  refine ⟨(x - x') ^ 2, ?_, ?_, ?_⟩
  · refine mul_left_cancel₀ (pow_ne_zero 2 hD) ?_
    have e5 : (x - x') ^ 2 * ((x - x') ^ 2 * (u * v)) =
        ((y ^ 2 + y' ^ 2) - (W.a₂ + x + x') * (x - x') ^ 2) ^ 2 - 4 * y ^ 2 * y' ^ 2 := by
      calc _ = ((x - x') ^ 2 * u) * ((x - x') ^ 2 * v) := by ring
        _ = _ := by rw [e3, e4]; ring
    rw [e5, heq, heq']
    simp only [F0, b₄, b₆, b₈, ha1, ha3]
    ring
  · simp only [F1, b₂, b₄, b₆, ha1, ha3]
    linear_combination -e3 - e4 - 2 * heq - 2 * heq'
  · simp only [F2]; ring

/-- the triple of `P+Q`, `P-Q` in terms of the triple of `P`, `Q` -/
theorem addSub (ha1 : W.a₁ = 0) (ha3 : W.a₃ = 0) (h2 : (2 : K) ≠ 0) (P Q : W.toAffine.Point) :
    AddSub P Q := by
  rcases P with _ | ⟨x, y, h⟩
  · refine ⟨1, ?_, ?_, ?_⟩ <;>
      rw [show (Affine.Point.zero : W.toAffine.Point) = 0 from rfl, zero_add, zero_sub, xr_neg, xr_zero] <;>
      simp only [F0, F1, F2] <;> ring
  rcases Q with _ | ⟨x', y', h'⟩
  · refine ⟨1, ?_, ?_, ?_⟩ <;>
      rw [show (Affine.Point.zero : W.toAffine.Point) = 0 from rfl, add_zero, sub_zero, xr_zero] <;>
      simp only [F0, F1, F2] <;> ring
  by_cases hx : x = x'
  · subst hx
    have heq := (Affine.equation_iff _ _).1 h.1
    have heq' := (Affine.equation_iff _ _).1 h'.1
    rw [ha1, ha3] at heq heq'
    have hyy : (y - y') * (y + y') = 0 := by linear_combination heq - heq'
    rcases mul_eq_zero.1 hyy with hy | hy
    · have : y = y' := sub_eq_zero.1 hy
      subst this
      exact addSub_self ha1 ha3 h2 h
    · have hny : W.toAffine.negY x y' = y := by
        rw [Affine.negY, ha1, ha3]; linear_combination -hy
      apply AddSub.neg_right
      rw [Affine.Point.neg_some]
      have e : (Affine.Point.some x (W.toAffine.negY x y') ((Affine.nonsingular_neg ..).2 h') :
          W.toAffine.Point) = Affine.Point.some x y h := by
        rw [Affine.Point.some.injEq]; exact ⟨rfl, hny⟩
      rw [e]
      exact addSub_self ha1 ha3 h2 h
  · exact addSub_generic ha1 ha3 h h' hx

end Eclib.Hasse
