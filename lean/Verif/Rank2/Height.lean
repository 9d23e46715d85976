import Mathlib.NumberTheory.Height.EllipticCurve
import Mathlib.NumberTheory.Height.NumberField
import Mathlib.NumberTheory.Height.Northcott
import Verif.Hasse.AddSub

/-!
# The height of rational points

For C115, C116 and C119: the height of a point is the (logarithmic) height of its x-coordinate; it satisfies the
parallelogram law up to a constant by the formulas for `x(P+Q), x(P-Q)` (`Hasse.addSub`) and the bound for heights
under the forms of these formulas (Mathlib), and bounded height leaves finitely many points.
-/

namespace Eclib.Rank2

open WeierstrassCurve Height Eclib.Hasse

set_option linter.unusedSectionVars false

section height
variable {W : WeierstrassCurve ℚ}

/-- the height of a point -/
noncomputable def ht (P : W.toAffine.Point) : ℝ := logHeight ![(xr P).1, (xr P).2]

theorem xr_ne (P : W.toAffine.Point) : ![(xr P).1, (xr P).2] ≠ 0 := by
  rcases P with _ | ⟨x, y, h⟩
  · intro h0
    have := congrFun h0 0
    simp [xr] at this
  · intro h0
    have := congrFun h0 1
    simp [xr] at this

theorem xr_or (P : W.toAffine.Point) : (xr P).1 ≠ 0 ∨ (xr P).2 ≠ 0 := by
  rcases P with _ | ⟨x, y, h⟩
  · exact Or.inl (by simp [xr])
  · exact Or.inr (by simp [xr])

/-- the parallelogram law up to a constant -/
theorem ht_parallelogram [W.IsElliptic] (ha1 : W.a₁ = 0) (ha3 : W.a₃ = 0) :
    ∃ C, ∀ P Q : W.toAffine.Point, |ht (P + Q) + ht (P - Q) - 2 * (ht P + ht Q)| ≤ C := by
  obtain ⟨C1, h1⟩ := abs_logHeight_addSubMap_sub_two_mul_logHeight_le W
  obtain ⟨C2, h2⟩ := abs_logHeight_sym2_sub_le ℚ
  refine ⟨C1 + 3 * C2, fun P Q => ?_⟩
  obtain ⟨e, e0, e1, e2⟩ := addSub ha1 ha3 two_ne_zero P Q
  have k1 := h2 (xr_ne P) (xr_ne Q)
  have k2 := h2 (xr_ne (P + Q)) (xr_ne (P - Q))
  set s := (xr P).1 * (xr Q).1 with hs
  set t := (xr P).1 * (xr Q).2 + (xr P).2 * (xr Q).1 with ht'
  set u := (xr P).2 * (xr Q).2 with hu
  have k3 := h1 ![s, t, u]
  have f0 : (addSubMap W 0).eval ![s, t, u] = F0 W s t u := by simp [addSubMap, F0]
  have f1 : (addSubMap W 1).eval ![s, t, u] = F1 W s t u := by simp [addSubMap, F1]
  have f2 : (addSubMap W 2).eval ![s, t, u] = F2 s t u := by simp [addSubMap, F2]
  have he : e ≠ 0 := by
    rintro rfl
    rw [zero_mul] at e0 e1 e2
    obtain ⟨⟨a, b, c, g0⟩, ⟨a', b', c', g1⟩, ⟨a'', b'', c'', g2⟩⟩ := forms_combination W s t u
    rw [e0, e1, e2] at g0 g1 g2
    have s0 : s = 0 := by
      have : s ^ 4 = 0 := by rw [← g0]; ring
      exact pow_eq_zero_iff (by norm_num) |>.1 this
    have t0 : t = 0 := by
      have : t ^ 4 = 0 := by rw [← g1]; ring
      exact pow_eq_zero_iff (by norm_num) |>.1 this
    have u0 : u = 0 := by
      have : u ^ 4 = 0 := by rw [← g2]; ring
      exact pow_eq_zero_iff (by norm_num) |>.1 this
    rw [hs] at s0
    rw [ht'] at t0
    rw [hu] at u0
    have hP := xr_or P
    have hQ := xr_or Q
    clear_value s t u
    clear k1 k2 k3 f0 f1 f2 e0 e1 e2 g0 g1 g2 h1 h2 hs ht' hu ha1 ha3
    rcases mul_eq_zero.1 s0 with h | h <;> rcases mul_eq_zero.1 u0 with h' | h' <;> rw [h, h'] at t0 <;>
      simp only [h, h', zero_mul, mul_zero, zero_add, add_zero, mul_eq_zero, ne_eq, not_true, false_or, or_false] at t0 hP hQ
    · exact t0.elim hP hQ
    · exact t0.elim hP hQ
  have hF : (fun i => (addSubMap W i).eval ![s, t, u]) = e • ![(xr (P + Q)).1 * (xr (P - Q)).1,
      (xr (P + Q)).1 * (xr (P - Q)).2 + (xr (P + Q)).2 * (xr (P - Q)).1, (xr (P + Q)).2 * (xr (P - Q)).2] := by
    funext i
    fin_cases i
    · exact f0.trans e0
    · exact f1.trans e1
    · exact f2.trans e2
  rw [hF, logHeight_smul_eq_logHeight _ he] at k3
  unfold ht
  rw [abs_le] at k1 k2 k3 ⊢
  constructor <;> linarith [k1.1, k1.2, k2.1, k2.2, k3.1, k3.2]

theorem finite_y (W : WeierstrassCurve ℚ) (x : ℚ) : {y : ℚ | W.toAffine.Equation x y}.Finite := by
  rcases Set.eq_empty_or_nonempty {y : ℚ | W.toAffine.Equation x y} with h | ⟨y0, h0⟩
  · rw [h]; exact Set.finite_empty
  · refine (Set.toFinite {y0, W.toAffine.negY x y0}).subset fun y hy => ?_
    exact (Affine.Y_eq_of_X_eq hy h0 rfl).elim Or.inl fun h => Or.inr h

/-- finitely many points of bounded height -/
instance ht_northcott : Northcott (ht (W := W)) where
  finite_le b := by
    have hx : {x : ℚ | logHeight₁ x ≤ b}.Finite := Northcott.finite_le b
    have hxy : {p : ℚ × ℚ | logHeight₁ p.1 ≤ b ∧ W.toAffine.Equation p.1 p.2}.Finite := by
      have : {p : ℚ × ℚ | logHeight₁ p.1 ≤ b ∧ W.toAffine.Equation p.1 p.2} ⊆
          ⋃ x ∈ {x : ℚ | logHeight₁ x ≤ b}, (fun y => (x, y)) '' {y : ℚ | W.toAffine.Equation x y} := by
        rintro ⟨x, y⟩ ⟨h1, h2⟩
        simp only [Set.mem_iUnion]
        exact ⟨x, h1, y, h2, rfl⟩
      exact (hx.biUnion fun x _ => (finite_y W x).image _).subset this
    let co : W.toAffine.Point → Option (ℚ × ℚ) := fun P => match P with
      | .zero => none
      | .some x y _ => some (x, y)
    have hco : Function.Injective co := by
      rintro (_ | ⟨x, y, h⟩) (_ | ⟨x', y', h'⟩) e
      · rfl
      · simp [co] at e
      · simp [co] at e
      · simp only [co, Option.some.injEq, Prod.mk.injEq] at e
        obtain ⟨rfl, rfl⟩ := e
        rfl
    refine Set.Finite.of_finite_image (f := co) ?_ hco.injOn
    refine ((hxy.image some).insert none).subset ?_
    rintro _ ⟨P, hP, rfl⟩
    rcases P with _ | ⟨x, y, h⟩
    · exact Or.inl rfl
    · refine Or.inr ⟨(x, y), ⟨?_, h.1⟩, rfl⟩
      have : ht (Affine.Point.some x y h) ≤ b := hP
      rw [logHeight₁_eq_logHeight]
      exact this

end height

end Eclib.Rank2
