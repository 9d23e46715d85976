import Verif.Forms.Reduce
import Mathlib.Algebra.Order.Round

/-!
# C121: `reduce_quad`
-/

namespace Eclib.Forms.Red

/-- The form `b0,c0` (leading coefficient 1) transformed by the matrix `m` of determinant 1 is a positive multiple of
`X² + b' X Z + c' Z²`. -/
def IsTransform {K : Type*} [Field K] [LinearOrder K] (b0 c0 : K) (m : U) (b' c' : K) : Prop :=
  m.m11 * m.m22 - m.m12 * m.m21 = 1 ∧ ∃ A : K, 0 < A ∧ ∀ X Z : K,
    (m.m11 * X + m.m12 * Z) ^ 2 + b0 * (m.m11 * X + m.m12 * Z) * (m.m21 * X + m.m22 * Z) +
      c0 * (m.m21 * X + m.m22 * Z) ^ 2 = A * (X ^ 2 + b' * X * Z + c' * Z ^ 2)

theorem Track.isTransform {K : Type*} [Field K] [LinearOrder K] [IsStrictOrderedRing K] {b0 c0 A b c : K} {m : U}
    (T : Track b0 c0 m A b c) : IsTransform b0 c0 m b c := by
  refine ⟨T.det, A, T.pos, fun X Z => ?_⟩
  have := T.fn X Z
  simp only [qf] at this
  linear_combination this

section any

variable {K : Type*} [Add K] [Sub K] [Mul K] [Div K] [Neg K] [IntCast K] [LT K] [DecidableLT K]

/-- **C121**: whatever the floating point operations, the rounding and the comparisons give, the matrix returned by
`reduce_quad` has determinant 1. -/
theorem C121_unimodular (R : RLib K) (fuel : ℕ) (b c yz b' c' : K) (m : U)
    (h : reduceQuad R fuel b c yz = some (b', c', m)) : m.m11 * m.m22 - m.m12 * m.m21 = 1 :=
  reduceQuad_det R fuel b c yz _ h

end any

variable {K : Type*} [Field K] [LinearOrder K] [IsStrictOrderedRing K]

/-- **C121**: in exact arithmetic both loops of `reduce_quad` end for every positive definite quadratic. -/
theorem C121_terminates [Archimedean K] {R : RLib K} (hR : R.Ok) (b c yz : K) (hy : 0 < yz)
    (hD : 4 * yz ^ 2 = 4 * c - b ^ 2) : ∃ F, ∃ t, ∀ fuel, F ≤ fuel → reduceQuad R fuel b c yz = some t := by
  have hD' : 0 < 4 * c - b ^ 2 := by rw [← hD]; positivity
  obtain ⟨n, hn⟩ := exists_nat_gt (1 / yz)
  have hn1 : 1 < yz * ((1 + (n : ℤ) : ℤ) : K) := by
    rw [div_lt_iff₀ hy] at hn
    push_cast
    nlinarith
  obtain ⟨m0, e0⟩ := oneStep_ends hR (-b / ((2 : ℤ) : K)) (((1 : ℤ) : K) / ((10 : ℤ) : K)) hy hn1
  have hm0 : m0.det = 1 := by rw [oneLoop_det R _ _ _ _ _ _ _ _ e0]; rfl
  obtain ⟨A, T⟩ := afterOne_track hD' hm0
  have T1 := T.shift (R.rnd (-b / ((2 : ℤ) : K)))
  have hmin : 0 < min 1 ((4 * c - b ^ 2) / 4) := lt_min one_pos (by positivity)
  obtain ⟨k, hk⟩ := exists_pow_lt_of_lt_one (div_pos hmin T.pos) (by norm_num : (99999 / 100000 : K) < 1)
  rw [lt_div_iff₀ T.pos, mul_comm] at hk
  obtain ⟨t, ht⟩ := rqLoop_ends (R := R) hD' k A _ _ _ T1 hk
  refine ⟨max (n + 2) k, t, fun fuel hf => ?_⟩
  unfold reduceQuad
  dsimp only
  rw [show oneStep R fuel (-b / ((2 : ℤ) : K)) yz (((1 : ℤ) : K) / ((10 : ℤ) : K)) = some m0 from
    oneLoop_mono R _ _ _ _ _ _ _ _ e0 fuel ((le_max_left _ _).trans hf)]
  exact rqLoop_mono R k _ _ ht fuel ((le_max_right _ _).trans hf)

/-- **C121**: the values `b`, `c` which the code keeps are those of the transformed quadratic, and `c > 0.99999`. -/
theorem C121_tracks {R : RLib K} (hR : R.Ok) (fuel : ℕ) (b c yz b' c' : K) (m : U) (hy : 0 < yz)
    (hD : 4 * yz ^ 2 = 4 * c - b ^ 2) (h : reduceQuad R fuel b c yz = some (b', c', m)) :
    IsTransform b c m b' c' ∧ 99999 / 100000 < c' := by
  have hD' : 0 < 4 * c - b ^ 2 := by rw [← hD]; positivity
  unfold reduceQuad at h
  dsimp only at h
  split at h
  · exact absurd h (by simp)
  · rename_i m0 e0
    have hm0 : m0.det = 1 := by rw [oneLoop_det R _ _ _ _ _ _ _ _ e0]; rfl
    obtain ⟨A, T⟩ := afterOne_track hD' hm0
    obtain ⟨⟨A', T'⟩, h2, -, -⟩ := rqLoop_spec hR hD' _ _ _ _ _ (T.shift (R.rnd (-b / ((2 : ℤ) : K)))) _ _ _ h
    exact ⟨T'.isTransform, h2⟩

/-- **C121** (part): let `m0` be the matrix found by `one_step`, `b1`, `c1` the quadratic transformed by its inverse.
If the integer nearest to the real part of the *original* root is also a nearest integer to `-b1/2`, or if the quadratic
shifted by it has constant term at most 0.99999, the result is reduced.  Missing: in the other cases it is not, see
`C121_not_reduced`. -/
theorem C121_reduced_partial {R : RLib K} (hR : R.Ok) (fuel : ℕ) (b c yz b' c' : K) (m m0 : U) (hy : 0 < yz)
    (hD : 4 * yz ^ 2 = 4 * c - b ^ 2) (h : reduceQuad R fuel b c yz = some (b', c', m))
    (h0 : oneStep R fuel (-b / ((2 : ℤ) : K)) yz (((1 : ℤ) : K) / ((10 : ℤ) : K)) = some m0) {b1 c1 : K}
    (h1 : IsTransform b c ⟨m0.m22, -m0.m12, -m0.m21, m0.m11⟩ b1 c1)
    (hs : |b1 + 2 * (R.rnd (-b / 2) : K)| ≤ 1 ∨
      c1 + (R.rnd (-b / 2) : K) * ((R.rnd (-b / 2) : K) + b1) ≤ 99999 / 100000) :
    IsTransform b c m b' c' ∧ 99999 / 100000 < c' ∧ |b'| ≤ 1 := by
  obtain ⟨h2, h3⟩ := C121_tracks hR fuel b c yz b' c' m hy hD h
  refine ⟨h2, h3, ?_⟩
  have hD' : 0 < 4 * c - b ^ 2 := by rw [← hD]; positivity
  have hm0 : m0.det = 1 := by rw [oneLoop_det R _ _ _ _ _ _ _ _ h0]; rfl
  obtain ⟨A, T⟩ := afterOne_track hD' hm0
  -- the transformed quadratic is determined
  have T1 := T.isTransform
  have e : (afterOne b c m0).1 = b1 ∧ (afterOne b c m0).2.1 = c1 := by
    obtain ⟨-, A1, p1, f1⟩ := h1
    obtain ⟨-, A2, p2, f2⟩ := T1
    have g : ∀ X Z : K, A1 * (X ^ 2 + b1 * X * Z + c1 * Z ^ 2) =
        A2 * (X ^ 2 + (afterOne b c m0).1 * X * Z + (afterOne b c m0).2.1 * Z ^ 2) := fun X Z => by
      rw [← f1, ← f2]; rfl
    have g1 := g 1 0
    have g2 := g 0 1
    have g3 := g 1 1
    simp only [one_pow, mul_zero, mul_one, ne_eq, OfNat.ofNat_ne_zero, not_false_eq_true, zero_pow, add_zero,
      zero_add] at g1 g2 g3
    subst g1
    have e2 := mul_left_cancel₀ p1.ne' g2
    have e3 := mul_left_cancel₀ p1.ne' g3
    exact ⟨by rw [e2] at e3; linarith, e2.symm⟩
  unfold reduceQuad at h
  dsimp only at h
  rw [h0] at h
  dsimp only at h
  obtain ⟨-, -, h4, -⟩ := rqLoop_spec hR hD' _ _ _ _ _ (T.shift (R.rnd (-b / ((2 : ℤ) : K)))) _ _ _ h
  refine h4 ?_
  rw [e.1, e.2]
  push_cast
  exact hs

/-! ## Witnesses in exact rational arithmetic -/

/-- exact arithmetic with the rounding of NTL's `RoundToZZ` up to the choice for halves -/
def ratLib : RLib ℚ := ⟨fun x => round x, fun x => decide (x = 0)⟩

theorem ratLib_ok : ratLib.Ok where
  rnd x := by
    have := abs_sub_round x
    rw [abs_sub_comm] at this
    exact this
  azero := by simp [ratLib]

/-- the hypotheses can be met, with a result which is reduced: the root is `1/3 + i/100` -/
example : ∃ m : U, ∃ b' c' : ℚ, reduceQuad ratLib 10 (-2 / 3) (1 / 9 + 1 / 10000) (1 / 100) = some (b', c', m) ∧
    |b'| ≤ 1 ∧ m.m21 ≠ 0 :=
  ⟨⟨-1, 0, -3, -1⟩, 2 / 3, 10009 / 81, by decide +kernel, by decide +kernel, by decide +kernel⟩

/-- and they are those of `C121_reduced_partial` with a matrix `m0` which is not the identity -/
example : |(2 / 3 : ℚ) + 2 * (ratLib.rnd (-(-2 / 3) / 2) : ℚ)| ≤ 1 ∧
    oneStep ratLib 10 (-(-2 / 3 : ℚ) / ((2 : ℤ) : ℚ)) (1 / 100) (((1 : ℤ) : ℚ) / ((10 : ℤ) : ℚ)) =
      some ⟨-1, 0, 3, -1⟩ ∧
    IsTransform (-2 / 3 : ℚ) (1 / 9 + 1 / 10000) ⟨-1, -0, -3, -1⟩ (2 / 3) (10009 / 81) := by
  refine ⟨by decide +kernel, by decide +kernel, by decide +kernel, 81 / 90000, by norm_num, fun X Z => ?_⟩
  push_cast
  ring

theorem reduceQuad_mono {R : RLib K} {b c yz : K} {n k : ℕ} {t : K × K × U} (h : reduceQuad R n b c yz = some t)
    (hk : n ≤ k) : reduceQuad R k b c yz = some t := by
  unfold reduceQuad at h ⊢
  dsimp only at h ⊢
  split at h
  · exact absurd h (by simp)
  · rename_i m0 e0
    rw [show oneStep R k (-b / ((2 : ℤ) : K)) yz (((1 : ℤ) : K) / ((10 : ℤ) : K)) = some m0 from
      oneLoop_mono R _ _ _ _ _ _ _ _ e0 k hk]
    exact rqLoop_mono R n _ _ h k hk

/-- **C121 fails**: for the quadratic with root `103/10 + i/2` the matrix returned is `(10,99;1,10)`; the transformed
quadratic is `X² + (370/17) X Z + (2050/17) Z²`, with root of real part about -10.9.  The code shifts by the integer
nearest to the real part of the root before `one_step`. -/
theorem C121_not_reduced : ∃ b c yz : ℚ, 0 < yz ∧ 4 * yz ^ 2 = 4 * c - b ^ 2 ∧ ∃ b' c' : ℚ, ∃ m : U,
    (∀ fuel, 10 ≤ fuel → reduceQuad ratLib fuel b c yz = some (b', c', m)) ∧ IsTransform b c m b' c' ∧ 21 < b' := by
  have h : reduceQuad ratLib 10 (-103 / 5) (5317 / 50) (1 / 2) =
      some ((370 / 17 : ℚ), (2050 / 17 : ℚ), (⟨10, 99, 1, 10⟩ : U)) := by decide +kernel
  have hD : 4 * (1 / 2 : ℚ) ^ 2 = 4 * (5317 / 50) - (-103 / 5) ^ 2 := by norm_num
  exact ⟨-103 / 5, 5317 / 50, 1 / 2, by norm_num, hD, 370 / 17, 2050 / 17, ⟨10, 99, 1, 10⟩,
    fun fuel hf => reduceQuad_mono h hf, (C121_tracks ratLib_ok 10 _ _ _ _ _ _ (by norm_num) hD h).1, by norm_num⟩

/-- the function with `xz` computed again after `one_step` (not in the code) -/
def reduceQuadFixed (R : RLib K) (fuel : ℕ) (b c yz : K) : Option (K × K × U) :=
  match oneStep R fuel (-b / ((2 : ℤ) : K)) yz (((1 : ℤ) : K) / ((10 : ℤ) : K)) with
  | none => none
  | some m0 =>
    let t := afterOne b c m0
    rqLoop R fuel (shift t.1 t.2.1 t.2.2 (R.rnd (-t.1 / ((2 : ℤ) : K))))

/-- with `xz` computed again the result is always reduced -/
theorem C121_fixed_reduced {R : RLib K} (hR : R.Ok) (fuel : ℕ) (b c yz b' c' : K) (m : U) (hy : 0 < yz)
    (hD : 4 * yz ^ 2 = 4 * c - b ^ 2) (h : reduceQuadFixed R fuel b c yz = some (b', c', m)) :
    IsTransform b c m b' c' ∧ 99999 / 100000 < c' ∧ |b'| ≤ 1 := by
  have hD' : 0 < 4 * c - b ^ 2 := by rw [← hD]; positivity
  unfold reduceQuadFixed at h
  split at h
  · exact absurd h (by simp)
  · rename_i m0 e0
    have hm0 : m0.det = 1 := by rw [oneLoop_det R _ _ _ _ _ _ _ _ e0]; rfl
    obtain ⟨A, T⟩ := afterOne_track hD' hm0
    obtain ⟨⟨A', T'⟩, h2, h3, -⟩ := rqLoop_spec hR hD' _ _ _ _ _ (T.shift _) _ _ _ h
    exact ⟨T'.isTransform, h2, h3 (.inl (rnd_shift hR _))⟩

end Eclib.Forms.Red
