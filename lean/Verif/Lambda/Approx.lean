import Verif.Lambda.Props
import Mathlib.Algebra.Order.Round

/-!
# C129: `make_point_from_x` with a real number (lambda.cc:128-164)

`bigfloat` is an ordered field without rounding errors; `rnd` is `Iround` (contract: to a nearest integer), `az` is `is_approx_zero`.
-/

namespace Eclib.Lambda

open Eclib.Curve P2 Marith WeierstrassCurve

variable {K : Type} [Field K] [LinearOrder K]

/-- the loop of `make_point_from_x(Curvedata*, const bigfloat& x, long maxdd, Point*)` (lambda.cc:137-147), entered with the fuel as
the bound of the number of passages (`none` if it is too small), and the last test (lambda.cc:148-163), which is the computation of
the version with integers for the last convergent -/
def ratLoop (rnd : K → ℤ) (az : K → Bool) (E : Cd) (maxdenom : ℤ) (x : K) : ℕ → K → ℤ → ℤ → ℤ → ℤ → Option (Option P2)
  | 0, _, _, _, _, _ => none
  | f + 1, xx, x0, x1, y0, y1 =>
    let c := rnd xx
    let xc : K := c
    let x2 := x0 + c * x1
    let y2 := y0 + c * y1
    match makePointFromX E x2 y2 with
    | some P => some (some P)
    | none =>
      let diff := if az |xx - xc| then 0 else |x - x2 / y2|
      let xx' := if az |xx - xc| then xx else 1 / (xx - xc)
      if !az diff ∧ y2 < maxdenom then ratLoop rnd az E maxdenom x f xx' x1 x2 y1 y2
      else some (makePointFromX E x2 y2)

/-- `make_point_from_x(Curvedata*, const bigfloat& x, long maxdd, Point*)` (lambda.cc:128-164); `y2` is 0 before the loop -/
def makePointReal (rnd : K → ℤ) (az : K → Bool) (fuel : ℕ) (E : Cd) (x : K) (maxdd : ℕ) : Option (Option P2) :=
  let maxdenom : ℤ := 10 ^ maxdd
  if !az 1 ∧ 0 < maxdenom then ratLoop rnd az E maxdenom x fuel x 0 1 1 0
  else some (makePointFromX E 0 0)

/-! ## The convergents -/

/-- the invariant of the loop -/
structure Inv (x xx : K) (x0 x1 y0 y1 : ℤ) : Prop where
  det : (x1 * y0 - x0 * y1) ^ 2 = 1
  lin : (x * y0 - x0) + xx * (x * y1 - x1) = 0
  gr : (y0 = 1 ∧ y1 = 0) ∨ (|y0| < |y1| ∧ 2 ≤ |xx|)

theorem inv_start (x : K) : Inv x x 0 1 1 0 := ⟨by norm_num, by simp, Or.inl ⟨rfl, rfl⟩⟩

theorem inv_det {x xx : K} {x0 x1 y0 y1 : ℤ} (h : Inv x xx x0 x1 y0 y1) (c : ℤ) :
    ((x0 + c * x1) * y1 - x1 * (y0 + c * y1)) ^ 2 = 1 := by
  rw [← h.det]; ring

theorem inv_coprime {x xx : K} {x0 x1 y0 y1 : ℤ} (h : Inv x xx x0 x1 y0 y1) (c : ℤ) :
    IsCoprime (x0 + c * x1) (y0 + c * y1) := by
  have := inv_det h c
  refine ⟨((x0 + c * x1) * y1 - x1 * (y0 + c * y1)) * y1, -((x0 + c * x1) * y1 - x1 * (y0 + c * y1)) * x1, ?_⟩
  linear_combination this

variable [IsStrictOrderedRing K]

theorem inv_grow {x xx : K} {x0 x1 y0 y1 c : ℤ} (h : Inv x xx x0 x1 y0 y1) (hc : |xx - c| ≤ 1 / 2) :
    |y1| < |y0 + c * y1| := by
  rcases h.gr with ⟨rfl, rfl⟩ | ⟨h1, h2⟩
  · simp
  · have hc2 : 2 ≤ |c| := by
      have h3 : |xx| ≤ |xx - c| + |(c : K)| := by
        have := abs_add_le (xx - c) (c : K)
        simpa using this
      have h4 : (1 : K) < |(c : K)| := by linarith
      have h5 : (1 : ℤ) < |c| := by
        rw [← Int.cast_abs] at h4
        exact_mod_cast h4
      omega
    have h6 : |c * y1| ≤ |y0 + c * y1| + |y0| := by
      have := abs_add_le (y0 + c * y1) (-y0)
      rw [abs_neg] at this
      calc |c * y1| = |y0 + c * y1 + -y0| := by ring_nf
        _ ≤ _ := this
    rw [abs_mul] at h6
    have h7 : 2 * |y1| ≤ |c| * |y1| := mul_le_mul_of_nonneg_right hc2 (abs_nonneg _)
    omega

theorem inv_ne {x xx : K} {x0 x1 y0 y1 c : ℤ} (h : Inv x xx x0 x1 y0 y1) (hc : |xx - c| ≤ 1 / 2) : y0 + c * y1 ≠ 0 := by
  intro h0
  have := inv_grow h hc
  rw [h0, abs_zero] at this
  exact absurd this (not_lt.2 (abs_nonneg _))

theorem inv_close {x xx : K} {x0 x1 y0 y1 c : ℤ} (h : Inv x xx x0 x1 y0 y1) (hc : |xx - c| ≤ 1 / 2) :
    |x - ((x0 + c * x1 : ℤ) : K) / ((y0 + c * y1 : ℤ) : K)| ≤ 1 / ((y0 + c * y1 : ℤ) : K) ^ 2 := by
  have hg := inv_grow h hc
  have hne := inv_ne h hc
  have hd := inv_det h c
  set x2 := x0 + c * x1 with hx2
  set y2 := y0 + c * y1 with hy2
  have hne' : (y2 : K) ≠ 0 := by exact_mod_cast hne
  have hpos : 0 < |(y2 : K)| := abs_pos.2 hne'
  set D1 : K := x * y1 - x1 with hD1
  set D2 : K := x * y2 - x2 with hD2
  have e1 : D2 = (c - xx) * D1 := by
    have := h.lin
    rw [hD2, hx2, hy2, hD1]
    push_cast
    linear_combination this
  have e2 : |y2 * D1 - y1 * D2| = 1 := by
    have hs : ((y2 : K) * D1 - y1 * D2) ^ 2 = 1 := by
      have hd' : (((x2 * y1 - x1 * y2 : ℤ) : K)) ^ 2 = 1 := by exact_mod_cast hd
      push_cast at hd'
      rw [hD1, hD2]; linear_combination hd'
    rw [sq] at hs
    rcases mul_self_eq_one_iff.1 hs with h | h <;> rw [h] <;> simp
  have e3 : |D2| ≤ |D1| / 2 := by
    rw [e1, abs_mul, abs_sub_comm]
    have := mul_le_mul_of_nonneg_right hc (abs_nonneg D1)
    linarith
  have e4 : |(y2 : K)| * |D1| ≤ 1 + |(y1 : K)| * |D2| := by
    rw [← abs_mul, ← abs_mul, ← e2]
    have := abs_add_le ((y2 : K) * D1 - y1 * D2) (y1 * D2)
    simpa using this
  have e5 : |(y1 : K)| * |D2| ≤ |(y2 : K)| * |D2| := by
    apply mul_le_mul_of_nonneg_right _ (abs_nonneg _)
    rw [← Int.cast_abs, ← Int.cast_abs]
    exact_mod_cast hg.le
  have e6 : |(y2 : K)| * |D2| ≤ 1 := by
    have := mul_le_mul_of_nonneg_left e3 hpos.le
    linarith
  have e7 : x - (x2 : K) / y2 = D2 / y2 := by rw [hD2]; field_simp
  rw [e7, abs_div, div_le_div_iff₀ hpos (by positivity), ← sq_abs (y2 : K)]
  nlinarith

theorem inv_step {x xx : K} {x0 x1 y0 y1 c : ℤ} (h : Inv x xx x0 x1 y0 y1) (hc : |xx - c| ≤ 1 / 2) (hne : xx - c ≠ 0) :
    Inv x (1 / (xx - c)) x1 (x0 + c * x1) y1 (y0 + c * y1) := by
  refine ⟨inv_det h c, ?_, Or.inr ⟨inv_grow h hc, ?_⟩⟩
  · have := h.lin
    field_simp
    push_cast
    linear_combination this
  · rw [abs_div, abs_one, le_div_iff₀ (abs_pos.2 hne)]
    linarith

/-! ## C129 -/

theorem loop_sound (rnd : K → ℤ) (hr : ∀ t, |t - rnd t| ≤ 1 / 2) (az : K → Bool) (h0 : az 0 = true) (E : Cv) (hE : E.W.Δ ≠ 0) (md : ℤ) (x : K) :
    ∀ (f : ℕ) (xx : K) (x0 x1 y0 y1 : ℤ), Inv x xx x0 x1 y0 y1 → ∀ P, ratLoop rnd az (Cd.ofAi E) md x f xx x0 x1 y0 y1 = some (some P) →
      isvalid E P = true ∧ Reduced P ∧ P.Z ≠ 0 ∧ ∃ a b : ℤ, b ≠ 0 ∧ IsCoprime a b ∧ (P.X / P.Z : ℚ) = a / b ∧ |x - a / b| ≤ 1 / (b : K) ^ 2
  | 0, _, _, _, _, _, _, P, h => by simp [ratLoop] at h
  | f + 1, xx, x0, x1, y0, y1, hI, P, h => by
    have hc := hr xx
    have fin : ∀ Q, makePointFromX (Cd.ofAi E) (x0 + rnd xx * x1) (y0 + rnd xx * y1) = some Q →
        isvalid E Q = true ∧ Reduced Q ∧ Q.Z ≠ 0 ∧ ∃ a b : ℤ, b ≠ 0 ∧ IsCoprime a b ∧ (Q.X / Q.Z : ℚ) = a / b ∧ |x - a / b| ≤ 1 / (b : K) ^ 2 := by
      intro Q hQ
      have := C123_sound E hE _ _ (inv_ne hI hc) Q hQ
      exact ⟨this.1, this.2.1, this.2.2.1, _, _, inv_ne hI hc, inv_coprime hI _, this.2.2.2, inv_close hI hc⟩
    unfold ratLoop at h
    simp only at h
    split at h
    · rename_i Q hQ
      simp only [Option.some.injEq] at h
      subst h
      exact fin _ hQ
    · rename_i hQ
      by_cases hz : az |xx - (rnd xx : K)| = true
      · rw [if_pos hz, if_neg (by simp [h0]), hQ] at h
        simp at h
      · rw [if_neg hz, if_neg hz] at h
        split at h
        · refine loop_sound rnd hr az h0 E hE md x f _ _ _ _ _ (inv_step hI hc ?_) P h
          intro h1
          rw [h1, abs_zero] at hz
          exact hz h0
        · rw [hQ] at h; simp at h

/-- **C129**, soundness: a point returned by `make_point_from_x` for a real number `x` is a valid, reduced, finite point of the curve
whose `x`-coordinate is a fraction `a/b` in lowest terms with `|x - a/b| ≤ 1/b²`. -/
theorem C129_sound (rnd : K → ℤ) (hr : ∀ t, |t - rnd t| ≤ 1 / 2) (az : K → Bool) (h0 : az 0 = true) (h1 : az 1 = false) (fuel : ℕ)
    (E : Cv) (hE : E.W.Δ ≠ 0) (x : K) (maxdd : ℕ) (P : P2) (h : makePointReal rnd az fuel (Cd.ofAi E) x maxdd = some (some P)) :
    isvalid E P = true ∧ Reduced P ∧ P.Z ≠ 0 ∧ ∃ a b : ℤ, b ≠ 0 ∧ IsCoprime a b ∧ (P.X / P.Z : ℚ) = a / b ∧ |x - a / b| ≤ 1 / (b : K) ^ 2 := by
  unfold makePointReal at h
  simp only at h
  rw [if_pos ⟨by simp [h1], by positivity⟩] at h
  exact loop_sound rnd hr az h0 E hE _ x fuel _ _ _ _ _ (inv_start x) P h

theorem loop_complete (rnd : K → ℤ) (hr : ∀ t, |t - rnd t| ≤ 1 / 2) (az : K → Bool) (E : Cv) (hE : E.W.Δ ≠ 0) (md n d : ℤ)
    (hd : 0 < d) (hmd : d < md) (haz : ∀ t, az t = true → |t| < 1 / (d : K) ^ 2) (y : ℚ)
    (hy : E.Q.toAffine.Nonsingular (n / d : ℚ) y) :
    ∀ (f : ℕ) (A B x0 x1 y0 y1 : ℤ), |B| < f → B ≠ 0 → |B| ≤ d → IsCoprime A B → n = A * x1 + B * x0 → d = A * y1 + B * y0 →
      Inv ((n : K) / d) ((A : K) / B) x0 x1 y0 y1 →
      ∃ P, ratLoop rnd az (Cd.ofAi E) md ((n : K) / d) f ((A : K) / B) x0 x1 y0 y1 = some (some P)
  | 0, _, B, _, _, _, _, hf, _, _, _, _, _, _ => by
    exfalso
    have := abs_nonneg B
    push_cast at hf
    omega
  | f + 1, A, B, x0, x1, y0, y1, hf, hB, hBd, hco, hn, hdd, hI => by
    have hdK : (0 : K) < d := by exact_mod_cast hd
    have hBK : (B : K) ≠ 0 := by exact_mod_cast hB
    have hc := hr ((A : K) / B)
    set c := rnd ((A : K) / B) with hcdef
    have hne := inv_ne hI hc
    have hgrow := inv_grow hI hc
    have hdet := inv_det hI c
    have hsub : (A : K) / B - c = ((A - c * B : ℤ) : K) / B := by push_cast; field_simp
    have hhalf : 2 * |A - c * B| ≤ |B| := by
      rw [hsub, abs_div, div_le_iff₀ (abs_pos.2 hBK), ← Int.cast_abs, ← Int.cast_abs] at hc
      have : (2 * |A - c * B| : K) ≤ |(B : K)| := by
        rw [← Int.cast_abs]
        have := hc
        push_cast at this ⊢
        linarith
      rw [← Int.cast_abs] at this
      exact_mod_cast this
    unfold ratLoop
    simp only [← hcdef]
    cases hm : makePointFromX (Cd.ofAi E) (x0 + c * x1) (y0 + c * y1) with
    | some P => exact ⟨P, rfl⟩
    | none =>
      have hnB : n = B * (x0 + c * x1) + (A - c * B) * x1 := by rw [hn]; ring
      have hdB : d = B * (y0 + c * y1) + (A - c * B) * y1 := by rw [hdd]; ring
      by_cases hB' : A - c * B = 0
      · exfalso
        rw [hB', zero_mul, add_zero] at hnB hdB
        have h1 := C123_complete E hE (x0 + c * x1) (y0 + c * y1) hne (inv_coprime hI c) y (by
          have hq : ((x0 + c * x1 : ℤ) : ℚ) / ((y0 + c * y1 : ℤ) : ℚ) = n / d := by
            have b0 : (B : ℚ) ≠ 0 := by exact_mod_cast hB
            have y0' : ((y0 + c * y1 : ℤ) : ℚ) ≠ 0 := by exact_mod_cast hne
            have hd0 : (d : ℚ) ≠ 0 := by exact_mod_cast hd.ne'
            rw [div_eq_div_iff y0' hd0]
            have : (x0 + c * x1) * d = n * (y0 + c * y1) := by rw [hnB, hdB]; ring
            exact_mod_cast this
          rw [hq]; exact hy)
        rw [hm] at h1
        simp at h1
      · have hB1 : 1 ≤ |A - c * B| := Int.one_le_abs hB'
        have hy2 : |y0 + c * y1| ≤ d := by
          have h1 : |B * (y0 + c * y1)| ≤ d + |(A - c * B) * y1| := by
            have h2 : B * (y0 + c * y1) = d + -((A - c * B) * y1) := by rw [hdB]; ring
            rw [h2]
            refine (abs_add_le _ _).trans ?_
            rw [abs_neg, abs_of_pos hd]
          rw [abs_mul, abs_mul] at h1
          nlinarith [abs_nonneg (y0 + c * y1), abs_nonneg y1, abs_nonneg (A - c * B), abs_nonneg B,
            mul_le_mul_of_nonneg_right hhalf (abs_nonneg (y0 + c * y1)), mul_le_mul_of_nonneg_left hgrow.le (abs_nonneg (A - c * B)),
            mul_le_mul_of_nonneg_right hB1 (abs_nonneg (y0 + c * y1))]
        have a1 : ¬ az |(A : K) / B - c| = true := by
          intro h
          have h1 := haz _ h
          rw [abs_abs, hsub, abs_div, div_lt_div_iff₀ (abs_pos.2 hBK) (by positivity), ← Int.cast_abs, ← Int.cast_abs, one_mul] at h1
          have h2 : |A - c * B| * d ^ 2 < |B| := by exact_mod_cast h1
          nlinarith
        have a2 : ¬ az |(n : K) / d - ((x0 + c * x1 : ℤ) : K) / ((y0 + c * y1 : ℤ) : K)| = true := by
          intro h
          have h1 := haz _ h
          have hyK : ((y0 + c * y1 : ℤ) : K) ≠ 0 := by exact_mod_cast hne
          have e : (n : K) / d - ((x0 + c * x1 : ℤ) : K) / ((y0 + c * y1 : ℤ) : K) =
              ((n * (y0 + c * y1) - d * (x0 + c * x1) : ℤ) : K) / ((d * (y0 + c * y1) : ℤ) : K) := by
            rw [div_sub_div _ _ hdK.ne' hyK]; push_cast; ring
          have hdy : ((d * (y0 + c * y1) : ℤ) : K) ≠ 0 := by push_cast at hyK ⊢; exact mul_ne_zero hdK.ne' hyK
          rw [abs_abs, e, abs_div, div_lt_div_iff₀ (abs_pos.2 hdy) (by positivity), ← Int.cast_abs, ← Int.cast_abs, one_mul] at h1
          have h2 : |n * (y0 + c * y1) - d * (x0 + c * x1)| * d ^ 2 < |d * (y0 + c * y1)| := by exact_mod_cast h1
          have h3 : n * (y0 + c * y1) - d * (x0 + c * x1) ≠ 0 := by
            have h4 : n * (y0 + c * y1) - d * (x0 + c * x1) = -((A - c * B) * ((x0 + c * x1) * y1 - x1 * (y0 + c * y1))) := by
              rw [hnB, hdB]; ring
            rw [h4, neg_ne_zero]
            refine mul_ne_zero hB' ?_
            intro h5
            rw [h5] at hdet
            norm_num at hdet
          have h4 := Int.one_le_abs h3
          rw [abs_mul, abs_of_pos hd] at h2
          nlinarith [sq_nonneg d]
        simp only [a1, if_false, Bool.false_eq_true]
        have a2' : az |(n : K) / d - ((x0 + c * x1 : ℤ) : K) / ((y0 + c * y1 : ℤ) : K)| = false := by simpa using a2
        rw [if_pos ⟨by rw [a2']; rfl, lt_of_le_of_lt ((le_abs_self _).trans hy2) hmd⟩]
        have hne' : (A : K) / B - c ≠ 0 := by
          rw [hsub]
          exact div_ne_zero (by exact_mod_cast hB') hBK
        have hxx : 1 / ((A : K) / B - c) = (B : K) / ((A - c * B : ℤ) : K) := by rw [hsub, one_div_div]
        have hI' := inv_step hI hc hne'
        rw [hxx] at hI' ⊢
        refine loop_complete rnd hr az E hE md n d hd hmd haz y hy f B (A - c * B) _ _ _ _ ?_ hB' ?_ ?_ hnB hdB hI'
        · push_cast at hf; omega
        · omega
        · have := hco.symm.add_mul_left_right (-c)
          rwa [show A + B * -c = A - c * B by ring] at this

/-- **C129**, completeness: if `x = n/d` in lowest terms is the exact `x`-coordinate of a rational point, `d < 10^maxdd`, and numbers
which count as zero are below `1/d²`, then a point is returned, after at most `d` passages of the loop. -/
theorem C129_complete (rnd : K → ℤ) (hr : ∀ t, |t - rnd t| ≤ 1 / 2) (az : K → Bool) (E : Cv) (hE : E.W.Δ ≠ 0) (n d : ℤ) (hd : 0 < d)
    (hco : IsCoprime n d) (maxdd : ℕ) (hmd : d < 10 ^ maxdd) (h1 : az 1 = false) (haz : ∀ t, az t = true → |t| < 1 / (d : K) ^ 2) (y : ℚ)
    (hy : E.Q.toAffine.Nonsingular (n / d : ℚ) y) (fuel : ℕ) (hf : d < fuel) :
    ∃ P, makePointReal rnd az fuel (Cd.ofAi E) ((n : K) / d) maxdd = some (some P) := by
  unfold makePointReal
  simp only
  rw [if_pos ⟨by simp [h1], by positivity⟩]
  exact loop_complete rnd hr az E hE _ n d hd hmd haz y hy fuel n d 0 1 1 0 (by rwa [abs_of_pos hd]) hd.ne' (abs_of_pos hd).le hco
    (by ring) (by ring) (inv_start _)

/-- the hypotheses for 37a, with `x = 1/4` and the threshold `10⁻¹¹` -/
example : ∃ P, makePointReal (K := ℚ) round (fun t => decide (|t| < 1 / 10 ^ 11)) 5 (Cd.ofAi ⟨0, 0, 1, -1, 0⟩) ((1 : ℤ) / (4 : ℤ)) 2 =
    some (some P) :=
  C129_complete round (fun t => abs_sub_round t) _ ⟨0, 0, 1, -1, 0⟩ (by decide +kernel) 1 4 (by norm_num) isCoprime_one_left 2 (by norm_num)
    (by norm_num) (by
      intro t ht
      rw [decide_eq_true_iff] at ht
      refine ht.trans ?_
      norm_num) (-3 / 8) (by
      rw [Affine.nonsingular_iff, Affine.equation_iff]
      simp only [Cv.Q]
      norm_num) 5 (by norm_num)

end Eclib.Lambda
