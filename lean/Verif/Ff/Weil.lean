import Verif.Ff.Lines

/-!
# `weil_pol`: its divisor and its leading coefficient
-/

set_option linter.unusedSectionVars false

namespace Eclib.Ff

open Pmod (Pq coords)
open Polynomial
open WeierstrassCurve.Affine (CoordinateRing)
open WeierstrassCurve.Affine.CoordinateRing (mk XClass YClass XIdeal YIdeal XYIdeal)

variable {F : Type} [Field F] [DecidableEq F] {E : WeierstrassCurve F}

/-! ## uniqueness of a function with leading coefficient 1 -/

/-- the leading coefficients and orders agree when the functions agree up to a constant -/
theorem Mon.const {m n : ℕ} {z w : E.toAffine.CoordinateRing} {c : F} (hz : Mon m z) (hw : Mon n w)
    (h : z = (C c : F[X]) • w) : c = 1 ∧ m = n := by
  obtain ⟨p, q, rfl, hz⟩ := hz
  obtain ⟨p', q', rfl, hw⟩ := hw
  rw [smul_add, smul_smul, smul_smul] at h
  obtain ⟨rfl, rfl⟩ := basis_inj h
  have one : ∀ {r : F[X]} {k : ℕ}, D (r - X ^ k) k → r.coeff k = 1 := fun {r k} hr => by
    have := hr k le_rfl
    rwa [coeff_sub, coeff_X_pow, if_pos rfl, sub_eq_zero] at this
  rcases hz with ⟨k, rfl, h1, h2⟩ | ⟨k, rfl, h1, h2⟩ <;> rcases hw with ⟨l, rfl, h3, h4⟩ | ⟨l, rfl, h3, h4⟩
  · have e1 := one h1
    have e3 := one h3
    have hkl : k ≤ l := by
      by_contra hlt
      rw [coeff_C_mul, D_of_sub h3 (n := k) (by omega) k le_rfl, mul_zero] at e1
      exact zero_ne_one e1
    have hlk : l ≤ k := by
      by_contra hlt
      have := D_of_sub h1 (n := l) (by omega) l le_rfl
      rw [coeff_C_mul, e3, mul_one] at this
      rw [this, coeff_C_mul, zero_mul] at e1
      exact zero_ne_one e1
    obtain rfl := le_antisymm hkl hlk
    rw [coeff_C_mul, e3, mul_one] at e1
    exact ⟨e1, rfl⟩
  · have e1 := one h1
    have e3 := one h3
    have hk : k < l + 2 := by
      by_contra hlt
      rw [coeff_C_mul, h4 k (by omega), mul_zero] at e1
      exact zero_ne_one e1
    have := h2 l (by omega)
    rw [coeff_C_mul, e3, mul_one] at this
    rw [this, coeff_C_mul, zero_mul] at e1
    exact absurd e1 zero_ne_one
  · have e1 := one h1
    have e3 := one h3
    have hl : k < l - 1 := by
      by_contra hlt
      rw [coeff_C_mul, h4 k (by omega), mul_zero] at e1
      exact zero_ne_one e1
    have := h2 l (by omega)
    rw [coeff_C_mul, e3, mul_one] at this
    rw [this, coeff_C_mul, zero_mul] at e1
    exact absurd e1 zero_ne_one
  · have e1 := one h1
    have e3 := one h3
    have hkl : k ≤ l := by
      by_contra hlt
      rw [coeff_C_mul, D_of_sub h3 (n := k) (by omega) k le_rfl, mul_zero] at e1
      exact zero_ne_one e1
    have hlk : l ≤ k := by
      by_contra hlt
      have := D_of_sub h1 (n := l) (by omega) l le_rfl
      rw [coeff_C_mul, e3, mul_one] at this
      rw [this, coeff_C_mul, zero_mul] at e1
      exact zero_ne_one e1
    obtain rfl := le_antisymm hkl hlk
    rw [coeff_C_mul, e3, mul_one] at e1
    exact ⟨e1, rfl⟩

theorem Mon.ne_zero {m : ℕ} {z : E.toAffine.CoordinateRing} (hz : Mon m z) : z ≠ 0 := by
  rintro rfl
  exact zero_ne_one (hz.const hz (c := 0) (by simp)).1

/-- every function is a constant times one with leading coefficient 1 -/
theorem exists_mon {z : E.toAffine.CoordinateRing} (hz : z ≠ 0) :
    ∃ (c : F) (n : ℕ) (w : E.toAffine.CoordinateRing), Mon n w ∧ z = (C c : F[X]) • w := by
  obtain ⟨p, q, rfl⟩ := CoordinateRing.exists_smul_basis_eq z
  have low : ∀ {r : F[X]} {n : ℕ}, r.natDegree < n → D r n := fun hr i hi => coeff_eq_zero_of_natDegree_lt (by omega)
  have top : ∀ {r : F[X]}, r ≠ 0 → D (C r.leadingCoeff⁻¹ * r - X ^ r.natDegree) r.natDegree := by
    intro r hr i hi
    rw [coeff_sub, coeff_C_mul, coeff_X_pow]
    split_ifs with e
    · rw [e, coeff_natDegree, inv_mul_cancel₀ (leadingCoeff_ne_zero.mpr hr), sub_self]
    · rw [coeff_eq_zero_of_natDegree_lt (by omega), mul_zero, sub_zero]
  have back : ∀ {c : F}, c ≠ 0 → p • (1 : E.toAffine.CoordinateRing) + q • mk E.toAffine Polynomial.X =
      (C c : F[X]) • ((C c⁻¹ * p) • (1 : E.toAffine.CoordinateRing) + (C c⁻¹ * q) • mk E.toAffine Polynomial.X) := by
    intro c hc
    rw [smul_add, smul_smul, smul_smul, ← mul_assoc, ← mul_assoc, ← C_mul, mul_inv_cancel₀ hc, C_1, one_mul, one_mul]
  have lowC : ∀ {r : F[X]} {c : F} {n : ℕ}, D r n → D (C c * r) n := fun hr i hi => by rw [coeff_C_mul, hr i hi, mul_zero]
  by_cases hq : q = 0
  · have hp : p ≠ 0 := by rintro rfl; subst hq; simp at hz
    refine ⟨p.leadingCoeff, _, _, ⟨_, _, rfl, Or.inl ⟨p.natDegree, rfl, top hp, ?_⟩⟩, back (leadingCoeff_ne_zero.mpr hp)⟩
    rw [hq, mul_zero]; exact D_zero _
  · by_cases hd : q.natDegree + 2 ≤ p.natDegree
    · have hp : p ≠ 0 := by rintro rfl; simp at hd
      exact ⟨p.leadingCoeff, _, _, ⟨_, _, rfl, Or.inl ⟨p.natDegree, rfl, top hp, lowC (low (by omega))⟩⟩,
        back (leadingCoeff_ne_zero.mpr hp)⟩
    · exact ⟨q.leadingCoeff, _, _, ⟨_, _, rfl, Or.inr ⟨q.natDegree, rfl, top hq, lowC (low (by omega))⟩⟩,
        back (leadingCoeff_ne_zero.mpr hq)⟩

theorem Mon.of_mul {m n : ℕ} {z w : E.toAffine.CoordinateRing} (hz : Mon m z) (hzw : Mon n (z * w)) :
    ∃ k, n = m + k ∧ Mon k w := by
  obtain ⟨c, k, w', hw, rfl⟩ := exists_mon (right_ne_zero_of_mul hzw.ne_zero)
  have h := hz.mul hw
  obtain ⟨rfl, rfl⟩ := hzw.const h (c := c) (by rw [mul_smul_comm])
  exact ⟨k, rfl, by rwa [C_1, one_smul]⟩

/-- the units of the coordinate ring are constants -/
theorem unit_const {u : E.toAffine.CoordinateRing} (hu : IsUnit u) : ∃ c : F, u = (C c : F[X]) • 1 := by
  obtain ⟨p, q, rfl⟩ := CoordinateRing.exists_smul_basis_eq u
  have h1 := hu.map (Algebra.norm F[X])
  have h2 := degree_eq_zero_of_isUnit h1
  rw [CoordinateRing.degree_norm_smul_basis] at h2
  have hq : q = 0 := by
    by_contra hq
    rw [degree_eq_natDegree hq] at h2
    have h3 : (2 • (q.natDegree : WithBot ℕ) + 3) ≤ 0 := (le_max_right _ _).trans h2.le
    rw [show (2 • (q.natDegree : WithBot ℕ) + 3) = ((2 * q.natDegree + 3 : ℕ) : WithBot ℕ) by push_cast; rw [two_smul, two_mul]] at h3
    have := (WithBot.coe_le_coe (a := 2 * q.natDegree + 3) (b := 0)).mp h3
    omega
  have hp : p.degree ≤ 0 := by
    by_contra hp
    have h3 : 2 • p.degree ≤ 0 := (le_max_left _ _).trans h2.le
    have hp0 : p ≠ 0 := by rintro rfl; simp at hp
    rw [degree_eq_natDegree hp0] at h3 hp
    rw [show (2 • (p.natDegree : WithBot ℕ)) = ((2 * p.natDegree : ℕ) : WithBot ℕ) by push_cast; rw [two_smul, two_mul]] at h3
    have := (WithBot.coe_le_coe (a := 2 * p.natDegree) (b := 0)).mp h3
    have e : p.natDegree = 0 := by omega
    exact hp (by rw [e]; rfl)
  exact ⟨p.coeff 0, by rw [hq, zero_smul, add_zero, ← eq_C_of_degree_le_zero hp]⟩

/-- a function is determined by its divisor and its leading coefficient -/
theorem Mon.unique {m n : ℕ} {z w : E.toAffine.CoordinateRing} (hz : Mon m z) (hw : Mon n w)
    (h : Ideal.span {z} = Ideal.span {w}) : z = w ∧ m = n := by
  obtain ⟨u, hu⟩ := Ideal.span_singleton_eq_span_singleton.mp h
  obtain ⟨c, hc⟩ := unit_const u.isUnit
  rw [hc, mul_smul_comm, mul_one] at hu
  obtain ⟨rfl, rfl⟩ := hw.const hz hu.symm
  exact ⟨by rw [← hu, C_1, one_smul], rfl⟩

/-! ## the leading coefficients of lines -/

/-- the multiplicity of a point in the divisor of poles -/
def ord (A : E.toAffine.Point) : ℕ := if A = 0 then 0 else 1

theorem ord_neg (A : E.toAffine.Point) : ord (-A) = ord A := by simp [ord]

theorem Mon_one : Mon 0 (1 : E.toAffine.CoordinateRing) :=
  ⟨1, 0, by simp, Or.inl ⟨0, rfl, by simpa using D_zero _, D_zero _⟩⟩

theorem Mon_X (x : F) : Mon 2 (toCR E ⟨[-x, 1], []⟩) := by
  refine ⟨_, _, rfl, Or.inl ⟨1, rfl, ?_, by simpa using D_zero _⟩⟩
  simp only [toPoly_cons, toPoly_nil, mul_zero, add_zero, C_1, pow_one, mul_one, add_sub_cancel_right]
  exact D_C _

theorem Mon_line (a b : F) : Mon 3 (toCR E ⟨[a, b], [1]⟩) := by
  refine ⟨_, _, rfl, Or.inr ⟨0, rfl, by simpa using D_zero _, ?_⟩⟩
  simp only [toPoly_cons, toPoly_nil, mul_zero, add_zero]
  exact ((D_C _).mono (by omega)).add (D_X.mul (D_C _) (by omega))

theorem Mon_vertical (A : E.toAffine.Point) : Mon (2 * ord A) (toCR E (vertical (coords A))) := by
  cases A with
  | zero =>
    change Mon (2 * ord (0 : E.toAffine.Point)) (toCR E ⟨[1], []⟩)
    rw [toCR_one, ord, if_pos rfl]
    exact Mon_one
  | some x y h =>
    rw [ord, if_neg (by rintro ⟨⟩)]
    exact Mon_X x

theorem Mon_tangent (A : E.toAffine.Point) : Mon (2 * ord A + ord (A + A)) (toCR E (tangent E (coords A))) := by
  cases A with
  | zero =>
    change Mon (2 * ord (0 : E.toAffine.Point) + ord ((0 : E.toAffine.Point) + 0)) (toCR E ⟨[1], []⟩)
    rw [toCR_one, add_zero, ord, if_pos rfl]
    exact Mon_one
  | some x y h =>
    have hd : y + y + E.a₁ * x + E.a₃ = y - E.toAffine.negY x y := by
      simp only [WeierstrassCurve.Affine.negY]; ring
    change Mon _ (toCR E (tangent E (.pt x y)))
    rw [show ord (WeierstrassCurve.Affine.Point.some x y h) = 1 from if_neg (by rintro ⟨⟩)]
    unfold tangent
    simp only
    by_cases h0 : y + y + E.a₁ * x + E.a₃ = 0
    · rw [if_pos h0]
      rw [hd, sub_eq_zero] at h0
      rw [WeierstrassCurve.Affine.Point.add_self_of_Y_eq (h₁ := h) h0, ord, if_pos rfl]
      exact Mon_X x
    · rw [if_neg h0]
      have hne : y ≠ E.toAffine.negY x y := fun h => h0 (by rw [hd, ← h, sub_self])
      rw [ord, if_neg]
      · exact Mon_line _ _
      · rw [WeierstrassCurve.Affine.Point.add_self_of_Y_ne hne]
        rintro ⟨⟩

theorem Mon_chord (A B : E.toAffine.Point) :
    Mon (ord A + ord B + ord (A + B)) (toCR E (chord E (coords A) (coords B))) := by
  cases A with
  | zero =>
    change Mon (ord (0 : E.toAffine.Point) + ord B + ord ((0 : E.toAffine.Point) + B)) (toCR E (vertical (coords B)))
    rw [zero_add, show ord (0 : E.toAffine.Point) = 0 from if_pos rfl, zero_add, ← two_mul]
    exact Mon_vertical B
  | some x y h =>
    cases B with
    | zero =>
      change Mon (ord (.some x y h) + ord (0 : E.toAffine.Point) + ord (.some x y h + (0 : E.toAffine.Point)))
        (toCR E (vertical (coords (.some x y h))))
      rw [add_zero, show ord (0 : E.toAffine.Point) = 0 from if_pos rfl, add_zero, ← two_mul]
      exact Mon_vertical _
    | some x' y' h' =>
      change Mon _ (toCR E (chord E (.pt x y) (.pt x' y')))
      unfold chord
      simp only
      by_cases hx : x - x' = 0
      · rw [if_pos hx]
        obtain rfl := sub_eq_zero.mp hx
        by_cases hy : y - y' = 0
        · rw [if_pos hy]
          obtain rfl := sub_eq_zero.mp hy
          rw [← two_mul]
          exact Mon_tangent (.some x y h)
        · rw [if_neg hy]
          have hn : y = E.toAffine.negY x y' :=
            (WeierstrassCurve.Affine.Y_eq_of_X_eq h.1 h'.1 rfl).resolve_left (fun e => hy (sub_eq_zero.mpr e))
          rw [WeierstrassCurve.Affine.Point.add_of_Y_eq (h₁ := h) (h₂ := h') rfl hn]
          rw [show ord (WeierstrassCurve.Affine.Point.some x y h) = 1 from if_neg (by rintro ⟨⟩),
            show ord (WeierstrassCurve.Affine.Point.some x y' h') = 1 from if_neg (by rintro ⟨⟩),
            show ord (0 : E.toAffine.Point) = 0 from if_pos rfl]
          exact Mon_X x
      · rw [if_neg hx]
        rw [show ord (WeierstrassCurve.Affine.Point.some x y h) = 1 from if_neg (by rintro ⟨⟩),
            show ord (WeierstrassCurve.Affine.Point.some x' y' h') = 1 from if_neg (by rintro ⟨⟩),
            show ord (WeierstrassCurve.Affine.Point.some x y h + WeierstrassCurve.Affine.Point.some x' y' h') = 1 from if_neg (by
              rw [WeierstrassCurve.Affine.Point.add_of_X_ne (fun hh => hx (sub_eq_zero.mpr hh))]
              rintro ⟨⟩)]
        exact Mon_line _ _

/-! ## the loop -/

theorem divVertical_spec {a : FF F} (A : E.toAffine.Point)
    (h : Ideal.span {toCR E a} ≤ Ideal.span {toCR E (vertical (coords A))}) :
    toCR E a = toCR E (vertical (coords A)) * toCR E (divVertical a (coords A)) := by
  cases A with
  | zero =>
    change toCR E a = toCR E ⟨[1], []⟩ * toCR E a
    rw [toCR_one, one_mul]
  | some x y hxy =>
    change Ideal.span {toCR E a} ≤ Ideal.span {toCR E (vertical (.pt x y))} at h
    change toCR E a = toCR E (vertical (.pt x y)) * toCR E ⟨(synth x a.h1).1, (synth x a.h2).1⟩
    rw [← XClass_toCR, Ideal.span_singleton_le_span_singleton] at h
    obtain ⟨w, hw⟩ := h
    obtain ⟨p, q, rfl⟩ := CoordinateRing.exists_smul_basis_eq w
    have hw' := hw
    rw [XClass_smul, smul_mul_assoc, one_mul, smul_add, smul_smul, smul_smul, toCR] at hw'
    obtain ⟨h1, h2⟩ := basis_inj hw'
    rw [← XClass_toCR, hw, toCR, synth_of_mul h1, synth_of_mul h2]

/-- the invariant of the loop: the divisor of `h` is `k(T) + (-kT) - (k+1)O` -/
def Inv (T : E.toAffine.Point) (k : ℕ) (h : FF F) : Prop :=
  Ideal.span {toCR E h} = I T ^ k * I (-(k • T)) ∧ Mon (k * ord T + ord (k • T)) (toCR E h)

theorem Inv.step {T : E.toAffine.Point} {k : ℕ} {h : FF F} (hI : Inv T k h) :
    Inv T (k + 1) (divVertical (mul E h (chord E (coords T) (coords (k • T)))) (coords (k • T))) := by
  obtain ⟨h1, h2⟩ := hI
  have e : T + k • T = (k + 1) • T := by rw [succ_nsmul, add_comm]
  have hc := chord_ideal T (k • T)
  have hm := Mon_chord T (k • T)
  rw [e] at hc hm
  have hv := I_neg_mul (k • T)
  have hs : Ideal.span {toCR E (mul E h (chord E (coords T) (coords (k • T))))} =
      Ideal.span {toCR E (vertical (coords (k • T)))} * (I T ^ (k + 1) * I (-((k + 1) • T))) := by
    rw [toCR_mul, ← Ideal.span_singleton_mul_span_singleton, h1, hc, ← hv]
    ring
  have hd := divVertical_spec (k • T) (hs.trans_le Ideal.mul_le_left)
  refine ⟨?_, ?_⟩
  · rw [hd, ← Ideal.span_singleton_mul_span_singleton] at hs
    exact (Ideal.span_singleton_mul_right_inj (vertical_ne _)).mp hs
  · have h3 := h2.mul hm
    rw [← toCR_mul, hd] at h3
    obtain ⟨l, hl, hw⟩ := (Mon_vertical (k • T)).of_mul h3
    have : l = (k + 1) * ord T + ord ((k + 1) • T) := by rw [add_mul, one_mul]; omega
    rwa [this] at hw

theorem Inv_one (T : E.toAffine.Point) : Inv T 1 (vertical (coords T)) := by
  refine ⟨?_, ?_⟩
  · rw [← I_neg_mul, pow_one, one_smul]
  · rw [one_mul, one_smul, ← two_mul]; exact Mon_vertical T

theorem Inv_two (T : E.toAffine.Point) : Inv T 2 (tangent E (coords T)) := by
  refine ⟨?_, ?_⟩
  · rw [tangent_ideal, sq, two_smul]
  · rw [two_smul]; exact Mon_tangent T

theorem Inv.loop {T : E.toAffine.Point} (n : ℕ) : ∀ {k : ℕ} {h : FF F}, Inv T k h →
    Inv T (k + n) (weilLoop E (coords T) n h (coords (k • T))) := by
  induction n with
  | zero => intro k h hI; exact hI
  | succ n ih =>
    intro k h hI
    have := ih hI.step
    rw [add_assoc, add_comm 1 n] at this
    rw [weilLoop, ← Pmod.coords_add]
    have e : k • T + T = (k + 1) • T := (succ_nsmul T k).symm
    rwa [e]

/-- `weil_pol` computes the function with divisor `(m-1)(T) + (-(m-1)T) - mO` -/
theorem weilPol_inv (T : E.toAffine.Point) (m : ℕ) (hm : 2 ≤ m) : Inv T (m - 1) (weilPol E (coords T) m) := by
  unfold weilPol
  by_cases h2 : m = 2
  · subst h2
    rw [if_pos (by norm_num)]
    exact Inv_one T
  rw [if_neg (by exact_mod_cast h2)]
  by_cases h3 : m = 3
  · subst h3
    rw [if_pos (by norm_num)]
    exact Inv_two T
  rw [if_neg (by exact_mod_cast h3), show ((m : ℤ) - 1 - 2).toNat = m - 3 by omega]
  have h := Inv.loop (m - 3) (Inv_two T)
  rw [two_smul, Pmod.coords_add, show 2 + (m - 3) = m - 1 by omega] at h
  exact h

end Eclib.Ff
